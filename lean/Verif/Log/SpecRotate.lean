import Verif.Log.Rotate
/-
Words for what is expected of the log files on disk.
-/
namespace Verif.Log
open Verif
variable {L T : Type}

/-- The lines written, with the times of writing: every completed call has written its line, and a call during which the process was killed may have. -/
def Wrote : List (DiskOp L T) → List (L × T) → Prop
  | [], W => W = []
  | .log _ l t :: ops, W => ∃ W', Wrote ops W' ∧ W = (l, t) :: W'
  | .crash _ l t _ :: ops, W => ∃ W', Wrote ops W' ∧ (W = W' ∨ W = (l, t) :: W')
  | .restart :: ops, W => Wrote ops W

/-- The times of the calls. -/
def DiskOp.time : DiskOp L T → Option T
  | .log _ _ t => some t
  | .crash _ _ t _ => some t
  | .restart => none

/-- Time passes from each call to the next. -/
def Ticking [LT T] (ops : List (DiskOp L T)) : Prop := (ops.filterMap DiskOp.time).Pairwise (· < ·)

/-- Only logger `a` is used. -/
def OnlyLogger (a : ℕ) (ops : List (DiskOp L T)) : Prop :=
  ∀ op ∈ ops, match op with
    | .log b _ _ => b = a
    | .crash b _ _ _ => b = a
    | .restart => True

/-- No process was killed. -/
def NoCrash (ops : List (DiskOp L T)) : Prop :=
  ∀ op ∈ ops, match op with
    | .crash _ _ _ _ => False
    | _ => True

/-- The files before the first call: distinct names are distinct files, no file looks like a log file, and nothing is open. -/
structure FreshDisk (c : RotConf L) (d : Disk L T) : Prop where
  inj : ∀ m n i, d.dir m = some i → d.dir n = some i → m = n
  bound : ∀ n i, d.dir n = some i → i < d.store.length
  names : ∀ n, isLogName c.path n = true → d.dir n = none
  closed : ∀ a, d.stream a = none

/-- The names of all files, each once, in any order. -/
def Listing (d : Disk L T) (listing : List Str) : Prop := listing.Nodup ∧ ∀ n, n ∈ listing ↔ (d.dir n).isSome

end Verif.Log
