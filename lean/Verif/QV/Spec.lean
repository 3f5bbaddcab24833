import Verif.QV.Model
import Verif.Counts.Spec
/-
Specification for quantum volume, independent of the fitter.
-/
namespace Verif.QV
open Verif Verif.Counts

/-- `m` is the median of the numbers in `l`: put in increasing order, `m` is the mean of the two middle ones (which
are the same one when their number is odd). -/
def IsMedian (l : List ℝ) (m : ℝ) : Prop :=
  ∃ s : List ℝ, s.Perm l ∧ s.Pairwise (· ≤ ·) ∧ 2 * m = s.getD ((s.length - 1) / 2) 0 + s.getD (s.length / 2) 0

/-- A user's calls on a fitter object. -/
inductive Call where
  | statevectors (new : Option (List IdealRes))
  | data (new : Option (List Res)) (rerun : Bool)

/-- The object after a sequence of calls, `none` if one of them raised. -/
noncomputable def run (st : St) : List Call → Option St
  | [] => some st
  | .statevectors new :: cs => (addStatevectors st new).bind fun st => run st cs
  | .data new rerun :: cs => (addData st new rerun).bind fun st => run st cs

/-- All measured results handed over by a sequence of calls. -/
def added (cs : List Call) : List Res :=
  cs.flatMap fun c => match c with
    | .data (some l) _ => l
    | _ => []

/-- All ideal results handed over by a sequence of calls. -/
def addedIdeal (cs : List Call) : List IdealRes :=
  cs.flatMap fun c => match c with
    | .statevectors (some l) => l
    | _ => []

/-- Shots of the circuit `name` in all the results. -/
def shotsIn (rs : List Res) (name : Str) : ℤ :=
  (rs.map fun r => match r.get? name with
    | some c => total c
    | none => 0).sum

/-- Shots of the circuit `name` in all the results that gave one of the outcomes in `heavy`. -/
def heavyIn (rs : List Res) (heavy : List Str) (name : Str) : ℤ :=
  (rs.map fun r => match r.get? name with
    | some c => ((c.filter fun kv => kv.1 ∈ heavy).map (·.2)).sum
    | none => 0).sum

/-- A proper result: in every counts dictionary the outcomes are distinct and no count is negative. -/
def GoodRes (r : Res) : Prop := ∀ e ∈ r, Dict.WF e.2 ∧ ∀ kv ∈ e.2, 0 ≤ kv.2

end Verif.QV
