import Verif.RepCode.Model
/-
Specification of processed strings, independent of how they are computed.
-/
namespace Verif.RepCode
open Verif

/-- Number of non-trivial nodes of a processed string when logical value `b` was encoded: boundary
characters that differ from `b`, plus `1`s among the syndrome changes (the part after the double
blank). -/
def defects (b : Bool) (s : Str) : Nat :=
  match splitDouble s with
  | [] => 0
  | bnd :: rest =>
    ((bnd.filter (· ≠ ' ')).filter (· ≠ bitChar b)).length +
      ((rest.flatten).filter (· = '1')).length

/-- The processed string of an error-free run: boundary `b b`, then `T+1` blocks of `d-1` zeros. -/
def cleanString (d T : Nat) (b : Bool) : Str :=
  [bitChar b, ' ', bitChar b, ' ', ' '] ++
    joinSep [' '] (List.replicate (T + 1) (List.replicate (d - 1) '0'))

/-- The qubits of the code. -/
def Qb.Valid (d : Nat) : Qb → Prop
  | .link j => j < d - 1
  | .code k => k < d

instance (d : Nat) (q : Qb) : Decidable (q.Valid d) := by
  cases q <;> simp only [Qb.Valid] <;> infer_instance

/-- Sum of the counts of the entries satisfying `p`. -/
def countsWhere (p : Str → Bool) (l : Dict Str Nat) : Nat := ((l.filter fun kv => p kv.1).map (·.2)).sum

/-- A processed string whose syndrome part (everything after the first double blank) is trivial. -/
def trivialSyndrome (s : Str) : Bool :=
  (joinSep [' ', ' '] ((splitDouble s).drop 1)).all fun c => c = '0' || c = ' '

end Verif.RepCode
