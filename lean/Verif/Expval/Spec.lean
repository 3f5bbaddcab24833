import Verif.Counts.Spec
import Mathlib.Algebra.BigOperators.Group.Finset.Basic
import Mathlib.Algebra.BigOperators.Ring.Finset
import Mathlib.Algebra.Field.Basic
import Mathlib.Data.Int.Cast.Lemmas
import Mathlib.Data.Nat.Bitwise
/-
Specification side of the expectation value properties, independent of the model.
-/
namespace Verif.Expval
open Verif Verif.Counts

variable {K : Type} [Field K]

/-- Average over all recorded shots of a function of the full outcome string. -/
def mean (c : Dict Str ℤ) (f : Str → K) : K := (c.map fun kv => f kv.1 * (kv.2 : K)).sum / (total c : K)

/-- Share of the shots whose outcome satisfies a condition. -/
def share (K : Type) [Field K] (c : Dict Str ℤ) (P : Str → Prop) [DecidablePred P] : K := mean c fun s => if P s then 1 else 0

/-- The value of classical bit `q` in an outcome (bit 0 is the right-most character). -/
def clbit (s : Str) (q : ℕ) : ℕ := if charAt s q = some '1' then 1 else 0

/-- The number read on the bits `T`, the first listed bit having weight one. -/
def readBits (T : List ℕ) (s : Str) : ℕ := ∑ j ∈ Finset.range T.length, clbit s (T.getD j 0) * 2 ^ j

/-- Number of bits of `T` read as one. -/
def onesOn (T : List ℕ) (s : Str) : ℕ := ∑ j ∈ Finset.range T.length, clbit s (T.getD j 0)

/-- Position of qubit `q` among the qubits `qs` in increasing order. -/
def rank (qs : List ℕ) (q : ℕ) : ℕ := (qs.filter (· < q)).length

/-- The number read when bit `T[j]` is the result of qubit `qs[j]` and the qubits are put in increasing
order, the smallest having weight one. -/
def readQubits (T qs : List ℕ) (s : Str) : ℕ :=
  ∑ j ∈ Finset.range T.length, clbit s (T.getD j 0) * 2 ^ rank qs (qs.getD j 0)

/-- `T` lists in increasing order the bits selected by the optional argument `clbits` of an `n`-bit outcome. -/
def Selects (n : ℕ) (clbits : Option (List ℕ)) (T : List ℕ) : Prop :=
  T.Pairwise (· < ·) ∧ (∀ q ∈ T, q < n) ∧ T ≠ [] ∧
    match clbits with
    | none => T = List.range n
    | some S => S.Perm T

instance (n : ℕ) (clbits : Option (List ℕ)) (T : List ℕ) : Decidable (Selects n clbits T) := by
  unfold Selects
  cases clbits <;> exact inferInstance

/-- A diagonal observable on `w` bits: an explicit list of `2^w` values, or by default the product of Pauli Z. -/
def observable (diagonal : Option (List K)) (T : List ℕ) (s : Str) : K :=
  match diagonal with
  | none => (-1) ^ onesOn T s
  | some d => d.getD (readBits T s) 0

/-- `B` is the inverse of the `dim × dim` matrix `A` (from the left). -/
def IsInv (dim : ℕ) (B A : ℕ → ℕ → K) : Prop :=
  ∀ i < dim, ∀ j < dim, ∑ k ∈ Finset.range dim, B i k * A k j = if i = j then 1 else 0

/-- A correct matrix inversion routine. -/
def InvCorrect (inv : ℕ → (ℕ → ℕ → K) → (ℕ → ℕ → K)) : Prop :=
  ∀ dim A, (∃ B, IsInv dim B A) → IsInv dim (inv dim A) A

/-- Diagonal value for the outcome number `x`: explicit, or by default `(-1)^(number of ones)`. -/
def diagVal (n : ℕ) (diagonal : Option (List K)) (x : ℕ) : K :=
  match diagonal with
  | none => (-1) ^ ∑ t ∈ Finset.range n, (x.testBit t).toNat
  | some d => d.getD x 0

/-- Readout noise of the qubits `T` alone inside an `N`-qubit noise matrix `A`, the other qubits being prepared
in 0 and their outcomes ignored: probability of reading `y` on `T` when `x` was prepared there. -/
def subNoise (A : ℕ → ℕ → K) (N : ℕ) (T : List ℕ) (y x : ℕ) : K :=
  ∑ z ∈ Finset.range (2 ^ N), if (∀ j < T.length, z.testBit (T.getD j 0) = y.testBit j) then
    A z (∑ j ∈ Finset.range T.length, (x.testBit j).toNat * 2 ^ T.getD j 0) else 0

/-- Probability of reading `y` when `x` was prepared, each bit `j` passing through its own 2×2 matrix. -/
def prodNoise (as : List (ℕ → ℕ → K)) (y x : ℕ) : K :=
  ∏ j ∈ Finset.range as.length, as.getD j (fun _ _ => 0) (y.testBit j).toNat (x.testBit j).toNat

end Verif.Expval
