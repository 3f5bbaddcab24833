import Verif.Tomo.Fit
import Verif.Quantum.Gates
import Verif.Quantum.Born
import Batteries.Data.Nat.Lemmas
/-
What tomography circuits and matrices mean: textbook quantum mechanics, separate from the model.
-/
set_option linter.unusedSectionVars false
namespace Verif.Tomo
open Verif Verif.Quantum

variable {ι : Type} [DecidableEq ι] [Fintype ι]

/-- The matrix of Qiskit's `U3Gate(θ, φ, λ)`. -/
noncomputable def u3 (θ φ lam : ℝ) : Mat2 ℂ := fun r c =>
  match r, c with
  | false, false => Real.cos (θ / 2)
  | false, true => -Complex.exp (Complex.I * lam) * Real.sin (θ / 2)
  | true, false => Complex.exp (Complex.I * φ) * Real.sin (θ / 2)
  | true, true => Complex.exp (Complex.I * (φ + lam)) * Real.cos (θ / 2)

/-- `theta` of sicbasis.py:47. -/
noncomputable def sicTheta : ℝ := -2 * Real.arctan (√2)

/-- The matrices of the gates; the arguments of the three `U3Gate`s are those of sicbasis.py:48-53. -/
noncomputable def gateMat : G1 → Mat2 ℂ
  | .h => mH
  | .x => mX
  | .s => mS
  | .sdg => mSdg
  | .sic1 => u3 sicTheta Real.pi 0
  | .sic2 => u3 sicTheta (Real.pi / 3) 0
  | .sic3 => u3 sicTheta (-Real.pi / 3) 0

/-- One instruction on a state vector, when the classical bits end up with the values `rec`: a measurement keeps the
component in which the qubit has the recorded value (the result is not normalised).  `user` is the meaning of the
instructions of the given circuit. -/
noncomputable def stepRec (user : ℕ → State ι ℂ → State ι ℂ) (rec : Clbit → Bool) (ψ : State ι ℂ) : Op ι → State ι ℂ
  | .gate g q => app1 (gateMat g) q ψ
  | .measure q c => fun x => if x q = rec c then ψ x else 0
  | .barrier => ψ
  | .user k => user k ψ

/-- A list of instructions. -/
noncomputable def runRec (user : ℕ → State ι ℂ → State ι ℂ) (rec : Clbit → Bool) (ops : List (Op ι)) (ψ : State ι ℂ) : State ι ℂ :=
  ops.foldl (stepRec user rec) ψ

/-- The record of outcome number `k`: classical bit `j` of the tomography register is bit `j` of `k`. -/
def recordOf (k : ℕ) : Clbit → Bool
  | .tomo j => k.testBit j
  | .own _ => false

/-- Born rule: the probability that the classical bits read `rec`. -/
noncomputable def recProb (user : ℕ → State ι ℂ → State ι ℂ) (rec : Clbit → Bool) (ops : List (Op ι)) (ψ : State ι ℂ) : ℝ :=
  ∑ x, prob (runRec user rec ops ψ) x

/-- The density matrix of the qubits `qs` in the pure state `ψ`; bit `j` of an index is qubit `qs[j]`. -/
noncomputable def reduced (qs : List ι) (ψ : State ι ℂ) (b a : ℕ) : ℂ :=
  ∑ x, ∑ y, if AgreeOff qs x y ∧ (∀ j : Fin qs.length, x qs[j] = b.testBit j) ∧ (∀ j : Fin qs.length, y qs[j] = a.testBit j)
    then ψ x * (starRingEnd ℂ) (ψ y) else 0

/-- Tr[M ρ] for `d × d` matrices. -/
noncomputable def traceMul (d : ℕ) (M ρ : ℕ → ℕ → ℂ) : ℂ := ∑ a ∈ Finset.range d, ∑ b ∈ Finset.range d, M a b * ρ b a

/-- The projector onto |o⟩. -/
def projMat (o : Bool) : Mat2 ℂ := fun r c => if r = o ∧ c = o then 1 else 0

/-- One-qubit projectors of the Pauli operators: `(1 ± P)/2`. -/
noncomputable def pauliProjector (label : Str) (o : Bool) : Mat2 ℂ := fun r c =>
  let sign : ℂ := if o then -1 else 1
  let p : ℂ := if label = "X".toList then (if r = c then 0 else 1)
    else if label = "Y".toList then (if r = c then 0 else if r then Complex.I else -Complex.I)
    else (if r = c then (if r then -1 else 1) else 0)
  ((if r = c then 1 else 0) + sign * p) / 2

end Verif.Tomo
