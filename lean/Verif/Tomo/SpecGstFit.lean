import Verif.Tomo.GstFit
import Mathlib.LinearAlgebra.Matrix.PosDef
import Mathlib.Analysis.Complex.Basic
/-
Specification for C123: what the gate set returned by `GatesetTomographyFitter.fit` means, and what is assumed of the numerical routines.
-/
namespace Verif.Tomo
open Verif Verif.Counts Matrix
open scoped ComplexOrder

/-- The normalised Pauli matrices. -/
noncomputable def npauli (k : Fin 4) : Matrix (Fin 2) (Fin 2) ℂ :=
  ((√(1/2) : ℝ) : ℂ) • (![1, !![0, 1; 1, 0], !![0, -Complex.I; Complex.I, 0], !![1, 0; 0, -1]] k)

/-- The map on 2×2 matrices with the Pauli transfer matrix `G`. -/
noncomputable def applyPtm (G : Matrix (Fin 4) (Fin 4) ℂ) (A : Matrix (Fin 2) (Fin 2) ℂ) : Matrix (Fin 2) (Fin 2) ℂ :=
  ∑ a, ∑ b, (G a b * (npauli b * A).trace) • npauli a

/-- Its Choi matrix: block `(i, j)` is the image of `|i⟩⟨j|`. -/
noncomputable def choiMat (G : Matrix (Fin 4) (Fin 4) ℂ) : Matrix (Fin 2 × Fin 2) (Fin 2 × Fin 2) ℂ :=
  Matrix.of fun x y => applyPtm G (Matrix.single x.1 y.1 1) x.2 y.2

/-- A quantum channel: completely positive and trace preserving. -/
structure IsPtmChannel (G : Matrix (Fin 4) (Fin 4) ℂ) : Prop where
  cp : (choiMat G).PosSemidef
  tp : ∀ A, (applyPtm G A).trace = A.trace

/-- A gate set as users read it: an effect, a state and the transfer matrix of every gate. -/
structure Reported where
  E : Matrix (Fin 2) (Fin 2) ℂ
  rho : Matrix (Fin 2) (Fin 2) ℂ
  gate : Str → Matrix (Fin 4) (Fin 4) ℂ

/-- The probability of outcome 0 after the gates `w`. -/
noncomputable def Reported.prob (R : Reported) (w : List Str) : ℝ :=
  (R.E * w.foldl (fun A g => applyPtm (R.gate g) A) R.rho).trace.re

/-- The dictionary returned by `fit` describes this gate set and has no other entry. -/
structure Reads (res : Dict Str FitVal) (gates : List Str) (R : Reported) : Prop where
  meas : res.get? "E".toList = some (.op R.E)
  prep : res.get? "rho".toList = some (.op R.rho)
  gate : ∀ g ∈ gates, res.get? g = some (.ptm (R.gate g))
  only : ∀ k, res.has k = true → k = "E".toList ∨ k = "rho".toList ∨ k ∈ gates

/-- The matrices that the optimiser can represent (see the findings of C89): the four Pauli coefficients, written as a 2×2 matrix, are
positive semidefinite. -/
def Representable (A : Matrix (Fin 2) (Fin 2) ℂ) : Prop :=
  (!![(npauli 0 * A).trace, (npauli 1 * A).trace; (npauli 2 * A).trace, (npauli 3 * A).trace]).PosSemidef

/-- A gate set of channels with a state of trace one that the optimiser can represent. -/
structure Candidate (R : Reported) (gates : List Str) : Prop where
  channel : ∀ g ∈ gates, IsPtmChannel (R.gate g)
  trace : R.rho.trace = 1
  meas : Representable R.E
  prep : Representable R.rho

/-- The constraints hold at `x`. -/
def Feasible (cs : List Constraint) (x : List ℝ) : Prop :=
  ∀ c ∈ cs, ∃ vals, c.fn x = some vals ∧ ∀ v ∈ vals, if c.eq then v = 0 else 0 ≤ v

/-- The constrained optimiser returns only points that meet the constraints. -/
def Respects (o : Numerics) : Prop := ∀ f x₀ cs x, o.slsqp f x₀ cs = some x → Feasible cs x

/-- The constrained optimiser never ends worse than an admissible start. -/
def NoWorse (o : Numerics) : Prop :=
  ∀ f x₀ cs x v₀, o.slsqp f x₀ cs = some x → Feasible cs x₀ → f x₀ = some v₀ → ∃ v, f x = some v ∧ v ≤ v₀

/-- The constrained optimiser finds a global optimum. -/
def FindsBest (o : Numerics) : Prop :=
  ∀ f x₀ cs x x' v', o.slsqp f x₀ cs = some x → Feasible cs x' → f x' = some v' → ∃ v, f x = some v ∧ v ≤ v'

/-- The constrained optimiser keeps an admissible start at which a nonnegative objective is zero. -/
def Stays (o : Numerics) : Prop :=
  ∀ f x₀ cs, Feasible cs x₀ → f x₀ = some 0 → (∀ x v, f x = some v → 0 ≤ v) → o.slsqp f x₀ cs = some x₀

/-- The gauge optimiser finds a zero of a nonnegative objective that has one. -/
def FindsZero (o : Numerics) : Prop :=
  ∀ {n : ℕ} (f : Matrix (Fin n) (Fin n) ℝ → Option ℝ) (B₀ : Matrix (Fin n) (Fin n) ℝ), (∃ B, f B = some 0) →
    (∀ B v, f B = some v → 0 ≤ v) → ∃ B, o.gauge f B₀ = some B ∧ f B = some 0

end Verif.Tomo
