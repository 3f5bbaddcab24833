import Verif.Expval.SpecShots
import Verif.Expval.Ctmp
import Mathlib.MeasureTheory.Integral.IntervalIntegral.Basic
import Mathlib.Topology.Algebra.InfiniteSum.Basic
/-
Specification side of C125: averages over the draws of a random number generator.
-/
namespace Verif.Expval.Ctmp
open Verif Verif.Counts Verif.Expval

/-- Average over `k` independent numbers uniform in [0, 1]. -/
noncomputable def unifMean : ℕ → (List ℝ → ℝ) → ℝ
  | 0, f => f []
  | k + 1, f => ∫ r in (0 : ℝ)..1, unifMean k fun rs => f (r :: rs)

/-- Average over `n` independent numbers below `dim`, `x` having probability `p x`. -/
noncomputable def pickMean (dim : ℕ) (p : ℕ → ℝ) : ℕ → (List ℕ → ℝ) → ℝ
  | 0, f => f []
  | n + 1, f => ∑ x ∈ Finset.range dim, p x * pickMean dim p n fun xs => f (x :: xs)

/-- The Poisson law with mean `γ`. -/
noncomputable def pois (γ : ℝ) (a : ℕ) : ℝ := Real.exp (-γ) * γ ^ a / a.factorial

/-- Average over `n` independent Poisson numbers with mean `γ`. -/
noncomputable def poisMean (γ : ℝ) : ℕ → (List ℕ → ℝ) → ℝ
  | 0, f => f []
  | n + 1, f => ∑' a : ℕ, pois γ a * poisMean γ n fun as => f (a :: as)

/-- Average over the draws of one batch of `n` samples, in the order of the code: `n` Poisson numbers, `n` starting points, and as many uniform
numbers as the Poisson numbers add up to. -/
noncomputable def drawMean (γ : ℝ) (dim : ℕ) (p : ℕ → ℝ) (n : ℕ) (f : Draws ℝ → ℝ) : ℝ :=
  poisMean γ n fun as => pickMean dim p n fun xs => unifMean as.sum fun rs => f ⟨as, xs, rs⟩

/-- Average over the draws of several batches. -/
noncomputable def rngMean (γ : ℝ) (dim : ℕ) (p : ℕ → ℝ) : List ℕ → (List (Draws ℝ) → ℝ) → ℝ
  | [], f => f []
  | b :: bs, f => drawMean γ dim p b fun d => rngMean γ dim p bs fun ds => f (d :: ds)

/-- `draws` is a possible answer of the generator: for each batch as many Poisson numbers and starting points as samples, and uniform numbers for all
steps. -/
def Possible (dim : ℕ) (sizes : List ℕ) (draws : List (Draws ℝ)) : Prop :=
  List.Forall₂ (fun b d => d.alphas.length = b ∧ d.xs.length = b ∧ (∀ x ∈ d.xs, x < dim) ∧ d.rs.length = d.alphas.sum) sizes draws

/-- `γ` is the largest rate at which the noise process with the generator `G` leaves a state. -/
def IsMaxRate (dim : ℕ) (G : ℕ → ℕ → ℝ) (γ : ℝ) : Prop := 0 ≤ γ ∧ (∀ j < dim, -G j j ≤ γ) ∧ (γ = 0 ∨ ∃ j < dim, γ = -G j j)

variable {O : Type} [Fintype O] {N : ℕ}

open Classical in
/-- An estimate of `truth` that uses random numbers besides the `N` shots.  `E ω F` is the average of `F` (estimate) over the random numbers if the shots
have the outcomes `ω`.  For a calibration error `η` amplified by `g`. -/
structure AccurateRandomised (w : O → ℝ) (E : (Fin N → O) → (ℝ → ℝ) → ℝ) (truth g η : ℝ) : Prop where
  total : ∑ ω, shotsProb w ω * E ω (fun _ => 1) = 1
  bias : |∑ ω, shotsProb w ω * E ω (fun e => e) - truth| ≤ g * η
  scatter : ∑ ω, shotsProb w ω * E ω (fun e => (e - ∑ ω', shotsProb w ω' * E ω' fun e => e) ^ 2) ≤ (g ^ 2 + g) / N
  chebyshev : ∀ ε > 0, ∑ ω, shotsProb w ω * E ω (fun e => if g * η + ε ≤ |e - truth| then 1 else 0) ≤ (g ^ 2 + g) / (N * ε ^ 2)
  hoeffding : ∀ ε > 0, ∑ ω, shotsProb w ω * E ω (fun e => if g * η + ε ≤ |e - truth| then 1 else 0) ≤ 4 * Real.exp (-(N * ε ^ 2 / (8 * g ^ 2)))

end Verif.Expval.Ctmp
