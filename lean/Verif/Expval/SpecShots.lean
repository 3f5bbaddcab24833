import Verif.Expval.Spec
import Verif.Counts.Weighted
import Mathlib.Analysis.SpecialFunctions.Exp
/-
Specification side of C121: expectation values estimated from finitely many shots.
-/
namespace Verif.Expval
open Verif Verif.Counts

variable {O : Type} [Fintype O] {N : ℕ}

/-- A probability distribution on the outcomes of a device. -/
def IsDistr (w : O → ℝ) : Prop := (∀ o, 0 ≤ w o) ∧ ∑ o, w o = 1

/-- Probability of the outcomes `ω` of `N` independent shots. -/
noncomputable def shotsProb (w : O → ℝ) (ω : Fin N → O) : ℝ := ∏ k, w (ω k)

/-- `c` is a counts dictionary of the shots `ω`: keys of `n` bits, and for every string the number of shots in which it was read; `out o` is the string
that is read for the outcome `o`. -/
structure Records (n : ℕ) (out : O → Str) (ω : Fin N → O) (c : Dict Str ℤ) : Prop where
  reg : OneReg n c
  tally : ∀ s, c.getD s 0 = ((Finset.univ.filter fun k => out (ω k) = s).card : ℤ)

/-- The device reads the number `read o` for the outcome `o`.  Without readout noise number `x` would come out with probability `p x`; the noise turns it
into `y` with probability `M y x`.  The calibrated noise `S` differs from it by at most `η` in every column (sum of the absolute differences). -/
structure NoisyReadout (w : O → ℝ) (read : O → ℕ) (dim : ℕ) (M S : ℕ → ℕ → ℝ) (p : ℕ → ℝ) (η : ℝ) : Prop where
  nonneg : ∀ x < dim, 0 ≤ p x
  total : ∑ x ∈ Finset.range dim, p x = 1
  device : ∀ y < dim, ∑ o, (if read o = y then w o else 0) = ∑ x ∈ Finset.range dim, M y x * p x
  calibrated : ∀ x < dim, ∑ y ∈ Finset.range dim, |M y x - S y x| ≤ η

open Classical in
/-- The estimate `est` (a value and a variance for every possible outcome of the shots) of the number `truth`, for a calibration error `η` amplified by `g`:
its average differs from `truth` by at most `g η`; its variance is at most `g² / N`; the reported variance is on average `1 - 1/N` times the actual one; and
an error of `g η + ε` or more is unlikely. -/
structure Accurate (w : O → ℝ) (est : (Fin N → O) → ℝ × ℝ) (truth g η : ℝ) : Prop where
  bias : |∑ ω, shotsProb w ω * (est ω).1 - truth| ≤ g * η
  scatter : ∑ ω, shotsProb w ω * ((est ω).1 - ∑ ω', shotsProb w ω' * (est ω').1) ^ 2 ≤ g ^ 2 / N
  reported : ∑ ω, shotsProb w ω * (est ω).2 = (1 - 1 / N) * ∑ ω, shotsProb w ω * ((est ω).1 - ∑ ω', shotsProb w ω' * (est ω').1) ^ 2
  chebyshev : ∀ ε > 0, (∑ ω, if g * η + ε ≤ |(est ω).1 - truth| then shotsProb w ω else 0) ≤ g ^ 2 / (N * ε ^ 2)
  hoeffding : ∀ ε > 0, (∑ ω, if g * η + ε ≤ |(est ω).1 - truth| then shotsProb w ω else 0) ≤ 2 * Real.exp (-(N * ε ^ 2 / (2 * g ^ 2)))

/-! Calibration -/

/-- A readout noise matrix: column `x` is the distribution of the number read when `x` was prepared. -/
def IsNoise (dim : ℕ) (R : ℕ → ℕ → ℝ) : Prop := ∀ x < dim, (∀ y < dim, 0 ≤ R y x) ∧ ∑ y ∈ Finset.range dim, R y x = 1

/-- Probability of the calibration outcomes `κ`: in shot `k` of the circuit that prepares `x` the number `κ x k` was read. -/
noncomputable def calProb {dim K : ℕ} (R : ℕ → ℕ → ℝ) (κ : Fin dim → Fin K → Fin dim) : ℝ := ∏ x, ∏ k, R (κ x k) x

/-- `c` is the counts dictionary (with the outcomes as numbers) of the shots `u`. -/
structure RecordsInt {dim K : ℕ} (u : Fin K → Fin dim) (c : Dict ℕ ℤ) : Prop where
  wf : Dict.WF c
  range : ∀ kv ∈ c, kv.1 < dim
  tally : ∀ y, c.getD y 0 = ((Finset.univ.filter fun k => (u k : ℕ) = y).card : ℤ)

end Verif.Expval
