import Verif.MeasMit.SpecLsq
import Verif.Expval.SpecShots
/-
Specification side of C126: corrected counts from finitely many shots.
-/
namespace Verif.MeasMit
open Verif Verif.Expval

variable {O : Type} [Fintype O] {N : ℕ}

/-- `raw` are the counts of the shots `ω`: for every string the number of shots in which it was read; `out o` is the string that is read for the outcome
`o` of the device. -/
structure Tally (states : List Str) (out : O → Str) (ω : Fin N → O) (raw : Dict Str ℝ) : Prop where
  wf : raw.WF
  keys : ∀ q ∈ raw, q.1 ∈ states
  tally : ∀ s, val raw s = ((Finset.univ.filter fun k => out (ω k) = s).card : ℝ)

/-- A device that would read the string `t` with probability `p t` without readout noise; the noise turns it into `s` with probability `R s t`.  The
calibration `A` differs from `R` by at most `η` in every column (sum of the absolute differences). -/
structure NoisyDevice (w : O → ℝ) (out : O → Str) (states : List Str) (R A : Str → Str → ℝ) (p : Str → ℝ) (η : ℝ) : Prop where
  reads : ∀ o, out o ∈ states
  nonneg : ∀ t ∈ states, 0 ≤ p t
  total : (states.map p).sum = 1
  device : ∀ s ∈ states, (∑ o, if out o = s then w o else 0) = noisyCounts states R p s
  calibrated : ∀ t ∈ states, (states.map fun s => |R s t - A s t|).sum ≤ η

/-- Sum of the absolute differences of two lists of frequencies. -/
noncomputable def off (states : List Str) (u v : Str → ℝ) : ℝ := (states.map fun s => |u s - v s|).sum

/-- The frequency of a string in corrected counts of `N` shots. -/
noncomputable def freq (N : ℕ) (cor : Dict Str ℝ) (s : Str) : ℝ := val cor s / N

/-- The columns of `X` have absolute sums of at most `g`. -/
def ColBound (states : List Str) (X : Str → Str → ℝ) (g : ℝ) : Prop := ∀ t ∈ states, (states.map fun s => |X s t|).sum ≤ g

open Classical in
/-- The corrected counts `cor ω` of the shots `ω` estimate the noiseless probabilities `p`: the number of shots is kept; the mean frequencies differ from
`p` by at most `g η`; the frequencies are far from `p` with small probability; and so are the averages of any observable. -/
structure FilterAccurate (states : List Str) (w : O → ℝ) (p : Str → ℝ) (g η : ℝ) (cor : (Fin N → O) → Dict Str ℝ) : Prop where
  total : ∀ ω, (states.map (val (cor ω))).sum = N
  bias : off states (fun s => ∑ ω, shotsProb w ω * freq N (cor ω) s) p ≤ g * η
  distance : ∀ ε > 0, (∑ ω, if g * (η + ε) ≤ off states (freq N (cor ω)) p then shotsProb w ω else 0) ≤ states.length / (N * ε ^ 2)
  observable : ∀ d : Str → ℝ, (∀ s ∈ states, |d s| ≤ 1) → ∀ ε > 0,
    (∑ ω, if g * η + ε ≤ |(states.map fun s => d s * freq N (cor ω) s).sum - (states.map fun s => d s * p s).sum| then shotsProb w ω else 0) ≤
      2 * Real.exp (-(N * ε ^ 2 / (2 * g ^ 2)))

open Classical in
/-- The same for the least-squares method, which keeps the counts non-negative: its mean frequencies may be biased (`C115_finding_biased`). -/
structure LsqAccurate (states : List Str) (w : O → ℝ) (p : Str → ℝ) (g η : ℝ) (cor : (Fin N → O) → Dict Str ℝ) : Prop where
  physical : ∀ ω, Physical states N (val (cor ω))
  distance : ∀ ε > 0, (∑ ω, if g * √states.length * (η + ε) ≤ off states (freq N (cor ω)) p then shotsProb w ω else 0) ≤ 1 / (N * ε ^ 2)

/-- A matrix of transition probabilities on the labels of a group. -/
def IsTransition (labels : List Str) (M : Mat ℝ) : Prop :=
  (∀ s ∈ labels, ∀ t ∈ labels, 0 ≤ entry labels M s t) ∧ ∀ t ∈ labels, (labels.map fun s => entry labels M s t).sum = 1

/-- In the calibration results group `g` was prepared in each of its labels in `K` shots, and shot `k` of label number `x` was read as label number
`κ x k`. -/
structure CalTally {K : ℕ} (circlabel : Str) (sizes : List ℕ) (g : ℕ) (labels : List Str) (results : List Result)
    (κ : Fin labels.length → Fin K → Fin labels.length) : Prop where
  prepared : ∀ x, total (shots circlabel results) (fun s => part sizes g s.prepared = labels.get x) = K
  both : ∀ x y, total (shots circlabel results) (fun s => part sizes g s.prepared = labels.get x ∧ part sizes g s.measured = labels.get y) =
    (Finset.univ.filter fun k => κ x k = y).card

/-- The real matrix of a group. -/
def groupMat (mats : List (Mat ℚ)) (g : ℕ) : Mat ℝ := fun i j => ((mats.getD g fun _ _ => 0) i j : ℝ)

end Verif.MeasMit
