import Verif.Tomo.PropsGstDef
import Mathlib.Analysis.SpecialFunctions.Exp
/-
Specification of gate set tomography from finitely many shots.
-/
namespace Verif.Tomo
open Verif Verif.Counts Matrix
variable {ι : Type}

/-- The results of running each of `M` circuits `N` times: `true` for outcome 1, `false` for outcome 0. -/
abbrev GstRuns (M N : ℕ) := Fin M → Fin N → Bool

/-- The probability of these results, when the runs are independent and circuit `i` gives outcome 0 with probability `p i`. -/
noncomputable def gstRunsProb {M N : ℕ} (p : Fin M → ℝ) (ω : GstRuns M N) : ℝ := ∏ i, ∏ t, if ω i t then 1 - p i else p i

/-- The number of runs of circuit `i` with outcome 0. -/
def gstZeros {M N : ℕ} (ω : GstRuns M N) (i : Fin M) : ℕ := (Finset.univ.filter fun t => ω i t = false).card

/-- The data are the counts of these runs: under the name of circuit `i` there are `N` counts, and those of `'0'` are the runs with outcome 0. -/
structure GstMeasured {N : ℕ} (cs : List (Circ ι)) (ω : GstRuns cs.length N) (data : Dict Key Counts) : Prop where
  total : ∀ kv ∈ data, (Dict.values kv.2).sum ≠ 0
  tally : ∀ i : Fin cs.length, ∃ k counts, literalEval (cs.get i).name = some k ∧ data.get? k = some counts ∧
    counts.getD "0".toList 0 = (gstZeros ω i : ℤ) ∧ (Dict.values counts).sum = (N : ℤ)

/-- The rows of a matrix sum, in absolute value, to at most `g`. -/
def RowsAtMost {n : ℕ} (g : ℝ) (A : Matrix (Fin n) (Fin n) ℝ) : Prop := ∀ i, ∑ j, |A i j| ≤ g

/-- The matrix of the probabilities of the pairs of SPAM circuits. -/
noncomputable def trueGram {d : ℕ} (D : Device d) (spec : Str → List Str) (spam : List Str) : Matrix (Fin spam.length) (Fin spam.length) ℝ :=
  Matrix.of fun i j => D.run (spec spam[j] ++ spec spam[i])

/-- The accuracy reached when every measured probability is within `ε`: `g ε (1 + n g) / (1 - g n ε)`, for `n` SPAM circuits and an inverse Gram matrix
with rows of at most `g`. -/
noncomputable def gstError (n : ℕ) (g ε : ℝ) : ℝ := g / (1 - g * (n * ε)) * (ε * (1 + n * g))

/-- Two devices have almost the same measurement, state and gates. -/
structure NearDevice {n : ℕ} (gates : List Str) (D' D : Device n) (e r : ℝ) : Prop where
  meas : ∀ i, |D'.E i - D.E i| ≤ e
  prep : ∀ i, |D'.rho i - D.rho i| ≤ r
  gate : ∀ g ∈ gates, RowsAtMost (n * r) (D'.gate g - D.gate g)

/-- The gate set found from the data is accurate: in some gauge `B` it is within `gstError` of the device, and it predicts the probability of every sequence
of `m` gates within `(1 + ε) (n (g + gstError))^(m+1) - (n g)^(m+1)`. -/
def GstAccurate (b : GateSet ι) (q : ι) (P : OpDevice ι b.spamLabels.length) (g ε : ℝ) (data : Dict Key Counts) : Prop :=
  ∃ probs res D' B, gstProbs data = some probs ∧ linearInversion b.spamLabels b.gateLabels probs = some res ∧ Describes res b.gateLabels D' ∧ IsUnit B.det ∧
    NearDevice b.gateLabels D' ⟨(P.named b q).E ᵥ* B, B⁻¹ *ᵥ (P.named b q).rho, fun g => B⁻¹ * (P.named b q).gate g * B⟩ ε (gstError b.spamLabels.length g ε) ∧
    ∀ w, (∀ x ∈ w, x ∈ b.gateLabels) → |D'.run w - P.prob (seqOps b q w)| ≤
      (1 + ε) * (b.spamLabels.length * (g + gstError b.spamLabels.length g ε)) ^ (w.length + 1) - (b.spamLabels.length * g) ^ (w.length + 1)

end Verif.Tomo
