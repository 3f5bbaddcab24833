import Verif.RB.SpecPurityShots
/-
Specification side of C128: benchmarking data from finitely many random sequences and shots.
-/
namespace Verif.RB
open Verif Verif.Counts Verif.Expval

variable {O S E : Type} [Fintype O] [Fintype S] {N nlen : ℕ}

/-- How the circuits of one seed come about: `s` is drawn with the distribution `q`; for every length number `k` the sequence `gs k s` consists of `lens k`
elements drawn independently and uniformly from `els` (the sequences of different lengths may depend on each other: in the code shorter ones are the
beginnings of longer ones); a shot of the circuit with this sequence gives the outcome `o` with probability `w k s o`, and zeros on the bits
`lo, …, lo+len-1` with probability `F (gs k s)`.  `out o` is the string that is read for the outcome `o`. -/
structure Session (els : Finset E) (q : S → ℝ) (lens : Fin nlen → ℕ) (gs : Fin nlen → S → List E) (w : Fin nlen → S → O → ℝ) (out : O → Str) (lo len : ℕ)
    (F : List E → ℝ) : Prop where
  draws : IsDistr q
  uniform : ∀ k (H : List E → ℝ), ∑ s, q s * H (gs k s) = expect els (lens k) H
  distr : ∀ k s, IsDistr (w k s)
  reads : ∀ k s, ∑ o, (if zeroOn lo len (out o) then w k s o else 0) = F (gs k s)

/-- Probability of the draw of one seed and of the outcomes of `N` independent shots of each of its circuits. -/
noncomputable def seedProb (q : S → ℝ) (w : Fin nlen → S → O → ℝ) (x : S × (Fin nlen → Fin N → O)) : ℝ := q x.1 * ∏ k, shotsProb (w k x.1) (x.2 k)

/-- Probability of what happens in an experiment with independent seeds. -/
noncomputable def sessionProb {K : ℕ} (q : S → ℝ) (w : Fin nlen → S → O → ℝ) (ω : Fin K → S × (Fin nlen → Fin N → O)) : ℝ := ∏ j, seedProb q w (ω j)

open Classical in
/-- The numbers `mean` (one per length) computed from the data of `K` seeds are on average the numbers `truth`; their variance is at most `1/(4K)`; the numbers
`var` are on average `K - 1` times this variance; and it is unlikely that one of the means is `ε` or more off. -/
structure RBAccurate {K : ℕ} (q : S → ℝ) (w : Fin nlen → S → O → ℝ) (truth : Fin nlen → ℝ)
    (mean var : (Fin K → S × (Fin nlen → Fin N → O)) → Fin nlen → ℚ) : Prop where
  unbiased : ∀ k, ∑ ω, sessionProb q w ω * (mean ω k : ℝ) = truth k
  scatter : ∀ k, ∑ ω, sessionProb q w ω * ((mean ω k : ℝ) - truth k) ^ 2 ≤ 1 / (4 * K)
  reported : ∀ k, ∑ ω, sessionProb q w ω * (var ω k : ℝ) = (K - 1) * ∑ ω, sessionProb q w ω * ((mean ω k : ℝ) - truth k) ^ 2
  far : ∀ ε > 0, (∑ ω, if ∃ k, ε ≤ |(mean ω k : ℝ) - truth k| then sessionProb q w ω else 0) ≤ nlen * (2 * Real.exp (-(2 * K * ε ^ 2)))

end Verif.RB
