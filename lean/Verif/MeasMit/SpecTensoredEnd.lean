import Verif.MeasMit.SpecEnd
/-
Specification side of C141: tensored calibration and correction of counts from end to end.
-/
namespace Verif.MeasMit
open Verif Verif.Expval

/-- The results of the calibration circuits, in any number of jobs: one experiment per circuit, under its name; `κ (c, k)` is the number of the string (in the
list of all strings of `n` bits) that was read in shot `k` of circuit number `c`. -/
structure CircuitsRan {K n : ℕ} (circs : List Circ) (κ : Fin circs.length × Fin K → Fin (bitStrings n).length) (results : List Result) : Prop where
  names : results.flatten.map (·.1) = circs.map Circ.name
  wf : ∀ e ∈ results.flatten, Dict.WF e.2
  keys : ∀ e ∈ results.flatten, ∀ q ∈ e.2, q.1 ∈ bitStrings n
  tally : ∀ (c : Fin circs.length) e, results.flatten[(c : ℕ)]? = some e → ∀ y, val e.2 ((bitStrings n).get y) = ((Finset.univ.filter fun k => κ (c, k) = y).card : ℚ)

/-- Probability of the readings `κ`: the circuit prepares the string that it would read without noise, and `R s t` is the probability of reading `s` then. -/
noncomputable def circuitsProb {K n : ℕ} (circs : List Circ) (R : Str → Str → ℝ) (κ : Fin circs.length × Fin K → Fin (bitStrings n).length) : ℝ :=
  ∏ i, R ((bitStrings n).get (κ i)) (readout (circs.get i.1))

/-- The groups of a pattern with one matrix each, on the strings in increasing order. -/
def patternGroups (pattern : List (List ℕ)) (mats : List (Mat ℝ)) : List (List Str × ℕ × Mat ℝ) :=
  (pattern.zip mats).map fun p => (bitStrings p.1.length, p.1.length, p.2)

/-- `M` is readout noise on `k` bits that can be undone: the inverse has absolute column sums of at most `γ`. -/
def GroupNoise (k : ℕ) (M : Mat ℝ) (γ : ℝ) : Prop :=
  IsReadout (bitStrings k) (entry (bitStrings k) M) ∧ ∃ X, Inverts (bitStrings k) X (entry (bitStrings k) M) ∧ ColBound (bitStrings k) X γ

/-- The inverses of the matrices of the groups; `pinv d` inverts matrices of size `d`. -/
def pinvs (pinv : ℕ → Mat ℝ → Mat ℝ) (pattern : List (List ℕ)) (As : List (Mat ℝ)) : List (Mat ℝ) := List.zipWith (fun g a => pinv (2 ^ g.length) a) pattern As

end Verif.MeasMit
