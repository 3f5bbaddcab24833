import Verif.MeasMit.SpecShots
import Verif.MeasMit.Objects
/-
Specification side of C135: calibration and correction of counts from end to end.
-/
namespace Verif.MeasMit
open Verif Verif.Expval

/-- The results of the calibration circuits, in any number of jobs: one experiment per circuit, under its name; in shot `k` of circuit `x` the label number
`κ x k` was read. -/
structure Ran {K : ℕ} (circs : List Circ) (labels : List Str) (κ : Fin labels.length → Fin K → Fin labels.length) (results : List Result) : Prop where
  names : results.flatten.map (·.1) = circs.map Circ.name
  wf : ∀ e ∈ results.flatten, Dict.WF e.2
  keys : ∀ e ∈ results.flatten, ∀ q ∈ e.2, q.1 ∈ labels
  tally : ∀ (x : Fin labels.length) e, results.flatten[(x : ℕ)]? = some e → ∀ y, val e.2 (labels.get y) = ((Finset.univ.filter fun k => κ x k = y).card : ℚ)

/-- Readout noise: `R s t` is the probability of reading `s` when `t` would be read without noise. -/
def IsReadout (labels : List Str) (R : Str → Str → ℝ) : Prop := ∀ t ∈ labels, (∀ s ∈ labels, 0 ≤ R s t) ∧ (labels.map fun s => R s t).sum = 1

/-- `X` is the inverse of `R`. -/
def Inverts (labels : List Str) (X R : Str → Str → ℝ) : Prop := ∀ s ∈ labels, ∀ u ∈ labels, (labels.map fun t => X s t * R t u).sum = if s = u then 1 else 0

/-- Probability of the readings `κ` of the calibration circuits. -/
noncomputable def readingsProb {K : ℕ} (labels : List Str) (R : Str → Str → ℝ) (κ : Fin labels.length → Fin K → Fin labels.length) : ℝ :=
  ∏ x, ∏ k, R (labels.get (κ x k)) (labels.get x)

/-- The matrix that the numerical routines get. -/
def realMat (m : Mat ℚ) : Mat ℝ := fun i j => (m i j : ℝ)

end Verif.MeasMit
