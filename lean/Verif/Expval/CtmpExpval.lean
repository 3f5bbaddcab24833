import Verif.Expval.Ctmp
import Mathlib.Analysis.SpecialFunctions.Exp
import Mathlib.Analysis.SpecialFunctions.Sqrt
/-
Model of `CTMPExpvalMeasMitigator.expectation_value`, ctmp_mitigator.py:79-164, as a whole, over the real numbers.  What the random number
generator is asked for is one part of the model (`ctmpCall`), what is made of its answer another (`ctmpResult`).
-/
namespace Verif.Expval.Ctmp
open Verif Verif.Counts Verif.Expval

/-- The local variables of `expectation_value` before the sampling loop. -/
structure CtmpCall where
  /-- number of outcomes, `len(probs)` -/
  dim : ℕ
  /-- parameter of the Poisson numbers -/
  gamma : ℝ
  /-- probabilities of the starting points -/
  probs : ℕ → ℝ
  csc : Csc ℝ
  diag : ℕ → ℝ
  shots : ℤ
  numSamples : ℕ

/-- ctmp_mitigator.py:131-136: `int(ceil(max(4 / 0.05**2, shots) * exp(2 * gamma)))`. -/
noncomputable def ctmpSamples (shots : ℤ) (gamma : ℝ) : ℕ := ⌈max 1600 (shots : ℝ) * Real.exp (2 * gamma)⌉₊

/-- ctmp_mitigator.py:110-143.  (A diagonal of the wrong length is rejected here; the code indexes into it.  The caches of the matrices are not
modelled.) -/
noncomputable def ctmpCall (gens : List (Gen × ℝ)) (numQubits : ℕ) (counts : Counts) (diagonal : Option (List ℝ)) (qubits clbits : Option (List ℕ)) :
    Option CtmpCall := do
  let qs := qubits.getD (List.range numQubits)
  let (n, probs, _) ← countsProbabilityVector (K := ℝ) counts (some qs) clbits (some qs.length)
  let d ← diagOr n diagonal
  let g ← generatorMatrix gens qs
  let gamma := noiseStrength (2 ^ n) g
  let shots := shotsOf counts
  pure ⟨2 ^ n, gamma, probs, toCsc (2 ^ n) (samplingMatrix (2 ^ n) g), d, shots, ctmpSamples shots gamma⟩

/-- ctmp_mitigator.py:144-164: the value and the standard deviation, from the draws of all batches. -/
noncomputable def ctmpResult (s : CtmpCall) (draws : List (Draws ℝ)) : Option (ℝ × ℝ) :=
  (ctmpEstimate s.csc s.diag (Real.exp (2 * s.gamma)) s.numSamples draws).map fun e => (e, Real.exp (2 * s.gamma) / √(s.shots : ℝ))

end Verif.Expval.Ctmp
