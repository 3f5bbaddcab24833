import Verif.RB.Fit
/-
Model of qiskit/ignis/verification/randomized_benchmarking/fitters.py: the error bars of `CNOTDihedralRBFitter` and `PurityRBFitter` that
`Verif.RB.Fit` leaves out.
-/
namespace Verif.RB.Fit

/-- fitters.py:1343-1353 (`CNOTDihedralRBFitter.fit_data`, one pattern): `alpha_err` and `epg_est_err`. -/
noncomputable def dihedralErr (n : ℕ) (alphaZ alphaR alphaZErr alphaRErr : ℝ) : ℝ × ℝ :=
  let nrb : ℝ := 2 ^ n
  let alpha := (alphaZ + nrb * alphaR) / (nrb + 1)
  let sqZ := (alphaZErr / alphaZ / (nrb + 1)) ^ 2
  let sqR := (nrb * alphaRErr / alphaR / (nrb + 1)) ^ 2
  let alpha_err := Real.sqrt (sqZ + sqR)
  (alpha_err, (nrb - 1) / nrb * alpha_err / alpha)

/-- fitters.py:1100-1102 (`PurityRBFitter.fit_data`, one pattern): `pepc_err`. -/
noncomputable def purityErr (n : ℕ) (alpha alphaErr : ℝ) : ℝ :=
  let nrb : ℝ := 2 ^ n
  (nrb - 1) / nrb * (purity n alpha alphaErr).2.1 / (purity n alpha alphaErr).1

end Verif.RB.Fit
