import Verif.Char.Model
import Mathlib.Analysis.SpecialFunctions.Trigonometric.Basic
import Mathlib.Analysis.SpecialFunctions.Pow.Real
/-
Model of the real-valued parts of `qiskit/ignis/characterization`: error bars, fit functions, quantities read off a fit.
Numbers are exact reals.
-/
namespace Verif.Char
open Verif

/-- The error bar of a data point, fitters.py:281-286: `sqrt(p (1 - p) / shots)`, and `1e-4` where that is zero. -/
noncomputable def pointStd (p : ℚ × ℤ) : ℝ :=
  let s := Real.sqrt ((p.1 : ℝ) * (1 - p.1) / (p.2 : ℝ))
  if s = 0 then 1 / 10000 else s

/-- `_exp_fit_fun`, fitters.py:333-339. -/
noncomputable def expFit (x a tau c : ℝ) : ℝ := a * Real.exp (-x / tau) + c

/-- `_osc_fit_fun`, fitters.py:341-347. -/
noncomputable def oscFit (x a tau f phi c : ℝ) : ℝ := a * Real.exp (-x / tau) * Real.cos (2 * Real.pi * f * x + phi) + c

/-- `_osc_nodecay_fit_fun`, fitters.py:349-355. -/
noncomputable def oscNodecayFit (x a f phi c : ℝ) : ℝ := a * Real.cos (2 * Real.pi * f * x + phi) + c

/-- `_cal_fit_fun`, fitters.py:357-363. -/
noncomputable def calFit (x a thetaerr phierr theta0 phi0 c : ℝ) : ℝ := a * Real.cos ((theta0 + thetaerr) * x + phi0 + phierr) + c

/-- `_quadratic`, fitters.py:365-371. -/
noncomputable def quadratic (x a x0 c : ℝ) : ℝ := a * (x - x0) ^ 2 + c

/-- `_amp_cal_fit` of `AmpCalFitter`, gates/fitters.py:45-49. -/
noncomputable def ampCalFit (x thetaerr c : ℝ) : ℝ := calFit x (-1 / 2) thetaerr thetaerr (Real.pi / 2) (Real.pi / 2) c

/-- `_angle_cal_fit` of `AngleCalFitter`, gates/fitters.py:112-116. -/
noncomputable def angleCalFit (x thetaerr c : ℝ) : ℝ := calFit x (-1 / 2) thetaerr thetaerr (Real.pi / 2) (Real.pi / 2) c

/-- `_amp_calcx_fit` of `AmpCalCXFitter`, gates/fitters.py:164-168. -/
noncomputable def ampCalCxFit (x thetaerr c : ℝ) : ℝ := calFit x (-1 / 2) thetaerr 0 Real.pi (Real.pi / 2) c

/-- `_angle_calcx_fit` of `AngleCalCXFitter`, gates/fitters.py:214-218. -/
noncomputable def angleCalCxFit (x thetaerr c : ℝ) : ℝ := calFit x (-1 / 2) thetaerr 0 Real.pi (Real.pi / 2) c

/-- `angle_err` of the four gate fitters, gates/fitters.py:69-83, 118-132, 170-184, 220-234, from the fitted `thetaerr`. -/
noncomputable def angleErr (thetaerr : ℝ) : ℝ := thetaerr / 2

/-- `ZZ_rate`, hamiltonian/fitters.py:55-70, from the fitted frequencies of the two series. -/
noncomputable def zzRate (freq0 freq1 : ℝ) : ℝ := freq1 - freq0

/-- `pi_amplitude`, calibrations/fitters.py:91-109, from the fitted frequency. -/
noncomputable def piAmplitude (freq : ℝ) : ℝ := 1 / freq / 2

/-- `pi2_amplitude`, calibrations/fitters.py:78-89. -/
noncomputable def pi2Amplitude (freq : ℝ) : ℝ := piAmplitude freq / 2

end Verif.Char
