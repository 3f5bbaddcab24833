import Verif.Quantum.Basic
import Mathlib.Analysis.SpecialFunctions.Pow.Real
import Mathlib.Data.Complex.BigOperators
import Mathlib.Tactic.LinearCombination
/-
The named gates over ℂ and facts about them.
-/
set_option linter.unusedSectionVars false
set_option linter.unusedSimpArgs false
set_option linter.unusedVariables false

namespace Verif.Quantum
open Complex

variable {ι : Type} [DecidableEq ι]

/-- `1/√2`. -/
noncomputable def rt : ℂ := ((1 / Real.sqrt 2 : ℝ) : ℂ)

theorem rt_sq : rt * rt = 1 / 2 := by
  unfold rt
  rw [← Complex.ofReal_mul]
  have : (1 / Real.sqrt 2) * (1 / Real.sqrt 2) = (1 / 2 : ℝ) := by
    rw [div_mul_div_comm, Real.mul_self_sqrt (by norm_num)]; norm_num
  rw [this]; norm_num

/-- Hadamard. -/
noncomputable def mH : Mat2 ℂ := fun r c => if r && c then -rt else rt

/-- Phase gate S. -/
noncomputable def mS : Mat2 ℂ := fun r c => if r = c then (if r then I else 1) else 0

/-- Inverse of S. -/
noncomputable def mSdg : Mat2 ℂ := fun r c => if r = c then (if r then -I else 1) else 0

theorem mH_mH : mmul mH mH = mI := by
  funext r c
  have h := rt_sq
  cases r <;> cases c <;> simp [mmul, mH, mI] <;> linear_combination 2 * h

theorem mSdg_mS : mmul mSdg mS = mI := by
  funext r c
  cases r <;> cases c <;> simp [mmul, mS, mSdg, mI]

theorem mS_mSdg : mmul mS mSdg = mI := by
  funext r c
  cases r <;> cases c <;> simp [mmul, mS, mSdg, mI]

theorem appCX_appCX (c t c' t' : ι) (h1 : c ≠ c') (h2 : c ≠ t') (h3 : t ≠ c') (h4 : t ≠ t')
    (ψ : State ι ℂ) : appCX c t (appCX c' t' ψ) = appCX c' t' (appCX c t ψ) := by
  funext x
  simp only [appCX, Function.update_of_ne h1, Function.update_of_ne h2, Function.update_of_ne h3,
    Function.update_of_ne h4, Function.update_of_ne h1.symm, Function.update_of_ne h2.symm,
    Function.update_of_ne h3.symm, Function.update_of_ne h4.symm, Function.update_comm h4]

theorem appCX_appCZ (c t a b : ι) (h3 : t ≠ a) (h4 : t ≠ b)
    (ψ : State ι ℂ) : appCX c t (appCZ a b ψ) = appCZ a b (appCX c t ψ) := by
  funext x
  simp only [appCX, appCZ, Function.update_of_ne h3.symm, Function.update_of_ne h4.symm]

theorem appCZ_appCZ (c t a b : ι) (ψ : State ι ℂ) : appCZ c t (appCZ a b ψ) = appCZ a b (appCZ c t ψ) := by
  funext x
  simp only [appCZ]
  split <;> split <;> rfl

/-- `H` on the target turns CZ into CX. -/
theorem h_cz_h (a b : ι) (hab : a ≠ b) (ψ : State ι ℂ) :
    app1 mH b (appCZ a b (app1 mH b ψ)) = appCX a b ψ := by
  funext x
  have h := rt_sq
  simp only [app1, appCZ, appCX, Function.update_self, Function.update_idem, Function.update_of_ne hab]
  have e : ∀ v, x b = v → Function.update x b v = x := fun v hv => by rw [← hv, Function.update_eq_self]
  cases ha : x a <;> cases hb : x b
  all_goals simp only [mH, Bool.and_true, Bool.and_false, Bool.xor_false, Bool.xor_true, Bool.not_false, Bool.not_true,
    if_true, Bool.false_eq_true, if_false]
  · linear_combination (2 * ψ (Function.update x b false)) * h
  · linear_combination (2 * ψ (Function.update x b true)) * h
  · linear_combination (2 * ψ (Function.update x b true)) * h
  · linear_combination (2 * ψ (Function.update x b false)) * h

theorem appCZ_comm (a b : ι) (ψ : State ι ℂ) : appCZ a b ψ = appCZ b a ψ := by
  funext x; simp only [appCZ, Bool.and_comm]

/-- `S` commutes with CZ. -/
theorem s_cz (a b : ι) (ψ : State ι ℂ) : appCZ a b (app1 mS b ψ) = app1 mS b (appCZ a b ψ) := by
  funext x
  have e : ∀ v, x b = v → Function.update x b v = x := fun v hv => by rw [← hv, Function.update_eq_self]
  simp only [app1, appCZ, mS]
  cases hb : x b <;> simp [e _ hb, hb]

/-- `S` on the control commutes with CX. -/
theorem s_cx (a b : ι) (hab : a ≠ b) (ψ : State ι ℂ) : appCX a b (app1 mS a ψ) = app1 mS a (appCX a b ψ) := by
  rw [← h_cz_h a b hab, app1_comm mH mS b a hab.symm, appCZ_comm, s_cz, app1_comm mH mS b a hab.symm,
    appCZ_comm, h_cz_h a b hab]

theorem h_h (q : ι) (ψ : State ι ℂ) : app1 mH q (app1 mH q ψ) = ψ := by
  rw [app1_mul, mH_mH, app1_one]

theorem sdg_s (q : ι) (ψ : State ι ℂ) : app1 mSdg q (app1 mS q ψ) = ψ := by
  rw [app1_mul, mSdg_mS, app1_one]

end Verif.Quantum
