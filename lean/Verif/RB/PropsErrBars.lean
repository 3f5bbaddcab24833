import Verif.RB.FitErr
import Mathlib.Analysis.Calculus.Deriv.Add
import Mathlib.Analysis.Calculus.Deriv.Inv
import Mathlib.Analysis.Calculus.Deriv.Mul
import Mathlib.Analysis.SpecialFunctions.Sqrt
import Mathlib.Tactic.FieldSimp
import Mathlib.Tactic.Positivity
import Mathlib.Tactic.Linarith
set_option linter.unusedSimpArgs false
set_option linter.unusedVariables false
/-
C110: the error bars of the RB fitters.
-/
namespace Verif.RB.Fit

/-! ### Specification -/

/-- `v` is the error of `f x` propagated to first order from the error `e` of `x`. -/
def Propagated (f : ℝ → ℝ) (x e v : ℝ) : Prop := ∃ d, HasDerivAt f d x ∧ v = |d| * e

/-- `v` is the error of `f x y` propagated to first order from independent errors `ex` of `x` and `ey` of `y`. -/
def Propagated₂ (f : ℝ → ℝ → ℝ) (x y ex ey v : ℝ) : Prop :=
  ∃ dx dy, HasDerivAt (fun t => f t y) dx x ∧ HasDerivAt (fun t => f x t) dy y ∧ v = Real.sqrt ((dx * ex) ^ 2 + (dy * ey) ^ 2)

theorem hd_congr {f : ℝ → ℝ} {d d' x : ℝ} (h : HasDerivAt f d x) (e : d = d') : HasDerivAt f d' x := e ▸ h

theorem nrb_one (n : ℕ) : (1 : ℝ) ≤ 2 ^ n := one_le_pow₀ (by norm_num)

/-- The factor `(2^n-1)/2^n`. -/
theorem fac_nonneg (n : ℕ) : (0 : ℝ) ≤ (2 ^ n - 1) / 2 ^ n := div_nonneg (by linarith [nrb_one n]) (by positivity)

/-- C110: the error bar of the interleaved estimate is the first order propagation of the errors of the two decays. -/
theorem C110_interleaved (n : ℕ) (a c ea ec : ℝ) (ha : 0 < a) (hc : 0 < c) :
    Propagated₂ (fun a c => (interleaved n a c ea ec).epcEst) a c ea ec (interleaved n a c ea ec).epcEstErr := by
  have hn : (0 : ℝ) < 2 ^ n := by positivity
  refine ⟨(2 ^ n - 1) / 2 ^ n * (c / a ^ 2), -((2 ^ n - 1) / 2 ^ n * (1 / a)), ?_, ?_, ?_⟩
  · unfold interleaved
    dsimp only
    have h1 : HasDerivAt (fun t : ℝ => c / t) (-(c / a ^ 2)) a := by
      have := (hasDerivAt_inv ha.ne').const_mul c
      simp only [div_eq_mul_inv]
      exact hd_congr this (by field_simp)
    have h2 := (((h1.const_sub 1).const_mul ((2 : ℝ) ^ n - 1)).div_const ((2 : ℝ) ^ n))
    exact hd_congr h2 (by ring)
  · unfold interleaved
    dsimp only
    have h1 : HasDerivAt (fun t : ℝ => t / a) (1 / a) c := (hasDerivAt_id c).div_const a
    have h2 := (((h1.const_sub 1).const_mul ((2 : ℝ) ^ n - 1)).div_const ((2 : ℝ) ^ n))
    exact hd_congr h2 (by ring)
  · unfold interleaved
    dsimp only
    have hk : (0 : ℝ) ≤ (2 ^ n - 1) / 2 ^ n * (c / a) := mul_nonneg (fac_nonneg n) (by positivity)
    rw [← Real.sqrt_sq hk, ← Real.sqrt_mul (sq_nonneg _)]
    congr 1
    field_simp

/-- C110: the error bar of the error per Clifford is the propagated error of the decay divided by the decay, so it is never too small for
decays in (0,1], and right exactly for decay one (or no error at all). -/
theorem C110_epc (n : ℕ) (hn : 0 < n) (a e v : ℝ) (h0 : 0 < a) (h1 : a ≤ 1) (he : 0 ≤ e) (hv : Propagated (epc n) a e v) :
    epcErr n a e = v / a ∧ v ≤ epcErr n a e ∧ (epcErr n a e = v ↔ a = 1 ∨ e = 0) := by
  obtain ⟨d, hd, rfl⟩ := hv
  have hd' : HasDerivAt (epc n) (-((2 ^ n - 1) / 2 ^ n)) a := by
    unfold epc
    have := ((hasDerivAt_id a).const_sub 1).const_mul (((2 : ℝ) ^ n - 1) / 2 ^ n)
    exact hd_congr this (by ring)
  obtain rfl := hd.unique hd'
  have hk : (0 : ℝ) < (2 ^ n - 1) / 2 ^ n := by
    have : (2 : ℝ) ≤ 2 ^ n := by
      calc (2 : ℝ) = 2 ^ 1 := by norm_num
        _ ≤ 2 ^ n := pow_le_pow_right₀ (by norm_num) hn
    exact div_pos (by linarith) (by positivity)
  rw [abs_neg, abs_of_pos hk]
  have e1 : epcErr n a e = (2 ^ n - 1) / 2 ^ n * e / a := rfl
  have hnn : 0 ≤ (2 ^ n - 1) / 2 ^ n * e := mul_nonneg hk.le he
  refine ⟨e1, ?_, ?_⟩
  · rw [e1, le_div_iff₀ h0]
    nlinarith
  · rw [e1, div_eq_iff h0.ne']
    constructor
    · intro h
      rcases he.eq_or_lt with rfl | hpos
      · exact Or.inr rfl
      · have : 0 < (2 ^ n - 1) / 2 ^ n * e := mul_pos hk hpos
        exact Or.inl (by nlinarith)
    · rintro (rfl | rfl) <;> simp

/-- C110: the error bars of the CNOT-dihedral decay and of its error rate are never below the propagated ones, for decays in (0,1]. -/
theorem C110_dihedral (n : ℕ) (z r ez er v w : ℝ) (hz0 : 0 < z) (hz1 : z ≤ 1) (hr0 : 0 < r) (hr1 : r ≤ 1)
    (hv : Propagated₂ (fun z r => (dihedral n z r).1) z r ez er v) (hw : Propagated₂ (fun z r => (dihedral n z r).2) z r ez er w) :
    v ≤ (dihedralErr n z r ez er).1 ∧ w ≤ (dihedralErr n z r ez er).2 ∧
      (z = 1 → r = 1 → (dihedralErr n z r ez er).1 = v ∧ (dihedralErr n z r ez er).2 = w) := by
  have hn : (0 : ℝ) < 2 ^ n := by positivity
  obtain ⟨dz, dr, h1, h2, rfl⟩ := hv
  obtain ⟨dz', dr', h1', h2', rfl⟩ := hw
  have g1 : HasDerivAt (fun t => (dihedral n t r).1) (1 / (2 ^ n + 1)) z := by
    unfold dihedral
    exact ((hasDerivAt_id z).add_const _).div_const _
  have g2 : HasDerivAt (fun t => (dihedral n z t).1) (2 ^ n / (2 ^ n + 1)) r := by
    unfold dihedral
    have := (((hasDerivAt_id r).const_mul ((2 : ℝ) ^ n)).const_add z).div_const ((2 : ℝ) ^ n + 1)
    exact hd_congr this (by ring)
  have g1' : HasDerivAt (fun t => (dihedral n t r).2) (-((2 ^ n - 1) / 2 ^ n * (1 / (2 ^ n + 1)))) z := by
    have := ((g1.const_sub 1).const_mul ((2 : ℝ) ^ n - 1)).div_const ((2 : ℝ) ^ n)
    exact hd_congr this (by ring)
  have g2' : HasDerivAt (fun t => (dihedral n z t).2) (-((2 ^ n - 1) / 2 ^ n * (2 ^ n / (2 ^ n + 1)))) r := by
    have := ((g2.const_sub 1).const_mul ((2 : ℝ) ^ n - 1)).div_const ((2 : ℝ) ^ n)
    exact hd_congr this (by ring)
  obtain rfl := h1.unique g1
  obtain rfl := h2.unique g2
  obtain rfl := h1'.unique g1'
  obtain rfl := h2'.unique g2'
  set A := Real.sqrt ((1 / (2 ^ n + 1) * ez) ^ 2 + (2 ^ n / (2 ^ n + 1) * er) ^ 2) with hA
  have hw : Real.sqrt ((-((2 ^ n - 1) / 2 ^ n * (1 / (2 ^ n + 1))) * ez) ^ 2 + (-((2 ^ n - 1) / 2 ^ n * (2 ^ n / (2 ^ n + 1))) * er) ^ 2) = (2 ^ n - 1) / 2 ^ n * A := by
    have : ((-((2 ^ n - 1) / 2 ^ n * (1 / (2 ^ n + 1))) * ez) ^ 2 + (-((2 ^ n - 1) / 2 ^ n * (2 ^ n / (2 ^ n + 1))) * er) ^ 2 : ℝ) =
        ((2 ^ n - 1) / 2 ^ n) ^ 2 * ((1 / (2 ^ n + 1) * ez) ^ 2 + (2 ^ n / (2 ^ n + 1) * er) ^ 2) := by ring
    rw [this, Real.sqrt_mul (sq_nonneg _), Real.sqrt_sq (fac_nonneg n)]
  rw [hw]
  have hle : A ≤ (dihedralErr n z r ez er).1 := by
    unfold dihedralErr
    dsimp only
    apply Real.sqrt_le_sqrt
    have t1 : (1 / (2 ^ n + 1) * ez) ^ 2 ≤ (ez / z / (2 ^ n + 1)) ^ 2 := by
      have : (ez / z / (2 ^ n + 1)) ^ 2 = (1 / (2 ^ n + 1) * ez) ^ 2 / z ^ 2 := by field_simp
      rw [this, le_div_iff₀ (by positivity)]
      exact mul_le_of_le_one_right (sq_nonneg _) (by nlinarith)
    have t2 : (2 ^ n / (2 ^ n + 1) * er) ^ 2 ≤ (2 ^ n * er / r / (2 ^ n + 1)) ^ 2 := by
      have : (2 ^ n * er / r / (2 ^ n + 1)) ^ 2 = (2 ^ n / (2 ^ n + 1) * er) ^ 2 / r ^ 2 := by field_simp
      rw [this, le_div_iff₀ (by positivity)]
      exact mul_le_of_le_one_right (sq_nonneg _) (by nlinarith)
    exact add_le_add t1 t2
  have halpha0 : 0 < (z + 2 ^ n * r) / (2 ^ n + 1) := by positivity
  have halpha1 : (z + 2 ^ n * r) / (2 ^ n + 1) ≤ 1 := by
    rw [div_le_one (by positivity)]
    nlinarith
  have hB : 0 ≤ (2 ^ n - 1) / 2 ^ n * (dihedralErr n z r ez er).1 := mul_nonneg (fac_nonneg n) (Real.sqrt_nonneg _)
  have e2 : (dihedralErr n z r ez er).2 = (2 ^ n - 1) / 2 ^ n * (dihedralErr n z r ez er).1 / ((z + 2 ^ n * r) / (2 ^ n + 1)) := rfl
  refine ⟨hle, ?_, ?_⟩
  · rw [e2, le_div_iff₀ halpha0]
    have hs := mul_le_mul_of_nonneg_left hle (fac_nonneg n)
    have hA0 : 0 ≤ (2 ^ n - 1) / 2 ^ n * A := mul_nonneg (fac_nonneg n) (Real.sqrt_nonneg _)
    exact (mul_le_of_le_one_right hA0 halpha1).trans hs
  · rintro rfl rfl
    have e1 : (dihedralErr n 1 1 ez er).1 = A := by
      unfold dihedralErr
      dsimp only
      rw [hA]
      congr 1
      ring
    refine ⟨e1, ?_⟩
    rw [e2, e1]
    have : ((1 : ℝ) + 2 ^ n * 1) / (2 ^ n + 1) = 1 := by
      rw [mul_one, add_comm]
      exact div_self (by positivity)
    rw [this, div_one]

/-- C110: the error bar of the purity error per Clifford is never below the propagated one, for fitted decays in (0,1]. -/
theorem C110_purity (n : ℕ) (a e v : ℝ) (h0 : 0 < a) (h1 : a ≤ 1) (he : 0 ≤ e) (hv : Propagated (fun a => (purity n a e).2.2) a e v) :
    v ≤ purityErr n a e ∧ (a = 1 → purityErr n a e = v) := by
  obtain ⟨d, hd, rfl⟩ := hv
  have hd' : HasDerivAt (fun a => (purity n a e).2.2) (-((2 ^ n - 1) / 2 ^ n * (1 / (2 * Real.sqrt a)))) a := by
    unfold purity
    have := ((Real.hasDerivAt_sqrt h0.ne').const_sub 1).const_mul (((2 : ℝ) ^ n - 1) / 2 ^ n)
    exact hd_congr this (by ring)
  obtain rfl := hd.unique hd'
  have hs : 0 < Real.sqrt a := Real.sqrt_pos.2 h0
  have hs1 : Real.sqrt a ≤ 1 := Real.sqrt_le_one.2 h1
  have hss : 0 < Real.sqrt (Real.sqrt a) := Real.sqrt_pos.2 hs
  have hss1 : Real.sqrt (Real.sqrt a) ≤ 1 := Real.sqrt_le_one.2 hs1
  rw [abs_neg, abs_of_nonneg (mul_nonneg (fac_nonneg n) (by positivity))]
  have e1 : purityErr n a e = (2 ^ n - 1) / 2 ^ n * (e / (2 * Real.sqrt (Real.sqrt a))) / Real.sqrt a := rfl
  have e2 : purityErr n a e = ((2 ^ n - 1) / 2 ^ n * (1 / (2 * Real.sqrt a)) * e) / Real.sqrt (Real.sqrt a) := by
    rw [e1]
    field_simp
  have hnn : 0 ≤ (2 ^ n - 1) / 2 ^ n * (1 / (2 * Real.sqrt a)) * e := mul_nonneg (mul_nonneg (fac_nonneg n) (by positivity)) he
  refine ⟨?_, ?_⟩
  · rw [e2, le_div_iff₀ hss]
    exact mul_le_of_le_one_right hnn hss1
  · rintro rfl
    rw [e2]
    simp

/-! ### The specification is met, and how far off the bars are -/

/-- Every decay has a propagated error, so the hypotheses of `C110_epc` and `C110_purity` can be met. -/
example : Propagated (epc 2) (1 / 2) (1 / 100) (3 / 4 * (1 / 100)) := by
  refine ⟨-(3 / 4), ?_, by norm_num⟩
  unfold epc
  have := ((hasDerivAt_id (1 / 2 : ℝ)).const_sub 1).const_mul (((2 : ℝ) ^ 2 - 1) / 2 ^ 2)
  exact hd_congr this (by norm_num)

/-- Finding: the error bar of the error per Clifford is too large by the factor one over the decay: with decay 1/2 it is doubled. -/
theorem C110_finding_epc (e v : ℝ) (he : 0 ≤ e) (hv : Propagated (epc 1) (1 / 2) e v) : epcErr 1 (1 / 2) e = 2 * v := by
  have := (C110_epc 1 one_pos (1 / 2) e v (by norm_num) (by norm_num) he hv).1
  rw [this]
  ring

/-- Finding: the error bar of the CNOT-dihedral decay divides each error by its decay: on one qubit with decays 1/2 and errors 3/10 and
1/5 the bar is twice the propagated error. -/
theorem C110_finding_dihedral : Propagated₂ (fun z r => (dihedral 1 z r).1) (1 / 2) (1 / 2) (3 / 10) (1 / 5) (1 / 6) ∧
    (dihedralErr 1 (1 / 2) (1 / 2) (3 / 10) (1 / 5)).1 = 2 * (1 / 6) := by
  constructor
  · refine ⟨1 / 3, 2 / 3, ?_, ?_, ?_⟩
    · unfold dihedral
      have := ((hasDerivAt_id (1 / 2 : ℝ)).add_const (2 ^ 1 * (1 / 2))).div_const ((2 : ℝ) ^ 1 + 1)
      exact hd_congr this (by norm_num)
    · unfold dihedral
      have := (((hasDerivAt_id (1 / 2 : ℝ)).const_mul ((2 : ℝ) ^ 1)).const_add (1 / 2)).div_const ((2 : ℝ) ^ 1 + 1)
      exact hd_congr this (by norm_num)
    · symm
      rw [Real.sqrt_eq_iff_mul_self_eq (by positivity) (by norm_num)]
      norm_num
  · unfold dihedralErr
    dsimp only
    rw [Real.sqrt_eq_iff_mul_self_eq (by positivity) (by norm_num)]
    norm_num

/-- Finding: the error reported for the decay of purity benchmarking is smaller than the propagated one (the code divides by the square root of
the reported decay instead of the reported decay), for every fitted decay below one. -/
theorem C110_finding_purity (n : ℕ) (a e v : ℝ) (h0 : 0 < a) (h1 : a < 1) (he : 0 < e) (hv : Propagated (fun a => (purity n a e).1) a e v) :
    (purity n a e).2.1 < v := by
  obtain ⟨d, hd, rfl⟩ := hv
  obtain rfl := hd.unique (show HasDerivAt (fun a => (purity n a e).1) (1 / (2 * Real.sqrt a)) a from Real.hasDerivAt_sqrt h0.ne')
  have hs : 0 < Real.sqrt a := Real.sqrt_pos.2 h0
  have hs1 : Real.sqrt a < 1 := by rw [Real.sqrt_lt' one_pos]; simpa using h1
  have hlt : Real.sqrt a < Real.sqrt (Real.sqrt a) := by
    rw [Real.lt_sqrt hs.le]
    nlinarith
  rw [abs_of_nonneg (by positivity)]
  show e / (2 * Real.sqrt (Real.sqrt a)) < _
  rw [one_div_mul_eq_div]
  exact div_lt_div_of_pos_left he (by positivity) (by linarith)

end Verif.RB.Fit
