import Verif.RB.Fit
import Mathlib.Analysis.SpecialFunctions.Sqrt
set_option linter.unusedVariables false
/-
C47, C79: error formulas of the RB fitters.
-/
namespace Verif.RB.Fit

/-- `(2^n-1)/2^n` is between 0 and 1, and positive for at least one qubit. -/
theorem dim_bounds (n : ℕ) (hn : 0 < n) : (2 : ℝ) ≤ 2 ^ n := by
  calc (2 : ℝ) = 2 ^ 1 := by norm_num
    _ ≤ 2 ^ n := pow_le_pow_right₀ (by norm_num) hn

/-- C47: the error per Clifford: at most `(2^n-1)/2^n`, zero exactly for decay one, decreasing in the decay. -/
theorem C47_epc (n : ℕ) (hn : 0 < n) (alpha alpha' : ℝ) (h0 : 0 ≤ alpha) (h1 : alpha ≤ 1) :
    0 ≤ epc n alpha ∧ epc n alpha ≤ 1 - 1 / 2 ^ n ∧ (epc n alpha = 0 ↔ alpha = 1) ∧ (alpha < alpha' → epc n alpha' < epc n alpha) := by
  have hd := dim_bounds n hn
  have hd0 : (0 : ℝ) < 2 ^ n := by linarith
  have hc : (0 : ℝ) < (2 ^ n - 1) / 2 ^ n := div_pos (by linarith) hd0
  have hc1 : ((2 : ℝ) ^ n - 1) / 2 ^ n = 1 - 1 / 2 ^ n := by field_simp
  unfold epc
  refine ⟨mul_nonneg hc.le (by linarith), ?_, ?_, ?_⟩
  · simp only []
    rw [← hc1]
    nlinarith
  · simp only []
    rw [mul_eq_zero]
    constructor
    · rintro (h | h)
      · exact absurd h hc.ne'
      · linarith
    · rintro rfl; right; ring
  · intro h
    exact mul_lt_mul_of_pos_left (by linarith) hc

/-- C47: the interleaved estimate is at most `(2^n-1)/2^n`, zero exactly if the two decays agree, non-negative exactly if interleaving does not
slow the decay down, decreasing in the interleaved decay; the systematic error bounds enclose it and vanish for a perfect reference. -/
theorem C47_interleaved (n : ℕ) (hn : 0 < n) (a c ea ec : ℝ) (ha0 : 0 < a) (ha1 : a ≤ 1) (hc0 : 0 ≤ c) :
    let f := interleaved n a c ea ec
    f.epcEst = 1 - 1 / 2 ^ n - (1 - 1 / 2 ^ n) * (c / a) ∧ f.epcEst ≤ 1 - 1 / 2 ^ n ∧ (f.epcEst = 0 ↔ c = a) ∧ (0 ≤ f.epcEst ↔ c ≤ a) ∧
      f.sysL ≤ f.epcEst ∧ f.epcEst ≤ f.sysR ∧ f.sysR - f.epcEst = f.sys ∧ f.epcEst - f.sysL = f.sys ∧ 0 ≤ f.sys ∧ (a = 1 → f.sys = 0) := by
  have hd := dim_bounds n hn
  have hd0 : (0 : ℝ) < 2 ^ n := by linarith
  have hc : (0 : ℝ) < 1 - 1 / 2 ^ n := by rw [sub_pos, div_lt_one hd0]; linarith
  have hest : ((2 : ℝ) ^ n - 1) * (1 - c / a) / 2 ^ n = (1 - 1 / 2 ^ n) * (1 - c / a) := by field_simp
  have hs1 : 0 ≤ ((2 : ℝ) ^ n - 1) * (|a - c / a| + (1 - a)) / 2 ^ n :=
    div_nonneg (mul_nonneg (by linarith) (add_nonneg (abs_nonneg _) (by linarith))) hd0.le
  have hs2 : 0 ≤ 2 * ((2 : ℝ) ^ n * 2 ^ n - 1) * (1 - a) / (a * 2 ^ n * 2 ^ n) + 4 * Real.sqrt (1 - a) * Real.sqrt ((2 : ℝ) ^ n * 2 ^ n - 1) / a := by
    refine add_nonneg (div_nonneg (mul_nonneg (mul_nonneg (by norm_num) (by nlinarith)) (by linarith)) (by positivity)) ?_
    exact div_nonneg (mul_nonneg (mul_nonneg (by norm_num) (Real.sqrt_nonneg _)) (Real.sqrt_nonneg _)) ha0.le
  have hsys := le_min hs1 hs2
  have hca : 0 ≤ c / a := div_nonneg hc0 ha0.le
  simp only [interleaved]
  rw [hest]
  refine ⟨by ring, ?_, ?_, ?_, by linarith, by linarith, by ring, by ring, hsys, ?_⟩
  · nlinarith
  · rw [mul_eq_zero]
    constructor
    · rintro (h | h)
      · exact absurd h hc.ne'
      · have : c / a = 1 := by linarith
        rwa [div_eq_one_iff_eq ha0.ne'] at this
    · rintro rfl; right; rw [div_self ha0.ne']; ring
  · rw [mul_nonneg_iff_of_pos_left hc, sub_nonneg, div_le_one ha0]
  · rintro rfl
    rw [min_eq_right]
    · simp
    · simp only [sub_self, mul_zero, Real.sqrt_zero, zero_mul, zero_div, add_zero]
      simpa using hs1

/-- C47: a smaller interleaved decay gives a larger error estimate. -/
theorem C47_interleaved_mono (n : ℕ) (hn : 0 < n) (a c c' ea ec ec' : ℝ) (ha0 : 0 < a) (h : c < c') :
    (interleaved n a c' ea ec').epcEst < (interleaved n a c ea ec).epcEst := by
  have hd := dim_bounds n hn
  have hd0 : (0 : ℝ) < 2 ^ n := by linarith
  simp only [interleaved]
  refine div_lt_div_of_pos_right (mul_lt_mul_of_pos_left ?_ (by linarith)) hd0
  have := div_lt_div_of_pos_right h ha0
  linarith

/-- C47: the CNOT-dihedral estimate: the combined decay lies between the two measured decays, the error is a valid rate and
is zero exactly if both decays are one. -/
theorem C47_dihedral (n : ℕ) (hn : 0 < n) (z r : ℝ) (hz0 : 0 ≤ z) (hz1 : z ≤ 1) (hr0 : 0 ≤ r) (hr1 : r ≤ 1) :
    min z r ≤ (dihedral n z r).1 ∧ (dihedral n z r).1 ≤ max z r ∧ (dihedral n z r).2 = epc n (dihedral n z r).1 ∧ 0 ≤ (dihedral n z r).2 ∧
      (dihedral n z r).2 ≤ 1 - 1 / 2 ^ n ∧ ((dihedral n z r).2 = 0 ↔ z = 1 ∧ r = 1) := by
  have hd := dim_bounds n hn
  have hd0 : (0 : ℝ) < 2 ^ n := by linarith
  have hlo : min z r ≤ (dihedral n z r).1 := by
    simp only [dihedral]
    rw [le_div_iff₀ (by linarith)]
    nlinarith [min_le_left z r, min_le_right z r]
  have hhi : (dihedral n z r).1 ≤ max z r := by
    simp only [dihedral]
    rw [div_le_iff₀ (by linarith)]
    nlinarith [le_max_left z r, le_max_right z r]
  have he : (dihedral n z r).2 = epc n (dihedral n z r).1 := by
    simp only [dihedral, epc]; ring
  have h0 : 0 ≤ (dihedral n z r).1 := (le_min hz0 hr0).trans hlo
  have h1 : (dihedral n z r).1 ≤ 1 := hhi.trans (max_le hz1 hr1)
  obtain ⟨e1, e2, e3, -⟩ := C47_epc n hn _ 0 h0 h1
  refine ⟨hlo, hhi, he, by rw [he]; exact e1, by rw [he]; exact e2, ?_⟩
  rw [he, e3]
  simp only [dihedral]
  rw [div_eq_one_iff_eq (by linarith)]
  constructor
  · intro h
    have hz : z = 1 := by nlinarith
    refine ⟨hz, ?_⟩
    rw [hz] at h
    have : (2 : ℝ) ^ n * (r - 1) = 0 := by linarith
    rcases mul_eq_zero.1 this with h' | h' <;> linarith
  · rintro ⟨rfl, rfl⟩; ring

/-- C47: the purity decay is the non-negative number whose square is the fitted decay, and the error derived from it is the error per
Clifford of that decay. -/
theorem C47_purity (n : ℕ) (hn : 0 < n) (a ea : ℝ) (h0 : 0 ≤ a) (h1 : a ≤ 1) :
    0 ≤ (purity n a ea).1 ∧ (purity n a ea).1 ^ 2 = a ∧ (purity n a ea).2.2 = epc n (purity n a ea).1 ∧ 0 ≤ (purity n a ea).2.2 ∧ (purity n a ea).2.2 ≤ 1 - 1 / 2 ^ n ∧
      (purity n a ea).2.2 ≤ epc n a := by
  have hs0 : 0 ≤ (purity n a ea).1 := Real.sqrt_nonneg _
  have hs2 : (purity n a ea).1 ^ 2 = a := Real.sq_sqrt h0
  have hs1 : (purity n a ea).1 ≤ 1 := Real.sqrt_le_one.2 h1
  have he : (purity n a ea).2.2 = epc n (purity n a ea).1 := rfl
  obtain ⟨e1, e2, -, -⟩ := C47_epc n hn _ 0 hs0 hs1
  refine ⟨hs0, hs2, he, by rw [he]; exact e1, by rw [he]; exact e2, ?_⟩
  rw [he]
  have hle : a ≤ (purity n a ea).1 := by nlinarith
  rcases hle.eq_or_lt with h | h
  · rw [← h]
  · exact ((C47_epc n hn a _ h0 h1).2.2.2 h).le

/-- Finding: the error bar of the purity decay is not the propagated one, `err/(2·√alpha)`: at `alpha = 1/16` and error 1 it is half of it. -/
theorem C47_finding_purity_err : HasDerivAt Real.sqrt 2 (1 / 16) ∧ (purity 1 (1 / 16) 1).2.1 = 1 := by
  have hs : Real.sqrt (1 / 16) = 1 / 4 := by
    rw [show (1 / 16 : ℝ) = (1 / 4) ^ 2 by norm_num]; exact Real.sqrt_sq (by norm_num)
  have hs' : Real.sqrt (1 / 4) = 1 / 2 := by
    rw [show (1 / 4 : ℝ) = (1 / 2) ^ 2 by norm_num]; exact Real.sqrt_sq (by norm_num)
  constructor
  · have := Real.hasDerivAt_sqrt (x := 1 / 16) (by norm_num)
    rw [hs] at this
    convert this using 1
    norm_num
  · simp only [purity]
    rw [hs, hs']; norm_num

/-- C79: on data that decay exactly to `1/2^n` the starting point of the fit is the exact answer. -/
theorem C79_guess_exact (n : ℕ) (A alpha : ℝ) (hA : 0 < A) (h0 : 0 < alpha) (h1 : alpha < 1) (m0 m1 : ℤ) (hm : m0 < m1) :
    fitGuess n (fitFun m0 A alpha (1 / 2 ^ n)) (fitFun m1 A alpha (1 / 2 ^ n)) m0 m1 = (A, alpha, 1 / 2 ^ n) := by
  have e0 : fitFun m0 A alpha (1 / 2 ^ n) - 1 / 2 ^ n = A * alpha ^ m0 := by simp [fitFun, Real.rpow_intCast]
  have e1 : fitFun m1 A alpha (1 / 2 ^ n) - 1 / 2 ^ n = A * alpha ^ m1 := by simp [fitFun, Real.rpow_intCast]
  have p0 : 0 < alpha ^ m0 := zpow_pos h0 _
  have p0' : 0 < A * alpha ^ m0 := mul_pos hA p0
  have hgt : fitFun m0 A alpha (1 / 2 ^ n) > 1 / 2 ^ n := by linarith
  have hdy : (fitFun m1 A alpha (1 / 2 ^ n) - 1 / 2 ^ n) / (fitFun m0 A alpha (1 / 2 ^ n) - 1 / 2 ^ n) = alpha ^ (m1 - m0) := by
    rw [e0, e1, zpow_sub₀ h0.ne', mul_div_mul_left _ _ hA.ne']
  have hg : (if m1 - m0 = 1 then alpha ^ (m1 - m0) else (alpha ^ (m1 - m0)) ^ (1 / ((m1 - m0 : ℤ) : ℝ))) = alpha := by
    split_ifs with h
    · rw [h, zpow_one]
    · rw [← Real.rpow_intCast, ← Real.rpow_mul h0.le, mul_one_div, div_self, Real.rpow_one]
      have : m1 - m0 ≠ 0 := by omega
      exact_mod_cast this
  unfold fitGuess
  simp only [hdy, hg, if_pos h1, if_pos hgt]
  rw [if_neg]
  · rw [e0, mul_div_assoc, div_self p0.ne', mul_one]
  · rintro (h | ⟨h, -⟩)
    · linarith
    · have := zpow_pos h0 (m1 - m0); linarith

/-- A non-trivial instance of C79. -/
example : fitGuess 2 (fitFun 3 (1/2) (9/10) (1 / 2 ^ 2)) (fitFun 10 (1/2) (9/10) (1 / 2 ^ 2)) 3 10 = (1/2, 9/10, 1 / 2 ^ 2) :=
  C79_guess_exact 2 (1/2) (9/10) (by norm_num) (by norm_num) (by norm_num) 3 10 (by norm_num)

/-- Finding: the starting point can lie outside the bounds `[0,1]` given to `curve_fit` (which then raises): lengths 1 and 2 with the
second mean below 1/2 give a negative decay, … -/
theorem C79_finding_negative_decay : (fitGuess 1 (9 / 10) (4 / 10) 1 2).2.1 < 0 := by
  norm_num [fitGuess]

/-- … and a long first sequence gives an amplitude above one. -/
theorem C79_finding_amplitude : 1 < (fitGuess 1 (3 / 4) (5 / 8) 3 4).1 := by
  norm_num [fitGuess]

example : epc 1 (9 / 10) = 1 / 20 := by norm_num [epc]
example : (interleaved 1 (9/10) (8/10) 0 0).epcEst = 1 / 18 := by norm_num [interleaved]
example : (dihedral 1 (9/10) (6/10)) = (7 / 10, 3 / 20) := by norm_num [dihedral]

end Verif.RB.Fit
