import Verif.Calib.Iq
import Verif.Char.ModelReal
import Verif.Ent.PropsAnalysis
set_option linter.unusedSimpArgs false
set_option linter.unusedVariables false
/-
C101: what the calibration fitters guess and report.
-/
namespace Verif.Calib
open Verif Verif.Char

/-! ### argmax -/

/-- The first position of the largest value. -/
def IsFirstMax (l : List ℝ) (i : ℕ) : Prop :=
  i < l.length ∧ (∀ j < i, l.getD j 0 < l.getD i 0) ∧ ∀ j < l.length, l.getD j 0 ≤ l.getD i 0

theorem IsFirstMax.unique {l : List ℝ} {i j : ℕ} (hi : IsFirstMax l i) (hj : IsFirstMax l j) : i = j := by
  rcases lt_trichotomy i j with h | h | h
  · exact absurd (hj.2.1 i h) (not_lt.2 (hi.2.2 j hj.1))
  · exact h
  · exact absurd (hi.2.1 j h) (not_lt.2 (hj.2.2 i hi.1))

theorem getD_append_left' (pre ys : List ℝ) (j : ℕ) (h : j < pre.length) : (pre ++ ys).getD j 0 = pre.getD j 0 := by
  rw [List.getD_eq_getElem?_getD, List.getD_eq_getElem?_getD, List.getElem?_append_left h]

theorem getD_append_last (pre : List ℝ) (y : ℝ) : (pre ++ [y]).getD pre.length 0 = y := by
  rw [List.getD_eq_getElem?_getD, List.getElem?_append_right (le_refl _)]
  simp

theorem argmaxAux_spec (ys : List ℝ) : ∀ (pre : List ℝ) (best : ℕ), IsFirstMax pre best →
    IsFirstMax (pre ++ ys) (argmaxAux ys best (pre.getD best 0) pre.length) := by
  induction ys with
  | nil => intro pre best h; simpa [argmaxAux] using h
  | cons y ys ih =>
    intro pre best h
    rw [argmaxAux]
    have happ : pre ++ y :: ys = (pre ++ [y]) ++ ys := by simp
    have hl : (pre ++ [y]).length = pre.length + 1 := by simp
    split
    · rename_i hlt
      have h2 : IsFirstMax (pre ++ [y]) pre.length := by
        refine ⟨by simp, fun j hj => ?_, fun j hj => ?_⟩
        · rw [getD_append_left' _ _ _ hj, getD_append_last]
          exact lt_of_le_of_lt (h.2.2 j hj) hlt
        · rw [getD_append_last]
          rcases Nat.lt_or_ge j pre.length with hj' | hj'
          · rw [getD_append_left' _ _ _ hj']; exact le_of_lt (lt_of_le_of_lt (h.2.2 j hj') hlt)
          · have : j = pre.length := by rw [hl] at hj; omega
            rw [this, getD_append_last]
      have := ih (pre ++ [y]) pre.length h2
      rwa [getD_append_last, hl, ← happ] at this
    · rename_i hlt
      have hle : y ≤ pre.getD best 0 := not_lt.1 hlt
      have h2 : IsFirstMax (pre ++ [y]) best := by
        refine ⟨by rw [hl]; have := h.1; omega, fun j hj => ?_, fun j hj => ?_⟩
        · rw [getD_append_left' _ _ _ (lt_trans hj h.1), getD_append_left' _ _ _ h.1]; exact h.2.1 j hj
        · rw [getD_append_left' _ _ _ h.1]
          rcases Nat.lt_or_ge j pre.length with hj' | hj'
          · rw [getD_append_left' _ _ _ hj']; exact h.2.2 j hj'
          · have : j = pre.length := by rw [hl] at hj; omega
            rw [this, getD_append_last]; exact hle
      have := ih (pre ++ [y]) best h2
      rwa [getD_append_left' _ _ _ h.1, hl, ← happ] at this

theorem argmax_spec (l : List ℝ) (h : l ≠ []) : IsFirstMax l (argmax l) := by
  cases l with
  | nil => exact absurd rfl h
  | cons y ys =>
    have := argmaxAux_spec ys [y] 0 ⟨by simp, by simp, by
      intro j hj
      have : j = 0 := by simpa using hj
      subst this; exact le_refl _⟩
    simpa [argmax] using this

theorem argmin_spec (l : List ℝ) (h : l ≠ []) : argmin l < l.length ∧ (∀ j < argmin l, l.getD (argmin l) 0 < l.getD j 0) ∧
    ∀ j < l.length, l.getD (argmin l) 0 ≤ l.getD j 0 := by
  obtain ⟨h1, h2, h3⟩ := argmax_spec (l.map (- ·)) (by simpa using h)
  have hl : (l.map (- ·)).length = l.length := by simp
  have hg : ∀ j < l.length, (l.map (- ·)).getD j 0 = - l.getD j 0 := by
    intro j hj
    rw [List.getD_eq_getElem?_getD, List.getD_eq_getElem?_getD, List.getElem?_map, List.getElem?_eq_getElem hj]
    rfl
  rw [hl] at h1 h3
  refine ⟨h1, fun j hj => ?_, fun j hj => ?_⟩
  · have := h2 j hj
    rw [hg _ (lt_trans hj h1), hg _ h1] at this
    unfold argmin
    linarith
  · have := h3 j hj
    rw [hg _ hj, hg _ h1] at this
    unfold argmin
    linarith

/-! ### The Rabi guess -/

/-- The samples of `a cos(2π k j / N + φ)`. -/
noncomputable def rabiSamples (N k : ℕ) (a φ : ℝ) : List ℝ := (List.range N).map fun (j : ℕ) => a * Real.cos (2 * Real.pi * k * j / N + φ)

theorem dft_eq_fft (y : List ℝ) (hy : 0 < y.length) (m : ℕ) : dft y m = y.length * Ent.fft y.length (fun k => ((y.getD k 0 : ℝ) : ℂ)) m := by
  unfold dft Ent.fft
  have hN : (y.length : ℂ) ≠ 0 := by exact_mod_cast hy.ne'
  rw [← mul_assoc, mul_one_div_cancel hN, one_mul, ← List.sum_toFinset _ List.nodup_range, List.toFinset_range]
  refine Finset.sum_congr rfl fun k _ => ?_
  congr 2
  field_simp

theorem getD_range_map (f : ℕ → ℝ) (N j : ℕ) (h : j < N) : ((List.range N).map f).getD j 0 = f j := by
  rw [List.getD_eq_getElem?_getD, List.getElem?_map, List.getElem?_range h]; rfl

theorem dft_samples (N k : ℕ) (a φ : ℝ) (hk : 0 < k) (hkN : 2 * k < N) (m : ℕ) (hm : m < N) :
    dft (rabiSamples N k a φ) m = N * ((if m = k then (a / 2 : ℂ) * Complex.exp (φ * Complex.I) else 0)
      + if m = N - k then (a / 2 : ℂ) * Complex.exp (-(φ * Complex.I)) else 0) := by
  have hl : (rabiSamples N k a φ).length = N := by simp [rabiSamples]
  rw [dft_eq_fft _ (by rw [hl]; omega), hl]
  congr 1
  have hne : (k : ℤ) ≠ -(k : ℤ) := by omega
  let c : ℤ → ℂ := fun j => if j = k then (a / 2 : ℂ) * Complex.exp (φ * Complex.I) else (a / 2 : ℂ) * Complex.exp (-(φ * Complex.I))
  have hf : Ent.fft N (fun j => (((rabiSamples N k a φ).getD j 0 : ℝ) : ℂ)) m = Ent.fft N (fun j => Ent.trig {(k : ℤ), -(k : ℤ)} c (Ent.phase N j)) m := by
    unfold Ent.fft
    congr 1
    refine Finset.sum_congr rfl fun j hj => ?_
    congr 1
    beta_reduce
    rw [rabiSamples, getD_range_map _ _ _ (Finset.mem_range.1 hj)]
    unfold Ent.trig Ent.phase
    rw [Finset.sum_insert (by simpa using hne), Finset.sum_singleton]
    have hc1 : c k = (a / 2 : ℂ) * Complex.exp (φ * Complex.I) := if_pos rfl
    have hc2 : c (-(k : ℤ)) = (a / 2 : ℂ) * Complex.exp (-(φ * Complex.I)) := if_neg (Ne.symm hne)
    rw [hc1, hc2, mul_assoc (a / 2 : ℂ), mul_assoc (a / 2 : ℂ), ← Complex.exp_add, ← Complex.exp_add]
    push_cast
    rw [Complex.cos]
    have e1 : (φ : ℂ) * Complex.I + k * (2 * Real.pi * j / N) * Complex.I = (2 * Real.pi * k * j / N + φ) * Complex.I := by ring
    have e2 : -((φ : ℂ) * Complex.I) + -(k : ℂ) * (2 * Real.pi * j / N) * Complex.I = -(2 * Real.pi * k * j / N + φ) * Complex.I := by ring
    rw [e1, e2]
    ring
  rw [hf, Ent.C91_fourier N (by omega), Finset.sum_insert (by simpa using hne), Finset.sum_singleton]
  have hc1 : c k = (a / 2 : ℂ) * Complex.exp (φ * Complex.I) := if_pos rfl
  have hc2 : c (-(k : ℤ)) = (a / 2 : ℂ) * Complex.exp (-(φ * Complex.I)) := if_neg (Ne.symm hne)
  rw [hc1, hc2]
  have d1 : (N : ℤ) ∣ (k : ℤ) - m ↔ m = k := by
    constructor
    · rintro ⟨q, hq⟩
      have hq0 : q = 0 := by
        by_contra hq0
        rcases lt_or_gt_of_ne hq0 with h | h
        · nlinarith
        · nlinarith
      rw [hq0] at hq; omega
    · rintro rfl; simp
  have d2 : (N : ℤ) ∣ -(k : ℤ) - m ↔ m = N - k := by
    constructor
    · rintro ⟨q, hq⟩
      have hq1 : q = -1 := by
        by_contra hq1
        rcases lt_or_gt_of_ne hq1 with h | h
        · have : q ≤ -2 := by omega
          nlinarith
        · have : 0 ≤ q := by omega
          nlinarith
      rw [hq1] at hq; omega
    · intro h
      refine ⟨-1, ?_⟩
      omega
  simp only [d1, d2]

/-- **C101** For samples of a cosine with a whole number `k < N/2` of periods over the scan, the guess of `RabiFitter` finds the
frequency and the phase exactly, an offset of zero and the largest sample as amplitude. -/
theorem C101_rabi_guess (N k : ℕ) (a φ x0 d : ℝ) (hk : 0 < k) (hkN : 2 * k < N) (ha : 0 < a) (hφ : -Real.pi < φ ∧ φ ≤ Real.pi) :
    ∃ amp, rabiGuess ((List.range N).map fun (j : ℕ) => x0 + j * d) (rabiSamples N k a φ) = some (amp, k / (N * d), φ, 0)
      ∧ amp ∈ rabiSamples N k a φ ∧ ∀ y ∈ rabiSamples N k a φ, y ≤ amp := by
  have hl : (rabiSamples N k a φ).length = N := by simp [rabiSamples]
  have hne : rabiSamples N k a φ ≠ [] := by intro h; rw [h] at hl; simp at hl; omega
  have hN : (0 : ℝ) < N := by exact_mod_cast (by omega : 0 < N)
  have hnorm : ∀ m < N, ‖dft (rabiSamples N k a φ) m‖ = if m = k ∨ m = N - k then N * (a / 2) else 0 := by
    intro m hm
    rw [dft_samples N k a φ hk hkN m hm]
    have e1 : ‖Complex.exp (φ * Complex.I)‖ = 1 := Complex.norm_exp_ofReal_mul_I φ
    have e2 : ‖Complex.exp (-(φ * Complex.I))‖ = 1 := by
      rw [← neg_mul, ← Complex.ofReal_neg]; exact Complex.norm_exp_ofReal_mul_I _
    have e3 : ‖(a / 2 : ℂ)‖ = a / 2 := by
      rw [norm_div, Complex.norm_real, Real.norm_eq_abs, abs_of_pos ha]; norm_num
    by_cases h1 : m = k
    · have h2 : m ≠ N - k := by omega
      simp only [h1, h2, if_true, if_false, add_zero, true_or]
      rw [if_neg (by omega), add_zero, norm_mul, norm_mul, e1, e3, Complex.norm_natCast, mul_one]
    · by_cases h2 : m = N - k
      · rw [if_neg h1, if_pos h2, zero_add, if_pos (.inr h2), norm_mul, norm_mul, e2, e3, Complex.norm_natCast, mul_one]
      · rw [if_neg h1, if_neg h2, if_neg (by tauto)]; simp
  have hmain : argmax ((List.range N).map fun (m : ℕ) => ‖dft (rabiSamples N k a φ) m‖) = k := by
    refine (argmax_spec _ ?_).unique ?_
    · intro h; have := congrArg List.length h; simp at this; omega
    · have hpos : (0 : ℝ) < N * (a / 2) := by positivity
      refine ⟨by simp; omega, fun j hj => ?_, fun j hj => ?_⟩
      · rw [getD_range_map _ _ _ (by omega), getD_range_map _ _ _ (by omega), hnorm j (by omega), hnorm k (by omega),
          if_neg (by omega), if_pos (.inl rfl)]
        exact hpos
      · have hj : j < N := by simpa using hj
        rw [getD_range_map _ _ _ hj, getD_range_map _ _ _ (by omega), hnorm j hj, hnorm k (by omega), if_pos (Or.inl (rfl : k = k))]
        split
        · exact le_refl _
        · exact hpos.le
  have hx : (List.range N).map (fun (j : ℕ) => x0 + j * d) = (x0 + (0 : ℕ) * d) :: (x0 + (1 : ℕ) * d) :: (List.range' 2 (N - 2)).map fun (j : ℕ) => x0 + j * d := by
    obtain ⟨M, rfl⟩ : ∃ M, N = M + 2 := ⟨N - 2, by omega⟩
    rw [List.range_eq_range', List.range'_succ, List.range'_succ]
    simp
  have hoff : (rabiSamples N k a φ).sum = 0 := by
    have h0 := dft_samples N k a φ hk hkN 0 (by omega)
    rw [if_neg (by omega), if_neg (by omega), add_zero, mul_zero] at h0
    unfold dft at h0
    rw [hl] at h0
    have h1 : ((List.range N).map fun (j : ℕ) => (((rabiSamples N k a φ).getD j 0 : ℝ) : ℂ)
        * Complex.exp (-2 * Real.pi * Complex.I * ((0 : ℕ) : ℂ) * (j : ℂ) / (N : ℂ))) = (rabiSamples N k a φ).map fun (y : ℝ) => (y : ℂ) := by
      conv_rhs => rw [rabiSamples, List.map_map]
      refine List.map_congr_left fun j hj => ?_
      rw [rabiSamples, getD_range_map _ _ _ (List.mem_range.1 hj)]
      simp
    rw [h1] at h0
    have h2 : ∀ l : List ℝ, (l.map fun (y : ℝ) => (y : ℂ)).sum = ((l.sum : ℝ) : ℂ) := by
      intro l
      induction l with
      | nil => simp
      | cons y l ih => rw [List.map_cons, List.sum_cons, ih, List.sum_cons]; push_cast; rfl
    rw [h2] at h0
    exact_mod_cast h0
  refine ⟨npMax (rabiSamples N k a φ), ?_, ?_, ?_⟩
  · have hxl : ((List.range N).map fun (j : ℕ) => x0 + j * d).length = N := by simp
    rw [hx] at hxl ⊢
    unfold rabiGuess
    dsimp only
    rw [if_neg hne]
    simp only [hl, hmain, hoff, zero_div]
    rw [hxl]
    have e1 : x0 + ((1 : ℕ) : ℝ) * d - (x0 + ((0 : ℕ) : ℝ) * d) = d := by push_cast; ring
    rw [e1, fftfreq, if_pos (by omega)]
    congr 4
    rw [dft_samples N k a φ hk hkN k (by omega), if_pos rfl, if_neg (by omega), add_zero, ← mul_assoc]
    have : (N : ℂ) * (a / 2 : ℂ) = ((N * (a / 2) : ℝ) : ℂ) := by push_cast; rfl
    rw [this, Complex.arg_real_mul _ (by positivity), Complex.exp_mul_I]
    exact Complex.arg_cos_add_sin_mul_I ⟨hφ.1, hφ.2⟩
  · unfold npMax
    have h := argmax_spec _ hne
    rw [List.getD_eq_getElem?_getD, List.getElem?_eq_getElem h.1]
    exact List.getElem_mem _
  · intro y hy
    obtain ⟨j, hj, rfl⟩ := List.getElem_of_mem hy
    have h := (argmax_spec _ hne).2.2 j hj
    rwa [List.getD_eq_getElem?_getD, List.getElem?_eq_getElem hj] at h

example : 0 < 3 ∧ 2 * 3 < 20 ∧ (0 : ℝ) < 2 ∧ -Real.pi < 0 ∧ (0 : ℝ) ≤ Real.pi := by
  have := Real.pi_pos
  refine ⟨by norm_num, by norm_num, by norm_num, by linarith, this.le⟩

/-! ### The DRAG guess -/

/-- **C101** For samples of a parabola over a scan symmetric about zero that contains its vertex: the guess of `DragFitter` finds the
vertex and the offset exactly and the right direction of curvature; for a vertex at zero also the curvature. -/
theorem C101_drag_guess (xs : List ℝ) (hs : ∀ x ∈ xs, -x ∈ xs) (a x0 c : ℝ) (ha : a ≠ 0) (hx0 : x0 ∈ xs) (hmax : ∃ x ∈ xs, |x0| < |x|) :
    ∃ b, dragGuess xs (xs.map fun x => quadratic x a x0 c) = some (b, x0, c) ∧ 0 < b * a ∧ (x0 = 0 → b = a) := by
  obtain ⟨X, hX, hXlt⟩ := hmax
  set ys := xs.map fun x => quadratic x a x0 c with hys
  have hne : xs ≠ [] := List.ne_nil_of_mem hx0
  have hyne : ys ≠ [] := by simpa [hys] using hne
  have hyl : ys.length = xs.length := by simp [hys]
  have hyg : ∀ j < xs.length, ys.getD j 0 = a * (xs.getD j 0 - x0) ^ 2 + c := by
    intro j hj
    rw [hys, List.getD_eq_getElem?_getD, List.getElem?_map, List.getElem?_eq_getElem hj, List.getD_eq_getElem?_getD, List.getElem?_eq_getElem hj]
    rfl
  have hidx : ∀ x ∈ xs, ∃ j < xs.length, xs.getD j 0 = x := by
    intro x hx
    obtain ⟨j, hj, rfl⟩ := List.getElem_of_mem hx
    exact ⟨j, hj, by rw [List.getD_eq_getElem?_getD, List.getElem?_eq_getElem hj]; rfl⟩
  have hmem : ∀ j < xs.length, xs.getD j 0 ∈ xs := by
    intro j hj
    rw [List.getD_eq_getElem?_getD, List.getElem?_eq_getElem hj]
    exact List.getElem_mem _
  -- the far point
  obtain ⟨F, hF, hFdist⟩ : ∃ F ∈ xs, (F - x0) ^ 2 = (|X| + |x0|) ^ 2 := by
    have habs : |X| = X ∨ |X| = -X := abs_choice X
    have hXa : |X| ∈ xs := by
      rcases habs with h | h
      · rw [h]; exact hX
      · rw [h]; exact hs X hX
    rcases abs_choice x0 with h | h
    · exact ⟨-|X|, hs _ hXa, by rw [h]; ring⟩
    · exact ⟨|X|, hXa, by rw [h]; ring⟩
  have hfar : ∀ j < xs.length, (F - x0) ^ 2 ≤ (xs.getD j 0 - x0) ^ 2 → |x0| < |xs.getD j 0| := by
    intro j hj h
    rw [hFdist] at h
    have h1 : |X| + |x0| ≤ |xs.getD j 0 - x0| := by
      have := sq_le_sq.1 h
      rwa [abs_of_nonneg (by positivity)] at this
    have h2 : |xs.getD j 0 - x0| ≤ |xs.getD j 0| + |x0| := abs_sub _ _
    linarith
  -- the largest x
  have hM := argmax_spec xs hne
  have hMx : ∀ x ∈ xs, |x| ≤ npMax xs := by
    intro x hx
    have h1 : ∀ x ∈ xs, x ≤ npMax xs := by
      intro x hx
      obtain ⟨j, hj, rfl⟩ := hidx x hx
      exact hM.2.2 j hj
    exact abs_le.2 ⟨by have := h1 _ (hs x hx); linarith, h1 x hx⟩
  have hMpos : 0 < npMax xs := lt_of_lt_of_le (lt_of_le_of_lt (abs_nonneg _) hXlt) (hMx X hX)
  have hMmem : npMax xs ∈ xs := hmem _ hM.1
  obtain ⟨hi1, _, hi1m⟩ := argmax_spec ys hyne
  obtain ⟨hi2, _, hi2m⟩ := argmin_spec ys hyne
  rw [hyl] at hi1 hi2 hi1m hi2m
  obtain ⟨j0, hj0, hj0x⟩ := hidx x0 hx0
  obtain ⟨jF, hjF, hjFx⟩ := hidx F hF
  obtain ⟨jM, hjM, hjMx⟩ := hidx _ hMmem
  have hFpos : 0 < (F - x0) ^ 2 := by
    rw [hFdist]
    have : 0 < |X| + |x0| := by linarith [abs_nonneg x0]
    positivity
  unfold dragGuess
  rw [if_neg (by push Not; exact ⟨hyne, hMpos.ne'⟩)]
  dsimp only
  rcases lt_or_gt_of_ne ha with hneg | hpos
  · -- a < 0: maximum at x0
    have hv1 : xs.getD (argmax ys) 0 = x0 := by
      have h := hi1m j0 hj0
      rw [hyg _ hj0, hyg _ hi1, hj0x] at h
      have : (xs.getD (argmax ys) 0 - x0) ^ 2 = 0 := by
        have h1 := sq_nonneg (xs.getD (argmax ys) 0 - x0)
        nlinarith
      exact sub_eq_zero.1 (pow_eq_zero_iff (two_ne_zero) |>.1 this)
    have hmono : ∀ j < xs.length, (xs.getD j 0 - x0) ^ 2 ≤ (xs.getD (argmin ys) 0 - x0) ^ 2 := by
      intro j hj
      have h := hi2m j hj
      rw [hyg _ hj, hyg _ hi2] at h
      nlinarith
    have hv2 := hfar _ hi2 (by have := hmono jF hjF; rwa [hjFx] at this)
    rw [if_pos (by rw [hv1]; exact hv2), hv1]
    refine ⟨_, by rw [hyg _ hi1, hv1]; simp; rfl, ?_, ?_⟩
    · unfold npMax npMin
      rw [hyg _ hi1, hyg _ hi2, hv1]
      have hd : (F - x0) ^ 2 ≤ (xs.getD (argmin ys) 0 - x0) ^ 2 := by have := hmono jF hjF; rwa [hjFx] at this
      have hden : 0 < xs.getD (argmax xs) 0 ^ 2 := by have := hMpos; unfold npMax at this; positivity
      have e : (a * (xs.getD (argmin ys) 0 - x0) ^ 2 + c - (a * (x0 - x0) ^ 2 + c)) / xs.getD (argmax xs) 0 ^ 2 * a
          = a ^ 2 * (xs.getD (argmin ys) 0 - x0) ^ 2 / xs.getD (argmax xs) 0 ^ 2 := by ring
      rw [e]
      have : 0 < (xs.getD (argmin ys) 0 - x0) ^ 2 := lt_of_lt_of_le hFpos hd
      have ha2 : 0 < a ^ 2 := by positivity
      positivity
    · intro h0
      have hsq : xs.getD (argmin ys) 0 ^ 2 = npMax xs ^ 2 := by
        refine le_antisymm ?_ ?_
        · rw [← sq_abs]; exact pow_le_pow_left₀ (abs_nonneg _) (hMx _ (hmem _ hi2)) 2
        · have := hmono jM hjM; rw [hjMx, h0] at this; simpa using this
      have e1 : npMax ys = c := by unfold npMax; rw [hyg _ hi1, hv1]; simp
      have e2 : npMin ys = a * npMax xs ^ 2 + c := by unfold npMin; rw [hyg _ hi2, h0, sub_zero, hsq]
      rw [e1, e2]
      field_simp
      ring
  · -- a > 0: minimum at x0
    have hv2 : xs.getD (argmin ys) 0 = x0 := by
      have h := hi2m j0 hj0
      rw [hyg _ hj0, hyg _ hi2, hj0x] at h
      have : (xs.getD (argmin ys) 0 - x0) ^ 2 = 0 := by
        have h1 := sq_nonneg (xs.getD (argmin ys) 0 - x0)
        nlinarith
      exact sub_eq_zero.1 (pow_eq_zero_iff (two_ne_zero) |>.1 this)
    have hmono : ∀ j < xs.length, (xs.getD j 0 - x0) ^ 2 ≤ (xs.getD (argmax ys) 0 - x0) ^ 2 := by
      intro j hj
      have h := hi1m j hj
      rw [hyg _ hj, hyg _ hi1] at h
      nlinarith
    have hv1 := hfar _ hi1 (by have := hmono jF hjF; rwa [hjFx] at this)
    rw [if_neg (by rw [hv2]; exact not_lt.2 hv1.le), hv2]
    refine ⟨_, by rw [hyg _ hi2, hv2]; simp; rfl, ?_, ?_⟩
    · unfold npMax npMin
      rw [hyg _ hi1, hyg _ hi2, hv2]
      have hd : (F - x0) ^ 2 ≤ (xs.getD (argmax ys) 0 - x0) ^ 2 := by have := hmono jF hjF; rwa [hjFx] at this
      have hden : 0 < xs.getD (argmax xs) 0 ^ 2 := by have := hMpos; unfold npMax at this; positivity
      have e : (a * (xs.getD (argmax ys) 0 - x0) ^ 2 + c - (a * (x0 - x0) ^ 2 + c)) / xs.getD (argmax xs) 0 ^ 2 * a
          = a ^ 2 * (xs.getD (argmax ys) 0 - x0) ^ 2 / xs.getD (argmax xs) 0 ^ 2 := by ring
      rw [e]
      have : 0 < (xs.getD (argmax ys) 0 - x0) ^ 2 := lt_of_lt_of_le hFpos hd
      have ha2 : 0 < a ^ 2 := by positivity
      positivity
    · intro h0
      have hsq : xs.getD (argmax ys) 0 ^ 2 = npMax xs ^ 2 := by
        refine le_antisymm ?_ ?_
        · rw [← sq_abs]; exact pow_le_pow_left₀ (abs_nonneg _) (hMx _ (hmem _ hi1)) 2
        · have := hmono jM hjM; rw [hjMx, h0] at this; simpa using this
      have e1 : npMin ys = c := by unfold npMin; rw [hyg _ hi2, hv2]; simp
      have e2 : npMax ys = a * npMax xs ^ 2 + c := by unfold npMax; rw [hyg _ hi1, h0, sub_zero]; unfold npMax at hsq; rw [hsq]
      rw [e1, e2]
      field_simp
      ring

example : (∀ x ∈ [(-1 : ℝ), 0, 1], -x ∈ [(-1 : ℝ), 0, 1]) ∧ (0 : ℝ) ∈ [(-1 : ℝ), 0, 1] ∧ ∃ x ∈ [(-1 : ℝ), 0, 1], |(0 : ℝ)| < |x| := by
  refine ⟨by simp, by simp, 1, by simp, by simp⟩

/-- **C101 (finding)** With the vertex at the edge of the scan and the parabola open to below, the guess is the opposite edge with the
wrong direction of curvature. -/
theorem C101_finding_edge : dragGuess [-1, 0, 1] ([-1, 0, 1].map fun x => quadratic x (-1) 1 0) = some (4, -1, -4) := by
  have h1 : ([-1, 0, 1] : List ℝ).map (fun x => quadratic x (-1) 1 0) = [-4, -1, 0] := by
    simp [quadratic]; norm_num
  have h2 : argmax [-4, -1, 0] = 2 := by norm_num [argmax, argmaxAux]
  have h3 : argmin [-4, -1, 0] = 0 := by norm_num [argmin, argmax, argmaxAux]
  have h4 : argmax [-1, 0, 1] = 2 := by norm_num [argmax, argmaxAux]
  rw [h1]
  unfold dragGuess npMax npMin
  rw [h2, h3, h4, if_neg (by simp)]
  norm_num

/-! ### The amplitudes of the Rabi fit -/

/-- The probability of reading 1 after a rotation by `θ` of the ground state. -/
noncomputable def flipProb (θ : ℝ) : ℝ := Real.sin (θ / 2) ^ 2

/-- **C101** On a device whose rotation angle is proportional to the drive amplitude, the curve `RabiFitter` fits describes the
probability of reading 1, the amplitude `pi_amplitude` reports turns the qubit by π and `pi2_amplitude` by π/2. -/
theorem C101_amplitudes (κ : ℝ) (hκ : κ ≠ 0) :
    ∃ f, (∀ x, flipProb (κ * x) = oscNodecayFit x (-1 / 2) f 0 (1 / 2)) ∧ κ * piAmplitude f = Real.pi ∧ κ * pi2Amplitude f = Real.pi / 2 := by
  have hpi := Real.pi_ne_zero
  refine ⟨κ / (2 * Real.pi), fun x => ?_, ?_, ?_⟩
  · unfold flipProb oscNodecayFit
    have e : 2 * Real.pi * (κ / (2 * Real.pi)) * x + 0 = 2 * (κ * x / 2) := by field_simp; ring
    rw [e, Real.cos_two_mul, Real.sin_sq]
    ring
  · unfold piAmplitude
    field_simp
  · unfold pi2Amplitude piAmplitude
    field_simp

/-- **C101** In the fitted curve, adding `pi_amplitude` to the drive amplitude turns the signal into its opposite, whatever the other
parameters. -/
theorem C101_half_period (x a f φ c : ℝ) (hf : f ≠ 0) : oscNodecayFit (x + piAmplitude f) a f φ c - c = -(oscNodecayFit x a f φ c - c) := by
  unfold oscNodecayFit piAmplitude
  have e : 2 * Real.pi * f * (x + 1 / f / 2) + φ = (2 * Real.pi * f * x + φ) + Real.pi := by field_simp; ring
  rw [e, Real.cos_add_pi]
  ring

/-- **C101** The DRAG amplitude reported, the vertex of the fitted parabola, is where the fitted signal is extremal. -/
theorem C101_vertex (x a x0 c : ℝ) : (0 ≤ a → quadratic x0 a x0 c ≤ quadratic x a x0 c) ∧ (a ≤ 0 → quadratic x a x0 c ≤ quadratic x0 a x0 c) := by
  unfold quadratic
  have h := sq_nonneg (x - x0)
  constructor
  · intro ha; nlinarith
  · intro ha; nlinarith

end Verif.Calib
