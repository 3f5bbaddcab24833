import Mathlib.Algebra.BigOperators.Ring.Finset
import Mathlib.Data.Fintype.BigOperators
import Mathlib.Analysis.SpecialFunctions.Exp
import Mathlib.Analysis.SpecialFunctions.ExpDeriv
import Mathlib.Analysis.Convex.SpecificFunctions.Basic
import Mathlib.Analysis.Calculus.Deriv.MeanValue
import Mathlib.Analysis.Calculus.Deriv.Pow
import Mathlib.Algebra.BigOperators.Field
import Mathlib.Tactic.LinearCombination
import Mathlib.Tactic.Linarith
import Mathlib.Tactic.FieldSimp
/-
The mean of `n` independent draws of a number between 0 and 1: expectation, variance, and probability of a large value.
-/
namespace Verif.QV

variable {T : Type} [Fintype T]

theorem prod_expect (n : ℕ) (w : T → ℝ) (f : Fin n → T → ℝ) :
    ∑ ω : Fin n → T, (∏ t, w (ω t)) * ∏ t, f t (ω t) = ∏ t, ∑ x, w x * f t x := by
  have := Finset.prod_univ_sum (fun _ : Fin n => (Finset.univ : Finset T)) fun t x => w x * f t x
  rw [Fintype.piFinset_univ] at this
  rw [this]
  exact Finset.sum_congr rfl fun ω _ => Finset.prod_mul_distrib.symm

theorem draws_sum_one (n : ℕ) (w : T → ℝ) (hw : ∑ x, w x = 1) : ∑ ω : Fin n → T, ∏ t, w (ω t) = 1 := by
  have := prod_expect n w fun _ _ => 1
  simpa [hw] using this

theorem draw_one (n : ℕ) (w : T → ℝ) (hw : ∑ x, w x = 1) (i : Fin n) (g : T → ℝ) :
    ∑ ω : Fin n → T, (∏ t, w (ω t)) * g (ω i) = ∑ x, w x * g x := by
  have := prod_expect n w fun t x => if t = i then g x else 1
  rw [Finset.prod_eq_single i (fun t _ ht => by simp [ht, hw]) (fun h => absurd (Finset.mem_univ i) h)] at this
  simp only [if_true] at this
  rw [← this]
  refine Finset.sum_congr rfl fun ω _ => ?_
  rw [Finset.prod_ite_eq' Finset.univ i fun t => g (ω t), if_pos (Finset.mem_univ i)]

theorem draw_two (n : ℕ) (w : T → ℝ) (i j : Fin n) (hij : i ≠ j) (g : T → ℝ) (hg : ∑ x, w x * g x = 0) :
    ∑ ω : Fin n → T, (∏ t, w (ω t)) * (g (ω i) * g (ω j)) = 0 := by
  have := prod_expect n w fun t x => (if t = i then g x else 1) * if t = j then g x else 1
  rw [Finset.prod_eq_zero (Finset.mem_univ i) (by simpa [hij] using hg)] at this
  rw [← this]
  refine Finset.sum_congr rfl fun ω _ => ?_
  rw [Finset.prod_mul_distrib, Finset.prod_ite_eq' Finset.univ i fun t => g (ω t), Finset.prod_ite_eq' Finset.univ j fun t => g (ω t),
    if_pos (Finset.mem_univ i), if_pos (Finset.mem_univ j)]

/-- The mean of the draws. -/
noncomputable def avg {n : ℕ} (X : T → ℝ) (ω : Fin n → T) : ℝ := (∑ t, X (ω t)) / n

theorem avg_mean (n : ℕ) (hn : 0 < n) (w : T → ℝ) (hw : ∑ x, w x = 1) (X : T → ℝ) :
    ∑ ω : Fin n → T, (∏ t, w (ω t)) * avg X ω = ∑ x, w x * X x := by
  have hn' : (n : ℝ) ≠ 0 := by exact_mod_cast hn.ne'
  have e : ∀ ω : Fin n → T, (∏ t, w (ω t)) * avg X ω = (∑ i, (∏ t, w (ω t)) * X (ω i)) / n := fun ω => by
    unfold avg; rw [← Finset.mul_sum]; ring
  simp only [e]
  rw [← Finset.sum_div, Finset.sum_comm]
  simp only [draw_one n w hw]
  rw [Finset.sum_const, Finset.card_univ, Fintype.card_fin, nsmul_eq_mul]
  field_simp

theorem avg_variance (n : ℕ) (hn : 0 < n) (w : T → ℝ) (hw : ∑ x, w x = 1) (X : T → ℝ) (h : ℝ) (hX : ∑ x, w x * X x = h) :
    ∑ ω : Fin n → T, (∏ t, w (ω t)) * (avg X ω - h) ^ 2 = (∑ x, w x * X x ^ 2 - h ^ 2) / n := by
  have hn' : (n : ℝ) ≠ 0 := by exact_mod_cast hn.ne'
  have hZ : ∑ x, w x * (X x - h) = 0 := by
    simp only [mul_sub, Finset.sum_sub_distrib, ← Finset.sum_mul]
    rw [hX, hw]; ring
  have e : ∀ ω : Fin n → T, (∏ t, w (ω t)) * (avg X ω - h) ^ 2 = (∑ i, ∑ j, (∏ t, w (ω t)) * ((X (ω i) - h) * (X (ω j) - h))) / n ^ 2 := fun ω => by
    have e1 : avg X ω - h = (∑ i, (X (ω i) - h)) / n := by
      unfold avg
      rw [Finset.sum_sub_distrib, Finset.sum_const, Finset.card_univ, Fintype.card_fin, nsmul_eq_mul]
      field_simp
    rw [e1, div_pow, sq (∑ i, (X (ω i) - h)), Finset.sum_mul_sum]
    simp only [← Finset.mul_sum]
    ring
  simp only [e]
  rw [← Finset.sum_div, Finset.sum_comm]
  have e2 : ∀ i : Fin n, ∑ ω : Fin n → T, ∑ j, (∏ t, w (ω t)) * ((X (ω i) - h) * (X (ω j) - h)) = ∑ x, w x * X x ^ 2 - h ^ 2 := by
    intro i
    rw [Finset.sum_comm, Finset.sum_eq_single i]
    · rw [draw_one n w hw i fun x => (X x - h) * (X x - h)]
      have : ∀ x, w x * ((X x - h) * (X x - h)) = w x * X x ^ 2 - 2 * h * (w x * X x) + w x * h ^ 2 := fun x => by ring
      simp only [this, Finset.sum_add_distrib, Finset.sum_sub_distrib, ← Finset.mul_sum, ← Finset.sum_mul]
      rw [hX, hw]; ring
    · intro j _ hj
      exact draw_two n w i j hj.symm (fun x => X x - h) hZ
    · intro h; exact absurd (Finset.mem_univ i) h
  simp only [e2]
  rw [Finset.sum_const, Finset.card_univ, Fintype.card_fin, nsmul_eq_mul]
  field_simp

/-- A number between 0 and 1 with mean `h` has variance at most `h (1 - h)`. -/
theorem variance_le (w : T → ℝ) (h0 : ∀ x, 0 ≤ w x) (X : T → ℝ) (hX0 : ∀ x, 0 ≤ X x) (hX1 : ∀ x, X x ≤ 1) (h : ℝ) (hX : ∑ x, w x * X x = h) :
    ∑ x, w x * X x ^ 2 - h ^ 2 ≤ h * (1 - h) := by
  have : ∑ x, w x * X x ^ 2 ≤ h := by
    rw [← hX]
    exact Finset.sum_le_sum fun x _ => mul_le_mul_of_nonneg_left (by nlinarith [hX0 x, hX1 x]) (h0 x)
  nlinarith

/-! ### Large values -/

theorem pade (x : ℝ) (hx : 0 ≤ x) : Real.exp x * (1 - 2 * x / 3) ≤ 1 + x / 3 := by
  have hmono : MonotoneOn (fun x : ℝ => 1 + x / 3 - Real.exp x * (1 - 2 * x / 3)) (Set.Ici 0) := by
    have hd : ∀ x : ℝ, HasDerivAt (fun x : ℝ => 1 + x / 3 - Real.exp x * (1 - 2 * x / 3)) (1 / 3 - Real.exp x * (1 / 3 - 2 * x / 3)) x := by
      intro x
      have h1 : HasDerivAt (fun x : ℝ => 1 + x / 3) (1 / 3) x := by
        simpa using ((hasDerivAt_id x).div_const 3).const_add 1
      have h2 : HasDerivAt (fun x : ℝ => 1 - 2 * x / 3) (-(2 / 3)) x := by
        have := (((hasDerivAt_id x).const_mul 2).div_const 3).const_sub 1
        simpa using this
      have := h1.sub ((Real.hasDerivAt_exp x).mul h2)
      refine this.congr_deriv ?_
      ring
    refine monotoneOn_of_deriv_nonneg (convex_Ici 0) (fun x _ => (hd x).continuousAt.continuousWithinAt) (fun x _ => (hd x).differentiableAt.differentiableWithinAt) ?_
    intro x hx
    rw [interior_Ici, Set.mem_Ioi] at hx
    rw [(hd x).deriv]
    have h1 : Real.exp x * (1 - 2 * x) ≤ 1 := by
      by_cases hs : 1 - 2 * x ≤ 0
      · nlinarith [Real.exp_pos x]
      · have h2 : 1 - 2 * x ≤ Real.exp (-x) := by
          have := Real.add_one_le_exp (-x)
          linarith
        calc Real.exp x * (1 - 2 * x) ≤ Real.exp x * Real.exp (-x) := mul_le_mul_of_nonneg_left h2 (Real.exp_pos x).le
          _ = 1 := by rw [← Real.exp_add]; simp
    linarith
  have := hmono (Set.mem_Ici.2 le_rfl) (Set.mem_Ici.2 hx) hx
  simp at this
  linarith

theorem mgf_le (x : ℝ) (hx : 0 ≤ x) : 1 / 3 + 2 / 3 * Real.exp x ≤ Real.exp (2 * x / 3 + x ^ 2 / 9) := by
  have hanti : AntitoneOn (fun x : ℝ => (1 / 3 + 2 / 3 * Real.exp x) * Real.exp (-(2 * x / 3 + x ^ 2 / 9))) (Set.Ici 0) := by
    have hd : ∀ x : ℝ, HasDerivAt (fun x : ℝ => (1 / 3 + 2 / 3 * Real.exp x) * Real.exp (-(2 * x / 3 + x ^ 2 / 9)))
        (2 / 9 * Real.exp (-(2 * x / 3 + x ^ 2 / 9)) * (Real.exp x * (1 - 2 * x / 3) - (1 + x / 3))) x := by
      intro x
      have h1 : HasDerivAt (fun x : ℝ => 1 / 3 + 2 / 3 * Real.exp x) (2 / 3 * Real.exp x) x := ((Real.hasDerivAt_exp x).const_mul _).const_add _
      have h2 : HasDerivAt (fun x : ℝ => -(2 * x / 3 + x ^ 2 / 9)) (-(2 / 3 + 2 * x / 9)) x := by
        have a := ((hasDerivAt_id x).const_mul 2).div_const 3
        have b := ((hasDerivAt_id x).pow 2).div_const 9
        have := (a.add b).neg
        refine (this.congr_deriv ?_).congr_of_eventuallyEq ?_
        · simp
        · exact Filter.Eventually.of_forall fun y => by simp
      have := h1.mul h2.exp
      refine this.congr_deriv ?_
      ring
    refine antitoneOn_of_deriv_nonpos (convex_Ici 0) (fun x _ => (hd x).continuousAt.continuousWithinAt) (fun x _ => (hd x).differentiableAt.differentiableWithinAt) ?_
    intro x hx
    rw [interior_Ici, Set.mem_Ioi] at hx
    rw [(hd x).deriv]
    have h1 := pade x hx.le
    have h2 := Real.exp_pos (-(2 * x / 3 + x ^ 2 / 9))
    have : Real.exp x * (1 - 2 * x / 3) - (1 + x / 3) ≤ 0 := by linarith
    nlinarith
  have := hanti (Set.mem_Ici.2 le_rfl) (Set.mem_Ici.2 hx) hx
  simp only [Real.exp_zero] at this
  rw [Real.exp_neg] at this
  have hp := Real.exp_pos (2 * x / 3 + x ^ 2 / 9)
  rw [← div_eq_mul_inv, div_le_iff₀ hp] at this
  norm_num at this
  linarith

theorem exp_convex (l x : ℝ) (h0 : 0 ≤ x) (h1 : x ≤ 1) : Real.exp (l * x) ≤ 1 - x + x * Real.exp l := by
  have := convexOn_exp.2 (Set.mem_univ (0 : ℝ)) (Set.mem_univ l) (sub_nonneg.2 h1) h0 (by ring)
  simp only [smul_eq_mul, mul_zero, zero_add, Real.exp_zero, mul_one] at this
  rwa [mul_comm l x]

/-- A mean of numbers between 0 and 1 whose expectation is at most 2/3 is rarely much larger than 2/3. -/
theorem chernoff (n : ℕ) (w : T → ℝ) (h0 : ∀ x, 0 ≤ w x) (hw : ∑ x, w x = 1) (X : T → ℝ) (hX0 : ∀ x, 0 ≤ X x) (hX1 : ∀ x, X x ≤ 1) (h : ℝ)
    (hX : ∑ x, w x * X x = h) (hh : h ≤ 2 / 3) (δ : ℝ) (hδ : 0 ≤ δ) (A : (Fin n → T) → Prop) [DecidablePred A]
    (hA : ∀ ω, A ω → 2 / 3 + δ ≤ avg X ω) : (∑ ω : Fin n → T, if A ω then ∏ t, w (ω t) else 0) ≤ Real.exp (-(9 / 4 * n * δ ^ 2)) := by
  rcases Nat.eq_zero_or_pos n with rfl | hn
  · simp only [Nat.cast_zero, mul_zero, zero_mul, neg_zero, Real.exp_zero]
    refine le_trans (Finset.sum_le_sum (g := fun ω : Fin 0 → T => ∏ t, w (ω t)) fun ω _ => ?_) (draws_sum_one 0 w hw).le
    split
    · exact le_rfl
    · exact Finset.prod_nonneg fun t _ => h0 _
  have hn' : (n : ℝ) ≠ 0 := by exact_mod_cast hn.ne'
  set l : ℝ := 9 / 2 * δ with hl
  have hl0 : 0 ≤ l := by positivity
  have h1 : ∀ ω : Fin n → T, (if A ω then ∏ t, w (ω t) else 0) ≤ ((∏ t, w (ω t)) * ∏ t, Real.exp (l * X (ω t))) * Real.exp (-(n * (l * (2 / 3 + δ)))) := by
    intro ω
    have hp : 0 ≤ ∏ t, w (ω t) := Finset.prod_nonneg fun t _ => h0 _
    split
    · rename_i hAω
      have h2 := hA ω hAω
      unfold avg at h2
      rw [le_div_iff₀ (by exact_mod_cast hn)] at h2
      rw [mul_assoc, ← Real.exp_sum, ← Real.exp_add, ← Finset.mul_sum]
      refine le_mul_of_one_le_right hp (Real.one_le_exp ?_)
      nlinarith
    · positivity
  refine le_trans (Finset.sum_le_sum fun ω _ => h1 ω) ?_
  rw [← Finset.sum_mul, prod_expect n w fun _ x => Real.exp (l * X x), Finset.prod_const, Finset.card_univ, Fintype.card_fin]
  have hm : ∑ x, w x * Real.exp (l * X x) ≤ Real.exp (2 * l / 3 + l ^ 2 / 9) := by
    have : ∑ x, w x * Real.exp (l * X x) ≤ ∑ x, (w x * (1 - X x) + w x * X x * Real.exp l) :=
      Finset.sum_le_sum fun x _ => by
        have := mul_le_mul_of_nonneg_left (exp_convex l (X x) (hX0 x) (hX1 x)) (h0 x)
        linarith
    rw [Finset.sum_add_distrib, ← Finset.sum_mul, hX] at this
    simp only [mul_sub, mul_one, Finset.sum_sub_distrib] at this
    rw [hX, hw] at this
    have h3 := mgf_le l hl0
    have h4 : 1 ≤ Real.exp l := Real.one_le_exp hl0
    nlinarith
  have hm0 : 0 ≤ ∑ x, w x * Real.exp (l * X x) := Finset.sum_nonneg fun x _ => mul_nonneg (h0 x) (Real.exp_pos _).le
  refine le_trans (mul_le_mul_of_nonneg_right (pow_le_pow_left₀ hm0 hm n) (Real.exp_pos _).le) ?_
  rw [← Real.exp_nat_mul, ← Real.exp_add]
  refine Real.exp_le_exp.2 (le_of_eq ?_)
  rw [hl]; ring

/-- Chebyshev: the mean is rarely far below its expectation. -/
theorem chebyshev (n : ℕ) (hn : 0 < n) (w : T → ℝ) (h0 : ∀ x, 0 ≤ w x) (hw : ∑ x, w x = 1) (X : T → ℝ) (hX0 : ∀ x, 0 ≤ X x) (hX1 : ∀ x, X x ≤ 1) (h : ℝ)
    (hX : ∑ x, w x * X x = h) (θ : ℝ) (hθ : θ < h) (A : (Fin n → T) → Prop) [DecidablePred A] (hA : ∀ ω, A ω → avg X ω ≤ θ) :
    (∑ ω : Fin n → T, if A ω then ∏ t, w (ω t) else 0) ≤ h * (1 - h) / (n * (h - θ) ^ 2) := by
  have hn' : (0 : ℝ) < n := by exact_mod_cast hn
  have hpos : 0 < (h - θ) ^ 2 := by have := sub_pos.2 hθ; positivity
  have hv := avg_variance n hn w hw X h hX
  have hv2 := variance_le w h0 X hX0 hX1 h hX
  rw [← div_div, le_div_iff₀ hpos, Finset.sum_mul]
  refine le_trans (Finset.sum_le_sum (g := fun ω : Fin n → T => (∏ t, w (ω t)) * (avg X ω - h) ^ 2) fun ω _ => ?_) ?_
  · have hp : 0 ≤ ∏ t, w (ω t) := Finset.prod_nonneg fun t _ => h0 _
    split
    · rename_i hAω
      have := hA ω hAω
      exact mul_le_mul_of_nonneg_left (by nlinarith) hp
    · rw [zero_mul]; positivity
  · rw [hv]
    exact div_le_div_of_nonneg_right hv2 hn'.le

/-! ### The threshold -/

/-- The two-sigma criterion is a threshold for the mean. -/
theorem two_sigma_iff (p n : ℝ) (hn : 0 < n) (h0 : 0 ≤ p) (h1 : p ≤ 1) :
    (p > 2 / 3 ∧ p - 2 * Real.sqrt (p * (1 - p) / n) > 2 / 3) ↔ p > 2 / 3 + 4 / (3 * (1 + Real.sqrt (2 * n + 9))) := by
  set r := Real.sqrt (2 * n + 9) with hr
  have hr2 : r ^ 2 = 2 * n + 9 := Real.sq_sqrt (by linarith)
  have hr0 : 0 ≤ r := Real.sqrt_nonneg _
  set s := Real.sqrt (p * (1 - p) / n) with hs
  have hs0 : 0 ≤ s := Real.sqrt_nonneg _
  have hs2 : n * s ^ 2 = p * (1 - p) := by
    rw [hs, Real.sq_sqrt (div_nonneg (mul_nonneg h0 (by linarith)) hn.le)]
    field_simp
  have hd : 0 < 4 / (3 * (1 + r)) := by positivity
  set δ := 4 / (3 * (1 + r)) with hδ
  have hδr : 3 * δ * (1 + r) = 4 := by rw [hδ]; field_simp
  -- δ is the positive root of `(n + 4) δ² + 4/3 δ - 8/9`
  have hroot : (n + 4) * δ ^ 2 + 4 / 3 * δ - 8 / 9 = 0 := by
    have e : n + 4 = (r - 1) * (r + 1) / 2 := by nlinarith
    rw [e]
    have e2 : δ * (r + 1) = 4 / 3 := by linarith
    have : (r - 1) * (r + 1) / 2 * δ ^ 2 = (r - 1) / 2 * δ * (δ * (r + 1)) := by ring
    rw [this, e2]
    nlinarith
  constructor
  · rintro ⟨hp, hc⟩
    by_contra hle
    push Not at hle
    have h2 : 2 * s < p - 2 / 3 := by linarith
    have h3 : 4 * (p * (1 - p)) < n * (p - 2 / 3) ^ 2 := by
      rw [← hs2]
      have : (2 * s) ^ 2 < (p - 2 / 3) ^ 2 := by nlinarith
      nlinarith
    have h4 : 0 < p - 2 / 3 := by linarith
    have h5 : p - 2 / 3 ≤ δ := by linarith
    nlinarith [mul_pos hn hd, mul_le_mul h5 h5 h4.le hd.le]
  · intro hp
    have h4 : δ < p - 2 / 3 := by linarith
    refine ⟨by linarith, ?_⟩
    have h3 : 4 * (p * (1 - p)) < n * (p - 2 / 3) ^ 2 := by
      have : δ ^ 2 < (p - 2 / 3) ^ 2 := by nlinarith
      nlinarith
    rw [← hs2] at h3
    have : (2 * s) ^ 2 < (p - 2 / 3) ^ 2 := by
      have : n * (2 * s) ^ 2 < n * (p - 2 / 3) ^ 2 := by linarith
      exact lt_of_mul_lt_mul_left this hn.le
    have := lt_of_pow_lt_pow_left₀ 2 (by linarith) this
    linarith

end Verif.QV
