import Verif.QV.LemmasStat
import Mathlib.Probability.Moments.SubGaussian
import Mathlib.MeasureTheory.Integral.Bochner.SumMeasure
/-
The mean of independent draws of a bounded number: how its scatter compares with the variance computed from the draws, and how rarely it is far from
its expectation.
-/
namespace Verif.Expval
open Verif.QV MeasureTheory ProbabilityTheory

variable {T : Type} [Fintype T]

/-- Hoeffding's lemma for a finite distribution (from Mathlib's version for measures). -/
theorem mgf_bounded (w : T → ℝ) (h0 : ∀ x, 0 ≤ w x) (hw : ∑ x, w x = 1) (X : T → ℝ) (g : ℝ) (hX : ∀ x, |X x| ≤ g) (m : ℝ) (hm : ∑ x, w x * X x = m) (l : ℝ) :
    ∑ x, w x * Real.exp (l * (X x - m)) ≤ Real.exp (l ^ 2 * g ^ 2 / 2) := by
  let _ : MeasurableSpace T := ⊤
  let μ : Measure T := ∑ t, ENNReal.ofReal (w t) • Measure.dirac t
  have hreal : ∀ t, μ.real {t} = w t := by
    intro t
    have : μ {t} = ENNReal.ofReal (w t) := by
      simp only [μ, Measure.coe_finsetSum, Finset.sum_apply, Measure.smul_apply, smul_eq_mul]
      rw [Finset.sum_eq_single t]
      · simp
      · intro b _ hb
        rw [Measure.dirac_apply' _ MeasurableSpace.measurableSet_top]
        simp [hb]
      · simp
    rw [Measure.real, this, ENNReal.toReal_ofReal (h0 t)]
  have hprob : IsProbabilityMeasure μ := by
    refine ⟨?_⟩
    simp only [μ, Measure.coe_finsetSum, Finset.sum_apply, Measure.smul_apply, smul_eq_mul, measure_univ, mul_one]
    rw [← ENNReal.ofReal_sum_of_nonneg fun t _ => h0 t, hw, ENNReal.ofReal_one]
  have hint : ∀ f : T → ℝ, ∫ t, f t ∂μ = ∑ t, w t * f t := by
    intro f
    rw [integral_fintype (Integrable.of_finite)]
    exact Finset.sum_congr rfl fun t _ => by rw [hreal, smul_eq_mul]
  have hg : 0 ≤ g ∨ IsEmpty T := by
    by_cases h : IsEmpty T
    · exact Or.inr h
    · rw [not_isEmpty_iff] at h
      exact Or.inl (le_trans (abs_nonneg _) (hX h.some))
  rcases hg with hg | he
  · have H := hasSubgaussianMGF_of_mem_Icc (μ := μ) (X := X) (a := -g) (b := g) (measurable_from_top).aemeasurable
      (Filter.Eventually.of_forall fun t => abs_le.1 (hX t))
    have h := H.mgf_le l
    rw [hint, hm] at h
    unfold mgf at h
    rw [hint] at h
    refine le_trans h (Real.exp_le_exp.2 (le_of_eq ?_))
    have e : ((‖g - -g‖₊ : NNReal) : ℝ) = 2 * g := by
      rw [coe_nnnorm, Real.norm_of_nonneg (by linarith)]; ring
    push_cast
    rw [show ‖g - -g‖ = 2 * g by rw [Real.norm_of_nonneg (by linarith)]; ring]
    ring
  · simp at hw

/-- Markov's inequality for a weighted sum. -/
theorem markov {Ω : Type} [Fintype Ω] (P : Ω → ℝ) (hP : ∀ ω, 0 ≤ P ω) (A : Ω → Prop) [DecidablePred A] (f : Ω → ℝ) (hf : ∀ ω, 0 ≤ f ω)
    (hA : ∀ ω, A ω → 1 ≤ f ω) : (∑ ω, if A ω then P ω else 0) ≤ ∑ ω, P ω * f ω := by
  refine Finset.sum_le_sum fun ω _ => ?_
  split
  · next h => exact le_mul_of_one_le_right (hP ω) (hA ω h)
  · exact mul_nonneg (hP ω) (hf ω)

theorem hoeffding_one (n : ℕ) (hn : 0 < n) (w : T → ℝ) (h0 : ∀ x, 0 ≤ w x) (hw : ∑ x, w x = 1) (X : T → ℝ) (g : ℝ) (hg : 0 < g) (hX : ∀ x, |X x| ≤ g) (m : ℝ)
    (hm : ∑ x, w x * X x = m) (ε : ℝ) (hε : 0 ≤ ε) (A : (Fin n → T) → Prop) [DecidablePred A] (hA : ∀ ω, A ω → ε ≤ avg X ω - m) :
    (∑ ω : Fin n → T, if A ω then ∏ t, w (ω t) else 0) ≤ Real.exp (-(n * ε ^ 2 / (2 * g ^ 2))) := by
  have hn' : (0 : ℝ) < n := by exact_mod_cast hn
  set l : ℝ := ε / g ^ 2 with hl
  have hl0 : 0 ≤ l := by positivity
  have h1 := markov (fun ω : Fin n → T => ∏ t, w (ω t)) (fun ω => Finset.prod_nonneg fun _ _ => h0 _) A (fun ω => Real.exp (l * n * (avg X ω - m - ε)))
    (fun _ => (Real.exp_pos _).le) fun ω h => Real.one_le_exp (mul_nonneg (by positivity) (by have := hA ω h; linarith))
  refine le_trans h1 ?_
  have h2 : ∀ ω : Fin n → T, Real.exp (l * n * (avg X ω - m - ε)) = Real.exp (-(l * n * ε)) * ∏ t, Real.exp (l * (X (ω t) - m)) := by
    intro ω
    rw [← Real.exp_sum, ← Real.exp_add]
    congr 1
    unfold avg
    rw [← Finset.mul_sum, Finset.sum_sub_distrib]
    simp only [Finset.sum_const, Finset.card_univ, Fintype.card_fin, nsmul_eq_mul]
    field_simp
    ring
  simp only [h2]
  have h3 : ∑ ω : Fin n → T, (∏ t, w (ω t)) * (Real.exp (-(l * n * ε)) * ∏ t, Real.exp (l * (X (ω t) - m))) =
      Real.exp (-(l * n * ε)) * (∑ x, w x * Real.exp (l * (X x - m))) ^ n := by
    rw [← Finset.card_fin n, ← Finset.prod_const, Finset.card_fin, ← prod_expect n w fun _ x => Real.exp (l * (X x - m)), Finset.mul_sum]
    exact Finset.sum_congr rfl fun ω _ => by ring
  rw [h3]
  calc Real.exp (-(l * n * ε)) * (∑ x, w x * Real.exp (l * (X x - m))) ^ n
      ≤ Real.exp (-(l * n * ε)) * Real.exp (l ^ 2 * g ^ 2 / 2) ^ n := by
        refine mul_le_mul_of_nonneg_left (pow_le_pow_left₀ (Finset.sum_nonneg fun x _ => mul_nonneg (h0 x) (Real.exp_pos _).le)
          (mgf_bounded w h0 hw X g hX m hm l) n) (Real.exp_pos _).le
    _ = Real.exp (-(n * ε ^ 2 / (2 * g ^ 2))) := by
        rw [← Real.exp_nat_mul, ← Real.exp_add]
        congr 1
        rw [hl]
        field_simp
        ring

/-- The mean of independent draws of numbers between `-g` and `g` differs by `ε` or more from its expectation with probability at most
`2 exp (-n ε² / (2 g²))`. -/
theorem hoeffding (n : ℕ) (hn : 0 < n) (w : T → ℝ) (h0 : ∀ x, 0 ≤ w x) (hw : ∑ x, w x = 1) (X : T → ℝ) (g : ℝ) (hg : 0 < g) (hX : ∀ x, |X x| ≤ g) (m : ℝ)
    (hm : ∑ x, w x * X x = m) (ε : ℝ) (hε : 0 ≤ ε) (A : (Fin n → T) → Prop) [DecidablePred A] (hA : ∀ ω, A ω → ε ≤ |avg X ω - m|) :
    (∑ ω : Fin n → T, if A ω then ∏ t, w (ω t) else 0) ≤ 2 * Real.exp (-(n * ε ^ 2 / (2 * g ^ 2))) := by
  classical
  have h1 := hoeffding_one n hn w h0 hw X g hg hX m hm ε hε (fun ω => ε ≤ avg X ω - m) fun _ h => h
  have h2 := hoeffding_one n hn w h0 hw (fun x => -X x) g hg (fun x => by rw [abs_neg]; exact hX x) (-m) (by simp [← hm]) ε hε
    (fun ω => ε ≤ m - avg X ω) fun ω h => by
      have : avg (fun x => -X x) ω = -avg X ω := by unfold avg; simp [Finset.sum_neg_distrib, neg_div]
      rw [this]; linarith
  rw [two_mul]
  refine le_trans ?_ (add_le_add h1 h2)
  rw [← Finset.sum_add_distrib]
  refine Finset.sum_le_sum fun ω _ => ?_
  have hp : 0 ≤ ∏ t, w (ω t) := Finset.prod_nonneg fun _ _ => h0 _
  by_cases h : A ω
  · rw [if_pos h]
    rcases le_abs.1 (hA ω h) with h | h
    · rw [if_pos h]; split <;> linarith
    · have h : ε ≤ m - avg X ω := by linarith
      rw [if_pos h]; split <;> linarith
  · rw [if_neg h]
    split <;> split <;> linarith

/-- The same by Chebyshev's inequality. -/
theorem chebyshev_abs (n : ℕ) (hn : 0 < n) (w : T → ℝ) (h0 : ∀ x, 0 ≤ w x) (hw : ∑ x, w x = 1) (X : T → ℝ) (g : ℝ) (hX : ∀ x, |X x| ≤ g) (m : ℝ)
    (hm : ∑ x, w x * X x = m) (ε : ℝ) (hε : 0 < ε) (A : (Fin n → T) → Prop) [DecidablePred A] (hA : ∀ ω, A ω → ε ≤ |avg X ω - m|) :
    (∑ ω : Fin n → T, if A ω then ∏ t, w (ω t) else 0) ≤ g ^ 2 / (n * ε ^ 2) := by
  have hn' : (0 : ℝ) < n := by exact_mod_cast hn
  have h1 := markov (fun ω : Fin n → T => ∏ t, w (ω t)) (fun ω => Finset.prod_nonneg fun _ _ => h0 _) A (fun ω => (avg X ω - m) ^ 2 / ε ^ 2)
    (fun _ => by positivity) fun ω h => by
      rw [le_div_iff₀ (by positivity), one_mul, ← sq_abs (avg X ω - m)]
      exact pow_le_pow_left₀ hε.le (hA ω h) 2
  refine le_trans h1 ?_
  have e : ∀ ω : Fin n → T, (∏ t, w (ω t)) * ((avg X ω - m) ^ 2 / ε ^ 2) = (∏ t, w (ω t)) * (avg X ω - m) ^ 2 / ε ^ 2 := fun ω => by ring
  simp only [e]
  rw [← Finset.sum_div, avg_variance n hn w hw X m hm, div_div]
  refine div_le_div_of_nonneg_right ?_ (by positivity)
  have : ∑ x, w x * X x ^ 2 ≤ g ^ 2 := by
    calc ∑ x, w x * X x ^ 2 ≤ ∑ x, w x * g ^ 2 := Finset.sum_le_sum fun x _ => mul_le_mul_of_nonneg_left (by
          rw [← sq_abs (X x)]; exact pow_le_pow_left₀ (abs_nonneg _) (hX x) 2) (h0 x)
      _ = g ^ 2 := by rw [← Finset.sum_mul, hw, one_mul]
  nlinarith [sq_nonneg m]

/-- The variance computed from the draws is on average `1 - 1/n` times the true variance of their mean. -/
theorem sample_variance (n : ℕ) (hn : 0 < n) (w : T → ℝ) (hw : ∑ x, w x = 1) (X : T → ℝ) (m : ℝ) (hm : ∑ x, w x * X x = m) :
    ∑ ω : Fin n → T, (∏ t, w (ω t)) * ((avg (fun x => X x ^ 2) ω - avg X ω ^ 2) / n) =
      (1 - 1 / n) * ∑ ω : Fin n → T, (∏ t, w (ω t)) * (avg X ω - m) ^ 2 := by
  have hn' : (n : ℝ) ≠ 0 := by exact_mod_cast hn.ne'
  have h1 := avg_mean n hn w hw (fun x => X x ^ 2)
  have h2 := avg_mean n hn w hw X
  have h3 := avg_variance n hn w hw X m hm
  have h4 := draws_sum_one n w hw
  have h5 : ∑ ω : Fin n → T, (∏ t, w (ω t)) * avg X ω ^ 2 = (∑ x, w x * X x ^ 2 - m ^ 2) / n + m ^ 2 := by
    have e : ∀ ω : Fin n → T, (∏ t, w (ω t)) * avg X ω ^ 2 =
        (∏ t, w (ω t)) * (avg X ω - m) ^ 2 + 2 * m * ((∏ t, w (ω t)) * avg X ω) - m ^ 2 * ∏ t, w (ω t) := fun ω => by ring
    simp only [e]
    rw [Finset.sum_sub_distrib, Finset.sum_add_distrib, ← Finset.mul_sum, ← Finset.mul_sum, h3, h2, h4, hm]
    ring
  have e : ∀ ω : Fin n → T, (∏ t, w (ω t)) * ((avg (fun x => X x ^ 2) ω - avg X ω ^ 2) / n) =
      ((∏ t, w (ω t)) * avg (fun x => X x ^ 2) ω - (∏ t, w (ω t)) * avg X ω ^ 2) / n := fun ω => by ring
  simp only [e]
  rw [← Finset.sum_div, Finset.sum_sub_distrib, h1, h5, h3]
  field_simp
  ring

end Verif.Expval
