import Verif.Tomo.SpecGstShots
import Verif.Expval.PropsCalShots
import Mathlib.Analysis.Matrix.Normed
/-
C137: how accurate linear inversion gate set tomography is from finitely many shots.
-/
namespace Verif.Tomo
open Verif Verif.Counts Matrix
variable {ι : Type}

attribute [local instance] Matrix.linftyOpNormedRing

/-! ### Norms -/

theorem norm_le_rows {n : ℕ} (A : Matrix (Fin n) (Fin n) ℝ) (g : ℝ) (hg : 0 ≤ g) : ‖A‖ ≤ g ↔ RowsAtMost g A := by
  have e : ‖A‖ = ((Finset.univ : Finset (Fin n)).sup fun i => ∑ j, ‖A i j‖₊ : NNReal) := Matrix.linfty_opNorm_def A
  rw [e, ← Real.coe_toNNReal g hg, NNReal.coe_le_coe, Finset.sup_le_iff]
  unfold RowsAtMost
  simp only [Finset.mem_univ, true_implies]
  refine forall_congr' fun i => ?_
  rw [← NNReal.coe_le_coe, NNReal.coe_sum]
  simp

theorem norm_entries {n : ℕ} (A : Matrix (Fin n) (Fin n) ℝ) (e : ℝ) (he : 0 ≤ e) (h : ∀ i j, |A i j| ≤ e) : ‖A‖ ≤ n * e := by
  rw [norm_le_rows _ _ (by positivity)]
  intro i
  calc ∑ j, |A i j| ≤ ∑ _j : Fin n, e := Finset.sum_le_sum fun j _ => h i j
    _ = n * e := by simp

theorem norm_mulVec_le {n : ℕ} (A : Matrix (Fin n) (Fin n) ℝ) (v : Fin n → ℝ) : ‖A *ᵥ v‖ ≤ ‖A‖ * ‖v‖ := Matrix.linfty_opNorm_mulVec A v

theorem dot_le {n : ℕ} (u v : Fin n → ℝ) (a b : ℝ) (ha : 0 ≤ a) (hu : ‖u‖ ≤ a) (hv : ‖v‖ ≤ b) : |u ⬝ᵥ v| ≤ n * (a * b) := by
  unfold dotProduct
  calc |∑ i, u i * v i| ≤ ∑ i, |u i * v i| := Finset.abs_sum_le_sum_abs _ _
    _ ≤ ∑ _i : Fin n, a * b := Finset.sum_le_sum fun i _ => by
        rw [abs_mul]
        exact mul_le_mul ((norm_le_pi_norm u i).trans hu) ((norm_le_pi_norm v i).trans hv) (abs_nonneg _) ha
    _ = n * (a * b) := by simp

/-- A matrix near an invertible one is invertible, and its inverse is not much larger. -/
theorem near_inverse {n : ℕ} (A A' : Matrix (Fin n) (Fin n) ℝ) (g η : ℝ) (hA : IsUnit A.det) (hg : ‖A⁻¹‖ ≤ g) (hg0 : 0 ≤ g) (hη : ‖A' - A‖ ≤ η)
    (hlt : g * η < 1) : IsUnit A'.det ∧ ‖A'⁻¹‖ ≤ g / (1 - g * η) := by
  have hη0 : 0 ≤ η := (norm_nonneg _).trans hη
  have hu : IsUnit A' := by
    rw [← Matrix.mulVec_injective_iff_isUnit]
    intro u u' huu
    have hz : A' *ᵥ (u - u') = 0 := by rw [Matrix.mulVec_sub, huu, sub_self]
    have e : u - u' = -(A⁻¹ *ᵥ ((A' - A) *ᵥ (u - u'))) := by
      rw [Matrix.sub_mulVec, hz, zero_sub, Matrix.mulVec_neg, neg_neg, Matrix.mulVec_mulVec, Matrix.nonsing_inv_mul _ hA, Matrix.one_mulVec]
    have h1 : ‖u - u'‖ ≤ g * η * ‖u - u'‖ := by
      calc ‖u - u'‖ = ‖A⁻¹ *ᵥ ((A' - A) *ᵥ (u - u'))‖ := by conv_lhs => rw [e, norm_neg]
        _ ≤ ‖A⁻¹‖ * ‖(A' - A) *ᵥ (u - u')‖ := norm_mulVec_le _ _
        _ ≤ g * (η * ‖u - u'‖) := mul_le_mul hg ((norm_mulVec_le _ _).trans (mul_le_mul_of_nonneg_right hη (norm_nonneg _))) (norm_nonneg _) hg0
        _ = _ := by ring
    have h2 : ‖u - u'‖ = 0 := by
      by_contra hne
      have : 0 < ‖u - u'‖ := lt_of_le_of_ne (norm_nonneg _) (Ne.symm hne)
      nlinarith
    exact sub_eq_zero.1 (norm_eq_zero.1 h2)
  have hd : IsUnit A'.det := (Matrix.isUnit_iff_isUnit_det A').1 hu
  refine ⟨hd, ?_⟩
  have e : A'⁻¹ = A⁻¹ - A⁻¹ * (A' - A) * A'⁻¹ := by
    rw [Matrix.mul_sub, Matrix.sub_mul, Matrix.nonsing_inv_mul _ hA, Matrix.mul_assoc, Matrix.mul_nonsing_inv _ hd, Matrix.mul_one, Matrix.one_mul]
    abel
  have h1 : ‖A'⁻¹‖ ≤ g + g * η * ‖A'⁻¹‖ := by
    calc ‖A'⁻¹‖ = ‖A⁻¹ - A⁻¹ * (A' - A) * A'⁻¹‖ := by rw [← e]
      _ ≤ ‖A⁻¹‖ + ‖A⁻¹ * (A' - A) * A'⁻¹‖ := norm_sub_le _ _
      _ ≤ g + g * η * ‖A'⁻¹‖ := by
          refine add_le_add hg ((norm_mul_le _ _).trans (mul_le_mul_of_nonneg_right ((norm_mul_le _ _).trans ?_) (norm_nonneg _)))
          exact mul_le_mul hg hη (norm_nonneg _) hg0
  rw [le_div_iff₀ (by linarith)]
  linarith

/-! ### Linear inversion of nearly exact probabilities -/

/-- The probabilities are within `ε` of those of the device. -/
structure NearProbs {d : ℕ} (D : Device d) (spec : Str → List Str) (spam gates : List Str) (ε : ℝ) (probs : Dict Key ℝ) : Prop where
  one : ∀ f ∈ spam, ∃ p, probs.get? (.state [f]) = some p ∧ |p - D.run (spec f)| ≤ ε
  two : ∀ f ∈ spam, ∀ f' ∈ spam, ∃ p, probs.get? (.state [f, f']) = some p ∧ |p - D.run (spec f ++ spec f')| ≤ ε
  three : ∀ f ∈ spam, ∀ g ∈ gates, ∀ f' ∈ spam, ∃ p, probs.get? (.state [f, g, f']) = some p ∧ |p - D.run (spec f ++ [g] ++ spec f')| ≤ ε

/-- The circuits of gate set tomography have probabilities. -/
structure ProbRuns {d : ℕ} (D : Device d) (spec : Str → List Str) (spam gates : List Str) : Prop where
  one : ∀ f ∈ spam, |D.run (spec f)| ≤ 1
  three : ∀ f ∈ spam, ∀ g ∈ gates, ∀ f' ∈ spam, |D.run (spec f ++ [g] ++ spec f')| ≤ 1

theorem needed_near {d : ℕ} (D : Device d) (spec : Str → List Str) (spam gates : List Str) (ε : ℝ) (probs : Dict Key ℝ)
    (h : NearProbs D spec spam gates ε probs) : ((gstNeeded spam gates).all fun k => probs.has k) = true := by
  rw [List.all_eq_true]
  intro k hk
  simp only [gstNeeded, List.mem_flatMap, List.mem_cons, List.mem_map] at hk
  obtain ⟨f, hf, rfl | ⟨f', hf', rfl | ⟨g, hg, rfl⟩⟩⟩ := hk
  · obtain ⟨p, hp, _⟩ := h.one f hf
    rw [Dict.has, hp]; rfl
  · obtain ⟨p, hp, _⟩ := h.two f' hf' f hf
    rw [Dict.has, hp]; rfl
  · obtain ⟨p, hp, _⟩ := h.three f' hf' g hg f hf
    rw [Dict.has, hp]; rfl

theorem inversion_near (spam gates : List Str) (D : Device spam.length) (spec : Str → List Str) (probs : Dict Key ℝ) (g ε : ℝ) (hg0 : 0 ≤ g) (hε : 0 ≤ ε)
    (h : NearProbs D spec spam gates ε probs) (hp : ProbRuns D spec spam gates) (hic : InfoComplete D spec spam)
    (hg : RowsAtMost g (trueGram D spec spam)⁻¹) (hlt : g * (spam.length * ε) < 1) (hE : "E".toList ∉ gates) (hr : "rho".toList ∉ gates) :
    ∃ res D', linearInversion spam gates probs = some res ∧ Describes res gates D' ∧ IsUnit (prepCols D spec spam).det ∧
      NearDevice gates D' ⟨D.E ᵥ* prepCols D spec spam, (prepCols D spec spam)⁻¹ *ᵥ D.rho, fun g => (prepCols D spec spam)⁻¹ * D.gate g * prepCols D spec spam⟩
        ε (gstError spam.length g ε) ∧
      (∀ i, |(D.E ᵥ* prepCols D spec spam) i| ≤ 1) ∧ (∀ i, |((prepCols D spec spam)⁻¹ *ᵥ D.rho) i| ≤ g) ∧
      ∀ x ∈ gates, RowsAtMost (spam.length * g) ((prepCols D spec spam)⁻¹ * D.gate x * prepCols D spec spam) := by
  set B := prepCols D spec spam with hBdef
  set M := measRows D spec spam with hMdef
  set A' := gramMatrix spam probs with hA'
  have hgram : trueGram D spec spam = M * B := gram_eq D spec spam
  rw [hgram] at hg
  have hic' : (M * B).det ≠ 0 := by rw [← hgram]; exact hic
  have hdet := hic'
  rw [Matrix.det_mul] at hic'
  have hM : IsUnit M.det := isUnit_iff_ne_zero.2 (left_ne_zero_of_mul hic')
  have hB : IsUnit B.det := isUnit_iff_ne_zero.2 (right_ne_zero_of_mul hic')
  have hA : IsUnit (M * B).det := isUnit_iff_ne_zero.2 hdet
  have hgn : ‖(M * B)⁻¹‖ ≤ g := (norm_le_rows _ _ hg0).2 hg
  have hΔ : ‖A' - M * B‖ ≤ spam.length * ε := by
    refine norm_entries _ _ hε fun i j => ?_
    obtain ⟨p, h1, h2⟩ := h.two _ (List.getElem_mem j.2) _ (List.getElem_mem i.2)
    have : A' i j = p := getD_of_get? _ _ _ _ h1
    rw [Matrix.sub_apply, this, ← hgram]
    exact h2
  obtain ⟨hA'u, hA'n⟩ := near_inverse (M * B) A' g (spam.length * ε) hA hgn hg0 hΔ hlt
  set K := g / (1 - g * (spam.length * ε)) with hK
  have hK0 : 0 ≤ K := div_nonneg hg0 (by linarith)
  -- the exact values
  have hrho0 : ‖B⁻¹ *ᵥ D.rho‖ ≤ g := by
    have e : B⁻¹ *ᵥ D.rho = (M * B)⁻¹ *ᵥ (M *ᵥ D.rho) := by
      rw [Matrix.mul_inv_rev, Matrix.mulVec_mulVec, Matrix.mul_assoc, Matrix.nonsing_inv_mul _ hM, Matrix.mul_one]
    rw [e]
    refine (norm_mulVec_le _ _).trans ?_
    calc ‖(M * B)⁻¹‖ * ‖M *ᵥ D.rho‖ ≤ g * 1 := by
          refine mul_le_mul hgn ((pi_norm_le_iff_of_nonneg zero_le_one).2 fun i => ?_) (norm_nonneg _) hg0
          rw [hMdef, measRows_mulVec, ← run_eq, Real.norm_eq_abs]
          exact hp.one _ (List.getElem_mem _)
      _ = g := mul_one g
  have hΓ : ∀ x ∈ gates, ‖M * D.gate x * B‖ ≤ spam.length := by
    intro x hx
    refine (norm_entries _ 1 zero_le_one fun i j => ?_).trans (by simp)
    have : (M * D.gate x * B) i j = D.run (spec spam[j] ++ [x] ++ spec spam[i]) := by
      rw [mul_prepCols, ← Matrix.mulVec_mulVec, hMdef, measRows_mulVec, run_eq, seq_append, seq_append, seq_single, ← Matrix.mulVec_mulVec, ← Matrix.mulVec_mulVec]
    rw [this]
    exact hp.three _ (List.getElem_mem _) x hx _ (List.getElem_mem _)
  have hG0 : ∀ x ∈ gates, ‖B⁻¹ * D.gate x * B‖ ≤ spam.length * g := by
    intro x hx
    have e : B⁻¹ * D.gate x * B = (M * B)⁻¹ * (M * D.gate x * B) := by
      rw [Matrix.mul_inv_rev]
      simp only [Matrix.mul_assoc]
      rw [← Matrix.mul_assoc M⁻¹ M, Matrix.nonsing_inv_mul _ hM, Matrix.one_mul]
    rw [e, mul_comm (spam.length : ℝ)]
    exact (norm_mul_le _ _).trans (mul_le_mul hgn (hΓ x hx) (norm_nonneg _) hg0)
  have hE0 : ∀ i, (D.E ᵥ* B) i = D.run (spec spam[i]) := by
    intro i
    rw [run_eq]; rfl
  -- the result
  have hne : A'.det ≠ 0 := hA'u.ne_zero
  have hlin : linearInversion spam gates probs = some (((gates.foldl (fun d g => Dict.set d g (.gate (A'⁻¹ * gateData spam probs g))) []).set "E".toList
      (.meas (gstVector spam probs))).set "rho".toList (.prep (A'⁻¹ *ᵥ gstVector spam probs))) := by
    unfold linearInversion
    rw [if_pos (needed_near D spec spam gates ε probs h), if_neg hne]
  have hvec : ∀ i, |gstVector spam probs i - D.run (spec spam[i])| ≤ ε := by
    intro i
    obtain ⟨p, h1, h2⟩ := h.one _ (List.getElem_mem i.2)
    have : gstVector spam probs i = p := getD_of_get? _ _ _ _ h1
    rw [this]; exact h2
  refine ⟨_, ⟨gstVector spam probs, A'⁻¹ *ᵥ gstVector spam probs, fun x => A'⁻¹ * gateData spam probs x⟩, hlin, ⟨?_, ?_, ?_⟩, hB, ⟨?_, ?_, ?_⟩, ?_, ?_, ?_⟩
  · intro x hx
    rw [Dict.get?_set, if_neg (ne_of_notMem hr hx), Dict.get?_set, if_neg (ne_of_notMem hE hx), get?_foldl_set, if_pos hx]
  · rw [Dict.get?_set, if_neg (by decide), Dict.get?_set_self]
  · rw [Dict.get?_set_self]
  · intro i
    simp only
    rw [hE0]
    exact hvec i
  · -- the state
    have e : A'⁻¹ *ᵥ gstVector spam probs - B⁻¹ *ᵥ D.rho = A'⁻¹ *ᵥ ((gstVector spam probs - M *ᵥ D.rho) - (A' - M * B) *ᵥ (B⁻¹ *ᵥ D.rho)) := by
      have h1 : (M * B) *ᵥ (B⁻¹ *ᵥ D.rho) = M *ᵥ D.rho := by
        rw [Matrix.mulVec_mulVec, Matrix.mul_assoc, Matrix.mul_nonsing_inv _ hB, Matrix.mul_one]
      rw [Matrix.sub_mulVec, h1, sub_sub_sub_cancel_right, Matrix.mulVec_sub, Matrix.mulVec_mulVec _ A'⁻¹ A', Matrix.nonsing_inv_mul _ hA'u, Matrix.one_mulVec]
    have hnorm : ‖A'⁻¹ *ᵥ gstVector spam probs - B⁻¹ *ᵥ D.rho‖ ≤ K * (ε * (1 + spam.length * g)) := by
      rw [e]
      refine (norm_mulVec_le _ _).trans (mul_le_mul hA'n ?_ (norm_nonneg _) hK0)
      refine (norm_sub_le _ _).trans ?_
      have h1 : ‖gstVector spam probs - M *ᵥ D.rho‖ ≤ ε := by
        refine (pi_norm_le_iff_of_nonneg hε).2 fun i => ?_
        rw [Pi.sub_apply, hMdef, measRows_mulVec, ← run_eq, Real.norm_eq_abs]
        exact hvec i
      have h2 : ‖(A' - M * B) *ᵥ (B⁻¹ *ᵥ D.rho)‖ ≤ spam.length * ε * g :=
        (norm_mulVec_le _ _).trans (mul_le_mul hΔ hrho0 (norm_nonneg _) (by positivity))
      calc _ ≤ ε + spam.length * ε * g := add_le_add h1 h2
        _ = ε * (1 + spam.length * g) := by ring
    intro i
    have := (norm_le_pi_norm _ i).trans hnorm
    rwa [Pi.sub_apply, Real.norm_eq_abs] at this
  · -- the gates
    intro x hx
    have hgd : ‖gateData spam probs x - M * D.gate x * B‖ ≤ spam.length * ε := by
      refine norm_entries _ _ hε fun i j => ?_
      obtain ⟨p, h1, h2⟩ := h.three _ (List.getElem_mem j.2) x hx _ (List.getElem_mem i.2)
      have h3 : gateData spam probs x i j = p := getD_of_get? _ _ _ _ h1
      have h4 : (M * D.gate x * B) i j = D.run (spec spam[j] ++ [x] ++ spec spam[i]) := by
        rw [mul_prepCols, ← Matrix.mulVec_mulVec, hMdef, measRows_mulVec, run_eq, seq_append, seq_append, seq_single, ← Matrix.mulVec_mulVec, ← Matrix.mulVec_mulVec]
      rw [Matrix.sub_apply, h3, h4]
      exact h2
    have e : A'⁻¹ * gateData spam probs x - B⁻¹ * D.gate x * B =
        A'⁻¹ * ((gateData spam probs x - M * D.gate x * B) - (A' - M * B) * (B⁻¹ * D.gate x * B)) := by
      have h1 : M * B * (B⁻¹ * D.gate x * B) = M * D.gate x * B := by
        simp only [Matrix.mul_assoc]
        rw [← Matrix.mul_assoc B B⁻¹, Matrix.mul_nonsing_inv _ hB, Matrix.one_mul]
      rw [Matrix.sub_mul, h1, sub_sub_sub_cancel_right, Matrix.mul_sub, ← Matrix.mul_assoc A'⁻¹ A', Matrix.nonsing_inv_mul _ hA'u, Matrix.one_mul]
    have hL : 0 ≤ spam.length * gstError spam.length g ε := by
      unfold gstError
      rw [← hK]; positivity
    refine (norm_le_rows _ _ hL).1 ?_
    simp only
    rw [e]
    refine (norm_mul_le _ _).trans ?_
    calc _ ≤ K * (spam.length * ε + spam.length * ε * (spam.length * g)) := by
          refine mul_le_mul hA'n ((norm_sub_le _ _).trans (add_le_add hgd ?_)) (norm_nonneg _) hK0
          exact (norm_mul_le _ _).trans (mul_le_mul hΔ (hG0 x hx) (norm_nonneg _) (by positivity))
      _ = spam.length * gstError spam.length g ε := by unfold gstError; rw [← hK]; ring
  · intro i
    rw [hE0]
    exact hp.one _ (List.getElem_mem _)
  · intro i
    exact (norm_le_pi_norm (B⁻¹ *ᵥ D.rho) i).trans hrho0
  · intro x hx
    exact (norm_le_rows _ _ (by positivity)).1 (hG0 x hx)

/-! ### Predictions of nearly equal devices -/

theorem near_run {n : ℕ} (gates : List Str) (D' D : Device n) (g e r : ℝ) (hg0 : 0 ≤ g) (he : 0 ≤ e) (hr : 0 ≤ r) (h : NearDevice gates D' D e r)
    (hE : ∀ i, |D.E i| ≤ 1) (hrho : ∀ i, |D.rho i| ≤ g) (hgate : ∀ x ∈ gates, RowsAtMost (n * g) (D.gate x)) (w : List Str) (hw : ∀ x ∈ w, x ∈ gates) :
    |D'.run w - D.run w| ≤ (1 + e) * (n * (g + r)) ^ (w.length + 1) - (n * g) ^ (w.length + 1) := by
  have key : ∀ w : List Str, (∀ x ∈ w, x ∈ gates) → ‖w.foldl (fun v g => D.gate g *ᵥ v) D.rho‖ ≤ (n * g) ^ w.length * g ∧
      ‖w.foldl (fun v g => D'.gate g *ᵥ v) D'.rho - w.foldl (fun v g => D.gate g *ᵥ v) D.rho‖ ≤
        (n * (g + r)) ^ w.length * (g + r) - (n * g) ^ w.length * g := by
    intro w hw
    induction w using List.reverseRecOn with
    | nil =>
      simp only [List.foldl_nil, List.length_nil, pow_zero, one_mul, add_sub_cancel_left]
      exact ⟨(pi_norm_le_iff_of_nonneg hg0).2 hrho, (pi_norm_le_iff_of_nonneg hr).2 h.prep⟩
    | append_singleton w x ih =>
      obtain ⟨i1, i2⟩ := ih fun y hy => hw y (by simp [hy])
      have hx : x ∈ gates := hw x (by simp)
      simp only [List.foldl_append, List.foldl_cons, List.foldl_nil, List.length_append, List.length_cons, List.length_nil, zero_add]
      set v := w.foldl (fun v g => D.gate g *ᵥ v) D.rho
      set v' := w.foldl (fun v g => D'.gate g *ᵥ v) D'.rho
      have hG : ‖D.gate x‖ ≤ n * g := (norm_le_rows _ _ (by positivity)).2 (hgate x hx)
      have hd : ‖D'.gate x - D.gate x‖ ≤ n * r := (norm_le_rows _ _ (by positivity)).2 (h.gate x hx)
      have hG' : ‖D'.gate x‖ ≤ n * (g + r) := by
        calc ‖D'.gate x‖ = ‖D.gate x + (D'.gate x - D.gate x)‖ := by congr 1; abel
          _ ≤ _ := norm_add_le _ _
          _ ≤ n * g + n * r := add_le_add hG hd
          _ = _ := by ring
      constructor
      · refine (norm_mulVec_le _ _).trans ?_
        calc _ ≤ n * g * ((n * g) ^ w.length * g) := mul_le_mul hG i1 (norm_nonneg _) (by positivity)
          _ = _ := by ring
      · have e1 : D'.gate x *ᵥ v' - D.gate x *ᵥ v = D'.gate x *ᵥ (v' - v) + (D'.gate x - D.gate x) *ᵥ v := by
          rw [Matrix.mulVec_sub, Matrix.sub_mulVec]; abel
        rw [e1]
        refine (norm_add_le _ _).trans ?_
        calc _ ≤ n * (g + r) * ((n * (g + r)) ^ w.length * (g + r) - (n * g) ^ w.length * g) + n * r * ((n * g) ^ w.length * g) := by
              refine add_le_add ((norm_mulVec_le _ _).trans ?_) ((norm_mulVec_le _ _).trans ?_)
              · exact mul_le_mul hG' i2 (norm_nonneg _) (by positivity)
              · exact mul_le_mul hd i1 (norm_nonneg _) (by positivity)
          _ = _ := by ring
  obtain ⟨k1, k2⟩ := key w hw
  unfold Device.run
  set v := w.foldl (fun v g => D.gate g *ᵥ v) D.rho
  set v' := w.foldl (fun v g => D'.gate g *ᵥ v) D'.rho
  have e1 : D'.E ⬝ᵥ v' - D.E ⬝ᵥ v = (D'.E - D.E) ⬝ᵥ v' + D.E ⬝ᵥ (v' - v) := by
    rw [sub_dotProduct, dotProduct_sub]; ring
  have hv' : ‖v'‖ ≤ (n * (g + r)) ^ w.length * (g + r) := by
    calc ‖v'‖ = ‖v + (v' - v)‖ := by congr 1; abel
      _ ≤ _ := norm_add_le _ _
      _ ≤ _ := add_le_add k1 k2
      _ = _ := by ring
  rw [e1]
  refine (abs_add_le _ _).trans ?_
  calc _ ≤ n * (e * ((n * (g + r)) ^ w.length * (g + r))) + n * (1 * ((n * (g + r)) ^ w.length * (g + r) - (n * g) ^ w.length * g)) := by
        refine add_le_add (dot_le _ _ _ _ he ((pi_norm_le_iff_of_nonneg he).2 h.meas) hv')
          (dot_le _ _ _ _ zero_le_one ((pi_norm_le_iff_of_nonneg zero_le_one).2 hE) k2)
    _ = _ := by ring

/-! ### Shots -/

/-- `1` for outcome 0 and `-1` for outcome 1. -/
def sgn (x : Bool) : ℝ := if x then -1 else 1

theorem avg_sgn {N : ℕ} (hN : 0 < N) (u : Fin N → Bool) :
    Verif.QV.avg sgn u = 2 * (((Finset.univ.filter fun t => u t = false).card : ℝ) / N) - 1 := by
  have hN' : (0 : ℝ) < N := by exact_mod_cast hN
  have e : ∑ t, sgn (u t) = 2 * ((Finset.univ.filter fun t => u t = false).card : ℝ) - N := by
    rw [Finset.card_filter]
    push_cast
    rw [Finset.mul_sum]
    have : (N : ℝ) = ∑ _t : Fin N, (1 : ℝ) := by simp
    rw [this, ← Finset.sum_sub_distrib]
    refine Finset.sum_congr rfl fun t _ => ?_
    unfold sgn
    cases u t <;> norm_num
  unfold Verif.QV.avg
  rw [e]
  field_simp

/-- One circuit: the relative frequency is rarely far from the probability. -/
theorem shots_one {N : ℕ} (hN : 0 < N) (p : ℝ) (h0 : 0 ≤ p) (h1 : p ≤ 1) (ε : ℝ) (hε : 0 ≤ ε) (A : (Fin N → Bool) → Prop) [DecidablePred A]
    (hA : ∀ u, A u → ε ≤ |((Finset.univ.filter fun t => u t = false).card : ℝ) / N - p|) :
    (∑ u : Fin N → Bool, if A u then ∏ t, (if u t then 1 - p else p) else 0) ≤ 2 * Real.exp (-(2 * N * ε ^ 2)) := by
  have := Verif.Expval.hoeffding N hN (fun x : Bool => if x then 1 - p else p) (fun x => by split <;> linarith) (by simp) sgn 1 one_pos
    (fun x => by unfold sgn; split <;> simp) (2 * p - 1) (by simp [sgn]; ring) (2 * ε) (by linarith) A fun u hu => by
      rw [avg_sgn hN]
      have := hA u hu
      rw [show 2 * (((Finset.univ.filter fun t => u t = false).card : ℝ) / N) - 1 - (2 * p - 1) =
        2 * (((Finset.univ.filter fun t => u t = false).card : ℝ) / N - p) by ring, abs_mul, abs_of_pos (by norm_num : (0 : ℝ) < 2)]
      linarith
  refine this.trans (le_of_eq ?_)
  congr 2
  ring

theorem gstRunsProb_nonneg {M N : ℕ} (p : Fin M → ℝ) (h0 : ∀ i, 0 ≤ p i) (h1 : ∀ i, p i ≤ 1) (ω : GstRuns M N) : 0 ≤ gstRunsProb p ω :=
  Finset.prod_nonneg fun i _ => Finset.prod_nonneg fun t _ => by split <;> linarith [h0 i, h1 i]

theorem shot_total {N : ℕ} (p : ℝ) : ∑ u : Fin N → Bool, ∏ t, (if u t then 1 - p else p) = 1 := by
  have := Verif.Expval.product_one (I := Fin N) (U := Bool) (fun _ x => if x then 1 - p else p) fun _ => by simp
  exact this

/-- All circuits: some relative frequency is far from its probability only rarely. -/
theorem shots_union {M N : ℕ} (hN : 0 < N) (p : Fin M → ℝ) (h0 : ∀ i, 0 ≤ p i) (h1 : ∀ i, p i ≤ 1) (ε : ℝ) (hε : 0 ≤ ε) (Good : GstRuns M N → Prop)
    [DecidablePred Good] (hG : ∀ ω, (∀ i, |(gstZeros ω i : ℝ) / N - p i| ≤ ε) → Good ω) :
    (∑ ω : GstRuns M N, if Good ω then 0 else gstRunsProb p ω) ≤ M * (2 * Real.exp (-(2 * N * ε ^ 2))) := by
  classical
  let bad : Fin M → (Fin N → Bool) → Prop := fun i u => ε < |((Finset.univ.filter fun t => u t = false).card : ℝ) / N - p i|
  have h2 : ∀ ω : GstRuns M N, (if Good ω then 0 else gstRunsProb p ω) ≤ ∑ i, gstRunsProb p ω * (if bad i (ω i) then 1 else 0) := by
    intro ω
    have hp := gstRunsProb_nonneg p h0 h1 ω
    have hs : 0 ≤ ∑ i, gstRunsProb p ω * (if bad i (ω i) then 1 else 0) := Finset.sum_nonneg fun i _ => mul_nonneg hp (by split <;> norm_num)
    split
    · exact hs
    · next hn =>
      obtain ⟨i, hi⟩ : ∃ i, bad i (ω i) := by
        by_contra hno
        push Not at hno
        exact hn (hG ω fun i => not_lt.1 (hno i))
      have := Finset.single_le_sum (f := fun i => gstRunsProb p ω * (if bad i (ω i) then (1 : ℝ) else 0))
        (fun i _ => mul_nonneg hp (by split <;> norm_num)) (Finset.mem_univ i)
      simp only [if_pos hi, mul_one] at this
      exact this
  refine (Finset.sum_le_sum fun ω _ => h2 ω).trans ?_
  rw [Finset.sum_comm]
  calc _ ≤ ∑ _i : Fin M, 2 * Real.exp (-(2 * N * ε ^ 2)) := by
        refine Finset.sum_le_sum fun i _ => ?_
        have := Verif.Expval.marginal_one (fun (i : Fin M) (u : Fin N → Bool) => ∏ t, if u t then 1 - p i else p i) (fun i => shot_total _) i
          fun u => if bad i u then 1 else 0
        refine (le_of_eq this).trans ?_
        refine le_trans (le_of_eq ?_) (shots_one hN (p i) (h0 i) (h1 i) ε hε (bad i) fun u hu => le_of_lt hu)
        exact Finset.sum_congr rfl fun u _ => by split <;> simp
    _ = _ := by simp

/-! ### C137 -/

variable [DecidableEq ι]

theorem circ_prob (b : GateSet ι) (h : GoodGateSet b) (q : ι) (cs : List (Circ ι)) (hcs : gatesetTomographyCircuits b q = some cs)
    (k : List Str) (hk : GstKey b k) : ∃ i : Fin cs.length, literalEval (cs.get i).name = some (.state k) ∧ (cs.get i).ops = gstOps b q k := by
  rw [gst_eq b h q] at hcs
  obtain rfl := Option.some.inj hcs
  obtain ⟨a1, a2⟩ := gstKey_noQuote b h k hk
  obtain ⟨i, hi⟩ := List.get_of_mem (List.mem_map.2 ⟨k, (mem_gstKeys b k).2 hk, rfl⟩ : _ ∈ (gstKeys b).map _)
  refine ⟨i, ?_, ?_⟩
  · rw [hi]; exact literalEval_reprLabel k a1 a2
  · rw [hi]

/-- If every relative frequency is within `ε` of its probability, the gate set found from the data is accurate. -/
theorem accurate_of_near (b : GateSet ι) (h : GoodGateSet b) (q : ι) (P : OpDevice ι b.spamLabels.length) (hE : "E".toList ∉ b.gateLabels)
    (hr : "rho".toList ∉ b.gateLabels) (cs : List (Circ ι)) (hcs : gatesetTomographyCircuits b q = some cs) (N : ℕ)
    (hprob : ∀ c ∈ cs, 0 ≤ P.prob c.ops ∧ P.prob c.ops ≤ 1) (hic : InfoComplete (P.named b q) (specOf b) b.spamLabels) (g : ℝ) (hg0 : 0 ≤ g)
    (hg : RowsAtMost g (trueGram (P.named b q) (specOf b) b.spamLabels)⁻¹) (ε : ℝ) (hε : 0 ≤ ε) (hlt : g * (b.spamLabels.length * ε) < 1)
    (ω : GstRuns cs.length N) (data : Dict Key Counts) (hdata : GstMeasured cs ω data)
    (hnear : ∀ i, |(gstZeros ω i : ℝ) / N - P.prob (cs.get i).ops| ≤ ε) : GstAccurate b q P g ε data := by
  obtain ⟨probs, hp, hget⟩ := gstProbs_get? data hdata.total
  have key : ∀ k, GstKey b k → ∃ p, probs.get? (.state k) = some p ∧ |p - P.prob (gstOps b q k)| ≤ ε ∧ |P.prob (gstOps b q k)| ≤ 1 := by
    intro k hk
    obtain ⟨i, e1, e2⟩ := circ_prob b h q cs hcs k hk
    obtain ⟨k', counts, f1, f2, f3, f4⟩ := hdata.tally i
    rw [e1] at f1
    obtain rfl := Option.some.inj f1
    have := hprob (cs.get i) (List.get_mem _ _)
    rw [e2] at this
    refine ⟨_, hget _ _ f2, ?_, abs_le.2 ⟨by linarith, this.2⟩⟩
    rw [f3, f4, ← e2, Int.cast_natCast, Int.cast_natCast]
    exact hnear i
  obtain ⟨p1, p2, p3⟩ := prob_key P b q
  have hn : NearProbs (P.named b q) (specOf b) b.spamLabels b.gateLabels ε probs := by
    refine ⟨?_, ?_, ?_⟩
    · intro f hf
      obtain ⟨p, a, c, _⟩ := key _ (.one f ((mem_spamLabels b f).1 hf))
      exact ⟨p, a, by rw [← p1]; exact c⟩
    · intro f hf f' hf'
      obtain ⟨p, a, c, _⟩ := key _ (.two f f' ((mem_spamLabels b f).1 hf) ((mem_spamLabels b f').1 hf'))
      exact ⟨p, a, by rw [← p2]; exact c⟩
    · intro f hf x hx f' hf'
      obtain ⟨p, a, c, _⟩ := key _ (.three f x f' ((mem_spamLabels b f).1 hf) hx ((mem_spamLabels b f').1 hf'))
      exact ⟨p, a, by rw [← p3]; exact c⟩
  have hpr : ProbRuns (P.named b q) (specOf b) b.spamLabels b.gateLabels := by
    refine ⟨?_, ?_⟩
    · intro f hf
      obtain ⟨_, _, _, c⟩ := key _ (.one f ((mem_spamLabels b f).1 hf))
      rw [← p1]; exact c
    · intro f hf x hx f' hf'
      obtain ⟨_, _, _, c⟩ := key _ (.three f x f' ((mem_spamLabels b f).1 hf) hx ((mem_spamLabels b f').1 hf'))
      rw [← p3]; exact c
  obtain ⟨res, D', r1, r2, r3, r4, r5, r6, r7⟩ := inversion_near b.spamLabels b.gateLabels (P.named b q) (specOf b) probs g ε hg0 hε hn hpr hic hg hlt hE hr
  refine ⟨probs, res, D', prepCols (P.named b q) (specOf b) b.spamLabels, hp, r1, r2, r3, r4, ?_⟩
  intro w hw
  have hL : 0 ≤ gstError b.spamLabels.length g ε := by
    unfold gstError
    have : 0 < 1 - g * (b.spamLabels.length * ε) := by linarith
    positivity
  have := near_run b.gateLabels D' _ g ε _ hg0 hε hL r4 r5 r6 r7 w hw
  rw [run_gauge _ _ r3, ← prob_seq] at this
  exact this

open Classical in
/-- **C137** (accuracy).  Run every circuit of `gateset_tomography_circuits` `N` times on a device whose SPAM circuits are informationally complete.  Except
with probability at most `2 exp (-2 N ε²)` for each circuit, linear inversion succeeds, its gates, state and measurement are within `gstError` of those of
the device in one gauge, and it predicts the probability of every sequence of gates within an explicit bound. -/
theorem C137_accurate (b : GateSet ι) (h : GoodGateSet b) (q : ι) (P : OpDevice ι b.spamLabels.length) (hE : "E".toList ∉ b.gateLabels)
    (hr : "rho".toList ∉ b.gateLabels) (cs : List (Circ ι)) (hcs : gatesetTomographyCircuits b q = some cs) (N : ℕ) (hN : 0 < N)
    (hprob : ∀ c ∈ cs, 0 ≤ P.prob c.ops ∧ P.prob c.ops ≤ 1) (hic : InfoComplete (P.named b q) (specOf b) b.spamLabels) (g : ℝ) (hg0 : 0 ≤ g)
    (hg : RowsAtMost g (trueGram (P.named b q) (specOf b) b.spamLabels)⁻¹) (ε : ℝ) (hε : 0 ≤ ε) (hlt : g * (b.spamLabels.length * ε) < 1)
    (data : GstRuns cs.length N → Dict Key Counts) (hdata : ∀ ω, GstMeasured cs ω (data ω)) :
    (∑ ω, if GstAccurate b q P g ε (data ω) then 0 else gstRunsProb (fun i => P.prob (cs.get i).ops) ω) ≤ cs.length * (2 * Real.exp (-(2 * N * ε ^ 2))) :=
  shots_union hN _ (fun _ => (hprob _ (List.get_mem _ _)).1) (fun _ => (hprob _ (List.get_mem _ _)).2) ε hε _
    fun ω hω => accurate_of_near b h q P hE hr cs hcs N hprob hic g hg0 hg ε hε hlt ω (data ω) (hdata ω) hω

/-- The gate set found from the data predicts every sequence of at most `m` gates within `τ`. -/
def GstPredicts (b : GateSet ι) (q : ι) (P : OpDevice ι b.spamLabels.length) (m : ℕ) (τ : ℝ) (data : Dict Key Counts) : Prop :=
  ∃ probs res D', gstProbs data = some probs ∧ linearInversion b.spamLabels b.gateLabels probs = some res ∧ Describes res b.gateLabels D' ∧
    ∀ w, w.length ≤ m → (∀ x ∈ w, x ∈ b.gateLabels) → |D'.run w - P.prob (seqOps b q w)| ≤ τ

/-- The bounds become small. -/
theorem bound_small (n : ℕ) (g : ℝ) (k : ℕ) (τ : ℝ) (hτ : 0 < τ) :
    ∀ᶠ ε in nhds (0 : ℝ), (1 + ε) * (n * (g + gstError n g ε)) ^ k - (n * g) ^ k < τ := by
  have hc : ContinuousAt (fun ε : ℝ => (1 + ε) * (n * (g + gstError n g ε)) ^ k - (n * g) ^ k) 0 := by
    unfold gstError
    have : ContinuousAt (fun ε : ℝ => g / (1 - g * (n * ε))) 0 := by
      refine ContinuousAt.div continuousAt_const (by fun_prop) (by simp)
    fun_prop
  have h0 : (1 + (0 : ℝ)) * (n * (g + gstError n g 0)) ^ k - (n * g) ^ k = 0 := by simp [gstError]
  exact hc.eventually_lt continuousAt_const (by rw [h0]; exact hτ)

open Classical in
/-- **C137** (consistency).  With enough shots of every circuit, the predictions for all sequences of at most `m` gates are, with probability as close to 1 as
desired, as accurate as desired. -/
theorem C137_consistent (b : GateSet ι) (h : GoodGateSet b) (q : ι) (P : OpDevice ι b.spamLabels.length) (hE : "E".toList ∉ b.gateLabels)
    (hr : "rho".toList ∉ b.gateLabels) (cs : List (Circ ι)) (hcs : gatesetTomographyCircuits b q = some cs)
    (hprob : ∀ c ∈ cs, 0 ≤ P.prob c.ops ∧ P.prob c.ops ≤ 1) (hic : InfoComplete (P.named b q) (specOf b) b.spamLabels) (m : ℕ) (τ δ : ℝ) (hτ : 0 < τ)
    (hδ : 0 < δ) : ∃ N₀, ∀ N, N₀ ≤ N → ∀ data : GstRuns cs.length N → Dict Key Counts, (∀ ω, GstMeasured cs ω (data ω)) →
      (∑ ω, if GstPredicts b q P m τ (data ω) then 0 else gstRunsProb (fun i => P.prob (cs.get i).ops) ω) ≤ δ := by
  obtain ⟨n, hn⟩ : ∃ n, n = b.spamLabels.length := ⟨_, rfl⟩
  let X := (trueGram (P.named b q) (specOf b) b.spamLabels)⁻¹
  let g : ℝ := ‖X‖
  have hg0 : 0 ≤ g := norm_nonneg _
  have hg : RowsAtMost g X := (norm_le_rows _ _ hg0).1 le_rfl
  obtain ⟨ε, hεpos, hε⟩ : ∃ ε : ℝ, 0 < ε ∧ g * (n * ε) < 1 ∧ ∀ k ∈ Finset.range (m + 1),
      (1 + ε) * (n * (g + gstError n g ε)) ^ (k + 1) - (n * g) ^ (k + 1) < τ := by
    have h1 : ∀ᶠ ε in nhds (0 : ℝ), g * (n * ε) < 1 := by
      have : ContinuousAt (fun ε : ℝ => g * (n * ε)) 0 := by fun_prop
      exact this.eventually_lt continuousAt_const (by simp)
    have h2 : ∀ᶠ ε in nhds (0 : ℝ), ∀ k ∈ Finset.range (m + 1), (1 + ε) * (n * (g + gstError n g ε)) ^ (k + 1) - (n * g) ^ (k + 1) < τ :=
      (Filter.eventually_all_finset _).2 fun k _ => bound_small n g (k + 1) τ hτ
    obtain ⟨ρ, hρ, hb⟩ := Metric.eventually_nhds_iff.1 (h1.and h2)
    refine ⟨ρ / 2, by linarith, hb ?_⟩
    rw [Real.dist_eq, sub_zero, abs_of_pos (by linarith)]
    linarith
  have hlim : Filter.Tendsto (fun N : ℕ => (cs.length : ℝ) * (2 * Real.exp (-(2 * N * ε ^ 2)))) Filter.atTop (nhds 0) := by
    have h1 : Filter.Tendsto (fun N : ℕ => (N : ℝ) * (2 * ε ^ 2)) Filter.atTop Filter.atTop :=
      tendsto_natCast_atTop_atTop.atTop_mul_const (by positivity)
    have h2 := (Real.tendsto_exp_neg_atTop_nhds_zero.comp h1).const_mul ((cs.length : ℝ) * 2)
    rw [mul_zero] at h2
    refine h2.congr fun N => ?_
    simp only [Function.comp]
    rw [show (N : ℝ) * (2 * ε ^ 2) = 2 * N * ε ^ 2 by ring]
    ring
  obtain ⟨N₀, hN₀⟩ := Filter.eventually_atTop.1 (hlim.eventually_lt_const hδ)
  refine ⟨max N₀ 1, fun N hN data hdata => ?_⟩
  have hN1 : 0 < N := lt_of_lt_of_le one_pos (le_trans (le_max_right _ _) hN)
  refine le_trans ?_ (hN₀ N (le_trans (le_max_left _ _) hN)).le
  refine shots_union hN1 _ (fun _ => (hprob _ (List.get_mem _ _)).1) (fun _ => (hprob _ (List.get_mem _ _)).2) ε hεpos.le _ fun ω hω => ?_
  obtain ⟨probs, res, D', B, a1, a2, a3, _, _, a6⟩ :=
    accurate_of_near b h q P hE hr cs hcs N hprob hic g hg0 hg ε hεpos.le (by rw [← hn]; exact hε.1) ω (data ω) (hdata ω) hω
  refine ⟨probs, res, D', a1, a2, a3, fun w hw hwg => (a6 w hwg).trans ?_⟩
  rw [← hn]
  exact (hε.2 w.length (by simp; omega)).le

/-- The data of the runs exist: the counts of every circuit under its name. -/
theorem C137_data (b : GateSet ι) (h : GoodGateSet b) (q : ι) (cs : List (Circ ι)) (hcs : gatesetTomographyCircuits b q = some cs) (N : ℕ) (hN : 0 < N)
    (ω : GstRuns cs.length N) : ∃ data, GstMeasured cs ω data := by
  rw [gst_eq b h q] at hcs
  obtain rfl := Option.some.inj hcs
  have hlen : ((gstKeys b).map fun k => (⟨reprLabel k, gstOps b q k⟩ : Circ ι)).length = (gstKeys b).length := List.length_map _
  let entry : Fin (gstKeys b).length → Key × Counts := fun i => (.state ((gstKeys b).get i),
    [("0".toList, (gstZeros ω (i.cast hlen.symm) : ℤ)), ("1".toList, (N : ℤ) - gstZeros ω (i.cast hlen.symm))])
  refine ⟨List.ofFn entry, ?_, ?_⟩
  · intro kv hkv
    obtain ⟨i, rfl⟩ := (List.mem_ofFn' _ _).1 hkv
    simp [entry, Dict.values]
    omega
  · intro i
    have hk : (gstKeys b).get (i.cast hlen) ∈ gstKeys b := List.get_mem _ _
    obtain ⟨a1, a2⟩ := gstKey_noQuote b h _ ((mem_gstKeys b _).1 hk)
    refine ⟨.state ((gstKeys b).get (i.cast hlen)), (entry (i.cast hlen)).2, ?_, Dict.get?_of_mem _ ?_ _ _ ?_, ?_, ?_⟩
    · have : (((gstKeys b).map fun k => (⟨reprLabel k, gstOps b q k⟩ : Circ ι)).get i).name = reprLabel ((gstKeys b).get (i.cast hlen)) := by
        simp
      rw [this]
      exact literalEval_reprLabel _ a1 a2
    · unfold Dict.WF
      rw [List.map_ofFn, List.nodup_ofFn]
      intro x y e
      have := nodup_gstKeys b h
      rw [List.nodup_iff_injective_get] at this
      exact this (by simpa [entry] using e)
    · exact (List.mem_ofFn' _ _).2 ⟨i.cast hlen, rfl⟩
    · simp [entry, Dict.getD, Dict.get?]
    · simp [entry, Dict.values]

/-! ### The default gate set -/

theorem default_gram : trueGram defaultDevice defaultSpec defaultSpam =
    (!![1, 1/2, 1/2, 0; 1/2, 0, 1/2, 1/2; 1/2, 1/2, 0, 1/2; (0:ℝ), 1/2, 1/2, 1] : Matrix (Fin 4) (Fin 4) ℝ) := by
  refine (gram_eq defaultDevice defaultSpec defaultSpam).trans ?_
  rw [default_cols, default_rows]
  have h : rows4 * cols4 = (!![1, 1/2, 1/2, 0; 1/2, 0, 1/2, 1/2; 1/2, 1/2, 0, 1/2; (0:ℝ), 1/2, 1/2, 1] : Matrix (Fin 4) (Fin 4) ℝ) := by
    unfold rows4 cols4
    rw [Matrix.smul_mul, Matrix.mul_smul, smul_smul, half_sq]
    ext i j
    fin_cases i <;> fin_cases j <;> simp [Matrix.mul_apply, Fin.sum_univ_four] <;> norm_num
  exact h

theorem default_rowsAtMost : RowsAtMost 4 (trueGram (defaultOps.named defaultGateSet 0) (specOf defaultGateSet) defaultGateSet.spamLabels)⁻¹ := by
  rw [default_spamLabels]
  have e : trueGram (defaultOps.named defaultGateSet 0) (specOf defaultGateSet) defaultSpam = trueGram defaultDevice defaultSpec defaultSpam := by
    ext i j
    obtain ⟨a1, a2⟩ := default_spec defaultSpam[j] (List.getElem_mem _)
    obtain ⟨b1, b2⟩ := default_spec defaultSpam[i] (List.getElem_mem _)
    unfold trueGram
    rw [Matrix.of_apply, Matrix.of_apply, a1, b1, default_run]
    intro g hg
    rcases List.mem_append.1 hg with hg | hg
    · exact a2 g hg
    · exact b2 g hg
  rw [e, default_gram]
  have h : (!![1, 1/2, 1/2, 0; 1/2, 0, 1/2, 1/2; 1/2, 1/2, 0, 1/2; (0:ℝ), 1/2, 1/2, 1] : Matrix (Fin 4) (Fin 4) ℝ)⁻¹ =
      !![0, 1, 1, -1; 1, -2, 0, 1; 1, 0, -2, 1; -1, 1, 1, 0] := by
    refine Matrix.inv_eq_right_inv ?_
    ext i j
    fin_cases i <;> fin_cases j <;> simp [Matrix.mul_apply, Fin.sum_univ_four] <;> norm_num
  have h2 : RowsAtMost 4 (!![1, 1/2, 1/2, 0; 1/2, 0, 1/2, 1/2; 1/2, 1/2, 0, 1/2; (0:ℝ), 1/2, 1/2, 1] : Matrix (Fin 4) (Fin 4) ℝ)⁻¹ := by
    rw [h]
    intro i
    fin_cases i <;> simp [Fin.sum_univ_four] <;> norm_num
  exact h2

theorem default_prob : ∀ k ∈ gstKeys defaultGateSet, 0 ≤ twiceProb (gstOps defaultGateSet 0 k) ∧ twiceProb (gstOps defaultGateSet 0 k) ≤ 2 := by
  decide +kernel

open Classical in
/-- The hypotheses hold for an ideal device and the default gate set: its 68 circuits have probabilities, the rows of the inverse Gram matrix sum to at most
4, data exist for every outcome, and for example with ε = 1/1000 every state, measurement and gate is found within 0.0692 (rows of gates: four times that)
except with probability at most 136 exp (-N / 500000). -/
theorem C137_experiment (N : ℕ) (hN : 0 < N) : ∃ cs, gatesetTomographyCircuits defaultGateSet 0 = some cs ∧ cs.length = 68 ∧
    (∀ ω : GstRuns cs.length N, ∃ data, GstMeasured cs ω data) ∧
    (∑ ω : GstRuns cs.length N, gstRunsProb (fun i => defaultOps.prob (cs.get i).ops) ω = 1) ∧
    (∀ data : GstRuns cs.length N → Dict Key Counts, (∀ ω, GstMeasured cs ω (data ω)) →
      (∑ ω, if GstAccurate defaultGateSet 0 defaultOps 4 (1/1000) (data ω) then 0 else gstRunsProb (fun i => defaultOps.prob (cs.get i).ops) ω) ≤
        68 * (2 * Real.exp (-(2 * N * (1/1000) ^ 2)))) ∧ gstError 4 4 (1/1000) < 692/10000 := by
  have hcs := gst_eq defaultGateSet default_good 0
  have hlen : ((gstKeys defaultGateSet).map fun k => (⟨reprLabel k, gstOps defaultGateSet 0 k⟩ : Circ ℕ)).length = 68 := by
    rw [List.length_map]; decide +kernel
  have hprob : ∀ c ∈ (gstKeys defaultGateSet).map fun k => (⟨reprLabel k, gstOps defaultGateSet 0 k⟩ : Circ ℕ),
      0 ≤ defaultOps.prob c.ops ∧ defaultOps.prob c.ops ≤ 1 := by
    intro c hc
    obtain ⟨k, hk, rfl⟩ := List.mem_map.1 hc
    obtain ⟨h1, h2⟩ := default_prob k hk
    simp only
    rw [prob_twice]
    have h1' : (0 : ℝ) ≤ twiceProb (gstOps defaultGateSet 0 k) := by exact_mod_cast h1
    have h2' : (twiceProb (gstOps defaultGateSet 0 k) : ℝ) ≤ 2 := by exact_mod_cast h2
    constructor <;> linarith
  refine ⟨_, hcs, hlen, fun ω => C137_data defaultGateSet default_good 0 _ hcs N hN ω, ?_, ?_, ?_⟩
  · exact Verif.Expval.product_one _ fun i => shot_total _
  · intro data hdata
    have := C137_accurate defaultGateSet default_good 0 defaultOps (by decide) (by decide) _ hcs N hN hprob default_complete' 4 (by norm_num) default_rowsAtMost
      (1/1000) (by norm_num) (by
        have : defaultGateSet.spamLabels.length = 4 := by rw [default_spamLabels]; rfl
        rw [this]; norm_num) data hdata
    refine this.trans (le_of_eq ?_)
    rw [hlen]; norm_num
  · unfold gstError; norm_num

end Verif.Tomo
