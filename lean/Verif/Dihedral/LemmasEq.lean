import Verif.Dihedral.LemmasAct
import Mathlib.GroupTheory.OrderOfElement
/-
Elements are determined by their operators; products are compositions.
-/
set_option linter.unusedSimpArgs false
set_option linter.unusedVariables false
namespace Verif.Dihedral
open Verif.Quantum

theorem W_inj {a b : ZMod 8} (h : W a = W b) : a = b := by
  have ho : orderOf ω = 8 := by
    have := orderOf_eq_prime_pow (x := ω) (p := 2) (n := 2)
      (by norm_num [ω_pow_four])
      (by norm_num [ω_pow_eight])
    simpa using this
  have h1 : a.val < orderOf ω := by rw [ho]; exact ZMod.val_lt a
  have h2 : b.val < orderOf ω := by rw [ho]; exact ZMod.val_lt b
  exact ZMod.val_injective 8 (pow_injOn_Iio_orderOf h1 h2 h)

/-- Indicator point of a set of variables. -/
def ind (S : Finset ℕ) (i : ℕ) : Bool := decide (i ∈ S)

theorem mono_ind (S T : Finset ℕ) : mono (ind S) T = if T ⊆ S then 1 else 0 := by
  unfold mono ind; simp only [decide_eq_true_eq]; rfl

/-- Coefficients are determined by the values at the 0/1 points. -/
theorem coef_unique {n : ℕ} (f g : Finset ℕ → ZMod 8)
    (h : ∀ S ∈ Terms n, ∑ T ∈ Terms n, f T * mono (ind S) T = ∑ T ∈ Terms n, g T * mono (ind S) T) :
    ∀ S ∈ Terms n, f S = g S := by
  intro S
  induction S using Finset.strongInduction with
  | H S ih =>
    intro hS
    have hsub : ∀ T, T ⊂ S → T ∈ Terms n := by
      intro T hT
      simp only [Terms, Finset.mem_filter, Finset.mem_powerset] at hS ⊢
      exact ⟨hT.1.trans hS.1, (Finset.card_le_card hT.1).trans hS.2⟩
    have hsplit : ∀ f : Finset ℕ → ZMod 8, ∑ T ∈ Terms n, f T * mono (ind S) T =
        f S + ∑ T ∈ (Terms n).erase S, f T * mono (ind S) T := by
      intro f
      rw [← Finset.add_sum_erase _ _ hS, mono_ind, if_pos (Finset.Subset.refl S), mul_one]
    have := h S hS
    rw [hsplit, hsplit] at this
    have he : ∑ T ∈ (Terms n).erase S, f T * mono (ind S) T = ∑ T ∈ (Terms n).erase S, g T * mono (ind S) T := by
      refine Finset.sum_congr rfl fun T hT => ?_
      rw [mono_ind]
      by_cases hTS : T ⊆ S
      · have hss : T ⊂ S := lt_of_le_of_ne hTS (Finset.ne_of_mem_erase hT)
        rw [ih T hss (hsub T hss)]
      · rw [if_neg hTS, mul_zero, mul_zero]
    rw [he] at this
    exact add_right_cancel this

/-- The point of `n` bits for a set of variables. -/
theorem ext_ind {n : ℕ} {S : Finset ℕ} (hS : S ∈ Terms n) : ext (fun i : Fin n => ind S i) = ind S := by
  funext i
  unfold ext
  split_ifs with h
  · rfl
  · symm
    simp only [ind, decide_eq_false_iff_not]
    intro hi
    simp only [Terms, Finset.mem_filter, Finset.mem_powerset] at hS
    exact h (Finset.mem_range.1 (hS.1 hi))

theorem coef_eq_of_value {n : ℕ} {p q : Poly n} (h : ∀ x : Fin n → Bool, value p (ext x) = value q (ext x)) :
    ∀ S ∈ Terms n, coef p S = coef q S := by
  refine coef_unique _ _ fun S hS => ?_
  have := h fun i => ind S i
  rw [ext_ind hS] at this
  exact this

theorem value_at_zero {n : ℕ} (p : Poly n) : value p (ext fun _ : Fin n => false) = (p.w0 : ZMod 8) := by
  have he : (ext fun _ : Fin n => false) = ind ∅ := by
    funext i; simp [ext, ind]
  unfold value
  rw [he, Finset.sum_eq_single ∅]
  · rw [mono_ind, if_pos (Finset.Subset.refl _), mul_one]
    simp [coef, getTerm_nil]
  · intro T _ hT
    rw [mono_ind, if_neg, mul_zero]
    intro h; exact hT (Finset.subset_empty.1 h)
  · intro h
    exact absurd (by simp [Terms]) h

/-- The affine part is determined by the basis map. -/
theorem aff_inj {n : ℕ} {a b : Elem n} (ha : Good a) (hb : Good b) (h : ∀ x, aff a x = aff b x) :
    a.linear = b.linear ∧ a.shift = b.shift := by
  have hs : a.shift = b.shift := by
    funext i
    have := congrFun (h fun _ => false) i
    simp only [aff, bit, Bool.false_eq_true, if_false, mul_zero, Finset.sum_const_zero, zero_add, decide_eq_decide] at this
    rcases ha.sh i with h1 | h1 <;> rcases hb.sh i with h2 | h2 <;> rw [h1, h2] at this <;> simp_all
  refine ⟨?_, hs⟩
  funext i j
  have := congrFun (h fun k => decide (k = j)) i
  have hsum : ∀ m : Fin n → ℤ, ∑ k, m k * bit (decide (k = j)) = m j := by
    intro m
    simp [bit, mul_ite]
  simp only [aff, hsum, decide_eq_decide] at this
  rw [hs] at this
  have h3 := hb.sh i
  rcases ha.lin i j with h1 | h1 <;> rcases hb.lin i j with h2 | h2 <;> rw [h1, h2] at this ⊢ <;>
    rcases h3 with h3 | h3 <;> rw [h3] at this <;> simp_all

/-- Equal operators up to a phase, in terms of maps and phases. -/
theorem sameOp_img {n : ℕ} {a b : Elem n} (h : SameOp (img a) (img b)) :
    (∀ x, aff a x = aff b x) ∧ ∃ z : ℂ, ∀ x : Fin n → Bool, W (value a.poly (ext x)) = z * W (value b.poly (ext x)) := by
  obtain ⟨z, hz, h⟩ := h
  have haff : ∀ x, aff a x = aff b x := by
    intro x
    have := congrFun (h x) (aff a x)
    simp only [img_eq, ket, if_true, mul_one] at this
    by_contra hne
    rw [if_neg hne, mul_zero, mul_zero] at this
    exact W_ne _ this
  refine ⟨haff, z, fun x => ?_⟩
  have := congrFun (h x) (aff a x)
  simp only [img_eq, haff x, ket, if_true, mul_one] at this
  exact this

theorem eq_of_sameOp {n : ℕ} {a b : Elem n} (ha : isCnotDihedral a = true) (hb : isCnotDihedral b = true)
    (h : SameOp (img a) (img b)) : a = b := by
  obtain ⟨ga, ra, wa, da⟩ := (isCnot_iff a).1 ha
  obtain ⟨gb, rb, wb, db⟩ := (isCnot_iff b).1 hb
  obtain ⟨haff, z, hz⟩ := sameOp_img h
  have hz1 : z = 1 := by
    have := hz fun _ => false
    rw [value_at_zero, value_at_zero, wa, wb] at this
    simpa [W_zero] using this.symm
  have hv : ∀ x : Fin n → Bool, value a.poly (ext x) = value b.poly (ext x) := by
    intro x; apply W_inj; rw [hz, hz1, one_mul]
  have hp := Poly.ext_coef ga.wf gb.wf ra rb (coef_eq_of_value hv)
  obtain ⟨hl, hs⟩ := aff_inj ga gb haff
  cases a; cases b; simp_all

/-- The operator of an element applied to an arbitrary state. -/
theorem opApply_smul_ket {n : ℕ} (b : Elem n) (z : ℂ) (w : Basis (Fin n)) (y : Basis (Fin n)) :
    (∑ x, (z * ket w x) * img b x y) = z * img b w y := by
  rw [Finset.sum_eq_single w]
  · simp [ket]
  · intro x _ hx; simp [ket, hx]
  · intro h; exact absurd (Finset.mem_univ _) h

theorem Rd.mul {n : ℕ} {so : SetOrder} {a b r : Elem n} (h : elemMul so a b = some r) : Rd r.poly ∧
    r.linear = z2matmul a.linear b.linear := by
  unfold elemMul at h
  cases h1 : (List.finRange n).mapM fun i => newVar (b.linear i) (b.shift i) with
  | none => simp [h1] at h
  | some vs =>
    cases h2 : evaluate so a.poly vs with
    | none => simp [h1, h2] at h
    | some ev =>
      simp only [h1, h2, Option.bind_eq_bind, Option.bind_some, Option.pure_def, Option.some.injEq] at h
      subst h
      exact ⟨Rd.add _ _, rfl⟩

/-- The product of valid elements with the constant removed, as `compose` and `dot` return it. -/
theorem mul_valid {n : ℕ} {so : SetOrder} (hso : IsSetOrder so) {a b r : Elem n} (ha : isCnotDihedral a = true)
    (hb : isCnotDihedral b = true) (h : elemMul so a b = some r) :
    isCnotDihedral ({ r with poly := { r.poly with w0 := 0 } } : Elem n) = true ∧
      ∀ x y, opApply a (img b x) y = W r.poly.w0 * img ({ r with poly := { r.poly with w0 := 0 } } : Elem n) x y := by
  obtain ⟨ga, ra, wa, da⟩ := (isCnot_iff a).1 ha
  obtain ⟨gb, rb, wb, db⟩ := (isCnot_iff b).1 hb
  obtain ⟨gr, hx⟩ := elemMul_spec hso ga gb h
  obtain ⟨hrd, hl⟩ := Rd.mul h
  refine ⟨?_, ?_⟩
  · rw [isCnot_iff]
    refine ⟨⟨gr.wf, Gr_w0 gr.wf 0 gr.gr, gr.lin, gr.sh⟩, ⟨by simp, hrd.2⟩, rfl, ?_⟩
    rw [detOdd_iff] at da db ⊢
    simp only
    rw [hl, mat2_mul, Matrix.det_mul, da, db, one_mul]
  · intro x y
    unfold opApply
    rw [img_eq b, opApply_smul_ket, img_eq a, img_eq]
    simp only
    have h1 : aff ({ r with poly := { r.poly with w0 := 0 } } : Elem n) x = aff a (aff b x) := (hx x).1
    rw [h1, value_w0 r.poly gr.wf, (hx x).2]
    have h2 : W (value b.poly (ext x)) * W (value a.poly (ext (aff b x))) = W r.poly.w0 *
        W (value b.poly (ext x) + value a.poly (ext (aff b x)) + (((0 : ℤ) : ZMod 8) - r.poly.w0)) := by
      rw [← W_add, ← W_add]; congr 1; push_cast; ring
    rw [← mul_assoc, h2, mul_assoc]

end Verif.Dihedral
