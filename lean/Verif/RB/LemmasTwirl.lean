import Verif.RB.SpecTwirl
import Mathlib.Algebra.Group.Units.Basic
import Mathlib.Algebra.Module.LinearMap.End
import Mathlib.Data.Complex.Basic
import Mathlib.Tactic.NoncommRing
set_option linter.unusedSimpArgs false
set_option linter.unusedVariables false
set_option linter.unusedSectionVars false
/-
Averaging over the elements of a group.
-/
namespace Verif.RB
open Verif.Quantum

section
variable {E : Type} {V W : Type} [AddCommGroup V] [Module ℂ V] [AddCommGroup W] [Module ℂ W]

/-- Expected value of a quantity with values in a vector space. -/
noncomputable def ex (els : Finset E) : ℕ → (List E → V) → V
  | 0, F => F []
  | m + 1, F => (els.card : ℂ)⁻¹ • ∑ g ∈ els, ex els m fun l => F (g :: l)

theorem ex_congr (els : Finset E) (m : ℕ) {F F' : List E → V} (h : ∀ l, l.length = m → (∀ g ∈ l, g ∈ els) → F l = F' l) : ex els m F = ex els m F' := by
  induction m generalizing F F' with
  | zero => exact h [] rfl (by simp)
  | succ m ih =>
    unfold ex
    congr 1
    refine Finset.sum_congr rfl fun g hg => ih fun l hl hm => h (g :: l) (by simp [hl]) ?_
    intro g' hg'
    rcases List.mem_cons.1 hg' with rfl | hg'
    · exact hg
    · exact hm g' hg'

theorem ex_map (els : Finset E) (m : ℕ) (φ : V →ₗ[ℂ] W) (F : List E → V) : φ (ex els m F) = ex els m fun l => φ (F l) := by
  induction m generalizing F with
  | zero => rfl
  | succ m ih =>
    unfold ex
    rw [map_smul, map_sum]
    simp only [ih]

theorem expect_ex (els : Finset E) (m : ℕ) (F : List E → ℝ) : ((expect els m F : ℝ) : ℂ) = ex els m fun l => (F l : ℂ) := by
  induction m generalizing F with
  | zero => rfl
  | succ m ih =>
    unfold ex expect
    push_cast
    simp only [ih]
    rw [smul_eq_mul, div_eq_inv_mul]

theorem expect_congr (els : Finset E) (m : ℕ) {F F' : List E → ℝ} (h : ∀ l, l.length = m → (∀ g ∈ l, g ∈ els) → F l = F' l) :
    expect els m F = expect els m F' := by
  have := ex_congr (V := ℂ) els m (F := fun l => (F l : ℂ)) (F' := fun l => (F' l : ℂ)) fun l h1 h2 => by rw [h l h1 h2]
  rw [← expect_ex, ← expect_ex] at this
  exact_mod_cast this

end

section
variable {E : Type} {V : Type} [AddCommGroup V] [Module ℂ V]

/-- Multiplication by an element of `els`, from the right or from the left, permutes `els`. -/
structure Closed (els : Finset E) (u : E → (Module.End ℂ V)ˣ) : Prop where
  pos : els.Nonempty
  right : ∀ t ∈ els, ∃ σ : E → E, (∀ e ∈ els, σ e ∈ els) ∧ Set.InjOn σ els ∧ ∀ e ∈ els, u (σ e) = u e * u t
  left : ∀ t ∈ els, ∃ σ : E → E, (∀ e ∈ els, σ e ∈ els) ∧ Set.InjOn σ els ∧ ∀ e ∈ els, u (σ e) = u t * u e

theorem sum_perm {els : Finset E} {σ : E → E} (h1 : ∀ e ∈ els, σ e ∈ els) (h2 : Set.InjOn σ els) {W : Type} [AddCommMonoid W] (f : E → W) :
    ∑ e ∈ els, f (σ e) = ∑ e ∈ els, f e := by
  classical
  have : els.image σ = els := Finset.eq_of_subset_of_card_le (Finset.image_subset_iff.2 h1) (by rw [Finset.card_image_of_injOn h2])
  conv_rhs => rw [← this]
  rw [Finset.sum_image h2]

/-- The twirl of an operation. -/
noncomputable def tw (els : Finset E) (u : E → (Module.End ℂ V)ˣ) (Λ : Module.End ℂ V) : Module.End ℂ V :=
  (els.card : ℂ)⁻¹ • ∑ e ∈ els, (((u e)⁻¹ : (Module.End ℂ V)ˣ) : Module.End ℂ V) * Λ * (u e : Module.End ℂ V)

variable {els : Finset E} {u : E → (Module.End ℂ V)ˣ}

theorem tw_comm (h : Closed els u) (Λ : Module.End ℂ V) {t : E} (ht : t ∈ els) : tw els u Λ * (u t : Module.End ℂ V) = (u t : Module.End ℂ V) * tw els u Λ := by
  obtain ⟨σ, s1, s2, s3⟩ := h.right t ht
  have key : (((u t)⁻¹ : (Module.End ℂ V)ˣ) : Module.End ℂ V) * tw els u Λ * (u t : Module.End ℂ V) = tw els u Λ := by
    unfold tw
    rw [mul_smul_comm, smul_mul_assoc, Finset.mul_sum, Finset.sum_mul]
    congr 1
    rw [← sum_perm s1 s2 fun e => (((u e)⁻¹ : (Module.End ℂ V)ˣ) : Module.End ℂ V) * Λ * (u e : Module.End ℂ V)]
    refine Finset.sum_congr rfl fun e he => ?_
    rw [s3 e he, mul_inv_rev, Units.val_mul, Units.val_mul]
    simp only [mul_assoc]
  conv_rhs => rw [← key]
  rw [← mul_assoc, ← mul_assoc, Units.mul_inv, one_mul]

theorem tw_comm_inv (h : Closed els u) (Λ : Module.End ℂ V) {t : E} (ht : t ∈ els) :
    (((u t)⁻¹ : (Module.End ℂ V)ˣ) : Module.End ℂ V) * tw els u Λ = tw els u Λ * (((u t)⁻¹ : (Module.End ℂ V)ˣ) : Module.End ℂ V) := by
  have := tw_comm h Λ ht
  calc _ = (((u t)⁻¹ : (Module.End ℂ V)ˣ) : Module.End ℂ V) * (tw els u Λ * (u t : Module.End ℂ V)) * (((u t)⁻¹ : (Module.End ℂ V)ˣ) : Module.End ℂ V) := by
        rw [mul_assoc, mul_assoc, Units.mul_inv, mul_one]
    _ = _ := by rw [this, ← mul_assoc, Units.inv_mul, one_mul]

/-- The operations of a sequence, with noise after each. -/
def seqOp (Λ : Module.End ℂ V) : List (Module.End ℂ V)ˣ → Module.End ℂ V
  | [] => 1
  | e :: l => seqOp Λ l * (Λ * (e : Module.End ℂ V))

/-- The product of a sequence. -/
def prodU : List (Module.End ℂ V)ˣ → (Module.End ℂ V)ˣ
  | [] => 1
  | e :: l => prodU l * e

/-- The mean over all sequences of `m` elements is the `m`-th power of the twirled noise. -/
theorem ex_seq (h : Closed els u) (Λ : Module.End ℂ V) (m : ℕ) :
    ex els m (fun l => (((prodU (l.map u))⁻¹ : (Module.End ℂ V)ˣ) : Module.End ℂ V) * seqOp Λ (l.map u)) = tw els u Λ ^ m := by
  induction m with
  | zero => simp [ex, prodU, seqOp]
  | succ m ih =>
    unfold ex
    have e1 : ∀ g ∈ els, ex els m (fun l => (((prodU ((g :: l).map u))⁻¹ : (Module.End ℂ V)ˣ) : Module.End ℂ V) * seqOp Λ ((g :: l).map u)) =
        tw els u Λ ^ m * ((((u g)⁻¹ : (Module.End ℂ V)ˣ) : Module.End ℂ V) * Λ * (u g : Module.End ℂ V)) := by
      intro g hg
      have e2 := ex_map els m ((LinearMap.mulLeft ℂ (((u g)⁻¹ : (Module.End ℂ V)ˣ) : Module.End ℂ V)).comp
        (LinearMap.mulRight ℂ (Λ * (u g : Module.End ℂ V)))) (fun l => (((prodU (l.map u))⁻¹ : (Module.End ℂ V)ˣ) : Module.End ℂ V) * seqOp Λ (l.map u))
      rw [ih] at e2
      simp only [LinearMap.comp_apply, LinearMap.mulLeft_apply, LinearMap.mulRight_apply] at e2
      have e3 : (((u g)⁻¹ : (Module.End ℂ V)ˣ) : Module.End ℂ V) * tw els u Λ ^ m = tw els u Λ ^ m * (((u g)⁻¹ : (Module.End ℂ V)ˣ) : Module.End ℂ V) :=
        (Commute.pow_right (tw_comm_inv h Λ hg) m)
      rw [← mul_assoc, e3] at e2
      rw [← mul_assoc, ← mul_assoc]
      rw [← mul_assoc] at e2
      rw [e2]
      refine ex_congr els m fun l _ _ => ?_
      simp only [List.map_cons, prodU, seqOp, mul_inv_rev, Units.val_mul, mul_assoc]
    rw [Finset.sum_congr rfl e1, ← Finset.mul_sum, ← mul_smul_comm, pow_succ]
    rfl

/-- Interleaving: noise `Λ` after the random elements, noise `M` after the given one, is noise `M C Λ C⁻¹` after the products. -/
theorem ex_inter (h : Closed els u) {t : E} (ht : t ∈ els) (F : List (Module.End ℂ V)ˣ → Module.End ℂ V) (m : ℕ) :
    ex els m (fun l => F (l.map fun e => u t * u e)) = ex els m (fun l => F (l.map u)) := by
  obtain ⟨σ, s1, s2, s3⟩ := h.left t ht
  induction m generalizing F with
  | zero => rfl
  | succ m ih =>
    unfold ex
    congr 1
    refine Eq.trans ?_ (sum_perm s1 s2 _)
    refine Finset.sum_congr rfl fun g hg => ?_
    simp only [List.map_cons]
    rw [s3 g hg]
    exact ih (fun l => F ((u t * u g) :: l))

end
end Verif.RB
