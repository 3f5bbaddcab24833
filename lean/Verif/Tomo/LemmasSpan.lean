import Verif.Tomo.PropsOps
import Mathlib.LinearAlgebra.Span.Basic
/-
Tensor products of spanning families determine a matrix.
-/
set_option linter.unusedSectionVars false
set_option linter.unusedSimpArgs false
set_option linter.unusedVariables false
namespace Verif.Tomo
open Verif Verif.Quantum

/-- Pairing of a tensor product with a matrix. -/
noncomputable def pairing (n : ℕ) (B : ℕ → Mat2 ℂ) (A : ℕ → ℕ → ℂ) : ℂ :=
  traceMul (2 ^ n) (fun a b => ∏ j ∈ Finset.range n, B j (a.testBit j) (b.testBit j)) A

theorem prod_update (n : ℕ) (B : ℕ → Mat2 ℂ) (i : ℕ) (hi : i < n) (M : Mat2 ℂ) (a b : ℕ) :
    ∏ j ∈ Finset.range n, (Function.update B i M) j (a.testBit j) (b.testBit j) =
      M (a.testBit i) (b.testBit i) * ∏ j ∈ (Finset.range n).erase i, B j (a.testBit j) (b.testBit j) := by
  rw [← Finset.mul_prod_erase _ _ (Finset.mem_range.2 hi), Function.update_self]
  congr 1
  refine Finset.prod_congr rfl fun j hj => ?_
  rw [Function.update_of_ne (Finset.ne_of_mem_erase hj)]

theorem pairing_update (n : ℕ) (B : ℕ → Mat2 ℂ) (i : ℕ) (hi : i < n) (M : Mat2 ℂ) (A : ℕ → ℕ → ℂ) :
    pairing n (Function.update B i M) A = ∑ a ∈ Finset.range (2 ^ n), ∑ b ∈ Finset.range (2 ^ n),
      M (a.testBit i) (b.testBit i) * ((∏ j ∈ (Finset.range n).erase i, B j (a.testBit j) (b.testBit j)) * A b a) := by
  unfold pairing traceMul
  refine Finset.sum_congr rfl fun a _ => Finset.sum_congr rfl fun b _ => ?_
  beta_reduce
  rw [prod_update n B i hi]; ring

/-- Vanishing on the family in one slot gives vanishing on its span. -/
theorem pairing_span (n : ℕ) (B : ℕ → Mat2 ℂ) (i : ℕ) (hi : i < n) (A : ℕ → ℕ → ℂ) (F : Set (Mat2 ℂ))
    (h : ∀ M ∈ F, pairing n (Function.update B i M) A = 0) (M : Mat2 ℂ) (hM : M ∈ Submodule.span ℂ F) :
    pairing n (Function.update B i M) A = 0 := by
  induction hM using Submodule.span_induction with
  | mem M hM => exact h M hM
  | zero =>
    rw [pairing_update n B i hi]
    exact Finset.sum_eq_zero fun a _ => Finset.sum_eq_zero fun b _ => by simp
  | add M N _ _ hM hN =>
    rw [pairing_update n B i hi] at hM hN ⊢
    refine Eq.trans ?_ (show (0 : ℂ) + 0 = 0 from add_zero 0)
    refine Eq.trans ?_ (congrArg₂ (· + ·) hM hN)
    rw [← Finset.sum_add_distrib]
    refine Finset.sum_congr rfl fun a _ => ?_
    rw [← Finset.sum_add_distrib]
    refine Finset.sum_congr rfl fun b _ => ?_
    simp only [Pi.add_apply]; ring
  | smul c M _ hM =>
    rw [pairing_update n B i hi] at hM ⊢
    rw [← mul_zero c]
    conv_rhs => rw [← hM]
    rw [Finset.mul_sum]
    refine Finset.sum_congr rfl fun a _ => ?_
    rw [Finset.mul_sum]
    refine Finset.sum_congr rfl fun b _ => ?_
    simp only [Pi.smul_apply, smul_eq_mul]; ring

/-- Vanishing on all products of family members gives vanishing on all products. -/
theorem pairing_all (n : ℕ) (A : ℕ → ℕ → ℂ) (Fam : ℕ → Set (Mat2 ℂ)) (hspan : ∀ j < n, ∀ M, M ∈ Submodule.span ℂ (Fam j))
    (h : ∀ B : ℕ → Mat2 ℂ, (∀ j < n, B j ∈ Fam j) → pairing n B A = 0) (B : ℕ → Mat2 ℂ) : pairing n B A = 0 := by
  have : ∀ m ≤ n, ∀ B : ℕ → Mat2 ℂ, (∀ j, m ≤ j → j < n → B j ∈ Fam j) → pairing n B A = 0 := by
    intro m
    induction m with
    | zero => intro _ B hB; exact h B fun j hj => hB j (Nat.zero_le _) hj
    | succ m ih =>
      intro hm B hB
      have key := pairing_span n B m hm A (Fam m) ?_ (B m) (hspan m hm _)
      · rwa [Function.update_eq_self] at key
      · intro M hM
        refine ih (by omega) _ ?_
        intro j hj hjn
        by_cases e : j = m
        · subst e; rw [Function.update_self]; exact hM
        · rw [Function.update_of_ne e]; exact hB j (by omega) hjn
  exact this n le_rfl B fun j h1 h2 => absurd h1 (by omega)

/-- The matrix is determined. -/
theorem zero_of_pairing (n : ℕ) (A : ℕ → ℕ → ℂ) (Fam : ℕ → Set (Mat2 ℂ)) (hspan : ∀ j < n, ∀ M, M ∈ Submodule.span ℂ (Fam j))
    (h : ∀ B : ℕ → Mat2 ℂ, (∀ j < n, B j ∈ Fam j) → pairing n B A = 0) (b a : ℕ) (hb : b < 2 ^ n) (ha : a < 2 ^ n) : A b a = 0 := by
  have key := pairing_all n A Fam hspan h fun j r c => if r = a.testBit j ∧ c = b.testBit j then 1 else 0
  unfold pairing traceMul at key
  beta_reduce at key
  have unit : ∀ a' b', a' < 2 ^ n → b' < 2 ^ n →
      (∏ j ∈ Finset.range n, (if a'.testBit j = a.testBit j ∧ b'.testBit j = b.testBit j then (1 : ℂ) else 0)) =
        if a' = a ∧ b' = b then 1 else 0 := by
    intro a' b' ha' hb'
    have e : ∀ j, (if a'.testBit j = a.testBit j ∧ b'.testBit j = b.testBit j then (1 : ℂ) else 0) =
        (if Expval.bit a' j = Expval.bit a j then 1 else 0) * (if Expval.bit b' j = Expval.bit b j then 1 else 0) := by
      intro j
      unfold Expval.bit
      cases a'.testBit j <;> cases a.testBit j <;> cases b'.testBit j <;> cases b.testBit j <;> simp
    simp only [e]
    rw [Finset.prod_mul_distrib, Expval.prod_delta n a' a ha' ha, Expval.prod_delta n b' b hb' hb]
    by_cases h1 : a' = a <;> by_cases h2 : b' = b <;> simp [h1, h2]
  rw [Finset.sum_eq_single a] at key
  · rw [Finset.sum_eq_single b] at key
    · rw [unit a b ha hb] at key
      simpa using key
    · intro b' hb' hne
      rw [unit a b' ha (Finset.mem_range.1 hb')]; simp [hne]
    · intro hh; exact absurd (Finset.mem_range.2 hb) hh
  · intro a' ha' hne
    refine Finset.sum_eq_zero fun b' hb' => ?_
    rw [unit a' b' (Finset.mem_range.1 ha') (Finset.mem_range.1 hb')]; simp [hne]
  · intro hh; exact absurd (Finset.mem_range.2 ha) hh

/-- The measurement projectors of one qubit. -/
def measFam : Set (Mat2 ℂ) := {M | ∃ a ∈ xyz, ∃ o, M = pauliProjector a o}

/-- Every 2×2 matrix is a combination of the six projectors. -/
theorem span_measFam (M : Mat2 ℂ) : M ∈ Submodule.span ℂ measFam := by
  have hm : ∀ a ∈ xyz, ∀ o, pauliProjector a o ∈ Submodule.span ℂ measFam := fun a ha o =>
    Submodule.subset_span ⟨a, ha, o, rfl⟩
  have e : M = M false false • pauliProjector "Z".toList false + M true true • pauliProjector "Z".toList true +
      ((M false true + M true false) / 2) • (pauliProjector "X".toList false - pauliProjector "X".toList true) +
      (Complex.I * (M false true - M true false) / 2) • (pauliProjector "Y".toList false - pauliProjector "Y".toList true) := by
    have hI := Complex.I_mul_I
    funext r c
    cases r <;> cases c <;> simp [pauliProjector]
    · linear_combination ((M false true - M true false) / 2) * hI
    · linear_combination (-(M false true - M true false) / 2) * hI
  rw [e]
  have hx := hm "X".toList (by decide)
  have hy := hm "Y".toList (by decide)
  have hz := hm "Z".toList (by decide)
  exact add_mem (add_mem (add_mem (Submodule.smul_mem _ _ (hz _)) (Submodule.smul_mem _ _ (hz _)))
    (Submodule.smul_mem _ _ (sub_mem (hx _) (hx _)))) (Submodule.smul_mem _ _ (sub_mem (hy _) (hy _)))

end Verif.Tomo
