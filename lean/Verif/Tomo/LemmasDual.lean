import Verif.Tomo.SpecShots
import Verif.Tomo.LemmasSpan
import Mathlib.Algebra.BigOperators.Ring.Finset
/-
The dual frame of the Pauli projectors, and independent outcomes.
-/
set_option linter.unusedSimpArgs false
set_option linter.unusedVariables false
namespace Verif.Tomo
open Verif Verif.Quantum Verif.Counts

/-! ### One qubit -/

/-- The dual of a projector. -/
noncomputable def dual1 (t : Fin 3) (o x y : Bool) : ℂ := pauliProjector (axisLabel t) o x y - if x = y then 1 / 3 else 0

theorem dual1_recon (a b c d : Bool) : ∑ t, ∑ o, dual1 t o a b * pauliProjector (axisLabel t) o c d = if a = d ∧ b = c then 1 else 0 := by
  have I2 : Complex.I * Complex.I = -1 := Complex.I_mul_I
  cases a <;> cases b <;> cases c <;> cases d <;>
    simp [dual1, axisLabel, pauliProjector, Fin.sum_univ_three] <;> ring_nf <;> simp [Complex.I_sq] <;> norm_num

theorem dual1_norm (t : Fin 3) (o : Bool) : ∑ x, ∑ y, Complex.normSq (dual1 t o x y) = 5 / 9 := by
  fin_cases t <;> cases o <;> simp [dual1, axisLabel, pauliProjector, Complex.normSq_apply] <;> norm_num

theorem dual1_tr (t : Fin 3) (o : Bool) : ∑ x, dual1 t o x x = 1 / 3 := by
  fin_cases t <;> cases o <;> simp [dual1, axisLabel, pauliProjector] <;> norm_num

theorem dual1_conj (t : Fin 3) (o x y : Bool) : (starRingEnd ℂ) (dual1 t o x y) = dual1 t o y x := by
  fin_cases t <;> cases o <;> cases x <;> cases y <;> simp [dual1, axisLabel, pauliProjector, Complex.conj_ofNat]

/-- The dual is a linear function of the projector. -/
theorem dual1_pairing (t : Fin 3) (o a b : Bool) :
    ∑ c, ∑ d, pauliProjector (axisLabel t) o c d * ((if c = a ∧ d = b then 1 else 0) - if a = b ∧ d = c then 1 / 3 else 0) = dual1 t o a b := by
  fin_cases t <;> cases o <;> cases a <;> cases b <;> simp [dual1, axisLabel, pauliProjector] <;> norm_num

theorem proj1_tr (t : Fin 3) (o : Bool) : ∑ x, pauliProjector (axisLabel t) o x x = 1 := by
  fin_cases t <;> cases o <;> simp [axisLabel, pauliProjector]

/-! ### `n` qubits -/

/-- The projector of a setting and an outcome. -/
noncomputable def projN {n : ℕ} (t : Fin n → Fin 3) (s : Fin n → Bool) (a b : ℕ) : ℂ :=
  ∏ j : Fin n, pauliProjector (axisLabel (t j)) (s j) (a.testBit j) (b.testBit j)

/-- Its dual. -/
noncomputable def dualN {n : ℕ} (t : Fin n → Fin 3) (s : Fin n → Bool) (a b : ℕ) : ℂ :=
  ∏ j : Fin n, dual1 (t j) (s j) (a.testBit j) (b.testBit j)

theorem sum_range_bits {M : Type} [AddCommMonoid M] (n : ℕ) (F : ℕ → M) :
    ∑ a ∈ Finset.range (2 ^ n), F a = ∑ x : Fin n → Bool, F (Nat.ofBits x) := by
  refine Finset.sum_nbij' (fun y => fun k : Fin n => y.testBit k) (fun x => Nat.ofBits x) ?_ ?_ ?_ ?_ ?_
  · intro y _; exact Finset.mem_univ _
  · intro x _; exact Finset.mem_range.2 (Nat.ofBits_lt_two_pow x)
  · intro y hy
    rw [Nat.ofBits_testBit, Nat.mod_eq_of_lt (Finset.mem_range.1 hy)]
  · intro x _; funext k; simp [Nat.testBit_ofBits_lt _ _ k.2]
  · intro y hy
    rw [Nat.ofBits_testBit, Nat.mod_eq_of_lt (Finset.mem_range.1 hy)]

theorem testBit_ofBits' {n : ℕ} (x : Fin n → Bool) (j : Fin n) : (Nat.ofBits x).testBit j = x j := by
  rw [Nat.testBit_ofBits_lt _ _ j.2]

/-- Sums over all bit strings of products over the bits. -/
theorem sum_prod_pi {n : ℕ} {α R : Type} [Fintype α] [DecidableEq α] [CommRing R] (f : Fin n → α → R) : ∑ x : Fin n → α, ∏ j, f j (x j) = ∏ j, ∑ a, f j a := by
  rw [Finset.prod_univ_sum, Fintype.piFinset_univ]

theorem sum_prod_pi2 {n : ℕ} {α β R : Type} [Fintype α] [DecidableEq α] [Fintype β] [DecidableEq β] [CommRing R] (f : Fin n → α → β → R) :
    ∑ x : Fin n → α, ∑ y : Fin n → β, ∏ j, f j (x j) (y j) = ∏ j, ∑ a, ∑ b, f j a b := by
  rw [← sum_prod_pi fun j a => ∑ b, f j a b]
  refine Finset.sum_congr rfl fun x _ => ?_
  exact sum_prod_pi fun j b => f j (x j) b

/-- **Reconstruction**: the duals and the projectors resolve the identity. -/
theorem dualN_recon (n : ℕ) (X : ℕ → ℕ → ℂ) (a b : ℕ) (ha : a < 2 ^ n) (hb : b < 2 ^ n) :
    ∑ t : Fin n → Fin 3, ∑ s, dualN t s a b * traceMul (2 ^ n) (projN t s) X = X a b := by
  have key : ∀ c d, c < 2 ^ n → d < 2 ^ n → ∑ t : Fin n → Fin 3, ∑ s, dualN t s a b * projN t s c d = if a = d ∧ b = c then 1 else 0 := by
    intro c d hc hd
    have e : ∀ t : Fin n → Fin 3, ∀ s : Fin n → Bool, dualN t s a b * projN t s c d =
        ∏ j, (dual1 (t j) (s j) (a.testBit j) (b.testBit j) * pauliProjector (axisLabel (t j)) (s j) (c.testBit j) (d.testBit j)) := by
      intro t s
      unfold dualN projN
      rw [Finset.prod_mul_distrib]
    simp only [e]
    rw [sum_prod_pi2 fun (j : Fin n) (t : Fin 3) (o : Bool) => dual1 t o (a.testBit j) (b.testBit j) * pauliProjector (axisLabel t) o (c.testBit j) (d.testBit j)]
    simp only [dual1_recon]
    by_cases h : a = d ∧ b = c
    · rw [if_pos h, h.1, h.2]; simp
    · rw [if_neg h]
      have : ∃ j : Fin n, ¬(a.testBit j = d.testBit j ∧ b.testBit j = c.testBit j) := by
        by_contra hc'
        push Not at hc'
        refine h ⟨?_, ?_⟩
        · refine Nat.eq_of_testBit_eq fun i => ?_
          by_cases hi : i < n
          · exact (hc' ⟨i, hi⟩).1
          · rw [Nat.testBit_eq_false_of_lt (lt_of_lt_of_le ha (Nat.pow_le_pow_right (by norm_num) (by omega))),
              Nat.testBit_eq_false_of_lt (lt_of_lt_of_le hd (Nat.pow_le_pow_right (by norm_num) (by omega)))]
        · refine Nat.eq_of_testBit_eq fun i => ?_
          by_cases hi : i < n
          · exact (hc' ⟨i, hi⟩).2
          · rw [Nat.testBit_eq_false_of_lt (lt_of_lt_of_le hb (Nat.pow_le_pow_right (by norm_num) (by omega))),
              Nat.testBit_eq_false_of_lt (lt_of_lt_of_le hc (Nat.pow_le_pow_right (by norm_num) (by omega)))]
      obtain ⟨j, hj⟩ := this
      exact Finset.prod_eq_zero (Finset.mem_univ j) (if_neg hj)
  have swap : ∑ t : Fin n → Fin 3, ∑ s, dualN t s a b * traceMul (2 ^ n) (projN t s) X =
      ∑ c ∈ Finset.range (2 ^ n), ∑ d ∈ Finset.range (2 ^ n), (∑ t : Fin n → Fin 3, ∑ s, dualN t s a b * projN t s c d) * X d c := by
    simp only [traceMul, Finset.mul_sum, Finset.sum_mul]
    have h1 : ∀ t : Fin n → Fin 3, ∑ s : Fin n → Bool, ∑ c ∈ Finset.range (2 ^ n), ∑ d ∈ Finset.range (2 ^ n), dualN t s a b * (projN t s c d * X d c) =
        ∑ c ∈ Finset.range (2 ^ n), ∑ d ∈ Finset.range (2 ^ n), ∑ s : Fin n → Bool, dualN t s a b * (projN t s c d * X d c) := by
      intro t
      rw [Finset.sum_comm]
      refine Finset.sum_congr rfl fun c _ => ?_
      rw [Finset.sum_comm]
    simp only [h1]
    rw [Finset.sum_comm]
    refine Finset.sum_congr rfl fun c _ => ?_
    rw [Finset.sum_comm]
    refine Finset.sum_congr rfl fun d _ => Finset.sum_congr rfl fun t _ => Finset.sum_congr rfl fun s _ => ?_
    ring
  rw [swap, Finset.sum_eq_single b]
  · rw [Finset.sum_eq_single a]
    · rw [key b a hb ha, if_pos ⟨rfl, rfl⟩, one_mul]
    · intro d hd hne
      rw [key b d hb (Finset.mem_range.1 hd), if_neg (fun h => hne h.1.symm), zero_mul]
    · intro h; exact absurd (Finset.mem_range.2 ha) h
  · intro c hc hne
    refine Finset.sum_eq_zero fun d hd => ?_
    rw [key c d (Finset.mem_range.1 hc) (Finset.mem_range.1 hd), if_neg (fun h => hne h.2.symm), zero_mul]
  · intro h; exact absurd (Finset.mem_range.2 hb) h

/-- Traces of products of tensor products. -/
theorem traceMul_tensor (n : ℕ) (M E : Fin n → Bool → Bool → ℂ) :
    traceMul (2 ^ n) (fun a b => ∏ j : Fin n, M j (a.testBit j) (b.testBit j)) (fun a b => ∏ j : Fin n, E j (a.testBit j) (b.testBit j)) =
      ∏ j, ∑ c, ∑ d, M j c d * E j d c := by
  unfold traceMul
  rw [sum_range_bits]
  simp only [sum_range_bits, testBit_ofBits', ← Finset.prod_mul_distrib]
  exact sum_prod_pi2 fun j c d => M j c d * E j d c

/-- The matrix whose pairing with a projector gives the entry of the dual. -/
noncomputable def probeN (n a b : ℕ) : ℕ → ℕ → ℂ := fun d c =>
  ∏ j : Fin n, ((if c.testBit j = a.testBit j ∧ d.testBit j = b.testBit j then 1 else 0) -
    if a.testBit j = b.testBit j ∧ d.testBit j = c.testBit j then 1 / 3 else 0)

theorem traceMul_probe {n : ℕ} (t : Fin n → Fin 3) (s : Fin n → Bool) (a b : ℕ) : traceMul (2 ^ n) (projN t s) (probeN n a b) = dualN t s a b := by
  have := traceMul_tensor n (fun j => pauliProjector (axisLabel (t j)) (s j)) fun j d c =>
    ((if c = a.testBit j ∧ d = b.testBit j then 1 else 0) - if a.testBit j = b.testBit j ∧ d = c then 1 / 3 else 0)
  refine Eq.trans this ?_
  unfold dualN
  exact Finset.prod_congr rfl fun j _ => dual1_pairing _ _ _ _

theorem dualN_conj {n : ℕ} (t : Fin n → Fin 3) (s : Fin n → Bool) (a b : ℕ) : (starRingEnd ℂ) (dualN t s a b) = dualN t s b a := by
  unfold dualN
  rw [map_prod]
  exact Finset.prod_congr rfl fun j _ => dual1_conj _ _ _ _

theorem dualN_norm {n : ℕ} (t : Fin n → Fin 3) (s : Fin n → Bool) :
    ∑ a ∈ Finset.range (2 ^ n), ∑ b ∈ Finset.range (2 ^ n), Complex.normSq (dualN t s a b) = (5 / 9) ^ n := by
  rw [sum_range_bits]
  simp only [sum_range_bits, dualN, testBit_ofBits', map_prod]
  rw [sum_prod_pi2 fun (j : Fin n) x y => Complex.normSq (dual1 (t j) (s j) x y)]
  simp only [dual1_norm, Finset.prod_const, Finset.card_univ, Fintype.card_fin]

theorem dualN_tr {n : ℕ} (t : Fin n → Fin 3) (s : Fin n → Bool) : tr (2 ^ n) (dualN t s) = (1 / 3) ^ n := by
  unfold tr
  rw [sum_range_bits]
  simp only [dualN, testBit_ofBits']
  rw [sum_prod_pi fun (j : Fin n) x => dual1 (t j) (s j) x x]
  simp only [dual1_tr, Finset.prod_const, Finset.card_univ, Fintype.card_fin]

theorem projN_sum {n : ℕ} (t : Fin n → Fin 3) (a b : ℕ) (ha : a < 2 ^ n) (hb : b < 2 ^ n) : ∑ s : Fin n → Bool, projN t s a b = if a = b then 1 else 0 := by
  unfold projN
  rw [sum_prod_pi fun (j : Fin n) o => pauliProjector (axisLabel (t j)) o (a.testBit j) (b.testBit j)]
  have e : ∀ j : Fin n, ∑ o, pauliProjector (axisLabel (t j)) o (a.testBit j) (b.testBit j) = if a.testBit j = b.testBit j then 1 else 0 := by
    intro j
    rw [Fintype.sum_bool, add_comm, pauliProjector_sum]
  simp only [e]
  by_cases h : a = b
  · subst h; simp
  · rw [if_neg h]
    have : ∃ j : Fin n, a.testBit j ≠ b.testBit j := by
      by_contra hc'
      push Not at hc'
      refine h (Nat.eq_of_testBit_eq fun i => ?_)
      by_cases hi : i < n
      · exact hc' ⟨i, hi⟩
      · rw [Nat.testBit_eq_false_of_lt (lt_of_lt_of_le ha (Nat.pow_le_pow_right (by norm_num) (by omega))),
          Nat.testBit_eq_false_of_lt (lt_of_lt_of_le hb (Nat.pow_le_pow_right (by norm_num) (by omega)))]
    obtain ⟨j, hj⟩ := this
    exact Finset.prod_eq_zero (Finset.mem_univ j) (if_neg hj)

end Verif.Tomo
