import Verif.Expval.Model
import Verif.Py.BinLemmas
import Mathlib.Algebra.BigOperators.Intervals
import Mathlib.Algebra.BigOperators.Fin
import Mathlib.Data.Nat.Bitwise
import Mathlib.Tactic.Ring
import Mathlib.Tactic.FieldSimp
import Mathlib.Tactic.Linarith
/- Binary digits and sums over all n-bit numbers. -/
namespace Verif.Expval
open Verif Verif.Counts

theorem bit_lt (x t : ℕ) : bit x t < 2 := by unfold bit; cases x.testBit t <;> decide

theorem bit_eq (x t : ℕ) : bit x t = x / 2 ^ t % 2 := by
  unfold bit
  rw [Nat.testBit_eq_decide_div_mod_eq]
  have : x / 2 ^ t % 2 < 2 := Nat.mod_lt _ (by omega)
  by_cases h : x / 2 ^ t % 2 = 1
  · simp [h]
  · have : x / 2 ^ t % 2 = 0 := by omega
    simp [this]

theorem bit_zero (t : ℕ) : bit 0 t = 0 := by simp [bit]

/-- A number below `2^n` is the sum of its digits. -/
theorem sum_bits (n x : ℕ) (hx : x < 2 ^ n) : ∑ t ∈ Finset.range n, bit x t * 2 ^ t = x := by
  induction n generalizing x with
  | zero => simp at hx; simp [hx]
  | succ n ih =>
    rw [Finset.sum_range_succ]
    have h1 : ∀ t ∈ Finset.range n, bit x t * 2 ^ t = bit (x % 2 ^ n) t * 2 ^ t := by
      intro t ht
      have : t < n := Finset.mem_range.1 ht
      unfold bit
      rw [Nat.testBit_mod_two_pow]
      simp [this]
    rw [Finset.sum_congr rfl h1, ih _ (Nat.mod_lt _ (by positivity)), bit_eq]
    have h2 : x / 2 ^ n < 2 := by
      rw [Nat.div_lt_iff_lt_mul (by positivity)]
      rw [pow_succ] at hx; omega
    rw [Nat.mod_eq_of_lt h2, Nat.mul_comm]
    exact Nat.mod_add_div x (2 ^ n)

theorem eq_of_bits {n x y : ℕ} (hx : x < 2 ^ n) (hy : y < 2 ^ n) (h : ∀ t < n, bit x t = bit y t) : x = y := by
  rw [← sum_bits n x hx, ← sum_bits n y hy]
  exact Finset.sum_congr rfl fun t ht => by rw [h t (Finset.mem_range.1 ht)]

theorem bit_of_ge {n x t : ℕ} (hx : x < 2 ^ n) (ht : n ≤ t) : bit x t = 0 := by
  rw [bit_eq, Nat.div_eq_of_lt (lt_of_lt_of_le hx (Nat.pow_le_pow_right (by omega) ht))]

theorem bit_add_high {n x b : ℕ} (hx : x < 2 ^ n) (t : ℕ) (ht : t < n) : bit (x + 2 ^ n * b) t = bit x t := by
  unfold bit
  congr 1
  have h : (x + 2 ^ n * b) % 2 ^ n = x := by rw [Nat.add_mul_mod_self_left, Nat.mod_eq_of_lt hx]
  have h2 := Nat.testBit_mod_two_pow (x + 2 ^ n * b) n t
  rw [h] at h2
  simpa [ht] using h2.symm

theorem bit_high {n x b : ℕ} (hx : x < 2 ^ n) (hb : b < 2) : bit (x + 2 ^ n * b) n = b := by
  rw [bit_eq, Nat.add_mul_div_left _ _ (by positivity), Nat.div_eq_of_lt hx, Nat.zero_add, Nat.mod_eq_of_lt hb]

variable {M : Type} [AddCommMonoid M]

/-- Split the sum over `n+1`-bit numbers by the top digit. -/
theorem sum_pow_succ (n : ℕ) (f : ℕ → M) :
    ∑ x ∈ Finset.range (2 ^ (n + 1)), f x = ∑ x ∈ Finset.range (2 ^ n), (f x + f (x + 2 ^ n)) := by
  rw [Finset.sum_add_distrib, pow_succ, Nat.mul_two, Finset.sum_range_add]
  congr 1
  exact Finset.sum_congr rfl fun x _ => by rw [Nat.add_comm]

variable {R : Type} [CommRing R]

/-- The sum over all numbers of a product over the digits is the product of the sums. -/
theorem sum_prod_bits (n : ℕ) (f : ℕ → ℕ → R) :
    ∑ y ∈ Finset.range (2 ^ n), ∏ t ∈ Finset.range n, f t (bit y t) = ∏ t ∈ Finset.range n, (f t 0 + f t 1) := by
  induction n with
  | zero => simp
  | succ n ih =>
    rw [sum_pow_succ, Finset.prod_range_succ (fun t => f t 0 + f t 1), ← ih, Finset.sum_mul]
    refine Finset.sum_congr rfl fun y hy => ?_
    have hy' := Finset.mem_range.1 hy
    rw [Finset.prod_range_succ, Finset.prod_range_succ]
    have e1 : ∀ t ∈ Finset.range n, f t (bit (y + 2 ^ n) t) = f t (bit y t) := by
      intro t ht
      have := bit_add_high (b := 1) hy' t (Finset.mem_range.1 ht)
      rw [Nat.mul_one] at this; rw [this]
    have e2 : bit (y + 2 ^ n) n = 1 := by
      have := bit_high (b := 1) hy' (by omega); rwa [Nat.mul_one] at this
    rw [Finset.prod_congr rfl e1, e2, bit_of_ge hy' le_rfl]
    ring

/-- Equality of all digits as a product. -/
theorem prod_delta (n x y : ℕ) (hx : x < 2 ^ n) (hy : y < 2 ^ n) :
    (∏ t ∈ Finset.range n, if bit x t = bit y t then (1 : R) else 0) = if x = y then 1 else 0 := by
  by_cases h : x = y
  · subst h; simp
  · rw [if_neg h]
    have : ∃ t < n, bit x t ≠ bit y t := by
      by_contra hc
      push Not at hc
      exact h (eq_of_bits hx hy hc)
    obtain ⟨t, ht, hne⟩ := this
    exact Finset.prod_eq_zero (Finset.mem_range.2 ht) (by simp [hne])

/-- Value of a bit string as a sum over its digits, right-most first. -/
theorem ofBin_eq_sum (s : Str) : ofBin s = ∑ t ∈ Finset.range s.length, bitVal (s.reverse.getD t '0') * 2 ^ t := by
  induction s using List.reverseRecOn with
  | nil => simp
  | append_singleton s c ih =>
    rw [ofBin_append, ih, List.length_append, List.length_singleton, Finset.sum_range_succ']
    simp only [List.reverse_append, List.reverse_cons, List.reverse_nil, List.nil_append, List.singleton_append,
      List.getD_cons_succ, List.getD_cons_zero, pow_zero, Nat.mul_one]
    rw [Finset.mul_sum]
    congr 1
    exact Finset.sum_congr rfl fun t _ => by rw [pow_succ]; ring

theorem sum_bits_lt (n : ℕ) (b : ℕ → ℕ) (hb : ∀ t < n, b t < 2) : ∑ t ∈ Finset.range n, b t * 2 ^ t < 2 ^ n := by
  induction n with
  | zero => simp
  | succ n ih =>
    rw [Finset.sum_range_succ, pow_succ]
    have h1 := ih fun t ht => hb t (by omega)
    have h2 := hb n (by omega)
    have : b n * 2 ^ n ≤ 1 * 2 ^ n := Nat.mul_le_mul_right _ (by omega)
    omega

theorem bit_sum (n : ℕ) (b : ℕ → ℕ) (hb : ∀ t < n, b t < 2) (t : ℕ) (ht : t < n) :
    bit (∑ t ∈ Finset.range n, b t * 2 ^ t) t = b t := by
  induction n with
  | zero => omega
  | succ n ih =>
    rw [Finset.sum_range_succ, Nat.mul_comm (b n)]
    have hlt := sum_bits_lt n b fun t ht => hb t (by omega)
    by_cases h : t = n
    · subst h; exact bit_high hlt (hb t (by omega))
    · rw [bit_add_high hlt t (by omega)]
      exact ih (fun t ht => hb t (by omega)) (by omega)

theorem bit_ofBin (s : Str) (t : ℕ) (ht : t < s.length) : bit (ofBin s) t = bitVal (s.reverse.getD t '0') := by
  rw [ofBin_eq_sum]
  exact bit_sum _ _ (fun t _ => by have := bitVal_le (s.reverse.getD t '0'); omega) t ht

end Verif.Expval
