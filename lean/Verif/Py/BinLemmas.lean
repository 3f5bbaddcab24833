import Verif.Py.Basic
import Mathlib.Data.List.Induction
/- Helper lemmas about binary strings. -/
namespace Verif

theorem ofBin_append (s : Str) (c : Char) : ofBin (s ++ [c]) = 2 * ofBin s + bitVal c := by
  simp [ofBin, List.foldl_append]

@[simp] theorem ofBin_nil : ofBin [] = 0 := rfl

theorem binDigits_lt (j : Nat) (h : j < 2) : binDigits j = [if j = 0 then '0' else '1'] := by
  have : j = 0 ∨ j = 1 := by omega
  rcases this with rfl | rfl <;> decide

theorem binDigits_ge (j : Nat) (h : 2 ≤ j) :
    binDigits j = binDigits (j / 2) ++ [if j % 2 = 0 then '0' else '1'] := by
  unfold binDigits
  rw [Nat.toDigits_of_base_le (by omega) h]
  have : j % 2 = 0 ∨ j % 2 = 1 := by omega
  rcases this with h | h <;> simp [h, Nat.digitChar]

theorem isBits_binDigits (j : Nat) : IsBits (binDigits j) := by
  induction j using Nat.strongRecOn with
  | _ j ih =>
    by_cases h : j < 2
    · rw [binDigits_lt j h]; intro c hc; simp at hc; subst hc; split <;> simp
    · rw [binDigits_ge j (by omega)]
      intro c hc
      rcases List.mem_append.1 hc with hc | hc
      · exact ih _ (by omega) c hc
      · simp at hc; subst hc; split <;> simp

theorem ofBin_binDigits (j : Nat) : ofBin (binDigits j) = j := by
  induction j using Nat.strongRecOn with
  | _ j ih =>
    by_cases h : j < 2
    · have : j = 0 ∨ j = 1 := by omega
      rcases this with rfl | rfl <;> decide
    · rw [binDigits_ge j (by omega), ofBin_append, ih _ (by omega)]
      have : j % 2 = 0 ∨ j % 2 = 1 := by omega
      rcases this with h | h <;> simp [h, bitVal] <;> omega

theorem length_binDigits_le (j n : Nat) (hn : 1 ≤ n) (hj : j < 2 ^ n) :
    (binDigits j).length ≤ n := by
  induction n generalizing j with
  | zero => omega
  | succ n ih =>
    by_cases h : j < 2
    · rw [binDigits_lt j h]; simp
    · rw [binDigits_ge j (by omega)]
      have hn1 : 1 ≤ n := by
        rcases n with _ | n
        · simp at hj; omega
        · omega
      have := ih (j / 2) hn1 (by rw [Nat.pow_succ] at hj; omega)
      simp; omega

theorem ofBin_replicate_append (k : Nat) (s : Str) :
    ofBin (List.replicate k '0' ++ s) = ofBin s := by
  have h0 : (List.replicate k '0').foldl (fun a c => 2 * a + bitVal c) 0 = 0 := by
    induction k with
    | zero => rfl
    | succ k ih => simpa [List.replicate_succ, bitVal] using ih
  simp [ofBin, List.foldl_append, h0]

theorem isBits_zfill (n : Nat) (s : Str) (h : IsBits s) : IsBits (zfill n s) := by
  intro c hc
  rcases List.mem_append.1 hc with hc | hc
  · left; exact (List.mem_replicate.1 hc).2
  · exact h c hc

theorem length_zfill (n : Nat) (s : Str) (h : s.length ≤ n) : (zfill n s).length = n := by
  simp [zfill]; omega

theorem ofBin_zfill (n : Nat) (s : Str) : ofBin (zfill n s) = ofBin s :=
  ofBin_replicate_append _ _

theorem bitVal_le (c : Char) : bitVal c ≤ 1 := by unfold bitVal; split <;> omega

theorem ofBin_lt (s : Str) : ofBin s < 2 ^ s.length := by
  induction s using List.reverseRecOn with
  | nil => simp
  | append_singleton s c ih =>
    rw [ofBin_append]
    have := bitVal_le c
    simp [Nat.pow_succ]; omega

theorem ofBin_inj (s t : Str) (hs : IsBits s) (ht : IsBits t) (hl : s.length = t.length)
    (h : ofBin s = ofBin t) : s = t := by
  induction s using List.reverseRecOn generalizing t with
  | nil => simp at hl; exact (List.eq_nil_of_length_eq_zero hl.symm).symm
  | append_singleton s c ih =>
    rcases List.eq_nil_or_concat t with rfl | ⟨t, d, rfl⟩
    · simp at hl
    · simp only [List.concat_eq_append] at *
      rw [ofBin_append, ofBin_append] at h
      have hc := hs c (by simp)
      have hd := ht d (by simp)
      have h1 : bitVal c = bitVal d := by have := bitVal_le c; have := bitVal_le d; omega
      have hcd : c = d := by
        rcases hc with rfl | rfl <;> rcases hd with rfl | rfl <;> simp_all [bitVal]
      subst hcd
      have := ih t (fun x hx => hs x (by simp [hx])) (fun x hx => ht x (by simp [hx]))
        (by simpa using hl) (by omega)
      rw [this]

/-- `zfill n (bin j)` is the unique `n`-character bit string with value `j`. -/
theorem zfill_binDigits (s : Str) (hs : IsBits s) (h1 : 1 ≤ s.length) :
    zfill s.length (binDigits (ofBin s)) = s := by
  apply ofBin_inj _ _ (isBits_zfill _ _ (isBits_binDigits _)) hs
  · exact length_zfill _ _ (length_binDigits_le _ _ h1 (ofBin_lt s))
  · rw [ofBin_zfill, ofBin_binDigits]

end Verif
