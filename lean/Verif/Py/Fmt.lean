import Verif.Py.Basic
import Mathlib.Data.Nat.Notation
import Mathlib.Data.Int.Notation
/-
Python's `'%d' % k` (also `str(k)`) and `int(s)` for decimal integers.
-/
namespace Verif

/-- `'%d' % k`. -/
def fmtD (k : ℤ) : Str :=
  match k with
  | .ofNat n => Nat.toDigits 10 n
  | .negSucc n => '-' :: Nat.toDigits 10 (n + 1)

/-- `int(s)` for a string of decimal digits with an optional minus sign; other strings (Python also accepts
blanks, underscores and a plus sign) are `none`. -/
def parseInt (s : Str) : Option ℤ :=
  match s with
  | [] => none
  | '-' :: t => if t ≠ [] ∧ ∀ c ∈ t, c.isDigit = true then some (-(Nat.ofDigitChars 10 t 0 : ℤ)) else none
  | s => if ∀ c ∈ s, c.isDigit = true then some (Nat.ofDigitChars 10 s 0 : ℤ) else none

theorem digit_of_toDigits {n : ℕ} {c : Char} (h : c ∈ Nat.toDigits 10 n) : c.isDigit = true :=
  Nat.isDigit_of_mem_toDigits (by decide) (by decide) h

theorem parseInt_fmtD (k : ℤ) : parseInt (fmtD k) = some k := by
  cases k with
  | ofNat n =>
    show parseInt (Nat.toDigits 10 n) = _
    unfold parseInt
    split
    · rename_i h; exact absurd h Nat.toDigits_ne_nil
    · rename_i t h
      have : ('-').isDigit = true := digit_of_toDigits (n := n) (by rw [h]; simp)
      exact absurd this (by decide)
    · rw [if_pos (fun c hc => digit_of_toDigits hc), Nat.ofDigitChars_ten_toDigits]; rfl
  | negSucc n =>
    show parseInt ('-' :: Nat.toDigits 10 (n + 1)) = _
    unfold parseInt
    simp only []
    rw [if_pos ⟨Nat.toDigits_ne_nil, fun c hc => digit_of_toDigits hc⟩, Nat.ofDigitChars_ten_toDigits]; rfl

theorem fmtD_inj {a b : ℤ} (h : fmtD a = fmtD b) : a = b := by
  have := parseInt_fmtD a
  rw [h, parseInt_fmtD] at this
  exact (Option.some.inj this).symm

theorem fmtD_chars {k : ℤ} {c : Char} (h : c ∈ fmtD k) : c = '-' ∨ c.isDigit = true := by
  cases k with
  | ofNat n => exact Or.inr (digit_of_toDigits h)
  | negSucc n =>
    rcases List.mem_cons.1 h with h | h
    · exact Or.inl h
    · exact Or.inr (digit_of_toDigits h)

theorem fmtD_not_mem {k : ℤ} {c : Char} (h1 : c ≠ '-') (h2 : c.isDigit = false) : c ∉ fmtD k := by
  intro h
  rcases fmtD_chars h with h | h
  · exact h1 h
  · rw [h2] at h; cases h

theorem fmtD_ne_nil (k : ℤ) : fmtD k ≠ [] := by
  cases k with
  | ofNat n => exact Nat.toDigits_ne_nil
  | negSucc n => simp [fmtD]

/-- Two strings `p ++ c :: s` with no `c` in the first parts are equal only componentwise. -/
theorem split_at_char {c : Char} {p p' s s' : Str} (h1 : c ∉ p) (h2 : c ∉ p') (h : p ++ c :: s = p' ++ c :: s') : p = p' ∧ s = s' := by
  induction p generalizing p' with
  | nil =>
    cases p' with
    | nil => simp at h; exact ⟨rfl, h⟩
    | cons b p' => simp at h; exact absurd h.1 (fun e => h2 (by simp [e]))
  | cons a p ih =>
    cases p' with
    | nil => simp at h; exact absurd h.1 (fun e => h1 (by simp [e]))
    | cons b p' =>
      simp at h
      obtain ⟨rfl, h⟩ := h
      obtain ⟨e1, e2⟩ := ih (fun hm => h1 (by simp [hm])) (fun hm => h2 (by simp [hm])) h
      exact ⟨by rw [e1], e2⟩

end Verif
