import Verif.Discr.Model
import Mathlib.Algebra.BigOperators.Group.List.Basic
set_option linter.unusedSimpArgs false
set_option linter.unusedVariables false
/-
C61: the discrimination filter counts every shot once.
-/
namespace Verif.Discr
open Verif

variable {K : Type}

/-! ### Specification -/

/-- A state string of `n` decimal digits smaller than `base`. -/
def IsState (base n : ℕ) (s : Str) : Prop := s.length = n ∧ ∀ c ∈ s, c.isDigit = true ∧ c.toNat - 48 < base

instance (base n : ℕ) (s : Str) : Decidable (IsState base n s) := inferInstanceAs (Decidable (_ ∧ _))

/-- The number written in positional notation. -/
def value (base : ℕ) (s : Str) : ℕ := s.foldl (fun a c => base * a + (c.toNat - 48)) 0

/-- The dictionary key of a state string: its number in hexadecimal notation. -/
def key (base : ℕ) (s : Str) : Str := "0x".toList ++ Nat.toDigits 16 (value base s)

/-! ### Lemmas -/

theorem digitVal_of_isDigit {c : Char} (h : c.isDigit = true) : digitVal c = some (c.toNat - 48) := by
  have h2 : '0' ≤ c ∧ c ≤ '9' := by
    simp only [Char.isDigit, Bool.and_eq_true, decide_eq_true_eq] at h
    exact ⟨h.1, h.2⟩
  unfold digitVal
  rw [if_pos h2]

theorem intBase_eq {base n : ℕ} (hb : 2 ≤ base) (hb' : base ≤ 36) {s : Str} (hn : 0 < n) (hs : IsState base n s) :
    intBase base s = some (value base s) := by
  unfold intBase
  have hne : s ≠ [] := by intro h; rw [h] at hs; have := hs.1; simp at this; omega
  rw [if_neg (by rintro (h | h | h); omega; omega; exact hne h)]
  unfold value
  have key : ∀ (l : Str) (a : ℕ), (∀ c ∈ l, c.isDigit = true ∧ c.toNat - 48 < base) →
      l.foldlM (fun a c => match digitVal c with
        | none => none
        | some v => if v < base then some (base * a + v) else none) a = some (l.foldl (fun a c => base * a + (c.toNat - 48)) a) := by
    intro l
    induction l with
    | nil => intro a _; rfl
    | cons c l ih =>
      intro a h
      rw [List.foldlM_cons, digitVal_of_isDigit (h c (by simp)).1]
      simp only [if_pos (h c (by simp)).2, Option.bind_eq_bind, Option.bind_some]
      rw [ih _ fun x hx => h x (by simp [hx])]
      rfl
  exact key s 0 hs.2

theorem digit_inj {a b : Char} (ha : a.isDigit = true) (hb : b.isDigit = true) (h : a.toNat - 48 = b.toNat - 48) : a = b := by
  simp only [Char.isDigit, Bool.and_eq_true, decide_eq_true_eq, ge_iff_le, UInt32.le_iff_toNat_le] at ha hb
  have e : a.toNat = b.toNat := by
    have h1 : 48 ≤ a.toNat := ha.1
    have h2 : 48 ≤ b.toNat := hb.1
    omega
  apply Char.ext
  exact UInt32.toNat_inj.1 e

theorem value_append (base : ℕ) (s : Str) (c : Char) : value base (s ++ [c]) = base * value base s + (c.toNat - 48) := by
  simp [value]

theorem value_inj {base n : ℕ} {s t : Str} (hs : IsState base n s) (ht : IsState base n t) (h : value base s = value base t) : s = t := by
  induction n generalizing s t with
  | zero =>
    rw [List.length_eq_zero_iff.1 hs.1, List.length_eq_zero_iff.1 ht.1]
  | succ n ih =>
    have hs0 : s ≠ [] := by intro e; rw [e] at hs; have := hs.1; simp at this
    have ht0 : t ≠ [] := by intro e; rw [e] at ht; have := ht.1; simp at this
    obtain ⟨s', c, rfl⟩ : ∃ s' c, s = s' ++ [c] := ⟨_, _, (List.dropLast_append_getLast hs0).symm⟩
    obtain ⟨t', d, rfl⟩ : ∃ t' d, t = t' ++ [d] := ⟨_, _, (List.dropLast_append_getLast ht0).symm⟩
    rw [value_append, value_append] at h
    have hc := hs.2 c (by simp)
    have hd := ht.2 d (by simp)
    have hb : 0 < base := by omega
    have h1 : c.toNat - 48 = d.toNat - 48 := by
      have := congrArg (· % base) h
      simpa [Nat.mul_add_mod, Nat.mod_eq_of_lt hc.2, Nat.mod_eq_of_lt hd.2] using this
    have h2 : value base s' = value base t' := by
      rw [h1] at h
      exact Nat.eq_of_mul_eq_mul_left hb (by omega)
    have e1 : s' = t' := ih ⟨by have := hs.1; simp at this; exact this, fun x hx => hs.2 x (by simp [hx])⟩
      ⟨by have := ht.1; simp at this; exact this, fun x hx => ht.2 x (by simp [hx])⟩ h2
    rw [e1, digit_inj hc.1 hd.1 h1]

theorem digitChar_inj16 : ∀ a < 16, ∀ b < 16, Nat.digitChar a = Nat.digitChar b → a = b := by decide

theorem toDigits16_inj {a b : ℕ} (h : Nat.toDigits 16 a = Nat.toDigits 16 b) : a = b := by
  induction a using Nat.strong_induction_on generalizing b with
  | _ a ih =>
    rw [Nat.toDigits_eq_if (by decide), Nat.toDigits_eq_if (by decide) (n := b)] at h
    by_cases ha : a < 16
    · by_cases hb : b < 16
      · rw [if_pos ha, if_pos hb] at h
        exact digitChar_inj16 a ha b hb (by simpa using h)
      · rw [if_pos ha, if_neg hb] at h
        have := congrArg List.length h
        have h2 := Nat.length_toDigits_pos (b := 16) (n := b / 16)
        simp at this
    · by_cases hb : b < 16
      · rw [if_neg ha, if_pos hb] at h
        have := congrArg List.length h
        have h2 := Nat.length_toDigits_pos (b := 16) (n := a / 16)
        simp at this
      · rw [if_neg ha, if_neg hb] at h
        obtain ⟨h1, h2⟩ := List.append_inj' h (by simp)
        have e1 := ih (a / 16) (by omega) h1
        have e2 := digitChar_inj16 (a % 16) (by omega) (b % 16) (by omega) (by simpa using h2)
        omega

theorem hex_eq (base : ℕ) (s : Str) : hexStr (value base s) = key base s := rfl

theorem key_inj {base n : ℕ} {s t : Str} (hs : IsState base n s) (ht : IsState base n t) (h : key base s = key base t) : s = t := by
  unfold key at h
  exact value_inj hs ht (toDigits16_inj (List.append_cancel_left h))

/-! ### C61 -/

theorem count_inv {base n : ℕ} (hb : 2 ≤ base) (hb' : base ≤ 36) (hn : 0 < n) (y : List Str) (d0 : Dict Str ℕ) (hd : Dict.WF d0)
    (hy : ∀ s ∈ y, IsState base n s) :
    ∃ c, y.foldlM (fun (raw : Dict Str ℕ) cnt => do
      let n ← intBase base cnt
      let h := hexStr n
      match raw.get? h with
      | some v => some (raw.set h (v + 1))
      | none => some (raw.set h 1)) d0 = some c ∧ Dict.WF c ∧
      (∀ s, IsState base n s → c.getD (key base s) 0 = d0.getD (key base s) 0 + y.count s) ∧
      (∀ k, k ∈ c.keys ↔ k ∈ d0.keys ∨ ∃ s ∈ y, k = key base s) ∧
      c.values.sum = d0.values.sum + y.length := by
  induction y generalizing d0 with
  | nil => exact ⟨d0, rfl, hd, by simp, by simp, by simp⟩
  | cons s y ih =>
    have hs := hy s (by simp)
    let d1 := d0.set (key base s) (d0.getD (key base s) 0 + 1)
    have hstep : (match d0.get? (hexStr (value base s)) with
      | some v => some (d0.set (hexStr (value base s)) (v + 1))
      | none => some (d0.set (hexStr (value base s)) 1)) = some d1 := by
      rw [hex_eq]
      cases h : d0.get? (key base s) with
      | none => simp [d1, Dict.getD, h]
      | some v => simp [d1, Dict.getD, h]
    have hsum : d1.values.sum = d0.values.sum + 1 := by
      clear ih hstep
      simp only [d1]
      clear d1
      induction d0 with
      | nil => simp [Dict.set, Dict.values, Dict.getD]
      | cons p d0 ihd =>
        obtain ⟨a, b⟩ := p
        have hd' : Dict.WF d0 := by
          unfold Dict.WF at hd ⊢
          simp only [List.map_cons, List.nodup_cons] at hd
          exact hd.2
        by_cases h : a = key base s
        · simp only [Dict.set, h, if_true, Dict.getD, Dict.get?_cons, Option.getD_some, Dict.values, List.map_cons, List.sum_cons]
          omega
        · simp only [Dict.set, h, if_false, Dict.getD, Dict.get?_cons, Dict.values, List.map_cons, List.sum_cons]
          have := ihd hd'
          simp only [Dict.getD, Dict.values] at this
          omega
    obtain ⟨c, c1, c2, c3, c4, c5⟩ := ih d1 (Dict.wf_set _ hd _ _) fun x hx => hy x (by simp [hx])
    refine ⟨c, ?_, c2, ?_, ?_, ?_⟩
    · rw [List.foldlM_cons]
      simp only [intBase_eq hb hb' hn hs, Option.bind_eq_bind, Option.bind_some]
      rw [hstep]
      exact c1
    · intro t ht
      rw [c3 t ht, Dict.getD_set, List.count_cons]
      by_cases e : s = t
      · subst e; simp; omega
      · have : ¬ key base s = key base t := fun h => e (key_inj hs ht h)
        simp [this, e]
    · intro k
      rw [c4]
      have := Dict.mem_keys_set d0 (key base s) k (d0.getD (key base s) 0 + 1)
      simp only [Dict.keys, d1] at *
      rw [this]
      simp only [List.mem_cons, exists_eq_or_imp]
      tauto
    · rw [c5, hsum, List.length_cons]; omega

/-- `count`: for state strings of one width over one base, every shot is counted exactly once, under the key that
belongs to its state; different states have different keys; the counts add up to the number of shots. -/
theorem C61_count (base n : ℕ) (hb : 2 ≤ base) (hb' : base ≤ 36) (hn : 0 < n) (y : List Str) (hy : ∀ s ∈ y, IsState base n s) :
    ∃ c, count base y = some c ∧ Dict.WF c ∧ c.values.sum = y.length ∧
      (∀ s, IsState base n s → c.getD (key base s) 0 = y.count s) ∧
      (∀ k, k ∈ c.keys ↔ ∃ s ∈ y, k = key base s) ∧
      (∀ s t, IsState base n s → IsState base n t → key base s = key base t → s = t) := by
  obtain ⟨c, c1, c2, c3, c4, c5⟩ := count_inv hb hb' hn y [] Dict.wf_nil hy
  refine ⟨c, c1, c2, by simpa [Dict.values] using c5, ?_, ?_, fun s t hs ht h => key_inj hs ht h⟩
  · intro s hs
    rw [c3 s hs]; simp [Dict.getD]
  · intro k
    rw [c4 k]; simp [Dict.keys]

example : ∃ c, count 2 [['0', '1'], ['1', '1'], ['0', '1']] = some c ∧ c = [(['0', 'x', '1'], 2), (['0', 'x', '3'], 1)] ∧
    ∀ s ∈ [['0', '1'], ['1', '1'], ['0', '1']], IsState 2 2 s := by
  refine ⟨_, ?_, rfl, by decide⟩
  decide

/-! ### the base -/

theorem foldlM_char (l : Str) (b : ℕ) : l.foldlM (fun base c =>
      if c.isDigit then some (if base > c.toNat - 48 then base else c.toNat - 48) else none) b =
    if ∀ c ∈ l, c.isDigit = true then some (l.foldl (fun b c => max b (c.toNat - 48)) b) else none := by
  induction l generalizing b with
  | nil => simp
  | cons c l ih =>
    rw [List.foldlM_cons]
    by_cases hc : c.isDigit = true
    · simp only [hc, if_true, Option.bind_eq_bind, Option.bind_some]
      rw [ih]
      have e : (if b > c.toNat - 48 then b else c.toNat - 48) = max b (c.toNat - 48) := by
        split <;> omega
      simp only [e, List.foldl_cons]
      by_cases hl : ∀ x ∈ l, x.isDigit = true
      · rw [if_pos hl, if_pos (by intro x hx; rcases List.mem_cons.1 hx with rfl | hx; exact hc; exact hl x hx)]
      · rw [if_neg hl, if_neg (fun h => hl fun x hx => h x (by simp [hx]))]
    · rw [if_neg (show ¬ ∀ x ∈ c :: l, x.isDigit = true from fun h => hc (h c (by simp)))]
      simp [hc]

theorem foldl_max_spec (l : List ℕ) (b : ℕ) : b ≤ l.foldl max b ∧ (∀ x ∈ l, x ≤ l.foldl max b) ∧ (l.foldl max b = b ∨ l.foldl max b ∈ l) := by
  induction l generalizing b with
  | nil => simp
  | cons a l ih =>
    obtain ⟨h1, h2, h3⟩ := ih (max b a)
    simp only [List.foldl_cons]
    refine ⟨by omega, ?_, ?_⟩
    · intro x hx
      rcases List.mem_cons.1 hx with rfl | hx
      · omega
      · exact h2 x hx
    · rcases h3 with h3 | h3
      · rcases Nat.le_total b a with h | h
        · right; rw [h3, Nat.max_eq_right h]; simp
        · left; rw [h3, Nat.max_eq_left h]
      · right; simp [h3]

theorem foldl_char_eq (l : Str) (b : ℕ) : l.foldl (fun b c => max b (c.toNat - 48)) b = (l.map fun c => c.toNat - 48).foldl max b := by
  rw [List.foldl_map]

/-- The inferred base is one more than the largest digit of the expected states, provided they consist of decimal
digits; any other character raises. -/
theorem C61_base (expected : Dict Str Str) :
    (getBase expected = none ↔ ∃ kv ∈ expected, ∃ c ∈ kv.2, c.isDigit = false) ∧
    ∀ b, getBase expected = some b → 1 ≤ b ∧ (∀ kv ∈ expected, ∀ c ∈ kv.2, c.isDigit = true ∧ c.toNat - 48 < b) ∧
      (b = 1 ∨ ∃ kv ∈ expected, ∃ c ∈ kv.2, c.toNat - 48 + 1 = b) := by
  have key : ∀ (l : List (Str × Str)) (b : ℕ),
      l.foldlM (fun base kv => kv.2.foldlM (fun base c =>
        if c.isDigit then some (if base > c.toNat - 48 then base else c.toNat - 48) else none) base) b =
      if ∀ kv ∈ l, ∀ c ∈ kv.2, c.isDigit = true then some ((l.flatMap fun kv => kv.2.map fun c => c.toNat - 48).foldl max b) else none := by
    intro l
    induction l with
    | nil => intro b; simp
    | cons kv l ih =>
      intro b
      rw [List.foldlM_cons, foldlM_char]
      by_cases h : ∀ c ∈ kv.2, c.isDigit = true
      · rw [if_pos h]
        simp only [Option.bind_eq_bind, Option.bind_some]
        rw [ih, foldl_char_eq]
        simp only [List.flatMap_cons, List.foldl_append]
        by_cases hl : ∀ kv ∈ l, ∀ c ∈ kv.2, c.isDigit = true
        · rw [if_pos hl, if_pos (by intro x hx; rcases List.mem_cons.1 hx with e | hx; exact (by rw [e]; exact h); exact hl x hx)]
        · rw [if_neg hl, if_neg (fun h => hl fun x hx => h x (by simp [hx]))]
      · rw [if_neg h, if_neg (fun hh => h (hh kv (by simp)))]
        rfl
  unfold getBase
  rw [key]
  by_cases h : ∀ kv ∈ expected, ∀ c ∈ kv.2, c.isDigit = true
  · rw [if_pos h]
    simp only [Option.bind_eq_bind, Option.bind_some, Option.some.injEq, reduceCtorEq, false_iff, not_exists, not_and]
    obtain ⟨h1, h2, h3⟩ := foldl_max_spec (expected.flatMap fun kv => kv.2.map fun c => c.toNat - 48) 0
    refine ⟨fun kv hkv c hc => by rw [h kv hkv c hc]; simp, ?_⟩
    rintro b rfl
    refine ⟨by omega, ?_, ?_⟩
    · intro kv hkv c hc
      refine ⟨h kv hkv c hc, ?_⟩
      have := h2 (c.toNat - 48) (List.mem_flatMap.2 ⟨kv, hkv, List.mem_map.2 ⟨c, hc, rfl⟩⟩)
      omega
    · rcases h3 with h3 | h3
      · left; omega
      · right
        obtain ⟨kv, hkv, hm⟩ := List.mem_flatMap.1 h3
        obtain ⟨c, hc, e⟩ := List.mem_map.1 hm
        exact ⟨kv, hkv, c, hc, by omega⟩
  · rw [if_neg h]
    simp only [Option.bind_eq_bind, Option.bind_none, true_iff]
    constructor
    · push Not at h
      obtain ⟨kv, hkv, c, hc, e⟩ := h
      exact ⟨kv, hkv, c, hc, by simpa using e⟩
    · rintro b ⟨⟩

/-- Hence, when every expected state has `n` digits and at least one of them is not zero, the filter with the inferred
base counts predictions among the expected states without an exception. -/
theorem C61_inferred (expected : Dict Str Str) (n : ℕ) (hn : 0 < n) (hdig : ∀ kv ∈ expected, kv.2.length = n ∧ ∀ c ∈ kv.2, c.isDigit = true)
    (hnz : ∃ kv ∈ expected, ∃ c ∈ kv.2, c ≠ '0') (y : List Str) (hy : ∀ s ∈ y, s ∈ expected.values) :
    ∃ b c, filterBase none expected = some b ∧ count b y = some c ∧ c.values.sum = y.length ∧
      (∀ s ∈ expected.values, c.getD (key b s) 0 = y.count s) := by
  obtain ⟨h1, h2⟩ := C61_base expected
  cases hb : getBase expected with
  | none =>
    obtain ⟨kv, hkv, c, hc, e⟩ := h1.1 hb
    rw [(hdig kv hkv).2 c hc] at e; cases e
  | some b =>
    obtain ⟨g1, g2, g3⟩ := h2 b hb
    obtain ⟨kv, hkv, c, hc, hne⟩ := hnz
    obtain ⟨k1, k2⟩ := g2 kv hkv c hc
    have hpos : 0 < c.toNat - 48 := by
      by_contra hz
      apply hne
      apply digit_inj k1 (by decide)
      have : ('0').toNat - 48 = 0 := by decide
      omega
    have hb36 : b ≤ 36 := by
      rcases g3 with rfl | ⟨kv', hkv', c', hc', e⟩
      · omega
      · have := (hdig kv' hkv').2 c' hc'
        simp only [Char.isDigit, Bool.and_eq_true, decide_eq_true_eq, ge_iff_le, UInt32.le_iff_toNat_le] at this
        have h57 : c'.toNat ≤ 57 := this.2
        omega
    have hst : ∀ s ∈ expected.values, IsState b n s := by
      intro s hs
      obtain ⟨kv', hkv', rfl⟩ := List.mem_map.1 hs
      exact ⟨(hdig kv' hkv').1, g2 kv' hkv'⟩
    obtain ⟨cc, c1, c2, c3, c4, -⟩ := C61_count b n (by omega) hb36 hn y fun s hs => hst s (hy s hs)
    exact ⟨b, cc, by simp [filterBase, hb], c1, c3, fun s hs => c4 s (hst s hs)⟩

example : ∃ b c, filterBase none [("cal_00".toList, "00".toList), ("cal_21".toList, "21".toList)] = some b ∧
    count b ["21".toList, "00".toList, "21".toList] = some c ∧ c.values.sum = 3 := by
  obtain ⟨b, c, h1, h2, h3, -⟩ := C61_inferred [("cal_00".toList, "00".toList), ("cal_21".toList, "21".toList)] 2 (by omega) (by decide)
    ⟨("cal_21".toList, "21".toList), by simp, '2', by decide, by decide⟩ ["21".toList, "00".toList, "21".toList] (by decide)
  exact ⟨b, c, h1, h2, h3⟩

/-- Finding: a discriminator trained on the ground state only infers base 1, which `int` refuses, so the filter raises
on every shot. -/
theorem C61_finding_base_one (expected : Dict Str Str) (h : ∀ kv ∈ expected, ∀ c ∈ kv.2, c = '0') (s : Str) (y : List Str) :
    filterBase none expected = some 1 ∧ count 1 (s :: y) = none := by
  constructor
  · obtain ⟨h1, h2⟩ := C61_base expected
    cases hb : getBase expected with
    | none =>
      obtain ⟨kv, hkv, c, hc, e⟩ := h1.1 hb
      rw [h kv hkv c hc] at e; cases e
    | some b =>
      obtain ⟨g1, g2, g3⟩ := h2 b hb
      simp only [filterBase, hb, Option.some.injEq]
      rcases g3 with rfl | ⟨kv, hkv, c, hc, e⟩
      · rfl
      · rw [h kv hkv c hc] at e
        have : ('0').toNat - 48 = 0 := by decide
        omega
  · simp [count, intBase]

/-- Finding: states of different widths can share a key. -/
theorem C61_finding_widths : count 2 ["1".toList, "01".toList] = some [("0x1".toList, 2)] := by decide

end Verif.Discr
