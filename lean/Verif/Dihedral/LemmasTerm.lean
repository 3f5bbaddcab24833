import Verif.Dihedral.Spec
import Mathlib.Tactic.Linarith
import Mathlib.Tactic.LinearCombination
import Mathlib.Data.Nat.Choose.Basic
import Mathlib.Data.Nat.Factorial.Basic
/-
Addressing of the terms of a phase polynomial: the table positions are in range and injective.
-/
set_option linter.unusedSimpArgs false
set_option linter.unusedVariables false
namespace Verif.Dihedral

theorem int_choose_two (a : ℕ) : (a : ℤ) * (a - 1) = 2 * (a.choose 2 : ℕ) := by
  induction a with
  | zero => simp
  | succ a ih =>
    have : (a + 1).choose 2 = a.choose 1 + a.choose 2 := Nat.choose_succ_succ a 1
    rw [this, Nat.choose_one_right]
    push_cast
    linear_combination ih

theorem int_choose_three (a : ℕ) : (a : ℤ) * (a - 1) * (a - 2) = 6 * (a.choose 3 : ℕ) := by
  induction a with
  | zero => simp
  | succ a ih =>
    have : (a + 1).choose 3 = a.choose 2 + a.choose 3 := Nat.choose_succ_succ a 2
    have h2 := int_choose_two a
    rw [this]
    push_cast
    linear_combination ih + 3 * h2

theorem nc2_eq (n : ℕ) : nc2 n = n.choose 2 := (Nat.choose_two_right n).symm

theorem nc3_eq (n : ℕ) : nc3 n = n.choose 3 := by
  unfold nc3
  match n with
  | 0 => rfl
  | 1 => rfl
  | m + 2 =>
    have h := int_choose_three (m + 2)
    have : (m + 2) * (m + 1) * m = 6 * (m + 2).choose 3 := by
      have : (((m + 2) * (m + 1) * m : ℕ) : ℤ) = ((6 * (m + 2).choose 3 : ℕ) : ℤ) := by
        push_cast at h ⊢; linear_combination h
      exact_mod_cast this
    show (m + 2) * (m + 1) * m / 6 = _
    rw [this]; omega

/-- The quadratic position in the combinatorial number system. -/
theorem off2_eq (n i j a b : ℕ) (ha : i + a + 1 = n) (hb : j + b + 1 = n) :
    off2 n i j = (n.choose 2 : ℕ) - 1 - ((a.choose 2 : ℕ) + (b : ℤ)) := by
  have hX : ((i : ℤ) + 1) * i / 2 = ((i + 1).choose 2 : ℕ) := by
    have := int_choose_two (i + 1)
    push_cast at this
    have h : ((i : ℤ) + 1) * i = 2 * ((i + 1).choose 2 : ℕ) := by linear_combination this
    rw [h]; omega
  have h1 := int_choose_two (i + 1)
  have h2 := int_choose_two n
  have h3 := int_choose_two a
  unfold off2
  simp only []
  rw [hX]
  have hn : (n : ℤ) = i + a + 1 := by exact_mod_cast ha.symm
  have hn' : (n : ℤ) = j + b + 1 := by exact_mod_cast hb.symm
  have hj : (j : ℤ) = i + a - b := by linarith
  have key : (2 : ℤ) * (i * n - ((i + 1).choose 2 : ℕ) + (j - i - 1)) =
      2 * ((n.choose 2 : ℕ) - 1 - ((a.choose 2 : ℕ) + (b : ℤ))) := by
    push_cast at h1
    rw [mul_sub 2 ((n.choose 2 : ℕ) - 1 : ℤ), mul_sub 2 ((n.choose 2 : ℕ) : ℤ), mul_add 2 ((a.choose 2 : ℕ) : ℤ),
      ← h2, ← h3, mul_add, mul_sub 2 ((i : ℤ) * n), ← h1, hj, hn]
    ring
  linarith

theorem off3_eq (n i j k a b c : ℕ) (ha : i + a + 1 = n) (hb : j + b + 1 = n) (hc : k + c + 1 = n) :
    off3 n i j k = (n.choose 3 : ℕ) - 1 - ((a.choose 3 : ℕ) + (b.choose 2 : ℕ) + (c : ℤ)) := by
  have hn : (n : ℤ) = i + a + 1 := by exact_mod_cast ha.symm
  have hn' : (n : ℤ) = j + b + 1 := by exact_mod_cast hb.symm
  have hn'' : (n : ℤ) = k + c + 1 := by exact_mod_cast hc.symm
  have e1 : (((n : ℤ) - i - 3) * ((n : ℤ) - i - 2) * ((n : ℤ) - i - 1)) / 6 = (a.choose 3 : ℕ) := by
    have := int_choose_three a
    have h : (((n : ℤ) - i - 3) * ((n : ℤ) - i - 2) * ((n : ℤ) - i - 1)) = 6 * (a.choose 3 : ℕ) := by
      rw [hn]; linear_combination this
    rw [h]; omega
  have e2 : (((n : ℤ) - j - 2) * ((n : ℤ) - j - 1)) / 2 = (b.choose 2 : ℕ) := by
    have := int_choose_two b
    have h : (((n : ℤ) - j - 2) * ((n : ℤ) - j - 1)) = 2 * (b.choose 2 : ℕ) := by
      rw [hn']; linear_combination this
    rw [h]; omega
  have e3 : ((n : ℤ) * (n - 1) * (n - 2)) / 6 = (n.choose 3 : ℕ) := by
    rw [int_choose_three n]; omega
  unfold off3
  simp only []
  rw [e1, e2, e3]
  linarith

theorem choose2_succ (a : ℕ) : (a + 1).choose 2 = a + a.choose 2 := by
  have : (a + 1).choose 2 = a.choose 1 + a.choose 2 := Nat.choose_succ_succ a 1
  rw [this, Nat.choose_one_right]

theorem choose3_succ (a : ℕ) : (a + 1).choose 3 = a.choose 2 + a.choose 3 := Nat.choose_succ_succ a 2

theorem rank2_lt {a a' b : ℕ} (h : a < a') (hb : b < a) : a.choose 2 + b < a'.choose 2 := by
  have h1 : (a + 1).choose 2 ≤ a'.choose 2 := Nat.choose_le_choose 2 h
  rw [choose2_succ] at h1
  omega

theorem rank2_inj {a b a' b' : ℕ} (h1 : b < a) (h2 : b' < a')
    (h : a.choose 2 + b = a'.choose 2 + b') : a = a' ∧ b = b' := by
  rcases lt_trichotomy a a' with hlt | heq | hgt
  · have := rank2_lt hlt h1; omega
  · subst heq; exact ⟨rfl, by omega⟩
  · have := rank2_lt hgt h2; omega

theorem rank3_lt {a a' b c : ℕ} (h : a < a') (hb : b < a) (hc : c < b) :
    a.choose 3 + b.choose 2 + c < a'.choose 3 := by
  have h1 : (a + 1).choose 3 ≤ a'.choose 3 := Nat.choose_le_choose 3 h
  rw [choose3_succ] at h1
  have := rank2_lt hb hc
  omega

theorem rank3_inj {a b c a' b' c' : ℕ} (h1 : b < a) (h2 : c < b) (h1' : b' < a') (h2' : c' < b')
    (h : a.choose 3 + b.choose 2 + c = a'.choose 3 + b'.choose 2 + c') :
    a = a' ∧ b = b' ∧ c = c' := by
  rcases lt_trichotomy a a' with hlt | heq | hgt
  · have := rank3_lt hlt h1 h2; omega
  · subst heq
    have := rank2_inj h2 h2' (by omega)
    exact ⟨rfl, this.1, this.2⟩
  · have := rank3_lt hgt h1' h2'; omega

theorem off2_range {n i j : ℕ} (hij : i < j) (hj : j < n) : 0 ≤ off2 n i j ∧ off2 n i j < nc2 n := by
  obtain ⟨a, rfl⟩ : ∃ a, n = i + a + 1 := ⟨n - 1 - i, by omega⟩
  obtain ⟨b, hb⟩ : ∃ b, j + b + 1 = i + a + 1 := ⟨i + a - j, by omega⟩
  rw [off2_eq _ i j a b rfl hb, nc2_eq]
  have := rank2_lt (a := a) (a' := i + a + 1) (b := b) (by omega) (by omega)
  omega

theorem off3_range {n i j k : ℕ} (hij : i < j) (hjk : j < k) (hk : k < n) :
    0 ≤ off3 n i j k ∧ off3 n i j k < nc3 n := by
  obtain ⟨a, rfl⟩ : ∃ a, n = i + a + 1 := ⟨n - 1 - i, by omega⟩
  obtain ⟨b, hb⟩ : ∃ b, j + b + 1 = i + a + 1 := ⟨i + a - j, by omega⟩
  obtain ⟨c, hc⟩ : ∃ c, k + c + 1 = i + a + 1 := ⟨i + a - k, by omega⟩
  rw [off3_eq _ i j k a b c rfl hb hc, nc3_eq]
  have := rank3_lt (a := a) (a' := i + a + 1) (b := b) (c := c) (by omega) (by omega) (by omega)
  omega

theorem off2_inj {n i j i' j' : ℕ} (hij : i < j) (hj : j < n) (hij' : i' < j') (hj' : j' < n)
    (h : off2 n i j = off2 n i' j') : i = i' ∧ j = j' := by
  obtain ⟨a, ha⟩ : ∃ a, i + a + 1 = n := ⟨n - 1 - i, by omega⟩
  obtain ⟨b, hb⟩ : ∃ b, j + b + 1 = n := ⟨n - 1 - j, by omega⟩
  obtain ⟨a', ha'⟩ : ∃ a, i' + a + 1 = n := ⟨n - 1 - i', by omega⟩
  obtain ⟨b', hb'⟩ : ∃ b, j' + b + 1 = n := ⟨n - 1 - j', by omega⟩
  rw [off2_eq _ i j a b ha hb, off2_eq _ i' j' a' b' ha' hb'] at h
  have := rank2_inj (a := a) (b := b) (a' := a') (b' := b') (by omega) (by omega) (by omega)
  omega

theorem off3_inj {n i j k i' j' k' : ℕ} (hij : i < j) (hjk : j < k) (hk : k < n)
    (hij' : i' < j') (hjk' : j' < k') (hk' : k' < n)
    (h : off3 n i j k = off3 n i' j' k') : i = i' ∧ j = j' ∧ k = k' := by
  obtain ⟨a, ha⟩ : ∃ a, i + a + 1 = n := ⟨n - 1 - i, by omega⟩
  obtain ⟨b, hb⟩ : ∃ b, j + b + 1 = n := ⟨n - 1 - j, by omega⟩
  obtain ⟨c, hc⟩ : ∃ c, k + c + 1 = n := ⟨n - 1 - k, by omega⟩
  obtain ⟨a', ha'⟩ : ∃ a, i' + a + 1 = n := ⟨n - 1 - i', by omega⟩
  obtain ⟨b', hb'⟩ : ∃ b, j' + b + 1 = n := ⟨n - 1 - j', by omega⟩
  obtain ⟨c', hc'⟩ : ∃ c, k' + c + 1 = n := ⟨n - 1 - k', by omega⟩
  rw [off3_eq _ i j k a b c ha hb hc, off3_eq _ i' j' k' a' b' c' ha' hb' hc'] at h
  have := rank3_inj (a := a) (b := b) (c := c) (a' := a') (b' := b') (c' := c') (by omega) (by omega)
    (by omega) (by omega) (by omega)
  omega

theorem okIdx_iff {n : ℕ} {t : List ℕ} (h : t.length ≤ 3) : okIdx n t = true ↔ Valid n t := by
  unfold okIdx Valid
  match t, h with
  | [], _ => simp
  | [i], _ => simp
  | [i, j], _ => simp; omega
  | [i, j, k], _ => simp; omega

theorem WF.zero (n : ℕ) : WF (Poly.zero n) := by simp [WF, Poly.zero]

theorem pyIdx_of_range {len : ℕ} {o : ℤ} (h : 0 ≤ o ∧ o < len) : pyIdx len o = some o.toNat := by
  simp [pyIdx, h]

theorem valid_cases {n : ℕ} {t : List ℕ} (h : Valid n t) :
    t = [] ∨ (∃ i, t = [i] ∧ i < n) ∨ (∃ i j, t = [i, j] ∧ i < j ∧ j < n) ∨
      (∃ i j k, t = [i, j, k] ∧ i < j ∧ j < k ∧ k < n) := by
  obtain ⟨h1, h2, h3⟩ := h
  match t, h1, h2, h3 with
  | [], _, _, _ => exact Or.inl rfl
  | [i], _, h2, _ => exact Or.inr (Or.inl ⟨i, rfl, h2 i (by simp)⟩)
  | [i, j], h1, h2, _ =>
    exact Or.inr (Or.inr (Or.inl ⟨i, j, rfl, by simpa using h1, h2 j (by simp)⟩))
  | [i, j, k], h1, h2, _ =>
    refine Or.inr (Or.inr (Or.inr ⟨i, j, k, rfl, ?_, ?_, h2 k (by simp)⟩))
    · simp at h1; exact h1.1.1
    · simp at h1; exact h1.2

theorem getTerm_nil {n : ℕ} (p : Poly n) : getTerm p [] = some p.w0 := by
  simp [getTerm, okIdx]

theorem getTerm_one {n : ℕ} (p : Poly n) (hp : WF p) {i : ℕ} (hi : i < n) :
    getTerm p [i] = p.w1[i]? := by
  have h1 : okIdx n [i] = true := (okIdx_iff (by simp)).2 ⟨by simp, by simpa using hi, by simp⟩
  simp only [getTerm, h1, hp.1]
  rw [pyIdx_of_range (by omega)]
  simp

theorem getTerm_two {n : ℕ} (p : Poly n) (hp : WF p) {i j : ℕ} (hij : i < j) (hj : j < n) :
    getTerm p [i, j] = p.w2[(off2 n i j).toNat]? := by
  have h1 : okIdx n [i, j] = true := (okIdx_iff (by simp)).2 ⟨by simpa using hij, by simp; omega, by simp⟩
  simp only [getTerm, h1, hp.2.1]
  rw [pyIdx_of_range (off2_range hij hj)]
  simp

theorem getTerm_three {n : ℕ} (p : Poly n) (hp : WF p) {i j k : ℕ} (hij : i < j) (hjk : j < k)
    (hk : k < n) : getTerm p [i, j, k] = p.w3[(off3 n i j k).toNat]? := by
  have h1 : okIdx n [i, j, k] = true := (okIdx_iff (by simp)).2 ⟨by simp; omega, by simp; omega, by simp⟩
  simp only [getTerm, h1, hp.2.2]
  rw [pyIdx_of_range (off3_range hij hjk hk)]
  simp

theorem setTerm_nil {n : ℕ} (p : Poly n) (v : ℤ) : setTerm p [] v = some { p with w0 := v % 8 } := by
  simp [setTerm, okIdx]

theorem setTerm_one {n : ℕ} (p : Poly n) (hp : WF p) {i : ℕ} (hi : i < n) (v : ℤ) :
    setTerm p [i] v = some { p with w1 := p.w1.set i (v % 8) } := by
  have h1 : okIdx n [i] = true := (okIdx_iff (by simp)).2 ⟨by simp, by simpa using hi, by simp⟩
  simp only [setTerm, h1, hp.1]
  rw [pyIdx_of_range (by omega)]
  simp

theorem setTerm_two {n : ℕ} (p : Poly n) (hp : WF p) {i j : ℕ} (hij : i < j) (hj : j < n) (v : ℤ) :
    setTerm p [i, j] v = some { p with w2 := p.w2.set (off2 n i j).toNat (v % 8) } := by
  have h1 : okIdx n [i, j] = true := (okIdx_iff (by simp)).2 ⟨by simpa using hij, by simp; omega, by simp⟩
  simp only [setTerm, h1, hp.2.1]
  rw [pyIdx_of_range (off2_range hij hj)]
  simp

theorem setTerm_three {n : ℕ} (p : Poly n) (hp : WF p) {i j k : ℕ} (hij : i < j) (hjk : j < k)
    (hk : k < n) (v : ℤ) :
    setTerm p [i, j, k] v = some { p with w3 := p.w3.set (off3 n i j k).toNat (v % 8) } := by
  have h1 : okIdx n [i, j, k] = true := (okIdx_iff (by simp)).2 ⟨by simp; omega, by simp; omega, by simp⟩
  simp only [setTerm, h1, hp.2.2]
  rw [pyIdx_of_range (off3_range hij hjk hk)]
  simp

theorem getTerm_isSome {n : ℕ} (p : Poly n) (hp : WF p) {t : List ℕ} (ht : Valid n t) :
    ∃ v, getTerm p t = some v := by
  rcases valid_cases ht with rfl | ⟨i, rfl, hi⟩ | ⟨i, j, rfl, hij, hj⟩ | ⟨i, j, k, rfl, hij, hjk, hk⟩
  · exact ⟨_, getTerm_nil p⟩
  · rw [getTerm_one p hp hi]
    exact ⟨_, List.getElem?_eq_getElem (by rw [hp.1]; exact hi)⟩
  · rw [getTerm_two p hp hij hj]
    have := off2_range hij hj
    exact ⟨_, List.getElem?_eq_getElem (by rw [hp.2.1]; omega)⟩
  · rw [getTerm_three p hp hij hjk hk]
    have := off3_range hij hjk hk
    exact ⟨_, List.getElem?_eq_getElem (by rw [hp.2.2]; omega)⟩

theorem setTerm_isSome {n : ℕ} (p : Poly n) (hp : WF p) {t : List ℕ} (ht : Valid n t) (v : ℤ) :
    ∃ q, setTerm p t v = some q ∧ WF q := by
  rcases valid_cases ht with rfl | ⟨i, rfl, hi⟩ | ⟨i, j, rfl, hij, hj⟩ | ⟨i, j, k, rfl, hij, hjk, hk⟩
  · exact ⟨_, setTerm_nil p v, hp⟩
  · exact ⟨_, setTerm_one p hp hi v, by simpa [WF] using hp⟩
  · exact ⟨_, setTerm_two p hp hij hj v, by simpa [WF] using hp⟩
  · exact ⟨_, setTerm_three p hp hij hjk hk v, by simpa [WF] using hp⟩

/-- Reading after writing. -/
theorem getTerm_setTerm {n : ℕ} (p q : Poly n) (hp : WF p) {t s : List ℕ} (ht : Valid n t)
    (hs : Valid n s) (v : ℤ) (h : setTerm p t v = some q) :
    getTerm q s = if s = t then some (v % 8) else getTerm p s := by
  have hq : WF q := by
    obtain ⟨q', h1, h2⟩ := setTerm_isSome p hp ht v
    rw [h] at h1; cases h1; exact h2
  rcases valid_cases ht with rfl | ⟨i, rfl, hi⟩ | ⟨i, j, rfl, hij, hj⟩ | ⟨i, j, k, rfl, hij, hjk, hk⟩
  · rw [setTerm_nil] at h; cases h
    rcases valid_cases hs with rfl | ⟨i', rfl, hi'⟩ | ⟨i', j', rfl, hij', hj'⟩ | ⟨i', j', k', rfl, hij', hjk', hk'⟩
    · simp [getTerm_nil]
    · rw [getTerm_one _ hq hi', getTerm_one _ hp hi']; simp
    · rw [getTerm_two _ hq hij' hj', getTerm_two _ hp hij' hj']; simp
    · rw [getTerm_three _ hq hij' hjk' hk', getTerm_three _ hp hij' hjk' hk']; simp
  · rw [setTerm_one p hp hi] at h; cases h
    rcases valid_cases hs with rfl | ⟨i', rfl, hi'⟩ | ⟨i', j', rfl, hij', hj'⟩ | ⟨i', j', k', rfl, hij', hjk', hk'⟩
    · simp [getTerm_nil]
    · rw [getTerm_one _ hq hi', getTerm_one _ hp hi', List.getElem?_set]
      have h1 := hp.1
      by_cases e : i = i'
      · subst e; simp [h1, hi]
      · simp [e, Ne.symm e]
    · rw [getTerm_two _ hq hij' hj', getTerm_two _ hp hij' hj']; simp
    · rw [getTerm_three _ hq hij' hjk' hk', getTerm_three _ hp hij' hjk' hk']; simp
  · rw [setTerm_two p hp hij hj] at h; cases h
    rcases valid_cases hs with rfl | ⟨i', rfl, hi'⟩ | ⟨i', j', rfl, hij', hj'⟩ | ⟨i', j', k', rfl, hij', hjk', hk'⟩
    · simp [getTerm_nil]
    · rw [getTerm_one _ hq hi', getTerm_one _ hp hi']; simp
    · rw [getTerm_two _ hq hij' hj', getTerm_two _ hp hij' hj', List.getElem?_set]
      have h1 := hp.2.1
      have r1 := off2_range hij hj
      have r2 := off2_range hij' hj'
      by_cases e : i' = i ∧ j' = j
      · obtain ⟨rfl, rfl⟩ := e
        have : (off2 n i' j').toNat < nc2 n := by omega
        simp [h1, this]
      · have : (off2 n i j).toNat ≠ (off2 n i' j').toNat := by
          intro hh
          have := off2_inj hij hj hij' hj' (by omega)
          exact e ⟨this.1.symm, this.2.symm⟩
        have e' : ¬ ([i', j'] = [i, j]) := by simpa using e
        simp only [this, e', if_false]
    · rw [getTerm_three _ hq hij' hjk' hk', getTerm_three _ hp hij' hjk' hk']; simp
  · rw [setTerm_three p hp hij hjk hk] at h; cases h
    rcases valid_cases hs with rfl | ⟨i', rfl, hi'⟩ | ⟨i', j', rfl, hij', hj'⟩ | ⟨i', j', k', rfl, hij', hjk', hk'⟩
    · simp [getTerm_nil]
    · rw [getTerm_one _ hq hi', getTerm_one _ hp hi']; simp
    · rw [getTerm_two _ hq hij' hj', getTerm_two _ hp hij' hj']; simp
    · rw [getTerm_three _ hq hij' hjk' hk', getTerm_three _ hp hij' hjk' hk', List.getElem?_set]
      have h1 := hp.2.2
      have r1 := off3_range hij hjk hk
      have r2 := off3_range hij' hjk' hk'
      by_cases e : i' = i ∧ j' = j ∧ k' = k
      · obtain ⟨rfl, rfl, rfl⟩ := e
        have : (off3 n i' j' k').toNat < nc3 n := by omega
        simp [h1, this]
      · have : (off3 n i j k).toNat ≠ (off3 n i' j' k').toNat := by
          intro hh
          have := off3_inj hij hjk hk hij' hjk' hk' (by omega)
          exact e ⟨this.1.symm, this.2.1.symm, this.2.2.symm⟩
        have e' : ¬ ([i', j', k'] = [i, j, k]) := by simpa using e
        simp only [this, e', if_false]

end Verif.Dihedral
