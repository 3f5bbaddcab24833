import Verif.Dihedral.LemmasEq
/-
The set order of CPython on small sets, and independence of the operations from the order outside the
sets they use.
-/
set_option linter.unusedSimpArgs false
set_option linter.unusedVariables false
namespace Verif.Dihedral

/-- Two orders that agree on the terms of `n` variables. -/
def Agree (n : ℕ) (so so' : SetOrder) : Prop := ∀ a b, Valid n a → Valid n b → so a b = so' a b

theorem foldlM_congr' {α β : Type} {f g : α → β → Option α} (L : List β) (h : ∀ a, ∀ b ∈ L, f a b = g a b) (a : α) :
    L.foldlM f a = L.foldlM g a := by
  induction L generalizing a with
  | nil => rfl
  | cons b L ih =>
    rw [List.foldlM_cons, List.foldlM_cons, h a b (by simp)]
    cases g a b with
    | none => rfl
    | some a' => exact ih (fun a b hb => h a b (by simp [hb])) a'

theorem mulMonomial_agree {n : ℕ} {so so' : SetOrder} (h : Agree n so so') (p : Poly n) {idx : List ℕ} (hi : Valid n idx) :
    mulMonomial so p idx = mulMonomial so' p idx := by
  unfold mulMonomial
  rw [foldlM_congr' (terms n) (g := mulMonomialStep so' p idx)]
  intro a t ht
  unfold mulMonomialStep
  rw [h t idx (mem_terms.1 ht) hi]

theorem mul_agree {n : ℕ} {so so' : SetOrder} (h : Agree n so so') (p q : Poly n) : mul so p q = mul so' p q := by
  unfold mul
  refine foldlM_congr' (terms n) (fun a t ht => ?_) _
  unfold mulStep
  rw [mulMonomial_agree h p (mem_terms.1 ht)]

theorem evaluate_agree {n : ℕ} {so so' : SetOrder} (h : Agree n so so') (p : Poly n) (xs : List (Poly n)) :
    evaluate so p xs = evaluate so' p xs := by
  unfold evaluate
  rw [foldlM_congr' (terms n) (g := evaluateStep so' p xs)]
  intro a t ht
  unfold evaluateStep termProduct
  have : (mul so : Poly n → Poly n → Option (Poly n)) = mul so' := by funext p q; exact mul_agree h p q
  rw [this]

theorem elemMul_agree {n : ℕ} {so so' : SetOrder} (h : Agree n so so') (a b : Elem n) : elemMul so a b = elemMul so' a b := by
  unfold elemMul
  simp only [evaluate_agree h]

/-- The ascending order. -/
def sorted : SetOrder := fun a b => (a ++ b).toFinset.sort

theorem sorted_isSetOrder : IsSetOrder sorted := by
  intro a b _ _ _ _
  refine ⟨Finset.sort_nodup _ _, fun i => ?_⟩
  simp [sorted]

theorem sorted_ascending (n : ℕ) : AscendingBelow sorted n := fun a b _ _ => (Finset.sortedLT_sort _).pairwise

theorem valid_mono {m n : ℕ} (h : m ≤ n) {t : List ℕ} (ht : Valid m t) : Valid n t :=
  ⟨ht.1, fun i hi => lt_of_lt_of_le (ht.2.1 i hi) h, ht.2.2⟩

/-- Checks one pair of sets. -/
def ascB (l a b : List ℕ) : Bool :=
  decide (l.Pairwise (· < ·)) && l.all (fun i => a.contains i || b.contains i) && a.all (l.contains ·) && b.all (l.contains ·)

/- In parts, to bound the memory of the kernel. -/
theorem cpy8_0 : ∀ a ∈ ((terms 8).drop 0).take 8, ∀ b ∈ terms 8, ascB (cpySetOrder a b) a b = true := by decide +kernel
theorem cpy8_1 : ∀ a ∈ ((terms 8).drop 8).take 8, ∀ b ∈ terms 8, ascB (cpySetOrder a b) a b = true := by decide +kernel
theorem cpy8_2 : ∀ a ∈ ((terms 8).drop 16).take 8, ∀ b ∈ terms 8, ascB (cpySetOrder a b) a b = true := by decide +kernel
theorem cpy8_3 : ∀ a ∈ ((terms 8).drop 24).take 8, ∀ b ∈ terms 8, ascB (cpySetOrder a b) a b = true := by decide +kernel
theorem cpy8_4 : ∀ a ∈ ((terms 8).drop 32).take 8, ∀ b ∈ terms 8, ascB (cpySetOrder a b) a b = true := by decide +kernel
theorem cpy8_5 : ∀ a ∈ ((terms 8).drop 40).take 8, ∀ b ∈ terms 8, ascB (cpySetOrder a b) a b = true := by decide +kernel
theorem cpy8_6 : ∀ a ∈ ((terms 8).drop 48).take 8, ∀ b ∈ terms 8, ascB (cpySetOrder a b) a b = true := by decide +kernel
theorem cpy8_7 : ∀ a ∈ ((terms 8).drop 56).take 8, ∀ b ∈ terms 8, ascB (cpySetOrder a b) a b = true := by decide +kernel
theorem cpy8_8 : ∀ a ∈ ((terms 8).drop 64).take 8, ∀ b ∈ terms 8, ascB (cpySetOrder a b) a b = true := by decide +kernel
theorem cpy8_9 : ∀ a ∈ ((terms 8).drop 72).take 8, ∀ b ∈ terms 8, ascB (cpySetOrder a b) a b = true := by decide +kernel
theorem cpy8_10 : ∀ a ∈ ((terms 8).drop 80).take 8, ∀ b ∈ terms 8, ascB (cpySetOrder a b) a b = true := by decide +kernel
theorem cpy8_11 : ∀ a ∈ ((terms 8).drop 88).take 8, ∀ b ∈ terms 8, ascB (cpySetOrder a b) a b = true := by decide +kernel

theorem cpy8 : ∀ a ∈ terms 8, ∀ b ∈ terms 8, ascB (cpySetOrder a b) a b = true := by
  intro a ha
  have hsplit : ∀ k, a ∈ (terms 8).drop k → a ∈ ((terms 8).drop k).take 8 ∨ a ∈ (terms 8).drop (k + 8) := by
    intro k h
    rw [← List.take_append_drop 8 ((terms 8).drop k), List.drop_drop, List.mem_append] at h
    exact h
  have h0 : a ∈ (terms 8).drop 0 := ha
  rcases hsplit 0 h0 with h | h1
  · exact cpy8_0 a h
  rcases hsplit 8 h1 with h | h2
  · exact cpy8_1 a h
  rcases hsplit 16 h2 with h | h3
  · exact cpy8_2 a h
  rcases hsplit 24 h3 with h | h4
  · exact cpy8_3 a h
  rcases hsplit 32 h4 with h | h5
  · exact cpy8_4 a h
  rcases hsplit 40 h5 with h | h6
  · exact cpy8_5 a h
  rcases hsplit 48 h6 with h | h7
  · exact cpy8_6 a h
  rcases hsplit 56 h7 with h | h8
  · exact cpy8_7 a h
  rcases hsplit 64 h8 with h | h9
  · exact cpy8_8 a h
  rcases hsplit 72 h9 with h | h10
  · exact cpy8_9 a h
  rcases hsplit 80 h10 with h | h11
  · exact cpy8_10 a h
  rcases hsplit 88 h11 with h | h12
  · exact cpy8_11 a h
  have : (terms 8).drop 96 = [] := by decide +kernel
  rw [this] at h12; cases h12

theorem cpy_agree {n : ℕ} (hn : n ≤ 8) : Agree n cpySetOrder sorted := by
  intro a b ha hb
  have h := cpy8 a (mem_terms.2 (valid_mono hn ha)) b (mem_terms.2 (valid_mono hn hb))
  simp only [ascB, Bool.and_eq_true, decide_eq_true_eq, List.all_eq_true, List.contains_iff_mem, Bool.or_eq_true] at h
  obtain ⟨⟨⟨h1, h2⟩, h3⟩, h4⟩ := h
  have : (cpySetOrder a b).toFinset = (a ++ b).toFinset := by
    ext i
    simp only [List.mem_toFinset, List.mem_append]
    exact ⟨h2 i, fun h => h.elim (h3 i) (h4 i)⟩
  unfold sorted
  rw [← this]
  exact (sort_toFinset_of_valid h1).symm

end Verif.Dihedral
