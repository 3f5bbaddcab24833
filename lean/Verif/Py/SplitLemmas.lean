import Verif.Py.Split
/-
Lemmas about `split` and `join`.
-/
namespace Verif

theorem splitChar_noSep (c : Char) (p : Str) (h : c ∉ p) : splitChar c p = [p] := by
  induction p with
  | nil => rfl
  | cons a p ih =>
    simp only [List.mem_cons, not_or] at h
    rw [splitChar, if_neg (fun e => h.1 e.symm), ih h.2]

theorem splitChar_append (c : Char) (p s : Str) (h : c ∉ p) :
    splitChar c (p ++ c :: s) = p :: splitChar c s := by
  induction p with
  | nil => simp [splitChar]
  | cons a p ih =>
    simp only [List.mem_cons, not_or] at h
    rw [List.cons_append, splitChar, if_neg (fun e => h.1 e.symm), ih h.2]

theorem splitChar_join (c : Char) (ps : List Str) (hne : ps ≠ []) (h : ∀ p ∈ ps, c ∉ p) :
    splitChar c (joinSep [c] ps) = ps := by
  induction ps with
  | nil => exact absurd rfl hne
  | cons p ps ih =>
    cases ps with
    | nil => simpa [joinSep] using splitChar_noSep c p (h p (by simp))
    | cons q ps =>
      rw [joinSep, List.append_assoc, List.singleton_append, splitChar_append c p _ (h p (by simp)),
        ih (by simp) (fun r hr => h r (List.mem_cons_of_mem _ hr))]

theorem joinSep_cons (sep p : Str) (ps : List Str) (h : ps ≠ []) :
    joinSep sep (p :: ps) = p ++ sep ++ joinSep sep ps := by
  cases ps with
  | nil => exact absurd rfl h
  | cons q ps => rfl

/-- Concatenating each piece with the separator and cutting off the last character. -/
theorem flatten_dropLast_join (c : Char) (ps : List Str) (h : ps ≠ []) :
    ((ps.map (· ++ [c])).flatten).dropLast = joinSep [c] ps := by
  induction ps with
  | nil => exact absurd rfl h
  | cons p ps ih =>
    cases ps with
    | nil => simp [joinSep]
    | cons q ps =>
      rw [joinSep, ← ih (by simp), List.map_cons, List.flatten_cons, List.dropLast_append_of_ne_nil]
      simp

theorem joinSep_inj (c : Char) (n : Nat) (ps qs : List Str) (hl : ps.length = qs.length)
    (hp : ∀ p ∈ ps, p.length = n) (hq : ∀ q ∈ qs, q.length = n)
    (h : joinSep [c] ps = joinSep [c] qs) : ps = qs := by
  induction ps generalizing qs with
  | nil => exact (List.length_eq_zero_iff.1 hl.symm).symm
  | cons p ps ih =>
    cases qs with
    | nil => simp at hl
    | cons q qs =>
      have hlen : p.length = q.length := by rw [hp p (by simp), hq q (by simp)]
      simp only [List.length_cons, Nat.add_right_cancel_iff] at hl
      by_cases h0 : ps = []
      · subst h0
        obtain rfl : qs = [] := List.length_eq_zero_iff.1 hl.symm
        simpa [joinSep] using h
      · have h1 : qs ≠ [] := by
          intro e; subst e; exact h0 (List.length_eq_zero_iff.1 hl)
        rw [joinSep_cons _ _ _ h0, joinSep_cons _ _ _ h1, List.append_assoc, List.append_assoc] at h
        obtain ⟨e1, e2⟩ := List.append_inj h hlen
        simp only [List.singleton_append, List.cons.injEq, true_and] at e2
        rw [e1, ih qs hl (fun p hp' => hp p (List.mem_cons_of_mem _ hp'))
          (fun q hq' => hq q (List.mem_cons_of_mem _ hq')) e2]

theorem mapM_eq_some {α β : Type} (l : List α) (f : α → Option β) (g : α → β)
    (h : ∀ x ∈ l, f x = some (g x)) : l.mapM f = some (l.map g) := by
  induction l with
  | nil => rfl
  | cons a l ih =>
    rw [List.mapM_cons, h a (by simp), ih (fun x hx => h x (List.mem_cons_of_mem _ hx))]
    rfl

theorem splitDouble_cons (a : Char) (s : Str) (h : ¬ (a = ' ' ∧ s.head? = some ' ')) :
    splitDouble (a :: s) = (a :: (splitDouble s).headD []) :: (splitDouble s).tail := by
  rw [splitDouble]
  · cases splitDouble s <;> rfl
  · intro s' h1 h2
    exact h ⟨h1, by rw [h2]; rfl⟩

theorem splitDouble_block (p s : Str) (hp : ' ' ∉ p) :
    splitDouble (p ++ s) = (p ++ (splitDouble s).headD []) :: (splitDouble s).tail ∨ p = [] := by
  induction p with
  | nil => exact Or.inr rfl
  | cons a p ih =>
    simp only [List.mem_cons, not_or] at hp
    refine Or.inl ?_
    rw [List.cons_append, splitDouble_cons a _ (fun h => hp.1 h.1.symm)]
    rcases ih hp.2 with h | h
    · rw [h]; rfl
    · subst h; rfl

theorem splitDouble_join (ps : List Str) (h : ∀ p ∈ ps, ' ' ∉ p ∧ p ≠ []) :
    splitDouble (joinSep [' '] ps) = [joinSep [' '] ps] := by
  induction ps with
  | nil => rfl
  | cons p ps ih =>
    have hp := h p (by simp)
    have ih := ih (fun q hq => h q (List.mem_cons_of_mem _ hq))
    by_cases h0 : ps = []
    · subst h0
      rcases splitDouble_block p [] hp.1 with h1 | h1
      · simpa [joinSep, splitDouble] using h1
      · exact absurd h1 hp.2
    · rw [joinSep_cons _ _ _ h0, List.append_assoc]
      rcases splitDouble_block p ([' '] ++ joinSep [' '] ps) hp.1 with h1 | h1
      · rw [h1, List.singleton_append, splitDouble_cons, ih]
        · rfl
        · rintro ⟨-, h2⟩
          cases ps with
          | nil => exact h0 rfl
          | cons q ps =>
            have hq := h q (by simp)
            cases q with
            | nil => exact hq.2 rfl
            | cons a q =>
              have : a = ' ' := by
                cases ps with
                | nil => simpa [joinSep] using h2
                | cons r ps => simpa [joinSep] using h2
              exact hq.1 (by simp [this])
      · exact absurd h1 hp.2

theorem splitDouble_sep (s : Str) : splitDouble (' ' :: ' ' :: s) = [] :: splitDouble s := by
  rw [splitDouble]

end Verif
