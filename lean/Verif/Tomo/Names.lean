import Verif.Tomo.Fit
import Verif.Py.SplitLemmas
/-
The names of tomography circuits can be read back: lemmas for C48 and C57.
-/
namespace Verif.Tomo
open Verif

/-- Alternate separators and labels. -/
def weave : List Str → List Str → List Str
  | p :: ps, s :: ss => p :: s :: weave ps ss
  | ps, _ => ps

theorem unweave_weave (ps ss : List Str) (h : ps.length = ss.length + 1) : unweave (weave ps ss) = (ps, ss) := by
  induction ss generalizing ps with
  | nil =>
    obtain ⟨p, rfl⟩ := List.length_eq_one_iff.1 h
    rfl
  | cons s ss ih =>
    match ps, h with
    | p :: ps, h =>
      have := ih ps (by simpa using h)
      simp [weave, unweave, this]

theorem weave_ne_nil (ps ss : List Str) (h : ps ≠ []) : weave ps ss ≠ [] := by
  cases ps with
  | nil => exact absurd rfl h
  | cons p ps => cases ss <;> simp [weave]

theorem mem_weave (ps ss : List Str) (x : Str) (h : x ∈ weave ps ss) : x ∈ ps ∨ x ∈ ss := by
  induction ss generalizing ps with
  | nil => cases ps <;> simp_all [weave]
  | cons s ss ih =>
    cases ps with
    | nil => simp [weave] at h
    | cons p ps =>
      simp only [weave, List.mem_cons] at h ⊢
      rcases h with h | h | h
      · exact Or.inl (Or.inl h)
      · exact Or.inr (Or.inl h)
      · rcases ih ps h with h | h
        · exact Or.inl (Or.inr h)
        · exact Or.inr (Or.inr h)

theorem joinSep_two (sep p q : Str) (l : List Str) (h : l ≠ []) :
    joinSep sep (p :: q :: l) = p ++ sep ++ (q ++ sep ++ joinSep sep l) := by
  rw [joinSep_cons _ _ _ (by simp), joinSep_cons _ _ _ h]

/-- Joining a run of labels separated by `', '` between quotes. -/
theorem join_run (s : List Str) (hs : s ≠ []) (p e : Str) (rest t : List Str) :
    joinSep ['\''] (weave (p :: (List.replicate (s.length - 1) ", ".toList ++ e :: rest)) (s ++ t)) =
      p ++ joinSep ", ".toList (s.map reprStr) ++ joinSep ['\''] (weave (e :: rest) t) := by
  induction s generalizing p with
  | nil => exact absurd rfl hs
  | cons a s ih =>
    cases s with
    | nil =>
      simp only [List.length_cons, List.length_nil, List.replicate_zero, List.nil_append, List.cons_append, List.map_cons,
        List.map_nil, weave, Nat.add_sub_cancel]
      rw [joinSep_two _ _ _ _ (weave_ne_nil _ _ (by simp))]
      simp [joinSep, reprStr]
    | cons b s =>
      have := ih (by simp) ", ".toList
      simp only [List.length_cons, Nat.add_sub_cancel] at this ⊢
      rw [List.replicate_succ, List.cons_append, List.cons_append]
      simp only [weave]
      rw [joinSep_two _ _ _ _ (weave_ne_nil _ _ (by simp)), this,
        show List.map reprStr (a :: b :: s) = reprStr a :: List.map reprStr (b :: s) from rfl,
        joinSep_cons _ _ (List.map reprStr (b :: s)) (by simp)]
      simp [reprStr]

theorem reprLabel_eq_join (l : List Str) (h : l ≠ []) :
    reprLabel l = joinSep ['\''] (weave (flatPunct l.length) l) := by
  have := join_run l h "(".toList (if l.length = 1 then ",)".toList else ")".toList) [] []
  rw [List.append_nil] at this
  unfold flatPunct
  rw [List.append_assoc, List.singleton_append, this]
  unfold reprLabel
  match l, h with
  | [a], _ => simp [reprTuple, joinSep, weave]
  | a :: b :: l, _ => simp [reprTuple, weave, joinSep]

theorem pairName_eq_join (l m : List Str) (hl : l ≠ []) (hm : m ≠ []) :
    reprTuple [reprLabel l, reprLabel m] = joinSep ['\''] (weave (pairPunct l.length m.length) (l ++ m)) := by
  have h1 := join_run l hl "((".toList (if l.length = 1 then ",), (".toList else "), (".toList)
    (List.replicate (m.length - 1) ", ".toList ++ [if m.length = 1 then ",))".toList else "))".toList]) m
  have h2 := join_run m hm (if l.length = 1 then ",), (".toList else "), (".toList)
    (if m.length = 1 then ",))".toList else "))".toList) [] []
  rw [List.append_nil] at h2
  unfold pairPunct
  simp only [List.append_assoc, List.nil_append, List.cons_append] at h1 ⊢
  rw [h1, h2]
  unfold reprLabel
  match l, hl, m, hm with
  | [a], _, [b], _ => simp [reprTuple, joinSep, weave]
  | [a], _, b :: b' :: m, _ => simp [reprTuple, weave, joinSep]
  | a :: a' :: l, _, [b], _ => simp [reprTuple, weave, joinSep]
  | a :: a' :: l, _, b :: b' :: m, _ => simp [reprTuple, weave, joinSep]

/-- The labels of a well-formed label: without quotes. -/
def NoQuote (l : List Str) : Prop := ∀ a ∈ l, '\'' ∉ a

theorem noQuote_flatPunct (n : ℕ) : NoQuote (flatPunct n) := by
  intro p hp
  simp only [flatPunct, List.mem_append, List.mem_singleton, List.mem_replicate] at hp
  rcases hp with (rfl | ⟨_, rfl⟩) | rfl
  · decide
  · decide
  · split <;> decide

theorem noQuote_pairPunct (a b : ℕ) : NoQuote (pairPunct a b) := by
  intro p hp
  simp only [pairPunct, List.mem_append, List.mem_singleton, List.mem_replicate] at hp
  rcases hp with (((rfl | ⟨_, rfl⟩) | rfl) | ⟨_, rfl⟩) | rfl
  · decide
  · decide
  · split <;> decide
  · decide
  · split <;> decide

theorem flatPunct_length (n : ℕ) (h : 1 ≤ n) : (flatPunct n).length = n + 1 := by
  simp [flatPunct]; omega

theorem pairPunct_length (a b : ℕ) (ha : 1 ≤ a) (hb : 1 ≤ b) : (pairPunct a b).length = a + b + 1 := by
  simp [pairPunct]; omega

theorem unweave_reprLabel (l : List Str) (h : l ≠ []) (hq : NoQuote l) :
    unweave (splitChar '\'' (reprLabel l)) = (flatPunct l.length, l) := by
  rw [reprLabel_eq_join l h, splitChar_join _ _ (weave_ne_nil _ _ (by simp [flatPunct]))]
  · refine unweave_weave _ _ (flatPunct_length _ ?_)
    cases l with
    | nil => exact absurd rfl h
    | cons => simp
  · intro p hp
    rcases mem_weave _ _ _ hp with hp | hp
    · exact noQuote_flatPunct _ p hp
    · exact hq p hp

theorem length_pos_of {α : Type} {l : List α} (h : l ≠ []) : 1 ≤ l.length := by
  cases l with
  | nil => exact absurd rfl h
  | cons => simp

theorem unweave_pair (l m : List Str) (hl : l ≠ []) (hm : m ≠ []) (hql : NoQuote l) (hqm : NoQuote m) :
    unweave (splitChar '\'' (reprTuple [reprLabel l, reprLabel m])) = (pairPunct l.length m.length, l ++ m) := by
  rw [pairName_eq_join l m hl hm, splitChar_join _ _ (weave_ne_nil _ _ (by simp [pairPunct]))]
  · refine unweave_weave _ _ ?_
    rw [pairPunct_length _ _ (length_pos_of hl) (length_pos_of hm), List.length_append]
  · intro p hp
    rcases mem_weave _ _ _ hp with hp | hp
    · exact noQuote_pairPunct _ _ p hp
    · rcases List.mem_append.1 hp with hp | hp
      · exact hql p hp
      · exact hqm p hp

theorem literalEval_reprLabel (l : List Str) (h : l ≠ []) (hq : NoQuote l) :
    literalEval (reprLabel l) = some (.state l) := by
  unfold literalEval
  rw [unweave_reprLabel l h hq]
  simp

theorem takeWhile_pairPunct (a b : ℕ) (ha : 1 ≤ a) :
    ((pairPunct a b).tail.takeWhile (· = ", ".toList)).length + 1 = a := by
  have : (pairPunct a b).tail = List.replicate (a - 1) ", ".toList ++
      ((if a = 1 then ",), (".toList else "), (".toList) :: (List.replicate (b - 1) ", ".toList ++
      [if b = 1 then ",))".toList else "))".toList])) := by
    simp [pairPunct]
  rw [this, List.takeWhile_append_of_pos (by
    intro x hx
    simp [(List.mem_replicate.1 hx).2])]
  rw [List.takeWhile_cons_of_neg (by split <;> decide)]
  simp; omega

theorem flat_ne_pair (n a b : ℕ) : pairPunct a b ≠ flatPunct n := by
  intro h
  have : (pairPunct a b).head? = (flatPunct n).head? := by rw [h]
  simp [pairPunct, flatPunct] at this

theorem literalEval_pair (l m : List Str) (hl : l ≠ []) (hm : m ≠ []) (hql : NoQuote l) (hqm : NoQuote m) :
    literalEval (reprTuple [reprLabel l, reprLabel m]) = some (.process l m) := by
  unfold literalEval
  rw [unweave_pair l m hl hm hql hqm]
  simp only [takeWhile_pairPunct _ _ (length_pos_of hl), flat_ne_pair, if_false, List.length_append,
    Nat.add_sub_cancel_left]
  rw [if_pos ⟨trivial, by have := length_pos_of hm; omega⟩]
  simp

theorem reprLabel_inj {l m : List Str} (hl : l ≠ []) (hm : m ≠ []) (hql : NoQuote l) (hqm : NoQuote m)
    (h : reprLabel l = reprLabel m) : l = m := by
  have := literalEval_reprLabel l hl hql
  rw [h, literalEval_reprLabel m hm hqm] at this
  injection this with this
  injection this with this
  exact this.symm

theorem pairName_inj {l m l' m' : List Str} (hl : l ≠ []) (hm : m ≠ []) (hl' : l' ≠ []) (hm' : m' ≠ [])
    (hql : NoQuote l) (hqm : NoQuote m) (hql' : NoQuote l') (hqm' : NoQuote m')
    (h : reprTuple [reprLabel l, reprLabel m] = reprTuple [reprLabel l', reprLabel m']) : l = l' ∧ m = m' := by
  have := literalEval_pair l m hl hm hql hqm
  rw [h, literalEval_pair l' m' hl' hm' hql' hqm'] at this
  injection this with this
  injection this with h1 h2
  exact ⟨h1.symm, h2.symm⟩

end Verif.Tomo
