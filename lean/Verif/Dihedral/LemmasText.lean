import Verif.Dihedral.Text
import Verif.Dihedral.SpecText
import Verif.Dihedral.LemmasEq
import Verif.Py.SplitLemmas
import Mathlib.Data.List.Range
/-
Lemmas about printed elements.
-/
namespace Verif.Dihedral
open Verif

theorem mapM_of_some {α β : Type} {f : α → Option β} {g : α → β} {l : List α} (h : ∀ a ∈ l, f a = some (g a)) :
    l.mapM f = some (l.map g) := by
  induction l with
  | nil => rfl
  | cons a l ih =>
    rw [List.mapM_cons, h a (by simp), ih fun b hb => h b (List.mem_cons_of_mem _ hb)]; rfl

theorem mapM_congr_text {α β : Type} {f g : α → Option β} {l : List α} (h : ∀ a ∈ l, f a = g a) : l.mapM f = l.mapM g := by
  induction l with
  | nil => rfl
  | cons a l ih =>
    rw [List.mapM_cons, List.mapM_cons, h a (by simp), ih fun b hb => h b (List.mem_cons_of_mem _ hb)]

theorem joinSep_flatten (c : Char) (a : Str) (bs : List Str) : joinSep [c] (a :: bs) = a ++ (bs.map (c :: ·)).flatten := by
  induction bs generalizing a with
  | nil => simp [joinSep]
  | cons b bs ih => rw [joinSep, ih b]; simp

/-! ### The terms -/

theorem mem_pyRange {a b i : ℕ} : i ∈ pyRange a b ↔ a ≤ i ∧ i < b := by
  unfold pyRange
  rw [List.mem_range'_1]
  omega

theorem mem_loopTerms {n : ℕ} {t : List ℕ} : t ∈ loopTerms n ↔ Valid n t ∧ t ≠ [] := by
  unfold loopTerms
  simp only [List.mem_append, List.mem_map, List.mem_flatMap, List.mem_range, mem_pyRange]
  constructor
  · rintro ((⟨i, hi, rfl⟩ | ⟨i, hi, j, hj, rfl⟩) | ⟨i, hi, j, hj, k, hk, rfl⟩)
    · simp [Valid]; omega
    · simp [Valid]; omega
    · simp [Valid]; omega
  · rintro ⟨hv, hne⟩
    rcases valid_cases hv with rfl | ⟨i, rfl, h⟩ | ⟨i, j, rfl, h⟩ | ⟨i, j, k, rfl, h⟩
    · exact absurd rfl hne
    · exact Or.inl (Or.inl ⟨i, h, rfl⟩)
    · exact Or.inl (Or.inr ⟨i, by omega, j, by omega, rfl⟩)
    · exact Or.inr ⟨i, by omega, j, by omega, k, by omega, rfl⟩

theorem nodup_pyRange (a b : ℕ) : (pyRange a b).Nodup := List.nodup_range'

theorem nodup_loopTerms (n : ℕ) : (loopTerms n).Nodup := by
  unfold loopTerms
  rw [List.nodup_append, List.nodup_append]
  refine ⟨⟨List.nodup_range.map fun a b h => by simpa using h, ?_, ?_⟩, ?_, ?_⟩
  · rw [List.nodup_flatMap]
    refine ⟨fun i _ => (nodup_pyRange _ _).map fun a b h => by simpa using h, ?_⟩
    refine List.nodup_range.imp fun {a b} hab => ?_
    simp only [Function.onFun, List.disjoint_left, List.mem_map]
    rintro t ⟨j, _, rfl⟩ ⟨k, _, h⟩
    exact hab (by simpa using (List.cons.inj h).1.symm)
  · intro a ha b hb hab
    simp only [List.mem_map, List.mem_flatMap] at ha hb
    obtain ⟨i, _, rfl⟩ := ha
    obtain ⟨j, _, k, _, rfl⟩ := hb
    simp at hab
  · rw [List.nodup_flatMap]
    refine ⟨fun i _ => ?_, ?_⟩
    · rw [List.nodup_flatMap]
      refine ⟨fun j _ => (nodup_pyRange _ _).map fun a b h => by simpa using h, ?_⟩
      refine (nodup_pyRange _ _).imp fun {a b} hab => ?_
      simp only [Function.onFun, List.disjoint_left, List.mem_map]
      rintro t ⟨j, _, rfl⟩ ⟨k, _, h⟩
      exact hab (by simpa using (List.cons.inj (List.cons.inj h).2).1.symm)
    · refine List.nodup_range.imp fun {a b} hab => ?_
      simp only [Function.onFun, List.disjoint_left, List.mem_map, List.mem_flatMap]
      rintro t ⟨j, _, k, _, rfl⟩ ⟨j', _, k', _, h⟩
      exact hab (by simpa using (List.cons.inj h).1.symm)
  · intro a ha b hb hab
    simp only [List.mem_map, List.mem_flatMap, List.mem_append] at ha hb
    obtain ⟨j, _, k, _, l, _, rfl⟩ := hb
    rcases ha with ⟨i, _, rfl⟩ | ⟨i, _, i', _, rfl⟩ <;> simp at hab

/-- The coefficient of a term, as an integer. -/
def cf {n : ℕ} (p : Poly n) (t : List ℕ) : ℤ := (getTerm p t).getD 0

theorem value_loop {n : ℕ} (p : Poly n) (x : ℕ → Bool) :
    value p x = (p.w0 : ZMod 8) + ((loopTerms n).map fun t => (cf p t : ZMod 8) * mono x t.toFinset).sum := by
  have h1 : ((loopTerms n).map fun t => (cf p t : ZMod 8) * mono x t.toFinset).sum =
      ∑ t ∈ (loopTerms n).toFinset, (cf p t : ZMod 8) * mono x t.toFinset := (List.sum_toFinset _ (nodup_loopTerms n)).symm
  rw [h1]
  unfold value
  rw [← Finset.add_sum_erase _ _ (empty_mem_Terms n)]
  congr 1
  · simp [coef, getTerm_nil, mono]
  · refine Finset.sum_nbij' (fun S => S.sort) (fun t => t.toFinset) ?_ ?_ ?_ ?_ ?_
    · intro S hS
      rw [Finset.mem_erase] at hS
      rw [List.mem_toFinset, mem_loopTerms]
      have := hS.2
      simp only [Terms, Finset.mem_filter, Finset.mem_powerset] at this
      refine ⟨⟨Finset.sortedLT_sort S |>.pairwise, ?_, by rw [Finset.length_sort]; exact this.2⟩, ?_⟩
      · intro i hi; exact Finset.mem_range.1 (this.1 ((Finset.mem_sort _).1 hi))
      · intro h
        apply hS.1
        rw [← Finset.sort_toFinset S (· ≤ ·), h]; rfl
    · intro t ht
      rw [List.mem_toFinset, mem_loopTerms] at ht
      obtain ⟨⟨h1, h2, h3⟩, h4⟩ := ht
      rw [Finset.mem_erase]
      simp only [Terms, Finset.mem_filter, Finset.mem_powerset]
      refine ⟨by simpa using h4, fun i hi => Finset.mem_range.2 (h2 i (List.mem_toFinset.1 hi)), ?_⟩
      exact (List.toFinset_card_le t).trans h3
    · intro S _; exact Finset.sort_toFinset S _
    · intro t ht
      rw [List.mem_toFinset, mem_loopTerms] at ht
      exact List.toFinset_sort (· ≤ ·) (ht.1.1.imp Nat.ne_of_lt) |>.2 (ht.1.1.imp Nat.le_of_lt)
    · intro S _
      simp only [coef, cf, Finset.sort_toFinset]

/-! ### The polynomial -/

theorem x_not_mem {k : ℤ} {c : Char} (h : c = '+' ∨ c = '*' ∨ c = ' ' ∨ c = 'x' ∨ c = ',' ∨ c = '\n') : c ∉ fmtD k := by
  rcases h with rfl | rfl | rfl | rfl | rfl | rfl <;> exact fmtD_not_mem (by decide) (by decide)

/-- What is printed for a term with coefficient `v`, without the plus sign and blanks. -/
def bodyText (v : ℤ) (t : List ℕ) : Str := joinSep ['*'] ((if v ≠ 1 then [fmtD v] else []) ++ t.map fun i : ℕ => "x_".toList ++ fmtD (i : ℤ))

theorem factor_chars {v : ℤ} {t : List ℕ} {s : Str} (hs : s ∈ (if v ≠ 1 then [fmtD v] else []) ++ t.map fun i : ℕ => "x_".toList ++ fmtD (i : ℤ))
    {c : Char} (h : c = '+' ∨ c = '*' ∨ c = ' ' ∨ c = ',' ∨ c = '\n') : c ∉ s := by
  have h' : c = '+' ∨ c = '*' ∨ c = ' ' ∨ c = 'x' ∨ c = ',' ∨ c = '\n' := by tauto
  rcases List.mem_append.1 hs with hs | hs
  · split_ifs at hs
    · rw [List.mem_singleton.1 hs]; exact x_not_mem h'
    · simp at hs
  · obtain ⟨i, _, rfl⟩ := List.mem_map.1 hs
    intro hc
    rcases List.mem_append.1 hc with hc | hc
    · rcases h with rfl | rfl | rfl | rfl | rfl <;> exact absurd hc (by decide)
    · exact x_not_mem h' hc

theorem mem_joinSep {sep : Str} {l : List Str} {c : Char} (h : c ∈ joinSep sep l) : c ∈ sep ∨ ∃ s ∈ l, c ∈ s := by
  induction l with
  | nil => simp [joinSep] at h
  | cons a l ih =>
    cases l with
    | nil => exact Or.inr ⟨a, by simp, h⟩
    | cons b l =>
      rw [joinSep, List.mem_append, List.mem_append] at h
      rcases h with (h | h) | h
      · exact Or.inr ⟨a, by simp, h⟩
      · exact Or.inl h
      · rcases ih h with h | ⟨s, hs, hc⟩
        · exact Or.inl h
        · exact Or.inr ⟨s, List.mem_cons_of_mem _ hs, hc⟩

theorem body_chars (v : ℤ) (t : List ℕ) {c : Char} (h : c = '+' ∨ c = ' ' ∨ c = ',' ∨ c = '\n') : c ∉ bodyText v t := by
  intro hc
  rcases mem_joinSep hc with hc | ⟨s, hs, hc⟩
  · rw [List.mem_singleton] at hc
    subst hc; revert h; decide
  · exact factor_chars hs (by tauto) hc

theorem bodyText_eq (v : ℤ) {t : List ℕ} (ht : t ≠ []) :
    (if v ≠ 1 then fmtD v ++ "*".toList else []) ++ monoText t = bodyText v t := by
  unfold bodyText monoText
  obtain ⟨i, t, rfl⟩ := List.exists_cons_of_ne_nil ht
  split_ifs
  · simp [joinSep]
  · simp

theorem filter_blank {s : Str} (h : ' ' ∉ s) : s.filter (· ≠ ' ') = s := by
  rw [List.filter_eq_self]
  intro c hc
  simp only [decide_eq_true_eq, ne_eq]
  rintro rfl
  exact h hc

/-- The terms printed, with their coefficients. -/
def shown {n : ℕ} (p : Poly n) : List (List ℕ) := (loopTerms n).filter fun t => cf p t ≠ 0

theorem termText_eq {n : ℕ} {p : Poly n} (hp : WF p) {t : List ℕ} (ht : t ∈ loopTerms n) :
    termText p t = some (if cf p t ≠ 0 then " + ".toList ++ bodyText (cf p t) t else []) := by
  obtain ⟨hv, hne⟩ := mem_loopTerms.1 ht
  obtain ⟨v, h⟩ := getTerm_isSome p hp hv
  unfold termText cf
  rw [h, Option.map_some, Option.getD_some, ← bodyText_eq v hne, List.append_assoc]

theorem polyText_eq {n : ℕ} {p : Poly n} (hp : WF p) :
    polyText p = some (fmtD p.w0 ++ ((shown p).map fun t => " + ".toList ++ bodyText (cf p t) t).flatten) := by
  unfold polyText
  rw [mapM_of_some fun t ht => termText_eq hp ht]
  simp only [Option.bind_eq_bind, Option.bind_some]
  congr 2
  unfold shown
  induction loopTerms n with
  | nil => rfl
  | cons t l ih =>
    rw [List.map_cons, List.flatten_cons, ih, List.filter_cons]
    by_cases h : cf p t ≠ 0
    · simp [h]
    · simp [h]

theorem polyText_filter {n : ℕ} {p : Poly n} (hp : WF p) {s : Str} (h : polyText p = some s) :
    s.filter (· ≠ ' ') = joinSep ['+'] (fmtD p.w0 :: (shown p).map fun t => bodyText (cf p t) t) := by
  rw [polyText_eq hp] at h
  cases h
  rw [joinSep_flatten, List.filter_append, filter_blank (x_not_mem (by simp))]
  congr 1
  induction shown p with
  | nil => rfl
  | cons t l ih =>
    rw [List.map_cons, List.flatten_cons, List.filter_append, ih, List.filter_append,
      filter_blank (body_chars _ _ (by simp)), List.map_cons, List.map_cons, List.flatten_cons]
    rfl

variable {R : Type} [CommRing R]

theorem readFactor_int (x : ℕ → Bool) (k : ℤ) : readFactor x (fmtD k) = some (k : R) := by
  unfold readFactor
  split
  · rename_i d h
    have : 'x' ∈ fmtD k := by rw [h]; simp
    exact absurd this (x_not_mem (by simp))
  · rw [parseInt_fmtD]; rfl

theorem readFactor_var (x : ℕ → Bool) (i : ℕ) : readFactor x ("x_".toList ++ fmtD (i : ℤ)) = some (if x i then (1 : R) else 0) := by
  show (parseInt (fmtD (i : ℤ))).map _ = _
  rw [parseInt_fmtD]; simp

theorem readItem (x : ℕ → Bool) (v : ℤ) {t : List ℕ} (ht : t ≠ []) :
    ((splitChar '*' (bodyText v t)).mapM (readFactor x)).map List.prod = some ((v : R) * (t.map fun i => if x i then (1 : R) else 0).prod) := by
  unfold bodyText
  rw [splitChar_join _ _ (by simp [ht]) fun s hs => factor_chars hs (by simp)]
  have hvars : (t.map fun i : ℕ => "x_".toList ++ fmtD (i : ℤ)).mapM (readFactor x) = some (t.map fun i => if x i then (1 : R) else 0) := by
    rw [List.mapM_map]
    exact mapM_of_some fun i _ => readFactor_var x i
  by_cases h : v ≠ 1
  · rw [if_pos h, List.singleton_append, List.mapM_cons, readFactor_int, hvars]
    simp
  · rw [if_neg h, List.nil_append, hvars]
    push Not at h
    simp [h]

theorem readPoly {n : ℕ} {p : Poly n} (hp : WF p) {s : Str} (h : polyText p = some s) (x : ℕ → Bool) :
    readSum x s = some (value p x) := by
  unfold readSum
  rw [polyText_filter hp h, splitChar_join _ _ (by simp)]
  · have hsh : ∀ t ∈ shown p, t ≠ [] := fun t ht => (mem_loopTerms.1 (List.mem_of_mem_filter ht)).2
    rw [List.mapM_cons, List.mapM_map, mapM_of_some (f := (fun item => ((splitChar '*' item).mapM (readFactor x)).map List.prod) ∘ fun t => bodyText (cf p t) t)
      (g := fun t => (cf p t : ZMod 8) * (t.map fun i => if x i then (1 : ZMod 8) else 0).prod) fun t ht => readItem x (cf p t) (hsh t ht)]
    rw [splitChar_noSep _ _ (x_not_mem (by simp))]
    simp only [List.mapM_cons, List.mapM_nil, readFactor_int, Option.pure_def, Option.bind_eq_bind, Option.bind_some, Option.map_some]
    congr 1
    rw [value_loop, List.sum_cons]
    simp only [List.prod_cons, List.prod_nil, mul_one, ← mono_toFinset]
    congr 1
    unfold shown
    induction loopTerms n with
    | nil => rfl
    | cons t l ih =>
      rw [List.filter_cons]
      by_cases h : cf p t = 0
      · simpa [h] using ih
      · simpa [h] using ih
  · intro q hq
    rcases List.mem_cons.1 hq with rfl | hq
    · exact x_not_mem (by simp)
    · obtain ⟨t, _, rfl⟩ := List.mem_map.1 hq
      exact body_chars _ _ (by simp)

/-! ### The affine function -/

theorem colStep_fold {n : ℕ} (row : Fin n → ℤ) (l : List (Fin n)) (s : Str) :
    (l.foldl (colStep row) (s, true)).1 = s ++ ((l.filter fun c => row c ≠ 0).map fun c : Fin n => " + x_".toList ++ fmtD ((c : ℕ) : ℤ)).flatten := by
  induction l generalizing s with
  | nil => simp
  | cons c l ih =>
    rw [List.foldl_cons, List.filter_cons]
    by_cases h : row c = 0
    · simp only [colStep, h, ne_eq, not_true_eq_false, if_false, ih]; simp
    · simp only [colStep, h, ne_eq, not_false_eq_true, if_true, ih]; simp

theorem colStep_fold' {n : ℕ} (row : Fin n → ℤ) (l : List (Fin n)) :
    ((l.foldl (colStep row) ([], false)).1.filter (· ≠ ' ')) =
      joinSep ['+'] ((l.filter fun c => row c ≠ 0).map fun c : Fin n => "x_".toList ++ fmtD ((c : ℕ) : ℤ)) := by
  induction l with
  | nil => rfl
  | cons c l ih =>
    rw [List.foldl_cons, List.filter_cons]
    by_cases h : row c = 0
    · simp only [colStep, h, ne_eq, not_true_eq_false, if_false]
      simpa [colStep] using ih
    · have hc : colStep row ([], false) c = ("x_".toList ++ fmtD ((c : ℕ) : ℤ), true) := by simp [colStep, h]
      rw [hc, colStep_fold, if_pos (by simpa using h), List.map_cons, joinSep_flatten, List.filter_append]
      congr 1
      · exact filter_blank fun hm => by
          rcases List.mem_append.1 hm with hm | hm
          · exact absurd hm (by decide)
          · exact x_not_mem (by simp) hm
      · induction l.filter fun c => row c ≠ 0 with
        | nil => rfl
        | cons a m ih =>
          simp only [List.map_cons, List.flatten_cons, List.filter_append, ih]
          rw [filter_blank (x_not_mem (by simp))]
          rfl

/-- The pieces of a row. -/
def rowPieces {n : ℕ} (e : Elem n) (i : Fin n) : List Str :=
  (((List.finRange n).filter fun c => e.linear i c ≠ 0).map fun c : Fin n => "x_".toList ++ fmtD ((c : ℕ) : ℤ)) ++
    (if e.shift i ≠ 0 then [fmtD 1] else [])

theorem rowText_filter {n : ℕ} {e : Elem n} {i : Fin n} (h : ∃ c, e.linear i c ≠ 0) :
    (rowText e i).filter (· ≠ ' ') = joinSep ['+'] (rowPieces e i) := by
  unfold rowText rowPieces
  rw [List.filter_append, colStep_fold']
  obtain ⟨c, hc⟩ := h
  have hne : ((List.finRange n).filter fun c => e.linear i c ≠ 0) ≠ [] := by
    intro h
    have : c ∈ (List.finRange n).filter fun c => e.linear i c ≠ 0 := List.mem_filter.2 ⟨List.mem_finRange c, by simpa using hc⟩
    rw [h] at this; simp at this
  obtain ⟨a, l, hl⟩ := List.exists_cons_of_ne_nil hne
  rw [hl]
  by_cases hs : e.shift i = 0
  · simp [hs]
  · simp only [ne_eq, hs, not_false_eq_true, if_true, List.map_cons, List.cons_append, joinSep_flatten, List.append_assoc, List.map_append, List.flatten_append]
    rfl

theorem pieces_chars {n : ℕ} {e : Elem n} {i : Fin n} {s : Str} (hs : s ∈ rowPieces e i) {c : Char}
    (h : c = '+' ∨ c = '*' ∨ c = ' ' ∨ c = ',' ∨ c = '\n') : c ∉ s := by
  have h' : c = '+' ∨ c = '*' ∨ c = ' ' ∨ c = 'x' ∨ c = ',' ∨ c = '\n' := by tauto
  rcases List.mem_append.1 hs with hs | hs
  · obtain ⟨a, _, rfl⟩ := List.mem_map.1 hs
    intro hc
    rcases List.mem_append.1 hc with hc | hc
    · rcases h with rfl | rfl | rfl | rfl | rfl <;> exact absurd hc (by decide)
    · exact x_not_mem h' hc
  · split_ifs at hs
    · rw [List.mem_singleton.1 hs]; exact x_not_mem h'
    · simp at hs

theorem rowText_chars {n : ℕ} (e : Elem n) {i : Fin n} (hn : ∃ c, e.linear i c ≠ 0) {c : Char} (h : c = ',' ∨ c = '\n') : c ∉ rowText e i := by
  intro hc
  have hf : c ∈ (rowText e i).filter (· ≠ ' ') := List.mem_filter.2 ⟨hc, by rcases h with rfl | rfl <;> decide⟩
  rw [rowText_filter hn] at hf
  rcases mem_joinSep hf with hf | ⟨s, hs, hf⟩
  · rw [List.mem_singleton] at hf
    subst hf; revert h; decide
  · exact pieces_chars hs (by tauto) hf

theorem readRow {n : ℕ} {e : Elem n} (hl : Bits2 e.linear) (hs : Bits1 e.shift) {i : Fin n} (hn : ∃ c, e.linear i c ≠ 0) (x : Fin n → Bool) :
    readSum (ext x) (rowText e i) = some ((bit (aff e x i) : ℤ) : ZMod 2) := by
  unfold readSum
  have hne : rowPieces e i ≠ [] := by
    obtain ⟨c, hc⟩ := hn
    intro h
    have : ("x_".toList ++ fmtD ((c : ℕ) : ℤ)) ∈ rowPieces e i :=
      List.mem_append.2 (Or.inl (List.mem_map.2 ⟨c, List.mem_filter.2 ⟨List.mem_finRange c, by simpa using hc⟩, rfl⟩))
    rw [h] at this; simp at this
  rw [rowText_filter hn, splitChar_join _ _ hne fun s hs => pieces_chars hs (by simp)]
  have hitems : (rowPieces e i).mapM (fun item => ((splitChar '*' item).mapM (readFactor (ext x))).map List.prod) =
      some ((((List.finRange n).filter fun c => e.linear i c ≠ 0).map fun c => if x c then (1 : ZMod 2) else 0) ++ (if e.shift i ≠ 0 then [1] else [])) := by
    have hmap : ∀ s ∈ rowPieces e i, ((splitChar '*' s).mapM (readFactor (ext x))).map List.prod = (readFactor (ext x) s : Option (ZMod 2)) := by
      intro s hs
      rw [splitChar_noSep _ _ (pieces_chars hs (by simp))]
      cases h : (readFactor (ext x) s : Option (ZMod 2)) with
      | none => simp [h]
      | some v => simp [h]
    rw [mapM_congr_text hmap]
    unfold rowPieces
    rw [List.mapM_append, List.mapM_map, mapM_of_some (f := (readFactor (ext x) : Str → Option (ZMod 2)) ∘ fun c : Fin n => "x_".toList ++ fmtD ((c : ℕ) : ℤ))
      fun c _ => readFactor_var (ext x) (c : ℕ)]
    have he : ∀ c : Fin n, ext x (c : ℕ) = x c := fun c => by simp [ext]
    simp only [he]
    split_ifs
    · simp [readFactor_int]
    · simp
  rw [hitems]
  simp only [Option.bind_eq_bind, Option.bind_some]
  congr 1
  have h1 : ((((List.finRange n).filter fun c => e.linear i c ≠ 0).map fun c => if x c then (1 : ZMod 2) else 0)).sum = ∑ j, (e.linear i j : ZMod 2) * (bit (x j) : ℤ) := by
    rw [← List.sum_ofFn, List.ofFn_eq_map]
    induction List.finRange n with
    | nil => rfl
    | cons c l ih =>
      rw [List.filter_cons, List.map_cons, List.sum_cons, ← ih]
      rcases hl i c with h | h
      · simp [h]
      · simp [h, bit]
  have h2 : (if e.shift i ≠ 0 then [1] else [] : List (ZMod 2)).sum = (e.shift i : ZMod 2) := by
    rcases hs i with h | h <;> simp [h]
  rw [List.sum_append, h1, h2]
  have h3 : (∑ j, (e.linear i j : ZMod 2) * (bit (x j) : ℤ)) + (e.shift i : ZMod 2) = ((∑ j, e.linear i j * bit (x j) + e.shift i : ℤ) : ZMod 2) := by
    push_cast; rfl
  rw [h3]
  unfold aff
  generalize (∑ j, e.linear i j * bit (x j) + e.shift i : ℤ) = z
  have h4 : ((z : ℤ) : ZMod 2) = ((z % 2 : ℤ) : ZMod 2) := by
    rw [ZMod.intCast_eq_intCast_iff']; simp
  rw [h4]
  unfold bit
  have : z % 2 = 0 ∨ z % 2 = 1 := by omega
  rcases this with h | h <;> simp [h]

theorem joinSep_snoc (c : Char) (l : List Str) (a : Str) : joinSep [c] (l ++ [a]) = (l.map (· ++ [c])).flatten ++ a := by
  induction l with
  | nil => simp [joinSep]
  | cons b l ih =>
    rw [List.cons_append, joinSep_cons _ _ _ (by simp), ih]
    simp

theorem rows_join {n : ℕ} (hn : 0 < n) (f : Fin n → Str) :
    ((List.finRange n).flatMap fun row => f row ++ (if (row : ℕ) ≠ n - 1 then ",".toList else [])) = joinSep [','] ((List.finRange n).map f) := by
  obtain ⟨k, rfl⟩ : ∃ k, n = k + 1 := ⟨n - 1, by omega⟩
  rw [List.finRange_succ_last, List.map_append, List.map_singleton, joinSep_snoc, List.flatMap_append]
  congr 1
  · rw [List.flatMap_map, List.map_map, List.map_map, List.flatMap_def]
    congr 1
    refine List.map_congr_left fun i _ => ?_
    have : (i : ℕ) ≠ k := Nat.ne_of_lt i.isLt
    simp [this]
  · simp

theorem row_ne_zero {n : ℕ} {e : Elem n} (hd : detOdd e.linear = true) (i : Fin n) : ∃ c, e.linear i c ≠ 0 := by
  by_contra h
  push Not at h
  rw [detOdd_iff] at hd
  rw [Matrix.det_eq_zero_of_row_eq_zero i fun j => by simp [mat2, h j]] at hd
  exact absurd hd (by decide)

theorem polyText_chars {n : ℕ} {p : Poly n} (hp : WF p) {s : Str} (h : polyText p = some s) : '\n' ∉ s := by
  intro hc
  have hf : '\n' ∈ s.filter (· ≠ ' ') := List.mem_filter.2 ⟨hc, by decide⟩
  rw [polyText_filter hp h] at hf
  rcases mem_joinSep hf with hf | ⟨q, hq, hf⟩
  · revert hf; decide
  · rcases List.mem_cons.1 hq with rfl | hq
    · exact x_not_mem (by simp) hf
    · obtain ⟨t, _, rfl⟩ := List.mem_map.1 hq
      exact body_chars _ _ (by simp) hf

theorem elemText_read {n : ℕ} (hn : 0 < n) {e : Elem n} (hw : WF e.poly) (hl : Bits2 e.linear) (hs : Bits1 e.shift)
    (hd : detOdd e.linear = true) : ∃ s, elemText e = some s ∧ ∀ x : Fin n → Bool, readText s (ext x) =
      some (value e.poly (ext x), (List.finRange n).map fun i => ((bit (aff e x i) : ℤ) : ZMod 2)) := by
  obtain ⟨p, hp⟩ : ∃ p, polyText e.poly = some p := ⟨_, polyText_eq hw⟩
  refine ⟨joinSep ['\n'] ["phase polynomial = ".toList, p, "affine function = ".toList,
    " (".toList ++ joinSep [','] ((List.finRange n).map (rowText e)) ++ ")".toList, []], ?_, fun x => ?_⟩
  · unfold elemText
    rw [hp]
    simp only [Option.bind_eq_bind, Option.bind_some]
    rw [rows_join hn]
    simp [joinSep]
  · unfold readText
    rw [splitChar_join _ _ (by simp)]
    · simp only [readPoly hw hp, Option.bind_eq_bind, Option.bind_some]
      have hrow : List.dropLast (List.drop 2 (" (".toList ++ joinSep [','] ((List.finRange n).map (rowText e)) ++ ")".toList)) =
          joinSep [','] ((List.finRange n).map (rowText e)) := by
        show List.dropLast (joinSep [','] ((List.finRange n).map (rowText e)) ++ [')']) = _
        rw [List.dropLast_concat]
      rw [hrow, splitChar_join _ _ (by simp; omega), List.mapM_map, mapM_of_some (f := readSum (ext x) ∘ rowText e)
        fun i _ => readRow hl hs (row_ne_zero hd i) x]
      · rfl
      · intro q hq
        obtain ⟨i, _, rfl⟩ := List.mem_map.1 hq
        exact rowText_chars e (row_ne_zero hd i) (by simp)
    · intro q hq
      simp only [List.mem_cons, List.not_mem_nil, or_false] at hq
      rcases hq with rfl | rfl | rfl | rfl | rfl
      · decide
      · exact polyText_chars hw hp
      · decide
      · intro hc
        rcases List.mem_append.1 hc with hc | hc
        · rcases List.mem_append.1 hc with hc | hc
          · revert hc; decide
          · rcases mem_joinSep hc with hc | ⟨q, hq, hc⟩
            · revert hc; decide
            · obtain ⟨i, _, rfl⟩ := List.mem_map.1 hq
              exact rowText_chars e (row_ne_zero hd i) (by simp) hc
        · revert hc; decide
      · simp

end Verif.Dihedral
