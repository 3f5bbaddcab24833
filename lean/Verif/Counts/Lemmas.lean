import Verif.Counts.Model
import Verif.Counts.Spec
import Verif.Py.DictLemmas
import Verif.Py.BinLemmas
import Mathlib.Algebra.BigOperators.Group.List.Basic
import Mathlib.Data.List.Nodup
/- Helper lemmas for the counts properties. -/
namespace Verif.Counts
open Verif

/-! ### count_keys -/

theorem length_countKeys (n : Nat) : (countKeys n).length = 2 ^ n := by simp [countKeys]

theorem getElem_countKeys (n j : Nat) (h : j < (countKeys n).length) :
    (countKeys n)[j] = zfill n (binDigits j) := by simp [countKeys]

theorem mem_countKeys (n : Nat) (hn : 1 ≤ n) (s : Str) :
    s ∈ countKeys n ↔ IsBits s ∧ s.length = n := by
  simp only [countKeys, List.mem_map, List.mem_range]
  constructor
  · rintro ⟨j, hj, rfl⟩
    exact ⟨isBits_zfill _ _ (isBits_binDigits _), length_zfill _ _ (length_binDigits_le _ _ hn hj)⟩
  · rintro ⟨hb, rfl⟩
    exact ⟨ofBin s, ofBin_lt s, zfill_binDigits s hb hn⟩

theorem nodup_countKeys (n : Nat) : (countKeys n).Nodup := by
  unfold countKeys
  refine List.Nodup.map_on ?_ List.nodup_range
  intro i _ j _ h
  have := congrArg ofBin h
  simpa [ofBin_zfill, ofBin_binDigits] using this

/-! ### sorted qubits -/

theorem sortDesc_perm (l : List Nat) : (sortDesc l).Perm l := List.perm_insertionSort _ _

theorem sortDesc_pairwise (l : List Nat) (h : l.Nodup) : (sortDesc l).Pairwise (· > ·) := by
  have h1 : (sortDesc l).Pairwise (· ≥ ·) := List.pairwise_insertionSort _ l
  have h2 : (sortDesc l).Pairwise (· ≠ ·) := (sortDesc_perm l).nodup_iff.2 h
  refine (h1.and h2).imp ?_
  intro a b ⟨h, h'⟩
  omega

theorem idxOf_of_pairwise (Q : List Nat) (h : Q.Pairwise (· > ·)) (q : Nat) (hq : q ∈ Q) :
    Q.idxOf q = (Q.filter (q < ·)).length := by
  induction Q with
  | nil => simp at hq
  | cons a Q ih =>
    rw [List.pairwise_cons] at h
    by_cases hqa : a = q
    · subst hqa
      simp only [List.idxOf_cons_self, List.filter_cons, Nat.lt_irrefl, decide_false,
        Bool.false_eq_true, if_false]
      symm
      rw [List.length_eq_zero_iff, List.filter_eq_nil_iff]
      intro b hb
      have := h.1 b hb
      simp; omega
    · have hq' : q ∈ Q := by simpa [Ne.symm hqa] using hq
      have := h.1 q hq'
      rw [List.idxOf_cons_ne _ hqa, ih h.2 hq', List.filter_cons]
      simp [this]

theorem idxOf_sortDesc (S : List Nat) (h : S.Nodup) (q : Nat) (hq : q ∈ S) :
    (sortDesc S).idxOf q = (S.filter (q < ·)).length := by
  rw [idxOf_of_pairwise _ (sortDesc_pairwise S h) q ((sortDesc_perm S).mem_iff.2 hq)]
  exact ((sortDesc_perm S).filter _).length_eq

/-! ### the regular expressions -/

/-- Element of the expression for qubit `y`. -/
def rgxElt (qubits : List Nat) (key : Str) (y : Nat) : Rgx :=
  if y ∈ qubits then Rgx.lit (key.getD (qubits.idxOf y) '?') else Rgx.digit

theorem mkRgx_eq (n : Nat) (Q : List Nat) (key : Str) :
    mkRgx n Q key = (List.range n).reverse.map (rgxElt Q key) := by
  have h : ∀ (l : List Nat) (acc : List Rgx),
      l.foldl (rgxHelper Q key) acc = (l.reverse.map (rgxElt Q key)) ++ acc := by
    intro l
    induction l with
    | nil => simp
    | cons a l ih =>
      intro acc
      have : rgxHelper Q key acc a = rgxElt Q key a :: acc := by
        simp only [rgxHelper, rgxElt]; split <;> rfl
      simp [ih, this]
  simp [mkRgx, h]

/-- One element against one character. -/
def eltMatch : Rgx → Char → Bool
  | .lit c, d => c == d
  | .digit, d => d.isDigit

theorem rgxMatch_iff (r : List Rgx) (s : Str) (h : r.length = s.length) :
    rgxMatch r s = true ↔ ∀ i (hi : i < r.length), eltMatch r[i] (s[i]'(h ▸ hi)) = true := by
  induction r generalizing s with
  | nil => simp [rgxMatch]
  | cons a r ih =>
    cases s with
    | nil => simp at h
    | cons d s =>
      have hl : r.length = s.length := by simpa using h
      have key : rgxMatch (a :: r) (d :: s) = (eltMatch a d && rgxMatch r s) := by
        cases a <;> rfl
      rw [key, Bool.and_eq_true, ih s hl]
      constructor
      · rintro ⟨h1, h2⟩ i hi
        cases i with
        | zero => exact h1
        | succ i => exact h2 i (by simpa using hi)
      · intro h
        refine ⟨h 0 (by simp), fun i hi => ?_⟩
        have := h (i + 1) (by simpa using hi)
        simpa using this

theorem isBits_isDigit {s : Str} (h : IsBits s) (c : Char) (hc : c ∈ s) : c.isDigit = true := by
  rcases h c hc with rfl | rfl <;> decide

theorem rgxMatch_mkRgx (n : Nat) (S : List Nat) (hS : ProperSubset n S) (out full : Str)
    (hout : S.length ≤ out.length) (hf : IsBits full) (hfl : full.length = n) :
    rgxMatch (mkRgx n (sortDesc S) out) full = true ↔ agrees S out full := by
  have hperm := sortDesc_perm S
  rw [mkRgx_eq, rgxMatch_iff _ _ (by simp [hfl])]
  have hlen : ∀ q ∈ S, (S.filter (q < ·)).length < out.length := by
    intro q hq
    rw [← idxOf_sortDesc S hS.nodup q hq]
    have := List.idxOf_lt_length_of_mem (hperm.mem_iff.2 hq)
    rw [hperm.length_eq] at this
    omega
  constructor
  · intro h q hq
    have hqn := hS.range q hq
    have h1 := h (n - 1 - q) (by simp; omega)
    simp only [List.getElem_map, List.getElem_reverse, List.getElem_range, List.length_range] at h1
    have hq2 : n - 1 - (n - 1 - q) = q := by omega
    simp only [hq2] at h1
    have hmem : q ∈ sortDesc S := hperm.mem_iff.2 hq
    simp only [rgxElt, hmem, if_true, eltMatch, idxOf_sortDesc S hS.nodup q hq, beq_iff_eq] at h1
    have hb : full.length - 1 - q < full.length := by omega
    rw [charAt, List.getElem?_eq_getElem hb, List.getElem?_eq_getElem (hlen q hq)]
    rw [List.getD_eq_getElem?_getD, List.getElem?_eq_getElem (hlen q hq)] at h1
    subst hfl
    simpa using h1
  · intro h i hi
    simp only [List.length_map, List.length_reverse, List.length_range] at hi
    simp only [List.getElem_map, List.getElem_reverse, List.getElem_range, List.length_range]
    unfold rgxElt
    split
    · rename_i hmem
      have hq : n - 1 - i ∈ S := hperm.mem_iff.1 hmem
      have h1 := h _ hq
      have hb : full.length - 1 - (n - 1 - i) < full.length := by omega
      have hix : full.length - 1 - (n - 1 - i) = i := by omega
      rw [charAt, List.getElem?_eq_getElem hb, List.getElem?_eq_getElem (hlen _ hq)] at h1
      simp only [eltMatch, idxOf_sortDesc S hS.nodup _ hq, beq_iff_eq, List.getD_eq_getElem?_getD,
        List.getElem?_eq_getElem (hlen _ hq), Option.getD_some]
      simp only [Option.some.injEq] at h1
      rw [h1]
      simp [hix]
    · exact isBits_isDigit hf _ (List.getElem_mem _)

/-! ### folds as sums -/

theorem matchSum_eq (c : Counts) (m : List Rgx) :
    matchSum c m = ((c.filter fun kv => rgxMatch m (trimSpaces kv.1)).map (·.2)).sum := by
  have h : ∀ (c : Counts) (a : Int),
      c.foldl (fun c kv => if rgxMatch m (trimSpaces kv.1) then c + kv.2 else c) a
        = a + ((c.filter fun kv => rgxMatch m (trimSpaces kv.1)).map (·.2)).sum := by
    intro c
    induction c with
    | nil => simp
    | cons kv c ih =>
      intro a
      simp only [List.foldl_cons, List.filter_cons]
      split
      · rw [ih]; simp [add_assoc]
      · rw [ih]
  unfold matchSum
  simpa using h c 0

theorem matchSum_eq_spec (n : Nat) (c : Counts) (hc : IsCounts n c) (S : List Nat)
    (hS : ProperSubset n S) (out : Str) (hout : S.length ≤ out.length) :
    matchSum c (mkRgx n (sortDesc S) out) = marginalSpec c S out := by
  rw [matchSum_eq, marginalSpec]
  congr 2
  apply List.filter_congr
  intro kv hkv
  rw [Bool.eq_iff_iff, rgxMatch_mkRgx n S hS out _ hout (hc.bits kv hkv) (hc.len kv hkv)]
  simp

/-- Closed form of `marginal_counts` on a proper subset. -/
theorem marginalCounts_eq (n : Nat) (c : Counts) (hc : IsCounts n c) (S : List Nat)
    (hS : ProperSubset n S) (pad : Bool) :
    marginalCounts c (some S) pad = some
      (let items := (countKeys S.length).map fun k => (k, matchSum c (mkRgx n (sortDesc S) k))
       if pad then items else items.filter (fun kv => kv.2 ≠ 0)) := by
  cases c with
  | nil => exact absurd rfl hc.nonempty
  | cons first rest =>
    have hn : (trimSpaces first.1).length = n := hc.len first (by simp)
    have hne : n ≠ S.length := by have := hS.proper; omega
    have hlen : (sortDesc S).length = S.length := (sortDesc_perm S).length_eq
    simp only [marginalCounts, hn, hne, if_false, hlen]
    have hzip : ∀ (f : Str → Int), (countKeys S.length).zip ((countKeys S.length).map f)
        = (countKeys S.length).map fun k => (k, f k) := by
      intro f
      induction countKeys S.length with
      | nil => rfl
      | cons a l ih => simpa using ih
    have hfold : ∀ (l : List (Str × Int)), (l.map (·.1)).Nodup →
        l.foldl (fun (ret : Counts) kv => ret.set kv.1 kv.2) [] = l := by
      intro l hl
      have := Dict.foldl_set_fresh l (·.1) (·.2) ([] : Counts) (by simpa using hl)
      simpa using this
    have hfold2 : ∀ (l : List (Str × Int)) (acc : Counts),
        l.foldl (fun (ret : Counts) kv => if kv.2 ≠ 0 then ret.set kv.1 kv.2 else ret) acc
          = (l.filter (fun kv => kv.2 ≠ 0)).foldl (fun (ret : Counts) kv => ret.set kv.1 kv.2) acc := by
      intro l
      induction l with
      | nil => simp
      | cons a l ih =>
        intro acc
        simp only [List.foldl_cons, List.filter_cons]
        by_cases h : a.2 = 0
        · simp only [h, ne_eq, not_true_eq_false, if_false, decide_false, Bool.false_eq_true]
          exact ih acc
        · simp only [h, ne_eq, not_false_eq_true, if_true, decide_true, List.foldl_cons]
          exact ih _
    have hnd : ∀ (f : Str → Int), (((countKeys S.length).map fun k => (k, f k)).map (·.1)).Nodup := by
      intro f
      simpa [List.map_map, Function.comp_def] using nodup_countKeys S.length
    rw [hzip]
    split
    · rw [hfold _ (hnd _)]
    · rw [hfold2, hfold]
      exact (List.Sublist.map _ List.filter_sublist).nodup (hnd _)

theorem get?_map_pair (l : List Str) (f : Str → Int) (k : Str) :
    Dict.get? (l.map fun a => (a, f a)) k = if k ∈ l then some (f k) else none := by
  induction l with
  | nil => simp
  | cons a l ih =>
    simp only [List.map_cons, Dict.get?_cons, ih, List.mem_cons]
    by_cases h : a = k
    · subst h; simp
    · simp [h, Ne.symm h]

theorem get?_filter_map_pair (l : List Str) (f : Str → Int) (k : Str) :
    Dict.get? ((l.map fun a => (a, f a)).filter (fun kv => kv.2 ≠ 0)) k
      = if k ∈ l ∧ f k ≠ 0 then some (f k) else none := by
  simp only [ne_eq, decide_not]
  induction l with
  | nil => simp
  | cons a l ih =>
    simp only [List.map_cons, List.filter_cons]
    by_cases h : a = k
    · subst h
      by_cases h0 : f a = 0
      · simp [h0, ih] 
      · simp [h0, Dict.get?_cons]
    · by_cases h0 : f a = 0
      · simp [h0, ih, Ne.symm h]
      · simp [h0, Dict.get?_cons, h, ih, Ne.symm h]

end Verif.Counts
