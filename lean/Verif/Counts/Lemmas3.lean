import Verif.Counts.Lemmas2
/- Helper lemmas for `expectation_counts`. -/
namespace Verif.Counts
open Verif

theorem mem_combinations (r : Nat) (l S : List Nat) :
    S ∈ combinations r l ↔ S.Sublist l ∧ S.length = r := by
  induction l generalizing r S with
  | nil =>
    cases r with
    | zero => simp [combinations]
    | succ r =>
      simp only [combinations, List.not_mem_nil, List.sublist_nil, false_iff, not_and]
      rintro rfl; simp
  | cons a l ih =>
    cases r with
    | zero =>
      simp only [combinations, List.mem_singleton]
      constructor
      · rintro rfl; simp
      · rintro ⟨_, h⟩; exact List.eq_nil_of_length_eq_zero h
    | succ r =>
      simp only [combinations, List.mem_append, List.mem_map, ih]
      constructor
      · rintro (⟨T, ⟨h1, h2⟩, rfl⟩ | ⟨h1, h2⟩)
        · exact ⟨h1.cons_cons a, by simp [h2]⟩
        · exact ⟨h1.cons a, h2⟩
      · rintro ⟨h1, h2⟩
        cases h1 with
        | cons _ h => exact Or.inr ⟨h, h2⟩
        | cons_cons _ h => exact Or.inl ⟨_, ⟨h, by simpa using h2⟩, rfl⟩

theorem expOp_aux (S : List Nat) (op : Str) (i : Nat) (hi : i < op.length) :
    (S.foldl (fun op q => op.set q '1') op)[i]? = some (if i ∈ S then '1' else op[i]) := by
  induction S generalizing op with
  | nil => simp [List.getElem?_eq_getElem hi]
  | cons q S ih =>
    simp only [List.foldl_cons]
    rw [ih (op.set q '1') (by simpa using hi)]
    simp only [List.mem_cons, List.getElem_set, Option.some.injEq]
    by_cases h : i = q
    · subst h; simp
    · simp [h, Ne.symm h]

theorem length_expOp (n : Nat) (S : List Nat) : (expOp n S).length = n := by
  unfold expOp
  have : ∀ (S : List Nat) (op : Str), (S.foldl (fun op q => op.set q '1') op).length = op.length := by
    intro S
    induction S with
    | nil => simp
    | cons q S ih => intro op; simp [ih]
  simp [this]

theorem getElem?_expOp (n : Nat) (S : List Nat) (i : Nat) (hi : i < n) :
    (expOp n S)[i]? = some (if i ∈ S then '1' else '0') := by
  unfold expOp
  rw [expOp_aux _ _ _ (by simpa using hi)]
  simp

/-- The subset is determined by its label. -/
theorem expOp_inj (n : Nat) (S T : List Nat) (hS : S.Sublist (List.range n))
    (hT : T.Sublist (List.range n)) (h : expOp n S = expOp n T) : S = T := by
  have hmem : ∀ i, i ∈ S ↔ i ∈ T := by
    intro i
    by_cases hi : i < n
    · have := congrArg (·[i]?) h
      simp only [getElem?_expOp n _ i hi, Option.some.injEq] at this
      by_cases h1 : i ∈ S <;> by_cases h2 : i ∈ T <;> simp_all
    · have e1 : i ∉ S := fun hm => hi (List.mem_range.1 (hS.subset hm))
      have e2 : i ∉ T := fun hm => hi (List.mem_range.1 (hT.subset hm))
      simp [e1, e2]
  have hs : S.Pairwise (· < ·) := List.Pairwise.sublist hS List.pairwise_lt_range
  have ht : T.Pairwise (· < ·) := List.Pairwise.sublist hT List.pairwise_lt_range
  have hp : S.Perm T := (List.perm_ext_iff_of_nodup (hs.imp (fun h => Nat.ne_of_lt h))
    (ht.imp (fun h => Nat.ne_of_lt h))).2 hmem
  exact hp.eq_of_pairwise (fun a b _ _ h1 h2 => by omega) hs ht

theorem expSum_eq (c : Counts) :
    expSum c = (c.map fun kv => (-1) ^ (kv.1.count '1') * kv.2).sum := by
  have : ∀ (c : Counts) (a : Int),
      c.foldl (fun acc kv => acc + (-1) ^ (kv.1.count '1') * kv.2) a
        = a + (c.map fun kv => (-1) ^ (kv.1.count '1') * kv.2).sum := by
    intro c
    induction c with
    | nil => simp
    | cons kv c ih => intro a; simp [ih, add_assoc]
  unfold expSum
  simpa using this c 0

/-- The generic accumulation loop: the value stored under a label written by `S`. -/
theorem foldlM_set_get (subsets : List (List Nat)) (n : Nat)
    (hs : ∀ S ∈ subsets, S.Sublist (List.range n)) (f : List Nat → Counts)
    (acc : Counts) (g : List Nat → Option Counts) (hg : ∀ S ∈ subsets, g S = some (f S)) :
    ∃ res, subsets.foldlM (fun (acc : Counts) S => do
        let m ← g S
        pure (acc.set (expOp n S) (expSum m))) acc = some res ∧
      (∀ S, S ∈ subsets → res.get? (expOp n S) = some (expSum (f S))) ∧
      (∀ k, (∀ S ∈ subsets, expOp n S ≠ k) → res.get? k = acc.get? k) := by
  induction subsets generalizing acc with
  | nil => exact ⟨acc, rfl, by simp, by simp⟩
  | cons T rest ih =>
    obtain ⟨res, h1, h2, h3⟩ := ih (fun S hS => hs S (by simp [hS]))
      (acc.set (expOp n T) (expSum (f T))) (fun S hS => hg S (by simp [hS]))
    refine ⟨res, ?_, ?_, ?_⟩
    · rw [List.foldlM_cons, hg T (by simp)]
      exact h1
    · intro S hS
      rcases List.mem_cons.1 hS with rfl | hS
      · by_cases hr : S ∈ rest
        · exact h2 S hr
        · rw [h3, Dict.get?_set_self]
          intro U hU he
          have := expOp_inj n U S (hs U (by simp [hU])) (hs S (by simp)) he
          exact hr (this ▸ hU)
      · exact h2 S hS
    · intro k hk
      rw [h3 k (fun S hS => hk S (by simp [hS])), Dict.get?_set]
      simp [hk T (by simp)]

/-- Number of ones of an outcome among the qubits of a strictly increasing list. -/
theorem count_proj (n : Nat) (S : List Nat) (hne : S ≠ []) (full : Str)
    (hfl : full.length = n) (hr : ∀ q ∈ S, q < n) :
    (proj S full).count '1' = (S.filter fun q => charAt full q = some '1').length := by
  simp only [proj, hne, if_false]
  rw [List.count_eq_countP, List.countP_map, List.countP_eq_length_filter]
  rw [← (((sortDesc_perm S).filter fun q => decide (charAt full q = some '1')).length_eq)]
  congr 1
  apply List.filter_congr
  intro q hq
  have := hr q ((sortDesc_perm S).mem_iff.1 hq)
  have hb : full.length - 1 - q < full.length := by omega
  rw [Bool.eq_iff_iff]
  simp [charAt, List.getElem?_eq_getElem hb]

theorem trimSpaces_bits (s : Str) (h : IsBits s) : trimSpaces s = s := by
  unfold trimSpaces
  rw [List.filter_eq_self]
  intro c hc
  rcases h c hc with rfl | rfl <;> decide

theorem charAt_eq_reverse (s : Str) (q : Nat) (hq : q < s.length) : charAt s q = s.reverse[q]? := by
  rw [List.getElem?_reverse hq, charAt]

theorem zip_count (a b : Str) (h : a.length = b.length) :
    (a.zip b).count ('1', '1')
      = ((List.range a.length).filter fun q => a[q]? = some '1' ∧ b[q]? = some '1').length := by
  have e : a.zip b = (List.range a.length).map fun q => (a.getD q '?', b.getD q '?') := by
    apply List.ext_getElem
    · simp [h]
    · intro i h1 h2
      have hi : i < a.length := by simpa using h2
      have hi' : i < b.length := by omega
      simp [hi, hi']
  rw [e, List.count_eq_countP, List.countP_map, List.countP_eq_length_filter]
  congr 1
  apply List.filter_congr
  intro q hq
  have hi : q < a.length := by simpa using hq
  have hi' : q < b.length := by omega
  rw [Bool.eq_iff_iff]
  simp [hi, hi', Prod.ext_iff]

/-- The qubits marked in a key. -/
def marked (key : Str) : List Nat :=
  (List.range key.length).filter fun q => charAt key q = some '1'

theorem expOp_marked (key : Str) (hk : IsBits key) : expOp key.length (marked key) = key.reverse := by
  apply List.ext_getElem?
  intro i
  by_cases hi : i < key.length
  · have hi' : i < key.reverse.length := by simpa using hi
    rw [getElem?_expOp _ _ _ hi, List.getElem?_eq_getElem hi']
    have hb := hk _ (List.mem_reverse.1 (List.getElem_mem hi'))
    have : i ∈ marked key ↔ key.reverse[i] = '1' := by
      simp only [marked, List.mem_filter, List.mem_range, hi, true_and, decide_eq_true_eq,
        charAt_eq_reverse key i hi, List.getElem?_eq_getElem hi', Option.some.injEq]
    rcases hb with hb | hb
    · simp [this, hb]
    · simp [this, hb]
  · rw [List.getElem?_eq_none (by rw [length_expOp]; omega),
      List.getElem?_eq_none (by simpa using hi)]

theorem filter_marked (key full : Str) (h : key.length = full.length) :
    ((marked key).filter fun q => charAt full q = some '1').length
      = (key.zip full).count ('1', '1') := by
  have e : (key.zip full).count ('1', '1') = (key.reverse.zip full.reverse).count ('1', '1') := by
    have hz : key.reverse.zip full.reverse = (key.zip full).reverse := by
      unfold List.zip; rw [List.reverse_zipWith h]
    rw [hz, List.count_reverse]
  rw [e, zip_count _ _ (by simp [h]), marked, List.filter_filter]
  congr 1
  simp only [List.length_reverse]
  apply List.filter_congr
  intro q hq
  have hi : q < key.length := by simpa using hq
  rw [charAt_eq_reverse key q hi, charAt_eq_reverse full q (by omega)]
  rw [Bool.eq_iff_iff]
  simp [and_comm]

/-- `marginal_counts` on all qubits returns the dictionary itself when the keys have no blanks. -/
theorem marginalCounts_full (n : Nat) (c : Counts) (hc : IsCounts n c)
    (hb : ∀ kv ∈ c, IsBits kv.1) (S : List Nat) (hS : S.length = n) (pad : Bool) :
    marginalCounts c (some S) pad = some c := by
  have hfold : c.foldl (fun (ret : Counts) kv => ret.set (trimSpaces kv.1) kv.2) [] = c := by
    have h1 : c.map (fun kv => trimSpaces kv.1) = c.map (·.1) :=
      List.map_congr_left fun kv hkv => trimSpaces_bits _ (hb kv hkv)
    rw [Dict.foldl_set_fresh c (fun kv => trimSpaces kv.1) (·.2) []
      (by rw [h1]; simpa [Dict.WF] using hc.wf)]
    simp only [List.nil_append]
    conv_rhs => rw [← List.map_id c]
    apply List.map_congr_left
    intro kv hkv
    simp [trimSpaces_bits _ (hb kv hkv)]
  cases c with
  | nil => exact absurd rfl hc.nonempty
  | cons first rest =>
    have hn : (trimSpaces first.1).length = n := hc.len first (by simp)
    simp only [marginalCounts, hn, hS, if_true]
    exact congrArg some hfold

theorem proj_full (n : Nat) (full : Str) (hfl : full.length = n) :
    ((List.range n).filter fun q => charAt full q = some '1').length = full.count '1' := by
  have h := zip_count full.reverse full.reverse rfl
  have e2 : (full.reverse.zip full.reverse).count ('1', '1') = full.count '1' := by
    rw [← List.count_reverse (l := full)]
    generalize full.reverse = l
    induction l with
    | nil => rfl
    | cons a l ih =>
      rw [List.zip_cons_cons, List.count_cons, List.count_cons, ih]
      by_cases ha : a = '1' <;> simp [ha]
  rw [← e2, h]
  subst hfl
  congr 1
  simp only [List.length_reverse]
  apply List.filter_congr
  intro q hq
  have hi : q < full.length := by simpa using hq
  rw [charAt_eq_reverse full q hi]
  simp

end Verif.Counts
