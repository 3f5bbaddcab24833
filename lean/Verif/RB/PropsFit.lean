import Verif.RB.Fit
import Verif.RB.LemmasNames
import Verif.Counts.Weighted
import Verif.Py.SplitLemmas
import Mathlib.Analysis.SpecialFunctions.Sqrt
set_option linter.unusedSimpArgs false
set_option linter.unusedVariables false
/-
C46: RBFitter data.
-/
namespace Verif.RB.Fit
open Verif Verif.Counts

/-! ### Specification -/

/-- All (outcome, count) pairs recorded for a circuit name in a list of results. -/
def records (rs : List Result) (name : Str) : List (Str × ℤ) := rs.flatMap fun r => (r.filter fun e => e.1 = name).flatMap (·.2)

/-- Shots recorded for a circuit name. -/
def shots (rs : List Result) (name : Str) : ℤ := ((records rs name).map (·.2)).sum

/-- Shots with zeros in the classical bits `lo, …, lo+len-1`. -/
def zeroShots (rs : List Result) (name : Str) (lo len : ℕ) : ℤ := (((records rs name).filter fun kv => zeroOn lo len kv.1).map (·.2)).sum

/-- The success probability of a circuit on the bits of a pattern. -/
def rate (rs : List Result) (name : Str) (lo len : ℕ) : ℚ := (zeroShots rs name lo len : ℚ) / shots rs name

/-- Number of classical bits before pattern `i`. -/
def offset (pattern : List (List ℕ)) (i : ℕ) : ℕ := ((pattern.take i).map List.length).sum

/-- Results of RB circuits on `n` classical bits, all of the type `t`: distinct names per result, non-negative counts. -/
structure GoodResult (t : Str) (n : ℕ) (r : Result) : Prop where
  names : (r.map (·.1)).Nodup
  form : ∀ e ∈ r, ∃ (k : ℕ) (s : ℤ), e.1 = t ++ suffix k s
  counts : ∀ e ∈ r, OneReg n e.2 ∧ ∀ kv ∈ e.2, 0 ≤ kv.2

/-! ### Names -/

theorem beforeSub_eq (t rest : Str) (h : ¬ "_length".toList <:+: t) : beforeSub "_length".toList (t ++ ("_length".toList ++ rest)) = t := by
  induction t with
  | nil =>
    show beforeSub "_length".toList ('_' :: ("length".toList ++ rest)) = []
    unfold beforeSub
    rw [if_pos]
    rw [List.isPrefixOf_iff_prefix]
    exact ⟨rest, rfl⟩
  | cons a t ih =>
    have ht : ¬ "_length".toList <:+: t := fun hi => h (hi.trans (List.suffix_cons a t).isInfix)
    rw [List.cons_append]
    unfold beforeSub
    rw [if_neg, ih ht]
    rw [List.isPrefixOf_iff_prefix]
    intro hp
    obtain ⟨u, hu⟩ := hp
    rw [← List.cons_append] at hu
    by_cases hl : 7 ≤ (a :: t).length
    · refine h ?_
      have : "_length".toList <+: (a :: t) := by
        rw [List.prefix_iff_eq_take]
        have := congrArg (List.take 7) hu
        rw [List.take_append_of_le_length (by decide), List.take_append_of_le_length hl] at this
        exact this
      exact this.isInfix
    · have hlt : (a :: t).length < 7 := by omega
      have h1 : ("_length".toList ++ u)[(a :: t).length]? = some '_' := by
        rw [hu, List.getElem?_append_right (le_refl _)]
        simp
      rw [List.getElem?_append_left (by simpa using hlt)] at h1
      have hpos : 0 < (a :: t).length := by simp
      generalize (a :: t).length = m at *
      interval_cases m <;> simp at h1

theorem nameType_eq (t : Str) (ht : ¬ "_length".toList <:+: t) (e : Str × Counts) (r : Result) (rs : List Result) (seeds : List ℤ)
    (k : ℕ) (s : ℤ) (he : e.1 = t ++ suffix k s) : nameType ⟨seeds, (e :: r) :: rs⟩ = some t := by
  unfold nameType
  simp only []
  rw [he]
  unfold suffix
  rw [show "_length_".toList = "_length".toList ++ "_".toList by decide]
  simp only [List.append_assoc]
  rw [beforeSub_eq t _ ht]

theorem splitChar_last (c : Char) (p s : Str) (hs : c ∉ s) : (splitChar c (p ++ c :: s)).getLast? = some s := by
  have h0 : ∀ s : Str, c ∉ s → splitChar c s = [s] := by
    intro s
    induction s with
    | nil => intro _; rfl
    | cons a s ih =>
      intro h
      unfold splitChar
      rw [if_neg (fun e => h (by simp [e])), ih fun hm => h (by simp [hm])]
  have hne : ∀ s : Str, splitChar c s ≠ [] := by
    intro s
    cases s with
    | nil => simp [splitChar]
    | cons a s => unfold splitChar; split_ifs <;> [simp; (split <;> simp)]
  induction p with
  | nil =>
    rw [List.nil_append]
    unfold splitChar
    rw [if_pos rfl, h0 s hs]; rfl
  | cons a p ih =>
    rw [List.cons_append]
    unfold splitChar
    split_ifs with h
    · rw [List.getLast?_cons, ih]; rfl
    · split
      · rename_i heq; exact absurd heq (hne _)
      · rename_i q qs heq
        rw [heq] at ih
        cases qs with
        | nil =>
          exfalso
          have hlen : ∀ p : Str, 2 ≤ (splitChar c (p ++ c :: s)).length := by
            intro p
            induction p with
            | nil =>
              rw [List.nil_append]
              unfold splitChar
              rw [if_pos rfl, h0 s hs]; simp
            | cons b p ihp =>
              rw [List.cons_append]
              unfold splitChar
              split_ifs
              · simp; omega
              · split
                · rename_i h'; exact absurd h' (hne _)
                · rename_i h'; rw [h'] at ihp; simpa using ihp
          have := hlen p
          rw [heq] at this
          simp at this
        | cons q' qs => rw [List.getLast?_cons_cons] at ih ⊢; exact ih

theorem seedOf_eq (t : Str) (k : ℕ) (s : ℤ) : seedOf (t ++ suffix k s) = some s := by
  unfold seedOf suffix
  have e : t ++ ("_length_".toList ++ fmtD k ++ "_seed_".toList ++ fmtD s) = (t ++ "_length_".toList ++ fmtD k ++ "_seed".toList) ++ '_' :: fmtD s := by
    simp [List.append_assoc]
  rw [e, splitChar_last '_' _ _ (underscore_fmtD s)]
  exact parseInt_fmtD s

/-! ### add_data -/

/-- C46: several calls of add_data are one call with all results. -/
theorem C46_batching (st : State) (a b : List Result) : addData st (a ++ b) = (addData st a).bind fun st' => addData st' b := by
  unfold addData
  rw [List.foldlM_append]; rfl

theorem addSeed_fold (r : Result) (seeds : List ℤ) (h : ∀ e ∈ r, ∃ (t : Str) (k : ℕ) (s : ℤ), e.1 = t ++ suffix k s) (hn : seeds.Nodup) :
    ∃ seeds', r.foldlM addSeed seeds = some seeds' ∧ seeds'.Nodup ∧ (∃ u, seeds' = seeds ++ u) ∧
      ∀ s, s ∈ seeds' ↔ s ∈ seeds ∨ ∃ e ∈ r, ∃ (t : Str) (k : ℕ), e.1 = t ++ suffix k s := by
  induction r generalizing seeds with
  | nil => exact ⟨seeds, rfl, hn, ⟨[], by simp⟩, by simp⟩
  | cons e r ih =>
    obtain ⟨t, k, s, he⟩ := h e (by simp)
    have hstep : addSeed seeds e = some (if s ∈ seeds then seeds else seeds ++ [s]) := by
      unfold addSeed
      rw [he, seedOf_eq]; rfl
    have hn' : (if s ∈ seeds then seeds else seeds ++ [s]).Nodup := by
      split_ifs with hs
      · exact hn
      · rw [List.nodup_append]
        exact ⟨hn, by simp, by simp; rintro a ha rfl; exact hs ha⟩
    have hm' : ∀ x, x ∈ (if s ∈ seeds then seeds else seeds ++ [s]) ↔ x ∈ seeds ∨ x = s := by
      intro x
      split_ifs with hs
      · constructor
        · exact Or.inl
        · rintro (h | rfl) <;> assumption
      · simp
    obtain ⟨seeds', h1, h2, ⟨u, hu⟩, h3⟩ := ih _ (fun x hx => h x (by simp [hx])) hn'
    refine ⟨seeds', ?_, h2, ?_, ?_⟩
    · rw [List.foldlM_cons, hstep]; exact h1
    · rw [hu]
      split_ifs
      · exact ⟨u, rfl⟩
      · exact ⟨[s] ++ u, by simp⟩
    · intro x
      rw [h3, hm']
      constructor
      · rintro ((h | rfl) | ⟨e', he', h⟩)
        · exact Or.inl h
        · exact Or.inr ⟨e, by simp, t, k, he⟩
        · exact Or.inr ⟨e', by simp [he'], h⟩
      · rintro (h | ⟨e', he', t', k', hk⟩)
        · exact Or.inl (Or.inl h)
        · rcases List.mem_cons.1 he' with rfl | he'
          · rw [he] at hk
            exact Or.inl (Or.inr (suffix_inj hk).2.2.symm)
          · exact Or.inr ⟨e', he', t', k', hk⟩

/-- C46: add_data records every result and every seed, each seed once. -/
theorem C46_add (t : Str) (n : ℕ) (st : State) (hst : st.nseeds.Nodup) (rs : List Result) (h : ∀ r ∈ rs, GoodResult t n r) :
    ∃ st', addData st rs = some st' ∧ st'.results = st.results ++ rs ∧ st'.nseeds.Nodup ∧ (∃ u, st'.nseeds = st.nseeds ++ u) ∧
      ∀ s, s ∈ st'.nseeds ↔ s ∈ st.nseeds ∨ ∃ r ∈ rs, ∃ e ∈ r, ∃ k : ℕ, e.1 = t ++ suffix k s := by
  induction rs generalizing st with
  | nil => exact ⟨st, rfl, by simp, hst, ⟨[], by simp⟩, by simp⟩
  | cons r rs ih =>
    obtain ⟨seeds', h1, h2, ⟨u, hu⟩, h3⟩ := addSeed_fold r st.nseeds (fun e he => ⟨t, (h r (by simp)).form e he⟩) hst
    obtain ⟨st', g1, g2, g3, ⟨u', hu'⟩, g4⟩ := ih ⟨seeds', st.results ++ [r]⟩ h2 (fun x hx => h x (by simp [hx]))
    refine ⟨st', ?_, by rw [g2]; simp, g3, ⟨u ++ u', by rw [hu']; simp [hu]⟩, ?_⟩
    · unfold addData at g1 ⊢
      rw [List.foldlM_cons]
      unfold addResult
      rw [h1]
      exact g1
    · intro s
      rw [g4]
      simp only [h3]
      constructor
      · rintro ((h' | ⟨e, he, t', k, hk⟩) | ⟨r', hr', h'⟩)
        · exact Or.inl h'
        · obtain ⟨k', s', hk'⟩ := (h r (by simp)).form e he
          have := suffix_inj (hk'.symm.trans hk)
          exact Or.inr ⟨r, by simp, e, he, k', by rw [hk', this.2.2]⟩
        · exact Or.inr ⟨r', by simp [hr'], h'⟩
      · rintro (h' | ⟨r', hr', e, he, k, hk⟩)
        · exact Or.inl (Or.inl h')
        · rcases List.mem_cons.1 hr' with rfl | hr'
          · exact Or.inl (Or.inr ⟨e, he, t, k, hk⟩)
          · exact Or.inr ⟨r', hr', e, he, k, hk⟩

/-! ### calc_data -/

theorem filter_find (r : Result) (h : (r.map (·.1)).Nodup) (name : Str) :
    (r.filter fun e => e.1 = name).flatMap (·.2) = (getCounts r name).getD [] := by
  unfold getCounts
  induction r with
  | nil => rfl
  | cons e r ih =>
    simp only [List.map_cons, List.nodup_cons] at h
    rw [List.filter_cons, List.find?_cons]
    by_cases he : e.1 = name
    · have hnil : (r.filter fun e => e.1 = name) = [] := by
        rw [List.filter_eq_nil_iff]
        intro x hx
        simp only [decide_eq_true_eq]
        rintro rfl
        exact h.1 (List.mem_map.2 ⟨x, hx, he.symm⟩)
      simp [he, hnil]
    · simp only [he, decide_false, Bool.false_eq_true, if_false]
      exact ih h.2

theorem records_sum (rs : List Result) (h : ∀ r ∈ rs, (r.map (·.1)).Nodup) (name : Str) (w : Str → ℤ) :
    ((rs.filterMap fun r => getCounts r name).map (wsum w)).sum = wsum w (records rs name) := by
  induction rs with
  | nil => rfl
  | cons r rs ih =>
    have h1 : records (r :: rs) name = (getCounts r name).getD [] ++ records rs name := by
      unfold records
      rw [List.flatMap_cons, filter_find r (h r (by simp))]
    have h2 : wsum w ((getCounts r name).getD [] ++ records rs name) = wsum w ((getCounts r name).getD []) + wsum w (records rs name) := by
      simp [wsum]
    rw [h1, h2, ← ih fun x hx => h x (by simp [hx]), List.filterMap_cons]
    cases getCounts r name with
    | none => simp [wsum]
    | some c => simp

theorem zeroShots_eq (rs : List Result) (name : Str) (lo len : ℕ) :
    zeroShots rs name lo len = wsum (fun s => if zeroOn lo len s then 1 else 0) (records rs name) := by
  unfold zeroShots
  generalize records rs name = l
  induction l with
  | nil => rfl
  | cons kv l ih =>
    rw [List.filter_cons, wsum_cons, ← ih]
    by_cases h : zeroOn lo len kv.1 <;> simp [h]

theorem shots_eq (rs : List Result) (name : Str) : shots rs name = wsum (fun _ => 1) (records rs name) := by
  unfold shots wsum
  simp

theorem pooled_spec {t : Str} {n : ℕ} (st : State) (h : ∀ r ∈ st.results, GoodResult t n r) (name : Str) (hex : ∃ r ∈ st.results, ∃ e ∈ r, e.1 = name) :
    OneReg n (pooled st name) ∧ ∀ w, wsum w (pooled st name) = wsum w (records st.results name) := by
  refine ⟨?_, fun w => ?_⟩
  · refine oneReg_build _ ?_ ?_
    · obtain ⟨r, hr, e, he, hn⟩ := hex
      intro hnil
      have := List.filterMap_eq_nil_iff.1 hnil r hr
      unfold getCounts at this
      rw [Option.map_eq_none_iff, List.find?_eq_none] at this
      simpa [hn] using this e he
    · intro c hc
      obtain ⟨r, hr, hc⟩ := List.mem_filterMap.1 hc
      unfold getCounts at hc
      obtain ⟨e, he, rfl⟩ := Option.map_eq_some_iff.1 hc
      exact ((h r hr).counts e (List.mem_of_find?_eq_some he)).1
  · unfold pooled
    rw [wsum_build, records_sum st.results (fun r hr => (h r hr).names) name w]

theorem get?_foldl_set {υ : Type} (l : List Str) (f : Str → υ) (d : Dict Str υ) (k : Str) :
    (l.foldl (fun d name => d.set name (f name)) d).get? k = if k ∈ l then some (f k) else d.get? k := by
  induction l generalizing d with
  | nil => simp
  | cons x l ih =>
    rw [List.foldl_cons, ih, Dict.get?_set]
    by_cases h1 : k ∈ l <;> by_cases h2 : x = k <;> simp [h1, h2, eq_comm (a := k)]

theorem circCounts_get? (st : State) (t : Str) (nlen : ℕ) (k : ℕ) (hk : k < nlen) (s : ℤ) (hs : s ∈ st.nseeds) :
    (circCounts st t nlen).get? (t ++ suffix k s) = some (pooled st (t ++ suffix k s)) := by
  unfold circCounts
  rw [get?_foldl_set, if_pos]
  exact List.mem_flatMap.2 ⟨s, hs, List.mem_map.2 ⟨k, List.mem_range.2 hk, rfl⟩⟩

theorem rawEntry_eq {t : Str} {n : ℕ} (st : State) (h : ∀ r ∈ st.results, GoodResult t n r) (nlen k : ℕ) (hk : k < nlen) (s : ℤ) (hs : s ∈ st.nseeds)
    (hex : 0 < shots st.results (t ++ suffix k s)) (lo len : ℕ) (hlen : 0 < len) (hn : lo + len ≤ n) :
    rawEntry (circCounts st t nlen) lo len (t ++ suffix k s) = some (rate st.results (t ++ suffix k s) lo len) := by
  have hex' : ∃ r ∈ st.results, ∃ e ∈ r, e.1 = t ++ suffix k s := by
    by_contra hno
    push Not at hno
    have : records st.results (t ++ suffix k s) = [] := by
      unfold records
      rw [List.flatMap_eq_nil_iff]
      intro r hr
      have : (r.filter fun e => e.1 = t ++ suffix k s) = [] := by
        rw [List.filter_eq_nil_iff]
        intro e he
        simpa using hno r hr e he
      rw [this]; rfl
    simp [shots, this] at hex
  obtain ⟨h1, h2⟩ := pooled_spec st h _ hex'
  obtain ⟨m, hm, hm0⟩ := marginal_zero n _ h1 lo len hlen hn
  unfold rawEntry
  simp only [Option.bind_eq_bind]
  rw [circCounts_get? st t nlen k hk s hs, Option.bind_some, hm, Option.bind_some]
  have hsh : ((pooled st (t ++ suffix k s)).map (·.2)).sum = shots st.results (t ++ suffix k s) := by
    rw [shots_eq, ← h2]
    simp [wsum]
  rw [hsh, if_neg hex.ne', hm0, h2, ← zeroShots_eq]
  rfl

theorem rawPatterns_spec {t : Str} {n : ℕ} (st : State) (h : ∀ r ∈ st.results, GoodResult t n r) (nlen : ℕ)
    (hex : ∀ s ∈ st.nseeds, ∀ k < nlen, 0 < shots st.results (t ++ suffix k s)) (pattern : List (List ℕ)) (lengths : List (List ℤ)) (lo : ℕ)
    (hpl : pattern.length ≤ lengths.length) (hp : ∀ p ∈ pattern, p ≠ []) (hl : ∀ l ∈ lengths, l.length = nlen) (hn : lo + (pattern.map List.length).sum ≤ n) :
    rawPatterns (circCounts st t nlen) t st.nseeds pattern lengths lo = some ((List.range pattern.length).map fun i => st.nseeds.map fun s =>
      (List.range nlen).map fun k => rate st.results (t ++ suffix k s) (lo + offset pattern i) (pattern.getD i []).length) := by
  induction pattern generalizing lengths lo with
  | nil => simp [rawPatterns]
  | cons p ps ih =>
    cases lengths with
    | nil => simp at hpl
    | cons l ls =>
      simp only [List.map_cons, List.sum_cons] at hn
      have hlen := hl l (by simp)
      have h1 : rawPattern (circCounts st t nlen) t st.nseeds lo p.length l.length =
          some (st.nseeds.map fun s => (List.range nlen).map fun k => rate st.results (t ++ suffix k s) lo p.length) := by
        unfold rawPattern
        rw [mapM_eq_some]
        intro s hs
        rw [hlen, mapM_eq_some]
        intro k hk
        have hk := List.mem_range.1 hk
        exact rawEntry_eq st h nlen k hk s hs (hex s hs k hk) lo p.length (List.length_pos_iff.2 (hp p (by simp))) (by omega)
      unfold rawPatterns
      simp only [Option.bind_eq_bind]
      rw [h1, Option.bind_some, ih ls (lo + p.length) (by simpa using hpl) (fun q hq => hp q (by simp [hq])) (fun q hq => hl q (by simp [hq])) (by omega), Option.bind_some]
      congr 1
      rw [List.length_cons, List.range_succ_eq_map, List.map_cons, List.map_map]
      refine congrArg₂ List.cons ?_ ?_
      · simp [offset]
      · refine List.map_congr_left ?_
        intro i hi
        simp only [Function.comp, List.getD_cons_succ]
        have : lo + offset (p :: ps) (i + 1) = lo + p.length + offset ps i := by
          simp [offset]; omega
        rw [this]

/-- C46: after any history of `add_data` (one call by `C46_batching`), the raw data lists, for every pattern, every seed found in a
circuit name and every length, the share of recorded shots with zeros in all bits of the pattern. -/
theorem C46_value (t : Str) (ht : ¬ "_length".toList <:+: t) (n : ℕ) (rs : List Result) (hne : ∃ e r rs', rs = (e :: r) :: rs') (h : ∀ r ∈ rs, GoodResult t n r)
    (pattern : List (List ℕ)) (hp : ∀ p ∈ pattern, p ≠ []) (hn : (pattern.map List.length).sum ≤ n)
    (lengths : List (List ℤ)) (nlen : ℕ) (hl : ∀ l ∈ lengths, l.length = nlen) (hpl : pattern.length ≤ lengths.length) (hl0 : lengths ≠ [])
    (st : State) (hst : addData State.init rs = some st) (hex : ∀ s ∈ st.nseeds, ∀ k < nlen, 0 < shots rs (t ++ suffix k s)) :
    calcData st lengths pattern = some ((List.range pattern.length).map fun i => st.nseeds.map fun s =>
      (List.range nlen).map fun k => rate rs (t ++ suffix k s) (offset pattern i) (pattern.getD i []).length) := by
  obtain ⟨st', g1, g2, -⟩ := C46_add t n State.init (by simp [State.init]) rs h
  obtain rfl : st' = st := by rw [g1] at hst; exact Option.some.inj hst
  have hres : st'.results = rs := by rw [g2]; rfl
  obtain ⟨e, r, rs', he⟩ := hne
  obtain ⟨k0, s0, hks⟩ := (h (e :: r) (by rw [he]; simp)).form e (by simp)
  have hty : nameType st' = some t := by
    obtain ⟨seeds, results⟩ := st'
    simp only at hres
    subst hres
    rw [he]
    exact nameType_eq t ht e r rs' seeds k0 s0 hks
  unfold calcData
  simp only [Option.bind_eq_bind]
  rw [hty, Option.bind_some]
  cases lengths with
  | nil => exact absurd rfl hl0
  | cons l ls =>
    simp only [List.head?_cons, Option.bind_some]
    rw [hl l (by simp)]
    have := rawPatterns_spec (t := t) (n := n) st' (by rw [hres]; exact h) nlen (by rw [hres]; exact hex) pattern (l :: ls) 0 hpl hp hl (by omega)
    rw [this, hres]
    simp

/-- C46: the success probabilities lie in [0,1]. -/
theorem C46_range (t : Str) (n : ℕ) (rs : List Result) (h : ∀ r ∈ rs, GoodResult t n r) (name : Str) (lo len : ℕ) :
    0 ≤ rate rs name lo len ∧ rate rs name lo len ≤ 1 := by
  have hnn : ∀ kv ∈ records rs name, 0 ≤ kv.2 := by
    intro kv hkv
    obtain ⟨r, hr, hkv⟩ := List.mem_flatMap.1 hkv
    obtain ⟨e, he, hkv⟩ := List.mem_flatMap.1 hkv
    exact ((h r hr).counts e (List.mem_filter.1 he).1).2 kv hkv
  have key : ∀ l : List (Str × ℤ), (∀ kv ∈ l, 0 ≤ kv.2) →
      0 ≤ ((l.filter fun kv => zeroOn lo len kv.1).map (·.2)).sum ∧ ((l.filter fun kv => zeroOn lo len kv.1).map (·.2)).sum ≤ (l.map (·.2)).sum := by
    intro l hl
    induction l with
    | nil => simp
    | cons kv l ih =>
      obtain ⟨i1, i2⟩ := ih fun x hx => hl x (by simp [hx])
      have h0 := hl kv (by simp)
      rw [List.filter_cons]
      split_ifs <;> simp <;> constructor <;> omega
  obtain ⟨k1, k2⟩ := key _ hnn
  unfold rate
  have a1 : (0 : ℚ) ≤ (zeroShots rs name lo len : ℤ) := by exact_mod_cast k1
  have a2 : ((zeroShots rs name lo len : ℤ) : ℚ) ≤ (shots rs name : ℤ) := by exact_mod_cast k2
  refine ⟨div_nonneg a1 (a1.trans a2), div_le_one_of_le₀ a2 (a1.trans a2)⟩

/-- C46: the probability of a circuit does not depend on the order of the results. -/
theorem C46_order (rs rs' : List Result) (hp : rs.Perm rs') (name : Str) (lo len : ℕ) : rate rs name lo len = rate rs' name lo len := by
  have hr : (records rs name).Perm (records rs' name) := hp.flatMap_right _
  unfold rate zeroShots shots
  rw [((hr.filter _).map _).sum_eq, (hr.map _).sum_eq]

theorem rate_twice (rs : List Result) (name : Str) (lo len : ℕ) : rate (rs ++ rs) name lo len = rate rs name lo len := by
  have hr : records (rs ++ rs) name = records rs name ++ records rs name := by simp [records]
  unfold rate zeroShots shots
  rw [hr]
  simp only [List.filter_append, List.map_append, List.sum_append]
  rw [← two_mul, ← two_mul]
  push_cast
  rw [mul_div_mul_left _ _ two_ne_zero]

/-- C46: adding the same results a second time (as the constructors of the interleaved, purity and CNOT-dihedral fitters do)
changes neither the seeds nor the raw data. -/
theorem C46_twice (t : Str) (ht : ¬ "_length".toList <:+: t) (n : ℕ) (rs : List Result) (hne : ∃ e r rs', rs = (e :: r) :: rs') (h : ∀ r ∈ rs, GoodResult t n r)
    (pattern : List (List ℕ)) (hp : ∀ p ∈ pattern, p ≠ []) (hn : (pattern.map List.length).sum ≤ n)
    (lengths : List (List ℤ)) (nlen : ℕ) (hl : ∀ l ∈ lengths, l.length = nlen) (hpl : pattern.length ≤ lengths.length) (hl0 : lengths ≠ [])
    (st : State) (hst : addData State.init rs = some st) (hex : ∀ s ∈ st.nseeds, ∀ k < nlen, 0 < shots rs (t ++ suffix k s)) :
    ∃ st', addData st rs = some st' ∧ st'.nseeds = st.nseeds ∧ calcData st' lengths pattern = calcData st lengths pattern := by
  obtain ⟨st0, g1, g2, g3, -, g4⟩ := C46_add t n State.init (by simp [State.init]) rs h
  obtain rfl : st0 = st := by rw [g1] at hst; exact Option.some.inj hst
  obtain ⟨st', k1, k2, k3, ⟨u, hu⟩, k4⟩ := C46_add t n st0 g3 rs h
  have hsame : st'.nseeds = st0.nseeds := by
    cases u with
    | nil => rw [hu]; simp
    | cons s u =>
      exfalso
      have hs : s ∈ st'.nseeds := by rw [hu]; simp
      have hs0 : s ∈ st0.nseeds := by
        rcases (k4 s).1 hs with h' | h'
        · exact h'
        · exact (g4 s).2 (Or.inr h')
      rw [hu, List.nodup_append] at k3
      exact k3.2.2 s hs0 s (by simp) rfl
  refine ⟨st', k1, hsame, ?_⟩
  rw [C46_value t ht n rs hne h pattern hp hn lengths nlen hl hpl hl0 st0 hst hex]
  have htot : ∀ name, shots (rs ++ rs) name = 2 * shots rs name := by
    intro name
    have hr : records (rs ++ rs) name = records rs name ++ records rs name := by simp [records]
    unfold shots
    rw [hr, List.map_append, List.sum_append, two_mul]
  have := C46_value t ht n (rs ++ rs) (by obtain ⟨e, r, rs', he⟩ := hne; exact ⟨e, r, rs' ++ rs, by rw [he]; simp⟩)
    (by intro r hr; rcases List.mem_append.1 hr with hr | hr <;> exact h r hr) pattern hp hn lengths nlen hl hpl hl0 st'
    (by rw [C46_batching, hst]; exact k1) (by rw [hsame]; intro s hs k hk; rw [htot]; have := hex s hs k hk; omega)
  rw [this, hsame]
  simp only [rate_twice]

/-! ### Non-vacuity: two seeds, two lengths, patterns [[0],[1,2]], the shots of seed 1 split over two results -/

def exR1 : Result := [("rb_length_0_seed_0".toList, [("000".toList, 8), ("001".toList, 2)]), ("rb_length_1_seed_0".toList, [("000".toList, 5), ("110".toList, 5)]),
  ("rb_length_0_seed_1".toList, [("000".toList, 10)])]
def exR2 : Result := [("rb_length_0_seed_1".toList, [("010".toList, 10)]), ("rb_length_1_seed_1".toList, [("101".toList, 1), ("000".toList, 3)])]

theorem exGood : ∀ r ∈ [exR1, exR2], GoodResult "rb".toList 3 r := by
  intro r hr
  simp only [List.mem_cons, List.not_mem_nil, or_false] at hr
  rcases hr with rfl | rfl
  · refine ⟨by decide, ?_, by decide⟩
    simp only [exR1, List.forall_mem_cons]
    exact ⟨⟨0, 0, by decide⟩, ⟨1, 0, by decide⟩, ⟨0, 1, by decide⟩, by simp⟩
  · refine ⟨by decide, ?_, by decide⟩
    simp only [exR2, List.forall_mem_cons]
    exact ⟨⟨0, 1, by decide⟩, ⟨1, 1, by decide⟩, by simp⟩

example : calcData ⟨[0, 1], [exR1, exR2]⟩ [[1, 5], [1, 5]] [[4], [2, 3]] = some [[[4/5, 1], [1, 3/4]], [[1, 1/2], [1/2, 3/4]]] := by
  have := C46_value "rb".toList (by decide) 3 [exR1, exR2] ⟨_, _, _, rfl⟩ exGood [[4], [2, 3]] (by decide) (by decide) [[1, 5], [1, 5]] 2 (by decide) (by decide) (by decide)
    ⟨[0, 1], [exR1, exR2]⟩ (by decide +kernel) (by decide +kernel)
  rw [this]
  decide +kernel

end Verif.RB.Fit
