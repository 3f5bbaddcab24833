import Verif.QV.Props
import Mathlib.Tactic.IntervalCases
set_option linter.unusedSimpArgs false
set_option linter.unusedVariables false
/-
C58, C59: which calls are accepted, what happens with incomplete data, and concrete histories.
-/
namespace Verif.QV
open Verif Verif.Counts

theorem idealProb_isSome (d : ℕ) (amps : List ℂ) (h : 2 ^ d ≤ amps.length) : ∃ dist, idealProb d amps = some dist := by
  refine ⟨(List.range (2 ^ d)).map (fun b => (zfill d (binDigits b), Complex.normSq (amps.getD b 0))), ?_⟩
  unfold idealProb
  rw [mapM_some_iff, List.map_map]
  apply List.map_congr_left
  intro b hb
  have hb' : b < amps.length := lt_of_lt_of_le (List.mem_range.1 hb) h
  simp only [List.getElem?_eq_getElem hb', Function.comp_def, List.getD_eq_getElem _ _ hb']

theorem addStatevector_accepts (r : IdealRes) (s : St) (e : Str × List ℂ) (d : ℕ) (amps : List ℂ) (h1 : depthOfName e.1 = some d)
    (h2 : r.get? e.1 = some amps) (h3 : 2 ^ d ≤ amps.length) (h4 : s.heavyOutputs.get? e.1 = none) :
    ∃ s', addStatevector r s e = some s' := by
  obtain ⟨dist, hd⟩ := idealProb_isSome d amps h3
  unfold addStatevector
  simp only [h1, h2, hd, Option.bind_eq_bind, Option.bind_some, Dict.has, h4, Option.isSome_none, Bool.false_eq_true, if_false]
  exact ⟨_, rfl⟩

theorem inner_accepts (r : IdealRes) (l : List (Str × List ℂ)) (s : St) (hnd : (l.map (·.1)).Nodup)
    (hnew : ∀ e ∈ l, s.heavyOutputs.get? e.1 = none)
    (hok : ∀ e ∈ l, ∃ d amps, depthOfName e.1 = some d ∧ r.get? e.1 = some amps ∧ 2 ^ d ≤ amps.length) :
    ∃ s', l.foldlM (addStatevector r) s = some s' := by
  induction l generalizing s with
  | nil => exact ⟨s, rfl⟩
  | cons e l ih =>
    obtain ⟨d, amps, h1, h2, h3⟩ := hok e (by simp)
    obtain ⟨s1, hs1⟩ := addStatevector_accepts r s e d amps h1 h2 h3 (hnew e (by simp))
    rw [List.map_cons, List.nodup_cons] at hnd
    rw [List.foldlM_cons, hs1]
    apply ih s1 hnd.2
    · intro x hx
      have hne : x.1 ∉ [e.1] := by
        simp only [List.mem_singleton]
        rintro he
        exact hnd.1 (he ▸ List.mem_map_of_mem hx)
      rw [((addStatevector_ext r s s1 e hs1).only x.1 (by simpa using hne)).1]
      exact hnew x (by simp [hx])
    · intro x hx; exact hok x (by simp [hx])

/-- Ideal results are accepted when no circuit name is repeated or already known, the names carry a width, and the
state vectors are long enough. -/
theorem C58_ideal_accepted (s : St) (l : List IdealRes) (hnd : ((pairsOf l).map (·.2)).Nodup)
    (hnew : ∀ r ∈ l, ∀ e ∈ r, s.heavyOutputs.get? e.1 = none)
    (hok : ∀ r ∈ l, ∀ e ∈ r, ∃ d amps, depthOfName e.1 = some d ∧ r.get? e.1 = some amps ∧ 2 ^ d ≤ amps.length) :
    ∃ s', addStatevectors s (some l) = some s' := by
  unfold addStatevectors
  simp only
  induction l generalizing s with
  | nil => exact ⟨s, rfl⟩
  | cons r l ih =>
    have hp : pairsOf (r :: l) = r.map (fun e => (r, e.1)) ++ pairsOf l := by simp [pairsOf]
    rw [hp, List.map_append, List.map_map, List.nodup_append] at hnd
    obtain ⟨n1, n2, n3⟩ := hnd
    obtain ⟨s1, hs1⟩ := inner_accepts r r s n1 (hnew r (by simp)) (hok r (by simp))
    rw [List.foldlM_cons, hs1]
    apply ih s1 n2
    · intro x hx e he
      have hne : e.1 ∉ (r.map fun e => (r, e.1)).map (·.2) := by
        intro hm
        refine n3 e.1 ?_ e.1 ?_ rfl
        · simpa using hm
        · exact List.mem_map.2 ⟨(x, e.1), List.mem_flatMap.2 ⟨x, hx, List.mem_map.2 ⟨e, he, rfl⟩⟩, rfl⟩
      rw [((foldlM_ext r r s s1 hs1).only e.1 hne).1]
      exact hnew x (by simp [hx]) e he
    · intro x hx; exact hok x (by simp [hx])

/-- An ideal result for a circuit that is already known is refused. -/
theorem C58_ideal_twice (s : St) (r : IdealRes) (rest : List IdealRes) (e : Str × List ℂ) (tail : List (Str × List ℂ)) (hr : r = e :: tail)
    (hk : ∃ v, s.heavyOutputs.get? e.1 = some v) : addStatevectors s (some (r :: rest)) = none := by
  obtain ⟨v, hv⟩ := hk
  have : addStatevector r s e = none := by
    unfold addStatevector
    cases hd : depthOfName e.1 with
    | none => simp [hd]
    | some d => simp [hd, Dict.has, hv]
  unfold addStatevectors
  simp only [List.foldlM_cons]
  have e2 : List.foldlM (addStatevector r) s r = none := by
    conv_lhs => rw [show List.foldlM (addStatevector r) s r = List.foldlM (addStatevector r) s (e :: tail) by rw [← hr]]
    rw [List.foldlM_cons, this]; rfl
  rw [e2]; rfl

theorem addResult_accepts (s : St) (r : Res) (h : ∀ e ∈ r, ∃ t, trialOfName e.1 = some t ∧ s.probIdeal.has e.1 = true) :
    ∃ s', addResult s r = some s' := by
  unfold addResult
  have key : ∀ (l : List (Str × Counts)) (s0 : St), (∀ e ∈ l, ∃ t, trialOfName e.1 = some t ∧ s0.probIdeal.has e.1 = true) →
      ∃ s', l.foldlM (fun (st : St) e => do
        let t ← trialOfName e.1
        let st := if t + 1 > st.ntrials then { st with ntrials := t + 1 } else st
        if st.probIdeal.has e.1 then some st else none) s0 = some s' := by
    intro l
    induction l with
    | nil => intro s0 _; exact ⟨s0, rfl⟩
    | cons e l ih =>
      intro s0 h0
      obtain ⟨t, ht, hp⟩ := h0 e (by simp)
      rw [List.foldlM_cons]
      simp only [ht, Option.bind_eq_bind, Option.bind_some]
      by_cases hg : t + 1 > s0.ntrials
      · simp only [hg, if_true, hp, Option.bind_some]
        exact ih _ fun x hx => h0 x (by simp [hx])
      · simp only [hg, if_false, hp, if_true, Option.bind_some]
        exact ih _ fun x hx => h0 x (by simp [hx])
  exact key r _ h

theorem addResults_accepts (l : List Res) (s : St) (h : ∀ r ∈ l, ∀ e ∈ r, ∃ t, trialOfName e.1 = some t ∧ s.probIdeal.has e.1 = true) :
    ∃ s', l.foldlM addResult s = some s' := by
  induction l generalizing s with
  | nil => exact ⟨s, rfl⟩
  | cons r l ih =>
    obtain ⟨s1, hs1⟩ := addResult_accepts s r (h r (by simp))
    obtain ⟨N, e, -⟩ := addResult_spec s r s1 hs1
    rw [List.foldlM_cons, hs1]
    apply ih s1
    intro x hx y hy
    rw [e]
    exact h x (by simp [hx]) y hy

theorem calcNames_accepts (l : List Str) (s : St) (h : ∀ n ∈ l, (∃ v, s.heavyOutputs.get? n = some v) ∧ shotsIn s.results n ≠ 0) :
    ∃ s', l.foldlM calcName s = some s' := by
  induction l generalizing s with
  | nil => exact ⟨s, rfl⟩
  | cons n l ih =>
    obtain ⟨⟨v, hv⟩, hs⟩ := h n (by simp)
    have h1 : ∃ s1, calcName s n = some s1 := by
      unfold calcName
      rw [← pooled_shots] at hs
      simp only [hv, Option.bind_eq_bind, Option.bind_some]
      have hs' : ¬ (Dict.values (buildCountsDictFromList (List.filterMap (fun r => Dict.get? r n) s.results))).sum = 0 := hs
      rw [if_neg hs']
      exact ⟨_, rfl⟩
    obtain ⟨s1, hs1⟩ := h1
    obtain ⟨a, -⟩ := calcName_spec s s1 n hs1
    rw [List.foldlM_cons, hs1]
    apply ih s1
    intro x hx
    rw [a.2.2.2.1, a.2.2.1]
    exact h x (by simp [hx])

/-- Measured results are accepted when the ideal result of every circuit in them is loaded, and when, for a number `N`
larger than every trial number so far, every width has shots in every trial below `N`. -/
theorem C59_data_accepted (s : St) (l : List Res) (N : ℤ) (hN : s.ntrials ≤ N)
    (hg : ∀ r ∈ s.results ++ l, GoodRes r)
    (hnm : ∀ r ∈ l, ∀ e ∈ r, ∃ t : ℕ, trialOfName e.1 = some (t : ℤ) ∧ (t : ℤ) + 1 ≤ N ∧ s.probIdeal.has e.1 = true)
    (hfull : ∀ t d : ℕ, (t : ℤ) < N → d ∈ s.depths → s.heavyOutputs.has (circName d t) = true ∧ s.probIdeal.has (circName d t) = true ∧
      shotsIn (s.results ++ l) (circName d t) ≠ 0)
    (hpos : 0 < s.ntrials ∨ ∃ r ∈ l, r ≠ []) : ∃ s', addData s (some l) true = some s' := by
  obtain ⟨s1, hs1⟩ := addResults_accepts l s fun r hr e he => by
    obtain ⟨t, h1, h2, h3⟩ := hnm r hr e he
    exact ⟨t, h1, h3⟩
  obtain ⟨M, e1, a1, a2, a3, a4⟩ := addResults_spec l s s1 hs1
  have hMN : M ≤ N := by
    rcases a3 with a3 | ⟨r, hr, e, he, t, ht, a3⟩
    · omega
    · obtain ⟨t', b1, b2, b3⟩ := hnm r hr e he
      rw [ht] at b1; cases b1
      omega
  have hM0 : 0 < M := by
    rcases hpos with h | ⟨r, hr, hne⟩
    · omega
    · obtain ⟨e, he⟩ := List.exists_mem_of_ne_nil r hne
      obtain ⟨t, ht, hle⟩ := a2 r hr e he
      obtain ⟨t', b1, b2, b3⟩ := hnm r hr e he
      rw [ht] at b1; cases b1
      omega
  have h2 : ∃ s2, calcData s1 = some s2 := by
    apply calcNames_accepts
    intro n hn
    simp only [calcNames, List.mem_flatMap, List.mem_range, List.mem_map] at hn
    obtain ⟨t, ht, d, hd, rfl⟩ := hn
    rw [e1] at ht hd ⊢
    simp only at ht hd ⊢
    obtain ⟨f1, f2, f3⟩ := hfull t d (by omega) hd
    exact ⟨Option.isSome_iff_exists.1 f1, f3⟩
  obtain ⟨s2, hs2⟩ := h2
  obtain ⟨c1, c2⟩ := calcData_spec s1 s2 hs2
  obtain ⟨d1, d2, d3, d4, d5, d6⟩ := c1
  unfold addData
  simp only [hs1, hs2, Option.bind_eq_bind, Option.bind_some, if_true]
  have h3 : ∃ cols, s2.depths.mapM (statColumn s2) = some cols := by
    have : ∀ d ∈ s2.depths, ∃ y, statColumn s2 d = some y := by
      intro d hd
      have hdd : d ∈ s.depths := by rw [d1, e1] at hd; exact hd
      have hst : ∀ t : ℕ, t < s2.ntrials.toNat → Stored s2 (circName d t) := fun t ht => c2 t d (by rw [← d2]; omega) (by rw [← d1]; exact hd)
      have e0 : ∀ {β : Type} (D : Dict Str β), (∀ t : ℕ, t < s2.ntrials.toNat → ∃ v, D.get? (circName d t) = some v) →
          ∃ f : ℕ → Option β, ((List.range s2.ntrials.toNat).map (circName d)).mapM (fun n => D.get? n) = some ((List.range s2.ntrials.toNat).filterMap f) ∧
            ∀ t, f t = D.get? (circName d t) := by
        intro β D hD
        refine ⟨fun t => D.get? (circName d t), ?_, fun t => rfl⟩
        rw [mapM_some_iff, List.map_map]
        have : ∀ L : List ℕ, (∀ t ∈ L, t < s2.ntrials.toNat) → L.map ((fun n => D.get? n) ∘ circName d) = (L.filterMap fun t => D.get? (circName d t)).map some := by
          intro L hL
          induction L with
          | nil => rfl
          | cons t L ih =>
            obtain ⟨v, hv⟩ := hD t (hL t (by simp))
            simp [hv, ih fun x hx => hL x (by simp [hx])]
        exact this _ fun t ht => List.mem_range.1 ht
      have k1 := e0 s2.heavyCounts fun t ht => by obtain ⟨v, h⟩ := (hst t ht).ex; exact ⟨_, h.2.2.2.2.1⟩
      have k2 := e0 s2.circShots fun t ht => by obtain ⟨v, h⟩ := (hst t ht).ex; exact ⟨_, h.2.2.1⟩
      have k3 := e0 s2.probIdeal fun t ht => by
        rw [d6, e1]
        exact Option.isSome_iff_exists.1 (hfull t d (by rw [d2, e1] at ht; simp only at ht; omega) hdd).2.1
      obtain ⟨f1, g1, -⟩ := k1
      obtain ⟨f2, g2, j2⟩ := k2
      obtain ⟨f3, g3, -⟩ := k3
      unfold statColumn
      simp only [g1, g2, g3, Option.bind_eq_bind, Option.bind_some]
      have hn0 : 0 < s2.ntrials.toNat := by rw [d2, e1]; simp only; omega
      have hsum : ((List.range s2.ntrials.toNat).filterMap f2).sum ≠ 0 := by
        have hallpos : ∀ x ∈ (List.range s2.ntrials.toNat).filterMap f2, 0 < x := by
          intro x hx
          obtain ⟨t, ht, hx⟩ := List.mem_filterMap.1 hx
          rw [j2] at hx
          obtain ⟨v, h⟩ := (hst t (List.mem_range.1 ht)).ex
          rw [h.2.2.1] at hx
          cases hx
          have hne := h.2.1
          rw [pooled_shots] at hne ⊢
          have her : s2.results = s.results ++ l := by rw [d3, e1]
          rw [her] at hne ⊢
          have := (heavy_le (s.results ++ l) (circName d t) [] hg)
          omega
        have hne : (List.range s2.ntrials.toNat).filterMap f2 ≠ [] := by
          intro he
          obtain ⟨v, h⟩ := (hst 0 hn0).ex
          have : (pooled s2.results (circName d 0)).values.sum ∈ (List.range s2.ntrials.toNat).filterMap f2 :=
            List.mem_filterMap.2 ⟨0, List.mem_range.2 hn0, by rw [j2, h.2.2.1]⟩
          rw [he] at this; simp at this
        have := List.sum_pos _ hallpos hne
        omega
      rw [if_neg (by rintro (h | h); exact hsum h; omega)]
      exact ⟨_, rfl⟩
    choose! g hg using this
    exact ⟨s2.depths.map g, mapM_eq_some _ _ g hg⟩
  obtain ⟨cols, hc⟩ := h3
  unfold calcStatistics
  rw [hc]
  exact ⟨_, rfl⟩

/-- Incomplete data are refused: if a result of trial `t'` has been added and some width has no shots in some trial up
to `t'`, a recomputing `add_data` raises (`ZeroDivisionError`).  So the widths of a trial cannot be handed over one
after the other. -/
theorem C59_incomplete_raises (ql : List (List ℕ)) (cs : List Call) (new : List Res) (q : List ℕ) (hq : q ∈ ql) (t : ℕ) (t' : ℤ)
    (r : Res) (hr : r ∈ added cs ++ new) (name : Str) (hname : name ∈ r.map (·.1)) (ht' : trialOfName name = some t') (hle : (t : ℤ) ≤ t')
    (hz : shotsIn (added cs ++ new) (circName q.length t) = 0) :
    run (init ql) (cs ++ [.data (some new) true]) = none := by
  cases h : run (init ql) (cs ++ [.data (some new) true]) with
  | none => rfl
  | some st =>
    exfalso
    have H := run_hist _ _ _ h
    obtain ⟨s0, h0, D⟩ := last_data ql cs new true st h
    have er : added (cs ++ [.data (some new) true]) = added cs ++ new := by rw [added_append]; simp [added]
    obtain ⟨e, he, rfl⟩ := List.mem_map.1 hname
    obtain ⟨t1, h1, h2⟩ := H.bound r (by rw [er]; exact hr) e he
    rw [ht'] at h1; cases h1
    have hd : q.length ∈ st.depths := by rw [H.depths]; exact List.mem_map_of_mem hq
    obtain ⟨heavy, a0, a1, -⟩ := (D.stored rfl t q.length (by omega) hd).ex
    rw [pooled_shots, H.results, er] at a1
    exact a1 (by simpa [init] using hz)

/-! ### concrete histories -/

/-- One circuit of width 1, ideal state `|0⟩`. -/
noncomputable def exIdeal : IdealRes := [(circName 1 0, [1, 0])]
def exRes : Res := [(circName 1 0, [(['0'], 7), (['1'], 3)])]
def exRes2 : Res := [(circName 1 0, [(['0'], 5)])]

theorem exIdeal_ok : ∃ s, addStatevectors (init [[0]]) (some [exIdeal]) = some s := by
  apply C58_ideal_accepted
  · simp [pairsOf, exIdeal]
  · intro r hr e he; simp [init]
  · intro r hr e he
    simp only [List.mem_singleton] at hr
    subst hr
    simp only [exIdeal, List.mem_singleton] at he
    subst he
    exact ⟨1, [1, 0], (name_read_back 1 0).1, by simp [exIdeal, Dict.get?_cons], by simp⟩

theorem good_ex : GoodRes exRes ∧ GoodRes exRes2 := by
  constructor
  · intro e he
    simp only [exRes, List.mem_singleton] at he
    subst he
    decide
  · intro e he
    simp only [exRes2, List.mem_singleton] at he
    subst he
    decide

/-- Two ways of handing over the same data: both accepted. -/
theorem ex_run : (∃ st, run (init [[0]]) ([.statevectors (some [exIdeal]), .data (some [exRes]) true] ++ [.data (some [exRes2]) true]) = some st) ∧
    (∃ st, run (init [[0]]) ([.statevectors (some [exIdeal])] ++ [.data (some [exRes2, exRes]) true]) = some st) := by
  obtain ⟨s, hs⟩ := exIdeal_ok
  have H := sv_hist _ _ _ hs
  have hst := H.new (exIdeal, circName 1 0) (by simp [addedIdeal, pairsOf, exIdeal])
  obtain ⟨d, amps, dist, k1, k2, k3, k4, k5, k6⟩ := hst
  have hr : s.results = [] := by rw [H.results]; simp [init, added]
  have hd : s.depths = [1] := by rw [H.depths]; rfl
  have hn : s.ntrials = 0 := by
    rcases H.att with e | ⟨r, hr, -⟩
    · exact e
    · simp [added] at hr
  have hhas : s.heavyOutputs.has (circName 1 0) = true ∧ s.probIdeal.has (circName 1 0) = true := by
    simp only [Dict.has, k5, k6]; exact ⟨rfl, rfl⟩
  have h1 : ∃ s1, addData s (some [exRes]) true = some s1 := by
    refine C59_data_accepted s [exRes] 1 (by omega) ?_ ?_ ?_ (Or.inr ⟨exRes, by simp, by simp [exRes]⟩)
    · rw [hr]; intro r h; simp only [List.nil_append, List.mem_singleton] at h; subst h; exact good_ex.1
    · intro r h e he
      simp only [List.mem_singleton] at h
      subst h
      simp only [exRes, List.mem_singleton] at he
      subst he
      exact ⟨0, (name_read_back 1 0).2, by simp, hhas.2⟩
    · intro t d ht hd'
      have : t = 0 := by omega
      subst this
      rw [hd] at hd'
      simp only [List.mem_singleton] at hd'
      subst hd'
      refine ⟨hhas.1, hhas.2, ?_⟩
      rw [hr]
      simp [shotsIn, exRes, Dict.get?_cons, total]
  have h2 : ∃ s1, addData s (some [exRes2, exRes]) true = some s1 := by
    refine C59_data_accepted s [exRes2, exRes] 1 (by omega) ?_ ?_ ?_ (Or.inr ⟨exRes, by simp, by simp [exRes]⟩)
    · rw [hr]; intro r h; simp only [List.nil_append, List.mem_cons, List.not_mem_nil, or_false] at h
      rcases h with rfl | rfl
      · exact good_ex.2
      · exact good_ex.1
    · intro r h e he
      simp only [List.mem_cons, List.not_mem_nil, or_false] at h
      rcases h with rfl | rfl
      · simp only [exRes2, List.mem_singleton] at he
        subst he
        exact ⟨0, (name_read_back 1 0).2, by simp, hhas.2⟩
      · simp only [exRes, List.mem_singleton] at he
        subst he
        exact ⟨0, (name_read_back 1 0).2, by simp, hhas.2⟩
    · intro t d ht hd'
      have : t = 0 := by omega
      subst this
      rw [hd] at hd'
      simp only [List.mem_singleton] at hd'
      subst hd'
      refine ⟨hhas.1, hhas.2, ?_⟩
      rw [hr]
      simp [shotsIn, exRes, exRes2, Dict.get?_cons, total]
  constructor
  · obtain ⟨s1, hs1⟩ := h1
    have D := addData_spec _ _ _ _ hs1
    have hn1 : s1.ntrials = 1 := by
      obtain ⟨t, ht, hle⟩ := D.bound exRes (by simp) _ (by simp [exRes]; rfl)
      rcases D.att with e | ⟨r, h, e, he, t, ht, e'⟩
      · rw [(name_read_back 1 0).2] at ht
        cases ht
        simp at hle
        omega
      · simp only [List.mem_singleton] at h
        subst h
        simp only [exRes, List.mem_singleton] at he
        subst he
        rw [(name_read_back 1 0).2] at ht
        cases ht
        simpa using e'
    have h3 : ∃ s2, addData s1 (some [exRes2]) true = some s2 := by
      refine C59_data_accepted s1 [exRes2] 1 (by omega) ?_ ?_ ?_ (Or.inl (by omega))
      · rw [D.results, hr]; intro r h; simp only [List.nil_append, List.mem_append, List.mem_singleton] at h
        rcases h with rfl | rfl
        · exact good_ex.1
        · exact good_ex.2
      · intro r h e he
        simp only [List.mem_singleton] at h
        subst h
        simp only [exRes2, List.mem_singleton] at he
        subst he
        exact ⟨0, (name_read_back 1 0).2, by simp, by rw [D.ideal.2.2]; exact hhas.2⟩
      · intro t d ht hd'
        have : t = 0 := by omega
        subst this
        rw [D.depths, hd] at hd'
        simp only [List.mem_singleton] at hd'
        subst hd'
        refine ⟨by rw [D.ideal.1]; exact hhas.1, by rw [D.ideal.2.2]; exact hhas.2, ?_⟩
        rw [D.results, hr]
        simp [shotsIn, exRes, exRes2, Dict.get?_cons, total]
    obtain ⟨s2, hs2⟩ := h3
    exact ⟨s2, by simp [run, hs, hs1, hs2]⟩
  · obtain ⟨s1, hs1⟩ := h2
    exact ⟨s1, by simp [run, hs, hs1]⟩

/-- Non-vacuity of `C58_heavy_outputs`, `C59_sums`, `C58_counts`, `C58_mean`, `C58_success` and `C59_batching`: the
hypotheses are met by the two histories above; the heavy output is `0`, and 12 of the 15 shots are heavy. -/
example : ∃ st st', run (init [[0]]) ([.statevectors (some [exIdeal]), .data (some [exRes]) true] ++ [.data (some [exRes2]) true]) = some st ∧
    run (init [[0]]) ([.statevectors (some [exIdeal])] ++ [.data (some [exRes2, exRes]) true]) = some st' ∧
    st.ydata = st'.ydata ∧ ['0'] ∈ (st.heavyOutputs.getD (circName 1 0) []) ∧ st.circShots.get? (circName 1 0) = some 15 ∧
    (0 : ℤ) < st.ntrials := by
  obtain ⟨⟨st, h⟩, ⟨st', h'⟩⟩ := ex_run
  have hg : ∀ r ∈ added [.statevectors (some [exIdeal]), .data (some [exRes]) true] ++ [exRes2], GoodRes r := by
    intro r hr
    simp only [added, List.flatMap_cons, List.flatMap_nil, List.nil_append, List.append_nil, List.mem_append, List.mem_singleton, List.cons_append] at hr
    simp only [List.mem_cons, List.not_mem_nil, or_false] at hr
    rcases hr with rfl | rfl
    · exact good_ex.1
    · exact good_ex.2
  have hb := C59_batching [[0]] _ _ _ _ st st' h h' hg (by simp [added]; exact List.Perm.swap _ _ _) (by simp [addedIdeal])
  obtain ⟨p, q, heavy, y1, y2, -⟩ := C58_mean [[0]] _ _ st h hg 0 (by simp)
  obtain ⟨hv, b0, b1, b2, b3⟩ := C59_sums [[0]] _ _ st h hg 0 (by simpa using y2) [0] (by simp)
  obtain ⟨d, amps, m, hv', c1, c2, c3, c4, c5, c6, c7, c8, c9⟩ := C58_heavy_outputs [[0]] _ st h exIdeal (by simp [addedIdeal]) (circName 1 0) (by simp [exIdeal])
  refine ⟨st, st', h, h', hb.2.2.2.1, ?_, ?_, y2⟩
  · rw [(name_read_back 1 0).1] at c1
    cases c1
    simp [exIdeal, Dict.get?_cons] at c2
    subst c2
    have hm : m = 1 / 2 := by
      refine isMedian_unique c4 ⟨[0, 1], ?_, by simp, by norm_num⟩
      simp [List.range_succ]
      exact List.Perm.swap _ _ _
    rw [Dict.getD, c5, Option.getD_some]
    refine (c8 (le_refl _) _).2 ⟨by decide, rfl, ?_⟩
    rw [hm]
    have : ofBin ['0'] = 0 := by decide
    rw [this]
    norm_num
  · rw [show circName 1 0 = circName [0].length 0 from rfl, b1]
    simp [shotsIn, added, exRes, exRes2, Dict.get?_cons, total]

/-- Two widths, results for one of them only: refused. -/
example : run (init [[0], [0, 1]]) ([.statevectors (some [[(circName 1 0, [1, 0]), (circName 2 0, [1, 0, 0, 0])]])] ++ [.data (some [exRes]) true]) = none := by
  refine C59_incomplete_raises _ _ _ [0, 1] (by simp) 0 0 exRes (by simp) (circName 1 0) (by simp [exRes]) (name_read_back 1 0).2 (by simp) ?_
  have hne : ¬ circName 1 0 = circName 2 0 := fun h => by have := (circName_inj h).1; omega
  simp [shotsIn, added, exRes, Dict.get?_cons, hne]

end Verif.QV
