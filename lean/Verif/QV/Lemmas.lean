import Verif.QV.Spec
import Verif.Counts.Weighted
import Verif.Py.SplitLemmas
import Verif.Py.BitStrings
import Mathlib.Tactic.Linarith
set_option linter.unusedSimpArgs false
set_option linter.unusedVariables false
namespace Verif.QV
open Verif Verif.Counts

/-! ### adding results -/

theorem addResult_spec (st : St) (r : Res) (st' : St) (h : addResult st r = some st') :
    ∃ N : ℤ, st' = { st with results := st.results ++ [r], ntrials := N } ∧ st.ntrials ≤ N ∧
      (∀ e ∈ r, ∃ t, trialOfName e.1 = some t ∧ t + 1 ≤ N) ∧
      (N = st.ntrials ∨ ∃ e ∈ r, ∃ t, trialOfName e.1 = some t ∧ N = t + 1) ∧
      (∀ e ∈ r, st.probIdeal.has e.1 = true) := by
  unfold addResult at h
  have key : ∀ (l : List (Str × Counts)) (s s' : St),
      l.foldlM (fun (st : St) e => do
        let t ← trialOfName e.1
        let st := if t + 1 > st.ntrials then { st with ntrials := t + 1 } else st
        if st.probIdeal.has e.1 then some st else none) s = some s' →
      ∃ N : ℤ, s' = { s with ntrials := N } ∧ s.ntrials ≤ N ∧
      (∀ e ∈ l, ∃ t, trialOfName e.1 = some t ∧ t + 1 ≤ N) ∧
      (N = s.ntrials ∨ ∃ e ∈ l, ∃ t, trialOfName e.1 = some t ∧ N = t + 1) ∧
      (∀ e ∈ l, s.probIdeal.has e.1 = true) := by
    intro l
    induction l with
    | nil =>
      intro s s' h
      simp at h
      subst h
      exact ⟨s.ntrials, rfl, le_refl _, by simp, Or.inl rfl, by simp⟩
    | cons e l ih =>
      intro s s' h
      rw [List.foldlM_cons] at h
      cases ht : trialOfName e.1 with
      | none => simp [ht] at h
      | some t =>
        simp only [ht, Option.bind_eq_bind, Option.bind_some] at h
        by_cases hg : t + 1 > s.ntrials
        · rw [if_pos hg] at h
          by_cases hp : s.probIdeal.has e.1 = true
          · simp only [hp, if_true, Option.bind_some] at h
            obtain ⟨N, h1, h2, h3, h4, h5⟩ := ih _ _ h
            simp only at h2 h4 h5
            refine ⟨N, h1, by omega, ?_, ?_, ?_⟩
            · intro x hx
              rcases List.mem_cons.1 hx with rfl | hx
              · exact ⟨t, ht, h2⟩
              · exact h3 x hx
            · right
              rcases h4 with h4 | ⟨x, hx, t', ht', h4⟩
              · exact ⟨e, by simp, t, ht, h4⟩
              · exact ⟨x, by simp [hx], t', ht', h4⟩
            · intro x hx
              rcases List.mem_cons.1 hx with rfl | hx
              · exact hp
              · exact h5 x hx
          · simp [hp] at h
        · rw [if_neg hg] at h
          by_cases hp : s.probIdeal.has e.1 = true
          · simp only [hp, if_true, Option.bind_some] at h
            obtain ⟨N, h1, h2, h3, h4, h5⟩ := ih _ _ h
            refine ⟨N, h1, by omega, ?_, ?_, ?_⟩
            · intro x hx
              rcases List.mem_cons.1 hx with rfl | hx
              · exact ⟨t, ht, by omega⟩
              · exact h3 x hx
            · rcases h4 with h4 | ⟨x, hx, t', ht', h4⟩
              · exact Or.inl h4
              · exact Or.inr ⟨x, by simp [hx], t', ht', h4⟩
            · intro x hx
              rcases List.mem_cons.1 hx with rfl | hx
              · exact hp
              · exact h5 x hx
          · simp [hp] at h
  obtain ⟨N, h1, h2, h3, h4, h5⟩ := key r _ _ h
  exact ⟨N, h1, h2, h3, h4, h5⟩

theorem addResults_spec (l : List Res) (st st' : St) (h : l.foldlM addResult st = some st') :
    ∃ N : ℤ, st' = { st with results := st.results ++ l, ntrials := N } ∧ st.ntrials ≤ N ∧
      (∀ r ∈ l, ∀ e ∈ r, ∃ t, trialOfName e.1 = some t ∧ t + 1 ≤ N) ∧
      (N = st.ntrials ∨ ∃ r ∈ l, ∃ e ∈ r, ∃ t, trialOfName e.1 = some t ∧ N = t + 1) ∧
      (∀ r ∈ l, ∀ e ∈ r, st.probIdeal.has e.1 = true) := by
  induction l generalizing st with
  | nil =>
    simp at h
    subst h
    exact ⟨st.ntrials, by simp, le_refl _, by simp, Or.inl rfl, by simp⟩
  | cons r l ih =>
    rw [List.foldlM_cons] at h
    cases h0 : addResult st r with
    | none => simp [h0] at h
    | some s1 =>
      simp only [h0, Option.bind_eq_bind, Option.bind_some] at h
      obtain ⟨N1, e1, a1, a2, a3, a4⟩ := addResult_spec st r s1 h0
      obtain ⟨N, e2, b1, b2, b3, b4⟩ := ih s1 h
      subst e1
      simp only at e2 b1 b3 b4
      refine ⟨N, by rw [e2]; simp, by omega, ?_, ?_, ?_⟩
      · intro x hx
        rcases List.mem_cons.1 hx with rfl | hx
        · intro e he
          obtain ⟨t, ht, hle⟩ := a2 e he
          exact ⟨t, ht, by omega⟩
        · exact b2 x hx
      · rcases b3 with b3 | ⟨x, hx, b3⟩
        · rcases a3 with a3 | ⟨e, he, t, ht, a3⟩
          · exact Or.inl (by omega)
          · exact Or.inr ⟨r, by simp, e, he, t, ht, by omega⟩
        · exact Or.inr ⟨x, by simp [hx], b3⟩
      · intro x hx
        rcases List.mem_cons.1 hx with rfl | hx
        · exact a4
        · exact b4 x hx

/-! ### `calc_data` -/

/-- Everything `calc_data` leaves alone. -/
def SameInputs (s s' : St) : Prop :=
  s'.depths = s.depths ∧ s'.ntrials = s.ntrials ∧ s'.results = s.results ∧ s'.heavyOutputs = s.heavyOutputs ∧
    s'.allProb = s.allProb ∧ s'.probIdeal = s.probIdeal

theorem SameInputs.refl (s : St) : SameInputs s s := ⟨rfl, rfl, rfl, rfl, rfl, rfl⟩

theorem SameInputs.trans {a b c : St} (h1 : SameInputs a b) (h2 : SameInputs b c) : SameInputs a c := by
  obtain ⟨a1, a2, a3, a4, a5, a6⟩ := h1
  obtain ⟨b1, b2, b3, b4, b5, b6⟩ := h2
  exact ⟨b1.trans a1, b2.trans a2, b3.trans a3, b4.trans a4, b5.trans a5, b6.trans a6⟩

def pooled (rs : List Res) (name : Str) : Counts := buildCountsDictFromList (rs.filterMap fun r => r.get? name)

theorem calcName_spec (s s' : St) (name : Str) (h : calcName s name = some s') :
    SameInputs s s' ∧ ∃ heavy, s.heavyOutputs.get? name = some heavy ∧ (pooled s.results name).values.sum ≠ 0 ∧
      s'.circShots = s.circShots.set name (pooled s.results name).values.sum ∧
      s'.circCounts = s.circCounts.set name (pooled s.results name) ∧
      s'.heavyCounts = s.heavyCounts.set name (subsetCounts heavy (pooled s.results name)) ∧
      s'.probExp = s.probExp.set name ((subsetCounts heavy (pooled s.results name) : ℝ) / ((pooled s.results name).values.sum : ℝ)) := by
  unfold calcName at h
  cases hh : s.heavyOutputs.get? name with
  | none => simp [hh] at h
  | some heavy =>
    simp only [hh, Option.bind_eq_bind, Option.bind_some] at h
    split at h
    · cases h
    · rename_i h0
      simp only [Option.some.injEq] at h
      subst h
      exact ⟨⟨rfl, rfl, rfl, rfl, rfl, rfl⟩, heavy, rfl, h0, rfl, rfl, rfl, rfl⟩

/-- Value stored by `calc_data` for one name. -/
structure Stored (s : St) (name : Str) : Prop where
  ex : ∃ heavy, s.heavyOutputs.get? name = some heavy ∧ (pooled s.results name).values.sum ≠ 0 ∧
      s.circShots.get? name = some (pooled s.results name).values.sum ∧
      s.circCounts.get? name = some (pooled s.results name) ∧
      s.heavyCounts.get? name = some (subsetCounts heavy (pooled s.results name)) ∧
      s.probExp.get? name = some ((subsetCounts heavy (pooled s.results name) : ℝ) / ((pooled s.results name).values.sum : ℝ))

theorem calcNames_spec (l : List Str) (s s' : St) (h : l.foldlM calcName s = some s') :
    SameInputs s s' ∧ (∀ name ∈ l, Stored s' name) ∧ (∀ name, Stored s name → Stored s' name) := by
  induction l generalizing s with
  | nil =>
    simp at h
    subst h
    exact ⟨SameInputs.refl _, by simp, fun _ h => h⟩
  | cons n l ih =>
    rw [List.foldlM_cons] at h
    cases h0 : calcName s n with
    | none => simp [h0] at h
    | some s1 =>
      simp only [h0, Option.bind_eq_bind, Option.bind_some] at h
      obtain ⟨a, heavy, b0, b1, b2, b3, b4, b5⟩ := calcName_spec s s1 n h0
      obtain ⟨c1, c2, c3⟩ := ih s1 h
      have hst : Stored s1 n := by
        refine ⟨⟨heavy, ?_, ?_, ?_, ?_, ?_, ?_⟩⟩
        · rw [a.2.2.2.1]; exact b0
        · rw [a.2.2.1]; exact b1
        · rw [b2, a.2.2.1]; simp
        · rw [b3, a.2.2.1]; simp
        · rw [b4, a.2.2.1]; simp
        · rw [b5, a.2.2.1]; simp
      have hkeep : ∀ name, Stored s name → Stored s1 name := by
        intro name hn
        by_cases e : n = name
        · subst e; exact hst
        · obtain ⟨hv, d0, d1, d2, d3, d4, d5⟩ := hn.ex
          refine ⟨⟨hv, ?_, ?_, ?_, ?_, ?_, ?_⟩⟩
          · rw [a.2.2.2.1]; exact d0
          · rw [a.2.2.1]; exact d1
          · rw [b2, a.2.2.1, Dict.get?_set, if_neg e]; exact d2
          · rw [b3, a.2.2.1, Dict.get?_set, if_neg e]; exact d3
          · rw [b4, a.2.2.1, Dict.get?_set, if_neg e]; exact d4
          · rw [b5, a.2.2.1, Dict.get?_set, if_neg e]; exact d5
      refine ⟨a.trans c1, ?_, fun name hn => c3 _ (hkeep _ hn)⟩
      intro name hn
      rcases List.mem_cons.1 hn with rfl | hn
      · exact c3 _ hst
      · exact c2 name hn

theorem calcData_spec (s s' : St) (h : calcData s = some s') :
    SameInputs s s' ∧ ∀ t d : ℕ, (t : ℤ) < s.ntrials → d ∈ s.depths → Stored s' (circName d t) := by
  obtain ⟨h1, h2, -⟩ := calcNames_spec _ _ _ h
  refine ⟨h1, ?_⟩
  intro t d ht hd
  apply h2
  simp only [calcNames, List.mem_flatMap, List.mem_range, List.mem_map]
  exact ⟨t, by omega, d, hd, rfl⟩

/-! ### pooled counts -/

theorem filterMap_sum {α : Type} (rs : List Res) (name : Str) (g : Counts → ℤ) :
    ((rs.filterMap fun r => r.get? name).map g).sum = (rs.map fun r => match r.get? name with
      | some c => g c
      | none => 0).sum := by
  induction rs with
  | nil => rfl
  | cons r rs ih =>
    cases h : r.get? name with
    | none => simp [h, ih]
    | some c => simp [h, ih]

theorem pooled_shots (rs : List Res) (name : Str) : (pooled rs name).values.sum = shotsIn rs name := by
  have := wsum_build (fun _ => 1) (rs.filterMap fun r => r.get? name)
  rw [filterMap_sum (α := Unit)] at this
  have e : (pooled rs name).values.sum = wsum (fun _ => 1) (pooled rs name) := (wsum_one _).symm
  rw [e]
  refine this.trans ?_
  unfold shotsIn
  simp only [wsum_one]
  congr 1

theorem sum_getD_eq (heavy : List Str) (hn : heavy.Nodup) (c : Counts) (hc : Dict.WF c) :
    subsetCounts heavy c = wsum (fun k => if k ∈ heavy then 1 else 0) c := by
  unfold subsetCounts
  induction heavy with
  | nil => simp [wsum]
  | cons a l ih =>
    rw [List.nodup_cons] at hn
    rw [List.map_cons, List.sum_cons, ih hn.2, getD_eq_wsum c hc a]
    unfold wsum
    rw [← List.sum_map_add]
    congr 1
    apply List.map_congr_left
    intro kv hkv
    by_cases e : kv.1 = a
    · subst e; simp [hn.1]
    · simp [e]

theorem wsum_filter (heavy : List Str) (c : Counts) :
    wsum (fun k => if k ∈ heavy then 1 else 0) c = ((c.filter fun kv => kv.1 ∈ heavy).map (·.2)).sum := by
  induction c with
  | nil => rfl
  | cons p c ih =>
    rw [wsum_cons, ih]
    by_cases h : p.1 ∈ heavy <;> simp [h]

theorem good_pooled (rs : List Res) (name : Str) (h : ∀ r ∈ rs, GoodRes r) : Dict.WF (pooled rs name) := by
  apply wf_build
  intro c hc
  obtain ⟨r, hr, he⟩ := List.mem_filterMap.1 hc
  exact (h r hr _ (Dict.get?_mem _ _ _ he)).1

theorem pooled_heavy (rs : List Res) (name : Str) (heavy : List Str) (hn : heavy.Nodup) (h : ∀ r ∈ rs, GoodRes r) :
    subsetCounts heavy (pooled rs name) = heavyIn rs heavy name := by
  rw [sum_getD_eq heavy hn _ (good_pooled rs name h)]
  refine (wsum_build _ _).trans ?_
  rw [filterMap_sum (α := Unit)]
  unfold heavyIn
  simp only [wsum_filter]
  congr 1

theorem heavy_le (rs : List Res) (name : Str) (heavy : List Str) (h : ∀ r ∈ rs, GoodRes r) :
    0 ≤ heavyIn rs heavy name ∧ heavyIn rs heavy name ≤ shotsIn rs name := by
  unfold heavyIn shotsIn
  induction rs with
  | nil => simp
  | cons r rs ih =>
    obtain ⟨i1, i2⟩ := ih fun x hx => h x (by simp [hx])
    simp only [List.map_cons, List.sum_cons]
    cases hc : r.get? name with
    | none => simpa using ⟨i1, i2⟩
    | some c =>
      have hg := (h r (by simp) _ (Dict.get?_mem _ _ _ hc)).2
      have a : 0 ≤ ((c.filter fun kv => kv.1 ∈ heavy).map (·.2)).sum ∧ ((c.filter fun kv => kv.1 ∈ heavy).map (·.2)).sum ≤ total c := by
        simp only at hg
        clear hc i1 i2 ih
        induction c with
        | nil => simp [total]
        | cons p c ihc =>
          obtain ⟨j1, j2⟩ := ihc fun kv hkv => hg kv (by simp [hkv])
          have hp := hg p (by simp)
          have et : total (p :: c) = p.2 + total c := by simp [total]
          rw [et]
          by_cases hm : p.1 ∈ heavy
          · simp only [List.filter_cons, hm, decide_true, if_true, List.map_cons, List.sum_cons]; omega
          · simp only [List.filter_cons, hm, decide_false, Bool.false_eq_true, if_false]; omega
      simp only
      omega

theorem shotsIn_perm {rs rs' : List Res} (h : rs.Perm rs') (name : Str) : shotsIn rs name = shotsIn rs' name :=
  (h.map _).sum_eq

theorem heavyIn_perm {rs rs' : List Res} (h : rs.Perm rs') (heavy : List Str) (name : Str) : heavyIn rs heavy name = heavyIn rs' heavy name :=
  (h.map _).sum_eq

end Verif.QV
