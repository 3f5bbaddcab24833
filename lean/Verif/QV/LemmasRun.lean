import Verif.QV.LemmasSv
import Mathlib.Analysis.SpecialFunctions.Integrals.Basic
set_option linter.unusedSimpArgs false
set_option linter.unusedVariables false
namespace Verif.QV
open Verif Verif.Counts

/-! ### statistics -/

theorem statColumn_spec (s : St) (d : ℕ) (y : ℝ × ℝ × ℝ × ℝ) (h : statColumn s d = some y)
    (hs : ∀ t : ℕ, (t : ℤ) < s.ntrials → Stored s (circName d t))
    (fh fs : ℕ → ℤ) (fi : ℕ → ℝ)
    (h1 : ∀ t : ℕ, (t : ℤ) < s.ntrials → s.heavyCounts.get? (circName d t) = some (fh t))
    (h2 : ∀ t : ℕ, (t : ℤ) < s.ntrials → s.circShots.get? (circName d t) = some (fs t))
    (h3 : ∀ t : ℕ, (t : ℤ) < s.ntrials → s.probIdeal.get? (circName d t) = some (fi t)) :
    let n := s.ntrials.toNat
    let p : ℝ := (((List.range n).map fh).sum : ℤ) / (((List.range n).map fs).sum : ℤ)
    let q : ℝ := ((List.range n).map fi).sum / n
    y = (p, Real.sqrt (p * (1 - p) / n), q, Real.sqrt (q * (1 - q) / n)) ∧ 0 < n ∧ ((List.range n).map fs).sum ≠ 0 := by
  unfold statColumn at h
  have e : ∀ {β : Type} (D : Dict Str β) (f : ℕ → β), (∀ t : ℕ, (t : ℤ) < s.ntrials → D.get? (circName d t) = some (f t)) →
      ((List.range s.ntrials.toNat).map (circName d)).mapM (fun n => D.get? n) = some ((List.range s.ntrials.toNat).map f) := by
    intro β D f hf
    rw [mapM_some_iff, List.map_map, List.map_map]
    apply List.map_congr_left
    intro t ht
    have : t < s.ntrials.toNat := List.mem_range.1 ht
    simp only [Function.comp_def]
    exact hf t (by omega)
  simp only [e _ fh h1, e _ fs h2, e _ fi h3, Option.bind_eq_bind, Option.bind_some] at h
  split at h
  · cases h
  · rename_i hn
    simp only [Option.some.injEq] at h
    simp only [not_or] at hn
    exact ⟨h.symm, by omega, hn.1⟩

theorem calcStatistics_spec (s s' : St) (h : calcStatistics s = some s') :
    SameInputs s s' ∧ s'.circShots = s.circShots ∧ s'.circCounts = s.circCounts ∧ s'.heavyCounts = s.heavyCounts ∧ s'.probExp = s.probExp ∧
      s'.ydata.length = s.depths.length ∧ ∀ i (hi : i < s.depths.length), ∃ y, s'.ydata[i]? = some y ∧ statColumn s s.depths[i] = some y := by
  unfold calcStatistics at h
  cases hc : s.depths.mapM (statColumn s) with
  | none => simp [hc] at h
  | some cols =>
    simp only [hc, Option.bind_eq_bind, Option.bind_some, Option.some.injEq] at h
    subst h
    rw [mapM_some_iff] at hc
    have hl : cols.length = s.depths.length := by
      have := congrArg List.length hc
      simpa using this.symm
    refine ⟨⟨rfl, rfl, rfl, rfl, rfl, rfl⟩, rfl, rfl, rfl, rfl, hl, ?_⟩
    intro i hi
    have := congrArg (fun l => l[i]?) hc
    simp only [List.getElem?_map, List.getElem?_eq_getElem hi, List.getElem?_eq_getElem (show i < cols.length by omega), Option.map_some, Option.some.injEq] at this
    exact ⟨cols[i], by rw [List.getElem?_eq_getElem], this⟩

theorem Stored.congr {s s' : St} (hi : SameInputs s s') (h1 : s'.circShots = s.circShots) (h2 : s'.circCounts = s.circCounts)
    (h3 : s'.heavyCounts = s.heavyCounts) (h4 : s'.probExp = s.probExp) {n : Str} (h : Stored s n) : Stored s' n := by
  obtain ⟨v, a0, a1, a2, a3, a4, a5⟩ := h.ex
  refine ⟨⟨v, by rw [hi.2.2.2.1]; exact a0, by rw [hi.2.2.1]; exact a1, by rw [hi.2.2.1, h1]; exact a2, by rw [hi.2.2.1, h2]; exact a3,
    by rw [hi.2.2.1, h3]; exact a4, by rw [hi.2.2.1, h4]; exact a5⟩⟩

/-- The effect of one successful `add_data` call with results. -/
structure DataStep (s s' : St) (l : List Res) (rerun : Bool) : Prop where
  depths : s'.depths = s.depths
  results : s'.results = s.results ++ l
  ideal : s'.heavyOutputs = s.heavyOutputs ∧ s'.allProb = s.allProb ∧ s'.probIdeal = s.probIdeal
  mono : s.ntrials ≤ s'.ntrials
  bound : ∀ r ∈ l, ∀ e ∈ r, ∃ t, trialOfName e.1 = some t ∧ t + 1 ≤ s'.ntrials
  att : s'.ntrials = s.ntrials ∨ ∃ r ∈ l, ∃ e ∈ r, ∃ t, trialOfName e.1 = some t ∧ s'.ntrials = t + 1
  loaded : ∀ r ∈ l, ∀ e ∈ r, s.probIdeal.has e.1 = true
  stored : rerun = true → ∀ t d : ℕ, (t : ℤ) < s'.ntrials → d ∈ s'.depths → Stored s' (circName d t)
  stats : rerun = true → s'.ydata.length = s'.depths.length ∧ ∀ i (hi : i < s'.depths.length), ∃ y, s'.ydata[i]? = some y ∧ statColumn s' s'.depths[i] = some y

theorem addData_spec (s s' : St) (l : List Res) (rerun : Bool) (h : addData s (some l) rerun = some s') : DataStep s s' l rerun := by
  unfold addData at h
  simp only [Option.bind_eq_bind] at h
  cases h0 : l.foldlM addResult s with
  | none => simp [h0] at h
  | some s1 =>
    simp only [h0, Option.bind_some] at h
    obtain ⟨N, e, a1, a2, a3, a4⟩ := addResults_spec l s s1 h0
    cases rerun with
    | false =>
      simp only [Bool.false_eq_true, if_false, Option.some.injEq] at h
      subst h
      subst e
      exact ⟨rfl, rfl, ⟨rfl, rfl, rfl⟩, a1, a2, a3, a4, by simp, by simp⟩
    | true =>
      simp only [if_true] at h
      cases h1 : calcData s1 with
      | none => simp [h1] at h
      | some s2 =>
        simp only [h1, Option.bind_some] at h
        obtain ⟨b1, b2⟩ := calcData_spec s1 s2 h1
        obtain ⟨c1, c2, c3, c4, c5, c6, c7⟩ := calcStatistics_spec s2 s' h
        have hi := b1.trans c1
        obtain ⟨d1, d2, d3, d4, d5, d6⟩ := hi
        subst e
        simp only at d1 d2 d3 d4 d5 d6
        refine ⟨d1, d3, ⟨d4, d5, d6⟩, by rw [d2]; exact a1, by rw [d2]; exact a2, by rw [d2]; exact a3, a4, ?_, ?_⟩
        · intro _ t d ht hd
          rw [d2] at ht
          rw [d1] at hd
          exact (b2 t d ht hd).congr c1 c2 c3 c4 c5
        · intro _
          have hd : s'.depths = s2.depths := c1.1
          refine ⟨by rw [c6, hd], ?_⟩
          intro i hi
          obtain ⟨y, hy1, hy2⟩ := c7 i (by rw [← hd]; exact hi)
          refine ⟨y, hy1, ?_⟩
          have : statColumn s' = statColumn s2 := by
            funext d
            unfold statColumn
            rw [c1.2.1, c4, c2, c1.2.2.2.2.2]
          rw [this]
          simpa only [hd] using hy2

/-! ### histories -/

theorem run_append (s : St) (a b : List Call) : run s (a ++ b) = (run s a).bind fun s => run s b := by
  induction a generalizing s with
  | nil => rfl
  | cons c a ih =>
    cases c with
    | statevectors new =>
      simp only [List.cons_append, run]
      cases addStatevectors s new with
      | none => rfl
      | some s1 => simp only [Option.bind_some, ih]
    | data new rerun =>
      simp only [List.cons_append, run]
      cases addData s new rerun with
      | none => rfl
      | some s1 => simp only [Option.bind_some, ih]

/-- What a history of calls does to the object. -/
structure Hist (s s' : St) (cs : List Call) : Prop where
  depths : s'.depths = s.depths
  results : s'.results = s.results ++ added cs
  mono : s.ntrials ≤ s'.ntrials
  bound : ∀ r ∈ added cs, ∀ e ∈ r, ∃ t, trialOfName e.1 = some t ∧ t + 1 ≤ s'.ntrials
  att : s'.ntrials = s.ntrials ∨ ∃ r ∈ added cs, ∃ e ∈ r, ∃ t, trialOfName e.1 = some t ∧ s'.ntrials = t + 1
  new : ∀ p ∈ pairsOf (addedIdeal cs), IdealStored s' p.1 p.2
  keep : ∀ n, (∃ h, s.heavyOutputs.get? n = some h) → s'.heavyOutputs.get? n = s.heavyOutputs.get? n ∧ s'.allProb.get? n = s.allProb.get? n ∧ s'.probIdeal.get? n = s.probIdeal.get? n
  only : ∀ n, n ∉ (pairsOf (addedIdeal cs)).map (·.2) → s'.heavyOutputs.get? n = s.heavyOutputs.get? n ∧ s'.allProb.get? n = s.allProb.get? n ∧ s'.probIdeal.get? n = s.probIdeal.get? n

theorem added_cons (c : Call) (cs : List Call) : added (c :: cs) = added [c] ++ added cs := by
  simp [added]

theorem addedIdeal_cons (c : Call) (cs : List Call) : addedIdeal (c :: cs) = addedIdeal [c] ++ addedIdeal cs := by
  simp [addedIdeal]

theorem pairsOf_append (a b : List IdealRes) : pairsOf (a ++ b) = pairsOf a ++ pairsOf b := by simp [pairsOf]

theorem Hist.refl (s : St) : Hist s s [] :=
  ⟨rfl, by simp [added], le_refl _, by simp [added], Or.inl rfl, by simp [addedIdeal, pairsOf], fun _ _ => ⟨rfl, rfl, rfl⟩, fun _ _ => ⟨rfl, rfl, rfl⟩⟩

theorem Hist.trans {a b c : St} {x : Call} {cs : List Call} (h : Hist a b [x]) (h' : Hist b c cs) : Hist a c (x :: cs) := by
  refine ⟨h'.depths.trans h.depths, ?_, h.mono.trans h'.mono, ?_, ?_, ?_, ?_, ?_⟩
  · rw [h'.results, h.results, added_cons x cs, List.append_assoc]
  · intro r hr
    rw [added_cons] at hr
    rcases List.mem_append.1 hr with hr | hr
    · intro e he
      obtain ⟨t, ht, hle⟩ := h.bound r hr e he
      exact ⟨t, ht, hle.trans h'.mono⟩
    · exact h'.bound r hr
  · rw [added_cons]
    rcases h'.att with e | ⟨r, hr, e⟩
    · rcases h.att with e' | ⟨r, hr, e0, he0, t, ht, e'⟩
      · exact Or.inl (e.trans e')
      · exact Or.inr ⟨r, List.mem_append_left _ hr, e0, he0, t, ht, e.trans e'⟩
    · exact Or.inr ⟨r, List.mem_append_right _ hr, e⟩
  · intro p hp
    rw [addedIdeal_cons, pairsOf_append] at hp
    rcases List.mem_append.1 hp with hp | hp
    · exact (h.new p hp).congr (h'.keep _ (h.new p hp).heavy)
    · exact h'.new p hp
  · rintro n ⟨v, hv⟩
    obtain ⟨k1, k2, k3⟩ := h.keep n ⟨v, hv⟩
    obtain ⟨j1, j2, j3⟩ := h'.keep n ⟨v, k1.trans hv⟩
    exact ⟨j1.trans k1, j2.trans k2, j3.trans k3⟩
  · intro n hn
    rw [addedIdeal_cons, pairsOf_append, List.map_append, List.mem_append, not_or] at hn
    obtain ⟨k1, k2, k3⟩ := h.only n hn.1
    obtain ⟨j1, j2, j3⟩ := h'.only n hn.2
    exact ⟨j1.trans k1, j2.trans k2, j3.trans k3⟩

theorem sv_hist (s s' : St) (new : Option (List IdealRes)) (h : addStatevectors s new = some s') : Hist s s' [.statevectors new] := by
  cases new with
  | none =>
    simp only [addStatevectors, Option.some.injEq] at h
    subst h
    exact ⟨rfl, by simp [added], le_refl _, by simp [added], Or.inl rfl, by simp [addedIdeal, pairsOf], fun _ _ => ⟨rfl, rfl, rfl⟩, fun _ _ => ⟨rfl, rfl, rfl⟩⟩
  | some l =>
    have e := foldlM_ext2 l s s' h
    obtain ⟨a1, a2, a3, -⟩ := e.same
    refine ⟨a1, by simp [added, a3], by rw [a2], by simp [added], Or.inl a2, ?_, e.keep, ?_⟩
    · simpa [addedIdeal] using e.new
    · simpa only [addedIdeal, List.flatMap_cons, List.flatMap_nil, List.append_nil] using e.only

theorem data_hist (s s' : St) (new : Option (List Res)) (rerun : Bool) (h : addData s new rerun = some s') : Hist s s' [.data new rerun] := by
  cases new with
  | none =>
    simp only [addData, Option.some.injEq] at h
    subst h
    exact ⟨rfl, by simp [added], le_refl _, by simp [added], Or.inl rfl, by simp [addedIdeal, pairsOf], fun _ _ => ⟨rfl, rfl, rfl⟩, fun _ _ => ⟨rfl, rfl, rfl⟩⟩
  | some l =>
    have e := addData_spec s s' l rerun h
    refine ⟨e.depths, by simp [added, e.results], e.mono, by simpa [added] using e.bound, by simpa [added] using e.att, by simp [addedIdeal, pairsOf], ?_, ?_⟩
    · intro n _; rw [e.ideal.1, e.ideal.2.1, e.ideal.2.2]; exact ⟨rfl, rfl, rfl⟩
    · intro n _; rw [e.ideal.1, e.ideal.2.1, e.ideal.2.2]; exact ⟨rfl, rfl, rfl⟩

theorem run_hist (cs : List Call) (s s' : St) (h : run s cs = some s') : Hist s s' cs := by
  induction cs generalizing s with
  | nil =>
    simp only [run, Option.some.injEq] at h
    subst h; exact Hist.refl s
  | cons c cs ih =>
    cases c with
    | statevectors new =>
      simp only [run] at h
      cases h0 : addStatevectors s new with
      | none => simp [h0] at h
      | some s1 =>
        simp only [h0, Option.bind_some] at h
        exact (sv_hist s s1 new h0).trans (ih s1 h)
    | data new rerun =>
      simp only [run] at h
      cases h0 : addData s new rerun with
      | none => simp [h0] at h
      | some s1 =>
        simp only [h0, Option.bind_some] at h
        exact (data_hist s s1 new rerun h0).trans (ih s1 h)

/-! ### the error function -/

theorem erf_strictMono : StrictMono erf := by
  intro a b hab
  unfold erf
  have hc : Continuous fun t : ℝ => Real.exp (-t ^ 2) := by fun_prop
  have hpos : 0 < ∫ t in a..b, Real.exp (-t ^ 2) :=
    intervalIntegral.intervalIntegral_pos_of_pos (hc.intervalIntegrable _ _) (fun x => Real.exp_pos _) hab
  have hadd := intervalIntegral.integral_add_adjacent_intervals (hc.intervalIntegrable (μ := MeasureTheory.volume) 0 a) (hc.intervalIntegrable a b)
  have hk : 0 < 2 / Real.sqrt Real.pi := by positivity
  rw [← hadd]
  nlinarith

theorem confidence_strictMono : StrictMono confidence := by
  intro a b hab
  unfold confidence
  have h2 : 0 < Real.sqrt 2 := by positivity
  have := erf_strictMono (div_lt_div_of_pos_right hab h2)
  linarith

end Verif.QV
