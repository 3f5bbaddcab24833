import Verif.QV.LemmasRun
import Mathlib.Tactic.Ring
set_option linter.unusedSimpArgs false
set_option linter.unusedVariables false
/-
C58, C59: heavy outputs, heavy counts, success of the quantum volume fitter.
-/
namespace Verif.QV
open Verif Verif.Counts

/-! ### names -/

theorem us_fmtD (k : ℤ) : '_' ∉ fmtD k := fmtD_not_mem (by decide) (by decide)

theorem join_circName (d t : Str) : "qv_depth_".toList ++ d ++ "_trial_".toList ++ t =
    joinSep ['_'] [['q', 'v'], ['d', 'e', 'p', 't', 'h'], d, ['t', 'r', 'i', 'a', 'l'], t] := by
  simp [joinSep]

theorem split_circName (d t : ℕ) :
    splitChar '_' (circName d t) = [['q', 'v'], ['d', 'e', 'p', 't', 'h'], fmtD d, ['t', 'r', 'i', 'a', 'l'], fmtD t] := by
  have hd := us_fmtD d
  have ht := us_fmtD t
  unfold circName
  generalize fmtD (d : ℤ) = x at *
  generalize fmtD (t : ℤ) = y at *
  rw [join_circName]
  refine splitChar_join '_' _ (by simp) ?_
  intro p hp
  simp only [List.mem_cons, List.not_mem_nil, or_false] at hp
  rcases hp with h | h | h | h | h
  · rw [h]; decide
  · rw [h]; decide
  · rw [h]; exact hd
  · rw [h]; decide
  · rw [h]; exact ht

/-- The fitter reads depth and trial back from the name that the circuit generator writes. -/
theorem name_read_back (d t : ℕ) : depthOfName (circName d t) = some d ∧ trialOfName (circName d t) = some (t : ℤ) := by
  unfold depthOfName trialOfName
  rw [split_circName]
  simp [parseInt_fmtD]

theorem circName_inj {d t d' t' : ℕ} (h : circName d t = circName d' t') : d = d' ∧ t = t' := by
  have h1 := name_read_back d t
  have h2 := name_read_back d' t'
  rw [h] at h1
  have a := h1.1.symm.trans h2.1
  have b := h1.2.symm.trans h2.2
  simp only [Option.some.injEq, Nat.cast_inj] at a b
  exact ⟨a, b⟩

/-! ### C58: heavy outputs -/

/-- After any sequence of calls, for every ideal experiment handed over, with `2^d` outcome probabilities
`|amplitude|²`: the stored heavy outputs are exactly the `d`-bit outcomes whose probability is strictly above the
median of all outcome probabilities, without repetition; they are at most half of all outcomes; and the stored ideal
heavy output probability is the sum of their probabilities. -/
theorem C58_heavy_outputs (ql : List (List ℕ)) (cs : List Call) (st : St) (h : run (init ql) cs = some st)
    (r : IdealRes) (hr : r ∈ addedIdeal cs) (name : Str) (hn : name ∈ r.map (·.1)) :
    ∃ d amps m heavy, depthOfName name = some d ∧ r.get? name = some amps ∧ 2 ^ d ≤ amps.length ∧
      IsMedian ((List.range (2 ^ d)).map fun b => Complex.normSq (amps.getD b 0)) m ∧
      st.heavyOutputs.get? name = some heavy ∧ heavy.Nodup ∧ 2 * heavy.length ≤ 2 ^ d ∧
      (1 ≤ d → ∀ s, s ∈ heavy ↔ IsBits s ∧ s.length = d ∧ Complex.normSq (amps.getD (ofBin s) 0) > m) ∧
      st.probIdeal.get? name = some ((heavy.map fun s => Complex.normSq (amps.getD (ofBin s) 0)).sum) := by
  have H := run_hist cs _ _ h
  have hp : (r, name) ∈ pairsOf (addedIdeal cs) := by
    obtain ⟨e, he, rfl⟩ := List.mem_map.1 hn
    exact List.mem_flatMap.2 ⟨r, hr, List.mem_map.2 ⟨e, he, rfl⟩⟩
  obtain ⟨d, amps, dist, h1, h2, h3, h4, h5, h6⟩ := H.new _ hp
  simp only at h1 h2 h4 h5 h6
  have hob : ∀ b, ofBin (zfill d (binDigits b)) = b := fun b => by rw [ofBin_zfill, ofBin_binDigits]
  refine ⟨d, amps, median dist.values, _, h1, h2, (idealProb_eq h3).2, ?_, h5, heavy_nodup dist (dist_wf h3) _, heavy_half h3, ?_, ?_⟩
  · have := median_isMedian dist.values
    rwa [dist_values h3] at this ⊢
  · intro hd s
    rw [heavy_eq h3]
    simp only [List.mem_map, List.mem_filter, List.mem_range, decide_eq_true_eq]
    constructor
    · rintro ⟨b, ⟨hb, hgt⟩, rfl⟩
      have hm := (mem_countKeys d hd (zfill d (binDigits b))).1 (List.mem_map.2 ⟨b, List.mem_range.2 hb, rfl⟩)
      rw [hob]
      exact ⟨isBits_zfill _ _ (isBits_binDigits b), length_zfill _ _ (length_binDigits_le b d hd hb), hgt⟩
    · rintro ⟨hs, hl, hgt⟩
      refine ⟨ofBin s, ⟨by rw [← hl]; exact ofBin_lt s, hgt⟩, ?_⟩
      rw [← hl]; exact zfill_binDigits s hs (by omega)
  · rw [h6]
    congr 1
    unfold subsetProb
    congr 1
    apply List.map_congr_left
    intro s hs
    rw [heavy_eq h3] at hs
    obtain ⟨b, hb, rfl⟩ := List.mem_map.1 hs
    have hm : (zfill d (binDigits b), Complex.normSq (amps.getD b 0)) ∈ dist := by
      rw [(idealProb_eq h3).1]; exact List.mem_map.2 ⟨b, List.mem_of_mem_filter hb, rfl⟩
    rw [hob, Dict.getD, Dict.get?_of_mem dist (dist_wf h3) _ _ hm, Option.getD_some]

/-! ### C59: data -/

theorem last_data (ql : List (List ℕ)) (cs : List Call) (new : List Res) (rerun : Bool) (st : St)
    (h : run (init ql) (cs ++ [.data (some new) rerun]) = some st) :
    ∃ s0, run (init ql) cs = some s0 ∧ DataStep s0 st new rerun := by
  rw [run_append] at h
  cases h0 : run (init ql) cs with
  | none => simp [h0] at h
  | some s0 =>
    simp only [h0, Option.bind_some, run] at h
    cases h1 : addData s0 (some new) rerun with
    | none => simp [h1] at h
    | some s1 =>
      simp only [h1, Option.bind_some, Option.some.injEq] at h
      subst h
      exact ⟨s0, rfl, addData_spec s0 s1 new rerun h1⟩

theorem added_append (a b : List Call) : added (a ++ b) = added a ++ added b := by simp [added]

/-- The number of trials never decreases along a history of calls; it is the smallest number of which every trial
number met so far is smaller. -/
theorem C59_trials (ql : List (List ℕ)) (cs : List Call) (st : St) (h : run (init ql) cs = some st) :
    0 ≤ st.ntrials ∧
    (∀ r ∈ added cs, ∀ name ∈ r.map (·.1), ∃ t, trialOfName name = some t ∧ t + 1 ≤ st.ntrials) ∧
    (st.ntrials = 0 ∨ ∃ r ∈ added cs, ∃ name ∈ r.map (·.1), ∃ t, trialOfName name = some t ∧ st.ntrials = t + 1) ∧
    (∀ cs' st', run st cs' = some st' → st.ntrials ≤ st'.ntrials) := by
  have H := run_hist cs _ _ h
  refine ⟨H.mono, ?_, ?_, fun cs' st' h' => (run_hist cs' _ _ h').mono⟩
  · intro r hr name hn
    obtain ⟨e, he, rfl⟩ := List.mem_map.1 hn
    exact H.bound r hr e he
  · rcases H.att with e | ⟨r, hr, e, he, t, ht, e'⟩
    · exact Or.inl e
    · exact Or.inr ⟨r, hr, e.1, List.mem_map_of_mem he, t, ht, e'⟩

theorem heavy_stored_nodup {ql : List (List ℕ)} {cs : List Call} {st : St} (h : run (init ql) cs = some st) {name : Str} {heavy : List Str}
    (hh : st.heavyOutputs.get? name = some heavy) : heavy.Nodup := by
  have H := run_hist cs _ _ h
  by_cases hm : name ∈ (pairsOf (addedIdeal cs)).map (·.2)
  · obtain ⟨p, hp, rfl⟩ := List.mem_map.1 hm
    obtain ⟨d, amps, dist, h1, h2, h3, h4, h5, h6⟩ := H.new p hp
    rw [h5] at hh
    cases hh
    exact heavy_nodup dist (dist_wf h3) _
  · have := (H.only name hm).1
    rw [hh] at this
    simp [init] at this

/-- After any sequence of calls ending with an `add_data` that recomputes: for every trial and every width the stored
number of shots and of heavy shots are the sums, over all results added so far in whatever batches, of the shots
(with a heavy outcome) of that circuit. -/
theorem C59_sums (ql : List (List ℕ)) (cs : List Call) (new : List Res) (st : St)
    (h : run (init ql) (cs ++ [.data (some new) true]) = some st) (hg : ∀ r ∈ added cs ++ new, GoodRes r)
    (t : ℕ) (ht : (t : ℤ) < st.ntrials) (q : List ℕ) (hq : q ∈ ql) :
    ∃ heavy, st.heavyOutputs.get? (circName q.length t) = some heavy ∧
      st.circShots.get? (circName q.length t) = some (shotsIn (added cs ++ new) (circName q.length t)) ∧
      st.heavyCounts.get? (circName q.length t) = some (heavyIn (added cs ++ new) heavy (circName q.length t)) ∧
      shotsIn (added cs ++ new) (circName q.length t) ≠ 0 := by
  obtain ⟨s0, h0, D⟩ := last_data ql cs new true st h
  have H := run_hist _ _ _ h
  have hd : q.length ∈ st.depths := by rw [H.depths]; exact List.mem_map_of_mem hq
  obtain ⟨heavy, a0, a1, a2, a3, a4, a5⟩ := (D.stored rfl t q.length ht hd).ex
  have er : st.results = added cs ++ new := by
    rw [H.results, added_append]; simp [init, added]
  refine ⟨heavy, a0, ?_, ?_, ?_⟩
  · rw [a2, pooled_shots, er]
  · rw [a4, pooled_heavy _ _ _ (heavy_stored_nodup h a0) (by rw [er]; exact hg), er]
  · rw [← er, ← pooled_shots]; exact a1

/-- Heavy shots are never more than shots, and the stored heavy output probability is their quotient, a number
between 0 and 1. -/
theorem C58_counts (ql : List (List ℕ)) (cs : List Call) (new : List Res) (st : St)
    (h : run (init ql) (cs ++ [.data (some new) true]) = some st) (hg : ∀ r ∈ added cs ++ new, GoodRes r)
    (t : ℕ) (ht : (t : ℤ) < st.ntrials) (q : List ℕ) (hq : q ∈ ql) :
    ∃ (shots heavy : ℤ) (p : ℝ), st.circShots.get? (circName q.length t) = some shots ∧
      st.heavyCounts.get? (circName q.length t) = some heavy ∧ st.probExp.get? (circName q.length t) = some p ∧
      0 ≤ heavy ∧ heavy ≤ shots ∧ 0 < shots ∧ p = heavy / shots ∧ 0 ≤ p ∧ p ≤ 1 := by
  obtain ⟨hv, b0, b1, b2, b3⟩ := C59_sums ql cs new st h hg t ht q hq
  obtain ⟨s0, h0, D⟩ := last_data ql cs new true st h
  have H := run_hist _ _ _ h
  have hd : q.length ∈ st.depths := by rw [H.depths]; exact List.mem_map_of_mem hq
  obtain ⟨heavy, a0, a1, a2, a3, a4, a5⟩ := (D.stored rfl t q.length ht hd).ex
  rw [a2] at b1
  rw [a4] at b2
  obtain ⟨k1, k2⟩ := heavy_le (added cs ++ new) (circName q.length t) hv hg
  have e1 := Option.some.inj b1
  have e2 := Option.some.inj b2
  rw [← e1] at k2 b3
  rw [← e2] at k1 k2
  refine ⟨_, _, _, a2, a4, a5, k1, k2, by omega, rfl, ?_, ?_⟩
  · have h1 : (0 : ℝ) ≤ (subsetCounts heavy (pooled st.results (circName q.length t)) : ℤ) := by exact_mod_cast k1
    have h2 : (0 : ℝ) ≤ ((Dict.values (pooled st.results (circName q.length t))).sum : ℤ) := by exact_mod_cast k1.trans k2
    exact div_nonneg h1 h2
  · have h2 : (0 : ℝ) ≤ ((Dict.values (pooled st.results (circName q.length t))).sum : ℤ) := by exact_mod_cast k1.trans k2
    exact div_le_one_of_le₀ (by exact_mod_cast k2) h2

/-- The statistics of the `i`-th width after a history: with `n` trials, the measured mean is all heavy shots over all
shots of the width, over all trials and all results; its deviation is the binomial one with `n` trials. -/
theorem C58_mean (ql : List (List ℕ)) (cs : List Call) (new : List Res) (st : St)
    (h : run (init ql) (cs ++ [.data (some new) true]) = some st) (hg : ∀ r ∈ added cs ++ new, GoodRes r)
    (i : ℕ) (hi : i < ql.length) :
    ∃ (p q : ℝ) (heavy : ℕ → List Str), st.ydata[i]? = some (p, Real.sqrt (p * (1 - p) / st.ntrials), q, Real.sqrt (q * (1 - q) / st.ntrials)) ∧
      0 < st.ntrials ∧ (∀ t : ℕ, (t : ℤ) < st.ntrials → st.heavyOutputs.get? (circName ql[i].length t) = some (heavy t)) ∧
      p = (((List.range st.ntrials.toNat).map fun t => heavyIn (added cs ++ new) (heavy t) (circName ql[i].length t)).sum : ℤ) /
        (((List.range st.ntrials.toNat).map fun t => shotsIn (added cs ++ new) (circName ql[i].length t)).sum : ℤ) ∧
      0 ≤ p ∧ p ≤ 1 ∧
      q = ((List.range st.ntrials.toNat).map fun t => st.probIdeal.getD (circName ql[i].length t) 0).sum / st.ntrials := by
  obtain ⟨s0, h0, D⟩ := last_data ql cs new true st h
  have H := run_hist _ _ _ h
  have hdep : st.depths = ql.map List.length := H.depths
  have hid : i < st.depths.length := by rw [hdep]; simpa using hi
  obtain ⟨y, hy1, hy2⟩ := (D.stats rfl).2 i hid
  have edi : st.depths[i] = ql[i].length := by simp [hdep]
  rw [edi] at hy2
  have hmem : ql[i] ∈ ql := List.getElem_mem hi
  have hsum := fun (t : ℕ) (ht : (t : ℤ) < st.ntrials) => C59_sums ql cs new st h hg t ht ql[i] hmem
  choose! heavy b0 b1 b2 b3 using hsum
  -- the ideal probability is loaded for every name that has heavy outputs
  have hideal : ∀ t : ℕ, (t : ℤ) < st.ntrials → st.probIdeal.get? (circName ql[i].length t) = some (st.probIdeal.getD (circName ql[i].length t) 0) := by
    intro t ht
    have hv := b0 t ht
    by_cases hm : (circName ql[i].length t) ∈ (pairsOf (addedIdeal (cs ++ [.data (some new) true]))).map (·.2)
    · obtain ⟨p, hp, hpe⟩ := List.mem_map.1 hm
      obtain ⟨d, amps, dist, h1, h2, h3, h4, h5, h6⟩ := H.new p hp
      rw [hpe] at h6
      rw [Dict.getD, h6]; rfl
    · have := (H.only _ hm).1
      rw [hv] at this
      simp [init] at this
  obtain ⟨c1, c2, c3⟩ := statColumn_spec st ql[i].length y hy2
    (fun t ht => D.stored rfl t _ ht (by rw [hdep]; exact List.mem_map_of_mem hmem)) _ _ _ b2 b1 hideal
  have hn : ((st.ntrials.toNat : ℕ) : ℝ) = (st.ntrials : ℝ) := by
    have : ((st.ntrials.toNat : ℕ) : ℤ) = st.ntrials := by omega
    exact_mod_cast this
  have hbounds : 0 ≤ ((List.range st.ntrials.toNat).map fun t => heavyIn (added cs ++ new) (heavy t) (circName ql[i].length t)).sum ∧
      ((List.range st.ntrials.toNat).map fun t => heavyIn (added cs ++ new) (heavy t) (circName ql[i].length t)).sum ≤
      ((List.range st.ntrials.toNat).map fun t => shotsIn (added cs ++ new) (circName ql[i].length t)).sum := by
    constructor
    · apply List.sum_nonneg
      intro x hx
      obtain ⟨t, ht, rfl⟩ := List.mem_map.1 hx
      exact (heavy_le _ _ _ hg).1
    · apply List.sum_le_sum
      intro t ht
      exact (heavy_le _ _ _ hg).2
  refine ⟨_, _, heavy, ?_, by omega, b0, rfl, ?_, ?_, rfl⟩
  · rw [hy1, c1, hn]
  · apply div_nonneg
    · exact_mod_cast hbounds.1
    · exact_mod_cast hbounds.1.trans hbounds.2
  · apply div_le_one_of_le₀
    · exact_mod_cast hbounds.2
    · exact_mod_cast hbounds.1.trans hbounds.2

theorem z_iff (p n : ℝ) (hn : 0 < n) (h0 : 0 ≤ p) (h1 : p ≤ 1) :
    (p > 2 / 3 ∧ confidence (zValue p (Real.sqrt (p * (1 - p) / n))) > confidence 2) ↔ p - 2 * Real.sqrt (p * (1 - p) / n) > 2 / 3 := by
  set σ := Real.sqrt (p * (1 - p) / n) with hσ
  have hs0 : 0 ≤ σ := Real.sqrt_nonneg _
  have hmono : confidence (zValue p σ) > confidence 2 ↔ 2 < zValue p σ := confidence_strictMono.lt_iff_lt
  rw [hmono]
  unfold zValue
  simp only
  by_cases hz : σ = 0
  · rw [if_pos hz, hz]
    have hpp : p * (1 - p) / n = 0 := by
      have hnn : 0 ≤ p * (1 - p) / n := div_nonneg (mul_nonneg h0 (by linarith)) hn.le
      rw [hσ] at hz
      exact (Real.sqrt_eq_zero hnn).1 hz
    have hp : p = 0 ∨ p = 1 := by
      rw [div_eq_zero_iff] at hpp
      rcases hpp with h | h
      · rcases mul_eq_zero.1 h with h | h
        · exact Or.inl h
        · exact Or.inr (by linarith)
      · linarith
    rcases hp with rfl | rfl
    · norm_num
    · norm_num
  · rw [if_neg hz]
    have hpos : 0 < σ := lt_of_le_of_ne hs0 (Ne.symm hz)
    rw [lt_div_iff₀ hpos]
    constructor
    · rintro ⟨_, h⟩; linarith
    · intro h; exact ⟨by linarith, by linarith⟩

/-- Success is reported for a width exactly when the measured mean minus two of its standard deviations is above 2/3
(hence the mean itself is); the reported confidence level is `(1 + erf(z/√2))/2` for
`z = (mean − 2/3)/deviation`. -/
theorem C58_success (ql : List (List ℕ)) (cs : List Call) (new : List Res) (st : St)
    (h : run (init ql) (cs ++ [.data (some new) true]) = some st) (hg : ∀ r ∈ added cs ++ new, GoodRes r) :
    ∃ l, qvSuccess st = some l ∧ l.length = ql.length ∧ ∀ i (hi : i < ql.length), ∃ p : ℝ, ∃ rest b c,
      st.ydata[i]? = some (p, Real.sqrt (p * (1 - p) / st.ntrials), rest) ∧ l[i]? = some (b, c) ∧
      (b = true ↔ p > 2 / 3 ∧ p - 2 * Real.sqrt (p * (1 - p) / st.ntrials) > 2 / 3) ∧
      (Real.sqrt (p * (1 - p) / st.ntrials) ≠ 0 → c = (1 + erf ((p - 2 / 3) / Real.sqrt (p * (1 - p) / st.ntrials) / Real.sqrt 2)) / 2) := by
  classical
  have H := run_hist _ _ _ h
  have hdep : st.depths = ql.map List.length := H.depths
  have hm := fun i (hi : i < ql.length) => C58_mean ql cs new st h hg i hi
  let f : ℕ → Bool × ℝ := fun i =>
    let y := st.ydata.getD i (0, 0, 0, 0)
    (decide (y.1 > 2 / 3 ∧ confidence (zValue y.1 y.2.1) > confidence 2), confidence (zValue y.1 y.2.1))
  refine ⟨(List.range ql.length).map f, ?_, by simp, ?_⟩
  · unfold qvSuccess
    rw [mapM_some_iff]
    have el : st.depths.length = ql.length := by rw [hdep]; simp
    rw [el, List.map_map]
    apply List.map_congr_left
    intro i hi
    obtain ⟨p, q, heavy, hy, -⟩ := hm i (List.mem_range.1 hi)
    simp only [hy, Function.comp_def, f, List.getD_eq_getElem?_getD, Option.getD_some]
  · intro i hi
    obtain ⟨p, q, heavy, hy, hn, -, -, h0, h1, -⟩ := hm i hi
    have hn' : (0 : ℝ) < st.ntrials := by exact_mod_cast hn
    have ef : f i = (decide (p > 2 / 3 ∧ confidence (zValue p (Real.sqrt (p * (1 - p) / st.ntrials))) > confidence 2), confidence (zValue p (Real.sqrt (p * (1 - p) / st.ntrials)))) := by
      simp only [hy, f, List.getD_eq_getElem?_getD, Option.getD_some]
    refine ⟨p, _, _, _, hy, by rw [List.getElem?_map, List.getElem?_range hi, Option.map_some, ef], ?_, ?_⟩
    · rw [decide_eq_true_eq, z_iff p _ hn' h0 h1]
      constructor
      · intro hh
        have := Real.sqrt_nonneg (p * (1 - p) / st.ntrials)
        exact ⟨by linarith, hh⟩
      · exact And.right
    · intro hs
      unfold confidence zValue
      simp only [if_neg hs]
      norm_num
      ring

/-- Batching does not matter: two histories of calls that hand over the same ideal results and the same measured
results, in any order and split in any way over any number of calls, and that both end with a recomputing `add_data`,
give the same number of trials, the same heavy outputs, shots and heavy shots of every circuit, the same statistics
and the same verdict. -/
theorem C59_batching (ql : List (List ℕ)) (cs cs' : List Call) (new new' : List Res) (st st' : St)
    (h : run (init ql) (cs ++ [.data (some new) true]) = some st)
    (h' : run (init ql) (cs' ++ [.data (some new') true]) = some st')
    (hg : ∀ r ∈ added cs ++ new, GoodRes r)
    (hp : (added cs ++ new).Perm (added cs' ++ new')) (hi : (addedIdeal cs).Perm (addedIdeal cs')) :
    st.ntrials = st'.ntrials ∧
    (∀ name, st.heavyOutputs.get? name = st'.heavyOutputs.get? name ∧ st.probIdeal.get? name = st'.probIdeal.get? name) ∧
    (∀ t : ℕ, (t : ℤ) < st.ntrials → ∀ q ∈ ql, st.circShots.get? (circName q.length t) = st'.circShots.get? (circName q.length t) ∧
      st.heavyCounts.get? (circName q.length t) = st'.heavyCounts.get? (circName q.length t)) ∧
    st.ydata = st'.ydata ∧ qvSuccess st = qvSuccess st' := by
  have hg' : ∀ r ∈ added cs' ++ new', GoodRes r := fun r hr => hg r (hp.mem_iff.2 hr)
  have H := run_hist _ _ _ h
  have H' := run_hist _ _ _ h'
  have ha : added (cs ++ [.data (some new) true]) = added cs ++ new := by rw [added_append]; simp [added]
  have ha' : added (cs' ++ [.data (some new') true]) = added cs' ++ new' := by rw [added_append]; simp [added]
  have hd1 : addedIdeal (cs ++ [.data (some new) true]) = addedIdeal cs := by simp [addedIdeal]
  have hd2 : addedIdeal (cs' ++ [.data (some new') true]) = addedIdeal cs' := by simp [addedIdeal]
  have hN : st.ntrials = st'.ntrials := by
    have key : ∀ {cs cs' : List Call} {s s' : St}, Hist (init ql) s cs → Hist (init ql) s' cs' → (added cs).Perm (added cs') → s.ntrials ≤ s'.ntrials := by
      intro cs cs' s s' K K' hperm
      rcases K.att with e | ⟨r, hr, e, he, t, ht, e'⟩
      · rw [e]; exact K'.mono
      · obtain ⟨t', ht', hle⟩ := K'.bound r (hperm.mem_iff.1 hr) e he
        rw [ht] at ht'
        cases ht'
        omega
    rw [← ha, ← ha'] at hp
    exact le_antisymm (key H H' hp) (key H' H hp.symm)
  have hideal : ∀ name, st.heavyOutputs.get? name = st'.heavyOutputs.get? name ∧ st.probIdeal.get? name = st'.probIdeal.get? name := by
    intro name
    have hpp : (pairsOf (addedIdeal cs)).Perm (pairsOf (addedIdeal cs')) := hi.flatMap_right _
    by_cases hm : name ∈ (pairsOf (addedIdeal cs)).map (·.2)
    · obtain ⟨p, hpm, rfl⟩ := List.mem_map.1 hm
      obtain ⟨d, amps, dist, h1, h2, h3, h4, h5, h6⟩ := H.new p (by rw [hd1]; exact hpm)
      obtain ⟨d', amps', dist', k1, k2, k3, k4, k5, k6⟩ := H'.new p (by rw [hd2]; exact hpp.mem_iff.1 hpm)
      rw [h1] at k1; cases k1
      rw [h2] at k2; cases k2
      rw [h3] at k3; cases k3
      exact ⟨h5.trans k5.symm, h6.trans k6.symm⟩
    · have hm' : name ∉ (pairsOf (addedIdeal cs')).map (·.2) := fun hx => hm ((hpp.map _).mem_iff.2 hx)
      obtain ⟨a1, a2, a3⟩ := H.only name (by rw [hd1]; exact hm)
      obtain ⟨b1, b2, b3⟩ := H'.only name (by rw [hd2]; exact hm')
      exact ⟨a1.trans b1.symm, a3.trans b3.symm⟩
  have hcnt : ∀ t : ℕ, (t : ℤ) < st.ntrials → ∀ q ∈ ql, st.circShots.get? (circName q.length t) = st'.circShots.get? (circName q.length t) ∧
      st.heavyCounts.get? (circName q.length t) = st'.heavyCounts.get? (circName q.length t) := by
    intro t ht q hq
    obtain ⟨hv, a0, a1, a2, a3⟩ := C59_sums ql cs new st h hg t ht q hq
    obtain ⟨hv', b0, b1, b2, b3⟩ := C59_sums ql cs' new' st' h' hg' t (by rw [← hN]; exact ht) q hq
    rw [(hideal _).1, b0] at a0
    cases a0
    rw [a1, b1, a2, b2, shotsIn_perm hp, heavyIn_perm hp]
    exact ⟨rfl, rfl⟩
  have hy : st.ydata = st'.ydata := by
    obtain ⟨s0, -, D⟩ := last_data ql cs new true st h
    obtain ⟨s0', -, D'⟩ := last_data ql cs' new' true st' h'
    have ed : st.depths = ql.map List.length := H.depths
    have ed' : st'.depths = ql.map List.length := H'.depths
    have l1 : st.ydata.length = ql.length := by rw [(D.stats rfl).1, ed]; simp
    have l2 : st'.ydata.length = ql.length := by rw [(D'.stats rfl).1, ed']; simp
    apply List.ext_getElem?
    intro i
    by_cases hil : i < ql.length
    · obtain ⟨p, q, heavy, y1, y2, y3, y4, -, -, y5⟩ := C58_mean ql cs new st h hg i hil
      obtain ⟨p', q', heavy', z1, z2, z3, z4, -, -, z5⟩ := C58_mean ql cs' new' st' h' hg' i hil
      have hpe : p = p' := by
        have e1 : ((List.range st.ntrials.toNat).map fun t => heavyIn (added cs ++ new) (heavy t) (circName ql[i].length t)) =
            (List.range st.ntrials.toNat).map fun t => heavyIn (added cs' ++ new') (heavy' t) (circName ql[i].length t) := by
          apply List.map_congr_left
          intro t ht
          have ht' : (t : ℤ) < st.ntrials := by have := List.mem_range.1 ht; omega
          have : heavy t = heavy' t := by
            have a := y3 t ht'
            rw [(hideal _).1, z3 t (by rw [← hN]; exact ht')] at a
            exact (Option.some.inj a).symm
          rw [this, heavyIn_perm hp]
        have e2 : ((List.range st.ntrials.toNat).map fun t => shotsIn (added cs ++ new) (circName ql[i].length t)) =
            (List.range st.ntrials.toNat).map fun t => shotsIn (added cs' ++ new') (circName ql[i].length t) := by
          apply List.map_congr_left
          intro t ht
          rw [shotsIn_perm hp]
        rw [y4, z4, ← hN, e1, e2]
      have hqe : q = q' := by
        rw [y5, z5, ← hN]
        have e3 : ((List.range st.ntrials.toNat).map fun t => st.probIdeal.getD (circName ql[i].length t) 0) =
            (List.range st.ntrials.toNat).map fun t => st'.probIdeal.getD (circName ql[i].length t) 0 := by
          apply List.map_congr_left
          intro t ht
          unfold Dict.getD
          rw [(hideal _).2]
        rw [e3]
      rw [y1, z1, hpe, hqe, hN]
    · rw [List.getElem?_eq_none (by omega), List.getElem?_eq_none (by omega)]
  refine ⟨hN, hideal, hcnt, hy, ?_⟩
  have edd : st.depths = st'.depths := by rw [H.depths, H'.depths]
  unfold qvSuccess
  rw [hy, edd]

end Verif.QV
