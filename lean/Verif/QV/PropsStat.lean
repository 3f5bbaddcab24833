import Verif.QV.SpecStat
import Verif.QV.LemmasStat
import Verif.QV.PropsAcc
/-
C120: what the statistics and the verdict of the quantum volume fitter say about the device.
-/
namespace Verif.QV
open Verif Verif.Counts

/-! ### Counts -/

theorem heavyIn_eq (rs : List Res) (name : Str) (L : List Str) (hL : L.Nodup) (h : ∀ r ∈ rs, GoodRes r) :
    heavyIn rs L name = (L.map fun s => countIn rs name s).sum := by
  induction rs with
  | nil => simp [heavyIn, countIn]
  | cons r rs ih =>
    have ih' := ih fun x hx => h x (by simp [hx])
    have e1 : heavyIn (r :: rs) L name = (match r.get? name with
        | some c => ((c.filter fun kv => kv.1 ∈ L).map (·.2)).sum
        | none => 0) + heavyIn rs L name := by unfold heavyIn; rw [List.map_cons, List.sum_cons]; rfl
    have e2 : ∀ s, countIn (r :: rs) name s = (match r.get? name with
        | some c => c.getD s 0
        | none => 0) + countIn rs name s := fun s => by unfold countIn; rw [List.map_cons, List.sum_cons]; rfl
    rw [e1, ih']
    simp only [e2, List.sum_map_add]
    congr 1
    cases hc : r.get? name with
    | none => simp
    | some c =>
      have hwf := (h r (by simp) _ (Dict.get?_mem _ _ _ hc)).1
      simp only
      rw [← wsum_filter, ← sum_getD_eq L hL c hwf]
      rfl

theorem shotsIn_eq (rs : List Res) (name : Str) (L : List Str) (h : ∀ r ∈ rs, ∀ c, r.get? name = some c → ∀ kv ∈ c, kv.1 ∈ L) :
    shotsIn rs name = heavyIn rs L name := by
  unfold shotsIn heavyIn
  congr 1
  refine List.map_congr_left fun r hr => ?_
  cases hc : r.get? name with
  | none => rfl
  | some c =>
    simp only
    rw [List.filter_eq_self.2 fun kv hkv => decide_eq_true (h r hr c hc kv hkv)]
    rfl

open Classical in
theorem card_tally {N m : ℕ} (shot : Fin N → Fin m) (L : List Str) (hL : L.Nodup) (hinj : ∀ s ∈ L, ∀ s' ∈ L, ofBin s = ofBin s' → s = s') :
    (L.map fun s => ((Finset.univ.filter fun k => (shot k : ℕ) = ofBin s).card : ℤ)).sum = ((Finset.univ.filter fun k => ∃ s ∈ L, (shot k : ℕ) = ofBin s).card : ℤ) := by
  induction L with
  | nil => simp
  | cons a L ih =>
    rw [List.nodup_cons] at hL
    rw [List.map_cons, List.sum_cons, ih hL.2 fun s hs s' hs' => hinj s (by simp [hs]) s' (by simp [hs'])]
    rw [← Nat.cast_add, ← Finset.card_union_of_disjoint]
    · congr 2
      ext k
      simp
    · rw [Finset.disjoint_filter]
      rintro k _ h1 ⟨s, hs, h2⟩
      have := hinj a (by simp) s (by simp [hs]) (h1.symm.trans h2)
      exact hL.1 (this ▸ hs)

variable {Γ : Type} {n d N : ℕ} {ql : List (List ℕ)} {i : ℕ} {amps : Γ → List ℂ} {ω : Fin n → Trial Γ d N} {cs : List Call} {new : List Res} {st : St}

theorem Fitted.heavyIn_card (F : Fitted ql i amps ω cs new st) (t : Fin n) (L : List Str) (hL : L.Nodup) (hb : ∀ s ∈ L, IsBits s ∧ s.length = d) :
    heavyIn (added cs ++ new) L (circName d t) = ((Finset.univ.filter fun k => ∃ s ∈ L, ((ω t).2 k : ℕ) = ofBin s).card : ℤ) := by
  classical
  rw [heavyIn_eq _ _ L hL F.good]
  have e : L.map (fun s => countIn (added cs ++ new) (circName d t) s) = L.map fun s => ((Finset.univ.filter fun k => ((ω t).2 k : ℕ) = ofBin s).card : ℤ) :=
    List.map_congr_left fun s hs => by
      rw [F.tally t s (hb s hs).1 (hb s hs).2]
  rw [e, card_tally (ω t).2 L hL fun s hs s' hs' he => ofBin_inj s s' (hb s hs).1 (hb s' hs').1 ((hb s hs).2.trans (hb s' hs').2.symm) he]

theorem Fitted.shots (F : Fitted ql i amps ω cs new st) (hd : 1 ≤ d) (t : Fin n) : shotsIn (added cs ++ new) (circName d t) = N := by
  classical
  rw [shotsIn_eq _ _ (countKeys d) fun r hr c hc kv hkv => (mem_countKeys d hd _).2 (F.keys r hr t c hc kv hkv),
    F.heavyIn_card t _ (nodup_countKeys d) fun s hs => (mem_countKeys d hd s).1 hs]
  rw [Finset.filter_true_of_mem]
  · simp
  · intro k _
    have hlt := ((ω t).2 k).2
    exact ⟨zfill d (binDigits ((ω t).2 k : ℕ)), List.mem_map.2 ⟨_, List.mem_range.2 hlt, rfl⟩, by rw [ofBin_zfill, ofBin_binDigits]⟩

theorem Fitted.ntrials (F : Fitted ql i amps ω cs new st) (hd : 1 ≤ d) (hn : 0 < n) (hN : 0 < N) : st.ntrials = n := by
  have H := run_hist _ _ _ F.calls
  have ha : added (cs ++ [.data (some new) true]) = added cs ++ new := by rw [added_append]; simp [added]
  have h1 : (n : ℤ) ≤ st.ntrials := by
    have hs := F.shots hd ⟨n - 1, by omega⟩
    have hex : ∃ r ∈ added cs ++ new, ∃ c, r.get? (circName d (n - 1)) = some c := by
      by_contra hno
      push Not at hno
      have : shotsIn (added cs ++ new) (circName d (n - 1)) = 0 := by
        unfold shotsIn
        refine List.sum_eq_zero fun x hx => ?_
        obtain ⟨r, hr, rfl⟩ := List.mem_map.1 hx
        cases hc : r.get? (circName d (n - 1)) with
        | none => rfl
        | some c => exact absurd hc (hno r hr c)
      simp only at hs
      omega
    obtain ⟨r, hr, c, hc⟩ := hex
    obtain ⟨t, ht, hle⟩ := H.bound r (by rw [ha]; exact hr) _ (Dict.get?_mem _ _ _ hc)
    simp only [(name_read_back d (n - 1)).2, Option.some.injEq] at ht
    omega
  rcases H.att with e | ⟨r, hr, e, he, t, ht, et⟩
  · have : st.ntrials = 0 := e
    omega
  · have := F.trials r (by rw [← ha]; exact hr) e he t ht
    omega

theorem Fitted.heavy (F : Fitted ql i amps ω cs new st) (hd : 1 ≤ d) (t : Fin n) (heavy : List Str)
    (hh : st.heavyOutputs.get? (circName d t) = some heavy) : heavyIn (added cs ++ new) heavy (circName d t) = (heavyShots amps (ω t) : ℤ) := by
  classical
  have H := run_hist _ _ _ F.calls
  have hi : addedIdeal (cs ++ [.data (some new) true]) = addedIdeal cs := by simp [addedIdeal]
  have hex : ∃ r ∈ addedIdeal cs, circName d t ∈ r.map (·.1) := by
    by_contra hno
    push Not at hno
    have := (H.only (circName d t) (by
      rw [hi]
      intro hm
      obtain ⟨p, hp, he⟩ := List.mem_map.1 hm
      obtain ⟨r, hr, hp'⟩ := List.mem_flatMap.1 hp
      obtain ⟨e, he', rfl⟩ := List.mem_map.1 hp'
      exact hno r hr (he ▸ List.mem_map_of_mem he'))).1
    rw [hh] at this
    simp [init] at this
  obtain ⟨r, hr, hm⟩ := hex
  obtain ⟨d', a, m, heavy', h1, h2, h3, h4, h5, h6, h7, h8, h9⟩ := C58_heavy_outputs ql _ st F.calls r (by rw [hi]; exact hr) _ hm
  rw [(name_read_back d t).1] at h1
  obtain rfl := Option.some.inj h1
  rw [hh] at h5
  obtain rfl := Option.some.inj h5
  have ea := F.ideal r hr t a h2
  have hbits : ∀ s ∈ heavy, IsBits s ∧ s.length = d := fun s hs => ⟨((h8 hd s).1 hs).1, ((h8 hd s).1 hs).2.1⟩
  rw [F.heavyIn_card t heavy h6 hbits]
  unfold heavyShots
  congr 2
  ext k
  simp only [Finset.mem_filter, Finset.mem_univ, true_and]
  constructor
  · rintro ⟨s, hs, e⟩
    refine ⟨m, ea ▸ h4, ?_⟩
    rw [e, ← ea]
    exact ((h8 hd s).1 hs).2.2
  · rintro ⟨m', hm', hgt⟩
    rw [← ea] at hm' hgt
    rw [isMedian_unique hm' h4] at hgt
    have hlt := ((ω t).2 k).2
    have hmem := (mem_countKeys d hd (zfill d (binDigits ((ω t).2 k : ℕ)))).1 (List.mem_map.2 ⟨_, List.mem_range.2 hlt, rfl⟩)
    have hob : ofBin (zfill d (binDigits ((ω t).2 k : ℕ))) = ((ω t).2 k : ℕ) := by rw [ofBin_zfill, ofBin_binDigits]
    exact ⟨_, (h8 hd _).2 ⟨hmem.1, hmem.2, by rw [hob]; exact hgt⟩, hob.symm⟩

/-! ### C120 -/

/-- **C120** (report).  After any history of calls that hands over `n` trials of `N` shots each, the mean that the fitter reports for a width is the share
of heavy shots, its error bar the binomial one for `n` trials; and success is reported exactly if the share of heavy shots exceeds
`2/3 + 4 / (3 (1 + √(2n + 9)))`. -/
theorem C120_report (hd : 1 ≤ d) (hn : 0 < n) (hN : 0 < N) (F : Fitted ql i amps ω cs new st) :
    ∃ rest l b c, st.ydata[i]? = some (heavyShare amps ω, Real.sqrt (heavyShare amps ω * (1 - heavyShare amps ω) / n), rest) ∧
      qvSuccess st = some l ∧ l[i]? = some (b, c) ∧ (b = true ↔ heavyShare amps ω > threshold n) ∧ 0 ≤ heavyShare amps ω ∧ heavyShare amps ω ≤ 1 := by
  obtain ⟨q, hq, hqd⟩ := F.width
  obtain ⟨hi, hqi⟩ := List.getElem?_eq_some_iff.1 hq
  have hnt := F.ntrials hd hn hN
  obtain ⟨p, y2, heavy, hy, hpos, hh, hp, hp0, hp1, -⟩ := C58_mean ql cs new st F.calls F.good i hi
  obtain ⟨l, hl, hll, hs⟩ := C58_success ql cs new st F.calls F.good
  obtain ⟨p', rest, b, c, hy', hb, hbi, -⟩ := hs i hi
  rw [hy] at hy'
  obtain ⟨rfl, e⟩ := Prod.mk.inj (Option.some.inj hy')
  rw [hqi, hqd] at hp hh
  have htn : st.ntrials.toNat = n := by omega
  have hsh : p = heavyShare amps ω := by
    rw [hp, htn]
    have e1 : (List.range n).map (fun t => heavyIn (added cs ++ new) (heavy t) (circName d t)) = (List.finRange n).map fun t => (heavyShots amps (ω t) : ℤ) := by
      rw [← List.map_coe_finRange_eq_range, List.map_map]
      refine List.map_congr_left fun t _ => F.heavy hd t _ (hh t ?_)
      rw [hnt]; exact_mod_cast t.2
    have e2 : (List.range n).map (fun t => shotsIn (added cs ++ new) (circName d t)) = (List.finRange n).map fun _ => (N : ℤ) := by
      rw [← List.map_coe_finRange_eq_range, List.map_map]
      exact List.map_congr_left fun t _ => F.shots hd t
    rw [e1, e2, ← Fin.sum_univ_def, ← Fin.sum_univ_def]
    unfold heavyShare
    simp
  have hnr : (st.ntrials : ℝ) = n := by rw [hnt]; simp
  rw [hnr] at hy hbi
  rw [hsh] at hy hbi hp0 hp1
  refine ⟨_, l, b, c, hy, hl, hb, ?_, hp0, hp1⟩
  rw [hbi, two_sigma_iff _ _ (by exact_mod_cast hn) hp0 hp1]
  rfl

/-! ### Probabilities -/

variable [Fintype Γ] {μ : Γ → ℝ} {D : Γ → Fin (2 ^ d) → ℝ}

theorem trialProb_dist (hμ : IsDist μ) (hD : ∀ γ, IsDist (D γ)) : IsDist (trialProb (N := N) μ D) := by
  refine ⟨fun x => mul_nonneg (hμ.1 _) (Finset.prod_nonneg fun k _ => (hD _).1 _), ?_⟩
  rw [Fintype.sum_prod_type]
  unfold trialProb
  simp only [← Finset.mul_sum, draws_sum_one N (D _) (hD _).2]
  simpa using hμ.2

/-- The share of heavy shots in one trial. -/
noncomputable def trialShare (amps : Γ → List ℂ) (x : Trial Γ d N) : ℝ := (heavyShots amps x : ℝ) / N

omit [Fintype Γ] in
theorem trialShare_bounds (amps : Γ → List ℂ) (x : Trial Γ d N) : 0 ≤ trialShare amps x ∧ trialShare amps x ≤ 1 := by
  classical
  have h : heavyShots amps x ≤ N := by
    unfold heavyShots
    exact le_trans (Finset.card_le_univ _) (by simp)
  refine ⟨by unfold trialShare; positivity, div_le_one_of_le₀ (by exact_mod_cast h) (by positivity)⟩

theorem trialShare_mean (hN : 0 < N) (hD : ∀ γ, IsDist (D γ)) : ∑ x : Trial Γ d N, trialProb μ D x * trialShare amps x = heavyProb μ amps D := by
  classical
  rw [Fintype.sum_prod_type]
  unfold heavyProb
  refine Finset.sum_congr rfl fun γ _ => ?_
  have e : ∀ s : Fin N → Fin (2 ^ d), trialProb μ D (γ, s) * trialShare amps (γ, s) =
      μ γ * ((∏ k, D γ (s k)) * avg (fun b : Fin (2 ^ d) => if IsHeavy d (amps γ) b then (1 : ℝ) else 0) s) := by
    intro s
    unfold trialProb trialShare heavyShots avg
    simp only [Finset.sum_boole]
    rw [mul_assoc]
  simp only [e, ← Finset.mul_sum]
  rw [avg_mean N hN (D γ) (hD γ).2]
  congr 1
  refine Finset.sum_congr rfl fun b _ => ?_
  by_cases hb : IsHeavy d (amps γ) b <;> simp [hb]

omit [Fintype Γ] in
theorem heavyShare_avg (amps : Γ → List ℂ) (ω : Fin n → Trial Γ d N) : heavyShare amps ω = avg (trialShare amps) ω := by
  unfold heavyShare avg trialShare
  rw [← Finset.sum_div, div_div, mul_comm (N : ℝ)]

/-- The trials have a probability distribution. -/
theorem C120_distribution (hμ : IsDist μ) (hD : ∀ γ, IsDist (D γ)) : IsDist (expProb (n := n) (N := N) μ D) :=
  ⟨fun _ => Finset.prod_nonneg fun _ _ => (trialProb_dist hμ hD).1 _, draws_sum_one n _ (trialProb_dist hμ hD).2⟩

/-- **C120** (mean and error bar).  Over random circuits and shots, the reported mean is on average the heavy output probability `h` of the device.  Its
variance is at most `h (1 - h) / n`, the square of the error bar the fitter would report for the exact value, however many shots are taken.  The reported
squared error bar is on average at least `(1 - 1/n)` times the variance. -/
theorem C120_estimate (hn : 0 < n) (hN : 0 < N) (hμ : IsDist μ) (hD : ∀ γ, IsDist (D γ)) (amps : Γ → List ℂ) :
    ∑ ω : Fin n → Trial Γ d N, expProb μ D ω * heavyShare amps ω = heavyProb μ amps D ∧
    ∑ ω : Fin n → Trial Γ d N, expProb μ D ω * (heavyShare amps ω - heavyProb μ amps D) ^ 2 ≤ heavyProb μ amps D * (1 - heavyProb μ amps D) / n ∧
    (1 - 1 / n) * ∑ ω : Fin n → Trial Γ d N, expProb μ D ω * (heavyShare amps ω - heavyProb μ amps D) ^ 2 ≤
      ∑ ω : Fin n → Trial Γ d N, expProb μ D ω * Real.sqrt (heavyShare amps ω * (1 - heavyShare amps ω) / n) ^ 2 := by
  have hw := trialProb_dist (N := N) hμ hD
  have hX := trialShare_mean (amps := amps) (μ := μ) hN hD
  have hm := avg_mean n hn _ hw.2 (trialShare (N := N) amps)
  rw [hX] at hm
  have hv := avg_variance n hn _ hw.2 (trialShare (N := N) amps) _ hX
  have hv2 := variance_le _ hw.1 (trialShare (N := N) amps) (fun x => (trialShare_bounds amps x).1) (fun x => (trialShare_bounds amps x).2) _ hX
  have hn' : (0 : ℝ) < n := by exact_mod_cast hn
  have hone := (C120_distribution (n := n) (N := N) hμ hD).2
  simp only [heavyShare_avg]
  set h := heavyProb μ amps D with hh
  have hvar : ∑ ω : Fin n → Trial Γ d N, expProb μ D ω * (avg (trialShare amps) ω - h) ^ 2 ≤ h * (1 - h) / n := by
    unfold expProb
    rw [hv]
    exact div_le_div_of_nonneg_right hv2 hn'.le
  refine ⟨hm, hvar, ?_⟩
  have hb : ∀ ω : Fin n → Trial Γ d N, 0 ≤ avg (trialShare amps) ω ∧ avg (trialShare amps) ω ≤ 1 := by
    intro ω
    refine ⟨div_nonneg (Finset.sum_nonneg fun t _ => (trialShare_bounds amps _).1) hn'.le, div_le_one_of_le₀ ?_ hn'.le⟩
    refine le_trans (Finset.sum_le_sum fun t _ => (trialShare_bounds amps (ω t)).2) ?_
    simp
  have e : ∀ ω : Fin n → Trial Γ d N, expProb μ D ω * Real.sqrt (avg (trialShare amps) ω * (1 - avg (trialShare amps) ω) / n) ^ 2 =
      ((1 - 2 * h) * (expProb μ D ω * avg (trialShare amps) ω) + h ^ 2 * expProb μ D ω - expProb μ D ω * (avg (trialShare amps) ω - h) ^ 2) / n := by
    intro ω
    rw [Real.sq_sqrt (div_nonneg (mul_nonneg (hb ω).1 (by linarith [(hb ω).2])) hn'.le)]
    ring
  simp only [e]
  rw [← Finset.sum_div, Finset.sum_sub_distrib, Finset.sum_add_distrib, ← Finset.mul_sum, ← Finset.mul_sum, hone]
  have hm' : ∑ ω : Fin n → Trial Γ d N, expProb μ D ω * avg (trialShare amps) ω = h := hm
  rw [hm']
  set V := ∑ ω : Fin n → Trial Γ d N, expProb μ D ω * (avg (trialShare amps) ω - h) ^ 2 with hV
  rw [le_div_iff₀ hn'] at hvar ⊢
  have : (1 - 1 / (n : ℝ)) * V * n = V * n - V := by field_simp
  rw [this]
  linarith

/-- The verdict for the `i`-th width. -/
def Success (st : St) (i : ℕ) : Prop := ∃ l b, qvSuccess st = some l ∧ l[i]? = some (true, b)

omit [Fintype Γ] in
theorem success_iff (hd : 1 ≤ d) (hn : 0 < n) (hN : 0 < N) (F : Fitted ql i amps ω cs new st) : Success st i ↔ heavyShare amps ω > threshold n := by
  obtain ⟨rest, l, b, c, h1, h2, h3, h4, h5, h6⟩ := C120_report hd hn hN F
  rw [← h4]
  constructor
  · rintro ⟨l', c', e1, e2⟩
    rw [h2] at e1
    obtain rfl := Option.some.inj e1
    rw [h3] at e2
    exact (Prod.mk.inj (Option.some.inj e2)).1
  · rintro rfl
    exact ⟨l, c, h2, h3⟩

open Classical in
/-- **C120** (wrong success).  If the heavy output probability of the device is at most 2/3, success is reported with probability at most
`exp (-4n / (1 + √(2n + 9))²)`, for every family of circuits, every device and every number of shots.  The bound decreases from 0.81 for one trial to 0.19
for 100 trials and approaches `e⁻² ≈ 0.14`. -/
theorem C120_wrong_success (hd : 1 ≤ d) (hn : 0 < n) (hN : 0 < N) (hμ : IsDist μ) (hD : ∀ γ, IsDist (D γ)) (amps : Γ → List ℂ) (hh : heavyProb μ amps D ≤ 2 / 3)
    (ql : List (List ℕ)) (i : ℕ) (cs : (Fin n → Trial Γ d N) → List Call) (new : (Fin n → Trial Γ d N) → List Res) (st : (Fin n → Trial Γ d N) → St)
    (F : ∀ ω, Fitted ql i amps ω (cs ω) (new ω) (st ω)) :
    (∑ ω, if Success (st ω) i then expProb μ D ω else 0) ≤ Real.exp (-(4 * n / (1 + Real.sqrt (2 * n + 9)) ^ 2)) := by
  have hw := trialProb_dist (N := N) hμ hD
  have := chernoff n _ hw.1 hw.2 (trialShare (N := N) amps) (fun x => (trialShare_bounds amps x).1) (fun x => (trialShare_bounds amps x).2) _
    (trialShare_mean hN hD) hh (4 / (3 * (1 + Real.sqrt (2 * n + 9)))) (by positivity) (fun ω => Success (st ω) i)
    fun ω hω => by
      have := (success_iff hd hn hN (F ω)).1 hω
      rw [heavyShare_avg] at this
      exact le_of_lt this
  refine le_trans this (Real.exp_le_exp.2 (le_of_eq ?_))
  have : (1 + Real.sqrt (2 * n + 9)) ≠ 0 := by positivity
  field_simp
  norm_num

open Classical in
/-- **C120** (missed success).  If the heavy output probability `h` of the device is above the threshold for `n` trials, success is missed with probability
at most `h (1 - h) / (n (h - threshold)²)`. -/
theorem C120_missed_success (hd : 1 ≤ d) (hn : 0 < n) (hN : 0 < N) (hμ : IsDist μ) (hD : ∀ γ, IsDist (D γ)) (amps : Γ → List ℂ)
    (hh : threshold n < heavyProb μ amps D) (ql : List (List ℕ)) (i : ℕ) (cs : (Fin n → Trial Γ d N) → List Call) (new : (Fin n → Trial Γ d N) → List Res)
    (st : (Fin n → Trial Γ d N) → St) (F : ∀ ω, Fitted ql i amps ω (cs ω) (new ω) (st ω)) :
    (∑ ω, if Success (st ω) i then 0 else expProb μ D ω) ≤ heavyProb μ amps D * (1 - heavyProb μ amps D) / (n * (heavyProb μ amps D - threshold n) ^ 2) := by
  have hw := trialProb_dist (N := N) hμ hD
  have := chebyshev n hn _ hw.1 hw.2 (trialShare (N := N) amps) (fun x => (trialShare_bounds amps x).1) (fun x => (trialShare_bounds amps x).2) _
    (trialShare_mean hN hD) (threshold n) hh (fun ω => ¬ Success (st ω) i)
    fun ω hω => by
      rw [success_iff hd hn hN (F ω), heavyShare_avg] at hω
      exact not_lt.1 hω
  refine le_trans (le_of_eq (Finset.sum_congr rfl fun ω _ => ?_)) this
  by_cases h : Success (st ω) i <;> simp [h, expProb]

/-! ### The hypotheses are met -/

/-- The counts of a list of outcome strings, as a backend collects them. -/
def tallyCounts (l : List Str) : Counts := l.foldl (fun d k => d.set k (d.getD k 0 + 1)) []

theorem tallyCounts_spec (l : List Str) : (tallyCounts l).WF ∧ (∀ k, (tallyCounts l).getD k 0 = (l.count k : ℤ)) ∧ ∀ k, k ∈ (tallyCounts l).map (·.1) ↔ k ∈ l := by
  induction l using List.reverseRecOn with
  | nil => exact ⟨Dict.wf_nil, fun k => rfl, fun k => by simp [tallyCounts]⟩
  | append_singleton l x ih =>
    obtain ⟨h1, h2, h3⟩ := ih
    have e : tallyCounts (l ++ [x]) = (tallyCounts l).set x ((tallyCounts l).getD x 0 + 1) := by
      unfold tallyCounts
      rw [List.foldl_append]; rfl
    rw [e]
    refine ⟨Dict.wf_set _ h1 _ _, fun k => ?_, fun k => ?_⟩
    · rw [Dict.getD_set, h2, h2, List.count_append, List.count_singleton]
      by_cases hk : k = x
      · subst hk; simp
      · simp [Ne.symm hk]
    · have := Dict.mem_keys_set (tallyCounts l) x k ((tallyCounts l).getD x 0 + 1)
      rw [this, h3]
      simp [or_comm]

/-- The ideal result of the trials, as the simulator returns it for the circuits. -/
def idealOf {Γ : Type} {n d N : ℕ} (amps : Γ → List ℂ) (ω : Fin n → Trial Γ d N) : IdealRes := (List.finRange n).map fun t : Fin n => (circName d t, amps (ω t).1)

/-- The measured result of the trials. -/
def resOf {Γ : Type} {n d N : ℕ} (ω : Fin n → Trial Γ d N) : Res :=
  (List.finRange n).map fun t : Fin n => (circName d t, tallyCounts ((List.finRange N).map fun k => zfill d (binDigits ((ω t).2 k : ℕ))))

theorem names_nodup (n d : ℕ) : ((List.finRange n).map fun t : Fin n => circName d t).Nodup :=
  (List.nodup_finRange n).map fun _ _ e => Fin.ext (circName_inj e).2

omit [Fintype Γ] in
theorem idealOf_get (amps : Γ → List ℂ) (ω : Fin n → Trial Γ d N) (t : Fin n) : (idealOf amps ω).get? (circName d t) = some (amps (ω t).1) :=
  Dict.get?_of_mem _ (by show ((idealOf amps ω).map (·.1)).Nodup; unfold idealOf; rw [List.map_map]; exact names_nodup n d) _ _
    (List.mem_map.2 ⟨t, List.mem_finRange t, rfl⟩)

omit [Fintype Γ] in
theorem resOf_get (ω : Fin n → Trial Γ d N) (t : Fin n) :
    (resOf ω).get? (circName d t) = some (tallyCounts ((List.finRange N).map fun k => zfill d (binDigits ((ω t).2 k : ℕ)))) :=
  Dict.get?_of_mem _ (by show ((resOf ω).map (·.1)).Nodup; unfold resOf; rw [List.map_map]; exact names_nodup n d) _ _
    (List.mem_map.2 ⟨t, List.mem_finRange t, rfl⟩)

omit [Fintype Γ] in
/-- Handing over the ideal results and then the counts of any trials is accepted: the theorems apply to every experiment with at least one shot per trial. -/
theorem C120_experiment (hd : 1 ≤ d) (hn : 0 < n) (hN : 0 < N) (amps : Γ → List ℂ) (hamps : ∀ γ, 2 ^ d ≤ (amps γ).length) (ω : Fin n → Trial Γ d N)
    (q : List ℕ) (hq : q.length = d) : ∃ st, Fitted [q] 0 amps ω [.statevectors (some [idealOf amps ω])] [resOf ω] st := by
  obtain ⟨s, hs⟩ : ∃ s, addStatevectors (init [q]) (some [idealOf amps ω]) = some s := by
    apply C58_ideal_accepted
    · have := names_nodup n d
      simpa [pairsOf, idealOf, Function.comp_def] using this
    · intro r hr e he; simp [init]
    · intro r hr e he
      simp only [List.mem_singleton] at hr
      subst hr
      obtain ⟨t, _, rfl⟩ := List.mem_map.1 he
      exact ⟨d, _, (name_read_back d t).1, idealOf_get amps ω t, hamps _⟩
  have H := sv_hist _ _ _ hs
  have hst : ∀ t : Fin n, IdealStored s (idealOf amps ω) (circName d t) := fun t =>
    H.new (idealOf amps ω, circName d t) (by
      simp only [addedIdeal, pairsOf, List.flatMap_cons, List.flatMap_nil, List.append_nil]
      exact List.mem_map.2 ⟨(circName d t, amps (ω t).1), List.mem_map.2 ⟨t, List.mem_finRange t, rfl⟩, rfl⟩)
  have hr : s.results = [] := by rw [H.results]; simp [init, added]
  have hdep : s.depths = [d] := by rw [H.depths]; simp [init, hq]
  have hnt : s.ntrials = 0 := by
    rcases H.att with e | ⟨r, hr, -⟩
    · exact e
    · simp [added] at hr
  have hhas : ∀ t : Fin n, s.heavyOutputs.has (circName d t) = true ∧ s.probIdeal.has (circName d t) = true := by
    intro t
    obtain ⟨d', a, dist, k1, k2, k3, k4, k5, k6⟩ := hst t
    simp only [Dict.has, k5, k6]; exact ⟨rfl, rfl⟩
  have hgood : GoodRes (resOf ω) := by
    intro e he
    obtain ⟨t, _, rfl⟩ := List.mem_map.1 he
    obtain ⟨h1, h2, h3⟩ := tallyCounts_spec ((List.finRange N).map fun k => zfill d (binDigits ((ω t).2 k : ℕ)))
    refine ⟨h1, fun kv hkv => ?_⟩
    have := h2 kv.1
    rw [Dict.getD, Dict.get?_of_mem _ h1 kv.1 kv.2 hkv, Option.getD_some] at this
    rw [this]; positivity
  have hkeys : ∀ (t : Fin n) (c : Counts), (resOf ω).get? (circName d t) = some c → ∀ kv ∈ c, IsBits kv.1 ∧ kv.1.length = d := by
    intro t c hc kv hkv
    rw [resOf_get] at hc
    obtain rfl := Option.some.inj hc
    obtain ⟨k, _, e⟩ := List.mem_map.1 (((tallyCounts_spec _).2.2 kv.1).1 (List.mem_map_of_mem hkv))
    rw [← e]
    exact (mem_countKeys d hd _).1 (List.mem_map.2 ⟨_, List.mem_range.2 ((ω t).2 k).2, rfl⟩)
  classical
  have htally : ∀ (t : Fin n) (b : Str), IsBits b → b.length = d →
      countIn [resOf ω] (circName d t) b = ((Finset.univ.filter fun k => ((ω t).2 k : ℕ) = ofBin b).card : ℤ) := by
    intro t b hb hl
    have e0 : countIn [resOf ω] (circName d t) b = (tallyCounts ((List.finRange N).map fun k => zfill d (binDigits ((ω t).2 k : ℕ)))).getD b 0 := by
      simp [countIn, resOf_get]
    rw [e0, (tallyCounts_spec _).2.1 b, List.count_eq_countP, List.countP_map, List.countP_eq_length_filter]
    have e : (Finset.univ.filter fun k => ((ω t).2 k : ℕ) = ofBin b) =
        ((List.finRange N).filter ((fun x => x == b) ∘ fun k => zfill d (binDigits ((ω t).2 k : ℕ)))).toFinset := by
      ext k
      simp only [Finset.mem_filter, Finset.mem_univ, true_and, List.mem_toFinset, List.mem_filter, List.mem_finRange, Function.comp_apply, beq_iff_eq]
      constructor
      · intro h
        rw [h, ← hl]; exact zfill_binDigits b hb (by omega)
      · intro h
        rw [← h, ofBin_zfill, ofBin_binDigits]
    rw [e, List.toFinset_card_of_nodup ((List.nodup_finRange N).filter _)]
  have hshots : ∀ t : Fin n, shotsIn [resOf ω] (circName d t) = N := by
    intro t
    rw [shotsIn_eq _ _ (countKeys d) fun r hr c hc kv hkv => by
      simp only [List.mem_singleton] at hr
      subst hr
      exact (mem_countKeys d hd _).2 (hkeys t c hc kv hkv)]
    rw [heavyIn_eq _ _ _ (nodup_countKeys d) fun r hr => by simp only [List.mem_singleton] at hr; subst hr; exact hgood]
    have e : (countKeys d).map (fun s => countIn [resOf ω] (circName d t) s) = (countKeys d).map fun s => ((Finset.univ.filter fun k => ((ω t).2 k : ℕ) = ofBin s).card : ℤ) :=
      List.map_congr_left fun s hs => htally t s ((mem_countKeys d hd s).1 hs).1 ((mem_countKeys d hd s).1 hs).2
    rw [e, card_tally (ω t).2 _ (nodup_countKeys d) fun s hs s' hs' he => by
      have h1 := (mem_countKeys d hd s).1 hs
      have h2 := (mem_countKeys d hd s').1 hs'
      exact ofBin_inj s s' h1.1 h2.1 (h1.2.trans h2.2.symm) he]
    rw [Finset.filter_true_of_mem]
    · simp
    · intro k _
      exact ⟨zfill d (binDigits ((ω t).2 k : ℕ)), List.mem_map.2 ⟨_, List.mem_range.2 ((ω t).2 k).2, rfl⟩, by rw [ofBin_zfill, ofBin_binDigits]⟩
  obtain ⟨st, hst'⟩ : ∃ st, addData s (some [resOf ω]) true = some st := by
    refine C59_data_accepted s [resOf ω] n (by omega) ?_ ?_ ?_ (Or.inr ⟨resOf ω, by simp, ?_⟩)
    · rw [hr]; intro r h; simp only [List.nil_append, List.mem_singleton] at h; subst h; exact hgood
    · intro r h e he
      simp only [List.mem_singleton] at h
      subst h
      obtain ⟨t, _, rfl⟩ := List.mem_map.1 he
      exact ⟨t, (name_read_back d t).2, by have := t.2; omega, (hhas t).2⟩
    · intro t d' ht hd'
      rw [hdep] at hd'
      simp only [List.mem_singleton] at hd'
      subst hd'
      have ht' : t < n := by omega
      refine ⟨(hhas ⟨t, ht'⟩).1, (hhas ⟨t, ht'⟩).2, ?_⟩
      rw [hr, List.nil_append]
      have := hshots ⟨t, ht'⟩
      simp only at this
      omega
    · intro e
      have := congrArg List.length e
      simp [resOf] at this
      omega
  have hadd : added [.statevectors (some [idealOf amps ω])] ++ [resOf ω] = [resOf ω] := by simp [added]
  refine ⟨st, ⟨⟨q, rfl, hq⟩, ?_, ?_, ?_, ?_, ?_, ?_⟩⟩
  · simp only [List.singleton_append, run, hs, Option.bind_some, hst']
  · rw [hadd]; intro r hr; simp only [List.mem_singleton] at hr; subst hr; exact hgood
  · intro r hr t a ha
    have : r = idealOf amps ω := by simpa [addedIdeal] using hr
    subst this
    rw [idealOf_get] at ha
    exact (Option.some.inj ha).symm
  · rw [hadd]; intro r hr e he t ht
    simp only [List.mem_singleton] at hr
    subst hr
    obtain ⟨t', _, rfl⟩ := List.mem_map.1 he
    simp only [(name_read_back d t').2, Option.some.injEq] at ht
    have := t'.2
    omega
  · rw [hadd]; intro r hr t c hc
    simp only [List.mem_singleton] at hr
    subst hr
    exact hkeys t c hc
  · rw [hadd]; intro t b hb hl
    rw [htally t b hb hl]

/-! ### The documented confidence level -/

/-- One qubit, ideal state `|0⟩`; the device gives 0 with probability 2/3. -/
noncomputable def exDev : Unit → Fin (2 ^ 1) → ℝ := fun _ b => if b = 0 then 2 / 3 else 1 / 3

theorem exHeavy (b : Fin (2 ^ 1)) : IsHeavy 1 [1, 0] b ↔ b = 0 := by
  have hm : IsMedian ((List.range (2 ^ 1)).map fun b => Complex.normSq (([1, 0] : List ℂ).getD b 0)) (1 / 2) :=
    ⟨[0, 1], by simp [List.range_succ, List.Perm.swap], by simp, by simp⟩
  constructor
  · rintro ⟨m, h1, h2⟩
    rw [isMedian_unique h1 hm] at h2
    have key : ∀ c : Fin (2 ^ 1), c = 0 ∨ c = 1 := by decide
    rcases key b with rfl | rfl
    · rfl
    · simp at h2
      norm_num at h2
  · rintro rfl
    exact ⟨1 / 2, hm, by simp; norm_num⟩

theorem exDev_dist : IsDist (fun _ : Unit => (1 : ℝ)) ∧ (∀ γ, IsDist (exDev γ)) ∧ heavyProb (fun _ : Unit => (1 : ℝ)) (fun _ => [1, 0]) exDev = 2 / 3 := by
  refine ⟨⟨fun _ => by norm_num, by simp⟩, fun γ => ⟨fun b => ?_, ?_⟩, ?_⟩
  · unfold exDev; split <;> norm_num
  · show ∑ b : Fin 2, exDev γ b = 1
    rw [Fin.sum_univ_two]; simp [exDev]; norm_num
  · unfold heavyProb
    simp only [exHeavy]
    show ∑ γ : Unit, 1 * ∑ b : Fin 2, (if b = 0 then exDev γ b else 0) = 2 / 3
    simp [exDev]

/-- The trials of the example as a set: those with outcome 0. -/
def exZeros (n : ℕ) (ω : Fin n → Trial Unit 1 1) : Finset (Fin n) := Finset.univ.filter fun t => (ω t).2 0 = 0

def exTrials (n : ℕ) (s : Finset (Fin n)) : Fin n → Trial Unit 1 1 := fun t => ((), fun _ => if t ∈ s then 0 else 1)

theorem exZeros_trials (n : ℕ) (s : Finset (Fin n)) : exZeros n (exTrials n s) = s := by
  ext t
  by_cases h : t ∈ s <;> simp [exZeros, exTrials, h]

theorem exTrials_zeros (n : ℕ) (ω : Fin n → Trial Unit 1 1) : exTrials n (exZeros n ω) = ω := by
  funext t
  refine Prod.ext rfl (funext fun k => ?_)
  have hk : k = 0 := by omega
  subst hk
  by_cases h : (ω t).2 0 = 0
  · simp [exZeros, exTrials, h]
  · have h1 : (ω t).2 0 = 1 := (show ∀ c : Fin (2 ^ 1), c = 0 ∨ c = 1 by decide) _ |>.resolve_left h
    simp [exZeros, exTrials, h1]

theorem exShare (n : ℕ) (ω : Fin n → Trial Unit 1 1) : heavyShare (fun _ => [1, 0]) ω = (exZeros n ω).card / n := by
  classical
  unfold heavyShare
  have e : ∀ t, (heavyShots (fun _ : Unit => [1, 0]) (ω t) : ℝ) = if (ω t).2 0 = 0 then 1 else 0 := by
    intro t
    unfold heavyShots
    simp only [exHeavy]
    by_cases h : (ω t).2 0 = 0
    · rw [if_pos h, Finset.filter_true_of_mem fun k _ => by rw [show k = 0 by omega]; exact h]; simp
    · rw [if_neg h, Finset.filter_false_of_mem fun k _ => by rw [show k = 0 by omega]; exact h]; simp
  simp only [e, Finset.sum_boole, Nat.cast_one, mul_one]
  rfl

theorem exProb (n : ℕ) (ω : Fin n → Trial Unit 1 1) : expProb (fun _ => 1) exDev ω = 2 ^ (exZeros n ω).card / 3 ^ n := by
  unfold expProb trialProb
  have e : ∀ t, (1 : ℝ) * ∏ k, exDev (ω t).1 ((ω t).2 k) = (if (ω t).2 0 = 0 then 2 else 1) / 3 := by
    intro t
    simp only [exDev]
    by_cases h : (ω t).2 0 = 0 <;> simp [h]
  simp only [e]
  rw [Finset.prod_div_distrib, Finset.prod_const, Finset.card_univ, Fintype.card_fin, Finset.prod_ite]
  simp [exZeros]

theorem tail100 : 28 * 3 ^ 100 ≤ 1000 * ∑ m ∈ Finset.range 25, Nat.choose 100 (m + 76) * 2 ^ (m + 76) := by
  have : ∀ m ∈ Finset.range 25, Nat.choose 100 (m + 76) * 2 ^ (m + 76) = Nat.factorial 100 / (Nat.factorial (m + 76) * Nat.factorial (100 - (m + 76))) * 2 ^ (m + 76) := by
    intro m hm
    rw [Nat.choose_eq_factorial_div_factorial (by have := Finset.mem_range.1 hm; omega)]
  rw [Finset.sum_congr rfl this]
  decide +kernel

open Classical in
/-- **C120** (finding).  The documented confidence level of 0.977 is not guaranteed: a device whose heavy output probability is exactly 2/3, so that it should
not pass, passes 100 trials with one shot each with probability more than 0.028. -/
theorem C120_finding_confidence (st : (Fin 100 → Trial Unit 1 1) → St) (cs : (Fin 100 → Trial Unit 1 1) → List Call) (new : (Fin 100 → Trial Unit 1 1) → List Res)
    (F : ∀ ω, Fitted [[0]] 0 (fun _ => [1, 0]) ω (cs ω) (new ω) (st ω)) :
    heavyProb (fun _ : Unit => (1 : ℝ)) (fun _ => [1, 0]) exDev = 2 / 3 ∧
    (∑ ω, if Success (st ω) 0 then expProb (fun _ => 1) exDev ω else 0) ≥ 28 / 1000 := by
  refine ⟨exDev_dist.2.2, ?_⟩
  have hthr : threshold 100 < 76 / 100 := by
    unfold threshold
    have h1 : (14 : ℝ) < Real.sqrt (2 * (100 : ℕ) + 9) := by
      rw [Real.lt_sqrt (by norm_num)]; norm_num
    have h2 : 4 / (3 * (1 + Real.sqrt (2 * (100 : ℕ) + 9))) < 4 / (3 * (1 + 14)) := by
      apply div_lt_div_of_pos_left (by norm_num) (by norm_num); linarith
    linarith
  have h1 : ∀ ω : Fin 100 → Trial Unit 1 1, (if 76 ≤ (exZeros 100 ω).card then (2 : ℝ) ^ (exZeros 100 ω).card / 3 ^ 100 else 0) ≤
      if Success (st ω) 0 then expProb (fun _ => 1) exDev ω else 0 := by
    intro ω
    rw [success_iff le_rfl (by norm_num) (by norm_num) (F ω), exShare, exProb]
    by_cases h : 76 ≤ (exZeros 100 ω).card
    · rw [if_pos h, if_pos]
      refine lt_of_lt_of_le hthr ?_
      have : (76 : ℝ) ≤ (exZeros 100 ω).card := by exact_mod_cast h
      push_cast
      linarith
    · rw [if_neg h]
      split
      · positivity
      · exact le_rfl
  refine le_trans ?_ (Finset.sum_le_sum fun ω _ => h1 ω)
  have h2 : ∑ ω : Fin 100 → Trial Unit 1 1, (if 76 ≤ (exZeros 100 ω).card then (2 : ℝ) ^ (exZeros 100 ω).card / 3 ^ 100 else 0) =
      ∑ s : Finset (Fin 100), if 76 ≤ s.card then (2 : ℝ) ^ s.card / 3 ^ 100 else 0 :=
    Fintype.sum_equiv ⟨exZeros 100, exTrials 100, exTrials_zeros 100, exZeros_trials 100⟩ _ _ fun ω => rfl
  rw [h2, ← Finset.powerset_univ, Finset.sum_powerset_apply_card fun m => if 76 ≤ m then (2 : ℝ) ^ m / 3 ^ 100 else 0]
  simp only [Finset.card_univ, Fintype.card_fin, nsmul_eq_mul]
  rw [show 100 + 1 = 76 + 25 by norm_num, Finset.sum_range_add, Finset.sum_eq_zero, zero_add]
  · have e : ∀ m : ℕ, ((Nat.choose 100 (76 + m) : ℕ) : ℝ) * (if 76 ≤ 76 + m then (2 : ℝ) ^ (76 + m) / 3 ^ 100 else 0) =
        ((Nat.choose 100 (m + 76) * 2 ^ (m + 76) : ℕ) : ℝ) / 3 ^ 100 := by
      intro m
      rw [if_pos (by omega), add_comm]
      push_cast
      ring
    simp only [e]
    rw [← Finset.sum_div, ← Nat.cast_sum, div_le_div_iff₀ (by norm_num) (by positivity)]
    have := tail100
    have h : ((28 * 3 ^ 100 : ℕ) : ℝ) ≤ ((1000 * ∑ m ∈ Finset.range 25, Nat.choose 100 (m + 76) * 2 ^ (m + 76) : ℕ) : ℝ) := by exact_mod_cast this
    push_cast at h ⊢
    linarith
  · intro m hm
    rw [if_neg (by have := Finset.mem_range.1 hm; omega), mul_zero]

/-- The hypotheses of the finding are met. -/
example : ∃ st : (Fin 100 → Trial Unit 1 1) → St, ∀ ω, Fitted [[0]] 0 (fun _ => [1, 0]) ω [.statevectors (some [idealOf (fun _ => [1, 0]) ω])] [resOf ω] (st ω) :=
  ⟨fun ω => (C120_experiment le_rfl (by norm_num) (by norm_num) (fun _ => [1, 0]) (fun _ => by simp) ω [0] rfl).choose,
    fun ω => (C120_experiment le_rfl (by norm_num) (by norm_num) (fun _ => [1, 0]) (fun _ => by simp) ω [0] rfl).choose_spec⟩

/-- The bound for a wrong success with 100 trials. -/
example : Real.exp (-(4 * (100 : ℕ) / (1 + Real.sqrt (2 * (100 : ℕ) + 9)) ^ 2)) ≤ 1 / (1 + 1.6) := by
  have h1 : Real.sqrt (2 * (100 : ℕ) + 9) ≤ 14.47 := by rw [Real.sqrt_le_left (by norm_num)]; norm_num
  have h2 := Real.sqrt_nonneg (2 * (100 : ℕ) + 9)
  have h3 : (1.6 : ℝ) ≤ 4 * (100 : ℕ) / (1 + Real.sqrt (2 * (100 : ℕ) + 9)) ^ 2 := by
    rw [le_div_iff₀ (by positivity)]
    have h4 : (1 + Real.sqrt (2 * (100 : ℕ) + 9)) ^ 2 ≤ 15.47 ^ 2 := pow_le_pow_left₀ (by positivity) (by linarith) 2
    push_cast at *
    linarith
  rw [Real.exp_neg, one_div]
  have := Real.add_one_le_exp (4 * (100 : ℕ) / (1 + Real.sqrt (2 * (100 : ℕ) + 9)) ^ 2)
  exact inv_anti₀ (by norm_num) (by linarith)

end Verif.QV
