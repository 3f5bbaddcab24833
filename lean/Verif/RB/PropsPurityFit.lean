import Verif.RB.LemmasPurityFit
import Verif.RB.PropsPair
set_option linter.unusedSimpArgs false
set_option linter.unusedVariables false
/-
C112: the purities computed by `PurityRBFitter` from results.
-/
namespace Verif.RB.Fit
open Verif Verif.Counts

/-! ### Specification -/

/-- The correlator of the qubit set `ind` in the purity circuit with number `d` (base-3 digits, 0 ↦ Z, 1 ↦ X, 2 ↦ Y) is that of the Pauli string
`c` (base-4 digits 0 ↦ I, 1 ↦ X, 2 ↦ Y, 3 ↦ Z): the identity outside the set, the letter of the circuit inside. -/
def IsCorr (n ind d c : ℕ) : Prop := ∀ i < n, c / 4 ^ i % 4 = if ind.testBit i then Purity.letter (d / 3 ^ i % 3) else 0

instance (n ind d c : ℕ) : Decidable (IsCorr n ind d c) := by unfold IsCorr; infer_instance

/-- All pairs of a purity circuit and a qubit set whose correlator is that of the Pauli string `c`. -/
def pairsOf (n c : ℕ) : List (ℕ × ℕ) :=
  ((List.range (3 ^ n)).flatMap fun d => (List.range (2 ^ n)).map fun ind => (d, ind)).filter fun x => IsCorr n x.2 x.1 c

/-- The estimate of the expectation value of a Pauli string: the mean over all circuits that measure it. -/
def pauliMean (n : ℕ) (corr : ℕ → ℕ → ℚ) (c : ℕ) : ℚ := ((pairsOf n c).map fun x => corr x.1 x.2).sum / (pairsOf n c).length

/-- The purity of a state with these expectation values. -/
def purityMean (n : ℕ) (corr : ℕ → ℕ → ℚ) : ℚ := ((List.range (4 ^ n)).map fun c => pauliMean n corr c ^ 2).sum / 2 ^ n

/-- Results of purity circuits on `n` bits for the seeds of `seeds`: one result per seed and purity circuit, in this order (further results may
follow), each with circuits of its own type; every circuit was measured. -/
structure PurityData (ty : ℕ → Str) (n npurity nlen : ℕ) (rs : List Result) (seeds : List ℤ) : Prop where
  name : ∀ d < npurity, ¬ "_length".toList <:+: ty d
  order : ∀ j < seeds.length, ∀ d < npurity, ∃ e r, rs[j * npurity + d]? = some (e :: r) ∧ ∃ (k : ℕ) (s : ℤ), e.1 = ty d ++ suffix k s
  names : ∀ r ∈ rs, (r.map (·.1)).Nodup
  counts : ∀ r ∈ rs, ∀ e ∈ r, OneReg n e.2
  all : ∀ s ∈ seeds, ∀ d < npurity, ∀ k < nlen, 0 < shots rs (ty d ++ suffix k s)

/-! ### One purity -/

theorem digits_ext (n x y : ℕ) (hx : x < 4 ^ n) (hy : y < 4 ^ n) (h : ∀ i < n, x / 4 ^ i % 4 = y / 4 ^ i % 4) : x = y := by
  induction n generalizing x y with
  | zero => simp at hx hy; omega
  | succ n ih =>
    have h0 := h 0 (by omega)
    simp only [pow_zero, Nat.div_one] at h0
    have := ih (x / 4) (y / 4) (by rw [pow_succ] at hx; omega) (by rw [pow_succ] at hy; omega) (by
      intro i hi
      have := h (i + 1) (by omega)
      rwa [pow_succ, Nat.mul_comm (4 ^ i), ← Nat.div_div_eq_div_mul, ← Nat.div_div_eq_div_mul] at this)
    omega

theorem isCorr_iff (n ind d c : ℕ) (hc : c < 4 ^ n) : IsCorr n ind d c ↔ Purity.F234 n ind d = c := by
  have hb : ∀ i, (ind / 2 ^ i % 2 = 0) ↔ ind.testBit i = false := by
    intro i
    rw [show ind / 2 ^ i % 2 = (ind.testBit i).toNat by rw [Nat.toNat_testBit]]
    cases ind.testBit i <;> simp
  have hi : ∀ i < n, Purity.F234 n ind d / 4 ^ i % 4 = if ind.testBit i then Purity.letter (d / 3 ^ i % 3) else 0 := by
    intro i hi
    rw [Purity.C80_pauli_index n ind d i hi]
    by_cases h : ind.testBit i = true
    · rw [if_pos h, if_neg (by rw [hb, h]; simp)]
    · rw [if_neg h, if_pos ((hb i).2 (by simpa using h))]
  constructor
  · intro h
    exact digits_ext n _ _ (Purity.F234_lt n ind d) hc fun i hi' => by rw [hi i hi', h i hi']
  · rintro rfl i hi'
    exact hi i hi'

/-- C112: with all `3^n` circuits the purity is computed from the mean of every Pauli string over all circuits that measure it. -/
theorem C112_purity (n : ℕ) (zcorr : ℕ → ℕ → ℚ) : Purity.purityOf n (3 ^ n) zcorr = some (purityMean n zcorr) := by
  have hl : ∀ zv ∈ ((List.range (3 ^ n)).flatMap fun pur => (List.range (2 ^ n)).map fun ind => (Purity.F234 n ind pur, zcorr pur ind)), zv.1 < 4 ^ n := by
    intro zv hzv
    obtain ⟨pur, hp, hzv⟩ := List.mem_flatMap.1 hzv
    obtain ⟨ind, hi, rfl⟩ := List.mem_map.1 hzv
    exact Purity.F234_lt _ _ _
  obtain ⟨k1, k2, k3⟩ := acc_sum (4 ^ n) _ hl (List.replicate (4 ^ n) 0, List.replicate (4 ^ n) 0) (by simp) (by simp)
  change (Purity.accumulate n (3 ^ n) zcorr).1.length = _ at k1
  change (Purity.accumulate n (3 ^ n) zcorr).2.length = _ at k2
  have hf : ∀ z < 4 ^ n, (((List.range (3 ^ n)).flatMap fun pur => (List.range (2 ^ n)).map fun ind => (Purity.F234 n ind pur, zcorr pur ind)).filter fun zv => zv.1 = z) =
      (pairsOf n z).map fun x => (Purity.F234 n x.2 x.1, zcorr x.1 x.2) := by
    intro z hz
    have e : ((List.range (3 ^ n)).flatMap fun pur => (List.range (2 ^ n)).map fun ind => (Purity.F234 n ind pur, zcorr pur ind)) =
        ((List.range (3 ^ n)).flatMap fun d => (List.range (2 ^ n)).map fun ind => (d, ind)).map fun x => (Purity.F234 n x.2 x.1, zcorr x.1 x.2) := by
      rw [List.map_flatMap]
      simp only [List.map_map]
      rfl
    rw [e, List.filter_map]
    unfold pairsOf
    congr 1
    refine List.filter_congr ?_
    intro x _
    simp only [Function.comp]
    rw [decide_eq_decide]
    exact (isCorr_iff n x.2 x.1 z hz).symm
  have k3' : ∀ z < 4 ^ n, (Purity.accumulate n (3 ^ n) zcorr).1.getD z 0 = ((pairsOf n z).map fun x => zcorr x.1 x.2).sum ∧
      (Purity.accumulate n (3 ^ n) zcorr).2.getD z 0 = (pairsOf n z).length := by
    intro z hz
    obtain ⟨j1, j2⟩ := k3 z hz
    rw [hf z hz] at j1 j2
    constructor
    · refine j1.trans ?_
      rw [List.map_map, List.getD_eq_getElem _ _ (by simpa using hz)]
      simp [Function.comp_def]
    · refine j2.trans ?_
      rw [List.getD_eq_getElem _ _ (by simpa using hz)]
      simp
  have hpos : ∀ z < 4 ^ n, 0 < (pairsOf n z).length := by
    intro z hz
    obtain ⟨a, ha, b, hb, he⟩ := Purity.C80_covered n z hz
    refine List.length_pos_of_mem (a := (b, a)) ?_
    unfold pairsOf
    rw [List.mem_filter]
    exact ⟨List.mem_flatMap.2 ⟨b, List.mem_range.2 hb, List.mem_map.2 ⟨a, List.mem_range.2 ha, rfl⟩⟩, by simpa using (isCorr_iff n a b z hz).2 he⟩
  unfold Purity.purityOf
  simp only []
  rw [if_neg]
  · congr 2
    congr 1
    refine List.ext_getElem (by simp [k1, k2]) ?_
    intro z hz1 hz2
    have hz : z < 4 ^ n := by simpa using hz2
    simp only [List.getElem_map, List.getElem_zip, List.getElem_range]
    obtain ⟨e1, e2⟩ := k3' z hz
    rw [List.getD_eq_getElem _ _ (by rw [k1]; exact hz)] at e1
    rw [List.getD_eq_getElem _ _ (by rw [k2]; exact hz)] at e2
    rw [e1, e2]
    rfl
  · intro hmem
    obtain ⟨z, hz, he⟩ := List.getElem_of_mem hmem
    have h1 := (k3' z (by rw [← k2]; exact hz)).2
    have h2 := hpos z (by rw [← k2]; exact hz)
    rw [List.getD_eq_getElem _ _ hz, he] at h1
    omega

theorem purityOf_congr (n npurity : ℕ) (f g : ℕ → ℕ → ℚ) (h : ∀ d < npurity, ∀ ind < 2 ^ n, f d ind = g d ind) : Purity.purityOf n npurity f = Purity.purityOf n npurity g := by
  have : Purity.accumulate n npurity f = Purity.accumulate n npurity g := by
    unfold Purity.accumulate
    congr 1
    refine List.flatMap_congr ?_
    intro d hd
    refine List.map_congr_left ?_
    intro ind hind
    rw [h d (List.mem_range.1 hd) ind (List.mem_range.1 hind)]
  unfold Purity.purityOf
  rw [this]

/-! ### The table of purities -/

theorem purityEntry_eq (ty : ℕ → Str) (n npurity nlen : ℕ) (st : State) (h : PurityData ty n npurity nlen st.results st.nseeds) (table : Dict Str Counts)
    (ht : ∀ s ∈ st.nseeds, ∀ d < npurity, ∀ k < nlen, table.get? (purityKey d k s) = some (pooled st (ty d ++ suffix k s)))
    (m lo : ℕ) (hm : 0 < m) (hn : lo + m ≤ n) (k : ℕ) (hk : k < nlen) (s : ℤ) (hs : s ∈ st.nseeds) :
    purityEntry table m npurity lo m k s = Purity.purityOf m npurity fun d ind => corr st.results (ty d ++ suffix k s) lo m ind := by
  have hmarg : ∀ d < npurity, ∃ c, OneReg n (pooled st (ty d ++ suffix k s)) ∧ marginalCounts (pooled st (ty d ++ suffix k s)) (some (List.range' lo m)) false = some c := by
    intro d hd
    obtain ⟨h1, h2⟩ := pooled_spec₂ st h.names h.counts _ (h.all s hs d hd k hk).ne'
    obtain ⟨c, hc, -⟩ := marginal_wsum n _ h1 lo m hm hn
    exact ⟨c, h1, hc⟩
  have hmap : ((List.range npurity).mapM fun pur => (table.get? (purityKey pur k s)).bind fun c => marginalCounts c (some (List.range' lo m)) false) =
      some ((List.range npurity).map fun d => (marginalCounts (pooled st (ty d ++ suffix k s)) (some (List.range' lo m)) false).getD []) := by
    rw [mapM_eq_some]
    intro d hd
    have hd := List.mem_range.1 hd
    rw [ht s hs d hd k hk, Option.bind_some]
    obtain ⟨c, -, hc⟩ := hmarg d hd
    rw [hc]
    rfl
  unfold purityEntry
  simp only [Option.bind_eq_bind]
  rw [hmap, Option.bind_some]
  refine purityOf_congr m npurity _ _ ?_
  intro d hd ind hind
  obtain ⟨c, h1, hc⟩ := hmarg d hd
  rw [List.getD_eq_getElem?_getD, List.getElem?_map, List.getElem?_range hd, Option.map_some, Option.getD_some, hc, Option.getD_some,
    average_spec n _ h1 lo m hm hn ind hind c hc]
  obtain ⟨-, h2⟩ := pooled_spec₂ st h.names h.counts _ (h.all s hs d hd k hk).ne'
  rw [h2, h2]
  unfold corr
  rw [shots_eq]

theorem purityPatterns_eq (ty : ℕ → Str) (n m nlen : ℕ) (st : State) (h : PurityData ty n (3 ^ m) nlen st.results st.nseeds) (table : Dict Str Counts)
    (ht : ∀ s ∈ st.nseeds, ∀ d < 3 ^ m, ∀ k < nlen, table.get? (purityKey d k s) = some (pooled st (ty d ++ suffix k s)))
    (hm : 0 < m) (pattern : List (List ℕ)) (hp : ∀ p ∈ pattern, p.length = m) (lo : ℕ) (hn : lo + (pattern.map List.length).sum ≤ n) :
    purityPatterns table m (3 ^ m) nlen st.nseeds pattern lo = some ((List.range pattern.length).map fun i => st.nseeds.map fun s => (List.range nlen).map fun k =>
      purityMean m fun d ind => corr st.results (ty d ++ suffix k s) (lo + offset pattern i) m ind) := by
  induction pattern generalizing lo with
  | nil => rfl
  | cons p ps ih =>
    simp only [List.map_cons, List.sum_cons] at hn
    have hpm := hp p (by simp)
    unfold purityPatterns
    simp only [Option.bind_eq_bind]
    have h1 : (st.nseeds.mapM fun s => (List.range nlen).mapM fun k => purityEntry table m (3 ^ m) lo p.length k s) =
        some (st.nseeds.map fun s => (List.range nlen).map fun k => purityMean m fun d ind => corr st.results (ty d ++ suffix k s) lo m ind) := by
      rw [mapM_eq_some]
      intro s hs
      rw [mapM_eq_some]
      intro k hk
      rw [hpm, purityEntry_eq ty n (3 ^ m) nlen st h table ht m lo hm (by omega) k (List.mem_range.1 hk) s hs, C112_purity]
    rw [h1, Option.bind_some, ih (fun q hq => hp q (by simp [hq])) (lo + p.length) (by omega), Option.bind_some]
    congr 1
    rw [List.length_cons, List.range_succ_eq_map, List.map_cons, List.map_map]
    refine congrArg₂ List.cons ?_ ?_
    · simp [offset]
    · refine List.map_congr_left ?_
      intro i hi
      simp only [Function.comp]
      have : lo + offset (p :: ps) (i + 1) = lo + p.length + offset ps i := by
        simp [offset]; omega
      rw [this]

/-- C112: from results in the order seed, purity circuit the fitter computes, for every pattern, seed and length, the purity given by the means
of the correlators of all `4^m` Pauli strings over the recorded shots. -/
theorem C112_value (ty : ℕ → Str) (n m nlen : ℕ) (hm : 0 < m) (st : State) (h : PurityData ty n (3 ^ m) nlen st.results st.nseeds)
    (pattern : List (List ℕ)) (hp : ∀ p ∈ pattern, p.length = m) (hn : (pattern.map List.length).sum ≤ n)
    (lengths : List (List ℤ)) (l0 : List ℤ) (hl : lengths.head? = some l0) (hl0 : l0.length = nlen) :
    purityData st lengths pattern m (3 ^ m) = some ((List.range pattern.length).map fun i => st.nseeds.map fun s => (List.range nlen).map fun k =>
      purityMean m fun d ind => corr st.results (ty d ++ suffix k s) (offset pattern i) m ind) := by
  obtain ⟨table, ht1, ht2⟩ := purityTable_get st (3 ^ m) nlen ty (by
    intro j hj d hd
    obtain ⟨e, r, h1, k, s, h2⟩ := h.order j hj d hd
    refine ⟨e, r, h1, ?_⟩
    rw [h2]
    unfold suffix
    have := beforeSub_eq (ty d) ("_".toList ++ fmtD k ++ "_seed_".toList ++ fmtD s) (h.name d hd)
    refine Eq.trans (congrArg _ ?_) this
    simp [List.append_assoc])
  unfold purityData
  simp only [Option.bind_eq_bind]
  rw [hl, Option.bind_some, hl0, ht1, Option.bind_some, purityPatterns_eq ty n m nlen st h table ht2 hm pattern hp 0 (by omega)]
  simp

/-! ### The object -/

theorem pfitter_new {curve : CurveFit} {rs : List Result} {npurity : ℕ} {lengths : List (List ℤ)} {pattern : List (List ℕ)} {f : PFitter}
    (h : PFitter.new curve (some rs) npurity lengths (some pattern) = some f) :
    ∃ p0, pattern.head? = some p0 ∧ f.nq = p0.length ∧ f.npurity = npurity ∧ f.inner.lengths = lengths ∧ f.inner.pattern = pattern ∧
      Fit.addData State.init (rs ++ rs) = some f.inner.st ∧ purityData f.inner.st lengths pattern p0.length npurity = some f.inner.raw ∧
      f.inner.ydata = (List.range pattern.length).map (fun i => statsOf (f.inner.raw.getD i [])) ∧
      (List.range pattern.length).mapM (fun i => fitOne curve (lengths.getD i []) (pattern.getD i []) (f.inner.ydata.getD i ⟨[], none⟩)) = some (f.inner.fit.filterMap id) ∧
      (∀ d ∈ f.inner.fit, d.isSome) ∧
      ∃ ds, ((lengths.zip pattern).zipIdx).mapM (fun x => (f.inner.fit[x.2]?).join) = some ds ∧ f.pfit = ds.map (purFit p0.length) := by
  unfold PFitter.new at h
  simp only [Option.bind_eq_bind, Option.getD_some] at h
  obtain ⟨p0, hp0, h⟩ := Option.bind_eq_some_iff.1 h
  obtain ⟨inner, h1, h⟩ := Option.bind_eq_some_iff.1 h
  have k1 := addData_true h1
  unfold PFitter.addData at h
  simp only [Option.bind_eq_bind, if_true] at h
  obtain ⟨inner2, h2, h⟩ := Option.bind_eq_some_iff.1 h
  have k2 := addData_true h2
  obtain ⟨raw, h3, h⟩ := Option.bind_eq_some_iff.1 h
  obtain ⟨inner3, h4, h⟩ := Option.bind_eq_some_iff.1 h
  obtain ⟨ds, h5, h⟩ := Option.bind_eq_some_iff.1 h
  obtain rfl := Option.some.inj h
  unfold Fitter.fitData at h4
  simp only [Option.bind_eq_bind] at h4
  obtain ⟨fs, h6, h4⟩ := Option.bind_eq_some_iff.1 h4
  obtain rfl := Option.some.inj h4
  have hl : inner2.lengths = lengths := by rw [k2.2.1, k1.2.1]
  have hp : inner2.pattern = pattern := by rw [k2.2.2.1, k1.2.2.1]; rfl
  have hl' : ({ inner2 with raw := raw }.calcStatistics).lengths = lengths := hl
  have hp' : ({ inner2 with raw := raw }.calcStatistics).pattern = pattern := hp
  refine ⟨p0, hp0, rfl, rfl, hl, hp, ?_, ?_, ?_, ?_, ?_, ds, ?_, rfl⟩
  · rw [C46_batching, show Fit.addData State.init rs = some inner.st from k1.1]
    exact k2.1
  · rw [hl, hp] at h3
    exact h3
  · rw [← hp]
    rfl
  · show _ = some ((fs.map some).filterMap id)
    rw [filterMap_some, ← hl', ← hp']
    exact h6
  · intro d hd
    obtain ⟨x, -, rfl⟩ := List.mem_map.1 (show d ∈ fs.map some from hd)
    rfl
  · rw [← hl', ← hp']
    exact h5

theorem corr_twice (rs : List Result) (name : Str) (lo n ind : ℕ) : corr (rs ++ rs) name lo n ind = corr rs name lo n ind := by
  have hr : records (rs ++ rs) name = records rs name ++ records rs name := by simp [records]
  unfold corr shots wsum
  rw [hr]
  simp only [List.map_append, List.sum_append]
  rw [← two_mul, ← two_mul]
  push_cast
  rw [mul_div_mul_left _ _ two_ne_zero]

theorem shots_twice (rs : List Result) (name : Str) : shots (rs ++ rs) name = 2 * shots rs name := by
  have hr : records (rs ++ rs) name = records rs name ++ records rs name := by simp [records]
  unfold shots
  rw [hr, List.map_append, List.sum_append, two_mul]

/-- A seed list and the results after `add_data` of results of any RB circuits. -/
theorem addData_seeds (rs : List Result) (h : ∀ r ∈ rs, ∀ e ∈ r, ∃ (t : Str) (k : ℕ) (s : ℤ), e.1 = t ++ suffix k s) (st : State) (hst : st.nseeds.Nodup) :
    ∃ st', Fit.addData st rs = some st' ∧ st'.results = st.results ++ rs ∧ st'.nseeds.Nodup ∧ (∃ u, st'.nseeds = st.nseeds ++ u) ∧
      ∀ s, s ∈ st'.nseeds ↔ s ∈ st.nseeds ∨ ∃ r ∈ rs, ∃ e ∈ r, ∃ (t : Str) (k : ℕ), e.1 = t ++ suffix k s := by
  induction rs generalizing st with
  | nil => exact ⟨st, rfl, by simp, hst, ⟨[], by simp⟩, by simp⟩
  | cons r rs ih =>
    obtain ⟨seeds', h1, h2, ⟨u, hu⟩, h3⟩ := addSeed_fold r st.nseeds (fun e he => h r (by simp) e he) hst
    obtain ⟨st', g1, g2, g3, ⟨u', hu'⟩, g4⟩ := ih (fun x hx => h x (by simp [hx])) ⟨seeds', st.results ++ [r]⟩ h2
    refine ⟨st', ?_, by rw [g2]; simp, g3, ⟨u ++ u', by rw [hu']; simp [hu]⟩, ?_⟩
    · unfold Fit.addData at g1 ⊢
      rw [List.foldlM_cons]
      unfold addResult
      rw [h1]
      exact g1
    · intro s
      rw [g4]
      simp only [h3]
      constructor
      · rintro ((h' | ⟨e, he, h'⟩) | ⟨r', hr', h'⟩)
        · exact Or.inl h'
        · exact Or.inr ⟨r, by simp, e, he, h'⟩
        · exact Or.inr ⟨r', by simp [hr'], h'⟩
      · rintro (h' | ⟨r', hr', e, he, h'⟩)
        · exact Or.inl (Or.inl h')
        · rcases List.mem_cons.1 hr' with rfl | hr'
          · exact Or.inl (Or.inr ⟨e, he, h'⟩)
          · exact Or.inr ⟨r', hr', e, he, h'⟩

/-- C112: a `PurityRBFitter` made from results in the order seed, purity circuit reports, for every pattern, seed and length, the purity given by
the means of the correlators over the recorded shots. -/
theorem C112_new (curve : CurveFit) (ty : ℕ → Str) (n m nlen : ℕ) (hm : 0 < m) (rs : List Result) (seeds : List ℤ)
    (hform : ∀ r ∈ rs, ∀ e ∈ r, ∃ (t : Str) (k : ℕ) (s : ℤ), e.1 = t ++ suffix k s)
    (hseeds : (Fit.addData State.init rs).map State.nseeds = some seeds) (h : PurityData ty n (3 ^ m) nlen rs seeds)
    (pattern : List (List ℕ)) (hp : ∀ p ∈ pattern, p.length = m) (hn : (pattern.map List.length).sum ≤ n)
    (lengths : List (List ℤ)) (l0 : List ℤ) (hl : lengths.head? = some l0) (hl0 : l0.length = nlen) (f : PFitter)
    (hf : PFitter.new curve (some rs) (3 ^ m) lengths (some pattern) = some f) :
    f.inner.st.nseeds = seeds ∧ f.inner.raw = (List.range pattern.length).map fun i => seeds.map fun s => (List.range nlen).map fun k =>
      purityMean m fun d ind => corr rs (ty d ++ suffix k s) (offset pattern i) m ind := by
  obtain ⟨p0, hp0, q1, q2, q3, q4, q5, q6, -⟩ := pfitter_new hf
  obtain ⟨st1, g1, g2, g3, -, g5⟩ := addData_seeds rs hform State.init (by simp [State.init])
  rw [g1] at hseeds
  obtain rfl : st1.nseeds = seeds := by simpa using hseeds
  obtain ⟨st2, k1, k2, k3, ⟨u, hu⟩, k5⟩ := addData_seeds rs hform st1 g3
  have hst2 : st2 = f.inner.st := by
    rw [C46_batching, g1, Option.bind_some, k1] at q5
    exact Option.some.inj q5
  have hseed : f.inner.st.nseeds = st1.nseeds := by
    rw [← hst2]
    cases u with
    | nil => rw [hu]; simp
    | cons s u =>
      exfalso
      have hs : s ∈ st2.nseeds := by rw [hu]; simp
      have hs0 : s ∈ st1.nseeds := by
        rcases (k5 s).1 hs with h' | h'
        · exact h'
        · exact (g5 s).2 (Or.inr h')
      rw [hu, List.nodup_append] at k3
      exact k3.2.2 s hs0 s (by simp) rfl
  have hres : f.inner.st.results = rs ++ rs := by
    rw [← hst2, k2, g2]
    rfl
  refine ⟨hseed, ?_⟩
  have hpm : p0.length = m := hp p0 (List.mem_of_mem_head? (by rw [hp0]; rfl))
  have hdata : PurityData ty n (3 ^ m) nlen f.inner.st.results f.inner.st.nseeds := by
    rw [hres, hseed]
    refine ⟨h.name, ?_, ?_, ?_, ?_⟩
    · intro j hj d hd
      obtain ⟨e, r, h1, h2⟩ := h.order j hj d hd
      refine ⟨e, r, ?_, h2⟩
      rw [List.getElem?_append_left, h1]
      by_contra hge
      rw [List.getElem?_eq_none (by omega)] at h1
      exact absurd h1 (by simp)
    · intro r hr; rcases List.mem_append.1 hr with hr | hr <;> exact h.names r hr
    · intro r hr; rcases List.mem_append.1 hr with hr | hr <;> exact h.counts r hr
    · intro s hs d hd k hk
      rw [shots_twice]
      have := h.all s hs d hd k hk
      omega
  have := C112_value ty n m nlen hm f.inner.st hdata pattern hp hn lengths l0 hl hl0
  rw [hpm, this] at q6
  rw [← Option.some.inj q6, hres, hseed]
  simp only [corr_twice]

/-- C112: every pattern gets the curve fit of the means of its purities; the reported decay is the square root of the fitted one and `pepc` is
the error per Clifford of the reported decay. -/
theorem C112_fit (curve : CurveFit) (rs : List Result) (npurity : ℕ) (lengths : List (List ℤ)) (pattern : List (List ℕ)) (f : PFitter)
    (hf : PFitter.new curve (some rs) npurity lengths (some pattern) = some f) (hpl : pattern.length ≤ lengths.length) (i : ℕ) (hi : i < pattern.length) :
    ∃ d, FitOf curve (lengths.getD i []) (statsOf (f.inner.raw.getD i [])).mean (pattern.getD i []).length d ∧
      ∃ x, f.pfit[i]? = some x ∧ x.base.params.2.1 = Real.sqrt d.params.2.1 ∧ x.pepc = Fit.epc f.nq x.base.params.2.1 ∧ x.base.epc = d.epc ∧
        x.base.params.1 = d.params.1 ∧ x.base.params.2.2 = d.params.2.2 ∧ x.base.paramsErr.2.1 = d.paramsErr.2.1 / (2 * Real.sqrt x.base.params.2.1) ∧
        x.pepcErr = (2 ^ f.nq - 1) / 2 ^ f.nq * x.base.paramsErr.2.1 / x.base.params.2.1 := by
  obtain ⟨p0, hp0, q1, q2, q3, q4, q5, q6, q7, q8, q9, ds, q10, q11⟩ := pfitter_new hf
  have key : ∀ {α β : Type} (l : List α) (g : α → Option β) (out : List β), l.mapM g = some out → ∀ (j : ℕ) (x : α), l[j]? = some x → ∃ d, out[j]? = some d ∧ g x = some d := by
    intro α β l g
    induction l with
    | nil => intro out _ j x hx; simp at hx
    | cons y l ih =>
      intro out ho j x hx
      rw [List.mapM_cons] at ho
      obtain ⟨z, hz, ho⟩ := Option.bind_eq_some_iff.1 ho
      obtain ⟨zs, hzs, ho⟩ := Option.bind_eq_some_iff.1 ho
      obtain rfl := Option.some.inj ho
      cases j with
      | zero =>
        obtain rfl : y = x := by simpa using hx
        exact ⟨z, rfl, hz⟩
      | succ j => exact ih zs hzs j x (by simpa using hx)
  obtain ⟨d, hd1, hd2⟩ := key _ _ _ q8 i i (by rw [List.getElem?_range hi])
  have hfit : f.inner.fit[i]? = some (some d) := by
    rw [← map_filterMap _ q9, List.getElem?_map, hd1]
    rfl
  have hz : (lengths.zip pattern)[i]? = some (lengths[i]'(by omega), pattern[i]) :=
    List.getElem?_zip_eq_some.2 ⟨List.getElem?_eq_getElem (by omega), List.getElem?_eq_getElem hi⟩
  obtain ⟨d', hd', hj⟩ := key _ _ _ q10 i ((lengths[i]'(by omega), pattern[i]), i) (by rw [List.getElem?_zipIdx, hz]; simp)
  rw [hfit] at hj
  obtain rfl : d = d' := by simpa using hj
  refine ⟨d, ?_, purFit p0.length d, by rw [q11, List.getElem?_map, hd']; rfl, rfl, ?_, rfl, rfl, rfl, rfl, ?_⟩
  · have := fitOne_spec hd2
    rw [q7, List.getD_eq_getElem?_getD (i := i) (l := List.map _ _), List.getElem?_map, List.getElem?_range hi] at this
    exact this
  · rw [q1]; rfl
  · rw [q1]; rfl

/-- Finding: the entry `epc` of the purity fit stays that of the squared decay; it differs from the error per Clifford of the reported decay
(`pepc`) for every fitted decay strictly between zero and one. -/
theorem C112_finding_epc (n : ℕ) (hn : 0 < n) (d : FitDict) (h : d.epc = Fit.epc n d.params.2.1) (h0 : 0 < d.params.2.1) (h1 : d.params.2.1 < 1) :
    (purFit n d).pepc < (purFit n d).base.epc := by
  have e1 : (purFit n d).pepc = (2 ^ n - 1) / 2 ^ n * (1 - Real.sqrt d.params.2.1) := rfl
  have e2 : (purFit n d).base.epc = (2 ^ n - 1) / 2 ^ n * (1 - d.params.2.1) := h
  rw [e1, e2]
  have hk : (0 : ℝ) < (2 ^ n - 1) / 2 ^ n := by
    have : (2 : ℝ) ≤ 2 ^ n := by
      calc (2 : ℝ) = 2 ^ 1 := by norm_num
        _ ≤ 2 ^ n := pow_le_pow_right₀ (by norm_num) hn
    exact div_pos (by linarith) (by positivity)
  refine mul_lt_mul_of_pos_left ?_ hk
  have hs : d.params.2.1 < Real.sqrt d.params.2.1 := by
    rw [Real.lt_sqrt h0.le]
    nlinarith
  linarith

/-! ### Concrete data -/

/-- Results of the circuits `ZZ, XZ, …` of two qubits for the state |00⟩ (100 shots each, two lengths and one seed): the outcome distribution is
uniform on the qubits measured in X or Y.  The circuit has number `d`, low digit for qubit 0. -/
def exPur (d : ℕ) : Result :=
  let z0 := d % 3 = 0
  let z1 := d / 3 % 3 = 0
  let c : Counts := if z0 then (if z1 then [("00".toList, 100)] else [("00".toList, 50), ("10".toList, 50)])
    else (if z1 then [("00".toList, 50), ("01".toList, 50)] else [("00".toList, 25), ("01".toList, 25), ("10".toList, 25), ("11".toList, 25)])
  let t := "rb_purity_".toList ++ [Verif.RB.purityLetter (d % 3), Verif.RB.purityLetter (d / 3)]
  [(t ++ "_length_0_seed_5".toList, c), (t ++ "_length_1_seed_5".toList, c)]

/-- In the right order the purities are one. -/
example : purityData ⟨[5], (List.range 9).map exPur⟩ [[1, 2]] [[0, 1]] 2 9 = some [[[1, 1]]] := by decide +kernel

/-- … as `C112_value` says: its hypotheses hold for these data. -/
example : PurityData (fun d => "rb_purity_".toList ++ [Verif.RB.purityLetter (d % 3), Verif.RB.purityLetter (d / 3)]) 2 (3 ^ 2) 2 ((List.range 9).map exPur) [5] := by
  refine ⟨by decide +kernel, ?_, by decide +kernel, by decide +kernel, by decide +kernel⟩
  intro j hj d hd
  obtain rfl : j = 0 := by simpa using hj
  have hd9 : d < 9 := hd
  refine ⟨_, _, by rw [Nat.zero_mul, Nat.zero_add, List.getElem?_map, List.getElem?_range hd9]; rfl, 0, 5, ?_⟩
  rw [List.append_assoc]
  rfl

/-- … and the constructor succeeds on them if the fit does. -/
theorem exPur_new : (PFitter.new someCurve (some ((List.range 9).map exPur)) 9 [[1, 2]] (some [[0, 1]])).map (fun f => (f.inner.raw, f.inner.st.nseeds, f.pfit.length)) =
    some ([[[1, 1]]], [5], 1) := by decide +kernel

/-- Finding: the circuits are told apart by the position of their result only.  With the results of the circuits `ZZ` and `XX` exchanged the purity
of the same data is not one. -/
theorem C112_finding_order :
    (PFitter.new someCurve (some ([0, 1, 2, 3, 4, 5, 6, 7, 8].map exPur)) 9 [[1, 2]] (some [[0, 1]])).map (fun f => f.inner.raw) = some [[[1, 1]]] ∧
    (PFitter.new someCurve (some ([4, 1, 2, 3, 0, 5, 6, 7, 8].map exPur)) 9 [[1, 2]] (some [[0, 1]])).map (fun f => f.inner.raw) = some [[[7/9, 7/9]]] := by
  decide +kernel

/-- Finding: all circuits of a seed in a single result make the constructor raise, for every fit, although every circuit's counts are there. -/
theorem C112_finding_single (curve : CurveFit) : PFitter.new curve (some [(List.range 9).flatMap exPur]) 9 [[1, 2]] (some [[0, 1]]) = none := by
  cases h : PFitter.new curve (some [(List.range 9).flatMap exPur]) 9 [[1, 2]] (some [[0, 1]]) with
  | none => rfl
  | some f =>
    exfalso
    obtain ⟨p0, hp0, -, -, -, -, q5, q6, -⟩ := pfitter_new h
    obtain rfl : [0, 1] = p0 := by simpa using hp0
    have hst : Fit.addData State.init ([(List.range 9).flatMap exPur] ++ [(List.range 9).flatMap exPur]) =
        some ⟨[5], [(List.range 9).flatMap exPur, (List.range 9).flatMap exPur]⟩ := by decide +kernel
    rw [hst] at q5
    rw [← Option.some.inj q5] at q6
    have : purityData ⟨[5], [(List.range 9).flatMap exPur, (List.range 9).flatMap exPur]⟩ [[1, 2]] [[0, 1]] 2 9 = none := by decide +kernel
    exact absurd (this.symm.trans q6) (by simp)

end Verif.RB.Fit
