import Verif.Expval.LemmasVec
import Verif.MeasMit.Lemmas
import Mathlib.Tactic.Positivity
import Mathlib.Algebra.BigOperators.Field
import Mathlib.Tactic.NormNum
set_option linter.unusedSectionVars false
/-
C18 calibration circuits, C20 expectation values from counts, C21 probability vectors.
-/
namespace Verif.Expval
open Verif Verif.Counts

/-! ## C18 -/

theorem calibrationCircuit_eq (n : ℕ) (label : Str) (hl : label.length = n) :
    calibrationCircuit n label = some ⟨"meas_mit_cal_".toList ++ label, n, n,
      MeasMit.xGates ((List.range n).zip label.reverse) ++
        (List.range n).zipIdx.map fun q => MeasMit.Op.measure q.1 q.2⟩ := by
  have h1 : (label.reverse.zipIdx.flatMap fun p => if p.1 = '1' then [MeasMit.Op.x p.2] else []) =
      MeasMit.xGates ((List.range n).zip label.reverse) := by
    unfold MeasMit.xGates
    have : (List.range n).zip label.reverse = label.reverse.zipIdx.map Prod.swap := by
      subst hl
      apply List.ext_getElem (by simp)
      intro i h1 h2
      simp
    rw [this, List.flatMap_map]
    rfl
  have h2 : ((List.range n).map fun i => MeasMit.Op.measure i i) =
      (List.range n).zipIdx.map fun q => MeasMit.Op.measure q.1 q.2 := by
    apply List.ext_getElem (by simp)
    intro i h1 h2
    simp
  unfold calibrationCircuit
  rw [h1, h2, if_pos]
  unfold MeasMit.Circ.inRange
  rw [List.all_eq_true]
  intro op hop
  rcases List.mem_append.1 hop with h | h
  · unfold MeasMit.xGates at h
    obtain ⟨p, hp, h⟩ := List.mem_flatMap.1 h
    have hr := List.mem_range.1 (List.of_mem_zip hp).1
    split at h
    · rw [List.mem_singleton] at h; subst h; simpa using hr
    · simp at h
  · obtain ⟨p, hp, rfl⟩ := List.mem_map.1 h
    have := List.mem_range.1 (List.fst_mem_of_mem_zipIdx hp)
    rw [List.mem_zipIdx_iff_getElem?] at hp
    have h2 := (List.getElem?_eq_some_iff.1 hp).1
    simp at h2
    simp [h2, this]

/-- C18: without noise every calibration circuit reads the label stored in its metadata. -/
theorem C18_readback (n : ℕ) (method : Str) (labels : Option (List Str))
    (hl : ∀ l, labels = some l → ∀ s ∈ l, IsBits s ∧ s.length = n) (hn : 1 ≤ n)
    (circs : List MeasMit.Circ) (metas : List Meta) (h : mitigatorCircuits n method labels = some (circs, metas)) :
    circs.length = metas.length ∧
      ∀ (i : ℕ) (h1 : i < circs.length) (h2 : i < metas.length),
        MeasMit.readout circs[i] = metas[i].cal ∧ metas[i].experiment = some "meas_mit".toList ∧
          metas[i].method = some method ∧ metas[i].cal.length = n := by
  have key : ∃ L : List Str, (∀ s ∈ L, IsBits s ∧ s.length = n) ∧ L.mapM (calibrationCircuit n) = some circs ∧
      metas = L.map fun l => ⟨some "meas_mit".toList, l, some method⟩ := by
    unfold mitigatorCircuits at h
    have fin : ∀ L : List Str, (∀ s ∈ L, IsBits s ∧ s.length = n) →
        ((some L).bind fun labels => (labels.mapM (calibrationCircuit n)).bind fun circs =>
          some (circs, labels.map fun l => (⟨some "meas_mit".toList, l, some method⟩ : Meta))) = some (circs, metas) →
        ∃ L : List Str, (∀ s ∈ L, IsBits s ∧ s.length = n) ∧ L.mapM (calibrationCircuit n) = some circs ∧
          metas = L.map fun l => ⟨some "meas_mit".toList, l, some method⟩ := by
      intro L hL h
      rw [Option.bind_some, Option.bind_eq_some_iff] at h
      obtain ⟨cs, h1, h2⟩ := h
      rw [Option.some.injEq, Prod.mk.injEq] at h2
      exact ⟨L, hL, by rw [h1, h2.1], h2.2.symm⟩
    cases labels with
    | some L => exact fin L (hl L rfl) h
    | none =>
      have h0 : IsBits (List.replicate n '0') := fun c hc => Or.inl (List.eq_of_mem_replicate hc)
      have h1 : IsBits (List.replicate n '1') := fun c hc => Or.inr (List.eq_of_mem_replicate hc)
      cases hm : methodLabels n method with
      | none => rw [hm] at h; cases h
      | some L =>
        rw [hm] at h
        refine fin L ?_ h
        unfold methodLabels at hm
        split_ifs at hm
        · simp only [Option.some.injEq] at hm
          subst hm
          intro s hs
          rcases List.mem_cons.1 hs with rfl | hs
          · exact ⟨h0, by simp⟩
          · rw [List.mem_singleton] at hs; subst hs; exact ⟨h1, by simp⟩
        · simp only [Option.some.injEq] at hm
          subst hm
          intro s hs
          rcases List.mem_append.1 hs with hs | hs
          · rcases List.mem_cons.1 hs with rfl | hs
            · exact ⟨h0, by simp⟩
            · rw [List.mem_singleton] at hs; subst hs; exact ⟨h1, by simp⟩
          · obtain ⟨i, hi, rfl⟩ := List.mem_map.1 hs
            have := List.mem_range.1 hi
            refine ⟨?_, by simp; omega⟩
            intro c hc
            simp only [List.mem_append, List.mem_replicate, List.mem_cons] at hc
            rcases hc with ⟨_, h⟩ | h | ⟨_, h⟩
            · exact Or.inl h
            · exact Or.inr h
            · exact Or.inl h
        · simp only [Option.some.injEq] at hm
          subst hm
          intro s hs
          exact (mem_countKeys n hn s).1 hs
  obtain ⟨L, hL, hmap, rfl⟩ := key
  rw [mapM_eq_some L _ (fun label => ⟨"meas_mit_cal_".toList ++ label, n, n,
      MeasMit.xGates ((List.range n).zip label.reverse) ++
        (List.range n).zipIdx.map fun q => MeasMit.Op.measure q.1 q.2⟩)
      (fun s hs => calibrationCircuit_eq n s (hL s hs).2), Option.some.injEq] at hmap
  subst hmap
  refine ⟨by simp, ?_⟩
  intro i h1 h2
  simp only [List.getElem_map]
  have hi : i < L.length := by simpa using h2
  obtain ⟨hb, hlen⟩ := hL _ (List.getElem_mem hi)
  refine ⟨?_, trivial, trivial, hlen⟩
  have := MeasMit.readout_cal ("meas_mit_cal_".toList ++ L[i]) n n (List.range n) L[i] (by simpa using hlen)
    List.nodup_range hb (by simp)
  rw [hlen] at this
  simpa using this

theorem weight_one (n : ℕ) (s : Str) (hb : IsBits s) (hl : s.length = n) (h1 : s.count '1' = 1) :
    ∃ i < n, s = List.replicate (n - i - 1) '0' ++ '1' :: List.replicate i '0' := by
  have hmem : '1' ∈ s := List.count_pos_iff.1 (by omega)
  obtain ⟨a, b, rfl⟩ := List.append_of_mem hmem
  have hc : a.count '1' = 0 ∧ b.count '1' = 0 := by
    rw [List.count_append, List.count_cons_self] at h1; omega
  have hz : ∀ l : Str, IsBits l → l.count '1' = 0 → l = List.replicate l.length '0' := by
    intro l hl h0
    rw [List.eq_replicate_iff]
    refine ⟨rfl, fun c hc => ?_⟩
    rcases hl c hc with h | h
    · exact h
    · subst h; exact absurd hc (List.count_eq_zero.1 h0)
  have ha := hz a (fun c hc => hb c (by simp [hc])) hc.1
  have hb' := hz b (fun c hc => hb c (by simp [hc])) hc.2
  simp only [List.length_append, List.length_cons] at hl
  refine ⟨b.length, by omega, ?_⟩
  rw [show n - b.length - 1 = a.length by omega, ← ha, ← hb']

/-- C18: the label sets of the three methods; every other method name is rejected. -/
theorem C18_labels (n : ℕ) (hn : 1 ≤ n) (method : Str) :
    (method = "tensored".toList → ∃ circs metas, mitigatorCircuits n method none = some (circs, metas) ∧
      metas.map Meta.cal = [List.replicate n '0', List.replicate n '1']) ∧
    (method = "complete".toList → ∃ circs metas, mitigatorCircuits n method none = some (circs, metas) ∧
      (metas.map Meta.cal).Nodup ∧ ∀ s, s ∈ metas.map Meta.cal ↔ IsBits s ∧ s.length = n) ∧
    (method = "CTMP".toList ∨ method = "ctmp".toList → ∃ circs metas,
      mitigatorCircuits n method none = some (circs, metas) ∧ metas.length = n + 2 ∧
      ∀ s, s ∈ metas.map Meta.cal ↔ IsBits s ∧ s.length = n ∧ (s.count '1' = 0 ∨ s.count '1' = 1 ∨ s.count '1' = n)) ∧
    (method ∉ ["tensored".toList, "complete".toList, "CTMP".toList, "ctmp".toList] →
      mitigatorCircuits n method none = none) := by
  have ok : ∀ L : List Str, methodLabels n method = some L → (∀ s ∈ L, s.length = n) →
      ∃ circs metas, mitigatorCircuits n method none = some (circs, metas) ∧ metas.map Meta.cal = L := by
    intro L h hL
    refine ⟨L.map fun label => ⟨"meas_mit_cal_".toList ++ label, n, n,
      MeasMit.xGates ((List.range n).zip label.reverse) ++
        (List.range n).zipIdx.map fun q => MeasMit.Op.measure q.1 q.2⟩,
      L.map fun l => ⟨some "meas_mit".toList, l, some method⟩, ?_, ?_⟩
    · unfold mitigatorCircuits
      rw [h]
      simp only [Option.bind_eq_bind, Option.bind_some]
      rw [mapM_eq_some L _ _ (fun s hs => calibrationCircuit_eq n s (hL s hs))]
      rfl
    · simp [Function.comp_def]
  have hz : ∀ s : Str, IsBits s → s.length = n → s.count '1' = 0 → s = List.replicate n '0' := by
    intro s hb hl h0
    rw [List.eq_replicate_iff]
    refine ⟨hl, fun c hc => ?_⟩
    rcases hb c hc with h | h
    · exact h
    · subst h; exact absurd hc (List.count_eq_zero.1 h0)
  have h1n : ∀ s : Str, IsBits s → s.length = n → s.count '1' = n → s = List.replicate n '1' := by
    intro s hb hl h0
    rw [List.eq_replicate_iff]
    refine ⟨hl, fun c hc => ?_⟩
    have := List.count_eq_length.1 (h0.trans hl.symm) c hc
    exact this.symm
  refine ⟨?_, ?_, ?_, ?_⟩
  · rintro rfl
    exact ok _ (if_pos rfl) (by intro s hs; simp only [List.mem_cons, List.not_mem_nil, or_false] at hs; rcases hs with rfl | rfl <;> simp)
  · rintro rfl
    obtain ⟨circs, metas, h1, h2⟩ := ok (countKeys n) (by unfold methodLabels; rw [if_neg (by decide), if_neg (by decide), if_pos rfl])
      (fun s hs => ((mem_countKeys n hn s).1 hs).2)
    exact ⟨circs, metas, h1, by rw [h2]; exact nodup_countKeys n, fun s => by rw [h2]; exact mem_countKeys n hn s⟩
  · intro hm
    obtain ⟨circs, metas, h1, h2⟩ := ok ([List.replicate n '0', List.replicate n '1'] ++
        (List.range n).map fun i => List.replicate (n - i - 1) '0' ++ '1' :: List.replicate i '0')
      (by
        unfold methodLabels
        rw [if_neg (by rcases hm with rfl | rfl <;> decide), if_pos hm])
      (by
        intro s hs
        rcases List.mem_append.1 hs with hs | hs
        · simp only [List.mem_cons, List.not_mem_nil, or_false] at hs; rcases hs with rfl | rfl <;> simp
        · obtain ⟨i, hi, rfl⟩ := List.mem_map.1 hs
          have := List.mem_range.1 hi
          simp; omega)
    refine ⟨circs, metas, h1, ?_, fun s => ?_⟩
    · have := congrArg List.length h2
      simp at this; omega
    · rw [h2]
      constructor
      · intro hs
        rcases List.mem_append.1 hs with hs | hs
        · simp only [List.mem_cons, List.not_mem_nil, or_false] at hs
          rcases hs with rfl | rfl
          · exact ⟨fun c hc => Or.inl (List.eq_of_mem_replicate hc), by simp, Or.inl (by simp [List.count_replicate])⟩
          · exact ⟨fun c hc => Or.inr (List.eq_of_mem_replicate hc), by simp, Or.inr (Or.inr (by simp))⟩
        · obtain ⟨i, hi, rfl⟩ := List.mem_map.1 hs
          have := List.mem_range.1 hi
          refine ⟨?_, by simp; omega, Or.inr (Or.inl ?_)⟩
          · intro c hc
            simp only [List.mem_append, List.mem_replicate, List.mem_cons] at hc
            rcases hc with ⟨_, h⟩ | h | ⟨_, h⟩
            · exact Or.inl h
            · exact Or.inr h
            · exact Or.inl h
          · rw [List.count_append, List.count_cons_self, List.count_eq_zero.2, List.count_eq_zero.2]
            · simp
            · simp
      · rintro ⟨hb, hl, h | h | h⟩
        · rw [hz s hb hl h]; simp
        · obtain ⟨i, hi, rfl⟩ := weight_one n s hb hl h
          refine List.mem_append_right _ (List.mem_map.2 ⟨i, List.mem_range.2 hi, rfl⟩)
        · rw [h1n s hb hl h]; simp
  · intro hm
    simp only [List.mem_cons, List.not_mem_nil, or_false, not_or] at hm
    unfold mitigatorCircuits methodLabels
    rw [if_neg hm.1, if_neg (by rintro (h | h); exacts [hm.2.2.1 h, hm.2.2.2 h]), if_neg hm.2.1]
    rfl

/-- Non-vacuity: custom labels on two qubits. -/
example : (mitigatorCircuits 2 "complete".toList (some [['0', '1'], ['1', '0']])).map
    (fun r => r.1.map MeasMit.readout) = some [['0', '1'], ['1', '0']] := by decide +kernel

variable {K : Type} [Field K] [LinearOrder K] [IsStrictOrderedRing K]

/-! ## C20 -/

/-- The coefficient of an outcome string. -/
def obsStr (diagonal : Option (List K)) (k : Str) : K :=
  match diagonal with
  | none => (-1) ^ k.count '1'
  | some d => d.getD (ofBin k) 0

theorem obsStr_readStr (diagonal : Option (List K)) (T : List ℕ) (s : Str) (h : ∀ q ∈ T, q < s.length) :
    obsStr diagonal (readStr T s) = observable diagonal T s := by
  cases diagonal with
  | none => simp only [obsStr, observable]; rw [count_readStr T s h]
  | some d => simp only [obsStr, observable]; rw [ofBin_readStr T s h]

theorem sum_div {α : Type} (l : List α) (f g : α → K) (t : K) :
    (l.map fun x => f x * (g x / t)).sum = (l.map fun x => f x * g x).sum / t := by
  induction l with
  | nil => simp
  | cons a l ih => simp only [List.map_cons, List.sum_cons, ih]; ring

theorem mean_mono (c : Counts) (hnn : ∀ kv ∈ c, 0 ≤ kv.2) (hpos : 0 < total c) (f g : Str → K)
    (h : ∀ kv ∈ c, f kv.1 ≤ g kv.1) : mean c f ≤ mean c g := by
  unfold mean
  have ht : (0 : K) < (total c : K) := by exact_mod_cast hpos
  refine div_le_div_of_nonneg_right ?_ ht.le
  refine List.sum_le_sum ?_
  intro kv hkv
  exact mul_le_mul_of_nonneg_right (h kv hkv) (by exact_mod_cast hnn kv hkv)

theorem mean_const (c : Counts) (hpos : 0 < total c) (a : K) : mean c (fun _ => a) = a := by
  unfold mean
  have ht : (0 : K) < (total c : K) := by exact_mod_cast hpos
  have : (c.map fun kv => a * (kv.2 : K)).sum = a * (total c : K) := by
    unfold total
    clear ht hpos
    induction c with
    | nil => simp
    | cons b c ih => simp only [List.map_cons, List.sum_cons, ih, Int.cast_add]; ring
  rw [this, mul_div_assoc, div_self ht.ne', mul_one]

theorem sum_sq_expand (c : Counts) (f : Str → K) (e : K) :
    (c.map fun kv => (f kv.1 - e) ^ 2 * (kv.2 : K)).sum = (c.map fun kv => f kv.1 ^ 2 * (kv.2 : K)).sum
      - 2 * e * (c.map fun kv => f kv.1 * (kv.2 : K)).sum + (c.map fun kv => e ^ 2 * (kv.2 : K)).sum := by
  induction c with
  | nil => simp
  | cons b c ih => simp only [List.map_cons, List.sum_cons, ih]; ring

theorem mean_sq (c : Counts) (hnn : ∀ kv ∈ c, 0 ≤ kv.2) (hpos : 0 < total c) (f : Str → K) :
    0 ≤ mean c (fun s => f s ^ 2) - mean c f ^ 2 := by
  have h1 : mean c (fun s => (f s - mean c f) ^ 2) = mean c (fun s => f s ^ 2) - mean c f ^ 2 := by
    set e := mean c f with he
    have ht : (0 : K) < (total c : K) := by exact_mod_cast hpos
    have h2 : mean c (fun s => (f s - e) ^ 2) = mean c (fun s => f s ^ 2) - 2 * e * mean c f + mean c (fun _ => e ^ 2) := by
      unfold mean
      rw [sum_sq_expand]
      ring
    rw [h2, ← he, mean_const c hpos]; ring
  rw [← h1, ← mean_const c hpos (0 : K)]
  exact mean_mono c hnn hpos _ _ fun kv _ => sq_nonneg _

/-- C20: the expectation value is the average of the observable over the recorded shots, it lies within any
bounds of the observable, and the variance is the (non-negative) sample variance divided by the shots. -/
theorem C20_expectation_value (n : ℕ) (c : Counts) (hc : OneReg n c) (hnn : ∀ kv ∈ c, 0 ≤ kv.2) (hpos : 0 < total c)
    (clbits : Option (List ℕ)) (T : List ℕ) (hT : Selects n clbits T)
    (diagonal : Option (List K)) (hd : ∀ d, diagonal = some d → d.length = 2 ^ T.length) :
    ∃ e v : K, expectationValue c diagonal clbits = some (e, v) ∧
      e = mean c (observable diagonal T) ∧
      v = (mean c (fun s => observable diagonal T s ^ 2) - e ^ 2) / (total c : K) ∧ 0 ≤ v ∧
      ∀ lo hi, (∀ kv ∈ c, lo ≤ observable diagonal T kv.1 ∧ observable diagonal T kv.1 ≤ hi) → lo ≤ e ∧ e ≤ hi := by
  obtain ⟨m, hm, hreg, -, hsum⟩ := marginalTo_spec n c hc hnn hpos clbits T hT
  have hshots : shotsOf m = total c := shotsOf_eq c m T hsum
  have hTpos : 0 < T.length := List.length_pos_iff.2 hT.2.2.1
  have hterms : (m.mapM fun kv => (coeffOf diagonal kv.1).map fun x => (x, (kv.2 : K) / (shotsOf m : K))) =
      some (m.map fun kv => (obsStr diagonal kv.1, (kv.2 : K) / (total c : K))) := by
    refine mapM_eq_some m _ _ ?_
    intro kv hkv
    have hl := hreg.len kv hkv
    have hne : kv.1 ≠ [] := by intro h; rw [h] at hl; simp at hl; omega
    have hlt := ofBin_lt kv.1
    rw [hl] at hlt
    have : coeffOf diagonal kv.1 = some (obsStr diagonal kv.1) := by
      cases diagonal with
      | none => simp only [coeffOf, obsStr]; rw [← neg_one_pow_eq_pow_mod_two]
      | some d =>
        simp only [coeffOf, obsStr, parseBin]
        rw [if_pos ⟨hreg.bits kv hkv, hne⟩]
        have hlen := hd d rfl
        simp only [Option.bind_eq_bind, Option.bind_some]
        rw [List.getElem?_eq_getElem (by omega), List.getD_eq_getElem?_getD, List.getElem?_eq_getElem (by omega)]
        rfl
    rw [this, hshots]; rfl
  have hobs : ∀ g : K → K, (m.map fun kv => g (obsStr diagonal kv.1) * (kv.2 : K)).sum / (total c : K) =
      mean c fun s => g (observable diagonal T s) := by
    intro g
    rw [hsum K fun k => g (obsStr diagonal k)]
    unfold mean
    congr 2
    refine List.map_congr_left fun kv hkv => ?_
    rw [obsStr_readStr diagonal T kv.1 fun q hq => by rw [hc.len kv hkv]; exact hT.2.1 q hq]
  have hres : expectationValue c diagonal clbits = some (mean c (observable diagonal T),
      (mean c (fun s => observable diagonal T s ^ 2) - mean c (observable diagonal T) ^ 2) / (total c : K)) := by
    unfold expectationValue
    rw [hm]
    simp only [Option.bind_eq_bind, Option.bind_some]
    rw [hterms]
    simp only [Option.bind_some, expvalVar, List.map_map, Function.comp_def, hshots]
    rw [sum_div m (fun kv => obsStr diagonal kv.1), sum_div m (fun kv => obsStr diagonal kv.1 ^ 2),
      hobs (fun x => x), hobs (fun x => x ^ 2)]
    rfl
  have ht : (0 : K) < (total c : K) := by exact_mod_cast hpos
  refine ⟨_, _, hres, rfl, rfl, div_nonneg (mean_sq c hnn hpos _) ht.le, ?_⟩
  intro lo hi hb
  constructor
  · rw [← mean_const c hpos lo]
    exact mean_mono c hnn hpos _ _ fun kv hkv => (hb kv hkv).1
  · rw [← mean_const c hpos hi]
    exact mean_mono c hnn hpos _ _ fun kv hkv => (hb kv hkv).2

/-- C20: the standard deviation is the square root of the variance. -/
theorem C20_stddev (v : ℝ) (hv : 0 ≤ v) : 0 ≤ stddevOf v ∧ stddevOf v ^ 2 = v := by
  unfold stddevOf
  split_ifs with h
  · exact ⟨Real.sqrt_nonneg _, Real.sq_sqrt hv⟩
  · have : v = 0 := le_antisymm (not_lt.1 h) hv
    simp [this]

/-- Non-vacuity: three-bit counts, marginalised to bits 2 and 0, with a custom diagonal. -/
example : let c : Counts := [(['0', '1', '1'], 3), (['1', '0', '0'], 1)]
    OneReg 3 c ∧ 0 < total c ∧ Selects 3 (some [2, 0]) [0, 2] ∧
    expectationValue c (some [(0 : ℚ), 1, 5, 7]) (some [2, 0]) = some (2, 3 / 4) ∧
    mean c (observable (some [(0 : ℚ), 1, 5, 7]) [0, 2]) = 2 := by
  refine ⟨by decide +kernel, by decide +kernel, by decide +kernel, by decide +kernel, by decide +kernel⟩

/-! ## C21 -/

/-- C21: without a qubit list, entry `k` is the share of the outcomes whose selected bits read `k`. -/
theorem C21_vector (n : ℕ) (c : Counts) (hc : OneReg n c) (hnn : ∀ kv ∈ c, 0 ≤ kv.2) (hpos : 0 < total c)
    (clbits : Option (List ℕ)) (T : List ℕ) (hT : Selects n clbits T) (nq : Option ℕ)
    (hnq : ∀ x, nq = some x → x = T.length) :
    ∃ vec : ℕ → K, countsProbabilityVector c none clbits nq = some (T.length, vec, total c) ∧
      ∀ k, vec k = share K c fun s => readBits T s = k := by
  obtain ⟨vec, h1, h2⟩ := probVec_eq (K := K) n c hc hnn hpos clbits T hT none nq hnq
  exact ⟨vec, h2, h1⟩

/-- C21: with a qubit list, bit `j` of the selected bits is moved to the position of qubit `qs[j]` among the
listed qubits in increasing order. -/
theorem C21_vector_qubits (n : ℕ) (c : Counts) (hc : OneReg n c) (hnn : ∀ kv ∈ c, 0 ≤ kv.2) (hpos : 0 < total c)
    (clbits : Option (List ℕ)) (T : List ℕ) (hT : Selects n clbits T) (nq : Option ℕ)
    (hnq : ∀ x, nq = some x → x = T.length) (qs : List ℕ) (hq : qs.Nodup) (hl : qs.length = T.length) :
    ∃ vec : ℕ → K, countsProbabilityVector c (some qs) clbits nq = some (T.length, vec, total c) ∧
      ∀ k < 2 ^ T.length, vec k = share K c fun s => readQubits T qs s = k := by
  obtain ⟨vec, h1, h2⟩ := probVec_eq (K := K) n c hc hnn hpos clbits T hT (some qs) nq hnq
  refine ⟨_, by rw [h2]; simp only []; rw [if_neg (by simpa using hl)], ?_⟩
  intro k hk
  rw [h1]
  unfold share
  congr 1
  funext s
  have := readBits_eq_transpose_iff T qs hl hq s k hk
  by_cases h : readQubits T qs s = k
  · rw [if_pos h, if_pos (this.2 h)]
  · rw [if_neg h, if_neg fun h' => h (this.1 h')]

/-- A qubit list of the wrong length is rejected. -/
theorem C21_rejects (n : ℕ) (c : Counts) (hc : OneReg n c) (hnn : ∀ kv ∈ c, 0 ≤ kv.2) (hpos : 0 < total c)
    (clbits : Option (List ℕ)) (T : List ℕ) (hT : Selects n clbits T) (qs : List ℕ) (hl : qs.length ≠ T.length) :
    countsProbabilityVector (K := K) c (some qs) clbits none = none := by
  obtain ⟨vec, h1, h2⟩ := probVec_eq (K := K) n c hc hnn hpos clbits T hT (some qs) none (by simp)
  rw [h2]; simp only []; rw [if_pos hl]

/-- C21: every entry is non-negative and the entries add up to one. -/
theorem C21_distribution (c : Counts) (hnn : ∀ kv ∈ c, 0 ≤ kv.2) (hpos : 0 < total c) (T : List ℕ) :
    (∀ k, 0 ≤ share K c fun s => readBits T s = k) ∧
      ∑ k ∈ Finset.range (2 ^ T.length), share K c (fun s => readBits T s = k) = 1 := by
  constructor
  · intro k
    rw [← mean_const c hpos (0 : K)]
    exact mean_mono c hnn hpos _ _ fun kv _ => by beta_reduce; split <;> simp
  · rw [← mean_const c hpos (1 : K)]
    unfold share mean
    rw [← Finset.sum_div]
    congr 1
    clear hnn hpos
    induction c with
    | nil => simp
    | cons b c ih =>
      simp only [List.map_cons, List.sum_cons, Finset.sum_add_distrib, ih]
      congr 1
      rw [← Finset.sum_mul, Finset.sum_ite_eq, if_pos (Finset.mem_range.2 (readBits_lt T b.1))]

/-- C21: the same for the vector reordered by qubits. -/
theorem C21_distribution_qubits (c : Counts) (hnn : ∀ kv ∈ c, 0 ≤ kv.2) (hpos : 0 < total c) (T qs : List ℕ)
    (hq : qs.Nodup) (hl : qs.length = T.length) :
    (∀ k, 0 ≤ share K c fun s => readQubits T qs s = k) ∧
      ∑ k ∈ Finset.range (2 ^ T.length), share K c (fun s => readQubits T qs s = k) = 1 := by
  constructor
  · intro k
    rw [← mean_const c hpos (0 : K)]
    exact mean_mono c hnn hpos _ _ fun kv _ => by beta_reduce; split <;> simp
  · rw [← mean_const c hpos (1 : K)]
    unfold share mean
    rw [← Finset.sum_div]
    congr 1
    clear hnn hpos
    have hlt : ∀ s, readQubits T qs s < 2 ^ T.length := by
      intro s
      unfold readQubits
      rw [← hl, ← sum_rank qs hq fun u j => clbit s (T.getD j 0) * 2 ^ u]
      exact sum_bits_lt _ _ fun t _ => by unfold clbit; split <;> omega
    induction c with
    | nil => simp
    | cons b c ih =>
      simp only [List.map_cons, List.sum_cons, Finset.sum_add_distrib, ih]
      congr 1
      rw [← Finset.sum_mul, Finset.sum_ite_eq, if_pos (Finset.mem_range.2 (hlt b.1))]

/-- Non-vacuity: outcome `011` with qubits 7, 2, 4 read into bits 0, 1, 2: in increasing order the qubits
2, 4, 7 read 1, 0, 1, the number 5. -/
example : readQubits [0, 1, 2] [7, 2, 4] ['0', '1', '1'] = 5 ∧
    (countsProbabilityVector (K := ℚ) [(['0', '1', '1'], 1)] (some [7, 2, 4]) none none).map (fun r => (r.1, r.2.1 5, r.2.2)) =
      some (3, 1, 1) := by
  constructor <;> decide +kernel

/-- C21 finding: the order of `clbits` is ignored.  After `measure([0, 1], [1, 0])` the outcome `01` means that
qubit 1 read 1 and qubit 0 read 0, the number 2; the vector built with `qubits=[0, 1]`, `clbits=[1, 0]`
has its weight at 1. -/
theorem C21_finding_clbit_order :
    (countsProbabilityVector (K := ℚ) [(['0', '1'], 1)] (some [0, 1]) (some [1, 0]) none).map
      (fun r => (r.2.1 1, r.2.1 2)) = some (1, 0) ∧ readQubits [1, 0] [0, 1] ['0', '1'] = 2 := by
  constructor <;> decide +kernel

end Verif.Expval
