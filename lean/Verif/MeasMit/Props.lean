import Verif.MeasMit.Lemmas
/-
C12: the measurement-calibration circuits.
-/
namespace Verif.MeasMit
open Verif Verif.Counts

/-- The quantum register size chosen by `tensored_meas_cal`. -/
def qrSize (pattern : List (List Nat)) (qr : Option Nat) : Option Nat :=
  match qr with
  | some n => some n
  | none => (pyMax pattern.flatten).map (· + 1)

/-- The circuits built for registers of sizes `nq`, `nc` and largest group `m`. -/
def theCircs (pattern : List (List Nat)) (circlabel : Str) (nq nc m : Nat) : List Circ :=
  (stateLabels (countKeys m) (pattern.map List.length)).map fun basis =>
    { name := circlabel ++ "cal_".toList ++ basis
      nq := nq
      nc := nc
      ops := prepOps pattern basis (pattern.map List.length).sum ++
        measOps pattern (pattern.map List.length).sum : Circ }

theorem tensored_eq (pattern : List (List Nat)) (qr cr : Option Nat) (circlabel : Str) :
    tensoredMeasCal (some pattern) qr cr circlabel =
      if pattern.flatten.Nodup then
        (qrSize pattern qr).bind fun nq =>
        (pyMax (pattern.map List.length)).bind fun m =>
          let c := theCircs pattern circlabel nq (cr.getD pattern.flatten.length) m
          if c.all Circ.inRange then some (c, pattern) else none
      else none := by
  by_cases h : pattern.flatten.Nodup
  · cases qr with
    | some n =>
      simp only [tensoredMeasCal, collectQubits_eq, h, if_true, qrSize]
      rfl
    | none =>
      simp only [tensoredMeasCal, collectQubits_eq, h, if_true, qrSize]
      rw [show ∀ (f : List Nat → Option (List Circ × List (List Nat))),
        (some pattern.flatten >>= f) = f pattern.flatten from fun _ => rfl]
      cases pyMax pattern.flatten <;> rfl
  · cases qr <;> simp [tensoredMeasCal, collectQubits_eq, h]

theorem mem_stateLabels (L : List Str) (sizes : List Nat) (s : Str) :
    s ∈ stateLabels L sizes ↔
      ∃ ls ∈ L, sizes.foldl (fun basis sz => ls.take sz ++ basis) [] = s := by
  simp [stateLabels]

/-- All the facts about the circuits, for any register sizes that are large enough. -/
theorem circ_facts (pattern : List (List Nat)) (circlabel : Str) (nq nc m : Nat)
    (hnd : pattern.flatten.Nodup) (hm : pyMax (pattern.map List.length) = some m) (hm1 : 1 ≤ m)
    (hnc : pattern.flatten.length ≤ nc) :
    (theCircs pattern circlabel nq nc m).length = 2 ^ m ∧
    ((theCircs pattern circlabel nq nc m).map Circ.name).Nodup ∧
    (∀ c ∈ theCircs pattern circlabel nq nc m, ∃ label, IsBits label ∧
      label.length = pattern.flatten.length ∧ c.name = circlabel ++ "cal_".toList ++ label ∧
      readout c = List.replicate (nc - label.length) '0' ++ label) ∧
    (∀ pre g post, pattern = pre ++ g :: post → ∀ s, IsBits s → s.length = g.length →
      ∃ c ∈ theCircs pattern circlabel nq nc m, ∀ k, k < g.length →
        bitChar ((Sim.run c.ops).q (g.getD k 0)) = s.getD (g.length - 1 - k) ' ') := by
  obtain ⟨hmem, hmax⟩ := pyMax_spec _ _ hm
  have hL : ∀ ls ∈ countKeys m, IsBits ls ∧ ls.length = m := by
    intro ls hls; exact (mem_countKeys m hm1 ls).1 hls
  have hlen : ∀ ls ∈ countKeys m,
      ((pattern.map List.length).foldl (fun basis sz => ls.take sz ++ basis) []).length
        = pattern.flatten.length := by
    intro ls hls
    rw [label_length _ _ (fun sz hs => by rw [(hL ls hls).2]; exact hmax sz hs), sum_length_flatten]
  refine ⟨?_, ?_, ?_, ?_⟩
  · simp [theCircs, stateLabels, length_countKeys]
  · simp only [theCircs, stateLabels, List.map_map]
    apply List.Nodup.map_on _ (nodup_countKeys m)
    intro a ha b hb hab
    simp only [Function.comp] at hab
    exact label_inj _ a b m hmem (hL a ha).2 (hL b hb).2 hmax (List.append_cancel_left hab)
  · intro c hc
    simp only [theCircs, List.mem_map, mem_stateLabels] at hc
    obtain ⟨label, ⟨ls, hls, hl⟩, rfl⟩ := hc
    have hll : label.length = pattern.flatten.length := by rw [← hl]; exact hlen ls hls
    have hlb : IsBits label := by rw [← hl]; exact label_bits _ _ (hL ls hls).1
    refine ⟨label, hlb, hll, rfl, ?_⟩
    rw [sum_length_flatten, prepOps_eq _ _ hll, measOps_eq]
    exact readout_cal _ _ _ _ _ hll hnd hlb hnc
  · intro pre g post hp s hs hsl
    have hgm : g.length ≤ m := hmax _ (List.mem_map.2 ⟨g, by rw [hp]; simp, rfl⟩)
    have hls : (s ++ List.replicate (m - g.length) '0') ∈ countKeys m := by
      rw [mem_countKeys m hm1]
      refine ⟨?_, by simp [hsl]; omega⟩
      intro c hc
      rcases List.mem_append.1 hc with hc | hc
      · exact hs c hc
      · left; exact (List.mem_replicate.1 hc).2
    generalize hlsd : s ++ List.replicate (m - g.length) '0' = ls at hls
    refine ⟨_, List.mem_map.2 ⟨_, (mem_stateLabels _ _ _).2 ⟨ls, hls, rfl⟩, rfl⟩, ?_⟩
    intro k hk
    simp only
    rw [sum_length_flatten, prepOps_eq _ _ (hlen ls hls), measOps_eq]
    have hrun := (run_cal pattern.flatten _ (hlen ls hls) hnd).1 (pre.flatten.length + k) (by
      rw [hp]; simp only [List.flatten_append, List.flatten_cons, List.length_append]; omega)
    have hget : pattern.flatten.getD (pre.flatten.length + k) 0 = g.getD k 0 := by
      rw [hp, List.flatten_append, List.flatten_cons, List.getD_eq_getElem?_getD,
        List.getElem?_append_right (by omega), Nat.add_sub_cancel_left,
        List.getElem?_append_left hk, List.getD_eq_getElem?_getD]
    rw [hget] at hrun
    rw [hrun]
    have hpart := label_part (pre.map List.length) g.length (post.map List.length) ls (by
      intro sz hsz
      rw [(hL ls hls).2]
      apply hmax
      rw [hp]; simpa using hsz) k hk
    have e1 : pattern.map List.length = pre.map List.length ++ g.length :: post.map List.length := by
      rw [hp]; simp
    rw [e1, ← sum_length_flatten, hpart]
    have h3 : ls.getD (g.length - 1 - k) ' ' = s.getD (g.length - 1 - k) ' ' := by
      rw [← hlsd, List.getD_eq_getElem?_getD, List.getElem?_append_left (by omega),
        List.getD_eq_getElem?_getD]
    rw [h3]
    apply bitChar_decide
    rw [List.getD_eq_getElem?_getD, List.getElem?_eq_getElem (by omega)]
    exact hs _ (List.getElem_mem _)

/-- `all` succeeds exactly when the registers are large enough. -/
theorem inRange_iff (pattern : List (List Nat)) (circlabel : Str) (nq nc m : Nat)
    (hm : pyMax (pattern.map List.length) = some m) (hm1 : 1 ≤ m) :
    (theCircs pattern circlabel nq nc m).all Circ.inRange = true ↔
      (∀ q ∈ pattern.flatten, q < nq) ∧ pattern.flatten.length ≤ nc := by
  obtain ⟨hmem, hmax⟩ := pyMax_spec _ _ hm
  have hL : ∀ ls ∈ countKeys m, IsBits ls ∧ ls.length = m := by
    intro ls hls; exact (mem_countKeys m hm1 ls).1 hls
  have hlen : ∀ ls ∈ countKeys m,
      ((pattern.map List.length).foldl (fun basis sz => ls.take sz ++ basis) []).length
        = pattern.flatten.length := by
    intro ls hls
    rw [label_length _ _ (fun sz hs => by rw [(hL ls hls).2]; exact hmax sz hs), sum_length_flatten]
  have hmeas : ((pattern.flatten.zipIdx.map fun q => Op.measure q.1 q.2).all fun
      | .x q => q < nq
      | .measure q k => q < nq && k < nc) = true ↔
      (∀ q ∈ pattern.flatten, q < nq) ∧ pattern.flatten.length ≤ nc := by
    simp only [List.all_map, List.all_eq_true, Function.comp, Bool.and_eq_true, decide_eq_true_eq]
    constructor
    · intro h
      refine ⟨?_, ?_⟩
      · intro q hq
        obtain ⟨i, hi, rfl⟩ := List.mem_iff_getElem.1 hq
        exact (h (pattern.flatten[i], i) (List.mk_mem_zipIdx_iff_getElem?.2 (by simp))).1
      · by_contra hc
        have hi : nc < pattern.flatten.length := by omega
        have := (h (pattern.flatten[nc], nc) (List.mk_mem_zipIdx_iff_getElem?.2 (by simp))).2
        simp at this
    · rintro ⟨h1, h2⟩ ⟨q, i⟩ hp
      rw [List.mk_mem_zipIdx_iff_getElem?] at hp
      obtain ⟨hi, hq⟩ := List.getElem?_eq_some_iff.1 hp
      refine ⟨h1 q (by rw [← hq]; exact List.getElem_mem _), by simp; omega⟩
  have hx : ∀ l : List (Nat × Char), (∀ q ∈ l, q.1 < nq) → ((xGates l).all fun
      | .x q => q < nq
      | .measure q k => q < nq && k < nc) = true := by
    intro l hl
    simp only [xGates, List.all_eq_true, List.mem_flatMap]
    rintro op ⟨p, hp, hop⟩
    by_cases hc : p.2 = '1'
    · simp [hc] at hop
      subst hop
      simpa using hl p hp
    · simp [hc] at hop
  rw [List.all_eq_true]
  constructor
  · intro h
    have hne : 0 < (countKeys m).length := by rw [length_countKeys]; exact Nat.two_pow_pos m
    have hls := List.getElem_mem hne
    have := h _ (List.mem_map.2 ⟨_, (mem_stateLabels _ _ _).2 ⟨_, hls, rfl⟩, rfl⟩)
    simp only [Circ.inRange] at this
    rw [sum_length_flatten, prepOps_eq _ _ (hlen _ hls), measOps_eq, List.all_append,
      Bool.and_eq_true] at this
    exact hmeas.1 this.2
  · intro h c hc
    simp only [theCircs, List.mem_map, mem_stateLabels] at hc
    obtain ⟨label, ⟨ls, hls, hl⟩, rfl⟩ := hc
    have hll : label.length = pattern.flatten.length := by rw [← hl]; exact hlen ls hls
    simp only [Circ.inRange]
    rw [sum_length_flatten, prepOps_eq _ _ hll, measOps_eq, List.all_append, Bool.and_eq_true]
    refine ⟨hx _ ?_, hmeas.2 h⟩
    rintro ⟨q, c⟩ hq
    exact h.1 q (List.of_mem_zip hq).1

/-- **C12 (tensored).** Whenever `tensored_meas_cal` returns (and some group is not empty):
there is one circuit per basis state of the largest group, with pairwise distinct names; running a
circuit on ideal qubits reads exactly the label in its name on its measured classical bits (further
classical bits read 0); and for every group and every basis state `s` of that group, some circuit
prepares the group in `s` (qubit number `k` of the group holding the `k`-th character from the
right). -/
theorem C12_tensored (pattern : List (List Nat)) (qr cr : Option Nat) (circlabel : Str)
    (circs : List Circ) (pat : List (List Nat)) (hne : ∃ g ∈ pattern, g ≠ [])
    (h : tensoredMeasCal (some pattern) qr cr circlabel = some (circs, pat)) :
    pat = pattern ∧
    (∃ m ∈ pattern.map List.length, (∀ g ∈ pattern, g.length ≤ m) ∧ circs.length = 2 ^ m) ∧
    (circs.map Circ.name).Nodup ∧
    (∀ c ∈ circs, ∃ label, IsBits label ∧ label.length = pattern.flatten.length ∧
      c.name = circlabel ++ "cal_".toList ++ label ∧
      c.nc = cr.getD pattern.flatten.length ∧
      readout c = List.replicate (c.nc - label.length) '0' ++ label) ∧
    (∀ pre g post, pattern = pre ++ g :: post → ∀ s, IsBits s → s.length = g.length →
      ∃ c ∈ circs, ∀ k, k < g.length →
        bitChar ((Sim.run c.ops).q (g.getD k 0)) = s.getD (g.length - 1 - k) ' ') := by
  rw [tensored_eq] at h
  by_cases hnd : pattern.flatten.Nodup
  swap
  · simp [hnd] at h
  simp only [hnd, if_true, Option.bind_eq_some_iff] at h
  obtain ⟨nq, hnq, m, hm, h⟩ := h
  split at h
  swap
  · simp at h
  next hall =>
  simp only [Option.some.injEq, Prod.mk.injEq] at h
  obtain ⟨rfl, rfl⟩ := h
  obtain ⟨hmem, hmax⟩ := pyMax_spec _ _ hm
  have hm1 : 1 ≤ m := by
    obtain ⟨g, hg, hg2⟩ := hne
    have h1 := hmax g.length (List.mem_map.2 ⟨g, hg, rfl⟩)
    have h2 := List.length_pos_iff.2 hg2
    omega
  have hnc := ((inRange_iff _ _ _ _ _ hm hm1).1 hall).2
  obtain ⟨f1, f2, f3, f4⟩ := circ_facts pattern circlabel nq _ m hnd hm hm1 hnc
  refine ⟨rfl, ⟨m, hmem, fun g hg => hmax _ (List.mem_map.2 ⟨g, hg, rfl⟩), f1⟩, f2, ?_, f4⟩
  intro c hc
  obtain ⟨label, h1, h2, h3, h4⟩ := f3 c hc
  have hcn : c.nc = cr.getD pattern.flatten.length := by
    simp only [theCircs, List.mem_map] at hc
    obtain ⟨_, _, rfl⟩ := hc
    rfl
  exact ⟨label, h1, h2, h3, hcn, by rw [hcn]; exact h4⟩

/-- **C12 (when it returns).** With a non-empty group, `tensored_meas_cal` returns circuits exactly
when no qubit is listed twice, every listed qubit is in the quantum register and the classical
register (if given) has room for one bit per listed qubit. -/
theorem C12_tensored_succeeds (pattern : List (List Nat)) (qr cr : Option Nat) (circlabel : Str)
    (hne : ∃ g ∈ pattern, g ≠ []) :
    (tensoredMeasCal (some pattern) qr cr circlabel).isSome ↔
      pattern.flatten.Nodup ∧ (∀ n, qr = some n → ∀ q ∈ pattern.flatten, q < n) ∧
        (∀ n, cr = some n → pattern.flatten.length ≤ n) := by
  rw [tensored_eq]
  by_cases hnd : pattern.flatten.Nodup
  swap
  · simp [hnd]
  obtain ⟨g, hg, hg2⟩ := hne
  have hfl : pattern.flatten ≠ [] := by
    intro h0
    rw [List.flatten_eq_nil_iff] at h0
    exact hg2 (h0 g hg)
  obtain ⟨m, hm⟩ : ∃ m, pyMax (pattern.map List.length) = some m := by
    cases pattern with
    | nil => simp at hg
    | cons a l => exact ⟨_, rfl⟩
  obtain ⟨hmem, hmax⟩ := pyMax_spec _ _ hm
  have hm1 : 1 ≤ m := by
    have h1 := hmax g.length (List.mem_map.2 ⟨g, hg, rfl⟩)
    have h2 := List.length_pos_iff.2 hg2
    omega
  obtain ⟨nq, hnq, hq⟩ : ∃ nq, qrSize pattern qr = some nq ∧
      ((∀ q ∈ pattern.flatten, q < nq) ↔ (∀ n, qr = some n → ∀ q ∈ pattern.flatten, q < n)) := by
    cases qr with
    | some n => exact ⟨n, rfl, by simp⟩
    | none =>
      obtain ⟨M, hM⟩ : ∃ M, pyMax pattern.flatten = some M := by
        cases hc : pattern.flatten with
        | nil => exact absurd hc hfl
        | cons a l => exact ⟨_, rfl⟩
      refine ⟨M + 1, by simp [qrSize, hM], ?_⟩
      have := (pyMax_spec _ _ hM).2
      simp only [reduceCtorEq, false_implies, implies_true, iff_true]
      intro q hq
      have := this q hq
      omega
  simp only [hnd, if_true, hnq, hm, Option.bind_some, true_and]
  have hc : (∀ n, cr = some n → pattern.flatten.length ≤ n) ↔
      pattern.flatten.length ≤ cr.getD pattern.flatten.length := by
    cases cr <;> simp
  rw [← hq, hc, ← inRange_iff pattern circlabel nq _ m hm hm1]
  split <;> simp_all

/-- **C12 (complete).** `complete_meas_cal` on a list of qubits returns one circuit per basis state
of the listed qubits: `2^n` labels, pairwise distinct, every `n`-bit string; the `i`-th circuit is
named after the `i`-th label and reads exactly this label on ideal qubits. -/
theorem C12_complete (ql : List Nat) (qr cr : Option Nat) (circlabel : Str)
    (circs : List Circ) (labels : List Str) (hne : ql ≠ [])
    (h : completeMeasCal (some ql) qr cr circlabel = some (circs, labels)) :
    labels.length = 2 ^ ql.length ∧ labels.Nodup ∧
    (∀ s, s ∈ labels ↔ IsBits s ∧ s.length = ql.length) ∧
    circs.map Circ.name = labels.map (circlabel ++ "cal_".toList ++ ·) ∧
    (∀ c ∈ circs, c.nc = cr.getD ql.length) ∧
    circs.map readout = labels.map (List.replicate (cr.getD ql.length - ql.length) '0' ++ ·) := by
  obtain ⟨nq, h⟩ : ∃ nq, (tensoredMeasCal (some [ql]) (some nq) cr circlabel).bind
      (fun p => some (p.1, countKeys ql.length)) = some (circs, labels) := by
    cases qr with
    | some n => exact ⟨n, h⟩
    | none =>
      simp only [completeMeasCal] at h
      cases hM : pyMax ql with
      | none => rw [hM] at h; simp at h
      | some M => rw [hM] at h; exact ⟨M + 1, h⟩
  rw [Option.bind_eq_some_iff] at h
  obtain ⟨⟨circs', pat⟩, ht, h⟩ := h
  simp only [Option.some.injEq, Prod.mk.injEq] at h
  obtain ⟨rfl, rfl⟩ := h
  have hl1 : 1 ≤ ql.length := List.length_pos_iff.2 hne
  rw [tensored_eq] at ht
  by_cases hnd : ([ql] : List (List Nat)).flatten.Nodup
  swap
  · rw [if_neg hnd] at ht; simp at ht
  have hm : pyMax ([ql].map List.length) = some ql.length := rfl
  simp only [hnd, if_true, qrSize, hm, Option.bind_some] at ht
  split at ht
  swap
  · simp at ht
  next hall =>
  simp only [Option.some.injEq, Prod.mk.injEq] at ht
  obtain ⟨rfl, rfl⟩ := ht
  have hnc := ((inRange_iff _ _ _ _ _ hm hl1).1 hall).2
  have hst : stateLabels (countKeys ql.length) ([ql].map List.length) = countKeys ql.length := by
    rw [stateLabels]
    conv => rhs; rw [← List.map_id (countKeys ql.length)]
    apply List.map_congr_left
    intro ls hls
    simp [((mem_countKeys _ hl1 ls).1 hls).2]
  refine ⟨length_countKeys _, nodup_countKeys _, mem_countKeys _ hl1, ?_, ?_, ?_⟩
  · rw [theCircs, hst, List.map_map]; rfl
  · intro c hc
    simp only [theCircs, List.mem_map] at hc
    obtain ⟨_, _, rfl⟩ := hc
    simp
  · rw [theCircs, hst, List.map_map]
    apply List.map_congr_left
    intro s hs
    obtain ⟨hb, hl⟩ := (mem_countKeys _ hl1 s).1 hs
    have hll : s.length = ([ql] : List (List Nat)).flatten.length := by simpa using hl
    simp only [Function.comp]
    rw [sum_length_flatten, prepOps_eq _ _ hll, measOps_eq, readout_cal _ _ _ _ _ hll hnd hb hnc]
    simp [hl]

/-- Non-vacuity: a pattern of two groups out of order in registers larger than needed. -/
example : (tensoredMeasCal (some [[4, 1], [2]]) (some 6) (some 4) "x".toList).isSome = true ∧
    (tensoredMeasCal (some [[4, 1], [2]]) (some 6) (some 4) "x".toList).map
      (fun r => r.1.map readout) = some ["0000".toList, "0001".toList, "0110".toList, "0111".toList] := by
  decide +kernel

example : (completeMeasCal (some [3, 0]) none none []).map (fun r => r.1.map readout)
    = some (["00", "01", "10", "11"].map String.toList) := by
  decide +kernel

end Verif.MeasMit
