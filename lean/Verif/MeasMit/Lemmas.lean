import Verif.MeasMit.Spec
import Mathlib.Data.List.Nodup
/-
Closed forms of the calibration circuits and their ideal execution.
-/
namespace Verif.MeasMit
open Verif Verif.Counts

theorem collect_inner (ql acc : List Nat) (hacc : acc.Nodup) :
    ql.foldlM (fun acc q => if q ∈ acc then none else some (acc ++ [q])) acc
      = if (acc ++ ql).Nodup then some (acc ++ ql) else none := by
  induction ql generalizing acc with
  | nil => simp [hacc]
  | cons q ql ih =>
    rw [List.foldlM_cons]
    by_cases hq : q ∈ acc
    · have : ¬ (acc ++ q :: ql).Nodup := by
        intro h
        rw [List.nodup_append] at h
        exact h.2.2 q hq q (by simp) rfl
      simp [hq, this]
    · have h1 : (acc ++ [q]).Nodup := by
        rw [List.nodup_append]
        refine ⟨hacc, by simp, ?_⟩
        intro a ha b hb hab
        simp at hb
        subst hb; subst hab
        exact hq ha
      have := ih (acc ++ [q]) h1
      simp only [hq, if_false]
      refine this.trans ?_
      simp

theorem collect_outer (p : List (List Nat)) (acc : List Nat) (hacc : acc.Nodup) :
    p.foldlM (fun acc ql =>
      ql.foldlM (fun acc q => if q ∈ acc then none else some (acc ++ [q])) acc) acc
      = if (acc ++ p.flatten).Nodup then some (acc ++ p.flatten) else none := by
  induction p generalizing acc with
  | nil => simp [hacc]
  | cons ql p ih =>
    rw [List.foldlM_cons, collect_inner _ _ hacc]
    by_cases h : (acc ++ ql).Nodup
    · simp only [h, if_true]
      refine (ih _ h).trans ?_
      simp
    · have : ¬ (acc ++ (ql :: p).flatten).Nodup := by
        intro h2
        apply h
        rw [List.flatten_cons, ← List.append_assoc] at h2
        exact (List.nodup_append.1 h2).1
      simp only [h, if_false, this]
      rfl

theorem collectQubits_eq (p : List (List Nat)) :
    collectQubits p = if p.flatten.Nodup then some p.flatten else none := by
  have := collect_outer p [] List.nodup_nil
  simpa [collectQubits] using this

theorem zip_eq_range {α β : Type} (l : List α) (m : List β) (n : Nat) (hl : l.length = n)
    (hm : m.length = n) (a : α) (b : β) :
    l.zip m = (List.range n).map fun k => (l.getD k a, m.getD k b) := by
  apply List.ext_getElem
  · simp [hl, hm]
  · intro i h1 h2
    simp at h1
    simp [List.getD_eq_getElem?_getD, h1.1, h1.2]

/-- The `x` gates of a list of qubits with their target characters. -/
def xGates (l : List (Nat × Char)) : List Op :=
  l.flatMap fun p => if p.2 = '1' then [Op.x p.1] else []

theorem inner_prep (ql : List Nat) (sub : Str) (h : sub.length = ql.length) :
    ((List.range ql.length).flatMap fun k =>
      if sub.getD (ql.length - k - 1) ' ' = '1' then [Op.x (ql.getD k 0)] else [])
    = xGates (ql.zip sub.reverse) := by
  rw [xGates, zip_eq_range ql sub.reverse ql.length rfl (by simpa using h) 0 ' ', List.flatMap_map]
  have : ∀ k ∈ List.range ql.length,
      (if sub.getD (ql.length - k - 1) ' ' = '1' then [Op.x (ql.getD k 0)] else [])
      = (if sub.reverse.getD k ' ' = '1' then [Op.x (ql.getD k 0)] else []) := by
    intro k hk
    rw [List.mem_range] at hk
    have h1 : sub.reverse.getD k ' ' = sub.getD (ql.length - k - 1) ' ' := by
      rw [List.getD_eq_getElem?_getD, List.getD_eq_getElem?_getD, List.getElem?_reverse (by omega)]
      congr 2
      omega
    rw [h1]
  rw [List.flatMap_congr this]

theorem prep_fold (p : List (List Nat)) (basis : Str) (e : Nat) (acc : List Op)
    (he : p.flatten.length = e) (hb : e ≤ basis.length) :
    (p.foldl (fun (st : Nat × List Op) ql =>
      let start := st.1 - ql.length
      let sub := slice basis start st.1
      (start, st.2 ++ (List.range ql.length).flatMap fun k =>
        if sub.getD (ql.length - k - 1) ' ' = '1' then [Op.x (ql.getD k 0)] else []))
      (e, acc)).2 = acc ++ xGates (p.flatten.zip (basis.take e).reverse) := by
  induction p generalizing e acc with
  | nil => simp [xGates]
  | cons ql p ih =>
    have hlen : ql.length + p.flatten.length = e := by rw [← he]; simp
    rw [List.foldl_cons]
    have hs : (slice basis (e - ql.length) e).length = ql.length := by
      simp only [slice, List.length_drop, List.length_take]; omega
    simp only
    rw [inner_prep ql _ hs, ih (e - ql.length) _ (by omega) (by omega), List.append_assoc]
    congr 1
    have : (basis.take e).reverse
        = (slice basis (e - ql.length) e).reverse ++ (basis.take (e - ql.length)).reverse := by
      rw [← List.reverse_append]
      congr 1
      rw [slice]
      conv => lhs; rw [← List.take_append_drop (e - ql.length) (basis.take e)]
      rw [List.take_take, Nat.min_eq_left (by omega)]
    rw [List.flatten_cons, this, List.zip_append (by simp [hs]), xGates, xGates, xGates,
      List.flatMap_append]

theorem prepOps_eq (p : List (List Nat)) (basis : Str) (hb : basis.length = p.flatten.length) :
    prepOps p basis p.flatten.length = xGates (p.flatten.zip basis.reverse) := by
  rw [prepOps, prep_fold p basis _ [] rfl (by omega), ← hb]
  simp

theorem meas_fold (p : List (List Nat)) (n e : Nat) (acc : List Op)
    (he : p.flatten.length = e) (hn : e ≤ n) :
    (p.foldl (fun (st : Nat × List Op) ql =>
      (st.1 - ql.length, st.2 ++ (List.range ql.length).map fun k =>
        Op.measure (ql.getD k 0) (n - (st.1 - k)))) (e, acc)).2
      = acc ++ (p.flatten.zipIdx (n - e)).map fun q => Op.measure q.1 q.2 := by
  induction p generalizing e acc with
  | nil => simp
  | cons ql p ih =>
    have hlen : ql.length + p.flatten.length = e := by rw [← he]; simp
    rw [List.foldl_cons]
    simp only
    rw [ih (e - ql.length) _ (by omega) (by omega), List.append_assoc]
    congr 1
    rw [List.flatten_cons, List.zipIdx_append, List.map_append]
    congr 1
    · apply List.ext_getElem
      · simp
      · intro i h1 h2
        simp at h1
        simp [List.getD_eq_getElem?_getD, h1]
        omega
    · congr 2; omega

theorem measOps_eq (p : List (List Nat)) :
    measOps p p.flatten.length = p.flatten.zipIdx.map fun q => Op.measure q.1 q.2 := by
  rw [measOps, meas_fold p _ _ [] rfl (Nat.le_refl _)]
  simp

/-! ### Execution -/

theorem run_xGates_m (l : List (Nat × Char)) (s : Sim) :
    ((xGates l).foldl Sim.step s).m = s.m := by
  induction l generalizing s with
  | nil => rfl
  | cons a l ih =>
    rw [xGates, List.flatMap_cons, List.foldl_append]
    rw [show (List.flatMap (fun p : Nat × Char => if p.2 = '1' then [Op.x p.1] else []) l) = xGates l from rfl, ih]
    by_cases h : a.2 = '1' <;> simp [h, Sim.step]

theorem run_xGates_q (l : List (Nat × Char)) (s : Sim) (hl : (l.map (·.1)).Nodup) (i : Nat) :
    ((xGates l).foldl Sim.step s).q i = (s.q i ^^ decide ((i, '1') ∈ l)) := by
  induction l generalizing s with
  | nil => simp [xGates]
  | cons a l ih =>
    obtain ⟨q, c⟩ := a
    simp only [List.map_cons, List.nodup_cons] at hl
    rw [xGates, List.flatMap_cons, List.foldl_append,
      show (List.flatMap (fun p : Nat × Char => if p.2 = '1' then [Op.x p.1] else []) l) = xGates l from rfl,
      ih _ hl.2]
    have hnot : ∀ c, (q, c) ∉ l := fun c h => hl.1 (List.mem_map.2 ⟨(q, c), h, rfl⟩)
    by_cases hc : c = '1'
    · subst hc
      by_cases hi : i = q
      · subst hi
        simp [Sim.step, hnot]
      · simp [Sim.step, hi]
    · by_cases hi : i = q
      · subst hi
        simp [hc, Ne.symm hc, hnot]
      · simp [hc, hi]

theorem run_meas_q (l : List (Nat × Nat)) (s : Sim) :
    ((l.map fun q => Op.measure q.1 q.2).foldl Sim.step s).q = s.q := by
  induction l generalizing s with
  | nil => rfl
  | cons a l ih => rw [List.map_cons, List.foldl_cons, ih]; rfl

theorem run_meas_m (l : List Nat) (k : Nat) (s : Sim) (i : Nat) :
    (((l.zipIdx k).map fun q => Op.measure q.1 q.2).foldl Sim.step s).m i
      = if k ≤ i ∧ i < k + l.length then s.q (l.getD (i - k) 0) else s.m i := by
  induction l generalizing k s with
  | nil => simp
  | cons a l ih =>
    rw [List.zipIdx_cons, List.map_cons, List.foldl_cons, ih]
    by_cases h0 : i = k
    · subst h0
      simp [Sim.step]
    · by_cases h1 : k + 1 ≤ i ∧ i < k + 1 + l.length
      · have h2 : k ≤ i ∧ i < k + (a :: l).length := by simp; omega
        rw [if_pos h1, if_pos h2]
        have : i - k = (i - (k + 1)) + 1 := by omega
        rw [this]
        simp [Sim.step]
      · have h2 : ¬ (k ≤ i ∧ i < k + (a :: l).length) := by simp; omega
        rw [if_neg h1, if_neg h2]
        simp [Sim.step, h0]

theorem mem_zip_getD (qs : List Nat) (cs : Str) (hl : cs.length = qs.length) (hq : qs.Nodup)
    (i : Nat) (hi : i < qs.length) : ((qs.getD i 0, '1') ∈ qs.zip cs) ↔ cs.getD i ' ' = '1' := by
  rw [List.mem_iff_getElem]
  have hi' : i < cs.length := by omega
  constructor
  · rintro ⟨j, hj, hj2⟩
    simp only [List.length_zip] at hj
    simp only [List.getElem_zip, Prod.mk.injEq] at hj2
    have : j = i := by
      have h1 : qs.getD i 0 = qs[i] := by simp [List.getD_eq_getElem?_getD, hi]
      rw [h1] at hj2
      exact (List.Nodup.getElem_inj_iff hq).1 hj2.1
    subst this
    rw [List.getD_eq_getElem?_getD, List.getElem?_eq_getElem hi']
    exact hj2.2
  · intro h
    refine ⟨i, by simp; omega, ?_⟩
    rw [List.getD_eq_getElem?_getD, List.getElem?_eq_getElem hi'] at h
    simp at h
    simp [List.getD_eq_getElem?_getD, hi, h]

/-- Ideal execution of a calibration circuit. -/
theorem run_cal (qs : List Nat) (basis : Str) (hl : basis.length = qs.length) (hq : qs.Nodup) :
    (∀ i, i < qs.length →
      (Sim.run (xGates (qs.zip basis.reverse) ++ qs.zipIdx.map fun q => Op.measure q.1 q.2)).q
        (qs.getD i 0) = decide (basis.reverse.getD i ' ' = '1')) ∧
    (∀ i, (Sim.run (xGates (qs.zip basis.reverse) ++
        qs.zipIdx.map fun q => Op.measure q.1 q.2)).m i
        = (decide (i < qs.length) && decide (basis.reverse.getD i ' ' = '1'))) := by
  have hmap : ((qs.zip basis.reverse).map (·.1)) = qs := by
    rw [List.map_fst_zip]; simp; omega
  have hx : ∀ i, i < qs.length → ((xGates (qs.zip basis.reverse)).foldl Sim.step Sim.zero).q
      (qs.getD i 0) = decide (basis.reverse.getD i ' ' = '1') := by
    intro i hi
    rw [run_xGates_q _ _ (by rw [hmap]; exact hq)]
    have := mem_zip_getD qs basis.reverse (by simpa using hl) hq i hi
    simp only [Sim.zero, Bool.false_xor]
    exact decide_eq_decide.2 this
  constructor
  · intro i hi
    rw [Sim.run, List.foldl_append, run_meas_q]
    exact hx i hi
  · intro i
    rw [Sim.run, List.foldl_append, run_meas_m]
    by_cases hi : i < qs.length
    · rw [if_pos (by omega), Nat.sub_zero, hx i hi]
      simp [hi]
    · rw [if_neg (by omega), run_xGates_m]
      simp [hi, Sim.zero]

theorem bitChar_decide (c : Char) (h : c = '0' ∨ c = '1') : bitChar (decide (c = '1')) = c := by
  rcases h with rfl | rfl <;> decide

/-- The string read out of a calibration circuit. -/
theorem readout_cal (name : Str) (nq nc : Nat) (qs : List Nat) (basis : Str)
    (hl : basis.length = qs.length) (hq : qs.Nodup) (hb : IsBits basis) (hc : qs.length ≤ nc) :
    readout ⟨name, nq, nc, xGates (qs.zip basis.reverse) ++
        qs.zipIdx.map fun q => Op.measure q.1 q.2⟩
      = List.replicate (nc - basis.length) '0' ++ basis := by
  obtain ⟨_, hm⟩ := run_cal qs basis hl hq
  rw [readout]
  simp only [hm]
  apply List.ext_getElem
  · simp; omega
  · intro i h1 h2
    simp only [List.length_map, List.length_reverse, List.length_range] at h1
    simp only [List.getElem_map, List.getElem_reverse, List.getElem_range, List.length_range]
    by_cases hi : nc - 1 - i < qs.length
    · rw [List.getElem_append_right (by simp; omega)]
      simp only [hi, decide_true, Bool.true_and]
      have : basis.reverse.getD (nc - 1 - i) ' ' = basis[i - (nc - basis.length)]'(by omega) := by
        rw [List.getD_eq_getElem?_getD, List.getElem?_reverse (by omega), List.getElem?_eq_getElem (by omega)]
        simp only [Option.getD_some]
        congr 1
        omega
      rw [this, bitChar_decide _ (hb _ (List.getElem_mem _))]
      simp
    · rw [List.getElem_append_left (by simp; omega)]
      simp [hi, bitChar]

/-! ### Labels -/

theorem label_fold (sizes : List Nat) (ls acc : Str) :
    sizes.foldl (fun basis sz => ls.take sz ++ basis) acc
      = (sizes.reverse.flatMap fun sz => ls.take sz) ++ acc := by
  induction sizes generalizing acc with
  | nil => rfl
  | cons a l ih => rw [List.foldl_cons, ih]; simp

theorem label_reverse (sizes : List Nat) (ls : Str) :
    (sizes.foldl (fun basis sz => ls.take sz ++ basis) []).reverse
      = sizes.flatMap fun sz => (ls.take sz).reverse := by
  rw [label_fold, List.append_nil, List.reverse_flatMap]
  simp [Function.comp_def]

theorem label_length (sizes : List Nat) (ls : Str) (h : ∀ sz ∈ sizes, sz ≤ ls.length) :
    (sizes.foldl (fun basis sz => ls.take sz ++ basis) []).length = sizes.sum := by
  rw [← List.length_reverse, label_reverse]
  induction sizes with
  | nil => rfl
  | cons a l ih =>
    have := h a (by simp)
    rw [List.flatMap_cons, List.length_append, ih (fun sz hs => h sz (by simp [hs]))]
    simp [Nat.min_eq_left this]

theorem label_bits (sizes : List Nat) (ls : Str) (h : IsBits ls) :
    IsBits (sizes.foldl (fun basis sz => ls.take sz ++ basis) []) := by
  intro c hc
  rw [← List.mem_reverse, label_reverse, List.mem_flatMap] at hc
  obtain ⟨sz, _, hc⟩ := hc
  exact h c (List.mem_of_mem_take (List.mem_reverse.1 hc))

theorem foldl_max_ge (l : List Nat) (a : Nat) : a ≤ l.foldl max a ∧ ∀ x ∈ l, x ≤ l.foldl max a := by
  induction l generalizing a with
  | nil => simp
  | cons b l ih =>
    obtain ⟨h1, h2⟩ := ih (max a b)
    refine ⟨by rw [List.foldl_cons]; omega, ?_⟩
    intro x hx
    rcases List.mem_cons.1 hx with rfl | hx
    · rw [List.foldl_cons]; omega
    · exact h2 x hx

theorem foldl_max_mem (l : List Nat) (a : Nat) : l.foldl max a = a ∨ l.foldl max a ∈ l := by
  induction l generalizing a with
  | nil => simp
  | cons b l ih =>
    rw [List.foldl_cons]
    rcases ih (max a b) with h | h
    · rw [h]
      rcases Nat.le_total a b with hab | hab
      · right; simp [Nat.max_eq_right hab]
      · left; exact Nat.max_eq_left hab
    · right; simp [h]

theorem pyMax_spec (l : List Nat) (m : Nat) (h : pyMax l = some m) : m ∈ l ∧ ∀ x ∈ l, x ≤ m := by
  cases l with
  | nil => simp [pyMax] at h
  | cons a l =>
    simp only [pyMax, Option.some.injEq] at h
    subst h
    refine ⟨?_, ?_⟩
    · rcases foldl_max_mem l a with h | h
      · rw [h]; simp
      · simp [h]
    · intro x hx
      rcases List.mem_cons.1 hx with rfl | hx
      · exact (foldl_max_ge l x).1
      · exact (foldl_max_ge l a).2 x hx

theorem sum_length_flatten (p : List (List Nat)) : (p.map List.length).sum = p.flatten.length := by
  rw [List.length_flatten]

/-- Labels are determined by, and determine, the string of the largest group. -/
theorem label_inj (sizes : List Nat) (ls ls' : Str) (m : Nat) (hm : m ∈ sizes)
    (h : ls.length = m) (h' : ls'.length = m) (hmax : ∀ sz ∈ sizes, sz ≤ m)
    (he : sizes.foldl (fun basis sz => ls.take sz ++ basis) []
      = sizes.foldl (fun basis sz => ls'.take sz ++ basis) []) : ls = ls' := by
  have := congrArg List.reverse he
  rw [label_reverse, label_reverse] at this
  clear he
  induction sizes with
  | nil => simp at hm
  | cons a l ih =>
    rw [List.flatMap_cons, List.flatMap_cons] at this
    have ha : a ≤ m := hmax a (by simp)
    obtain ⟨h1, h2⟩ := List.append_inj this (by simp; omega)
    rcases List.mem_cons.1 hm with rfl | hm
    · have h3 := List.reverse_injective h1
      rw [List.take_of_length_le (by omega), List.take_of_length_le (by omega)] at h3
      exact h3
    · exact ih hm (fun sz hs => hmax sz (by simp [hs])) h2

/-- The part of a label belonging to a group is a prefix of the largest-group string. -/
theorem label_part (pre : List Nat) (k : Nat) (post : List Nat) (ls : Str)
    (h : ∀ sz ∈ pre ++ k :: post, sz ≤ ls.length) (j : Nat) (hj : j < k) :
    ((pre ++ k :: post).foldl (fun basis sz => ls.take sz ++ basis) []).reverse.getD (pre.sum + j) ' '
      = ls.getD (k - 1 - j) ' ' := by
  rw [label_reverse, List.flatMap_append, List.flatMap_cons]
  have hlen : ∀ l : List Nat, (∀ sz ∈ l, sz ≤ ls.length) →
      (l.flatMap fun sz => (ls.take sz).reverse).length = l.sum := by
    intro l hl
    induction l with
    | nil => rfl
    | cons a l ih =>
      have := hl a (by simp)
      rw [List.flatMap_cons, List.length_append, ih (fun sz hs => hl sz (by simp [hs]))]
      simp [Nat.min_eq_left this]
  have hk : k ≤ ls.length := h k (by simp)
  rw [List.getD_eq_getElem?_getD, List.getElem?_append_right
      (by rw [hlen pre (fun sz hs => h sz (by simp [hs]))]; omega),
    hlen pre (fun sz hs => h sz (by simp [hs])), Nat.add_sub_cancel_left,
    List.getElem?_append_left (by simp; omega), List.getElem?_reverse (by simp; omega),
    List.getElem?_take, if_pos (by simp; omega), List.getD_eq_getElem?_getD]
  congr 2
  simp
  omega

end Verif.MeasMit
