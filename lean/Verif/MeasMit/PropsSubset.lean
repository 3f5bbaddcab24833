import Verif.MeasMit.LemmasFit
/-
C17: `subset_fitter`.
-/
namespace Verif.MeasMit
open Verif Verif.Counts

theorem zipIdx_find (l : List Nat) (hl : l.Nodup) (q : Nat) (hq : q ∈ l) (k : Nat) :
    ((l.zipIdx k).flatMap fun p => if p.1 = q then [p.2] else []) = [k + l.idxOf q] := by
  induction l generalizing k with
  | nil => simp at hq
  | cons a l ih =>
    rw [List.nodup_cons] at hl
    rw [List.zipIdx_cons, List.flatMap_cons]
    by_cases ha : a = q
    · subst ha
      have : ((l.zipIdx (k + 1)).flatMap fun p => if p.1 = a then [p.2] else []) = [] := by
        rw [List.flatMap_eq_nil_iff]
        rintro ⟨x, i⟩ hx
        have : x ∈ l := List.fst_mem_of_mem_zipIdx hx
        have hne : x ≠ a := fun h => hl.1 (h ▸ this)
        simp [hne]
      rw [this]
      simp
    · have hq' : q ∈ l := by simpa [Ne.symm ha] using hq
      rw [ih hl.2 hq', List.idxOf_cons_ne _ ha]
      simp [ha]
      omega

theorem flatMap_if_eq {α : Type} (l : List α) (p : α → Prop) [DecidablePred p] (f : α → Nat) :
    (l.flatMap fun a => if p a then [f a] else []) = (l.filter fun a => p a).map f := by
  induction l with
  | nil => rfl
  | cons a l ih =>
    rw [List.flatMap_cons, List.filter_cons, ih]
    by_cases h : p a <;> simp [h]

theorem sum_comm_list {α β : Type} (l : List α) (m : List β) (f : α → β → ℚ) :
    (l.map fun a => (m.map fun b => f a b).sum).sum = (m.map fun b => (l.map fun a => f a b).sum).sum := by
  induction l with
  | nil => simp
  | cons a l ih => simp [ih, List.sum_map_add]

/-- Sum over the classes of a partition. -/
theorem sum_fibres {α β : Type} [DecidableEq β] (L : List α) (f : α → β) (K : List β) (hK : K.Nodup)
    (hf : ∀ a ∈ L, f a ∈ K) (g : α → ℚ) :
    (K.map fun k => ((L.filter fun a => f a = k).map g).sum).sum = (L.map g).sum := by
  induction L with
  | nil => simp
  | cons a L ih =>
    have h1 := ih (fun b hb => hf b (by simp [hb]))
    have h2 : ∀ k, (((a :: L).filter fun a => f a = k).map g).sum
        = (if f a = k then g a else 0) + ((L.filter fun a => f a = k).map g).sum := by
      intro k
      rw [List.filter_cons]
      by_cases h : f a = k <;> simp [h]
    simp only [h2, List.sum_map_add, h1]
    have h3 : (K.map fun k => if f a = k then g a else 0).sum = g a := by
      have ha := hf a (by simp)
      clear h1 h2 ih hf
      induction K with
      | nil => simp at ha
      | cons k K ihK =>
        rw [List.nodup_cons] at hK
        by_cases hk : f a = k
        · have : (K.map fun k => if f a = k then g a else 0).sum = 0 := by
            apply List.sum_eq_zero
            intro x hx
            obtain ⟨k', hk', rfl⟩ := List.mem_map.1 hx
            have : f a ≠ k' := fun h => hK.1 (by rw [← hk, h]; exact hk')
            simp [this]
          simp [hk]
          rw [← hk]
          exact this
        · have : f a ∈ K := by simpa [hk] using ha
          simp [hk, ihK hK.2 this]
    rw [h3]
    simp

def flipC (c : Char) : Char := if c = '1' then '0' else '1'

theorem flipC_ne (a b : Char) (ha : a = '0' ∨ a = '1') (hb : b = '0' ∨ b = '1') (h : a ≠ b) :
    flipC a = b := by
  rcases ha with rfl | rfl <;> rcases hb with rfl | rfl <;> first | rfl | exact absurd rfl h

theorem flipC_inj (a b : Char) (ha : a = '0' ∨ a = '1') (hb : b = '0' ∨ b = '1')
    (h : flipC a = flipC b) : a = b := by
  rcases ha with rfl | rfl <;> rcases hb with rfl | rfl <;> first | rfl | exact absurd h (by decide)

theorem getD_bits (s : Str) (hs : IsBits s) (i : Nat) (hi : i < s.length) :
    s.getD i ' ' = '0' ∨ s.getD i ' ' = '1' := by
  rw [List.getD_eq_getElem?_getD, List.getElem?_eq_getElem hi]
  exact hs _ (List.getElem_mem _)

/-- As many strings extend `s` as extend `t` on given positions: one inequality. -/
theorem fibre_le (n : Nat) (inds : List Nat) (hnd : inds.Nodup) (hlt : ∀ i ∈ inds, i < n)
    (s t : Str) (hs : IsBits s) (ht : IsBits t) (hsl : s.length = inds.length)
    (htl : t.length = inds.length) :
    ((bitStrings n).filter fun l => inds.map (fun i => l.getD i ' ') = s).length ≤
      ((bitStrings n).filter fun l => inds.map (fun i => l.getD i ' ') = t).length := by
  let flipAt : Nat → Bool := fun p =>
    decide (p ∈ inds) && decide (s.getD (inds.idxOf p) ' ' ≠ t.getD (inds.idxOf p) ' ')
  let phi : Str → Str := fun l => (List.range n).map fun p =>
    if flipAt p then flipC (l.getD p ' ') else l.getD p ' '
  have hget : ∀ l p, p < n → (phi l).getD p ' '
      = if flipAt p then flipC (l.getD p ' ') else l.getD p ' ' := by
    intro l p hp
    simp only [phi, List.getD_eq_getElem?_getD, List.getElem?_map, List.getElem?_range hp,
      Option.map_some, Option.getD_some]
  have hinj : ∀ l ∈ bitStrings n, ∀ l' ∈ bitStrings n, phi l = phi l' → l = l' := by
    intro l hl l' hl' h
    obtain ⟨b1, b2⟩ := (mem_bitStrings n l).1 hl
    obtain ⟨b1', b2'⟩ := (mem_bitStrings n l').1 hl'
    apply List.ext_getElem (by omega)
    intro p h1 h2
    have e := congrArg (fun x : Str => x.getD p ' ') h
    rw [hget l p (by omega), hget l' p (by omega)] at e
    have e2 : l.getD p ' ' = l'.getD p ' ' := by
      split at e
      · exact flipC_inj _ _ (getD_bits l b1 p h1) (getD_bits l' b1' p h2) e
      · exact e
    simpa [List.getD_eq_getElem?_getD, h1, h2] using e2
  have hsub : (((bitStrings n).filter fun l => inds.map (fun i => l.getD i ' ') = s).map phi) ⊆
      ((bitStrings n).filter fun l => inds.map (fun i => l.getD i ' ') = t) := by
    intro x hx
    obtain ⟨l, hl, rfl⟩ := List.mem_map.1 hx
    rw [List.mem_filter, decide_eq_true_eq] at hl
    obtain ⟨hl, hls⟩ := hl
    obtain ⟨b1, b2⟩ := (mem_bitStrings n l).1 hl
    rw [List.mem_filter, decide_eq_true_eq]
    refine ⟨(mem_bitStrings n _).2 ⟨?_, by simp [phi]⟩, ?_⟩
    · intro c hc
      simp only [phi, List.mem_map, List.mem_range] at hc
      obtain ⟨p, hp, rfl⟩ := hc
      have := getD_bits l b1 p (by omega)
      split
      · rcases this with h | h <;> rw [h] <;> decide
      · exact this
    · apply List.ext_getElem (by simp [htl])
      intro k h1 h2
      simp only [List.length_map] at h1
      rw [List.getElem_map, hget _ _ (hlt _ (List.getElem_mem _))]
      have hidx : inds.idxOf inds[k] = k := hnd.idxOf_getElem k h1
      have hsk : l.getD inds[k] ' ' = s[k]'(by omega) := by
        have := List.getElem_of_eq hls (i := k) (by simpa using h1)
        simpa using this
      simp only [flipAt, List.getElem_mem, decide_true, Bool.true_and, hidx]
      rw [hsk]
      have e1 : s.getD k ' ' = s[k]'(by omega) := by
        simp [List.getD_eq_getElem?_getD, show k < s.length by omega]
      have e2 : t.getD k ' ' = t[k] := by
        simp [List.getD_eq_getElem?_getD, h2]
      rw [e1, e2]
      by_cases h : s[k]'(by omega) = t[k]
      · simp [h]
      · simp only [ne_eq, h, not_false_eq_true, decide_true, if_true]
        exact flipC_ne _ _ (hs _ (List.getElem_mem _)) (ht _ (List.getElem_mem _)) h
  have hnd2 : (((bitStrings n).filter fun l => inds.map (fun i => l.getD i ' ') = s).map phi).Nodup := by
    apply List.Nodup.map_on
    · intro a ha b hb hab
      exact hinj a (List.mem_filter.1 ha).1 b (List.mem_filter.1 hb).1 hab
    · exact (nodup_bitStrings n).filter _
  have := (List.subperm_of_subset hnd2 hsub).length_le
  simpa using this

/-- Positions (from the right of the label) of the qubits whose calibration `subset_fitter` really
extracts when asked for `sublist`: the mirror images of the listed ones, in reverse order. -/
def mirrored (qubitList sublist : List Nat) : List Nat :=
  (sublist.map fun q => qubitList.length - 1 - qubitList.idxOf q).reverse

/-- **C17 (what is computed).** For distinct listed qubits, and labels listing all basis states in
any order, `subset_fitter` returns the labels `count_keys(m)` and the calibration, in the sense of
the specification, of the qubits at the *mirrored* positions.  This is the documented result
only when the mirrored positions are the positions of the listed qubits, see
`C17_documented_false`, `C17_whole_list`. -/
theorem C17_subset_partial (qubitList sublist : List Nat) (labels : List Str) (cal : Mat ℚ)
    (hql : qubitList.Nodup) (hsl : sublist.Nodup) (hsub : ∀ q ∈ sublist, q ∈ qubitList)
    (hne : sublist ≠ []) (hlab : labels.Perm (bitStrings qubitList.length)) :
    ∃ M, subsetFitter qubitList sublist labels cal = some (countKeys sublist.length, M) ∧
      ∀ i j s t, (countKeys sublist.length)[i]? = some s → (countKeys sublist.length)[j]? = some t →
        M i j = subsetSpec labels cal (mirrored qubitList sublist) s t := by
  have hm1 : 1 ≤ sublist.length := List.length_pos_iff.2 hne
  have hall : sublist.all (fun q => decide (q ∈ qubitList)) = true := by
    simpa [List.all_eq_true] using hsub
  refine ⟨_, by rw [subsetFitter, if_pos hall], ?_⟩
  intro i j s t hs ht
  have hinds : (sublist.flatMap fun sq =>
      qubitList.zipIdx.flatMap fun p => if p.1 = sq then [p.2] else [])
      = sublist.map fun q => qubitList.idxOf q := by
    have : ∀ q ∈ sublist, (qubitList.zipIdx.flatMap fun p => if p.1 = q then [p.2] else [])
        = [qubitList.idxOf q] := by
      intro q hq
      rw [zipIdx_find qubitList hql q (hsub q hq), Nat.zero_add]
    rw [List.flatMap_congr this, List.map_eq_flatMap]
  have hr : ∀ l ∈ labels, restrict (mirrored qubitList sublist) l
      = (sublist.map fun q => qubitList.idxOf q).map fun i => l.getD i ' ' := by
    intro l hl
    have hlen := ((mem_bitStrings _ l).1 (hlab.mem_iff.1 hl)).2
    rw [restrict, mirrored, List.map_reverse, List.reverse_reverse, List.map_map, List.map_map]
    apply List.map_congr_left
    intro q hq
    have := List.idxOf_lt_length_iff.2 (hsub q hq)
    simp only [Function.comp]
    congr 1
    omega
  have hmap : ∀ (k : Nat) (u : Str), (countKeys sublist.length)[k]? = some u →
      ((labels.map fun lab => (sublist.map fun q => qubitList.idxOf q).map fun i =>
        lab.getD i ' ').zipIdx.flatMap fun p =>
          if p.1 = (countKeys sublist.length).getD k [] then [p.2] else [])
      = (labels.zipIdx.filter fun l => restrict (mirrored qubitList sublist) l.1 = u).map (·.2) := by
    intro k u hu
    rw [List.getD_eq_getElem?_getD, hu, Option.getD_some, flatMap_if_eq, List.zipIdx_map,
      List.filter_map, List.map_map]
    have : (labels.zipIdx.filter ((fun a : Str × Nat => decide (a.1 = u)) ∘
        Prod.map (fun lab : Str => (sublist.map fun q => qubitList.idxOf q).map fun i => lab.getD i ' ') id))
        = labels.zipIdx.filter fun l => restrict (mirrored qubitList sublist) l.1 = u := by
      apply List.filter_congr
      rintro ⟨l, i⟩ hl
      simp only [Function.comp, Prod.map]
      rw [hr l (List.fst_mem_of_mem_zipIdx hl)]
    rw [this]
    apply List.map_congr_left
    rintro ⟨l, i⟩ _
    rfl
  simp only [hinds]
  rw [hmap i s hs, hmap j t ht]
  have hs' := (mem_countKeys _ hm1 s).1 (List.mem_of_getElem? hs)
  have ht' := (mem_countKeys _ hm1 t).1 (List.mem_of_getElem? ht)
  -- equal numbers of rows and columns
  have hcount : ∀ u : Str,
      (labels.zipIdx.filter fun l => restrict (mirrored qubitList sublist) l.1 = u).length
      = ((bitStrings qubitList.length).filter fun l =>
          (sublist.map fun q => qubitList.idxOf q).map (fun i => l.getD i ' ') = u).length := by
    intro u
    have e1 : (labels.zipIdx.filter fun l => restrict (mirrored qubitList sublist) l.1 = u).length
        = ((labels.zipIdx.map (·.1)).filter fun l => restrict (mirrored qubitList sublist) l = u).length := by
      rw [List.filter_map, List.length_map]; rfl
    rw [e1, List.zipIdx_map_fst]
    have e2 : (labels.filter fun l => restrict (mirrored qubitList sublist) l = u)
        = labels.filter fun l =>
          (sublist.map fun q => qubitList.idxOf q).map (fun i => l.getD i ' ') = u := by
      apply List.filter_congr
      intro l hl
      rw [hr l hl]
    rw [e2]
    exact (hlab.filter _).length_eq
  have hindnd : (sublist.map fun q => qubitList.idxOf q).Nodup := by
    apply List.Nodup.map_on _ hsl
    intro a ha b hb hab
    exact (List.idxOf_inj (hsub a ha)).1 hab
  have hindlt : ∀ i ∈ (sublist.map fun q => qubitList.idxOf q), i < qubitList.length := by
    intro i hi
    obtain ⟨q, hq, rfl⟩ := List.mem_map.1 hi
    exact List.idxOf_lt_length_iff.2 (hsub q hq)
  have hcard : (labels.zipIdx.filter fun l => restrict (mirrored qubitList sublist) l.1 = s).length
      = (labels.zipIdx.filter fun l => restrict (mirrored qubitList sublist) l.1 = t).length := by
    rw [hcount, hcount]
    apply Nat.le_antisymm
    · exact fibre_le _ _ hindnd hindlt s t hs'.1 ht'.1 (by simp [hs'.2]) (by simp [ht'.2])
    · exact fibre_le _ _ hindnd hindlt t s ht'.1 hs'.1 (by simp [ht'.2]) (by simp [hs'.2])
  rw [subsetSpec]
  simp only [List.map_map, List.length_map, hcard, Function.comp_def]
  rw [sum_comm_list]

/-- The documented statement: the calibration of the listed qubits themselves. -/
def SubsetDocumented : Prop :=
  ∀ (qubitList sublist : List Nat) (labels : List Str) (cal : Mat ℚ),
    qubitList.Nodup → sublist.Nodup → (∀ q ∈ sublist, q ∈ qubitList) → sublist ≠ [] →
    labels.Perm (bitStrings qubitList.length) →
    ∃ M, subsetFitter qubitList sublist labels cal = some (countKeys sublist.length, M) ∧
      ∀ i j s t, (countKeys sublist.length)[i]? = some s → (countKeys sublist.length)[j]? = some t →
        M i j = subsetSpec labels cal (sublist.map fun q => qubitList.idxOf q) s t

/-- **C17 (finding).** The documented statement is false: with two qubits, the second of which
always reads flipped, asking for the first returns the flipped calibration. -/
theorem C17_documented_false : ¬ SubsetDocumented := by
  intro h
  obtain ⟨M, h1, h2⟩ := h [0, 1] [0] (bitStrings 2) (fun a b => if a = b ^^^ 2 then 1 else 0)
    (by decide) (by decide) (by decide) (by decide) (List.Perm.refl _)
  have h3 := h2 0 0 ['0'] ['0'] (by decide +kernel) (by decide +kernel)
  have h4 : (subsetFitter [0, 1] [0] (bitStrings 2) (fun a b => if a = b ^^^ 2 then 1 else 0)).map
      (fun r => r.2 0 0) = some 0 := by decide +kernel
  have h5 : subsetSpec (bitStrings 2) (fun a b => if a = b ^^^ 2 then 1 else 0)
      ([0].map fun q => ([0, 1] : List Nat).idxOf q) ['0'] ['0'] = 1 := by decide +kernel
  rw [h1] at h4
  rw [h5] at h3
  simp only [Option.map_some, Option.some.injEq] at h4
  exact absurd (h3.symm.trans h4) (by decide)

/-- **C17 (whole list).** Asking for the whole list in its own order is the documented result. -/
theorem C17_whole_list (qubitList : List Nat) (labels : List Str) (cal : Mat ℚ)
    (hql : qubitList.Nodup) (hne : qubitList ≠ []) (hlab : labels.Perm (bitStrings qubitList.length)) :
    ∃ M, subsetFitter qubitList qubitList labels cal = some (countKeys qubitList.length, M) ∧
      ∀ i j s t, (countKeys qubitList.length)[i]? = some s →
        (countKeys qubitList.length)[j]? = some t →
        M i j = subsetSpec labels cal (qubitList.map fun q => qubitList.idxOf q) s t := by
  obtain ⟨M, h1, h2⟩ := C17_subset_partial qubitList qubitList labels cal hql hql (fun _ h => h) hne hlab
  refine ⟨M, h1, ?_⟩
  have : mirrored qubitList qubitList = qubitList.map fun q => qubitList.idxOf q := by
    rw [mirrored]
    apply List.ext_getElem (by simp)
    intro i h3 h4
    simp only [List.length_map] at h4
    rw [List.getElem_reverse, List.getElem_map, List.getElem_map, hql.idxOf_getElem,
      hql.idxOf_getElem]
    simp
    omega
  rw [← this]
  exact h2

/-- **C17 (columns).** The columns of the reduced matrix still add up to one when those of the
full matrix do. -/
theorem C17_columns (qubitList sublist : List Nat) (labels : List Str) (cal : Mat ℚ)
    (hql : qubitList.Nodup) (hsl : sublist.Nodup) (hsub : ∀ q ∈ sublist, q ∈ qubitList)
    (hne : sublist ≠ []) (hlab : labels.Perm (bitStrings qubitList.length))
    (hcal : ∀ j, j < labels.length → ((List.range labels.length).map fun i => cal i j).sum = 1) :
    ∃ M, subsetFitter qubitList sublist labels cal = some (countKeys sublist.length, M) ∧
      ∀ j, j < 2 ^ sublist.length →
        ((List.range (2 ^ sublist.length)).map fun i => M i j).sum = 1 := by
  obtain ⟨M, h1, h2⟩ := C17_subset_partial qubitList sublist labels cal hql hsl hsub hne hlab
  refine ⟨M, h1, ?_⟩
  intro j hj
  have hm1 : 1 ≤ sublist.length := List.length_pos_iff.2 hne
  have hj' : j < (countKeys sublist.length).length := by rw [length_countKeys]; exact hj
  have ht := List.getElem?_eq_getElem hj'
  generalize (countKeys sublist.length)[j] = t at ht
  have hsum : ((List.range (2 ^ sublist.length)).map fun i => M i j)
      = (countKeys sublist.length).map fun s =>
        subsetSpec labels cal (mirrored qubitList sublist) s t := by
    apply List.ext_getElem (by simp [length_countKeys])
    intro i h3 h4
    simp only [List.length_map] at h4
    rw [List.getElem_map, List.getElem_map, List.getElem_range]
    exact h2 i j _ t (List.getElem?_eq_getElem h4) ht
  rw [hsum]
  simp only [subsetSpec]
  have hdiv : ∀ (l : List Str) (f : Str → ℚ) (c : ℚ), (l.map fun i => f i / c).sum = (l.map f).sum / c := by
    intro l f c
    induction l with
    | nil => simp
    | cons a l ih => simp [ih, add_div]
  rw [hdiv, sum_comm_list]
  have hrb : ∀ r ∈ labels.zipIdx, restrict (mirrored qubitList sublist) r.1 ∈ countKeys sublist.length := by
    rintro ⟨l, i⟩ hl
    obtain ⟨hb, hlen⟩ := (mem_bitStrings _ l).1 (hlab.mem_iff.1 (List.fst_mem_of_mem_zipIdx hl))
    rw [mem_countKeys _ hm1]
    refine ⟨?_, by simp [restrict, mirrored]⟩
    intro c hc
    simp only [restrict, mirrored, List.mem_reverse, List.mem_map] at hc
    obtain ⟨p, ⟨q, hq, rfl⟩, rfl⟩ := hc
    have := List.idxOf_lt_length_iff.2 (hsub q hq)
    exact getD_bits l hb _ (by omega)
  have hin : ∀ b ∈ (labels.zipIdx.filter fun l => restrict (mirrored qubitList sublist) l.1 = t),
      ((countKeys sublist.length).map fun s =>
        ((labels.zipIdx.filter fun l => restrict (mirrored qubitList sublist) l.1 = s).map
          fun r => cal r.2 b.2).sum).sum = 1 := by
    rintro ⟨l, b⟩ hb
    have hbl : b < labels.length := by
      have := (List.mem_filter.1 hb).1
      rw [List.mk_mem_zipIdx_iff_getElem?] at this
      exact (List.getElem?_eq_some_iff.1 this).1
    rw [sum_fibres labels.zipIdx (fun r => restrict (mirrored qubitList sublist) r.1) _
      (nodup_countKeys _) hrb (fun r => cal r.2 b)]
    rw [← hcal b hbl]
    congr 1
    have : (labels.zipIdx.map fun r => cal r.2 b) = (labels.zipIdx.map (·.2)).map fun i => cal i b := by
      rw [List.map_map]; rfl
    rw [this, List.zipIdx_map_snd, List.range'_eq_map_range]
    simp
  rw [List.map_congr_left hin]
  simp only [List.map_const', List.sum_replicate, nsmul_eq_mul, mul_one]
  apply div_self
  -- some label extends `t`
  have htm := (mem_countKeys _ hm1 t).1 (List.mem_of_getElem? ht)
  intro h0
  have hlen0 : (labels.zipIdx.filter fun l => restrict (mirrored qubitList sublist) l.1 = t) = [] := by
    rw [← List.length_eq_zero_iff]; exact_mod_cast h0
  let l : Str := (List.range qubitList.length).map fun p =>
    t.getD ((sublist.map fun q => qubitList.idxOf q).idxOf p) '0'
  have hl : l ∈ labels := by
    rw [hlab.mem_iff, mem_bitStrings]
    refine ⟨?_, by simp [l]⟩
    intro c hc
    simp only [l, List.mem_map] at hc
    obtain ⟨p, _, rfl⟩ := hc
    rw [List.getD_eq_getElem?_getD]
    cases hg : t[(sublist.map fun q => qubitList.idxOf q).idxOf p]? with
    | none => left; rfl
    | some c => exact htm.1 c (List.mem_of_getElem? hg)
  obtain ⟨i, hi, hli⟩ := List.mem_iff_getElem.1 hl
  have hmem : (l, i) ∈ labels.zipIdx := by
    rw [List.mk_mem_zipIdx_iff_getElem?, List.getElem?_eq_getElem hi, hli]
  have hres : restrict (mirrored qubitList sublist) l = t := by
    have hll : l.length = qubitList.length := by simp [l]
    rw [restrict, mirrored, List.map_reverse, List.reverse_reverse, List.map_map]
    apply List.ext_getElem (by simp [htm.2])
    intro k h3 h4
    simp only [List.length_map] at h3
    rw [List.getElem_map]
    simp only [Function.comp]
    have hq := List.idxOf_lt_length_iff.2 (hsub _ (List.getElem_mem h3))
    have e : l.length - 1 - (qubitList.length - 1 - qubitList.idxOf sublist[k]) = qubitList.idxOf sublist[k] := by
      omega
    rw [e]
    simp only [l]
    rw [List.getD_eq_getElem?_getD, List.getElem?_map, List.getElem?_range hq]
    simp only [Option.map_some, Option.getD_some]
    have hindnd : (sublist.map fun q => qubitList.idxOf q).Nodup := by
      apply List.Nodup.map_on _ hsl
      intro a ha b hb hab
      exact (List.idxOf_inj (hsub a ha)).1 hab
    have : (sublist.map fun q => qubitList.idxOf q).idxOf (qubitList.idxOf sublist[k]) = k := by
      have := hindnd.idxOf_getElem k (by simpa using h3)
      simpa using this
    rw [this]
    simp [List.getD_eq_getElem?_getD, h4]
  have : (l, i) ∈ (labels.zipIdx.filter fun l => restrict (mirrored qubitList sublist) l.1 = t) := by
    rw [List.mem_filter, decide_eq_true_eq]
    exact ⟨hmem, hres⟩
  rw [hlen0] at this
  simp at this

/-- Non-vacuity of the hypotheses of C17: three qubits out of order, two of them listed. -/
example : ([5, 2, 7] : List Nat).Nodup ∧ ([7, 5] : List Nat).Nodup ∧
    (∀ q ∈ ([7, 5] : List Nat), q ∈ ([5, 2, 7] : List Nat)) ∧
    (countKeys 3).Perm (bitStrings [5, 2, 7].length) ∧
    (subsetFitter [5, 2, 7] [7, 5] (countKeys 3) (fun a b => if a = b ^^^ 4 then 1 else 0)).map
      (fun r => (r.1, r.2 0 0, r.2 0 1, r.2 0 2)) = some (countKeys 2, 0, 1, 0) := by
  refine ⟨by decide, by decide, by decide, ?_, by decide +kernel⟩
  rw [countKeys_eq_bitStrings 3 (by decide)]
  rfl

end Verif.MeasMit
