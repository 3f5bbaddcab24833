import Verif.MeasMit.LemmasFit
import Verif.MeasMit.Lemmas
/-
C13: content of the calibration matrices.  C14: independence of the order and grouping of results.
-/
namespace Verif.MeasMit
open Verif Verif.Counts

theorem slice_eq_part (sizes : List Nat) (g : Nat) (hg : g < sizes.length) (s : Str)
    (hs : s.length = sizes.sum) :
    slice s (sizes.sum - (sizes.take (g + 1)).sum) (sizes.sum - (sizes.take g).sum)
      = part sizes g s := by
  have e1 : (sizes.take (g + 1)).sum = (sizes.take g).sum + sizes.getD g 0 := by
    rw [List.take_add_one, List.sum_append, List.getElem?_eq_getElem hg]
    simp [List.getD_eq_getElem?_getD, hg]
  have e2 : sizes.sum = (sizes.take (g + 1)).sum + (sizes.drop (g + 1)).sum := by
    rw [← List.sum_append, List.take_append_drop]
  rw [slice, part]
  rw [List.reverse_take, List.reverse_drop, List.reverse_reverse]
  simp only [List.length_drop, List.length_reverse, hs]
  congr 1
  omega

theorem gidx_iff (sizes : List Nat) (labels : List (List Str)) (hl : labels.length = sizes.length)
    (g : Nat) (hg : g < sizes.length) (hnd : (labels.getD g []).Nodup) (s : Str)
    (hs : s.length = sizes.sum) (i : Nat) :
    gidx sizes (labels.map indices) sizes.sum g s = some i ↔
      (labels.getD g [])[i]? = some (part sizes g s) := by
  have : (labels.map indices).getD g [] = indices (labels.getD g []) := by
    simp [List.getD_eq_getElem?_getD, hl, hg]
  rw [gidx, this, get?_indices _ hnd, slice_eq_part sizes g hg s hs]

theorem build_iff (circlabel : Str) (sizes : List Nat) (inds : List (Dict Str Nat))
    (hi : inds.length = sizes.length) (results : List Result) (mats : List (Mat ℚ)) :
    buildMatrices circlabel sizes inds results = some mats ↔
      (∀ s ∈ shots circlabel results,
        Ok sizes inds sizes.sum s.prepared ∧ Ok sizes inds sizes.sum s.measured) ∧
      mats.length = sizes.length ∧
      ∀ g, g < sizes.length → mats.getD g (fun _ _ => 0) = normalise (sizes.getD g 0) (fun i j =>
        total (shots circlabel results) fun s => gidx sizes inds sizes.sum g s.measured = some i ∧
          gidx sizes inds sizes.sum g s.prepared = some j) := by
  rw [buildMatrices]
  constructor
  · intro h
    rw [Option.bind_eq_bind, Option.bind_eq_some_iff] at h
    obtain ⟨raw, h1, h2⟩ := h
    rw [accumulate_eq_shots, foldShots_iff _ _ _ _ _ _ (by simp) hi] at h1
    obtain ⟨a1, a2, a3⟩ := h1
    have h2' : mats = (raw.zip sizes).map fun p => normalise p.2 p.1 := (Option.some.inj h2).symm
    refine ⟨a1, by simp [h2', a2], ?_⟩
    intro g hg
    have : mats.getD g (fun _ _ => 0) = normalise (sizes.getD g 0) (raw.getD g (fun _ _ => 0)) := by
      simp [h2', List.getD_eq_getElem?_getD, hg, a2]
    rw [this]
    congr 1
    funext i j
    rw [a3 g hg i j]
    simp [List.getD_eq_getElem?_getD, hg]
  · rintro ⟨h1, h2, h3⟩
    have : accumulate circlabel sizes inds results = some ((List.range sizes.length).map fun g =>
        fun i j => total (shots circlabel results) fun s =>
          gidx sizes inds sizes.sum g s.measured = some i ∧
          gidx sizes inds sizes.sum g s.prepared = some j) := by
      rw [accumulate_eq_shots, foldShots_iff _ _ _ _ _ _ (by simp) hi]
      refine ⟨h1, by simp, ?_⟩
      intro g hg i j
      simp [List.getD_eq_getElem?_getD, hg]
    rw [this, Option.bind_eq_bind, Option.bind_some]
    refine congrArg some ?_
    apply List.ext_getElem (by simp [h2])
    intro g hg1 hg2
    have := h3 g (by omega)
    rw [List.getD_eq_getElem?_getD, List.getElem?_eq_getElem hg2] at this
    rw [Option.getD_some] at this
    rw [this]
    have hg : g < sizes.length := by omega
    simp [List.getD_eq_getElem?_getD, hg]

/-- The column sum is the number of shots prepared in that state. -/
theorem colSum_eq (l : List Shot) (im ip : Shot → Option Nat) (d j : Nat)
    (h : ∀ s ∈ l, ∃ i, im s = some i ∧ i < d) :
    colSum d (fun i j => total l fun s => im s = some i ∧ ip s = some j) j
      = total l fun s => ip s = some j := by
  rw [colSum]
  have := total_split l im (fun s => decide (ip s = some j)) d
  simp only [decide_eq_true_eq] at this
  rw [this]
  apply total_congr
  intro s hs
  obtain ⟨i, h1, h2⟩ := h s hs
  simp [h1, h2]

/-- **C13 (entries).** In the matrix of every group, the entry at the positions of labels `li`, `lj`
is the number of shots whose circuit prepared the group in `lj` and that read the group as `li`,
divided by the number of shots prepared in `lj`. -/
theorem C13_entries (circlabel : Str) (sizes : List Nat) (labels : List (List Str))
    (results : List Result) (mats : List (Mat ℚ)) (hl : labels.length = sizes.length)
    (hnd : ∀ g, g < sizes.length → (labels.getD g []).Nodup)
    (hlen : ∀ s ∈ shots circlabel results,
      s.prepared.length = sizes.sum ∧ s.measured.length = sizes.sum)
    (h : buildMatrices circlabel sizes (labels.map indices) results = some mats) :
    mats.length = sizes.length ∧
    ∀ g, g < sizes.length → ∀ i j li lj,
      (labels.getD g [])[i]? = some li → (labels.getD g [])[j]? = some lj →
      let prep := total (shots circlabel results) fun s => part sizes g s.prepared = lj
      let both := total (shots circlabel results) fun s =>
        part sizes g s.prepared = lj ∧ part sizes g s.measured = li
      (mats.getD g (fun _ _ => 0)) i j = if prep ≠ 0 then both / prep else 0 := by
  rw [build_iff _ _ _ (by simpa using hl)] at h
  obtain ⟨h1, h2, h3⟩ := h
  refine ⟨h2, ?_⟩
  intro g hg i j li lj hli hlj
  simp only
  rw [h3 g hg, normalise]
  rw [colSum_eq _ _ _ _ _ (fun s hs => (h1 s hs).2 g hg)]
  have e1 : (total (shots circlabel results) fun s =>
      decide (gidx sizes (labels.map indices) sizes.sum g s.prepared = some j))
      = total (shots circlabel results) fun s => decide (part sizes g s.prepared = lj) := by
    apply total_congr
    intro s hs
    rw [decide_eq_decide, gidx_iff sizes labels hl g hg (hnd g hg) _ (hlen s hs).1, hlj]
    simp [eq_comm]
  have e2 : (total (shots circlabel results) fun s =>
      decide (gidx sizes (labels.map indices) sizes.sum g s.measured = some i ∧
        gidx sizes (labels.map indices) sizes.sum g s.prepared = some j))
      = total (shots circlabel results) fun s =>
        decide (part sizes g s.prepared = lj ∧ part sizes g s.measured = li) := by
    apply total_congr
    intro s hs
    rw [decide_eq_decide, gidx_iff sizes labels hl g hg (hnd g hg) _ (hlen s hs).1,
      gidx_iff sizes labels hl g hg (hnd g hg) _ (hlen s hs).2, hlj, hli]
    simp only [Option.some.injEq]
    rw [eq_comm (a := li), eq_comm (a := lj), and_comm]
  rw [e1, e2]

/-- **C13 (columns).** With non-negative counts, every column whose state was prepared at least once
has non-negative entries adding up to one over the `2^size` rows. -/
theorem C13_columns (circlabel : Str) (sizes : List Nat) (labels : List (List Str))
    (results : List Result) (mats : List (Mat ℚ)) (hl : labels.length = sizes.length)
    (hnd : ∀ g, g < sizes.length → (labels.getD g []).Nodup)
    (hlen : ∀ s ∈ shots circlabel results,
      s.prepared.length = sizes.sum ∧ s.measured.length = sizes.sum)
    (hpos : ∀ s ∈ shots circlabel results, 0 ≤ s.count)
    (h : buildMatrices circlabel sizes (labels.map indices) results = some mats) :
    ∀ g, g < sizes.length → ∀ j lj, (labels.getD g [])[j]? = some lj →
      (0 < total (shots circlabel results) fun s => part sizes g s.prepared = lj) →
      (∀ i, 0 ≤ (mats.getD g (fun _ _ => 0)) i j) ∧
      ((List.range (2 ^ sizes.getD g 0)).map fun i => (mats.getD g (fun _ _ => 0)) i j).sum = 1 := by
  rw [build_iff _ _ _ (by simpa using hl)] at h
  obtain ⟨h1, h2, h3⟩ := h
  intro g hg j lj hlj hp
  have e1 : (total (shots circlabel results) fun s =>
      decide (gidx sizes (labels.map indices) sizes.sum g s.prepared = some j))
      = total (shots circlabel results) fun s => decide (part sizes g s.prepared = lj) := by
    apply total_congr
    intro s hs
    rw [decide_eq_decide, gidx_iff sizes labels hl g hg (hnd g hg) _ (hlen s hs).1, hlj]
    simp [eq_comm]
  rw [h3 g hg]
  have hc := colSum_eq (shots circlabel results)
    (fun s => gidx sizes (labels.map indices) sizes.sum g s.measured)
    (fun s => gidx sizes (labels.map indices) sizes.sum g s.prepared) (2 ^ sizes.getD g 0) j
    (fun s hs => (h1 s hs).2 g hg)
  rw [e1] at hc
  have hne := ne_of_gt hp
  constructor
  · intro i
    rw [normalise]
    split
    · apply div_nonneg
      · exact total_nonneg _ _ hpos
      · rw [hc]; exact le_of_lt hp
    · exact le_refl _
  · simp only [normalise, hc, ne_eq, hne, not_false_eq_true, if_true]
    have : ∀ (l : List Nat) (f : Nat → ℚ) (c : ℚ), (l.map fun i => f i / c).sum = (l.map f).sum / c := by
      intro l f c
      induction l with
      | nil => simp
      | cons a l ih => simp [ih, add_div]
    rw [this]
    rw [colSum] at hc
    rw [hc, div_self hne]

/-- **C13 (no exception).** When every group's labels list all its basis states (in any order) and
all prepared and measured strings are bit strings of the full length, the fit does not raise. -/
theorem C13_succeeds (circlabel : Str) (sizes : List Nat) (labels : List (List Str))
    (results : List Result) (hl : labels.length = sizes.length)
    (hlab : ∀ g, g < sizes.length → (labels.getD g []).Perm (bitStrings (sizes.getD g 0)))
    (hlen : ∀ s ∈ shots circlabel results, (IsBits s.prepared ∧ s.prepared.length = sizes.sum) ∧
      IsBits s.measured ∧ s.measured.length = sizes.sum) :
    (buildMatrices circlabel sizes (labels.map indices) results).isSome := by
  have hok : ∀ s, IsBits s → s.length = sizes.sum →
      Ok sizes (labels.map indices) sizes.sum s := by
    intro s hb hs g hg
    have hp : part sizes g s ∈ labels.getD g [] := by
      rw [(hlab g hg).mem_iff, mem_bitStrings]
      refine ⟨fun c hc => hb c ?_, ?_⟩
      · rw [part] at hc
        exact List.mem_reverse.1 (List.mem_of_mem_drop (List.mem_of_mem_take (List.mem_reverse.1 hc)))
      · have e1 : (sizes.take (g + 1)).sum = (sizes.take g).sum + sizes.getD g 0 := by
          rw [List.take_add_one, List.sum_append, List.getElem?_eq_getElem hg]
          simp [List.getD_eq_getElem?_getD, hg]
        have e2 : sizes.sum = (sizes.take (g + 1)).sum + (sizes.drop (g + 1)).sum := by
          rw [← List.sum_append, List.take_append_drop]
        simp only [part, List.length_reverse, List.length_take, List.length_drop, hs]
        omega
    obtain ⟨i, hi, he⟩ := List.mem_iff_getElem.1 hp
    refine ⟨i, ?_, ?_⟩
    · rw [gidx_iff sizes labels hl g hg ((hlab g hg).nodup_iff.2 (nodup_bitStrings _)) s hs]
      rw [List.getElem?_eq_getElem hi, he]
    · rw [(hlab g hg).length_eq, length_bitStrings] at hi
      exact hi
  rw [Option.isSome_iff_exists]
  refine ⟨(List.range sizes.length).map fun g => normalise (sizes.getD g 0) (fun i j =>
        total (shots circlabel results) fun s =>
          gidx sizes (labels.map indices) sizes.sum g s.measured = some i ∧
          gidx sizes (labels.map indices) sizes.sum g s.prepared = some j), ?_⟩
  rw [build_iff _ _ _ (by simpa using hl)]
  refine ⟨fun s hs => ⟨hok _ (hlen s hs).1.1 (hlen s hs).1.2, hok _ (hlen s hs).2.1 (hlen s hs).2.2⟩,
    by simp, ?_⟩
  intro g hg
  simp [List.getD_eq_getElem?_getD, hg]

theorem reSearch_name (b a label : Str) (hne : label ≠ []) (hw : ∀ c ∈ label, isWord c = true) :
    reSearch (a ++ b).reverse a.reverse (b ++ label) = some label := by
  induction b generalizing a with
  | nil =>
    cases label with
    | nil => exact absurd rfl hne
    | cons c l =>
      have hc := hw c (by simp)
      simp only [List.append_nil, List.nil_append, reSearch, List.prefix_rfl, hc, and_self, if_true]
      exact congrArg some (by simpa using List.takeWhile_append_of_pos (l₂ := []) hw)
  | cons d b ih =>
    rw [List.cons_append, reSearch]
    have hnp : ¬ ((a ++ d :: b).reverse <+: a.reverse ∧ isWord d = true) := by
      rintro ⟨h, _⟩
      have := h.length_le
      simp at this
      omega
    rw [if_neg hnp]
    have := ih (a ++ [d])
    simpa using this

/-- **C13 (names).** The name given to a calibration circuit designates its label: the fitter
recovers exactly the label from the name. -/
theorem C13_name_designates_label (circlabel label : Str) (hb : IsBits label) (hne : label ≠ []) :
    calState circlabel (circlabel ++ "cal_".toList ++ label) = some label := by
  have := reSearch_name (circlabel ++ "cal_".toList) [] label hne (by
    intro c hc
    rcases hb c hc with rfl | rfl <;> decide)
  simpa [calState] using this

/-- Finding: with a classical register larger than the number of calibrated qubits the slices are
counted from the left end, so the fit reads the wrong characters: here every shot prepared in
`01` reads `001` in a three-bit register, the fit succeeds and reports that `01` always reads `00`. -/
theorem C13_finding_larger_register :
    (buildMatrices [] [2] ([countKeys 2].map indices)
      [[("cal_01".toList, [("001".toList, 10)])]]).map (fun m => (m.getD 0 (fun _ _ => 0)) 0 1)
      = some 1 := by
  decide +kernel

/-- Non-vacuity for C13: two groups, four shots batches, an experiment to skip. -/
example : (buildMatrices "x".toList [1, 1] ([countKeys 1, ["1".toList, "0".toList]].map indices)
      [[("xcal_00".toList, [("00".toList, 3), ("01".toList, 1)]), ("other".toList, [("11".toList, 5)])],
       [("xcal_11".toList, [("11".toList, 6), ("10".toList, 2)])]]).map
      (fun m => ((m.getD 0 (fun _ _ => 0)) 0 1, (m.getD 1 (fun _ _ => 0)) 0 0))
      = some (1 / 4, 1) := by
  decide +kernel

/-! ## C14 -/

theorem build_none_of_prefix (circlabel : Str) (sizes : List Nat) (inds : List (Dict Str Nat))
    (hi : inds.length = sizes.length) (rs rs' : List Result)
    (h : buildMatrices circlabel sizes inds rs = none) :
    buildMatrices circlabel sizes inds (rs ++ rs') = none := by
  by_contra hc
  obtain ⟨m, hm⟩ := Option.ne_none_iff_exists'.1 hc
  rw [build_iff _ _ _ hi] at hm
  have : buildMatrices circlabel sizes inds rs = some ((List.range sizes.length).map fun g =>
      normalise (sizes.getD g 0) (fun i j =>
        total (shots circlabel rs) fun s =>
          gidx sizes inds sizes.sum g s.measured = some i ∧
          gidx sizes inds sizes.sum g s.prepared = some j)) := by
    rw [build_iff _ _ _ hi]
    refine ⟨fun s hs => hm.1 s ?_, by simp, ?_⟩
    · rw [shots, List.flatMap_append, List.mem_append]; left; exact hs
    · intro g hg; simp [List.getD_eq_getElem?_getD, hg]
  rw [h] at this
  simp at this

theorem run_spec (calls : List Call) (rs : List Result) (f : Fitter)
    (hi : f.labels.length = f.sizes.length) :
    f.run (calls ++ [(some rs, true)]) =
      (buildMatrices f.circlabel f.sizes (f.labels.map indices) (f.results ++ passed calls ++ rs)).map
        fun m => { f with results := f.results ++ passed calls ++ rs, mats := some m } := by
  induction calls generalizing f with
  | nil =>
    simp only [Fitter.run, List.nil_append, List.foldlM_cons, List.foldlM_nil, Fitter.addData,
      if_true, passed, List.flatMap_nil, List.append_nil]
    cases buildMatrices f.circlabel f.sizes (f.labels.map indices) (f.results ++ rs) <;> rfl
  | cons c calls ih =>
    obtain ⟨r, b⟩ := c
    rw [Fitter.run, List.cons_append, List.foldlM_cons]
    cases r with
    | none =>
      simp only [Fitter.addData]
      refine (ih f hi).trans ?_
      simp [passed]
    | some r =>
      cases b with
      | false =>
        simp only [Fitter.addData]
        refine (ih { f with results := f.results ++ r } hi).trans ?_
        simp [passed]
      | true =>
        simp only [Fitter.addData, if_true]
        cases hb : buildMatrices f.circlabel f.sizes (f.labels.map indices) (f.results ++ r) with
        | none =>
          have := build_none_of_prefix f.circlabel f.sizes (f.labels.map indices)
            (by simpa using hi) (f.results ++ r) (passed calls ++ rs) hb
          have e : f.results ++ passed ((some r, true) :: calls) ++ rs
              = (f.results ++ r) ++ (passed calls ++ rs) := by
            simp [passed]
          rw [e, this]
          rfl
        | some m =>
          refine (ih { f with results := f.results ++ r, mats := some m } hi).trans ?_
          simp [passed]

/-- **C14.** Start from a fresh fitter and make two sequences of `add_data` calls, each ending with
a rebuild, passing the same results up to order (grouped in any way): the fitters end up with the
same matrices (or both raise). -/
theorem C14_order_irrelevant (pattern : List (List Nat)) (labels : Option (List (List Str)))
    (circlabel : Str) (f : Fitter) (hf : mkTensored none pattern labels circlabel = some f)
    (calls calls' : List Call) (rs rs' : List Result)
    (h : (passed (calls ++ [(some rs, true)])).Perm (passed (calls' ++ [(some rs', true)]))) :
    (f.run (calls ++ [(some rs, true)])).map Fitter.mats
      = (f.run (calls' ++ [(some rs', true)])).map Fitter.mats := by
  have hi : f.labels.length = f.sizes.length ∧ f.results = [] := by
    cases labels with
    | none =>
      simp only [mkTensored, Fitter.addData, Option.bind_eq_bind, Option.bind_some,
        Option.some.injEq] at hf
      subst hf
      simp
    | some l =>
      simp only [mkTensored] at hf
      split at hf
      · simp at hf
      · next hne =>
        simp only [Fitter.addData, Option.bind_eq_bind, Option.bind_some,
          Option.some.injEq] at hf
        subst hf
        simp only [ne_eq, Decidable.not_not] at hne
        exact ⟨hne.symm, rfl⟩
  rw [run_spec _ _ _ hi.1, run_spec _ _ _ hi.1]
  have e : ∀ (c : List Call) (r : List Result), passed (c ++ [(some r, true)]) = passed c ++ r := by
    intro c r; simp [passed]
  rw [e, e] at h
  rw [hi.2, List.nil_append, List.nil_append]
  have hb : buildMatrices f.circlabel f.sizes (f.labels.map indices) (passed calls ++ rs)
      = buildMatrices f.circlabel f.sizes (f.labels.map indices) (passed calls' ++ rs') := by
    rw [buildMatrices, buildMatrices, accumulate_perm _ _ _ (by simpa using hi.1) _ _ h]
  rw [hb, Option.map_map, Option.map_map]
  rfl

/-- Non-vacuity for C14: a fitter exists and two different groupings of the same results. -/
example : (mkTensored none [[0], [1]] none []).isSome = true ∧
    (passed ([(some [[("cal_00".toList, [("00".toList, 3)])]], false)] ++
      [(some [[("cal_11".toList, [("10".toList, 3)])]], true)])).Perm
    (passed ([] ++ [(some [[("cal_11".toList, [("10".toList, 3)])],
      [("cal_00".toList, [("00".toList, 3)])]], true)])) := by
  refine ⟨rfl, ?_⟩
  exact List.Perm.swap _ _ _

end Verif.MeasMit
