import Verif.MeasMit.SpecEnd
import Verif.MeasMit.PropsObjects
import Verif.MeasMit.PropsShots
import Verif.MeasMit.Props
/-
C135: calibration and correction of counts from end to end.
-/
set_option linter.unusedVariables false
namespace Verif.MeasMit
open Verif Verif.Counts Verif.Expval

/-! ### The calibration shots -/

theorem getCounts_of_mem (r : Result) (hr : (r.map (·.1)).Nodup) (e : Expt) (he : e ∈ r) : getCounts r e.1 = some e.2 := by
  unfold getCounts
  exact Dict.get?_of_mem r hr e.1 e.2 he

/-- The calibration shots of results whose experiments have different names that designate the labels. -/
theorem shots_flat (circlabel : Str) (results : List Result) (labels : List Str) (hnames : results.flatten.map (·.1) = labels.map (circlabel ++ "cal_".toList ++ ·))
    (hl : labels.Nodup) (hbits : ∀ l ∈ labels, IsBits l ∧ l ≠ []) :
    shots circlabel results = (labels.zip results.flatten).flatMap fun p => p.2.2.map fun q => ⟨p.1, q.1, q.2⟩ := by
  have hinj : Function.Injective fun l : Str => circlabel ++ "cal_".toList ++ l := fun a b h => List.append_cancel_left h
  have hnd : (results.flatten.map (·.1)).Nodup := by
    rw [hnames]
    exact hl.map hinj
  have h1 : shots circlabel results = results.flatten.flatMap fun e => match calState circlabel e.1 with
      | none => []
      | some state => e.2.map fun p => ⟨state, p.1, p.2⟩ := by
    unfold shots
    have hr : ∀ r ∈ results, (r.map (·.1)).Nodup := fun r hr => hnd.sublist ((List.sublist_flatten_of_mem hr).map _)
    clear hnames hnd
    induction results with
    | nil => rfl
    | cons r rs ih =>
      rw [List.flatten_cons, List.flatMap_append, List.flatMap_cons, ih fun r' h' => hr r' (List.mem_cons_of_mem _ h')]
      congr 1
      refine List.flatMap_congr fun e he => ?_
      cases calState circlabel e.1 with
      | none => rfl
      | some state =>
        simp only
        rw [getCounts_of_mem r (hr r List.mem_cons_self) e he, Option.getD_some]
  rw [h1]
  generalize results.flatten = flat at hnames
  clear h1 hnd hl
  induction flat generalizing labels with
  | nil => simp
  | cons e es ih =>
    cases labels with
    | nil => simp at hnames
    | cons l ls =>
      simp only [List.map_cons, List.cons.injEq] at hnames
      rw [List.flatMap_cons, List.zip_cons_cons, List.flatMap_cons, ih ls (fun l' h' => hbits l' (List.mem_cons_of_mem _ h')) hnames.2]
      congr 1
      rw [hnames.1, C13_name_designates_label circlabel l (hbits l List.mem_cons_self).1 (hbits l List.mem_cons_self).2]

theorem total_append (a b : List Shot) (c : Shot → Bool) : total (a ++ b) c = total a c + total b c := by simp [total]

theorem total_flatMap {α : Type} (l : List α) (f : α → List Shot) (c : Shot → Bool) : total (l.flatMap f) c = (l.map fun x => total (f x) c).sum := by
  induction l with
  | nil => rfl
  | cons a l ih => rw [List.flatMap_cons, total_append, ih, List.map_cons, List.sum_cons]

/-- The shots of one experiment that were read as a given label. -/
theorem total_reading (d : Dict Str ℚ) (hd : Dict.WF d) (l m : Str) (c : Shot → Bool) (hc : ∀ s cnt, c ⟨l, s, cnt⟩ = decide (s = m)) :
    total (d.map fun q => ⟨l, q.1, q.2⟩) c = val d m := by
  induction d with
  | nil => rfl
  | cons q d ih =>
    obtain ⟨k, v⟩ := q
    rw [Dict.WF, List.map_cons, List.nodup_cons] at hd
    have e : total (((k, v) :: d).map fun q => (⟨l, q.1, q.2⟩ : Shot)) c = (if k = m then v else 0) + total (d.map fun q => ⟨l, q.1, q.2⟩) c := by
      rw [List.map_cons, ← List.singleton_append, total_append]
      congr 1
      unfold total
      by_cases h : k = m <;> simp [hc, h]
    rw [e, ih hd.2, val, val, Dict.getD, Dict.getD, Dict.get?_cons]
    by_cases h : k = m
    · subst h
      have : Dict.get? d k = none := (Dict.get?_eq_none_iff _ _).2 hd.1
      simp [this]
    · simp [h]

/-- All shots of one experiment. -/
theorem total_all (d : Dict Str ℚ) (l : Str) (c : Shot → Bool) (hc : ∀ s cnt, c ⟨l, s, cnt⟩ = true) : total (d.map fun q => ⟨l, q.1, q.2⟩) c = d.values.sum := by
  unfold total Dict.values
  rw [List.filter_eq_self.2]
  · rw [List.map_map]; rfl
  · intro s hs
    obtain ⟨q, -, rfl⟩ := List.mem_map.1 hs
    exact hc _ _

theorem total_none (d : Dict Str ℚ) (l : Str) (c : Shot → Bool) (hc : ∀ s cnt, c ⟨l, s, cnt⟩ = false) : total (d.map fun q => ⟨l, q.1, q.2⟩) c = 0 := by
  unfold total
  rw [List.filter_eq_nil_iff.2]
  · rfl
  · intro s hs
    obtain ⟨q, -, rfl⟩ := List.mem_map.1 hs
    simp [hc]

theorem part_single (n : ℕ) (s : Str) (h : s.length = n) : part [n] 0 s = s := by
  unfold part
  subst h
  simp only [List.take_zero, List.sum_nil, List.drop_zero, List.getD_cons_zero]
  rw [List.take_of_length_le (by simp), List.reverse_reverse]

variable {K : ℕ} {circs : List Circ} {labels : List Str}

/-- Sums over the experiments. -/
theorem zip_sum {flat : List Expt} (hlen : flat.length = labels.length) (f : Str × Expt → ℚ) (x : Fin labels.length)
    (hx : ∀ l e, l ≠ labels.get x → f (l, e) = 0) (hl : labels.Nodup) :
    ((labels.zip flat).map f).sum = f (labels.get x, flat[(x : ℕ)]'(by have := x.2; omega)) := by
  have e : labels.zip flat = List.ofFn fun i : Fin labels.length => (labels.get i, flat[(i : ℕ)]'(by have := i.2; omega)) := by
    refine List.ext_getElem (by simp [hlen]) fun i h1 h2 => ?_
    simp
  rw [e, List.map_ofFn, List.sum_ofFn, Finset.sum_eq_single x]
  · rfl
  · intro i _ hi
    exact hx _ _ fun h => hi (hl.injective_get h)
  · intro h; exact absurd (Finset.mem_univ _) h

theorem fin_label_sum {M : Type} [AddCommMonoid M] (l : List Str) (f : Str → M) : (l.map f).sum = ∑ y : Fin l.length, f (l.get y) := by
  conv_lhs => rw [← List.ofFn_get l, List.map_ofFn, List.sum_ofFn]
  rfl

/-- The results of the calibration circuits tell what was read. -/
theorem Ran.cal {n : ℕ} {circlabel : Str} {κ : Fin labels.length → Fin K → Fin labels.length} {results : List Result} (h : Ran circs labels κ results)
    (hl : labels.Nodup) (hn : 1 ≤ n) (hlab : ∀ s, s ∈ labels ↔ IsBits s ∧ s.length = n)
    (hnames : circs.map Circ.name = labels.map (circlabel ++ "cal_".toList ++ ·)) :
    CalTally circlabel [n] 0 labels results κ ∧
    (∀ s ∈ shots circlabel results, (IsBits s.prepared ∧ s.prepared.length = [n].sum) ∧ IsBits s.measured ∧ s.measured.length = [n].sum) := by
  have hlen : results.flatten.length = labels.length := by
    have := congrArg List.length (h.names.trans hnames)
    rwa [List.length_map, List.length_map] at this
  have hs := shots_flat circlabel results labels (h.names.trans hnames) hl fun l hl' => ⟨((hlab l).1 hl').1, by
    rintro rfl
    have := ((hlab []).1 hl').2
    simp at this
    omega⟩
  have hmem : ∀ s ∈ shots circlabel results, s.prepared ∈ labels ∧ s.measured ∈ labels := by
    intro s hs'
    rw [hs] at hs'
    obtain ⟨p, hp, hq⟩ := List.mem_flatMap.1 hs'
    obtain ⟨q, hq', rfl⟩ := List.mem_map.1 hq
    exact ⟨(List.of_mem_zip hp).1, h.keys p.2 (List.of_mem_zip hp).2 q hq'⟩
  have hpart : ∀ l ∈ labels, part [n] 0 l = l := fun l hl' => part_single n l ((hlab l).1 hl').2
  have hflat : ∀ x : Fin labels.length, (x : ℕ) < results.flatten.length := fun x => by have := x.2; omega
  have htal : ∀ x y : Fin labels.length, val (results.flatten[(x : ℕ)]'(hflat x)).2 (labels.get y) = ((Finset.univ.filter fun k => κ x k = y).card : ℚ) :=
    fun x y => h.tally x _ (List.getElem?_eq_getElem (hflat x)) y
  refine ⟨⟨fun x => ?_, fun x y => ?_⟩, fun s hs' => ?_⟩
  · have e : total (shots circlabel results) (fun s => part [n] 0 s.prepared = labels.get x) = total (shots circlabel results) fun s => s.prepared = labels.get x := by
      unfold total
      congr 2
      refine List.filter_congr fun s hs' => ?_
      rw [hpart _ (hmem s hs').1]
    rw [e, hs, total_flatMap, zip_sum hlen _ x (fun l e hne => total_none _ _ _ fun _ _ => by simpa using hne) hl]
    rw [total_all _ _ _ fun _ _ => by simp, values_sum _ (h.wf _ (List.getElem_mem _)) labels hl (h.keys _ (List.getElem_mem _))]
    rw [fin_label_sum, Finset.sum_congr rfl fun y _ => htal x y, ← Nat.cast_sum, ← Finset.card_eq_sum_card_fiberwise (fun k _ => by simp)]
    simp
  · have e : total (shots circlabel results) (fun s => part [n] 0 s.prepared = labels.get x ∧ part [n] 0 s.measured = labels.get y) =
        total (shots circlabel results) fun s => s.prepared = labels.get x ∧ s.measured = labels.get y := by
      unfold total
      congr 2
      refine List.filter_congr fun s hs' => ?_
      rw [hpart _ (hmem s hs').1, hpart _ (hmem s hs').2]
    rw [e, hs, total_flatMap, zip_sum hlen _ x (fun l e hne => total_none _ _ _ fun _ _ => by
      simp only [decide_eq_false_iff_not]
      exact fun h => hne h.1) hl]
    rw [total_reading _ (h.wf _ (List.getElem_mem _)) _ (labels.get y) _ fun s cnt => by simp, htal]
  · obtain ⟨h1, h2⟩ := hmem s hs'
    simpa using ⟨(hlab _).1 h1, (hlab _).1 h2⟩

/-! ### The fitted filter -/

/-- A program that adds the results, in any number of calls, and takes a filter. -/
theorem filter_of_fresh (size : ℕ) (labels : List Str) (circlabel : Str) (pre : List MOp) (rs : List Result) (m : Mat ℚ) (hpre : ∀ o ∈ pre, ¬ o.TouchesLabels)
    (hm : fresh size labels circlabel (allPassed pre ++ rs) = some m) :
    (mRun (mkComplete size labels circlabel) (pre ++ [.addData (some rs) true, .filter])).filters.getLast? = some ⟨.clean m, labels⟩ := by
  have hcal := ((C134_matrix size labels circlabel pre [] (by simp)).1 rs m hm).2
  have hlab := (C134_labels size labels circlabel [] (pre ++ [.addData (some rs) true]) (by
    intro o ho
    rcases List.mem_append.1 ho with ho | ho
    · exact hpre o ho
    · rw [List.mem_singleton.1 ho]; exact fun h => h)).2
  have e : pre ++ [.addData (some rs) true, .filter] = (pre ++ [.addData (some rs) true]) ++ [.filter] := by simp
  rw [e, mRun_append]
  generalize mRun (mkComplete size labels circlabel) (pre ++ [.addData (some rs) true]) = w at hcal hlab
  show (mStep w .filter).1.filters.getLast? = _
  unfold mStep
  rw [hcal, hlab]
  simp

/-- The matrix of the shares of the readings. -/
theorem fitted (hK : 0 < K) {ql : List ℕ} {qr : Option ℕ} {circlabel : Str} (hne : ql ≠ [])
    (h : completeMeasCal (some ql) qr none circlabel = some (circs, labels)) (κ : Fin labels.length → Fin K → Fin labels.length) (results : List Result)
    (hr : Ran circs labels κ results) :
    ∃ m, fresh ql.length labels circlabel results = some m ∧
      ∀ x y : Fin labels.length, realMat m y x = ((Finset.univ.filter fun k => κ x k = y).card : ℝ) / K := by
  obtain ⟨-, hnd, hlab, hnames, -, -⟩ := C12_complete ql qr none circlabel circs labels hne h
  have hn : 1 ≤ ql.length := by
    cases ql with
    | nil => exact absurd rfl hne
    | cons a l => simp
  obtain ⟨ht, hs⟩ := hr.cal hnd hn hlab hnames
  have hperm : labels.Perm (bitStrings ql.length) := (List.perm_ext_iff_of_nodup hnd (nodup_bitStrings _)).2 fun s => by rw [hlab, mem_bitStrings]
  have hb := C13_succeeds circlabel [ql.length] [labels] results rfl (fun g hg => by
    obtain rfl : g = 0 := by simpa using hg
    exact hperm) hs
  obtain ⟨mats, hm⟩ := Option.isSome_iff_exists.1 hb
  have hl1 : mats.length = 1 := ((build_iff circlabel [ql.length] [indices labels] rfl _ mats).1 hm).2.1
  obtain ⟨m, rfl⟩ := List.length_eq_one_iff.1 hl1
  refine ⟨m, ?_, fun x y => ?_⟩
  · rw [← fresh_eq ql.length labels circlabel results ⟨circlabel, ql.length, indices labels, labels, [], .unset⟩ rfl rfl rfl]
    show (buildMatrices circlabel [ql.length] [indices labels] results).bind (·[0]?) = _
    rw [show buildMatrices circlabel [ql.length] [indices labels] results = some [m] from hm]
    rfl
  · exact C126_calibration hK circlabel [ql.length] [labels] results [m] rfl (fun g hg => by
      obtain rfl : g = 0 := by simpa using hg
      exact hnd) (fun s hs' => ⟨(hs s hs').1.2, (hs s hs').2.2⟩) hm 0 (by simp) κ ht x y

/-! ### Two stages -/

open Classical in
theorem two_stage {C W : Type} [Fintype C] [Fintype W] (P : C → ℝ) (Q : W → ℝ) (hP : ∀ c, 0 ≤ P c) (hQ : ∀ w, 0 ≤ Q w) (hP1 : ∑ c, P c = 1) (hQ1 : ∑ w, Q w = 1)
    (far : C → Prop) (good : C → W → Prop) (a b : ℝ) (hb : 0 ≤ b) (hfar : (∑ c, if far c then P c else 0) ≤ a)
    (hnear : ∀ c, ¬ far c → (∑ w, if good c w then 0 else Q w) ≤ b) : (∑ c, ∑ w, if good c w then 0 else P c * Q w) ≤ a + b := by
  have h1 : ∀ c, (∑ w, if good c w then 0 else P c * Q w) ≤ (if far c then P c else 0) + P c * b := by
    intro c
    have e : (∑ w, if good c w then 0 else P c * Q w) = P c * ∑ w, if good c w then 0 else Q w := by
      rw [Finset.mul_sum]
      exact Finset.sum_congr rfl fun w _ => by split <;> simp
    rw [e]
    by_cases hc : far c
    · rw [if_pos hc]
      have h2 : (∑ w, if good c w then 0 else Q w) ≤ 1 := by
        rw [← hQ1]
        exact Finset.sum_le_sum fun w _ => by split; exact hQ w; exact le_rfl
      have := mul_le_mul_of_nonneg_left h2 (hP c)
      have := mul_nonneg (hP c) hb
      linarith
    · rw [if_neg hc, zero_add]
      exact mul_le_mul_of_nonneg_left (hnear c hc) (hP c)
  refine (Finset.sum_le_sum fun c _ => h1 c).trans ?_
  rw [Finset.sum_add_distrib, ← Finset.sum_mul, hP1, one_mul]
  linarith

/-- The noise in terms of positions. -/
def byIndex (labels : List Str) (R : Str → Str → ℝ) : ℕ → ℕ → ℝ := fun y x => R (labels.getD y []) (labels.getD x [])

theorem byIndex_noise (hR : IsReadout labels R) : IsNoise labels.length (byIndex labels R) := by
  intro x hx
  have hm : ∀ i < labels.length, labels.getD i [] ∈ labels := fun i hi => by
    rw [List.getD_eq_getElem?_getD, List.getElem?_eq_getElem hi]
    exact List.getElem_mem hi
  obtain ⟨h1, h2⟩ := hR _ (hm x hx)
  refine ⟨fun y hy => h1 _ (hm y hy), ?_⟩
  rw [← h2, label_sum, sum_map_range]
  rfl

theorem readings_calProb (R : Str → Str → ℝ) (κ : Fin labels.length → Fin K → Fin labels.length) : readingsProb labels R κ = calProb (byIndex labels R) κ := by
  unfold readingsProb calProb byIndex
  refine Finset.prod_congr rfl fun x _ => Finset.prod_congr rfl fun k _ => ?_
  simp [List.getD_eq_getElem?_getD]

/-! ### From end to end -/

variable {O : Type} [Fintype O] {N : ℕ}

/-- What the theorems need of a calibration close to the noise. -/
theorem near_calibration (hl : labels.Nodup) (R X₀ : Str → Str → ℝ) (hX : Inverts labels X₀ R) (g η : ℝ) (hg0 : 0 < g) (hg : ColBound labels X₀ g)
    (A : Mat ℝ) (hA : ∀ x < labels.length, ∑ y ∈ Finset.range labels.length, |byIndex labels R y x - A y x| ≤ η) (hlt : g * η < 1)
    (pinv : Mat ℝ → Mat ℝ) (hp : ∀ a, Invertible labels.length a → IsPinv labels.length a (pinv a)) :
    Invertible labels.length A ∧ IsPinv labels.length A (pinv A) ∧ ColBound labels (entry labels (pinv A)) (g / (1 - g * η)) ∧
    ∀ t ∈ labels, (labels.map fun s => |R s t - entry labels A s t|).sum ≤ η := by
  have hm : ∀ i < labels.length, labels.getD i [] ∈ labels := fun i hi => by
    rw [List.getD_eq_getElem?_getD, List.getElem?_eq_getElem hi]
    exact List.getElem_mem hi
  have hB : IsInv labels.length (byIndex labels X₀) (byIndex labels R) := by
    intro i hi j hj
    have := hX _ (hm i hi) _ (hm j hj)
    rw [label_sum, sum_map_range] at this
    unfold byIndex
    rw [this]
    have e : (labels.getD i [] = labels.getD j []) ↔ i = j := by
      rw [List.getD_eq_getElem?_getD, List.getD_eq_getElem?_getD, List.getElem?_eq_getElem hi, List.getElem?_eq_getElem hj, Option.getD_some, Option.getD_some]
      exact hl.getElem_inj_iff
    simp only [e]
  have hgc : ∀ j < labels.length, ∑ i ∈ Finset.range labels.length, |byIndex labels X₀ i j| ≤ g := by
    intro j hj
    have := hg _ (hm j hj)
    rw [label_sum, sum_map_range] at this
    exact this
  obtain ⟨B, hBA⟩ := perturb_inv labels.length _ _ A hB g η hgc hg0.le hA hlt
  have hBm : toMatrix labels.length B * toMatrix labels.length A = 1 := by
    ext a b
    have := hBA a a.2 b b.2
    rw [Finset.sum_range] at this
    rw [Matrix.mul_apply, Matrix.one_apply]
    show (∑ k : Fin labels.length, B a k * A k b) = _
    rw [this]
    simp [Fin.ext_iff]
  have hinv : Invertible labels.length A := ⟨_, mul_eq_one_comm.1 hBm, hBm⟩
  have hpi := hp A hinv
  have hpA : IsInv labels.length (pinv A) A := by
    intro i hi j hj
    have := congrFun (congrFun (pinv_inverse _ A (pinv A) hpi hinv).1 ⟨i, hi⟩) ⟨j, hj⟩
    rw [Matrix.mul_apply, Matrix.one_apply] at this
    rw [Finset.sum_range]
    rw [show (if i = j then (1 : ℝ) else 0) = if (⟨i, hi⟩ : Fin labels.length) = ⟨j, hj⟩ then 1 else 0 by simp [Fin.ext_iff], ← this]
    rfl
  have hidx : ∀ t ∈ labels, ∃ j < labels.length, t = labels.getD j [] := by
    intro t ht
    obtain ⟨j, hj, rfl⟩ := List.getElem_of_mem ht
    exact ⟨j, hj, by simp [List.getD_eq_getElem?_getD, hj]⟩
  refine ⟨hinv, hpi, fun t ht => ?_, fun t ht => ?_⟩
  · obtain ⟨j, hj, rfl⟩ := hidx t ht
    rw [label_sum, sum_map_range]
    refine le_trans (le_of_eq ?_) (perturb_norm labels.length _ _ A (pinv A) hB g η hgc hg0.le hA hlt hpA j hj)
    exact Finset.sum_congr rfl fun i hi => by rw [entry_getD hl _ (Finset.mem_range.1 hi) hj]
  · obtain ⟨j, hj, rfl⟩ := hidx t ht
    rw [label_sum, sum_map_range]
    refine le_trans (le_of_eq ?_) (hA j hj)
    exact Finset.sum_congr rfl fun i hi => by rw [entry_getD hl _ (Finset.mem_range.1 hi) hj]; rfl

/-- The columns of the fitted matrix. -/
theorem fitted_stochastic (hK : 0 < K) (κ : Fin labels.length → Fin K → Fin labels.length) (m : Mat ℚ)
    (hm : ∀ x y : Fin labels.length, realMat m y x = ((Finset.univ.filter fun k => κ x k = y).card : ℝ) / K) : ColumnStochastic labels.length (realMat m) := by
  intro j hj
  rw [sum_map_range, Finset.sum_range, Finset.sum_congr rfl fun y _ => hm ⟨j, hj⟩ y, ← Finset.sum_div, ← Nat.cast_sum,
    ← Finset.card_eq_sum_card_fiberwise (fun k _ => by simp)]
  have : (K : ℝ) ≠ 0 := by exact_mod_cast hK.ne'
  simp [this]

open Classical in
/-- The common part: whatever is true of the corrected counts with a calibration close to the noise is true from end to end. -/
theorem end_to_end {ql : List ℕ} {qr : Option ℕ} {circlabel : Str} (hne : ql ≠ []) (hK : 0 < K)
    (h : completeMeasCal (some ql) qr none circlabel = some (circs, labels))
    (R X₀ : Str → Str → ℝ) (hR : IsReadout labels R) (hX : Inverts labels X₀ R) (g : ℝ) (hg0 : 0 < g) (hg : ColBound labels X₀ g)
    (pre : (Fin labels.length → Fin K → Fin labels.length) → List MOp) (rs : (Fin labels.length → Fin K → Fin labels.length) → List Result)
    (hpre : ∀ κ, ∀ o ∈ pre κ, ¬ o.TouchesLabels) (hran : ∀ κ, Ran circs labels κ (allPassed (pre κ) ++ rs κ))
    (pinv : Mat ℝ → Mat ℝ) (hp : ∀ a, Invertible labels.length a → IsPinv labels.length a (pinv a))
    (w : O → ℝ) (hw : IsDistr w) (η : ℝ) (hη : 0 < η) (hlt : g * η < 1)
    (good : (Fin labels.length → Fin K → Fin labels.length) → Mat ℝ → (Fin N → O) → Prop) (b : ℝ) (hb : 0 ≤ b)
    (hgood : ∀ κ A, Invertible labels.length A → IsPinv labels.length A (pinv A) → ColBound labels (entry labels (pinv A)) (g / (1 - g * η)) →
      (∀ t ∈ labels, (labels.map fun s => |R s t - entry labels A s t|).sum ≤ η) → ColumnStochastic labels.length A →
      (∑ ω, if good κ A ω then 0 else shotsProb w ω) ≤ b) :
    (∑ κ, ∑ ω : Fin N → O, if ∃ m, (mRun (mkComplete ql.length labels circlabel) (pre κ ++ [.addData (some (rs κ)) true, .filter])).filters.getLast? =
        some ⟨.clean m, labels⟩ ∧ good κ (realMat m) ω then 0 else readingsProb labels R κ * shotsProb w ω) ≤ labels.length ^ 2 / (K * η ^ 2) + b := by
  obtain ⟨-, hnd, hlab, hnames, -, -⟩ := C12_complete ql qr none circlabel circs labels hne h
  have hN := byIndex_noise hR
  have hpos : ∀ κ : Fin labels.length → Fin K → Fin labels.length, 0 ≤ readingsProb labels R κ := fun κ => by
    rw [readings_calProb]
    exact Finset.prod_nonneg fun x _ => Finset.prod_nonneg fun k _ => (hN x x.2).1 _ (κ x k).2
  have hone : ∑ κ : Fin labels.length → Fin K → Fin labels.length, readingsProb labels R κ = 1 := by
    simp only [readings_calProb]
    refine product_one (fun (x : Fin labels.length) (u : Fin K → Fin labels.length) => ∏ k, byIndex labels R (u k) x) fun x => ?_
    refine QV.draws_sum_one K (fun z : Fin labels.length => byIndex labels R z x) ?_
    rw [← (hN x x.2).2, Finset.sum_range]
  refine two_stage (readingsProb labels R) (shotsProb w) hpos (fun ω => Finset.prod_nonneg fun k _ => hw.1 _) hone (QV.draws_sum_one N w hw.2)
    (fun κ => ∃ x : Fin labels.length, η ≤ ∑ y ∈ Finset.range labels.length, |byIndex labels R y x - calShare (κ x) y|) _ _ b hb ?_ fun κ hκ => ?_
  · have := calibration_error hK (byIndex labels R) hN η hη
    simpa only [readings_calProb] using this
  · obtain ⟨m, hm, hsh⟩ := fitted hK hne h κ _ (hran κ)
    have hf := filter_of_fresh ql.length labels circlabel (pre κ) (rs κ) m (hpre κ) hm
    have hA : ∀ x < labels.length, ∑ y ∈ Finset.range labels.length, |byIndex labels R y x - realMat m y x| ≤ η := by
      intro x hx
      have := not_le.1 fun h => hκ ⟨⟨x, hx⟩, h⟩
      refine le_trans (le_of_eq ?_) this.le
      refine Finset.sum_congr rfl fun y hy => ?_
      rw [hsh ⟨x, hx⟩ ⟨y, Finset.mem_range.1 hy⟩]
      unfold calShare
      simp only [Fin.ext_iff]
    obtain ⟨i1, i2, i3, i4⟩ := near_calibration hnd R X₀ hX g η hg0 hg (realMat m) hA hlt pinv hp
    refine le_trans (Finset.sum_le_sum fun ω _ => ?_) (hgood κ (realMat m) i1 i2 i3 i4 (fitted_stochastic hK κ m hsh))
    by_cases hgd : good κ (realMat m) ω
    · rw [if_pos ⟨m, hf, hgd⟩, if_pos hgd]
    · rw [if_neg hgd]
      split
      · exact Finset.prod_nonneg fun k _ => hw.1 _
      · exact le_rfl

open Classical in
/-- A bound for the complement. -/
theorem not_good {good bad : (Fin N → O) → Prop} {w : O → ℝ} (hw : IsDistr w) {b : ℝ} (hb : (∑ ω, if bad ω then shotsProb w ω else 0) ≤ b)
    (h : ∀ ω, ¬ bad ω → good ω) : (∑ ω, if good ω then 0 else shotsProb w ω) ≤ b := by
  refine le_trans (Finset.sum_le_sum fun ω _ => ?_) hb
  have hpos : 0 ≤ shotsProb w ω := Finset.prod_nonneg fun k _ => hw.1 _
  by_cases hbad : bad ω
  · rw [if_pos hbad]
    split
    · exact hpos
    · exact le_rfl
  · rw [if_pos (h ω hbad), if_neg hbad]

open Classical in
/-- **C135**, `pseudo_inverse`: calibrate with `K` shots per circuit, then correct the counts of `N` shots.  Except with a small probability the frequencies are
as close to the noiseless probabilities as stated. -/
theorem C135_counts {ql : List ℕ} {qr : Option ℕ} {circlabel : Str} (hne : ql ≠ []) (hK : 0 < K) (hN : 0 < N)
    (h : completeMeasCal (some ql) qr none circlabel = some (circs, labels))
    (R X₀ : Str → Str → ℝ) (hR : IsReadout labels R) (hX : Inverts labels X₀ R) (g : ℝ) (hg0 : 0 < g) (hg : ColBound labels X₀ g)
    (pre : (Fin labels.length → Fin K → Fin labels.length) → List MOp) (rs : (Fin labels.length → Fin K → Fin labels.length) → List Result)
    (hpre : ∀ κ, ∀ o ∈ pre κ, ¬ o.TouchesLabels) (hran : ∀ κ, Ran circs labels κ (allPassed (pre κ) ++ rs κ))
    (pinv : Mat ℝ → Mat ℝ) (hp : ∀ a, Invertible labels.length a → IsPinv labels.length a (pinv a)) (solve : Solver) (rand : (Fin N → O) → Nat → ℝ)
    (w : O → ℝ) (hw : IsDistr w) (out : O → Str) (p : Str → ℝ) (hdev : NoisyDevice w out labels R R p 0)
    (raw : (Fin N → O) → Dict Str ℝ) (hraw : ∀ ω, Tally labels out ω (raw ω)) (η ε : ℝ) (hη : 0 < η) (hε : 0 < ε) (hlt : g * η < 1) :
    (∑ κ, ∑ ω : Fin N → O, if ∃ m, (mRun (mkComplete ql.length labels circlabel) (pre κ ++ [.addData (some (rs κ)) true, .filter])).filters.getLast? =
        some ⟨.clean m, labels⟩ ∧ ∃ cor, filterDict labels (realMat m) (pinv (realMat m)) solve (some "pseudo_inverse".toList) (rand ω) (raw ω) = some cor ∧
          (labels.map (val cor)).sum = N ∧ off labels (freq N cor) p < g / (1 - g * η) * (η + ε) then 0 else
      readingsProb labels R κ * shotsProb w ω) ≤ labels.length ^ 2 / (K * η ^ 2) + labels.length / (N * ε ^ 2) := by
  obtain ⟨-, hnd, -, -, -, -⟩ := C12_complete ql qr none circlabel circs labels hne h
  have hG : 0 < g / (1 - g * η) := div_pos hg0 (by linarith)
  refine end_to_end hne hK h R X₀ hR hX g hg0 hg pre rs hpre hran pinv hp w hw η hη hlt
    (fun _ A ω => ∃ cor, filterDict labels A (pinv A) solve (some "pseudo_inverse".toList) (rand ω) (raw ω) = some cor ∧
      (labels.map (val cor)).sum = N ∧ off labels (freq N cor) p < g / (1 - g * η) * (η + ε)) _ (by positivity) fun κ A i1 i2 i3 i4 i5 => ?_
  obtain ⟨cor, c1, c2⟩ := C126_pinv hN hnd i2 i1 i5 solve rand w hw out R p _ η hG i3 ⟨hdev.reads, hdev.nonneg, hdev.total, hdev.device, i4⟩ raw hraw
  exact not_good hw (c2.distance ε hε) fun ω hb => ⟨cor ω, c1 ω, c2.total ω, not_le.1 hb⟩

open Classical in
/-- **C135**, `pseudo_inverse`: the average of an observable. -/
theorem C135_observable {ql : List ℕ} {qr : Option ℕ} {circlabel : Str} (hne : ql ≠ []) (hK : 0 < K) (hN : 0 < N)
    (h : completeMeasCal (some ql) qr none circlabel = some (circs, labels))
    (R X₀ : Str → Str → ℝ) (hR : IsReadout labels R) (hX : Inverts labels X₀ R) (g : ℝ) (hg0 : 0 < g) (hg : ColBound labels X₀ g)
    (pre : (Fin labels.length → Fin K → Fin labels.length) → List MOp) (rs : (Fin labels.length → Fin K → Fin labels.length) → List Result)
    (hpre : ∀ κ, ∀ o ∈ pre κ, ¬ o.TouchesLabels) (hran : ∀ κ, Ran circs labels κ (allPassed (pre κ) ++ rs κ))
    (pinv : Mat ℝ → Mat ℝ) (hp : ∀ a, Invertible labels.length a → IsPinv labels.length a (pinv a)) (solve : Solver) (rand : (Fin N → O) → Nat → ℝ)
    (w : O → ℝ) (hw : IsDistr w) (out : O → Str) (p : Str → ℝ) (hdev : NoisyDevice w out labels R R p 0)
    (raw : (Fin N → O) → Dict Str ℝ) (hraw : ∀ ω, Tally labels out ω (raw ω)) (η ε : ℝ) (hη : 0 < η) (hε : 0 < ε) (hlt : g * η < 1)
    (d : Str → ℝ) (hd : ∀ s ∈ labels, |d s| ≤ 1) :
    (∑ κ, ∑ ω : Fin N → O, if ∃ m, (mRun (mkComplete ql.length labels circlabel) (pre κ ++ [.addData (some (rs κ)) true, .filter])).filters.getLast? =
        some ⟨.clean m, labels⟩ ∧ ∃ cor, filterDict labels (realMat m) (pinv (realMat m)) solve (some "pseudo_inverse".toList) (rand ω) (raw ω) = some cor ∧
          |(labels.map fun s => d s * freq N cor s).sum - (labels.map fun s => d s * p s).sum| < g / (1 - g * η) * (η + ε) then 0 else
      readingsProb labels R κ * shotsProb w ω) ≤ labels.length ^ 2 / (K * η ^ 2) + 2 * Real.exp (-(N * ε ^ 2 / 2)) := by
  obtain ⟨-, hnd, -, -, -, -⟩ := C12_complete ql qr none circlabel circs labels hne h
  have hG : 0 < g / (1 - g * η) := div_pos hg0 (by linarith)
  refine end_to_end hne hK h R X₀ hR hX g hg0 hg pre rs hpre hran pinv hp w hw η hη hlt
    (fun _ A ω => ∃ cor, filterDict labels A (pinv A) solve (some "pseudo_inverse".toList) (rand ω) (raw ω) = some cor ∧
      |(labels.map fun s => d s * freq N cor s).sum - (labels.map fun s => d s * p s).sum| < g / (1 - g * η) * (η + ε)) _ (by positivity) fun κ A i1 i2 i3 i4 i5 => ?_
  obtain ⟨cor, c1, c2⟩ := C126_pinv hN hnd i2 i1 i5 solve rand w hw out R p _ η hG i3 ⟨hdev.reads, hdev.nonneg, hdev.total, hdev.device, i4⟩ raw hraw
  have hb := c2.observable d hd (g / (1 - g * η) * ε) (by positivity)
  have e1 : (N : ℝ) * (g / (1 - g * η) * ε) ^ 2 / (2 * (g / (1 - g * η)) ^ 2) = N * ε ^ 2 / 2 := by
    have := hG.ne'
    generalize g / (1 - g * η) = G at this
    field_simp
  rw [e1] at hb
  exact not_good hw hb fun ω hb => ⟨cor ω, c1 ω, by rw [mul_add]; exact not_le.1 hb⟩

open Classical in
/-- **C135**, the default method, for an exact solver. -/
theorem C135_default {ql : List ℕ} {qr : Option ℕ} {circlabel : Str} (hne : ql ≠ []) (hK : 0 < K) (hN : 0 < N)
    (h : completeMeasCal (some ql) qr none circlabel = some (circs, labels))
    (R X₀ : Str → Str → ℝ) (hR : IsReadout labels R) (hX : Inverts labels X₀ R) (g : ℝ) (hg0 : 0 < g) (hg : ColBound labels X₀ g)
    (pre : (Fin labels.length → Fin K → Fin labels.length) → List MOp) (rs : (Fin labels.length → Fin K → Fin labels.length) → List Result)
    (hpre : ∀ κ, ∀ o ∈ pre κ, ¬ o.TouchesLabels) (hran : ∀ κ, Ran circs labels κ (allPassed (pre κ) ++ rs κ))
    (pinv : Mat ℝ → Mat ℝ) (hp : ∀ a, Invertible labels.length a → IsPinv labels.length a (pinv a)) (solve : Solver) (hs : Solves solve 0) (rand : (Fin N → O) → Nat → ℝ)
    (w : O → ℝ) (hw : IsDistr w) (out : O → Str) (p : Str → ℝ) (hdev : NoisyDevice w out labels R R p 0)
    (raw : (Fin N → O) → Dict Str ℝ) (hraw : ∀ ω, Tally labels out ω (raw ω)) (η ε : ℝ) (hη : 0 < η) (hε : 0 < ε) (hlt : g * η < 1) :
    (∑ κ, ∑ ω : Fin N → O, if ∃ m, (mRun (mkComplete ql.length labels circlabel) (pre κ ++ [.addData (some (rs κ)) true, .filter])).filters.getLast? =
        some ⟨.clean m, labels⟩ ∧ ∃ cor, filterDict labels (realMat m) (pinv (realMat m)) solve (some "least_squares".toList) (rand ω) (raw ω) = some cor ∧
          Physical labels N (val cor) ∧ off labels (freq N cor) p < g / (1 - g * η) * √labels.length * (η + ε) then 0 else
      readingsProb labels R κ * shotsProb w ω) ≤ labels.length ^ 2 / (K * η ^ 2) + 1 / (N * ε ^ 2) := by
  obtain ⟨-, hnd, -, -, -, -⟩ := C12_complete ql qr none circlabel circs labels hne h
  have hG : 0 < g / (1 - g * η) := div_pos hg0 (by linarith)
  refine end_to_end hne hK h R X₀ hR hX g hg0 hg pre rs hpre hran pinv hp w hw η hη hlt
    (fun _ A ω => ∃ cor, filterDict labels A (pinv A) solve (some "least_squares".toList) (rand ω) (raw ω) = some cor ∧
      Physical labels N (val cor) ∧ off labels (freq N cor) p < g / (1 - g * η) * √labels.length * (η + ε)) _ (by positivity) fun κ A i1 i2 i3 i4 i5 => ?_
  obtain ⟨cor, c1, c2⟩ := C126_lsq hN hnd i2 i1 hs rand w hw out R p _ η hG i3 ⟨hdev.reads, hdev.nonneg, hdev.total, hdev.device, i4⟩ raw hraw
  exact not_good hw (c2.distance ε hε) fun ω hb => ⟨cor ω, c1 ω, c2.physical ω, not_le.1 hb⟩

/-! ### An experiment -/

omit [Fintype O] in
/-- Whatever was read, there are results that tell it. -/
theorem exists_ran (hl : labels.Nodup) (hlen : circs.length = labels.length) (κ : Fin labels.length → Fin K → Fin labels.length) :
    ∃ r : Result, Ran circs labels κ [r] := by
  let tally : Fin labels.length → Dict Str ℚ := fun x => List.ofFn fun y : Fin labels.length => (labels.get y, ((Finset.univ.filter fun k => κ x k = y).card : ℚ))
  have hwf : ∀ x, Dict.WF (tally x) := by
    intro x
    unfold Dict.WF
    simp only [tally, List.map_ofFn]
    rw [show (Prod.fst ∘ fun y : Fin labels.length => (labels.get y, ((Finset.univ.filter fun k => κ x k = y).card : ℚ))) = labels.get from rfl, List.ofFn_get]
    exact hl
  refine ⟨List.ofFn fun x : Fin labels.length => ((circs[(x : ℕ)]'(by have := x.2; omega)).name, tally x), ?_, ?_, ?_, ?_⟩
  · refine List.ext_getElem (by simp [hlen]) fun i h1 h2 => ?_
    simp
  · intro e he
    simp only [List.flatten_cons, List.flatten_nil, List.append_nil, List.mem_ofFn] at he
    obtain ⟨x, rfl⟩ := he
    exact hwf x
  · intro e he q hq
    simp only [List.flatten_cons, List.flatten_nil, List.append_nil, List.mem_ofFn] at he
    obtain ⟨x, rfl⟩ := he
    simp only [tally, List.mem_ofFn] at hq
    obtain ⟨y, rfl⟩ := hq
    exact List.get_mem _ _
  · intro x e he y
    simp only [List.flatten_cons, List.flatten_nil, List.append_nil] at he
    obtain ⟨h1, rfl⟩ := List.getElem?_eq_some_iff.1 he
    simp only [List.getElem_ofFn]
    unfold val
    rw [Dict.getD, Dict.get?_of_mem _ (hwf x) (labels.get y) _ (List.mem_ofFn.2 ⟨y, rfl⟩), Option.getD_some]

/-- There is a correct inversion routine. -/
theorem exists_pinv (d : ℕ) : ∃ pinv : Mat ℝ → Mat ℝ, ∀ a, Invertible d a → IsPinv d a (pinv a) := by
  classical
  refine ⟨fun a => if h : Invertible d a then fun i j => if hij : i < d ∧ j < d then h.choose ⟨i, hij.1⟩ ⟨j, hij.2⟩ else 0 else a, fun a h => ?_⟩
  have e : toMatrix d (fun i j => if hij : i < d ∧ j < d then h.choose ⟨i, hij.1⟩ ⟨j, hij.2⟩ else 0) = h.choose := by
    ext i j
    simp [toMatrix]
  obtain ⟨h1, h2⟩ := h.choose_spec
  simp only [dif_pos h]
  unfold IsPinv
  simp only [e, h1, h2, one_mul, Matrix.transpose_one, and_self]

open Classical in
/-- One qubit in state 0 that is read with errors of probability 1/10: with `K` shots of each calibration circuit, in one job, and `N` shots of the circuit,
the corrected frequencies are less than 2/3 off in total, except with probability `100 / K + 50 / N`. -/
theorem C135_experiment (hK : 0 < K) (hN : 0 < N) (solve : Solver) (rand : Nat → ℝ) :
    ∃ (circs : List Circ) (pinv : Mat ℝ → Mat ℝ) (results : (Fin 2 → Fin K → Fin 2) → Result),
      completeMeasCal (some [0]) none none [] = some (circs, ["0".toList, "1".toList]) ∧ (∀ κ, Ran circs ["0".toList, "1".toList] κ [results κ]) ∧
      (∑ κ, ∑ ω : Fin N → Bool, if ∃ m, (mRun (mkComplete 1 ["0".toList, "1".toList] []) [.addData (some [results κ]) true, .filter]).filters.getLast? =
        some ⟨.clean m, ["0".toList, "1".toList]⟩ ∧ ∃ cor, filterDict ["0".toList, "1".toList] (realMat m) (pinv (realMat m)) solve (some "pseudo_inverse".toList) rand (bitRaw ω) = some cor ∧
          (["0".toList, "1".toList].map (val cor)).sum = N ∧ off ["0".toList, "1".toList] (freq N cor) zeroP < 2 / 3 then 0 else
      readingsProb ["0".toList, "1".toList] (entry ["0".toList, "1".toList] flip10) κ * shotsProb bitW ω) ≤ 100 / K + 50 / N := by
  obtain ⟨circs, hc⟩ : ∃ circs, completeMeasCal (some [0]) none none [] = some (circs, ["0".toList, "1".toList]) := ⟨_, rfl⟩
  obtain ⟨pinv, hp⟩ := exists_pinv 2
  obtain ⟨-, hnd, -, hnames, -, -⟩ := C12_complete [0] none none [] circs _ (by simp) hc
  choose results hres using fun κ : Fin ["0".toList, "1".toList].length → Fin K → Fin ["0".toList, "1".toList].length =>
    exists_ran (circs := circs) hnd (by simpa using congrArg List.length hnames) κ
  refine ⟨circs, pinv, results, hc, hres, ?_⟩
  have hw : IsDistr bitW := ⟨fun b => by unfold bitW; split <;> norm_num, by simp [bitW]; norm_num⟩
  have h := C135_counts (K := K) (N := N) (qr := none) (circlabel := []) (ql := [0]) (by simp) hK hN hc (entry ["0".toList, "1".toList] flip10)
    (entry ["0".toList, "1".toList] flip10Inv) ?_ ?_ (5 / 4) (by norm_num) bit_bound (fun _ => []) (fun κ => [results κ]) (by simp) hres pinv hp solve
    (fun _ => rand) bitW hw bitOut zeroP bit_device bitRaw bit_tally (1 / 5) (1 / 5) (by norm_num) (by norm_num) (by norm_num)
  · refine le_trans (le_of_eq ?_) (h.trans (le_of_eq ?_))
    · have e : (5 / 4 : ℝ) / (1 - 5 / 4 * (1 / 5)) * (1 / 5 + 1 / 5) = 2 / 3 := by norm_num
      rw [e]
      rfl
    · simp only [List.length_cons, List.length_nil]
      have h1 : (K : ℝ) ≠ 0 := by exact_mod_cast hK.ne'
      have h2 : (N : ℝ) ≠ 0 := by exact_mod_cast hN.ne'
      field_simp
      norm_num
      ring
  · intro t ht
    simp only [List.mem_cons, List.not_mem_nil, or_false] at ht
    refine ⟨fun s hs => ?_, ?_⟩
    · unfold entry flip10
      split <;> norm_num
    · rcases ht with rfl | rfl <;> simp [entry, flip10, List.idxOf, List.findIdx_cons] <;> norm_num
  · intro s hs u hu
    simp only [List.mem_cons, List.not_mem_nil, or_false] at hs hu
    rcases hs with rfl | rfl <;> rcases hu with rfl | rfl <;> simp [entry, flip10, flip10Inv, List.idxOf, List.findIdx_cons] <;> norm_num

end Verif.MeasMit
