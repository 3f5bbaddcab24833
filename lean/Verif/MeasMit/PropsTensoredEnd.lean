import Verif.MeasMit.SpecTensoredEnd
import Verif.MeasMit.PropsEnd
import Verif.RB.PropsPurityShots
/-
C141: tensored calibration and correction of counts from end to end.
-/
set_option linter.unusedVariables false
namespace Verif.MeasMit
open Verif Verif.Counts Verif.Expval

/-! ### The parts of a string -/

theorem part_zero (k : ℕ) (ks : List ℕ) (a b : Str) (hb : b.length = k) : part (k :: ks) 0 (a ++ b) = b := by
  subst hb
  simp [part]

theorem part_succ (k : ℕ) (ks : List ℕ) (g : ℕ) (a b : Str) (hb : b.length = k) : part (k :: ks) (g + 1) (a ++ b) = part ks g a := by
  subst hb
  unfold part
  simp only [List.take_succ_cons, List.sum_cons, List.getD_cons_succ, List.reverse_append]
  rw [← List.length_reverse (as := b), List.drop_length_add_append]

theorem part_mem (sizes : List ℕ) (g : ℕ) (hg : g < sizes.length) (s : Str) (hs : s ∈ bitStrings sizes.sum) : part sizes g s ∈ bitStrings (sizes.getD g 0) := by
  induction sizes generalizing g s with
  | nil => simp at hg
  | cons k ks ih =>
    rw [List.sum_cons, Nat.add_comm] at hs
    obtain ⟨a, ha, b, hb, rfl⟩ := bits_split hs
    cases g with
    | zero => rw [part_zero _ _ _ _ (bits_length hb)]; simpa using hb
    | succ g => rw [part_succ _ _ _ _ _ (bits_length hb)]; simpa using ih g (by simpa using hg) a ha

theorem fold_acc (ls : Str) (sizes : List ℕ) (acc : Str) :
    sizes.foldl (fun basis sz => ls.take sz ++ basis) acc = sizes.foldl (fun basis sz => ls.take sz ++ basis) [] ++ acc := by
  induction sizes generalizing acc with
  | nil => rfl
  | cons k ks ih => rw [List.foldl_cons, List.foldl_cons, ih, ih (ls.take k ++ []), List.append_nil, List.append_assoc]

theorem fold_part (ls : Str) (sizes : List ℕ) (h : ∀ k ∈ sizes, k ≤ ls.length) (g : ℕ) (hg : g < sizes.length) :
    part sizes g (sizes.foldl (fun basis sz => ls.take sz ++ basis) []) = ls.take (sizes.getD g 0) := by
  induction sizes generalizing g with
  | nil => simp at hg
  | cons k ks ih =>
    have hk : (ls.take k).length = k := by rw [List.length_take]; exact min_eq_left (h k (by simp))
    rw [List.foldl_cons, List.append_nil, fold_acc]
    cases g with
    | zero => rw [part_zero _ _ _ _ hk]; rfl
    | succ g => rw [part_succ _ _ _ _ _ hk, ih (fun k hk => h k (by simp [hk])) g (by simpa using hg)]; rfl

/-! ### The noise of one group -/

theorem kron_marginal (gs : List (Group ℝ)) (hl : ∀ g ∈ gs, g.1.Perm (bitStrings g.2.1))
    (h1 : ∀ g ∈ gs, ∀ t ∈ g.1, (g.1.map fun s => entry g.1 g.2.2 s t).sum = 1) (i : ℕ) (hi : i < gs.length) (y : Str) (hy : y ∈ bitStrings gs[i].2.1)
    (n : ℕ) (hn : groupSize gs = n) (t : Str) (ht : t ∈ bitStrings n) :
    ((bitStrings n).map fun s => if part (gs.map fun g => g.2.1) i s = y then kron gs s t else 0).sum =
      entry gs[i].1 gs[i].2.2 y (part (gs.map fun g => g.2.1) i t) := by
  induction gs generalizing i n t with
  | nil => simp at hi
  | cons g gs ih =>
    have hn' : groupSize gs + g.2.1 = n := by rw [← hn]; simp [groupSize, Nat.add_comm]
    subst hn'
    obtain ⟨a', ha', b', hb', rfl⟩ := bits_split ht
    rw [bits_sum]
    cases i with
    | zero =>
      have e : ((bitStrings (groupSize gs)).map fun a => ((bitStrings g.2.1).map fun b =>
          if part ((g :: gs).map fun g => g.2.1) 0 (a ++ b) = y then kron (g :: gs) (a ++ b) (a' ++ b') else 0).sum) =
          (bitStrings (groupSize gs)).map fun a => kron gs a a' * entry g.1 g.2.2 y b' := by
        refine List.map_congr_left fun a _ => ?_
        rw [List.map_congr_left fun b hb => by
          rw [List.map_cons, part_zero _ _ _ _ (bits_length hb), kron_append g gs a a' b b' (bits_length hb) (bits_length hb')]]
        rw [lsum (nodup_bitStrings _), Finset.sum_ite_eq', if_pos (List.mem_toFinset.2 (show y ∈ bitStrings g.2.1 from hy))]
      rw [e, List.sum_map_mul_right, kron_col_one gs (fun g hg => hl g (by simp [hg])) (fun g hg => h1 g (by simp [hg])) _ rfl a' ha', one_mul,
        List.map_cons, part_zero _ _ _ _ (bits_length hb')]
      rfl
    | succ i =>
      have e : ((bitStrings (groupSize gs)).map fun a => ((bitStrings g.2.1).map fun b =>
          if part ((g :: gs).map fun g => g.2.1) (i + 1) (a ++ b) = y then kron (g :: gs) (a ++ b) (a' ++ b') else 0).sum) =
          (bitStrings (groupSize gs)).map fun a => if part (gs.map fun g => g.2.1) i a = y then kron gs a a' else 0 := by
        refine List.map_congr_left fun a _ => ?_
        rw [List.map_congr_left fun b hb => by
          rw [List.map_cons, part_succ _ _ _ _ _ (bits_length hb), kron_append g gs a a' b b' (bits_length hb) (bits_length hb')]]
        by_cases hp : part (gs.map fun g => g.2.1) i a = y
        · simp only [hp, if_true]
          rw [List.sum_map_mul_left, ← ((hl g (by simp)).map _).sum_eq, h1 g (by simp) b' ((hl g (by simp)).mem_iff.2 hb'), mul_one]
        · simp [hp]
      rw [e, ih (fun g hg => hl g (by simp [hg])) (fun g hg => h1 g (by simp [hg])) i (by simpa using hi) (by simpa using hy) _ rfl a' ha',
        List.map_cons, part_succ _ _ _ _ _ (bits_length hb')]
      rfl

/-! ### The error of the calibration of one group -/

section
variable {I U : Type} [Fintype I] [DecidableEq I] [Fintype U]

/-- Among the shots with `x` prepared, the share of those in which `y` was read. -/
noncomputable def share (prep : I → Str) (read : U → Str) (κ : I → U) (y x : Str) : ℝ :=
  ((Finset.univ.filter fun i => prep i = x ∧ read (κ i) = y).card : ℝ) / (Finset.univ.filter fun i => prep i = x).card

theorem share_variance (Q : I → U → ℝ) (h0 : ∀ i u, 0 ≤ Q i u) (h1 : ∀ i, ∑ u, Q i u = 1) (prep : I → Str) (read : U → Str) (x y : Str) (m : ℝ)
    (hm : ∀ i, prep i = x → (∑ u, if read u = y then Q i u else 0) = m) (hS : 0 < (Finset.univ.filter fun i => prep i = x).card) :
    ∑ κ : I → U, (∏ i, Q i (κ i)) * (m - share prep read κ y x) ^ 2 ≤ m / (Finset.univ.filter fun i => prep i = x).card := by
  set S := Finset.univ.filter fun i => prep i = x with hSd
  have hS' : (0 : ℝ) < S.card := by exact_mod_cast hS
  have e : ∀ κ : I → U, (∏ i, Q i (κ i)) * (m - share prep read κ y x) ^ 2 =
      ((∏ i, Q i (κ i)) * (∑ a ∈ S, (m - if read (κ a) = y then 1 else 0)) ^ 2) / (S.card : ℝ) ^ 2 := by
    intro κ
    have : (∑ a ∈ S, (m - if read (κ a) = y then (1 : ℝ) else 0)) = S.card * (m - share prep read κ y x) := by
      rw [Finset.sum_sub_distrib, Finset.sum_const, nsmul_eq_mul, mul_sub, Finset.sum_boole, hSd, Finset.filter_filter]
      unfold share
      rw [← hSd, mul_div_cancel₀ _ hS'.ne']
    rw [this]
    field_simp
  simp only [e]
  rw [← Finset.sum_div]
  have hv := RB.sum_variance Q h1 S (fun a => a) (fun a _ b _ h => h) (fun a u => m - if read u = y then (1 : ℝ) else 0) (by
    intro a ha
    simp only [mul_sub, mul_ite, mul_one, mul_zero]
    rw [Finset.sum_sub_distrib, ← Finset.sum_mul, h1, one_mul, hm a (Finset.mem_filter.1 ha).2, sub_self])
  rw [hv]
  have hb : ∀ a ∈ S, ∑ u, Q a u * (m - if read u = y then (1 : ℝ) else 0) ^ 2 ≤ m := by
    intro a ha
    have hma := hm a (Finset.mem_filter.1 ha).2
    have : ∀ u, Q a u * (m - if read u = y then (1 : ℝ) else 0) ^ 2 = m ^ 2 * Q a u + (1 - 2 * m) * if read u = y then Q a u else 0 := by
      intro u
      split <;> ring
    simp only [this]
    rw [Finset.sum_add_distrib, ← Finset.mul_sum, ← Finset.mul_sum, h1, hma]
    nlinarith [sq_nonneg m]
  refine (div_le_div_of_nonneg_right (Finset.sum_le_sum hb) (by positivity)).trans (le_of_eq ?_)
  rw [Finset.sum_const, nsmul_eq_mul]
  field_simp

open Classical in
/-- Far columns are unlikely. -/
theorem share_error (Q : I → U → ℝ) (h0 : ∀ i u, 0 ≤ Q i u) (h1 : ∀ i, ∑ u, Q i u = 1) (prep : I → Str) (read : U → Str) (L : List Str) (hL : L.Nodup)
    (M : Str → Str → ℝ) (hm : ∀ i, prep i ∈ L → ∀ y ∈ L, (∑ u, if read u = y then Q i u else 0) = M y (prep i)) (hM : IsReadout L M)
    {K : ℕ} (hK : 0 < K) (hS : ∀ x ∈ L, K ≤ (Finset.univ.filter fun i => prep i = x).card) (η : ℝ) (hη : 0 < η) :
    (∑ κ : I → U, if ∃ x ∈ L, η ≤ (L.map fun y => |M y x - share prep read κ y x|).sum then ∏ i, Q i (κ i) else 0) ≤ L.length ^ 2 / (K * η ^ 2) := by
  have hK' : (0 : ℝ) < K := by exact_mod_cast hK
  have hlen : (L.toFinset.card : ℝ) = L.length := by rw [List.toFinset_card_of_nodup hL]
  have hk := markov (fun κ : I → U => ∏ i, Q i (κ i)) (fun κ => Finset.prod_nonneg fun i _ => h0 i _)
    (fun κ => ∃ x ∈ L, η ≤ (L.map fun y => |M y x - share prep read κ y x|).sum)
    (fun κ => ∑ x ∈ L.toFinset, (∑ y ∈ L.toFinset, (M y x - share prep read κ y x) ^ 2) * (L.length / η ^ 2))
    (fun κ => Finset.sum_nonneg fun x _ => mul_nonneg (Finset.sum_nonneg fun y _ => sq_nonneg _) (by positivity)) (fun κ h => by
      obtain ⟨x, hx, h⟩ := h
      refine le_trans ?_ (Finset.single_le_sum (f := fun x => (∑ y ∈ L.toFinset, (M y x - share prep read κ y x) ^ 2) * (L.length / η ^ 2))
        (fun x _ => mul_nonneg (Finset.sum_nonneg fun y _ => sq_nonneg _) (by positivity)) (List.mem_toFinset.2 hx))
      rw [lsum hL] at h
      have hc := sq_sum_le_card_mul_sum_sq (s := L.toFinset) (f := fun y => |M y x - share prep read κ y x|)
      simp only [sq_abs, hlen] at hc
      have h2 := pow_le_pow_left₀ hη.le h 2
      rw [← mul_div_assoc, le_div_iff₀ (by positivity), one_mul]
      linarith)
  refine hk.trans ?_
  simp only [Finset.mul_sum, Finset.sum_mul]
  rw [Finset.sum_comm]
  have hx : ∀ x ∈ L.toFinset, ∑ κ : I → U, ∑ y ∈ L.toFinset, (∏ i, Q i (κ i)) * ((M y x - share prep read κ y x) ^ 2 * (L.length / η ^ 2)) ≤ 1 / K * (L.length / η ^ 2) := by
    intro x hx
    have hx' := List.mem_toFinset.1 hx
    rw [Finset.sum_comm]
    have hy : ∀ y ∈ L.toFinset, ∑ κ : I → U, (∏ i, Q i (κ i)) * ((M y x - share prep read κ y x) ^ 2 * (L.length / η ^ 2)) ≤ M y x / K * (L.length / η ^ 2) := by
      intro y hy
      have hy' := List.mem_toFinset.1 hy
      simp only [← mul_assoc]
      rw [← Finset.sum_mul]
      refine mul_le_mul_of_nonneg_right ?_ (by positivity)
      refine (share_variance Q h0 h1 prep read x y (M y x) (fun i hi => by rw [hm i (hi ▸ hx') y hy', hi]) (lt_of_lt_of_le hK (hS x hx'))).trans ?_
      exact div_le_div_of_nonneg_left ((hM x hx').1 y hy') hK' (by exact_mod_cast hS x hx')
    refine (Finset.sum_le_sum hy).trans (le_of_eq ?_)
    rw [← Finset.sum_mul, ← Finset.sum_div, ← lsum hL, (hM x hx').2]
  refine (Finset.sum_le_sum hx).trans (le_of_eq ?_)
  rw [Finset.sum_const, nsmul_eq_mul, hlen]
  field_simp
end

/-! ### The calibration shots -/

variable {K n : ℕ} {circs : List Circ}

theorem total_cond (d : Dict Str ℚ) (hd : Dict.WF d) (words : List Str) (hw : words.Nodup) (hk : ∀ q ∈ d, q.1 ∈ words) (l : Str) (c : Shot → Bool) (P : Str → Bool)
    (hc : ∀ s cnt, c ⟨l, s, cnt⟩ = P s) : total (d.map fun q => ⟨l, q.1, q.2⟩) c = (words.map fun s => if P s then val d s else 0).sum := by
  induction d with
  | nil =>
    rw [← List.sum_toFinset _ hw]
    symm
    exact Finset.sum_eq_zero fun s _ => by simp [val, Dict.getD, Dict.get?]
  | cons q d ih =>
    obtain ⟨k, v⟩ := q
    rw [Dict.WF, List.map_cons, List.nodup_cons] at hd
    have e : total (((k, v) :: d).map fun q => (⟨l, q.1, q.2⟩ : Shot)) c = (if P k then v else 0) + total (d.map fun q => ⟨l, q.1, q.2⟩) c := by
      rw [List.map_cons, ← List.singleton_append, total_append]
      congr 1
      unfold total
      by_cases h : P k <;> simp [hc, h]
    have hv : ∀ s, (if P s then val ((k, v) :: d) s else 0) = (if s = k then (if P k then v else 0) else 0) + if P s then val d s else 0 := by
      intro s
      rw [val, val, Dict.getD, Dict.getD, Dict.get?_cons]
      by_cases h : s = k
      · subst h
        have : Dict.get? d s = none := (Dict.get?_eq_none_iff _ _).2 hd.1
        simp [this]
      · have h' : ¬ k = s := fun e => h e.symm
        simp [h, h']
    rw [e, ih hd.2 fun q hq => hk q (List.mem_cons_of_mem _ hq)]
    simp only [hv]
    rw [List.sum_map_add, ← List.sum_toFinset (fun s => if s = k then (if P k then v else 0) else 0) hw, Finset.sum_ite_eq', if_pos (List.mem_toFinset.2 (hk _ List.mem_cons_self))]

/-- What the results tell about the readings. -/
theorem CircuitsRan.total {circlabel : Str} {κ : Fin circs.length × Fin K → Fin (bitStrings n).length} {results : List Result} (h : CircuitsRan circs κ results)
    (lab : Fin circs.length → Str) (hnd : (circs.map Circ.name).Nodup) (hname : ∀ c, (circs.get c).name = circlabel ++ "cal_".toList ++ lab c)
    (hbits : ∀ c, IsBits (lab c) ∧ lab c ≠ []) (P : Str → Str → Bool) :
    total (shots circlabel results) (fun s => P s.prepared s.measured) = ((Finset.univ.filter fun i : Fin circs.length × Fin K => P (lab i.1) ((bitStrings n).get (κ i))).card : ℚ) ∧
    ∀ s ∈ shots circlabel results, (∃ c, s.prepared = lab c) ∧ s.measured ∈ bitStrings n := by
  have hnames : circs.map Circ.name = (List.ofFn lab).map (circlabel ++ "cal_".toList ++ ·) := by
    refine List.ext_getElem (by simp) fun i h1 h2 => ?_
    have := hname ⟨i, by simpa using h1⟩
    simpa using this
  have hl : (List.ofFn lab).Nodup := by
    rw [hnames] at hnd
    exact hnd.of_map
  have hs := shots_flat circlabel results (List.ofFn lab) (h.names.trans hnames) hl fun l hl' => by
    obtain ⟨c, rfl⟩ := List.mem_ofFn.1 hl'
    exact hbits c
  have hlen : results.flatten.length = circs.length := by
    have := congrArg List.length h.names
    rwa [List.length_map, List.length_map] at this
  have hz : (List.ofFn lab).zip results.flatten = List.ofFn fun c : Fin circs.length => (lab c, results.flatten[(c : ℕ)]'(by have := c.2; omega)) := by
    refine List.ext_getElem (by simp [hlen]) fun i h1 h2 => ?_
    simp
  refine ⟨?_, fun s hs' => ?_⟩
  · rw [hs, total_flatMap, hz, List.map_ofFn, List.sum_ofFn, Finset.card_filter, Fintype.sum_prod_type, Nat.cast_sum]
    refine Finset.sum_congr rfl fun c _ => ?_
    simp only [Function.comp]
    rw [total_cond _ (h.wf _ (List.getElem_mem _)) (bitStrings n) (nodup_bitStrings n) (h.keys _ (List.getElem_mem _)) (lab c) _ (P (lab c)) fun _ _ => rfl,
      fin_label_sum]
    have ht : ∀ y, val (results.flatten[(c : ℕ)]'(by have := c.2; omega)).2 ((bitStrings n).get y) = ((Finset.univ.filter fun k => κ (c, k) = y).card : ℚ) :=
      fun y => h.tally c _ (List.getElem?_eq_getElem (by have := c.2; omega)) y
    simp only [ht, Finset.card_filter, Nat.cast_sum]
    have e : ∀ y, (if P (lab c) ((bitStrings n).get y) = true then ∑ k : Fin K, ((if κ (c, k) = y then 1 else 0 : ℕ) : ℚ) else 0) =
        ∑ k : Fin K, if κ (c, k) = y then (if P (lab c) ((bitStrings n).get (κ (c, k))) then (1 : ℚ) else 0) else 0 := by
      intro y
      by_cases hp : P (lab c) ((bitStrings n).get y) = true
      · rw [if_pos hp]
        refine Finset.sum_congr rfl fun k _ => ?_
        by_cases e : κ (c, k) = y
        · rw [if_pos e, if_pos e, e, if_pos hp]; rfl
        · rw [if_neg e, if_neg e]; rfl
      · rw [if_neg hp]
        symm
        refine Finset.sum_eq_zero fun k _ => ?_
        by_cases e : κ (c, k) = y
        · rw [if_pos e, e, if_neg hp]
        · rw [if_neg e]
    rw [Finset.sum_congr rfl fun y _ => e y, Finset.sum_comm]
    refine Finset.sum_congr rfl fun k _ => ?_
    rw [Finset.sum_ite_eq, if_pos (Finset.mem_univ _)]
    push_cast
    rfl
  · rw [hs, hz] at hs'
    obtain ⟨p, hp, hq⟩ := List.mem_flatMap.1 hs'
    obtain ⟨c, rfl⟩ := List.mem_ofFn.1 hp
    obtain ⟨q, hq', rfl⟩ := List.mem_map.1 hq
    exact ⟨⟨c, rfl⟩, h.keys _ (List.getElem_mem _) q hq'⟩

/-! ### The fitted matrices -/

variable {pattern pat : List (List ℕ)} {qr : Option ℕ} {circlabel : Str}

/-- The facts about the calibration circuits. -/
theorem tensored_facts (hne : pattern ≠ []) (hg : ∀ g ∈ pattern, g ≠ []) (h : tensoredMeasCal (some pattern) qr none circlabel = some (circs, pat)) :
    (circs.map Circ.name).Nodup ∧ (∀ c ∈ circs, c.name = circlabel ++ "cal_".toList ++ readout c ∧ readout c ∈ bitStrings pattern.flatten.length) ∧
    ∀ i, i < pattern.length → ∀ x ∈ bitStrings ((pattern.map List.length).getD i 0), ∃ c ∈ circs, part (pattern.map List.length) i (readout c) = x := by
  have hne' : ∃ g ∈ pattern, g ≠ [] := by
    cases pattern with
    | nil => exact absurd rfl hne
    | cons a l => exact ⟨a, by simp, hg a (by simp)⟩
  obtain ⟨-, -, c1, c2, -⟩ := C12_tensored pattern qr none circlabel circs pat hne' h
  have c3 : ∀ c ∈ circs, c.name = circlabel ++ "cal_".toList ++ readout c ∧ readout c ∈ bitStrings pattern.flatten.length := by
    intro c hc
    obtain ⟨label, h1, h2, h3, h4, h5⟩ := c2 c hc
    have e : readout c = label := by
      rw [h5, h4, h2]
      simp
    rw [e]
    exact ⟨h3, (mem_bitStrings _ _).2 ⟨h1, h2⟩⟩
  refine ⟨c1, c3, fun i hi x hx => ?_⟩
  rw [tensored_eq] at h
  by_cases hnd : pattern.flatten.Nodup
  swap
  · simp [hnd] at h
  simp only [hnd, if_true, Option.bind_eq_some_iff] at h
  obtain ⟨nq, hnq, m, hm, h⟩ := h
  split at h
  swap
  · simp at h
  next hall =>
  simp only [Option.some.injEq, Prod.mk.injEq] at h
  obtain ⟨rfl, rfl⟩ := h
  obtain ⟨hmem, hmax⟩ := pyMax_spec _ _ hm
  have hm1 : 1 ≤ m := by
    obtain ⟨g, hg, hg2⟩ := hne'
    have h1 := hmax g.length (List.mem_map.2 ⟨g, hg, rfl⟩)
    have h2 := List.length_pos_iff.2 hg2
    omega
  have hi' : i < (pattern.map List.length).length := by simpa using hi
  obtain ⟨x1, x2⟩ := (mem_bitStrings _ _).1 hx
  have hk : (pattern.map List.length).getD i 0 ≤ m := hmax _ (by
    rw [List.getD_eq_getElem?_getD, List.getElem?_eq_getElem hi', Option.getD_some]
    exact List.getElem_mem hi')
  have hls : (x ++ List.replicate (m - x.length) '0') ∈ countKeys m := by
    rw [mem_countKeys m hm1]
    refine ⟨?_, by simp; omega⟩
    intro c hc
    rcases List.mem_append.1 hc with hc | hc
    · exact x1 c hc
    · left; exact (List.mem_replicate.1 hc).2
  have hlen : (x ++ List.replicate (m - x.length) '0').length = m := ((mem_countKeys m hm1 _).1 hls).2
  obtain ⟨c, hc, hcn⟩ : ∃ c ∈ theCircs pattern circlabel nq (none.getD pattern.flatten.length) m, c.name = circlabel ++ "cal_".toList ++
      (pattern.map List.length).foldl (fun basis sz => (x ++ List.replicate (m - x.length) '0').take sz ++ basis) [] :=
    ⟨_, List.mem_map.2 ⟨_, (mem_stateLabels _ _ _).2 ⟨_, hls, rfl⟩, rfl⟩, rfl⟩
  refine ⟨c, hc, ?_⟩
  have e' := List.append_cancel_left (hcn.symm.trans (c3 c hc).1)
  rw [← e', fold_part _ _ (fun k hk => by rw [hlen]; exact hmax k hk) i hi', ← x2, List.take_left]

/-- The part of group `i` that was prepared. -/
def prepOf (circs : List Circ) (pattern : List (List ℕ)) (i : ℕ) (a : Fin circs.length × Fin K) : Str := part (pattern.map List.length) i (readout (circs.get a.1))

/-- The part of group `i` of a string. -/
def readOf (n : ℕ) (pattern : List (List ℕ)) (i : ℕ) (u : Fin (bitStrings n).length) : Str := part (pattern.map List.length) i ((bitStrings n).get u)

theorem tensored_covers (hK : 0 < K) (hne : pattern ≠ []) (hg : ∀ g ∈ pattern, g ≠ []) (h : tensoredMeasCal (some pattern) qr none circlabel = some (circs, pat))
    (i : ℕ) (hi : i < pattern.length) (x : Str) (hx : x ∈ bitStrings ((pattern.map List.length).getD i 0)) :
    K ≤ (Finset.univ.filter fun a : Fin circs.length × Fin K => prepOf circs pattern i a = x).card := by
  obtain ⟨-, -, h3⟩ := tensored_facts hne hg h
  obtain ⟨c, hc, e⟩ := h3 i hi x hx
  obtain ⟨j, hj, rfl⟩ := List.getElem_of_mem hc
  calc K = (Finset.univ.image fun k : Fin K => ((⟨j, hj⟩ : Fin circs.length), k)).card := by
        rw [Finset.card_image_of_injective _ (fun a b h => by simpa using h)]; simp
    _ ≤ _ := by
        refine Finset.card_le_card fun a ha => ?_
        obtain ⟨k, -, rfl⟩ := Finset.mem_image.1 ha
        exact Finset.mem_filter.2 ⟨Finset.mem_univ _, e⟩

theorem tensored_fitted (hne : pattern ≠ []) (hg : ∀ g ∈ pattern, g ≠ []) (h : tensoredMeasCal (some pattern) qr none circlabel = some (circs, pat))
    (κ : Fin circs.length × Fin K → Fin (bitStrings pattern.flatten.length).length) (results : List Result) (hr : CircuitsRan circs κ results) :
    ∃ f ms, mkTensored (some results) pattern none circlabel = some f ∧ f.mats = some ms ∧ f.labels = (pattern.map fun g => bitStrings g.length) ∧
      ms.length = pattern.length ∧ ∀ i, i < pattern.length → ∀ y ∈ bitStrings ((pattern.map List.length).getD i 0),
        ∀ x ∈ bitStrings ((pattern.map List.length).getD i 0), entry (bitStrings ((pattern.map List.length).getD i 0)) (groupMat ms i) y x =
          share (prepOf circs pattern i) (readOf pattern.flatten.length pattern i) κ y x := by
  obtain ⟨h1, h2, -⟩ := tensored_facts hne hg h
  have hn1 : 1 ≤ pattern.flatten.length := by
    cases pattern with
    | nil => exact absurd rfl hne
    | cons a l =>
      have := List.length_pos_iff.2 (hg a (by simp))
      simp only [List.flatten_cons, List.length_append]
      omega
  have ht := hr.total (circlabel := circlabel) (fun c => readout (circs.get c)) h1 (fun c => (h2 _ (List.get_mem _ _)).1) fun c => by
    obtain ⟨b1, b2⟩ := (mem_bitStrings _ _).1 (h2 _ (List.get_mem circs c)).2
    refine ⟨b1, fun e => ?_⟩
    rw [e, List.length_nil] at b2
    omega
  have hlabels : (pattern.map List.length).map countKeys = pattern.map fun g => bitStrings g.length := by
    rw [List.map_map]
    refine List.map_congr_left fun g hg' => countKeys_eq_bitStrings _ ?_
    exact List.length_pos_iff.2 (hg g hg')
  have hgetl : ∀ i, i < pattern.length → (pattern.map fun g => bitStrings g.length).getD i [] = bitStrings ((pattern.map List.length).getD i 0) := by
    intro i hi
    simp [List.getD_eq_getElem?_getD, hi]
  have hsh : ∀ s ∈ shots circlabel results, (IsBits s.prepared ∧ s.prepared.length = (pattern.map List.length).sum) ∧
      IsBits s.measured ∧ s.measured.length = (pattern.map List.length).sum := by
    intro s hs
    obtain ⟨⟨c, hc⟩, hm⟩ := (ht fun _ _ => true).2 s hs
    rw [sum_length_flatten, hc]
    exact ⟨(mem_bitStrings _ _).1 (h2 _ (List.get_mem circs c)).2, (mem_bitStrings _ _).1 hm⟩
  have hb := C13_succeeds circlabel (pattern.map List.length) (pattern.map fun g => bitStrings g.length) results (by simp) (fun g hg' => by
    rw [hgetl g (by simpa using hg')]) hsh
  obtain ⟨ms, hms⟩ := Option.isSome_iff_exists.1 hb
  obtain ⟨e1, e2⟩ := C13_entries circlabel (pattern.map List.length) (pattern.map fun g => bitStrings g.length) results ms (by simp) (fun g hg' => by
    rw [hgetl g (by simpa using hg')]; exact nodup_bitStrings _) (fun s hs => ⟨(hsh s hs).1.2, (hsh s hs).2.2⟩) hms
  refine ⟨⟨circlabel, pattern.map List.length, pattern.map fun g => bitStrings g.length, results, some ms⟩, ms, ?_, rfl, rfl, by simpa using e1, fun i hi y hy x hx => ?_⟩
  · unfold mkTensored
    simp only [hlabels, Fitter.addData, Option.bind_eq_bind, Option.bind_some, List.nil_append, hms, if_true]
    rfl
  · have := e2 i (by simpa using hi) _ _ y x (by rw [hgetl i hi]; exact List.getElem?_idxOf hy) (by rw [hgetl i hi]; exact List.getElem?_idxOf hx)
    simp only at this
    rw [(ht fun p _ => part (pattern.map List.length) i p = x).1, (ht fun p m => part (pattern.map List.length) i p = x ∧ part (pattern.map List.length) i m = y).1] at this
    unfold entry groupMat
    rw [this]
    unfold share prepOf readOf
    simp only [decide_eq_true_eq]
    split
    · push_cast; rfl
    · next h0 =>
      push Not at h0
      rw [show (((Finset.univ.filter fun a : Fin circs.length × Fin K => part (pattern.map List.length) i (readout (circs.get a.1)) = x).card : ℕ) : ℝ) = 0 by exact_mod_cast h0]
      simp

end Verif.MeasMit
