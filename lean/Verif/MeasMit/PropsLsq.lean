import Verif.MeasMit.LemmasLsq
/-
C115: the `least_squares` method of the measurement filters: physical counts that fit best.
-/
namespace Verif.MeasMit
open Verif Verif.Counts
variable {ε δ : ℝ} {solve : Solver}

theorem vals_sum {labels : List Str} (hl : labels.Nodup) {raw : Dict Str ℝ} (hw : raw.WF) (hk : ∀ q ∈ raw, q.1 ∈ labels) :
    raw.values.sum = vsum labels.length fun j => raw.getD (labels.getD j []) 0 := by
  rw [values_sum raw hw labels hl hk]
  conv_lhs => rw [labels_range labels, List.map_map]
  rfl

theorem pos_of_best {states : List Str} {A : Str → Str → ℝ} {raw : Str → ℝ} {out : Dict Str ℝ} (hw : out.WF) (h1 : ∀ q ∈ out, q.1 ∈ states ∧ q.2 ≠ 0)
    (h : IsBest states A raw ε (val out)) : ∀ q ∈ out, q.1 ∈ states ∧ 0 < q.2 := by
  rintro ⟨s, c⟩ hq
  refine ⟨(h1 _ hq).1, lt_of_le_of_ne ?_ (Ne.symm (h1 _ hq).2)⟩
  have h2 := h.1.1 s (h1 _ hq).1
  rw [val, Dict.getD, Dict.get?_of_mem out hw s c hq] at h2
  exact h2

/-- C115: `MeasurementFilter.apply` on a counts dictionary, default method: positive counts of calibrated states, as many as in the data, such
that what the calibrated noise makes of them is closest to the data. -/
theorem C115_dict {labels : List Str} (hl : labels.Nodup) (hne : labels ≠ []) (cal pinv : Mat ℝ) (hs : Solves solve ε) (rand : Nat → ℝ)
    {raw : Dict Str ℝ} (hw : raw.WF) (hk : ∀ q ∈ raw, q.1 ∈ labels) (h0 : 0 ≤ raw.values.sum) :
    ∃ out, filterDict labels cal pinv solve (some "least_squares".toList) rand raw = some out ∧ out.WF ∧ (∀ q ∈ out, q.1 ∈ labels ∧ 0 < q.2) ∧
      out.values.sum = raw.values.sum ∧ IsBest labels (entry labels cal) (val raw) ε (val out) := by
  have hall : (raw.all fun p => decide (p.1 ∈ labels)) = true := by simpa [List.all_eq_true] using hk
  rw [vals_sum hl hw hk] at h0
  obtain ⟨x, x1, x2⟩ := solved (rand := rand) hs (List.length_pos_iff.2 hne) h0 (lsqObj_eq labels.length cal _)
  obtain ⟨d1, d2, d3⟩ := vec_dict hl x
  have hb : IsBest labels (entry labels cal) (val raw) ε (val (labels.zipIdx.foldl (fun d p => if x p.2 ≠ 0 then d.set p.1 (x p.2) else d) [])) :=
    best_labels (labels_range labels) (fun i hi j hj => entry_getD hl cal hi hj) (fun i _ => rfl) d3 x2
  refine ⟨_, ?_, d1, pos_of_best d1 d2 hb, ?_, hb⟩
  · rw [filterDict, if_pos hall, correct, if_neg (by decide), if_pos rfl, x1]
    rfl
  · rw [values_sum _ d1 labels hl fun q hq => (d2 q hq).1, values_sum raw hw labels hl hk]
    exact hb.1.2

theorem flatten_getD {n : Nat} (xs : List (List ℝ)) (h : ∀ l ∈ xs, l.length = n) : xs.flatten.length = xs.length * n ∧
    ∀ c, ∀ hc : c < xs.length, ∀ i < n, xs.flatten.getD (c * n + i) 0 = xs[c].getD i 0 := by
  induction xs with
  | nil => simp
  | cons a xs ih =>
    obtain ⟨h1, h2⟩ := ih fun l hl => h l (by simp [hl])
    have ha : a.length = n := h a (by simp)
    refine ⟨by rw [List.flatten_cons, List.length_append, h1, ha, List.length_cons]; ring, fun c hc i hi => ?_⟩
    rw [List.flatten_cons, List.getD_eq_getElem?_getD]
    rcases c with _ | c
    · rw [zero_mul, zero_add, List.getElem?_append_left (by omega), List.getElem_cons_zero, List.getD_eq_getElem?_getD]
    · rw [List.getElem?_append_right (by rw [ha]; nlinarith), ha, show (c + 1) * n + i - n = c * n + i by rw [add_mul, one_mul]; omega, ← List.getD_eq_getElem?_getD,
        h2 c (by simpa using hc) i hi, List.getElem_cons_succ]

/-- C115: `MeasurementFilter.apply` on a list of one or more vectors of counts. -/
theorem C115_list {n m : Nat} (hn : 0 < n) (cal pinv : Mat ℝ) (hs : Solves solve ε) (rand : Nat → Nat → ℝ) {raw : List ℝ} (hm : raw.length = m * n)
    (h0 : ∀ c < m, 0 ≤ ((List.range n).map fun i => raw.getD (c * n + i) 0).sum) :
    ∃ out, filterList n cal pinv solve (some "least_squares".toList) rand raw = some out ∧ out.length = raw.length ∧
      ∀ c < m, IsBest (List.range n) cal (fun i => raw.getD (c * n + i) 0) ε (fun i => out.getD (c * n + i) 0) := by
  have hx : ∀ c, ∃ x, c < m → solve (lsqProblem n (lsqObj n cal fun j => raw.getD (c * n + j) 0) (rand c) fun j => raw.getD (c * n + j) 0) = some x ∧
      IsBest (List.range n) cal (fun i => raw.getD (c * n + i) 0) ε x := by
    intro c
    by_cases hc : c < m
    · obtain ⟨x, hx⟩ := solved (rand := rand c) hs hn (h0 c hc) (lsqObj_eq n cal fun j => raw.getD (c * n + j) 0)
      exact ⟨x, fun _ => hx⟩
    · exact ⟨fun _ => 0, fun h => absurd h hc⟩
  choose x hx using hx
  have hdiv : raw.length / n = m := by rw [hm]; exact Nat.mul_div_left m hn
  have hmap : (List.range m).mapM (fun c => (correct n cal pinv solve (some "least_squares".toList) (rand c) fun j => raw.getD (c * n + j) 0).map
      fun x => (List.range n).map x) = some ((List.range m).map fun c => (List.range n).map (x c)) := by
    apply mapM_eq_some
    intro c hc
    rw [correct, if_neg (by decide), if_pos rfl, (hx c (List.mem_range.1 hc)).1]
    rfl
  obtain ⟨f1, f2⟩ := flatten_getD (n := n) ((List.range m).map fun c => (List.range n).map (x c)) (by
    intro l hl
    obtain ⟨c, -, rfl⟩ := List.mem_map.1 hl
    simp)
  refine ⟨((List.range m).map fun c => (List.range n).map (x c)).flatten, ?_, ?_, ?_⟩
  · rw [filterList, if_neg (by omega), if_pos (by rw [hm]; exact Nat.mul_mod_left m n), hdiv, hmap]
    rfl
  · rw [f1, hm]; simp
  · intro c hc
    refine best_labels (g := id) (by simp) (fun _ _ _ _ => rfl) (fun _ _ => rfl) (fun i hi => ?_) (hx c hc).2
    have h1 := f2 c (by simpa using hc) i hi
    refine h1.trans ?_
    simp [List.getD_eq_getElem?_getD, hi]

theorem mapM_idx {β γ : Type} (l : List β) (f : β × Nat → Option γ) (P : β → γ → Prop) (k : Nat)
    (h : ∀ i b, l[i]? = some b → ∃ c, f (b, k + i) = some c ∧ P b c) :
    ∃ r, (l.zipIdx k).mapM f = some r ∧ r.length = l.length ∧ ∀ (i : Nat) b c, l[i]? = some b → r[i]? = some c → P b c := by
  induction l generalizing k with
  | nil => exact ⟨[], rfl, rfl, by simp⟩
  | cons a l ih =>
    obtain ⟨c, h1, h2⟩ := h 0 a rfl
    obtain ⟨r, r1, r2, r3⟩ := ih (k + 1) fun i b hb => by
      obtain ⟨c, hc⟩ := h (i + 1) b (by simpa using hb)
      exact ⟨c, by rw [show k + 1 + i = k + (i + 1) by omega]; exact hc⟩
    refine ⟨c :: r, ?_, by simp [r2], ?_⟩
    · rw [List.zipIdx_cons, List.mapM_cons, show f (a, k) = some c from h1]
      show (do let bs ← (l.zipIdx (k + 1)).mapM f; pure (c :: bs)) = _
      rw [r1]; rfl
    · intro i b c' hb hc
      rcases i with _ | i
      · simp only [List.getElem?_cons_zero, Option.some_inj] at hb hc
        rw [← hb, ← hc]; exact h2
      · exact r3 i b c' (by simpa using hb) (by simpa using hc)

/-- C115: `MeasurementFilter.apply` on a `Result`: every experiment is corrected like its counts alone. -/
theorem C115_result {labels : List Str} (hl : labels.Nodup) (hne : labels ≠ []) (cal pinv : Mat ℝ) (hs : Solves solve ε) (rand : Nat → Nat → ℝ)
    {res : List (Dict Str ℝ)} (hres : ∀ raw ∈ res, raw.WF ∧ (∀ q ∈ raw, q.1 ∈ labels) ∧ 0 ≤ raw.values.sum) :
    ∃ outs, filterResult labels cal pinv solve (some "least_squares".toList) rand res = some outs ∧ outs.length = res.length ∧
      ∀ (i : Nat) raw out, res[i]? = some raw → outs[i]? = some out → out.WF ∧ (∀ q ∈ out, q.1 ∈ labels ∧ 0 < q.2) ∧
        out.values.sum = raw.values.sum ∧ IsBest labels (entry labels cal) (val raw) ε (val out) :=
  mapM_idx res _ _ 0 fun i raw hi => by
    obtain ⟨h1, h2, h3⟩ := hres raw (List.mem_of_getElem? hi)
    exact C115_dict hl hne cal pinv hs (rand (0 + i)) h1 h2 h3

/-! ### The tensored filter -/

theorem tensoredObj_eq (gs : List (Group ℝ)) (hg : GoodGroups gs) (v x : Nat → ℝ) :
    tensoredObj (gs.map fun g => (g.2.1, indices g.1, g.2.2)) (bitStrings (groupSize gs)) (groupSize gs) v x =
      some (dist2 (List.range (2 ^ groupSize gs)) v (noisyCounts (List.range (2 ^ groupSize gs))
        (fun i j => kron gs ((bitStrings (groupSize gs)).getD i []) ((bitStrings (groupSize gs)).getD j [])) x)) := by
  set n := groupSize gs with hn
  set B := bitStrings n with hB
  have hlen : B.length = 2 ^ n := length_bitStrings n
  let X : Str → ℝ := fun s => ((List.range (2 ^ n)).map fun j => kron gs s (B.getD j []) * x j).sum
  have hx : B.mapM (fun s1 => do
      let terms ← B.zipIdx.mapM fun p =>
        if x p.2 ≠ 0 then do
          let t ← groupProduct (gs.map fun g => (g.2.1, indices g.1, g.2.2)) s1 p.1 n
          pure (t * x p.2)
        else some 0
      pure terms.sum) = some (B.map X) := by
    apply mapM_eq_some
    intro s1 hs1
    have hin : B.zipIdx.mapM (fun p =>
        if x p.2 ≠ 0 then do
          let t ← groupProduct (gs.map fun g => (g.2.1, indices g.1, g.2.2)) s1 p.1 n
          pure (t * x p.2)
        else some 0) = some (B.zipIdx.map fun p => kron gs s1 p.1 * x p.2) := by
      apply mapM_eq_some
      intro p hp
      have h1 : p.1 ∈ B := List.fst_mem_of_mem_zipIdx hp
      by_cases h0 : x p.2 = 0
      · rw [if_neg (by simpa using h0), h0, mul_zero]
      · rw [if_pos h0, groupProduct_eq gs hg s1 p.1 hs1 h1]
        rfl
    rw [hin]
    refine congrArg some ?_
    simp only [X]
    congr 1
    refine List.ext_getElem (by simp [hlen]) fun i h1 h2 => ?_
    simp only [List.length_map, List.length_zipIdx] at h1
    simp [List.getD_eq_getElem?_getD, h1]
  unfold tensoredObj
  refine (congrArg (fun o : Option (List ℝ) => o >>= fun y => pure (vsum B.length fun i => (v i - y.getD i 0) ^ 2)) hx).trans ?_
  refine congrArg some ?_
  rw [hlen]
  unfold vsum dist2
  congr 1
  refine List.map_congr_left fun i hi => ?_
  have hi' : i < B.length := by rw [hlen]; exact List.mem_range.1 hi
  have hBi : B.getD i [] = B[i] := by simp [List.getD_eq_getElem?_getD, hi']
  have h1 : (B.map X).getD i 0 = X (B.getD i []) := by rw [hBi]; simp [List.getD_eq_getElem?_getD, hi']
  rw [h1]
  rfl

theorem bit_index {n i : Nat} (hi : i < 2 ^ n) : (bitStrings n).getD i [] ∈ bitStrings n ∧ ofBin ((bitStrings n).getD i []) = i := by
  have hl : i < (bitStrings n).length := by rw [length_bitStrings]; exact hi
  have h1 : (bitStrings n).getD i [] = (bitStrings n)[i] := by simp [List.getD_eq_getElem?_getD, hl]
  rw [h1]
  refine ⟨List.getElem_mem hl, ?_⟩
  have := congrArg (fun l => l[i]?) (map_ofBin_bitStrings n)
  simp only [List.getElem?_map, List.getElem?_eq_getElem hl, Option.map_some] at this
  have h2 := List.getElem?_eq_some_iff.1 this.symm
  obtain ⟨h3, h4⟩ := h2
  simpa using h4.symm

/-- C115: `TensoredFilter.apply` on a counts dictionary, default method: as for the complete filter, the noise being the Kronecker product of
the calibration matrices of the groups. -/
theorem C115_tensored {n : Nat} (gs : List (List Str × Nat × Mat ℝ)) (hl : ∀ g ∈ gs, g.1.Perm (bitStrings g.2.1))
    (hn : (gs.map fun g => g.2.1).sum = n) (hn1 : 1 ≤ n) (pinvs : List (Mat ℝ)) (hs : Solves solve ε) (rand : Nat → ℝ)
    {raw : Dict Str ℝ} (hw : raw.WF) (hk : ∀ q ∈ raw, q.1 ∈ bitStrings n) (h0 : 0 ≤ raw.values.sum) :
    ∃ out, tensoredFilter (gs.map (·.1)) (gs.map fun g => g.2.2) pinvs solve (some "least_squares".toList) rand raw = some out ∧ out.WF ∧
      (∀ q ∈ out, q.1 ∈ bitStrings n ∧ 0 < q.2) ∧ out.values.sum = raw.values.sum ∧ IsBest (bitStrings n) (kron gs) (val raw) ε (val out) := by
  have hlog : ∀ g ∈ gs, Nat.log2 g.1.length = g.2.1 := fun g hg => by rw [(hl g hg).length_eq, length_bitStrings]; exact Nat.log2_two_pow
  have hsizes : ((gs.map (·.1)).map fun l => Nat.log2 l.length) = gs.map fun g => g.2.1 := by
    rw [List.map_map]
    exact List.map_congr_left fun g hg => hlog g hg
  have hgroups : ((((gs.map fun g => g.2.1).zip ((gs.map (·.1)).map indices)).zip (gs.map fun g => g.2.2)).map
      fun p => (p.1.1, p.1.2, p.2)) = gs.map fun g => (g.2.1, indices g.1, g.2.2) := by
    apply List.ext_getElem
    · simp
    · intro i h1 h2
      simp
  have hgs : groupSize gs = n := hn
  obtain ⟨v, hv1, hv2⟩ := raw_vector n raw hw hk (fun _ => 0)
  have hv : ∀ i < 2 ^ n, val raw ((bitStrings n).getD i []) = v i := by
    intro i hi
    obtain ⟨b1, b2⟩ := bit_index hi
    have := hv2 _ b1
    rw [b2] at this
    rw [this]; rfl
  have hst : bitStrings n = (List.range (2 ^ n)).map fun i => (bitStrings n).getD i [] := by
    have := labels_range (bitStrings n)
    rwa [length_bitStrings] at this
  have hsum : raw.values.sum = vsum (2 ^ n) v := by
    rw [values_sum raw hw (bitStrings n) (nodup_bitStrings n) hk]
    conv_lhs => rw [hst, List.map_map]
    unfold vsum
    congr 1
    exact List.map_congr_left fun i hi => hv i (List.mem_range.1 hi)
  rw [hsum] at h0
  have hobj := tensoredObj_eq gs hl v
  rw [hgs] at hobj
  obtain ⟨x, x1, x2⟩ := solved (rand := rand) hs (Nat.two_pow_pos n) h0 hobj
  obtain ⟨d1, d2, d3⟩ := vec_dict (nodup_bitStrings n) x
  rw [length_bitStrings] at d3
  have hb : IsBest (bitStrings n) (kron gs) (val raw) ε (val ((bitStrings n).zipIdx.foldl (fun d p => if x p.2 ≠ 0 then d.set p.1 (x p.2) else d) [])) :=
    best_labels hst (fun i _ j _ => rfl) hv d3 x2
  refine ⟨_, ?_, d1, pos_of_best d1 d2 hb, ?_, hb⟩
  · rw [tensoredFilter, if_neg (by decide), if_pos rfl, tensoredLsq]
    simp only [hsizes, hgroups, hn, countKeys_eq_bitStrings n hn1, hv1, Option.bind_eq_bind, Option.bind_some, x1]
    rfl
  · rw [values_sum _ d1 _ (nodup_bitStrings n) fun q hq => (d2 q hq).1, values_sum raw hw _ (nodup_bitStrings n) hk]
    exact hb.1.2

/-- C115: `TensoredFilter.apply` on a `Result`. -/
theorem C115_tensored_result {n : Nat} (gs : List (List Str × Nat × Mat ℝ)) (hl : ∀ g ∈ gs, g.1.Perm (bitStrings g.2.1))
    (hn : (gs.map fun g => g.2.1).sum = n) (hn1 : 1 ≤ n) (pinvs : List (Mat ℝ)) (hs : Solves solve ε) (rand : Nat → Nat → ℝ)
    {res : List (Dict Str ℝ)} (hres : ∀ raw ∈ res, raw.WF ∧ (∀ q ∈ raw, q.1 ∈ bitStrings n) ∧ 0 ≤ raw.values.sum) :
    ∃ outs, tensoredResult (gs.map (·.1)) (gs.map fun g => g.2.2) pinvs solve (some "least_squares".toList) rand res = some outs ∧
      outs.length = res.length ∧ ∀ (i : Nat) raw out, res[i]? = some raw → outs[i]? = some out → out.WF ∧
        (∀ q ∈ out, q.1 ∈ bitStrings n ∧ 0 < q.2) ∧ out.values.sum = raw.values.sum ∧ IsBest (bitStrings n) (kron gs) (val raw) ε (val out) :=
  mapM_idx res _ _ 0 fun i raw hi => by
    obtain ⟨h1, h2, h3⟩ := hres raw (List.mem_of_getElem? hi)
    exact C115_tensored gs hl hn hn1 pinvs hs (rand (0 + i)) h1 h2 h3

/-! ### What the best physical counts are -/

section
variable {α : Type} {states : List α} {A : α → α → ℝ} {raw out out' p : α → ℝ}

/-- C115: the result does not depend on the random start or the solver: any two results look alike after the noise, up to the tolerances of
the solvers, and are equal if the solvers are exact and the noise hides nothing. -/
theorem C115_unique (h : IsBest states A raw ε out) (h' : IsBest states A raw δ out') :
    dist2 states (noisyCounts states A out) (noisyCounts states A out') ≤ 2 * (ε + δ) ∧
      (Faithful states A → ε = 0 → δ = 0 → ∀ s ∈ states, out s = out' s) := by
  have hg := best_gap h h'
  refine ⟨hg, fun hf h1 h2 => hf out out' (dist2_zero (le_antisymm ?_ (dist2_nonneg _ _)))⟩
  rw [h1, h2] at hg
  simpa using hg

/-- C115: exact data of physical counts give these counts back, up to the tolerance. -/
theorem C115_exact (h : IsBest states A raw ε out) (hp : ∀ s ∈ states, 0 ≤ p s) (ht : (states.map p).sum = (states.map raw).sum)
    (hraw : ∀ s ∈ states, raw s = noisyCounts states A p s) :
    dist2 states (noisyCounts states A out) (noisyCounts states A p) ≤ ε ∧ (Faithful states A → ε = 0 → ∀ s ∈ states, out s = p s) := by
  have h1 := h.2 p ⟨hp, ht⟩
  have h2 : dist2 states raw (noisyCounts states A p) = 0 := by
    rw [dist2_congr hraw (fun _ _ => rfl), dist2_self]
  have h3 : dist2 states raw (noisyCounts states A out) = dist2 states (noisyCounts states A out) (noisyCounts states A p) := by
    rw [dist2_congr hraw (fun _ _ => rfl)]
    unfold dist2
    congr 1
    refine List.map_congr_left fun s _ => ?_
    ring
  rw [h2, zero_add, h3] at h1
  refine ⟨h1, fun hf h0 => hf out p (dist2_zero (le_antisymm (h0 ▸ h1) (dist2_nonneg _ _)))⟩

/-- C115: the correction never moves away from the truth: whatever the true physical counts are, what the noise makes of the result is at
least as close to what it makes of them as the data are. -/
theorem C115_closer (h : IsBest states A raw 0 out) (hp : Physical states (states.map raw).sum p) :
    dist2 states (noisyCounts states A out) (noisyCounts states A p) ≤ dist2 states raw (noisyCounts states A p) := by
  have := best_closer h hp
  have h2 : 0 ≤ dist2 states raw (noisyCounts states A out) := dist2_nonneg _ _
  linarith

end

theorem faithful_range {n : Nat} {cal x : Mat ℝ} (h : toMatrix n x * toMatrix n cal = 1) {p q : Nat → ℝ}
    (he : ∀ i < n, dot n cal p i = dot n cal q i) : ∀ i < n, p i = q i := by
  have h1 : ∀ r : Nat → ℝ, ∀ i < n, dot n x (dot n cal r) i = r i := by
    intro r i hi
    unfold dot
    have : ((List.range n).map fun j => x i j * ((List.range n).map fun k => cal j k * r k).sum)
        = (List.range n).map fun j => ((List.range n).map fun k => x i j * (cal j k * r k)).sum :=
      List.map_congr_left fun j _ => by rw [List.sum_map_mul_left]
    rw [this, sum_comm_listK]
    have : ((List.range n).map fun k => ((List.range n).map fun j => x i j * (cal j k * r k)).sum)
        = (List.range n).map fun k => (if i = k then (1 : ℝ) else 0) * r k := by
      refine List.map_congr_left fun k hk => ?_
      rw [← entry_mul n x cal h i k hi (List.mem_range.1 hk), ← List.sum_map_mul_right]
      simp only [mul_assoc]
    rw [this, sum_ite_range n i hi]
  intro i hi
  rw [← h1 p i hi, ← h1 q i hi]
  unfold dot
  congr 1
  refine List.map_congr_left fun j hj => ?_
  have := he j (List.mem_range.1 hj)
  unfold dot at this
  rw [this]

/-- C115: an invertible calibration matrix hides nothing. -/
theorem C115_faithful {labels : List Str} (hl : labels.Nodup) {cal : Mat ℝ} (h : Invertible labels.length cal) : Faithful labels (entry labels cal) := by
  obtain ⟨B, -, h2⟩ := h
  let x : Mat ℝ := fun i j => if h : i < labels.length ∧ j < labels.length then B ⟨i, h.1⟩ ⟨j, h.2⟩ else 0
  have hx : toMatrix labels.length x = B := by
    ext i j
    simp [toMatrix, x]
  intro p q he
  have hn : ∀ r : Str → ℝ, ∀ i < labels.length, noisyCounts labels (entry labels cal) r (labels.getD i []) = dot labels.length cal (fun j => r (labels.getD j [])) i := by
    intro r i hi
    unfold noisyCounts dot
    conv_lhs => rw [show (labels.map fun t => entry labels cal (labels.getD i []) t * r t) =
      ((List.range labels.length).map fun i => labels.getD i []).map fun t => entry labels cal (labels.getD i []) t * r t by rw [← labels_range], List.map_map]
    congr 1
    refine List.map_congr_left fun j hj => ?_
    simp only [Function.comp]
    rw [entry_getD hl cal hi (List.mem_range.1 hj)]
  have h3 := faithful_range (p := fun j => p (labels.getD j [])) (q := fun j => q (labels.getD j [])) (hx ▸ h2) fun i hi => by
    rw [← hn p i hi, ← hn q i hi]
    refine he _ ?_
    rw [List.getD_eq_getElem?_getD, List.getElem?_eq_getElem hi]
    exact List.getElem_mem hi
  intro s hs
  obtain ⟨i, hi, rfl⟩ := List.getElem_of_mem hs
  have := h3 i hi
  simpa [List.getD_eq_getElem?_getD, hi] using this

/-- C115: neither does a product of invertible calibration matrices. -/
theorem C115_tensored_faithful {n : Nat} (gs : List (List Str × Nat × Mat ℝ)) (hl : ∀ g ∈ gs, g.1.Perm (bitStrings g.2.1))
    (hn : (gs.map fun g => g.2.1).sum = n) (hi : ∀ g ∈ gs, Invertible (2 ^ g.2.1) g.2.2) : Faithful (bitStrings n) (kron gs) := by
  have hx : ∀ g : List Str × Nat × Mat ℝ, ∃ x : Mat ℝ, g ∈ gs → toMatrix (2 ^ g.2.1) x * toMatrix (2 ^ g.2.1) g.2.2 = 1 := by
    intro g
    by_cases hg : g ∈ gs
    · obtain ⟨B, -, h2⟩ := hi g hg
      refine ⟨fun i j => if h : i < 2 ^ g.2.1 ∧ j < 2 ^ g.2.1 then B ⟨i, h.1⟩ ⟨j, h.2⟩ else 0, fun _ => ?_⟩
      rw [← h2]
      congr 1
      ext i j
      simp [toMatrix]
    · exact ⟨fun _ _ => 0, fun h => absurd h hg⟩
  choose x hx using hx
  let gs' : List (List Str × Nat × Mat ℝ × Mat ℝ) := gs.map fun g => (g.1, g.2.1, x g, g.2.2)
  have e1 : gs'.map (fun g => (g.1, g.2.1, g.2.2.2)) = gs := by
    rw [List.map_map]
    exact (List.map_congr_left fun g _ => rfl).trans (List.map_id gs)
  have hinv := fun s u hs hu => kron_inverse gs' (by
      intro g' hg'
      obtain ⟨g, hg, rfl⟩ := List.mem_map.1 hg'
      exact hl g hg) (by
      intro g' hg'
      obtain ⟨g, hg, rfl⟩ := List.mem_map.1 hg'
      exact hx g hg) n (by rw [← hn, List.map_map]; rfl) s u hs hu
  rw [e1] at hinv
  have h1 : ∀ r : Str → ℝ, ∀ s ∈ bitStrings n, r s = noisyCounts (bitStrings n) (kron (gs'.map fun g => (g.1, g.2.1, g.2.2.1))) (noisyCounts (bitStrings n) (kron gs) r) s := by
    intro r s hs
    unfold noisyCounts
    have e2 : ((bitStrings n).map fun t => kron (gs'.map fun g => (g.1, g.2.1, g.2.2.1)) s t * ((bitStrings n).map fun u => kron gs t u * r u).sum)
        = (bitStrings n).map fun t => ((bitStrings n).map fun u => kron (gs'.map fun g => (g.1, g.2.1, g.2.2.1)) s t * (kron gs t u * r u)).sum :=
      List.map_congr_left fun t _ => by rw [List.sum_map_mul_left]
    rw [e2, sum_comm_listK]
    have e3 : ((bitStrings n).map fun u => ((bitStrings n).map fun t => kron (gs'.map fun g => (g.1, g.2.1, g.2.2.1)) s t * (kron gs t u * r u)).sum)
        = (bitStrings n).map fun u => if u = s then r s else 0 := by
      refine List.map_congr_left fun u hu => ?_
      have := hinv s u hs hu
      simp only [← mul_assoc]
      rw [List.sum_map_mul_right, this]
      by_cases h : s = u
      · subst h; simp
      · rw [if_neg h, if_neg (Ne.symm h), zero_mul]
    rw [e3]
    have hnd := nodup_bitStrings n
    generalize bitStrings n = L at hs hnd ⊢
    clear e2 e3 hinv
    induction L with
    | nil => simp at hs
    | cons a L ih =>
      rw [List.nodup_cons] at hnd
      rw [List.map_cons, List.sum_cons]
      by_cases ha : a = s
      · subst ha
        rw [if_pos rfl]
        have : (L.map fun u => if u = a then r a else 0).sum = 0 := by
          apply List.sum_eq_zero
          intro z hz
          obtain ⟨u, hu, rfl⟩ := List.mem_map.1 hz
          rw [if_neg]
          rintro rfl
          exact hnd.1 hu
        rw [this, add_zero]
      · rw [if_neg ha, zero_add]
        exact ih (by simpa [Ne.symm ha] using hs) hnd.2
  intro p q he s hs
  rw [h1 p s hs, h1 q s hs]
  unfold noisyCounts
  congr 1
  refine List.map_congr_left fun t ht => ?_
  have := he t ht
  unfold noisyCounts at this
  rw [this]

/-- C115: if no value of the pseudo-inverse method is negative, both methods agree (exact solver, invertible calibration matrix). -/
theorem C115_agrees {labels : List Str} (hl : labels.Nodup) (hne : labels ≠ []) {cal pinv : Mat ℝ} (hx : IsPinv labels.length cal pinv)
    (ha : Invertible labels.length cal) (hc : ColumnStochastic labels.length cal) (hs : Solves solve 0) (rand : Nat → ℝ)
    {raw out : Dict Str ℝ} (hw : raw.WF) (hk : ∀ q ∈ raw, q.1 ∈ labels) (h0 : 0 ≤ raw.values.sum)
    (hp : filterDict labels cal pinv solve (some "pseudo_inverse".toList) rand raw = some out) (hpos : ∀ q ∈ out, 0 ≤ q.2) :
    filterDict labels cal pinv solve (some "least_squares".toList) rand raw = some out := by
  have hall : (raw.all fun p => decide (p.1 ∈ labels)) = true := by simpa [List.all_eq_true] using hk
  rw [vals_sum hl hw hk] at h0
  set v : Nat → ℝ := fun j => raw.getD (labels.getD j []) 0 with hv
  set n := labels.length with hn
  obtain ⟨x, x1, x2⟩ := solved (rand := rand) hs (List.length_pos_iff.2 hne) h0 (lsqObj_eq n cal v)
  rw [filterDict, if_pos hall, correct, if_pos rfl] at hp
  have hp' : labels.zipIdx.foldl (fun (d : Dict Str ℝ) p => if dot n pinv v p.2 ≠ 0 then d.set p.1 (dot n pinv v p.2) else d) [] = out := Option.some_inj.1 hp
  obtain ⟨d1, d2, d3⟩ := vec_dict hl (dot n pinv v)
  rw [hp'] at d1 d2 d3
  have hnn : ∀ i < n, 0 ≤ dot n pinv v i := by
    intro i hi
    rw [← d3 i hi, val, Dict.getD]
    cases hg : out.get? (labels.getD i []) with
    | none => simp
    | some c => exact hpos _ (Dict.get?_mem out _ _ hg)
  obtain ⟨p1, p2⟩ := pinv_inverse n cal pinv hx ha
  have hfit : ∀ i < n, v i = dot n cal (dot n pinv v) i := by
    intro i hi
    unfold dot
    have : ((List.range n).map fun j => cal i j * ((List.range n).map fun k => pinv j k * v k).sum)
        = (List.range n).map fun j => ((List.range n).map fun k => cal i j * (pinv j k * v k)).sum :=
      List.map_congr_left fun j _ => by rw [List.sum_map_mul_left]
    rw [this, sum_comm_listK]
    have : ((List.range n).map fun k => ((List.range n).map fun j => cal i j * (pinv j k * v k)).sum)
        = (List.range n).map fun k => (if i = k then (1 : ℝ) else 0) * v k := by
      refine List.map_congr_left fun k hk => ?_
      rw [← entry_mul n cal pinv p2 i k hi (List.mem_range.1 hk), ← List.sum_map_mul_right]
      simp only [mul_assoc]
    rw [this, sum_ite_range n i hi]
  have hfa : Faithful (List.range n) cal := fun p q he s hs' =>
    faithful_range (x := pinv) p1 (p := p) (q := q) (fun i hi => he i (List.mem_range.2 hi)) s (List.mem_range.1 hs')
  have heq := (C115_exact x2 (p := dot n pinv v) (fun i hi => hnn i (List.mem_range.1 hi)) (dot_total n pinv (colStoch_inverse n cal pinv hx ha hc) v)
    fun i hi => hfit i (List.mem_range.1 hi)).2 hfa rfl
  rw [filterDict, if_pos hall, correct, if_neg (by decide), if_pos rfl, x1]
  refine congrArg some ?_
  rw [← hp']
  have hf : ∀ q ∈ labels.zipIdx, x q.2 = dot n pinv v q.2 := by
    intro q hq
    have := List.snd_lt_of_mem_zipIdx hq
    exact heq _ (List.mem_range.2 (by simpa using this))
  generalize labels.zipIdx = L at hf
  generalize ([] : Dict Str ℝ) = d
  induction L generalizing d with
  | nil => rfl
  | cons a L ih =>
    rw [List.foldl_cons, List.foldl_cons, hf a (by simp)]
    exact ih (fun q hq => hf q (by simp [hq])) _

/-! ### Errors, findings and examples -/

/-- C115: a counts dictionary with a state that was not calibrated and an unknown method raise. -/
theorem C115_raises (labels : List Str) (cal pinv : Mat ℝ) (solve : Solver) (rand : Nat → ℝ) (raw : Dict Str ℝ) (method : Option Str) :
    ((∃ q ∈ raw, q.1 ∉ labels) → filterDict labels cal pinv solve method rand raw = none) ∧
    (method ≠ some "pseudo_inverse".toList → method ≠ some "least_squares".toList → filterDict labels cal pinv solve method rand raw = none) := by
  constructor
  · rintro ⟨q, h1, h2⟩
    rw [filterDict, if_neg]
    simp only [List.all_eq_true, not_forall]
    exact ⟨q, h1, by simpa using h2⟩
  · intro h1 h2
    rw [filterDict, correct, if_neg h1, if_neg h2]
    split <;> rfl

/-- C115 finding: the documentation of the method says "If `None`, then `'least_squares'` is used"; `None` raises instead, for both filters and
every input. -/
theorem C115_finding_none (labels : List Str) (groups : List (List Str)) (cal pinv : Mat ℝ) (cals pinvs : List (Mat ℝ)) (solve : Solver)
    (rand : Nat → ℝ) (raw : Dict Str ℝ) :
    filterDict labels cal pinv solve none rand raw = none ∧ tensoredFilter groups cals pinvs solve none rand raw = none :=
  ⟨(C115_raises labels cal pinv solve rand raw none).2 (by simp) (by simp), by simp [tensoredFilter]⟩

/-- Symmetric readout errors of one qubit with probability 1/10. -/
noncomputable def flip10 : Mat ℝ := fun i j => if i = j then 9 / 10 else 1 / 10

/-- Its inverse. -/
noncomputable def flip10Inv : Mat ℝ := fun i j => if i = j then 9 / 8 else -1 / 8

theorem flip10_pinv : IsPinv 2 flip10 flip10Inv ∧ Invertible 2 flip10 ∧ ColumnStochastic 2 flip10 := by
  have h1 : toMatrix 2 flip10 * toMatrix 2 flip10Inv = 1 := by
    ext i j; fin_cases i <;> fin_cases j <;> simp [Matrix.mul_apply, toMatrix, Fin.sum_univ_two, flip10, flip10Inv] <;> norm_num
  have h2 : toMatrix 2 flip10Inv * toMatrix 2 flip10 = 1 := by
    ext i j; fin_cases i <;> fin_cases j <;> simp [Matrix.mul_apply, toMatrix, Fin.sum_univ_two, flip10, flip10Inv] <;> norm_num
  refine ⟨⟨?_, ?_, ?_, ?_⟩, ⟨_, h1, h2⟩, ?_⟩
  · simp [h1]
  · simp [h2]
  · simp [h1]
  · simp [h2]
  · intro j hj
    rcases (show j = 0 ∨ j = 1 by omega) with rfl | rfl <;> simp [List.range_succ, flip10] <;> norm_num

/-- A solver as assumed exists. -/
theorem exists_solver : ∃ solve : Solver, Solves solve 0 := by
  classical
  refine ⟨fun P => if h : ∃ x, P.Near 0 x then some h.choose else none, fun P h => ⟨h.choose, ?_, h.choose_spec⟩⟩
  simp only [dif_pos h]

/-- What the method makes of counts of one qubit with errors `flip10`: with exact solver, the inverse if it is non-negative, and all shots on
the likelier state otherwise. -/
theorem flip10_result (hs : Solves solve 0) (rand : Nat → ℝ) (a b : ℝ) (ha : 0 ≤ a) (hb : 0 ≤ b) (h : b ≤ a) :
    ∃ out, filterDict ["0".toList, "1".toList] flip10 flip10Inv solve (some "least_squares".toList) rand [("0".toList, a), ("1".toList, b)] = some out ∧
      val out "1".toList = max 0 (9 / 8 * b - 1 / 8 * a) := by
  obtain ⟨out, h1, h2, h3, h4, h5⟩ := C115_dict (labels := ["0".toList, "1".toList]) (by decide) (by simp) flip10 flip10Inv hs rand
    (raw := [("0".toList, a), ("1".toList, b)]) (show ["0".toList, "1".toList].Nodup by decide) (by simp) (by simp [Dict.values]; linarith)
  refine ⟨out, h1, ?_⟩
  have hv0 : val [("0".toList, a), ("1".toList, b)] "0".toList = a := by rfl
  have hv1 : val [("0".toList, a), ("1".toList, b)] "1".toList = b := by rfl
  obtain ⟨⟨p1, p2⟩, p3⟩ := h5
  have q0 := p1 "0".toList (by simp)
  have q1 := p1 "1".toList (by simp)
  simp only [List.map_cons, List.map_nil, List.sum_cons, List.sum_nil, hv0, hv1, add_zero] at p2 p3
  set y := val out "1".toList with hy
  have e00 : entry ["0".toList, "1".toList] flip10 "0".toList "0".toList = 9 / 10 := by simp [entry, flip10]
  have e11 : entry ["0".toList, "1".toList] flip10 "1".toList "1".toList = 9 / 10 := by simp [entry, flip10]
  have e01 : entry ["0".toList, "1".toList] flip10 "0".toList "1".toList = 1 / 10 := by simp [entry, flip10]
  have e10 : entry ["0".toList, "1".toList] flip10 "1".toList "0".toList = 1 / 10 := by simp [entry, flip10]
  have hm := p3 (fun s => if s = "1".toList then max 0 (9 / 8 * b - 1 / 8 * a) else a + b - max 0 (9 / 8 * b - 1 / 8 * a)) ⟨by
    intro s _
    dsimp only
    split
    · exact le_max_left _ _
    · have : max 0 (9 / 8 * b - 1 / 8 * a) ≤ a + b := max_le (by linarith) (by linarith)
      linarith, by simp⟩
  simp only [dist2, noisyCounts, List.map_cons, List.map_nil, List.sum_cons, List.sum_nil, hv0, hv1, e00, e01, e10, e11, add_zero, if_true] at hm
  rw [if_neg (by decide), ← hy, show val out "0".toList = a + b - y by linarith] at hm
  rcases le_total (9 / 8 * b - 1 / 8 * a) 0 with hc | hc
  · rw [max_eq_left hc] at hm ⊢
    nlinarith
  · rw [max_eq_right hc] at hm ⊢
    nlinarith [sq_nonneg (y - (9 / 8 * b - 1 / 8 * a))]

/-- C115 finding: the default method is biased.  Ten shots of a qubit prepared in 0 and read with errors of probability 1/10 give nine and one on
average; the pairs (10, 0) and (8, 2) have this average, and the pseudo-inverse returns the truth on average, but the default method
reports on average at least half a shot in state 1, whatever exact solver is used. -/
theorem C115_finding_biased (hs : Solves solve 0) (rand rand' : Nat → ℝ) :
    ∃ o o' : Dict Str ℝ,
      filterDict ["0".toList, "1".toList] flip10 flip10Inv solve (some "least_squares".toList) rand [("0".toList, 10), ("1".toList, 0)] = some o ∧
      filterDict ["0".toList, "1".toList] flip10 flip10Inv solve (some "least_squares".toList) rand' [("0".toList, 8), ("1".toList, 2)] = some o' ∧
      (val o "1".toList + val o' "1".toList) / 2 = 5 / 8 ∧
      ∃ d d' : Dict Str ℝ,
        filterDict ["0".toList, "1".toList] flip10 flip10Inv solve (some "pseudo_inverse".toList) rand [("0".toList, 10), ("1".toList, 0)] = some d ∧
        filterDict ["0".toList, "1".toList] flip10 flip10Inv solve (some "pseudo_inverse".toList) rand' [("0".toList, 8), ("1".toList, 2)] = some d' ∧
        (val d "0".toList + val d' "0".toList) / 2 = 10 ∧ (val d "1".toList + val d' "1".toList) / 2 = 0 := by
  obtain ⟨o, o1, o2⟩ := flip10_result hs rand 10 0 (by norm_num) (by norm_num) (by norm_num)
  obtain ⟨o', o1', o2'⟩ := flip10_result hs rand' 8 2 (by norm_num) (by norm_num) (by norm_num)
  refine ⟨o, o', o1, o1', ?_, ?_⟩
  · rw [o2, o2', max_eq_left (by norm_num), max_eq_right (by norm_num)]; norm_num
  · refine ⟨[("0".toList, 90 / 8), ("1".toList, -10 / 8)], [("0".toList, 70 / 8), ("1".toList, 10 / 8)], ?_, ?_, ?_, ?_⟩
    · simp [filterDict, correct, dot, flip10Inv, List.range_succ, Dict.getD, Dict.get?, Dict.set, List.zipIdx]; norm_num [Dict.set]
    · simp [filterDict, correct, dot, flip10Inv, List.range_succ, Dict.getD, Dict.get?, Dict.set, List.zipIdx]; norm_num [Dict.set]; decide
    · simp [val, Dict.getD, Dict.get?]; norm_num
    · simp [val, Dict.getD, Dict.get?]; norm_num

/-- The hypotheses of C115_dict and C115_agrees are met, and the result is a real correction. -/
example : ∃ solve : Solver, Solves solve 0 ∧ IsPinv 2 flip10 flip10Inv ∧ Invertible 2 flip10 ∧ ColumnStochastic 2 flip10 ∧
    ∀ rand : Nat → ℝ, ∃ out, filterDict ["0".toList, "1".toList] flip10 flip10Inv solve (some "least_squares".toList) rand
      [("0".toList, 8), ("1".toList, 2)] = some out ∧ val out "1".toList = 5 / 4 := by
  obtain ⟨solve, hs⟩ := exists_solver
  refine ⟨solve, hs, flip10_pinv.1, flip10_pinv.2.1, flip10_pinv.2.2, fun rand => ?_⟩
  obtain ⟨o, o1, o2⟩ := flip10_result hs rand 8 2 (by norm_num) (by norm_num) (by norm_num)
  exact ⟨o, o1, by rw [o2, max_eq_right (by norm_num)]; norm_num⟩

/-- The hypotheses of C115_tensored and C115_tensored_faithful are met by two groups of one qubit. -/
example : let gs : List (List Str × Nat × Mat ℝ) := [(["0".toList, "1".toList], 1, flip10), (["0".toList, "1".toList], 1, flip10)]
    (∀ g ∈ gs, g.1.Perm (bitStrings g.2.1)) ∧ (gs.map fun g => g.2.1).sum = 2 ∧ ∀ g ∈ gs, Invertible (2 ^ g.2.1) g.2.2 := by
  refine ⟨?_, rfl, ?_⟩
  · intro g hg
    simp only [List.mem_cons, List.not_mem_nil, or_false, or_self] at hg
    subst hg
    exact .refl _
  · intro g hg
    simp only [List.mem_cons, List.not_mem_nil, or_false, or_self] at hg
    subst hg
    exact flip10_pinv.2.1

end Verif.MeasMit
