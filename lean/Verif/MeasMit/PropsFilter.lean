import Verif.MeasMit.LemmasFit
import Verif.Py.SplitLemmas
import Mathlib.Tactic.FinCases
import Mathlib.Tactic.NormNum
/-
C15: the complete filter inverts the calibration matrix and keeps the number of counts.
C16: the tensored filter applies the Kronecker product of the inverses.
-/
namespace Verif.MeasMit
open Verif Verif.Counts

variable {K : Type} [Field K] [DecidableEq K]

omit [DecidableEq K] in
theorem sum_range_fin (n : Nat) (f : Nat → K) :
    ((List.range n).map f).sum = ∑ i : Fin n, f i := by
  rw [← Finset.sum_range]
  induction n with
  | zero => simp
  | succ n ih => rw [List.range_succ, List.map_append, List.sum_append, ih, Finset.sum_range_succ]; simp

omit [DecidableEq K] in
/-- The pseudo-inverse of an invertible matrix is its inverse. -/
theorem pinv_inverse (n : Nat) (a x : Mat K) (hx : IsPinv n a x) (ha : Invertible n a) :
    toMatrix n x * toMatrix n a = 1 ∧ toMatrix n a * toMatrix n x = 1 := by
  obtain ⟨B, h1, h2⟩ := ha
  have h3 : toMatrix n x = B := by
    have := hx.1
    have h4 : B * (toMatrix n a * toMatrix n x * toMatrix n a) * B = B * toMatrix n a * B := by
      rw [this]
    rw [h2, Matrix.one_mul, ← Matrix.mul_assoc, ← Matrix.mul_assoc, h2, Matrix.one_mul,
      Matrix.mul_assoc, h1, Matrix.mul_one] at h4
    exact h4
  rw [h3]
  exact ⟨h2, h1⟩

omit [DecidableEq K] in
theorem entry_mul (n : Nat) (x a : Mat K) (h : toMatrix n x * toMatrix n a = 1) (i j : Nat)
    (hi : i < n) (hj : j < n) :
    ((List.range n).map fun k => x i k * a k j).sum = if i = j then 1 else 0 := by
  have := congrFun (congrFun h ⟨i, hi⟩) ⟨j, hj⟩
  rw [Matrix.mul_apply, Matrix.one_apply] at this
  rw [sum_range_fin]
  refine Eq.trans ?_ (this.trans ?_)
  · rfl
  · simp

omit [DecidableEq K] in
theorem sum_mul_right_list {α : Type} (l : List α) (f : α → K) (c : K) :
    (l.map f).sum * c = (l.map fun a => f a * c).sum := by
  rw [List.sum_map_mul_right]

omit [DecidableEq K] in
theorem sum_comm_listK {α β : Type} (l : List α) (m : List β) (f : α → β → K) :
    (l.map fun a => (m.map fun b => f a b).sum).sum = (m.map fun b => (l.map fun a => f a b).sum).sum := by
  induction l with
  | nil => simp
  | cons a l ih => simp [ih, List.sum_map_add]

omit [DecidableEq K] in
theorem sum_ite_range (n i : Nat) (hi : i < n) (p : Nat → K) :
    ((List.range n).map fun j => (if i = j then (1 : K) else 0) * p j).sum = p i := by
  rw [sum_range_fin, Finset.sum_eq_single (⟨i, hi⟩ : Fin n)]
  · simp
  · intro b _ hb
    have : i ≠ b := by
      intro h; apply hb; ext; exact h.symm
    simp [this]
  · simp

omit [DecidableEq K] in
/-- Applying the pseudo-inverse to `A p` gives `p`. -/
theorem dot_inverse (n : Nat) (a x : Mat K) (hx : IsPinv n a x) (ha : Invertible n a)
    (v p : Nat → K) (hv : ∀ i, i < n → v i = ((List.range n).map fun j => a i j * p j).sum)
    (i : Nat) (hi : i < n) : dot n x v i = p i := by
  have h1 := (pinv_inverse n a x hx ha).1
  rw [dot]
  have : ((List.range n).map fun j => x i j * v j)
      = (List.range n).map fun j => ((List.range n).map fun k => x i j * (a j k * p k)).sum := by
    apply List.map_congr_left
    intro j hj
    rw [hv j (List.mem_range.1 hj), List.sum_map_mul_left]
  rw [this, sum_comm_listK]
  have : ((List.range n).map fun k => ((List.range n).map fun j => x i j * (a j k * p k)).sum)
      = (List.range n).map fun k => (if i = k then (1 : K) else 0) * p k := by
    apply List.map_congr_left
    intro k hk
    rw [← entry_mul n x a h1 i k hi (List.mem_range.1 hk), ← List.sum_map_mul_right]
    simp only [mul_assoc]
  rw [this, sum_ite_range n i hi]

omit [DecidableEq K] in
/-- The inverse of a column-stochastic matrix has columns adding up to one. -/
theorem colStoch_inverse (n : Nat) (a x : Mat K) (hx : IsPinv n a x) (ha : Invertible n a)
    (hs : ColumnStochastic n a) : ColumnStochastic n x := by
  intro j hj
  have h1 := (pinv_inverse n a x hx ha).2
  -- 1ᵀ x = 1ᵀ a x = 1ᵀ
  have e1 : ((List.range n).map fun i => x i j).sum
      = ((List.range n).map fun i => ((List.range n).map fun k => a k i).sum * x i j).sum := by
    congr 1
    apply List.map_congr_left
    intro i hi
    rw [hs i (List.mem_range.1 hi), one_mul]
  rw [e1]
  simp only [sum_mul_right_list]
  rw [sum_comm_listK]
  have e2 : ((List.range n).map fun k => ((List.range n).map fun i => a k i * x i j).sum)
      = (List.range n).map fun k => (if j = k then (1 : K) else 0) * 1 := by
    apply List.map_congr_left
    intro k hk
    rw [entry_mul n a x h1 k j (List.mem_range.1 hk) hj, mul_one]
    simp only [eq_comm]
  rw [e2, sum_ite_range n j hj]

omit [DecidableEq K] in
theorem dot_total (n : Nat) (x : Mat K) (hs : ColumnStochastic n x) (v : Nat → K) :
    ((List.range n).map (dot n x v)).sum = ((List.range n).map v).sum := by
  refine (sum_comm_listK (List.range n) (List.range n) fun i j => x i j * v j).trans ?_
  congr 1
  apply List.map_congr_left
  intro j hj
  rw [← sum_mul_right_list, hs j (List.mem_range.1 hj), one_mul]

/-- The dictionary built from a vector: non-zero entries in label order. -/
theorem out_dict (l : List (Str × K)) (d : Dict Str K)
    (h : (d.map (·.1) ++ l.map (·.1)).Nodup) :
    l.foldl (fun d p => if p.2 ≠ 0 then Dict.set d p.1 p.2 else d) d
      = d ++ l.filter fun p => p.2 ≠ 0 := by
  induction l generalizing d with
  | nil => simp
  | cons a l ih =>
    rw [List.foldl_cons]
    by_cases ha : a.2 ≠ 0
    · rw [if_pos ha]
      have hset : Dict.set d a.1 a.2 = d ++ [a] := by
        have := Dict.foldl_set_fresh [a] (·.1) (·.2) d (by
          rw [List.nodup_append] at h ⊢
          refine ⟨h.1, by simp, ?_⟩
          intro x hx y hy
          exact h.2.2 x hx y (by simp at hy ⊢; left; exact hy))
        simpa using this
      rw [hset, ih]
      · simp [ha]
      · simpa using h
    · rw [if_neg ha, ih]
      · simp at ha
        simp [ha]
      · rw [List.nodup_append] at h ⊢
        refine ⟨h.1, (List.nodup_cons.1 h.2.1).2, ?_⟩
        intro x hx y hy
        exact h.2.2 x hx y (by simp at hy ⊢; right; exact hy)

omit [Field K] [DecidableEq K] in
theorem wf_filter (l : List (Str × K)) (h : (l.map (·.1)).Nodup) (p : Str × K → Bool) :
    Dict.WF (l.filter p) := by
  rw [Dict.WF]
  exact h.sublist (List.filter_sublist.map _)

/-- Lookup in the dictionary of non-zero entries. -/
theorem get?_nonzero (l : List (Str × K)) (h : (l.map (·.1)).Nodup) (s : Str) (v : K)
    (hm : (s, v) ∈ l) :
    Dict.get? (l.filter fun p => p.2 ≠ 0) s = if v ≠ 0 then some v else none := by
  by_cases hv : v ≠ 0
  · rw [if_pos hv]
    apply Dict.get?_of_mem _ (wf_filter l h _)
    rw [List.mem_filter]
    exact ⟨hm, by simpa using hv⟩
  · rw [if_neg hv, Dict.get?_eq_none_iff]
    intro hc
    obtain ⟨⟨s', v'⟩, h1, h2⟩ := List.mem_map.1 hc
    simp only at h2
    subst h2
    rw [List.mem_filter] at h1
    have h3 := Dict.get?_of_mem l h _ _ h1.1
    have h4 := Dict.get?_of_mem l h _ _ hm
    rw [h3] at h4
    simp only [Option.some.injEq] at h4
    subst h4
    simp only [ne_eq, decide_not, Bool.not_eq_eq_eq_not, Bool.not_true, decide_eq_false_iff_not] at h1
    exact hv h1.2

omit [DecidableEq K] in
/-- Total of a dictionary as a sum over a list of labels containing its keys. -/
theorem values_sum (d : Dict Str K) (hd : Dict.WF d) (labels : List Str) (hl : labels.Nodup)
    (hk : ∀ p ∈ d, p.1 ∈ labels) : d.values.sum = (labels.map fun s => val d s).sum := by
  induction d with
  | nil => simp [Dict.values, val, Dict.getD, Dict.get?]
  | cons p d ih =>
    obtain ⟨k, v⟩ := p
    have hd' : Dict.WF d ∧ k ∉ d.map (·.1) := by
      rw [Dict.WF, List.map_cons, List.nodup_cons] at hd
      exact ⟨hd.2, hd.1⟩
    have e : ∀ s, val (((k, v) :: d) : Dict Str K) s = (if k = s then v else 0) + val d s := by
      intro s
      rw [val, val, Dict.getD, Dict.getD, Dict.get?_cons]
      by_cases h : k = s
      · subst h
        rw [(Dict.get?_eq_none_iff d k).2 hd'.2]
        simp
      · simp [h]
    simp only [e, List.sum_map_add]
    rw [← ih hd'.1 (fun p hp => hk p (by simp [hp]))]
    have : (labels.map fun s => if k = s then v else 0).sum = v := by
      have hkl := hk (k, v) (by simp)
      simp only at hkl
      clear ih hk e
      induction labels with
      | nil => simp at hkl
      | cons a L ihL =>
        rw [List.nodup_cons] at hl
        by_cases hka : k = a
        · subst hka
          have : (L.map fun s => if k = s then v else 0).sum = 0 := by
            apply List.sum_eq_zero
            intro x hx
            obtain ⟨s, hs, rfl⟩ := List.mem_map.1 hx
            have : k ≠ s := fun h => hl.1 (h ▸ hs)
            simp [this]
          simp [this]
        · have : k ∈ L := by simpa [hka] using hkl
          simp [hka, ihL hl.2 this]
    rw [this]
    simp [Dict.values]

/-- Closed form of the complete filter on a dictionary. -/
theorem measApply_eq (labels : List Str) (hl : labels.Nodup) (x : Mat K) (raw : Dict Str K)
    (hk : ∀ p ∈ raw, p.1 ∈ labels) :
    measApplyDict labels x raw = some
      ((labels.zipIdx.map fun p => (p.1, dot labels.length x
        (fun j => raw.getD (labels.getD j []) 0) p.2)).filter fun p => p.2 ≠ 0) := by
  have hall : (raw.all fun p => decide (p.1 ∈ labels)) = true := by
    simpa [List.all_eq_true] using hk
  rw [measApplyDict, if_pos hall]
  simp only
  have := out_dict (labels.zipIdx.map fun p => (p.1, dot labels.length x
        (fun j => raw.getD (labels.getD j []) 0) p.2)) [] (by
    simp only [List.map_nil, List.nil_append, List.map_map]
    have : (labels.zipIdx.map ((fun x : Str × K => x.1) ∘ fun p : Str × Nat => (p.1, dot labels.length x
        (fun j => raw.getD (labels.getD j []) 0) p.2))) = labels.zipIdx.map (·.1) := rfl
    rw [this]
    simpa using hl)
  rw [List.foldl_map] at this
  rw [this]
  simp

/-- **C15 (dictionary).** If the calibration matrix `a` is invertible, `x` is its (Moore-Penrose)
pseudo-inverse and the counts are `a p`, the filter returns exactly the non-zero entries of `p`. -/
theorem C15_inverts (labels : List Str) (hl : labels.Nodup) (a x : Mat K)
    (hx : IsPinv labels.length a x) (ha : Invertible labels.length a) (raw : Dict Str K)
    (hk : ∀ q ∈ raw, q.1 ∈ labels) (p : Nat → K)
    (hraw : ∀ i s, labels[i]? = some s →
      val raw s = ((List.range labels.length).map fun j => a i j * p j).sum) :
    ∃ out, measApplyDict labels x raw = some out ∧ (∀ q ∈ out, q.1 ∈ labels) ∧
      ∀ i s, labels[i]? = some s → out.get? s = if p i ≠ 0 then some (p i) else none := by
  refine ⟨_, measApply_eq labels hl x raw hk, ?_, ?_⟩
  · intro q hq
    rw [List.mem_filter, List.mem_map] at hq
    obtain ⟨⟨⟨s, i⟩, h1, rfl⟩, _⟩ := hq
    exact List.fst_mem_of_mem_zipIdx h1
  · intro i s hs
    have hi : i < labels.length := (List.getElem?_eq_some_iff.1 hs).1
    have hd : dot labels.length x (fun j => raw.getD (labels.getD j []) 0) i = p i := by
      apply dot_inverse labels.length a x hx ha _ p _ i hi
      intro j hj
      have := hraw j _ (List.getElem?_eq_getElem hj)
      rw [← this, val]
      simp [List.getD_eq_getElem?_getD, hj]
    rw [← hd]
    apply get?_nonzero
    · rw [List.map_map]
      have : (labels.zipIdx.map ((fun x : Str × K => x.1) ∘ fun p : Str × Nat => (p.1, dot labels.length x
        (fun j => raw.getD (labels.getD j []) 0) p.2))) = labels.zipIdx.map (·.1) := rfl
      rw [this]
      simpa using hl
    · rw [List.mem_map]
      exact ⟨(s, i), List.mk_mem_zipIdx_iff_getElem?.2 hs, rfl⟩

/-- **C15 (total).** If moreover the columns of the calibration matrix add up to one, the filter
leaves the total number of counts unchanged, for every counts dictionary. -/
theorem C15_conserves_total (labels : List Str) (hl : labels.Nodup) (a x : Mat K)
    (hx : IsPinv labels.length a x) (ha : Invertible labels.length a)
    (hs : ColumnStochastic labels.length a) (raw : Dict Str K) (hw : Dict.WF raw)
    (hk : ∀ q ∈ raw, q.1 ∈ labels) :
    ∃ out, measApplyDict labels x raw = some out ∧ out.values.sum = raw.values.sum := by
  refine ⟨_, measApply_eq labels hl x raw hk, ?_⟩
  have hnd : ((labels.zipIdx.map fun p => (p.1, dot labels.length x
        (fun j => raw.getD (labels.getD j []) 0) p.2)).map (·.1)).Nodup := by
    rw [List.map_map]
    have : (labels.zipIdx.map ((fun x : Str × K => x.1) ∘ fun p : Str × Nat => (p.1, dot labels.length x
        (fun j => raw.getD (labels.getD j []) 0) p.2))) = labels.zipIdx.map (·.1) := rfl
    rw [this]
    simpa using hl
  have h1 : ∀ (l : List (Str × K)), (Dict.values (l.filter fun p => p.2 ≠ 0)).sum = (l.map (·.2)).sum := by
    intro l
    induction l with
    | nil => rfl
    | cons b l ih =>
      rw [List.filter_cons]
      by_cases hb : b.2 = 0
      · simp only [hb, ne_eq, not_true_eq_false, decide_false, Bool.false_eq_true, if_false, ih,
          List.map_cons, List.sum_cons, zero_add]
      · simp only [ne_eq, hb, not_false_eq_true, decide_true, if_true, Dict.values, List.map_cons,
          List.sum_cons]
        rw [← ih]
        rfl
  rw [h1, List.map_map]
  have h2 : (labels.zipIdx.map ((fun x : Str × K => x.2) ∘ fun p : Str × Nat => (p.1, dot labels.length x
        (fun j => raw.getD (labels.getD j []) 0) p.2)))
      = (List.range labels.length).map (dot labels.length x (fun j => raw.getD (labels.getD j []) 0)) := by
    have : ∀ f : Nat → K, labels.zipIdx.map (fun p : Str × Nat => f p.2)
        = (List.range labels.length).map f := by
      intro f
      have : labels.zipIdx.map (fun p : Str × Nat => f p.2) = (labels.zipIdx.map (·.2)).map f := by
        rw [List.map_map]; rfl
      rw [this, List.zipIdx_map_snd, List.range'_eq_map_range]
      simp
    exact this (dot labels.length x (fun j => raw.getD (labels.getD j []) 0))
  rw [h2, dot_total _ _ (colStoch_inverse _ a x hx ha hs), values_sum raw hw labels hl hk]
  congr 1
  apply List.ext_getElem (by simp)
  intro i h3 h4
  simp only [List.length_map, List.length_range] at h3
  simp [val, List.getD_eq_getElem?_getD, h3]

omit [DecidableEq K] in
/-- **C15 (lists).** The list form: every chunk of `n` entries that is `a p` becomes `p`; the result
has the length of the input. -/
theorem C15_inverts_list (n m : Nat) (hn : 1 ≤ n) (a x : Mat K) (hx : IsPinv n a x)
    (ha : Invertible n a) (raw p : List K) (hr : raw.length = m * n) (hp : p.length = m * n)
    (hraw : ∀ c, c < m → ∀ i, i < n → raw.getD (c * n + i) 0
      = ((List.range n).map fun j => a i j * p.getD (c * n + j) 0).sum) :
    measApplyList n x raw = some p := by
  rw [measApplyList, if_neg (by omega), if_pos (by rw [hr]; exact Nat.mul_mod_left m n)]
  have hdiv : raw.length / n = m := by rw [hr]; exact Nat.mul_div_left m (by omega)
  rw [hdiv]
  congr 1
  have h1 : ((List.range m).flatMap fun c => (List.range n).map fun i =>
      dot n x (fun j => raw.getD (c * n + j) 0) i)
      = (List.range m).flatMap fun c => (List.range n).map fun i => p.getD (c * n + i) 0 := by
    apply List.flatMap_congr
    intro c hc
    apply List.map_congr_left
    intro i hi
    exact dot_inverse n a x hx ha _ (fun j => p.getD (c * n + j) 0)
      (fun i hi => hraw c (List.mem_range.1 hc) i hi) i (List.mem_range.1 hi)
  simp only
  rw [h1]
  clear h1 hraw hr hdiv
  induction m generalizing p with
  | zero =>
    have : p = [] := List.length_eq_zero_iff.1 (by simpa using hp)
    subst this; rfl
  | succ m ih =>
    rw [List.range_succ, List.flatMap_append]
    have hp' : (p.take (m * n)).length = m * n := by
      rw [List.length_take, hp, Nat.add_mul]; omega
    have e := ih (p.take (m * n)) hp'
    have e2 : ((List.range m).flatMap fun c => (List.range n).map fun i => (p.take (m * n)).getD (c * n + i) 0)
        = (List.range m).flatMap fun c => (List.range n).map fun i => p.getD (c * n + i) 0 := by
      apply List.flatMap_congr
      intro c hc
      apply List.map_congr_left
      intro i hi
      have h1 := List.mem_range.1 hc
      have h2 := List.mem_range.1 hi
      have : c * n + i < m * n := by
        calc c * n + i < c * n + n := by omega
          _ = (c + 1) * n := by rw [Nat.add_mul, Nat.one_mul]
          _ ≤ m * n := Nat.mul_le_mul_right n h1
      rw [List.getD_eq_getElem?_getD, List.getD_eq_getElem?_getD, List.getElem?_take, if_pos this]
    rw [← e2, e]
    simp only [List.flatMap_cons, List.flatMap_nil, List.append_nil]
    conv => rhs; rw [← List.take_append_drop (m * n) p]
    congr 1
    apply List.ext_getElem
    · simp [hp, Nat.add_mul]
    · intro i h3 h4
      simp only [List.length_map, List.length_range] at h3
      simp only [List.length_drop] at h4
      simp [List.getD_eq_getElem?_getD, show m * n + i < p.length by omega]

/-- Non-vacuity for C15: a 2 × 2 column-stochastic invertible matrix, its pseudo-inverse and
counts of the form `a p`. -/
example :
    let a : Mat ℚ := fun i j => if i = j then 3 / 4 else 1 / 4
    let x : Mat ℚ := fun i j => if i = j then 3 / 2 else -1 / 2
    IsPinv 2 a x ∧ Invertible 2 a ∧ ColumnStochastic 2 a ∧
    measApplyDict ["1".toList, "0".toList] x [("0".toList, 30), ("1".toList, 10)]
      = some [("0".toList, 40)] := by
  have h1 : toMatrix 2 (fun i j => if i = j then (3 / 4 : ℚ) else 1 / 4) *
      toMatrix 2 (fun i j => if i = j then (3 / 2 : ℚ) else -1 / 2) = 1 := by
    ext i j; fin_cases i <;> fin_cases j <;> simp [Matrix.mul_apply, toMatrix, Fin.sum_univ_two] <;> norm_num
  have h2 : toMatrix 2 (fun i j => if i = j then (3 / 2 : ℚ) else -1 / 2) *
      toMatrix 2 (fun i j => if i = j then (3 / 4 : ℚ) else 1 / 4) = 1 := by
    ext i j; fin_cases i <;> fin_cases j <;> simp [Matrix.mul_apply, toMatrix, Fin.sum_univ_two] <;> norm_num
  refine ⟨⟨?_, ?_, ?_, ?_⟩, ⟨_, h1, h2⟩, ?_, by decide +kernel⟩
  · rw [h1, Matrix.one_mul]
  · rw [h2, Matrix.one_mul]
  · rw [h1, Matrix.transpose_one]
  · rw [h2, Matrix.transpose_one]
  · intro j hj
    have : ∀ j, j < 2 → ((List.range 2).map fun i => if i = j then (3 / 4 : ℚ) else 1 / 4).sum = 1 := by
      decide +kernel
    exact this j hj

/-! ## C16 -/

/-- A group: its labels, its size, its matrix. -/
abbrev Group (K : Type) := List Str × Nat × Mat K

/-- The groups of a filter. -/
def mkGroups (labels : List (List Str)) (mats : List (Mat K)) : List (Group K) :=
  (labels.zip mats).map fun p => (p.1, Nat.log2 p.1.length, p.2)

/-- Every group lists all the basis states of its qubits, in some order. -/
def GoodGroups (gs : List (Group K)) : Prop := ∀ g ∈ gs, g.1.Perm (bitStrings g.2.1)

def groupSize (gs : List (Group K)) : Nat := (gs.map fun g => g.2.1).sum

omit [Field K] [DecidableEq K] in
theorem get?_idxOf (labels : List Str) (h : labels.Nodup) (s : Str) (hs : s ∈ labels) :
    (indices labels).get? s = some (labels.idxOf s) := by
  rw [get?_indices labels h]
  exact List.getElem?_idxOf hs

/-- The product loop computes the Kronecker product entry. -/
theorem groupProduct_fold (gs : List (Group K)) (hg : GoodGroups gs) (s t : Str) (e : Nat)
    (he : groupSize gs = e) (hs : IsBits s) (ht : IsBits t) (hsl : e ≤ s.length) (htl : e ≤ t.length)
    (p : K) :
    ((gs.map fun g => (g.2.1, indices g.1, g.2.2)).foldlM (groupStep s t) (e, p, false)).map (·.2.1)
      = some (p * kron gs (s.take e) (t.take e)) := by
  induction gs generalizing e p with
  | nil => simp [kron]
  | cons g gs ih =>
    obtain ⟨labels, k, m⟩ := g
    have hperm := hg (labels, k, m) (by simp)
    simp only at hperm
    have hnd : labels.Nodup := hperm.nodup_iff.2 (nodup_bitStrings k)
    have hek : groupSize gs = e - k := by
      simp only [groupSize, List.map_cons, List.sum_cons] at he
      simp only [groupSize]; omega
    have hke : k ≤ e := by
      simp only [groupSize, List.map_cons, List.sum_cons] at he; omega
    have hmem : ∀ u : Str, IsBits u → e ≤ u.length → slice u (e - k) e ∈ labels := by
      intro u hu hul
      rw [hperm.mem_iff, mem_bitStrings]
      refine ⟨fun c hc => hu c (List.mem_of_mem_take (List.mem_of_mem_drop hc)), ?_⟩
      simp only [slice, List.length_drop, List.length_take]; omega
    rw [List.map_cons, List.foldlM_cons]
    have hstep : groupStep s t (e, p, false) (k, indices labels, m)
        = some (e - k, p * m (labels.idxOf (slice s (e - k) e)) (labels.idxOf (slice t (e - k) e)),
          decide (p * m (labels.idxOf (slice s (e - k) e)) (labels.idxOf (slice t (e - k) e)) = 0)) := by
      rw [groupStep]
      simp only [Bool.false_eq_true, if_false]
      rw [get?_idxOf labels hnd _ (hmem s hs hsl), get?_idxOf labels hnd _ (hmem t ht htl)]
      rfl
    rw [show groupStep s t (e, p, false) ((labels, k, m).2.1, indices (labels, k, m).1, (labels, k, m).2.2)
      = _ from hstep, Option.bind_eq_bind, Option.bind_some]
    have hkron : kron ((labels, k, m) :: gs) (s.take e) (t.take e)
        = kron gs (s.take (e - k)) (t.take (e - k)) *
          m (labels.idxOf (slice s (e - k) e)) (labels.idxOf (slice t (e - k) e)) := by
      have h1 : (s.take e).length = e := by simp; omega
      have h2 : (t.take e).length = e := by simp; omega
      rw [kron, h1, h2, List.take_take, List.take_take, Nat.min_eq_left (by omega), entry, slice, slice]
    rw [hkron]
    generalize m (labels.idxOf (slice s (e - k) e)) (labels.idxOf (slice t (e - k) e)) = x
    by_cases hx : p * x = 0
    · -- early exit
      have hstop : ∀ (l : List (Nat × Dict Str Nat × Mat K)) (st : Nat × K × Bool), st.2.2 = true →
          l.foldlM (groupStep s t) st = some st := by
        intro l
        induction l with
        | nil => intro st _; rfl
        | cons a l ihl =>
          intro st hst
          rw [List.foldlM_cons]
          rw [groupStep, if_pos hst]
          exact ihl st hst
      have := hstop (gs.map fun g => (g.2.1, indices g.1, g.2.2)) (e - k, p * x, decide (p * x = 0))
        (by simp [hx])
      refine (congrArg _ this).trans ?_
      rw [Option.map_some, mul_comm (kron _ _ _) x, ← mul_assoc, hx, zero_mul]
    · have := ih (fun g hg' => hg g (by simp [hg'])) (e - k) hek (by omega) (by omega) (p * x)
      simp only [hx, decide_false]
      refine this.trans ?_
      rw [mul_comm (kron _ _ _) x, mul_assoc]

theorem groupProduct_eq (gs : List (Group K)) (hg : GoodGroups gs) (s t : Str)
    (hs : s ∈ bitStrings (groupSize gs)) (ht : t ∈ bitStrings (groupSize gs)) :
    groupProduct (gs.map fun g => (g.2.1, indices g.1, g.2.2)) s t (groupSize gs)
      = some (kron gs s t) := by
  obtain ⟨hs1, hs2⟩ := (mem_bitStrings _ s).1 hs
  obtain ⟨ht1, ht2⟩ := (mem_bitStrings _ t).1 ht
  have := groupProduct_fold gs hg s t (groupSize gs) rfl hs1 ht1 (by omega) (by omega) 1
  rw [one_mul, List.take_of_length_le (by omega), List.take_of_length_le (by omega)] at this
  rw [← this, groupProduct]

omit [DecidableEq K] in
/-- The vector of raw counts. -/
theorem raw_vector (n : Nat) (raw : Dict Str K) (hw : Dict.WF raw)
    (hk : ∀ p ∈ raw, p.1 ∈ bitStrings n) (v0 : Nat → K) :
    ∃ v, raw.foldlM (fun (v : Nat → K) p =>
      if ofBin p.1 < 2 ^ n then some (fun i => if i = ofBin p.1 then p.2 else v i) else none) v0
        = some v ∧ ∀ s ∈ bitStrings n, v (ofBin s) = (raw.get? s).getD (v0 (ofBin s)) := by
  induction raw generalizing v0 with
  | nil => exact ⟨v0, rfl, fun s _ => rfl⟩
  | cons p raw ih =>
    obtain ⟨k, c⟩ := p
    obtain ⟨hk1, hk2⟩ := (mem_bitStrings n k).1 (hk (k, c) (by simp))
    have hlt : ofBin k < 2 ^ n := by rw [← hk2]; exact ofBin_lt k
    rw [Dict.WF, List.map_cons, List.nodup_cons] at hw
    obtain ⟨v, h1, h2⟩ := ih hw.2 (fun p hp => hk p (by simp [hp]))
      (fun i => if i = ofBin k then c else v0 i)
    refine ⟨v, ?_, ?_⟩
    · rw [List.foldlM_cons, if_pos hlt]
      exact h1
    · intro s hs
      rw [h2 s hs, Dict.get?_cons]
      by_cases h : k = s
      · subst h
        rw [(Dict.get?_eq_none_iff raw k).2 hw.1]
        simp
      · rw [if_neg h]
        have : ofBin s ≠ ofBin k := by
          intro he
          obtain ⟨hs1, hs2⟩ := (mem_bitStrings n s).1 hs
          exact h (ofBin_inj s k hs1 hk1 (by omega) he).symm
        simp [this]

/-- **C16 (Kronecker product).** For any number of groups of any sizes with labels in any order and
any counts on the full register, the tensored filter with pseudo-inverses `xs` returns, at every
basis state `s`, the sum over basis states `t` of the Kronecker product entry times the count of
`t` (absent keys being zero). -/
theorem C16_kronecker (labels : List (List Str)) (xs : List (Mat K))
    (hlen : labels.length = xs.length)
    (hlab : ∀ l ∈ labels, ∃ k, l.Perm (bitStrings k)) (hn : 1 ≤ groupSize (mkGroups labels xs))
    (raw : Dict Str K) (hw : Dict.WF raw)
    (hk : ∀ p ∈ raw, p.1 ∈ bitStrings (groupSize (mkGroups labels xs))) :
    ∃ out, tensoredApply labels xs raw = some out ∧
      (∀ q ∈ out, q.1 ∈ bitStrings (groupSize (mkGroups labels xs)) ∧ q.2 ≠ 0) ∧
      ∀ s ∈ bitStrings (groupSize (mkGroups labels xs)), val out s =
        ((bitStrings (groupSize (mkGroups labels xs))).map fun t =>
          kron (mkGroups labels xs) s t * val raw t).sum := by
  have hgood : GoodGroups (mkGroups labels xs) := by
    intro g hg
    simp only [mkGroups, List.mem_map] at hg
    obtain ⟨⟨l, m⟩, hp, rfl⟩ := hg
    obtain ⟨k, hk⟩ := hlab l (List.of_mem_zip hp).1
    have : Nat.log2 l.length = k := by
      rw [hk.length_eq, length_bitStrings]; exact Nat.log2_two_pow
    simp only [this]
    exact hk
  have hsizes : (labels.map fun l => Nat.log2 l.length).sum = groupSize (mkGroups labels xs) := by
    rw [groupSize, mkGroups, List.map_map]
    congr 1
    have : labels = (labels.zip xs).map (·.1) := by rw [List.map_fst_zip]; omega
    conv => lhs; rw [this]
    rw [List.map_map]
    rfl
  have hgroups : ((((labels.map fun l => Nat.log2 l.length).zip (labels.map indices)).zip xs).map
      fun p => (p.1.1, p.1.2, p.2)) = (mkGroups labels xs).map fun g => (g.2.1, indices g.1, g.2.2) := by
    rw [mkGroups, List.map_map]
    apply List.ext_getElem
    · simp
    · intro i h1 h2
      simp
  generalize hgs : mkGroups labels xs = gs at *
  obtain ⟨v, hv1, hv2⟩ := raw_vector (groupSize gs) raw hw hk (fun _ => 0)
  have hv : ∀ s ∈ bitStrings (groupSize gs), v (ofBin s) = val raw s := by
    intro s hs; rw [hv2 s hs]; rfl
  have hstates : countKeys (groupSize gs) = bitStrings (groupSize gs) := countKeys_eq_bitStrings _ hn
  have hidx : ∀ p ∈ (bitStrings (groupSize gs)).zipIdx, p.1 ∈ bitStrings (groupSize gs) ∧
      p.2 = ofBin p.1 := by
    rintro ⟨s, i⟩ hp
    refine ⟨List.fst_mem_of_mem_zipIdx hp, ?_⟩
    rw [List.mk_mem_zipIdx_iff_getElem?] at hp
    have := congrArg (fun l => l[i]?) (map_ofBin_bitStrings (groupSize gs))
    simp only [List.getElem?_map, hp, Option.map_some] at this
    have h2 := List.getElem?_eq_some_iff.1 this.symm
    obtain ⟨h3, h4⟩ := h2
    simpa using h4
  let X : Str → K := fun s => ((bitStrings (groupSize gs)).map fun t => kron gs s t * val raw t).sum
  have hx : (bitStrings (groupSize gs)).mapM (fun s1 => do
      let terms ← (bitStrings (groupSize gs)).zipIdx.mapM fun p =>
        if v p.2 = 0 then some 0
        else do
          let t ← groupProduct (gs.map fun g => (g.2.1, indices g.1, g.2.2)) s1 p.1 (groupSize gs)
          pure (t * v p.2)
      pure terms.sum) = some ((bitStrings (groupSize gs)).map X) := by
    apply mapM_eq_some
    intro s1 hs1
    have hin : (bitStrings (groupSize gs)).zipIdx.mapM (fun p =>
        if v p.2 = 0 then some 0
        else do
          let t ← groupProduct (gs.map fun g => (g.2.1, indices g.1, g.2.2)) s1 p.1 (groupSize gs)
          pure (t * v p.2))
        = some ((bitStrings (groupSize gs)).zipIdx.map fun p => kron gs s1 p.1 * val raw p.1) := by
      apply mapM_eq_some
      intro p hp
      obtain ⟨h1, h2⟩ := hidx p hp
      rw [h2, hv p.1 h1]
      by_cases h0 : val raw p.1 = 0
      · rw [if_pos h0, h0, mul_zero]
      · rw [if_neg h0, groupProduct_eq gs hgood s1 p.1 hs1 h1]
        rfl
    rw [hin]
    refine congrArg some ?_
    simp only [X]
    congr 1
    have : (bitStrings (groupSize gs)).zipIdx.map (fun p => kron gs s1 p.1 * val raw p.1)
        = ((bitStrings (groupSize gs)).zipIdx.map (·.1)).map fun t => kron gs s1 t * val raw t := by
      rw [List.map_map]; rfl
    rw [this, List.zipIdx_map_fst]
  have hout : tensoredApply labels xs raw = some ((((bitStrings (groupSize gs)).zip
      ((bitStrings (groupSize gs)).map X))).foldl
        (fun d p => if p.2 ≠ 0 then Dict.set d p.1 p.2 else d) []) := by
    rw [tensoredApply]
    simp only [hsizes, hgroups, hstates, hv1]
    refine (congrArg (fun o : Option (List K) => o >>= fun x =>
      pure (((bitStrings (groupSize gs)).zip x).foldl
        (fun d p => if p.2 ≠ 0 then Dict.set d p.1 p.2 else d) ([] : Dict Str K))) hx).trans ?_
    rfl
  have hzip : (bitStrings (groupSize gs)).zip ((bitStrings (groupSize gs)).map X)
      = (bitStrings (groupSize gs)).map fun s => (s, X s) := by
    rw [List.zip_map_right]
    apply List.ext_getElem
    · simp
    · intro i h1 h2; simp
  have hkeys : (((bitStrings (groupSize gs)).map fun s => (s, X s)).map (·.1)).Nodup := by
    rw [List.map_map]
    have : ((fun x : Str × K => x.1) ∘ fun s => (s, X s)) = id := rfl
    rw [this, List.map_id]
    exact nodup_bitStrings _
  rw [hzip, out_dict _ _ (by simpa using hkeys), List.nil_append] at hout
  refine ⟨_, hout, ?_, ?_⟩
  · intro q hq
    rw [List.mem_filter, List.mem_map] at hq
    obtain ⟨⟨s, hs, rfl⟩, h2⟩ := hq
    exact ⟨hs, by simpa using h2⟩
  · intro s hs
    rw [val, Dict.getD, get?_nonzero _ hkeys s (X s) (List.mem_map.2 ⟨s, hs, rfl⟩)]
    by_cases h0 : X s = 0
    · simp only [h0, ne_eq, not_true_eq_false, if_false, Option.getD_none]
      exact h0.symm
    · simp only [ne_eq, h0, not_false_eq_true, if_true, Option.getD_some]
      rfl

omit [DecidableEq K] in
theorem kron_append (g : Group K) (gs : List (Group K)) (a a' b b' : Str) (hb : b.length = g.2.1)
    (hb' : b'.length = g.2.1) :
    kron (g :: gs) (a ++ b) (a' ++ b') = kron gs a a' * entry g.1 g.2.2 b b' := by
  obtain ⟨l, k, m⟩ := g
  simp only at hb hb'
  rw [kron]
  simp [hb, hb']

omit [DecidableEq K] in
/-- One group: the entries of a matrix and of its inverse, summed over the labels. -/
theorem entry_inverse (labels : List Str) (k : Nat) (hl : labels.Perm (bitStrings k)) (x a : Mat K)
    (h : toMatrix (2 ^ k) x * toMatrix (2 ^ k) a = 1) (s u : Str) (hs : s ∈ bitStrings k)
    (hu : u ∈ bitStrings k) :
    ((bitStrings k).map fun t => entry labels x s t * entry labels a t u).sum
      = if s = u then 1 else 0 := by
  have hnd : labels.Nodup := hl.nodup_iff.2 (nodup_bitStrings k)
  have hlen : labels.length = 2 ^ k := by rw [hl.length_eq, length_bitStrings]
  rw [← (hl.map _).sum_eq]
  have e : labels.map (fun t => entry labels x s t * entry labels a t u)
      = (List.range (2 ^ k)).map fun i => x (labels.idxOf s) i * a i (labels.idxOf u) := by
    apply List.ext_getElem
    · simp [hlen]
    · intro i h1 h2
      simp only [List.length_map] at h1
      simp only [List.getElem_map, List.getElem_range, entry, hnd.idxOf_getElem i h1]
  have hs' := hl.mem_iff.2 hs
  have hu' := hl.mem_iff.2 hu
  rw [e, entry_mul (2 ^ k) x a h _ _ (by rw [← hlen]; exact List.idxOf_lt_length_iff.2 hs')
    (by rw [← hlen]; exact List.idxOf_lt_length_iff.2 hu')]
  by_cases hsu : s = u
  · simp [hsu]
  · rw [if_neg hsu, if_neg]
    intro hc
    exact hsu ((List.idxOf_inj hs').1 hc)

omit [DecidableEq K] in
/-- The Kronecker product of inverses is the inverse of the Kronecker product. -/
theorem kron_inverse (gs : List (List Str × Nat × Mat K × Mat K))
    (hl : ∀ g ∈ gs, g.1.Perm (bitStrings g.2.1))
    (hinv : ∀ g ∈ gs, toMatrix (2 ^ g.2.1) g.2.2.1 * toMatrix (2 ^ g.2.1) g.2.2.2 = 1)
    (n : Nat) (hn : (gs.map fun g => g.2.1).sum = n) (s u : Str) (hs : s ∈ bitStrings n)
    (hu : u ∈ bitStrings n) :
    ((bitStrings n).map fun t => kron (gs.map fun g => (g.1, g.2.1, g.2.2.1)) s t *
      kron (gs.map fun g => (g.1, g.2.1, g.2.2.2)) t u).sum = if s = u then 1 else 0 := by
  induction gs generalizing n s u with
  | nil =>
    have h0 : n = 0 := by rw [← hn]; rfl
    subst h0
    simp only [bitStrings, List.mem_singleton] at hs hu
    subst hs; subst hu
    simp [kron, bitStrings]
  | cons g gs ih =>
    obtain ⟨labels, k, x, a⟩ := g
    have hn' : (gs.map fun g => g.2.1).sum + k = n := by
      rw [← hn]; simp [Nat.add_comm]
    generalize hN : (gs.map fun g => g.2.1).sum = N at *
    subst hn'
    rw [bitStrings_add, List.mem_flatMap] at hs hu
    obtain ⟨s1, hs1, hs⟩ := hs
    obtain ⟨s2, hs2, rfl⟩ := List.mem_map.1 hs
    obtain ⟨u1, hu1, hu⟩ := hu
    obtain ⟨u2, hu2, rfl⟩ := List.mem_map.1 hu
    have L : ∀ w : Str, w ∈ bitStrings k → w.length = k := fun w hw => ((mem_bitStrings k w).1 hw).2
    rw [bitStrings_add]
    have hflat : ∀ (f : Str → K), (((bitStrings N).flatMap fun a => (bitStrings k).map (a ++ ·)).map f).sum
        = ((bitStrings N).map fun a => ((bitStrings k).map fun b => f (a ++ b)).sum).sum := by
      intro f
      rw [List.map_flatMap]
      induction bitStrings N with
      | nil => rfl
      | cons c l ihl =>
        rw [List.flatMap_cons, List.sum_append, ihl, List.map_cons, List.sum_cons, List.map_map]
        rfl
    rw [hflat]
    have hterm : ∀ t1, ((bitStrings k).map fun b =>
        kron (((labels, k, x, a) :: gs).map fun g => (g.1, g.2.1, g.2.2.1)) (s1 ++ s2) (t1 ++ b) *
        kron (((labels, k, x, a) :: gs).map fun g => (g.1, g.2.1, g.2.2.2)) (t1 ++ b) (u1 ++ u2)).sum
        = (kron (gs.map fun g => (g.1, g.2.1, g.2.2.1)) s1 t1 *
           kron (gs.map fun g => (g.1, g.2.1, g.2.2.2)) t1 u1) * (if s2 = u2 then 1 else 0) := by
      intro t1
      rw [← entry_inverse labels k (hl (labels, k, x, a) (by simp)) x a
        (hinv (labels, k, x, a) (by simp)) s2 u2 hs2 hu2, ← List.sum_map_mul_left]
      congr 1
      apply List.map_congr_left
      intro b hb
      rw [List.map_cons, List.map_cons, kron_append _ _ _ _ _ _ (L s2 hs2) (L b hb),
        kron_append _ _ _ _ _ _ (L b hb) (L u2 hu2)]
      simp only
      ring
    simp only [hterm]
    rw [List.sum_map_mul_right, ih (fun g hg => hl g (by simp [hg])) (fun g hg => hinv g (by simp [hg]))
      N rfl s1 u1 hs1 hu1]
    have hlen : s1.length = u1.length := by
      rw [((mem_bitStrings N s1).1 hs1).2, ((mem_bitStrings N u1).1 hu1).2]
    by_cases h1 : s1 = u1
    · by_cases h2 : s2 = u2
      · simp [h1, h2]
      · simp [h1, h2]
    · have : s1 ++ s2 ≠ u1 ++ u2 := fun h => h1 (List.append_inj h hlen).1
      simp [h1, this]

/-- **C16 (inversion).** If the group matrices `a` are invertible and the filter uses their
pseudo-inverses, applying it to counts that are the Kronecker product of the `a` times a vector `p`
returns `p`: the tensored filter is the inverse of the tensored noise. -/
theorem C16_inverts (gs : List (List Str × Nat × Mat K × Mat K))
    (hl : ∀ g ∈ gs, g.1.Perm (bitStrings g.2.1))
    (hp : ∀ g ∈ gs, IsPinv (2 ^ g.2.1) g.2.2.2 g.2.2.1 ∧ Invertible (2 ^ g.2.1) g.2.2.2)
    (n : Nat) (hn : (gs.map fun g => g.2.1).sum = n) (hn1 : 1 ≤ n)
    (raw : Dict Str K) (hw : Dict.WF raw) (hk : ∀ q ∈ raw, q.1 ∈ bitStrings n) (p : Str → K)
    (hraw : ∀ s ∈ bitStrings n, val raw s =
      ((bitStrings n).map fun t => kron (gs.map fun g => (g.1, g.2.1, g.2.2.2)) s t * p t).sum) :
    ∃ out, tensoredApply (gs.map (·.1)) (gs.map fun g => g.2.2.1) raw = some out ∧
      ∀ s ∈ bitStrings n, val out s = p s := by
  have hmk : mkGroups (gs.map (·.1)) (gs.map fun g => g.2.2.1)
      = gs.map fun g => (g.1, g.2.1, g.2.2.1) := by
    rw [mkGroups]
    apply List.ext_getElem
    · simp
    · intro i h1 h2
      simp only [List.length_map] at h2
      have h3 := hl gs[i] (List.getElem_mem h2)
      have : Nat.log2 (gs[i].1).length = gs[i].2.1 := by
        rw [h3.length_eq, length_bitStrings]; exact Nat.log2_two_pow
      simp [this]
  have hsize : groupSize (mkGroups (gs.map (·.1)) (gs.map fun g => g.2.2.1)) = n := by
    rw [hmk, groupSize, List.map_map, ← hn]; rfl
  obtain ⟨out, h1, -, h3⟩ := C16_kronecker (gs.map (·.1)) (gs.map fun g => g.2.2.1) (by simp) (by
      intro l hl'
      obtain ⟨g, hg, rfl⟩ := List.mem_map.1 hl'
      exact ⟨g.2.1, hl g hg⟩) (by rw [hsize]; exact hn1) raw hw (by rw [hsize]; exact hk)
  rw [hsize, hmk] at h3
  refine ⟨out, h1, ?_⟩
  intro s hs
  rw [h3 s hs]
  have e1 : ((bitStrings n).map fun t => kron (gs.map fun g => (g.1, g.2.1, g.2.2.1)) s t * val raw t)
      = (bitStrings n).map fun t => ((bitStrings n).map fun u =>
        kron (gs.map fun g => (g.1, g.2.1, g.2.2.1)) s t *
        kron (gs.map fun g => (g.1, g.2.1, g.2.2.2)) t u * p u).sum := by
    apply List.map_congr_left
    intro t ht
    rw [hraw t ht, ← List.sum_map_mul_left]
    simp only [mul_assoc]
  rw [e1, sum_comm_listK]
  have e2 : ((bitStrings n).map fun u => ((bitStrings n).map fun t =>
        kron (gs.map fun g => (g.1, g.2.1, g.2.2.1)) s t *
        kron (gs.map fun g => (g.1, g.2.1, g.2.2.2)) t u * p u).sum)
      = (bitStrings n).map fun u => (if s = u then (1 : K) else 0) * p u := by
    apply List.map_congr_left
    intro u hu
    rw [List.sum_map_mul_right, kron_inverse gs hl
      (fun g hg => (pinv_inverse _ _ _ (hp g hg).1 (hp g hg).2).1) n hn s u hs hu]
  rw [e2]
  have : ∀ (l : List Str), l.Nodup → s ∈ l → (l.map fun u => (if s = u then (1 : K) else 0) * p u).sum = p s := by
    intro l hnd hs
    induction l with
    | nil => simp at hs
    | cons a l ih =>
      rw [List.nodup_cons] at hnd
      by_cases ha : s = a
      · subst ha
        have : (l.map fun u => (if s = u then (1 : K) else 0) * p u).sum = 0 := by
          apply List.sum_eq_zero
          intro x hx
          obtain ⟨u, hu, rfl⟩ := List.mem_map.1 hx
          have : s ≠ u := fun h => hnd.1 (h ▸ hu)
          simp [this]
        rw [List.map_cons, List.sum_cons, this]
        simp
      · have : s ∈ l := by simpa [ha] using hs
        rw [List.map_cons, List.sum_cons, ih hnd.2 this]
        simp [ha]
  exact this _ (nodup_bitStrings n) hs

/-- Non-vacuity for C16: two groups, the first with labels in reverse order. -/
example :
    let x : Mat ℚ := fun i j => if i = j then 3 / 2 else -1 / 2
    let y : Mat ℚ := fun i j => if i = j then 1 else 0
    tensoredApply [["1".toList, "0".toList], countKeys 2] [x, y] [("001".toList, 10), ("000".toList, 30)]
      = some [("000".toList, 40)] ∧
    (["1".toList, "0".toList] : List Str).Perm (bitStrings 1) ∧ countKeys 2 = bitStrings 2 := by
  refine ⟨by decide +kernel, ?_, by decide +kernel⟩
  exact List.Perm.swap _ _ _

end Verif.MeasMit
