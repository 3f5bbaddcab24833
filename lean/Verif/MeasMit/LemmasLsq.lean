import Verif.MeasMit.SpecLsq
import Verif.MeasMit.PropsFilter
import Mathlib.Topology.Algebra.Monoid
import Mathlib.Topology.Instances.Real.Lemmas
import Mathlib.Topology.Order.Compact
import Mathlib.Topology.MetricSpace.ProperSpace.Real
import Mathlib.Analysis.Normed.Group.Constructions
import Mathlib.Tactic.Linarith
import Mathlib.Tactic.FieldSimp
/-
Least squares over non-negative vectors with a given sum: existence of an optimum, uniqueness, projections; the link with the model's problems.
-/
namespace Verif.MeasMit
open Verif Verif.Counts
variable {α : Type} {states : List α} {A : α → α → ℝ} {raw x y : α → ℝ} {ε δ : ℝ}

theorem noisy_comb (a b : ℝ) (p q : α → ℝ) (s : α) :
    noisyCounts states A (fun t => a * p t + b * q t) s = a * noisyCounts states A p s + b * noisyCounts states A q s := by
  unfold noisyCounts
  rw [← List.sum_map_mul_left, ← List.sum_map_mul_left, ← List.sum_map_add]
  congr 1
  refine List.map_congr_left fun t _ => ?_
  ring

theorem physical_comb {N a b : ℝ} {p q : α → ℝ} (hp : Physical states N p) (hq : Physical states N q) (ha : 0 ≤ a) (hb : 0 ≤ b) (hab : a + b = 1) :
    Physical states N fun t => a * p t + b * q t := by
  refine ⟨fun s hs => add_nonneg (mul_nonneg ha (hp.1 s hs)) (mul_nonneg hb (hq.1 s hs)), ?_⟩
  rw [List.sum_map_add, List.sum_map_mul_left, List.sum_map_mul_left, hp.2, hq.2, ← add_mul, hab, one_mul]

theorem dist2_nonneg (p q : α → ℝ) : 0 ≤ dist2 states p q := by
  unfold dist2
  refine List.sum_nonneg fun z hz => ?_
  obtain ⟨s, -, rfl⟩ := List.mem_map.1 hz
  exact sq_nonneg _

theorem dist2_zero {p q : α → ℝ} (h : dist2 states p q = 0) : ∀ s ∈ states, p s = q s := by
  unfold dist2 at h
  intro s hs
  have h1 : ∀ z ∈ states.map fun s => (p s - q s) ^ 2, 0 ≤ z := by
    intro z hz
    obtain ⟨s, -, rfl⟩ := List.mem_map.1 hz
    exact sq_nonneg _
  have h2 := List.single_le_sum h1 _ (List.mem_map.2 ⟨s, hs, rfl⟩)
  rw [h] at h2
  have h3 := le_antisymm h2 (sq_nonneg _)
  linarith [pow_eq_zero_iff (two_ne_zero) |>.1 h3]

theorem dist2_congr {p p' q q' : α → ℝ} (h1 : ∀ s ∈ states, p s = p' s) (h2 : ∀ s ∈ states, q s = q' s) : dist2 states p q = dist2 states p' q' := by
  unfold dist2
  congr 1
  refine List.map_congr_left fun s hs => ?_
  rw [h1 s hs, h2 s hs]

theorem dist2_self (p : α → ℝ) : dist2 states p p = 0 := by
  unfold dist2
  simp

/-- The distance along a segment. -/
theorem dist2_comb (r p q : α → ℝ) (t : ℝ) : dist2 states r (fun s => (1 - t) * p s + t * q s) =
    (1 - t) * dist2 states r p + t * dist2 states r q - t * (1 - t) * dist2 states p q := by
  unfold dist2
  rw [eq_sub_iff_add_eq, ← List.sum_map_mul_left, ← List.sum_map_mul_left, ← List.sum_map_mul_left, ← List.sum_map_add, ← List.sum_map_add]
  congr 1
  refine List.map_congr_left fun s _ => ?_
  ring

theorem best_gap (hx : IsBest states A raw ε x) (hy : IsBest states A raw δ y) :
    dist2 states (noisyCounts states A x) (noisyCounts states A y) ≤ 2 * (ε + δ) := by
  have hm := physical_comb (a := 1 - 1 / 2) (b := 1 / 2) hx.1 hy.1 (by norm_num) (by norm_num) (by norm_num)
  have h1 := hx.2 _ hm
  have h2 := hy.2 _ hm
  have e : dist2 states raw (noisyCounts states A fun t => (1 - 1 / 2) * x t + 1 / 2 * y t) =
      (1 - 1 / 2) * dist2 states raw (noisyCounts states A x) + 1 / 2 * dist2 states raw (noisyCounts states A y) -
        1 / 2 * (1 - 1 / 2) * dist2 states (noisyCounts states A x) (noisyCounts states A y) := by
    rw [← dist2_comb]
    exact dist2_congr (fun _ _ => rfl) fun s _ => noisy_comb _ _ _ _ _
  rw [e] at h1 h2
  linarith

theorem best_closer (hx : IsBest states A raw 0 x) {p : α → ℝ} (hp : Physical states (states.map raw).sum p) :
    dist2 states (noisyCounts states A x) (noisyCounts states A p) + dist2 states raw (noisyCounts states A x) ≤ dist2 states raw (noisyCounts states A p) := by
  have key : ∀ t : ℝ, 0 < t → t < 1 → (1 - t) * dist2 states (noisyCounts states A x) (noisyCounts states A p) ≤
      dist2 states raw (noisyCounts states A p) - dist2 states raw (noisyCounts states A x) := by
    intro t h0 h1
    have h2 := hx.2 _ (physical_comb (a := 1 - t) (b := t) hx.1 hp (by linarith) h0.le (by ring))
    have e : dist2 states raw (noisyCounts states A fun s => (1 - t) * x s + t * p s) =
        (1 - t) * dist2 states raw (noisyCounts states A x) + t * dist2 states raw (noisyCounts states A p) -
          t * (1 - t) * dist2 states (noisyCounts states A x) (noisyCounts states A p) := by
      rw [← dist2_comb]
      exact dist2_congr (fun _ _ => rfl) fun s _ => noisy_comb _ _ _ _ _
    rw [e, add_zero] at h2
    have h3 : t * ((1 - t) * dist2 states (noisyCounts states A x) (noisyCounts states A p)) ≤
        t * (dist2 states raw (noisyCounts states A p) - dist2 states raw (noisyCounts states A x)) := by linarith
    exact le_of_mul_le_mul_left h3 h0
  by_contra hc
  have hc := not_le.1 hc
  set g := dist2 states (noisyCounts states A x) (noisyCounts states A p) with hg
  set b := dist2 states raw (noisyCounts states A p) - dist2 states raw (noisyCounts states A x) with hb
  have h0 : 0 ≤ g := dist2_nonneg _ _
  have h1 : b < g := by linarith
  have hgp : 0 < g := by
    rcases h0.lt_or_eq with h | h
    · exact h
    · have h3 := key (1 / 2) (by norm_num) (by norm_num)
      rw [← h, mul_zero] at h3
      linarith
  have hb0 : 0 ≤ b := le_trans (mul_nonneg (by norm_num) h0) (key (1 / 2) (by norm_num) (by norm_num))
  have h2 := key ((g - b) / (2 * g)) (div_pos (by linarith) (by linarith)) (by rw [div_lt_one (by linarith)]; linarith)
  have h3 : (1 - (g - b) / (2 * g)) * g = (g + b) / 2 := by field_simp; ring
  rw [h3] at h2
  linarith

/-! ### Existence -/

theorem exists_best {n : Nat} (hn : 0 < n) (M : Nat → Nat → ℝ) (v : Nat → ℝ) (h0 : 0 ≤ vsum n v) :
    ∃ x, IsBest (List.range n) M v 0 x := by
  let K : Set (Fin n → ℝ) := {x | (∀ i, 0 ≤ x i) ∧ ∑ i, x i = vsum n v}
  have hK : IsCompact K := by
    refine (isCompact_univ_pi (s := fun _ : Fin n => Set.Icc 0 (vsum n v)) fun _ => isCompact_Icc).of_isClosed_subset ?_ ?_
    · refine IsClosed.inter (s₁ := {x : Fin n → ℝ | ∀ i, 0 ≤ x i}) (s₂ := {x : Fin n → ℝ | ∑ i, x i = vsum n v}) ?_ ?_
      · have : {x : Fin n → ℝ | ∀ i, 0 ≤ x i} = ⋂ i, {x | 0 ≤ x i} := by ext; simp
        rw [this]
        exact isClosed_iInter fun i => isClosed_le continuous_const (continuous_apply i)
      · exact isClosed_eq (continuous_finsetSum _ fun i _ => continuous_apply i) continuous_const
    · rintro x ⟨h1, h2⟩ i -
      refine ⟨h1 i, ?_⟩
      rw [← h2]
      exact Finset.single_le_sum (fun i _ => h1 i) (Finset.mem_univ i)
  have hne : K.Nonempty := by
    refine ⟨fun i => if i = ⟨0, hn⟩ then vsum n v else 0, fun i => ?_, ?_⟩
    · dsimp only; split_ifs <;> [exact h0; exact le_refl _]
    · simp
  let f : (Fin n → ℝ) → ℝ := fun x => ∑ i : Fin n, (v i - ∑ j : Fin n, M i j * x j) ^ 2
  have hf : Continuous f := continuous_finsetSum _ fun i _ =>
    (continuous_const.sub (continuous_finsetSum _ fun j _ => continuous_const.mul (continuous_apply j))).pow 2
  obtain ⟨x, hx, hm⟩ := hK.exists_isMinOn hne hf.continuousOn
  have hs : ∀ g : Nat → ℝ, ((List.range n).map g).sum = ∑ i : Fin n, g i := fun g => by
    rw [← Finset.sum_range]; rfl
  have hd : ∀ y : Nat → ℝ, dist2 (List.range n) v (noisyCounts (List.range n) M y) = f fun i => y i := by
    intro y
    unfold dist2 noisyCounts
    rw [hs]
    simp only [hs]
    rfl
  let y : Nat → ℝ := fun i => if h : i < n then x ⟨i, h⟩ else 0
  have hy : (fun i : Fin n => y i) = x := by
    funext i
    simp [y]
  refine ⟨y, ⟨fun i hi => ?_, ?_⟩, fun p hp => ?_⟩
  · have hi := List.mem_range.1 hi
    simp only [y, hi, dif_pos]
    exact hx.1 _
  · rw [hs, show ∑ i : Fin n, y i = ∑ i, x i from congrArg (fun g : Fin n → ℝ => ∑ i, g i) hy]
    exact hx.2
  · rw [hd, hd, hy, add_zero]
    refine hm (a := fun i : Fin n => p i) ⟨fun i => hp.1 i (List.mem_range.2 i.2), ?_⟩
    rw [← hs p]
    exact hp.2

/-! ### The problems of the model -/

theorem feasible_iff {n : Nat} {obj : (Nat → ℝ) → Option ℝ} {rand v x : Nat → ℝ} :
    (lsqProblem n obj rand v).Feasible x ↔ Physical (List.range n) ((List.range n).map v).sum x := by
  constructor
  · rintro ⟨h1, h2⟩
    have h3 : vsum n v - vsum n x = 0 := h1
    refine ⟨fun i hi => ?_, by unfold vsum at h3; linarith⟩
    refine (h2 i (0, vsum n v) ?_).1
    show ((List.range n).map fun _ => ((0 : ℝ), vsum n v))[i]? = _
    rw [List.getElem?_map, List.getElem?_range (List.mem_range.1 hi)]; rfl
  · rintro ⟨h1, h2⟩
    refine ⟨show vsum n v - vsum n x = 0 by unfold vsum; rw [h2, sub_self], fun i b hb => ?_⟩
    have hb' : ((List.range n).map fun _ => ((0 : ℝ), vsum n v))[i]? = some b := hb
    rw [List.getElem?_map, Option.map_eq_some_iff] at hb'
    obtain ⟨j, hj, rfl⟩ := hb'
    have hi : i < n := by
      have := (List.getElem?_eq_some_iff.1 hj).1
      simpa using this
    refine ⟨h1 i (List.mem_range.2 hi), ?_⟩
    show x i ≤ vsum n v
    unfold vsum
    rw [← h2]
    refine List.single_le_sum ?_ _ (List.mem_map.2 ⟨i, List.mem_range.2 hi, rfl⟩)
    intro z hz
    obtain ⟨j, hj, rfl⟩ := List.mem_map.1 hz
    exact h1 j hj

theorem near_iff {n : Nat} {obj : (Nat → ℝ) → Option ℝ} {M : Nat → Nat → ℝ} {rand v x : Nat → ℝ}
    (ho : ∀ x, obj x = some (dist2 (List.range n) v (noisyCounts (List.range n) M x))) :
    (lsqProblem n obj rand v).Near ε x ↔ IsBest (List.range n) M v ε x := by
  unfold Problem.Near IsBest
  rw [feasible_iff]
  refine and_congr_right fun _ => ?_
  constructor
  · rintro ⟨a, h1, h2⟩ p hp
    have h1' : obj x = some a := h1
    rw [ho, Option.some_inj] at h1'
    rw [h1']
    exact h2 p _ (feasible_iff.2 hp) (ho p)
  · intro h
    refine ⟨_, ho x, fun y b hy hb => ?_⟩
    have hb' : obj y = some b := hb
    rw [ho, Option.some_inj] at hb'
    rw [← hb']
    exact h y (feasible_iff.1 hy)

theorem solved {solve : Solver} (hs : Solves solve ε) {n : Nat} (hn : 0 < n) {obj : (Nat → ℝ) → Option ℝ} {M : Nat → Nat → ℝ} {rand v : Nat → ℝ}
    (h0 : 0 ≤ vsum n v) (ho : ∀ x, obj x = some (dist2 (List.range n) v (noisyCounts (List.range n) M x))) :
    ∃ x, solve (lsqProblem n obj rand v) = some x ∧ IsBest (List.range n) M v ε x := by
  obtain ⟨x, hx⟩ := exists_best hn M v h0
  obtain ⟨z, h1, h2⟩ := hs (lsqProblem n obj rand v) ⟨x, (near_iff ho).2 hx⟩
  exact ⟨z, h1, (near_iff ho).1 h2⟩

theorem lsqObj_eq (n : Nat) (cal : Mat ℝ) (v x : Nat → ℝ) : lsqObj n cal v x = some (dist2 (List.range n) v (noisyCounts (List.range n) cal x)) := rfl

/-! ### From indices to labels -/

theorem best_labels {n : Nat} {g : Nat → α} {M : Nat → Nat → ℝ} {v z : Nat → ℝ} {out : α → ℝ} (hst : states = (List.range n).map g)
    (hA : ∀ i < n, ∀ j < n, A (g i) (g j) = M i j) (hr : ∀ i < n, raw (g i) = v i) (ho : ∀ i < n, out (g i) = z i)
    (h : IsBest (List.range n) M v ε z) : IsBest states A raw ε out := by
  have hsum : ∀ f : α → ℝ, ∀ f' : Nat → ℝ, (∀ i < n, f (g i) = f' i) → (states.map f).sum = ((List.range n).map f').sum := by
    intro f f' hf
    rw [hst, List.map_map]
    congr 1
    exact List.map_congr_left fun i hi => hf i (List.mem_range.1 hi)
  have hphys : ∀ p : α → ℝ, ∀ p' : Nat → ℝ, (∀ i < n, p (g i) = p' i) →
      (Physical states (states.map raw).sum p ↔ Physical (List.range n) ((List.range n).map v).sum p') := by
    intro p p' hp
    unfold Physical
    rw [hsum raw v hr, hsum p p' hp]
    refine and_congr_left fun _ => ?_
    rw [hst]
    simp only [List.mem_map, List.mem_range, forall_exists_index, and_imp, forall_apply_eq_imp_iff₂]
    exact forall₂_congr fun i hi => by rw [hp i hi]
  have hd : ∀ p : α → ℝ, ∀ p' : Nat → ℝ, (∀ i < n, p (g i) = p' i) →
      dist2 states raw (noisyCounts states A p) = dist2 (List.range n) v (noisyCounts (List.range n) M p') := by
    intro p p' hp
    unfold dist2
    refine hsum _ _ fun i hi => ?_
    rw [hr i hi]
    congr 2
    unfold noisyCounts
    exact hsum _ _ fun j hj => by rw [hA i hi j hj, hp j hj]
  refine ⟨(hphys out z ho).2 h.1, fun p hp => ?_⟩
  rw [hd out z ho, hd p (fun i => p (g i)) fun _ _ => rfl]
  exact h.2 _ ((hphys p _ fun _ _ => rfl).1 hp)

theorem labels_range (labels : List Str) : labels = (List.range labels.length).map fun i => labels.getD i [] := by
  refine List.ext_getElem (by simp) fun i h1 h2 => ?_
  simp [List.getD_eq_getElem?_getD, h1]

theorem entry_getD {labels : List Str} (hl : labels.Nodup) (cal : Mat ℝ) {i j : Nat} (hi : i < labels.length) (hj : j < labels.length) :
    entry labels cal (labels.getD i []) (labels.getD j []) = cal i j := by
  unfold entry
  rw [List.getD_eq_getElem?_getD, List.getD_eq_getElem?_getD, List.getElem?_eq_getElem hi, List.getElem?_eq_getElem hj, Option.getD_some, Option.getD_some,
    hl.idxOf_getElem, hl.idxOf_getElem]

/-- The dictionary made from a vector. -/
theorem vec_dict {labels : List Str} (hl : labels.Nodup) (x : Nat → ℝ) :
    let out : Dict Str ℝ := labels.zipIdx.foldl (fun d p => if x p.2 ≠ 0 then d.set p.1 (x p.2) else d) []
    out.WF ∧ (∀ q ∈ out, q.1 ∈ labels ∧ q.2 ≠ 0) ∧ ∀ i < labels.length, val out (labels.getD i []) = x i := by
  have hnd : ((labels.zipIdx.map fun p => (p.1, x p.2)).map (·.1)).Nodup := by
    rw [List.map_map]
    have : (labels.zipIdx.map ((fun x : Str × ℝ => x.1) ∘ fun p : Str × Nat => (p.1, x p.2))) = labels.zipIdx.map (·.1) := rfl
    rw [this]
    simpa using hl
  have h1 := out_dict (labels.zipIdx.map fun p => (p.1, x p.2)) [] (by simpa using hnd)
  rw [List.foldl_map, List.nil_append] at h1
  intro out
  have hout : out = (labels.zipIdx.map fun p => (p.1, x p.2)).filter fun p => p.2 ≠ 0 := h1
  refine ⟨by rw [hout]; exact wf_filter _ hnd _, ?_, ?_⟩
  · intro q hq
    rw [hout, List.mem_filter, List.mem_map] at hq
    obtain ⟨⟨⟨s, i⟩, h1, rfl⟩, h2⟩ := hq
    exact ⟨List.fst_mem_of_mem_zipIdx h1, by simpa using h2⟩
  · intro i hi
    have hm : (labels.getD i [], x i) ∈ labels.zipIdx.map fun p => (p.1, x p.2) := by
      refine List.mem_map.2 ⟨(labels[i], i), ?_, ?_⟩
      · rw [List.mk_mem_zipIdx_iff_getElem?]; exact List.getElem?_eq_getElem hi
      · simp [List.getD_eq_getElem?_getD, hi]
    rw [val, Dict.getD, hout, get?_nonzero _ hnd _ _ hm]
    by_cases h : x i = 0
    · simp [h]
    · simp [h]

end Verif.MeasMit
