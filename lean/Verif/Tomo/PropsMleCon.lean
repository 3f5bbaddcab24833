import Verif.Tomo.PropsMle2
import Mathlib.Tactic.NormNum
/-
C89: the constraints of gate set tomography.
-/
set_option linter.unusedSimpArgs false
set_option linter.unusedVariables false
namespace Verif.Tomo
open Verif Verif.Counts Matrix
open scoped ComplexOrder

/-- Specification: the map with this Choi matrix preserves the trace: the trace of block `(i, j)` is that of `|i⟩⟨j|`. -/
def TracePreserving (C : Matrix (Fin 4) (Fin 4) ℂ) : Prop :=
  C 0 0 + C 1 1 = 1 ∧ C 0 2 + C 1 3 = 0 ∧ C 2 0 + C 3 1 = 0 ∧ C 2 2 + C 3 3 = 1

/-- Specification: the 2×2 matrix with the given coefficients of the normalised Pauli matrices, the form in which the state and the effect
are reported. -/
noncomputable def operatorOf (v : ℕ → ℂ) : Matrix (Fin 2) (Fin 2) ℂ := Matrix.of fun i j => convertFromPtm v i j

/-! Helpers. -/

theorem ptmToChoi_choiToPtm (c : ℕ → ℕ → ℂ) (x y : ℕ) (hx : x < 4) (hy : y < 4) : ptmToChoi (choiToPtm c) x y = c x y := by
  have hexp : ptmToChoi (choiToPtm c) x y = (1/4) * ∑ i ∈ Finset.range 2, ∑ j ∈ Finset.range 2, ∑ r ∈ Finset.range 2, ∑ s ∈ Finset.range 2,
      c (2 * i + r) (2 * j + s) * ((∑ b ∈ Finset.range 4, pauli1 b (y / 2) (x / 2) * pauli1 b i j) *
        ∑ a ∈ Finset.range 4, pauli1 a (x % 2) (y % 2) * pauli1 a s r) := by
    unfold ptmToChoi choiToPtm
    generalize hb : (fun b => pauli1 b (y / 2) (x / 2)) = pb
    generalize ha : (fun a => pauli1 a (x % 2) (y % 2)) = pa
    have hb' : ∀ b, pauli1 b (y / 2) (x / 2) = pb b := fun b => congrFun hb b
    have ha' : ∀ b, pauli1 b (x % 2) (y % 2) = pa b := fun b => congrFun ha b
    simp only [hb', ha', Finset.mul_sum, Finset.sum_mul]
    rw [Finset.sum_comm]
    simp only [Finset.sum_range_succ, Finset.sum_range_zero]
    ring
  rw [hexp]
  have h1 : ∀ i ∈ Finset.range 2, ∀ j ∈ Finset.range 2, ∀ r ∈ Finset.range 2, ∀ s ∈ Finset.range 2,
      c (2 * i + r) (2 * j + s) * ((∑ b ∈ Finset.range 4, pauli1 b (y / 2) (x / 2) * pauli1 b i j) *
        ∑ a ∈ Finset.range 4, pauli1 a (x % 2) (y % 2) * pauli1 a s r) =
      if (y / 2 = j ∧ x / 2 = i) ∧ (x % 2 = r ∧ y % 2 = s) then 4 * c x y else 0 := by
    intro i hi j hj r hr s hs
    rw [Finset.mem_range] at hi hj hr hs
    rw [pauli_complete _ _ j i (by omega) (by omega) hj hi, pauli_complete _ _ r s (by omega) (by omega) hr hs]
    by_cases h : y / 2 = j ∧ x / 2 = i
    · by_cases h' : x % 2 = r ∧ y % 2 = s
      · rw [if_pos h, if_pos h', if_pos ⟨h, h'⟩, show 2 * i + r = x by omega, show 2 * j + s = y by omega]
        ring
      · rw [if_neg h', if_neg (fun e : (y / 2 = j ∧ x / 2 = i) ∧ (x % 2 = r ∧ y % 2 = s) => h' e.2)]; ring
    · rw [if_neg h, if_neg (fun e : (y / 2 = j ∧ x / 2 = i) ∧ (x % 2 = r ∧ y % 2 = s) => h e.1)]; ring
  rw [Finset.sum_congr rfl fun i hi => Finset.sum_congr rfl fun j hj => Finset.sum_congr rfl fun r hr => Finset.sum_congr rfl fun s hs =>
    h1 i hi j hj r hr s hs]
  have hx2 : x / 2 < 2 := by omega
  have hy2 : y / 2 < 2 := by omega
  rw [Finset.sum_eq_single_of_mem (x / 2) (Finset.mem_range.2 hx2) (fun i _ hi => by simp [Ne.symm hi]),
    Finset.sum_eq_single_of_mem (y / 2) (Finset.mem_range.2 hy2) (fun i _ hi => by simp [Ne.symm hi]),
    Finset.sum_eq_single_of_mem (x % 2) (Finset.mem_range.2 (by omega)) (fun i _ hi => by simp [Ne.symm hi]),
    Finset.sum_eq_single_of_mem (y % 2) (Finset.mem_range.2 (by omega)) (fun i _ hi => by simp [Ne.symm hi])]
  simp only [and_self, if_true]
  ring

theorem choiOf_gram (t : CM) (ht : t.n = 4) : choiOf (choiToPtm (gramOf t).e) = t.mat 4 * (t.mat 4)ᴴ := by
  have := gramOf_mat t
  rw [ht] at this
  rw [← this]
  ext x y
  exact ptmToChoi_choiToPtm _ _ _ x.2 y.2

/-- **C89** (complete positivity).  Whatever vector the optimiser tries, every gate it stands for has a positive semidefinite Choi matrix. -/
theorem C89_completely_positive (n : ℕ) (x : List ℝ) (e r : ℕ → ℂ) (gm : List (ℕ → ℕ → ℂ)) (h : splitInputVector n x = some (e, r, gm)) :
    gm.length = n ∧ ∀ g ∈ gm, (choiOf g).PosSemidef := by
  obtain ⟨te, tr, ts, h1, h2, h3, h4, h5⟩ := split_spec n x _ h
  simp only [Prod.mk.injEq] at h5
  obtain ⟨-, -, rfl⟩ := h5
  refine ⟨by simpa using h4, ?_⟩
  intro g hg
  obtain ⟨t, ht, rfl⟩ := List.mem_map.1 hg
  rw [choiOf_gram t (h3 t ht)]
  exact Matrix.posSemidef_self_mul_conjTranspose _

theorem choiToPtm_choiOf (g : ℕ → ℕ → ℂ) (a b : ℕ) (ha : a < 4) (hb : b < 4) :
    g a b = (1/2) * ∑ i ∈ Finset.range 2, ∑ j ∈ Finset.range 2, ∑ r ∈ Finset.range 2, ∑ s ∈ Finset.range 2,
      pauli1 a s r * (pauli1 b i j * ptmToChoi g (2 * i + r) (2 * j + s)) := (choiToPtm_ptmToChoi g a b ha hb).symm

/-- A Hermitian Choi matrix has a real Pauli transfer matrix. -/
theorem ptm_real (g : ℕ → ℕ → ℂ) (h : (choiOf g).IsHermitian) (a b : ℕ) (ha : a < 4) (hb : b < 4) : (g a b).im = 0 := by
  rw [← Complex.conj_eq_iff_im, choiToPtm_choiOf g a b ha hb]
  have hc : ∀ i < 4, ∀ j < 4, (starRingEnd ℂ) (ptmToChoi g i j) = ptmToChoi g j i := fun i hi j hj => h.apply ⟨j, hj⟩ ⟨i, hi⟩
  simp only [Finset.sum_range_succ, Finset.sum_range_zero]
  simp only [map_mul, map_add, map_zero, hc _ (show 0 < 4 by omega), hc _ (show 1 < 4 by omega), hc _ (show 2 < 4 by omega),
    hc _ (show 3 < 4 by omega)]
  simp only [Nat.mul_zero, Nat.zero_add, Nat.mul_one, Nat.add_zero, Nat.reduceAdd, Nat.reduceMul]
  have hp : ∀ a < 4, ∀ i < 2, ∀ j < 2, (starRingEnd ℂ) (pauli1 a i j) = pauli1 a j i := by
    intro a ha i hi j hj
    interval_cases a <;> interval_cases i <;> interval_cases j <;> simp [pauli1]
  have h0 : (0 : ℕ) < 2 := by omega
  have h1 : (1 : ℕ) < 2 := by omega
  have q0 : (0 : ℕ) < 4 := by omega
  have q1 : (1 : ℕ) < 4 := by omega
  have q2 : (2 : ℕ) < 4 := by omega
  have q3 : (3 : ℕ) < 4 := by omega
  simp only [hp a ha 0 h0 0 h0, hp a ha 0 h0 1 h1, hp a ha 1 h1 0 h0, hp a ha 1 h1 1 h1, hp b hb 0 h0 0 h0, hp b hb 0 h0 1 h1,
    hp b hb 1 h1 0 h0, hp b hb 1 h1 1 h1, hc 0 q0 0 q0, hc 0 q0 1 q1, hc 0 q0 2 q2, hc 0 q0 3 q3, hc 1 q1 0 q0, hc 1 q1 1 q1, hc 1 q1 2 q2,
    hc 1 q1 3 q3, hc 2 q2 0 q0, hc 2 q2 1 q1, hc 2 q2 2 q2, hc 2 q2 3 q3, hc 3 q3 0 q0, hc 3 q3 1 q1, hc 3 q3 2 q2, hc 3 q3 3 q3]
  have h12 : (starRingEnd ℂ) (1/2 : ℂ) = 1/2 := by
    rw [map_div₀, map_one, map_ofNat]
  rw [h12]
  ring

/-- Trace preservation is the condition on the first row. -/
theorem tp_iff (g : ℕ → ℕ → ℂ) : TracePreserving (choiOf g) ↔ g 0 0 = 1 ∧ g 0 1 = 0 ∧ g 0 2 = 0 ∧ g 0 3 = 0 := by
  have h00 := choiToPtm_choiOf g 0 0 (by omega) (by omega)
  have h01 := choiToPtm_choiOf g 0 1 (by omega) (by omega)
  have h02 := choiToPtm_choiOf g 0 2 (by omega) (by omega)
  have h03 := choiToPtm_choiOf g 0 3 (by omega) (by omega)
  simp only [Finset.sum_range_succ, Finset.sum_range_zero, pauli1] at h00 h01 h02 h03
  norm_num at h00 h01 h02 h03
  unfold TracePreserving choiOf
  simp only [Matrix.of_apply]
  simp only [Fin.val_zero, Fin.val_one, Fin.val_two, show ((3 : Fin 4) : ℕ) = 3 from rfl]
  rw [h00, h01, h02, h03]
  have hI := Complex.I_mul_I
  constructor
  · rintro ⟨a, b, c, d⟩
    refine ⟨?_, ?_, ?_, ?_⟩
    · linear_combination (1/2) * a + (1/2) * d
    · linear_combination (1/2) * b + (1/2) * c
    · linear_combination (-Complex.I/2) * b + (Complex.I/2) * c
    · linear_combination (1/2) * a - (1/2) * d
  · rintro ⟨a, b, c, d⟩
    refine ⟨?_, ?_, ?_, ?_⟩
    · linear_combination a + d
    · linear_combination b + Complex.I * c + (1/2) * (ptmToChoi g 0 2 + ptmToChoi g 1 3 - ptmToChoi g 2 0 - ptmToChoi g 3 1) * hI
    · linear_combination b - Complex.I * c - (1/2) * (ptmToChoi g 0 2 + ptmToChoi g 1 3 - ptmToChoi g 2 0 - ptmToChoi g 3 1) * hI
    · linear_combination a - d

/-! The list of values. -/

theorem getD_block {α β : Type} (l : List α) (f : α → List β) (c : ℕ) (hf : ∀ a ∈ l, (f a).length = c) (d : β) (k i : ℕ) (hk : k < l.length)
    (hi : i < c) : (l.flatMap f).getD (c * k + i) d = (f l[k]).getD i d := by
  induction l generalizing k with
  | nil => simp at hk
  | cons a l ih =>
    have ha := hf a (by simp)
    rw [List.flatMap_cons]
    cases k with
    | zero =>
      rw [Nat.mul_zero, Nat.zero_add, List.getD_append _ _ _ _ (by omega)]
      rfl
    | succ k =>
      rw [List.getD_append_right _ _ _ _ (by rw [ha, Nat.mul_succ]; omega), ha, show c * (k + 1) + i - c = c * k + i by rw [Nat.mul_succ]; omega,
        ih (fun b hb => hf b (by simp [hb])) k (by simpa using hk)]
      rfl

theorem values_get (n : ℕ) (x : List ℝ) (e r : ℕ → ℂ) (gm : List (ℕ → ℕ → ℂ)) (h : splitInputVector n x = some (e, r, gm)) :
    ∃ p, ptmMatrixValues n x = some p ∧ ∀ k (hk : k < gm.length), ∀ a < 4, ∀ b < 4,
      p.getD (32 * k + (4 * a + b)) 0 = (gm[k] a b).re ∧ p.getD (32 * k + (16 + (4 * a + b))) 0 = (gm[k] a b).im := by
  unfold ptmMatrixValues
  rw [h]
  refine ⟨_, rfl, ?_⟩
  intro k hk a ha b hb
  obtain ⟨h1, h2⟩ := complexMatrixToVec_re ⟨4, gm[k]⟩ a b ha hb
  have hlen : ∀ g ∈ gm, (complexMatrixToVec ⟨4, g⟩).length = 32 := fun g _ => length_complexMatrixToVec _
  rw [getD_block gm _ 32 hlen 0 k _ hk (by omega), getD_block gm _ 32 hlen 0 k _ hk (by omega)]
  rw [Nat.mul_comm 4 a]
  exact ⟨h1, h2⟩

/-- **C89** (equality constraints).  The equality constraints are the conditions that every gate preserves the trace. -/
theorem C89_equalities (n : ℕ) (x : List ℝ) (e r : ℕ → ℂ) (gm : List (ℕ → ℕ → ℂ)) (h : splitInputVector n x = some (e, r, gm)) :
    ∃ vals, boundsEq n x = some vals ∧ ((∀ v ∈ vals, v = 0) ↔ ∀ g ∈ gm, TracePreserving (choiOf g)) := by
  obtain ⟨p, hp, hget⟩ := values_get n x e r gm h
  obtain ⟨hlen, hpsd⟩ := C89_completely_positive n x e r gm h
  unfold boundsEq
  rw [hp]
  refine ⟨_, rfl, ?_⟩
  have him : ∀ k (hk : k < gm.length), ∀ i < 16, p.getD (32 * k + 16 + i) 0 = 0 := by
    intro k hk i hi
    have := (hget k hk (i / 4) (by omega) (i % 4) (by omega)).2
    rw [show 32 * k + 16 + i = 32 * k + (16 + (4 * (i / 4) + i % 4)) by omega, this]
    exact ptm_real _ (hpsd _ (List.getElem_mem hk)).1 _ _ (by omega) (by omega)
  have hre : ∀ k (hk : k < gm.length), ∀ b < 4, gm[k] 0 b = ((p.getD (32 * k + b) 0 : ℝ) : ℂ) := by
    intro k hk b hb
    have := (hget k hk 0 (by omega) b hb).1
    rw [show 32 * k + (4 * 0 + b) = 32 * k + b by omega] at this
    rw [this]
    exact Complex.ext rfl (ptm_real _ (hpsd _ (List.getElem_mem hk)).1 _ _ (by omega) hb)
  have hmem : (∀ g ∈ gm, TracePreserving (choiOf g)) ↔ ∀ k (hk : k < gm.length), TracePreserving (choiOf gm[k]) := by
    constructor
    · exact fun hh k hk => hh _ (List.getElem_mem hk)
    · intro hh g hg
      obtain ⟨k, hk, rfl⟩ := List.getElem_of_mem hg
      exact hh k hk
  rw [hmem]
  simp only [List.mem_flatMap, List.mem_range, List.mem_cons, List.mem_append, List.mem_map, forall_exists_index, and_imp]
  constructor
  · intro hh k hk
    have hk' : k < n := hlen ▸ hk
    rw [tp_iff, hre k hk 0 (by omega), hre k hk 1 (by omega), hre k hk 2 (by omega), hre k hk 3 (by omega)]
    have a0 := hh _ k hk' (Or.inl (Or.inl rfl))
    have a1 := hh _ k hk' (Or.inl (Or.inr ⟨0, by omega, rfl⟩))
    have a2 := hh _ k hk' (Or.inl (Or.inr ⟨1, by omega, rfl⟩))
    have a3 := hh _ k hk' (Or.inl (Or.inr ⟨2, by omega, rfl⟩))
    refine ⟨?_, ?_, ?_, ?_⟩
    · rw [Nat.add_zero]; exact_mod_cast sub_eq_zero.1 a0
    · exact_mod_cast a1
    · exact_mod_cast a2
    · exact_mod_cast a3
  · intro hh v k hk hv
    have hk' : k < gm.length := hlen.symm ▸ hk
    have htp := (tp_iff _).1 (hh k hk')
    rw [hre k hk' 0 (by omega), hre k hk' 1 (by omega), hre k hk' 2 (by omega), hre k hk' 3 (by omega)] at htp
    norm_cast at htp
    obtain ⟨a0, a1, a2, a3⟩ := htp
    rcases hv with (rfl | ⟨i, hi, rfl⟩) | ⟨i, hi, rfl⟩
    · rw [Nat.add_zero] at a0; rw [a0, sub_self]
    · interval_cases i
      · exact a1
      · exact a2
      · exact a3
    · exact him k hk' i hi

/-- **C89** (inequality constraints).  The inequality constraints bound the entries of the last three rows of every Pauli transfer matrix. -/
theorem C89_inequalities (n : ℕ) (x : List ℝ) (e r : ℕ → ℂ) (gm : List (ℕ → ℕ → ℂ)) (h : splitInputVector n x = some (e, r, gm)) :
    ∃ vals, boundsIneq n x = some vals ∧
      ((∀ v ∈ vals, 0 ≤ v) ↔ ∀ g ∈ gm, ∀ a ∈ [1, 2, 3], ∀ b ∈ [0, 1, 2, 3], |(g a b).re| ≤ 1) := by
  obtain ⟨p, hp, hget⟩ := values_get n x e r gm h
  obtain ⟨hlen, -⟩ := C89_completely_positive n x e r gm h
  unfold boundsIneq
  rw [hp]
  refine ⟨_, rfl, ?_⟩
  have hm : ∀ a, a ∈ [1, 2, 3] ↔ 1 ≤ a ∧ a < 4 := by intro a; simp; omega
  have hm' : ∀ a, a ∈ [0, 1, 2, 3] ↔ a < 4 := by intro a; simp; omega
  simp only [hm, hm', List.mem_flatMap, List.mem_range, List.mem_cons, List.not_mem_nil, or_false, forall_exists_index, and_imp]
  constructor
  · intro hh g hg a ha ha' b hb
    obtain ⟨k, hk, rfl⟩ := List.getElem_of_mem hg
    have e1 := (hget k hk a ha' b hb).1
    have h1 := hh _ k (hlen ▸ hk) (4 * (a - 1) + b) (by omega) (Or.inl rfl)
    have h2 := hh _ k (hlen ▸ hk) (4 * (a - 1) + b) (by omega) (Or.inr rfl)
    rw [show 32 * k + 4 + (4 * (a - 1) + b) = 32 * k + (4 * a + b) by omega, e1] at h1 h2
    rw [abs_le]
    constructor <;> linarith
  · intro hh v k hk i hi hv
    have hk' : k < gm.length := hlen.symm ▸ hk
    have e1 := (hget k hk' (i / 4 + 1) (by omega) (i % 4) (by omega)).1
    have := hh _ (List.getElem_mem hk') (i / 4 + 1) (by omega) (by omega) (i % 4) (by omega)
    rw [← e1, show 32 * k + (4 * (i / 4 + 1) + i % 4) = 32 * k + 4 + i by omega, abs_le] at this
    rcases hv with rfl | rfl <;> linarith

/-- **C89** (state).  The constraint on the initial state is that the reported matrix has trace one. -/
theorem C89_trace (n : ℕ) (x : List ℝ) (e r : ℕ → ℂ) (gm : List (ℕ → ℕ → ℂ)) (h : splitInputVector n x = some (e, r, gm)) :
    ∃ vals, rhoTrace n x = some vals ∧ ((∀ v ∈ vals, v = 0) ↔ (operatorOf r).trace = 1) := by
  unfold rhoTrace
  rw [h]
  refine ⟨_, rfl, ?_⟩
  have : (operatorOf r).trace = ∑ i ∈ Finset.range 2, convertFromPtm r i i := by
    rw [Matrix.trace, Fin.sum_univ_two, Finset.sum_range_succ, Finset.sum_range_one]
    rfl
  rw [this]
  simp only [List.mem_cons, List.not_mem_nil, or_false, forall_eq_or_imp, forall_eq]
  rw [Complex.ext_iff, sub_eq_zero]
  rfl

/-! The inequality constraints are implied. -/

/-- The observable whose mean in the Choi matrix is twice an entry of the Pauli transfer matrix. -/
noncomputable def obs (a b : ℕ) : Matrix (Fin 4) (Fin 4) ℂ := Matrix.of fun y x => pauli1 a (y % 2) (x % 2) * pauli1 b (x / 2) (y / 2)

theorem pauli_conj (a : ℕ) (ha : a < 4) (i j : ℕ) (hi : i < 2) (hj : j < 2) : (starRingEnd ℂ) (pauli1 a i j) = pauli1 a j i := by
  interval_cases a <;> interval_cases i <;> interval_cases j <;> simp [pauli1]

theorem pauli_sq (a : ℕ) (ha : a < 4) (i k : ℕ) (hi : i < 2) (hk : k < 2) :
    pauli1 a i 0 * pauli1 a 0 k + pauli1 a i 1 * pauli1 a 1 k = if i = k then 1 else 0 := by
  interval_cases a <;> interval_cases i <;> interval_cases k <;> simp [pauli1]

theorem obs_herm (a b : ℕ) (ha : a < 4) (hb : b < 4) : (obs a b)ᴴ = obs a b := by
  ext y x
  simp only [obs, Matrix.conjTranspose_apply, Matrix.of_apply]
  show (starRingEnd ℂ) _ = _
  rw [map_mul, pauli_conj a ha _ _ (by omega) (by omega), pauli_conj b hb _ _ (by omega) (by omega)]

theorem obs_sq (a b : ℕ) (ha : a < 4) (hb : b < 4) : obs a b * obs a b = 1 := by
  ext y x
  rw [Matrix.mul_apply, Fin.sum_univ_four]
  simp only [obs, Matrix.of_apply]
  have h1 := pauli_sq a ha (y % 2) (x % 2) (by omega) (by omega)
  have h2 := pauli_sq b hb (x / 2) (y / 2) (by omega) (by omega)
  have : ∀ y x : Fin 4, ((if (y : ℕ) % 2 = x % 2 then (1 : ℂ) else 0) * if (x : ℕ) / 2 = y / 2 then 1 else 0) = (1 : Matrix (Fin 4) (Fin 4) ℂ) y x := by
    intro y x
    rw [Matrix.one_apply]
    by_cases h : y = x
    · subst h; simp
    · rw [if_neg h]
      have : ¬((y : ℕ) % 2 = x % 2 ∧ (x : ℕ) / 2 = y / 2) := fun e => h (Fin.ext (by omega))
      by_cases h' : (y : ℕ) % 2 = x % 2
      · rw [if_neg fun e => this ⟨h', e⟩, mul_zero]
      · rw [if_neg h', zero_mul]
  rw [← this, ← h1, ← h2]
  simp only [Fin.val_zero, Fin.val_one, Fin.val_two, show ((3 : Fin 4) : ℕ) = 3 from rfl, Nat.zero_mod, Nat.zero_div, Nat.one_mod,
    show 1 % 2 = 1 from rfl, show 1 / 2 = 0 from rfl, show 2 % 2 = 0 from rfl, show 2 / 2 = 1 from rfl, show 3 % 2 = 1 from rfl, show 3 / 2 = 1 from rfl]
  ring

theorem obs_trace (g : ℕ → ℕ → ℂ) (a b : ℕ) (ha : a < 4) (hb : b < 4) : (obs a b * choiOf g).trace = 2 * g a b := by
  rw [choiToPtm_choiOf g a b ha hb]
  simp only [Matrix.trace, Matrix.diag, Matrix.mul_apply, Fin.sum_univ_four, obs, choiOf, Matrix.of_apply, Finset.sum_range_succ,
    Finset.sum_range_zero]
  simp only [Fin.val_zero, Fin.val_one, Fin.val_two, show ((3 : Fin 4) : ℕ) = 3 from rfl, Nat.zero_mod, Nat.zero_div, Nat.one_mod,
    show 1 % 2 = 1 from rfl, show 1 / 2 = 0 from rfl, show 2 % 2 = 0 from rfl, show 2 / 2 = 1 from rfl, show 3 % 2 = 1 from rfl, show 3 / 2 = 1 from rfl,
    Nat.mul_zero, Nat.zero_add, Nat.mul_one, Nat.add_zero, show 2 + 1 = 3 from rfl]
  ring

theorem weight_nonneg (C W : Matrix (Fin 4) (Fin 4) ℂ) (hC : C.PosSemidef) (hW : Wᴴ = W) (hs : W * W = 2 • W) : 0 ≤ (W * C).trace := by
  have h1 : (W * C * Wᴴ).PosSemidef := hC.mul_mul_conjTranspose_same W
  have h2 := h1.trace_nonneg
  rw [Matrix.trace_mul_comm, ← Matrix.mul_assoc, hW, hs, Matrix.smul_mul, Matrix.trace_smul] at h2
  rw [Complex.le_def] at h2 ⊢
  simp only [nsmul_eq_mul, Nat.cast_ofNat, Complex.mul_re, Complex.re_ofNat, Complex.im_ofNat, zero_mul, sub_zero, Complex.mul_im,
    add_zero, Complex.zero_re, Complex.zero_im] at h2 ⊢
  constructor
  · linarith [h2.1]
  · linarith [h2.2]

/-- **C89** (redundant).  The entries of a trace preserving completely positive gate lie between −1 and 1: once the equality constraints
hold, so do the inequality constraints. -/
theorem C89_bounded (g : ℕ → ℕ → ℂ) (hp : (choiOf g).PosSemidef) (ht : TracePreserving (choiOf g)) (a b : ℕ) (ha : a < 4) (hb : b < 4) :
    |(g a b).re| ≤ 1 := by
  have htr : (choiOf g).trace = 2 := by
    rw [Matrix.trace, Fin.sum_univ_four]
    simp only [Matrix.diag]
    linear_combination ht.1 + ht.2.2.2
  have h1 := weight_nonneg (choiOf g) (1 + obs a b) hp (by rw [Matrix.conjTranspose_add, Matrix.conjTranspose_one, obs_herm a b ha hb])
    (by rw [add_mul, mul_add, mul_add, obs_sq a b ha hb, one_mul, mul_one, one_mul, two_smul]; abel)
  have h2 := weight_nonneg (choiOf g) (1 - obs a b) hp (by rw [Matrix.conjTranspose_sub, Matrix.conjTranspose_one, obs_herm a b ha hb])
    (by rw [sub_mul, mul_sub, mul_sub, obs_sq a b ha hb, one_mul, mul_one, one_mul, two_smul]; abel)
  rw [add_mul, Matrix.trace_add, one_mul, htr, obs_trace g a b ha hb, Complex.le_def] at h1
  rw [sub_mul, Matrix.trace_sub, one_mul, htr, obs_trace g a b ha hb, Complex.le_def] at h2
  have h1 := h1.1
  have h2 := h2.1
  simp at h1 h2
  rw [abs_le]
  constructor <;> linarith

/-! The state is not constrained to be a state. -/

theorem sqrt_half_mul : (((√(1/2) : ℝ) : ℂ)) * ((√(1/2) : ℝ) : ℂ) = 1/2 := by
  rw [← Complex.ofReal_mul, Real.mul_self_sqrt (by norm_num)]
  push_cast
  rfl

theorem operatorOf_entries (v : ℕ → ℂ) : operatorOf v 0 0 = √(1/2) * (v 0 + v 3) ∧ operatorOf v 1 1 = √(1/2) * (v 0 - v 3) ∧
    operatorOf v 0 1 = √(1/2) * (v 1 - Complex.I * v 2) ∧ operatorOf v 1 0 = √(1/2) * (v 1 + Complex.I * v 2) := by
  unfold operatorOf convertFromPtm
  simp only [Matrix.of_apply, Finset.sum_range_succ, Finset.sum_range_zero, pauli1, Fin.val_zero, Fin.val_one]
  refine ⟨?_, ?_, ?_, ?_⟩ <;> simp <;> ring

/-- **C89, finding.**  Because the vector of Pauli coefficients of the state is read as a 2×2 matrix `T T†`, the reported state is never
less likely to give 0 than 1, and if it is Hermitian its X and Y components are equal: `|1⟩` and `|+⟩` cannot be reported.  The same holds
for the effect. -/
theorem C89_finding_states (n : ℕ) (x : List ℝ) (e r : ℕ → ℂ) (gm : List (ℕ → ℕ → ℂ)) (h : splitInputVector n x = some (e, r, gm)) :
    0 ≤ (operatorOf r 0 0 - operatorOf r 1 1).re ∧
    ((operatorOf r).IsHermitian → operatorOf r 0 1 + operatorOf r 1 0 = Complex.I * (operatorOf r 0 1 - operatorOf r 1 0)) ∧
    operatorOf r ≠ !![0, 0; 0, 1] ∧ operatorOf r ≠ !![1/2, 1/2; 1/2, 1/2] := by
  obtain ⟨te, tr, ts, h1, h2, h3, h4, h5⟩ := split_spec n x _ h
  simp only [Prod.mk.injEq] at h5
  obtain ⟨-, rfl, -⟩ := h5
  obtain ⟨e00, e11, e01, e10⟩ := operatorOf_entries fun k => (gramOf tr).e (k / 2) (k % 2)
  set ρ := operatorOf fun k => (gramOf tr).e (k / 2) (k % 2)
  simp only [show 0 / 2 = 0 from rfl, show 0 % 2 = 0 from rfl, show 1 % 2 = 1 from rfl, show 1 / 2 = 0 from rfl, show 2 % 2 = 0 from rfl,
    show 2 / 2 = 1 from rfl, show 3 % 2 = 1 from rfl, show 3 / 2 = 1 from rfl] at e00 e11 e01 e10
  have hpos : 0 ≤ ((gramOf tr).e 1 1).re := by
    unfold gramOf
    simp only [Complex.re_sum, Complex.mul_conj, Complex.ofReal_re]
    exact Finset.sum_nonneg fun _ _ => Complex.normSq_nonneg _
  have hconj : (starRingEnd ℂ) ((gramOf tr).e 0 1) = (gramOf tr).e 1 0 := by
    unfold gramOf
    simp only [map_sum, map_mul, Complex.conj_conj]
    exact Finset.sum_congr rfl fun _ _ => mul_comm _ _
  have hs : (0 : ℝ) < √(1/2) := Real.sqrt_pos.2 (by norm_num)
  have hsC : ((√(1/2) : ℝ) : ℂ) ≠ 0 := by exact_mod_cast hs.ne'
  have c1 : 0 ≤ (ρ 0 0 - ρ 1 1).re := by
    rw [e00, e11, show ((√(1/2) : ℝ) : ℂ) * ((gramOf tr).e 0 0 + (gramOf tr).e 1 1) - √(1/2) * ((gramOf tr).e 0 0 - (gramOf tr).e 1 1) =
      ((2 * √(1/2) : ℝ) : ℂ) * (gramOf tr).e 1 1 by push_cast; ring, Complex.re_ofReal_mul]
    positivity
  have c2 : ρ.IsHermitian → ρ 0 1 + ρ 1 0 = Complex.I * (ρ 0 1 - ρ 1 0) := by
    intro hh
    have h01 : (starRingEnd ℂ) (ρ 0 1) = ρ 1 0 := hh.apply 1 0
    rw [e01, e10, map_mul, Complex.conj_ofReal] at h01
    have h01 := mul_left_cancel₀ hsC h01
    rw [map_sub, map_mul, Complex.conj_I, hconj] at h01
    have hc2 : (starRingEnd ℂ) ((gramOf tr).e 1 0) = (gramOf tr).e 0 1 := by rw [← hconj, Complex.conj_conj]
    rw [hc2] at h01
    have hI := Complex.I_mul_I
    have hI1 : (1 - Complex.I) ≠ 0 := by
      intro hz
      have := congrArg Complex.re hz
      simp at this
    have heq : (gramOf tr).e 1 0 = (gramOf tr).e 0 1 := by
      refine mul_left_cancel₀ hI1 ?_
      linear_combination h01
    rw [e01, e10, heq]
    linear_combination (2 * √(1/2) * (gramOf tr).e 0 1) * hI
  refine ⟨c1, c2, ?_, ?_⟩
  · intro hz
    rw [hz] at c1
    simp at c1
    linarith
  · intro hz
    have hherm : ρ.IsHermitian := by
      rw [hz]
      ext i j
      fin_cases i <;> fin_cases j <;> simp
    have := c2 hherm
    rw [hz] at this
    simp at this

/-- **C89, finding.**  All constraints can hold while the reported initial state is not positive semidefinite. -/
theorem C89_finding_negative : ∃ x e r gm veq vineq vtr, splitInputVector 1 x = some (e, r, gm) ∧
    boundsEq 1 x = some veq ∧ (∀ v ∈ veq, v = 0) ∧ boundsIneq 1 x = some vineq ∧ (∀ v ∈ vineq, 0 ≤ v) ∧
    rhoTrace 1 x = some vtr ∧ (∀ v ∈ vtr, v = 0) ∧ ¬ (operatorOf r).PosSemidef := by
  let tr : CM := ⟨2, fun i j => if i = j then (if i = 0 then ((√(√(1/2)) : ℝ) : ℂ) else 2) else 0⟩
  let tg : CM := ⟨4, fun i j => if j = 0 ∧ (i = 0 ∨ i = 3) then 1 else 0⟩
  obtain ⟨x, ⟨e, r, gm⟩, h1, -, h3, h4⟩ := split_pack tr tr [tg] rfl rfl (by simp [tg])
  have h1 : splitInputVector 1 x = some (e, r, gm) := h1
  simp only at h3 h4
  obtain ⟨veq, a1, a2⟩ := C89_equalities 1 x e r gm h1
  obtain ⟨vineq, b1, b2⟩ := C89_inequalities 1 x e r gm h1
  obtain ⟨vtr, c1, c2⟩ := C89_trace 1 x e r gm h1
  obtain ⟨-, hpsd⟩ := C89_completely_positive 1 x e r gm h1
  have htp : ∀ g ∈ gm, TracePreserving (choiOf g) := by
    rw [h4]
    intro g hg
    simp only [List.map_cons, List.map_nil, List.mem_singleton] at hg
    subst hg
    rw [choiOf_gram tg rfl]
    unfold TracePreserving
    simp [tg, CM.mat, Matrix.mul_apply, Fin.sum_univ_four]
  have r0 : r 0 = ((√(1/2) : ℝ) : ℂ) := by
    rw [h3 0 (by omega)]
    unfold gramOf
    simp only [tr, Finset.sum_range_succ, Finset.sum_range_zero]
    simp only [Nat.zero_div, Nat.zero_mod, if_true, Complex.conj_ofReal]
    rw [← Complex.ofReal_mul, Real.mul_self_sqrt (Real.sqrt_nonneg _)]
    simp
  have r3 : r 3 = 4 := by
    rw [h3 3 (by omega)]
    unfold gramOf
    simp only [tr, Finset.sum_range_succ, Finset.sum_range_zero]
    simp
    rw [map_ofNat]
    norm_num
  obtain ⟨e00, e11, -, -⟩ := operatorOf_entries r
  refine ⟨x, e, r, gm, veq, vineq, vtr, h1, a1, a2.2 htp, b1, b2.2 ?_, c1, c2.2 ?_, ?_⟩
  · intro g hg a ha b hb
    refine C89_bounded g (hpsd g hg) (htp g hg) a b ?_ ?_
    · simp at ha; omega
    · simp at hb; omega
  · rw [Matrix.trace, Fin.sum_univ_two]
    simp only [Matrix.diag]
    rw [e00, e11, r0]
    linear_combination 2 * sqrt_half_mul
  · intro hps
    have hd : 0 ≤ operatorOf r 1 1 := hps.diag_nonneg
    rw [e11, r0, r3, mul_sub, sqrt_half_mul, Complex.le_def] at hd
    have := hd.1
    simp only [Complex.sub_re, Complex.zero_re] at this
    rw [show ((√(1/2) : ℝ) : ℂ) * 4 = ((√(1/2) * 4 : ℝ) : ℂ) by push_cast; rfl, Complex.ofReal_re] at this
    have hlow : (1/2 : ℝ) ≤ √(1/2) := Real.le_sqrt_of_sq_le (by norm_num)
    norm_num at this
    norm_num at hlow
    linarith

end Verif.Tomo
