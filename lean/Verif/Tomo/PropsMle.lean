import Verif.Tomo.Gst
import Mathlib.Data.List.GetD
import Verif.Py.SplitLemmas
import Mathlib.Analysis.Matrix.Spectrum
import Mathlib.Analysis.Matrix.PosDef
import Mathlib.Tactic.IntervalCases
import Mathlib.Tactic.Linarith
import Mathlib.Tactic.LinearCombination
/-
C56: the vector representation of gate sets.
-/
set_option linter.unusedSimpArgs false
set_option linter.unusedVariables false
namespace Verif.Tomo
open Verif Verif.Counts Matrix
open scoped ComplexOrder

/-! Lists. -/

theorem split_fold {α : Type} (input : List α) (sizes : List ℕ) (acc : List (List α)) (p : ℕ) :
    ∃ parts, (sizes.foldl (fun (st : List (List α) × ℕ) s => (st.1 ++ [(input.drop st.2).take s], st.2 + s)) (acc, p)).1 = acc ++ parts ∧
      (p + sizes.sum = input.length → parts.flatten = input.drop p ∧ parts.map List.length = sizes) := by
  induction sizes generalizing acc p with
  | nil =>
    refine ⟨[], by simp, fun h => ?_⟩
    have : p = input.length := by simpa using h
    simp [this]
  | cons s sizes ih =>
    obtain ⟨parts, h1, h2⟩ := ih (acc ++ [(input.drop p).take s]) (p + s)
    refine ⟨(input.drop p).take s :: parts, ?_, fun h => ?_⟩
    · rw [List.foldl_cons, h1, List.append_assoc, List.singleton_append]
    · rw [List.sum_cons] at h
      obtain ⟨a, b⟩ := h2 (by omega)
      constructor
      · rw [List.flatten_cons, a, ← List.drop_drop, List.take_append_drop]
      · rw [List.map_cons, b, List.length_take, List.length_drop, Nat.min_eq_left (by omega)]

theorem flatten_inj {α : Type} (a b : List (List α)) (h : a.flatten = b.flatten) (hl : a.map List.length = b.map List.length) : a = b := by
  induction a generalizing b with
  | nil => cases b with
    | nil => rfl
    | cons _ _ => simp at hl
  | cons x a ih =>
    cases b with
    | nil => simp at hl
    | cons y b =>
      simp only [List.map_cons, List.cons.injEq] at hl
      rw [List.flatten_cons, List.flatten_cons] at h
      obtain ⟨h1, h2⟩ := List.append_inj h hl.1
      rw [h1, ih b h2 hl.2]

/-- **C56** (lists).  Splitting succeeds exactly when the sizes add up, and the parts are the ones with those sizes whose concatenation
is the list. -/
theorem C56_split {α : Type} (input : List α) (sizes : List ℕ) (parts : List (List α)) :
    splitList input sizes = some parts ↔ parts.flatten = input ∧ parts.map List.length = sizes := by
  obtain ⟨p, h1, h2⟩ := split_fold input sizes [] 0
  unfold splitList
  by_cases hs : sizes.sum = input.length
  · rw [if_neg (by simpa using hs), h1, List.nil_append]
    obtain ⟨a, b⟩ := h2 (by omega)
    rw [List.drop_zero] at a
    constructor
    · rintro h
      obtain rfl := Option.some.inj h
      exact ⟨a, b⟩
    · rintro ⟨c, d⟩
      rw [flatten_inj p parts (a.trans c.symm) (b.trans d.symm)]
  · rw [if_pos hs]
    refine ⟨fun h => (nomatch h), ?_⟩
    rintro ⟨rfl, rfl⟩
    exact absurd (List.length_flatten ▸ rfl) hs

theorem C56_split_rejects {α : Type} (input : List α) (sizes : List ℕ) : splitList input sizes = none ↔ sizes.sum ≠ input.length := by
  unfold splitList
  split <;> simp_all

example : splitList [1, 2, 3, 4, 5, 6, 7] [1, 4, 2] = some [[1], [2, 3, 4, 5], [6, 7]] := by decide

/-! Complex matrices as real lists. -/

/-- Specification: a matrix of the mathematics library read from the model's matrix. -/
def CM.mat (m : CM) (n : ℕ) : Matrix (Fin n) (Fin n) ℂ := Matrix.of fun i j => m.e i j

/-- Specification: the same matrix. -/
def CM.Same (a b : CM) : Prop := a.n = b.n ∧ ∀ i < a.n, ∀ j < a.n, a.e i j = b.e i j

theorem sqrt_two_sq (n : ℕ) : Nat.sqrt (2 * n * n / 2) = n := by
  rw [Nat.mul_assoc, Nat.mul_div_cancel_left _ two_pos, Nat.sqrt_eq]

theorem length_complexMatrixToVec (m : CM) : (complexMatrixToVec m).length = 2 * m.n * m.n := by
  unfold complexMatrixToVec
  simp only [List.length_append, List.length_map, List.length_range]
  ring

theorem complexMatrixToVec_re (m : CM) (i j : ℕ) (hi : i < m.n) (hj : j < m.n) :
    (complexMatrixToVec m).getD (i * m.n + j) 0 = (m.e i j).re ∧ (complexMatrixToVec m).getD (m.n * m.n + (i * m.n + j)) 0 = (m.e i j).im := by
  have hk : i * m.n + j < m.n * m.n := by
    calc i * m.n + j < i * m.n + m.n := by omega
      _ = (i + 1) * m.n := by ring
      _ ≤ m.n * m.n := Nat.mul_le_mul_right _ hi
  have hd : (i * m.n + j) / m.n = i := by
    rw [Nat.add_comm, Nat.add_mul_div_right _ _ (by omega), Nat.div_eq_of_lt hj, Nat.zero_add]
  have hm : (i * m.n + j) % m.n = j := by
    rw [Nat.add_comm, Nat.add_mul_mod_self_right, Nat.mod_eq_of_lt hj]
  unfold complexMatrixToVec
  simp only
  constructor
  · rw [List.getD_append _ _ _ _ (by simpa using hk)]
    rw [List.getD_eq_getElem _ _ (by simpa using hk)]
    simp [hd, hm]
  · rw [List.getD_append_right _ _ _ _ (by simp)]
    simp only [List.length_map, List.length_range, Nat.add_sub_cancel_left]
    rw [List.getD_eq_getElem _ _ (by simpa using hk)]
    simp [hd, hm]

/-- **C56** (matrices).  Unpacking a packed matrix gives the matrix back. -/
theorem C56_pack (m : CM) : ∃ m', vecToComplexMatrix (complexMatrixToVec m) = some m' ∧ m'.Same m := by
  unfold vecToComplexMatrix
  simp only [length_complexMatrixToVec, sqrt_two_sq, ne_eq, not_true_eq_false, if_false]
  refine ⟨_, rfl, rfl, ?_⟩
  intro i hi j hj
  obtain ⟨h1, h2⟩ := complexMatrixToVec_re m i j hi hj
  exact Complex.ext h1 h2

/-- **C56** (matrices).  Packing an unpacked list gives the list back, and exactly the lists of length `2 n²` can be unpacked. -/
theorem C56_unpack (vec : List ℝ) :
    (∀ m, vecToComplexMatrix vec = some m → complexMatrixToVec m = vec) ∧
    (vecToComplexMatrix vec = none ↔ ∀ n, vec.length ≠ 2 * n * n) := by
  constructor
  · intro m h
    unfold vecToComplexMatrix at h
    simp only at h
    split at h
    · cases h
    · rename_i hl
      rw [not_not] at hl
      obtain rfl := Option.some.inj h
      generalize Nat.sqrt (vec.length / 2) = n at hl
      unfold complexMatrixToVec
      simp only [List.map_map, Function.comp_def]
      refine List.ext_getElem (by simp; rw [← hl]; ring) ?_
      intro k h1 h2
      have hdm : ∀ k, k / n * n + k % n = k := fun k => by rw [Nat.mul_comm]; exact Nat.div_add_mod k n
      by_cases hk : k < n * n
      · rw [List.getElem_append_left (by simpa using hk)]
        simp [hdm, h2]
      · rw [List.getElem_append_right (by simpa using hk)]
        simp only [List.getElem_map, List.getElem_range, List.length_map, List.length_range, hdm]
        rw [Nat.add_sub_cancel' (by omega), List.getD_eq_getElem _ _ h2]
  · unfold vecToComplexMatrix
    simp only
    constructor
    · intro h n hn
      rw [hn, sqrt_two_sq] at h
      simp at h
    · intro h
      rw [if_pos fun e => h _ e.symm]

/-! The cholesky-like decomposition. -/

/-- Specification of `scipy.linalg.schur`: `m = u d u†` with `u` unitary and `d` upper triangular. -/
structure IsSchur (m d u : CM) : Prop where
  unitary : (u.mat m.n)ᴴ * u.mat m.n = 1
  triangular : ∀ i < m.n, ∀ j < i, d.e i j = 0
  decomp : m.mat m.n = u.mat m.n * d.mat m.n * (u.mat m.n)ᴴ

theorem gramOf_mat (t : CM) : (gramOf t).mat t.n = t.mat t.n * (t.mat t.n)ᴴ := by
  ext i j
  simp only [CM.mat, gramOf, Matrix.mul_apply, Matrix.of_apply, Matrix.conjTranspose_apply]
  rw [Finset.sum_range fun k => t.e i k * (starRingEnd ℂ) (t.e j k)]
  rfl

theorem sqrt_mul_conj (z : ℂ) (h : 0 ≤ z) : z ^ (1/2 : ℂ) * (starRingEnd ℂ) (z ^ (1/2 : ℂ)) = z := by
  obtain ⟨x, hx, rfl⟩ : ∃ x : ℝ, 0 ≤ x ∧ (x : ℂ) = z := by
    rw [Complex.le_def] at h
    exact ⟨z.re, h.1, Complex.ext rfl h.2⟩
  have : ((1/2 : ℂ)) = ((1/2 : ℝ) : ℂ) := by push_cast; rfl
  rw [this, ← Complex.ofReal_cpow hx, Complex.conj_ofReal, ← Complex.ofReal_mul, ← Real.rpow_add_of_nonneg hx (by norm_num) (by norm_num)]
  norm_num

/-- **C56** (decomposition).  For a positive semidefinite matrix `m`, `get_cholesky_like_decomposition` returns `T` with `T T† = m`. -/
theorem C56_decomposition (schur : CM → CM × CM) (m : CM) (hs : IsSchur m (schur m).1 (schur m).2) (hm : (m.mat m.n).PosSemidef) :
    (gramOf (choleskyLike schur m)).Same m := by
  obtain ⟨h1, h2, h3⟩ := hs
  set d := (schur m).1
  set u := (schur m).2
  have h1' : u.mat m.n * (u.mat m.n)ᴴ = 1 := mul_eq_one_comm.1 h1
  have hd : d.mat m.n = (u.mat m.n)ᴴ * m.mat m.n * u.mat m.n := by
    rw [h3]
    calc d.mat m.n = 1 * d.mat m.n * 1 := by simp
      _ = _ := by rw [← h1]; simp only [Matrix.mul_assoc]
  have hdp : (d.mat m.n).PosSemidef := by
    rw [hd]
    exact hm.conjTranspose_mul_mul_same _
  have hoff : ∀ i j : Fin m.n, i ≠ j → d.mat m.n i j = 0 := by
    intro i j hij
    rcases lt_or_gt_of_ne hij with h | h
    · rw [← hdp.1.apply i j]
      have := h2 j j.2 i h
      simp only [CM.mat, Matrix.of_apply, this, star_zero]
    · exact h2 i i.2 j h
  have hdiag : ∀ i : Fin m.n, 0 ≤ d.mat m.n i i := fun i => hdp.diag_nonneg
  have key : (choleskyLike schur m).mat m.n = u.mat m.n * Matrix.diagonal fun i => (d.mat m.n i i) ^ (1/2 : ℂ) := by
    ext i j
    rw [Matrix.mul_diagonal]
    have hnn := hdiag j
    simp only [CM.mat, Matrix.of_apply] at hnn ⊢
    have hneg : ¬((d.e j j).re < 0 ∨ ((d.e j j).re = 0 ∧ (d.e j j).im < 0)) := by
      rw [Complex.le_def] at hnn
      have a := hnn.1
      have b := hnn.2
      simp only [Complex.zero_re, Complex.zero_im] at a b
      rintro (h | ⟨_, h⟩) <;> linarith
    have : (choleskyLike schur m).e i j = u.e i j * (open Classical in if ((d.e j j).re < 0 ∨ ((d.e j j).re = 0 ∧ (d.e j j).im < 0)) then
        0 else d.e j j) ^ (1/2 : ℂ) := rfl
    rw [this, if_neg hneg]
  refine ⟨rfl, ?_⟩
  have hmat : (gramOf (choleskyLike schur m)).mat m.n = m.mat m.n := by
    have := gramOf_mat (choleskyLike schur m)
    refine this.trans ?_
    show (choleskyLike schur m).mat m.n * ((choleskyLike schur m).mat m.n)ᴴ = _
    rw [key, h3, Matrix.conjTranspose_mul, Matrix.diagonal_conjTranspose]
    have hdd : d.mat m.n = (Matrix.diagonal fun i => (d.mat m.n i i) ^ (1/2 : ℂ)) *
        Matrix.diagonal (star fun i => (d.mat m.n i i) ^ (1/2 : ℂ)) := by
      rw [Matrix.diagonal_mul_diagonal]
      ext i j
      by_cases hij : i = j
      · subst hij
        rw [Matrix.diagonal_apply_eq]
        exact (sqrt_mul_conj _ (hdiag i)).symm
      · rw [Matrix.diagonal_apply_ne _ hij, hoff i j hij]
    conv_rhs => rw [hdd]
    simp only [Matrix.mul_assoc]
  intro i hi j hj
  exact congrFun (congrFun hmat ⟨i, hi⟩) ⟨j, hj⟩

/-- Every Hermitian matrix has such a decomposition. -/
theorem exists_schur (m : CM) (hm : (m.mat m.n).IsHermitian) : ∃ d u, IsSchur m d u := by
  let U : Matrix (Fin m.n) (Fin m.n) ℂ := hm.eigenvectorUnitary
  let D : Matrix (Fin m.n) (Fin m.n) ℂ := Matrix.diagonal fun i => (hm.eigenvalues i : ℂ)
  have hU : Uᴴ * U = 1 := Matrix.UnitaryGroup.star_mul_self hm.eigenvectorUnitary
  have hdec : m.mat m.n = U * D * Uᴴ := hm.spectral_theorem
  let toCM : Matrix (Fin m.n) (Fin m.n) ℂ → CM := fun M => ⟨m.n, fun i j => if h : i < m.n ∧ j < m.n then M ⟨i, h.1⟩ ⟨j, h.2⟩ else 0⟩
  have hto : ∀ M, (toCM M).mat m.n = M := by
    intro M
    ext i j
    simp [toCM, CM.mat]
  refine ⟨toCM D, toCM U, ?_, ?_, ?_⟩
  · rw [hto]; exact hU
  · intro i hi j hj
    have hj' : j < m.n := by omega
    simp only [toCM, hi, hj', and_self, dif_pos, D]
    exact Matrix.diagonal_apply_ne _ (by simp; omega)
  · rw [hto, hto]; exact hdec

end Verif.Tomo
