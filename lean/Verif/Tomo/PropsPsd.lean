import Verif.Tomo.LemmasWizard
import Mathlib.LinearAlgebra.Matrix.Trace
import Mathlib.LinearAlgebra.Matrix.ConjTranspose
import Mathlib.LinearAlgebra.Matrix.NonsingularInverse
import Mathlib.Data.Complex.BigOperators
import Mathlib.Tactic.IntervalCases
/-
C52: `make_positive_semidefinite`.
-/
set_option linter.unusedSectionVars false
set_option linter.unusedSimpArgs false
set_option linter.unusedVariables false
namespace Verif.Tomo
open Matrix

/-- Specification: what `la.eigh` returns for a Hermitian matrix: increasing eigenvalues, orthonormal eigenvectors in the columns of
`w`, and together they make the matrix. -/
structure IsEigh (dim : ℕ) (m : ℕ → ℕ → ℂ) (v : ℕ → ℝ) (w : ℕ → ℕ → ℂ) : Prop where
  mono : ∀ i k, i ≤ k → k < dim → v i ≤ v k
  ortho : ∀ i j, i < dim → j < dim → ∑ r ∈ Finset.range dim, (starRingEnd ℂ) (w r i) * w r j = if i = j then 1 else 0
  decomp : ∀ r c, r < dim → c < dim → m r c = ∑ j ∈ Finset.range dim, (v j : ℂ) * (w r j * (starRingEnd ℂ) (w c j))

/-- Specification: positive semidefinite. -/
def PSD (dim : ℕ) (m : ℕ → ℕ → ℂ) : Prop :=
  ∀ u : ℕ → ℂ, ∃ t : ℝ, 0 ≤ t ∧ ∑ r ∈ Finset.range dim, ∑ c ∈ Finset.range dim, (starRingEnd ℂ) (u r) * m r c * u c = t

/-- Specification: trace. -/
noncomputable def tr (dim : ℕ) (m : ℕ → ℕ → ℂ) : ℂ := ∑ k ∈ Finset.range dim, m k k

/-- Specification: squared Frobenius (Euclidean) distance. -/
noncomputable def dist2 (dim : ℕ) (m p : ℕ → ℕ → ℂ) : ℝ :=
  ∑ r ∈ Finset.range dim, ∑ c ∈ Finset.range dim, Complex.normSq (m r c - p r c)

/-! Helpers: Mathlib matrices. -/

/-- The entries below `dim`. -/
def toM (dim : ℕ) (m : ℕ → ℕ → ℂ) : Matrix (Fin dim) (Fin dim) ℂ := fun r c => m r c

/-- Sum of squares. -/
noncomputable def frobM {d : ℕ} (X : Matrix (Fin d) (Fin d) ℂ) : ℝ := ∑ r, ∑ c, Complex.normSq (X r c)

theorem dist2_eq (dim : ℕ) (m p : ℕ → ℕ → ℂ) : dist2 dim m p = frobM (toM dim m - toM dim p) := by
  unfold dist2 frobM
  rw [Finset.sum_range]
  refine Finset.sum_congr rfl fun r _ => ?_
  rw [Finset.sum_range]
  rfl

theorem tr_eq (dim : ℕ) (m : ℕ → ℕ → ℂ) : tr dim m = (toM dim m).trace := by
  unfold tr Matrix.trace
  rw [Finset.sum_range]; rfl

theorem frobM_trace {d : ℕ} (X : Matrix (Fin d) (Fin d) ℂ) : ((frobM X : ℝ) : ℂ) = (Xᴴ * X).trace := by
  unfold frobM Matrix.trace
  simp only [Matrix.diag_apply, Matrix.mul_apply, Matrix.conjTranspose_apply]
  rw [Finset.sum_comm]
  push_cast
  refine Finset.sum_congr rfl fun c _ => Finset.sum_congr rfl fun r _ => ?_
  rw [Complex.normSq_eq_conj_mul_self]; rfl

theorem frobM_unitary {d : ℕ} (U X : Matrix (Fin d) (Fin d) ℂ) (h2 : U * Uᴴ = 1) : frobM (Uᴴ * X * U) = frobM X := by
  have : ((frobM (Uᴴ * X * U) : ℝ) : ℂ) = ((frobM X : ℝ) : ℂ) := by
    rw [frobM_trace, frobM_trace]
    simp only [Matrix.conjTranspose_mul, Matrix.conjTranspose_conjTranspose]
    have e : Uᴴ * (Xᴴ * U) * (Uᴴ * X * U) = Uᴴ * (Xᴴ * (U * Uᴴ) * X) * U := by simp only [Matrix.mul_assoc]
    rw [e, h2, Matrix.mul_one, Matrix.trace_mul_comm, ← Matrix.mul_assoc, h2, Matrix.one_mul]
  exact_mod_cast this

/-- Eigenvalues and eigenvectors as matrices. -/
theorem fromEigen_toM (dim : ℕ) (v : ℕ → ℝ) (w : ℕ → ℕ → ℂ) :
    toM dim (fromEigen dim v w) = toM dim w * Matrix.diagonal (fun j : Fin dim => (v j : ℂ)) * (toM dim w)ᴴ := by
  funext r c
  rw [Matrix.mul_apply]
  simp only [Matrix.mul_diagonal, Matrix.conjTranspose_apply, toM, fromEigen]
  rw [Finset.sum_range]
  refine Finset.sum_congr rfl fun j _ => ?_
  show _ = w r j * v j * (starRingEnd ℂ) (w c j)
  ring

theorem ortho_toM {dim : ℕ} {m : ℕ → ℕ → ℂ} {v : ℕ → ℝ} {w : ℕ → ℕ → ℂ} (h : IsEigh dim m v w) :
    (toM dim w)ᴴ * toM dim w = 1 := by
  funext i j
  rw [Matrix.mul_apply, Matrix.one_apply]
  have := h.ortho i j i.2 j.2
  rw [Finset.sum_range] at this
  simp only [Matrix.conjTranspose_apply, toM]
  refine Eq.trans this ?_
  simp [Fin.ext_iff]

theorem ortho_toM' {dim : ℕ} {m : ℕ → ℕ → ℂ} {v : ℕ → ℝ} {w : ℕ → ℕ → ℂ} (h : IsEigh dim m v w) :
    toM dim w * (toM dim w)ᴴ = 1 := mul_eq_one_comm.1 (ortho_toM h)

theorem decomp_toM {dim : ℕ} {m : ℕ → ℕ → ℂ} {v : ℕ → ℝ} {w : ℕ → ℕ → ℂ} (h : IsEigh dim m v w) :
    toM dim m = toM dim (fromEigen dim v w) := by
  funext r c
  exact h.decomp r c r.2 c.2

/-- The trace of a matrix is the sum of its eigenvalues. -/
theorem tr_fromEigen {dim : ℕ} {m : ℕ → ℕ → ℂ} {v : ℕ → ℝ} {w : ℕ → ℕ → ℂ} (h : IsEigh dim m v w) (o : ℕ → ℝ) :
    tr dim (fromEigen dim o w) = ((∑ k ∈ Finset.range dim, o k : ℝ) : ℂ) := by
  rw [tr_eq, fromEigen_toM, Matrix.trace_mul_comm, ← Matrix.mul_assoc, ortho_toM h, Matrix.one_mul, Matrix.trace_diagonal,
    Finset.sum_range]
  push_cast; rfl

theorem tr_eigh {dim : ℕ} {m : ℕ → ℕ → ℂ} {v : ℕ → ℝ} {w : ℕ → ℕ → ℂ} (h : IsEigh dim m v w) :
    tr dim m = ((∑ k ∈ Finset.range dim, v k : ℝ) : ℂ) := by
  rw [← tr_fromEigen h v, tr_eq, tr_eq, decomp_toM h]

theorem psd_fromEigen (dim : ℕ) (o : ℕ → ℝ) (w : ℕ → ℕ → ℂ) (ho : ∀ k < dim, 0 ≤ o k) : PSD dim (fromEigen dim o w) := by
  intro u
  refine ⟨∑ j ∈ Finset.range dim, o j * Complex.normSq (∑ c ∈ Finset.range dim, (starRingEnd ℂ) (w c j) * u c), ?_, ?_⟩
  · exact Finset.sum_nonneg fun j hj => mul_nonneg (ho j (Finset.mem_range.1 hj)) (Complex.normSq_nonneg _)
  · push_cast
    have e : ∀ j ∈ Finset.range dim, (o j : ℂ) * (Complex.normSq (∑ c ∈ Finset.range dim, (starRingEnd ℂ) (w c j) * u c) : ℂ) =
        ∑ r ∈ Finset.range dim, ∑ c ∈ Finset.range dim,
          (starRingEnd ℂ) (u r) * ((o j : ℂ) * (w r j * (starRingEnd ℂ) (w c j))) * u c := by
      intro j _
      rw [Complex.normSq_eq_conj_mul_self, map_sum, Finset.sum_mul_sum, Finset.mul_sum]
      refine Finset.sum_congr rfl fun r _ => ?_
      rw [Finset.mul_sum]
      refine Finset.sum_congr rfl fun c _ => ?_
      rw [map_mul, Complex.conj_conj]; ring
    rw [Finset.sum_congr rfl e]
    symm
    rw [Finset.sum_comm]
    refine Finset.sum_congr rfl fun r _ => ?_
    rw [Finset.sum_comm]
    refine Finset.sum_congr rfl fun c _ => ?_
    simp only [fromEigen]
    rw [Finset.mul_sum, Finset.sum_mul]

/-- The quadratic form on an eigenvector is the diagonal entry in the eigenbasis. -/
theorem form_column (dim : ℕ) (W w : ℕ → ℕ → ℂ) (j : Fin dim) :
    ((toM dim w)ᴴ * toM dim W * toM dim w) j j =
      ∑ r ∈ Finset.range dim, ∑ c ∈ Finset.range dim, (starRingEnd ℂ) (w r j) * W r c * w c j := by
  rw [Matrix.mul_apply, Finset.sum_range]
  simp only [Matrix.mul_apply, Finset.sum_mul, Matrix.conjTranspose_apply, toM]
  rw [Finset.sum_comm]
  refine Finset.sum_congr rfl fun r _ => ?_
  rw [Finset.sum_range]
  rfl

/-- The eigenvalues of a positive semidefinite matrix are non-negative. -/
theorem eigen_nonneg {dim : ℕ} {m : ℕ → ℕ → ℂ} {v : ℕ → ℝ} {w : ℕ → ℕ → ℂ} (h : IsEigh dim m v w) (hp : PSD dim m) (k : ℕ)
    (hk : k < dim) : 0 ≤ v k := by
  obtain ⟨t, ht, e⟩ := hp fun r => w r k
  have h1 := form_column dim m w ⟨k, hk⟩
  rw [decomp_toM h, fromEigen_toM] at h1
  have e2 : (toM dim w)ᴴ * (toM dim w * Matrix.diagonal (fun j : Fin dim => (v j : ℂ)) * (toM dim w)ᴴ) * toM dim w =
      ((toM dim w)ᴴ * toM dim w) * Matrix.diagonal (fun j : Fin dim => (v j : ℂ)) * ((toM dim w)ᴴ * toM dim w) := by
    simp only [Matrix.mul_assoc]
  rw [e2, ortho_toM h, Matrix.one_mul, Matrix.mul_one, Matrix.diagonal_apply_eq] at h1
  rw [show (∑ r ∈ Finset.range dim, ∑ c ∈ Finset.range dim, (starRingEnd ℂ) (w r k) * m r c * w c k) = t from e] at h1
  have : v k = t := by exact_mod_cast h1
  rw [this]; exact ht

/-- **C52** (unchanged).  A matrix with non-negative eigenvalues is returned unchanged. -/
theorem C52_unchanged (dim : ℕ) (m : ℕ → ℕ → ℂ) (v : ℕ → ℝ) (w : ℕ → ℕ → ℂ) (h : IsEigh dim m v w)
    (h0 : ∀ k < dim, 0 ≤ v k) :
    ∃ p, makePositiveSemidefinite dim v w 0 = some p ∧ ∀ r c, r < dim → c < dim → p r c = m r c := by
  refine ⟨_, by unfold makePositiveSemidefinite; rw [if_neg (lt_irrefl _)], ?_⟩
  intro r c hr hc
  rw [wizard_id dim v h0, h.decomp r c hr hc]; rfl

/-- **C52** (spectrum).  The new eigenvalues, on the same eigenvectors, are non-negative and in the same order; if the trace is
not negative their sum is unchanged, and among all non-negative spectra with that sum they are the closest to the old ones. -/
theorem C52_spectrum (dim : ℕ) (m : ℕ → ℕ → ℂ) (v : ℕ → ℝ) (w : ℕ → ℕ → ℂ) (h : IsEigh dim m v w) :
    ∃ o, makePositiveSemidefinite dim v w 0 = some (fromEigen dim o w) ∧ (∀ k < dim, 0 ≤ o k) ∧
      (∀ i k, i ≤ k → k < dim → o i ≤ o k) ∧
      (0 ≤ ∑ k ∈ Finset.range dim, v k →
        ∑ k ∈ Finset.range dim, o k = ∑ k ∈ Finset.range dim, v k ∧
        ∀ u : ℕ → ℝ, (∀ k < dim, 0 ≤ u k) → ∑ k ∈ Finset.range dim, u k = ∑ k ∈ Finset.range dim, v k →
          ∑ k ∈ Finset.range dim, (o k - v k) ^ 2 ≤ ∑ k ∈ Finset.range dim, (u k - v k) ^ 2) := by
  refine ⟨wizard dim 0 v, by unfold makePositiveSemidefinite; rw [if_neg (lt_irrefl _)], wizard_nonneg dim v h.mono,
    wizard_mono dim v h.mono, fun ht => ⟨wizard_sum dim v h.mono ht, fun u hu hs => wizard_closest dim v h.mono ht u hu hs⟩⟩

/-- **C52** (matrix).  For a Hermitian matrix with non-negative trace the result is positive semidefinite with the same trace, and no
positive semidefinite matrix with that trace is closer in the Frobenius norm. -/
theorem C52_matrix (dim : ℕ) (m : ℕ → ℕ → ℂ) (v : ℕ → ℝ) (w : ℕ → ℕ → ℂ) (h : IsEigh dim m v w)
    (ht : 0 ≤ (tr dim m).re) :
    ∃ p, makePositiveSemidefinite dim v w 0 = some p ∧ PSD dim p ∧ tr dim p = tr dim m ∧
      ∀ W, PSD dim W → tr dim W = tr dim m → dist2 dim p m ≤ dist2 dim W m := by
  have ht' : 0 ≤ ∑ k ∈ Finset.range dim, v k := by rw [tr_eigh h, Complex.ofReal_re] at ht; exact ht
  refine ⟨_, by unfold makePositiveSemidefinite; rw [if_neg (lt_irrefl _)],
    psd_fromEigen dim _ w (wizard_nonneg dim v h.mono), ?_, ?_⟩
  · rw [tr_fromEigen h, tr_eigh h, wizard_sum dim v h.mono ht']
  · intro W hW htr
    rw [dist2_eq, dist2_eq, ← frobM_unitary (toM dim w) _ (ortho_toM' h), ← frobM_unitary (toM dim w) (toM dim W - toM dim m) (ortho_toM' h)]
    have hconj : ∀ o : ℕ → ℝ, (toM dim w)ᴴ * toM dim (fromEigen dim o w) * toM dim w = Matrix.diagonal (fun j : Fin dim => (o j : ℂ)) := by
      intro o
      rw [fromEigen_toM]
      have e2 : (toM dim w)ᴴ * (toM dim w * Matrix.diagonal (fun j : Fin dim => (o j : ℂ)) * (toM dim w)ᴴ) * toM dim w =
          ((toM dim w)ᴴ * toM dim w) * Matrix.diagonal (fun j : Fin dim => (o j : ℂ)) * ((toM dim w)ᴴ * toM dim w) := by
        simp only [Matrix.mul_assoc]
      rw [e2, ortho_toM h, Matrix.one_mul, Matrix.mul_one]
    rw [Matrix.mul_sub, Matrix.sub_mul, Matrix.mul_sub, Matrix.sub_mul, decomp_toM h, hconj, hconj]
    generalize hX : (toM dim w)ᴴ * toM dim W * toM dim w = X
    -- the diagonal of W in the eigenbasis
    choose t ht0 hte using fun j : ℕ => hW fun r => w r j
    have hdiag : ∀ j : Fin dim, X j j = (t j : ℂ) := by
      intro j
      rw [← hX, form_column]; exact hte j
    have htsum : ∑ k ∈ Finset.range dim, t k = ∑ k ∈ Finset.range dim, v k := by
      have h1 : X.trace = ((∑ k ∈ Finset.range dim, t k : ℝ) : ℂ) := by
        unfold Matrix.trace
        rw [Finset.sum_range]
        push_cast
        exact Finset.sum_congr rfl fun j _ => hdiag j
      have h2 : X.trace = tr dim W := by
        rw [← hX, Matrix.trace_mul_comm, ← Matrix.mul_assoc, ortho_toM' h, Matrix.one_mul, tr_eq]
      rw [h1, htr, tr_eigh h] at h2
      exact_mod_cast h2
    have hle := wizard_closest dim v h.mono ht' t (fun k _ => ht0 k) htsum
    calc frobM (Matrix.diagonal (fun j : Fin dim => ((wizard dim 0 v j : ℝ) : ℂ)) - Matrix.diagonal fun j : Fin dim => (v j : ℂ))
        = ∑ k ∈ Finset.range dim, (wizard dim 0 v k - v k) ^ 2 := by
          rw [Matrix.diagonal_sub, Finset.sum_range]
          unfold frobM
          refine Finset.sum_congr rfl fun j _ => ?_
          rw [Finset.sum_eq_single j]
          · rw [Matrix.diagonal_apply_eq, ← Complex.ofReal_sub, Complex.normSq_ofReal]; ring
          · intro c _ hc
            rw [Matrix.diagonal_apply_ne _ (Ne.symm hc)]; simp
          · intro hj; exact absurd (Finset.mem_univ _) hj
      _ ≤ ∑ k ∈ Finset.range dim, (t k - v k) ^ 2 := hle
      _ ≤ frobM (X - Matrix.diagonal fun j : Fin dim => (v j : ℂ)) := by
          rw [Finset.sum_range]
          unfold frobM
          refine Finset.sum_le_sum fun j _ => ?_
          refine le_trans (le_of_eq ?_) (Finset.single_le_sum (f := fun c => Complex.normSq ((X - Matrix.diagonal fun j : Fin dim => (v j : ℂ)) j c))
            (fun c _ => Complex.normSq_nonneg _) (Finset.mem_univ j))
          show _ = Complex.normSq (X j j - _)
          rw [hdiag, Matrix.diagonal_apply_eq, ← Complex.ofReal_sub, Complex.normSq_ofReal]; ring

/-- **C52**: a negative threshold is refused. -/
theorem C52_rejects (dim : ℕ) (v : ℕ → ℝ) (w : ℕ → ℕ → ℂ) (eps : ℝ) (h : eps < 0) : makePositiveSemidefinite dim v w eps = none :=
  if_pos h

/-- **C52** (finding): with a negative trace the result is the zero matrix, so the trace is not kept. -/
theorem C52_finding_negative_trace (dim : ℕ) (m : ℕ → ℕ → ℂ) (v : ℕ → ℝ) (w : ℕ → ℕ → ℂ) (h : IsEigh dim m v w)
    (ht : (tr dim m).re < 0) :
    ∃ p, makePositiveSemidefinite dim v w 0 = some p ∧ ∀ r c, p r c = 0 := by
  have ht' : ∑ k ∈ Finset.range dim, v k < 0 := by rw [tr_eigh h, Complex.ofReal_re] at ht; exact ht
  refine ⟨_, by unfold makePositiveSemidefinite; rw [if_neg (lt_irrefl _)], ?_⟩
  intro r c
  unfold fromEigen
  refine Finset.sum_eq_zero fun j hj => ?_
  rw [wizard_zero dim v h.mono ht' j (Finset.mem_range.1 hj)]; simp

/-- Three eigenvalues, one negative. -/
example : (List.range 3).map (wizard 3 (0 : ℚ) fun k => if k = 0 then -1/5 else if k = 1 then 1/20 else 23/20) = [0, 0, 1] := by
  decide +kernel

/-- The hypotheses are met: a diagonal matrix with eigenvalues -1/4 and 5/4. -/
example : IsEigh 2 (fun r c => if r = c then (if r = 0 then -1/4 else 5/4) else 0) (fun k => if k = 0 then -1/4 else 5/4)
    (fun r c => if r = c then 1 else 0) := by
  refine ⟨?_, ?_, ?_⟩
  · intro i k hik hk
    interval_cases k <;> interval_cases i <;> norm_num
  · intro i j hi hj
    interval_cases i <;> interval_cases j <;> simp [Finset.sum_range_succ]
  · intro i j hi hj
    interval_cases i <;> interval_cases j <;> simp [Finset.sum_range_succ]

end Verif.Tomo
