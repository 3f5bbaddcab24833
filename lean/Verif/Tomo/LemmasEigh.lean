import Verif.Tomo.PropsPsd
import Mathlib.Analysis.Matrix.Spectrum
import Mathlib.Data.Fin.Tuple.Sort
/-
Every positive semidefinite matrix has a decomposition of the kind `la.eigh` returns (used to show that hypotheses can be met).
-/
set_option linter.unusedSectionVars false
set_option linter.unusedSimpArgs false
set_option linter.unusedVariables false
namespace Verif.Tomo
open Matrix

theorem form_two (d : ℕ) (m : ℕ → ℕ → ℂ) (r c : ℕ) (hr : r < d) (hc : c < d) (hrc : r ≠ c) (z : ℂ) :
    ∑ i ∈ Finset.range d, ∑ j ∈ Finset.range d, (starRingEnd ℂ) (if i = r then 1 else if i = c then z else 0) * m i j *
      (if j = r then 1 else if j = c then z else 0) =
      m r r + m r c * z + (starRingEnd ℂ) z * m c r + (starRingEnd ℂ) z * m c c * z := by
  have inner : ∀ (f : ℕ → ℂ), ∑ j ∈ Finset.range d, f j * (if j = r then (1 : ℂ) else if j = c then z else 0) = f r + f c * z := by
    intro f
    have : ∀ j, f j * (if j = r then (1 : ℂ) else if j = c then z else 0) =
        (if j = r then f j else 0) + (if j = c then f j * z else 0) := by
      intro j
      by_cases h1 : j = r
      · subst h1; simp [hrc]
      · simp [h1]
    simp only [this, Finset.sum_add_distrib, Finset.sum_ite_eq', Finset.mem_range, hr, hc, if_true]
  simp only [inner]
  have outer : ∀ (f : ℕ → ℂ), ∑ i ∈ Finset.range d, (starRingEnd ℂ) (if i = r then (1 : ℂ) else if i = c then z else 0) * f i =
      f r + (starRingEnd ℂ) z * f c := by
    intro f
    have : ∀ j, (starRingEnd ℂ) (if j = r then (1 : ℂ) else if j = c then z else 0) * f j =
        (if j = r then f j else 0) + (if j = c then (starRingEnd ℂ) z * f j else 0) := by
      intro j
      by_cases h1 : j = r
      · subst h1; simp [hrc]
      · by_cases h2 : j = c <;> simp [h1, h2]
        subst h2; simp [h1]
    simp only [this, Finset.sum_add_distrib, Finset.sum_ite_eq', Finset.mem_range, hr, hc, if_true]
  have e : ∀ i, (starRingEnd ℂ) (if i = r then (1 : ℂ) else if i = c then z else 0) * m i r +
      (starRingEnd ℂ) (if i = r then (1 : ℂ) else if i = c then z else 0) * m i c * z =
      (starRingEnd ℂ) (if i = r then (1 : ℂ) else if i = c then z else 0) * (m i r + m i c * z) := fun i => by ring
  simp only [e, outer]
  ring

theorem psd_diag (d : ℕ) (m : ℕ → ℕ → ℂ) (h : PSD d m) (r : ℕ) (hr : r < d) : (m r r).im = 0 := by
  obtain ⟨t, _, e⟩ := h fun i => if i = r then 1 else 0
  have : ∑ i ∈ Finset.range d, ∑ j ∈ Finset.range d, (starRingEnd ℂ) (if i = r then (1 : ℂ) else 0) * m i j *
      (if j = r then 1 else 0) = m r r := by
    rw [Finset.sum_eq_single r, Finset.sum_eq_single r]
    · simp
    · intro j _ hj; simp [hj]
    · intro hh; exact absurd (Finset.mem_range.2 hr) hh
    · intro i _ hi; simp [hi]
    · intro hh; exact absurd (Finset.mem_range.2 hr) hh
  rw [this] at e
  rw [e]; simp

/-- A positive semidefinite matrix is Hermitian. -/
theorem psd_hermitian (d : ℕ) (m : ℕ → ℕ → ℂ) (h : PSD d m) (r c : ℕ) (hr : r < d) (hc : c < d) :
    (starRingEnd ℂ) (m c r) = m r c := by
  by_cases hrc : r = c
  · subst hrc
    exact Complex.conj_eq_iff_im.2 (psd_diag d m h r hr)
  · have hrr := psd_diag d m h r hr
    have hcc := psd_diag d m h c hc
    obtain ⟨t, _, e⟩ := h fun i => if i = r then 1 else if i = c then 1 else 0
    rw [form_two d m r c hr hc hrc 1] at e
    obtain ⟨s, _, e'⟩ := h fun i => if i = r then 1 else if i = c then Complex.I else 0
    rw [form_two d m r c hr hc hrc Complex.I] at e'
    have e1 := congrArg Complex.im e
    have e2 := congrArg Complex.im e'
    simp [hrr, hcc] at e1 e2
    apply Complex.ext
    · simp; linarith
    · simp; linarith

/-- **Existence** of `la.eigh`'s result. -/
theorem exists_eigh_hermitian (d : ℕ) (m : ℕ → ℕ → ℂ) (h : ∀ r c, r < d → c < d → (starRingEnd ℂ) (m c r) = m r c) : ∃ v w, IsEigh d m v w := by
  have hA : (toM d m).IsHermitian := by
    ext r c
    rw [Matrix.conjTranspose_apply]
    exact h r c r.2 c.2
  let U : Matrix (Fin d) (Fin d) ℂ := hA.eigenvectorUnitary
  let f : Fin d → ℝ := hA.eigenvalues
  let σ := Tuple.sort f
  have hU : star U * U = 1 := Unitary.coe_star_mul_self hA.eigenvectorUnitary
  have hsp : toM d m = U * diagonal (fun i => (f i : ℂ)) * star U := by
    have := hA.spectral_theorem
    rw [Unitary.conjStarAlgAut_apply] at this
    exact this
  refine ⟨fun k => if hk : k < d then f (σ ⟨k, hk⟩) else 0, fun r j => if hr : r < d then (if hj : j < d then U ⟨r, hr⟩ (σ ⟨j, hj⟩) else 0) else 0,
    ?_, ?_, ?_⟩
  · intro i k hik hk
    have hi : i < d := by omega
    simp only [hi, hk, dif_pos]
    exact Tuple.monotone_sort f (show (⟨i, hi⟩ : Fin d) ≤ ⟨k, hk⟩ from hik)
  · intro i j hi hj
    rw [Finset.sum_range]
    simp only [hi, hj, dif_pos, Fin.is_lt, Fin.eta]
    have := congrFun (congrFun hU (σ ⟨i, hi⟩)) (σ ⟨j, hj⟩)
    rw [Matrix.mul_apply, Matrix.one_apply] at this
    simp only [EmbeddingLike.apply_eq_iff_eq, Fin.mk.injEq] at this
    rw [← this]
    rfl
  · intro r c hr hc
    rw [Finset.sum_range]
    simp only [hr, hc, dif_pos, Fin.is_lt, Fin.eta]
    have := congrFun (congrFun hsp ⟨r, hr⟩) ⟨c, hc⟩
    rw [Matrix.mul_apply] at this
    simp only [Matrix.mul_diagonal] at this
    refine (show m r c = toM d m ⟨r, hr⟩ ⟨c, hc⟩ from rfl).trans (this.trans ?_)
    rw [← Equiv.sum_comp σ]
    refine Finset.sum_congr rfl fun j _ => ?_
    rw [Matrix.star_apply]
    show U ⟨r, hr⟩ (σ j) * (f (σ j) : ℂ) * (starRingEnd ℂ) (U ⟨c, hc⟩ (σ j)) = _
    ring

theorem exists_eigh (d : ℕ) (m : ℕ → ℕ → ℂ) (h : PSD d m) : ∃ v w, IsEigh d m v w :=
  exists_eigh_hermitian d m fun r c hr hc => psd_hermitian d m h r c hr hc

end Verif.Tomo
