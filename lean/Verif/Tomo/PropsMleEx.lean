import Verif.Tomo.PropsMleObj
import Verif.Tomo.PropsGstDef
/-
C56 and C88 apply to the default gate set.
-/
set_option linter.unusedSimpArgs false
set_option linter.unusedVariables false
namespace Verif.Tomo
open Verif Verif.Counts Matrix
open scoped ComplexOrder

theorem psd_rank_one {n : ℕ} (M : Matrix (Fin n) (Fin n) ℂ) (v : Fin n → ℂ) (h : M = vecMulVec v (star v)) : M.PosSemidef := by
  rw [h]
  exact posSemidef_vecMulVec_self_star v

theorem psd_default : (reshape2 (vecOf ![√(1/2), 0, 0, √(1/2)])).PosSemidef := by
  have : reshape2 (vecOf ![√(1/2), 0, 0, √(1/2)]) = Matrix.diagonal fun _ => ((√(1/2) : ℝ) : ℂ) := by
    ext i j
    fin_cases i <;> fin_cases j <;> simp [reshape2, vecOf]
  rw [this, posSemidef_diagonal_iff]
  intro i
  exact Complex.zero_le_real.2 (Real.sqrt_nonneg _)

theorem choi_one : (choiOf (matOf 1)).PosSemidef := by
  refine psd_rank_one _ ![1, 0, 0, 1] ?_
  ext i j
  simp only [choiOf, Matrix.of_apply, ptmToChoi, Finset.sum_range_succ, Finset.sum_range_zero, matOf, vecMulVec_apply]
  fin_cases i <;> fin_cases j <;> simp [pauli1, Matrix.one_apply, vecMulVec] <;> norm_num

theorem psd_half {n : ℕ} (M : Matrix (Fin n) (Fin n) ℂ) (v : Fin n → ℂ) (h : M = (1/2 : ℂ) • vecMulVec v (star v)) : M.PosSemidef := by
  rw [h]
  refine (posSemidef_vecMulVec_self_star v).smul ?_
  rw [Complex.le_def]
  norm_num

theorem choi_x90 : (choiOf (matOf x90)).PosSemidef := by
  refine psd_half _ ![1, -Complex.I, -Complex.I, 1] ?_
  ext i j
  simp only [choiOf, Matrix.of_apply, ptmToChoi, Finset.sum_range_succ, Finset.sum_range_zero, matOf, Matrix.smul_apply, vecMulVec_apply]
  fin_cases i <;> fin_cases j <;> simp [pauli1, x90]

theorem choi_y90 : (choiOf (matOf y90)).PosSemidef := by
  refine psd_half _ ![1, 1, -1, 1] ?_
  ext i j
  simp only [choiOf, Matrix.of_apply, ptmToChoi, Finset.sum_range_succ, Finset.sum_range_zero, matOf, Matrix.smul_apply, vecMulVec_apply]
  fin_cases i <;> fin_cases j <;> simp [pauli1, y90]

/-- A Schur decomposition of Hermitian matrices exists. -/
theorem exists_schur_fun : ∃ schur : CM → CM × CM, ∀ m : CM, (m.mat m.n).IsHermitian → IsSchur m (schur m).1 (schur m).2 := by
  classical
  have : ∀ m : CM, ∃ p : CM × CM, (m.mat m.n).IsHermitian → IsSchur m p.1 p.2 := by
    intro m
    by_cases h : (m.mat m.n).IsHermitian
    · obtain ⟨d, u, hdu⟩ := exists_schur m h
      exact ⟨(d, u), fun _ => hdu⟩
    · exact ⟨(m, m), fun h' => absurd h' h⟩
  choose s hs using this
  exact ⟨s, hs⟩

theorem default_choi (g : Str) (hg : g ∈ defaultGates) : (choiOf (matOf (defaultDevice.gate g))).PosSemidef := by
  simp only [defaultGates, List.mem_cons, List.not_mem_nil, or_false] at hg
  rcases hg with rfl | rfl | rfl
  · rw [gate_id]; exact choi_one
  · rw [gate_x]; exact choi_x90
  · rw [gate_y]; exact choi_y90

theorem default_input : MleInput defaultGates defaultSpam defaultGateSet.spam defaultSpec
    (exactProbs defaultDevice defaultSpec defaultSpam defaultGates) where
  nodup := by decide
  len := by decide
  specs := by decide
  known := by decide
  measured := by
    intro fj hj g hg fi hi
    rw [Dict.has, (exactProbs_exact defaultDevice defaultSpec defaultSpam defaultGates).three fj hj g hg fi hi]
    rfl

/-- C56 and C88 apply to the ideal default gate set. -/
example : ∃ schur data, objFnData defaultGates defaultSpam defaultGateSet.spam
      (exactProbs defaultDevice defaultSpec defaultSpam defaultGates) = some data ∧
    mleObjective data 3 (joinInputVector schur (vecOf defaultDevice.E) (vecOf defaultDevice.rho)
      (defaultGates.map fun g => matOf (defaultDevice.gate g))) = some 0 ∧ ∀ x v, mleObjective data 3 x = some v → 0 ≤ v := by
  obtain ⟨schur, hs⟩ := exists_schur_fun
  refine ⟨schur, C88_optimum defaultGates defaultSpam defaultGateSet.spam defaultSpec _ default_input defaultDevice ?_ psd_default psd_default
    default_choi schur hs⟩
  intro fi hi fj hj g hg
  exact (exactProbs_exact defaultDevice defaultSpec defaultSpam defaultGates).three fj hj g hg fi hi

end Verif.Tomo
