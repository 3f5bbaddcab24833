import Verif.Tomo.PropsGstFit
/-
C123: numerical routines as assumed exist, and the theorems apply to the default gate set.
-/
set_option linter.unusedSimpArgs false
set_option linter.unusedVariables false
namespace Verif.Tomo
open Verif Verif.Counts Matrix
open scoped ComplexOrder

/-- A best admissible point. -/
def IsBest (f : List ℝ → Option ℝ) (cs : List Constraint) (x : List ℝ) : Prop :=
  Feasible cs x ∧ ∀ x' v', Feasible cs x' → f x' = some v' → ∃ v, f x = some v ∧ v ≤ v'

/-- Everything assumed of the numerical routines can be had at once. -/
theorem exists_numerics : ∃ o : Numerics, (∀ m : CM, (m.mat m.n).IsHermitian → IsSchur m (o.schur m).1 (o.schur m).2) ∧
    Respects o ∧ NoWorse o ∧ FindsBest o ∧ Stays o ∧ FindsZero o := by
  classical
  obtain ⟨schur, hs⟩ := exists_schur_fun
  let good : (List ℝ → Option ℝ) → List ℝ → List Constraint → Prop := fun f x₀ cs =>
    Feasible cs x₀ ∧ f x₀ = some 0 ∧ ∀ x v, f x = some v → 0 ≤ v
  let sl : (List ℝ → Option ℝ) → List ℝ → List Constraint → Option (List ℝ) := fun f x₀ cs =>
    if good f x₀ cs then some x₀ else if h : ∃ x, IsBest f cs x then some h.choose else none
  have hbest : ∀ f x₀ cs x, sl f x₀ cs = some x → IsBest f cs x := by
    intro f x₀ cs x h
    simp only [sl] at h
    split at h
    · rename_i hg
      obtain rfl := Option.some.inj h
      exact ⟨hg.1, fun x' v' _ hv => ⟨0, hg.2.1, hg.2.2 x' v' hv⟩⟩
    · split at h
      · rename_i hb
        obtain rfl := Option.some.inj h
        exact hb.choose_spec
      · cases h
  refine ⟨⟨fun f B => if h : ∃ B, f B = some 0 then some h.choose else some B, sl, schur⟩, hs, ?_, ?_, ?_, ?_, ?_⟩
  · intro f x₀ cs x h
    exact (hbest f x₀ cs x h).1
  · intro f x₀ cs x v₀ h hf hv
    exact (hbest f x₀ cs x h).2 x₀ v₀ hf hv
  · intro f x₀ cs x x' v' h hf hv
    exact (hbest f x₀ cs x h).2 x' v' hf hv
  · intro f x₀ cs h1 h2 h3
    exact if_pos (show good f x₀ cs from ⟨h1, h2, h3⟩)
  · intro n f B₀ h _
    exact ⟨h.choose, dif_pos h, h.choose_spec⟩

/-- The matrices of `default_gateset_basis`. -/
noncomputable def defaultMats : Dict Str (Matrix (Fin 4) (Fin 4) ℝ) :=
  [("Id".toList, 1), ("X_Rot_90".toList, x90), ("Y_Rot_90".toList, y90)]

theorem default_mats (g : Str) (hg : g ∈ defaultGates) : defaultMats.get? g = some (defaultDevice.gate g) := by
  simp only [defaultGates, List.mem_cons, List.not_mem_nil, or_false] at hg
  rcases hg with rfl | rfl | rfl
  · rw [gate_id]; rfl
  · rw [gate_x]; rfl
  · rw [gate_y]; rfl

theorem ground_report : (∑ k : Fin 4, ((ground k : ℝ) : ℂ) • npauli k) = !![1, 0; 0, 0] := by
  have h := sqrt_half_mul
  ext i j
  rw [Fin.sum_univ_four]
  simp only [Matrix.add_apply, Matrix.smul_apply, smul_eq_mul, npauli_apply, ground]
  generalize hs : (√(1/2) : ℝ) = s at h
  fin_cases i <;> fin_cases j <;> simp [pauli1]
  linear_combination 2 * h

theorem default_candidate : Candidate defaultDevice.report defaultGates where
  channel := by
    intro g hg
    rw [report_eq]
    refine ⟨(cp_iff _).2 (default_choi g hg), (tp_channel _).2 ((tp_iff _).2 ?_)⟩
    simp only [defaultGates, List.mem_cons, List.not_mem_nil, or_false] at hg
    rcases hg with rfl | rfl | rfl
    · rw [gate_id]; simp [matOf]
    · rw [gate_x]; simp [matOf, x90]
    · rw [gate_y]; simp [matOf, y90]
  trace := by
    have : defaultDevice.report.rho = !![1, 0; 0, 0] := ground_report
    rw [this]
    simp [Matrix.trace, Fin.sum_univ_two]
  meas := by
    rw [report_eq]
    unfold Representable
    simp only [coef_operatorOf]
    exact psd_default
  prep := by
    rw [report_eq]
    unfold Representable
    simp only [coef_operatorOf]
    exact psd_default

/-- C123 applies to perfect data of the default gate set: there are numerical routines as assumed with which `fit` returns the state
`|0⟩⟨0|`, the effect `|0⟩⟨0|` and the three ideal gates. -/
theorem C123_experiment : ∃ o res R, (Respects o ∧ NoWorse o ∧ FindsBest o) ∧
    gstFit o defaultSpam defaultGates defaultGateSet.spam defaultMats (exactProbs defaultDevice defaultSpec defaultSpam defaultGates) =
      some res ∧
    Reads res defaultGates R ∧ R.E = !![1, 0; 0, 0] ∧ R.rho = !![1, 0; 0, 0] ∧ R.gate "Id".toList = 1 ∧
    R.gate "X_Rot_90".toList = !![1, 0, 0, 0; 0, 1, 0, 0; 0, 0, 0, -1; 0, 0, 1, 0] := by
  obtain ⟨o, hs, h1, h2, h3, h4, h5⟩ := exists_numerics
  obtain ⟨res, R, k1, k2, k3, k4, k5⟩ := C123_ideal o hs h5 h4 "F0".toList "F1".toList "F2".toList "F3".toList defaultGates
    defaultGateSet.spam defaultSpec defaultMats (exactProbs defaultDevice defaultSpec defaultSpam defaultGates) defaultDevice rfl rfl
    default_input (by decide) default_names.1 default_names.2 default_mats (exactProbs_exact defaultDevice defaultSpec defaultSpam defaultGates)
    default_complete default_candidate
  refine ⟨o, res, R, ⟨h1, h2, h3⟩, k1, k2, k3.trans ground_report, k4.trans ground_report, ?_, ?_⟩
  · rw [k5 _ (by decide)]
    unfold Device.report
    simp only
    rw [gate_id]
    ext i j
    simp [Matrix.one_apply, apply_ite]
  · rw [k5 _ (by decide)]
    unfold Device.report
    simp only
    rw [gate_x]
    ext i j
    fin_cases i <;> fin_cases j <;> simp [x90]

end Verif.Tomo
