import Verif.Tomo.LemmasData
import Verif.Tomo.PropsPsd
import Verif.Tomo.PropsOps
import Verif.Tomo.PropsLin
import Mathlib.Data.Fintype.BigOperators
/-
Specification of state tomography from finitely many shots.
-/
namespace Verif.Tomo
open Verif Verif.Quantum Verif.Counts

/-- The three measurement labels. -/
def axisLabel (t : Fin 3) : Str := if t = 0 then "X".toList else if t = 1 then "Y".toList else "Z".toList

/-- The label of a setting: one axis per qubit. -/
def settingLabel {n : ℕ} (t : Fin n → Fin 3) : List Str := List.ofFn fun j => axisLabel (t j)

/-- The outcome string of the bits, qubit 0 right-most. -/
def outcomeStr {n : ℕ} (s : Fin n → Bool) : Str := (List.ofFn fun j => if s j then '1' else '0').reverse

/-- A density matrix. -/
def IsDensity (d : ℕ) (ρ : ℕ → ℕ → ℂ) : Prop := PSD d ρ ∧ tr d ρ = 1

/-- The probability of the outcome `s` when the qubits of a system in state `ρ` are measured in the setting `t`: `Tr[Π ρ]`. -/
noncomputable def outcomeProb (n : ℕ) (ρ : ℕ → ℕ → ℂ) (t : Fin n → Fin 3) (s : Fin n → Bool) : ℝ :=
  (traceMul (2 ^ n) (outcomeProj n (settingLabel t) (outcomeStr s)) ρ).re

/-- The shots of an experiment: for every setting, the outcomes of `N` runs. -/
abbrev Shots (n N : ℕ) := (Fin n → Fin 3) × Fin N → Fin n → Bool

/-- The probability of these outcomes: the runs are independent. -/
noncomputable def shotsProb {n N : ℕ} (ρ : ℕ → ℕ → ℂ) (ω : Shots n N) : ℝ := ∏ i, outcomeProb n ρ i.1 (ω i)

/-- Tomography data: the counts of every one of the `3^n` Pauli labels, each label once. -/
structure StateData (n : ℕ) (data : Dict Key Counts) : Prop where
  wf : Dict.WF data
  only : ∀ kv ∈ data, ∃ l, kv.1 = .state l ∧ IsLabel xyz n l
  all : ∀ l, IsLabel xyz n l → ∃ c, (Key.state l, c) ∈ data
  counts : ∀ kv ∈ data, GoodCounts n kv.2

/-- The data are the counts of these shots. -/
structure Sampled {n N : ℕ} (data : Dict Key Counts) (ω : Shots n N) : Prop extends StateData n data where
  tally : ∀ t c, (Key.state (settingLabel t), c) ∈ data → ∀ s, c.getD (outcomeStr s) 0 = ((Finset.univ.filter fun i => ω (t, i) = s).card : ℤ)

/-- The linear estimate of these data: a solution of the least squares problem without weights, as a matrix. -/
def IsLinearEstimate (n : ℕ) (prep : Str → Option SM) (data : Dict Key Counts) (L : ℕ → ℕ → ℂ) : Prop :=
  ∃ freqs rows x, fitterData pauliMeas prep data = some (freqs, rows) ∧ IsLstsq rows freqs none x ∧ reshapeF (2 ^ n * 2 ^ n) x = some (2 ^ n, L)

/-- What `StateTomographyFitter.fit(method='lstsq', standard_weights=...)` returns for these data: the least squares solution of the problem of
`_fitter_data`, made positive semidefinite and of trace 1. -/
def FitReturns (standard : Bool) (beta : ℝ) (eigh : ℕ → (ℕ → ℕ → ℂ) → (ℕ → ℝ) × (ℕ → ℕ → ℂ)) (prep : Str → Option SM) (n : ℕ) (data : Dict Key Counts)
    (m : ℕ → ℕ → ℂ) : Prop :=
  ∃ freqs rows weights x, fitterData pauliMeas prep data = some (freqs, rows) ∧ fitterWeights standard beta data = some weights ∧
    IsLstsq rows freqs weights x ∧ lstsqPost eigh (2 ^ n * 2 ^ n) x true (some 1) = some m

/-- The linear algebra routine returns an eigendecomposition of every Hermitian matrix. -/
def GoodEigh (d : ℕ) (eigh : ℕ → (ℕ → ℕ → ℂ) → (ℕ → ℝ) × (ℕ → ℕ → ℂ)) : Prop :=
  ∀ m, (∀ r c, r < d → c < d → (starRingEnd ℂ) (m c r) = m r c) → IsEigh d m (eigh d m).1 (eigh d m).2

end Verif.Tomo
