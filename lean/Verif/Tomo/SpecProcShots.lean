import Verif.Tomo.SpecShots
import Verif.Tomo.PropsProc
/-
Specification of process tomography from finitely many shots.
-/
namespace Verif.Tomo
open Verif Verif.Quantum Verif.Counts

/-- The two built-in bases for preparations. -/
inductive PrepBasis | pauli | sic

/-- The labels process tomography uses. -/
def PrepBasis.alph : PrepBasis → List Str
  | .pauli => prep4
  | .sic => sic4

/-- The state of a label. -/
noncomputable def PrepBasis.mat : PrepBasis → Str → SM
  | .pauli => pauliPreparationMatrix
  | .sic => sicPreparationMatrix

/-- The `preparation_matrix` method of the basis. -/
noncomputable def PrepBasis.prep : PrepBasis → Str → Option SM
  | .pauli => pauliPrep
  | .sic => sicPrep

/-- The `i`-th label. -/
def PrepBasis.label (B : PrepBasis) (i : Fin 4) : Str := B.alph.getD i []

/-- The preparation label: one state per qubit. -/
def prepLabel (B : PrepBasis) {n : ℕ} (p : Fin n → Fin 4) : List Str := List.ofFn fun j => B.label (p j)

/-- A quantum channel on `n` qubits: completely positive and trace preserving. -/
structure IsChannel (n : ℕ) (S : ℕ → ℕ → ℕ → ℕ → ℂ) : Prop where
  cp : PSD (2 ^ (n + n)) (choi (2 ^ n) S)
  tp : ∀ i j, i < 2 ^ n → j < 2 ^ n → tr (2 ^ n) (S i j) = if i = j then 1 else 0

/-- The state the channel makes of a preparation. -/
noncomputable def output (B : PrepBasis) {n : ℕ} (S : ℕ → ℕ → ℕ → ℕ → ℂ) (p : Fin n → Fin 4) : ℕ → ℕ → ℂ :=
  applyMap (2 ^ n) S (prepared n B.mat (prepLabel B p))

/-- The shots of an experiment: for every preparation and measurement setting, the outcomes of `N` runs. -/
abbrev ProcShots (n N : ℕ) := ((Fin n → Fin 4) × (Fin n → Fin 3)) × Fin N → Fin n → Bool

/-- The probability of these outcomes: the runs are independent. -/
noncomputable def procProb (B : PrepBasis) {n N : ℕ} (S : ℕ → ℕ → ℕ → ℕ → ℂ) (ω : ProcShots n N) : ℝ :=
  ∏ i, outcomeProb n (output B S i.1.1) i.1.2 (ω i)

/-- Tomography data: the counts of every pair of a preparation label and a measurement label, each once. -/
structure ProcData (B : PrepBasis) (n : ℕ) (data : Dict Key Counts) : Prop where
  wf : Dict.WF data
  only : ∀ kv ∈ data, ∃ p l, kv.1 = .process p l ∧ IsLabel B.alph n p ∧ IsLabel xyz n l
  all : ∀ p l, IsLabel B.alph n p → IsLabel xyz n l → ∃ c, (Key.process p l, c) ∈ data
  counts : ∀ kv ∈ data, GoodCounts n kv.2

/-- The data are the counts of these shots. -/
structure ProcSampled (B : PrepBasis) {n N : ℕ} (data : Dict Key Counts) (ω : ProcShots n N) : Prop extends ProcData B n data where
  tally : ∀ p t c, (Key.process (prepLabel B p) (settingLabel t), c) ∈ data → ∀ s,
    c.getD (outcomeStr s) 0 = ((Finset.univ.filter fun i => ω ((p, t), i) = s).card : ℤ)

/-- The linear estimate of these data: a solution of the least squares problem without weights, as a matrix. -/
def IsProcEstimate (B : PrepBasis) (n : ℕ) (data : Dict Key Counts) (L : ℕ → ℕ → ℂ) : Prop :=
  ∃ freqs rows x, fitterData pauliMeas B.prep data = some (freqs, rows) ∧ IsLstsq rows freqs none x ∧
    reshapeF (2 ^ (n + n) * 2 ^ (n + n)) x = some (2 ^ (n + n), L)

/-- What `ProcessTomographyFitter.fit(method='lstsq', standard_weights=...)` returns for these data: the least squares solution of the problem of
`_fitter_data`, made positive semidefinite and of trace `dim`, where `dim` is computed from the number of columns. -/
def ProcFitReturns (standard : Bool) (beta : ℝ) (eigh : ℕ → (ℕ → ℕ → ℂ) → (ℕ → ℝ) × (ℕ → ℕ → ℂ)) (B : PrepBasis) (data : Dict Key Counts)
    (m : ℕ → ℕ → ℂ) : Prop :=
  ∃ freqs op rest weights x dim, fitterData pauliMeas B.prep data = some (freqs, op :: rest) ∧ fitterWeights standard beta data = some weights ∧
    processDim (op.dim * op.dim) = some dim ∧ IsLstsq (op :: rest) freqs weights x ∧
    lstsqPost eigh (op.dim * op.dim) x true (some (dim : ℂ)) = some m

/-- The constant of the accuracy bound. -/
noncomputable def PrepBasis.base : PrepBasis → ℝ
  | .pauli => 40 / 3
  | .sic => 25 / 3

end Verif.Tomo
