import Verif.Discr.Iq
import Mathlib.Data.List.MinMax
import Mathlib.Data.Finset.Sort
import Mathlib.Data.List.Lex
import Mathlib.LinearAlgebra.Matrix.NonsingularInverse
import Mathlib.Analysis.SpecialFunctions.Log.Basic
/-
Specification side of C129: what linear and quadratic discriminant analysis compute.
-/
namespace Verif.Discr
open Verif

/-- A row of data as a vector. -/
def vec (d : ℕ) (r : List ℝ) : Fin d → ℝ := fun i => r.getD i 0

/-- The training points with the label `c`. -/
def ofClass (X : List (List ℝ)) (Y : List Str) (c : Str) : List (List ℝ) := ((X.zip Y).filter fun p => p.2 = c).map (·.1)

/-- The mean of a set of points. -/
noncomputable def mean (d : ℕ) (P : List (List ℝ)) : Fin d → ℝ := fun i => (P.map fun r => vec d r i).sum / P.length

/-- Sum of the products of the deviations from the mean of a set of points. -/
noncomputable def scatter (d : ℕ) (P : List (List ℝ)) : Matrix (Fin d) (Fin d) ℝ :=
  fun i j => (P.map fun r => (vec d r i - mean d P i) * (vec d r j - mean d P j)).sum

/-- The labels that occur, in the order of scikit-learn's `classes_`. -/
def classes (Y : List Str) : List Str := Y.toFinset.sort (· ≤ ·)

/-- The covariance common to all classes. -/
noncomputable def pooled (d : ℕ) (X : List (List ℝ)) (Y : List Str) : Matrix (Fin d) (Fin d) ℝ :=
  (1 / ((X.length : ℝ) - (classes Y).length)) • ((classes Y).map fun c => scatter d (ofClass X Y c)).sum

/-- The covariance of one class. -/
noncomputable def classCov (d : ℕ) (X : List (List ℝ)) (Y : List Str) (c : Str) : Matrix (Fin d) (Fin d) ℝ :=
  (1 / (((ofClass X Y c).length : ℝ) - 1)) • scatter d (ofClass X Y c)

/-- Squared distance of `x` from `m` in units of the covariance `S`. -/
noncomputable def distSq {d : ℕ} (S : Matrix (Fin d) (Fin d) ℝ) (m x : Fin d → ℝ) : ℝ := (x - m) ⬝ᵥ S⁻¹.mulVec (x - m)

/-- The share of the training points with the label `c`. -/
noncomputable def prior (X : List (List ℝ)) (Y : List Str) (c : Str) : ℝ := ((ofClass X Y c).length : ℝ) / X.length

/-- Linear discriminant analysis: the label of the greatest posterior if all classes are normally distributed with the same covariance (the first of several). -/
noncomputable def ldaLabel (d : ℕ) (X : List (List ℝ)) (Y : List Str) (x : List ℝ) : Str :=
  ((classes Y).argmax fun c => Real.log (prior X Y c) - distSq (pooled d X Y) (mean d (ofClass X Y c)) (vec d x) / 2).getD []

/-- Quadratic discriminant analysis: every class has its own covariance. -/
noncomputable def qdaLabel (d : ℕ) (X : List (List ℝ)) (Y : List Str) (x : List ℝ) : Str :=
  ((classes Y).argmax fun c => Real.log (prior X Y c) - Real.log (classCov d X Y c).det / 2 -
    distSq (classCov d X Y c) (mean d (ofClass X Y c)) (vec d x) / 2).getD []

/-- One label for each of the points, which have `d` columns; at least two classes. -/
structure Labelled (d : ℕ) (X : List (List ℝ)) (Y : List Str) : Prop where
  lengths : X.length = Y.length
  columns : ∀ x ∈ X, x.length = d
  two : 2 ≤ (classes Y).length

open Classical in
/-- The predictor gives every row with `d` columns the label `f`; no rows or another number of columns raise. -/
def Predicts (d : ℕ) (f : List ℝ → Str) (p : Predictor) : Prop :=
  ∀ xs, p xs = if xs ≠ [] ∧ ∀ x ∈ xs, x.length = d then some (xs.map f) else none

/-- `LinearDiscriminantAnalysis` on points whose common covariance is not singular. -/
def IsLda (train : Classifier) : Prop :=
  ∀ d X Y, Labelled d X Y → (pooled d X Y).det ≠ 0 → ∃ p, train X Y = some p ∧ Predicts d (ldaLabel d X Y) p

/-- `QuadraticDiscriminantAnalysis` on points with no singular covariance. -/
def IsQda (train : Classifier) : Prop :=
  ∀ d X Y, Labelled d X Y → (∀ c ∈ classes Y, (classCov d X Y c).det ≠ 0) → ∃ p, train X Y = some p ∧ Predicts d (qdaLabel d X Y) p

/-- One call of `add_data`, with a list of names of its own or none. -/
structure Add where
  call : Call ℝ
  refit : Bool

/-- The argument of `add_data` for a list of names of its own or none. -/
def argOf (s : Option (List Str)) : SchedArg := match s with | none => .default | some l => .names l

/-- A discriminator after its construction and a history of `add_data` calls. -/
noncomputable def history (train : Classifier) (standardize : Bool) (mask : List ℕ) (cal : List (Res ℝ)) (states scheds : Option (List Str)) (adds : List Add) :
    Option Iq := do
  let d ← Iq.new train standardize mask cal states scheds
  adds.foldlM (fun d a => d.addData train a.call.result a.call.states a.refit (argOf a.call.scheds)) d

end Verif.Discr
