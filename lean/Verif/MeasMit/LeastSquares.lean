import Verif.MeasMit.Model
import Mathlib.Data.Real.Basic
/-
Model of the `least_squares` method (the default) of the filters of qiskit/ignis/mitigation/measurement/filters.py, and of their `Result` input.
`scipy.optimize.minimize` is a parameter: a function of everything it is given.
-/
namespace Verif.MeasMit
open Verif Verif.Counts

/-- The arguments of `scipy.optimize.minimize(fun, x0, method='SLSQP', constraints=cons, bounds=bnds)`: vectors have `dim` entries;
`obj x = none` when `fun(x)` raises; the constraint is `eq x = 0`. -/
structure Problem where
  dim : Nat
  obj : (Nat → ℝ) → Option ℝ
  start : Nat → ℝ
  eq : (Nat → ℝ) → ℝ
  bounds : List (ℝ × ℝ)

/-- `res.x` of a call of `minimize`; `none` when the call raises. -/
abbrev Solver := Problem → Option (Nat → ℝ)

/-- `sum(v)` for a vector of `n` entries. -/
noncomputable def vsum (n : Nat) (v : Nat → ℝ) : ℝ := ((List.range n).map v).sum

/-- filters.py:171, 176-181 and 412-418: the problem for objective `obj`, random numbers `rand` and counts `v`. -/
noncomputable def lsqProblem (n : Nat) (obj : (Nat → ℝ) → Option ℝ) (rand v : Nat → ℝ) : Problem :=
  let nshots := vsum n v
  { dim := n
    obj := obj
    start := fun i => rand i / vsum n rand
    eq := fun x => nshots - vsum n x
    bounds := (List.range n).map fun _ => (0, nshots) }

/-- filters.py:173-175 `fun`. -/
noncomputable def lsqObj (n : Nat) (cal : Mat ℝ) (v x : Nat → ℝ) : Option ℝ := some (vsum n fun i => (v i - dot n cal x i) ^ 2)

/-- filters.py:160-185, the correction of one vector of counts; `pinv` is `scipy.linalg.pinv` of the calibration matrix `cal`. -/
noncomputable def correct (n : Nat) (cal pinv : Mat ℝ) (solve : Solver) (method : Option Str) (rand v : Nat → ℝ) : Option (Nat → ℝ) :=
  if method = some "pseudo_inverse".toList then some (dot n pinv v)
  else if method = some "least_squares".toList then solve (lsqProblem n (lsqObj n cal v) rand v)
  else none

/-- filters.py:109-120, 160-198: `MeasurementFilter.apply` on a counts dictionary. -/
noncomputable def filterDict (labels : List Str) (cal pinv : Mat ℝ) (solve : Solver) (method : Option Str) (rand : Nat → ℝ) (raw : Dict Str ℝ) :
    Option (Dict Str ℝ) :=
  if raw.all fun p => p.1 ∈ labels then do
    let x ← correct labels.length cal pinv solve method rand fun j => raw.getD (labels.getD j []) 0
    some (labels.zipIdx.foldl (fun d p => if x p.2 ≠ 0 then d.set p.1 (x p.2) else d) [])
  else none

/-- filters.py:122-139, 160-189, 199-203: `MeasurementFilter.apply` on a list of counts of one or more vectors; `rand c` are the random
numbers of vector `c`.  The empty label list divides by zero. -/
noncomputable def filterList (nlabels : Nat) (cal pinv : Mat ℝ) (solve : Solver) (method : Option Str) (rand : Nat → Nat → ℝ) (raw : List ℝ) :
    Option (List ℝ) :=
  if nlabels = 0 then none
  else if raw.length % nlabels = 0 then do
    let xs ← (List.range (raw.length / nlabels)).mapM fun c =>
      (correct nlabels cal pinv solve method (rand c) fun j => raw.getD (c * nlabels + j) 0).map fun x => (List.range nlabels).map x
    some xs.flatten
  else none

/-- filters.py:141-155, 205-209: `MeasurementFilter.apply` on a `Result`, of which only the counts of the experiments are modelled; `rand i`
are the random numbers for experiment `i`.  The argument is not changed (`deepcopy`). -/
noncomputable def filterResult (labels : List Str) (cal pinv : Mat ℝ) (solve : Solver) (method : Option Str) (rand : Nat → Nat → ℝ)
    (res : List (Dict Str ℝ)) : Option (List (Dict Str ℝ)) :=
  res.zipIdx.mapM fun e => filterDict labels cal pinv solve method (rand e.2) e.1

/-- filters.py:380-410 `fun`: the groups are given as `(size, indices, calibration matrix)`. -/
noncomputable def tensoredObj (groups : List (Nat × Dict Str Nat × Mat ℝ)) (states : List Str) (nqubits : Nat) (v x : Nat → ℝ) : Option ℝ := do
  let y ← states.mapM fun s1 => do
    let terms ← states.zipIdx.mapM fun p =>
      if x p.2 ≠ 0 then do
        let t ← groupProduct groups s1 p.1 nqubits
        pure (t * x p.2)
      else some 0
    pure terms.sum
  pure (vsum states.length fun i => (v i - y.getD i 0) ^ 2)

/-- filters.py:308-318, 378-419, 424-430: `TensoredFilter.apply(raw, method='least_squares')` on a counts dictionary. -/
noncomputable def tensoredLsq (labels : List (List Str)) (cals : List (Mat ℝ)) (solve : Solver) (rand : Nat → ℝ) (raw : Dict Str ℝ) :
    Option (Dict Str ℝ) := do
  let sizes := labels.map fun l => Nat.log2 l.length
  let nqubits := sizes.sum
  let states := countKeys nqubits
  let groups := (sizes.zip (labels.map indices)).zip cals |>.map fun p => (p.1.1, p.1.2, p.2)
  let v : Nat → ℝ ← raw.foldlM (fun (v : Nat → ℝ) p =>
    if ofBin p.1 < 2 ^ nqubits then some (fun i => if i = ofBin p.1 then p.2 else v i) else none)
    (fun _ => 0)
  let x ← solve (lsqProblem (2 ^ nqubits) (tensoredObj groups states nqubits v) rand v)
  pure (states.zipIdx.foldl (fun d p => if x p.2 ≠ 0 then d.set p.1 (x p.2) else d) [])

/-- filters.py:282-430 `TensoredFilter.apply` on a counts dictionary; `pinvs` are the pseudo-inverses of the calibration matrices `cals`. -/
noncomputable def tensoredFilter (labels : List (List Str)) (cals pinvs : List (Mat ℝ)) (solve : Solver) (method : Option Str) (rand : Nat → ℝ)
    (raw : Dict Str ℝ) : Option (Dict Str ℝ) :=
  if method = some "pseudo_inverse".toList then tensoredApply labels pinvs raw
  else if method = some "least_squares".toList then tensoredLsq labels cals solve rand raw
  else none

/-- filters.py:320-334, 432-436: `TensoredFilter.apply` on a `Result`, as for `filterResult`. -/
noncomputable def tensoredResult (labels : List (List Str)) (cals pinvs : List (Mat ℝ)) (solve : Solver) (method : Option Str) (rand : Nat → Nat → ℝ)
    (res : List (Dict Str ℝ)) : Option (List (Dict Str ℝ)) :=
  res.zipIdx.mapM fun e => tensoredFilter labels cals pinvs solve method (rand e.2) e.1

end Verif.MeasMit
