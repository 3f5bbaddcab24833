import Verif.Tomo.Fit
import Mathlib.LinearAlgebra.Matrix.NonsingularInverse
import Mathlib.LinearAlgebra.Matrix.ConjTranspose
import Mathlib.Analysis.SpecialFunctions.Pow.Complex
/-
Model of qiskit/ignis/verification/tomography/fitters/gateset_fitter.py and of the matrix part of
basis/gatesetbasis.py.

Conventions: numbers are exact reals and complex numbers.  Exceptions of any class are `none`.  The optimisers
(`scipy.optimize.minimize`) and `scipy.linalg.schur` are not modelled: the schur decomposition is a parameter.
The conversions between `PTM` and `Choi` of qiskit.quantum_info are modelled for one qubit by their definitions.
-/
namespace Verif.Tomo
open Verif Verif.Counts Matrix

/-- gateset_fitter.py:80-82: the probabilities of outcome 0; a label without shots is a `ZeroDivisionError`. -/
noncomputable def gstProbs (data : Dict Key Counts) : Option (Dict Key ℝ) :=
  data.mapM fun (kv : Key × Counts) =>
    let total : ℤ := (Dict.values kv.2).sum
    if total = 0 then none else some (kv.1, ((Dict.getD kv.2 "0".toList 0 : ℤ) : ℝ) / (total : ℝ))

/-- An entry of the dictionaries describing a gate set: the matrix of a gate, the row of `E` or the column of `rho`. -/
inductive GstVal (n : ℕ) where
  | gate (m : Matrix (Fin n) (Fin n) ℝ)
  | meas (e : Fin n → ℝ)
  | prep (r : Fin n → ℝ)

/-- gateset_fitter.py:131-140: the labels read from `probs`; one that is missing is a `KeyError`. -/
def gstNeeded (spam gates : List Str) : List Key :=
  spam.flatMap fun fi => .state [fi] :: spam.flatMap fun fj => .state [fj, fi] :: gates.map fun g => .state [fj, g, fi]

/-- gateset_fitter.py:133-134: the row `E` and the column `rho`. -/
noncomputable def gstVector (spam : List Str) (probs : Dict Key ℝ) : Fin spam.length → ℝ :=
  fun i => probs.getD (.state [spam[i]]) 0

/-- gateset_fitter.py:137. -/
noncomputable def gramMatrix (spam : List Str) (probs : Dict Key ℝ) : Matrix (Fin spam.length) (Fin spam.length) ℝ :=
  fun i j => probs.getD (.state [spam[j], spam[i]]) 0

/-- gateset_fitter.py:139-141. -/
noncomputable def gateData (spam : List Str) (probs : Dict Key ℝ) (g : Str) : Matrix (Fin spam.length) (Fin spam.length) ℝ :=
  fun i j => probs.getD (.state [spam[j], g, spam[i]]) 0

open Classical in
/-- gateset_fitter.py:84-147, `linear_inversion`; a singular Gram matrix is a `LinAlgError`. -/
noncomputable def linearInversion (spam gates : List Str) (probs : Dict Key ℝ) : Option (Dict Str (GstVal spam.length)) :=
  if (gstNeeded spam gates).all fun k => probs.has k then
    if (gramMatrix spam probs).det = 0 then none else
    let inv := (gramMatrix spam probs)⁻¹
    let result : Dict Str (GstVal spam.length) := gates.foldl (fun d g => d.set g (.gate (inv * gateData spam probs g))) []
    some ((result.set "E".toList (.meas (gstVector spam probs))).set "rho".toList (.prep (inv *ᵥ gstVector spam probs)))
  else none

/-- gatesetbasis.py:210-225, `spam_matrix`: `functools.reduce(lambda a, b: a @ b, …)`; the reduction of an empty list is a
`TypeError`. -/
noncomputable def spamMatrix {n : ℕ} (gateMatrices : Dict Str (Matrix (Fin n) (Fin n) ℝ)) (spec : List Str) :
    Option (Matrix (Fin n) (Fin n) ℝ) := do
  let ms ← spec.mapM fun g => gateMatrices.get? g
  match ms with
  | [] => none
  | m :: rest => some (rest.foldl (· * ·) m)

open Classical in
/-- gateset_fitter.py:236-259, `_x_to_gateset`: `None` if the gauge is singular. -/
noncomputable def xToGateset {n : ℕ} (gates : List Str) (initial : Dict Str (GstVal n)) (B : Matrix (Fin n) (Fin n) ℝ) :
    Option (Dict Str (GstVal n)) :=
  if B.det = 0 then none else
  let conj : GstVal n → GstVal n := fun
    | .gate m => .gate (B⁻¹ * m * B)
    | v => v
  let gateset : Dict Str (GstVal n) := gates.foldl (fun d g => d.set g (conj (initial.getD g (.gate 0)))) []
  let e : GstVal n := match initial.getD "E".toList (.meas 0) with
    | .meas e => .meas (e ᵥ* B)
    | v => v
  let r : GstVal n := match initial.getD "rho".toList (.prep 0) with
    | .prep r => .prep (B⁻¹ *ᵥ r)
    | v => v
  some ((gateset.set "E".toList e).set "rho".toList r)

/-- gateset_fitter.py:285: the start value of the gauge optimisation: the columns `F @ rho`. -/
noncomputable def gaugeStart {n : ℕ} (fs : Fin n → Matrix (Fin n) (Fin n) ℝ) (rho : Fin n → ℝ) : Matrix (Fin n) (Fin n) ℝ :=
  fun i j => (fs j *ᵥ rho) i

/-- `np.linalg.norm` of the difference of two entries of the same kind. -/
noncomputable def gstDist {n : ℕ} : GstVal n → GstVal n → ℝ
  | .gate a, .gate b => √(∑ i, ∑ j, (a i j - b i j) ^ 2)
  | .meas a, .meas b => √(∑ i, (a i - b i) ^ 2)
  | .prep a, .prep b => √(∑ i, (a i - b i) ^ 2)
  | _, _ => 0

/-- gateset_fitter.py:261-278, `GaugeOptimize._obj_fn`; on a singular gauge `None['…']` is a `TypeError`. -/
noncomputable def gaugeObjective {n : ℕ} (gates : List Str) (ideal initial : Dict Str (GstVal n)) (B : Matrix (Fin n) (Fin n) ℝ) :
    Option ℝ := do
  let gs ← xToGateset gates initial B
  some ((gates.map fun g => gstDist (gs.getD g (.gate 0)) (ideal.getD g (.gate 0))).sum +
    gstDist (gs.getD "E".toList (.meas 0)) (ideal.getD "E".toList (.meas 0)) +
    gstDist (gs.getD "rho".toList (.prep 0)) (ideal.getD "rho".toList (.prep 0)))

/-! The maximum likelihood part. -/

/-- gateset_fitter.py:331-355, `_split_list`. -/
def splitList {α : Type} (input : List α) (sizes : List ℕ) : Option (List (List α)) :=
  if sizes.sum ≠ input.length then none else
  some (sizes.foldl (fun (st : List (List α) × ℕ) s => (st.1 ++ [(input.drop st.2).take s], st.2 + s)) ([], 0)).1

/-- A square complex matrix with its size. -/
structure CM where
  n : ℕ
  e : ℕ → ℕ → ℂ

/-- gateset_fitter.py:357-364, `_vec_to_complex_matrix`. -/
noncomputable def vecToComplexMatrix (vec : List ℝ) : Option CM :=
  let n := Nat.sqrt (vec.length / 2)
  if 2 * n * n ≠ vec.length then none else
  some ⟨n, fun i j => ⟨vec.getD (i * n + j) 0, vec.getD (n * n + (i * n + j)) 0⟩⟩

/-- gateset_fitter.py:366-369, `_complex_matrix_to_vec`. -/
noncomputable def complexMatrixToVec (m : CM) : List ℝ :=
  let cells := (List.range (m.n * m.n)).map fun k => m.e (k / m.n) (k % m.n)
  cells.map Complex.re ++ cells.map Complex.im

/-- `T @ np.conj(T.T)`. -/
noncomputable def gramOf (t : CM) : CM := ⟨t.n, fun i j => ∑ k ∈ Finset.range t.n, t.e i k * (starRingEnd ℂ) (t.e j k)⟩

/-- The one-qubit Pauli matrices. -/
noncomputable def pauli1 : ℕ → ℕ → ℕ → ℂ
  | 0 => fun i j => if i = j then 1 else 0
  | 1 => fun i j => if i = j then 0 else 1
  | 2 => fun i j => if i = j then 0 else if i = 0 then -Complex.I else Complex.I
  | _ => fun i j => if i = j then (if i = 0 then 1 else -1) else 0

/-- `PTM(Choi(m)).data` of qiskit.quantum_info for one qubit: the entry `(a, b)` is `Tr(P_a Λ(P_b)) / 2`, where the Choi matrix has
`Λ(|i⟩⟨j|)` in block `(i, j)`. -/
noncomputable def choiToPtm (c : ℕ → ℕ → ℂ) (a b : ℕ) : ℂ :=
  (1/2) * ∑ i ∈ Finset.range 2, ∑ j ∈ Finset.range 2, ∑ r ∈ Finset.range 2, ∑ s ∈ Finset.range 2,
    pauli1 a s r * (pauli1 b i j * c (2 * i + r) (2 * j + s))

/-- `Choi(PTM(m)).data` for one qubit. -/
noncomputable def ptmToChoi (g : ℕ → ℕ → ℂ) (x y : ℕ) : ℂ :=
  (1/2) * ∑ a ∈ Finset.range 4, ∑ b ∈ Finset.range 4, g a b * (pauli1 b (y / 2) (x / 2) * pauli1 a (x % 2) (y % 2))

/-- gateset_fitter.py:371-397, `_compute_objective_function_data`: `self.Gs.index` of an unknown gate is a `ValueError`, a label or
SPAM name that is missing a `KeyError`. -/
noncomputable def objFnData (gs fNames : List Str) (fs : Dict Str (List Str)) (probs : Dict Key ℝ) : Option (List (List ℕ × ℝ)) :=
  let idx : Str → Option ℕ := fun g => if g ∈ gs then some (gs.idxOf g) else none
  ((List.range fs.length).flatMap fun i => (List.range fs.length).flatMap fun j =>
    (List.range gs.length).map fun k => (i, j, k)).mapM fun ijk => do
      let fi ← fNames[ijk.1]?
      let fj ← fNames[ijk.2.1]?
      let g ← gs[ijk.2.2]?
      let m ← probs.get? (.state [fj, g, fi])
      let fim ← (← fs.get? fi).mapM idx
      let fjm ← (← fs.get? fj).mapM idx
      some (fjm ++ [ijk.2.2] ++ fim, m)

/-- gateset_fitter.py:399-436, `_split_input_vector` for one qubit: the row `E`, the column `rho` (both read row by row from a 2×2
matrix `T T†`) and the Pauli transfer matrices of the gates. -/
noncomputable def splitInputVector (numGates : ℕ) (x : List ℝ) : Option ((ℕ → ℂ) × (ℕ → ℂ) × List (ℕ → ℕ → ℂ)) := do
  let parts ← splitList x ([8, 8] ++ List.replicate numGates 32)
  let ts ← parts.mapM vecToComplexMatrix
  match ts with
  | e :: r :: gs => some (fun k => (gramOf e).e (k / 2) (k % 2), fun k => (gramOf r).e (k / 2) (k % 2),
      gs.map fun g => choiToPtm (gramOf g).e)
  | _ => none

/-- gateset_fitter.py:290-303, `get_cholesky_like_decomposition`, with `schur` a parameter.  Complex numbers are compared by their real,
then imaginary part. -/
noncomputable def choleskyLike (schur : CM → CM × CM) (m : CM) : CM :=
  let (d, u) := schur m
  let neg : ℂ → Prop := fun z => z.re < 0 ∨ (z.re = 0 ∧ z.im < 0)
  let ev : ℕ → ℂ := fun k => open Classical in if neg (d.e k k) then 0 else d.e k k
  ⟨m.n, fun i j => u.e i j * (ev j) ^ (1/2 : ℂ)⟩

/-- gateset_fitter.py:438-467, `_join_input_vector` for one qubit. -/
noncomputable def joinInputVector (schur : CM → CM × CM) (e r : ℕ → ℂ) (gs : List (ℕ → ℕ → ℂ)) : List ℝ :=
  complexMatrixToVec (choleskyLike schur ⟨2, fun i j => e (2 * i + j)⟩) ++
  complexMatrixToVec (choleskyLike schur ⟨2, fun i j => r (2 * i + j)⟩) ++
  gs.flatMap fun g => complexMatrixToVec (choleskyLike schur ⟨4, ptmToChoi g⟩)

/-- gateset_fitter.py:492-496: the prediction for a sequence of gates (indices). -/
noncomputable def predictMle (e r : ℕ → ℂ) (gs : List (ℕ → ℕ → ℂ)) (seq : List ℕ) : ℂ :=
  let v := seq.foldl (fun v k => fun i => ∑ j ∈ Finset.range 4, gs.getD k (fun _ _ => 0) i j * v j) r
  ∑ i ∈ Finset.range 4, e i * v i

/-- gateset_fitter.py:469-500, `GST_Optimize._obj_fn`. -/
noncomputable def mleObjective (data : List (List ℕ × ℝ)) (numGates : ℕ) (x : List ℝ) : Option ℝ := do
  let s ← splitInputVector numGates x
  some ((data.map fun t => ((predictMle s.1 s.2.1 s.2.2 t.1).re - t.2) ^ 2).sum)

/-- gateset_fitter.py:502-522, `_ptm_matrix_values`. -/
noncomputable def ptmMatrixValues (numGates : ℕ) (x : List ℝ) : Option (List ℝ) := do
  let s ← splitInputVector numGates x
  some (s.2.2.flatMap fun g => complexMatrixToVec ⟨4, g⟩)

/-- gateset_fitter.py:538-574, `_bounds_eq_constraint` (one qubit: `ds = 4`): gate `k` takes the 32 values from `32 k` on. -/
noncomputable def boundsEq (numGates : ℕ) (x : List ℝ) : Option (List ℝ) := do
  let p ← ptmMatrixValues numGates x
  some ((List.range numGates).flatMap fun k =>
    (p.getD (32 * k) 0 - 1) :: ((List.range 3).map fun i => p.getD (32 * k + 1 + i) 0) ++
      ((List.range 16).map fun i => p.getD (32 * k + 16 + i) 0))

/-- gateset_fitter.py:576-611, `_bounds_ineq_constraint`. -/
noncomputable def boundsIneq (numGates : ℕ) (x : List ℝ) : Option (List ℝ) := do
  let p ← ptmMatrixValues numGates x
  some ((List.range numGates).flatMap fun k =>
    (List.range 12).flatMap fun i => [p.getD (32 * k + 4 + i) 0 + 1, -p.getD (32 * k + 4 + i) 0 + 1])

/-- gateset_fitter.py:645-652, `_convert_from_ptm`. -/
noncomputable def convertFromPtm (v : ℕ → ℂ) (i j : ℕ) : ℂ := ∑ k ∈ Finset.range 4, v k * ((√(1/2) : ℝ) * pauli1 k i j)

/-- gateset_fitter.py:524-536 and 613-625, `_rho_trace_constraint`. -/
noncomputable def rhoTrace (numGates : ℕ) (x : List ℝ) : Option (List ℝ) := do
  let s ← splitInputVector numGates x
  let t := ∑ i ∈ Finset.range 2, convertFromPtm s.2.1 i i
  some [t.re - 1, t.im]

end Verif.Tomo
