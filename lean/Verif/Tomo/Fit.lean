import Verif.Tomo.Circ
import Verif.Counts.Model
import Mathlib.Analysis.SpecialFunctions.Trigonometric.Arctan
import Mathlib.Analysis.Real.Sqrt
import Mathlib.Analysis.Complex.Trigonometric
import Mathlib.Algebra.BigOperators.Ring.Finset
/-
Model of the fitting part of qiskit/ignis/verification/tomography: the matrices of
basis/paulibasis.py and basis/sicbasis.py, fitters/base_fitter.py (data, operators, weights),
fitters/lstsq_fit.py and `partial_trace_super` of fitters/cvx_fit.py.

Conventions: floating point numbers are exact real and complex numbers; a NumPy matrix is its size and
its entries; exceptions are `none`.  `lstsq` and `eigh` are external: their results are arguments.
The convex optimiser (`cvx_fit`) is not modelled.
-/
namespace Verif.Tomo
open Verif Verif.Counts

/-- A square NumPy array. -/
structure SM where
  dim : ℕ
  e : ℕ → ℕ → ℂ

/-- `np.array([[a, b], [c, d]])`. -/
def m2 (a b c d : ℂ) : SM := ⟨2, fun i j => if i = 0 then (if j = 0 then a else b) else (if j = 0 then c else d)⟩

/-- `np.eye(1)`. -/
def smOne : SM := ⟨1, fun _ _ => 1⟩

/-- `np.kron(a, b)`. -/
noncomputable def kron (a b : SM) : SM :=
  ⟨a.dim * b.dim, fun i j => a.e (i / b.dim) (j / b.dim) * b.e (i % b.dim) (j % b.dim)⟩

/-- `a.T`. -/
def SM.transpose (a : SM) : SM := ⟨a.dim, fun i j => a.e j i⟩

/-- paulibasis.py:98-140, `pauli_preparation_matrix`; an unknown label gives the empty array. -/
noncomputable def pauliPreparationMatrix (label : Str) : SM :=
  if label = "Xp".toList then m2 (1/2) (1/2) (1/2) (1/2)
  else if label = "Xm".toList then m2 (1/2) (-(1/2)) (-(1/2)) (1/2)
  else if label = "Yp".toList then m2 (1/2) (-(1/2) * Complex.I) ((1/2) * Complex.I) (1/2)
  else if label = "Ym".toList then m2 (1/2) ((1/2) * Complex.I) (-(1/2) * Complex.I) (1/2)
  else if label = "Zp".toList then m2 1 0 0 0
  else if label = "Zm".toList then m2 0 0 0 1
  else ⟨0, fun _ _ => 0⟩

/-- paulibasis.py:143-189, `pauli_measurement_matrix`; the outcome is 0 or 1. -/
noncomputable def pauliMeasurementMatrix (label : Str) (outcome : Bool) : SM :=
  if label = "X".toList then pauliPreparationMatrix (if outcome then "Xm".toList else "Xp".toList)
  else if label = "Y".toList then pauliPreparationMatrix (if outcome then "Ym".toList else "Yp".toList)
  else if label = "Z".toList then pauliPreparationMatrix (if outcome then "Zm".toList else "Zp".toList)
  else ⟨0, fun _ _ => 0⟩

/-- sicbasis.py:61-99, `sicpovm_preparation_matrix`. -/
noncomputable def sicPreparationMatrix (label : Str) : SM :=
  if label = "S0".toList then m2 1 0 0 0
  else if label = "S1".toList then m2 (1/3) ((√2 : ℝ) / 3) ((√2 : ℝ) / 3) (2/3)
  else if label = "S2".toList then
    m2 (1/3) (Complex.exp (Real.pi * (2 * Complex.I) / 3) * (√2 : ℝ) / 3)
      (Complex.exp (-Real.pi * (2 * Complex.I) / 3) * (√2 : ℝ) / 3) (2/3)
  else if label = "S3".toList then
    m2 (1/3) (Complex.exp (-Real.pi * (2 * Complex.I) / 3) * (√2 : ℝ) / 3)
      (Complex.exp (Real.pi * (2 * Complex.I) / 3) * (√2 : ℝ) / 3) (2/3)
  else ⟨0, fun _ _ => 0⟩

/-- tomographybasis.py:167-199, `measurement_matrix` of a basis with the given labels and matrix
function; the outcome check cannot fail for 0 and 1. -/
def checkedMeas (labels : List Str) (f : Str → Bool → SM) (label : Str) (outcome : Bool) : Option SM :=
  if label ∈ labels then some (f label outcome) else none

/-- tomographybasis.py:201-224, `preparation_matrix`. -/
def checkedPrep (labels : List Str) (f : Str → SM) (label : Str) : Option SM :=
  if label ∈ labels then some (f label) else none

/-- `PauliBasis.measurement_matrix`, paulibasis.py:196-202. -/
noncomputable def pauliMeas : Str → Bool → Option SM :=
  checkedMeas ["X".toList, "Y".toList, "Z".toList] pauliMeasurementMatrix

/-- `PauliBasis.preparation_matrix`, paulibasis.py:196-202. -/
noncomputable def pauliPrep : Str → Option SM :=
  checkedPrep ["Xp".toList, "Xm".toList, "Yp".toList, "Ym".toList, "Zp".toList, "Zm".toList]
    pauliPreparationMatrix

/-- `SICBasis.preparation_matrix`, sicbasis.py:106-110. -/
noncomputable def sicPrep : Str → Option SM :=
  checkedPrep ["S0".toList, "S1".toList, "S2".toList, "S3".toList] sicPreparationMatrix

/-- base_fitter.py:449-481, `_preparation_op`. -/
noncomputable def preparationOp (f : Str → Option SM) (label : Option (List Str)) : Option SM :=
  match label with
  | none => some smOne
  | some l => l.foldlM (fun op a => (f a).map fun m => kron m op) smOne

/-- `sorted(it.product((0, 1), repeat=n))`, base_fitter.py:513: already in sorted order. -/
def outcomes : ℕ → List (List Bool)
  | 0 => [[]]
  | n + 1 => [false, true].flatMap fun b => (outcomes n).map (b :: ·)

/-- base_fitter.py:514-517: the operator of one outcome tuple. -/
noncomputable def outcomeOp (f : Str → Bool → Option SM) (label : List Str) (o : List Bool) : Option SM :=
  (label.reverse.zip o).foldlM (fun op p => (f p.1 p.2).map fun m => kron op m) smOne

/-- base_fitter.py:483-521, `_measurement_ops`. -/
noncomputable def measurementOps (f : Str → Bool → Option SM) (label : List Str) : Option (List SM) :=
  (outcomes label.length).mapM (outcomeOp f label)

/-- base_fitter.py:429-447, one row of `_basis_operator_matrix`: the matrix read column by column,
conjugated. -/
noncomputable def operatorRow (b : SM) : ℕ → ℂ := fun k => (starRingEnd ℂ) (b.e (k % b.dim) (k / b.dim))

/-- The label tuples used as keys of the fitter data: of state tomography, or of process tomography
(preparation and measurement label). -/
inductive Key where
  | state (l : List Str)
  | process (p m : List Str)
  deriving DecidableEq, Repr

/-- The separators between the quoted labels of `str(label)`. -/
def flatPunct (n : ℕ) : List Str :=
  ["(".toList] ++ List.replicate (n - 1) ", ".toList ++ [if n = 1 then ",)".toList else ")".toList]

/-- The separators between the quoted labels of `str((prep_label, meas_label))`. -/
def pairPunct (a b : ℕ) : List Str :=
  ["((".toList] ++ List.replicate (a - 1) ", ".toList ++
  [if a = 1 then ",), (".toList else "), (".toList] ++ List.replicate (b - 1) ", ".toList ++
  [if b = 1 then ",))".toList else "))".toList]

/-- `literal_eval(name)` (base_fitter.py:276-281) on the names circuits.py writes: `repr`s of
nonempty tuples of strings and of pairs of such tuples.  Every other text is `none`. -/
def literalEval (name : Str) : Option Key :=
  let u := unweave (splitChar '\'' name)
  let n := u.2.length
  if u.1 = flatPunct n then some (.state u.2)
  else
    let a := (u.1.tail.takeWhile (· = ", ".toList)).length + 1
    if u.1 = pairPunct a (n - a) ∧ a < n then some (.process (u.2.take a) (u.2.drop a)) else none

/-- An entry of the `circuits` argument: a name, or a circuit with its name and number of classical
registers. -/
inductive CircRef where
  | str (name : Str)
  | circ (name : Str) (cregs : ℕ)

/-- The name under which `result.get_counts` looks. -/
def CircRef.name : CircRef → Str
  | .str s => s
  | .circ s _ => s

/-- base_fitter.py:261-264: `marginalize`. -/
def needsMarginal : CircRef → Bool
  | .str _ => false
  | .circ _ k => k ≠ 1

/-- base_fitter.py:268-275: the counts of a circuit: those of the last result that knows it. -/
def lookupCounts (results : List (Str → Option Counts)) (name : Str) : Option Counts :=
  results.foldl (fun acc r => (r name).or acc) none

/-- `len(tup[0])`, base_fitter.py:283: the number of characters of the first label of a state label, the
number of labels of the preparation part of a process label. -/
def firstLen : Key → Option ℕ
  | .state (a :: _) => some a.length
  | .state [] => none
  | .process p _ => some p.length

/-- base_fitter.py:284-287. -/
def poolInto (data : Dict Key Counts) (k : Key) (c : Counts) : Dict Key Counts :=
  match data.get? k with
  | some d => data.set k (combineCounts d c)
  | none => data.set k c

/-- base_fitter.py:267-287: the body of the loop over the circuits. -/
def addOne (results : List (Str → Option Counts)) (marg : Bool) (data : Dict Key Counts) (c : CircRef) :
    Option (Dict Key Counts) := do
  let counts ← lookupCounts results c.name
  let tup ← literalEval c.name
  let counts ← if marg then (do marginalCounts counts (some (List.range (← firstLen tup))) false) else some counts
  some (poolInto data tup counts)

/-- base_fitter.py:243-287, `add_data`. -/
def addData (data : Dict Key Counts) (results : List (Str → Option Counts)) (circuits : List CircRef) :
    Option (Dict Key Counts) :=
  match circuits with
  | [] => none
  | c :: _ => circuits.foldlM (addOne results (needsMarginal c)) data

/-- base_fitter.py:424: the hedged frequencies. -/
noncomputable def hedged (counts : List ℝ) (beta : ℝ) : List ℝ :=
  counts.map fun c => (c + beta) / (counts.sum + counts.length * beta)

/-- base_fitter.py:413-414: the hedging parameter used. -/
noncomputable def effectiveBeta (counts : List ℝ) (beta : ℝ) : ℝ :=
  if beta = 0 ∧ (counts.sum ∈ counts ∨ 0 ∈ counts) then 1/2 else beta

/-- base_fitter.py:406-427, `_binomial_weights` of an array of counts.  (A hedged frequency of exactly 0 or
1 makes NumPy return an infinite weight; here it is 0.  `C53_weights` shows it does not occur for two
or more outcomes.) -/
noncomputable def binomialWeights (counts : List ℝ) (beta : ℝ) : Option (List ℝ) :=
  if beta < 0 then none
  else some ((hedged counts (effectiveBeta counts beta)).map fun f => √(counts.sum / (f * (1 - f))))

/-- base_fitter.py:400-403: the counts array of a counts dictionary given directly to
`_binomial_weights` (`pad_zeros` has no effect as all qubits are kept). -/
noncomputable def weightCounts (counts : Counts) : Option (List ℝ) := do
  let m ← marginalCounts counts none true
  let ks := (m.map (·.1)).insertionSort (· ≤ ·)
  some (ks.map fun k => (m.getD k 0 : ℝ))

/-- base_fitter.py:337-342: the counts of a label as an array. -/
def countsArray (n : ℕ) (c : Counts) : List ℤ := (countKeys n).map fun k => c.getD k 0

/-- base_fitter.py:344-347: the frequencies of a label. -/
noncomputable def frequencies (cts : List ℤ) : List ℝ := cts.map fun (c : ℤ) => (c : ℝ) / ((cts.sum : ℤ) : ℝ)

/-- base_fitter.py:354-366: the operators of one data label, one per outcome. -/
noncomputable def labelOps (meas : Str → Bool → Option SM) (prep : Str → Option SM) (k : Key) : Option (List SM) := do
  let (pl, ml) := match k with
    | .state l => (none, l)
    | .process p m => (some p, m)
  let p ← preparationOp prep pl
  let ms ← measurementOps meas ml
  some (ms.map fun m => kron p.transpose m)

/-- base_fitter.py:289-369, `_fitter_data` without weights: the frequencies and the rows. -/
noncomputable def fitterData (meas : Str → Bool → Option SM) (prep : Str → Option SM) (data : Dict Key Counts) :
    Option (List ℝ × List SM) :=
  match data with
  | [] => none
  | (k0, _) :: _ => do
    let n := match k0 with
      | .state l => l.length
      | .process _ m => m.length
    let blocks ← data.mapM fun kv => labelOps meas prep kv.1
    some (data.flatMap fun kv => frequencies (countsArray n kv.2), blocks.flatten)

/-- base_fitter.py:325-328, 337-344 and 351-354: the weights `_fitter_data` returns; the inner `none` is
Python's `None`. -/
noncomputable def fitterWeights (standard : Bool) (beta : ℝ) (data : Dict Key Counts) : Option (Option (List ℝ)) :=
  match data with
  | [] => none
  | (k0, _) :: _ =>
    let n := match k0 with
      | .state l => l.length
      | .process _ m => m.length
    if standard then do
      let ws ← data.mapM fun kv => binomialWeights ((countsArray n kv.2).map fun (c : ℤ) => (c : ℝ)) beta
      some (some ws.flatten)
    else some none

variable {K : Type} [Field K] [LinearOrder K]

/-- lstsq_fit.py:154-162: the body of the loop over `j`. -/
def wizardStep (dim : ℕ) (eps : K) (v : ℕ → K) (j : ℕ) : ℕ → K :=
  if v j < eps then
    fun k => if k = j then 0 else if j < k then v k + v j / ((dim : K) - ((j : K) + 1)) else v k
  else v

/-- lstsq_fit.py:153-162: the rescaling of the eigenvalues `v` (increasing, used below `dim`). -/
def wizard (dim : ℕ) (eps : K) (v : ℕ → K) : ℕ → K := (List.range dim).foldl (wizardStep dim eps) v

/-- lstsq_fit.py:167-169: the matrix with eigenvalues `v` and eigenvectors the columns of `w`. -/
noncomputable def fromEigen (dim : ℕ) (v : ℕ → ℝ) (w : ℕ → ℕ → ℂ) : ℕ → ℕ → ℂ := fun r c =>
  ∑ j ∈ Finset.range dim, (v j : ℂ) * (w r j * (starRingEnd ℂ) (w c j))

/-- lstsq_fit.py:124-171, `make_positive_semidefinite`; `v, w` is the result of `la.eigh(mat)`. -/
noncomputable def makePositiveSemidefinite (dim : ℕ) (v : ℕ → ℝ) (w : ℕ → ℕ → ℂ) (eps : ℝ) : Option (ℕ → ℕ → ℂ) :=
  if eps < 0 then none else some (fromEigen dim (wizard dim eps v) w)

/-- lstsq_fit.py:114-116: rescaling to the given trace. -/
noncomputable def rescaleTrace (dim : ℕ) (trace : Option ℂ) (m : ℕ → ℕ → ℂ) : ℕ → ℕ → ℂ :=
  match trace with
  | none => m
  | some t => fun i j => m i j * (t / ∑ k ∈ Finset.range dim, m k k)

/-- lstsq_fit.py:102-108: the fitted vector read column by column; `none` when its length is not a square. -/
noncomputable def reshapeF (size : ℕ) (x : ℕ → ℂ) : Option (ℕ × (ℕ → ℕ → ℂ)) :=
  if Nat.sqrt size * Nat.sqrt size ≠ size then none else some (Nat.sqrt size, fun i j => x (j * Nat.sqrt size + i))

/-- lstsq_fit.py:25-117, `lstsq_fit` after the solver has returned `x`; `eigh` is `la.eigh`. -/
noncomputable def lstsqPost (eigh : ℕ → (ℕ → ℕ → ℂ) → (ℕ → ℝ) × (ℕ → ℕ → ℂ)) (size : ℕ) (x : ℕ → ℂ) (psd : Bool)
    (trace : Option ℂ) : Option (ℕ → ℕ → ℂ) := do
  let (dim, m) ← reshapeF size x
  let m ← if psd then makePositiveSemidefinite dim (eigh dim m).1 (eigh dim m).2 0 else some m
  some (rescaleTrace dim trace m)

/-- process_fitter.py:132-137: the dimension of the process, from the number of columns of the basis matrix. -/
def processDim (cols : ℕ) : Option ℕ :=
  if Nat.sqrt (Nat.sqrt cols) ^ 4 ≠ cols then none else some (Nat.sqrt (Nat.sqrt cols))

/-- cvx_fit.py:232-256, `partial_trace_super`: a `dim1² × (dim1 dim2)²` array. -/
def partialTraceSuper {R : Type} [CommSemiring R] (dim1 dim2 : ℕ) : ℕ → ℕ → R := fun r c =>
  ∑ j ∈ Finset.range dim2,
    let tmp : ℕ → ℕ → R := fun i k => (if i = k / dim2 then 1 else 0) * (if k % dim2 = j then 1 else 0)
    tmp (r / dim1) (c / (dim1 * dim2)) * tmp (r % dim1) (c % (dim1 * dim2))

/-- `cvxpy.vec`: the matrix read column by column. -/
def cvxVec (dim : ℕ) (m : ℕ → ℕ → ℝ) : ℕ → ℝ := fun k => m (k % dim) (k / dim)

/-- cvx_fit.py:145: the block matrix `[[rho_r, -rho_i], [rho_i, rho_r]]`. -/
def cvxBlock (dim : ℕ) (r im : ℕ → ℕ → ℝ) : ℕ → ℕ → ℝ := fun a b =>
  if a < dim then (if b < dim then r a b else -im a (b - dim))
  else (if b < dim then im (a - dim) b else r (a - dim) (b - dim))

/-- cvx_fit.py:121-158: the constraints on the variables `rho_r` (`r`) and `rho_i` (`im`). -/
structure CvxFeasible (dim : ℕ) (psd : Bool) (trace : Option ℝ) (tp : Bool) (r im : ℕ → ℕ → ℝ) : Prop where
  /-- `symmetric=True`, line 122 -/
  sym : ∀ a b, a < dim → b < dim → r a b = r b a
  /-- line 132 -/
  anti : ∀ a b, a < dim → b < dim → im a b = -im b a
  /-- lines 137-138 -/
  tr : ∀ t, trace = some t → ∑ k ∈ Finset.range dim, r k k = t
  /-- lines 144-146; `X >> 0` -/
  pos : psd = true → ∀ z : ℕ → ℝ,
    0 ≤ ∑ a ∈ Finset.range (2 * dim), ∑ b ∈ Finset.range (2 * dim), z a * cvxBlock dim r im a b * z b
  /-- line 157 -/
  tpr : tp = true → ∀ i < Nat.sqrt dim * Nat.sqrt dim,
    ∑ c ∈ Finset.range (dim * dim), partialTraceSuper (Nat.sqrt dim) (Nat.sqrt dim) i c * cvxVec dim r c =
      if i / Nat.sqrt dim = i % Nat.sqrt dim then 1 else 0
  /-- line 158 -/
  tpi : tp = true → ∀ i < Nat.sqrt dim * Nat.sqrt dim,
    ∑ c ∈ Finset.range (dim * dim), partialTraceSuper (Nat.sqrt dim) (Nat.sqrt dim) i c * cvxVec dim im c = 0

/-- cvx_fit.py:161-165: the normalised weight of row `i`. -/
noncomputable def cvxWeight (weights : Option (List ℝ)) (i : ℕ) : ℝ :=
  match weights with
  | none => 1
  | some w => w.getD i 0 / √((w.map fun x => x ^ 2).sum)

/-- cvx_fit.py:178-188: entry `i` of `arg`. -/
noncomputable def cvxArg (dim : ℕ) (rows : List SM) (freqs : List ℝ) (weights : Option (List ℝ)) (r im : ℕ → ℕ → ℝ) (i : ℕ) : ℝ :=
  (∑ k ∈ Finset.range (dim * dim), ((cvxWeight weights i : ℂ) * operatorRow (rows.getD i smOne) k).re * cvxVec dim r k) -
  (∑ k ∈ Finset.range (dim * dim), ((cvxWeight weights i : ℂ) * operatorRow (rows.getD i smOne) k).im * cvxVec dim im k) -
  cvxWeight weights i * freqs.getD i 0

/-- cvx_fit.py:191: the objective, `norm(arg, p=2)`. -/
noncomputable def cvxObjective (dim : ℕ) (rows : List SM) (freqs : List ℝ) (weights : Option (List ℝ)) (r im : ℕ → ℕ → ℝ) : ℝ :=
  √(∑ i ∈ Finset.range rows.length, cvxArg dim rows freqs weights r im i ^ 2)

end Verif.Tomo
