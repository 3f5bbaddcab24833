import Verif.Counts.Model
import Verif.MeasMit.Model
import Mathlib.Algebra.BigOperators.Group.Finset.Basic
import Mathlib.Algebra.Order.Field.Basic
import Mathlib.Algebra.Order.Floor.Defs
import Mathlib.Algebra.Order.Group.Unbundled.Abs
import Mathlib.Algebra.BigOperators.Ring.Finset
import Mathlib.Logic.Function.Basic
import Mathlib.Analysis.Real.Sqrt
/-
Model of qiskit/ignis/mitigation/expval: utils.py, circuits.py, fitter.py, base_meas_mitigator.py,
complete_mitigator.py, tensored_mitigator.py.  (The CTMP part is in Expval/Ctmp.lean.)

Conventions: floating point numbers are elements of an ordered field `K`.  A numpy vector or matrix is a
function of its indices, used below its size only.  Exceptions of any class are `none`.
`np.linalg.inv` (with `np.linalg.pinv` as fall-back on singular input) is an argument `inv`: a function of
the size and the matrix.  Caches are left out: the cached value is the recomputed one.
-/
namespace Verif.Expval
open Verif Verif.Counts

/-- A matrix: row, column. -/
abbrev Mat (K : Type) := ℕ → ℕ → K

/-- The binary digit of weight `2^t`, as a number. -/
def bit (x t : ℕ) : ℕ := (x.testBit t).toNat

/-- `int(s, 2)`; anything that is not a non-empty string of binary digits raises.  (Python accepts further
spellings such as `0b1`, `1_0`; they are not outcome strings.) -/
def parseBin (s : Str) : Option ℕ := if IsBits s ∧ s ≠ [] then some (ofBin s) else none

/-! ### circuits.py -/

/-- `_method_labels`, circuits.py:149-170. -/
def methodLabels (n : ℕ) (method : Str) : Option (List Str) :=
  if method = "tensored".toList then some [List.replicate n '0', List.replicate n '1']
  else if method = "CTMP".toList ∨ method = "ctmp".toList then
    some ([List.replicate n '0', List.replicate n '1'] ++
      (List.range n).map fun i => List.replicate (n - i - 1) '0' ++ '1' :: List.replicate i '0')
  else if method = "complete".toList then some (countKeys n)
  else none

/-- `_calibration_circuit`, circuits.py:183-196.  `measure_all` adds one classical bit per qubit and measures
qubit `i` into bit `i`.  A label longer than the register with a `1` beyond it raises. -/
def calibrationCircuit (n : ℕ) (label : Str) : Option MeasMit.Circ :=
  let c : MeasMit.Circ :=
    { name := "meas_mit_cal_".toList ++ label
      nq := n
      nc := n
      ops := (label.reverse.zipIdx.flatMap fun p => if p.1 = '1' then [MeasMit.Op.x p.2] else []) ++
        (List.range n).map fun i => MeasMit.Op.measure i i }
  if c.inRange then some c else none

/-- A metadata record; fields that are absent from the dictionary are `none`. -/
structure Meta where
  experiment : Option Str
  cal : Str
  method : Option Str
  deriving DecidableEq

/-- `ExpvalMeasMitigatorCircuits.__init__` and `generate_circuits`, circuits.py:125-147, 172-181. -/
def mitigatorCircuits (n : ℕ) (method : Str) (labels : Option (List Str)) :
    Option (List MeasMit.Circ × List Meta) := do
  let labels ← (match labels with
    | some l => some l
    | none => methodLabels n method)
  let circs ← labels.mapM (calibrationCircuit n)
  pure (circs, labels.map fun l => ⟨some "meas_mit".toList, l, some method⟩)

/-! ### utils.py: calibration data -/

/-- Counts with integer keys (`Counts.int_outcomes()`). -/
abbrev IntCounts := Dict ℕ ℤ

/-- `combine_counts`, tomography/data.py:119-141, for integer keys. -/
def combineInt (c1 c2 : IntCounts) : IntCounts :=
  c2.foldl (fun ret kv => ret.set kv.1 (ret.getD kv.1 0 + kv.2)) c1

/-- The state of the loop in `calibration_data`: data, number of qubits, method. -/
structure CalState where
  data : Dict ℕ IntCounts
  numQubits : Option ℕ
  method : Option Str

/-- One step of the loop, utils.py:163-177; `counts i` are the integer outcomes of experiment `i`. -/
def calStep (counts : ℕ → IntCounts) (st : CalState) (p : Meta × ℕ) : Option CalState :=
  if p.1.experiment = some "meas_mit".toList then do
    let numQubits := st.numQubits.or (some p.1.cal.length)
    let method := st.method.or p.1.method
    let key ← parseBin p.1.cal
    let c := counts p.2
    pure ⟨(match st.data.get? key with
      | none => st.data.set key c
      | some old => st.data.set key (combineInt old c)), numQubits, method⟩
  else some st

/-- `calibration_data`, utils.py:150-178. -/
def calibrationData (counts : ℕ → IntCounts) (metadata : List Meta) : Option CalState :=
  metadata.zipIdx.foldlM (calStep counts) ⟨[], none, none⟩

section field
variable {K : Type} [Field K] [LinearOrder K]

/-- `_amat_mask`, utils.py:258-264. -/
def amatMask (qubits : List ℕ) (numQubits : ℕ) : ℕ :=
  (List.range numQubits).foldl (fun mask i => if i ∈ qubits then mask else mask + 2 ^ i) 0

/-- `_amat_index`, utils.py:267-273: `sum(((i & 1 << q) >> q) << (m - 1 - p))`. -/
def amatIndex (i : ℕ) (qubits : List ℕ) : ℕ :=
  (qubits.zipIdx.map fun p => ((i &&& (1 <<< p.1)) >>> p.1) <<< (qubits.length - 1 - p.2)).sum

/-- `mat[r, c] += v`. -/
def addAt (m : Mat K) (r c : ℕ) (v : K) : Mat K := fun i j => if i = r ∧ j = c then m i j + v else m i j

/-- `_amat_accum_local`, utils.py:276-285. -/
def accumLocal (qubits : List ℕ) (mask : ℕ) (mat : Mat K) (cal : ℕ) (counts : IntCounts) : Mat K :=
  counts.foldl (fun m kv => if cal &&& mask = kv.1 &&& mask then
    addAt m (amatIndex kv.1 qubits) (amatIndex cal qubits) (kv.2 : K) else m) mat

/-- `_amat_accum_full`, utils.py:288-292. -/
def accumFull (mat : Mat K) (cal : ℕ) (counts : IntCounts) : Mat K :=
  counts.foldl (fun m kv => addAt m kv.1 cal (kv.2 : K)) mat

/-- `assignment_matrix`, utils.py:181-225: dimension and matrix.  An index beyond the matrix raises. -/
def assignmentMatrix (calData : Dict ℕ IntCounts) (numQubits : ℕ) (qubits : Option (List ℕ)) : Option (ℕ × Mat K) :=
  let dim := match qubits with
    | some qs => 2 ^ qs.length
    | none => 2 ^ numQubits
  let bad := match qubits with
    | some _ => false
    | none => calData.any fun p => p.2.any fun kv => decide (2 ^ numQubits ≤ kv.1 ∨ 2 ^ numQubits ≤ p.1)
  let amat : Mat K := calData.foldl (fun m p => match qubits with
    | some qs => accumLocal qs (amatMask qs numQubits) m p.1 p.2
    | none => accumFull m p.1 p.2) (fun _ _ => 0)
  let renorm := fun j => ∑ i ∈ Finset.range dim, amat i j
  if bad then none
  else if (List.range dim).any (fun j => renorm j = 0) then none
  else some (dim, fun i j => amat i j / renorm j)

/-! ### utils.py: expectation values -/

/-- `_expval_with_stddev`, utils.py:228-254, up to the square root: expectation value and variance, from the
list of pairs (coefficient, probability).  The standard deviation is `stddevOf` of the variance. -/
def expvalVar (terms : List (K × K)) (shots : K) : K × K :=
  let expval := (terms.map fun t => t.1 * t.2).sum
  let sq := (terms.map fun t => t.1 ^ 2 * t.2).sum
  (expval, (sq - expval ^ 2) / shots)

/-- `counts` with the optional marginalisation, utils.py:81-82 and 122-123. -/
def marginalTo (counts : Counts) (clbits : Option (List ℕ)) : Option Counts :=
  match clbits with
  | none => some counts
  | some cl => marginalCounts counts (some cl) false

/-- Sum of the counts. -/
def shotsOf (counts : Counts) : ℤ := (counts.map (·.2)).sum

/-- The coefficient of an outcome, utils.py:90-96. -/
def coeffOf (diagonal : Option (List K)) (key : Str) : Option K :=
  match diagonal with
  | none => some ((-1) ^ (key.count '1' % 2))
  | some d => do
    let k ← parseBin key
    d[k]?

/-- `expectation_value` without mitigator, utils.py:31-98. -/
def expectationValue (counts : Counts) (diagonal : Option (List K)) (clbits : Option (List ℕ)) : Option (K × K) := do
  let c ← marginalTo counts clbits
  let shots : K := (shotsOf c : K)
  let terms ← c.mapM fun kv => (coeffOf diagonal kv.1).map fun x => (x, (kv.2 : K) / shots)
  pure (expvalVar terms shots)

/-- `np.argsort(l)` for distinct entries. -/
def argsort (l : List ℕ) : List ℕ :=
  (List.range l.length).insertionSort fun a b => l.getD a 0 ≤ l.getD b 0

/-- Position in the flat input of the flat index `k` of `a.reshape(n*[2]).transpose(axes)`: output axis `t`
(weight `2^(n-1-t)`) is input axis `axes[t]` (weight `2^(n-1-axes[t])`). -/
def transposeIdx (n : ℕ) (axes : List ℕ) (k : ℕ) : ℕ :=
  (axes.zipIdx.map fun p => bit k (n - 1 - p.2) * 2 ^ (n - 1 - p.1)).sum

/-- utils.py:142: `[num_qubits - 1 - i for i in reversed(np.argsort(qubits))]`. -/
def remapAxes (n : ℕ) (qubits : List ℕ) : List ℕ := (argsort qubits).reverse.map fun i => n - 1 - i

/-- utils.py:126-127: the given number of qubits, or the length of the first key. -/
def widthOf (c : Counts) (numQubits : Option ℕ) : Option ℕ :=
  match numQubits with
  | some n => some n
  | none => c.head?.map fun kv => kv.1.length

/-- `counts_probability_vector`, utils.py:101-147: number of qubits, vector, shots. -/
def countsProbabilityVector (counts : Counts) (qubits clbits : Option (List ℕ)) (numQubits : Option ℕ) :
    Option (ℕ × (ℕ → K) × ℤ) := do
  let c ← marginalTo counts clbits
  let n ← widthOf c numQubits
  let items ← c.mapM fun kv => (parseBin kv.1).bind fun k => if k < 2 ^ n then some (k, kv.2) else none
  let raw : ℕ → K := items.foldl (fun v kv => Function.update v kv.1 (kv.2 : K)) fun _ => 0
  let shots := shotsOf c
  let vec : ℕ → K := fun i => raw i / (shots : K)
  match qubits with
  | none => pure (n, vec, shots)
  | some qs =>
    if qs.length ≠ n then none
    else pure (n, fun k => vec (transposeIdx n (remapAxes n qs) k), shots)

/-! ### base_meas_mitigator.py -/

/-- `_z_diagonal`, base_meas_mitigator.py:256-262. -/
def zDiagonal (i : ℕ) : K := (-1) ^ ((binDigits i).count '1' % 2)

/-- The optional diagonal, default `_z_diagonal`; a wrong length raises in the following product. -/
def diagOr (n : ℕ) (diagonal : Option (List K)) : Option (ℕ → K) :=
  match diagonal with
  | none => some zDiagonal
  | some d => if d.length = 2 ^ n then some fun i => d.getD i 0 else none

/-- `_expval_with_stddev(coeffs, probs, shots)` for vectors of length `2^n`. -/
def expvalVec (n : ℕ) (coeffs probs : ℕ → K) (shots : ℤ) : K × K :=
  expvalVar ((List.range (2 ^ n)).map fun i => (coeffs i, probs i)) (shots : K)

/-- `required_shots`, base_meas_mitigator.py:121-138. -/
def requiredShots [FloorRing K] (gamma delta : K) : ℤ := ⌈4 * gamma ^ 2 / delta ^ 2⌉

/-- `mitigation_overhead`, base_meas_mitigator.py:140-154. -/
def mitigationOverhead [FloorRing K] (gamma : K) : ℤ := ⌈gamma ^ 2⌉

/-! ### complete_mitigator.py -/

/-- `_keep_indexes`, complete_mitigator.py:165-170. -/
def keepIndexes (qubits : List ℕ) : List ℕ :=
  (qubits.insertionSort (· ≤ ·)).foldl (fun idx i => idx ++ idx.map (· + 2 ^ i)) [0]

/-- The axes that survive the sum of complete_mitigator.py:154-160, in order: axis `a` is qubit `N-1-a`. -/
def keptAxes (N : ℕ) (qubits : List ℕ) : List ℕ := (List.range N).filter fun a => N - 1 - a ∈ qubits

/-- Flat index, in the array left after summing, of the entry at flat index `z` of `col.reshape(N*[2])`. -/
def keptIndex (N : ℕ) (qubits : List ℕ) (z : ℕ) : ℕ :=
  (keptAxes N qubits).foldl (fun acc a => 2 * acc + bit z (N - 1 - a)) 0

/-- `CompleteExpvalMeasMitigator.assignment_matrix`, complete_mitigator.py:132-163, for a list of qubits.
The final `reshape` raises unless the qubits are distinct and in range. -/
def completeAmat (A : Mat K) (N : ℕ) (qubits : List ℕ) : Option (Mat K) :=
  if (keptAxes N qubits).length ≠ qubits.length then none
  else some fun y x => ∑ z ∈ Finset.range (2 ^ N),
    if keptIndex N qubits z = y then A z ((keepIndexes qubits).getD x 0) else 0

/-- `CompleteExpvalMeasMitigator.mitigation_matrix`, complete_mitigator.py:101-130. -/
def completeMit (inv : ℕ → Mat K → Mat K) (A : Mat K) (N : ℕ) (qubits : List ℕ) : Option (Mat K) :=
  (completeAmat A N (qubits.insertionSort (· ≤ ·))).map fun m => inv (2 ^ qubits.length) m

/-- `CompleteExpvalMeasMitigator.expectation_value`, complete_mitigator.py:51-99. -/
def completeExpval (inv : ℕ → Mat K → Mat K) (A : Mat K) (N : ℕ) (counts : Counts) (diagonal : Option (List K))
    (qubits clbits : Option (List ℕ)) : Option (K × K) := do
  let (n, probs, shots) ← countsProbabilityVector counts qubits clbits none
  let qs := qubits.getD (List.range n)
  let mit ← completeMit inv A N qs
  let d ← diagOr n diagonal
  pure (expvalVec n (fun x => ∑ z ∈ Finset.range (2 ^ n), mit z x * d z) probs shots)

/-- `_compute_gamma`, complete_mitigator.py:172-175: largest absolute column sum of a `dim × dim` matrix.
(`dim ≥ 1`; all sums are non-negative, so starting the maximum at 0 changes nothing.) -/
def completeGamma (dim : ℕ) (mit : Mat K) : K :=
  (List.range dim).foldl (fun g j => max g (∑ i ∈ Finset.range dim, |mit i j|)) 0

/-! ### tensored_mitigator.py -/

/-- `self._gammas[i]`, tensored_mitigator.py:55-58. -/
def tensoredGamma1 (a : Mat K) : K := (1 + |a 1 0 - a 0 1|) / (1 - a 1 0 - a 0 1)

/-- `_compute_gamma`, tensored_mitigator.py:192-198. -/
def tensoredGamma (amats : List (Mat K)) (qubits : Option (List ℕ)) : Option K :=
  match qubits with
  | none => some ((amats.map tensoredGamma1).prod)
  | some qs => (qs.mapM fun q => amats[q]?).map fun l => (l.map tensoredGamma1).prod

/-- The labels' values in the `einsum` of tensored_mitigator.py:121-126: labels `0…n-1` index the diagonal,
labels `n…2n-1` the output; `f` codes the labels summed over, `o` is the flat output index. -/
def einsumLabel (n f o l : ℕ) : ℕ :=
  if l < n then bit f (n - 1 - l) else if l < 2 * n then bit o (2 * n - 1 - l) else bit f (l - n)

/-- The `einsum` of tensored_mitigator.py:121-126 for `m` matrices (given in qubit order): matrix number `i`
of the reversed list, transposed, carries the labels `[n+i, i]`.  With fewer matrices than qubits an output
label is missing and `einsum` raises; with more, the surplus labels are summed over as well. -/
def tensoredCoeffs (n : ℕ) (ainvs : List (Mat K)) (d : ℕ → K) : Option (ℕ → K) :=
  if ainvs.length < n then none
  else some fun o => ∑ f ∈ Finset.range (2 ^ ainvs.length),
    d (f % 2 ^ n) * (ainvs.reverse.zipIdx.map fun p => p.1 (einsumLabel n f o p.2) (einsumLabel n f o (n + p.2))).prod

/-- The inverse matrices used, tensored_mitigator.py:105-108. -/
def listedInverses (inv : ℕ → Mat K → Mat K) (amats : List (Mat K)) (qubits : Option (List ℕ)) :
    Option (List (Mat K)) :=
  match qubits with
  | some qs => qs.mapM fun q => (amats[q]?).map (inv 2)
  | none => some (amats.map (inv 2))

/-- `TensoredExpvalMeasMitigator.expectation_value`, tensored_mitigator.py:68-128. -/
def tensoredExpval (inv : ℕ → Mat K → Mat K) (amats : List (Mat K)) (counts : Counts) (diagonal : Option (List K))
    (qubits clbits : Option (List ℕ)) : Option (K × K) := do
  let (n, probs, shots) ← countsProbabilityVector counts none clbits none
  let ainvs ← listedInverses inv amats qubits
  let d ← diagOr n diagonal
  let coeffs ← tensoredCoeffs n ainvs d
  pure (expvalVec n coeffs probs shots)

/-- `np.kron(a, b)` for a 2×2 matrix `a` and a `dim × dim` matrix `b`. -/
def kron2 (a : Mat K) (dim : ℕ) (b : Mat K) : Mat K := fun i j => a (i / dim) (j / dim) * b (i % dim) (j % dim)

/-- tensored_mitigator.py:139-143 and 161-165: start with `mats[qubits[0]]`, then for every `i` in
`qubits[1:]` multiply `mats[qubits[i]]` from the left. -/
def tensoredMatrix (mats : List (Mat K)) (qubits : Option (List ℕ)) : Option (ℕ × Mat K) :=
  let qs := qubits.getD (List.range mats.length)
  match qs with
  | [] => none
  | q0 :: rest => do
    let m0 ← mats[q0]?
    rest.foldlM (fun (st : ℕ × Mat K) i => do
      let q ← qs[i]?
      let a ← mats[q]?
      pure (2 * st.1, kron2 a st.1 st.2)) (2, m0)

/-- `TensoredExpvalMeasMitigator.mitigation_matrix` and `assignment_matrix`, tensored_mitigator.py:130-165. -/
def tensoredMit (inv : ℕ → Mat K → Mat K) (amats : List (Mat K)) (qubits : Option (List ℕ)) : Option (ℕ × Mat K) :=
  tensoredMatrix (amats.map (inv 2)) qubits

/-- `TensoredExpvalMeasMitigator.assignment_fidelity`, tensored_mitigator.py:167-190. -/
def tensoredFidelity (amats : List (Mat K)) (qubits : Option (List ℕ)) : Option K :=
  (qubits.getD (List.range amats.length)).foldlM (fun fid i => do
    let a ← amats[i]?
    pure (fid * ((a 0 0 + a 1 1) / 2))) 1

/-- `BaseExpvalMeasMitigator.assignment_fidelity`, base_meas_mitigator.py:105-119. -/
def baseFidelity (dim : ℕ) (a : Mat K) : K := (∑ i ∈ Finset.range dim, a i i) / dim

/-! ### fitter.py -/

/-- `ExpvalMeasMitigatorFitter.fit` for `'complete'`, fitter.py:70-73. -/
def fitComplete (st : CalState) : Option (ℕ × Mat K) := do
  let n ← st.numQubits
  let (_, a) ← assignmentMatrix (K := K) st.data n none
  pure (n, a)

/-- `ExpvalMeasMitigatorFitter.fit` for `'tensored'`, fitter.py:75-81. -/
def fitTensored (st : CalState) : Option (List (Mat K)) := do
  let n ← st.numQubits
  (List.range n).mapM fun q => (assignmentMatrix (K := K) st.data n (some [q])).map (·.2)

end field

/-- The standard deviation returned by `_expval_with_stddev`, utils.py:247-254. -/
noncomputable def stddevOf (variance : ℝ) : ℝ := if 0 < variance then √variance else 0

/-- `stddev_upper_bound`, base_meas_mitigator.py:156-167. -/
noncomputable def stddevUpperBound (gamma shots : ℝ) : ℝ := gamma / √shots

end Verif.Expval
