import Verif.Counts.Model
import Mathlib.Algebra.Field.Basic
import Mathlib.Algebra.Field.Rat
/-
Model of qiskit/ignis/mitigation/measurement: circuits.py, fitters.py, filters.py.

Conventions: a register is its size; a register argument is `some size` or `none` (create one).
Exceptions of any class are `none`.
Counts are exact rationals (the code uses floating point), matrices are functions of a row and a
column index, only used below their size.
-/
namespace Verif.MeasMit
open Verif Verif.Counts

/-- An instruction of a calibration circuit. Barriers are left out: they have no effect. -/
inductive Op where
  | x (q : Nat)
  | measure (q c : Nat)
  deriving DecidableEq, Repr

/-- circuits.py:143-151, the loop that collects the qubits of `mit_pattern` and raises on a
repeated qubit. -/
def collectQubits (pattern : List (List Nat)) : Option (List Nat) :=
  pattern.foldlM (fun acc ql =>
    ql.foldlM (fun acc q => if q ∈ acc then none else some (acc ++ [q])) acc) []

/-- Python `max(l)`: raises on the empty sequence. -/
def pyMax : List Nat → Option Nat
  | [] => none
  | a :: l => some (l.foldl max a)

/-- Python `s[a:b]` for `0 ≤ a`. -/
def slice (s : Str) (a b : Nat) : Str := (s.take b).drop a

/-- circuits.py:175-180, `state_labels`. -/
def stateLabels (largest : List Str) (sizes : List Nat) : List Str :=
  largest.map fun ls => sizes.foldl (fun basis sz => ls.take sz ++ basis) []

/-- circuits.py:187-197: the `x` gates preparing `basis`; the state of the loop is
`(end_index, instructions)`.  `substate[list_size-qind-1]` is in range whenever the label has
`nqubits` characters, which `stateLabels` guarantees; out of range reads a blank here. -/
def prepOps (pattern : List (List Nat)) (basis : Str) (nqubits : Nat) : List Op :=
  (pattern.foldl (fun (st : Nat × List Op) ql =>
    let start := st.1 - ql.length
    let sub := slice basis start st.1
    (start, st.2 ++ (List.range ql.length).flatMap fun k =>
      if sub.getD (ql.length - k - 1) ' ' = '1' then [Op.x (ql.getD k 0)] else []))
    (nqubits, [])).2

/-- circuits.py:201-209: the measurements. -/
def measOps (pattern : List (List Nat)) (nqubits : Nat) : List Op :=
  (pattern.foldl (fun (st : Nat × List Op) ql =>
    (st.1 - ql.length, st.2 ++ (List.range ql.length).map fun k =>
      Op.measure (ql.getD k 0) (nqubits - (st.1 - k))))
    (nqubits, [])).2

/-- A calibration circuit: name, number of qubits, number of classical bits, instructions. -/
structure Circ where
  name : Str
  nq : Nat
  nc : Nat
  ops : List Op
  deriving DecidableEq, Repr

/-- Indexing a register beyond its size raises. -/
def Circ.inRange (c : Circ) : Bool :=
  c.ops.all fun
    | .x q => q < c.nq
    | .measure q k => q < c.nq && k < c.nc

/-- circuits.py:95-212, `tensored_meas_cal`.  Returns the circuits and the pattern. -/
def tensoredMeasCal (pattern : Option (List (List Nat))) (qr cr : Option Nat) (circlabel : Str) :
    Option (List Circ × List (List Nat)) := do
  let (qubits, qr, pattern) ← match pattern, qr with
    | none, none => none
    | some p, some n => do
        let qs ← collectQubits p
        pure (qs, n, p)
    | some p, none => do
        let qs ← collectQubits p
        let m ← pyMax qs
        pure (qs, m + 1, p)
    | none, some n => pure (List.range n, n, [List.range n])
  let cr := cr.getD qubits.length
  let sizes := pattern.map List.length
  let nqubits := sizes.sum
  let largest ← pyMax sizes
  let labels := stateLabels (countKeys largest) sizes
  let circs := labels.map fun basis =>
    { name := circlabel ++ "cal_".toList ++ basis
      nq := qr
      nc := cr
      ops := prepOps pattern basis nqubits ++ measOps pattern nqubits : Circ }
  if circs.all Circ.inRange then pure (circs, pattern) else none

/-- circuits.py:25-92, `complete_meas_cal`. -/
def completeMeasCal (qubitList : Option (List Nat)) (qr cr : Option Nat) (circlabel : Str) :
    Option (List Circ × List Str) := do
  let (qr, ql) ← match qubitList, qr with
    | none, none => none
    | some ql, none => do
        let m ← pyMax ql
        pure (m + 1, ql)
    | some ql, some n => pure (n, ql)
    | none, some n => pure (n, List.range n)
  let (circs, _) ← tensoredMeasCal (some [ql]) (some qr) cr circlabel
  pure (circs, countKeys ql.length)

/-! ## Fitters -/

/-- One experiment of a `Result`: its name and its counts (the blank-free strings returned by
`get_counts` for a circuit with one classical register). -/
abbrev Expt := Str × Dict Str ℚ

/-- A `Result`: its experiments, in order. -/
abbrev Result := List Expt

/-- Regular expression class `\w` restricted to ASCII. -/
def isWord (c : Char) : Bool := c.isAlphanum || c = '_'

/-- `re.search('(?<=' + pre + ')\\w+', name)`, for `pre` free of regular-expression operators:
scan from the left for a position preceded by `pre` and followed by a word character. `seen` is
the part already scanned, reversed. -/
def reSearch (preRev : Str) (seen : Str) : Str → Option Str
  | [] => none
  | c :: rest =>
    if preRev <+: seen ∧ isWord c then some ((c :: rest).takeWhile isWord)
    else reSearch preRev (c :: seen) rest

/-- fitters.py:388-397: the prepared state named by an experiment, if it is a calibration. -/
def calState (circlabel name : Str) : Option Str :=
  reSearch (circlabel ++ "cal_".toList).reverse [] name

/-- `result.get_counts(name)`: the counts of the first experiment of that name. -/
def getCounts (r : Result) (name : Str) : Option (Dict Str ℚ) := Dict.get? r name

/-- `{lab: ind for ind, lab in enumerate(labels)}`. -/
def indices (labels : List Str) : Dict Str Nat :=
  labels.zipIdx.foldl (fun d p => d.set p.1 p.2) []

/-- A matrix of numbers. -/
abbrev Mat (K : Type) := Nat → Nat → K

/-- `m[i][j] += v`. -/
def Mat.bump (m : Mat ℚ) (i j : Nat) (v : ℚ) : Mat ℚ :=
  fun a b => if a = i ∧ b = j then m a b + v else m a b

/-- fitters.py:405-420: one group of the loop in `addShots`. The state of the loop is
`(end_index, matrices already updated)`; the group is its matrix, size and label dictionary.
Writing outside a matrix raises. -/
def addShotsStep (state measured : Str) (cnt : ℚ) (st : Nat × List (Mat ℚ))
    (g : (Mat ℚ × Nat) × Dict Str Nat) : Option (Nat × List (Mat ℚ)) := do
  let start := st.1 - g.1.2
  let j ← g.2.get? (slice state start st.1)
  let i ← g.2.get? (slice measured start st.1)
  if i < 2 ^ g.1.2 ∧ j < 2 ^ g.1.2 then
    pure (start, st.2 ++ [Mat.bump g.1.1 i j cnt])
  else none

/-- fitters.py:403-420: add the shots of one measured string to every group's matrix. -/
def addShots (sizes : List Nat) (inds : List (Dict Str Nat)) (nqubits : Nat)
    (state measured : Str) (cnt : ℚ) (mats : List (Mat ℚ)) : Option (List (Mat ℚ)) :=
  (((mats.zip sizes).zip inds).foldlM (addShotsStep state measured cnt) (nqubits, [])).map (·.2)

/-- fitters.py:386-420: the accumulation loop over all results. -/
def accumulate (circlabel : Str) (sizes : List Nat) (inds : List (Dict Str Nat))
    (results : List Result) : Option (List (Mat ℚ)) :=
  results.foldlM (fun mats r =>
    r.foldlM (fun mats e =>
      match calState circlabel e.1 with
      | none => some mats
      | some state => do
        let cnts ← getCounts r e.1
        cnts.foldlM (fun mats p => addShots sizes inds sizes.sum state p.1 p.2 mats) mats) mats)
    (sizes.map fun _ => fun _ _ => 0)

/-- `np.sum(m, axis=0)[j]` for a matrix of `d` rows. -/
def colSum (d : Nat) (m : Mat ℚ) (j : Nat) : ℚ := ((List.range d).map fun i => m i j).sum

/-- fitters.py:422-428: divide every column by its sum where that is not zero. -/
def normalise (size : Nat) (m : Mat ℚ) : Mat ℚ :=
  fun i j => if colSum (2 ^ size) m j ≠ 0 then m i j / colSum (2 ^ size) m j else 0

/-- fitters.py:374-428, `_build_calibration_matrices`. -/
def buildMatrices (circlabel : Str) (sizes : List Nat) (inds : List (Dict Str Nat))
    (results : List Result) : Option (List (Mat ℚ)) := do
  let mats ← accumulate circlabel sizes inds results
  pure ((mats.zip sizes).map fun p => normalise p.2 p.1)

/-- fitters.py:214-262: the attributes of a `TensoredMeasFitter`. -/
structure Fitter where
  circlabel : Str
  sizes : List Nat
  labels : List (List Str)
  results : List Result
  mats : Option (List (Mat ℚ))

/-- fitters.py:291-312, `add_data`. The argument `none` is Python's `None`. -/
def Fitter.addData (f : Fitter) (new : Option (List Result)) (rebuild : Bool) : Option Fitter :=
  match new with
  | none => some f
  | some rs =>
    let f' := { f with results := f.results ++ rs }
    if rebuild then do
      let m ← buildMatrices f'.circlabel f'.sizes (f'.labels.map indices) f'.results
      pure { f' with mats := some m }
    else some f'

/-- fitters.py:220-262, `TensoredMeasFitter.__init__`. -/
def mkTensored (results : Option (List Result)) (pattern : List (List Nat))
    (labels : Option (List (List Str))) (circlabel : Str) : Option Fitter := do
  let sizes := pattern.map List.length
  let labels ← match labels with
    | none => some (sizes.map countKeys)
    | some l => if sizes.length ≠ l.length then none else some l
  Fitter.addData ⟨circlabel, sizes, labels, [], none⟩ results true

/-- fitters.py:139-188, the body of `CompleteMeasFitter.subset_fitter` once the matrix exists:
the labels and matrix of the new fitter. A label shorter than an index raises in Python; here the
missing character reads as a blank (labels made by `complete_meas_cal` are long enough). -/
def subsetFitter (qubitList sublist : List Nat) (labels : List Str) (cal : Mat ℚ) :
    Option (List Str × Mat ℚ) :=
  if sublist.all (· ∈ qubitList) then
    let newLabels := countKeys sublist.length
    let inds := sublist.flatMap fun sq =>
      qubitList.zipIdx.flatMap fun p => if p.1 = sq then [p.2] else []
    let reduced := labels.map fun lab => inds.map fun i => lab.getD i ' '
    let mapping := fun (i : Nat) =>
      reduced.zipIdx.flatMap fun p => if p.1 = newLabels.getD i [] then [p.2] else []
    some (newLabels, fun i j =>
      ((mapping i).map fun a => ((mapping j).map fun b => cal a b).sum).sum / ((mapping i).length : ℚ))
  else none

/-- fitters.py:314-372, `readout_fidelity` of one matrix with its labels. -/
def readoutFidelity (labels : List Str) (cal : Mat ℚ) (groups : Option (List (List Str))) : ℚ :=
  let groups := groups.getD (labels.map fun l => [l])
  let idx := groups.map fun g => g.flatMap fun l =>
    labels.zipIdx.flatMap fun p => if l = p.1 then [p.2] else []
  let fids := idx.map fun g => (g.map fun i => (g.map fun j => cal i j).sum).sum / (g.length : ℚ)
  fids.sum / (fids.length : ℚ)

/-! ## Filters -/

variable {K : Type} [Field K] [DecidableEq K]

/-- `np.dot(m, v)` for an `n × n` matrix. -/
def dot (n : Nat) (m : Mat K) (v : Nat → K) : Nat → K :=
  fun i => ((List.range n).map fun j => m i j * v j).sum

/-- filters.py:76-203, `MeasurementFilter.apply(raw, method='pseudo_inverse')` on a counts
dictionary; `pinv` is `scipy.linalg.pinv` of the calibration matrix. -/
def measApplyDict (labels : List Str) (pinv : Mat K) (raw : Dict Str K) : Option (Dict Str K) :=
  if raw.all fun p => p.1 ∈ labels then
    let v := fun j => raw.getD (labels.getD j []) 0
    let x := dot labels.length pinv v
    some (labels.zipIdx.foldl (fun d p => if x p.2 ≠ 0 then d.set p.1 (x p.2) else d) [])
  else none

/-- filters.py:76-203, `MeasurementFilter.apply` on a list (forms 2 and 3): split into chunks of
`labels` size, correct each, concatenate. The empty label list divides by zero. -/
def measApplyList (nlabels : Nat) (pinv : Mat K) (raw : List K) : Option (List K) :=
  if nlabels = 0 then none
  else if raw.length % nlabels = 0 then
    some ((List.range (raw.length / nlabels)).flatMap fun c =>
      let v := fun j => raw.getD (c * nlabels + j) 0
      (List.range nlabels).map fun i => dot nlabels pinv v i)
  else none

/-- filters.py:355-373: one step of the product over the groups, with the early exit.
The state is `(end_index, product, stop)`; a missing label raises. -/
def groupStep (s1 s2 : Str) (st : Nat × K × Bool) (g : Nat × Dict Str Nat × Mat K) :
    Option (Nat × K × Bool) :=
  if st.2.2 then some st
  else do
    let start := st.1 - g.1
    let a ← g.2.1.get? (slice s1 start st.1)
    let b ← g.2.1.get? (slice s2 start st.1)
    let p := st.2.1 * g.2.2 a b
    pure (start, p, decide (p = 0))

/-- filters.py:353-373: the product over the groups of matrix entries. -/
def groupProduct (groups : List (Nat × Dict Str Nat × Mat K)) (s1 s2 : Str) (nqubits : Nat) :
    Option K :=
  (groups.foldlM (groupStep s1 s2) (nqubits, 1, false)).map fun st => st.2.1

/-- filters.py:282-376, 424-430: `TensoredFilter.apply(raw, method='pseudo_inverse')` on a counts
dictionary. `labels` are the label lists of the groups and `pinvs` the pseudo-inverses of their
matrices. A key whose value is out of range raises. -/
def tensoredApply (labels : List (List Str)) (pinvs : List (Mat K)) (raw : Dict Str K) :
    Option (Dict Str K) := do
  let sizes := labels.map fun l => Nat.log2 l.length
  let nqubits := sizes.sum
  let states := countKeys nqubits
  let groups := (sizes.zip (labels.map indices)).zip pinvs |>.map fun p => (p.1.1, p.1.2, p.2)
  let v : Nat → K ← raw.foldlM (fun (v : Nat → K) p =>
    if ofBin p.1 < 2 ^ nqubits then some (fun i => if i = ofBin p.1 then p.2 else v i) else none)
    (fun _ => 0)
  let x ← states.mapM fun s1 => do
    let terms ← states.zipIdx.mapM fun p =>
      if v p.2 = 0 then some 0
      else do
        let t ← groupProduct groups s1 p.1 nqubits
        pure (t * v p.2)
    pure terms.sum
  pure ((states.zip x).foldl (fun d p => if p.2 ≠ 0 then d.set p.1 p.2 else d) [])

end Verif.MeasMit
