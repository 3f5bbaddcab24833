import Verif.Counts.Model
import Verif.Py.Split
import Verif.Py.Fmt
import Mathlib.Data.List.Sort
import Mathlib.Analysis.SpecialFunctions.Integrals.Basic
import Mathlib.Analysis.Complex.Norm
/-
Quantum volume: `qiskit/ignis/verification/quantum_volume/{fitters,circuits}.py`.

Numbers: amplitudes are exact complex numbers, probabilities exact reals.  A Python exception is `none`; what an
exception leaves behind in the object is not modelled.
-/
namespace Verif.QV
open Verif Verif.Counts

/-- One `Result` object of the backend: the experiments in order, each with its header name and its counts;
`get_counts(name)` returns the counts of the first experiment with that name and raises (here `none`) when there
is none. -/
abbrev Res := Dict Str Counts

/-- One `Result` object of the statevector simulator. -/
abbrev IdealRes := Dict Str (List ℂ)

/-- The circuit name `'qv_depth_%d_trial_%d' % (depth, trialidx)`, fitters.py:205, 254; circuits.py:98. -/
def circName (depth trial : ℕ) : Str :=
  "qv_depth_".toList ++ fmtD depth ++ "_trial_".toList ++ fmtD trial

/-- `int(name.split('_')[2])`, fitters.py:126.  A negative depth makes `2**depth` a float and `range` fail. -/
def depthOfName (name : Str) : Option ℕ :=
  match (splitChar '_' name)[2]? with
  | none => none
  | some s =>
    match parseInt s with
    | some (.ofNat n) => some n
    | _ => none

/-- `int(name.split('_')[-1])`, fitters.py:178. -/
def trialOfName (name : Str) : Option ℤ := (splitChar '_' name).getLast?.bind parseInt

/-- `np.median` of a list of numbers: the middle one of the sorted list, or the mean of the two middle ones.
Of an empty list numpy's median is `nan`; that case does not occur (`2**depth ≥ 1`). -/
noncomputable def median (l : List ℝ) : ℝ :=
  let s := l.insertionSort (· ≤ ·)
  let n := s.length
  if n % 2 = 1 then s.getD (n / 2) 0 else (s.getD (n / 2 - 1) 0 + s.getD (n / 2) 0) / 2

/-- The dictionary of ideal probabilities, fitters.py:133-136: outcome `b` written with `depth` binary digits gets
`|amplitude b|²`.  A state vector that is too short raises `IndexError`. -/
noncomputable def idealProb (depth : ℕ) (amps : List ℂ) : Option (Dict Str ℝ) :=
  (List.range (2 ^ depth)).mapM fun b =>
    match amps[b]? with
    | none => none
    | some a => some (zfill depth (binDigits b), Complex.normSq a)

open Classical in
/-- `_heavy_strings`, fitters.py:541-555.  (The keys are pairwise different, so the value looked up for a key is the
value stored with it.) -/
noncomputable def heavyStrings (dist : Dict Str ℝ) (m : ℝ) : List Str :=
  dist.keys.filter fun x => decide (dist.getD x 0 > m)

/-- `_subset_probability`, fitters.py:574-587, for probabilities. -/
noncomputable def subsetProb (strings : List Str) (dist : Dict Str ℝ) : ℝ := (strings.map fun s => dist.getD s 0).sum

/-- `_subset_probability`, fitters.py:574-587, for counts. -/
def subsetCounts (strings : List Str) (dist : Counts) : ℤ := (strings.map fun s => dist.getD s 0).sum

/-- The attributes of a `QVFitter` object, fitters.py:50-65.  A row of `ydata` is one column of the array:
measured mean, its deviation, ideal mean, its deviation. -/
structure St where
  depths : List ℕ
  ntrials : ℤ := 0
  results : List Res := []
  heavyOutputs : Dict Str (List Str) := []
  allProb : Dict Str (Dict Str ℝ) := []
  probIdeal : Dict Str ℝ := []
  circCounts : Dict Str Counts := []
  circShots : Dict Str ℤ := []
  heavyCounts : Dict Str ℤ := []
  probExp : Dict Str ℝ := []
  ydata : List (ℝ × ℝ × ℝ × ℝ) := []

/-- `__init__` before the two `add_` calls, fitters.py:51-63. -/
def init (qubitLists : List (List ℕ)) : St := { depths := qubitLists.map List.length }

/-- One pass of the inner loop of `add_statevectors`, fitters.py:119-149. -/
noncomputable def addStatevector (r : IdealRes) (st : St) (e : Str × List ℂ) : Option St := do
  let name := e.1
  let depth ← depthOfName name
  if st.heavyOutputs.has name then none
  else
    let amps ← r.get? name
    let dist ← idealProb depth amps
    let heavy := heavyStrings dist (median dist.values)
    some { st with
      allProb := st.allProb.set name dist
      heavyOutputs := st.heavyOutputs.set name heavy
      probIdeal := st.probIdeal.set name (subsetProb heavy dist) }

/-- `add_statevectors`, fitters.py:102-149; a single result is a list of one. -/
noncomputable def addStatevectors (st : St) (new : Option (List IdealRes)) : Option St :=
  match new with
  | none => some st
  | some l => l.foldlM (fun st r => r.foldlM (addStatevector r) st) st

/-- The body of the loop over one result in `add_data`, fitters.py:172-185. -/
def addResult (st : St) (r : Res) : Option St :=
  r.foldlM (fun (st : St) e => do
    let t ← trialOfName e.1
    let st := if t + 1 > st.ntrials then { st with ntrials := t + 1 } else st
    if st.probIdeal.has e.1 then some st else none) { st with results := st.results ++ [r] }

/-- The body of the loops of `calc_data` for one circuit name, fitters.py:207-232.  No shots: `ZeroDivisionError`. -/
noncomputable def calcName (st : St) (name : Str) : Option St := do
  let countList := st.results.filterMap fun r => r.get? name
  let counts := buildCountsDictFromList countList
  let shots := counts.values.sum
  let heavy ← st.heavyOutputs.get? name
  let hc := subsetCounts heavy counts
  if shots = 0 then none
  else some { st with
    circCounts := st.circCounts.set name counts
    circShots := st.circShots.set name shots
    heavyCounts := st.heavyCounts.set name hc
    probExp := st.probExp.set name ((hc : ℝ) / (shots : ℝ)) }

/-- The circuit names in the order of the loops of `calc_data`, fitters.py:203-205. -/
def calcNames (st : St) : List Str :=
  (List.range st.ntrials.toNat).flatMap fun t => st.depths.map fun d => circName d t

/-- `calc_data`, fitters.py:191-232. -/
noncomputable def calcData (st : St) : Option St := (calcNames st).foldlM calcName st

/-- One column of `ydata`, fitters.py:248-270.  `KeyError` is `none`.  Division by zero shots or zero trials (which
numpy turns into `nan`) is `none` as well. -/
noncomputable def statColumn (st : St) (depth : ℕ) : Option (ℝ × ℝ × ℝ × ℝ) := do
  let names := (List.range st.ntrials.toNat).map (circName depth)
  let vals ← names.mapM fun n => st.heavyCounts.get? n
  let shots ← names.mapM fun n => st.circShots.get? n
  let ideal ← names.mapM fun n => st.probIdeal.get? n
  let n : ℝ := st.ntrials.toNat
  if shots.sum = 0 ∨ st.ntrials.toNat = 0 then none
  else
    let y0 : ℝ := (vals.sum : ℝ) / (shots.sum : ℝ)
    let y1 := Real.sqrt (y0 * (1 - y0) / n)
    let y2 : ℝ := ideal.sum / n
    let y3 := Real.sqrt (y2 * (1 - y2) / n)
    some (y0, y1, y2, y3)

/-- `calc_statistics`, fitters.py:234-270. -/
noncomputable def calcStatistics (st : St) : Option St := do
  let cols ← st.depths.mapM (statColumn st)
  some { st with ydata := cols }

/-- `add_data`, fitters.py:151-189; a single result is a list of one. -/
noncomputable def addData (st : St) (new : Option (List Res)) (rerun : Bool) : Option St :=
  match new with
  | none => some st
  | some l => do
    let st ← l.foldlM addResult st
    if rerun then
      let st ← calcData st
      calcStatistics st
    else some st

/-- `calc_z_value`, fitters.py:492-510. -/
noncomputable def zValue (mean sigma : ℝ) : ℝ :=
  open Classical in
  let sigma := if sigma = 0 then 1e-10 else sigma
  (mean - 2 / 3) / sigma

/-- `math.erf`: the error function `2/√π ∫₀ˣ exp(-t²) dt`. -/
noncomputable def erf (x : ℝ) : ℝ := 2 / Real.sqrt Real.pi * ∫ t in (0 : ℝ)..x, Real.exp (-t ^ 2)

/-- `calc_confidence_level`, fitters.py:512-528. -/
noncomputable def confidence (z : ℝ) : ℝ := 0.5 * (1 + erf (z / Real.sqrt 2))

open Classical in
/-- `qv_success`, fitters.py:466-490.  An index error (no statistics yet) is `none`. -/
noncomputable def qvSuccess (st : St) : Option (List (Bool × ℝ)) :=
  (List.range st.depths.length).mapM fun i =>
    match st.ydata[i]? with
    | none => none
    | some y =>
      let hmean := y.1
      let sigma := y.2.1
      let c := confidence (zValue hmean sigma)
      some (decide (hmean > 2 / 3 ∧ c > confidence 2), c)

/-- `quantum_volume`, fitters.py:530-539. -/
def quantumVolume (st : St) : List ℕ := st.depths.map fun d => 2 ^ d

/-! ## Circuits -/

/-- One operation of a circuit: an opaque gate on some qubits, or a measurement of a qubit into a classical bit. -/
inductive Op where
  | gate (id : ℕ) (qubits : List ℕ)
  | measure (qubit clbit : ℕ)
deriving DecidableEq, Repr

structure Circ where
  name : Str
  nqubits : ℕ
  ops : List Op
deriving DecidableEq, Repr

/-- The qubits an operation acts on. -/
def Op.qubits : Op → List ℕ
  | .gate _ qs => qs
  | .measure q _ => [q]

/-- `QuantumCircuit.measure_active` of qiskit-terra: a new classical register with one bit for every qubit that some
operation acts on; these qubits, in increasing order, are measured into bits 0, 1, ... -/
def measureActive (c : Circ) : Circ :=
  let active := (List.range c.nqubits).filter fun q => c.ops.any fun o => o.qubits.contains q
  { c with ops := c.ops ++ active.zipIdx.map fun p => Op.measure p.1 p.2 }

/-- Renaming the qubits of an operation, as `compose(other, qubits)` does: qubit `i` of the other circuit becomes
`qubits[i]`. -/
def Op.onto (l : List ℕ) : Op → Op
  | .gate i qs => .gate i (qs.map fun q => l.getD q 0)
  | .measure q c => .measure (l.getD q 0) c

/-- `qv_circuits` for one trial and one qubit list, circuits.py:85-99.  `qv` is the operation list of
`QuantumVolume(depth, depth, seed)`, an input here.  `compose` raises for repeated qubits; the maximum of an empty
list raises (as does `qubit_list[0]` in the warning loop, circuits.py:63).  Returned: the measured circuit and the
one without measurements. -/
def qvCircuit (qubitList : List ℕ) (trial : ℕ) (qv : List Op) : Option (Circ × Circ) :=
  let depth := qubitList.length
  match qubitList.max? with
  | none => none
  | some nQMax =>
    let name := circName depth trial
    let model : Circ := { name := name, nqubits := depth, ops := qv }
    if nQMax ≠ depth then
      if qubitList.Nodup then
        some (measureActive { name := name, nqubits := nQMax + 1, ops := qv.map (Op.onto qubitList) }, model)
      else none
    else some (measureActive model, model)

/-- `qv_circuits`, circuits.py:29-104: for every trial and every qubit list one circuit.  `qv t i` is the model circuit
generated in trial `t` for list `i`; the random seeds, and the deprecated arguments `qr` and `cr` that have no
effect, are not modelled. -/
def qvCircuits (qubitLists : List (List ℕ)) (ntrials : ℕ) (qv : ℕ → ℕ → List Op) : Option (List (List (Circ × Circ))) :=
  if qubitLists.any (· = []) then none
  else (List.range ntrials).mapM fun t =>
    qubitLists.zipIdx.mapM fun p => qvCircuit p.1 t (qv t p.2)

end Verif.QV
