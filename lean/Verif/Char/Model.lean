import Verif.Py.Basic
import Verif.Py.Fmt
import Verif.Counts.Model
import Mathlib.Data.Rat.Floor
import Mathlib.Algebra.Order.Floor.Ring
import Mathlib.Algebra.Field.Basic
/-
Model of the circuit generators of `qiskit/ignis/characterization` and of the data reduction of
`qiskit/ignis/characterization/fitters.py`.

Angles and times are elements of an arbitrary field `A` (exact, no rounding); `pi` is passed explicitly.
Exceptions are `none`.
-/
namespace Verif.Char
open Verif Verif.Counts

/-- The instructions the generators emit. -/
inductive Instr (A : Type) where
  | h (q : ℕ)
  | x (q : ℕ)
  | y (q : ℕ)
  | id (q : ℕ)
  | u1 (l : A) (q : ℕ)
  | u2 (p l : A) (q : ℕ)
  | cx (c t : ℕ)
  | barrier (qs : List ℕ)
  | measure (q c : ℕ)
deriving DecidableEq

/-- A generated circuit: its name, the sizes of the quantum and classical registers, and the instructions. -/
structure Circ (A : Type) where
  name : Str
  nq : ℕ
  nc : ℕ
  ops : List (Instr A)
deriving DecidableEq

/-- `max(l) + 1`; `max` of an empty list raises. -/
def regSize (l : List ℕ) : Option ℕ := if l = [] then none else some (l.foldl max 0 + 1)

/-- `pad_id_gates`, characterization_utils.py:19-45. -/
def padId {A : Type} (q n : ℕ) : List (Instr A) :=
  (List.range n).flatMap (fun _ => [Instr.barrier [q], Instr.id q]) ++ [Instr.barrier [q]]

/-- The final measurements, e.g. coherence/circuits.py:62-63:
`for qind, qubit in enumerate(qubits): circ.measure(qr[qubit], cr[qind])`. -/
def measureAll {A : Type} (qubits : List ℕ) : List (Instr A) := qubits.zipIdx.map fun p => Instr.measure p.1 p.2

/-- `np.round` on one number: round half to even. -/
def npRound {K : Type} [Field K] [LinearOrder K] [FloorRing K] (x : K) : ℤ :=
  let f := ⌊x⌋
  if x - f < 1 / 2 then f
  else if 1 / 2 < x - f then f + 1
  else if f % 2 = 0 then f else f + 1

/-- `time_to_ngates`, characterization_utils.py:48-62.  A zero `gate_time` is not modelled (numpy yields `inf`). -/
def timeToNgates {K : Type} [Field K] [LinearOrder K] [FloorRing K] (times : List K) (gateTime : K) : List ℤ :=
  times.map fun t => npRound (t / gateTime)

section Coherence
variable {A : Type} [Field A]

/-- The circuit name `base + str(i) + '_' + s`. -/
def circName (base : String) (i : ℕ) (s : String) : Str := base.toList ++ fmtD i ++ '_' :: s.toList

/-- The gates of `t1_circuits` on one qubit, coherence/circuits.py:58-60. -/
def t1Block (q len : ℕ) : List (Instr A) := Instr.x q :: padId q len

/-- `t1_circuits`, coherence/circuits.py:26-66.  The numbers of gates are natural numbers. -/
def t1Circuits (num : List ℕ) (gateTime : A) (qubits : List ℕ) : Option (List (Circ A) × List A) := do
  let xdata := num.map fun (n : ℕ) => gateTime * (n : A)
  let nq ← regSize qubits
  let circuits := num.zipIdx.map fun p =>
    (⟨circName "t1circuit_" p.2 "0", nq, qubits.length,
      qubits.flatMap (fun q => t1Block q p.1) ++ [Instr.barrier (List.range nq)] ++ measureAll qubits⟩ : Circ A)
  pure (circuits, xdata)

/-- The gates of `t2star_circuits` on one qubit, coherence/circuits.py:104-108. -/
def ramseyBlock (q len : ℕ) (phase : A) : List (Instr A) :=
  Instr.h q :: padId q len ++ [Instr.u1 phase q, Instr.h q]

/-- `t2star_circuits`, coherence/circuits.py:69-115.  An empty list (`xdata[-1]` fails) and a total delay of zero
(numpy yields `inf` or `nan`) are `none`. -/
def t2starCircuits [DecidableEq A] (pi : A) (num : List ℕ) (gateTime : A) (qubits : List ℕ) (nosc : ℕ) :
    Option (List (Circ A) × List A × A) := do
  let xdata := num.map fun (n : ℕ) => gateTime * (n : A)
  let nq ← regSize qubits
  let last ← xdata.getLast?
  if last = 0 then none else
  let oscFreq := (nosc : A) / last
  let circuits := (num.zip xdata).zipIdx.map fun p =>
    (⟨circName "t2starcircuit_" p.2 "0", nq, qubits.length,
      qubits.flatMap (fun q => ramseyBlock q p.1.1 (2 * pi * oscFreq * p.1.2)) ++ [Instr.barrier (List.range nq)]
        ++ measureAll qubits⟩ : Circ A)
  pure (circuits, xdata, oscFreq)

/-- The echo pulses after the first one, coherence/circuits.py:172-177. -/
def echoes (q len : ℕ) (alt : Bool) (n : ℕ) : List (Instr A) :=
  (List.range n).flatMap fun e => padId q (2 * len) ++ [if alt && (e % 2 == 0) then Instr.x q else Instr.y q]

/-- The gates of `t2_circuits` on one qubit, coherence/circuits.py:167-180. -/
def t2Block (q len nEchos : ℕ) (alt : Bool) : List (Instr A) :=
  Instr.u2 0 0 q :: padId q len ++ [Instr.y q] ++ echoes q len alt (nEchos - 1) ++ padId q len ++ [Instr.u2 0 0 q]

/-- `t2_circuits`, coherence/circuits.py:118-187.  `n_echos` is an integer; less than one raises. -/
def t2Circuits (num : List ℕ) (gateTime : A) (qubits : List ℕ) (nEchos : ℤ) (alt : Bool) :
    Option (List (Circ A) × List A) := do
  if nEchos < 1 then none else
  let xdata := num.map fun (n : ℕ) => 2 * gateTime * (n : A) * (nEchos : A)
  let nq ← regSize qubits
  let circuits := num.zipIdx.map fun p =>
    (⟨circName "t2circuit_" p.2 "0", nq, qubits.length,
      qubits.flatMap (fun q => t2Block q p.1 nEchos.toNat alt) ++ [Instr.barrier (List.range nq)] ++ measureAll qubits⟩ : Circ A)
  pure (circuits, xdata)

/-- `zz_circuits`, hamiltonian/circuits.py:25-86.  `num_of_gates` is a numpy array (for a list
`gate_time * num_of_gates` raises). -/
def zzCircuits [DecidableEq A] (pi : A) (num : List ℕ) (gateTime : A) (qubits spectators : List ℕ) (nosc : ℕ) :
    Option (List (Circ A) × List A × A) := do
  if qubits.length ≠ spectators.length then none else
  if qubits.any (fun q => spectators.contains q) then none else
  let xdata := num.map fun (n : ℕ) => gateTime * (n : A)
  let nq1 ← regSize qubits
  let nq2 ← regSize spectators
  let nq := max nq1 nq2
  let last ← xdata.getLast?
  if last = 0 then none else
  let oscFreq := (nosc : A) / last
  let circuits := [false, true].flatMap fun flip => (num.zip xdata).zipIdx.map fun p =>
    (⟨circName "zzcircuit_" p.2 (if flip then "1" else "0"), nq, qubits.length,
      (if flip then spectators.map Instr.x else []) ++ [Instr.barrier (List.range nq)]
        ++ qubits.flatMap (fun q => ramseyBlock q p.1.1 (2 * pi * oscFreq * p.1.2)) ++ [Instr.barrier (List.range nq)]
        ++ measureAll qubits⟩ : Circ A)
  pure (circuits, xdata, oscFreq)

end Coherence

section GateCal
variable {A : Type} [Field A]

/-- The gates of `ampcal_1Q_circuits` on one qubit, gates/circuits.py:52-55. -/
def ampBlock (q len : ℕ) : List (Instr A) :=
  Instr.u2 0 0 q :: (List.range len).flatMap fun _ => [Instr.barrier [q], Instr.u2 0 0 q]

/-- `ampcal_1Q_circuits`, gates/circuits.py:25-62.  Returns the circuits and `xdata`. -/
def ampcal1Q (maxReps : ℕ) (qubits : List ℕ) : Option (List (Circ A) × List ℕ) := do
  let xdata := (List.range maxReps).map (· * 2)
  let nq ← regSize qubits
  let circuits := xdata.zipIdx.map fun p =>
    (⟨circName "ampcal1Qcircuit_" p.2 "0", nq, qubits.length,
      qubits.flatMap (fun q => ampBlock q p.1) ++ measureAll qubits⟩ : Circ A)
  pure (circuits, xdata)

/-- An artificial phase, present only if the angle error is not zero, e.g. gates/circuits.py:96-97. -/
def errU1 [DecidableEq A] (err l : A) (q : ℕ) : List (Instr A) := if err ≠ 0 then [Instr.u1 l q] else []

/-- The repeated part of `anglecal_1Q_circuits`, gates/circuits.py:96-105. -/
def angleRep [DecidableEq A] (pi err : A) (q : ℕ) : List (Instr A) :=
  errU1 err (-2 * err) q ++ [Instr.barrier [q], Instr.u2 (-pi / 2) (pi / 2) q, Instr.barrier [q], Instr.u2 (-pi / 2) (pi / 2) q]
    ++ errU1 err (2 * err) q ++ [Instr.barrier [q], Instr.u2 0 0 q, Instr.barrier [q], Instr.u2 0 0 q]

/-- The gates of `anglecal_1Q_circuits` on one qubit, gates/circuits.py:94-109. -/
def angleBlock [DecidableEq A] (pi err : A) (q len : ℕ) : List (Instr A) :=
  Instr.u2 0 0 q :: (List.range len).flatMap (fun _ => angleRep pi err q)
    ++ errU1 err (-err) q ++ [Instr.u2 (-pi / 2) (pi / 2) q]

/-- `anglecal_1Q_circuits`, gates/circuits.py:65-116. -/
def anglecal1Q [DecidableEq A] (pi : A) (maxReps : ℕ) (qubits : List ℕ) (err : A) : Option (List (Circ A) × List ℕ) := do
  let xdata := (List.range maxReps).map (· * 2)
  let nq ← regSize qubits
  let circuits := (List.range maxReps).zipIdx.map fun p =>
    (⟨circName "anglecal1Qcircuit_" p.2 "0", nq, qubits.length,
      qubits.flatMap (fun q => angleBlock pi err q p.1) ++ measureAll qubits⟩ : Circ A)
  pure (circuits, xdata)

/-- The gates of `ampcal_cx_circuits` on one pair, gates/circuits.py:154-159. -/
def ampCxBlock (pi : A) (q c len : ℕ) : List (Instr A) :=
  [Instr.x c, Instr.u2 (-pi / 2) (pi / 2) q] ++ (List.range len).flatMap fun _ => [Instr.barrier [c, q], Instr.cx c q]

/-- `ampcal_cx_circuits`, gates/circuits.py:119-166.  `control_qubits[qind]` fails if there are too few controls;
surplus controls only enlarge the register. -/
def ampcalCx (pi : A) (maxReps : ℕ) (qubits controls : List ℕ) : Option (List (Circ A) × List ℕ) := do
  let xdata := List.range maxReps
  let nq1 ← regSize qubits
  let nq2 ← regSize controls
  if controls.length < qubits.length ∧ 0 < maxReps then none else
  let circuits := xdata.zipIdx.map fun p =>
    (⟨circName "ampcalcxcircuit_" p.2 "0", max nq1 nq2, qubits.length,
      (qubits.zip controls).flatMap (fun qc => ampCxBlock pi qc.1 qc.2 p.1) ++ measureAll qubits⟩ : Circ A)
  pure (circuits, xdata)

/-- The gates of `anglecal_cx_circuits` on one pair, gates/circuits.py:217-228. -/
def angleCxBlock [DecidableEq A] (pi err : A) (q c len : ℕ) : List (Instr A) :=
  [Instr.x c, Instr.u2 0 0 q]
    ++ (List.range len).flatMap (fun _ => errU1 err (-err) q ++ [Instr.barrier [c, q], Instr.cx c q] ++ errU1 err err q ++ [Instr.y q])
    ++ [Instr.u2 (-pi / 2) (pi / 2) q]

/-- `anglecal_cx_circuits`, gates/circuits.py:169-233. -/
def anglecalCx [DecidableEq A] (pi : A) (maxReps : ℕ) (qubits controls : List ℕ) (err : A) :
    Option (List (Circ A) × List ℕ) := do
  let xdata := List.range maxReps
  let nq1 ← regSize qubits
  let nq2 ← regSize controls
  if controls.length < qubits.length ∧ 0 < maxReps then none else
  let circuits := xdata.zipIdx.map fun p =>
    (⟨circName "anglecalcxcircuit_" p.2 "0", max nq1 nq2, qubits.length,
      (qubits.zip controls).flatMap (fun qc => angleCxBlock pi err qc.1 qc.2 p.1) ++ measureAll qubits⟩ : Circ A)
  pure (circuits, xdata)

end GateCal

/-! ### The fitters -/

/-- What a fitter class fixes: the prefix of the circuit names, the series labels and the expected state. -/
structure Fitter where
  base : String
  series : List String
  expected : Char
deriving DecidableEq

/-- `T1Fitter`, coherence/fitters.py:58-68. -/
def t1Fitter : Fitter := ⟨"t1circuit_", ["0"], '1'⟩
/-- `T2Fitter` with the default base name, coherence/fitters.py:114-124. -/
def t2Fitter : Fitter := ⟨"t2circuit_", ["0"], '0'⟩
/-- `T2StarFitter`, coherence/fitters.py:169-179. -/
def t2starFitter : Fitter := ⟨"t2starcircuit_", ["0"], '0'⟩
/-- `ZZFitter`, hamiltonian/fitters.py:41-53. -/
def zzFitter : Fitter := ⟨"zzcircuit_", ["0", "1"], '0'⟩
/-- `AmpCalFitter`, gates/fitters.py:31-43. -/
def ampCalFitter : Fitter := ⟨"ampcal1Qcircuit_", ["0"], '1'⟩
/-- `AngleCalFitter`, gates/fitters.py:100-110. -/
def angleCalFitter : Fitter := ⟨"anglecal1Qcircuit_", ["0"], '1'⟩
/-- `AmpCalCXFitter`, gates/fitters.py:150-162. -/
def ampCalCxFitter : Fitter := ⟨"ampcalcxcircuit_", ["0"], '1'⟩
/-- `AngleCalCXFitter`, gates/fitters.py:202-212. -/
def angleCalCxFitter : Fitter := ⟨"anglecalcxcircuit_", ["0"], '1'⟩

/-- `circuit_names`, e.g. coherence/fitters.py:58-60: `base%d_` for every element of `xdata`. -/
def Fitter.circuitNames (F : Fitter) (nx : ℕ) : List Str := (List.range nx).map fun (i : ℕ) => F.base.toList ++ fmtD i ++ ['_']

/-- A result of one job: the counts stored under each circuit name.  `get_counts` of an unknown name raises, which the
caller swallows. -/
abbrev JobResult := Dict Str Counts

/-- The pooled counts of one circuit name, fitters.py:259-267. -/
def pooled (results : List JobResult) (name : Str) : Counts :=
  buildCountsDictFromList (results.filterMap fun r => r.get? name)

/-- One data point, fitters.py:276-280.  `none`: no data (`marginal_counts` of an empty dictionary) or no shots
(division by zero).  Probabilities are exact fractions. -/
def point (counts : Counts) (qind : ℕ) (expected : Char) : Option (ℚ × ℤ) := do
  let shots := counts.values.sum
  let sub ← marginalCounts counts (some [qind]) false
  if shots = 0 then none else
  pure (((sub.getD [expected] 0 : ℤ) : ℚ) / (shots : ℚ), shots)

/-- `_calc_data`, fitters.py:243-286: for every series label, every qubit of the list and every circuit, the pair
(mean, shots).  The standard deviation is `pointStd` of that pair. -/
def calcData (F : Fitter) (results : List JobResult) (nx nqubits : ℕ) : Option (Dict Str (List (List (ℚ × ℤ)))) :=
  F.series.mapM fun s => do
    let rows ← (List.range nqubits).mapM fun qind =>
      (F.circuitNames nx).mapM fun name => point (pooled results (name ++ s.toList)) qind F.expected
    pure (s.toList, rows)

/-- `add_data`, fitters.py:218-241: the new results are appended. -/
def addData (old new : List JobResult) : List JobResult := old ++ new

end Verif.Char
