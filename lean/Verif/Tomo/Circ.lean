import Verif.Py.Split
import Verif.Py.Basic
import Mathlib.Data.List.Sort
/-
Model of the circuit part of qiskit/ignis/verification/tomography: basis/circuits.py,
basis/paulibasis.py, basis/sicbasis.py and basis/tomographybasis.py (circuits and labels; the
matrices are in Tomo/Fit.lean) and of the label and circuit part of basis/gatesetbasis.py.

Conventions: `ι` is the type of qubits (a `Qubit` object); registers have been unrolled to their
qubits.  Exceptions of any class are `none`.  The circuit under tomography is a list of
instructions; `Op.user k` is an instruction the tomography functions do not look at.
The classical bit `j` of the new register is `Clbit.tomo j`, those of the given circuit are
`Clbit.own c`.  Labels are strings without quotes and backslashes, so that `repr` only adds quotes.
The warnings logged by `_tomography_circuits` are left out.
-/
namespace Verif.Tomo
open Verif

/-- The one-qubit gates the library uses; `sic1`, `sic2`, `sic3` are the `U3Gate`s of
sicbasis.py:46-53. -/
inductive G1 where
  | h | x | s | sdg | sic1 | sic2 | sic3
  deriving DecidableEq, Repr

/-- Classical bits: of the register `_tomography_circuits` creates, or of the given circuit. -/
inductive Clbit where
  | tomo (j : Nat)
  | own (c : Nat)
  deriving DecidableEq, Repr

/-- Instructions. -/
inductive Op (ι : Type) where
  | gate (g : G1) (q : ι)
  | measure (q : ι) (c : Clbit)
  | barrier
  | user (k : Nat)
  deriving DecidableEq, Repr

/-- A named circuit. -/
structure Circ (ι : Type) where
  name : Str
  ops : List (Op ι)
  deriving DecidableEq, Repr

variable {ι : Type}

/-- paulibasis.py:30-56, `pauli_measurement_circuit`. -/
def pauliMeasurementCircuit (op : Str) (q : ι) (c : Clbit) : List (Op ι) :=
  (if op = "X".toList then [.gate .h q, .measure q c] else []) ++
  (if op = "Y".toList then [.gate .sdg q, .gate .h q, .measure q c] else []) ++
  (if op = "Z".toList then [.measure q c] else [])

/-- paulibasis.py:59-91, `pauli_preparation_circuit`. -/
def pauliPreparationCircuit (op : Str) (q : ι) : List (Op ι) :=
  (if op = "Xp".toList then [.gate .h q] else []) ++
  (if op = "Xm".toList then [.gate .x q, .gate .h q] else []) ++
  (if op = "Yp".toList then [.gate .h q, .gate .s q] else []) ++
  (if op = "Ym".toList then [.gate .x q, .gate .h q, .gate .s q] else []) ++
  (if op = "Zm".toList then [.gate .x q] else [])

/-- sicbasis.py:31-54, `sicpovm_preparation_circuit`. -/
def sicPreparationCircuit (op : Str) (q : ι) : List (Op ι) :=
  (if op = "S1".toList then [.gate .sic1 q] else []) ++
  (if op = "S2".toList then [.gate .sic2 q] else []) ++
  (if op = "S3".toList then [.gate .sic3 q] else [])

/-- tomographybasis.py:27-71, the circuit half of a `TomographyBasis`: the labels and circuit
function of the measurement part and of the preparation part, each possibly absent. -/
structure CBasis (ι : Type) where
  meas : Option (List Str × (Str → ι → Clbit → Option (List (Op ι))))
  prep : Option (List Str × (Str → ι → Option (List (Op ι))))

/-- paulibasis.py:196-202, `PauliBasis`. -/
def pauliBasis : CBasis ι where
  meas := some (["X".toList, "Y".toList, "Z".toList],
    fun op q c => some (pauliMeasurementCircuit op q c))
  prep := some (["Xp".toList, "Xm".toList, "Yp".toList, "Ym".toList, "Zp".toList, "Zm".toList],
    fun op q => some (pauliPreparationCircuit op q))

/-- sicbasis.py:106-110, `SICBasis`. -/
def sicBasis : CBasis ι where
  meas := none
  prep := some (["S0".toList, "S1".toList, "S2".toList, "S3".toList],
    fun op q => some (sicPreparationCircuit op q))

/-- tomographybasis.py:102-136, `measurement_circuit`: the label must be one of the basis. -/
def CBasis.measurementCircuit (b : CBasis ι) (op : Str) (q : ι) (c : Clbit) : Option (List (Op ι)) :=
  match b.meas with
  | none => none
  | some (labels, f) => if op ∈ labels then f op q c else none

/-- tomographybasis.py:138-165, `preparation_circuit`. -/
def CBasis.preparationCircuit (b : CBasis ι) (op : Str) (q : ι) : Option (List (Op ι)) :=
  match b.prep with
  | none => none
  | some (labels, f) => if op ∈ labels then f op q else none

/-- The `meas_basis`/`prep_basis` argument: `None`, a name, or a basis object. -/
inductive BasisArg (ι : Type) where
  | none
  | name (s : Str)
  | basis (b : CBasis ι)

/-- circuits.py:493-517, `default_basis`; the outer `none` is the `ValueError`. -/
def defaultBasis : BasisArg ι → Option (Option (CBasis ι))
  | .none => some Option.none
  | .name s => if s = "Pauli".toList then some (some pauliBasis)
      else if s = "SIC".toList then some (some sicBasis) else Option.none
  | .basis b => some (some b)

/-- circuits.py:416-423: the measurement circuit function of a basis argument (functions given directly
are left out). -/
def measurementFn (a : BasisArg ι) : Option (Option (Str → ι → Clbit → Option (List (Op ι)))) :=
  match defaultBasis a with
  | Option.none => Option.none
  | some Option.none => some Option.none
  | some (some b) => if b.meas.isSome then some (some b.measurementCircuit) else Option.none

/-- circuits.py:424-431: the preparation circuit function of a basis argument. -/
def preparationFn (a : BasisArg ι) : Option (Option (Str → ι → Option (List (Op ι)))) :=
  match defaultBasis a with
  | Option.none => Option.none
  | some Option.none => some Option.none
  | some (some b) => if b.prep.isSome then some (some b.preparationCircuit) else Option.none

/-- The `meas_labels`/`prep_labels` argument of circuits.py: `None`, a string naming a built-in
basis, a tuple of one-qubit labels, or a list of n-qubit labels. -/
inductive Labels where
  | none
  | builtin (s : Str)
  | tuple (ls : List Str)
  | list (ls : List (List Str))

/-- `labels is None`. -/
def Labels.isNone : Labels → Bool
  | .none => true
  | _ => false

/-- circuits.py:654-679, `_operator_tuples`: `it.product(labels, repeat=n)`. -/
def operatorTuples (labels : List Str) : Nat → List (List Str)
  | 0 => [[]]
  | n + 1 => labels.flatMap fun a => (operatorTuples labels n).map (a :: ·)

/-- circuits.py:520-534, `_default_measurement_labels` of a string. -/
def defaultMeasurementLabels (s : Str) : Option (List Str) :=
  if s = "Pauli".toList then some ["X".toList, "Y".toList, "Z".toList] else none

/-- circuits.py:536-553, `_default_preparation_labels` of a string. -/
def defaultPreparationLabels (s : Str) : Option (List Str) :=
  if s = "Pauli".toList then some ["Zp".toList, "Zm".toList, "Xp".toList, "Yp".toList]
  else if s = "SIC".toList then some ["S0".toList, "S1".toList, "S2".toList, "S3".toList] else none

/-- circuits.py:440-447 and 594-623: the built-in labels are looked up and `_generate_labels` makes
the n-qubit labels (`None` gives the one-element list `[None]`). -/
def generateLabels (default : Str → Option (List Str)) (ls : Labels) (n : Nat) :
    Option (List (Option (List Str))) :=
  match ls with
  | .none => some [none]
  | .builtin s => (default s).map fun t => (operatorTuples t n).map some
  | .tuple t => some ((operatorTuples t n).map some)
  | .list l => some (l.map some)

/-- circuits.py:626-651, `_format_registers`. -/
def formatRegisters [DecidableEq ι] (qs : List ι) : Option (List ι) :=
  if qs = [] then none else if qs.dedup.length ≠ qs.length then none else some qs

/-- `str(label)` of a label without quotes. -/
def reprStr (s : Str) : Str := '\'' :: (s ++ ['\''])

/-- `str(t)` of a tuple of items already printed. -/
def reprTuple : List Str → Str
  | [] => "()".toList
  | [a] => '(' :: (a ++ ",)".toList)
  | l => '(' :: (joinSep ", ".toList l ++ [')'])

/-- `str(label)` of an n-qubit label. -/
def reprLabel (l : List Str) : Str := reprTuple (l.map reprStr)

/-- circuits.py:479-484: the name of a circuit. -/
def circName (pl ml : Option (List Str)) : Str :=
  let show' : Option (List Str) → Str := fun
    | none => "None".toList
    | some l => reprLabel l
  match pl with
  | none => show' ml
  | some l => reprTuple [reprLabel l, show' ml]

/-- circuits.py:464-465 and 474-477: `for j in range(num_qubits)` adds the circuit of `label[j]` on
qubit `j`; a label that is too short is an `IndexError`. -/
def labelledOps (f : Nat → Str → ι → Option (List (Op ι))) (label : List Str) (qs : List ι) :
    Option (List (Op ι)) :=
  ((List.range qs.length).mapM fun j => do
    let l ← label[j]?
    let q ← qs[j]?
    f j l q).map List.flatten

/-- circuits.py:461-466: the preparation part of a circuit, up to the circuit under tomography. -/
def prepPart (prep : Option (Str → ι → Option (List (Op ι)))) (qs : List ι) (pl : Option (List Str)) :
    Option (List (Op ι)) :=
  match pl, prep with
  | none, _ => some []
  | some l, some f => (labelledOps (fun _ a q => f a q) l qs).map (· ++ [.barrier])
  | some _, none => none

/-- circuits.py:471-477: the measurement part. -/
def measPart (meas : Option (Str → ι → Clbit → Option (List (Op ι)))) (qs : List ι) (ml : Option (List Str)) :
    Option (List (Op ι)) :=
  match ml, meas with
  | none, _ => some []
  | some l, some f => (labelledOps (fun j a q => f a q (.tomo j)) l qs).map (Op.barrier :: ·)
  | some _, none => none

/-- circuits.py:255-486, `_tomography_circuits`. -/
def tomographyCircuits [DecidableEq ι] (circuit : List (Op ι)) (measured : List ι) (prepared : Option (List ι))
    (measLabels : Labels) (measBasis : BasisArg ι) (prepLabels : Labels) (prepBasis : BasisArg ι) :
    Option (List (Circ ι)) := do
  let mq ← formatRegisters measured
  let pq ← formatRegisters (prepared.getD measured)
  if pq.length ≠ mq.length then none else
  let meas ← measurementFn measBasis
  let prep ← preparationFn prepBasis
  if meas.isNone && !measLabels.isNone then none else
  if prep.isNone && !prepLabels.isNone then none else
  let mls ← generateLabels defaultMeasurementLabels measLabels mq.length
  let pls ← generateLabels defaultPreparationLabels prepLabels mq.length
  let cs ← pls.mapM fun pl => do
    let p ← prepPart prep pq pl
    mls.mapM fun ml => do
      let m ← measPart meas mq ml
      some (Circ.mk (circName pl ml) (p ++ circuit ++ m))
  some cs.flatten

/-- circuits.py:46-78, `state_tomography_circuits`. -/
def stateTomographyCircuits [DecidableEq ι] (circuit : List (Op ι)) (measured : List ι)
    (measLabels : Labels) (measBasis : BasisArg ι) : Option (List (Circ ι)) :=
  tomographyCircuits circuit measured none measLabels measBasis .none .none

/-- circuits.py:86-131, `process_tomography_circuits`. -/
def processTomographyCircuits [DecidableEq ι] (circuit : List (Op ι)) (measured : List ι) (prepared : Option (List ι))
    (measLabels : Labels) (measBasis : BasisArg ι) (prepLabels : Labels) (prepBasis : BasisArg ι) :
    Option (List (Circ ι)) :=
  tomographyCircuits circuit measured prepared measLabels measBasis prepLabels prepBasis

/-- The default argument `'Pauli'`. -/
def pauliLabels : Labels := .builtin "Pauli".toList

/-- The default argument `'Pauli'`. -/
def pauliArg : BasisArg ι := .name "Pauli".toList

/-- circuits.py:561-591, `tomography_circuit_tuples` for a number of qubits. -/
def tomographyCircuitTuples (n : Nat) (measLabels prepLabels : Labels) :
    Option (List (Option (List Str) × Option (List Str))) := do
  let mls ← generateLabels defaultMeasurementLabels measLabels n
  let pls ← generateLabels defaultPreparationLabels prepLabels n
  some (mls.flatMap fun pl => pls.map fun ml => (ml, pl))

/-- gatesetbasis.py:50-69: gates by name (in insertion order) and SPAM circuits by name.  The gate
named `n` is the instruction list `gates n`. -/
structure GateSet (ι : Type) where
  gateLabels : List Str
  gates : Dict Str (ι → List (Op ι))
  spam : Dict Str (List Str)

/-- gatesetbasis.py:68, `spam_labels = tuple(sorted(spam.keys()))`. -/
def GateSet.spamLabels (b : GateSet ι) : List Str := (b.spam.map (·.1)).insertionSort (· ≤ ·)

/-- gatesetbasis.py:101-123, `add_gate_to_circuit`. -/
def GateSet.gateOps (b : GateSet ι) (q : ι) (op : Str) : Option (List (Op ι)) :=
  (b.gates.get? op).map (· q)

/-- gatesetbasis.py:125-145, `add_spam_to_circuit`. -/
def GateSet.spamOps (b : GateSet ι) (q : ι) (op : Str) : Option (List (Op ι)) := do
  let gates ← b.spam.get? op
  (gates.mapM (b.gateOps q)).map List.flatten

/-- gatesetbasis.py:147-166, `measurement_circuit`. -/
def GateSet.measOps (b : GateSet ι) (q : ι) (c : Clbit) (op : Str) : Option (List (Op ι)) :=
  (b.spamOps q op).map (· ++ [.measure q c])

/-- The pieces of even and of odd position of a list. -/
def unweave : List Str → List Str × List Str
  | [] => ([], [])
  | [p] => ([p], [])
  | p :: s :: rest => (p :: (unweave rest).1, s :: (unweave rest).2)

/-- `re.search("'(.*)'.*'(.*)'", name)` and `re.search("'(.*)'", name)` on names with exactly four,
or two, quotes: the quoted pieces. -/
def quotedPieces (name : Str) : List Str := (unweave (splitChar '\'' name)).2

/-- gatesetbasis.py:227-246, `get_tomography_basis`. -/
def GateSet.basis (b : GateSet ι) : CBasis ι where
  meas := some (b.spamLabels, fun op q c => b.measOps q c op)
  prep := some (b.spamLabels, fun op q => b.spamOps q op)

/-- circuits.py:213-216 and 228-231: the new name of a circuit of one gate (`some g`) or of no gate. -/
def gstRename (gate : Option Str) (c : Circ ι) : Option (Circ ι) := do
  let f1 ← (quotedPieces c.name)[0]?
  let f2 ← (quotedPieces c.name)[1]?
  match gate with
  | some g => some ⟨reprLabel [f1, g, f2], c.ops⟩
  | none => some ⟨reprLabel [f1, f2], c.ops⟩

/-- circuits.py:203-217 and 219-232: the circuits of one gate (`some g`) or of no gate. -/
def gstBlock [DecidableEq ι] (b : GateSet ι) (q : ι) (gate : Option Str) : Option (List (Circ ι)) := do
  let mid ← match gate with
    | some g => b.gateOps q g
    | none => some []
  let cs ← tomographyCircuits mid [q] (some [q]) (.tuple b.spamLabels) (.basis b.basis) (.tuple b.spamLabels)
    (.basis b.basis)
  cs.mapM (gstRename gate)

/-- circuits.py:234-246: the circuits with one SPAM circuit only. -/
def gstSingles [DecidableEq ι] (b : GateSet ι) (q : ι) : Option (List (Circ ι)) := do
  let cs ← tomographyCircuits [] [q] (some [q]) (.tuple b.spamLabels) (.basis b.basis) .none .none
  cs.mapM fun c => do
    let f ← (quotedPieces c.name)[0]?
    some ⟨reprLabel [f], c.ops⟩

/-- circuits.py:138-248, `gateset_tomography_circuits` on the one measured qubit `q`. -/
def gatesetTomographyCircuits [DecidableEq ι] (b : GateSet ι) (q : ι) : Option (List (Circ ι)) := do
  let g ← b.gateLabels.mapM fun g => gstBlock b q (some g)
  let n ← gstBlock b q none
  let s ← gstSingles b q
  some (g.flatten ++ n ++ s)

end Verif.Tomo
