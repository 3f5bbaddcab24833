import Verif.Tomo.PropsGstCirc
/-
Model of the objects of qiskit/ignis/verification/tomography/basis/gatesetbasis.py: gate sets that share dictionaries and grow, and of
the matrix functions of tomographybasis.py.

Conventions: a dictionary of gates is an object with an address (its position in `dicts`), because `self.gates = gates` keeps a reference to
the dictionary of the caller; only the calls modelled here change it.  A gate is what it adds to a circuit on a given qubit.  `PTM(...).data` is
a parameter: a real 4×4 matrix or an exception (simplification: the matrices are real numbers, so `np.real` in the constructor does nothing).
-/
namespace Verif.Tomo
open Verif

variable {ι : Type}

/-- An argument `gate`: a `Gate` object, with its name, or a function (gatesetbasis.py:52, 81). -/
inductive GateArg (ι : Type) where
  | obj (name : Str) (ops : ι → List (Op ι))
  | fn (ops : ι → List (Op ι))

/-- gatesetbasis.py:119-123: what is added to the circuit: the function is called, or the object appended. -/
def GateArg.ops : GateArg ι → ι → List (Op ι)
  | .obj _ ops => ops
  | .fn ops => ops

/-- Pauli transfer matrices of one qubit. -/
abbrev PtmMat := Matrix (Fin 4) (Fin 4) ℝ

/-- `PTM(gate)` and `PTM(circuit)`, gatesetbasis.py:71-79: `none` if it raises. -/
abbrev Ptm (ι : Type) := (ι → List (Op ι)) → Option PtmMat

/-- The attributes of a `GateSetBasis`, gatesetbasis.py:62-69: the address of `gates`, `gate_labels`, `gate_matrices`, `spam_spec`. -/
structure GsObj where
  ref : ℕ
  gateLabels : List Str
  mats : Dict Str PtmMat
  spam : Dict Str (List Str)

/-- The dictionaries of gates and the gate set bases. -/
structure GsHeap (ι : Type) where
  dicts : List (Dict Str (GateArg ι))
  objs : List GsObj

/-- What a program does: make a dictionary; `GateSetBasis(name, dict, spam)`; `basis.add_gate(gate, name)`. -/
inductive GsCall (ι : Type) where
  | dict (d : Dict Str (GateArg ι))
  | build (ref : ℕ) (spam : Dict Str (List Str))
  | add (i : ℕ) (gate : GateArg ι) (name : Option Str)

/-- gatesetbasis.py:92-96: the name; `none` if it is missing. -/
def gateName (gate : GateArg ι) (name : Option Str) : Option Str :=
  match name, gate with
  | some nm, _ => some nm
  | none, .obj nm _ => some nm
  | none, .fn _ => none

/-- One call: the heap afterwards and whether it returned normally.  Construction: gatesetbasis.py:62-69 (an exception of `PTM` leaves no
object).  `add_gate`: gatesetbasis.py:81-99, line by line; `PTM` is called last. -/
def gsStep (ptm : Ptm ι) (h : GsHeap ι) : GsCall ι → GsHeap ι × Bool
  | .dict d => (⟨h.dicts ++ [d], h.objs⟩, true)
  | .build ref spam =>
    match h.dicts[ref]? with
    | none => (h, false)
    | some d =>
      match d.mapM fun kv => (ptm kv.2.ops).map fun m => (kv.1, m) with
      | none => (h, false)
      | some mats => (⟨h.dicts, h.objs ++ [⟨ref, d.map (·.1), mats, spam⟩]⟩, true)
  | .add i gate name =>
    match h.objs[i]? with
    | none => (h, false)
    | some o =>
      match gateName gate name with
      | none => (h, false)
      | some nm =>
        let dicts := h.dicts.modify o.ref fun d => d.set nm gate
        match ptm gate.ops with
        | none => (⟨dicts, h.objs.set i { o with gateLabels := o.gateLabels ++ [nm] }⟩, false)
        | some m => (⟨dicts, h.objs.set i { o with gateLabels := o.gateLabels ++ [nm], mats := o.mats.set nm m }⟩, true)

/-- A sequence of calls; exceptions are caught and the program goes on. -/
def gsRun (ptm : Ptm ι) (h : GsHeap ι) (calls : List (GsCall ι)) : GsHeap ι := calls.foldl (fun h c => (gsStep ptm h c).1) h

/-- The gate set read by `gateset_tomography_circuits` (circuits.py:197-232). -/
def GsHeap.view (h : GsHeap ι) (o : GsObj) : GateSet ι where
  gateLabels := o.gateLabels
  gates := (h.dicts.getD o.ref []).map fun kv => (kv.1, kv.2.ops)
  spam := o.spam

/-! Matrix functions of a tomography basis. -/

/-- Exception classes. -/
inductive TbErr where
  | qiskit | value | type | key
  deriving DecidableEq, Repr

/-- A function passed as `matrix_fn`, with its number of arguments. -/
inductive MatFn where
  | one (f : Str → Except TbErr PtmMat)
  | two (f : Str → Str → Except TbErr PtmMat)

/-- Calls with one and with two arguments; the wrong number is a `TypeError`. -/
def MatFn.call1 : MatFn → Str → Except TbErr PtmMat
  | .one f, l => f l
  | .two _, _ => .error .type
def MatFn.call2 : MatFn → Str → Str → Except TbErr PtmMat
  | .one _, _, _ => .error .type
  | .two f, l, o => f l o

/-- The part of a `TomographyBasis` used for matrices, tomographybasis.py:58-76: labels and function, or no such part. -/
structure MatBasis where
  meas : Option (List Str × MatFn)
  prep : Option (List Str × MatFn)

/-- tomographybasis.py:181-214, `measurement_matrix`; the outcomes 0 and '0' are not distinguished. -/
def MatBasis.measurementMatrix (b : MatBasis) (label outcome : Str) : Except TbErr PtmMat :=
  match b.meas with
  | none => .error .qiskit
  | some (labels, fn) =>
    if label ∉ labels then .error .value
    else if outcome ∉ ["0".toList, "1".toList] then .error .value
    else fn.call2 label outcome

/-- tomographybasis.py:216-239, `preparation_matrix`. -/
def MatBasis.preparationMatrix (b : MatBasis) (label : Str) : Except TbErr PtmMat :=
  match b.prep with
  | none => .error .qiskit
  | some (labels, fn) => if label ∉ labels then .error .value else fn.call1 label

/-- gatesetbasis.py:168-178 and 198-208, `measurement_matrix` and `preparation_matrix`: `self.gate_matrices[label]`. -/
def GsObj.gateMatrix (o : GsObj) (label : Str) : Except TbErr PtmMat :=
  match o.mats.get? label with
  | some m => .ok m
  | none => .error .key

/-- gatesetbasis.py:227-246, `get_tomography_basis`, the matrix functions. -/
def GsObj.matBasis (o : GsObj) : MatBasis where
  meas := some ((o.spam.map (·.1)).insertionSort (· ≤ ·), .one o.gateMatrix)
  prep := some ((o.spam.map (·.1)).insertionSort (· ≤ ·), .one o.gateMatrix)

end Verif.Tomo
