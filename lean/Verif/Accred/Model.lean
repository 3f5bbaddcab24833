import Verif.Py.Basic
import Verif.Quantum.Basic
import Mathlib.Data.List.FinRange
import Mathlib.Data.Rat.Defs
/-
Model of qiskit/ignis/verification/accreditation: qotp.py, circuits.py, fitters.py.

Qubits are `Fin n`; a circuit is the list of its instructions.  A circuit handed to `layer_parser`
is the list of instructions in the order in which its loop visits them (transpiled, layer by layer of
the dag); `transpile` and the conversions to and from dags are taken to preserve the meaning.
Arrays of random bits are explicit arguments.  `none` stands for any exception.
-/
namespace Verif.Accred
open Verif Verif.Quantum

/-- The gates that occur in the circuits built by qotp.py and circuits.py; `u` is a `u1`, `u2` or
`u3` gate of the target, with its matrix. -/
inductive Gate (n : Nat) where
  | u (m : Mat2 ℂ) (q : Fin n)
  | x (q : Fin n)
  | z (q : Fin n)
  | h (q : Fin n)
  | s (q : Fin n)
  | sdg (q : Fin n)
  | cx (c t : Fin n)
  | cz (a b : Fin n)
  | barrier

/-- An instruction visited by the loop of `layer_parser`. `other` is any further instruction. -/
inductive InOp (n m : Nat) where
  | u (mat : Mat2 ℂ) (q : Fin n)
  | cx (c t : Fin n)
  | barrier
  | measure (q : Fin n) (c : Fin m)
  | other

/-- The argument `two_qubit_gate`. -/
inductive TwoQ where
  | cx
  | cz
  | other
  deriving DecidableEq

/-- The dictionary returned by `layer_parser` (the registers are the parameters `n`, `m`).
A two-qubit layer is the list of the qubit pairs of its gates. -/
structure Layers (n m : Nat) where
  single : List (List (Gate n))
  two : List (List (Fin n × Fin n))
  meas : List (Fin n × Fin m)
  gate : TwoQ

/-- `l[-k].append(g)` on a list of circuits. -/
def appendAt {α : Type} (l : List (List α)) (k : Nat) (g : α) : List (List α) :=
  l.modify (l.length - k) (· ++ [g])

/-- The variables of the loop of `layer_parser`. -/
structure PState (n m : Nat) where
  single : List (List (Gate n))
  two : List (List (Fin n × Fin n))
  meas : List (Fin n × Fin m)
  current : List (Fin n)

/-- qotp.py:76-78, 91-93: start a new layer. -/
def newLayer {n m : Nat} (st : PState n m) : PState n m :=
  { st with
    single := st.single ++ [[]]
    two := st.two ++ [[]]
    current := [] }

/-- qotp.py:70-116, one iteration of the loop of `layer_parser`. -/
def parseStep {n m : Nat} (g : TwoQ) (st : PState n m) : InOp n m → Option (PState n m)
  | .barrier =>
    let st := if st.current ≠ [] then newLayer st else st
    some { st with single := appendAt st.single 2 .barrier }
  | .u mat q =>
    if q ∈ st.current then some { st with single := appendAt st.single 1 (.u mat q) }
    else some { st with single := appendAt st.single 2 (.u mat q) }
  | .cx a b =>
    let st := if a ∈ st.current ∨ b ∈ st.current then newLayer st else st
    match g with
    | .cx => some { st with
        two := appendAt st.two 1 (a, b)
        current := st.current ++ [a, b] }
    | .cz => some { st with
        two := appendAt st.two 1 (a, b)
        single := appendAt (appendAt st.single 1 (.h b)) 2 (.h b)
        current := st.current ++ [a, b] }
    | .other => none
  | .measure q c => some { st with meas := st.meas ++ [(q, c)] }
  | .other => none

/-- qotp.py:28-129, `layer_parser`. -/
def layerParser {n m : Nat} (g : TwoQ) (circ : List (InOp n m)) : Option (Layers n m) := do
  let st ← circ.foldlM (parseStep g) ⟨[[], []], [[]], [], []⟩
  if st.current = [] then pure ⟨st.single.dropLast, st.two.dropLast, st.meas, g⟩
  else pure ⟨st.single, st.two, st.meas, g⟩

/-- The gates of a two-qubit layer. -/
def twoGates {n : Nat} (g : TwoQ) (l : List (Fin n × Fin n)) : List (Gate n) :=
  l.map fun p => if g = .cx then Gate.cx p.1 p.2 else Gate.cz p.1 p.2

/-- qotp.py:165-169 and 211-215: z then x where the random bits say so. -/
def padZX {n : Nat} (zs xs : Basis (Fin n)) : List (Gate n) :=
  (List.finRange n).flatMap fun q =>
    (if zs q then [Gate.z q] else []) ++ (if xs q then [Gate.x q] else [])

/-- qotp.py:200-204: x then z. -/
def padXZ {n : Nat} (zs xs : Basis (Fin n)) : List (Gate n) :=
  (List.finRange n).flatMap fun q =>
    (if xs q then [Gate.x q] else []) ++ (if zs q then [Gate.z q] else [])

/-- qotp.py:186-199: update of the random bits for one two-qubit gate; the state is
`(paulizs, paulixs)`. -/
def updatePauli {n : Nat} (g : TwoQ) (zx : Basis (Fin n) × Basis (Fin n)) (inds : Fin n × Fin n) :
    Option (Basis (Fin n) × Basis (Fin n)) :=
  match g with
  | .cx => some (Function.update zx.1 inds.1 (Bool.xor (zx.1 inds.1) (zx.1 inds.2)),
      Function.update zx.2 inds.2 (Bool.xor (zx.2 inds.2) (zx.2 inds.1)))
  | .cz =>
    let z1 := Function.update zx.1 inds.1 (Bool.xor (zx.1 inds.1) (zx.2 inds.2))
    some (Function.update z1 inds.2 (Bool.xor (z1 inds.2) (zx.2 inds.1)), zx.2)
  | .other => none

/-- qotp.py:159-204, one iteration of the loop over the two-qubit layers. The state is
`(qotp_circ, temp_circ)`; `rng k` is the `k`-th array of random bits drawn. -/
def qotpStep {n m : Nat} (layers : Layers n m) (rng : Nat → Basis (Fin n))
    (st : List (Gate n) × List (Gate n)) (l : List (Fin n × Fin n) × Nat) :
    Option (List (Gate n) × List (Gate n)) := do
  let sq ← layers.single[l.2]?
  let zs := rng (2 * l.2 + 1)
  let xs := rng (2 * l.2 + 2)
  let temp := st.2 ++ sq ++ padZX zs xs
  let circ := st.1 ++ temp ++ [Gate.barrier] ++ twoGates layers.gate l.1 ++ [Gate.barrier]
  let zx ← l.1.foldlM (updatePauli layers.gate) (zs, xs)
  pure (circ, padXZ zx.1 zx.2)

/-- qotp.py:132-226, `QOTP_fromlayers`: the gates of the padded circuit, its measurements, and the
post-processing string. -/
def qotpFromLayers {n m : Nat} (layers : Layers n m) (rng : Nat → Basis (Fin n)) :
    Option (List (Gate n) × List (Fin n × Fin m) × List Bool) := do
  let temp := (List.finRange n).flatMap fun q => if rng 0 q then [Gate.z q] else []
  let (circ, temp) ← layers.two.zipIdx.foldlM (qotpStep layers rng) ([], temp)
  let last ← layers.single.getLast?
  let zs := rng (2 * layers.two.length + 1)
  let xs := rng (2 * layers.two.length + 2)
  let temp := temp ++ last ++ padZX zs xs
  pure (circ ++ temp, layers.meas, ((List.finRange n).map xs).reverse)

/-- qotp.py:229-266, `QOTP`: `num` independent pads of one circuit; `rng i` are the arrays drawn for
the `i`-th. -/
def qotp {n m : Nat} (circ : List (InOp n m)) (num : Nat) (g : TwoQ) (rng : Nat → Nat → Basis (Fin n)) :
    Option (List (List (Gate n) × List (Fin n × Fin m) × List Bool)) := do
  let layers ← layerParser g circ
  (List.range num).mapM fun i => qotpFromLayers layers (rng i)

/-- qotp.py:282-284: one key shifted by the pad. `zip` stops at the shorter sequence. -/
def correctString (key : Str) (postp : List Bool) : Str :=
  (key.zip postp).map fun p => if Bool.xor (p.1 == '1') p.2 then '1' else '0'

/-- qotp.py:269-286, `QOTPCorrectCounts`. -/
def correctCounts (counts : Dict Str Nat) (postp : List Bool) : Dict Str Nat :=
  counts.foldl (fun out kv => out.set (correctString kv.1 postp) kv.2) []

/-! ### circuits.py -/

/-- circuits.py:135-164: the gates put before and after one two-qubit gate of a trap circuit, for
the random bit `r`. -/
def trapPair {n : Nat} (g : TwoQ) (r : Bool) (p : Fin n × Fin n) : Option (List (Gate n) × List (Gate n)) :=
  match g, r with
  | .cx, true => some ([.h p.1, .s p.2, .h p.2], [.h p.1, .h p.2, .sdg p.2])
  | .cx, false => some ([.s p.1], [.sdg p.1])
  | .cz, true => some ([.h p.1, .s p.2], [.h p.1, .sdg p.2])
  | .cz, false => some ([.s p.1, .h p.2], [.sdg p.1, .h p.2])
  | .other, _ => none

/-- circuits.py:169-175: the gates before and after for an idle qubit. -/
def trapIdle {n : Nat} (r : Bool) (q : Fin n) : List (Gate n) × List (Gate n) :=
  if r then ([.h q], [.h q]) else ([.s q], [.sdg q])

/-- circuits.py:129-175, one iteration of the loop over the two-qubit layers. The random bits are
`rnd layer i`: first the gates of the layer in order, then the idle qubits. -/
def trapLayer {n : Nat} (g : TwoQ) (rnd : Nat → Nat → Bool) (trap : List (List (Gate n)))
    (l : List (Fin n × Fin n) × Nat) : Option (List (List (Gate n))) := do
  let pairs ← l.1.zipIdx.mapM fun p => trapPair g (rnd l.2 p.2) p.1
  let regs := l.1.flatMap fun p => [p.1, p.2]
  let idle := ((List.finRange n).filter fun q => q ∉ regs).zipIdx.map fun p =>
    trapIdle (rnd l.2 (l.1.length + p.2)) p.1
  let all := pairs ++ idle
  pure ((trap.modify l.2 (· ++ all.flatMap (·.1))).modify (l.2 + 1) (· ++ all.flatMap (·.2)))

/-- circuits.py:103-181, `_routine_two`. -/
def routineTwo {n m : Nat} (layers : Layers n m) (basis : Bool) (rnd : Nat → Nat → Bool) :
    Option (List (List (Gate n))) := do
  let nlayers := layers.two.length + 1
  let trap : List (List (Gate n)) := List.replicate nlayers []
  let hs := (List.finRange n).map Gate.h
  let trap := if basis then trap.modify 0 (· ++ hs) else trap
  let trap ← layers.two.zipIdx.foldlM (trapLayer layers.gate rnd) trap
  pure (if basis then trap.modify (trap.length - 1) (· ++ hs) else trap)

/-- The random choices of one iteration of the loop of `generate_circuits`. -/
structure Draw (n : Nat) where
  basis : Bool
  rnd : Nat → Nat → Bool
  pad : Nat → Basis (Fin n)

/-- circuits.py:69-101, `generate_circuits`: `numTrap + 1` padded circuits; circuit `vZero` is the
target. -/
def generateCircuits {n m : Nat} (layers : Layers n m) (numTrap vZero : Nat) (draw : Nat → Draw n) :
    Option (List (List (Gate n) × List (Fin n × Fin m) × List Bool)) :=
  (List.range (numTrap + 1)).mapM fun k =>
    if k = vZero then qotpFromLayers layers (draw k).pad
    else do
      let single ← routineTwo layers (draw k).basis (draw k).rnd
      qotpFromLayers { layers with single := single } (draw k).pad

/-! ### fitters.py -/

/-- The attributes of one `AccreditationFitter` that assignments make private to the instance. -/
structure Fitter where
  bound : Rat
  nAcc : Nat
  numRuns : Nat
  accepted : Bool
  numTraps : Int
  deriving DecidableEq

/-- fitters.py:41-49: the class attributes seen by a new instance. -/
def Fitter.new : Fitter := ⟨1, 0, 0, true, 0⟩

/-- fitters.py:69-87: the string extracted from the counts of one circuit: the last key, `none`
if there is none. The `QiskitError`s of lines 66, 70 and 86 are constructed but not raised. -/
def extract (counts : Dict Str Nat) (postp : List Bool) : Option Str :=
  ((correctCounts counts postp).getLast?).map (·.1)

/-- fitters.py:51-98, `single_protocol_run`. `outputs` is the list object of the *class*, shared by
all instances; the new value is returned. `results.get_counts(ind)` is `results[ind]`. -/
def singleProtocolRun (outputs : List Str) (f : Fitter) (results : List (Dict Str Nat))
    (postps : List (List Bool)) (vZero : Nat) : Option (List Str × Fitter) := do
  let f := { f with numRuns := f.numRuns + 1, accepted := true }
  let f := if f.numRuns = 1 then { f with numTraps := (postps.length : Int) - 1 } else f
  let all ← postps.zipIdx.mapM fun p => do
    let c ← results[p.2]?
    extract c p.1
  let bad := all.zipIdx.any fun p => p.2 ≠ vZero ∧ p.1 ≠ List.replicate p.1.length '0'
  if bad then pure (outputs, { f with accepted := false })
  else do
    let target ← all[vZero]?     -- `output_target` unbound otherwise
    pure (outputs ++ [target], { f with nAcc := f.nAcc + 1 })

/-- fitters.py:100-121, `bound_variation_distance`, with exact arithmetic; `g_num` is 1 and the
confidence is `confidence` in PropsSoundDevices.lean. No runs, or no circuit in the first run: ZeroDivisionError. -/
def boundVariationDistance (f : Fitter) (theta : Rat) : Option Fitter :=
  if f.numRuns = 0 ∨ f.numTraps + 1 = 0 then none
  else
    let share : Rat := (f.nAcc : Rat) / f.numRuns
    let b : Rat :=
      if share > theta then 1 * (17 / 10) / (f.numTraps + 1) / (share - theta) + 1 - 1 else f.bound
    some { f with bound := if b > 1 then 1 else b }

end Verif.Accred
