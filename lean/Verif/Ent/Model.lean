import Verif.Py.DictLemmas
import Mathlib.Data.List.Sort
import Mathlib.Data.Rat.Defs
import Mathlib.Algebra.Order.Ring.Rat
/-
Entanglement verification: `qiskit/ignis/verification/entanglement/parallelize.py`, the tier dictionary and the layout.

A Python exception (`KeyError`, `IndexError`, `CircuitError`) is `none`.
-/
namespace Verif.Ent
open Verif

/-! ## The coupling graph -/

/-- `_cmap_calib`, parallelize.py:61-71: the coupling map with the missing reversed pairs appended, sorted (stably) by the
first qubit. -/
def cmapCalib (cmap : List (ℕ × ℕ)) : List (ℕ × ℕ) :=
  let new := cmap ++ (cmap.filter fun a => decide ((a.2, a.1) ∉ cmap)).map fun a => (a.2, a.1)
  new.insertionSort fun x y => x.1 ≤ y.1

/-- `_initialize_nodes`, parallelize.py:51-59: an empty list for every first qubit, then the second qubits are
appended. -/
def initNodes (cmap : List (ℕ × ℕ)) : Dict ℕ (List ℕ) :=
  let cal := cmapCalib cmap
  let d0 := cal.foldl (fun d a => Dict.set d a.1 []) ([] : Dict ℕ (List ℕ))
  cal.foldl (fun d a => Dict.set d a.1 (Dict.getD d a.1 [] ++ [a.2])) d0

/-- `_get_best_node`, parallelize.py:73-85.  `self.nodes[best_node]` raises `KeyError` when qubit 0 has no coupling. -/
def bestNode (nodes : Dict ℕ (List ℕ)) : Option ℕ :=
  nodes.foldlM (fun best kv => do
    let lb ← nodes.get? best
    if kv.2.length > lb.length then some kv.1 else some best) 0

/-- `_child_sorter`, parallelize.py:145-150, with the switch `self.indicator`: `some err` sorts the children by the error
of the CNOT (child, parent); `none` leaves them as they are.  The error dictionary of the backend is a total function
here (a missing entry would raise). -/
def sortChildren (err : Option (ℕ → ℕ → ℚ)) (parent : ℕ) (children : List ℕ) : List ℕ :=
  match err with
  | none => children
  | some e => children.insertionSort fun a b => e a parent ≤ e b parent

/-! ## `get_tier_dict`, parallelize.py:152-211 -/

/-- The local variables `tier`, `tier_DM` and `trashlist`.  (The code starts every tier with a dummy entry `[]` and
removes it at the end; here the tiers start empty.) -/
structure TierSt where
  tier : Dict ℕ (List (ℕ × ℕ))
  dm : Dict ℕ ℕ
  trash : List ℕ

/-- The innermost loop, parallelize.py:189-193, over the new children of a parent, with the counter `j`. -/
def childLoop (parent : ℕ) : List ℕ → ℕ → TierSt → Option TierSt
  | [], _, s => some s
  | c :: cs, j, s => do
    let t ← s.tier.get? j
    childLoop parent cs (j + 1)
      { tier := s.tier.set j (t ++ [(parent, c)]), dm := s.dm.set c (j + 1), trash := s.trash ++ [c] }

/-- One iteration of the loop over the parents, parallelize.py:182-194: the state and `totalchildren`. -/
def parentStep (nodes : Dict ℕ (List ℕ)) (err : Option (ℕ → ℕ → ℚ)) (acc : TierSt × List ℕ) (parent : ℕ) :
    Option (TierSt × List ℕ) := do
  let ch ← nodes.get? parent
  let children := sortChildren err parent ch
  let new := children.filter fun a => decide (a ∉ acc.1.trash)
  let j ← acc.1.dm.get? parent
  let s ← childLoop parent new j acc.1
  some (s, acc.2 ++ children)

/-- The `while True` loop, parallelize.py:180-200: after a round it stops when all nodes are in the trash list, or after
51 rounds (`fuel`). -/
def tierLoop (nodes : Dict ℕ (List ℕ)) (err : Option (ℕ → ℕ → ℚ)) : ℕ → List ℕ → TierSt → Option TierSt
  | 0, _, s => some s
  | fuel + 1, parents, s => do
    let r ← parents.foldlM (parentStep nodes err) (s, [])
    if r.1.trash.length = nodes.length then some r.1
    else tierLoop nodes err fuel r.2 r.1

/-- The state before the loop, parallelize.py:165-178. -/
def tierInit (nodes : Dict ℕ (List ℕ)) (root : ℕ) : TierSt :=
  { tier := (List.range nodes.length).map fun x => (x, []), dm := [(root, 0)], trash := [root] }

/-- `get_tier_dict`, parallelize.py:152-211: the non-empty tiers. -/
def getTierDict (nodes : Dict ℕ (List ℕ)) (err : Option (ℕ → ℕ → ℚ)) : Option (Dict ℕ (List (ℕ × ℕ))) := do
  let root ← bestNode nodes
  let s ← tierLoop nodes err 51 [root] (tierInit nodes root)
  some (s.tier.filter fun kv => kv.2 ≠ [])

/-! ## Circuits -/

/-- Instructions of the circuits; `R` is the type of angles. -/
inductive Instr (R : Type) where
  | h (q : ℕ)
  | x (q : ℕ)
  | cx (c t : ℕ)
  | u1 (lam : R) (q : ℕ)
  | u2 (phi lam : R) (q : ℕ)
  | barrier
  | measure (q c : ℕ)
deriving DecidableEq, Repr

/-- The variables of `get_ghz_layout`: the circuit, `trashlist` and `initial_layout` (register index to device qubit). -/
structure LaySt (R : Type) where
  circ : List (Instr R)
  trash : List ℕ
  layout : Dict ℕ ℕ
deriving DecidableEq, Repr

/-- `if v not in trashlist: …`, parallelize.py:238-249.  `q[trashindex]` raises when the register is too small. -/
def placeQubit {R : Type} (n : ℕ) (s : LaySt R) (v : ℕ) : Option (LaySt R) :=
  if v ∈ s.trash then some s
  else if s.trash.length < n then
    some { s with trash := s.trash ++ [v], layout := s.layout.set s.trash.length v }
  else none

/-- One pair, parallelize.py:238-251. -/
def pairStep {R : Type} (n : ℕ) (s : LaySt R) (aa : ℕ × ℕ) : Option (LaySt R) := do
  let s ← placeQubit n s aa.1
  let s ← placeQubit n s aa.2
  some { s with circ := s.circ ++ [.cx (s.trash.idxOf aa.1) (s.trash.idxOf aa.2)] }

/-- The inner loop with its `break`, parallelize.py:237-254. -/
def innerLoop {R : Type} (n : ℕ) : List (ℕ × ℕ) → LaySt R → Option (LaySt R)
  | [], s => some s
  | aa :: rest, s => do
    let s ← pairStep n s aa
    if s.trash.length = n then some s else innerLoop n rest s

/-- The outer loop with its `break`, parallelize.py:236-258. -/
def outerLoop {R : Type} (n : ℕ) (barriered : Bool) : List (ℕ × List (ℕ × ℕ)) → LaySt R → Option (LaySt R)
  | [], s => some s
  | a :: rest, s => do
    let s ← innerLoop n a.2 s
    let s := if barriered then { s with circ := s.circ ++ [.barrier] } else s
    if s.trash.length = n then some s else outerLoop n barriered rest s

/-- `get_ghz_layout(n, transpiled=False, barriered)`, parallelize.py:213-264.  The transpilation is not modelled. -/
def ghzLayout {R : Type} (tier : Dict ℕ (List (ℕ × ℕ))) (n : ℕ) (barriered : Bool) : Option (List (Instr R) × Dict ℕ ℕ) :=
  if n = 0 then none
  else do
    let s ← outerLoop n barriered tier { circ := [.h 0], trash := [], layout := [] }
    some (s.circ, s.layout)

/-- `circuit.inverse()` of Qiskit: the inverses in reverse order.  A measurement raises. -/
def inverse {R : Type} [Neg R] [Add R] [Sub R] (pi : R) (circ : List (Instr R)) : Option (List (Instr R)) :=
  (circ.reverse).mapM fun g => match g with
    | .h q => some (.h q)
    | .x q => some (.x q)
    | .cx c t => some (.cx c t)
    | .u1 l q => some (.u1 (-l) q)
    | .u2 p l q => some (.u2 (-l - pi) (-p + pi) q)
    | .barrier => some .barrier
    | .measure _ _ => none

/-- `get_measurement_circ`, linear.py:26-58 and parallelize.py:266-301. -/
def measurementCirc {R : Type} (n : ℕ) (full : Bool) : List (Instr R) :=
  .barrier :: (if full then (List.range n).map fun i => .measure i i else [.measure 0 0])

/-- `get_ghz_simple`, linear.py:61-86. -/
def ghzSimple {R : Type} (n : ℕ) (measure full : Bool) : List (Instr R) :=
  .h 0 :: ((List.range' 1 (n - 1)).map fun i => .cx (i - 1) i) ++ (if measure then measurementCirc n full else [])

/-- The middle part and the end of the MQC circuits, linear.py:108-116 and parallelize.py:322-342: a gate applied to the
register is applied to every qubit in order.  `mid` stands between the rotation and the X gates. -/
def mqcWith {R : Type} [Neg R] [Add R] [Sub R] (pi : R) (n : ℕ) (prep mid : List (Instr R)) (delta : R) (full : Bool) :
    Option (List (Instr R)) := do
  let inv ← inverse pi prep
  some (prep ++ [.barrier] ++ (List.range n).map (fun i => .u1 delta i) ++ mid ++ (List.range n).map (fun i => .x i) ++ [.barrier] ++
    inv ++ measurementCirc n full)

/-- `get_ghz_mqc`, linear.py:89-116, and `get_ghz_mqc_para` with its parameter bound to `delta`, linear.py:119-145. -/
def ghzMqc {R : Type} [Neg R] [Add R] [Sub R] (pi : R) (n : ℕ) (delta : R) (full : Bool) : Option (List (Instr R)) :=
  mqcWith pi n (ghzSimple n false true) [] delta full

/-- `BConfig.get_ghz_mqc`, parallelize.py:303-342, and `get_ghz_mqc_para` with its parameter bound, 344-378, before
transpilation. -/
def layoutMqc {R : Type} [Neg R] [Add R] [Sub R] (pi : R) (tier : Dict ℕ (List (ℕ × ℕ))) (n : ℕ) (delta : R) (full : Bool) :
    Option (List (Instr R) × Dict ℕ ℕ) := do
  let p ← ghzLayout tier n true
  let c ← mqcWith pi n p.1 [.barrier] delta full
  some (c, p.2)

/-- The rotation and the end of the parity oscillation circuits, linear.py:163-169 and parallelize.py:398-415. -/
def poWith {R : Type} [Neg R] (n : ℕ) (prep : List (Instr R)) (delta : R) : List (Instr R) :=
  prep ++ [.barrier] ++ (List.range n).map (fun i => .u2 delta (-delta) i) ++ [.barrier] ++ measurementCirc n true

/-- `get_ghz_po`, linear.py:148-169, and `get_ghz_po_para` with its parameters bound to `delta` and `-delta`,
linear.py:172-194 (without the second barrier). -/
def ghzPo {R : Type} [Neg R] (n : ℕ) (delta : R) : List (Instr R) :=
  poWith n (ghzSimple n false true) delta

/-- `BConfig.get_ghz_po`, parallelize.py:380-415, and `get_ghz_po_para` with its parameters bound, 417-451, before
transpilation. -/
def layoutPo {R : Type} [Neg R] (tier : Dict ℕ (List (ℕ × ℕ))) (n : ℕ) (delta : R) : Option (List (Instr R) × Dict ℕ ℕ) := do
  let p ← ghzLayout tier n true
  some (poWith n p.1 delta, p.2)

end Verif.Ent
