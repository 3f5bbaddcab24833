import Verif.Ent.Model
/-
Entanglement verification: the error table of parallelize.py and the tier dictionary sorted with it.

`none` is an exception (`KeyError`, `IndexError`).
-/
namespace Verif.Ent
open Verif

/-- An entry of `backend.properties().to_dict()['gates']`: the qubits and the values of the parameters. -/
structure PropGate where
  qubits : List ℕ
  values : List ℚ

/-- `_get_cx_error` (`k = 0`), parallelize.py:101-121, and `_get_cx_length` (`k = 1`), parallelize.py:123-143: one entry of the list.
Only the number of qubits matters, not the name of the gate. -/
def cxStep (k : ℕ) (d : Dict (ℕ × ℕ) ℚ) (g : PropGate) : Option (Dict (ℕ × ℕ) ℚ) :=
  match g.qubits with
  | [a, b] => do
    let v ← g.values[k]?
    let d := d.set (a, b) v
    if d.has (b, a) then some d else some (d.set (b, a) v)
  | _ => some d

/-- The whole table. -/
def cxTable (k : ℕ) (gates : List PropGate) : Option (Dict (ℕ × ℕ) ℚ) := gates.foldlM (cxStep k) []

/-- `_child_sorter`, parallelize.py:145-150, with the switch `self.indicator` (`none`: off).  `sorted` looks every key up before it
compares. -/
def sortChildrenP (table : Option (Dict (ℕ × ℕ) ℚ)) (parent : ℕ) (children : List ℕ) : Option (List ℕ) :=
  match table with
  | none => some children
  | some d =>
    if children.all fun c => d.has (c, parent) then
      some (children.insertionSort fun a b => d.getD (a, parent) 0 ≤ d.getD (b, parent) 0)
    else none

/-- One iteration of the loop over the parents, parallelize.py:182-194. -/
def parentStepP (nodes : Dict ℕ (List ℕ)) (table : Option (Dict (ℕ × ℕ) ℚ)) (acc : TierSt × List ℕ) (parent : ℕ) :
    Option (TierSt × List ℕ) := do
  let ch ← nodes.get? parent
  let children ← sortChildrenP table parent ch
  let new := children.filter fun a => decide (a ∉ acc.1.trash)
  let j ← acc.1.dm.get? parent
  let s ← childLoop parent new j acc.1
  some (s, acc.2 ++ children)

/-- The `while True` loop, parallelize.py:180-200, with at most 51 rounds (`fuel`). -/
def tierLoopP (nodes : Dict ℕ (List ℕ)) (table : Option (Dict (ℕ × ℕ) ℚ)) : ℕ → List ℕ → TierSt → Option TierSt
  | 0, _, s => some s
  | fuel + 1, parents, s => do
    let r ← parents.foldlM (parentStepP nodes table) (s, [])
    if r.1.trash.length = nodes.length then some r.1
    else tierLoopP nodes table fuel r.2 r.1

/-- `BConfig(backend, indicator).get_tier_dict()`, parallelize.py:44-49 and 152-211, from the coupling map and the gate properties.  The table is
computed again at every comparison in the code; it is the same table. -/
def tierDictOf (cmap : List (ℕ × ℕ)) (gates : List PropGate) (indicator : Bool) : Option (Dict ℕ (List (ℕ × ℕ))) := do
  let nodes := initNodes cmap
  let root ← bestNode nodes
  let table ← if indicator then (cxTable 0 gates).map some else some none
  let s ← tierLoopP nodes table 51 [root] (tierInit nodes root)
  some (s.tier.filter fun kv => kv.2 ≠ [])

end Verif.Ent
