import Verif.Dihedral.Model
import Verif.Py.Basic
/-
Model of `make_dict_0` and `make_dict_next` of qiskit/ignis/verification/randomized_benchmarking/dihedral.py: tables of the CNOT-dihedral
elements by the number of CNOT gates.  The key of an element, the string of all its entries, is represented by the element itself (see
`elemEq`).
-/
namespace Verif.Dihedral
open Verif

/-- A table: from (the key of) an element to the element and a list of gates. -/
abbrev Table (n : ℕ) := Dict (Elem n) (Elem n × List Gate)

/-- dihedral.py:803-805. -/
def digitPhase {n : ℕ} (tpower j : ℕ) (s : Elem n × List Gate) : Option (Elem n × List Gate) :=
  if tpower > 0 then (phase s.1 tpower j).map (·, s.2 ++ [Gate.u1 tpower j]) else some s

/-- dihedral.py:806-808. -/
def digitFlip {n : ℕ} (xpower j : ℕ) (s : Elem n × List Gate) : Option (Elem n × List Gate) :=
  if xpower = 1 then (flip s.1 j).map (·, s.2 ++ [Gate.x j]) else some s

/-- dihedral.py:800-809, loop body over the qubits: the rest of the number, the element and the gates so far.  The quotients are exact
(the code uses floats, which are exact below 2^53). -/
def digitStep {n : ℕ} (s : ℕ × Elem n × List Gate) (j : ℕ) : Option (ℕ × Elem n × List Gate) := do
  let num := s.1
  let xpower := num % 2
  let tpower := ((num - num % 2) / 2) % 8
  let r ← digitPhase tpower j s.2
  let r ← digitFlip xpower j r
  pure ((num - num % 16) / 16, r)

/-- dihedral.py:797-809, the element and gates of the number `i`. -/
def digitElem (n i : ℕ) : Option (Elem n × List Gate) :=
  ((List.range n).foldlM digitStep (i, Elem.one n, [])).map (·.2)

/-- dihedral.py:787-812 `make_dict_0`. -/
def makeDict0 (n : ℕ) : Option (Table n) :=
  (List.range (16 ^ n)).foldlM (fun obj i => (digitElem n i).map fun r => obj.set r.1 r) []

/-- dihedral.py:826-830, the values the nested loops over entries, `i`, `j ≠ i` and `tpower` run through. -/
def nextCandidates {n : ℕ} (last : Table n) : List ((Elem n × List Gate) × ℕ × ℕ × ℕ) :=
  last.values.flatMap fun v => (List.range n).flatMap fun i => ((List.range n).filter fun j => i ≠ j).flatMap fun j =>
    (List.range 4).map fun t => (v, i, j, t)

/-- dihedral.py:831-837, the new element and its gates. -/
def nextElem {n : ℕ} (a : (Elem n × List Gate) × ℕ × ℕ × ℕ) : Option (Elem n × List Gate) := do
  let e ← cnot a.1.1 a.2.1 a.2.2.1
  let c := a.1.2 ++ [Gate.cx a.2.1 a.2.2.1]
  if a.2.2.2 > 0 then (phase e a.2.2.2 a.2.2.1).map (·, c ++ [Gate.u1 a.2.2.2 a.2.2.1]) else some (e, c)

/-- dihedral.py:838-841, store the element unless it is known. -/
def storeNew {n : ℕ} (prior : List (Table n)) (obj : Table n) (r : Elem n × List Gate) : Table n :=
  if !(prior.any fun d => d.has r.1) && !obj.has r.1 then obj.set r.1 r else obj

/-- dihedral.py:815-843 `make_dict_next`.  `dicts_prior[-1]` of an empty list raises. -/
def makeDictNext (n : ℕ) (prior : List (Table n)) : Option (Table n) := do
  let last ← prior.getLast?
  (nextCandidates last).foldlM (fun obj a => (nextElem a).map (storeNew prior obj)) []

end Verif.Dihedral
