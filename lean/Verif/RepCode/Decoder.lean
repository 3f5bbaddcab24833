import Verif.RepCode.Model
import Mathlib.Combinatorics.SimpleGraph.Metric
import Mathlib.Algebra.Order.Group.Int
/-
Model of `GraphDecoder` (`qiskit/ignis/verification/topological_codes/fitters.py`): construction of the syndrome graph, the error graph
of an outcome and the correction of the logical value by a matching.  The library functions `networkx.shortest_path_length` and
`networkx.max_weight_matching` are specified, not modelled.
-/
namespace Verif.RepCode
open Verif

/-- A node of the graphs: syndrome type, round, element (fitters.py:84-86). -/
abbrev Tup := Nat × Nat × Nat

/-- A `networkx.Graph` whose edges all have `distance=1`. -/
structure Graph where
  nodes : List Tup
  edges : List (Tup × Tup)

/-- The qubits of an instruction, `qc.data[j][1]`. -/
def Op.qubits : Op → List Qb
  | .x a => [a]
  | .cx a t => [a, t]
  | .measure a _ => [a]
  | .reset a => [a]

/-- `['x', 'y', 'z']`, fitters.py:116. -/
inductive Pauli
  | x | y | z
deriving DecidableEq

/-- The circuit with an error before instruction `j`, fitters.py:117-123.  On computational basis states Y acts like X and Z not at all,
up to a phase. -/
def withError (c : Circuit) (j : Nat) (q : Qb) : Pauli → Circuit
  | .x => inject c j q
  | .y => inject c j q
  | .z => c

/-- The nodes and edges one error adds to the graph, fitters.py:138-157; the result of an error circuit is one string.  `none`: the
assertion fails. -/
def addError (code : Code) (j : Nat) (q : Qb) (S : Graph) (e : Pauli) : Option Graph := do
  let string ← processString code.d code.T (outcome (withError (code.circ false) j q e))
  let nodes := string2nodes string
  if nodes.length = 0 ∨ nodes.length = 2 then
    some ⟨S.nodes ++ nodes, S.edges ++ nodes.flatMap fun u => (nodes.filter fun v => u ≠ v).map fun v => (u, v)⟩
  else none

/-- `_make_syndrome_graph`, fitters.py:89-159. -/
def syndromeGraph (code : Code) : Option Graph :=
  (code.circ false).ops.zipIdx.foldlM (fun S p =>
    p.1.qubits.foldlM (fun S q => [Pauli.x, .y, .z].foldlM (addError code p.2 q) S) S) ⟨[], []⟩

/-- The graph as a relation. -/
def Graph.simple (S : Graph) : SimpleGraph Tup where
  Adj u v := u ≠ v ∧ ((u, v) ∈ S.edges ∨ (v, u) ∈ S.edges)
  symm := ⟨fun _ _ h => ⟨h.1.symm, h.2.symm⟩⟩
  loopless := ⟨fun _ h => h.1 rfl⟩

open Classical in
/-- `nx.shortest_path_length(S, u, v, weight='distance')`, specified: the length of a shortest path.  `none`: a node is missing or there
is no path. -/
noncomputable def shortestPathLength (S : Graph) (u v : Tup) : Option Nat :=
  if u ∈ S.nodes ∧ v ∈ S.nodes ∧ S.simple.Reachable u v then some (S.simple.dist u v) else none

/-- A weighted `networkx.Graph`: the weight of each edge. -/
abbrev WGraph (V : Type) := V → V → Option Int

/-- `G.add_edge(u, v, weight=w)`. -/
def addEdge {V : Type} [DecidableEq V] (G : WGraph V) (e : V × V × Int) : WGraph V := fun a b =>
  if (a = e.1 ∧ b = e.2.1) ∨ (a = e.2.1 ∧ b = e.1) then some e.2.2 else G a b

/-- The nodes of `make_error_graph(string)['0']`, fitters.py:224-235. -/
def errorNodes (s : Str) : List Tup :=
  (separateString s).zipIdx.flatMap fun (ty, synType) =>
    ty.zipIdx.flatMap fun (elements, synRound) =>
      elements.zipIdx.filterMap fun (element, elemNum) =>
        if element = '1' ∨ synType = 0 then some (synType, synRound, elemNum) else none

/-- `make_error_graph(string)['0']`, fitters.py:202-247, without the argument `subgraphs`: nodes and edges. -/
noncomputable def makeErrorGraph (S : Graph) (s : Str) : Option (List Tup × WGraph Tup) := do
  let ns := errorNodes s
  let rows ← ns.mapM fun u => (ns.filter fun v => v ≠ u).mapM fun v => do
    let n ← shortestPathLength S u v
    some (u, v, -(n : Int))
  some (ns, rows.flatten.foldl addEdge fun _ _ => none)

/-- A node as the tuple it is. -/
def tup (v : Tup) : List Nat := [v.1, v.2.1, v.2.2]

/-- `max(d, key=d.get)`: the first key with the largest value; `none`: `ValueError`. -/
def maxKey : List (Tup × Int) → Option (Tup × Int)
  | [] => none
  | x :: xs => match maxKey xs with
    | none => some x
    | some y => if x.2 < y.2 then some y else some x

/-- The edges added for one syndrome node and its logical neighbour, fitters.py:277-291. -/
def matchingRow (E : WGraph Tup) (syndromes logicals : List Tup) (u : Tup) : Option (List (List Nat × List Nat × Int) × List Nat) := do
  let row ← (syndromes.filter fun v => v ≠ u).mapM fun v => do
    let w ← E u v
    some (tup u, tup v, w)
  let potential ← logicals.mapM fun l => do
    let w ← E u l
    some (l, w)
  let near ← maxKey potential
  some (row ++ [(tup u, tup near.1 ++ tup u, near.2)], tup near.1 ++ tup u)

/-- The graph handed to the matching, fitters.py:266-295. -/
def matchingGraph (ns : List Tup) (E : WGraph Tup) : Option (WGraph (List Nat)) := do
  let logicals := ns.filter fun v => v.1 = 0
  let syndromes := ns.filter fun v => v.1 ≠ 0
  let rows ← syndromes.mapM (matchingRow E syndromes logicals)
  let nbrs : List (List Nat) := rows.map fun r => r.2
  some (((rows.map fun r => r.1).flatten ++ nbrs.flatMap fun a => (nbrs.filter fun b => b ≠ a).map fun b => (a, b, (0 : Int))).foldl addEdge fun _ _ => none)

/-- `str((int(x) + 1) % 2)`. -/
def flipStr (x : Str) : Option Str := if x = ['0'] then some ['1'] else if x = ['1'] then some ['0'] else none

/-- `logicals[i] = str((int(logicals[i]) + 1) % 2)`; `none`: no such index. -/
def flipAt (ls : List Str) (i : Nat) : Option (List Str) := do
  let x ← ls[i]?
  let y ← flipStr x
  some (ls.set i y)

/-- The correction for one matched pair, fitters.py:302-306. -/
def correct (ls : List Str) (p : List Nat × List Nat) : Option (List Str) := do
  let ls ← if p.1.headD 0 = 0 ∧ p.2.headD 0 ≠ 0 then flipAt ls (p.1.getD 1 0) else some ls
  if p.2.headD 0 = 0 ∧ p.1.headD 0 ≠ 0 then flipAt ls (p.2.getD 1 0) else some ls

/-- `GraphDecoder.matching`, fitters.py:249-313.  `mwm` is `nx.max_weight_matching(…, maxcardinality=True)`. -/
noncomputable def matching (mwm : WGraph (List Nat) → List (List Nat × List Nat)) (S : Graph) (s : Str) : Option Str := do
  let (ns, E) ← makeErrorGraph S s
  let G ← matchingGraph ns E
  let logicals ← (mwm G).foldlM correct ((separateString s).headD [])
  some (logicals.flatMap fun l => l ++ [' ']).dropLast

/-! ### Specification of the library's matching -/

/-- A matching: edges of the graph without a common node. -/
def IsMatching {V : Type} (G : WGraph V) (M : List (V × V)) : Prop :=
  (∀ p ∈ M, (G p.1 p.2).isSome) ∧ (M.flatMap fun p => [p.1, p.2]).Nodup

/-- Its weight. -/
def mweight {V : Type} (G : WGraph V) (M : List (V × V)) : Int := (M.map fun p => (G p.1 p.2).getD 0).sum

/-- What networkx documents for `max_weight_matching(G, maxcardinality=True)`: a matching with as many edges as possible and, among
those, of largest weight. -/
def IsMaxWeight {V : Type} (G : WGraph V) (M : List (V × V)) : Prop :=
  IsMatching G M ∧ (∀ M', IsMatching G M' → M'.length ≤ M.length) ∧
    ∀ M', IsMatching G M' → M'.length = M.length → mweight G M' ≤ mweight G M

/-- Only finitely many nodes have an edge. -/
def FiniteGraph {V : Type} (G : WGraph V) : Prop := ∃ l : List V, ∀ a b, (G a b).isSome → a ∈ l ∧ b ∈ l

end Verif.RepCode
