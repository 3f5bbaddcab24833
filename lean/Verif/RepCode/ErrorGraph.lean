import Verif.RepCode.Decoder
/-
Model of `GraphDecoder.make_error_graph` with its argument `subgraphs` (`qiskit/ignis/verification/topological_codes/fitters.py`).
-/
namespace Verif.RepCode
open Verif

/-- `E[subgraph].add_node(v)`, fitters.py:232-235; a node that is there already is not added again. -/
def addNode (v : Tup) (E : Dict Str (List Tup)) (n : Str) : Dict Str (List Tup) :=
  let ns := (E.get? n).getD []
  E.set n (if v ∈ ns then ns else ns ++ [v])

/-- The nodes of the graphs, fitters.py:219-235.  `none`: `IndexError` of `subgraphs[syndrome_type]`. -/
def graphNodes (s : Str) (sub : List (List Str)) : Option (Dict Str (List Tup)) :=
  (errorNodes s).foldlM (fun E v => do
    let row ← sub[v.1]?
    some (row.foldl (addNode v) E)) (sub.flatten.foldl (fun E n => E.set n []) [])

/-- The edges of one graph, fitters.py:240-245.  `none`: `shortest_path_length` raises, or its result is no integer. -/
def graphEdges (sp : Tup → Tup → Option Int) (ns : List Tup) : Option (List (Tup × Tup × Int)) := do
  let rows ← ns.mapM fun u => (ns.filter fun v => v ≠ u).mapM fun v => do
    let d ← sp u v
    some (u, v, -d)
  some rows.flatten

/-- `make_error_graph`, fitters.py:202-247: the nodes and the weights of the graphs by name.  `sp u v` is `int(nx.shortest_path_length(self.S, u, v, weight='distance'))`
with the current distances of the syndrome graph. -/
def makeErrorGraphs (sp : Tup → Tup → Option Int) (s : Str) (subgraphs : Option (List (List Str))) : Option (Dict Str (List Tup) × Dict Str (WGraph Tup)) := do
  let sub := subgraphs.getD ((splitDouble s).map fun _ => [['0']])
  let E ← graphNodes s sub
  let G ← sub.flatten.foldlM (fun (G : Dict Str (WGraph Tup)) n => do
    let es ← graphEdges sp ((E.get? n).getD [])
    some (G.set n (es.foldl addEdge ((G.get? n).getD fun _ _ => none)))) []
  some (E, G)

end Verif.RepCode
