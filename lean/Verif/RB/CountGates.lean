import Verif.RB.Utils
/-
Model of `count_gates` of qiskit/ignis/verification/randomized_benchmarking/rb_utils.py.
-/
namespace Verif.RB.Utils
open Verif

/-- rb_utils.py:56 `{basis[i]: i for i in range(len(basis))}`: the last index of a repeated name stays. -/
def basisInd (basis : List Str) : Dict Str ℕ := basis.zipIdx.foldl (fun d p => d.set p.1 p.2) []

/-- rb_utils.py:59-63, one instruction: `ngates[i][qind][basis_ind[instr.name]] += 1` for the qubits of the list it acts on. -/
def countInstr (basis : List Str) (qubits : List ℕ) (m : List (List ℕ)) (i : TIns) : List (List ℕ) :=
  if i.1 ∈ basis then
    match (basisInd basis).get? i.1 with
    | none => m
    | some k => qubits.zipIdx.foldl (fun m q => if q.1 ∈ i.2 then m.modify q.2 (·.modify k (· + 1)) else m) m
  else m

/-- rb_utils.py:30-65 `count_gates`; `experiments` are the instructions of the experiments of the qobj. -/
def countGates (experiments : List (List TIns)) (basis : List Str) (qubits : List ℕ) : List (List (List ℕ)) :=
  experiments.map fun e => e.foldl (countInstr basis qubits) (List.replicate qubits.length (List.replicate basis.length 0))

end Verif.RB.Utils
