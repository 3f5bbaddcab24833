import Verif.Char.Model
/-
Model of `zz_circuits` for `num_of_gates` given as a list, as its documentation says.
-/
namespace Verif.Char
open Verif

variable {A : Type} [Field A]

/-- A Python number: an integer or a float. -/
inductive PyNum (A : Type) where
  | int (g : ℤ)
  | float (x : A)

/-- `gate_time * num_of_gates` for a list, hamiltonian/circuits.py:59: an integer repeats the list (not at all if it is not positive), a float raises
`TypeError`. -/
def timesList (gateTime : PyNum A) (num : List ℕ) : Option (List A) :=
  match gateTime with
  | .float _ => none
  | .int g => some (((List.replicate g.toNat num).flatten).map fun (n : ℕ) => (n : A))

/-- `zz_circuits` with a list, hamiltonian/circuits.py:25-86. -/
def zzCircuitsList [DecidableEq A] (pi : A) (num : List ℕ) (gateTime : PyNum A) (qubits spectators : List ℕ) (nosc : ℕ) :
    Option (List (Circ A) × List A × A) := do
  if qubits.length ≠ spectators.length then none else
  if qubits.any (fun q => spectators.contains q) then none else
  let xdata ← timesList gateTime num
  let nq1 ← regSize qubits
  let nq2 ← regSize spectators
  let nq := max nq1 nq2
  let last ← xdata.getLast?
  if last = 0 then none else
  let oscFreq := (nosc : A) / last
  let circuits := [false, true].flatMap fun flip => (num.zip xdata).zipIdx.map fun p =>
    (⟨circName "zzcircuit_" p.2 (if flip then "1" else "0"), nq, qubits.length,
      (if flip then spectators.map Instr.x else []) ++ [Instr.barrier (List.range nq)]
        ++ qubits.flatMap (fun q => ramseyBlock q p.1.1 (2 * pi * oscFreq * p.1.2)) ++ [Instr.barrier (List.range nq)]
        ++ measureAll qubits⟩ : Circ A)
  pure (circuits, xdata, oscFreq)

end Verif.Char
