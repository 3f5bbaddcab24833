import Verif.RepCode.Decoder
import Verif.RepCode.Spec
/-
Specification of a noisy run of the repetition code.
-/
namespace Verif.RepCode
open Verif

/-- A Pauli error on a qubit just before the instruction with the given index. -/
abbrev Fault := Nat × Qb × Pauli

/-- The instructions together with the errors; X and Y flip the qubit, Z does nothing to a basis state. -/
def noisyOps (ops : List Op) (F : List Fault) : List Op :=
  ops.zipIdx.flatMap fun oi => ((F.filter fun f => f.1 = oi.2 ∧ f.2.2 ≠ .z).map fun f => Op.x f.2.1) ++ [oi.1]

/-- The classical memory after a run with the errors `F`, in which the classical bits listed in `M` are read out wrongly (a bit listed
twice is right again). -/
def noisyMemory (ops : List Op) (F : List Fault) (M : List Cl) : Cl → Bool := fun c =>
  ((run (noisyOps ops F) Sim.zero).m c).xor (decide (M.count c % 2 = 1))

/-- The classical bits of the code. -/
def ClValid (d T : Nat) (c : Cl) : Prop :=
  match c.1 with
  | .round t => t < T ∧ c.2 < d - 1
  | .code => c.2 < d

end Verif.RepCode
