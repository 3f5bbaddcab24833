import Verif.Accred.Model
import Verif.Quantum.Gates
/-
Specification side of the accreditation properties: what a circuit does and which strings it
returns with which probability.
-/
namespace Verif.Accred
open Verif Verif.Quantum

/-- Effect of a gate on a state vector. -/
noncomputable def applyGate {n : Nat} : Gate n → State (Fin n) ℂ → State (Fin n) ℂ
  | .u m q => app1 m q
  | .x q => app1 mX q
  | .z q => app1 mZ q
  | .h q => app1 mH q
  | .s q => app1 mS q
  | .sdg q => app1 mSdg q
  | .cx c t => appCX c t
  | .cz a b => appCZ a b
  | .barrier => id

/-- Effect of a circuit. -/
noncomputable def sem {n : Nat} (l : List (Gate n)) (ψ : State (Fin n) ℂ) : State (Fin n) ℂ :=
  l.foldl (fun ψ g => applyGate g ψ) ψ

/-- The gates of a target circuit. -/
def InOp.gates {n m : Nat} : InOp n m → List (Gate n)
  | .u mat q => [.u mat q]
  | .cx c t => [.cx c t]
  | _ => []

/-- Instructions of the body of a target: gates with distinct operands and barriers. -/
def InOp.isBody {n m : Nat} : InOp n m → Prop
  | .u _ _ => True
  | .cx c t => c ≠ t
  | .barrier => True
  | _ => False

/-- The key reported for the basis outcome `x` of a circuit ending in the measurements `meas`
(qubit, classical bit), executed in order on a cleared register of `m` bits; classical bit 0 is the
right-most character. -/
def keyOf {n m : Nat} (meas : List (Fin n × Fin m)) (x : Basis (Fin n)) : Str :=
  ((List.finRange m).map fun c =>
    if (meas.foldl (fun (mem : Fin m → Bool) p => Function.update mem p.2 (x p.1)) (fun _ => false)) c
    then '1' else '0').reverse

/-- Probability of getting the string `s` when the basis outcomes of the state `ψ` are reported
through `key`. -/
noncomputable def strProb {n : Nat} (ψ : State (Fin n) ℂ) (key : Basis (Fin n) → Str) (s : Str) : ℝ :=
  ∑ x ∈ Finset.univ.filter (fun x => key x = s), prob ψ x

/-- Measurements that read qubit `q` into classical bit `q`, for every qubit, in any order. -/
def Straight {n : Nat} (meas : List (Fin n × Fin n)) : Prop :=
  (∀ p ∈ meas, p.1 = p.2) ∧ ∀ q, (q, q) ∈ meas

end Verif.Accred
