import Verif.Accred.Props
/-
C31: measurements in the middle of a circuit.
-/
namespace Verif.Accred
open Verif Quantum

/-- **C31, finding** A measurement before a gate on the same qubit is moved behind it: the circuit that measures a qubit and then flips it, which reads 0, and the
circuit that flips it and then measures it, which reads 1, are parsed and padded in the same way. -/
theorem C31_finding_mid_circuit :
    (∀ (n m : ℕ) (g : TwoQ) (mat : Mat2 ℂ) (q : Fin n) (c : Fin m), layerParser g [.measure q c, .u mat q] = layerParser g [.u mat q, .measure q c]) ∧
    (∀ (g : TwoQ) (num : ℕ) (rng : ℕ → ℕ → Basis (Fin 1)),
      qotp [.measure (0 : Fin 1) (0 : Fin 1), .u mX 0] num g rng = qotp [.u mX 0, .measure (0 : Fin 1) (0 : Fin 1)] num g rng) ∧
    strProb (ket0 : Basis (Fin 1) → ℂ) (keyOf [((0 : Fin 1), (0 : Fin 1))]) "0".toList = 1 ∧
    strProb (sem [Gate.u mX (0 : Fin 1)] ket0) (keyOf [((0 : Fin 1), (0 : Fin 1))]) "1".toList = 1 := by
  refine ⟨fun n m g mat q c => rfl, fun g num rng => rfl, ?_, ?_⟩
  · unfold strProb
    rw [show (Finset.univ.filter fun x => keyOf [((0 : Fin 1), (0 : Fin 1))] x = "0".toList) = {fun _ => false} by decide +kernel]
    simp [prob, ket0]
  · unfold strProb
    rw [show (Finset.univ.filter fun x => keyOf [((0 : Fin 1), (0 : Fin 1))] x = "1".toList) = {fun _ => true} by decide +kernel]
    simp [applyGate, app1_mX, pauli, sgn_zero_left, prob, ket0]
    decide +kernel

end Verif.Accred
