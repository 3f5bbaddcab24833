import Verif.Accred.Props
import Verif.Accred.PropsFit
import Verif.Quantum.Born
import Mathlib.LinearAlgebra.Pi
/-
Specification side of the soundness of accreditation: a noisy device with an environment, and the
probability that a run is accepted.  Not code of the repository.
-/
namespace Verif.Accred
open Verif Verif.Quantum

/-- A state of the `n` qubits together with an environment with basis `κ`. -/
abbrev Joint (κ : Type) (n : Nat) := κ → State (Fin n) ℂ

/-- Total probability of a state. -/
noncomputable def weight {κ : Type} [Fintype κ] {n : Nat} (Ψ : Joint κ n) : ℝ := ∑ k, ∑ x, Complex.normSq (Ψ k x)

/-- A noise operation: any linear operation on the qubits and the environment that preserves the total
probability. (Every noise process, with or without memory, is of this form for some environment.) -/
structure Noise (κ : Type) [Fintype κ] (n : Nat) where
  op : Joint κ n →ₗ[ℂ] Joint κ n
  iso : ∀ Ψ, weight (op Ψ) = weight Ψ

/-- The absence of noise. -/
def Noise.none {κ : Type} [Fintype κ] {n : Nat} : Noise κ n := ⟨LinearMap.id, fun _ => rfl⟩

/-- Noise that flips no qubit in the computational basis: amplitude on the outcome `x` comes only from amplitude on `x`. -/
def Noise.NoFlip {κ : Type} [Fintype κ] {n : Nat} (N : Noise κ n) : Prop :=
  ∀ (Ψ : Joint κ n) (x : Basis (Fin n)), (∀ k, Ψ k x = 0) → ∀ k, N.op Ψ k x = 0

/-- A noisy device: in its `i`-th circuit, `prep i` follows the preparation of |0…0⟩, `gate i k` follows
the `k`-th two-qubit gate and `meas i` precedes the measurement. The environment is kept from circuit to
circuit. The one-qubit gates have no noise of their own (noise that does not depend on the gate can be made
part of the others). -/
structure Device (κ : Type) [Fintype κ] (n : Nat) where
  prep : ℕ → Noise κ n
  gate : ℕ → ℕ → Noise κ n
  meas : ℕ → Noise κ n

/-- The one-qubit gates of a target are unitary. -/
def InOp.unitary {n m : Nat} : InOp n m → Prop
  | .u mat _ => mmul (adj mat) mat = mI
  | _ => True

/-- Two-qubit gates. -/
def Gate.isTwo {n : Nat} : Gate n → Bool
  | .cx _ _ => true
  | .cz _ _ => true
  | _ => false

/-- Gates on a noisy device, `k` two-qubit gates having been executed before. -/
noncomputable def exec {κ : Type} [Fintype κ] {n : Nat} (noise : ℕ → Noise κ n) : ℕ → List (Gate n) → Joint κ n → Joint κ n
  | _, [], Ψ => Ψ
  | k, g :: l, Ψ =>
    if g.isTwo then exec noise (k + 1) l ((noise k).op fun e => applyGate g (Ψ e))
    else exec noise k l fun e => applyGate g (Ψ e)

/-- Execution of a circuit as the `i`-th of the device, the environment being in state `e`: the state of the
environment after the outcome `y`, times the amplitude of that outcome. -/
noncomputable def shot {κ : Type} [Fintype κ] {n : Nat} (D : Device κ n) (i : ℕ) (c : List (Gate n)) (y : Basis (Fin n)) (e : κ → ℂ) : κ → ℂ :=
  fun k => (D.meas i).op (exec (D.gate i) 0 c ((D.prep i).op fun k x => e k * ket0 x)) k y

/-- Circuits one after the other, with their outcomes. -/
noncomputable def shots {κ : Type} [Fintype κ] {n : Nat} (D : Device κ n) : ℕ → List (List (Gate n)) → List (Basis (Fin n)) → (κ → ℂ) → κ → ℂ
  | i, c :: cs, y :: ys, e => shots D (i + 1) cs ys (shot D i c y e)
  | _, _, _, e => e

/-- Probability of the outcomes `ys` of the circuits `cs`. -/
noncomputable def runProb {κ : Type} [Fintype κ] {n : Nat} (D : Device κ n) (e : κ → ℂ) (cs : List (List (Gate n))) (ys : List (Basis (Fin n))) : ℝ :=
  ∑ k, Complex.normSq (shots D 0 cs ys e k)

/-- The random numbers drawn for one circuit with `l` two-qubit layers: the basis, the bits of the trap, and the arrays of the pad. -/
abbrev Coins (n l : ℕ) := Bool × (Fin l → Fin n → Bool) × (Fin (2 * l + 3) → Basis (Fin n))

/-- The random numbers as functions. -/
def Coins.draw {n l : ℕ} (c : Coins n l) : Draw n where
  basis := c.1
  rnd j i := if h : j < l ∧ i < n then c.2.1 ⟨j, h.1⟩ ⟨i, h.2⟩ else false
  pad k := if h : k < 2 * l + 3 then c.2.2 ⟨k, h⟩ else fun _ => false

/-- The random numbers of a run. -/
def drawOf {n l m : ℕ} (coins : Fin m → Coins n l) (k : ℕ) : Draw n :=
  if h : k < m then (coins ⟨k, h⟩).draw else ⟨false, fun _ _ => false, fun _ _ => false⟩

/-- What the fitter makes of a run with the outcomes `ys`: `generate_circuits` with the target at `v0`, single-shot counts,
`single_protocol_run` of a new fitter. The string recorded for the target if the run is accepted. -/
def recorded {n : ℕ} (L : Layers n n) (v v0 : ℕ) (draw : ℕ → Draw n) (ys : List (Basis (Fin n))) : Option Str :=
  match generateCircuits L v v0 draw with
  | none => none
  | some cs =>
    match singleProtocolRun [] Fitter.new ((cs.zip ys).map fun p => [(keyOf p.1.2.1 p.2, 1)]) (cs.map (·.2.2)) v0 with
    | some ([s], f) => if f.accepted then some s else none
    | _ => none

/-- Probability of the outcomes `ys` of the circuits of a run. -/
noncomputable def circProb {κ : Type} [Fintype κ] {n : ℕ} (D : Device κ n) (e : κ → ℂ) (L : Layers n n) (v v0 : ℕ) (draw : ℕ → Draw n)
    (ys : List (Basis (Fin n))) : ℝ :=
  match generateCircuits L v v0 draw with
  | some cs => runProb D e (cs.map (·.1)) ys
  | none => 0

/-- Probability that a run with `v` traps is accepted and the string `s` is recorded for the target: average over the position of the
target and all random numbers, sum over all outcomes. -/
noncomputable def accProb {κ : Type} [Fintype κ] {n : ℕ} (D : Device κ n) (e : κ → ℂ) (L : Layers n n) (v : ℕ) (s : Str) : ℝ :=
  (∑ v0 : Fin (v + 1), ∑ coins : Fin (v + 1) → Coins n L.two.length, ∑ ys : Fin (v + 1) → Basis (Fin n),
    if recorded L v v0 (drawOf coins) (List.ofFn ys) = some s then circProb D e L v v0 (drawOf coins) (List.ofFn ys) else 0) /
    (Fintype.card (Fin (v + 1)) * Fintype.card (Fin (v + 1) → Coins n L.two.length))

/-- The strings of `n` bits. -/
def strings (n : ℕ) : Finset Str := Finset.univ.image (str : Basis (Fin n) → Str)

/-- Probability that a run is accepted. -/
noncomputable def pAcc {κ : Type} [Fintype κ] {n : ℕ} (D : Device κ n) (e : κ → ℂ) (L : Layers n n) (v : ℕ) : ℝ :=
  ∑ s ∈ strings n, accProb D e L v s

end Verif.Accred
