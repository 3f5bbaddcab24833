import Verif.Dihedral.Model
import Verif.Quantum.Gates
import Mathlib.Analysis.SpecialFunctions.Complex.CircleAddChar
/-
Specification side of the CNOT-dihedral properties: what a phase polynomial is worth at a point and
which operator an element or a circuit stands for.
-/
namespace Verif.Dihedral
open Verif.Quantum

/-- Increasing index tuples in range, of length at most 3. -/
def Valid (n : ℕ) (t : List ℕ) : Prop := t.Pairwise (· < ·) ∧ (∀ i ∈ t, i < n) ∧ t.length ≤ 3

/-- The shape of the tables. -/
def WF {n : ℕ} (p : Poly n) : Prop := p.w1.length = n ∧ p.w2.length = nc2 n ∧ p.w3.length = nc3 n

/-- `list(set(a).union(set(b)))` lists the union without repetition, in some order. -/
def IsSetOrder (so : SetOrder) : Prop :=
  ∀ a b : List ℕ, a.Pairwise (· < ·) → a.length ≤ 3 → b.Pairwise (· < ·) → b.length ≤ 3 →
    (so a b).Nodup ∧ ∀ i, i ∈ so a b ↔ i ∈ a ∨ i ∈ b

/-- ... in ascending order, as long as the elements are below `n`. -/
def AscendingBelow (so : SetOrder) (n : ℕ) : Prop :=
  ∀ a b : List ℕ, Valid n a → Valid n b → (so a b).Pairwise (· < ·)

/-- The sets of at most three of the `n` variables. -/
def Terms (n : ℕ) : Finset (Finset ℕ) := (Finset.range n).powerset.filter fun S => S.card ≤ 3

/-- The coefficient of `∏_{i ∈ S} x_i`, as `get_term` reports it for the increasing list of `S`. -/
def coef {n : ℕ} (p : Poly n) (S : Finset ℕ) : ZMod 8 := (((getTerm p S.sort).getD 0 : ℤ) : ZMod 8)

/-- The monomial `∏_{i ∈ S} x_i` at a 0/1 point. -/
def mono (x : ℕ → Bool) (S : Finset ℕ) : ZMod 8 := if ∀ i ∈ S, x i = true then 1 else 0

/-- Value of a phase polynomial at a 0/1 point. -/
def value {n : ℕ} (p : Poly n) (x : ℕ → Bool) : ZMod 8 := ∑ S ∈ Terms n, coef p S * mono x S

/-- A bit assignment of `n` qubits as a point. -/
def ext {n : ℕ} (x : Fin n → Bool) (i : ℕ) : Bool := if h : i < n then x ⟨i, h⟩ else false

/-- 0/1 value of a bit. -/
def bit (b : Bool) : ℤ := if b then 1 else 0

/-- The affine map `x ↦ Bx + c` over bits. -/
def aff {n : ℕ} (e : Elem n) (x : Fin n → Bool) : Fin n → Bool :=
  fun i => decide ((∑ j, e.linear i j * bit (x j) + e.shift i) % 2 = 1)

/-- `ω = exp(iπ/4)`. -/
noncomputable def ω : ℂ := Complex.exp (Real.pi * Complex.I / 4)

/-- Image of the basis state `|x⟩` under the operator an element stands for:
`|x⟩ ↦ ω^{p(x)} |Bx + c⟩` (docstring of dihedral.py). -/
noncomputable def img {n : ℕ} (e : Elem n) (x : Fin n → Bool) : State (Fin n) ℂ :=
  fun y => ω ^ (value e.poly (ext x)).val * ket (aff e x) y

/-- The operator an element stands for, on an arbitrary state: the linear extension of `img`. -/
noncomputable def opApply {n : ℕ} (e : Elem n) (ψ : State (Fin n) ℂ) : State (Fin n) ℂ :=
  fun y => ∑ x, ψ x * img e x y

/-- `T^k = diag(1, ω^k)`. -/
noncomputable def mTpow (k : ℤ) : Mat2 ℂ := fun r c => if r = c then (if r then ω ^ k else 1) else 0

/-- Pauli Y. -/
noncomputable def mY : Mat2 ℂ := fun r c => if r = c then 0 else (if r then Complex.I else -Complex.I)

/-- Gates of the CNOT-dihedral group on existing, distinct qubits. -/
def GateOk (n : ℕ) : Gate → Prop
  | .x q | .z q | .y q | .u1 _ q | .id q => q < n
  | .cx a b | .cz a b => (a < n ∧ b < n) ∧ a ≠ b
  | .other _ => False

/-- Effect of a gate of a circuit on a state; `none` if it is not a CNOT-dihedral gate on `n` qubits. -/
noncomputable def applyGate {n : ℕ} : Gate → State (Fin n) ℂ → Option (State (Fin n) ℂ)
  | .x q, ψ => if h : q < n then some (app1 mX ⟨q, h⟩ ψ) else none
  | .z q, ψ => if h : q < n then some (app1 mZ ⟨q, h⟩ ψ) else none
  | .y q, ψ => if h : q < n then some (app1 mY ⟨q, h⟩ ψ) else none
  | .u1 k q, ψ => if h : q < n then some (app1 (mTpow k) ⟨q, h⟩ ψ) else none
  | .cx c t, ψ => if h : (c < n ∧ t < n) ∧ c ≠ t then some (appCX ⟨c, h.1.1⟩ ⟨t, h.1.2⟩ ψ) else none
  | .cz a b, ψ => if h : (a < n ∧ b < n) ∧ a ≠ b then some (appCZ ⟨a, h.1.1⟩ ⟨b, h.1.2⟩ ψ) else none
  | .id q, ψ => if q < n then some ψ else none
  | .other _, _ => none

/-- Effect of a circuit. -/
noncomputable def applyCircuit {n : ℕ} (c : List Gate) (ψ : State (Fin n) ℂ) :
    Option (State (Fin n) ℂ) := c.foldlM (fun ψ g => applyGate g ψ) ψ

/-- Two operators, given by the images of the basis states, agree up to one global phase. -/
def SameOp {n : ℕ} (f g : (Fin n → Bool) → State (Fin n) ℂ) : Prop :=
  ∃ z : ℂ, ‖z‖ = 1 ∧ ∀ x, f x = fun y => z * g x y

end Verif.Dihedral
