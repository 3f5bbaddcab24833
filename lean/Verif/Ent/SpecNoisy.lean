import Verif.Ent.PropsAnalysis
import Verif.Ent.PropsOsc
/-
Specification for C130: GHZ circuits run on a device whose preparation, and whose disentangling, are imperfect.  Textbook
quantum mechanics, not code of the repository.
-/
namespace Verif.Ent
open Verif Verif.Quantum Complex

variable {n : ℕ}

/-- What an imperfect preparation leaves behind: a mixture, given as a list of (not normalised) state vectors.  Every density matrix
is of this form, and so is the result of any noise during the preparation. -/
abbrev Mixture (n : ℕ) := List (State (Fin n) ℂ)

/-- The density matrix of a mixture. -/
noncomputable def dens (e : Mixture n) (x y : Basis (Fin n)) : ℂ := (e.map fun ψ => ψ x * (starRingEnd ℂ) (ψ y)).sum

/-- The probability of reading `x`. -/
noncomputable def pop (e : Mixture n) (x : Basis (Fin n)) : ℝ := (e.map fun ψ => outcome ψ x).sum

/-- All qubits 0, all qubits 1. -/
def zeros (n : ℕ) : Basis (Fin n) := fun _ => false
def ones (n : ℕ) : Basis (Fin n) := fun _ => true

/-- (|0…0⟩ + e^{iφ} |1…1⟩)/√2. -/
noncomputable def ghzAt (n : ℕ) (φ : ℝ) : State (Fin n) ℂ := fun x =>
  if x = zeros n then rt else if x = ones n then rt * exp (φ * I) else 0

/-- The fidelity Σ |⟨GHZ_φ|ψ⟩|² of a mixture with that state. -/
noncomputable def fidelityAt (e : Mixture n) (φ : ℝ) : ℝ := (e.map fun ψ => normSq (Quantum.inner (ghzAt n φ) ψ)).sum

/-- `F` is the fidelity with the best GHZ state: reached for some relative phase and exceeded for none. -/
def BestFidelity (e : Mixture n) (F : ℝ) : Prop := IsGreatest {f | ∃ φ, f = fidelityAt e φ} F

/-- Run the rest of a circuit from a given state. -/
noncomputable def execFrom (n : ℕ) (circ : List (Instr ℝ)) (ψ : State (Fin n) ℂ) : Option (State (Fin n) ℂ × List (ℕ × ℕ)) :=
  circ.foldlM (execStep n) (ψ, [])

/-- The parity measured by the circuit `circ` whose first part `prep` left the mixture `e`. -/
def PoShows (e : Mixture n) (prep circ : List (Instr ℝ)) (y : ℝ) : Prop :=
  ∃ rest out, circ = prep ++ rest ∧ e.mapM (execFrom n rest) = some out ∧ (∀ o ∈ out, o.2 = measured n true) ∧
    y = (out.map fun o => parity o.1).sum

/-- A Kraus operator. -/
abbrev Kraus (n : ℕ) := Basis (Fin n) → Basis (Fin n) → ℂ

/-- A Kraus operator applied to a state. -/
noncomputable def Kraus.app (B : Kraus n) (ψ : State (Fin n) ℂ) : State (Fin n) ℂ := fun x => ∑ y, B x y * ψ y

/-- The probability of 0…0 measured by the circuit `circ`, which consists of `prep`, a middle part, the `inv` erse of `prep` and
the measurements; the preparation left the mixture `e` and the operators `Bs` strike before the inverse. -/
def MqcShows (e : Mixture n) (Bs : List (Kraus n)) (prep inv circ : List (Instr ℝ)) (y : ℝ) : Prop :=
  ∃ mid es out, circ = prep ++ mid ++ (inv ++ measurementCirc n true) ∧ e.mapM (runGates n mid) = some es ∧
    (es.flatMap fun ψ => Bs.map fun B => B.app ψ).mapM (execFrom n (inv ++ measurementCirc n true)) = some out ∧
    (∀ o ∈ out, o.2 = measured n true) ∧ y = (out.map fun o => outcome o.1 (zeros n)).sum

/-- The effect Σ B†|GHZ⟩⟨GHZ|B that the imperfect inverse, followed by reading 0…0, measures. -/
noncomputable def effect (Bs : List (Kraus n)) (x y : Basis (Fin n)) : ℂ :=
  (Bs.map fun B => (starRingEnd ℂ) (∑ z, ghz n z * B z x) * ∑ z, ghz n z * B z y).sum

/-- The other value on every qubit. -/
def flip (x : Basis (Fin n)) : Basis (Fin n) := fun q => !x q

/-- The inverse is as imperfect as the preparation: the state that it accepts is the one that was prepared, with every qubit flipped. -/
def Mirrors (e : Mixture n) (Bs : List (Kraus n)) : Prop := ∀ x y, effect Bs (flip x) (flip y) = dens e x y

/-- The Kraus operator √w · Z^a X^b. -/
noncomputable def pauliKraus (w : ℝ) (a b : Basis (Fin n)) : Kraus n := fun x y => if y = bxor x b then Real.sqrt w * sgn a x else 0

end Verif.Ent
