import Verif.RB.Spec
import Mathlib.Data.Fintype.BigOperators
import Mathlib.Data.Finset.Prod
/-
Specification side of the decay curves: a device with depolarising noise.  Not code of the repository.
-/
namespace Verif.RB
open Verif.Quantum

/-- A mixed state of `N` qubits: states with their probabilities. -/
abbrev Ens (N : ℕ) := List (ℝ × State (Fin N) ℂ)

/-- The pairs `(a, b)` of assignments that are 0 outside the qubits `qs`: `pauli a b = Z^a X^b` runs through the `4^|qs|` Pauli
operators on `qs`. -/
noncomputable def paulisOn (N : ℕ) (qs : List ℕ) : Finset (Basis (Fin N) × Basis (Fin N)) :=
  open Classical in Finset.univ.filter fun ab => ∀ q : Fin N, q.val ∉ qs → ab.1 q = false ∧ ab.2 q = false

/-- Depolarising noise of strength `1 - p` on the qubits `qs`: with probability `p` nothing happens, otherwise a random Pauli operator on
`qs` is applied. -/
noncomputable def depolarize {N : ℕ} (qs : List ℕ) (p : ℝ) (e : Ens N) : Ens N :=
  e.flatMap fun s => (p * s.1, s.2) :: (paulisOn N qs).toList.map fun ab => ((1 - p) / 4 ^ qs.length * s.1, pauli ab.1 ab.2 s.2)

/-- An event `(qs, c, p)` on a noisy device: the circuit `c` followed by depolarising noise on the qubits `qs`, nothing happening with
probability `p`. -/
abbrev Event := List ℕ × List Ins × ℝ

/-- Events one after the other. -/
noncomputable def noisy {N : ℕ} : List Event → Ens N → Ens N
  | [], e => e
  | ev :: l, e => noisy l (depolarize ev.1 ev.2.2 (e.map fun s => (s.1, run N ev.2.1 s.2)))

/-- A circuit of gates on the qubits `qs` of an `N`-qubit register. -/
def GatesOn (N : ℕ) (qs : List ℕ) (c : List Ins) : Prop := ∀ j ∈ c, Ok N j ∧ ∃ k l, j = .gate k l ∧ ∀ q ∈ l, q ∈ qs

/-- The events on the subset `pat` are `l`, in this order; all the other events are circuits on other subsets, noise included, in any
order and with any strength. -/
def Runs (N : ℕ) (pats : List (List ℕ)) (pat : List ℕ) (l : List (List Ins × ℝ)) (evs : List Event) : Prop :=
  (evs.filter fun ev => ev.1 = pat).map (·.2) = l ∧ ∀ ev ∈ evs, ev.1 ≠ pat → ev.1 ∈ pats ∧ GatesOn N ev.1 ev.2.1

/-- Probability of reading `x` when the qubits `qs` are measured (qubit `qs[j]` gives bit `j`). -/
noncomputable def outcome {N : ℕ} (qs : List ℕ) (x : Fin qs.length → Bool) (e : Ens N) : ℝ :=
  open Classical in (e.map fun s => s.1 * ∑ y with ∀ (q : Fin N) (j : Fin qs.length), q.val = qs[j] → y q = x j, prob s.2 y).sum

/-- The state |0…0⟩ with certainty. -/
noncomputable def start (N : ℕ) : Ens N := [(1, ket0)]

/-- Fidelity of a mixed state with the pure state `ψ`. -/
noncomputable def fidelity {N : ℕ} (ψ : State (Fin N) ℂ) (e : Ens N) : ℝ :=
  (e.map fun s => s.1 * Complex.normSq (∑ x, (starRingEnd ℂ) (ψ x) * s.2 x)).sum

/-- The sequence lengths returned, one list per subset. -/
def Ret.lengths : Ret → List (List ℤ)
  | .purity _ x _ | .dihInter _ x _ _ _ | .inter _ x _ | .dih _ x _ | .std _ x => x

/-- The plain RB circuits returned, by seed and length. -/
def Ret.plain : Ret → List (List Circ)
  | .purity _ _ _ => []
  | .dihInter cs _ _ _ _ | .inter cs _ _ | .dih cs _ _ | .std cs _ => cs

/-- The circuits returned that start and end in the X basis. -/
def Ret.xbasis : Ret → List (List Circ)
  | .dihInter _ _ xs _ _ | .dih _ _ xs => xs
  | _ => []

/-- The interleaved circuits returned. -/
def Ret.inters : Ret → List (List Circ)
  | .dihInter _ _ _ is _ | .inter _ _ is => is
  | _ => []

/-- The interleaved circuits returned that start and end in the X basis. -/
def Ret.xinters : Ret → List (List Circ)
  | .dihInter _ _ _ _ xis => xis
  | _ => []

/-- The purity circuits returned, by seed, number of the rotation and length. -/
def Ret.purities : Ret → List (List (List Circ))
  | .purity cs _ _ => cs
  | _ => []

end Verif.RB
