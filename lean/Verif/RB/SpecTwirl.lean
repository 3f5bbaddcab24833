import Verif.RB.SpecNoise
import Mathlib.LinearAlgebra.Matrix.ConjTranspose
import Mathlib.LinearAlgebra.Matrix.Trace
/-
Specification side of randomized benchmarking with arbitrary noise: quantum channels on a subset of a register, the expected value over
independent random elements, fidelities of channels, the Clifford group.  Not code of the repository.
-/
namespace Verif.RB
open Verif.Quantum Matrix

/-- An operator on `n` qubits. -/
abbrev Op (n : ℕ) := Matrix (Basis (Fin n)) (Basis (Fin n)) ℂ

/-- The operators `Ks` are the Kraus operators of a channel: no probability is lost. -/
def IsChannel {n : ℕ} (Ks : List (Op n)) : Prop := (Ks.map fun K => Kᴴ * K).sum = 1

/-- Bit of qubit `q` (`false` outside the register). -/
def bitOf {N : ℕ} (y : Basis (Fin N)) (q : ℕ) : Bool := if h : q < N then y ⟨q, h⟩ else false

/-- The assignment `y` with the bits of the qubits `qs` replaced by `x` (qubit `qs[j]` gets bit `j`). -/
def putBits {N : ℕ} (qs : List ℕ) (x : Basis (Fin qs.length)) (y : Basis (Fin N)) : Basis (Fin N) :=
  fun q => if h : q.val ∈ qs then x ⟨qs.idxOf q.val, List.idxOf_lt_length_of_mem h⟩ else y q

/-- The operator `K` applied to the qubits `qs` of an `N`-qubit register. -/
noncomputable def applyOn (N : ℕ) (qs : List ℕ) (K : Op qs.length) (ψ : State (Fin N) ℂ) : State (Fin N) ℂ :=
  fun y => ∑ x, K (fun j => bitOf y qs[j]) x * ψ (putBits qs x y)

/-- A channel, given by operators on the whole register, applied to a mixed state: every state branches, a branch `K ψ` is not normalised
and has probability `‖K ψ‖²`. -/
def branch {N : ℕ} (Ks : List (State (Fin N) ℂ → State (Fin N) ℂ)) (e : Ens N) : Ens N :=
  e.flatMap fun s => Ks.map fun K => (s.1, K s.2)

/-- An event `(qs, c, Ks)`: the circuit `c` on the qubits `qs`, followed by the noise `Ks`. -/
abbrev KEvent (N : ℕ) := List ℕ × List Ins × List (State (Fin N) ℂ → State (Fin N) ℂ)

/-- Events one after the other. -/
noncomputable def noisyK {N : ℕ} : List (KEvent N) → Ens N → Ens N
  | [], e => e
  | ev :: l, e => noisyK l (branch ev.2.2 (e.map fun s => (s.1, run N ev.2.1 s.2)))

/-- The events on the subset `pat` are the circuits and noise operators `l`, in this order; all the other events are circuits on other
subsets, each followed by any channel on that subset, in any order. -/
def RunsK (N : ℕ) (pats : List (List ℕ)) (pat : List ℕ) (l : List (List Ins × List (Op pat.length))) (evs : List (KEvent N)) : Prop :=
  (evs.filter fun ev => ev.1 = pat).map (·.2) = l.map (fun cK => (cK.1, cK.2.map (applyOn N pat))) ∧
    ∀ ev ∈ evs, ev.1 ≠ pat → ev.1 ∈ pats ∧ GatesOn N ev.1 ev.2.1 ∧ ∃ Ks : List (Op ev.1.length), IsChannel Ks ∧ ev.2.2 = Ks.map (applyOn N ev.1)

/-- Probability that the qubits `pat`, starting from `e`, read all zeros after the circuits and noise operators `l`. -/
noncomputable def survival {N : ℕ} (pat : List ℕ) (l : List (List Ins × List (Op pat.length))) (e : Ens N) : ℝ :=
  outcome pat (fun _ => false) (noisyK (l.map fun cK => (pat, cK.1, cK.2.map (applyOn N pat))) e)

/-- The circuits of the sequence of elements `gs` on the qubits `pat`, and the circuit of the inverse of their product. -/
def seqOn {E : Type} (G : Group E) (pat : List ℕ) (gs : List E) : Option (List (List Ins) × List Ins) := do
  let e0 ← G.iden pat.length
  let e ← prodFrom G e0 gs
  let blocks ← gs.mapM (embed G pat)
  let inv ← G.inverse e
  let inv ← replaceQ inv pat
  return (blocks, inv)

/-- Expected value of `F gs` when `gs` are `m` elements drawn independently and uniformly from `els`. -/
noncomputable def expect {E : Type} (els : Finset E) : ℕ → (List E → ℝ) → ℝ
  | 0, F => F []
  | m + 1, F => (∑ g ∈ els, expect els m fun l => F (g :: l)) / els.card

/-- Success probability of an RB sequence with the elements `gs`: noise `Ks` after each of them, noise `Js` after the inverse.  `pre` and
`post` are further circuits and noise before and after the sequence. -/
noncomputable def success {E : Type} {N : ℕ} (G : Group E) (pat : List ℕ) (pre : List (List Ins × List (Op pat.length))) (Ks Js : List (Op pat.length))
    (post : List (List Ins × List (Op pat.length))) (e : Ens N) (gs : List E) : ℝ :=
  ((seqOn G pat gs).map fun bi => survival pat (pre ++ bi.1.map (fun b => (b, Ks)) ++ (bi.2, Js) :: post) e).getD 0

/-- Noise `Ks` after every first, noise `Rs` after every second circuit of a list. -/
def alternate {n : ℕ} (Ks Rs : List (Op n)) : List (List Ins) → List (List Ins × List (Op n))
  | [] => []
  | [b] => [(b, Ks)]
  | b :: g :: l => (b, Ks) :: (g, Rs) :: alternate Ks Rs l

/-- Success probability of an interleaved RB sequence: every random element (noise `Ks`) is followed by the element `g` (noise `Rs`). -/
noncomputable def successI {E : Type} {N : ℕ} (G : Group E) (pat : List ℕ) (g : E) (pre : List (List Ins × List (Op pat.length)))
    (Ks Rs Js : List (Op pat.length)) (post : List (List Ins × List (Op pat.length))) (e : Ens N) (gs : List E) : ℝ :=
  ((seqOn G pat (gs.flatMap fun g' => [g', g])).map fun bi => survival pat (pre ++ alternate Ks Rs bi.1 ++ (bi.2, Js) :: post) e).getD 0

/-- The matrix of a circuit on `n` qubits. -/
noncomputable def opMat (n : ℕ) (c : List Ins) : Op n := fun y x => run n c (ket x) y

/-- The noise of a random element and of the interleaved gate `U` together, as seen after the gate: `R (U K U†)`. -/
noncomputable def composite {n : ℕ} (U : Op n) (Ks Rs : List (Op n)) : List (Op n) := Rs.flatMap fun R => Ks.map fun K => R * (U * K * Uᴴ)

/-- Process (entanglement) fidelity of a channel on `n` qubits with the identity: `∑ |tr K|² / d²`, `d = 2^n`. -/
noncomputable def processFidelity {n : ℕ} (Ks : List (Op n)) : ℝ := (Ks.map fun K => Complex.normSq K.trace).sum / (2 ^ n) ^ 2

/-- Average gate fidelity of a channel with the identity: `(d F + 1) / (d + 1)`. -/
noncomputable def avgFidelity {n : ℕ} (Ks : List (Op n)) : ℝ := (2 ^ n * processFidelity Ks + 1) / (2 ^ n + 1)

/-- Mean probability, over the basis states, that a basis state is read unchanged after the channel: `∑_K ∑_y |K_yy|² / d`. -/
noncomputable def population {n : ℕ} (Ks : List (Op n)) : ℝ := (Ks.map fun K => ∑ y, Complex.normSq (K y y)).sum / 2 ^ n

/-- Decay parameter of a channel twirled over the Clifford group: `(d² F - 1) / (d² - 1)`. -/
noncomputable def decay {n : ℕ} (Ks : List (Op n)) : ℝ := ((2 ^ n) ^ 2 * processFidelity Ks - 1) / ((2 ^ n) ^ 2 - 1)

/-- Decay parameter of the populations of a channel twirled over the CNOT-dihedral group: `(d P - 1) / (d - 1)`. -/
noncomputable def decayZ {n : ℕ} (Ks : List (Op n)) : ℝ := (2 ^ n * population Ks - 1) / (2 ^ n - 1)

/-- Decay parameter of the coherences of a channel twirled over the CNOT-dihedral group: `(d² F - d P) / (d² - d)`. -/
noncomputable def decayR {n : ℕ} (Ks : List (Op n)) : ℝ := ((2 ^ n) ^ 2 * processFidelity Ks - 2 ^ n * population Ks) / ((2 ^ n) ^ 2 - 2 ^ n)

/-- Fidelity of the output of a channel with the pure input `ψ`: `∑ |⟨ψ|K ψ⟩|²`. -/
noncomputable def stateFidelity {n : ℕ} (Ks : List (Op n)) (ψ : State (Fin n) ℂ) : ℝ :=
  (Ks.map fun K => Complex.normSq (∑ x, (starRingEnd ℂ) (ψ x) * K.mulVec ψ x)).sum

/-- A Clifford circuit on `n` qubits: gates H, S and CX. -/
def HSC (n : ℕ) (c : List Ins) : Prop :=
  ∀ i ∈ c, Ok n i ∧ ((∃ q, i = .gate .h [q]) ∨ (∃ q, i = .gate .s [q]) ∨ ∃ a b, i = .gate .cx [a, b])

/-- `els` is the `n`-qubit Clifford group: the circuits of its elements are Clifford circuits up to a phase, and every Clifford circuit is
the circuit of exactly one element up to a phase. -/
structure IsClifford {E : Type} (G : Group E) (n : ℕ) (els : Finset E) : Prop where
  sound : ∀ e ∈ els, ∀ c, G.toCircuit e = some c → ∃ d, HSC n d ∧ Same n c d
  complete : ∀ d, HSC n d → ∃ e ∈ els, ∀ c, G.toCircuit e = some c → Same n c d
  distinct : ∀ e ∈ els, ∀ e' ∈ els, ∀ c c', G.toCircuit e = some c → G.toCircuit e' = some c' → Same n c c' → e = e'

end Verif.RB
