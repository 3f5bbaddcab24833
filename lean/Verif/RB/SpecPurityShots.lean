import Verif.RB.PropsUnitarity
import Verif.Expval.SpecShots
/-
Specification side of C127: purities computed from finitely many shots.
-/
namespace Verif.RB
open Verif Verif.Counts Verif.Expval

variable {O : Type} [Fintype O] {N : ℕ}

/-- `ω` lists the `N` shots of a circuit: in the results, every string is recorded for the circuit as often as it was read in the shots. -/
def ShotsOf (rs : List Fit.Result) (name : Str) (out : O → Str) (ω : Fin N → O) : Prop :=
  ∀ s, (((Fit.records rs name).filter fun kv => kv.1 = s).map (·.2)).sum = ((Finset.univ.filter fun k => out (ω k) = s).card : ℤ)

/-- The purity circuits measure the `m` qubits at the bits `lo, …, lo+m-1` in a state in which the Pauli string `c` has the expectation value `x c`:
in every circuit the correlator of every set of qubits is the expectation value of its Pauli string.  `w d` is the distribution of the outcomes of circuit
`d`, and `out o` the string that is read for the outcome `o`. -/
structure Measures (w : ℕ → O → ℝ) (out : O → Str) (lo m : ℕ) (x : ℕ → ℝ) : Prop where
  distr : ∀ d < 3 ^ m, IsDistr (w d)
  expect : ∀ d < 3 ^ m, ∀ ind < 2 ^ m, ∀ c < 4 ^ m, Fit.IsCorr m ind d c → ∑ o, w d o * (Fit.signOn lo m ind (out o) : ℝ) = x c

/-- The purity of a state with the expectation values `x` of the Pauli strings. -/
noncomputable def statePurity (m : ℕ) (x : ℕ → ℝ) : ℝ := (∑ c ∈ Finset.range (4 ^ m), x c ^ 2) / 2 ^ m

/-- Number of qubits on which the Pauli string `c` is the identity. -/
def idle (m c : ℕ) : ℕ := ((Finset.range m).filter fun i => c / 4 ^ i % 4 = 0).card

/-- Probability of the outcomes of `N` independent shots of each of the `3^m` circuits. -/
noncomputable def runProb (m : ℕ) (w : ℕ → O → ℝ) (ω : Fin (3 ^ m) → Fin N → O) : ℝ := ∏ d : Fin (3 ^ m), shotsProb (w d) (ω d)

/-- By how much the average of the computed purity exceeds the purity. -/
noncomputable def excess (m N : ℕ) (x : ℕ → ℝ) : ℝ := (∑ c ∈ Finset.range (4 ^ m), (1 - x c ^ 2) / (N * 3 ^ idle m c)) / 2 ^ m

open Classical in
/-- The numbers `est` computed from the shots are on average too large by the excess, which is not negative and at most `(5/3)^m / N`; they are rarely
far from the purity. -/
structure PurityAccurate (m : ℕ) (w : ℕ → O → ℝ) (x : ℕ → ℝ) (est : (Fin (3 ^ m) → Fin N → O) → ℝ) : Prop where
  mean : ∑ ω, runProb m w ω * est ω = statePurity m x + excess m N x
  nonneg : 0 ≤ excess m N x
  small : excess m N x ≤ (5 / 3) ^ m / N
  far : ∀ ε > 0, (∑ ω, if ε ≤ |est ω - statePurity m x| then runProb m w ω else 0) ≤ 4 * (10 / 3) ^ m / (N * ε ^ 2)

end Verif.RB
