import Verif.Ent.PropsNoisy
import Verif.Expval.SpecShots
/-
Specification for C131: GHZ fidelities computed from finitely many shots.
-/
namespace Verif.Ent
open Verif Verif.Quantum Complex Verif.Expval

variable {n : ℕ}

/-- The string read for an outcome: the last qubit comes first. -/
def read (x : Basis (Fin n)) : Str := (List.ofFn x).reverse.map fun b => if b then '1' else '0'

/-- The counts of the shots `ω`: every string is recorded as often as it was read. -/
def CountsOf {S : ℕ} (counts : Dict Str ℝ) (ω : Fin S → Basis (Fin n)) : Prop :=
  Dict.WF counts ∧ ∀ s, counts.getD s 0 = ((Finset.univ.filter fun j => read (ω j) = s).card : ℝ)

/-- `w` is the law of the outcomes of the circuit `circ` whose first part `prep` left the mixture `e`. -/
def PoLaw (e : Mixture n) (prep circ : List (Instr ℝ)) (w : Basis (Fin n) → ℝ) : Prop :=
  IsDistr w ∧ ∃ rest out, circ = prep ++ rest ∧ e.mapM (execFrom n rest) = some out ∧ (∀ o ∈ out, o.2 = measured n true) ∧
    ∀ x, w x = (out.map fun o => outcome o.1 x).sum

/-- `w` is the law of the outcomes of an MQC circuit whose preparation left the mixture `e`, with the operators `Bs` before the inverse. -/
def MqcLaw (e : Mixture n) (Bs : List (Kraus n)) (prep inv circ : List (Instr ℝ)) (w : Basis (Fin n) → ℝ) : Prop :=
  IsDistr w ∧ ∃ mid es out, circ = prep ++ mid ++ (inv ++ measurementCirc n true) ∧ e.mapM (runGates n mid) = some es ∧
    (es.flatMap fun ψ => Bs.map fun B => B.app ψ).mapM (execFrom n (inv ++ measurementCirc n true)) = some out ∧
    (∀ o ∈ out, o.2 = measured n true) ∧ ∀ x, w x = (out.map fun o => outcome o.1 x).sum

/-- The operators form a channel. -/
def TracePreserving (Bs : List (Kraus n)) : Prop := ∀ x y, (Bs.map fun B => ∑ z, (starRingEnd ℂ) (B z x) * B z y).sum = if x = y then 1 else 0

/-- The probability of the outcomes of `S` shots of each of the `N` circuits, with the laws `w k`, and of `S₀` shots of the preparation circuit,
with the law `w₀`. -/
noncomputable def ghzProb {N S S₀ : ℕ} (w : Fin N → Basis (Fin n) → ℝ) (w₀ : Basis (Fin n) → ℝ)
    (ω : (Fin N → Fin S → Basis (Fin n)) × (Fin S₀ → Basis (Fin n))) : ℝ := (∏ k, shotsProb (w k) (ω.1 k)) * shotsProb w₀ ω.2

/-- `F` is the raw fidelity reported from the parities of the counts of the `N` circuits (divided by the number of shots) and the shares of 0…0 and
1…1 in the counts of the preparation circuit. -/
def PoReports {N S S₀ : ℕ} (ω : (Fin N → Fin S → Basis (Fin n)) × (Fin S₀ → Basis (Fin n))) (F : ℝ) : Prop :=
  ∀ (counts : ℕ → Dict Str ℝ) (counts₀ : Dict Str ℝ), (∀ k : Fin N, CountsOf (counts k) (ω.1 k)) → CountsOf counts₀ ω.2 →
    ∃ z : ℕ → ℝ, (∀ k < N, zExpvalue (counts k) n = some (z k)) ∧
      ∀ (ym : ℕ → ℂ) (p : Pops), p.P0 = counts₀.getD (read (zeros n)) 0 / S₀ → p.P1 = counts₀.getD (read (ones n)) 0 / S₀ →
        ∃ Fm, infoPo N n (fun k => ((z k / S : ℝ) : ℂ)) ym p = some (F, Fm)

/-- `F` is the raw fidelity reported from the shares of 0…0 in the counts of the `N` circuits and the populations as above. -/
def MqcReports {N S S₀ : ℕ} (ω : (Fin N → Fin S → Basis (Fin n)) × (Fin S₀ → Basis (Fin n))) (F : ℝ) : Prop :=
  ∀ (counts : ℕ → Dict Str ℝ) (counts₀ : Dict Str ℝ), (∀ k : Fin N, CountsOf (counts k) (ω.1 k)) → CountsOf counts₀ ω.2 →
    ∀ (ym : ℕ → ℂ) (p : Pops), p.P0m = counts₀.getD (read (zeros n)) 0 / S₀ → p.P1m = counts₀.getD (read (ones n)) 0 / S₀ →
      ∃ info, infoMqc N n (fun k => (((counts k).getD (read (zeros n)) 0 / S : ℝ) : ℂ)) ym p = some info ∧ info.F = F

open Classical in
/-- The parity oscillation fidelities `est` computed from the shots: on average not smaller than the best fidelity of the state and larger by at most
1/√(N S); rarely far from it. -/
structure PoAccurate {N S S₀ : ℕ} (e : Mixture n) (w : Fin N → Basis (Fin n) → ℝ) (w₀ : Basis (Fin n) → ℝ)
    (est : (Fin N → Fin S → Basis (Fin n)) × (Fin S₀ → Basis (Fin n)) → ℝ) (F : ℝ) : Prop where
  best : BestFidelity e F
  low : F ≤ ∑ ω, ghzProb w w₀ ω * est ω
  high : ∑ ω, ghzProb w w₀ ω * est ω ≤ F + 1 / Real.sqrt (N * S)
  far : ∀ ε > 0, (∑ ω, if ε ≤ |est ω - F| then ghzProb w w₀ ω else 0) ≤ 4 / (N * S * ε ^ 2) + 1 / (4 * S₀ * ε ^ 2)

open Classical in
/-- The coherence fidelities `est` computed from the shots are rarely far from the best fidelity of the state. -/
structure MqcAccurate {N S S₀ : ℕ} (e : Mixture n) (w : Fin N → Basis (Fin n) → ℝ) (w₀ : Basis (Fin n) → ℝ)
    (est : (Fin N → Fin S → Basis (Fin n)) × (Fin S₀ → Basis (Fin n)) → ℝ) (F : ℝ) : Prop where
  best : BestFidelity e F
  far : ∀ ε > 0, (∑ ω, if ε ≤ |est ω - F| then ghzProb w w₀ ω else 0) ≤ 4 / (N * S * ε ^ 4) + 1 / (4 * S₀ * ε ^ 2)

end Verif.Ent
