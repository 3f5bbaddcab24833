import Verif.QV.Spec
import Mathlib.Data.Fintype.BigOperators
/-
Specification of a quantum volume experiment: random circuits, run on a noisy device.
-/
namespace Verif.QV
open Verif Verif.Counts

/-- A probability distribution on a finite set. -/
def IsDist {α : Type} [Fintype α] (p : α → ℝ) : Prop := (∀ x, 0 ≤ p x) ∧ ∑ x, p x = 1

/-- Outcome `b` of a circuit of `d` qubits with these ideal amplitudes is heavy: its probability is above the median. -/
def IsHeavy (d : ℕ) (amps : List ℂ) (b : ℕ) : Prop :=
  ∃ m, IsMedian ((List.range (2 ^ d)).map fun b => Complex.normSq (amps.getD b 0)) m ∧ Complex.normSq (amps.getD b 0) > m

/-- One trial: the circuit that was drawn and the outcomes of its `N` shots. -/
abbrev Trial (Γ : Type) (d N : ℕ) := Γ × (Fin N → Fin (2 ^ d))

/-- The probability of a trial, if circuit `γ` is drawn with probability `μ γ` and the device then gives outcome `b` with probability `D γ b`. -/
def trialProb {Γ : Type} {d N : ℕ} (μ : Γ → ℝ) (D : Γ → Fin (2 ^ d) → ℝ) (x : Trial Γ d N) : ℝ := μ x.1 * ∏ k, D x.1 (x.2 k)

/-- The probability of `n` independent trials. -/
def expProb {Γ : Type} {n d N : ℕ} (μ : Γ → ℝ) (D : Γ → Fin (2 ^ d) → ℝ) (ω : Fin n → Trial Γ d N) : ℝ := ∏ t, trialProb μ D (ω t)

open Classical in
/-- The heavy output probability of the device: the probability that a random circuit gives one of its heavy outcomes. -/
noncomputable def heavyProb {Γ : Type} [Fintype Γ] {d : ℕ} (μ : Γ → ℝ) (amps : Γ → List ℂ) (D : Γ → Fin (2 ^ d) → ℝ) : ℝ :=
  ∑ γ, μ γ * ∑ b : Fin (2 ^ d), if IsHeavy d (amps γ) b then D γ b else 0

open Classical in
/-- The shots of a trial that gave a heavy outcome of the circuit drawn. -/
noncomputable def heavyShots {Γ : Type} {d N : ℕ} (amps : Γ → List ℂ) (x : Trial Γ d N) : ℕ :=
  (Finset.univ.filter fun k => IsHeavy d (amps x.1) (x.2 k)).card

/-- The share of heavy shots among all shots. -/
noncomputable def heavyShare {Γ : Type} {n d N : ℕ} (amps : Γ → List ℂ) (ω : Fin n → Trial Γ d N) : ℝ := (∑ t, (heavyShots amps (ω t) : ℝ)) / (n * N)

/-- The value the share of heavy shots has to exceed for `n` trials. -/
noncomputable def threshold (n : ℕ) : ℝ := 2 / 3 + 4 / (3 * (1 + Real.sqrt (2 * n + 9)))

/-- How often the circuit `name` gave `s` in the results. -/
def countIn (rs : List Res) (name s : Str) : ℤ :=
  (rs.map fun r => match r.get? name with
    | some c => c.getD s 0
    | none => 0).sum

open Classical in
/-- The fitter object after the trials `ω` have been handed over, in any calls: the qubit list number `i` has `d` qubits; the ideal result of
its circuit of trial `t` are the amplitudes of the circuit drawn in that trial; the counts of the outcomes are those of the shots. -/
structure Fitted {Γ : Type} {n d N : ℕ} (ql : List (List ℕ)) (i : ℕ) (amps : Γ → List ℂ) (ω : Fin n → Trial Γ d N) (cs : List Call) (new : List Res)
    (st : St) : Prop where
  width : ∃ q, ql[i]? = some q ∧ q.length = d
  calls : run (init ql) (cs ++ [.data (some new) true]) = some st
  good : ∀ r ∈ added cs ++ new, GoodRes r
  ideal : ∀ r ∈ addedIdeal cs, ∀ (t : Fin n) (a : List ℂ), r.get? (circName d t) = some a → a = amps (ω t).1
  trials : ∀ r ∈ added cs ++ new, ∀ e ∈ r, ∀ t : ℤ, trialOfName e.1 = some t → t < n
  keys : ∀ r ∈ added cs ++ new, ∀ (t : Fin n) (c : Counts), r.get? (circName d t) = some c → ∀ kv ∈ c, IsBits kv.1 ∧ kv.1.length = d
  tally : ∀ (t : Fin n) (s : Str), IsBits s → s.length = d →
    countIn (added cs ++ new) (circName d t) s = ((Finset.univ.filter fun k => ((ω t).2 k : ℕ) = ofBin s).card : ℤ)

end Verif.QV
