import Verif.MeasMit.LeastSquares
import Verif.MeasMit.Spec
/-
Specification side of the `least_squares` method: what the solver is assumed to do and what the best physical counts are.
-/
namespace Verif.MeasMit
open Verif

/-- The point satisfies the constraint and the bounds. -/
def Problem.Feasible (P : Problem) (x : Nat → ℝ) : Prop := P.eq x = 0 ∧ ∀ i b, P.bounds[i]? = some b → b.1 ≤ x i ∧ x i ≤ b.2

/-- The point is feasible and its objective is at most `ε` above that of any feasible point. -/
def Problem.Near (P : Problem) (ε : ℝ) (x : Nat → ℝ) : Prop :=
  P.Feasible x ∧ ∃ a, P.obj x = some a ∧ ∀ y b, P.Feasible y → P.obj y = some b → a ≤ b + ε

/-- The solver finds, for every problem that has an optimal point, one that is optimal up to `ε`. -/
def Solves (solve : Solver) (ε : ℝ) : Prop := ∀ P : Problem, (∃ x, P.Near 0 x) → ∃ x, solve P = some x ∧ P.Near ε x

section
variable {α : Type}

/-- The counts that noise `A` (`A s t`: probability of reading `s` when `t` is prepared) makes of the counts `p`, at state `s`. -/
noncomputable def noisyCounts (states : List α) (A : α → α → ℝ) (p : α → ℝ) (s : α) : ℝ := (states.map fun t => A s t * p t).sum

/-- Squared distance of two vectors of counts. -/
noncomputable def dist2 (states : List α) (p q : α → ℝ) : ℝ := (states.map fun s => (p s - q s) ^ 2).sum

/-- Non-negative counts with the given total. -/
def Physical (states : List α) (total : ℝ) (p : α → ℝ) : Prop := (∀ s ∈ states, 0 ≤ p s) ∧ (states.map p).sum = total

/-- `out` are physical counts with as many shots as `raw`, and what the noise makes of them is, up to `ε` in squared distance, as close to
`raw` as for any such counts. -/
def IsBest (states : List α) (A : α → α → ℝ) (raw : α → ℝ) (ε : ℝ) (out : α → ℝ) : Prop :=
  Physical states (states.map raw).sum out ∧ ∀ p, Physical states (states.map raw).sum p →
    dist2 states raw (noisyCounts states A out) ≤ dist2 states raw (noisyCounts states A p) + ε

/-- Different counts look different after the noise. -/
def Faithful (states : List α) (A : α → α → ℝ) : Prop :=
  ∀ p q : α → ℝ, (∀ s ∈ states, noisyCounts states A p s = noisyCounts states A q s) → ∀ s ∈ states, p s = q s

end
end Verif.MeasMit
