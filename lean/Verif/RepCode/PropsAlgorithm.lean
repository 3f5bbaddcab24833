import Verif.RepCode.Props
/-
C11: the argument `algorithm` of `get_logical_prob`.
-/
namespace Verif.RepCode
open Verif

/-- `GraphDecoder.get_logical_prob` for one logical value with the argument `algorithm`, fitters.py:328-356: an unknown name gives a warning and no corrected
results. -/
def logicalProbWith (algorithm : Str) (matching : Str → Str) (log : Str) (results : Dict Str Nat) : Option Rat :=
  if algorithm = "matching".toList then logicalProb matching log results else logicalProb matching log []

/-- **C11, finding** With an unknown `algorithm` the warning is followed by a division by zero, whatever the results; with `'matching'` the same
call succeeds. -/
theorem C11_finding_unknown_algorithm (algorithm : Str) (ha : algorithm ≠ "matching".toList) (matching : Str → Str) (log : Str) (results : Dict Str Nat) :
    logicalProbWith algorithm matching log results = none ∧
    ((∀ kv ∈ results, matching kv.1 ≠ []) → (results.map (·.2)).sum ≠ 0 → (logicalProbWith "matching".toList matching log results).isSome) := by
  refine ⟨?_, fun hm h => ?_⟩
  · unfold logicalProbWith
    rw [if_neg ha]
    rfl
  · obtain ⟨p, hp, -⟩ := C11_logical_prob matching log results hm h
    unfold logicalProbWith
    rw [if_pos rfl, hp]
    rfl

example : logicalProbWith "MWPM".toList id ['0'] [("0 0".toList, 6), ("1 1".toList, 2)] = none ∧
    logicalProbWith "matching".toList id ['0'] [("0 0".toList, 6), ("1 1".toList, 2)] = some (1 / 4) := by decide +kernel

end Verif.RepCode
