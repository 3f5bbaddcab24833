import Verif.QV.PropsCirc
import Verif.QV.Props
/-
C59: the volumes of the fitter; C60: lists of equal length.
-/
namespace Verif.QV
open Verif

/-- **C59** Whatever data were added, `quantum_volume` is two to the number of qubits of each list. -/
theorem C59_volumes (ql : List (List ℕ)) (cs : List Call) (st : St) (h : run (init ql) cs = some st) :
    quantumVolume st = ql.map fun l => 2 ^ l.length := by
  have H := run_hist cs _ _ h
  rw [quantumVolume, H.depths]
  simp [init]

example : quantumVolume (init [[0, 1], [0, 1, 3]]) = [4, 8] := C59_volumes _ [] _ rfl

/-- Finding: lists of equal length.  Their circuits of the same trial have the same name, so that their counts are pooled, although the
circuits differ. -/
theorem C60_finding_equal_lengths :
    (∀ (l l' : List ℕ) (t : ℕ) (qv qv' : List Op) (c c' d d' : Circ), l.length = l'.length → qvCircuit l t qv = some (c, c') → qvCircuit l' t qv' = some (d, d') →
      c.name = d.name) ∧
    ∃ c d m : Circ, qvCircuit [0, 1] 0 [.gate 0 [0, 1]] = some (c, m) ∧ qvCircuit [3, 4] 0 [.gate 0 [0, 1]] = some (d, m) ∧ c.ops ≠ d.ops := by
  refine ⟨?_, ⟨circName 2 0, 2, [.gate 0 [0, 1], .measure 0 0, .measure 1 1]⟩, ⟨circName 2 0, 5, [.gate 0 [3, 4], .measure 3 0, .measure 4 1]⟩,
    ⟨circName 2 0, 2, [.gate 0 [0, 1]]⟩, by decide, by decide, by decide⟩
  have key : ∀ (l : List ℕ) (t : ℕ) (qv : List Op) (c c' : Circ), qvCircuit l t qv = some (c, c') → c.name = circName l.length t := by
    intro l t qv c c' h
    unfold qvCircuit at h
    cases hm : l.max? with
    | none => simp [hm] at h
    | some n =>
      simp only [hm] at h
      split at h
      · split at h
        · simp only [Option.some.injEq, Prod.mk.injEq] at h
          rw [← h.1]; rfl
        · simp at h
      · simp only [Option.some.injEq, Prod.mk.injEq] at h
        rw [← h.1]; rfl
  intro l l' t qv qv' c c' d d' hl h h'
  rw [key l t qv c c' h, key l' t qv' d d' h', hl]

end Verif.QV
