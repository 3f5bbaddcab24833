import Verif.RepCode.Weight
/-
C105: when the weighting of the syndrome graph ends in an exception.
-/
namespace Verif.RepCode
open Verif

/-- **C105** An edge gets no distance, because the smallest of no ratios is asked for, exactly when the results hold no shots. -/
theorem C105_raises (results : Dict Str Nat) (e : (Nat × Nat × Nat) × (Nat × Nat × Nat)) : edgeDistance results e = none ↔ (results.map (·.2)).sum = 0 := by
  constructor
  · intro h
    by_contra hne
    obtain ⟨D, h1, -⟩ := C105_distance results e.1 e.2 hne
    rw [h] at h1
    cases h1
  · intro h
    have ht := edgeCount_total results e
    rw [h] at ht
    have hz : ∀ x y, edgeCount results e x y = 0 := by
      intro x y
      cases x <;> cases y <;> omega
    have hr : edgeRatios results e = [] := by
      simp [edgeRatios, hz]
    unfold edgeDistance
    rw [hr]

example : edgeDistance [] ((1, 1, 0), (1, 1, 1)) = none := (C105_raises _ _).2 rfl

end Verif.RepCode
