import Verif.Discr.Props
/-
C61: the base handed to a filter.
-/
namespace Verif.Discr
open Verif

/-- C61: a base of 0 counts as not given, so the counts are those with the inferred base; any other base is used as it is. -/
theorem C61_base_given (expected : Dict Str Str) (y : List Str) :
    ((filterBase (some 0) expected).bind fun b => count b y) = ((filterBase none expected).bind fun b => count b y) ∧
    ∀ b, 0 < b → ((filterBase (some b) expected).bind fun b => count b y) = count b y := by
  constructor
  · rfl
  · intro b hb
    simp [filterBase, Nat.pos_iff_ne_zero.1 hb]

/-- Two states, base 2 from the labels. -/
example : ((filterBase (some 0) [("cal_00".toList, "00".toList), ("cal_11".toList, "11".toList)]).bind fun b => count b ["11".toList, "10".toList]) =
    some [("0x3".toList, 1), ("0x2".toList, 1)] := by decide +kernel

end Verif.Discr
