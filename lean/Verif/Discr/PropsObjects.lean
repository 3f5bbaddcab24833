import Verif.Discr.Objects
/-
C62: schedules as objects.
-/
namespace Verif.Discr
open Verif

/-! ### Specification -/

/-- The name of a schedule. -/
def SchedRef.name : SchedRef → Str
  | .obj n => n
  | .str n => n

variable {K : Type}

/-! ### Lemmas -/

theorem getMemoryRef_eq (r : Res K) (s : SchedRef) : getMemoryRef r s = getMemory r s.name := by cases s <;> rfl

theorem addExpectedRefs_eq (d : Dict Str Str) (states : List Str) (refs : List SchedRef) :
    addExpectedRefs d states refs = addExpected d states (refs.map SchedRef.name) := by
  unfold addExpectedRefs addExpected
  rw [List.length_map]
  split
  · rfl
  · congr 1
    induction refs generalizing states d with
    | nil => rfl
    | cons s refs ih =>
      cases states with
      | nil => rfl
      | cons st states =>
        rename_i h
        simp only [List.map_cons, List.zip_cons_cons, List.foldl_cons]
        rw [ih _ states (by simpa using h)]
        cases s <;> rfl

theorem mapM_refs {α : Type} (refs : List SchedRef) (f : SchedRef → Option α) (g : Str → Option α) (h : ∀ s, f s = g s.name) :
    refs.mapM f = (refs.map SchedRef.name).mapM g := by
  induction refs with
  | nil => rfl
  | cons s refs ih => rw [List.mapM_cons, List.map_cons, List.mapM_cons, ih, h]

theorem getXdataRefs_eq (mask : List ℕ) (results : List (Res K)) (refs : List SchedRef) :
    getXdataRefs mask results refs = getXdata mask results (refs.map SchedRef.name) := by
  unfold getXdataRefs getXdata
  rw [mapM_refs refs _ (fun s => do let iq ← findIq results s; formatIq mask iq) fun s => ?_]
  simp only [getMemoryRef_eq]
  rfl

theorem getYdataRefs_eq (expected : Dict Str Str) (results : List (Res K)) (refs : List SchedRef) :
    getYdataRefs expected results refs = getYdata expected results (refs.map SchedRef.name) := by
  unfold getYdataRefs getYdata
  rw [mapM_refs refs _ (fun s => do let ps ← results.mapM (labels expected s); some ps.flatten) fun s => ?_]
  have : (labelsRef expected s : Res K → _) = labels expected s.name := by
    funext r
    unfold labelsRef labels
    rw [getMemoryRef_eq]
    cases s <;> rfl
  rw [this]

open Classical in
theorem expectedOfRefs_eq (refs : List SchedRef) :
    expectedOfRefs refs = if ∃ n, SchedRef.obj n ∈ refs then none else some ((refs.map SchedRef.name).map removeCal) := by
  unfold expectedOfRefs
  induction refs with
  | nil => simp
  | cons s refs ih =>
    rw [List.mapM_cons, ih]
    cases s with
    | obj n => simp
    | str n =>
      by_cases h : ∃ n, SchedRef.obj n ∈ refs
      · simp [h]
      · simp [h, SchedRef.name]

/-! ### C62 -/

/-- **C62** (schedules as objects).  If the expected states are given, schedules may be given as objects or by name, in any mixture; the training data are the same. -/
theorem C62_objects (mask : List ℕ) (results : List (Res K)) (states : List Str) (refs : List SchedRef) :
    newRefs mask results (some states) refs =
      (mk mask results (some states) (some (refs.map SchedRef.name))).map fun d => (d.expected, d.xdata, d.ydata) := by
  unfold newRefs mk pick
  simp only [Option.bind_eq_bind, Option.bind_some, Option.getD_some, addExpectedRefs_eq, getXdataRefs_eq, getYdataRefs_eq]
  cases addExpected [] states (refs.map SchedRef.name) with
  | none => rfl
  | some e =>
    simp only [Option.bind_some]
    cases getXdata mask results (refs.map SchedRef.name) with
    | none => rfl
    | some x =>
      simp only [Option.bind_some]
      cases getYdata e results (refs.map SchedRef.name) <;> rfl

/-- **C62** (finding).  Without expected states a schedule given as an object raises, whatever the results, although the documentation allows it; with names
only the states are read off the names. -/
theorem C62_finding_objects (mask : List ℕ) (results : List (Res K)) (refs : List SchedRef) :
    ((∃ n, SchedRef.obj n ∈ refs) → newRefs mask results none refs = none) ∧
    ((∀ n, SchedRef.obj n ∉ refs) → newRefs mask results none refs =
      (mk mask results none (some (refs.map SchedRef.name))).map fun d => (d.expected, d.xdata, d.ydata)) := by
  refine ⟨fun h => ?_, fun h => ?_⟩
  · unfold newRefs
    simp only [expectedOfRefs_eq, if_pos h]
    rfl
  · have h' : ¬ ∃ n, SchedRef.obj n ∈ refs := fun ⟨n, hn⟩ => h n hn
    have := C62_objects mask results ((refs.map SchedRef.name).map removeCal) refs
    unfold newRefs mk pick at this ⊢
    simp only [Option.bind_eq_bind, Option.bind_some, Option.getD_some] at this
    simp only [expectedOfRefs_eq, if_neg h', Option.bind_eq_bind, Option.bind_some, Option.getD_none]
    exact this

/-- Non-vacuity: two schedules; as objects with states, as names without, and the failing call. -/
example : let res : List (Res ℚ) := [[⟨"cal_0".toList, 1, 1, .single [[(1, 2)]]⟩, ⟨"cal_1".toList, 1, 1, .single [[(3, 4)], [(5, 6)]]⟩]]
    newRefs [0] res (some ["0".toList, "1".toList]) [.obj "cal_0".toList, .str "cal_1".toList] =
      some ([("cal_0".toList, "0".toList), ("cal_1".toList, "1".toList)], [[1, 2], [3, 4], [5, 6]], ["0".toList, "1".toList, "1".toList]) ∧
    newRefs [0] res none [.str "cal_0".toList, .str "cal_1".toList] =
      some ([("cal_0".toList, "0".toList), ("cal_1".toList, "1".toList)], [[1, 2], [3, 4], [5, 6]], ["0".toList, "1".toList, "1".toList]) ∧
    newRefs [0] res none [.obj "cal_0".toList, .str "cal_1".toList] = none := by
  intro res
  exact ⟨by rfl, by rfl, by rfl⟩

end Verif.Discr
