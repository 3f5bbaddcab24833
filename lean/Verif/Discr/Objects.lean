import Verif.Discr.Model
/-
Model of the constructor of the discriminators for schedules given as `Schedule` objects or by name.
-/
namespace Verif.Discr
open Verif

/-- An entry of the list `schedules`: a `Schedule` object (here its name) or a name. -/
inductive SchedRef where
  | obj (name : Str)
  | str (name : Str)
  deriving DecidableEq

variable {K : Type}

/-- `result.get_memory(schedule)`: terra looks a schedule object up by its name. -/
def getMemoryRef (r : Res K) : SchedRef → Option (Mem K)
  | .obj n => getMemory r n
  | .str n => getMemory r n

/-- `_get_expected_states`, discriminators.py:228-252.  Line 244 asks whether the *list* is a `Schedule`, so the branch
with `schedule.name` is never taken, and `replace` is called on the object: `AttributeError`. -/
def expectedOfRefs (schedules : List SchedRef) : Option (List Str) :=
  schedules.mapM fun
    | .obj _ => none
    | .str n => some (removeCal n)

/-- `_add_expected_states`, discriminators.py:124-149. -/
def addExpectedRefs (d : Dict Str Str) (states : List Str) (schedules : List SchedRef) : Option (Dict Str Str) :=
  if states.length ≠ schedules.length then none
  else some ((schedules.zip states).foldl (fun d p => match p.1 with
    | .obj n => d.set n p.2
    | .str n => d.set n p.2) d)

/-- `get_xdata`, iq_discriminators.py:97-117, without standardisation. -/
def getXdataRefs (mask : List ℕ) (results : List (Res K)) (schedules : List SchedRef) : Option (List (List K)) := do
  let parts ← schedules.mapM fun s => do
    let iq ← results.foldl (fun iq r => (getMemoryRef r s).or iq) none
    formatIq mask iq
  some parts.flatten

/-- The `try` block of `get_ydata` for one schedule and result, iq_discriminators.py:143-157. -/
def labelsRef (expected : Dict Str Str) (s : SchedRef) (r : Res K) : Option (List Str) :=
  let name := match s with
    | .obj n => n
    | .str n => n
  match getMemoryRef r s with
  | none => some []
  | some m => (expected.get? name).map fun st => List.replicate m.shape0 st

/-- `get_ydata`, iq_discriminators.py:138-159. -/
def getYdataRefs (expected : Dict Str Str) (results : List (Res K)) (schedules : List SchedRef) : Option (List Str) := do
  let parts ← schedules.mapM fun s => do
    let ps ← results.mapM (labelsRef expected s)
    some ps.flatten
  some parts.flatten

/-- `__init__`, discriminators.py:34-86, with a list of schedules: the expected states, the features and the labels. -/
def newRefs (mask : List ℕ) (calResults : List (Res K)) (expectedStates : Option (List Str)) (schedules : List SchedRef) :
    Option (Dict Str Str × List (List K) × List Str) := do
  let states ← match expectedStates with
    | some s => some s
    | none => expectedOfRefs schedules
  let expected ← addExpectedRefs [] states schedules
  let x ← getXdataRefs mask calResults schedules
  let y ← getYdataRefs expected calResults schedules
  some (expected, x, y)

end Verif.Discr
