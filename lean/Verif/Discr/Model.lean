import Verif.Py.DictLemmas
import Mathlib.Data.List.Basic
import Mathlib.Data.Nat.Digits.Lemmas
/-
Measurement discriminators: `qiskit/ignis/measurement/discriminator/{filters,discriminators,iq_discriminators}.py`.

`K` is the type of real numbers of the readout data; an IQ point is a pair.  A Python exception is `none`.
-/
namespace Verif.Discr
open Verif

variable {K : Type}

/-- Level 1 memory of one experiment: with `meas_return` 'single' one row of IQ points (one point per qubit) for every
shot, with 'avg' a single averaged row. -/
inductive Mem (K : Type) where
  | single (rows : List (List (K × K)))
  | avg (row : List (K × K))

/-- `iq_data.shape[0]`: the number of shots of single data, the number of qubits of averaged data. -/
def Mem.shape0 : Mem K → ℕ
  | .single rows => rows.length
  | .avg row => row.length

/-- One experiment of a result. -/
structure Exp (K : Type) where
  name : Str
  measLevel : ℕ
  shots : ℕ
  mem : Mem K

/-- A `Result`: its experiments. -/
abbrev Res (K : Type) := List (Exp K)

/-- `result.get_memory(name)`: the memory of the first experiment of that name, an exception if there is none. -/
def getMemory (r : Res K) (name : Str) : Option (Mem K) := (r.find? fun e => e.name = name).map (·.mem)

/-! ## Data formatting -/

/-- One row of `format_iq_data`: the masked I values followed by the masked Q values,
iq_discriminators.py:181-184, 187-189.  A mask entry beyond the row raises `IndexError`. -/
def formatRow (mask : List ℕ) (row : List (K × K)) : Option (List K) := do
  let sel ← mask.mapM fun q => row[q]?
  some (sel.map (·.1) ++ sel.map (·.2))

/-- `format_iq_data`, iq_discriminators.py:161-192.  (An empty single array has no columns to mask; modelled as no
rows.) -/
def formatIq (mask : List ℕ) : Mem K → Option (List (List K))
  | .single rows => rows.mapM (formatRow mask)
  | .avg row => do
    let r ← formatRow mask row
    some [r]

/-- `is_calibration`: `re.match(r'cal_\d+$', name)`, discriminators.py:151-163.  (`\d` as the decimal digits; `$` also
matches before a final newline, not modelled.) -/
def isCalibration (name : Str) : Bool :=
  match name with
  | 'c' :: 'a' :: 'l' :: '_' :: rest => !rest.isEmpty && rest.all (·.isDigit)
  | _ => false

/-- `_get_schedules(results, schedule_type)`, discriminators.py:165-226. -/
def getSchedules (results : List (Res K)) (scheduleType : ℕ) : Option (List Str) :=
  let names := results.flatMap fun r => r.map (·.name)
  match scheduleType with
  | 0 => some (names.filter isCalibration)
  | 1 => some (names.filter fun n => !isCalibration n)
  | 2 => some names
  | _ => if names = [] then some [] else none

/-- The inner loop of `get_xdata` over a list of results, iq_discriminators.py:104-110: the *last* result that has the
schedule wins (the docstring says the first). -/
def findIq (results : List (Res K)) (schedule : Str) : Option (Mem K) :=
  results.foldl (fun iq r => (getMemory r schedule).or iq) none

/-- `get_xdata` with a list of results and a list of schedule names, iq_discriminators.py:97-117, without
standardisation (`_scale_data` returns its argument). -/
def getXdata (mask : List ℕ) (results : List (Res K)) (schedules : List Str) : Option (List (List K)) := do
  let parts ← schedules.mapM fun s => do
    let iq ← findIq results s
    formatIq mask iq
  some parts.flatten

/-- The labels one result contributes for one schedule, the `try` block of iq_discriminators.py:150-157. -/
def labels (expected : Dict Str Str) (s : Str) (r : Res K) : Option (List Str) :=
  match getMemory r s with
  | none => some []
  | some m => (expected.get? s).map fun st => List.replicate m.shape0 st

/-- `get_ydata`, iq_discriminators.py:138-159: for every schedule and *every* result that has it, the expected state
once per entry of the first axis.  A missing expected state raises `KeyError`. -/
def getYdata (expected : Dict Str Str) (results : List (Res K)) (schedules : List Str) : Option (List Str) := do
  let parts ← schedules.mapM fun s => do
    let ps ← results.mapM (labels expected s)
    some ps.flatten
  some parts.flatten

/-- The attributes of a discriminator. -/
structure St (K : Type) where
  mask : List ℕ
  expected : Dict Str Str := []
  schedules : List Str := []
  results : List (Res K) := []
  xdata : List (List K) := []
  ydata : List Str := []

/-- `_add_expected_states`, discriminators.py:124-149. -/
def addExpected (d : Dict Str Str) (states schedules : List Str) : Option (Dict Str Str) :=
  if states.length ≠ schedules.length then none
  else some ((schedules.zip states).foldl (fun d p => d.set p.1 p.2) d)

/-- `name.replace('cal_', '')`, `_get_expected_states`, discriminators.py:228-252.  (The test of the type of `schedules`
instead of `schedule` in line 244 makes this function fail for `Schedule` objects; names only here.) -/
def removeCal : Str → Str
  | 'c' :: 'a' :: 'l' :: '_' :: rest => removeCal rest
  | c :: rest => c :: removeCal rest
  | [] => []

/-- `if schedules is None: schedules = self._get_schedules(results, 0)`, discriminators.py:65-66, 112-113. -/
def pick (schedules : Option (List Str)) (results : List (Res K)) : Option (List Str) :=
  match schedules with
  | some s => some s
  | none => getSchedules results 0

/-- `__init__`, discriminators.py:34-86, for a list of results.  `schedules = None` and `expected_states = None` are
`none`; schedules are given by name.  The classifier's `fit` is not modelled. -/
def mk (mask : List ℕ) (calResults : List (Res K)) (expectedStates schedules : Option (List Str)) : Option (St K) := do
  let scheds ← pick schedules calResults
  let states := expectedStates.getD (scheds.map removeCal)
  let expected ← addExpected [] states scheds
  let x ← getXdata mask calResults scheds
  let y ← getYdata expected calResults scheds
  some { mask := mask, expected := expected, schedules := scheds, results := calResults, xdata := x, ydata := y }

/-- `add_data`, discriminators.py:99-122. -/
def addData (st : St K) (result : Res K) (expectedStates : List Str) (schedules : Option (List Str)) : Option (St K) := do
  let scheds ← pick schedules [result]
  let results := st.results ++ [result]
  let expected ← addExpected st.expected expectedStates scheds
  let x ← getXdata st.mask results scheds
  let y ← getYdata expected results scheds
  some { st with expected := expected, schedules := st.schedules ++ scheds, results := results, xdata := x, ydata := y }

/-! ## The filter -/

/-- The value of a digit character in Python's `int(s, base)`. -/
def digitVal (c : Char) : Option ℕ :=
  if '0' ≤ c ∧ c ≤ '9' then some (c.toNat - 48)
  else if 'a' ≤ c ∧ c ≤ 'z' then some (c.toNat - 87)
  else if 'A' ≤ c ∧ c ≤ 'Z' then some (c.toNat - 55)
  else none

/-- `int(s, base)` for a string of digits; blanks, underscores, signs and base prefixes, which Python also accepts, are
`none`.  A base outside 2..36 raises (base 0 never reaches this point). -/
def intBase (base : ℕ) (s : Str) : Option ℕ :=
  if base < 2 ∨ 36 < base ∨ s = [] then none
  else s.foldlM (fun a c => match digitVal c with
    | none => none
    | some v => if v < base then some (base * a + v) else none) 0

/-- `hex(n)`. -/
def hexStr (n : ℕ) : Str := '0' :: 'x' :: Nat.toDigits 16 n

/-- `get_base`, filters.py:101-134.  `int(char)` of a one-character string accepts the decimal digits. -/
def getBase (expected : Dict Str Str) : Option ℕ := do
  let b ← expected.foldlM (fun base kv => kv.2.foldlM (fun base c =>
    if c.isDigit then some (if base > c.toNat - 48 then base else c.toNat - 48) else none) base) 0
  some (b + 1)

/-- The base of a filter, `__init__`, filters.py:53-59: a given base other than 0, else the inferred one. -/
def filterBase (base : Option ℕ) (expected : Dict Str Str) : Option ℕ :=
  match base with
  | some b => if b ≠ 0 then some b else getBase expected
  | none => getBase expected

/-- `count`, filters.py:136-155. -/
def count (base : ℕ) (yData : List Str) : Option (Dict Str ℕ) :=
  yData.foldlM (fun (raw : Dict Str ℕ) cnt => do
    let n ← intBase base cnt
    let h := hexStr n
    match raw.get? h with
    | some v => some (raw.set h (v + 1))
    | none => some (raw.set h 1)) []

/-- One experiment of the new result: name, memory and counts (level 2). -/
structure NewExp where
  name : Str
  memory : List Str
  counts : Dict Str ℕ
deriving DecidableEq, Repr

/-- The slicing loop of `apply`, filters.py:85-92. -/
def sliceLoop (base : ℕ) (yData : List Str) : ℕ → List (Exp K) → Option (List NewExp)
  | _, [] => some []
  | start, e :: es => do
    let memory := (yData.drop start).take e.shots
    let c ← count base memory
    let rest ← sliceLoop base yData (start + e.shots) es
    some ({ name := e.name, memory := memory, counts := c } :: rest)

/-- `apply`, filters.py:60-98.  `discriminate` is the fitted classifier. -/
def apply (base : ℕ) (mask : List ℕ) (discriminate : List (List K) → List Str) (raw : Res K) : Option (List NewExp) := do
  let keep := raw.filter fun e => e.measLevel = 1
  let x ← getXdata mask [keep] (keep.map (·.name))
  sliceLoop base (discriminate x) 0 keep

end Verif.Discr
