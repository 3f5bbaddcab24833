import Verif.Discr.PropsApply
import Mathlib.Analysis.Real.Sqrt
/-
The IQ discriminators as a whole: `qiskit/ignis/measurement/discriminator/{discriminators,iq_discriminators,filters}.py` with standardisation and the
classifier.

The classifier of scikit-learn is a parameter: `train x y` is the predictor after `fit(x, y)` (`none`: an exception).  Real numbers.
-/
namespace Verif.Discr
open Verif

/-- What `predict` does after a `fit`; an exception is `none`. -/
abbrev Predictor := List (List ℝ) → Option (List Str)

/-- What `fit` does. -/
abbrev Classifier := List (List ℝ) → List Str → Option Predictor

/-- scikit-learn's `StandardScaler` after `fit`. -/
structure Scaler where
  mean : List ℝ
  scale : List ℝ

noncomputable def colMean (rows : List (List ℝ)) (k : ℕ) : ℝ := (rows.map fun r => r.getD k 0).sum / rows.length

/-- The variance over all rows (divisor: the number of rows). -/
noncomputable def colVar (rows : List (List ℝ)) (k : ℕ) : ℝ := (rows.map fun r => (r.getD k 0 - colMean rows k) ^ 2).sum / rows.length

open Classical in
/-- `StandardScaler(with_std=True).fit(xdata)`, as called in discriminators.py:294-296: columns without spread get the scale one; no rows, no columns or
rows of different lengths raise. -/
noncomputable def fitScaler (rows : List (List ℝ)) : Option Scaler :=
  match rows with
  | [] => none
  | r :: _ => if r.length ≠ 0 ∧ ∀ r' ∈ rows, r'.length = r.length then
      some ⟨(List.range r.length).map (colMean rows), (List.range r.length).map fun k => if colVar rows k = 0 then 1 else √(colVar rows k)⟩
    else none

/-- One row of `transform`. -/
noncomputable def Scaler.row (s : Scaler) (r : List ℝ) : List ℝ := (List.range s.mean.length).map fun k => (r.getD k 0 - s.mean.getD k 0) / s.scale.getD k 0

open Classical in
/-- `self._scaler.transform(xdata)`, discriminators.py:298: no rows or another number of columns raise. -/
noncomputable def Scaler.transform (s : Scaler) (rows : List (List ℝ)) : Option (List (List ℝ)) :=
  if rows ≠ [] ∧ ∀ r ∈ rows, r.length = s.mean.length then some (rows.map s.row) else none

/-- `_scale_data(xdata)`, discriminators.py:268-298, with `refit=False` as in all its calls: the scaler is fitted the first time.  Returns the new `_scaler`
and the data. -/
noncomputable def scaleData (standardize : Bool) (scaler : Option Scaler) (x : List (List ℝ)) : Option (Option Scaler × List (List ℝ)) :=
  if !standardize then some (scaler, x)
  else do
    let s ← scaler.or (fitScaler x)
    let x' ← s.transform x
    some (some s, x')

/-- A discriminator object: the attributes of C62 and `_standardize`, `_scaler`, `_fitted` and the trained classifier. -/
structure Iq where
  base : St ℝ
  standardize : Bool
  scaler : Option Scaler
  fitted : Bool
  clf : Option Predictor

/-- `get_xdata(results, …, schedules)`, iq_discriminators.py:97-117, of an object. -/
noncomputable def Iq.getX (d : Iq) (results : List (Res ℝ)) (schedules : List Str) : Option (Option Scaler × List (List ℝ)) := do
  let x ← getXdata d.base.mask results schedules
  scaleData d.standardize d.scaler x

/-- `fit`, iq_discriminators.py:448-454, 515-521, 590-596: nothing happens without data. -/
def Iq.fit (train : Classifier) (d : Iq) : Option Iq :=
  if d.base.xdata.length = 0 then some d
  else do
    let p ← train d.base.xdata d.base.ydata
    some { d with clf := some p, fitted := true }

/-- `LinearIQDiscriminator.__init__` (and the two others), iq_discriminators.py:403-446, 472-513, 542-580, with discriminators.py:34-86. -/
noncomputable def Iq.new (train : Classifier) (standardize : Bool) (mask : List ℕ) (calResults : List (Res ℝ)) (expectedStates schedules : Option (List Str)) :
    Option Iq := do
  let scheds ← pick schedules calResults
  let states := expectedStates.getD (scheds.map removeCal)
  let expected ← addExpected [] states scheds
  let d : Iq := ⟨{ mask := mask, expected := expected, schedules := scheds, results := calResults }, standardize, none, false, none⟩
  let sx ← d.getX calResults scheds
  let y ← getYdata expected calResults scheds
  Iq.fit train { d with base := { d.base with xdata := sx.2, ydata := y }, scaler := sx.1 }

/-- The argument `schedules` of `add_data`: `None`, a list of names, or the very list object the discriminator holds (the one given to the constructor, also
returned by the property `schedules`). -/
inductive SchedArg where
  | default
  | names (l : List Str)
  | held

/-- The list used, discriminators.py:112-113. -/
def SchedArg.pick (held : List Str) (result : Res ℝ) : SchedArg → Option (List Str)
  | .default => getSchedules [result] 0
  | .names l => some l
  | .held => some held

/-- The list used after `self._schedules` has been extended to `all`, discriminators.py:117-119. -/
def SchedArg.after (all scheds : List Str) : SchedArg → List Str
  | .held => all
  | _ => scheds

/-- `add_data`, discriminators.py:99-122.  `self._schedules.extend(schedules)` also changes the argument if both are the same list. -/
noncomputable def Iq.addData (train : Classifier) (d : Iq) (result : Res ℝ) (expectedStates : List Str) (refit : Bool) (schedules : SchedArg) : Option Iq := do
  let scheds ← schedules.pick d.base.schedules result
  let results := d.base.results ++ [result]
  let expected ← addExpected d.base.expected expectedStates scheds
  let all := d.base.schedules ++ scheds
  let used := schedules.after all scheds
  let sx ← d.getX results used
  let y ← getYdata expected results used
  let d' : Iq := { d with base := { d.base with expected := expected, schedules := all, results := results, xdata := sx.2, ydata := y }, scaler := sx.1 }
  if refit then d'.fit train else some d'

/-- `discriminate`, iq_discriminators.py:456-466, 523-533, 598-608; a classifier that was never fitted raises. -/
def Iq.discriminate (d : Iq) (x : List (List ℝ)) : Option (List Str) := d.clf.bind fun p => p x

/-- `DiscriminationFilter(d, base).apply(raw)`, filters.py:60-98, with the object (whose `_scaler` may be set on the way). -/
noncomputable def Iq.apply (base : ℕ) (d : Iq) (raw : Res ℝ) : Option (Iq × List NewExp) := do
  let keep := raw.filter fun e => e.measLevel = 1
  let sx ← d.getX [keep] (keep.map (·.name))
  let y ← d.discriminate sx.2
  let out ← sliceLoop base y 0 keep
  some ({ d with scaler := sx.1 }, out)

end Verif.Discr
