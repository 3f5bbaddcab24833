import Verif.MeasMit.Model
/-
Model of the objects of qiskit/ignis/mitigation/measurement: a `CompleteMeasFitter` with its setters and the `MeasurementFilter`s it hands out.

The setters and the rebuilding of the matrix bind new objects, so no list or array is shared in a way that shows; in-place changes
by the caller are not modelled.
-/
namespace Verif.MeasMit
open Verif Verif.Counts

/-- The matrix attribute: not set; a matrix; or what an interrupted `_build_calibration_matrices` leaves behind (fitters.py:381-420: counts
accumulated up to the exception, not normalised; their values are not modelled). -/
inductive Cal where
  | unset
  | clean (m : Mat ℚ)
  | dirty

/-- The attributes of a `CompleteMeasFitter` and its inner fitter, fitters.py:45-75 and 246-262: `inds` is computed once. -/
structure CFitter where
  circlabel : Str
  size : Nat
  inds : Dict Str Nat
  labels : List Str
  results : List Result
  cal : Cal

/-- The attributes of a `MeasurementFilter`, filters.py:39-53. -/
structure MFilter where
  cal : Cal
  labels : List Str

/-- A fitter and the filters taken from it. -/
structure MWorld where
  fitter : CFitter
  filters : List MFilter

/-- Calls: `add_data`; `fitter.cal_matrix = m`; `fitter.state_labels = ls`; `fitter.filter`; and the setters of the `i`-th filter. -/
inductive MOp where
  | addData (new : Option (List Result)) (rebuild : Bool)
  | setCal (m : Mat ℚ)
  | setLabels (ls : List Str)
  | filter
  | fSetCal (i : Nat) (m : Mat ℚ)
  | fSetLabels (i : Nat) (ls : List Str)

/-- fitters.py:374-428 on the results held: the one matrix. -/
def CFitter.build (f : CFitter) (results : List Result) : Option (Mat ℚ) :=
  (buildMatrices f.circlabel [f.size] [f.inds] results).bind (·[0]?)

/-- One call: the world afterwards and whether it returned normally.  `add_data`: fitters.py:112-121 and 291-312 (the results are recorded
before the rebuild); setters: fitters.py:82-85, 97-100, filters.py:65-73; `filter`: fitters.py:102-105 (a `TypeError` when no matrix is set). -/
def mStep (w : MWorld) : MOp → MWorld × Bool
  | .addData none _ => (w, true)
  | .addData (some rs) rebuild =>
    let f := { w.fitter with results := w.fitter.results ++ rs }
    if rebuild then
      match f.build f.results with
      | some m => ({ w with fitter := { f with cal := .clean m } }, true)
      | none => ({ w with fitter := { f with cal := .dirty } }, false)
    else ({ w with fitter := f }, true)
  | .setCal m => ({ w with fitter := { w.fitter with cal := .clean m } }, true)
  | .setLabels ls => ({ w with fitter := { w.fitter with labels := ls } }, true)
  | .filter =>
    match w.fitter.cal with
    | .unset => (w, false)
    | c => ({ w with filters := w.filters ++ [⟨c, w.fitter.labels⟩] }, true)
  | .fSetCal i m => ({ w with filters := w.filters.modify i fun f => { f with cal := .clean m } }, true)
  | .fSetLabels i ls => ({ w with filters := w.filters.modify i fun f => { f with labels := ls } }, true)

/-- A program; exceptions are caught. -/
def mRun (w : MWorld) (ops : List MOp) : MWorld := ops.foldl (fun w o => (mStep w o).1) w

/-- fitters.py:45-75: `CompleteMeasFitter(None, labels, qubit_list, circlabel)` with `size` qubits. -/
def mkComplete (size : Nat) (labels : List Str) (circlabel : Str) : MWorld := ⟨⟨circlabel, size, indices labels, labels, [], .unset⟩, []⟩

end Verif.MeasMit
