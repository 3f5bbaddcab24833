import Verif.Py.Basic
import Verif.Py.Fmt
import Mathlib.Analysis.SpecialFunctions.Complex.Arg
import Mathlib.Analysis.SpecialFunctions.Pow.Real
/-
Model of `IQFitter` (`qiskit/ignis/characterization/fitters.py`) and of the guesses of the calibration fitters
(`qiskit/ignis/characterization/calibrations/fitters.py`).

Numbers are exact complex and real numbers.  Exceptions, and results with `nan` or `inf` in them, are `none`.
-/
namespace Verif.Calib
open Verif

/-- What the fitter reads of one experiment of a job.  `memory` is the averaged memory, one number per memory slot; the single-shot
memory is not represented, see `addExp`. -/
structure Exp where
  name : Str
  shots : ℕ
  level : ℕ
  avg : Bool
  memory : List ℂ

/-- A job's result. -/
abbrev JobRes := List Exp

/-- `Result.get_memory(name)` for averaged data: the first experiment of that name.  Its absence is not possible here. -/
def getMemory (r : JobRes) (name : Str) : List ℂ := ((r.find? fun e => e.name = name).map (·.memory)).getD []

/-- The sum of two numpy vectors.  Different lengths raise (numpy would repeat a vector of length one). -/
noncomputable def vecAdd (a b : List ℂ) : Option (List ℂ) := if a.length = b.length then some (List.zipWith (· + ·) a b) else none

/-- The dictionaries `_build_iq_list` fills.  `none` as a sum stands for a two-dimensional array of single shots. -/
structure Acc where
  ret : Option Bool := none
  shots : Dict Str ℕ := []
  sums : Dict Str (Option (List ℂ)) := []

/-- One turn of the inner loop of `_build_iq_list`, fitters.py:415-455.  `np.zeros(mem_slots)` is a vector as long as the memory.  In
single-shot mode the sum is kept as `none`: whatever it is, line 463 turns it into one number, which line 489 cannot index. -/
noncomputable def addExp (r : JobRes) (a : Acc) (e : Exp) : Option Acc :=
  let ret := a.ret.getD e.avg
  if e.level ≠ 1 then none
  else if ret ≠ e.avg then none
  else
    let shots := a.shots.set e.name (e.shots + a.shots.getD e.name 0)
    if ret then
      let term := (getMemory r e.name).map ((e.shots : ℂ) * ·)
      match a.sums.getD e.name (some (List.replicate (getMemory r e.name).length 0)) with
      | none => none
      | some old =>
        match vecAdd term old with
        | none => none
        | some new => some ⟨some ret, shots, a.sums.set e.name (some new)⟩
    else some ⟨some ret, shots, a.sums.set e.name none⟩

/-- `_build_iq_list`, fitters.py:394-466, up to the division. -/
noncomputable def buildIq (results : List JobRes) : Option Acc :=
  results.foldlM (fun a r => r.foldlM (addExp r) a) {}

/-- `iq_list_mean[name][slot]`, fitters.py:457-464 and 489.  `none`: no such name or slot, single-shot data (one number cannot be
indexed), or no shots. -/
noncomputable def meanAt (a : Acc) (name : Str) (slot : ℕ) : Option ℂ := do
  let s ← a.sums.get? name
  let v ← s
  let z ← v[slot]?
  let n := a.shots.getD name 0
  if n = 0 then none else some (z / n)

/-- `np.mean`. -/
noncomputable def mean (l : List ℂ) : ℂ := l.sum / l.length

/-- The mean of absolute values of one component, fitters.py:500-501. -/
noncomputable def ext (l : List ℝ) : ℝ := (l.map abs).sum / l.length

/-- The projection onto a line, fitters.py:496-505.  `none`: no points (`np.mean` of nothing) or all points equal (0/0). -/
noncomputable def project (zs : List ℂ) : Option (List ℝ) :=
  if zs = [] then none else
  let d := zs.map (· - mean zs)
  let re := ext (d.map Complex.re)
  let im := ext (d.map Complex.im)
  let n := Real.sqrt (re ^ 2 + im ^ 2)
  if n = 0 then none else
  some (d.map fun z => re / n * z.re + im / n * z.im)

/-- `_calc_data`, fitters.py:468-505, for one series: `ydata[series][qind]['mean']` for every qubit.  The averaged data get the error
bar `1e-4` (line 461), not represented.  `names` are the schedule names with the series label appended. -/
noncomputable def calcIq (results : List JobRes) (names : List Str) (nqubits : ℕ) : Option (List (List ℝ)) := do
  let a ← buildIq results
  (List.range nqubits).mapM fun q => do
    let zs ← names.mapM fun n => meanAt a n q
    project zs

/-- The names `RabiFitter` looks up, calibrations/fitters.py:40-42 with fitters.py:488. -/
def rabiNames (nx : ℕ) : List Str := (List.range nx).map fun (i : ℕ) => "rabisched_".toList ++ fmtD i ++ "_".toList ++ "0".toList

/-- The names `DragFitter` looks up, calibrations/fitters.py:151-153 with fitters.py:488. -/
def dragNames (nx : ℕ) : List Str := (List.range nx).map fun (i : ℕ) => "dragsched_".toList ++ fmtD i ++ "_".toList ++ "0".toList

/-- `np.argmax`: the first position of the largest value. -/
noncomputable def argmaxAux : List ℝ → ℕ → ℝ → ℕ → ℕ
  | [], best, _, _ => best
  | y :: ys, best, v, i => if v < y then argmaxAux ys i y (i + 1) else argmaxAux ys best v (i + 1)

noncomputable def argmax : List ℝ → ℕ
  | [] => 0
  | y :: ys => argmaxAux ys 0 y 1

noncomputable def argmin (l : List ℝ) : ℕ := argmax (l.map (- ·))

/-- `np.max`; `np.min`. -/
noncomputable def npMax (l : List ℝ) : ℝ := l.getD (argmax l) 0
noncomputable def npMin (l : List ℝ) : ℝ := l.getD (argmin l) 0

/-- `np.fft.fft`, by its definition. -/
noncomputable def dft (y : List ℝ) (m : ℕ) : ℂ :=
  ((List.range y.length).map fun (k : ℕ) => (y.getD k 0 : ℂ) * Complex.exp (-2 * Real.pi * Complex.I * (m : ℂ) * (k : ℂ) / (y.length : ℂ))).sum

/-- `np.fft.fftfreq(n, d)[m]`. -/
noncomputable def fftfreq (n : ℕ) (d : ℝ) (m : ℕ) : ℝ := if m < (n + 1) / 2 then m / (n * d) else ((m : ℝ) - n) / (n * d)

/-- `RabiFitter.guess_params`, calibrations/fitters.py:51-76: amplitude, frequency, phase, offset.  `none`: fewer than two points
(`xdata[1]`), or no data. -/
noncomputable def rabiGuess (xdata ydata : List ℝ) : Option (ℝ × ℝ × ℝ × ℝ) :=
  match xdata with
  | x0 :: x1 :: _ =>
    if ydata = [] then none else
    let main := argmax ((List.range ydata.length).map fun (m : ℕ) => ‖dft ydata m‖)
    some (npMax ydata, fftfreq xdata.length (x1 - x0) main, Complex.arg (dft ydata main), ydata.sum / ydata.length)
  | _ => none

/-- `DragFitter.guess_params`, calibrations/fitters.py:166-193: curvature, position, offset of the parabola.  `none`: no data, or
`max(xdata) = 0`. -/
noncomputable def dragGuess (xdata ydata : List ℝ) : Option (ℝ × ℝ × ℝ) :=
  if ydata = [] ∨ npMax xdata = 0 then none else
  let a := npMax ydata - npMin ydata
  let i1 := argmax ydata
  let i2 := argmin ydata
  if |xdata.getD i1 0| < |xdata.getD i2 0| then some (a * -1 / npMax xdata ^ 2, xdata.getD i1 0, ydata.getD i1 0)
  else some (a / npMax xdata ^ 2, xdata.getD i2 0, ydata.getD i2 0)

end Verif.Calib
