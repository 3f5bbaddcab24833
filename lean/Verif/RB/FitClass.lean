import Verif.RB.FitErr
import Verif.RB.Purity
/-
Model of qiskit/ignis/verification/randomized_benchmarking/fitters.py: the four fitter classes as objects with a history of calls.
`scipy.optimize.curve_fit` is a parameter; plotting is not modelled.  A call that raises is `none`.
-/
namespace Verif.RB.Fit
open Verif Verif.Counts

/-- `curve_fit(_rb_fit_fun, lens, mean, sigma, p0, bounds)` followed by `np.sqrt(np.diag(pcov))`: from lengths, means, the variances (`none`
for `sigma=None`) and the start values to the three parameters and their errors; `none` if it raises. -/
abbrev CurveFit := List ℤ → List ℚ → Option (List ℚ) → ℝ × ℝ × ℝ → Option ((ℝ × ℝ × ℝ) × (ℝ × ℝ × ℝ))

/-- One dictionary of `fit`, fitters.py:391-392.  `none` in a list of fits is the empty dictionary of line 157. -/
structure FitDict where
  params : ℝ × ℝ × ℝ
  paramsErr : ℝ × ℝ × ℝ
  epc : ℝ
  epcErr : ℝ

/-- One dictionary of `ydata`: `mean` and the squares of `std` (`none` for one seed), fitters.py:340-348. -/
structure YData where
  mean : List ℚ
  var : Option (List ℚ)
deriving DecidableEq

/-- An `RBFitter`, fitters.py:151-161. -/
structure Fitter where
  lengths : List (List ℤ)
  pattern : List (List ℕ)
  st : State
  raw : List (List (List ℚ))
  ydata : List YData
  fit : List (Option FitDict)

/-- `np.mean(rows, 0)` and `np.std(rows, 0)`; rows of one table have the same length (fitters.py:341-348). -/
def statsOf (rows : List (List ℚ)) : YData :=
  let m := (rows.head?.map List.length).getD 0
  ⟨(List.range m).map (meanCol rows), if rows.length = 1 then none else some ((List.range m).filterMap (varCol rows))⟩

/-- fitters.py:323-348 `calc_statistics`. -/
def Fitter.calcStatistics (f : Fitter) : Fitter := { f with ydata := (List.range f.pattern.length).map fun i => statsOf (f.raw.getD i []) }

/-- fitters.py:371-376: `sigma` is dropped if one of the deviations is zero. -/
def sigmaOf (y : YData) : Option (List ℚ) := y.var.bind fun v => if 0 ∈ v then none else some v

/-- fitters.py:350-392 `fit_data_pattern`, the new dictionary. -/
noncomputable def fitPattern (curve : CurveFit) (lens : List ℤ) (qubits : List ℕ) (y : YData) (guess : ℝ × ℝ × ℝ) : Option FitDict :=
  (curve lens y.mean (sigmaOf y) guess).map fun pe => ⟨pe.1, pe.2, Fit.epc qubits.length pe.1.2.1, Fit.epcErr qubits.length pe.1.2.1 pe.2.2.1⟩

/-- fitters.py:412-432, one pattern of `fit_data`; fewer than two lengths raise `IndexError`. -/
noncomputable def fitOne (curve : CurveFit) (lens : List ℤ) (qubits : List ℕ) (y : YData) : Option FitDict :=
  match y.mean, lens with
  | y0 :: y1 :: _, m0 :: m1 :: _ => fitPattern curve lens qubits y (fitGuess qubits.length y0 y1 m0 m1)
  | _, _ => none

/-- fitters.py:394-432 `fit_data`. -/
noncomputable def Fitter.fitData (curve : CurveFit) (f : Fitter) : Option Fitter := do
  let fs ← (List.range f.pattern.length).mapM fun i => fitOne curve (f.lengths.getD i []) (f.pattern.getD i []) (f.ydata.getD i ⟨[], none⟩)
  some { f with fit := fs.map some }

/-- fitters.py:262-321 `calc_data`. -/
def Fitter.calcData (f : Fitter) : Option Fitter := (Fit.calcData f.st f.lengths f.pattern).map fun raw => { f with raw := raw }

/-- fitters.py:220-254 `RBFitter.add_data`; `none` as argument is Python's `None`. -/
noncomputable def Fitter.addData (curve : CurveFit) (f : Fitter) (new : Option (List Result)) (rerun : Bool := true) : Option Fitter :=
  match new with
  | none => some f
  | some rs => do
    let st ← Fit.addData f.st rs
    let f := { f with st := st }
    if rerun then (← f.calcData).calcStatistics.fitData curve else some f

/-- fitters.py:151-162 `RBFitter.__init__`. -/
noncomputable def Fitter.new (curve : CurveFit) (results : Option (List Result)) (lengths : List (List ℤ)) (pattern : Option (List (List ℕ))) : Option Fitter :=
  let p := pattern.getD [[0]]
  Fitter.addData curve ⟨lengths, p, State.init, [], [], p.map fun _ => none⟩ results

/-! ### InterleavedRBFitter and CNOTDihedralRBFitter -/

/-- The two fitters of an `InterleavedRBFitter` or `CNOTDihedralRBFitter`, the pattern they were given and the list of combined fits of type `F`
(fitters.py:519-526, 1180-1187). -/
structure Pair (F : Type) where
  lengths : List (List ℤ)
  pattern : Option (List (List ℕ))
  one : Fitter
  two : Fitter
  comb : List F

/-- One dictionary of `fit_int` (fitters.py:691-704). -/
structure IntDict where
  alpha : ℝ
  alphaErr : ℝ
  alphaC : ℝ
  alphaCErr : ℝ
  est : IntFit

/-- fitters.py:661-704, one pattern. -/
noncomputable def intComb (n : ℕ) (a b : FitDict) : IntDict :=
  ⟨a.params.2.1, a.paramsErr.2.1, b.params.2.1, b.paramsErr.2.1, interleaved n a.params.2.1 b.params.2.1 a.paramsErr.2.1 b.paramsErr.2.1⟩

/-- One dictionary of `fit_cnotdihedral` (fitters.py:1354-1357). -/
structure DihDict where
  alpha : ℝ
  alphaErr : ℝ
  epg : ℝ
  epgErr : ℝ

/-- fitters.py:1331-1357, one pattern. -/
noncomputable def dihComb (n : ℕ) (a b : FitDict) : DihDict :=
  let e := dihedralErr n a.params.2.1 b.params.2.1 a.paramsErr.2.1 b.paramsErr.2.1
  ⟨(dihedral n a.params.2.1 b.params.2.1).1, e.1, (dihedral n a.params.2.1 b.params.2.1).2, e.2⟩

/-- fitters.py:640-704 and 1302-1357 `fit_data`: both fits, then one entry per pattern of `zip(cliff_lengths, rb_pattern)`.  Without a pattern
`zip` raises `TypeError`; an entry missing from one of the fits raises. -/
noncomputable def Pair.fitData {F : Type} (curve : CurveFit) (comb : ℕ → FitDict → FitDict → F) (p : Pair F) : Option (Pair F) := do
  let a ← p.one.fitData curve
  let b ← p.two.fitData curve
  let pat ← p.pattern
  let fs ← ((p.lengths.zip pat).zipIdx).mapM fun x => do
    let fa ← (a.fit[x.2]?).join
    let fb ← (b.fit[x.2]?).join
    some (comb x.1.2.length fa fb)
  some { p with one := a, two := b, comb := fs }

/-- fitters.py:585-604 and 1244-1264 `add_data`. -/
noncomputable def Pair.addData {F : Type} (curve : CurveFit) (comb : ℕ → FitDict → FitDict → F) (p : Pair F) (new1 new2 : Option (List Result)) (rerun : Bool := true) :
    Option (Pair F) := do
  let a ← p.one.addData curve new1 rerun
  let b ← p.two.addData curve new2 rerun
  let q := { p with one := a, two := b }
  if rerun then q.fitData curve comb else some q

/-- fitters.py:505-531 and 1163-1192 `__init__`: each `RBFitter` is made with the results, which are then added to it once more. -/
noncomputable def Pair.new {F : Type} (curve : CurveFit) (comb : ℕ → FitDict → FitDict → F) (r1 r2 : Option (List Result)) (lengths : List (List ℤ))
    (pattern : Option (List (List ℕ))) : Option (Pair F) := do
  let a ← Fitter.new curve r1 lengths pattern
  let b ← Fitter.new curve r2 lengths pattern
  let a ← a.addData curve r1
  let b ← b.addData curve r2
  let p : Pair F := ⟨lengths, pattern, a, b, []⟩
  if r1.isNone && r2.isNone then some p else p.fitData curve comb

end Verif.RB.Fit
