import Verif.Tomo.Gst
import Verif.Tomo.Circ
/-
Model of the driver of gate set tomography: qiskit/ignis/verification/tomography/fitters/gateset_fitter.py, `fit`, `_ideal_gateset`,
`GaugeOptimize.optimize`, `GST_Optimize.set_initial_value`, `optimize`, `_constraints` and `_process_result`.

Conventions as in `Gst.lean`.  The two calls of `scipy.optimize.minimize` and `scipy.linalg.schur` are parameters: functions of everything
the code passes to them.  An exception they raise is `none`.
-/
namespace Verif.Tomo
open Verif Verif.Counts Matrix

/-- gateset_fitter.py:638-643: a constraint handed to the optimiser: `eq` tells whether its type is 'eq' or 'ineq'. -/
structure Constraint where
  eq : Bool
  fn : List ℝ → Option (List ℝ)

/-- The numerical routines of scipy: the call in gateset_fitter.py:286, the one in 688-690, and `schur` in 298. -/
structure Numerics where
  gauge : ∀ {n : ℕ}, (Matrix (Fin n) (Fin n) ℝ → Option ℝ) → Matrix (Fin n) (Fin n) ℝ → Option (Matrix (Fin n) (Fin n) ℝ)
  slsqp : (List ℝ → Option ℝ) → List ℝ → List Constraint → Option (List ℝ)
  schur : CM → CM × CM

/-- gateset_fitter.py:149-159, `_default_init_state` and `_default_measurement_op`: only for one qubit, otherwise a `RuntimeError`. -/
noncomputable def defaultGround (n : ℕ) : Option (Fin n → ℝ) :=
  if n = 4 then some fun i => if i.val = 0 ∨ i.val = 3 then √(1/2) else 0 else none

/-- gateset_fitter.py:161-166, `_ideal_gateset`; a gate without a matrix is a `KeyError`.  The matrices are taken to have as many rows as
there are SPAM circuits: the result is an exception if that is not four. -/
noncomputable def idealGateset {n : ℕ} (gates : List Str) (mats : Dict Str (Matrix (Fin n) (Fin n) ℝ)) : Option (Dict Str (GstVal n)) := do
  let ms ← gates.mapM fun g => do some (g, ← mats.get? g)
  let v ← defaultGround n
  let d : Dict Str (GstVal n) := ms.foldl (fun d gm => d.set gm.1 (.gate gm.2)) []
  some ((d.set "E".toList (.meas v)).set "rho".toList (.prep v))

/-- gateset_fitter.py:218-225 and 280-287: `GaugeOptimize.__init__` and `optimize`.  `None` as a result of `_x_to_gateset` makes
`set_initial_value` fail, so it is an exception here. -/
noncomputable def gaugeOptimize {n : ℕ} (o : Numerics) (spam gates : List Str) (spec : Dict Str (List Str))
    (mats : Dict Str (Matrix (Fin n) (Fin n) ℝ)) (ideal initial : Dict Str (GstVal n)) : Option (Dict Str (GstVal n)) := do
  let fs ← spam.mapM fun f => do spamMatrix mats (← spec.get? f)
  match ideal.get? "rho".toList with
  | some (.prep rho) => do
    let B ← o.gauge (gaugeObjective gates ideal initial) (gaugeStart (fun j => fs.getD j.val 0) rho)
    xToGateset gates initial B
  | _ => none

/-- A real vector as the arrays of the maximum likelihood step. -/
noncomputable def vecN {n : ℕ} (v : Fin n → ℝ) : ℕ → ℂ := fun k => if h : k < n then ((v ⟨k, h⟩ : ℝ) : ℂ) else 0

/-- The same for a matrix. -/
noncomputable def matN {n : ℕ} (m : Matrix (Fin n) (Fin n) ℝ) : ℕ → ℕ → ℂ :=
  fun i j => if h : i < n ∧ j < n then ((m ⟨i, h.1⟩ ⟨j, h.2⟩ : ℝ) : ℂ) else 0

/-- gateset_fitter.py:677: the transfer matrix in an entry; an entry of another kind is an exception. -/
noncomputable def asGate {n : ℕ} : GstVal n → Option (ℕ → ℕ → ℂ)
  | .gate m => some (matN m)
  | _ => none

/-- gateset_fitter.py:670-678, `set_initial_value`.  An entry of the wrong kind (a gate called 'E') is an exception. -/
noncomputable def setInitialValue {n : ℕ} (schur : CM → CM × CM) (gates : List Str) (initial : Dict Str (GstVal n)) : Option (List ℝ) := do
  let e ← initial.get? "E".toList
  let r ← initial.get? "rho".toList
  let gs ← gates.mapM fun g => do asGate (← initial.get? g)
  match e, r with
  | .meas e, .prep r => some (joinInputVector schur (vecN e) (vecN r) gs)
  | _, _ => none

/-- gateset_fitter.py:627-643, `_constraints`. -/
noncomputable def mleConstraints (numGates : ℕ) : List Constraint :=
  [⟨true, rhoTrace numGates⟩, ⟨true, boundsEq numGates⟩, ⟨false, boundsIneq numGates⟩]

/-- An entry of the dictionary returned by `fit`: the 2×2 matrix of the `Operator` and the `DensityMatrix`, or the transfer matrix of a
gate. -/
inductive FitVal where
  | op (m : Matrix (Fin 2) (Fin 2) ℂ)
  | ptm (m : Matrix (Fin 4) (Fin 4) ℂ)

/-- gateset_fitter.py:654-668, `_process_result`. -/
noncomputable def processResult (gates : List Str) (x : List ℝ) : Option (Dict Str FitVal) := do
  let s ← splitInputVector gates.length x
  let d : Dict Str FitVal := Dict.set [] "E".toList (.op (Matrix.of fun i j => convertFromPtm s.1 i j))
  let d := d.set "rho".toList (.op (Matrix.of fun i j => convertFromPtm s.2.1 i j))
  some ((List.range gates.length).foldl
    (fun d i => d.set (gates.getD i []) (.ptm (Matrix.of fun a b => s.2.2.getD i (fun _ _ => 0) a b))) d)

/-- gateset_fitter.py:680-692, `optimize`. -/
noncomputable def mleOptimize (o : Numerics) (gates : List Str) (data : List (List ℕ × ℝ)) (start : List ℝ) : Option (Dict Str FitVal) := do
  let x ← o.slsqp (mleObjective data gates.length) start (mleConstraints gates.length)
  processResult gates x

/-- gateset_fitter.py:181-188: the first two steps of `fit`. -/
noncomputable def gstFirstGuess (o : Numerics) (spam gates : List Str) (spec : Dict Str (List Str))
    (mats : Dict Str (Matrix (Fin spam.length) (Fin spam.length) ℝ)) (probs : Dict Key ℝ) : Option (Dict Str (GstVal spam.length)) := do
  let lin ← linearInversion spam gates probs
  let ideal ← idealGateset gates mats
  gaugeOptimize o spam gates spec mats ideal lin

/-- gateset_fitter.py:168-195, `fit`. -/
noncomputable def gstFit (o : Numerics) (spam gates : List Str) (spec : Dict Str (List Str))
    (mats : Dict Str (Matrix (Fin spam.length) (Fin spam.length) ℝ)) (probs : Dict Key ℝ) : Option (Dict Str FitVal) := do
  let guess ← gstFirstGuess o spam gates spec mats probs
  let data ← objFnData gates spam spec probs
  let start ← setInitialValue o.schur gates guess
  mleOptimize o gates data start

end Verif.Tomo
