import Verif.Py.Basic
import Mathlib.Data.Rat.Defs
/-
Model of the choice of the fit method in qiskit/ignis/verification/tomography/fitters: `fit` of base_fitter.py, state_fitter.py and
process_fitter.py, and the cached search for a solver.

Conventions: the two fit functions are not run: the result is the call that is made, with all its arguments.  Keyword arguments are a
dictionary.  A name bound twice, or unknown to `lstsq_fit`, is a `TypeError`.  The data and the matrix are not arguments of the model:
`data` says whether `_fitter_data` succeeds and with how many columns.
-/
namespace Verif.Tomo
open Verif

/-- What is installed: whether `cvxpy` imports (cvx_fit.py:25-29), `cvxpy.installed_solvers()`, and whether the example problem of
base_fitter.py:540-543 is solved by SCS. -/
structure SolverEnv where
  hasCvx : Bool
  solvers : List Str
  scsWorks : Bool

/-- The three classes. -/
inductive Cls where
  | base | state | process
  deriving DecidableEq, Repr

/-- The class attributes `_HAS_SDP_SOLVER` and `_HAS_SDP_SOLVER_NOT_SCS` set on each class itself; `none` if it is not set (for the base
class: `None`). -/
structure ClsAttrs where
  sdp : Cls → Option Bool
  notScs : Cls → Option Bool

/-- base_fitter.py:42-43: the attributes when the module is loaded. -/
def freshAttrs : ClsAttrs := ⟨fun _ => none, fun c => if c = .base then some false else none⟩

/-- Attribute lookup: the class itself, then the base class. -/
def ClsAttrs.getSdp (a : ClsAttrs) (c : Cls) : Option Bool := (a.sdp c).or (a.sdp .base)

/-- Attribute lookup. -/
def ClsAttrs.getNotScs (a : ClsAttrs) (c : Cls) : Bool := ((a.notScs c).or (a.notScs .base)).getD false

/-- `cls._HAS_SDP_SOLVER = v`. -/
def ClsAttrs.setSdp (a : ClsAttrs) (c : Cls) (v : Bool) : ClsAttrs := { a with sdp := fun c' => if c' = c then some v else a.sdp c' }

/-- `cls._HAS_SDP_SOLVER_NOT_SCS = v`. -/
def ClsAttrs.setNotScs (a : ClsAttrs) (c : Cls) (v : Bool) : ClsAttrs := { a with notScs := fun c' => if c' = c then some v else a.notScs c' }

/-- base_fitter.py:523-548, `_check_for_sdp_solver`. -/
def checkSolver (env : SolverEnv) (c : Cls) (a : ClsAttrs) : ClsAttrs :=
  if a.getSdp c = none then
    if env.hasCvx && (env.solvers.contains "CVXOPT".toList || env.solvers.contains "MOSEK".toList) then
      (a.setNotScs c true).setSdp c true
    else if env.hasCvx && env.solvers.contains "SCS".toList && env.scsWorks then a.setSdp c true
    else a.setSdp c false
  else a

/-- Values of keyword arguments. -/
inductive ArgVal where
  | none
  | bool (b : Bool)
  | num (q : ℚ)
  | other (tag : ℕ)
  deriving DecidableEq, Repr

/-- The errors. -/
inductive FitErr where
  | typeError | data | qiskit
  deriving DecidableEq, Repr

/-- The call that is made. -/
inductive FitCall where
  | lstsq (standard : Bool) (beta : ℚ) (psd trace : ArgVal)
  | cvx (standard : Bool) (beta : ℚ) (psd trace tracePreserving : ArgVal) (extra : Dict Str ArgVal)

/-- Keyword arguments of `fit`: the method, the weights, the hedging parameter and the rest. -/
structure FitArgs where
  method : Str := "auto".toList
  standard : Bool := true
  beta : ℚ := 1/2
  kwargs : Dict Str ArgVal := []

/-- Names that the fit functions receive from `fit` itself: a keyword argument of the same name is a `TypeError`. -/
def ownNames : List Str := ["data".toList, "basis_matrix".toList, "weights".toList]

/-- base_fitter.py:113-238, `TomographyFitter.fit` with its named arguments bound. -/
def runFit (env : SolverEnv) (c : Cls) (a : ClsAttrs) (ok : Bool) (method : Str) (standard : Bool) (beta : ℚ) (psd trace tp : ArgVal)
    (extra : Dict Str ArgVal) : ClsAttrs × Except FitErr FitCall :=
  if !ok then (a, .error .data) else
  let a' := if method = "auto".toList then checkSolver env c a else a
  let method := if method = "auto".toList then (if a'.getNotScs c then "cvx".toList else "lstsq".toList) else method
  if method = "lstsq".toList then
    (a', if extra.isEmpty then .ok (.lstsq standard beta psd trace) else .error .typeError)
  else if method = "cvx".toList then
    (a', if ownNames.any fun n => extra.has n then .error .typeError else .ok (.cvx standard beta psd trace tp extra))
  else (a', .error .qiskit)

/-- The keyword arguments other than those named. -/
def without (d : Dict Str ArgVal) (names : List Str) : Dict Str ArgVal := d.filter fun kv => !names.contains kv.1

/-- base_fitter.py:113-238: `TomographyFitter.fit` on an instance of class `c`. -/
def baseFit (env : SolverEnv) (c : Cls) (a : ClsAttrs) (ok : Bool) (x : FitArgs) : ClsAttrs × Except FitErr FitCall :=
  runFit env c a ok x.method x.standard x.beta (x.kwargs.getD "psd".toList (.bool true)) (x.kwargs.getD "trace".toList .none)
    (x.kwargs.getD "trace_preserving".toList (.bool false)) (without x.kwargs ["psd".toList, "trace".toList, "trace_preserving".toList])

/-- state_fitter.py:47-119, `StateTomographyFitter.fit`: `psd` and `trace` are given, so that giving them again is a `TypeError`. -/
def stateFit (env : SolverEnv) (a : ClsAttrs) (ok : Bool) (x : FitArgs) : ClsAttrs × Except FitErr FitCall :=
  if x.kwargs.has "psd".toList || x.kwargs.has "trace".toList then (a, .error .typeError) else
  baseFit env .state a ok { x with kwargs := (x.kwargs.set "trace".toList (.num 1)).set "psd".toList (.bool true) }

/-- process_fitter.py:28-138, `ProcessTomographyFitter.fit`; `cols` is the number of columns of the matrix, `none` if the data cannot be
prepared, and the integer root is the one of the code if there is one. -/
def processFit (env : SolverEnv) (a : ClsAttrs) (cols : Option ℕ) (x : FitArgs) : ClsAttrs × Except FitErr FitCall :=
  match cols with
  | none => (a, .error .data)
  | some cols =>
    let dim := Nat.sqrt (Nat.sqrt cols)
    if dim ^ 4 ≠ cols then (a, .error .data) else
    let a' := if x.method = "auto".toList then checkSolver env .process a else a
    let method := if x.method = "auto".toList then (if a'.getSdp .process = some true then "cvx".toList else "lstsq".toList) else x.method
    if method = "lstsq".toList then
      (a', if (without x.kwargs ["psd".toList]).isEmpty then
        .ok (.lstsq x.standard x.beta (x.kwargs.getD "psd".toList (.bool true)) (.num dim)) else .error .typeError)
    else if method = "cvx".toList then
      (a', if (["trace".toList, "trace_preserving".toList] ++ ownNames).any fun n => x.kwargs.has n then .error .typeError
        else .ok (.cvx x.standard x.beta (x.kwargs.getD "psd".toList (.bool true)) (.num dim) (.bool true)
          (without x.kwargs ["psd".toList])))
    else (a', .error .qiskit)

/-- One use of a fitter: its class, its data and the arguments of `fit`. -/
structure FitUse where
  cls : Cls
  cols : Option ℕ
  args : FitArgs

/-- The `fit` of the class. -/
def FitUse.run (env : SolverEnv) (u : FitUse) (a : ClsAttrs) : ClsAttrs × Except FitErr FitCall :=
  match u.cls with
  | .base => baseFit env .base a u.cols.isSome u.args
  | .state => stateFit env a u.cols.isSome u.args
  | .process => processFit env a u.cols u.args

end Verif.Tomo
