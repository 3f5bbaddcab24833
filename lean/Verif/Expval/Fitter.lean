import Verif.Expval.Model
import Verif.Expval.Ctmp
/-
Model of expval/fitter.py: the fitter object.
-/
namespace Verif.Expval
open Verif Verif.Counts Verif.Expval.Ctmp

variable {K : Type} [Field K] [LinearOrder K]

/-- A mitigator object by what it is constructed from (fitter.py:73, 81, 84): the assignment matrix with its number of qubits, the one-qubit matrices, or the
number of qubits and the generators with their rates. -/
inductive Mitigator (K : Type) where
  | complete (n : ℕ) (amat : Mat K)
  | tensored (amats : List (Mat K))
  | ctmp (n : ℕ) (gens : List (Gen × K))

/-- An `ExpvalMeasMitigatorFitter`: what `__init__` stores (fitter.py:38-53) and the fitted mitigator. -/
structure FitterState (K : Type) where
  cal : CalState
  mitigator : Option (Mitigator K)

/-- `__init__`, fitter.py:38-53. -/
def newFitter (counts : ℕ → IntCounts) (metadata : List Meta) : Option (FitterState K) :=
  (calibrationData counts metadata).map fun st => ⟨st, none⟩

/-- The `mitigator` property, fitter.py:55-60: raises before the first successful `fit`. -/
def fitterMitigator (s : FitterState K) : Option (Mitigator K) := s.mitigator

/-- `fit`, fitter.py:62-89; `logm` is the matrix logarithm used for CTMP.  When it raises, the object is unchanged. -/
def fitterFit (logm : Mat K → Option (Mat K)) (s : FitterState K) (method : Option Str) (generators : Option (List Gen)) : Option (FitterState K × Mitigator K) :=
  let method := method.or s.cal.method
  let done := fun m => (⟨s.cal, some m⟩, m)
  if method = some "complete".toList then (fitComplete s.cal).map fun r => done (Mitigator.complete r.1 r.2)
  else if method = some "tensored".toList then (fitTensored s.cal).map fun as => done (Mitigator.tensored as)
  else if method = some "CTMP".toList ∨ method = some "ctmp".toList then do
    let n ← s.cal.numQubits
    let g ← fitCtmp logm s.cal.data n generators
    pure (done (Mitigator.ctmp n g))
  else none

end Verif.Expval
