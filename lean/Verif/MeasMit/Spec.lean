import Verif.MeasMit.Model
import Verif.Py.BitStrings
import Mathlib.Data.Matrix.Mul
import Mathlib.Algebra.BigOperators.Fin
/-
Specification side: what the calibration circuits do on ideal qubits, what a calibration matrix
should contain, what a pseudo-inverse is and what a Kronecker product of group matrices is.
-/
namespace Verif.MeasMit
open Verif

/-! ## Ideal execution of X / measure circuits -/

structure Sim where
  q : Nat → Bool
  m : Nat → Bool

/-- All qubits in |0⟩, all classical bits 0. -/
def Sim.zero : Sim := ⟨fun _ => false, fun _ => false⟩

/-- An X gate flips a computational-basis qubit, a measurement copies it. -/
def Sim.step (s : Sim) : Op → Sim
  | .x q => { s with q := fun i => if i = q then !s.q i else s.q i }
  | .measure q c => { s with m := fun i => if i = c then s.q q else s.m i }

def Sim.run (ops : List Op) : Sim := ops.foldl Sim.step Sim.zero

def bitChar (b : Bool) : Char := if b then '1' else '0'

/-- The counts key of the classical register: bit 0 is the right-most character. -/
def readout (c : Circ) : Str := (List.range c.nc).reverse.map fun i => bitChar ((Sim.run c.ops).m i)

/-! ## Calibration data -/

/-- One batch of identical shots: prepared string, measured string, number of shots. -/
structure Shot where
  prepared : Str
  measured : Str
  count : ℚ

/-- The calibration shots contained in the results: for every experiment whose name designates a
prepared state, the items of the counts stored under this name. -/
def shots (circlabel : Str) (results : List Result) : List Shot :=
  results.flatMap fun r => r.flatMap fun e =>
    match calState circlabel e.1 with
    | none => []
    | some state => ((getCounts r e.1).getD []).map fun p => ⟨state, p.1, p.2⟩

/-- Number of shots satisfying a condition. -/
def total (l : List Shot) (cond : Shot → Bool) : ℚ := ((l.filter cond).map (·.count)).sum

/-- The characters of a register string that belong to group `g` of a list of group sizes:
group 0 is at the right end, each next group to the left of it. -/
def part (sizes : List Nat) (g : Nat) (s : Str) : Str :=
  let right := (sizes.take g).sum
  ((s.reverse.drop right).take (sizes.getD g 0)).reverse

/-! ## Pseudo-inverse -/

/-- The first `n` rows and columns. -/
def toMatrix {K : Type} (n : Nat) (m : Mat K) : Matrix (Fin n) (Fin n) K := fun i j => m i j

/-- The four Moore-Penrose equations for real matrices. -/
def IsPinv {K : Type} [Field K] (n : Nat) (a x : Mat K) : Prop :=
  let A := toMatrix n a
  let X := toMatrix n x
  A * X * A = A ∧ X * A * X = X ∧ (A * X).transpose = A * X ∧ (X * A).transpose = X * A

/-- `a` is an invertible `n × n` matrix. -/
def Invertible {K : Type} [Field K] (n : Nat) (a : Mat K) : Prop :=
  ∃ B : Matrix (Fin n) (Fin n) K, toMatrix n a * B = 1 ∧ B * toMatrix n a = 1

/-- Every column sums to one. -/
def ColumnStochastic {K : Type} [Field K] (n : Nat) (a : Mat K) : Prop :=
  ∀ j, j < n → ((List.range n).map fun i => a i j).sum = 1

/-! ## Tensor products -/

/-- The entry of a group matrix at a pair of labels of the group. -/
def entry {K : Type} (labels : List Str) (m : Mat K) (s t : Str) : K :=
  m (labels.idxOf s) (labels.idxOf t)

/-- The Kronecker product of the group matrices at a pair of register strings, group 0 being the
right-most part of the string. -/
def kron {K : Type} [Field K] : List (List Str × Nat × Mat K) → Str → Str → K
  | [], _, _ => 1
  | (labels, k, m) :: gs, s, t =>
    kron gs (s.take (s.length - k)) (t.take (t.length - k)) *
      entry labels m (s.drop (s.length - k)) (t.drop (t.length - k))

/-- The value of a counts dictionary at a string, zero when absent. -/
def val {K : Type} [Zero K] (d : Dict Str K) (s : Str) : K := Dict.getD d s 0

end Verif.MeasMit

namespace Verif.MeasMit
open Verif

/-! ## Histories of `add_data` calls -/

/-- One call: the results (or `None`) and the `rebuild_cal_matrix` flag. -/
abbrev Call := Option (List Result) × Bool

/-- A sequence of `add_data` calls on a fitter; `none` when a call raised. -/
def Fitter.run (f : Fitter) (calls : List Call) : Option Fitter :=
  calls.foldlM (fun f c => f.addData c.1 c.2) f

/-- All results passed by a sequence of calls. -/
def passed (calls : List Call) : List Result := calls.flatMap fun c => c.1.getD []

/-! ## Calibration of a subset of the qubits -/

/-- The characters of register string `l` belonging to the qubits at positions `pos` of the qubit
list; position 0 is the right-most character of `l`, and the qubit `pos[0]` gives the right-most
character of the result. -/
def restrict (pos : List Nat) (l : Str) : Str :=
  (pos.map fun p => l.getD (l.length - 1 - p) ' ').reverse

/-- Average, over the prepared labels that agree with `t` on the chosen qubits, of the probability
of reading a label that agrees with `s` on the chosen qubits. -/
def subsetSpec (labels : List Str) (cal : Mat ℚ) (pos : List Nat) (s t : Str) : ℚ :=
  let preps := labels.zipIdx.filter fun l => restrict pos l.1 = t
  let reads := labels.zipIdx.filter fun l => restrict pos l.1 = s
  (preps.map fun l => (reads.map fun r => cal r.2 l.2).sum).sum / (preps.length : ℚ)

end Verif.MeasMit
