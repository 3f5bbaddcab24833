import Verif.Py.Basic
import Verif.Py.Fmt
import Mathlib.Algebra.Field.Basic
import Mathlib.Data.List.Sort
/-
Model of `qiskit/ignis/characterization/calibrations/pulse_schedules.py` and of `update_u_gates` in
`qiskit/ignis/characterization/calibrations/ibmq_utils.py`.

A schedule is a list of instructions with start times.  The pulse library of qiskit-terra (sampling of envelopes) and its `measure`
macro are not part of the code base: a pulse is represented by its parameters, the measurement schedule is a parameter.
-/
namespace Verif.Calib
open Verif

/-- Channels of the device. -/
inductive Chan
  | drive (n : ℕ)
  | control (n : ℕ)
  | readout (n : ℕ)
  | acquire (n : ℕ)
deriving DecidableEq

/-- A Gaussian (`beta = none`) or DRAG pulse. -/
structure Pulse (A : Type) where
  dur : ℕ
  amp : A
  sigma : A
  beta : Option A
deriving DecidableEq

/-- An instruction.  `other` stands for the instructions of the measurement. -/
inductive PInstr (A : Type)
  | play (p : Pulse A) (ch : Chan)
  | shiftPhase (phase : A) (ch : Chan)
  | other (dur : ℕ) (chs : List Chan)
deriving DecidableEq

variable {A : Type}

def PInstr.chans : PInstr A → List Chan
  | .play _ ch => [ch]
  | .shiftPhase _ ch => [ch]
  | .other _ chs => chs

def PInstr.dur : PInstr A → ℕ
  | .play p _ => p.dur
  | .shiftPhase _ _ => 0
  | .other d _ => d

/-- A schedule: instructions with their start times. -/
abbrev Sched (A : Type) := List (ℕ × PInstr A)

/-- `Schedule.shift`. -/
def shift (t : ℕ) (s : Sched A) : Sched A := s.map fun x => (x.1 + t, x.2)

/-- `Schedule.channels`. -/
def channels (s : Sched A) : List Chan := s.flatMap fun x => x.2.chans

/-- `Schedule.ch_stop_time(*chs)`: when the last instruction on one of the channels ends; 0 if there is none. -/
def chStop (s : Sched A) (chs : List Chan) : ℕ :=
  (s.map fun x => if x.2.chans.any (fun c => decide (c ∈ chs)) then x.1 + x.2.dur else 0).foldl max 0

/-- `Schedule.append`, which `+=` calls: the child starts when the channels it shares with the schedule become free. -/
def append (s child : Sched A) : Sched A := s ++ shift (chStop s ((channels child).filter fun c => decide (c ∈ channels s))) child

/-- `drives[qubit]`; an index out of range raises. -/
def drivesAt (drives : List Chan) (qubits : List ℕ) : Option (List Chan) := qubits.mapM fun q => drives[q]?

/-- The standard deviation of the pulse, pulse_schedules.py:69-70, 131-132. -/
def sigmaOf [Field A] (sigma : Option A) (width : ℕ) (ratio : A) : A := sigma.getD ((width : A) / ratio)

/-- One schedule of `rabi_schedules`, pulse_schedules.py:75-83. -/
def rabiSched (chs : List Chan) (meas : Sched A) (p : Pulse A) : Sched A :=
  append (chs.foldl (fun s c => append s [(0, .play p c)]) []) (shift p.dur meas)

/-- `rabi_schedules`, pulse_schedules.py:26-86: names and schedules.  `meas` is what `measure(qubits, …)` returns.  The checks of
lines 62-67 create an exception without raising it and have no effect. -/
def rabiSchedules [Field A] (amps : List A) (qubits : List ℕ) (width : ℕ) (sigma : Option A) (ratio : A) (drives : List Chan)
    (meas : Sched A) : Option (List (Str × Sched A)) :=
  amps.zipIdx.mapM fun p => do
    let chs ← drivesAt drives qubits
    some ("rabisched_".toList ++ fmtD p.2 ++ "_0".toList, rabiSched chs meas ⟨width, p.1, sigmaOf sigma width ratio, none⟩)

/-- One schedule of `drag_schedules`, pulse_schedules.py:137-151; `qs` lists the drive channel and the amplitude of each qubit. -/
def dragSched [Field A] (qs : List (Chan × A)) (meas : Sched A) (width : ℕ) (sigma beta : A) : Sched A :=
  append (qs.foldl (fun s q => append (append s [(0, .play ⟨width, q.2, sigma, some beta⟩ q.1)])
    [(0, .play ⟨width, -q.2, sigma, some beta⟩ q.1)]) []) (shift (2 * width) meas)

/-- `drag_schedules`, pulse_schedules.py:89-154.  `pulse_amp[qind]` raises if there are too few amplitudes. -/
def dragSchedules [Field A] (betas : List A) (qubits : List ℕ) (amps : List A) (width : ℕ) (sigma : Option A) (ratio : A)
    (drives : List Chan) (meas : Sched A) : Option (List (Str × Sched A)) :=
  betas.zipIdx.mapM fun p => do
    let chs ← drivesAt drives qubits
    if amps.length < qubits.length then none else
    some ("dragsched_".toList ++ fmtD p.2 ++ "_0".toList, dragSched (chs.zip amps) meas width (sigmaOf sigma width ratio) p.1)

/-! ### `update_u_gates` -/

/-- The group of channels in the frame of the drive channel, ibmq_utils.py:134-139, 144-149: the first group that contains it, or the drive
channel alone.  `groups` is what `_find_channel_groups` returns (in any order: it comes out of a set). -/
def groupOf (groups : List (List Chan)) (ch : Chan) : List Chan := (groups.find? fun g => decide (ch ∈ g)).getD [ch]

/-- A loop body of `_find_channel_groups`, ibmq_utils.py:186-189. -/
def syncStep [DecidableEq A] (d : Dict (ℕ × A) (List Chan)) (x : ℕ × PInstr A) : Dict (ℕ × A) (List Chan) :=
  match x.2 with
  | .shiftPhase ph ch => d.set (x.1, ph) (d.getD (x.1, ph) [] ++ [ch])
  | _ => d

/-- `_find_channel_groups`, ibmq_utils.py:170-195, for the schedule of the gate with all parameters zero. -/
def findChannelGroups [DecidableEq A] (s : Sched A) : List (List Chan) := ((s.foldl syncStep []).map (·.2)).dedup

/-- The schedule of U2 that `update_u_gates` installs, ibmq_utils.py:116-119, 141-142, 157-159, with its parameters bound.  The
π/2 pulse is a schedule starting at 0 and lasting `dur`. -/
def u2Sched [Field A] (pi : A) (x90 : Sched A) (dur : ℕ) (group : List Chan) (p0 p1 : A) : Sched A :=
  group.map (fun c => (0, .shiftPhase (-p1 + pi / 2) c)) ++ x90 ++ group.map (fun c => (dur, .shiftPhase (-p0 + -pi / 2) c))

/-- The schedule of U3, ibmq_utils.py:151-153, 162-164. -/
def u3Sched [Field A] (pi : A) (x90 : Sched A) (dur : ℕ) (group : List Chan) (p0 p1 p2 : A) : Sched A :=
  group.map (fun c => (0, .shiftPhase (-p2 + 0) c)) ++ x90 ++ group.map (fun c => (dur, .shiftPhase (-p0 + -pi) c))
    ++ shift dur x90 ++ group.map (fun c => (2 * dur, .shiftPhase (-p1 + pi) c))

/-- The order in which the instructions on one channel take effect: by start time, and instructions without duration first. -/
def timeline (s : Sched A) (ch : Chan) : Sched A :=
  (s.filter fun x => decide (ch ∈ x.2.chans)).insertionSort fun x y => x.1 < y.1 ∨ x.1 = y.1 ∧ x.2.dur ≤ y.2.dur

end Verif.Calib
