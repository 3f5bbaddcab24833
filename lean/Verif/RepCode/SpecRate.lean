import Verif.RepCode.SpecNoise
import Mathlib.Algebra.BigOperators.Ring.Finset
import Mathlib.Data.Real.Basic
import Mathlib.Data.Finset.Powerset
/-
Specification of random faults in a repetition code experiment and of its counts.
-/
namespace Verif.RepCode
open Verif

/-- Where a fault can happen: at a qubit before the instruction with the given index, or at the readout of a classical bit. -/
abbrev Place := (Nat × Qb) ⊕ Cl

/-- A place of the code. -/
def Place.Valid (d T : Nat) : Place → Prop
  | .inl x => x.2.Valid d
  | .inr c => ClValid d T c

/-- The faults of a run: Pauli errors and wrongly read bits. -/
structure Faults where
  errors : List Fault
  flips : List Cl

/-- Where they happen. -/
def Faults.places (f : Faults) : List Place := (f.errors.map fun e => .inl (e.1, e.2.1)) ++ f.flips.map .inr

/-- A distribution of faults over finitely many cases. -/
structure Noise (Ω : Type) [Fintype Ω] where
  prob : Ω → ℝ
  nonneg : ∀ ω, 0 ≤ prob ω
  total : ∑ ω, prob ω = 1
  faults : Ω → Faults

/-- Locally stochastic noise of strength `p` at the places `L`: no fault happens elsewhere, none twice at one place, and the probability that
there are faults at all places of a given set of `k` places is at most `p ^ k`.  Faults may be correlated and Pauli errors of any kind. -/
structure LocallyStochastic {Ω : Type} [Fintype Ω] (N : Noise Ω) (L : Finset Place) (p : ℝ) : Prop where
  nodup : ∀ ω, (N.faults ω).places.Nodup
  mem : ∀ ω, ∀ x ∈ (N.faults ω).places, x ∈ L
  bound : ∀ A ⊆ L, (∑ ω, if A ⊆ (N.faults ω).places.toFinset then N.prob ω else 0) ≤ p ^ A.card

instance : Fintype Pauli := ⟨{.x, .y, .z}, by intro a; cases a <;> simp⟩

/-- The probabilities of one place: no fault, or a fault of each kind (any kind at a classical bit is a wrong readout). -/
noncomputable def placeProb (q : Pauli → ℝ) : Option Pauli → ℝ
  | none => 1 - ∑ P, q P
  | some P => q P

/-- The faults of a choice of a fault or none for each place of a list. -/
def choiceFaults (l : List Place) (ω : Fin l.length → Option Pauli) : Faults :=
  ⟨(List.finRange l.length).filterMap fun i => match l.get i, ω i with
      | .inl a, some P => some (a.1, a.2, P)
      | _, _ => none,
    (List.finRange l.length).filterMap fun i => match l.get i, ω i with
      | .inr c, some _ => some c
      | _, _ => none⟩

/-- The counts key of a run of the circuit for logical value `b` with the given faults. -/
def runKey (d T : Nat) (b : Bool) (f : Faults) : Str :=
  countsKey ((mkCode d T).circ b).cregs (noisyMemory ((mkCode d T).circ b).ops f.errors f.flips)

/-- The counts of a list of shots, as a backend returns them. -/
def tally (keys : List Str) : Dict Str Nat := keys.foldl (fun d k => d.set k (d.getD k 0 + 1)) []

/-- What the decoder makes of a counts key. -/
noncomputable def decodeKey (mwm : WGraph (List Nat) → List (List Nat × List Nat)) (d T : Nat) (key : Str) : Option Str := do
  let S ← syndromeGraph (mkCode d T)
  let s ← processString d T key
  matching mwm S s

/-- `process_results` and `get_logical_prob` on the counts of one experiment. -/
noncomputable def reported (mwm : WGraph (List Nat) → List (List Nat × List Nat)) (d T : Nat) (b : Bool) (counts : Dict Str Nat) : Option Rat := do
  let S ← syndromeGraph (mkCode d T)
  let r ← processCounts d T counts
  logicalProb (fun s => (matching mwm S s).getD []) [bitChar b] r

/-- The probability that the decoder does not return the encoded value. -/
noncomputable def logicalErrorRate {Ω : Type} [Fintype Ω] (mwm : WGraph (List Nat) → List (List Nat × List Nat)) (d T : Nat) (b : Bool) (N : Noise Ω) : ℝ :=
  ∑ ω, if decodeKey mwm d T (runKey d T b (N.faults ω)) = some [bitChar b, ' ', bitChar b] then 0 else N.prob ω

/-- Whether postselection keeps a run with this counts key. -/
def accepted (d T : Nat) (key : Str) : Bool := (processString d T key).any trivialSyndrome

/-- Whether it keeps it and reads the wrong value. -/
def undetected (d T : Nat) (b : Bool) (key : Str) : Bool := (processString d T key).any fun s => trivialSyndrome s && decide (s.take 1 ≠ [bitChar b])

/-- The probability of an event described by the counts key. -/
noncomputable def keyRate {Ω : Type} [Fintype Ω] (d T : Nat) (b : Bool) (N : Noise Ω) (ev : Str → Bool) : ℝ :=
  ∑ ω, if ev (runKey d T b (N.faults ω)) = true then N.prob ω else 0

/-- All places of the circuit for logical value `b`: the qubits of every instruction and all classical bits. -/
def allPlaces (d T : Nat) (b : Bool) : List Place :=
  (((mkCode d T).circ b).ops.zipIdx.flatMap fun oi => oi.1.qubits.map fun q => .inl (oi.2, q)) ++
    ((List.range T).flatMap fun t => (List.range (d - 1)).map fun j => .inr (.round t, j)) ++ (List.range d).map fun k => .inr (.code, k)

end Verif.RepCode
