import Verif.Py.Split
import Mathlib.Data.Rat.Defs
/-
Model of `qiskit/ignis/verification/topological_codes/circuits.py` and `…/fitters.py`.

The circuits contain only X, CX, measure and reset, so on computational basis states a classical
simulation is exact; this is the semantics used here.  Barriers are omitted (no effect).
-/
namespace Verif.RepCode
open Verif

/-- Qubits of the two quantum registers, circuits.py:49-50. -/
inductive Qb where
  | link (j : Nat)
  | code (j : Nat)
  deriving DecidableEq, Repr

/-- Classical registers: `round_t_link_bit` (circuits.py:111-112) and `code_bit` (line 54). -/
inductive Reg where
  | round (t : Nat)
  | code
  deriving DecidableEq, Repr

/-- A classical bit: register and index. -/
abbrev Cl := Reg × Nat

/-- Circuit instructions used by the code. -/
inductive Op where
  | x (q : Qb)
  | cx (c t : Qb)
  | measure (q : Qb) (c : Cl)
  | reset (q : Qb)
  deriving DecidableEq, Repr

/-- A circuit: its instructions and its classical registers with sizes in order of addition. -/
structure Circuit where
  ops : List Op
  cregs : List (Reg × Nat)

/-- State of a `RepetitionCode` object: `d`, `T`, `link_bits`, and the two circuits
(`circ false` is `self.circuit['0']`). -/
structure Code where
  d : Nat
  T : Nat
  linkBits : List Reg
  circ : Bool → Circuit

/-- Append instructions to a circuit. -/
def Circuit.add (c : Circuit) (l : List Op) : Circuit := { c with ops := c.ops ++ l }

/-- `circuit.add_register`. -/
def Circuit.addReg (c : Circuit) (r : Reg) (n : Nat) : Circuit := { c with cregs := c.cregs ++ [(r, n)] }

/-- `RepetitionCode.x`, circuits.py:80-94 (without the optional barrier): logical X on the
circuits listed in `logs`. -/
def Code.x (self : Code) (logs : List Bool) : Code :=
  { self with
    circ := fun b =>
      if b ∈ logs then (self.circ b).add ((List.range self.d).map fun j => Op.x (Qb.code j))
      else self.circ b }

/-- `syndrome_measurement`, circuits.py:103-134 (without the optional barrier). -/
def Code.syndromeMeasurement (self : Code) (reset : Bool) : Code :=
  let linkBits := self.linkBits ++ [Reg.round self.T]
  { self with
    linkBits := linkBits
    circ := fun b =>
      ((((self.circ b).addReg (Reg.round self.T) (self.d - 1)).add
        ((List.range (self.d - 1)).map fun j => Op.cx (Qb.code j) (Qb.link j))).add
        ((List.range (self.d - 1)).map fun j => Op.cx (Qb.code (j + 1)) (Qb.link j))).add
        ((List.range (self.d - 1)).flatMap fun j =>
          [Op.measure (Qb.link j) (linkBits.getD self.T Reg.code, j)] ++
            (if reset then [Op.reset (Qb.link j)] else []))
    T := self.T + 1 }

/-- `readout`, circuits.py:136-143. -/
def Code.readout (self : Code) : Code :=
  { self with
    circ := fun b =>
      ((self.circ b).addReg Reg.code self.d).add
        ((List.range self.d).map fun j => Op.measure (Qb.code j) (Reg.code, j)) }

/-- `for _ in range(n): self.syndrome_measurement()`, circuits.py:63-64. -/
def Code.rounds : Nat → Code → Code
  | 0, self => self
  | n + 1, self => Code.rounds n (self.syndromeMeasurement true)

/-- `RepetitionCode.__init__`, circuits.py:29-68. -/
def mkCode (d T : Nat) : Code :=
  let self : Code := { d := d, T := 0, linkBits := [], circ := fun _ => ⟨[], []⟩ }
  let self := self.x [true]                         -- `_preparation`, lines 96-101
  let self := self.rounds (T - 1)
  if T ≠ 0 then (self.syndromeMeasurement false).readout else self

/-! ### Execution on a noiseless backend -/

/-- State of the simulation: qubit values and classical memory. -/
structure Sim where
  q : Qb → Bool
  m : Cl → Bool

/-- Effect of one instruction on a computational basis state. -/
def step (s : Sim) : Op → Sim
  | .x a => { s with q := fun b => if b = a then !s.q a else s.q b }
  | .cx a t => { s with q := fun b => if b = t then (s.q t).xor (s.q a) else s.q b }
  | .measure a c => { s with m := fun e => if e = c then s.q a else s.m e }
  | .reset a => { s with q := fun b => if b = a then false else s.q b }

/-- Run a list of instructions. -/
def run (l : List Op) (s : Sim) : Sim := l.foldl step s

/-- All qubits and classical bits start at 0. -/
def Sim.zero : Sim := ⟨fun _ => false, fun _ => false⟩

def bitChar (b : Bool) : Char := if b then '1' else '0'

/-- The key under which Qiskit reports a classical memory: registers in reverse order of addition
separated by a blank, bit 0 of each register right-most (terra's `get_counts` convention). -/
def countsKey (cregs : List (Reg × Nat)) (m : Cl → Bool) : Str :=
  joinSep [' '] (cregs.reverse.map fun r =>
    (List.range r.2).reverse.map fun j => bitChar (m (r.1, j)))

/-- The (only) outcome of a circuit. -/
def outcome (c : Circuit) : Str := countsKey c.cregs (run c.ops Sim.zero).m

/-! ### `process_results` -/

/-- Python's `l[-k]` for `k ≥ 1` (`none`: IndexError). -/
def negIdx {α : Type} (l : List α) (k : Nat) : Option α :=
  if 1 ≤ k ∧ k ≤ l.length then l[l.length - k]? else none

/-- One iteration of the loop over `j`, circuits.py:184-190. -/
def changeAt (syndromeList : List Str) (t j : Nat) : Option Char := do
  if t = 0 then
    let a ← negIdx syndromeList 1
    let c ← a[j]?
    pure (bitChar (c != '0'))
  else
    let a ← negIdx syndromeList t
    let b ← negIdx syndromeList (t + 1)
    let c ← a[j]?
    let e ← b[j]?
    pure (bitChar (c != e))

/-- Body of the loop over the strings, circuits.py:167-195; `none` is an IndexError. -/
def processString (d T : Nat) (string : Str) : Option Str := do
  let first ← string[0]?
  let last ← string[d - 1]?
  let measuredLog := first :: ' ' :: [last]
  let final ← (List.range (d - 1)).mapM fun j => do
    let a ← string[j]?
    let b ← string[j + 1]?
    pure (if a = b then '0' else '1')
  let fullSyndrome := final ++ string.drop d
  let syndromeList := splitChar ' ' fullSyndrome
  let blocks ← (List.range (T + 1)).mapM fun t => do
    let cs ← (List.range (d - 1)).mapM fun j => changeAt syndromeList t j
    pure (cs ++ [' '])
  let syndromeChanges := blocks.flatten
  pure (measuredLog ++ [' ', ' '] ++ syndromeChanges.dropLast)

/-- `process_results` on the counts of one logical value, circuits.py:166-197. -/
def processCounts (d T : Nat) (counts : Dict Str Nat) : Option (Dict Str Nat) :=
  counts.foldlM (fun (acc : Dict Str Nat) kv => do
    let s ← processString d T kv.1
    pure (acc.set s kv.2)) []

/-- `process_results`, circuits.py:145-199. -/
def processResults (d T : Nat) (raw : Dict Str (Dict Str Nat)) : Option (Dict Str (Dict Str Nat)) :=
  raw.foldlM (fun acc kv => do
    let r ← processCounts d T kv.2
    pure (acc.set kv.1 r)) []

/-! ### Decoding -/

/-- `GraphDecoder._separate_string`, fitters.py:66-71. -/
def separateString (s : Str) : List (List Str) := (splitDouble s).map (splitChar ' ')

/-- `GraphDecoder._string2nodes`, fitters.py:73-88. -/
def string2nodes (s : Str) : List (Nat × Nat × Nat) :=
  (separateString s).zipIdx.flatMap fun (ty, synType) =>
    ty.zipIdx.flatMap fun (elements, synRound) =>
      elements.zipIdx.filterMap fun (element, elemNum) =>
        if element = '1' then some (synType, synRound, elemNum) else none

/-- `a / b` of Python; `none` is a ZeroDivisionError. -/
def pyDiv (a b : Nat) : Option Rat := if b = 0 then none else some ((a : Rat) / b)

/-- `postselection_decoding` for one logical value, fitters.py:372-397. -/
def postselection (log : Str) (results : Dict Str Nat) : Option Rat := do
  let selected := results.filter fun kv =>
    (joinSep [' ', ' '] ((splitDouble kv.1).drop 1)).all fun c => c = '0' || c = ' '
  let (shots, incorrect) ← selected.foldlM (fun (acc : Nat × Nat) kv => do
    let c ← kv.1[0]?
    pure (acc.1 + kv.2, if [c] ≠ log then acc.2 + kv.2 else acc.2)) (0, 0)
  pyDiv incorrect shots

/-- `lookuptable_decoding` for one logical value, fitters.py:425-443.  `log` is `true` for `'1'`;
`train` gives the two training dictionaries. -/
def lookuptable (train : Bool → Dict Str Nat) (log : Bool) (real : Dict Str Nat) : Option Rat :=
  let acc := real.foldl (fun (acc : Nat × Nat) kv =>
    let p := fun testlog => (train testlog).getD kv.1 0
    (acc.1 + kv.2, if p (!log) > p log then acc.2 + kv.2 else acc.2)) (0, 0)
  pyDiv acc.2 acc.1

/-- `GraphDecoder.get_logical_prob` for one logical value, fitters.py:328-356, with algorithm
`'matching'`.  `matching` (the corrected logical string) is a parameter: the minimum weight
matching itself is computed by networkx. -/
def logicalProb (matching : Str → Str) (log : Str) (results : Dict Str Nat) : Option Rat := do
  let corrected := results.foldl (fun (acc : Dict Str Nat) kv =>
    let s := matching kv.1
    match acc.get? s with
    | some v => acc.set s (v + kv.2)
    | none => acc.set s kv.2) []
  let (shots, incorrect) ← corrected.foldlM (fun (acc : Nat × Nat) kv => do
    let c ← kv.1[0]?
    pure (acc.1 + kv.2, if [c] ≠ log then acc.2 + kv.2 else acc.2)) (0, 0)
  pyDiv incorrect shots

/-- The circuit with one X error inserted before instruction `i`, as built by
`GraphDecoder._make_syndrome_graph`, fitters.py:116-122.  Y errors act like X on basis states up to
a phase and Z errors only change a phase. -/
def inject (c : Circuit) (i : Nat) (q : Qb) : Circuit :=
  { c with ops := c.ops.take i ++ Op.x q :: c.ops.drop i }

end Verif.RepCode
