import Verif.Py.Basic
import Mathlib.Analysis.SpecialFunctions.Pow.Real
/-
Model of qiskit/ignis/verification/randomized_benchmarking/rb_utils.py.  Numbers are real numbers.
-/
namespace Verif.RB.Utils
open Verif

/-- An instruction of a transpiled circuit: its name and the indices of its qubits. -/
abbrev TIns := Str × List ℕ
/-- A nested dictionary of gate counts. -/
abbrev Counts (υ : Type) := Dict ℕ (Dict Str υ)

/-- rb_utils.py:127 `{qubit: {base: 0 for base in basis} for qubit in qubits}`; repeated keys keep one entry. -/
def initCounts (qubits : List ℕ) (basis : List Str) : Counts ℝ :=
  qubits.foldl (fun d q => d.set q (basis.foldl (fun e b => e.set b 0) [])) []

/-- rb_utils.py:149-153, `ngates[q][name] += 1` with `KeyError` ignored. -/
def bump (name : Str) (d : Counts ℝ) (q : ℕ) : Counts ℝ :=
  match d.get? q with
  | none => d
  | some e =>
    match e.get? name with
    | none => d
    | some v => d.set q (e.set name (v + 1))

/-- rb_utils.py:148-153, one instruction. -/
def countIns (d : Counts ℝ) (i : TIns) : Counts ℝ := i.2.foldl (bump i.1) d

/-- rb_utils.py:161-163, `ngates[qubit][base] /= total`. -/
noncomputable def divide (total : ℝ) (d : Counts ℝ) (qb : ℕ × Str) : Counts ℝ :=
  match d.get? qb.1 with
  | none => d
  | some e =>
    match e.get? qb.2 with
    | none => d
    | some v => d.set qb.1 (e.set qb.2 (v / total))

/-- rb_utils.py:68-165 `gates_per_clifford` for lists of circuits (the deprecated `QasmQobj` form is not
modelled); the first index of `circuits` is the seed.  An empty outer list raises (`[0]`). -/
noncomputable def gatesPerClifford (circuits : List (List (List TIns))) (lengths : List ℤ) (basis : List Str) (qubits : List ℕ) : Option (Counts ℝ) :=
  match circuits with
  | [] => none
  | _ =>
    let d := circuits.foldl (fun d cs => cs.foldl (fun d c => c.foldl countIns d) d) (initCounts qubits basis)
    let total : ℝ := circuits.length * ((lengths.map fun l => l + 1).sum : ℤ)
    some ((qubits.flatMap fun q => basis.map fun b => (q, b)).foldl (divide total) d)

/-- rb_utils.py:185-222 `coherence_limit`; `none` is the ValueError.  `T1`, `T2` hold positive numbers. -/
noncomputable def coherenceLimit (nQ : ℕ) (T1 : List ℝ) (T2' : Option (List ℝ)) (g : ℝ) : Option ℝ :=
  let T2 := T2'.getD (T1.map fun t => 2 * t)
  match nQ, T1, T2 with
  | 1, [a], [b] => some (1 / 2 * (1 - 2 / 3 * Real.exp (-g / b) - 1 / 3 * Real.exp (-g / a)))
  | 2, [a0, a1], [b0, b1] =>
    let t1 := 1 / 15 * Real.exp (-g / a0) + 1 / 15 * Real.exp (-g / a1) + 1 / 15 * Real.exp (-g * (1 / a0 + 1 / a1))
    let t2 := 2 / 15 * (Real.exp (-g / b0) + Real.exp (-g * (1 / b0 + 1 / a1))) +
      2 / 15 * (Real.exp (-g / b1) + Real.exp (-g * (1 / b1 + 1 / a0))) + 4 / 15 * Real.exp (-g * (1 / b0 + 1 / b1))
    some (3 / 4 * (1 - t1 - t2))
  | _, _, _ => none

/-- Python's `x ** y` on floats where the result is a real number: a negative base needs an integer
exponent (otherwise the result is complex), zero a non-negative one (otherwise ZeroDivisionError). -/
noncomputable def pow? (x y : ℝ) : Option ℝ :=
  open Classical in
  if (x < 0 ∧ ¬ ∃ k : ℤ, y = k) ∨ (x = 0 ∧ y < 0) then none else some (x ^ y)

/-- rb_utils.py:356-370 `calculate_1q_epg`.  A zero denominator raises ZeroDivisionError. -/
noncomputable def epg1q (gpc : Counts ℝ) (epc : ℝ) (qubit : ℕ) : Option (Dict Str ℝ) :=
  open Classical in
  match gpc.get? qubit with
  | none => none
  | some d =>
    match d.get? "u2".toList, d.get? "u3".toList with
    | some n2, some n3 =>
      if d.getD "cx".toList 0 > 0 then none
      else if n2 + 2 * n3 = 0 then none
      else some [("u1".toList, 0), ("u2".toList, epc / (n2 + 2 * n3)), ("u3".toList, 2 * epc / (n2 + 2 * n3))]
    | _, _ => none

/-- rb_utils.py:460-467 (and 625-632), the loop over one qubit's gates: `alpha *= (1 - f*epg) ** n`. -/
noncomputable def alphaLoop (f : ℝ) (d : Dict Str ℝ) (epgs : Dict Str ℝ) : Option ℝ :=
  epgs.foldlM (fun a ge => (pow? (1 - f * ge.2) (d.getD ge.1 0)).map fun p => a * p) 1

/-- rb_utils.py:459-467: the two one-qubit factors.  `zip` stops at the shorter list. -/
noncomputable def alphas (gpc : Counts ℝ) (pair : ℕ × ℕ) (epgs : List (Dict Str ℝ)) : Option (ℝ × ℝ) :=
  match epgs with
  | [] => some (1, 1)
  | [e0] => do
    let d0 ← gpc.get? pair.1
    let a0 ← alphaLoop 2 d0 e0
    some (a0, 1)
  | e0 :: e1 :: _ => do
    let d0 ← gpc.get? pair.1
    let a0 ← alphaLoop 2 d0 e0
    let d1 ← gpc.get? pair.2
    let a1 ← alphaLoop 2 d1 e1
    some (a0, a1)

/-- rb_utils.py:453-476 `calculate_2q_epg`.  A `qubit_pair` of another length raises and is not
representable; `alpha_c_1q = 0` raises ZeroDivisionError. -/
noncomputable def epg2q (gpc : Counts ℝ) (epc : ℝ) (pair : ℕ × ℕ) (epgs : List (Dict Str ℝ)) (name : Str) : Option ℝ :=
  open Classical in do
  let a ← alphas gpc pair epgs
  let c1 : ℝ := 1 / 5 * (a.1 + a.2 + 3 * a.1 * a.2)
  if c1 = 0 then none
  else
    let c2 := (1 - 4 / 3 * epc) / c1
    let d ← gpc.get? pair.1
    let n := d.getD name 0
    if n > 0 then some (3 / 4 * (1 - c2) / n) else none

/-- rb_utils.py:527-537 `calculate_1q_epc`. -/
noncomputable def epc1q (gpc : Counts ℝ) (epgs : Dict Str ℝ) (qubit : ℕ) : Option ℝ := do
  let d ← gpc.get? qubit
  let fid ← alphaLoop 1 d epgs
  some (1 - fid)

/-- rb_utils.py:616-636 `calculate_2q_epc`. -/
noncomputable def epc2q (gpc : Counts ℝ) (epg : ℝ) (pair : ℕ × ℕ) (epgs : List (Dict Str ℝ)) (name : Str) : Option ℝ :=
  open Classical in do
  let d ← gpc.get? pair.1
  let n := d.getD name 0
  if n = 0 then none
  else
    let p ← pow? (1 - 4 / 3 * epg) n
    let a ← alphas gpc pair epgs
    some (3 / 4 * (1 - 1 / 5 * (a.1 + a.2 + 3 * a.1 * a.2) * p))

/-- rb_utils.py:259-285, one step of the loop over the seven gate counts of `twoQ_clifford_error`. -/
noncomputable def twoQStep (s : ℝ × ℝ × ℝ) (g : ℝ × ℤ × ℝ) : Option (ℝ × ℝ × ℝ) :=
  if g.2.1 = -1 then (pow? (1 - 4 / 3 * g.2.2) g.1).map fun p => (s.1, s.2.1, s.2.2 * p)
  else (pow? (1 - 2 * g.2.2) g.1).bind fun p =>
    if g.2.1 = 0 ∨ g.2.1 = -2 then some (s.1 * p, s.2.1, s.2.2)
    else if g.2.1 = 1 then some (s.1, s.2.1 * p, s.2.2)
    else none

/-- rb_utils.py:225-285 `twoQ_clifford_error` (deprecated).  `sorted(ngates.items())` of a dictionary with
two keys is given by the entries of the smaller and the larger qubit; another number of keys raises. -/
noncomputable def twoQError (ngates : Counts ℝ) (gateQubit : List ℤ) (gateErr : List ℝ) : Option ℝ :=
  match ngates with
  | [x, y] =>
    let lo := if x.1 < y.1 then x.2 else y.2
    let hi := if x.1 < y.1 then y.2 else x.2
    let l : List ℝ := [lo.getD "u1".toList 0, lo.getD "u2".toList 0, lo.getD "u3".toList 0,
      hi.getD "u1".toList 0, hi.getD "u2".toList 0, hi.getD "u3".toList 0, lo.getD "cx".toList 0]
    if gateQubit.length < 7 ∨ gateErr.length < 7 then none
    else do
      let s ← (l.zip (gateQubit.zip gateErr)).foldlM twoQStep (1, 1, 1)
      some ((1 - 1 / 5 * ((s.1 + s.2.1) + 3 * (s.1 * s.2.1)) * s.2.2) * 3 / 4)
  | _ => none

end Verif.RB.Utils
