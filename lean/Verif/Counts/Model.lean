import Verif.Py.Basic
import Mathlib.Data.List.Sort
/-
Model of `qiskit/ignis/verification/tomography/data.py` and `qiskit/ignis/utils.py`.

Counts are integers (`Int`): the code only adds them, compares them with 0 and negates them.
-/
namespace Verif.Counts
open Verif

/-- A counts dictionary. -/
abbrev Counts := Dict Str Int

/-- `count_keys`, data.py:104-116 – `[bin(j)[2:].zfill(num_qubits) for j in range(2 ** num_qubits)]`. -/
def countKeys (n : Nat) : List Str := (List.range (2 ^ n)).map fun j => zfill n (binDigits j)

/-- One element of the regular expressions built at data.py:76-83: a literal character or `\d`. -/
inductive Rgx where
  | lit (c : Char)
  | digit
deriving DecidableEq

/-- `re.match` for a sequence of such elements (data.py:90): a *prefix* match.
`\d` is modelled as the ASCII digits. -/
def rgxMatch : List Rgx → Str → Bool
  | [], _ => true
  | _ :: _, [] => false
  | .lit c :: r, d :: s => (c == d) && rgxMatch r s
  | .digit :: r, d :: s => d.isDigit && rgxMatch r s

/-- The inner `helper` of data.py:79-82.  `key[qubits.index(y)]` cannot fail because
`key` has at least `len(qubits)` characters. -/
def rgxHelper (qubits : List Nat) (key : Str) (x : List Rgx) (y : Nat) : List Rgx :=
  if y ∈ qubits then Rgx.lit (key.getD (qubits.idxOf y) '?') :: x else Rgx.digit :: x

/-- data.py:83 – `reduce(helper, range(num_qubits), '')`. -/
def mkRgx (numQubits : Nat) (qubits : List Nat) (key : Str) : List Rgx :=
  (List.range numQubits).foldl (rgxHelper qubits key) []

/-- data.py:88-92 – sum of the counts of the matching keys. -/
def matchSum (counts : Counts) (m : List Rgx) : Int :=
  counts.foldl (fun c kv => if rgxMatch m (trimSpaces kv.1) then c + kv.2 else c) 0

/-- `sorted(meas_qubits, reverse=True)`, data.py:71. -/
def sortDesc (l : List Nat) : List Nat := l.insertionSort (· ≥ ·)

/-- `marginal_counts`, data.py:33-101.  `none` as result is the exception raised by
`next(iter(counts))` on an empty dictionary.  `measQubits = none` stands for the
default value `True`.  Qubit indices are natural numbers (a negative index is never `in`
`range(num_qubits)`, so it behaves like an index that is too large). -/
def marginalCounts (counts : Counts) (measQubits : Option (List Nat)) (padZeros : Bool) :
    Option Counts :=
  match counts with
  | [] => none
  | first :: _ =>
    let numQubits := (trimSpaces first.1).length
    -- lines 60-65
    let noMarg : Counts := counts.foldl (fun ret kv => ret.set (trimSpaces kv.1) kv.2) []
    match measQubits with
    | none => some noMarg
    | some mq =>
      if numQubits = mq.length then some noMarg
      else
        let qubits := sortDesc mq
        let measKeys := countKeys qubits.length
        let measCounts := measKeys.map fun key => matchSum counts (mkRgx numQubits qubits key)
        let pairs := measKeys.zip measCounts
        if padZeros then
          -- `dict(zip(meas_keys, meas_counts))`, line 96
          some (pairs.foldl (fun (ret : Counts) kv => ret.set kv.1 kv.2) [])
        else
          -- lines 97-101
          some (pairs.foldl (fun (ret : Counts) kv => if kv.2 ≠ 0 then ret.set kv.1 kv.2 else ret) [])

/-- `combine_counts`, data.py:119-141.  (The Python function also mutates its first argument;
the returned dictionary is that object.) -/
def combineCounts (counts1 counts2 : Counts) : Counts :=
  counts2.foldl (fun ret kv =>
    match ret.get? kv.1 with
    | some v => ret.set kv.1 (v + kv.2)
    | none => ret.set kv.1 kv.2) counts1

/-- `build_counts_dict_from_list`, utils.py:18-37. -/
def buildCountsDictFromList (l : List Counts) : Counts :=
  match l with
  | [c] => c
  | _ => l.foldl (fun acc c => c.foldl (fun acc kv => acc.set kv.1 (kv.2 + acc.getD kv.1 0)) acc) []

/-- `combinations(l, r)` of `itertools`, in its lexicographic order. -/
def combinations : Nat → List Nat → List (List Nat)
  | 0, _ => [[]]
  | _ + 1, [] => []
  | r + 1, a :: l => (combinations r l).map (a :: ·) ++ combinations (r + 1) l

/-- The expectation operator label of data.py:187-191: `'1'` at the *list index* of each qubit. -/
def expOp (numq : Nat) (subset : List Nat) : Str :=
  subset.foldl (fun op q => op.set q '1') (List.replicate numq '0')

/-- Lines 194-197 of data.py: the signed sum over the marginal. -/
def expSum (c : Counts) : Int :=
  c.foldl (fun acc kv => acc + (-1) ^ (kv.1.count '1') * kv.2) 0

/-- `expectation_counts`, data.py:144-200.  `none`: the exception on an empty dictionary. -/
def expectationCounts (counts : Counts) : Option Counts :=
  match counts with
  | [] => none
  | first :: _ =>
    let shots := counts.foldl (fun a kv => a + kv.2) 0
    let numq := first.1.length
    let subsets := (List.range numq).flatMap fun r => combinations (r + 1) (List.range numq)
    subsets.foldlM (fun (acc : Counts) subset => do
      let m ← marginalCounts counts (some subset) true
      pure (acc.set (expOp numq subset) (expSum m))) [(['0', '0'], shots)]

end Verif.Counts
