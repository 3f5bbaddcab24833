import Verif.Py.Basic
import Verif.Counts.Model
import Mathlib.Algebra.Order.Field.Rat
import Mathlib.Data.Rat.Cast.Defs
/-
Model of the purity computation of `PurityRBFitter`, fitters.py:861-1023.
-/
namespace Verif.RB.Purity
open Verif

/-- fitters.py:874 `LUT[a][b]` with `a` a bit and `b` a base-3 digit. -/
def lut (a b : ℕ) : ℕ := ([[0, 0, 0], [3, 1, 2]].getD a []).getD b 0

/-- fitters.py:861-891 `F234(n, a, b)`: the loop of lines 882-886 produces the digits, that of lines 889-890 adds. -/
def F234 : ℕ → ℕ → ℕ → ℕ
  | 0, _, _ => 0
  | n + 1, a, b => lut (a % 2) (b % 3) + 4 * F234 n (a / 2) (b / 3)

/-- fitters.py:893-904 `add_zdict_ops`: the entry of dictionary `i` for the outcome string of `j`. -/
def zsign (i j : ℕ) : ℤ := if (binDigits (i &&& j)).count '1' % 2 ≠ 0 then -1 else 1

/-- fitters.py:893-904, the dictionary `_zdict_ops[i]`. -/
def zdict (n i : ℕ) : Dict Str ℤ := (List.range (2 ^ n)).map fun j => (zfill n (binDigits j), zsign i j)

/-- `average_data(counts, observable)` of qiskit-terra: the weighted mean; outcomes missing from the observable count zero. -/
def averageData (counts : Dict Str ℤ) (obs : Dict Str ℤ) : ℚ :=
  (counts.map fun kv => ((kv.2 * obs.getD kv.1 0 : ℤ) : ℚ)).sum / ((counts.map (·.2)).sum : ℤ)

/-- fitters.py:1012-1013, one update of `corr_vec` and `count_vec`. -/
def accStep (st : List ℚ × List ℕ) (zv : ℕ × ℚ) : List ℚ × List ℕ :=
  (st.1.modify zv.1 (· + zv.2), st.2.modify zv.1 (· + 1))

/-- fitters.py:991-1013: the correlators; `zcorr pur indcorr` is the average of lines 1008-1009. -/
def accumulate (n npurity : ℕ) (zcorr : ℕ → ℕ → ℚ) : List ℚ × List ℕ :=
  ((List.range npurity).flatMap fun pur => (List.range (2 ^ n)).map fun ind => (F234 n ind pur, zcorr pur ind)).foldl accStep
    (List.replicate (4 ^ n) 0, List.replicate (4 ^ n) 0)

/-- fitters.py:1016-1019: the purity; division by a zero count raises. -/
def purityOf (n npurity : ℕ) (zcorr : ℕ → ℕ → ℚ) : Option ℚ :=
  let st := accumulate n npurity zcorr
  if 0 ∈ st.2 then none else some (((st.1.zip st.2).map fun cn => (cn.1 / (cn.2 : ℚ)) ^ 2).sum / 2 ^ n)

end Verif.RB.Purity
