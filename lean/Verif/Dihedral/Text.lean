import Verif.Dihedral.Model
import Verif.Py.Split
import Verif.Py.Fmt
/-
Model of the printed forms (`str`) of the polynomials and elements of dihedral.py.

A value is printed with `str`, here `fmtD`.  `getTerm` is the model of `get_term`; `none` is an exception.
-/
namespace Verif.Dihedral
open Verif

/-- dihedral.py:320, 328 and 337-338: the variables of a term, `x_i*x_j*x_k`. -/
def monoText (t : List ℕ) : Str := joinSep "*".toList (t.map fun i : ℕ => "x_".toList ++ fmtD (i : ℤ))

/-- dihedral.py:315-320 (and 324-328, 332-338): what is added to the text for the term `t`. -/
def termText {n : ℕ} (p : Poly n) (t : List ℕ) : Option Str :=
  (getTerm p t).map fun value =>
    if value ≠ 0 then " + ".toList ++ (if value ≠ 1 then fmtD value ++ "*".toList else []) ++ monoText t else []

/-- `range(a, b)`. -/
def pyRange (a b : ℕ) : List ℕ := List.range' a (b - a)

/-- The terms in the order of the loops, dihedral.py:314, 321-322 and 329-331. -/
def loopTerms (n : ℕ) : List (List ℕ) :=
  ((List.range n).map fun i => [i]) ++
  ((List.range (n - 1)).flatMap fun i => (pyRange (i + 1) n).map fun j => [i, j]) ++
  ((List.range (n - 2)).flatMap fun i => (pyRange (i + 1) (n - 1)).flatMap fun j => (pyRange (j + 1) n).map fun k => [i, j, k])

/-- dihedral.py:311-339, `SpecialPolynomial.__str__`. -/
def polyText {n : ℕ} (p : Poly n) : Option Str := do
  let ts ← (loopTerms n).mapM (termText p)
  some (fmtD p.w0 ++ ts.flatten)

/-- dihedral.py:528-533: the loop over the columns; the state is `out` (what was added for this row) and `wrote`. -/
def colStep {n : ℕ} (row : Fin n → ℤ) (st : Str × Bool) (col : Fin n) : Str × Bool :=
  if row col ≠ 0 then
    if st.2 then (st.1 ++ " + x_".toList ++ fmtD ((col : ℕ) : ℤ), st.2) else (st.1 ++ "x_".toList ++ fmtD ((col : ℕ) : ℤ), true)
  else st

/-- dihedral.py:526-535: one row of the affine function, without the comma. -/
def rowText {n : ℕ} (e : Elem n) (row : Fin n) : Str :=
  ((List.finRange n).foldl (colStep (e.linear row)) ([], false)).1 ++ (if e.shift row ≠ 0 then " + 1".toList else [])

/-- dihedral.py:520-539, `CNOTDihedral.__str__`. -/
def elemText {n : ℕ} (e : Elem n) : Option Str := do
  let p ← polyText e.poly
  let rows := (List.finRange n).flatMap fun row => rowText e row ++ (if (row : ℕ) ≠ n - 1 then ",".toList else [])
  some ("phase polynomial = \n".toList ++ p ++ "\naffine function = \n".toList ++ " (".toList ++ rows ++ ")\n".toList)

end Verif.Dihedral
