import Verif.Dihedral.Spec
import Verif.Py.Split
import Verif.Py.Fmt
/-
Reading a printed element, independently of how it was printed: sums of products of integers and variables `x_i`, in the
usual notation.
-/
namespace Verif.Dihedral
open Verif

/-- A factor: the variable `x_i`, whose value is the bit `x i`, or an integer. -/
def readFactor {R : Type} [CommRing R] (x : ℕ → Bool) (s : Str) : Option R :=
  match s with
  | 'x' :: '_' :: d => (parseInt d).map fun i => if x i.toNat then 1 else 0
  | s => (parseInt s).map fun k => (k : R)

/-- A sum of products, blanks removed. -/
def readSum {R : Type} [CommRing R] (x : ℕ → Bool) (s : Str) : Option R := do
  let items ← (splitChar '+' (s.filter (· ≠ ' '))).mapM fun item => ((splitChar '*' item).mapM (readFactor x)).map List.prod
  some items.sum

/-- The text of an element: the second line is the phase polynomial, modulo 8; the fourth line is, between ` (` and `)`, the
affine function, modulo 2, its components separated by commas.  The result are their values at `x`. -/
def readText (s : Str) (x : ℕ → Bool) : Option (ZMod 8 × List (ZMod 2)) :=
  match splitChar '\n' s with
  | [_, poly, _, rows, _] => do
    let v ← readSum x poly
    let bits ← (splitChar ',' ((rows.drop 2).dropLast)).mapM (readSum x)
    some (v, bits)
  | _ => none

end Verif.Dihedral
