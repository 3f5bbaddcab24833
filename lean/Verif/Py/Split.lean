import Verif.Py.Basic
/-
Python's `str.split(' ')`, `str.split('  ')` and `' '.join`.
-/
namespace Verif

/-- `s.split(c)` for a one-character separator: always at least one piece. -/
def splitChar (c : Char) : Str → List Str
  | [] => [[]]
  | a :: s =>
    if a = c then [] :: splitChar c s
    else match splitChar c s with
      | [] => [[a]]
      | p :: ps => (a :: p) :: ps

/-- `s.split('  ')`: separator of two blanks, scanned from the left without overlap. -/
def splitDouble : Str → List Str
  | [] => [[]]
  | ' ' :: ' ' :: s => [] :: splitDouble s
  | a :: s =>
    match splitDouble s with
    | [] => [[a]]
    | p :: ps => (a :: p) :: ps

/-- `sep.join(parts)`. -/
def joinSep (sep : Str) : List Str → Str
  | [] => []
  | [p] => p
  | p :: q :: ps => p ++ sep ++ joinSep sep (q :: ps)

end Verif
