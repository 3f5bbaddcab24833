/-
Python primitives shared by the models.

* `Str`  – a Python `str`, as the list of its characters, left-most first.
* `Dict` – a Python `dict`, as the association list of its items in insertion order.
  A dictionary that the interpreter could build has pairwise distinct keys (`Dict.WF`).
-/
namespace Verif

/-- A Python string, left-most character first. -/
abbrev Str := List Char

/-- A Python dictionary: its items in insertion order. -/
abbrev Dict (κ υ : Type) := List (κ × υ)

namespace Dict
variable {κ υ : Type} [DecidableEq κ]

/-- Keys are pairwise distinct: true of every Python dictionary. -/
def WF (d : Dict κ υ) : Prop := (d.map (·.1)).Nodup

instance (d : Dict κ υ) : Decidable (WF d) := inferInstanceAs (Decidable (List.Nodup _))

/-- `d.get(k)`: the stored value, if any. -/
def get? : Dict κ υ → κ → Option υ
  | [], _ => none
  | (k', v) :: d, k => if k' = k then some v else get? d k

/-- `d.get(k, dflt)`. -/
def getD (d : Dict κ υ) (k : κ) (dflt : υ) : υ := (d.get? k).getD dflt

/-- `k in d`. -/
def has (d : Dict κ υ) (k : κ) : Bool := (d.get? k).isSome

/-- `d[k] = v`: overwrite in place when the key exists, otherwise append. -/
def set : Dict κ υ → κ → υ → Dict κ υ
  | [], k, v => [(k, v)]
  | (k', v') :: d, k, v => if k' = k then (k', v) :: d else (k', v') :: set d k v

/-- `d.keys()`. -/
def keys (d : Dict κ υ) : List κ := d.map (·.1)

/-- `d.values()`. -/
def values (d : Dict κ υ) : List υ := d.map (·.2)

end Dict

/-- `s.replace(' ', '')`. -/
def trimSpaces (s : Str) : Str := s.filter (· ≠ ' ')

/-- `bin(j)[2:]`. -/
def binDigits (j : Nat) : Str := Nat.toDigits 2 j

/-- `s.zfill(n)` for a string without sign. -/
def zfill (n : Nat) (s : Str) : Str := List.replicate (n - s.length) '0' ++ s

/-- Value of one binary digit character. -/
def bitVal (c : Char) : Nat := if c = '1' then 1 else 0

/-- `int(s, 2)` for a string of `0`/`1` characters. -/
def ofBin (s : Str) : Nat := s.foldl (fun a c => 2 * a + bitVal c) 0

/-- Every character is `0` or `1`. -/
def IsBits (s : Str) : Prop := ∀ c ∈ s, c = '0' ∨ c = '1'

instance (s : Str) : Decidable (IsBits s) := inferInstanceAs (Decidable (∀ _ ∈ _, _))

end Verif
