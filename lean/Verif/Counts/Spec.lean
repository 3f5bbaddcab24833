import Verif.Py.Basic
/-
Specification of operations on counts dictionaries, independent of the model:
what a user of `marginal_counts`, `combine_counts`, … expects.
-/
namespace Verif.Counts
open Verif

/-- Total number of shots recorded in a counts dictionary. -/
def total (c : Dict Str Int) : Int := (c.map (·.2)).sum

/-- The outcome character of qubit `q` in a full outcome string: qubit 0 is right-most. -/
def charAt (s : Str) (q : Nat) : Option Char := s[s.length - 1 - q]?

/-- `out` is an outcome string for the qubit set `S`, highest qubit left-most: the qubit `q ∈ S`
sits at the position given by the number of larger qubits in `S`.  `agrees S out full` says that
`out` shows on every qubit of `S` what the full outcome `full` shows. -/
def agrees (S : List Nat) (out full : Str) : Prop :=
  ∀ q ∈ S, out[(S.filter (q < ·)).length]? = charAt full q

instance (S : List Nat) (out full : Str) : Decidable (agrees S out full) :=
  inferInstanceAs (Decidable (∀ _ ∈ _, _))

/-- Shots whose full outcome agrees with `out` on `S`. -/
def marginalSpec (c : Dict Str Int) (S : List Nat) (out : Str) : Int :=
  ((c.filter fun kv => agrees S out (trimSpaces kv.1)).map (·.2)).sum

/-- Outcome dictionaries of an `n`-bit experiment: non-empty, distinct keys, and every key is a
string of `n` bits once the blanks between classical registers are removed. -/
structure IsCounts (n : Nat) (c : Dict Str Int) : Prop where
  nonempty : c ≠ []
  wf : Dict.WF c
  bits : ∀ kv ∈ c, IsBits (trimSpaces kv.1)
  len : ∀ kv ∈ c, (trimSpaces kv.1).length = n

/-- A list of measured qubits naming a proper subset of `n` qubits. -/
structure ProperSubset (n : Nat) (S : List Nat) : Prop where
  nodup : S.Nodup
  range : ∀ q ∈ S, q < n
  proper : S.length < n

instance (n : Nat) (S : List Nat) : Decidable (ProperSubset n S) :=
  decidable_of_iff (S.Nodup ∧ (∀ q ∈ S, q < n) ∧ S.length < n)
    ⟨fun ⟨a, b, c⟩ => ⟨a, b, c⟩, fun ⟨a, b, c⟩ => ⟨a, b, c⟩⟩

instance (n : Nat) (c : Dict Str Int) : Decidable (IsCounts n c) :=
  decidable_of_iff (c ≠ [] ∧ Dict.WF c ∧ (∀ kv ∈ c, IsBits (trimSpaces kv.1)) ∧
      ∀ kv ∈ c, (trimSpaces kv.1).length = n)
    ⟨fun ⟨a, b, c, d⟩ => ⟨a, b, c, d⟩, fun ⟨a, b, c, d⟩ => ⟨a, b, c, d⟩⟩

end Verif.Counts
