import Verif.Dihedral.Objects
import Verif.Dihedral.Spec
/-
What a program with CNOT-dihedral elements is expected to do, said without objects, cells or tables: a list
of operators, one for each element created, and for every call its effect on this list.
-/
namespace Verif.Dihedral
open Verif.Quantum

/-- An operator on `n` qubits, given by the images of the basis states. -/
abbrev Op (n : ℕ) := (Fin n → Bool) → State (Fin n) ℂ

/-- First `U`, then `V`. -/
noncomputable def Op.andThen {n : ℕ} (U V : Op n) : Op n := fun x y => ∑ z, U x z * V z y

/-- `U` on the first `m` qubits, `V` on the following `n`. -/
noncomputable def Op.beside {m n : ℕ} (U : Op m) (V : Op n) : Op (m + n) := fun x y =>
  U (fun i => x (Fin.castAdd n i)) (fun i => y (Fin.castAdd n i)) *
    V (fun i => x (Fin.natAdd m i)) (fun i => y (Fin.natAdd m i))

/-- An element the program has created: its operator, and whether it came out of a multiplication. -/
structure OpEntry where
  n : ℕ
  op : Op n
  product : Bool

/-- The operator of one of the three in-place methods; `none` unless the qubits exist and differ. -/
noncomputable def Prim.apply {n : ℕ} : Prim → State (Fin n) ℂ → Option (State (Fin n) ℂ)
  | .flip i, ψ => applyGate (.x i) ψ
  | .phase k i, ψ => applyGate (.u1 k i) ψ
  | .cnot i j, ψ => applyGate (.cx i j) ψ

/-- `Effect S c S'`: the call `c` is a proper use of the elements in `S`, and leads to `S'`.  The calls that
return a new element add it at the end; the in-place calls change one element.  Proper use means:
circuits of CNOT-dihedral gates, different qubits for `cnot`, equal numbers of qubits, at most eight, for
`compose` and `dot`, and no products in `tensor` and `expand`. -/
def Effect (S : List OpEntry) : Cmd → List OpEntry → Prop
  | .new n, S' => 1 ≤ n ∧ S' = S ++ [⟨n, ket, false⟩]
  | .ofCircuit n c, S' => 1 ≤ n ∧ (∀ g ∈ c, GateOk n g) ∧
      ∃ U : Op n, (∀ x, applyCircuit c (ket x) = some (U x)) ∧ S' = S ++ [⟨n, U, false⟩]
  | .ofElem _, _ => False
  | .copy a, S' => ∃ E, S[a]? = some E ∧ S' = S ++ [E]
  | .prim a m, S' => ∃ E V, S[a]? = some E ∧ (∀ x, m.apply (E.op x) = some (V x)) ∧
      S' = S.set a ⟨E.n, V, E.product⟩
  | .append a c, S' => ∃ E V, S[a]? = some E ∧ (∀ g ∈ c, GateOk E.n g) ∧
      (∀ x, applyCircuit c (E.op x) = some (V x)) ∧ S' = S.set a ⟨E.n, V, E.product⟩
  | .mul _ _, _ => False
  | .compose a b front, S' => ∃ n U V p q, n ≤ 8 ∧ S[a]? = some ⟨n, U, p⟩ ∧ S[b]? = some ⟨n, V, q⟩ ∧
      S' = S ++ [⟨n, if front then V.andThen U else U.andThen V, true⟩]
  | .dot a b, S' => ∃ n U V p q, n ≤ 8 ∧ S[a]? = some ⟨n, U, p⟩ ∧ S[b]? = some ⟨n, V, q⟩ ∧
      S' = S ++ [⟨n, V.andThen U, true⟩]
  | .tensor a b, S' => ∃ m n U V, S[a]? = some ⟨m, U, false⟩ ∧ S[b]? = some ⟨n, V, false⟩ ∧
      S' = S ++ [⟨m + n, U.beside V, false⟩]
  | .expand a b, S' => ∃ m n U V, S[a]? = some ⟨m, U, false⟩ ∧ S[b]? = some ⟨n, V, false⟩ ∧
      S' = S ++ [⟨n + m, V.beside U, false⟩]
  | .adjoint a, S' => ∃ E V, S[a]? = some E ∧ SameOp (E.op.andThen V) ket ∧ SameOp (V.andThen E.op) ket ∧
      S' = S ++ [⟨E.n, V, false⟩]
  | .conjugate a, S' => ∃ E, S[a]? = some E ∧ S' = S ++ [⟨E.n, fun x y => star (E.op x y), false⟩]
  | .transpose a, S' => ∃ E, S[a]? = some E ∧ S' = S ++ [⟨E.n, fun x y => E.op y x, false⟩]

/-- The effect of a whole program. -/
inductive Effects : List OpEntry → List Cmd → List OpEntry → Prop
  | nil (S) : Effects S [] S
  | snoc {S cs S' c S''} : Effects S cs S' → Effect S' c S'' → Effects S (cs ++ [c]) S''

/-- The element a call changes in place, if any. -/
def Cmd.target : Cmd → Option ℕ
  | .prim a _ => some a
  | .append a _ => some a
  | _ => none

/-- All attributes of the `a`-th element: number of qubits, polynomial, `linear`, `shift`. -/
def Heap.look (h : Heap) (a : ℕ) :
    Option (Σ n, Option (Poly n × (Fin n → Fin n → ℤ) × Shift n)) :=
  (h.objs[a]?).map fun o => ⟨o.n, h.attrs o.n o⟩

/-- The `a`-th element of the program represents the operator `U` on `n` qubits, up to a global phase, by
an element that passes all tests of `is_cnotdihedral`; `product` says whether `shift` is a list. -/
def Represents (h : Heap) (a : ℕ) (E : OpEntry) : Prop :=
  ∃ (p : Poly E.n) (l : Fin E.n → Fin E.n → ℤ) (v : Fin E.n → ℤ),
    h.look a = some ⟨E.n, some (p, l, if E.product then .lst v else .arr v)⟩ ∧
    isCnotDihedral (⟨p, l, v⟩ : Elem E.n) = true ∧ SameOp (img (⟨p, l, v⟩ : Elem E.n)) E.op

end Verif.Dihedral
