import Verif.Dihedral.Model
/-
Elements of the CNOT-dihedral group as Python objects: which arrays an element owns, what the in-place
methods write to, what the methods that return a new element allocate, and how the attribute `shift` is
stored (dihedral.py:342-784 and 846-928).

An element has three attributes, references to a phase polynomial, to the n×n array `linear` and to the
sequence `shift`.  The heap has one store of each of these for every number of qubits (a cell never
changes its size, and cells of different sizes are different cells).  A `SpecialPolynomial` is one cell:
its three tables belong to it alone, because every operation on polynomials builds new tables.
-/
namespace Verif.Dihedral

/-- How the attribute `shift` is stored: a one-dimensional numpy array (dihedral.py:378, 397), a Python
list (the list comprehension of dihedral.py:425-426) or a two-dimensional numpy array (what
`np.block` makes of two lists, dihedral.py:686). -/
inductive Shift (n : ℕ) where
  | arr (v : Fin n → ℤ)
  | lst (v : Fin n → ℤ)
  | arr2 (rows : List (List ℤ))

/-- The entries of a one-dimensional `shift`. -/
def Shift.vec? {n : ℕ} : Shift n → Option (Fin n → ℤ)
  | .arr v => some v
  | .lst v => some v
  | .arr2 _ => none

/-- Item assignment `self.shift[i] = …` keeps the kind of sequence. -/
def Shift.put {n : ℕ} (v : Fin n → ℤ) : Shift n → Shift n
  | .arr _ => .arr v
  | .lst _ => .lst v
  | .arr2 r => .arr2 r

/-- A `CNOTDihedral` object: number of qubits and the cells of `poly`, `linear` and `shift`. -/
structure Obj where
  n : ℕ
  p : ℕ
  l : ℕ
  s : ℕ
deriving DecidableEq

/-- The cells and the objects created so far, in order of creation. -/
structure Heap where
  polys : (n : ℕ) → List (Poly n)
  lins : (n : ℕ) → List (Fin n → Fin n → ℤ)
  shifts : (n : ℕ) → List (Shift n)
  objs : List Obj

/-- Nothing has been created. -/
def Heap.empty : Heap := ⟨fun _ => [], fun _ => [], fun _ => [], []⟩

/-- What a call does: it returns a new object, returns, raises, or is not modelled (calls on an element
whose `shift` is two-dimensional; only `tensor` and `expand` of two products make one). -/
inductive Out where
  | new (a : ℕ)
  | done
  | raised
  | unmodelled
deriving DecidableEq

/-- Create an object with three new cells. -/
def Heap.alloc (h : Heap) {n : ℕ} (p : Poly n) (l : Fin n → Fin n → ℤ) (s : Shift n) : Heap × Out :=
  ({ polys := Function.update h.polys n (h.polys n ++ [p])
     lins := Function.update h.lins n (h.lins n ++ [l])
     shifts := Function.update h.shifts n (h.shifts n ++ [s])
     objs := h.objs ++ [⟨n, (h.polys n).length, (h.lins n).length, (h.shifts n).length⟩] },
   .new h.objs.length)

/-- `CNOTDihedral(num_qubits)` followed by assigning the three attributes: a new object whose `shift` is
an array. -/
def Heap.allocElem (h : Heap) {n : ℕ} (e : Elem n) : Heap × Out := h.alloc e.poly e.linear (.arr e.shift)

/-- Write to the polynomial of an object. -/
def Heap.setPoly (h : Heap) (o : Obj) (p : Poly o.n) : Heap :=
  { h with polys := Function.update h.polys o.n ((h.polys o.n).set o.p p) }

/-- Write to `linear`. -/
def Heap.setLin (h : Heap) (o : Obj) (l : Fin o.n → Fin o.n → ℤ) : Heap :=
  { h with lins := Function.update h.lins o.n ((h.lins o.n).set o.l l) }

/-- Write to the entries of `shift`. -/
def Heap.setShift (h : Heap) (o : Obj) (v : Fin o.n → ℤ) : Heap :=
  { h with shifts := Function.update h.shifts o.n ((h.shifts o.n).modify o.s (Shift.put v)) }

/-- The attributes of an object, read as those of an element on `n` qubits. -/
def Heap.attrs (h : Heap) (n : ℕ) (o : Obj) : Option (Poly n × (Fin n → Fin n → ℤ) × Shift n) := do
  let p ← (h.polys n)[o.p]?
  let l ← (h.lins n)[o.l]?
  let s ← (h.shifts n)[o.s]?
  pure (p, l, s)

/-- The element an object represents, if its `shift` is one-dimensional. -/
def Heap.elem (h : Heap) (n : ℕ) (o : Obj) : Option (Elem n) := do
  let (p, l, s) ← h.attrs n o
  let v ← s.vec?
  pure ⟨p, l, v⟩

/-- The three in-place methods. -/
inductive Prim where
  | flip (i : ℕ)
  | phase (k : ℤ) (i : ℕ)
  | cnot (i j : ℕ)
deriving DecidableEq

/-- dihedral.py:477-518: `flip` writes to `shift`, `phase` to the polynomial, `cnot` to `linear` and
`shift`; an index out of range raises before anything is written. -/
def Heap.prim (h : Heap) (o : Obj) (m : Prim) : Heap × Out :=
  match h.elem o.n o with
  | none => (h, .unmodelled)
  | some e =>
    match m with
    | .flip i =>
      match flip e i with
      | none => (h, .raised)
      | some r => (h.setShift o r.shift, .done)
    | .phase k i =>
      match phase e k i with
      | none => (h, .raised)
      | some r => (h.setPoly o r.poly, .done)
    | .cnot i j =>
      match cnot e i j with
      | none => (h, .raised)
      | some r => ((h.setLin o r.linear).setShift o r.shift, .done)

/-- dihedral.py:883-926: the methods `append_circuit` calls for one instruction; `none` for an
instruction that is not a CNOT-dihedral gate. -/
def Gate.prims : Gate → Option (List Prim)
  | .x q => some [.flip q]
  | .z q => some [.phase 4 q]
  | .y q => some [.flip q, .phase 4 q]
  | .u1 k q => some [.phase k q]
  | .cx c t => some [.cnot c t]
  | .cz a b => some [.phase 7 b, .phase 7 a, .cnot b a, .phase 2 a, .cnot b a, .phase 7 b, .phase 7 a]
  | .id _ => some []
  | .other _ => none

/-- A sequence of in-place calls, up to the first exception. -/
def Heap.prims (h : Heap) (o : Obj) : List Prim → Heap × Out
  | [] => (h, .done)
  | m :: ms =>
    match h.prim o m with
    | (h', .done) => h'.prims o ms
    | r => r

/-- dihedral.py:846-928 `append_circuit(elem, circuit)`: in place, instruction by instruction; an exception
leaves the element as the instructions before it made it. -/
def Heap.append (h : Heap) (o : Obj) : List Gate → Heap × Out
  | [] => (h, .done)
  | g :: gs =>
    match g.prims with
    | none => (h, .raised)
    | some ms =>
      match h.prims o ms with
      | (h', .done) => h'.append o gs
      | r => r

/-- dihedral.py:657-710 `_tensor` after the choice of `elem0` and `elem1`.  `np.block` (line 686) joins two
arrays end to end.  Two Python lists it takes for the rows of a block matrix: a two-dimensional array if
they are equally long, an exception otherwise.  An array and a list: "List depths are mismatched". -/
def Heap.tensor (h : Heap) (o0 o1 : Obj) : Heap × Out :=
  match h.attrs o0.n o0, h.attrs o1.n o1 with
  | some (p0, l0, .arr v0), some (p1, l1, .arr v1) =>
    match tensorCore ⟨p0, l0, v0⟩ ⟨p1, l1, v1⟩ with
    | none => (h, .raised)
    | some r => h.allocElem r
  | some (p0, l0, .lst v0), some (p1, l1, .lst v1) =>
    if o0.n = o1.n then
      match tensorCore ⟨p0, l0, v0⟩ ⟨p1, l1, v1⟩ with
      | none => (h, .raised)
      | some r => h.alloc r.poly r.linear (.arr2 [List.ofFn v0, List.ofFn v1])
    else (h, .raised)
  | some (_, _, .arr _), some (_, _, .lst _) => (h, .raised)
  | some (_, _, .lst _), some (_, _, .arr _) => (h, .raised)
  | _, _ => (h, .unmodelled)

/-- The calls of a program.  Objects are numbered in the order of their creation. -/
inductive Cmd where
  /-- `CNOTDihedral(n)` -/
  | new (n : ℕ)
  /-- `CNOTDihedral(circuit)` -/
  | ofCircuit (n : ℕ) (c : List Gate)
  /-- `CNOTDihedral(a)` -/
  | ofElem (a : ℕ)
  /-- `a.copy()` -/
  | copy (a : ℕ)
  /-- `a.flip(i)`, `a.phase(k, i)`, `a.cnot(i, j)` -/
  | prim (a : ℕ) (m : Prim)
  /-- `append_circuit(a, circuit)` -/
  | append (a : ℕ) (c : List Gate)
  /-- `a * b` -/
  | mul (a b : ℕ)
  /-- `a.compose(b, front=front)` -/
  | compose (a b : ℕ) (front : Bool)
  /-- `a.dot(b)` -/
  | dot (a b : ℕ)
  /-- `a.tensor(b)` -/
  | tensor (a b : ℕ)
  /-- `a.expand(b)` -/
  | expand (a b : ℕ)
  | adjoint (a : ℕ)
  | conjugate (a : ℕ)
  | transpose (a : ℕ)

/-- A call on one object that returns a new element. -/
def Heap.unary (h : Heap) (a : ℕ) (f : (n : ℕ) → Elem n → Option (Elem n)) : Heap × Out :=
  match h.objs[a]? with
  | none => (h, .raised)
  | some o =>
    match h.elem o.n o with
    | none => (h, .unmodelled)
    | some e =>
      match f o.n e with
      | none => (h, .raised)
      | some r => h.allocElem r

/-- A call on two objects that multiplies them: different numbers of qubits raise; `shift` of the result
is a Python list (dihedral.py:422-426). -/
def Heap.product (h : Heap) (a b : ℕ) (f : (n : ℕ) → Elem n → Elem n → Option (Elem n)) : Heap × Out :=
  match h.objs[a]?, h.objs[b]? with
  | some o, some o' =>
    if o.n = o'.n then
      match h.elem o.n o, h.elem o.n o' with
      | some e, some e' =>
        match f o.n e e' with
        | none => (h, .raised)
        | some r => h.alloc r.poly r.linear (.lst r.shift)
      | _, _ => (h, .unmodelled)
    else (h, .raised)
  | _, _ => (h, .raised)

/-- One call.  A name that is not bound raises (NameError).  `CNOTDihedral(a)` (dihedral.py:360-363) sets the
three attributes but not `_num_qubits`, and line 404 raises AttributeError.  `copy` is the deep copy of
qiskit's `BaseOperator`. -/
def Heap.step (so : SetOrder) (h : Heap) : Cmd → Heap × Out
  | .new n => if n < 1 then (h, .raised) else h.allocElem (Elem.one n)
  | .ofCircuit n c =>
    if n < 1 then (h, .raised)
    else
      match fromCircuit n c with
      | none => (h, .raised)
      | some e => if isCnotDihedral e then h.allocElem e else (h, .raised)
  | .ofElem _ => (h, .raised)
  | .copy a =>
    match h.objs[a]? with
    | none => (h, .raised)
    | some o =>
      match h.attrs o.n o with
      | none => (h, .unmodelled)
      | some (p, l, s) => h.alloc p l s
  | .prim a m =>
    match h.objs[a]? with
    | none => (h, .raised)
    | some o => h.prim o m
  | .append a c =>
    match h.objs[a]? with
    | none => (h, .raised)
    | some o => h.append o c
  | .mul a b => h.product a b fun _ x y => elemMul so x y
  | .compose a b front => h.product a b fun _ x y => compose so x y front
  | .dot a b => h.product a b fun _ x y => dot so x y
  | .tensor a b =>
    match h.objs[a]?, h.objs[b]? with
    | some o, some o' => h.tensor o o'
    | _, _ => (h, .raised)
  | .expand a b =>
    match h.objs[a]?, h.objs[b]? with
    | some o, some o' => h.tensor o' o
    | _, _ => (h, .raised)
  | .adjoint a => h.unary a fun _ e => adjoint e
  | .conjugate a => h.unary a fun _ e => conjugate e
  | .transpose a => h.unary a fun _ e => transpose e

/-- A program: calls one after the other; an exception is caught and the program goes on. -/
def Heap.run (so : SetOrder) (h : Heap) (cs : List Cmd) : Heap := cs.foldl (fun h c => (h.step so c).1) h

/-- dihedral.py:767-781, the tests of `is_cnotdihedral` before it looks at the entries of `shift`. -/
def earlyTests {n : ℕ} (e : Elem n) : Bool :=
  if e.poly.w0 ≠ 0 ∨ e.poly.w1.length ≠ n ∨ e.poly.w2.length ≠ nc2 n ∨ e.poly.w3.length ≠ nc3 n then
    false
  else if !detOdd e.linear then false
  else if ¬ (∀ a ∈ e.poly.w1, a ∈ [0, 1, 2, 3, 4, 5, 6, 7]) ∨ ¬ (∀ a ∈ e.poly.w2, a ∈ [0, 2, 4, 6]) ∨
      ¬ (∀ a ∈ e.poly.w3, a ∈ [0, 4]) then false
  else true

/-- dihedral.py:764-784 `a.is_cnotdihedral()`; `none` is an exception: `self.shift.flatten()` (line 782)
needs an array.  (A two-dimensional `shift` is not modelled.) -/
def Heap.isCnot (h : Heap) (a : ℕ) : Option Bool := do
  let o ← h.objs[a]?
  let (p, l, s) ← h.attrs o.n o
  match s with
  | .arr v => some (isCnotDihedral (⟨p, l, v⟩ : Elem o.n))
  | .lst v => if earlyTests (⟨p, l, v⟩ : Elem o.n) then none else some false
  | .arr2 _ => none

/-- dihedral.py:466-475 `a == b`: the keys list all entries, so they differ for different numbers of
qubits; the key of a two-dimensional `shift` lists its rows as arrays. -/
def Heap.eq (h : Heap) (a b : ℕ) : Option Bool := do
  let o ← h.objs[a]?
  let o' ← h.objs[b]?
  if o.n = o'.n then
    let (p, l, s) ← h.attrs o.n o
    let (p', l', s') ← h.attrs o.n o'
    match s, s' with
    | .arr2 r, .arr2 r' => some (decide (p = p' ∧ l = l' ∧ r = r'))
    | .arr2 _, _ => some false
    | _, .arr2 _ => some false
    | s, s' => some (decide (p = p' ∧ l = l' ∧ s.vec? = s'.vec?))
  else some false

end Verif.Dihedral
