import Mathlib.Data.ZMod.Basic
import Mathlib.LinearAlgebra.Matrix.Determinant.Basic
/-
Model of qiskit/ignis/verification/randomized_benchmarking/dihedral.py.

Conventions of this file.  `none` stands for a raised exception.  The numpy integer arrays are lists
of (unbounded) integers; the code's explicit `% 8` and `% 2` are kept.  The n×n array `linear` and
the length-n array `shift` are functions on `Fin n`.  Floating-point quotients of exact integers
(`/ 2`, `/ 6`, `4 * angle / pi`) are integer divisions.  `n_vars` is the type parameter `n`
(the constructor raises for n < 1, lines 67-68; the theorems also hold for the empty case).
-/
namespace Verif.Dihedral

/-- dihedral.py:70 and 71, `nc2` and `nc3`. -/
def nc2 (n : ℕ) : ℕ := n * (n - 1) / 2
/-- dihedral.py:71. -/
def nc3 (n : ℕ) : ℕ := n * (n - 1) * (n - 2) / 6

/-- dihedral.py:54-75, class `SpecialPolynomial` on `n` variables. -/
structure Poly (n : ℕ) where
  w0 : ℤ
  w1 : List ℤ
  w2 : List ℤ
  w3 : List ℤ
deriving DecidableEq, Repr

/-- dihedral.py:60-75, the zero polynomial. -/
def Poly.zero (n : ℕ) : Poly n :=
  ⟨0, List.replicate n 0, List.replicate (nc2 n) 0, List.replicate (nc3 n) 0⟩

/-- Python sequence indexing with a possibly negative index: the position, or `none` for IndexError. -/
def pyIdx (len : ℕ) (o : ℤ) : Option ℕ :=
  if 0 ≤ o ∧ o < len then some o.toNat
  else if -(len : ℤ) ≤ o ∧ o < 0 then some (len + o).toNat
  else none

/-- dihedral.py:228-232 and 275-279, the two checks on `indices` (negative indices are not
represented): all in bounds and strictly increasing. -/
def okIdx (n : ℕ) (idx : List ℕ) : Bool :=
  !(idx.any fun i => decide (n ≤ i)) &&
  !((idx.zip idx.tail).any fun ab => decide (ab.2 ≤ ab.1))

/-- dihedral.py:239-243 and 287-290, position of a quadratic term. -/
def off2 (n i j : ℤ) : ℤ :=
  let offset_1 := i * n - ((i + 1) * i) / 2
  let offset_2 := j - i - 1
  offset_1 + offset_2

/-- dihedral.py:246-252 and 292-298, position of a cubic term. -/
def off3 (n i j k : ℤ) : ℤ :=
  let tmp_1 := n - i
  let offset_1 := (tmp_1 - 3) * (tmp_1 - 2) * (tmp_1 - 1) / 6
  let tmp_2 := n - j
  let offset_2 := (tmp_2 - 2) * (tmp_2 - 1) / 2
  let offset_3 := n - k
  n * (n - 1) * (n - 2) / 6 - offset_1 - offset_2 - offset_3

/-- dihedral.py:214-254 `get_term`. -/
def getTerm {n : ℕ} (p : Poly n) (idx : List ℕ) : Option ℤ :=
  if 4 ≤ idx.length then some 0
  else if !okIdx n idx then none
  else match idx with
    | [] => some p.w0
    | [i] => (pyIdx p.w1.length i).bind (p.w1[·]?)
    | [i, j] => (pyIdx p.w2.length (off2 n i j)).bind (p.w2[·]?)
    | [i, j, k] => (pyIdx p.w3.length (off3 n i j k)).bind (p.w3[·]?)
    | _ => none

/-- dihedral.py:256-298 `set_term`, returning the updated polynomial. -/
def setTerm {n : ℕ} (p : Poly n) (idx : List ℕ) (value : ℤ) : Option (Poly n) :=
  if 4 ≤ idx.length then some p
  else if !okIdx n idx then none
  else
    let value := value % 8
    match idx with
    | [] => some { p with w0 := value }
    | [i] => (pyIdx p.w1.length i).map fun o => { p with w1 := p.w1.set o value }
    | [i, j] => (pyIdx p.w2.length (off2 n i j)).map fun o => { p with w2 := p.w2.set o value }
    | [i, j, k] => (pyIdx p.w3.length (off3 n i j k)).map fun o => { p with w3 := p.w3.set o value }
    | _ => none

/-- itertools.combinations(l, r), in its lexicographic order. -/
def combs : List ℕ → ℕ → List (List ℕ)
  | _, 0 => [[]]
  | [], _ + 1 => []
  | a :: l, r + 1 => (combs l r).map (a :: ·) ++ combs l (r + 1)

/-- dihedral.py:94-98, 117-121, 170-174: `terms0 + terms1 + terms2 + terms3`. -/
def terms (n : ℕ) : List (List ℕ) :=
  [[]] ++ combs (List.range n) 1 ++ combs (List.range n) 2 ++ combs (List.range n) 3

/-- The order in which Python enumerates `set(term).union(set(indices))` is not fixed by the
language; it is an argument of the model (dihedral.py:100). -/
abbrev SetOrder := List ℕ → List ℕ → List ℕ

/-- dihedral.py:99-101, loop body of `mul_monomial`. -/
def mulMonomialStep {n : ℕ} (so : SetOrder) (p : Poly n) (indices : List ℕ) (result : Poly n)
    (term : List ℕ) : Option (Poly n) := do
  let value ← getTerm p term
  let new_term := so term indices
  let old ← getTerm result new_term
  setTerm result new_term ((old + value) % 8)

/-- dihedral.py:77-102 `mul_monomial`.  The bounds check of line 86 cannot fire for natural-number
indices; an out-of-bounds index is rejected by `get_term` in the loop. -/
def mulMonomial {n : ℕ} (so : SetOrder) (p : Poly n) (indices : List ℕ) : Option (Poly n) :=
  if 4 ≤ indices.length then none
  else if (indices.zip indices.tail).any fun ab => decide (ab.2 ≤ ab.1) then none
  else if indices.length = 0 then some p
  else (terms n).foldlM (mulMonomialStep so p indices) (Poly.zero n)

/-- dihedral.py:109-113, `__mul__` by an integer. -/
def smul {n : ℕ} (p : Poly n) (k : ℤ) : Poly n :=
  ⟨(p.w0 * k) % 8, p.w1.map fun a => (a * k) % 8, p.w2.map fun a => (a * k) % 8,
    p.w3.map fun a => (a * k) % 8⟩

/-- dihedral.py:136-148 `__add__` (equal `n_vars` by typing). -/
def add {n : ℕ} (p q : Poly n) : Poly n :=
  ⟨(p.w0 + q.w0) % 8, List.zipWith (fun a b => (a + b) % 8) p.w1 q.w1,
    List.zipWith (fun a b => (a + b) % 8) p.w2 q.w2,
    List.zipWith (fun a b => (a + b) % 8) p.w3 q.w3⟩

/-- dihedral.py:122-127, loop body of `__mul__`. -/
def mulStep {n : ℕ} (so : SetOrder) (p q : Poly n) (result : Poly n) (term : List ℕ) :
    Option (Poly n) := do
  let value ← getTerm q term
  if value ≠ 0 then
    let temp ← mulMonomial so p term
    let temp := smul temp value
    pure (add result temp)
  else pure result

/-- dihedral.py:104-128 `__mul__` of two polynomials. -/
def mul {n : ℕ} (so : SetOrder) (p q : Poly n) : Option (Poly n) :=
  (terms n).foldlM (mulStep so p q) (Poly.zero n)

/-- dihedral.py:181-182, the constant polynomial `start`. -/
def onePoly (n : ℕ) : Poly n := { Poly.zero n with w0 := 1 }

/-- dihedral.py:186, `reduce(mul, [xval[j] for j in term], start)`. -/
def termProduct {n : ℕ} (so : SetOrder) (xval : List (Poly n)) (term : List ℕ) : Option (Poly n) := do
  let factors ← term.mapM fun j => xval[j]?
  factors.foldlM (mul so) (onePoly n)

/-- dihedral.py:184-187, loop body of `evaluate`. -/
def evaluateStep {n : ℕ} (so : SetOrder) (p : Poly n) (xval : List (Poly n)) (result : Poly n)
    (term : List ℕ) : Option (Poly n) := do
  let value ← getTerm p term
  if value ≠ 0 then
    let newterm ← termProduct so xval term
    pure (add result (smul newterm value))
  else pure result

/-- dihedral.py:150-190 `evaluate` on a vector of polynomials. -/
def evaluate {n : ℕ} (so : SetOrder) (p : Poly n) (xval : List (Poly n)) : Option (Poly n) :=
  if xval.length ≠ n then none
  else (terms n).foldlM (evaluateStep so p xval) (Poly.zero n)

/-- dihedral.py:192-212 `set_pj`.  (`sorted` is the identity on the ascending supports passed by the
callers; it is modelled by `insertionSort`.) -/
def setPj {n : ℕ} (indices : List ℕ) : Option (Poly n) :=
  if indices.any fun i => decide (n ≤ i) then none
  else do
    let indices := indices.insertionSort (· ≤ ·)
    let p ← indices.foldlM (fun p j => setTerm p [j] 1) (Poly.zero n)
    let p ← (combs indices 2).foldlM (fun p j => setTerm p j 6) p
    (combs indices 3).foldlM (fun p j => setTerm p j 4) p

/-- dihedral.py:342-408, class `CNOTDihedral` on `n` qubits. -/
structure Elem (n : ℕ) where
  poly : Poly n
  linear : Fin n → Fin n → ℤ
  shift : Fin n → ℤ
deriving DecidableEq

/-- dihedral.py:390-397 and 369-378, the identity element. -/
def Elem.one (n : ℕ) : Elem n :=
  ⟨Poly.zero n, fun i j => if i = j then 1 else 0, fun _ => 0⟩

/-- dihedral.py:410-413 `_z2matmul`. -/
def z2matmul {n : ℕ} (a b : Fin n → Fin n → ℤ) : Fin n → Fin n → ℤ :=
  fun i j => (∑ k, a i k * b k j) % 2

/-- dihedral.py:415-418 `_z2matvecmul`. -/
def z2matvecmul {n : ℕ} (a : Fin n → Fin n → ℤ) (v : Fin n → ℤ) : Fin n → ℤ :=
  fun i => (∑ k, a i k * v k) % 2

/-- dihedral.py:430 and 498, `np.arange(n)[np.nonzero(row)]`. -/
def support {n : ℕ} (row : Fin n → ℤ) : List ℕ :=
  ((List.finRange n).filter fun j => row j ≠ 0).map Fin.val

/-- dihedral.py:430-436, the polynomial of one output variable `x'_i = (Bx + c)_i`. -/
def newVar {n : ℕ} (row : Fin n → ℤ) (c : ℤ) : Option (Poly n) := do
  let poly ← setPj (support row)
  if c = 1 then
    let poly := smul poly (-1)
    pure { poly with w0 := (poly.w0 + 1) % 8 }
  else pure poly

/-- dihedral.py:420-440 `__mul__`: self * other. -/
def elemMul {n : ℕ} (so : SetOrder) (self other : Elem n) : Option (Elem n) := do
  let shift := fun i => (z2matvecmul self.linear other.shift i + self.shift i) % 2
  let linear := z2matmul self.linear other.linear
  let new_vars ← (List.finRange n).mapM fun i => newVar (other.linear i) (other.shift i)
  let ev ← evaluate so self.poly new_vars
  pure ⟨add other.poly ev, linear, shift⟩

/-- dihedral.py:442-464 `__rmul__`: other * self. -/
def elemRmul {n : ℕ} (so : SetOrder) (self other : Elem n) : Option (Elem n) := do
  let shift := fun i => (z2matvecmul other.linear self.shift i + other.shift i) % 2
  let linear := z2matmul other.linear self.linear
  let new_vars ← (List.finRange n).mapM fun i => newVar (self.linear i) (other.shift i)
  let ev ← evaluate so other.poly new_vars
  pure ⟨add self.poly ev, linear, shift⟩

/-- dihedral.py:466-475 `key` and `__eq__`, and 301-309 for the polynomial: the string of the tuple of
all integer entries determines and is determined by the entries. -/
def elemEq {n : ℕ} (a b : Elem n) : Bool := decide (a = b)

/-- dihedral.py:477-485 `cnot`. -/
def cnot {n : ℕ} (e : Elem n) (i j : ℕ) : Option (Elem n) :=
  if h : i < n ∧ j < n then
    some { e with
      linear := Function.update e.linear ⟨j, h.2⟩
        fun c => (e.linear ⟨i, h.1⟩ c + e.linear ⟨j, h.2⟩ c) % 2
      shift := Function.update e.shift ⟨j, h.2⟩ ((e.shift ⟨i, h.1⟩ + e.shift ⟨j, h.2⟩) % 2) }
  else none

/-- dihedral.py:501-503, 504-506, 507-509: add `v` to the terms of a list. -/
def addTerms {n : ℕ} (ts : List (List ℕ)) (v : ℤ) (p : Poly n) : Option (Poly n) :=
  ts.foldlM (fun p t => do
    let value ← getTerm p t
    setTerm p t ((value + v) % 8)) p

/-- dihedral.py:487-510 `phase`. -/
def phase {n : ℕ} (e : Elem n) (k : ℤ) (i : ℕ) : Option (Elem n) :=
  if h : i < n then do
    let k := if e.shift ⟨i, h⟩ = 1 then (7 * k) % 8 else k
    let supp := support (e.linear ⟨i, h⟩)
    let p ← addTerms (supp.map fun j => [j]) k e.poly
    let p ← addTerms (combs supp 2) (-2 * k) p
    let p ← addTerms (combs supp 3) (4 * k) p
    pure { e with poly := p }
  else none

/-- dihedral.py:512-518 `flip`. -/
def flip {n : ℕ} (e : Elem n) (i : ℕ) : Option (Elem n) :=
  if h : i < n then
    some { e with shift := Function.update e.shift ⟨i, h⟩ ((e.shift ⟨i, h⟩ + 1) % 2) }
  else none

/-- dihedral.py:605-637 `compose` (`qargs` is None). -/
def compose {n : ℕ} (so : SetOrder) (self other : Elem n) (front : Bool) : Option (Elem n) := do
  let r ← if front then elemMul so self other else elemMul so other self
  pure { r with poly := { r.poly with w0 := 0 } }

/-- dihedral.py:639-655 `dot`. -/
def dot {n : ℕ} (so : SetOrder) (self other : Elem n) : Option (Elem n) := do
  let r ← elemMul so self other
  pure { r with poly := { r.poly with w0 := 0 } }

/-- dihedral.py:779 and 1225, the float determinant test, idealised: the exact determinant is odd. -/
def detOdd {n : ℕ} (m : Fin n → Fin n → ℤ) : Bool := decide ((Matrix.of m).det % 2 = 1)

/-- dihedral.py:764-784 `is_cnotdihedral` (shapes of `linear` and `shift` hold by typing). -/
def isCnotDihedral {n : ℕ} (e : Elem n) : Bool :=
  if e.poly.w0 ≠ 0 ∨ e.poly.w1.length ≠ n ∨ e.poly.w2.length ≠ nc2 n ∨ e.poly.w3.length ≠ nc3 n then
    false
  else if !detOdd e.linear then false
  else if ¬ (∀ a ∈ e.poly.w1, a ∈ [0, 1, 2, 3, 4, 5, 6, 7]) ∨ ¬ (∀ a ∈ e.poly.w2, a ∈ [0, 2, 4, 6]) ∨
      ¬ (∀ a ∈ e.poly.w3, a ∈ [0, 4]) then false
  else if ¬ (∀ i, e.shift i ∈ [0, 1]) ∨ ¬ (∀ i j, e.linear i j ∈ [0, 1]) then false
  else true

/-- The instructions `append_circuit` distinguishes, dihedral.py:883-926.  `u1 k q` is the rotation by
`k·π/4`. -/
inductive Gate where
  | x (q : ℕ)
  | z (q : ℕ)
  | y (q : ℕ)
  | u1 (k : ℤ) (q : ℕ)
  | cx (c t : ℕ)
  | cz (a b : ℕ)
  | id (q : ℕ)
  | other (q : List ℕ)
deriving DecidableEq, Repr

/-- dihedral.py:879-926, one instruction of `append_circuit`. -/
def appendGate {n : ℕ} (e : Elem n) : Gate → Option (Elem n)
  | .x q => flip e q
  | .z q => phase e 4 q
  | .y q => do
    let e ← flip e q
    phase e 4 q
  | .u1 k q => phase e k q
  | .cx c t => cnot e c t
  | .cz a b => do
    let e ← phase e 7 b
    let e ← phase e 7 a
    let e ← cnot e b a
    let e ← phase e 2 a
    let e ← cnot e b a
    let e ← phase e 7 b
    phase e 7 a
  | .id _ => some e
  | .other _ => none

/-- dihedral.py:846-928 `append_circuit` on a flat circuit. -/
def appendCircuit {n : ℕ} (e : Elem n) (c : List Gate) : Option (Elem n) :=
  c.foldlM appendGate e

/-- dihedral.py:575-597 `from_circuit`. -/
def fromCircuit (n : ℕ) (c : List Gate) : Option (Elem n) := appendCircuit (Elem.one n) c

/-- `if tpow > 0: circuit.append(U1Gate(tpow * pi / 4), [q])`. -/
def u1If (k : ℤ) (q : ℕ) : List Gate := if k > 0 then [.u1 k q] else []
/-- `if xpow == 1: circuit.x(q)`. -/
def xIf (k : ℤ) (q : ℕ) : List Gate := if k = 1 then [.x q] else []

/-- The prefix shared by all classes of the two-qubit decomposition, e.g. dihedral.py:1005-1012. -/
def dihedralPrefix (t0 x0 t1 x1 : ℤ) : List Gate := u1If t0 0 ++ xIf x0 0 ++ u1If t1 1 ++ xIf x1 1

/-- dihedral.py:1066-1073 (and the same lines of every CX class): `m`, `tpow0`, `tpow1`. -/
def cxPowers (w10 w11 w2 x0 x1 : ℤ) : ℤ × ℤ × ℤ :=
  if x0 = x1 then
    let m := ((8 - w2) / 2) % 4
    (m, (w10 - m) % 8, (w11 - m) % 8)
  else
    let m := (w2 / 2) % 4
    (m, (w10 + m) % 8, (w11 + m) % 8)

/-- dihedral.py:981-992, the one-qubit case. -/
def decompose1 (e : Elem 1) : Option (List Gate) :=
  if e.poly.w0 ≠ 0 ∨ e.linear 0 0 ≠ 1 then none
  else do
    let tpow0 ← e.poly.w1[0]?
    let xpow0 := e.shift 0
    pure (u1If tpow0 0 ++ xIf xpow0 0 ++ (if tpow0 = 0 ∧ xpow0 = 0 then [.id 0] else []))

/-- dihedral.py:994-1062, identity linear part ("CS subgroup"). -/
def decompose2CS (w10 w11 w2 x0 x1 : ℤ) : List Gate :=
  (if w2 = 0 then
    dihedralPrefix w10 x0 w11 x1 ++
      (if w10 = 0 ∧ w11 = 0 ∧ x0 = 0 ∧ x1 = 0 then [.id 0, .id 1] else [])
   else []) ++
  (if (w2 = 2 ∧ x0 = x1) ∨ (w2 = 6 ∧ x0 ≠ x1) then
    dihedralPrefix ((w10 - 2 * x1 - 4 * x0 * x1) % 8) x0 ((w11 - 2 * x0 - 4 * x0 * x1) % 8) x1 ++
      [.u1 1 0, .u1 1 1, .cx 0 1, .u1 7 1, .cx 0 1]
   else []) ++
  (if (w2 = 6 ∧ x0 = x1) ∨ (w2 = 2 ∧ x0 ≠ x1) then
    dihedralPrefix ((w10 - 6 * x1 - 4 * x0 * x1) % 8) x0 ((w11 - 6 * x0 - 4 * x0 * x1) % 8) x1 ++
      [.u1 7 0, .u1 7 1, .cx 0 1, .u1 1 1, .cx 0 1]
   else []) ++
  (if w2 = 4 then
    dihedralPrefix ((w10 - 4 * x1) % 8) x0 ((w11 - 4 * x0) % 8) x1 ++ [.cz 1 0]
   else [])

/-- The entries of a 2×2 array, to compare it with a literal. -/
def entries (m : Fin 2 → Fin 2 → ℤ) : ℤ × ℤ × ℤ × ℤ := (m 0 0, m 0 1, m 1 0, m 1 1)

/-- dihedral.py:993-1200, the two-qubit case. -/
def decompose2 (e : Elem 2) : Option (List Gate) :=
  if e.poly.w0 ≠ 0 then none
  else do
    let w10 ← e.poly.w1[0]?
    let w11 ← e.poly.w1[1]?
    let w2 ← e.poly.w2[0]?
    let s0 := e.shift 0
    let s1 := e.shift 1
    pure (
      -- CS subgroup, 999-1062
      (if entries e.linear = (1, 0, 0, 1) then decompose2CS w10 w11 w2 s0 s1 else []) ++
      -- CX01-like class, 1064-1086
      (if entries e.linear = (1, 0, 1, 1) then
        let xpow0 := s0
        let xpow1 := (s1 + xpow0) % 2
        let r := cxPowers w10 w11 w2 xpow0 xpow1
        dihedralPrefix r.2.1 xpow0 r.2.2 xpow1 ++ [.cx 0 1] ++ u1If r.1 1
       else []) ++
      -- CX10-like class, 1088-1110
      (if entries e.linear = (1, 1, 0, 1) then
        let xpow1 := s1
        let xpow0 := (s0 + xpow1) % 2
        let r := cxPowers w10 w11 w2 xpow0 xpow1
        dihedralPrefix r.2.1 xpow0 r.2.2 xpow1 ++ [.cx 1 0] ++ u1If r.1 0
       else []) ++
      -- CX01*CX10-like class, 1112-1135
      (if entries e.linear = (0, 1, 1, 1) then
        let xpow1 := s0
        let xpow0 := (s1 + xpow1) % 2
        let r := cxPowers w10 w11 w2 xpow0 xpow1
        dihedralPrefix r.2.1 xpow0 r.2.2 xpow1 ++ [.cx 0 1, .cx 1 0] ++ u1If r.1 1
       else []) ++
      -- CX10*CX01-like class, 1137-1160
      (if entries e.linear = (1, 1, 1, 0) then
        let xpow0 := s1
        let xpow1 := (s0 + xpow0) % 2
        let r := cxPowers w10 w11 w2 xpow0 xpow1
        dihedralPrefix r.2.1 xpow0 r.2.2 xpow1 ++ [.cx 1 0, .cx 0 1] ++ u1If r.1 0
       else []) ++
      -- CX01*CX10*CX01-like class, 1162-1186
      (if entries e.linear = (0, 1, 1, 0) then
        let xpow0 := s1
        let xpow1 := s0
        let r := cxPowers w10 w11 w2 xpow0 xpow1
        dihedralPrefix r.2.1 xpow0 r.2.2 xpow1 ++ [.cx 0 1, .cx 1 0] ++ u1If r.1 1 ++ [.cx 0 1]
       else []))

/-- State of the elimination of `decompose_cnotdihedral_general`: the reduced copy and the circuit. -/
abbrev Red (n : ℕ) := Elem n × List Gate

/-- `circuit.cx(a, b); elem_cpy.cnot(a, b)`. -/
def redCx {n : ℕ} (a b : ℕ) (s : Red n) : Option (Red n) := do
  let e ← cnot s.1 a b
  pure (e, s.2 ++ [.cx a b])

/-- dihedral.py:1229-1232, the x gates. -/
def redFlips {n : ℕ} (e : Elem n) : Option (Red n) :=
  (List.finRange n).foldlM (fun (s : Red n) i =>
    if e.shift i ≠ 0 then do
      let e' ← flip s.1 i
      pure (e', s.2 ++ [.x i])
    else pure s) (e, [])

/-- dihedral.py:1238-1247, make the diagonal entry 1: the first `j > i` with `linear[j][i]` is swapped
with row `i`. -/
def redPivot {n : ℕ} (i : Fin n) (s : Red n) : Option (Red n) :=
  if s.1.linear i i ≠ 0 then pure s
  else match (List.finRange n).find? fun j => decide (i < j) && decide (s.1.linear j i ≠ 0) with
    | none => pure s
    | some j => do
      let s ← redCx j i s
      let s ← redCx i j s
      redCx j i s

/-- dihedral.py:1250-1253, loop body: clear the entry (j, i). -/
def redClearStep {n : ℕ} (i : Fin n) (s : Red n) (j : Fin n) : Option (Red n) :=
  if j ≠ i then
    if s.1.linear j i ≠ 0 then redCx i j s else pure s
  else pure s

/-- dihedral.py:1235-1253, one round of the elimination. -/
def redColumn {n : ℕ} (s : Red n) (i : Fin n) : Option (Red n) := do
  let s ← redPivot i s
  (List.finRange n).foldlM (redClearStep i) s

/-- Apply one gate to the element being built and record it (dihedral.py:1267-1276 and later). -/
def build {n : ℕ} (gs : List Gate) (s : Red n) : Option (Red n) := do
  let e ← appendCircuit s.1 gs
  pure (e, s.2 ++ gs)

/-- dihedral.py:1263-1265: the loops `i < j < k` visit the increasing triples in this order; 1279-1280
similarly for pairs. -/
def step3 {n : ℕ} (target : Poly n) (s : Red n) (t : List ℕ) : Option (Red n) :=
  match t with
  | [i, j, k] => do
    let c ← getTerm target [i, j, k]
    if c ≠ 0 then build [.cx i k, .cx j k, .u1 1 k, .cx i k, .cx j k] s else pure s
  | _ => none

/-- dihedral.py:1281-1290. -/
def step2 {n : ℕ} (target : Poly n) (s : Red n) (t : List ℕ) : Option (Red n) :=
  match t with
  | [i, j] => do
    let tpow1 ← getTerm target [i, j]
    let tpow2 ← getTerm s.1.poly [i, j]
    let tpow := ((tpow2 - tpow1) / 2) % 4
    if tpow ≠ 0 then build [.cx i j, .u1 tpow j, .cx i j] s else pure s
  | _ => none

/-- dihedral.py:1294-1299. -/
def step1 {n : ℕ} (target : Poly n) (s : Red n) (t : List ℕ) : Option (Red n) :=
  match t with
  | [i] => do
    let tpow1 ← getTerm target [i]
    let tpow2 ← getTerm s.1.poly [i]
    let tpow := (tpow1 - tpow2) % 8
    if tpow ≠ 0 then build [.u1 tpow i] s else pure s
  | _ => none

/-- Inverse of a gate, as `QuantumCircuit.inverse` of qiskit produces it. -/
def Gate.inv : Gate → Gate
  | .u1 k q => .u1 (-k) q
  | g => g

/-- `QuantumCircuit.inverse`: the inverse gates in reverse order. -/
def invCircuit (c : List Gate) : List Gate := (c.map Gate.inv).reverse

/-- dihedral.py:1203-1308 `decompose_cnotdihedral_general`. -/
def decomposeGeneral {n : ℕ} (e : Elem n) : Option (List Gate) :=
  if !detOdd e.linear then none
  else do
    let s ← redFlips e
    let s ← (List.finRange n).foldlM redColumn s
    if ¬ (∀ i, s.1.shift i = 0) ∨ ¬ (∀ i j, s.1.linear i j = if i = j then 1 else 0) then none
    else
      let b : Red n := (Elem.one n, [])
      let b ← (combs (List.range n) 3).foldlM (step3 s.1.poly) b
      let b ← (combs (List.range n) 2).foldlM (step2 s.1.poly) b
      let b ← (combs (List.range n) 1).foldlM (step1 s.1.poly) b
      if e.poly ≠ b.1.poly then none
      else pure (b.2 ++ invCircuit s.2)

/-- dihedral.py:931-952 `decompose_cnotdihedral` and 547-564 `to_circuit`. -/
def toCircuit : {n : ℕ} → Elem n → Option (List Gate)
  | 0, _ => none
  | 1, e => decompose1 e
  | 2, e => decompose2 e
  | _ + 3, e => decomposeGeneral e

/-- dihedral.py:734-739 `adjoint`. -/
def adjoint {n : ℕ} (e : Elem n) : Option (Elem n) := do
  let c ← toCircuit e
  fromCircuit n (invCircuit c)

/-- dihedral.py:741-755 `conjugate`: u1(λ) becomes u1(2π − λ). -/
def Gate.conj : Gate → Gate
  | .u1 k q => .u1 (8 - k) q
  | g => g

/-- dihedral.py:741-755 `conjugate`. -/
def conjugate {n : ℕ} (e : Elem n) : Option (Elem n) := do
  let c ← toCircuit e
  fromCircuit n (c.map Gate.conj)

/-- dihedral.py:757-762 `transpose`. -/
def transpose {n : ℕ} (e : Elem n) : Option (Elem n) := do
  let c ← toCircuit e
  fromCircuit n c.reverse

/-- dihedral.py:691-708, copy all terms of `src` into `dst` with the variables moved up by `s`; the
nested loops visit i, then j < i, then k < j. -/
def copyTerms {m n : ℕ} (src : Poly m) (s : ℕ) (dst : Poly n) : Option (Poly n) :=
  (List.range m).foldlM (fun d i => do
    let v ← getTerm src [i]
    let d ← setTerm d [i + s] v
    (List.range i).foldlM (fun d j => do
      let v ← getTerm src [j, i]
      let d ← setTerm d [j + s, i + s] v
      (List.range j).foldlM (fun d k => do
        let v ← getTerm src [k, j, i]
        setTerm d [k + s, j + s, i + s] v) d) d) dst

/-- dihedral.py:677-710 `_tensor` after the choice of `elem0` and `elem1`. -/
def tensorCore {m n : ℕ} (e0 : Elem m) (e1 : Elem n) : Option (Elem (m + n)) := do
  let linear : Fin (m + n) → Fin (m + n) → ℤ := fun i j =>
    Fin.addCases (fun i => Fin.addCases (fun j => e0.linear i j) (fun _ => 0) j)
      (fun i => Fin.addCases (fun _ => 0) (fun j => e1.linear i j) j) i
  let shift : Fin (m + n) → ℤ := fun i => Fin.addCases e0.shift e1.shift i
  let p ← copyTerms e0.poly 0 (Poly.zero (m + n))
  let p ← copyTerms e1.poly m p
  pure ⟨p, linear, shift⟩

/-- dihedral.py:712-721 `tensor` (`_tensor` with reverse=True: elem0 = self, elem1 = other). -/
def tensor {m n : ℕ} (self : Elem m) (other : Elem n) : Option (Elem (m + n)) := tensorCore self other

/-- dihedral.py:723-732 `expand` (`_tensor` with reverse=False: elem0 = other, elem1 = self). -/
def expand {m n : ℕ} (self : Elem m) (other : Elem n) : Option (Elem (n + m)) := tensorCore other self

/-- CPython's slot search when inserting the hash value `h` (a small int) into a set table with
`2^b` slots: `LINEAR_PROBES` is 9, so tables of 8 slots have no linear probing. -/
def cpyInsert : ℕ → List (Option ℕ) → ℕ → ℕ → ℕ → List (Option ℕ)
  | 0, tab, _, _, _ => tab
  | fuel + 1, tab, v, pos, perturb =>
    let len := tab.length
    let probes := if pos + 9 ≤ len - 1 then 9 else 0
    let slots := (List.range (probes + 1)).map (pos + ·)
    match slots.find? fun s => (tab[s]?).join = none ∨ (tab[s]?).join = some v with
    | some s => tab.set s (some v)
    | none =>
      let perturb := perturb / 32
      cpyInsert fuel tab v ((pos * 5 + 1 + perturb) % len) perturb

/-- Insert a list of small ints in turn. -/
def cpyInsertAll (tab : List (Option ℕ)) (vs : List ℕ) : List (Option ℕ) :=
  vs.foldl (fun tab v => cpyInsert 100 tab v (v % tab.length) v) tab

/-- The enumeration order of `list(set(a).union(set(b)))` in CPython 3.7 and later, for lists of at
most three distinct small ints (dihedral.py:100): `set(a)` has 8 slots, the union is rehashed into
16 slots when `5·(|a|+|b|) ≥ 3·7`. -/
def cpySetOrder : SetOrder := fun a b =>
  let ta := cpyInsertAll (List.replicate 8 none) a
  let tb := cpyInsertAll (List.replicate 8 none) b
  let la := ta.filterMap id
  let t0 := if 21 ≤ 5 * (la.length + (tb.filterMap id).length) then
      cpyInsertAll (List.replicate 16 none) la else ta
  (cpyInsertAll t0 (tb.filterMap id)).filterMap id

/-- dihedral.py:1311-1352 `random_cnotdihedral`; `w1`, `w2`, `w3`, `linears`, `shift` are the draws
(`linears` is the stream of candidate matrices, the loop of 1341-1344 takes the first with odd
determinant).  `none` means the given finite stream of candidates was exhausted. -/
def randomElem (n : ℕ) (w1 : List (Fin 8)) (w2 : List (Fin 4)) (w3 : List (Fin 2))
    (linears : List (Fin n → Fin n → Fin 2)) (shift : Fin n → Fin 2) : Option (Elem n) := do
  let linear ← linears.find? fun m => detOdd fun i j => ((m i j : ℕ) : ℤ)
  pure ⟨⟨0, w1.map fun (a : Fin 8) => ((a : ℕ) : ℤ), w2.map fun (a : Fin 4) => 2 * ((a : ℕ) : ℤ),
      w3.map fun (a : Fin 2) => 4 * ((a : ℕ) : ℤ)⟩,
    fun i j => ((linear i j : ℕ) : ℤ), fun i => ((shift i : ℕ) : ℤ)⟩

end Verif.Dihedral
