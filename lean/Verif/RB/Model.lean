import Verif.Py.Fmt
import Mathlib.Data.List.Dedup
/-
Model of qiskit/ignis/verification/randomized_benchmarking/circuits.py and rb_groups.py.

Conventions of this file.  `none` stands for a raised exception.  A quantum circuit is the list of its
instructions; the registers `qr` and `cr` are implicit (qubit and classical bit numbers).  The group
(`Clifford` of qiskit-terra or `CNOTDihedral`) is a parameter, a record of the operations that
rb_groups.py calls.  The random elements are a parameter too.
-/
namespace Verif.RB

/-- Gate kinds that occur in the circuits: the ones of the two groups' `to_circuit` and the ones that
circuits.py adds (`h`, `rx(pi/2)`, `ry(pi/2)`). `t k` is `u1(k*pi/4)`. -/
inductive Kind
  | x | y | z | h | s | sdg | t (k : ℤ) | id | rx90 | ry90 | rx90dg | ry90dg | cx | cz | swap
deriving DecidableEq, Repr

/-- `Gate.inverse()`. -/
def Kind.inv : Kind → Kind
  | .s => .sdg
  | .sdg => .s
  | .t k => .t (-k)
  | .rx90 => .rx90dg
  | .ry90 => .ry90dg
  | .rx90dg => .rx90
  | .ry90dg => .ry90
  | k => k

/-- One instruction with its qubit (and classical bit) numbers. -/
inductive Ins
  | gate (k : Kind) (qs : List ℕ)
  | barrier (qs : List ℕ)
  | measure (q c : ℕ)
deriving DecidableEq, Repr

/-- Instruction part of `QuantumCircuit.inverse()`; measurements have no inverse (QiskitError). -/
def Ins.inv : Ins → Option Ins
  | .gate k qs => some (.gate k.inv qs)
  | .barrier qs => some (.barrier qs)
  | .measure _ _ => none

/-- `QuantumCircuit.inverse()`. -/
def invCirc (c : List Ins) : Option (List Ins) := (c.mapM Ins.inv).map List.reverse

/-- The operations of the group class that rb_groups.py uses. -/
structure Group (E : Type) where
  /-- rb_groups.py:61-67 `iden`. -/
  iden : ℕ → Option E
  /-- rb_groups.py:77-80 `compose`. -/
  compose : E → E → Option E
  /-- rb_groups.py:90-93 `to_circuit`. -/
  toCircuit : E → Option (List Ins)

/-- rb_groups.py:82-88 `inverse`. -/
def Group.inverse {E : Type} (G : Group E) (e : E) : Option (List Ins) := do
  let circ ← G.toCircuit e
  invCirc circ

/-- rb_groups.py:28-49: the group a name selects, `false` Clifford, `true` CNOT-dihedral
(`group_gates_type`); `none` is the QiskitError.  The two adjacent string literals of lines 41-42 are
one string. -/
def groupOf : Option String → Option Bool
  | none => some false
  | some s =>
    if s ∈ ["0", "Clifford", "clifford"] then some false
    else if s ∈ ["1", "Non-Clifford", "NonClifford" ++ "CNOTDihedral", "CNOT-Dihedral"] then some true
    else none

/-- rb_groups.py:32 and 43, `rb_circ_type`. -/
def circType (dihedral : Bool) : Str := if dihedral then "rb_cnotdihedral".toList else "rb".toList

/-- A length multiplier argument: a list or a scalar, or `None`. -/
inductive Mult
  | list (l : List ℤ)
  | scalar (k : ℤ)
  | none

/-- circuits.py:34-67 `handle_length_multiplier`.  List entries are integers (another dtype raises). -/
def handleMult (m : Mult) (lenPattern : ℕ) (isPurity : Bool) : Option (List ℤ) :=
  match m with
  | .list l =>
    if isPurity then .none
    else if l.length ≠ lenPattern then .none
    else if l.any fun k => decide (k < 1) then .none
    else some l
  | .scalar k => some (List.replicate lenPattern k)
  | .none => .none  -- `np.ones(..) * None` raises TypeError

/-- circuits.py:70-123 `check_pattern`; `inter` are the numbers of qubits of the interleaved elements.
Returns (pattern_flat, maximal qubit, maximal dimension).  `np.max` of an empty list raises. -/
def checkPattern (pattern : List (List ℕ)) (isPurity : Bool) (inter : Option (List ℕ)) :
    Option (List ℕ × ℕ × ℕ) := do
  let flat := pattern.flatten
  let dim := pattern.map List.length
  if flat.any (fun q => decide (flat.count q > 1)) then none
  else if isPurity && decide (dim.dedup.length > 1) then none
  else if inter.isSome && decide (some dim ≠ inter) then none
  else
    let mq ← flat.max?
    let md ← dim.max?
    some (flat, mq, md)

/-- circuits.py:174-190 `calc_xdata`. -/
def calcXdata (lengthVector : List ℤ) (mult : List ℤ) : List (List ℤ) :=
  mult.map fun m => lengthVector.map fun l => l * m

/-- circuits.py:635-656 `replace_q_indices`, one instruction; indexing `q_nums` raises IndexError. The
circuits it is applied to contain no measurement. -/
def replaceIns (qNums : List ℕ) : Ins → Option Ins
  | .gate k qs => (qs.mapM fun x => qNums[x]?).map (Ins.gate k)
  | .barrier qs => (qs.mapM fun x => qNums[x]?).map Ins.barrier
  | .measure q c => (qNums[q]?).map fun q' => Ins.measure q' c

/-- circuits.py:635-656 `replace_q_indices`. -/
def replaceQ (c : List Ins) (qNums : List ℕ) : Option (List Ins) := c.mapM (replaceIns qNums)

/-- The `rand_seed` argument: absent, an integer, or a generator object. -/
inductive RSeed
  | none
  | int (s : ℤ)
  | generator
deriving DecidableEq

/-- circuits.py:444-445: `if rand_seed: rand_seed += (seed + 1)`; adding an integer to a generator
raises TypeError. -/
def bumpSeed (rs : RSeed) (seed : ℕ) : Option RSeed :=
  match rs with
  | .none => some .none
  | .int s => if s = 0 then some (.int s) else some (.int (s + (seed + 1)))
  | .generator => Option.none

/-- Where the random elements come from: `rand n rand_seed k` is what the `k`-th call of
`rb_group.random(n, rand_seed)` returns (rb_groups.py:69-75). -/
abbrev Rand (E : Type) := ℕ → RSeed → ℕ → E

/-- The arguments of `randomized_benchmarking_seq` after the checks of lines 376-404. -/
structure Cfg (E : Type) where
  pattern : List (List ℕ)
  mult : List ℤ
  inter : Option (List E)
  align : Bool

/-- The loop variables of lines 424-438. -/
structure St (E : Type) where
  circ : List Ins
  icirc : List Ins
  elts : List E
  ielts : List E
  rseed : RSeed
  draws : ℕ

/-- circuits.py:457-480, the interleaved part of the innermost loop body: compose, append the random
element, a barrier, the interleaved element and a barrier. -/
def interStep {E : Type} (G : Group E) (pat : List ℕ) (i : ℕ) (new el : E) (st : St E) : Option (St E) := do
  let cur ← st.ielts[i]?
  let e1 ← G.compose cur new
  let c1 ← (G.toCircuit new).bind fun c => replaceQ c pat
  let e2 ← G.compose e1 el
  let c2 ← (G.toCircuit el).bind fun c => replaceQ c pat
  some { st with ielts := st.ielts.set i e2, icirc := st.icirc ++ c1 ++ [.barrier pat] ++ c2 ++ [.barrier pat] }

/-- circuits.py:442-480, body of the innermost loop. -/
def innerStep {E : Type} (G : Group E) (cfg : Cfg E) (rand : Rand E) (seed : ℕ) (pat : List ℕ) (i : ℕ)
    (st : St E) : Option (St E) := do
  let rs ← bumpSeed st.rseed seed
  let new := rand pat.length rs st.draws
  let cur ← st.elts[i]?
  let e ← G.compose cur new
  let c ← (G.toCircuit new).bind fun c => replaceQ c pat
  let st1 : St E := { st with
    elts := st.elts.set i e, circ := st.circ ++ c ++ [.barrier pat], rseed := rs, draws := st.draws + 1 }
  match cfg.inter with
  | none => some st1
  | some l => do
    let el ← l[i]?
    interStep G pat i new el st1

/-- circuits.py:442, `for _ in range(length_multiplier[rb_pattern_index])`. -/
def patStep {E : Type} (G : Group E) (cfg : Cfg E) (rand : Rand E) (seed : ℕ) (st : St E) (pi : List ℕ × ℕ) :
    Option (St E) := do
  let m ← cfg.mult[pi.2]?
  (List.range m.toNat).foldlM (fun st _ => innerStep G cfg rand seed pi.1 pi.2 st) st

/-- circuits.py:482-489, alignment barriers. -/
def alignStep {E : Type} (cfg : Cfg E) (st : St E) : St E :=
  if cfg.align then
    { st with circ := st.circ ++ [.barrier cfg.pattern.flatten]
              icirc := if cfg.inter.isSome then st.icirc ++ [.barrier cfg.pattern.flatten] else st.icirc }
  else st

/-- circuits.py:440-489, one pass of the loop over `elmnts_index` up to the length test. -/
def elmStep {E : Type} (G : Group E) (cfg : Cfg E) (rand : Rand E) (seed : ℕ) (st : St E) : Option (St E) := do
  let st ← cfg.pattern.zipIdx.foldlM (patStep G cfg rand seed) st
  some (alignStep cfg st)

/-- circuits.py:501-512: append the inverse of every running element. -/
def closeStep {E : Type} (G : Group E) (elts : List E) (circ : List Ins) (pi : List ℕ × ℕ) : Option (List Ins) := do
  let e ← elts[pi.2]?
  let inv ← G.inverse e
  let c ← replaceQ inv pi.1
  some (circ ++ c)

/-- circuits.py:501-512. -/
def closeSeq {E : Type} (G : Group E) (pattern : List (List ℕ)) (elts : List E) (circ : List Ins) : Option (List Ins) :=
  pattern.zipIdx.foldlM (closeStep G elts) circ

/-- A named circuit. -/
structure Circ where
  name : Str
  ins : List Ins
deriving DecidableEq

/-- circuits.py:550-551, 574-584: measure the pattern's qubits into the classical bits in order. -/
def measures (flat : List ℕ) : List Ins := flat.zipIdx.map fun qi => .measure qi.1 qi.2

/-- circuits.py:552, 587: `'_length_%d_seed_%d' % (length_index, seed + seed_offset)`. -/
def suffix (li : ℕ) (s : ℤ) : Str := "_length_".toList ++ fmtD li ++ "_seed_".toList ++ fmtD s

/-- circuits.py:521-544: the base-3 digits of `d`, low digit first, at least one. -/
def purityDigits (d : ℕ) : List ℕ :=
  if h : d / 3 = 0 then [d % 3] else d % 3 :: purityDigits (d / 3)
termination_by d
decreasing_by omega

/-- circuits.py:528-541: letter of a digit. -/
def purityLetter (r : ℕ) : Char := if r = 0 then 'Z' else if r = 1 then 'X' else 'Y'

/-- circuits.py:528-541: gates of one digit. -/
def purityRot (pattern : List (List ℕ)) (rk : ℕ × ℕ) : Option (List Ins) :=
  if rk.1 = 0 then some []
  else pattern.mapM fun pat => (pat[rk.2]?).map fun q => Ins.gate (if rk.1 = 1 then .rx90 else .ry90) [q]

/-- circuits.py:515-554, purity circuit number `d`. -/
def purityCirc (ty : Str) (pattern : List (List ℕ)) (maxDim : ℕ) (circ : List Ins) (suf : Str) (d : ℕ) : Option Circ := do
  let digits := purityDigits d
  let rots ← digits.zipIdx.mapM (purityRot pattern)
  some { name := ty ++ "_purity_".toList ++ digits.map purityLetter ++ List.replicate (maxDim - digits.length) 'Z' ++ suf
         ins := circ ++ rots.flatten ++ measures pattern.flatten }

/-- circuits.py:556-576: the circuits that start and end in the X basis. -/
def xCirc (flat : List ℕ) (circ : List Ins) : List Ins :=
  flat.flatMap (fun q => [.gate .h [q], .barrier [q]]) ++ circ ++
    flat.flatMap (fun q => [.barrier [q], .gate .h [q]]) ++ measures flat

/-- The circuits made for one sequence length. -/
structure Step where
  std : Circ
  inter : Circ
  dih : Circ
  dihInter : Circ
  purity : List Circ

/-- circuits.py:493-614: the circuits for one length. -/
def finish {E : Type} (G : Group E) (cfg : Cfg E) (dihedral isPurity : Bool) (maxDim : ℕ) (li : ℕ) (sd : ℤ) (st : St E) :
    Option Step := do
  let flat := cfg.pattern.flatten
  let ty := circType dihedral
  let suf := suffix li sd
  let circ ← closeSeq G cfg.pattern st.elts st.circ
  let icirc ← (if cfg.inter.isSome then closeSeq G cfg.pattern st.ielts st.icirc else some st.icirc)
  let purity ← (if isPurity then (List.range (3 ^ maxDim)).mapM (purityCirc ty cfg.pattern maxDim circ suf) else some [])
  some {
    std := ⟨ty ++ (if dihedral then "_Z".toList else []) ++ suf, circ ++ measures flat⟩
    inter := ⟨ty ++ "_interleaved".toList ++ (if dihedral then "_Z".toList else []) ++ suf, icirc ++ measures flat⟩
    dih := ⟨if dihedral then ty ++ "_X".toList ++ suf else [], if dihedral then xCirc flat circ else []⟩
    dihInter := ⟨if dihedral then ty ++ "_interleaved_X".toList ++ suf else [], if dihedral then xCirc flat icirc else []⟩
    purity := purity }

/-- Loop state of the loop over `elmnts_index`. -/
structure Loop (E : Type) where
  st : St E
  li : ℕ
  out : List Step

/-- circuits.py:439-616, body of the loop over `elmnts_index`. -/
def lengthStep {E : Type} (G : Group E) (cfg : Cfg E) (rand : Rand E) (dihedral isPurity : Bool) (maxDim : ℕ)
    (lv : List ℤ) (seedOffset : ℤ) (seed : ℕ) (lp : Loop E) (idx : ℕ) : Option (Loop E) := do
  let st ← elmStep G cfg rand seed lp.st
  let target ← lv[lp.li]?
  if (idx : ℤ) + 1 = target then do
    let s ← finish G cfg dihedral isPurity maxDim lp.li (seed + seedOffset) st
    some { st := st, li := lp.li + 1, out := lp.out ++ [s] }
  else some { lp with st := st }

/-- circuits.py:421-616, body of the loop over the seeds. -/
def seedStep {E : Type} (G : Group E) (cfg : Cfg E) (rand : Rand E) (dihedral isPurity : Bool) (maxDim : ℕ)
    (lv : List ℤ) (seedOffset : ℤ) (acc : RSeed × ℕ × List (List Step)) (seed : ℕ) : Option (RSeed × ℕ × List (List Step)) := do
  let ids ← cfg.pattern.mapM fun pat => G.iden pat.length
  let last ← lv.getLast?
  let lp ← (List.range last.toNat).foldlM (lengthStep G cfg rand dihedral isPurity maxDim lv seedOffset seed)
    { st := { circ := [], icirc := [], elts := ids, ielts := ids, rseed := acc.1, draws := acc.2.1 }, li := 0, out := [] }
  some (lp.st.rseed, lp.st.draws, acc.2.2 ++ [lp.out])

/-- What `randomized_benchmarking_seq` returns (lines 618-632): lists over the seeds. -/
inductive Ret
  | purity (circuits : List (List (List Circ))) (xdata : List (List ℤ)) (npurity : ℕ)
  | dihInter (circuits : List (List Circ)) (xdata : List (List ℤ)) (dih inter dihInter : List (List Circ))
  | inter (circuits : List (List Circ)) (xdata : List (List ℤ)) (inter : List (List Circ))
  | dih (circuits : List (List Circ)) (xdata : List (List ℤ)) (dih : List (List Circ))
  | std (circuits : List (List Circ)) (xdata : List (List ℤ))

/-- Arguments of `randomized_benchmarking_seq`.  `inter` holds the interleaved elements, already group
elements, with their numbers of qubits (`handle_interleaved_elem`, lines 126-171, which converts circuits
with the group's `from_circuit`, is not modelled). -/
structure Args (E : Type) where
  nseeds : ℕ
  lengthVector : Option (List ℤ)
  pattern : Option (List (List ℕ))
  mult : Mult
  seedOffset : ℤ
  align : Bool
  inter : Option (List (ℕ × E))
  isPurity : Bool
  groupGates : Option String
  randSeed : RSeed

/-- circuits.py:618-632, the returned tuple. -/
def pack {E : Type} (a : Args E) (dihedral : Bool) (maxDim : ℕ) (xdata : List (List ℤ)) (steps : List (List Step)) : Ret :=
  let circuits := steps.map (·.map (·.std))
  let inter := steps.map (·.map (·.inter))
  let dih := steps.map (·.map (·.dih))
  let dihInter := steps.map (·.map (·.dihInter))
  if a.isPurity then
    .purity (steps.map fun l => (List.range (3 ^ maxDim)).map fun d => l.filterMap fun s => s.purity[d]?) xdata (3 ^ maxDim)
  else if a.inter.isSome && dihedral then .dihInter circuits xdata dih inter dihInter
  else if a.inter.isSome then .inter circuits xdata inter
  else if dihedral then .dih circuits xdata dih
  else .std circuits xdata

/-- circuits.py:193-632 `randomized_benchmarking_seq`; the group class is the one `group_gates` selects. -/
def rbSeq {E : Type} (groups : Bool → Group E) (rand : Bool → Rand E) (a : Args E) : Option Ret := do
  let pattern := a.pattern.getD [[0]]
  let lv := a.lengthVector.getD [1, 10, 20]
  let (_, _, maxDim) ← checkPattern pattern a.isPurity (a.inter.map (·.map (·.1)))
  let mult ← handleMult a.mult pattern.length a.isPurity
  let xdata := calcXdata lv mult
  let dihedral ← groupOf a.groupGates
  let cfg : Cfg E := { pattern := pattern, mult := mult, inter := a.inter.map (·.map (·.2)), align := a.align }
  let (_, _, steps) ← (List.range a.nseeds).foldlM
    (seedStep (groups dihedral) cfg (rand dihedral) dihedral a.isPurity maxDim lv a.seedOffset) (a.randSeed, 0, [])
  some (pack a dihedral maxDim xdata steps)

end Verif.RB
