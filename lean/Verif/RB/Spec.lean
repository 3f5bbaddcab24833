import Verif.RB.Model
import Verif.Dihedral.Spec
/-
Specification side of the randomized benchmarking properties: what a circuit does to a state vector,
and what the group classes must provide.
-/
namespace Verif.RB
open Verif.Quantum

/-- Number of qubits of a gate kind. -/
def Kind.arity : Kind → ℕ
  | .cx | .cz | .swap => 2
  | _ => 1

/-- Matrices of the one-qubit gates. -/
noncomputable def Kind.mat : Kind → Mat2 ℂ
  | .x => mX
  | .y => Verif.Dihedral.mY
  | .z => mZ
  | .h => mH
  | .s => mS
  | .sdg => mSdg
  | .t k => Verif.Dihedral.mTpow k
  | .rx90 => fun r c => if r = c then rt else -Complex.I * rt
  | .rx90dg => fun r c => if r = c then rt else Complex.I * rt
  | .ry90 => fun r c => if r = false ∧ c = true then -rt else rt
  | .ry90dg => fun r c => if r = true ∧ c = false then -rt else rt
  | _ => mI

/-- Exchange of two qubits. -/
def appSwap {n : ℕ} (a b : Fin n) (ψ : State (Fin n) ℂ) : State (Fin n) ℂ :=
  fun x => ψ (fun q => x (Equiv.swap a b q))

/-- A gate (or barrier) on existing, pairwise distinct qubits of an `n`-qubit register. -/
def Ok (n : ℕ) : Ins → Prop
  | .gate k [q] => k.arity = 1 ∧ q < n
  | .gate k [a, b] => k.arity = 2 ∧ a < n ∧ b < n ∧ a ≠ b
  | .gate _ _ => False
  | .barrier qs => ∀ q ∈ qs, q < n
  | .measure _ _ => False

/-- Effect of an instruction on the state of `n` qubits (only meaningful under `Ok`). -/
noncomputable def act (n : ℕ) : Ins → State (Fin n) ℂ → State (Fin n) ℂ
  | .gate k [q], ψ => if h : q < n then app1 k.mat ⟨q, h⟩ ψ else ψ
  | .gate k [a, b], ψ =>
    if h : a < n ∧ b < n then
      match k with
      | .cx => appCX ⟨a, h.1⟩ ⟨b, h.2⟩ ψ
      | .cz => appCZ ⟨a, h.1⟩ ⟨b, h.2⟩ ψ
      | .swap => appSwap ⟨a, h.1⟩ ⟨b, h.2⟩ ψ
      | _ => ψ
    else ψ
  | _, ψ => ψ

/-- Effect of a circuit. -/
noncomputable def run (n : ℕ) (c : List Ins) (ψ : State (Fin n) ℂ) : State (Fin n) ℂ :=
  c.foldl (fun ψ i => act n i ψ) ψ

/-- Two circuits on `n` qubits implement the same operator up to a global phase. -/
def Same (n : ℕ) (c d : List Ins) : Prop := ∃ z : ℂ, ‖z‖ = 1 ∧ ∀ ψ, run n c ψ = fun x => z * run n d ψ x

/-- A circuit of gates on `n` qubits that is the identity up to a global phase. -/
def IsIdentity (n : ℕ) (c : List Ins) : Prop := (∀ i ∈ c, Ok n i) ∧ Same n c []

/-- What the circuit generator relies on: `Mem n e` says that `e` is an element on `n` qubits.  Elements
have circuits of gates on their qubits, and the circuit of a composition does what the two circuits do
one after the other. -/
structure Lawful {E : Type} (G : Group E) (Mem : ℕ → E → Prop) : Prop where
  iden : ∀ n, (∃ e, Mem n e) → ∃ e, G.iden n = some e ∧ Mem n e ∧ ∃ c, G.toCircuit e = some c ∧ Same n c []
  compose : ∀ n a b, Mem n a → Mem n b → ∃ e, G.compose a b = some e ∧ Mem n e ∧
    ∀ ca cb ce, G.toCircuit a = some ca → G.toCircuit b = some cb → G.toCircuit e = some ce → Same n ce (ca ++ cb)
  toCircuit : ∀ n e, Mem n e → ∃ c, G.toCircuit e = some c ∧ ∀ i ∈ c, Ok n i ∧ ∃ k qs, i = .gate k qs

/-- The gates of a circuit that act on the qubits `pat` (barriers left out). -/
def part (pat : List ℕ) (c : List Ins) : List Ins :=
  c.filter fun
    | .gate _ qs => qs.all fun q => decide (q ∈ pat)
    | _ => false

/-- The circuit of element `e` on the qubits `pat`. -/
def embed {E : Type} (G : Group E) (pat : List ℕ) (e : E) : Option (List Ins) :=
  (G.toCircuit e).bind fun c => replaceQ c pat

/-- Product of a list of elements, first element first, starting from `e`. -/
def prodFrom {E : Type} (G : Group E) (e : E) (gs : List E) : Option E := gs.foldlM G.compose e

/-- `body` is an RB sequence on the disjoint subsets `pats` of an `N`-qubit register: on subset `i` it applies
the elements `L i` one after the other (that much is `pre`) and then the inverse of their product, and
altogether it is the identity. -/
structure IsSeq {E : Type} (G : Group E) (pats : List (List ℕ)) (N : ℕ) (L : ℕ → List E) (pre body : List Ins) : Prop where
  identity : IsIdentity N body
  prefix_ : pre <+: body
  parts : ∀ i pat, pats[i]? = some pat → ∃ e0 e blocks inv inv', G.iden pat.length = some e0 ∧
    prodFrom G e0 (L i) = some e ∧ (L i).mapM (embed G pat) = some blocks ∧
    G.inverse e = some inv ∧ replaceQ inv pat = some inv' ∧
    part pat pre = blocks.flatten ∧ part pat body = blocks.flatten ++ inv'

/-- Elements drawn one after the other: the calls of `random` are numbered, later elements come from later
calls, no call is used twice. -/
def Drawn {E : Type} (rand : Rand E) (n : ℕ) (l : List E) : Prop :=
  ∃ ks : List (RSeed × ℕ), ks.Pairwise (fun a b => a.2 < b.2) ∧ l = ks.map fun k => rand n k.1 k.2

/-- The elements of an interleaved sequence on subset `i`: every random element is followed by the given one. -/
def weave {E : Type} (L : ℕ → List E) (l : List E) (i : ℕ) : List E := (L i).flatMap fun g => g :: (l[i]?).toList

/-- Digit `j` of `d` in base 3. -/
def dig3 (d j : ℕ) : ℕ := d / 3 ^ j % 3

/-- The rotations of purity circuit `d`: qubit `j` of every subset is rotated about X or Y according to digit `j`. -/
def purityGates (pats : List (List ℕ)) (m d : ℕ) : List Ins :=
  (List.range m).flatMap fun j =>
    match dig3 d j with
    | 0 => []
    | 1 => pats.map fun p => .gate .rx90 [p.getD j 0]
    | _ => pats.map fun p => .gate .ry90 [p.getD j 0]

/-- The letters of purity circuit `d`: one per qubit of a subset. -/
def purityLetters (m d : ℕ) : Str :=
  (List.range m).map fun j =>
    match dig3 d j with
    | 0 => 'Z'
    | 1 => 'X'
    | _ => 'Y'

/-- The Hadamard gates (and barriers) before and after a sequence that is to start and end in the X basis. -/
def hBefore (flat : List ℕ) : List Ins := flat.flatMap fun q => [.gate .h [q], .barrier [q]]
/-- See `hBefore`. -/
def hAfter (flat : List ℕ) : List Ins := flat.flatMap fun q => [.barrier [q], .gate .h [q]]

/-- The circuits for one seed and one sequence length: `L i` are the random elements on subset `i`. -/
structure StepOk {E : Type} (G : Group E) (cfg : Cfg E) (rand : Rand E) (N : ℕ) (dihedral isPurity : Bool) (maxDim : ℕ)
    (L : ℕ → List E) (pre ipre : List Ins) (suf : Str) (s : Step) : Prop where
  std : ∃ body, IsSeq G cfg.pattern N L pre body ∧
    s.std = ⟨circType dihedral ++ (if dihedral then "_Z".toList else []) ++ suf, body ++ measures cfg.pattern.flatten⟩ ∧
    (dihedral = true → s.dih = ⟨circType dihedral ++ "_X".toList ++ suf,
      hBefore cfg.pattern.flatten ++ body ++ hAfter cfg.pattern.flatten ++ measures cfg.pattern.flatten⟩) ∧
    (isPurity = true → s.purity = (List.range (3 ^ maxDim)).map fun d =>
      ⟨circType dihedral ++ "_purity_".toList ++ purityLetters maxDim d ++ suf,
        body ++ purityGates cfg.pattern maxDim d ++ measures cfg.pattern.flatten⟩)
  int : ∀ l, cfg.inter = some l → ∃ body, IsSeq G cfg.pattern N (weave L l) ipre body ∧
    s.inter = ⟨circType dihedral ++ "_interleaved".toList ++ (if dihedral then "_Z".toList else []) ++ suf, body ++ measures cfg.pattern.flatten⟩ ∧
    (dihedral = true → s.dihInter = ⟨circType dihedral ++ "_interleaved_X".toList ++ suf,
      hBefore cfg.pattern.flatten ++ body ++ hAfter cfg.pattern.flatten ++ measures cfg.pattern.flatten⟩)
  drawn : ∀ i pat, cfg.pattern[i]? = some pat → Drawn rand pat.length (L i)

/-- What is recorded for one length: the random elements per subset, the sequence without its inverse, and
the same for the interleaved sequence. -/
abbrev Rec (E : Type) := (ℕ → List E) × List Ins × List Ins

/-- The circuits of one seed: one entry per length, of the prescribed length on every subset, and every
sequence prolongs the shorter ones. -/
def SeedOk {E : Type} (G : Group E) (cfg : Cfg E) (rand : Rand E) (N : ℕ) (dihedral isPurity : Bool) (maxDim : ℕ)
    (lv : List ℤ) (sd : ℤ) (steps : List Step) : Prop :=
  steps.length = lv.length ∧ ∃ H : ℕ → Rec E,
    (∀ (k : ℕ) (s : Step) (v : ℤ), steps[k]? = some s → lv[k]? = some v →
      StepOk G cfg rand N dihedral isPurity maxDim (H k).1 (H k).2.1 (H k).2.2 (suffix k sd) s ∧
      ∀ (i : ℕ) (m : ℤ), cfg.mult[i]? = some m → (((H k).1 i).length : ℤ) = v * m) ∧
    ∀ (k k' : ℕ), k ≤ k' → k' < lv.length → (H k).2.1 <+: (H k').2.1 ∧ (H k).2.2 <+: (H k').2.2 ∧
      ∀ i, i < cfg.pattern.length → (H k).1 i <+: (H k').1 i

/-- The pattern in use. -/
def Args.pats {E : Type} (a : Args E) : List (List ℕ) := a.pattern.getD [[0]]
/-- The lengths in use. -/
def Args.lens {E : Type} (a : Args E) : List ℤ := a.lengthVector.getD [1, 10, 20]
/-- The multipliers in use, one per subset. -/
def Args.mults {E : Type} (a : Args E) : List ℤ :=
  match a.mult with
  | .list l => l
  | .scalar k => List.replicate a.pats.length k
  | .none => []
/-- The dimension of the largest subset. -/
def Args.dim {E : Type} (a : Args E) : ℕ := (a.pats.map List.length).foldl max 0

/-- Arguments as documented: distinct qubits in nonempty subsets, increasing positive lengths, positive
multipliers (one per subset, or one for all), for purity circuits subsets of equal size and one multiplier,
interleaved elements of the right sizes; `rand_seed` absent or an integer. -/
structure ValidArgs {E : Type} (Mem : ℕ → E → Prop) (a : Args E) : Prop where
  pats_ne : a.pats ≠ []
  subset_ne : ∀ p ∈ a.pats, p ≠ []
  distinct : a.pats.flatten.Nodup
  lens_ne : a.lens ≠ []
  increasing : a.lens.Pairwise (· < ·)
  lens_pos : ∀ v ∈ a.lens, 1 ≤ v
  mult : (∃ l, a.mult = .list l ∧ l.length = a.pats.length ∧ a.isPurity = false) ∨ ∃ k, a.mult = .scalar k
  mult_pos : ∀ k ∈ a.mults, 1 ≤ k
  purity : a.isPurity = true → ∀ p ∈ a.pats, ∀ q ∈ a.pats, p.length = q.length
  inter : ∀ l, a.inter = some l → l.map (·.1) = a.pats.map List.length ∧ ∀ x ∈ l, Mem x.1 x.2
  seed : a.randSeed ≠ .generator

/-- The settings of the loops for given arguments. -/
def Args.cfg {E : Type} (a : Args E) : Cfg E :=
  { pattern := a.pats, mult := a.mults, inter := a.inter.map (·.map (·.2)), align := a.align }

/-- All circuits of a returned tuple, list after list, seed after seed. -/
def Ret.all : Ret → List Circ
  | .purity cs _ _ => cs.flatten.flatten
  | .dihInter cs _ xs is xis => cs.flatten ++ xs.flatten ++ is.flatten ++ xis.flatten
  | .inter cs _ is => cs.flatten ++ is.flatten
  | .dih cs _ xs => cs.flatten ++ xs.flatten
  | .std cs _ => cs.flatten

/-- The names of one list of circuits: one per seed and length index. -/
def names (tag : String) (nseeds nlens : ℕ) (off : ℤ) : List Str :=
  (List.range nseeds).flatMap fun (j : ℕ) => (List.range nlens).map fun (k : ℕ) =>
    tag.toList ++ "_length_".toList ++ fmtD k ++ "_seed_".toList ++ fmtD (j + off)

/-- The names of the purity circuits: one per seed, basis and length index. -/
def purityNames (tag : String) (nseeds dim nlens : ℕ) (off : ℤ) : List Str :=
  (List.range nseeds).flatMap fun (j : ℕ) => (List.range (3 ^ dim)).flatMap fun d => (List.range nlens).map fun (k : ℕ) =>
    tag.toList ++ "_purity_".toList ++ purityLetters dim d ++ "_length_".toList ++ fmtD k ++ "_seed_".toList ++ fmtD (j + off)

/-- The names of all circuits returned. -/
def expectedNames {E : Type} (a : Args E) (dihedral : Bool) : List Str :=
  let ns := fun tag => names tag a.nseeds a.lens.length a.seedOffset
  match a.isPurity, a.inter.isSome, dihedral with
  | true, _, true => purityNames "rb_cnotdihedral" a.nseeds a.dim a.lens.length a.seedOffset
  | true, _, false => purityNames "rb" a.nseeds a.dim a.lens.length a.seedOffset
  | false, true, true => ns "rb_cnotdihedral_Z" ++ ns "rb_cnotdihedral_X" ++ ns "rb_cnotdihedral_interleaved_Z" ++ ns "rb_cnotdihedral_interleaved_X"
  | false, true, false => ns "rb" ++ ns "rb_interleaved"
  | false, false, true => ns "rb_cnotdihedral_Z" ++ ns "rb_cnotdihedral_X"
  | false, false, false => ns "rb"

end Verif.RB
