import Verif.RB.Instances
import Verif.RB.LemmasNames
set_option linter.unusedSimpArgs false
set_option linter.unusedVariables false
/-
C41-C44: randomized benchmarking circuits.
-/
namespace Verif.RB
open Verif.Quantum
variable {E : Type} {Mem : ℕ → E → Prop} {N : ℕ}

/-! ### C42: the family of circuits -/

/-- C41/C42, everything about the returned circuits in one statement.  For all arguments as documented,
any group obeying the group laws and any random draws, the function returns; seed by seed and length by
length (`SeedOk`): on subset `i` the circuit is the circuits of `length * multiplier i` elements, drawn one
after the other, in order, followed by the inverse of their product, and nothing else; the whole
is the identity; longer sequences prolong shorter ones; interleaved circuits have the given element after every
random element; the X-basis and purity circuits of the same step share the same body. -/
theorem C42_family {groups : Bool → Group E} {rand : Bool → Rand E} {a : Args E} {dihedral : Bool} (hg : groupOf a.groupGates = some dihedral)
    (hL : Lawful (groups dihedral) Mem) (hr : ∀ p ∈ a.pats, ∀ rs k, Mem p.length (rand dihedral p.length rs k)) (h : ValidArgs Mem a)
    (hN : ∀ q ∈ a.pats.flatten, q < N) :
    ∃ steps : List (List Step), steps.length = a.nseeds ∧
      (∀ (j : ℕ) (l : List Step), steps[j]? = some l →
        SeedOk (groups dihedral) a.cfg (rand dihedral) N dihedral a.isPurity a.dim a.lens (j + a.seedOffset) l) ∧
      rbSeq groups rand a = some (
        let x := a.mults.map fun m => a.lens.map fun l => l * m
        match a.isPurity, a.inter.isSome, dihedral with
        | true, _, _ => .purity (steps.map fun l => (List.range (3 ^ a.dim)).map fun d => l.filterMap fun s => s.purity[d]?) x (3 ^ a.dim)
        | false, true, true => .dihInter (steps.map (·.map Step.std)) x (steps.map (·.map Step.dih)) (steps.map (·.map Step.inter)) (steps.map (·.map Step.dihInter))
        | false, true, false => .inter (steps.map (·.map Step.std)) x (steps.map (·.map Step.inter))
        | false, false, true => .dih (steps.map (·.map Step.std)) x (steps.map (·.map Step.dih))
        | false, false, false => .std (steps.map (·.map Step.std)) x) := by
  obtain ⟨steps, h1, h2, h3⟩ := rbSeq_spec hg hL hr h hN
  refine ⟨steps, h2, h3, ?_⟩
  rw [h1]
  unfold pack calcXdata
  cases a.isPurity <;> cases a.inter.isSome <;> cases dihedral <;> rfl

/-- C42: the names of the circuits, in order: exactly one circuit for every list (plain, X basis,
interleaved, ...), seed and length, named after them. -/
theorem C42_names {groups : Bool → Group E} {rand : Bool → Rand E} {a : Args E} {dihedral : Bool} (hg : groupOf a.groupGates = some dihedral)
    (hL : Lawful (groups dihedral) Mem) (hr : ∀ p ∈ a.pats, ∀ rs k, Mem p.length (rand dihedral p.length rs k)) (h : ValidArgs Mem a) :
    ∃ ret, rbSeq groups rand a = some ret ∧ ret.all.map Circ.name = expectedNames a dihedral := by
  have hN : ∀ q ∈ a.pats.flatten, q < a.pats.flatten.foldl max 0 + 1 := fun q hq =>
    Nat.lt_succ_of_le ((foldl_max_ge _ 0).2 q hq)
  obtain ⟨steps, h1, h2, h3⟩ := rbSeq_spec hg hL hr h hN
  exact ⟨_, h1, pack_names h2 h3⟩

/-- C42: no two of the returned circuits have the same name. -/
theorem C42_unique {groups : Bool → Group E} {rand : Bool → Rand E} {a : Args E} {dihedral : Bool} (hg : groupOf a.groupGates = some dihedral)
    (hL : Lawful (groups dihedral) Mem) (hr : ∀ p ∈ a.pats, ∀ rs k, Mem p.length (rand dihedral p.length rs k)) (h : ValidArgs Mem a) :
    ∃ ret, rbSeq groups rand a = some ret ∧ (ret.all.map Circ.name).Nodup := by
  obtain ⟨ret, h1, h2⟩ := C42_names hg hL hr h
  exact ⟨ret, h1, by rw [h2]; exact expectedNames_nodup a dihedral⟩

/-! ### C41: the circuits are the identity -/

theorem IsIdentity.prob {n : ℕ} {c : List Ins} (h : IsIdentity n c) (x : Basis (Fin n)) :
    prob (run n c ket0) x = if x = (fun _ => false) then 1 else 0 := by
  obtain ⟨-, z, hz, h2⟩ := h
  rw [h2]
  unfold Quantum.prob
  rw [map_mul, Complex.normSq_eq_norm_sq, hz]
  simp only [run, List.foldl_nil, ket0]
  split_ifs <;> simp

theorem hBefore_run {n : ℕ} (flat : List ℕ) (hf : ∀ q ∈ flat, q < n) (hd : flat.Nodup) (ψ : State (Fin n) ℂ) :
    run n (hBefore flat ++ hAfter flat) ψ = ψ := by
  induction flat generalizing ψ with
  | nil => rfl
  | cons q t ih =>
    have hq : q < n := hf q (by simp)
    have e1 : hBefore (q :: t) = [.gate .h [q], .barrier [q]] ++ hBefore t := rfl
    have e2 : hAfter (q :: t) = [.barrier [q], .gate .h [q]] ++ hAfter t := rfl
    have hcomm : ∀ φ : State (Fin n) ℂ, run n (hBefore t) (app1 mH ⟨q, hq⟩ φ) = app1 mH ⟨q, hq⟩ (run n (hBefore t) φ) := by
      have hqt : q ∉ t := (List.nodup_cons.1 hd).1
      have hft : ∀ q ∈ t, q < n := fun q hq => hf q (by simp [hq])
      clear ih hd hf
      induction t with
      | nil => intro φ; rfl
      | cons r t ih =>
        intro φ
        have hr : r < n := hft r (by simp)
        have hne : (⟨r, hr⟩ : Fin n) ≠ ⟨q, hq⟩ := fun e => hqt (by simp [Fin.mk.inj e])
        have e : ∀ χ : State (Fin n) ℂ, run n (hBefore (r :: t)) χ = run n (hBefore t) (app1 mH ⟨r, hr⟩ χ) := by
          intro χ
          show run n (hBefore t) (act n (.barrier [r]) (act n (.gate .h [r]) χ)) = _
          rw [act_one _ _ hr]; rfl
        rw [e, e, app1_comm _ _ _ _ hne]
        exact ih rfl rfl (fun h => hqt (by simp [h])) (fun q hq => hft q (by simp [hq])) _
    have e3 : run n (hBefore (q :: t) ++ hAfter (q :: t)) ψ = run n (hAfter t) (app1 mH ⟨q, hq⟩ (run n (hBefore t) (app1 mH ⟨q, hq⟩ ψ))) := by
      rw [e1, e2, run_append, run_append, run_append]
      show run n (hAfter t) (act n (.gate .h [q]) (act n (.barrier [q]) (run n (hBefore t) (act n (.barrier [q]) (act n (.gate .h [q]) ψ))))) = _
      rw [act_one _ _ hq, act_one _ _ hq]; rfl
    rw [e3, hcomm, h_h, ← run_append]
    exact ih (fun q hq => hf q (by simp [hq])) (List.nodup_cons.1 hd).2 ψ

theorem xbody_identity {n : ℕ} {flat : List ℕ} (hf : ∀ q ∈ flat, q < n) (hd : flat.Nodup) {body : List Ins} (h : IsIdentity n body) :
    IsIdentity n (hBefore flat ++ body ++ hAfter flat) := by
  have hb : ∀ i ∈ hBefore flat, Ok n i := by
    intro i hi
    obtain ⟨q, hq, hi⟩ := List.mem_flatMap.1 hi
    simp at hi
    rcases hi with rfl | rfl
    · exact ⟨rfl, hf q hq⟩
    · intro r hr; simp at hr; subst hr; exact hf r hq
  have ha : ∀ i ∈ hAfter flat, Ok n i := by
    intro i hi
    obtain ⟨q, hq, hi⟩ := List.mem_flatMap.1 hi
    simp at hi
    rcases hi with rfl | rfl
    · intro r hr; simp at hr; subst hr; exact hf r hq
    · exact ⟨rfl, hf q hq⟩
  refine ⟨?_, ?_⟩
  · intro i hi
    rcases List.mem_append.1 hi with hi | hi
    · rcases List.mem_append.1 hi with hi | hi
      · exact hb i hi
      · exact h.1 i hi
    · exact ha i hi
  · obtain ⟨hok, z, hz, hs⟩ := h
    refine ⟨z, hz, fun ψ => ?_⟩
    rw [run_append, run_append, hs, show run n [] (run n (hBefore flat) ψ) = run n (hBefore flat) ψ from rfl, run_smul _ ha, ← run_append,
      hBefore_run flat hf hd]
    rfl

/-- C41: every returned circuit consists of a body that is the identity up to a global phase, followed by
the measurements of the pattern's qubits into the classical bits in order; in purity circuits rotations stand in between.
Without noise the body takes |0...0⟩ to |0...0⟩: the outcome is all zeros with probability one. -/
theorem C41_identity {groups : Bool → Group E} {rand : Bool → Rand E} {a : Args E} {dihedral : Bool} (hg : groupOf a.groupGates = some dihedral)
    (hL : Lawful (groups dihedral) Mem) (hr : ∀ p ∈ a.pats, ∀ rs k, Mem p.length (rand dihedral p.length rs k)) (h : ValidArgs Mem a)
    (hN : ∀ q ∈ a.pats.flatten, q < N) :
    ∃ ret, rbSeq groups rand a = some ret ∧ ∀ c ∈ ret.all, ∃ body rot,
      c.ins = body ++ rot ++ (a.pats.flatten.zipIdx.map fun qc => Ins.measure qc.1 qc.2) ∧ IsIdentity N body ∧
      (∀ x, prob (run N body ket0) x = if x = (fun _ => false) then 1 else 0) ∧
      (a.isPurity = false → rot = []) ∧ (a.isPurity = true → ∃ d < 3 ^ a.dim, rot = purityGates a.pats a.dim d) := by
  obtain ⟨steps, h1, h2, h3⟩ := rbSeq_spec hg hL hr h hN
  refine ⟨_, h1, ?_⟩
  have key : ∀ l ∈ steps, ∀ s ∈ l, ∃ L pre ipre suf, StepOk (groups dihedral) a.cfg (rand dihedral) N dihedral a.isPurity a.dim L pre ipre suf s := by
    intro l hl s hs
    obtain ⟨j, hj, rfl⟩ := List.getElem_of_mem hl
    obtain ⟨k, hk, rfl⟩ := List.getElem_of_mem hs
    obtain ⟨L, pre, ipre, hs'⟩ := (h3 j _ (List.getElem?_eq_getElem hj)).steps.2 k _ (List.getElem?_eq_getElem hk)
    exact ⟨L, pre, ipre, _, hs'⟩
  have mk : ∀ (c : Circ) (body : List Ins), c.ins = body ++ measures a.pats.flatten → IsIdentity N body → a.isPurity = false →
      ∃ body rot, c.ins = body ++ rot ++ (a.pats.flatten.zipIdx.map fun qc => Ins.measure qc.1 qc.2) ∧ IsIdentity N body ∧
      (∀ x, prob (run N body ket0) x = if x = (fun _ => false) then 1 else 0) ∧
      (a.isPurity = false → rot = []) ∧ (a.isPurity = true → ∃ d < 3 ^ a.dim, rot = purityGates a.pats a.dim d) := by
    intro c body hc hb hp
    exact ⟨body, [], by rw [hc, List.append_nil]; rfl, hb, hb.prob, fun _ => rfl, fun h => by rw [hp] at h; cases h⟩
  have mem2 : ∀ (f : Step → Circ) (c : Circ), c ∈ (steps.map (·.map f)).flatten → ∃ l ∈ steps, ∃ s ∈ l, f s = c := by
    intro f c hc
    obtain ⟨l', hl', hc⟩ := List.mem_flatten.1 hc
    obtain ⟨l, hl, rfl⟩ := List.mem_map.1 hl'
    obtain ⟨s, hs, rfl⟩ := List.mem_map.1 hc
    exact ⟨l, hl, s, hs, rfl⟩
  have hstd : a.isPurity = false → ∀ c ∈ (steps.map (·.map Step.std)).flatten, ∃ body, c.ins = body ++ measures a.pats.flatten ∧ IsIdentity N body := by
    intro _ c hc
    obtain ⟨l, hl, s, hs, rfl⟩ := mem2 _ c hc
    obtain ⟨L, pre, ipre, suf, hs⟩ := key l hl s hs
    obtain ⟨body, b1, b2, -⟩ := hs.std
    exact ⟨body, by rw [b2]; rfl, b1.identity⟩
  have hdih : dihedral = true → ∀ c ∈ (steps.map (·.map Step.dih)).flatten, ∃ body, c.ins = body ++ measures a.pats.flatten ∧ IsIdentity N body := by
    intro hd c hc
    obtain ⟨l, hl, s, hs, rfl⟩ := mem2 _ c hc
    obtain ⟨L, pre, ipre, suf, hs⟩ := key l hl s hs
    obtain ⟨body, b1, -, b2, -⟩ := hs.std
    exact ⟨_, by rw [b2 hd]; rfl, xbody_identity hN h.distinct b1.identity⟩
  have hint : a.inter.isSome = true → ∀ c ∈ (steps.map (·.map Step.inter)).flatten, ∃ body, c.ins = body ++ measures a.pats.flatten ∧ IsIdentity N body := by
    intro hi c hc
    obtain ⟨y, hy⟩ := Option.isSome_iff_exists.1 hi
    obtain ⟨l, hl, s, hs, rfl⟩ := mem2 _ c hc
    obtain ⟨L, pre, ipre, suf, hs⟩ := key l hl s hs
    obtain ⟨body, b1, b2, -⟩ := hs.int (y.map (·.2)) (by show a.inter.map _ = _; rw [hy]; rfl)
    exact ⟨body, by rw [b2]; rfl, b1.identity⟩
  have hdi : dihedral = true → a.inter.isSome = true → ∀ c ∈ (steps.map (·.map Step.dihInter)).flatten, ∃ body, c.ins = body ++ measures a.pats.flatten ∧ IsIdentity N body := by
    intro hd hi c hc
    obtain ⟨y, hy⟩ := Option.isSome_iff_exists.1 hi
    obtain ⟨l, hl, s, hs, rfl⟩ := mem2 _ c hc
    obtain ⟨L, pre, ipre, suf, hs⟩ := key l hl s hs
    obtain ⟨body, b1, -, b2⟩ := hs.int (y.map (·.2)) (by show a.inter.map _ = _; rw [hy]; rfl)
    exact ⟨_, by rw [b2 hd]; rfl, xbody_identity hN h.distinct b1.identity⟩
  intro c hc
  unfold pack at hc
  rcases Bool.eq_false_or_eq_true a.isPurity with hp | hp
  · rw [if_pos hp] at hc
    obtain ⟨l', hl', hc⟩ := List.mem_flatten.1 hc
    obtain ⟨l'', hl'', hl'⟩ := List.mem_flatten.1 hl'
    obtain ⟨l, hl, rfl⟩ := List.mem_map.1 hl''
    obtain ⟨d, hd, rfl⟩ := List.mem_map.1 hl'
    obtain ⟨s, hs, hc⟩ := List.mem_filterMap.1 hc
    obtain ⟨L, pre, ipre, suf, hs⟩ := key l hl s hs
    obtain ⟨body, b1, -, -, b2⟩ := hs.std
    rw [b2 hp, List.getElem?_map, List.getElem?_range (List.mem_range.1 hd)] at hc
    cases hc
    exact ⟨body, _, rfl, b1.identity, b1.identity.prob, fun h => (by rw [hp] at h; cases h), fun _ => ⟨d, List.mem_range.1 hd, rfl⟩⟩
  · have fin : ∀ c : Circ, (∃ body, c.ins = body ++ measures a.pats.flatten ∧ IsIdentity N body) → _ := fun c ⟨body, b1, b2⟩ => mk c body b1 b2 hp
    refine fin c ?_
    cases hi : a.inter.isSome with
    | true =>
      cases dihedral with
      | true =>
        simp only [hp, hi, Bool.false_eq_true, if_false, Bool.and_self, if_true, Ret.all, List.mem_append] at hc
        rcases hc with ((hc | hc) | hc) | hc
        · exact hstd hp c hc
        · exact hdih rfl c hc
        · exact hint hi c hc
        · exact hdi rfl hi c hc
      | false =>
        simp only [hp, hi, Bool.false_eq_true, if_false, Bool.and_false, if_true, Ret.all, List.mem_append] at hc
        rcases hc with hc | hc
        · exact hstd hp c hc
        · exact hint hi c hc
    | false =>
      cases dihedral with
      | true =>
        simp only [hp, hi, Bool.false_eq_true, if_false, Bool.false_and, if_true, Ret.all, List.mem_append] at hc
        rcases hc with hc | hc
        · exact hstd hp c hc
        · exact hdih rfl c hc
      | false =>
        simp only [hp, hi, Bool.false_eq_true, if_false, Bool.false_and, if_true, Ret.all, List.mem_append] at hc
        exact hstd hp c hc

/-- C41 for the library's own CNOT-dihedral class: for subsets of at most eight qubits no assumption on
the group remains. -/
theorem C41_cnotdihedral {clifford : Group (Σ n, Dihedral.Elem n)} {rand : Bool → Rand (Σ n, Dihedral.Elem n)} {a : Args (Σ n, Dihedral.Elem n)}
    (hg : groupOf a.groupGates = some true) (hr : ∀ p ∈ a.pats, ∀ rs k, DihMem p.length (rand true p.length rs k)) (h : ValidArgs DihMem a)
    (hN : ∀ q ∈ a.pats.flatten, q < N) :
    ∃ ret, rbSeq (fun b => if b then dihGroup Dihedral.cpySetOrder else clifford) rand a = some ret ∧ ∀ c ∈ ret.all, ∃ body rot,
      c.ins = body ++ rot ++ (a.pats.flatten.zipIdx.map fun qc => Ins.measure qc.1 qc.2) ∧ IsIdentity N body ∧
      (∀ x, prob (run N body ket0) x = if x = (fun _ => false) then 1 else 0) ∧
      (a.isPurity = false → rot = []) ∧ (a.isPurity = true → ∃ d < 3 ^ a.dim, rot = purityGates a.pats a.dim d) :=
  C41_identity (groups := fun b => if b then dihGroup Dihedral.cpySetOrder else clifford) hg dih_lawful hr h hN

/-! #### The hypotheses are met -/

/-- Two subsets, three lengths, two seeds, interleaved. -/
def exArgs : Args (List Ins) :=
  { nseeds := 2, lengthVector := some [1, 2, 4], pattern := some [[3, 1], [0]], mult := .list [1, 2], seedOffset := 5, align := true
    inter := some [(2, [.gate .cx [0, 1]]), (1, [.gate .s [0]])], isPurity := false, groupGates := none, randSeed := .int 7 }
/-- Draws that depend on size and position. -/
def exRand : Rand (List Ins) := fun n rs k =>
  if n = 1 then (if k % 2 = 0 then [.gate .h [0]] else [.gate .s [0]]) else (if k % 3 = 0 then [.gate .cx [1, 0], .gate .s [1]] else [.gate .h [1], .gate .cx [0, 1]])

theorem exRand_mem (n : ℕ) (hn : n = 1 ∨ n = 2) (rs : RSeed) (k : ℕ) : FreeMem n (exRand n rs k) := by
  unfold exRand FreeMem
  rcases hn with rfl | rfl
  · rw [if_pos rfl]; split_ifs <;> simp [Ok, Kind.arity]
  · rw [if_neg (by decide)]; split_ifs <;> simp_all [Ok, Kind.arity]

theorem exArgs_valid : ValidArgs FreeMem exArgs where
  pats_ne := by decide
  subset_ne := by decide
  distinct := by decide
  lens_ne := by decide
  increasing := by decide
  lens_pos := by decide
  mult := Or.inl ⟨_, rfl, rfl, rfl⟩
  mult_pos := by decide
  purity := by intro h; cases h
  inter := by
    intro l hl
    cases hl
    refine ⟨rfl, ?_⟩
    intro x hx
    simp at hx
    rcases hx with rfl | rfl <;> simp [FreeMem, Ok, Kind.arity]
  seed := by decide

example : ∃ ret, rbSeq (fun _ => freeGroup) (fun _ => exRand) exArgs = some ret ∧ ret.all.length = 12 ∧ (ret.all.map Circ.name).Nodup := by
  have hr : ∀ p ∈ exArgs.pats, ∀ rs k, FreeMem p.length (exRand p.length rs k) := by
    intro p hp rs k
    have : p = [3, 1] ∨ p = [0] := by simpa [exArgs, Args.pats] using hp
    rcases this with rfl | rfl
    · exact exRand_mem 2 (Or.inr rfl) rs k
    · exact exRand_mem 1 (Or.inl rfl) rs k
  obtain ⟨ret, h1, h2⟩ := C42_names (groups := fun _ => freeGroup) (rand := fun _ => exRand) (dihedral := false) rfl free_lawful hr exArgs_valid
  refine ⟨ret, h1, ?_, by rw [h2]; exact expectedNames_nodup _ _⟩
  rw [← List.length_map Circ.name, h2]; decide +kernel

/-- Purity circuits on two subsets of the CNOT-dihedral group. -/
example : ∃ ret, rbSeq (fun b => if b then dihGroup Dihedral.cpySetOrder else dihGroup Dihedral.cpySetOrder) (fun _ n _ _ => ⟨n, Dihedral.Elem.one n⟩)
    { nseeds := 1, lengthVector := some [1, 3], pattern := some [[3, 1], [0, 2]], mult := .scalar 1, seedOffset := 0, align := false
      inter := none, isPurity := true, groupGates := some "1", randSeed := .none } = some ret ∧ ∀ c ∈ ret.all, ∃ body rot,
      c.ins = body ++ rot ++ [.measure 3 0, .measure 1 1, .measure 0 2, .measure 2 3] ∧ IsIdentity 4 body := by
  have hr : ∀ p ∈ [[3, 1], [0, 2]], ∀ (rs : RSeed) (k : ℕ), DihMem (List.length p) ⟨p.length, Dihedral.Elem.one p.length⟩ := by
    intro p hp rs k
    have : p = [3, 1] ∨ p = [0, 2] := by simpa using hp
    rcases this with rfl | rfl <;> exact ⟨by decide, by decide, _, rfl, Dihedral.valid_one _⟩
  obtain ⟨ret, h1, h2⟩ := C41_cnotdihedral (N := 4) (clifford := dihGroup Dihedral.cpySetOrder) (rand := fun _ n _ _ => ⟨n, Dihedral.Elem.one n⟩)
    (a := { nseeds := 1, lengthVector := some [1, 3], pattern := some [[3, 1], [0, 2]], mult := .scalar 1, seedOffset := 0, align := false
            inter := none, isPurity := true, groupGates := some "1", randSeed := .none }) rfl hr
    { pats_ne := by decide
      subset_ne := by decide
      distinct := by decide
      lens_ne := by decide
      increasing := by decide
      lens_pos := by decide
      mult := Or.inr ⟨_, rfl⟩
      mult_pos := by decide
      purity := by intro _; decide
      inter := by intro l hl; cases hl
      seed := by decide } (by decide)
  refine ⟨ret, h1, fun c hc => ?_⟩
  obtain ⟨body, rot, e1, e2, -⟩ := h2 c hc
  exact ⟨body, rot, e1, e2⟩

/-! ### C43: pattern and multiplier checks -/

/-- C43: `check_pattern` accepts exactly the patterns with some qubit, no qubit twice, for purity circuits
subsets of one size only, and interleaved elements of the sizes of the subsets. -/
theorem C43_accepts (pats : List (List ℕ)) (isPurity : Bool) (inter : Option (List ℕ)) :
    (∃ r, checkPattern pats isPurity inter = some r) ↔
      pats.flatten ≠ [] ∧ pats.flatten.Nodup ∧ (isPurity = true → ∀ p ∈ pats, ∀ q ∈ pats, p.length = q.length) ∧
      ∀ l, inter = some l → l = pats.map List.length := by
  constructor
  · rintro ⟨r, h⟩
    unfold checkPattern at h
    simp only [Option.bind_eq_bind] at h
    split_ifs at h with c1 c2 c3
    refine ⟨?_, ?_, ?_, ?_⟩
    · intro h0
      rw [h0] at h; simp at h
    · rw [List.nodup_iff_count_le_one]
      intro q
      by_contra hq
      refine c1 (List.any_eq_true.2 ⟨q, ?_, by simp; omega⟩)
      exact List.count_pos_iff.1 (by omega)
    · intro hp p hpp q hqq
      by_contra hne
      refine c2 ?_
      rw [hp, Bool.true_and, decide_eq_true_eq]
      have hnd : [p.length, q.length].Nodup := by simp [hne]
      have hsub : [p.length, q.length] ⊆ (pats.map List.length).dedup := by
        intro x hx
        simp at hx
        rcases hx with rfl | rfl
        · exact List.mem_dedup.2 (List.mem_map_of_mem hpp)
        · exact List.mem_dedup.2 (List.mem_map_of_mem hqq)
      exact (hnd.subperm hsub).length_le
    · intro l hl
      by_contra hne
      refine c3 ?_
      rw [hl]
      simp [Ne.symm hne]
  · rintro ⟨h0, h1, h2, h3⟩
    have hne : pats ≠ [] := by rintro rfl; exact h0 rfl
    have c1 : ¬ (pats.flatten.any fun q => decide (pats.flatten.count q > 1)) = true := by
      intro h
      obtain ⟨q, hq, hc⟩ := List.any_eq_true.1 h
      have := List.nodup_iff_count_le_one.1 h1 q
      simp at hc; omega
    have c2 : ¬ (isPurity && decide ((pats.map List.length).dedup.length > 1)) = true := by
      intro h
      rw [Bool.and_eq_true, decide_eq_true_eq] at h
      obtain ⟨hp, hl⟩ := h
      have hnd := List.nodup_dedup (pats.map List.length)
      match hdd : (pats.map List.length).dedup with
      | [] => rw [hdd] at hl; simp at hl
      | [a] => rw [hdd] at hl; simp at hl
      | a :: b :: t =>
        have ha : a ∈ pats.map List.length := List.mem_dedup.1 (by rw [hdd]; simp)
        have hb : b ∈ pats.map List.length := List.mem_dedup.1 (by rw [hdd]; simp)
        obtain ⟨p, hp1, rfl⟩ := List.mem_map.1 ha
        obtain ⟨q, hq1, rfl⟩ := List.mem_map.1 hb
        rw [hdd, h2 hp p hp1 q hq1] at hnd
        simp at hnd
    have c3 : ¬ (inter.isSome && decide (some (pats.map List.length) ≠ inter)) = true := by
      intro h
      cases inter with
      | none => simp at h
      | some l => rw [h3 l rfl] at h; simp at h
    unfold checkPattern
    simp only [Option.bind_eq_bind]
    rw [if_neg c1, if_neg c2, if_neg c3]
    cases h4 : pats.flatten.max? with
    | none => exact absurd (List.max?_eq_none_iff.1 h4) h0
    | some m =>
      cases h5 : (pats.map List.length).max? with
      | none => exact absurd (List.map_eq_nil_iff.1 (List.max?_eq_none_iff.1 h5)) hne
      | some m' => exact ⟨_, rfl⟩

/-- C43: what `check_pattern` returns: the qubits in order, the largest qubit and the largest subset size. -/
theorem C43_values (pats : List (List ℕ)) (isPurity : Bool) (inter : Option (List ℕ)) (flat : List ℕ) (mq md : ℕ)
    (h : checkPattern pats isPurity inter = some (flat, mq, md)) :
    flat = pats.flatten ∧ mq ∈ flat ∧ (∀ q ∈ flat, q ≤ mq) ∧ (∃ p ∈ pats, p.length = md) ∧ ∀ p ∈ pats, p.length ≤ md := by
  unfold checkPattern at h
  simp only [Option.bind_eq_bind] at h
  split_ifs at h with c1 c2 c3
  obtain ⟨m, h4, h⟩ := Option.bind_eq_some_iff.1 h
  obtain ⟨m', h5, h⟩ := Option.bind_eq_some_iff.1 h
  cases h
  obtain ⟨a1, a2⟩ := List.max?_eq_some_iff.1 h4
  obtain ⟨b1, b2⟩ := List.max?_eq_some_iff.1 h5
  obtain ⟨p, hp, hpl⟩ := List.mem_map.1 b1
  exact ⟨rfl, a1, a2, ⟨p, hp, hpl⟩, fun q hq => b2 _ (List.mem_map_of_mem hq)⟩

/-- C43: a list of multipliers is accepted exactly if it has one positive entry per subset and the
circuits are not purity circuits; it is then used as it is. -/
theorem C43_multiplier_list (l : List ℤ) (n : ℕ) (isPurity : Bool) (r : List ℤ) :
    handleMult (.list l) n isPurity = some r ↔ r = l ∧ isPurity = false ∧ l.length = n ∧ ∀ k ∈ l, 1 ≤ k := by
  unfold handleMult
  cases isPurity with
  | true => simp
  | false =>
    simp only [Bool.false_eq_true, if_false, true_and]
    split_ifs with c1 c2
    · simp [c1]
    · simp only [reduceCtorEq, false_iff]
      rintro ⟨-, -, h⟩
      obtain ⟨k, hk, hk'⟩ := List.any_eq_true.1 c2
      have := h k hk
      simp at hk'; omega
    · simp only [Option.some.injEq]
      constructor
      · rintro rfl
        refine ⟨rfl, not_not.1 c1, fun k hk => ?_⟩
        by_contra hk'
        exact c2 (List.any_eq_true.2 ⟨k, hk, by simp; omega⟩)
      · rintro ⟨rfl, -⟩; rfl

/-- C43: a single multiplier is used for every subset. -/
theorem C43_multiplier_scalar (k : ℤ) (n : ℕ) (isPurity : Bool) :
    ∃ r, handleMult (.scalar k) n isPurity = some r ∧ r.length = n ∧ ∀ x ∈ r, x = k :=
  ⟨_, rfl, by simp, by simp⟩

/-- Finding: a single multiplier is not checked: zero and negative values are accepted. -/
theorem C43_finding_scalar_unchecked : handleMult (.scalar 0) 2 false = some [0, 0] ∧ handleMult (.scalar (-3)) 1 false = some [-3] := by decide

/-- Finding: for purity circuits `None`, the value that the docstring asks for, raises. -/
theorem C43_finding_none_raises (n : ℕ) (isPurity : Bool) : handleMult .none n isPurity = none := rfl

example : ∃ r, checkPattern [[0, 2], [1]] false (some [2, 1]) = some r := (C43_accepts _ _ _).2 ⟨by decide, by decide, by simp, by simp⟩
example : ¬ ∃ r, checkPattern [[0, 2], [1]] true none = some r := fun h => by
  have := ((C43_accepts _ _ _).1 h).2.2.1 rfl [0, 2] (by simp) [1] (by simp)
  cases this
example : handleMult (.list [1, 3]) 2 false = some [1, 3] := (C43_multiplier_list _ _ _ _).2 ⟨rfl, rfl, rfl, by simp⟩

/-! ### C44: group names -/

/-- C44: the documented names and what they select. -/
theorem C44_documented : groupOf none = some false ∧ groupOf (some "0") = some false ∧ groupOf (some "Clifford") = some false ∧
    groupOf (some "1") = some true ∧ groupOf (some "CNOT-Dihedral") = some true ∧ groupOf (some "Non-Clifford") = some true := by decide

/-- C44: every other name is rejected, apart from two undocumented ones. -/
theorem C44_other (s : String) (h : s ∉ ["0", "Clifford", "1", "CNOT-Dihedral", "Non-Clifford", "clifford", "NonCliffordCNOTDihedral"]) :
    groupOf (some s) = none := by
  have e : "NonClifford" ++ "CNOTDihedral" = "NonCliffordCNOTDihedral" := by decide
  unfold groupOf
  simp only [e]
  rw [if_neg, if_neg]
  · intro hs
    apply h
    simp at hs ⊢
    tauto
  · intro hs
    apply h
    simp at hs ⊢
    tauto

/-- Finding: a missing comma joins two names: `NonClifford` and `CNOTDihedral`, meant to be accepted, are rejected. -/
theorem C44_finding_missing_comma : groupOf (some "NonClifford") = none ∧ groupOf (some "CNOTDihedral") = none ∧
    groupOf (some "NonCliffordCNOTDihedral") = some true := by decide

example : groupOf (some "pauli") = none := C44_other _ (by decide)

/-! ### Findings about the arguments -/

/-- Finding: with `rand_seed=0` the seed never changes: every element is drawn with seed 0. -/
theorem C42_finding_seed_zero (seed : ℕ) : bumpSeed (.int 0) seed = some (.int 0) := rfl

/-- ... and the seed is different for every element otherwise (for positive seeds). -/
theorem C42_seed_changes (s : ℤ) (hs : 0 < s) (seed : ℕ) : ∃ s', bumpSeed (.int s) seed = some (.int s') ∧ s < s' := by
  refine ⟨s + (seed + 1), ?_, by omega⟩
  unfold bumpSeed
  simp only [if_neg (by omega : ¬ s = 0)]

/-- Finding: a generator as `rand_seed`, which the signature and the docstring allow, raises. -/
theorem C42_finding_generator (seed : ℕ) : bumpSeed .generator seed = none := rfl

/-- Finding: lengths that are not increasing are silently dropped: here two of three. -/
theorem C42_finding_lengths_dropped : ∃ cs x, rbSeq (fun _ => freeGroup) (fun _ => exRand)
    { nseeds := 1, lengthVector := some [2, 1, 2], pattern := none, mult := .scalar 1, seedOffset := 0, align := false, inter := none
      isPurity := false, groupGates := none, randSeed := .none } = some (.std [cs] x) ∧ cs.length = 1 := by
  refine ⟨_, _, rfl, rfl⟩

end Verif.RB
