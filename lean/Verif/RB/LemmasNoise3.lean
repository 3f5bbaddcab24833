import Verif.RB.LemmasNoise2
import Verif.RB.Props
import Verif.RB.Fit
set_option linter.unusedSimpArgs false
set_option linter.unusedVariables false
/-
The returned circuits as events on a noisy device.
-/
namespace Verif.RB
open Verif.Quantum Complex
variable {E : Type} {Mem : ℕ → E → Prop} {N : ℕ}

theorem mp_ket0 {pat : List ℕ} (ht : Tgt N pat) (x : Fin pat.length → Bool) : mp pat x (ket0 : State (Fin N) ℂ) = if x = (fun _ => false) then 1 else 0 := by
  rw [mp_eq ht]
  have hp : ∀ y : Basis (Fin N), prob (ket0 : State (Fin N) ℂ) y = if y = (fun _ => false) then 1 else 0 := by
    intro y; unfold Quantum.prob ket0; split_ifs <;> simp
  simp only [hp]
  rw [Finset.sum_filter]
  rw [Finset.sum_eq_single (fun _ => false)]
  · by_cases hx : x = fun _ => false
    · rw [if_pos hx, if_pos hx.symm, if_pos rfl]
    · rw [if_neg hx, if_neg fun h => hx h.symm]
  · intro y _ hy
    rw [if_neg hy, ite_self]
  · simp

theorem nrm_ket0 : nrm (ket0 : State (Fin N) ℂ) = 1 := nrm_ket fun _ => false

theorem mp_same {pat : List ℕ} {c d : List Ins} (h : Same N c d) (x : Fin pat.length → Bool) (ψ : State (Fin N) ℂ) :
    mp pat x (run N c ψ) = mp pat x (run N d ψ) := by
  obtain ⟨z, hz, h⟩ := h
  rw [h]
  unfold mp
  refine Finset.sum_congr rfl fun y _ => prob_smul z (by rw [Complex.normSq_eq_norm_sq, hz]; norm_num) _ _

/-- Events on a subset that together do nothing, from the ground state. -/
theorem noisy_zero {pats : List (List ℕ)} {pat : List ℕ} (htp : ∀ p ∈ pats, Tgt N p) (ht : Tgt N pat) (hdis : ∀ p ∈ pats, p ≠ pat → ∀ q ∈ pat, q ∉ p)
    (evs : List Event) (l : List (List Ins × ℝ)) (hl : ∀ cp ∈ l, OnSub pat cp.1) (h : Runs N pats pat l evs) (hid : Same N (l.map (·.1)).flatten []) :
    outcome pat (fun _ => false) (noisy evs (start N)) = (1 - 1 / 2 ^ pat.length) * (l.map (·.2)).prod + 1 / 2 ^ pat.length := by
  rw [noisy_outcome htp ht hdis _ evs l hl h]
  simp only [start, List.map_cons, List.map_nil, List.sum_cons, List.sum_nil, mp_same hid, nrm_ket0]
  rw [run_nil, mp_ket0 ht, if_pos rfl]
  ring

/-- The subsets of a pattern are disjoint lists of distinct qubits. -/
theorem pats_dis {pats : List (List ℕ)} (hp : Pats Mem N pats) {i : ℕ} {pat : List ℕ} (hi : pats[i]? = some pat) :
    ∀ p ∈ pats, p ≠ pat → ∀ q ∈ pat, q ∉ p := by
  intro p hp' hne
  obtain ⟨j, hj⟩ := List.getElem?_of_mem hp'
  have hij : i ≠ j := by
    rintro rfl
    rw [hi, Option.some.injEq] at hj
    exact hne hj.symm
  exact hp.disj' hi hj hij

/-- The part of an RB sequence on one subset. -/
theorem seq_part {G : Group E} (hL : Lawful G Mem) {pats : List (List ℕ)} (hp : Pats Mem N pats) {L : ℕ → List E} {pre body : List Ins}
    (h : IsSeq G pats N L pre body) {i : ℕ} {pat : List ℕ} (hi : pats[i]? = some pat) (hm : ∀ g ∈ L i, Mem pat.length g) :
    ∃ blocks inv, (L i).mapM (embed G pat) = some blocks ∧ part pat body = blocks.flatten ++ inv ∧ (∀ b ∈ blocks, GatesOn N pat b) ∧ GatesOn N pat inv ∧
      Same N (blocks.flatten ++ inv) [] := by
  have hmem := List.mem_of_getElem? hi
  have ht := hp.tgt _ hmem
  obtain ⟨e0, e, blocks, inv, inv', h0, h1, h2, h3, h4, h5, h6⟩ := h.parts i pat hi
  obtain ⟨iv, iv', p1, p2, p3, p4, p5⟩ := part_identity (N := N) hL ht (hp.pos _ hmem) h0 hm h1 h2
  rw [h3, Option.some.injEq] at p1
  subst p1
  rw [h4, Option.some.injEq] at p2
  subst p2
  refine ⟨blocks, inv', h2, h6, ?_, fun j hj => ⟨p3 j hj, p4 j hj⟩, p5⟩
  clear h6 h5 h1 p5 p4 p3
  generalize L i = gs at hm h2
  induction gs generalizing blocks with
  | nil => cases h2; simp
  | cons g gs ih =>
    obtain ⟨c, d, -, a2, -, -, a5, a6⟩ := embed_spec (N := N) hL ht (hm g (by simp))
    rw [List.mapM_cons, a2] at h2
    cases hx : gs.mapM (embed G pat) with
    | none => rw [hx] at h2; cases h2
    | some bs =>
      rw [hx] at h2; cases h2
      intro b hb
      rcases List.mem_cons.1 hb with rfl | hb
      · exact fun j hj => ⟨a5 j hj, a6 j hj⟩
      · exact ih bs (fun g hg => hm g (by simp [hg])) hx b hb

/-- The circuits of the returned tuple, step by step. -/
theorem ret_steps {groups : Bool → Group E} {rand : Bool → Rand E} {a : Args E} {dihedral : Bool} (hg : groupOf a.groupGates = some dihedral)
    (hL : Lawful (groups dihedral) Mem) (hr : ∀ p ∈ a.pats, ∀ rs k, Mem p.length (rand dihedral p.length rs k)) (h : ValidArgs Mem a)
    (hN : ∀ q ∈ a.pats.flatten, q < N) {ret : Ret} (hret : rbSeq groups rand a = some ret) :
    ∃ steps : List (List Step),
      (∀ (j : ℕ) (l : List Step), steps[j]? = some l →
        SeedOk (groups dihedral) a.cfg (rand dihedral) N dihedral a.isPurity a.dim a.lens (j + a.seedOffset) l) ∧
      (ret.lengths = a.mults.map fun m => a.lens.map fun l => l * m) ∧
      (ret.plain = [] ∨ ret.plain = steps.map (·.map Step.std)) ∧
      (ret.xbasis = [] ∨ dihedral = true ∧ ret.xbasis = steps.map (·.map Step.dih)) ∧
      (ret.inters = [] ∨ a.inter.isSome = true ∧ ret.inters = steps.map (·.map Step.inter)) ∧
      (ret.xinters = [] ∨ a.inter.isSome = true ∧ dihedral = true ∧ ret.xinters = steps.map (·.map Step.dihInter)) ∧
      (ret.purities = [] ∨ a.isPurity = true ∧
        ret.purities = steps.map fun l => (List.range (3 ^ a.dim)).map fun d => l.filterMap fun s => s.purity[d]?) := by
  obtain ⟨steps, h1, h2, h3⟩ := C42_family hg hL hr h hN
  rw [hret, Option.some.injEq] at h3
  refine ⟨steps, h2, ?_⟩
  subst h3
  cases hp : a.isPurity <;> cases hi : a.inter.isSome <;> cases dihedral <;>
    simp [Ret.lengths, Ret.plain, Ret.xbasis, Ret.inters, Ret.xinters, Ret.purities]

/-- One circuit, by seed and length. -/
theorem step_of {groups : Bool → Group E} {rand : Bool → Rand E} {a : Args E} {dihedral : Bool} {steps : List (List Step)}
    (hs : ∀ (j : ℕ) (l : List Step), steps[j]? = some l →
        SeedOk (groups dihedral) a.cfg (rand dihedral) N dihedral a.isPurity a.dim a.lens (j + a.seedOffset) l)
    {f : Step → Circ} {css : List (List Circ)} (hcss : css = [] ∨ css = steps.map (·.map f)) {j k : ℕ} {row : List Circ} {c : Circ}
    (hrow : css[j]? = some row) (hc : row[k]? = some c) {xs : List (List ℤ)} (hxs : xs = a.mults.map fun m => a.lens.map fun l => l * m)
    {i : ℕ} {xr : List ℤ} {x : ℤ} (hxr : xs[i]? = some xr) (hx : xr[k]? = some x) :
    ∃ s L pre ipre suf, c = f s ∧ StepOk (groups dihedral) a.cfg (rand dihedral) N dihedral a.isPurity a.dim L pre ipre suf s ∧ ((L i).length : ℤ) = x := by
  rcases hcss with rfl | rfl
  · simp at hrow
  · rw [List.getElem?_map, Option.map_eq_some_iff] at hrow
    obtain ⟨l, hl, rfl⟩ := hrow
    rw [List.getElem?_map, Option.map_eq_some_iff] at hc
    obtain ⟨s, hs', rfl⟩ := hc
    subst hxs
    rw [List.getElem?_map, Option.map_eq_some_iff] at hxr
    obtain ⟨m, hm, rfl⟩ := hxr
    rw [List.getElem?_map, Option.map_eq_some_iff] at hx
    obtain ⟨v, hv, rfl⟩ := hx
    obtain ⟨-, H, h1, -⟩ := hs j l hl
    obtain ⟨h2, h3⟩ := h1 k s v hs' hv
    exact ⟨s, _, _, _, _, rfl, h2, h3 i m hm⟩

theorem drawn_mem {rand : Rand E} {n : ℕ} {l : List E} (h : Drawn rand n l) (hr : ∀ rs k, Mem n (rand n rs k)) : ∀ g ∈ l, Mem n g := by
  obtain ⟨ks, -, rfl⟩ := h
  intro g hg
  obtain ⟨k, -, rfl⟩ := List.mem_map.1 hg
  exact hr _ _

theorem mapM_length {α β : Type} {f : α → Option β} {l : List α} {bs : List β} (h : l.mapM f = some bs) : bs.length = l.length := by
  induction l generalizing bs with
  | nil => cases h; rfl
  | cons a l ih =>
    rw [List.mapM_cons] at h
    cases ha : f a with
    | none => rw [ha] at h; cases h
    | some b =>
      cases hl : l.mapM f with
      | none => rw [ha, hl] at h; cases h
      | some bs' => rw [ha, hl] at h; cases h; simp [ih hl]

theorem mapM_weave {α β : Type} {f : α → Option β} {l : List α} {e : α} {g : β} (he : f e = some g) {bs : List β}
    (h : (l.flatMap fun a => [a, e]).mapM f = some bs) : ∃ cs, l.mapM f = some cs ∧ bs = cs.flatMap fun c => [c, g] := by
  induction l generalizing bs with
  | nil => cases h; exact ⟨[], rfl, rfl⟩
  | cons a l ih =>
    rw [List.flatMap_cons, List.cons_append, List.cons_append, List.nil_append, List.mapM_cons, List.mapM_cons] at h
    cases ha : f a with
    | none => rw [ha] at h; cases h
    | some b =>
      rw [ha, he] at h
      cases hl : (l.flatMap fun a => [a, e]).mapM f with
      | none => rw [hl] at h; cases h
      | some bs' =>
        rw [hl] at h; cases h
        obtain ⟨cs, h1, rfl⟩ := ih hl
        exact ⟨b :: cs, by rw [List.mapM_cons, ha, h1]; rfl, rfl⟩

/-- The gates of the Hadamard layers on a subset. -/
theorem part_h (pat flat : List ℕ) :
    part pat (hBefore flat) = (hBefore (flat.filter fun q => decide (q ∈ pat))).filter (fun i => match i with | .gate _ _ => true | _ => false) ∧
      part pat (hAfter flat) = (hAfter (flat.filter fun q => decide (q ∈ pat))).filter (fun i => match i with | .gate _ _ => true | _ => false) := by
  induction flat with
  | nil => exact ⟨rfl, rfl⟩
  | cons q t ih =>
    have e1 : hBefore (q :: t) = [.gate .h [q], .barrier [q]] ++ hBefore t := rfl
    have e2 : hAfter (q :: t) = [.barrier [q], .gate .h [q]] ++ hAfter t := rfl
    rw [e1, e2, part_append, part_append, ih.1, ih.2]
    by_cases hq : q ∈ pat
    · rw [List.filter_cons_of_pos (by simpa using hq)]
      constructor
      · rw [show ∀ t', hBefore (q :: t') = [.gate .h [q], .barrier [q]] ++ hBefore t' from fun _ => rfl, List.filter_append]
        congr 1
        simp [part, hq]
      · rw [show ∀ t', hAfter (q :: t') = [.barrier [q], .gate .h [q]] ++ hAfter t' from fun _ => rfl, List.filter_append]
        congr 1
        simp [part, hq]
    · rw [List.filter_cons_of_neg (by simpa using hq)]
      constructor
      · rw [show part pat [.gate .h [q], .barrier [q]] = [] by simp [part, hq]]; rfl
      · rw [show part pat [.barrier [q], .gate .h [q]] = [] by simp [part, hq]]; rfl

theorem h_ok {flat : List ℕ} (hf : ∀ q ∈ flat, q < N) : (∀ i ∈ hBefore flat, Ok N i) ∧ ∀ i ∈ hAfter flat, Ok N i := by
  constructor
  · intro i hi
    obtain ⟨q, hq, hi⟩ := List.mem_flatMap.1 hi
    simp at hi
    rcases hi with rfl | rfl
    · exact ⟨rfl, hf q hq⟩
    · intro r hr; simp at hr; subst hr; exact hf r hq
  · intro i hi
    obtain ⟨q, hq, hi⟩ := List.mem_flatMap.1 hi
    simp at hi
    rcases hi with rfl | rfl
    · intro r hr; simp at hr; subst hr; exact hf r hq
    · exact ⟨rfl, hf q hq⟩

theorem part_gatesOn {pat : List ℕ} {c : List Ins} (hc : ∀ i ∈ c, Ok N i) : GatesOn N pat (part pat c) := by
  intro j hj
  unfold part at hj
  obtain ⟨h1, h2⟩ := List.mem_filter.1 hj
  refine ⟨hc j h1, ?_⟩
  cases j with
  | gate k qs => exact ⟨k, qs, rfl, by simpa using h2⟩
  | barrier qs => simp at h2
  | measure a b => simp at h2

/-- Hadamard gates around a sequence that does nothing. -/
theorem h_same {pat flat : List ℕ} (hf : ∀ q ∈ flat, q < N) (hd : flat.Nodup) {c : List Ins} (hc : ∀ i ∈ c, Ok N i) (h : Same N c []) :
    Same N (part pat (hBefore flat) ++ c ++ part pat (hAfter flat)) [] := by
  obtain ⟨z, hz, hs⟩ := h
  have hf' : ∀ q ∈ flat.filter (fun q => decide (q ∈ pat)), q < N := fun q hq => hf q (List.mem_filter.1 hq).1
  obtain ⟨o1, o2⟩ := h_ok hf'
  refine ⟨z, hz, fun ψ => ?_⟩
  obtain ⟨e1, e2⟩ := part_h pat flat
  have f1 : ∀ φ, run N (part pat (hBefore flat)) φ = run N (hBefore (flat.filter fun q => decide (q ∈ pat))) φ := fun φ => by
    rw [e1]; exact filter_barrier _ o1 φ
  have f2 : ∀ φ, run N (part pat (hAfter flat)) φ = run N (hAfter (flat.filter fun q => decide (q ∈ pat))) φ := fun φ => by
    rw [e2]; exact filter_barrier _ o2 φ
  rw [run_append, run_append, f1, f2, hs, run_nil, run_smul _ o2, ← run_append,
    hBefore_run _ hf' (hd.filter _)]
  rfl

end Verif.RB
