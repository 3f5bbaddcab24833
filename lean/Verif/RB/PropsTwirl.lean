import Verif.RB.LemmasTwirl8
set_option linter.unusedSimpArgs false
set_option linter.unusedVariables false
/-
C113: randomized benchmarking on a device with arbitrary noise (any channel after every element, arbitrary errors of preparation and
measurement): the mean over the random elements is the decay curve that the fitters fit, and its parameters are fidelities of the noise.
-/
namespace Verif.RB
open Verif.Quantum Matrix
variable {E : Type} {G : Group E} {Mem : ℕ → E → Prop} {N : ℕ} {pat : List ℕ} {els : Finset E}

/-! ### The circuits -/

/-- C113: plain RB.  On any subset the circuit of any seed and length is the circuits of the random elements and of the inverse of their
product, and on a device with any noise after every element and after the inverse, whatever happens on the other subsets and in whatever
order, the probability of reading all zeros is the one of the sequence on the subset alone. -/
theorem C113_plain {groups : Bool → Group E} {rand : Bool → Rand E} {a : Args E} {dihedral : Bool} (hg : groupOf a.groupGates = some dihedral)
    (hL : Lawful (groups dihedral) Mem) (hr : ∀ p ∈ a.pats, ∀ rs k, Mem p.length (rand dihedral p.length rs k)) (h : ValidArgs Mem a)
    (hN : ∀ q ∈ a.pats.flatten, q < N) {ret : Ret} (hret : rbSeq groups rand a = some ret) {j k i : ℕ} {row : List Circ} {c : Circ} {pat : List ℕ}
    {xr : List ℤ} {x : ℤ} (hrow : ret.plain[j]? = some row) (hc : row[k]? = some c) (hi : a.pats[i]? = some pat) (hxr : ret.lengths[i]? = some xr)
    (hx : xr[k]? = some x) :
    ∃ gs body blocks inv, Drawn (rand dihedral) pat.length gs ∧ (gs.length : ℤ) = x ∧ seqOn (groups dihedral) pat gs = some (blocks, inv) ∧
      c.ins = body ++ measures a.pats.flatten ∧ part pat body = blocks.flatten ++ inv ∧
      ∀ (Ks Js : List (Op pat.length)) (e : Ens N) (evs : List (KEvent N)), RunsK N a.pats pat (blocks.map (fun b => (b, Ks)) ++ [(inv, Js)]) evs →
        outcome pat (fun _ => false) (noisyK evs e) = success (groups dihedral) pat [] Ks Js [] e gs := by
  have hG := good_of_valid hL h hr hN
  obtain ⟨steps, s1, s2, s3, -⟩ := ret_steps hg hL hr h hN hret
  obtain ⟨s, L, pre, ipre, suf, rfl, hs, hlen⟩ := step_of s1 s3 hrow hc s2 hxr hx
  obtain ⟨body, b1, b2, -⟩ := hs.std
  have hd := hs.drawn i pat hi
  have hmem := List.mem_of_getElem? hi
  have ht := hG.pats.tgt pat hmem
  have hgm := drawn_mem hd (hr pat hmem)
  obtain ⟨blocks, inv, q1, q2⟩ := seqOn_of b1 hi
  obtain ⟨blocks', inv', cinv, p1, p2, p3, p4, -⟩ := seqOn_spec (N := N) hL ht (hG.pats.pos _ hmem) hgm
  rw [q1] at p1; cases p1
  refine ⟨L i, body, blocks, inv, hd, hlen, q1, by rw [b2]; rfl, q2, fun Ks Js e evs hev => ?_⟩
  rw [outcome_runs hG.pats.tgt ht (pats_dis hG.pats hi) ?_ hev e]
  · unfold success; rw [q1]; rfl
  · intro cK hcK
    rcases List.mem_append.1 hcK with hcK | hcK
    · obtain ⟨b, hb, rfl⟩ := List.mem_map.1 hcK
      exact blocks_onSub hL ht hgm p2 b hb
    · rw [List.mem_singleton.1 hcK]; exact ⟨cinv, p3, p4⟩

/-- C113: RB in the X basis: Hadamard gates, with noise `K₀` and `K₁`, before and after the sequence. -/
theorem C113_xbasis {groups : Bool → Group E} {rand : Bool → Rand E} {a : Args E} {dihedral : Bool} (hg : groupOf a.groupGates = some dihedral)
    (hL : Lawful (groups dihedral) Mem) (hr : ∀ p ∈ a.pats, ∀ rs k, Mem p.length (rand dihedral p.length rs k)) (h : ValidArgs Mem a)
    (hN : ∀ q ∈ a.pats.flatten, q < N) {ret : Ret} (hret : rbSeq groups rand a = some ret) {j k i : ℕ} {row : List Circ} {c : Circ} {pat : List ℕ}
    {xr : List ℤ} {x : ℤ} (hrow : ret.xbasis[j]? = some row) (hc : row[k]? = some c) (hi : a.pats[i]? = some pat) (hxr : ret.lengths[i]? = some xr)
    (hx : xr[k]? = some x) :
    ∃ gs body blocks inv, Drawn (rand dihedral) pat.length gs ∧ (gs.length : ℤ) = x ∧ seqOn (groups dihedral) pat gs = some (blocks, inv) ∧
      c.ins = hBefore a.pats.flatten ++ body ++ hAfter a.pats.flatten ++ measures a.pats.flatten ∧ part pat body = blocks.flatten ++ inv ∧
      ∀ (Ks Js K₀ K₁ : List (Op pat.length)) (e : Ens N) (evs : List (KEvent N)), RunsK N a.pats pat ((part pat (hBefore a.pats.flatten), K₀) ::
          blocks.map (fun b => (b, Ks)) ++ [(inv, Js), (part pat (hAfter a.pats.flatten), K₁)]) evs →
        outcome pat (fun _ => false) (noisyK evs e) = success (groups dihedral) pat [(part pat (hBefore a.pats.flatten), K₀)] Ks Js
          [(part pat (hAfter a.pats.flatten), K₁)] e gs := by
  have hG := good_of_valid hL h hr hN
  obtain ⟨steps, s1, s2, -, s3, -⟩ := ret_steps hg hL hr h hN hret
  have hdih : dihedral = true := by
    rcases s3 with s3 | s3
    · rw [s3] at hrow; simp at hrow
    · exact s3.1
  obtain ⟨s, L, pre, ipre, suf, rfl, hs, hlen⟩ := step_of s1 (s3.imp id And.right) hrow hc s2 hxr hx
  obtain ⟨body, b1, -, b2, -⟩ := hs.std
  have hd := hs.drawn i pat hi
  have hmem := List.mem_of_getElem? hi
  have ht := hG.pats.tgt pat hmem
  have hgm := drawn_mem hd (hr pat hmem)
  obtain ⟨blocks, inv, q1, q2⟩ := seqOn_of b1 hi
  obtain ⟨blocks', inv', cinv, p1, p2, p3, p4, -⟩ := seqOn_spec (N := N) hL ht (hG.pats.pos _ hmem) hgm
  rw [q1] at p1; cases p1
  obtain ⟨o1, o2⟩ := h_ok hN
  refine ⟨L i, body, blocks, inv, hd, hlen, q1, by rw [b2 hdih]; rfl, q2, fun Ks Js K₀ K₁ e evs hev => ?_⟩
  rw [outcome_runs hG.pats.tgt ht (pats_dis hG.pats hi) ?_ hev e]
  · unfold success; rw [q1]; rfl
  · intro cK hcK
    rw [List.cons_append, List.mem_cons, List.mem_append, List.mem_map, List.mem_cons, List.mem_singleton] at hcK
    rcases hcK with rfl | ⟨b, hb, rfl⟩ | rfl | rfl
    · exact OnSub.of_gates ht (part_gatesOn o1)
    · exact blocks_onSub hL ht hgm p2 b hb
    · exact ⟨cinv, p3, p4⟩
    · exact OnSub.of_gates ht (part_gatesOn o2)

theorem weave_eq {L : ℕ → List E} {l : List E} {i : ℕ} {e : E} (he : l[i]? = some e) : weave L l i = (L i).flatMap fun g => [g, e] := by
  unfold weave; rw [he]; rfl

theorem inter_at {a : Args E} (h : ValidArgs Mem a) {l : List (ℕ × E)} (hl : a.inter = some l) {i : ℕ} {pat : List ℕ} (hi : a.pats[i]? = some pat) {e : E}
    (he : (l.map (·.2))[i]? = some e) : l[i]? = some (pat.length, e) := by
  rw [List.getElem?_map, Option.map_eq_some_iff] at he
  obtain ⟨⟨n, e'⟩, h1, rfl⟩ := he
  have := congrArg (·[i]?) (h.inter l hl).1
  simp only [List.getElem?_map, h1, hi, Option.map_some, Option.some.injEq] at this
  subst this; exact h1

/-- C113: interleaved RB: every random element (noise `Ks`) is followed by the interleaved element (noise `Rs`). -/
theorem C113_interleaved {groups : Bool → Group E} {rand : Bool → Rand E} {a : Args E} {dihedral : Bool} (hg : groupOf a.groupGates = some dihedral)
    (hL : Lawful (groups dihedral) Mem) (hr : ∀ p ∈ a.pats, ∀ rs k, Mem p.length (rand dihedral p.length rs k)) (h : ValidArgs Mem a)
    (hN : ∀ q ∈ a.pats.flatten, q < N) {ret : Ret} (hret : rbSeq groups rand a = some ret) {j k i : ℕ} {row : List Circ} {c : Circ} {pat : List ℕ}
    {xr : List ℤ} {x : ℤ} (hrow : ret.inters[j]? = some row) (hc : row[k]? = some c) (hi : a.pats[i]? = some pat) (hxr : ret.lengths[i]? = some xr)
    (hx : xr[k]? = some x) :
    ∃ gs l g body blocks inv, Drawn (rand dihedral) pat.length gs ∧ (gs.length : ℤ) = x ∧ a.inter = some l ∧ l[i]? = some (pat.length, g) ∧
      seqOn (groups dihedral) pat (gs.flatMap fun g' => [g', g]) = some (blocks, inv) ∧
      c.ins = body ++ measures a.pats.flatten ∧ part pat body = blocks.flatten ++ inv ∧
      ∀ (Ks Rs Js : List (Op pat.length)) (e : Ens N) (evs : List (KEvent N)), RunsK N a.pats pat (alternate Ks Rs blocks ++ [(inv, Js)]) evs →
        outcome pat (fun _ => false) (noisyK evs e) = successI (groups dihedral) pat g [] Ks Rs Js [] e gs := by
  have hG := good_of_valid hL h hr hN
  obtain ⟨steps, s1, s2, -, -, s3, -⟩ := ret_steps hg hL hr h hN hret
  have hint : a.inter.isSome = true := by
    rcases s3 with s3 | s3
    · rw [s3] at hrow; simp at hrow
    · exact s3.1
  obtain ⟨l, hl⟩ := Option.isSome_iff_exists.1 hint
  obtain ⟨s, L, pre, ipre, suf, rfl, hs, hlen⟩ := step_of s1 (s3.imp id And.right) hrow hc s2 hxr hx
  have hl' : a.cfg.inter = some (l.map (·.2)) := by unfold Args.cfg; rw [hl]; rfl
  obtain ⟨body, b1, b2, -⟩ := hs.int _ hl'
  have hd := hs.drawn i pat hi
  have hmem := List.mem_of_getElem? hi
  have ht := hG.pats.tgt pat hmem
  obtain ⟨g, he, hme⟩ := hG.int _ hl' i pat hi
  have hgm := weave_mem (rand := rand dihedral) he hme (drawn_mem hd (hr pat hmem))
  obtain ⟨blocks, inv, q1, q2⟩ := seqOn_of b1 hi
  obtain ⟨blocks', inv', cinv, p1, p2, p3, p4, -⟩ := seqOn_spec (N := N) hL ht (hG.pats.pos _ hmem) hgm
  rw [q1] at p1; cases p1
  rw [weave_eq he] at q1 p2 hgm
  refine ⟨L i, l, g, body, blocks, inv, hd, hlen, hl, inter_at h hl hi he, q1, by rw [b2]; rfl, q2, fun Ks Rs Js e evs hev => ?_⟩
  rw [outcome_runs hG.pats.tgt ht (pats_dis hG.pats hi) ?_ hev e]
  · unfold successI; rw [q1]; rfl
  · intro cK hcK
    rcases List.mem_append.1 hcK with hcK | hcK
    · exact blocks_onSub hL ht hgm p2 _ (alternate_fst _ _ _ _ hcK)
    · rw [List.mem_singleton.1 hcK]; exact ⟨cinv, p3, p4⟩

/-- C113: interleaved RB in the X basis. -/
theorem C113_interleaved_xbasis {groups : Bool → Group E} {rand : Bool → Rand E} {a : Args E} {dihedral : Bool} (hg : groupOf a.groupGates = some dihedral)
    (hL : Lawful (groups dihedral) Mem) (hr : ∀ p ∈ a.pats, ∀ rs k, Mem p.length (rand dihedral p.length rs k)) (h : ValidArgs Mem a)
    (hN : ∀ q ∈ a.pats.flatten, q < N) {ret : Ret} (hret : rbSeq groups rand a = some ret) {j k i : ℕ} {row : List Circ} {c : Circ} {pat : List ℕ}
    {xr : List ℤ} {x : ℤ} (hrow : ret.xinters[j]? = some row) (hc : row[k]? = some c) (hi : a.pats[i]? = some pat) (hxr : ret.lengths[i]? = some xr)
    (hx : xr[k]? = some x) :
    ∃ gs l g body blocks inv, Drawn (rand dihedral) pat.length gs ∧ (gs.length : ℤ) = x ∧ a.inter = some l ∧ l[i]? = some (pat.length, g) ∧
      seqOn (groups dihedral) pat (gs.flatMap fun g' => [g', g]) = some (blocks, inv) ∧
      c.ins = hBefore a.pats.flatten ++ body ++ hAfter a.pats.flatten ++ measures a.pats.flatten ∧ part pat body = blocks.flatten ++ inv ∧
      ∀ (Ks Rs Js K₀ K₁ : List (Op pat.length)) (e : Ens N) (evs : List (KEvent N)), RunsK N a.pats pat ((part pat (hBefore a.pats.flatten), K₀) ::
          alternate Ks Rs blocks ++ [(inv, Js), (part pat (hAfter a.pats.flatten), K₁)]) evs →
        outcome pat (fun _ => false) (noisyK evs e) = successI (groups dihedral) pat g [(part pat (hBefore a.pats.flatten), K₀)] Ks Rs Js
          [(part pat (hAfter a.pats.flatten), K₁)] e gs := by
  have hG := good_of_valid hL h hr hN
  obtain ⟨steps, s1, s2, -, -, -, s3, -⟩ := ret_steps hg hL hr h hN hret
  have hint : a.inter.isSome = true ∧ dihedral = true := by
    rcases s3 with s3 | s3
    · rw [s3] at hrow; simp at hrow
    · exact ⟨s3.1, s3.2.1⟩
  obtain ⟨l, hl⟩ := Option.isSome_iff_exists.1 hint.1
  obtain ⟨s, L, pre, ipre, suf, rfl, hs, hlen⟩ := step_of s1 (s3.imp id fun h => h.2.2) hrow hc s2 hxr hx
  have hl' : a.cfg.inter = some (l.map (·.2)) := by unfold Args.cfg; rw [hl]; rfl
  obtain ⟨body, b1, -, b2⟩ := hs.int _ hl'
  have hd := hs.drawn i pat hi
  have hmem := List.mem_of_getElem? hi
  have ht := hG.pats.tgt pat hmem
  obtain ⟨g, he, hme⟩ := hG.int _ hl' i pat hi
  have hgm := weave_mem (rand := rand dihedral) he hme (drawn_mem hd (hr pat hmem))
  obtain ⟨blocks, inv, q1, q2⟩ := seqOn_of b1 hi
  obtain ⟨blocks', inv', cinv, p1, p2, p3, p4, -⟩ := seqOn_spec (N := N) hL ht (hG.pats.pos _ hmem) hgm
  rw [q1] at p1; cases p1
  rw [weave_eq he] at q1 p2 hgm
  obtain ⟨o1, o2⟩ := h_ok hN
  refine ⟨L i, l, g, body, blocks, inv, hd, hlen, hl, inter_at h hl hi he, q1, by rw [b2 hint.2]; rfl, q2, fun Ks Rs Js K₀ K₁ e evs hev => ?_⟩
  rw [outcome_runs hG.pats.tgt ht (pats_dis hG.pats hi) ?_ hev e]
  · unfold successI; rw [q1]; rfl
  · intro cK hcK
    rw [List.cons_append, List.mem_cons, List.mem_append, List.mem_cons, List.mem_singleton] at hcK
    rcases hcK with rfl | hcK | rfl | rfl
    · exact OnSub.of_gates ht (part_gatesOn o1)
    · exact blocks_onSub hL ht hgm p2 _ (alternate_fst _ _ _ _ hcK)
    · exact ⟨cinv, p3, p4⟩
    · exact OnSub.of_gates ht (part_gatesOn o2)

/-! ### The curves -/

theorem form_curve {F : ℕ → ℝ} {f : ℝ} {n : ℕ} {S : Sup n} {ρ : Op n} (h : ∀ m, (F m : ℂ) = S ((((f : ℂ) • (1 : Sup n) + (1 - (f : ℂ)) • Dep n) ^ m) ρ)
    (fun _ => false) fun _ => false) (m : ℕ) :
    F m = Fit.fitFun m ((S ρ - S (Dep n ρ)) (fun _ => false) fun _ => false).re f ((S (Dep n ρ)) (fun _ => false) fun _ => false).re := by
  refine curve (fun m => ?_) m
  have := pow_form (n := n) (f : ℂ) (f : ℂ) m
  rw [sub_self, sub_self, zero_smul, add_zero, add_zero] at this
  rw [h m, this]
  simp only [LinearMap.add_apply, LinearMap.smul_apply, Module.End.one_apply, map_add, map_smul, Matrix.add_apply, Matrix.smul_apply, Matrix.sub_apply, smul_eq_mul]
  ring

theorem dih_curve_z {F : ℕ → ℝ} {z r : ℝ} {n : ℕ} {S : Sup n} {ρ : Op n} (hρ : Dg n ρ = ρ)
    (h : ∀ m, (F m : ℂ) = S ((((r : ℂ) • (1 : Sup n) + ((z : ℂ) - (r : ℂ)) • Dg n + (1 - (z : ℂ)) • Dep n) ^ m) ρ) (fun _ => false) fun _ => false) :
    ∃ A B : ℝ, ∀ m : ℕ, F m = Fit.fitFun m A z B := by
  refine ⟨_, _, curve (u := (S ρ - S (Dep n ρ)) (fun _ => false) fun _ => false) (v := (S (Dep n ρ)) (fun _ => false) fun _ => false) fun m => ?_⟩
  rw [h m, pow_form]
  simp only [LinearMap.add_apply, LinearMap.smul_apply, Module.End.one_apply, map_add, map_smul, Matrix.add_apply, Matrix.smul_apply, Matrix.sub_apply, smul_eq_mul, hρ]
  ring

theorem dih_curve_r {F : ℕ → ℝ} {z r : ℝ} {n : ℕ} {S : Sup n} {ρ : Op n} (hρ : Dg n ρ = Dep n ρ)
    (h : ∀ m, (F m : ℂ) = S ((((r : ℂ) • (1 : Sup n) + ((z : ℂ) - (r : ℂ)) • Dg n + (1 - (z : ℂ)) • Dep n) ^ m) ρ) (fun _ => false) fun _ => false) :
    ∃ A B : ℝ, ∀ m : ℕ, F m = Fit.fitFun m A r B := by
  refine ⟨_, _, curve (u := (S ρ - S (Dep n ρ)) (fun _ => false) fun _ => false) (v := (S (Dep n ρ)) (fun _ => false) fun _ => false) fun m => ?_⟩
  rw [h m, pow_form]
  simp only [LinearMap.add_apply, LinearMap.smul_apply, Module.End.one_apply, map_add, map_smul, Matrix.add_apply, Matrix.smul_apply, Matrix.sub_apply, smul_eq_mul, hρ]
  ring

theorem post_op (ht : Tgt N pat) {post : List (List Ins × List (Op pat.length))} (hpost : ∀ cK ∈ post, GatesOn N pat cK.1) :
    ∃ S : Sup pat.length, ∀ e : Ens N, redE ht (noisyK (post.map fun cK => (pat, cK.1, cK.2.map (applyOn N pat))) e) = S (redE ht e) :=
  lin_events ht fun cK h => OnSub.of_gates ht (hpost cK h)

/-- C113: Clifford RB.  For any channel `Ks` after every random element, any initial state and any errors before, after and at the
inverse, the mean over all sequences of `m` elements is `A f^m + B` for all `m`, with constants `A` and `B` and
`f = (d² F - 1) / (d² - 1)`, `F` the process fidelity of the noise. -/
theorem C113_clifford (hL : Lawful G Mem) (hd : pat.Nodup) (hlt : ∀ q ∈ pat, q < N) (hn : pat ≠ []) (hm : ∀ g ∈ els, Mem pat.length g)
    (hC : IsClifford G pat.length els) {Ks : List (Op pat.length)} (hK : IsChannel Ks) (Js : List (Op pat.length))
    (pre post : List (List Ins × List (Op pat.length))) (hpost : ∀ cK ∈ post, GatesOn N pat cK.1) (e : Ens N) :
    ∃ A B : ℝ, ∀ m : ℕ, expect els m (success G pat pre Ks Js post e) = Fit.fitFun m A (decay Ks) B := by
  have ht : Tgt N pat := ⟨hd, hlt⟩
  obtain ⟨S, hS⟩ := post_op ht hpost
  have hok : ∀ g ∈ els, ∃ c, G.toCircuit g = some c ∧ ∀ i ∈ c, Ok pat.length i := fun g hg => hL.ok (hm g hg)
  have hcl := cliff_closed hC hok
  obtain ⟨g, hg⟩ := hcl.pos
  refine ⟨_, _, form_curve (S := S * chan Js) (ρ := redE ht (noisyK (pre.map fun cK => (pat, cK.1, cK.2.map (applyOn N pat))) e)) fun m => ?_⟩
  rw [expect_success hL ht ⟨g, hm g hg⟩ hm hcl Ks Js hS, cliff_twirl (List.length_pos_iff.2 hn) hC hok hK]

/-- C113: without errors of preparation, inverse and measurement the curve is `(1 - 1/d) f^m + 1/d`. -/
theorem C113_ideal (hL : Lawful G Mem) (hd : pat.Nodup) (hlt : ∀ q ∈ pat, q < N) (hn : pat ≠ []) (hm : ∀ g ∈ els, Mem pat.length g)
    (hC : IsClifford G pat.length els) {Ks : List (Op pat.length)} (hK : IsChannel Ks) (m : ℕ) :
    expect els m (success G pat [] Ks [1] [] (start N)) = Fit.fitFun m (1 - 1 / 2 ^ pat.length) (decay Ks) (1 / 2 ^ pat.length) := by
  have ht : Tgt N pat := ⟨hd, hlt⟩
  have hok : ∀ g ∈ els, ∃ c, G.toCircuit g = some c ∧ ∀ i ∈ c, Ok pat.length i := fun g hg => hL.ok (hm g hg)
  have hcl := cliff_closed hC hok
  obtain ⟨g, hg⟩ := hcl.pos
  rw [form_curve (F := fun m => expect els m (success G pat [] Ks [1] [] (start N))) (S := 1) (ρ := redE ht (start N)) (f := decay Ks) (fun m => ?_) m]
  · obtain ⟨h1, h2⟩ := red_start (N := N) ht
    have h3 : (Dep pat.length (redE ht (start N))) (fun _ => false) (fun _ => false) = ((1 / 2 ^ pat.length : ℝ) : ℂ) := by
      show (((redE ht (start N)).trace / 2 ^ pat.length) • (1 : Op pat.length)) _ _ = _
      rw [h2, Matrix.smul_apply, Matrix.one_apply_eq, smul_eq_mul, mul_one]
      push_cast; rfl
    rw [Module.End.one_apply, Module.End.one_apply, Matrix.sub_apply, h1, h3, Complex.sub_re, Complex.ofReal_re, Complex.one_re]
  · rw [expect_success (S := 1) hL ht ⟨g, hm g hg⟩ hm hcl Ks [1] (fun e => rfl), cliff_twirl (List.length_pos_iff.2 hn) hC hok hK]
    have : (1 : Sup pat.length) * chan [(1 : Op pat.length)] = 1 := by
      unfold chan; simp [Ad_one]
    rw [this]
    rfl

/-- C113: interleaved Clifford RB: the same with the decay parameter of the noise of a random element and of the interleaved element
together. -/
theorem C113_interleaved_clifford (hL : Lawful G Mem) (hd : pat.Nodup) (hlt : ∀ q ∈ pat, q < N) (hn : pat ≠ []) (hm : ∀ g ∈ els, Mem pat.length g)
    (hC : IsClifford G pat.length els) {g : E} (hg : g ∈ els) {c : List Ins} (hc : G.toCircuit g = some c) {Ks Rs : List (Op pat.length)} (hK : IsChannel Ks)
    (hR : IsChannel Rs) (Js : List (Op pat.length)) (pre post : List (List Ins × List (Op pat.length))) (hpost : ∀ cK ∈ post, GatesOn N pat cK.1) (e : Ens N) :
    ∃ A B : ℝ, ∀ m : ℕ, expect els m (successI G pat g pre Ks Rs Js post e) = Fit.fitFun m A (decay (composite (opMat pat.length c) Ks Rs)) B := by
  have ht : Tgt N pat := ⟨hd, hlt⟩
  obtain ⟨S, hS⟩ := post_op ht hpost
  have hok : ∀ g ∈ els, ∃ c, G.toCircuit g = some c ∧ ∀ i ∈ c, Ok pat.length i := fun g hg => hL.ok (hm g hg)
  have hcl := cliff_closed hC hok
  obtain ⟨c', c1, c2⟩ := hok g hg
  rw [hc] at c1; cases c1
  refine ⟨_, _, form_curve (S := S * chan Js) (ρ := redE ht (noisyK (pre.map fun cK => (pat, cK.1, cK.2.map (applyOn N pat))) e)) fun m => ?_⟩
  rw [expect_successI hL ht ⟨g, hm g hg⟩ hm hcl Ks Rs Js hg hS, uOf_eq hc c2, chan_composite c2,
    cliff_twirl (List.length_pos_iff.2 hn) hC hok (channel_composite (opMat_unitary c2) (opMat_unitary' c2) hK hR)]

/-- C113: CNOT-dihedral RB.  For mixtures of basis states the curve is `A z^m + B` with the decay parameter `z` of the populations. -/
theorem C113_dihedral_z (hd : pat.Nodup) (hlt : ∀ q ∈ pat, q < N) (hn : pat ≠ []) (h8 : pat.length ≤ 8) {els : Finset (Σ n, Dihedral.Elem n)}
    (hels : ∀ g, g ∈ els ↔ DihMem pat.length g) {Ks : List (Op pat.length)} (hK : IsChannel Ks) (Js : List (Op pat.length))
    (post : List (List Ins × List (Op pat.length))) (hpost : ∀ cK ∈ post, GatesOn N pat cK.1) (e : Ens N)
    (he : ∀ s ∈ e, ∃ (b : Basis (Fin N)) (w : ℂ), s.2 = fun y => w * ket b y) :
    ∃ A B : ℝ, ∀ m : ℕ, expect els m (success (dihGroup Dihedral.cpySetOrder) pat [] Ks Js post e) = Fit.fitFun m A (decayZ Ks) B := by
  have ht : Tgt N pat := ⟨hd, hlt⟩
  obtain ⟨S, hS⟩ := post_op ht hpost
  have hpos := List.length_pos_iff.2 hn
  have hcl := dih_closed hpos h8 hels
  obtain ⟨g, hg⟩ := hcl.pos
  refine dih_curve_z (S := S * chan Js) (r := decayR Ks) (Dg_basis ht he) fun m => ?_
  rw [expect_success dih_lawful ht ⟨g, (hels g).1 hg⟩ (fun g hg => (hels g).1 hg) hcl Ks Js hS, dih_twirl hpos h8 hels hK]
  rfl

/-- C113: CNOT-dihedral RB in the X basis.  If the readings of the state prepared by the first gates (with their noise) would be equally
likely, the curve is `A r^m + B` with the decay parameter `r` of the coherences. -/
theorem C113_dihedral_x (hd : pat.Nodup) (hlt : ∀ q ∈ pat, q < N) (hn : pat ≠ []) (h8 : pat.length ≤ 8) {els : Finset (Σ n, Dihedral.Elem n)}
    (hels : ∀ g, g ∈ els ↔ DihMem pat.length g) {Ks : List (Op pat.length)} (hK : IsChannel Ks) (Js : List (Op pat.length))
    (pre post : List (List Ins × List (Op pat.length))) (hpost : ∀ cK ∈ post, GatesOn N pat cK.1) (e : Ens N)
    (he : ∀ x x' : Basis (Fin pat.length), outcome pat x (noisyK (pre.map fun cK => (pat, cK.1, cK.2.map (applyOn N pat))) e) =
      outcome pat x' (noisyK (pre.map fun cK => (pat, cK.1, cK.2.map (applyOn N pat))) e)) :
    ∃ A B : ℝ, ∀ m : ℕ, expect els m (success (dihGroup Dihedral.cpySetOrder) pat pre Ks Js post e) = Fit.fitFun m A (decayR Ks) B := by
  have ht : Tgt N pat := ⟨hd, hlt⟩
  obtain ⟨S, hS⟩ := post_op ht hpost
  have hpos := List.length_pos_iff.2 hn
  have hcl := dih_closed hpos h8 hels
  obtain ⟨g, hg⟩ := hcl.pos
  refine dih_curve_r (S := S * chan Js) (z := decayZ Ks) (Dg_uniform ht he) fun m => ?_
  rw [expect_success dih_lawful ht ⟨g, (hels g).1 hg⟩ (fun g hg => (hels g).1 hg) hcl Ks Js hS, dih_twirl hpos h8 hels hK]

/-- C113: interleaved CNOT-dihedral RB. -/
theorem C113_interleaved_dihedral_z (hd : pat.Nodup) (hlt : ∀ q ∈ pat, q < N) (hn : pat ≠ []) (h8 : pat.length ≤ 8) {els : Finset (Σ n, Dihedral.Elem n)}
    (hels : ∀ g, g ∈ els ↔ DihMem pat.length g) {g : Σ n, Dihedral.Elem n} (hg : g ∈ els) {c : List Ins}
    (hc : (dihGroup Dihedral.cpySetOrder).toCircuit g = some c) {Ks Rs : List (Op pat.length)} (hK : IsChannel Ks) (hR : IsChannel Rs) (Js : List (Op pat.length))
    (post : List (List Ins × List (Op pat.length))) (hpost : ∀ cK ∈ post, GatesOn N pat cK.1) (e : Ens N)
    (he : ∀ s ∈ e, ∃ (b : Basis (Fin N)) (w : ℂ), s.2 = fun y => w * ket b y) :
    ∃ A B : ℝ, ∀ m : ℕ, expect els m (successI (dihGroup Dihedral.cpySetOrder) pat g [] Ks Rs Js post e) =
      Fit.fitFun m A (decayZ (composite (opMat pat.length c) Ks Rs)) B := by
  have ht : Tgt N pat := ⟨hd, hlt⟩
  obtain ⟨S, hS⟩ := post_op ht hpost
  have hpos := List.length_pos_iff.2 hn
  have hcl := dih_closed hpos h8 hels
  obtain ⟨c', c1, c2⟩ := dih_ok ((hels g).1 hg)
  rw [hc] at c1; cases c1
  refine dih_curve_z (S := S * chan Js) (r := decayR (composite (opMat pat.length c) Ks Rs)) (Dg_basis ht he) fun m => ?_
  rw [expect_successI dih_lawful ht ⟨g, (hels g).1 hg⟩ (fun g hg => (hels g).1 hg) hcl Ks Rs Js hg hS, uOf_eq hc c2, chan_composite c2,
    dih_twirl hpos h8 hels (channel_composite (opMat_unitary c2) (opMat_unitary' c2) hK hR)]
  rfl

/-- C113: interleaved CNOT-dihedral RB in the X basis. -/
theorem C113_interleaved_dihedral_x (hd : pat.Nodup) (hlt : ∀ q ∈ pat, q < N) (hn : pat ≠ []) (h8 : pat.length ≤ 8) {els : Finset (Σ n, Dihedral.Elem n)}
    (hels : ∀ g, g ∈ els ↔ DihMem pat.length g) {g : Σ n, Dihedral.Elem n} (hg : g ∈ els) {c : List Ins}
    (hc : (dihGroup Dihedral.cpySetOrder).toCircuit g = some c) {Ks Rs : List (Op pat.length)} (hK : IsChannel Ks) (hR : IsChannel Rs) (Js : List (Op pat.length))
    (pre post : List (List Ins × List (Op pat.length))) (hpost : ∀ cK ∈ post, GatesOn N pat cK.1) (e : Ens N)
    (he : ∀ x x' : Basis (Fin pat.length), outcome pat x (noisyK (pre.map fun cK => (pat, cK.1, cK.2.map (applyOn N pat))) e) =
      outcome pat x' (noisyK (pre.map fun cK => (pat, cK.1, cK.2.map (applyOn N pat))) e)) :
    ∃ A B : ℝ, ∀ m : ℕ, expect els m (successI (dihGroup Dihedral.cpySetOrder) pat g pre Ks Rs Js post e) =
      Fit.fitFun m A (decayR (composite (opMat pat.length c) Ks Rs)) B := by
  have ht : Tgt N pat := ⟨hd, hlt⟩
  obtain ⟨S, hS⟩ := post_op ht hpost
  have hpos := List.length_pos_iff.2 hn
  have hcl := dih_closed hpos h8 hels
  obtain ⟨c', c1, c2⟩ := dih_ok ((hels g).1 hg)
  rw [hc] at c1; cases c1
  refine dih_curve_r (S := S * chan Js) (z := decayZ (composite (opMat pat.length c) Ks Rs)) (Dg_uniform ht he) fun m => ?_
  rw [expect_successI dih_lawful ht ⟨g, (hels g).1 hg⟩ (fun g hg => (hels g).1 hg) hcl Ks Rs Js hg hS, uOf_eq hc c2, chan_composite c2,
    dih_twirl hpos h8 hels (channel_composite (opMat_unitary c2) (opMat_unitary' c2) hK hR)]

theorem applyOn_one (ht : Tgt N pat) (ψ : State (Fin N) ℂ) : applyOn N pat 1 ψ = ψ := by
  funext y
  unfold applyOn
  rw [Finset.sum_eq_single fun j : Fin pat.length => bitOf y pat[j]]
  · rw [Matrix.one_apply_eq, one_mul]
    congr 1
    funext q
    unfold putBits
    split_ifs with h
    · have hi := List.idxOf_lt_length_of_mem h
      show bitOf y (pat[pat.idxOf q.val]'hi) = _
      rw [List.getElem_idxOf hi]
      unfold bitOf
      rw [dif_pos q.2]
    · rfl
  · intro x _ hx; rw [Matrix.one_apply_ne (Ne.symm hx), zero_mul]
  · intro h; exact absurd (Finset.mem_univ _) h

/-- C113: the Hadamard gates with which the circuits in the X basis begin prepare such a state from |0…0⟩. -/
theorem C113_xbasis_ready (hlt : ∀ q ∈ pat, q < N) (hp : pat.Nodup) {flat : List ℕ} (hd : flat.Nodup) (hN : ∀ q ∈ flat, q < N) (hsub : ∀ q ∈ pat, q ∈ flat)
    (x x' : Basis (Fin pat.length)) :
    outcome pat x (noisyK ([(part pat (hBefore flat), [(1 : Op pat.length)])].map fun cK => (pat, cK.1, cK.2.map (applyOn N pat))) (start N)) =
      outcome pat x' (noisyK ([(part pat (hBefore flat), [(1 : Op pat.length)])].map fun cK => (pat, cK.1, cK.2.map (applyOn N pat))) (start N)) := by
  have ht : Tgt N pat := ⟨hp, hlt⟩
  have h1 : noisyK ([(part pat (hBefore flat), [(1 : Op pat.length)])].map fun cK => (pat, cK.1, cK.2.map (applyOn N pat))) (start N) =
      (start N).map fun s => (s.1, run N (part pat (hBefore flat)) s.2) := by
    simp only [List.map_cons, List.map_nil, noisyK, branch, start, List.flatMap_cons, List.flatMap_nil, applyOn_one ht, List.append_nil]
  rw [h1, h_ready ht hd hN hsub, h_ready ht hd hN hsub]

/-! ### What the decay parameters mean -/

/-- C113: the error per Clifford computed from the decay parameter is the average infidelity of the noise. -/
theorem C113_epc {n : ℕ} (hn : 0 < n) (Ks : List (Op n)) : Fit.epc n (decay Ks) = 1 - avgFidelity Ks := by
  have hd : (1 : ℝ) < 2 ^ n := one_lt_pow₀ (by norm_num) (by omega)
  unfold Fit.epc decay avgFidelity
  have h1 : ((2 : ℝ) ^ n) ^ 2 - 1 ≠ 0 := by nlinarith
  have h2 : (2 : ℝ) ^ n ≠ 0 := by positivity
  have h3 : (2 : ℝ) ^ n + 1 ≠ 0 := by positivity
  field_simp
  ring

/-- C113: the parameters of the two CNOT-dihedral curves, combined as `CNOTDihedralRBFitter` does, give the same decay parameter and error as
Clifford RB. -/
theorem C113_dihedral {n : ℕ} (hn : 0 < n) (Ks : List (Op n)) : Fit.dihedral n (decayZ Ks) (decayR Ks) = (decay Ks, 1 - avgFidelity Ks) := by
  have hd : (1 : ℝ) < 2 ^ n := one_lt_pow₀ (by norm_num) (by omega)
  have h1 : (2 : ℝ) ^ n - 1 ≠ 0 := by linarith
  have h2 : (2 : ℝ) ^ n ≠ 0 := by positivity
  have h3 : (2 : ℝ) ^ n + 1 ≠ 0 := by positivity
  have h : (decayZ Ks + 2 ^ n * decayR Ks) / (2 ^ n + 1) = decay Ks := by
    unfold decayZ decayR decay
    have h4 : ((2 : ℝ) ^ n) ^ 2 - 2 ^ n = 2 ^ n * (2 ^ n - 1) := by ring
    have h5 : ((2 : ℝ) ^ n) ^ 2 - 1 = (2 ^ n - 1) * (2 ^ n + 1) := by ring
    rw [h4, h5]
    field_simp
    ring
  have := C113_epc hn Ks
  unfold Fit.dihedral
  simp only [h]
  rw [← this]
  unfold Fit.epc
  congr 1
  ring

theorem stateFidelity_eq {n : ℕ} (Ks : List (Op n)) (φ : State (Fin n) ℂ) :
    ((stateFidelity Ks φ : ℝ) : ℂ) = star φ ⬝ᵥ (chan Ks (vecMulVec φ (star φ))).mulVec φ := by
  unfold stateFidelity chan
  induction Ks with
  | nil => simp
  | cons K Ks ih =>
    rw [List.map_cons, List.sum_cons, List.map_cons, List.sum_cons, Complex.ofReal_add, ih, LinearMap.add_apply, Matrix.add_mulVec, dotProduct_add]
    congr 1
    rw [Ad_apply]
    have h1 : K * vecMulVec φ (star φ) * Kᴴ = vecMulVec (K.mulVec φ) (star (K.mulVec φ)) := by
      rw [Matrix.mul_vecMulVec, Matrix.vecMulVec_mul, Matrix.star_mulVec]
    have h2 : (vecMulVec (K.mulVec φ) (star (K.mulVec φ))).mulVec φ = (star (K.mulVec φ) ⬝ᵥ φ) • K.mulVec φ := by
      rw [Matrix.vecMulVec_mulVec, op_smul_eq_smul]
    rw [h1, h2, dotProduct_smul, smul_eq_mul]
    have h3 : star (K.mulVec φ) ⬝ᵥ φ = star (star φ ⬝ᵥ K.mulVec φ) := by
      rw [← Matrix.star_dotProduct_star, star_star, dotProduct_comm]
    rw [h3, Complex.normSq_eq_conj_mul_self]
    rfl

/-- C113: that average infidelity is the mean, over the Clifford group, of the infidelity of the noise on the state that the element produces,
for every initial state. -/
theorem C113_fidelity {n : ℕ} (hL : Lawful G Mem) (hn : 0 < n) (hm : ∀ g ∈ els, Mem n g) (hC : IsClifford G n els) {Ks : List (Op n)} (hK : IsChannel Ks)
    (ψ : State (Fin n) ℂ) (hψ : ∑ x, Complex.normSq (ψ x) = 1) :
    (∑ g ∈ els, stateFidelity Ks (run n ((G.toCircuit g).getD []) ψ)) / els.card = avgFidelity Ks := by
  have hok : ∀ g ∈ els, ∃ c, G.toCircuit g = some c ∧ ∀ i ∈ c, Ok n i := fun g hg => hL.ok (hm g hg)
  have htw := cliff_twirl hn hC hok hK
  have hnrm : star ψ ⬝ᵥ ψ = 1 := by
    have : star ψ ⬝ᵥ ψ = ((∑ x, Complex.normSq (ψ x) : ℝ) : ℂ) := by
      push_cast
      refine Finset.sum_congr rfl fun x _ => ?_
      rw [Complex.normSq_eq_conj_mul_self]; rfl
    rw [this, hψ]; simp
  set ρ := vecMulVec ψ (star ψ) with hρ
  have h1 : ∀ g ∈ els, ((stateFidelity Ks (run n ((G.toCircuit g).getD []) ψ) : ℝ) : ℂ) =
      star ψ ⬝ᵥ (((((uOf G n g)⁻¹ : (Sup n)ˣ) : Sup n) * chan Ks * (uOf G n g : Sup n)) ρ).mulVec ψ := by
    intro g hg
    obtain ⟨c, c1, c2⟩ := hok g hg
    rw [c1, stateFidelity_eq, uOf_eq c1 c2, Option.getD_some, ← opMat_mulVec c2]
    show _ = star ψ ⬝ᵥ ((Ad (opMat n c)ᴴ * chan Ks * Ad (opMat n c)) ρ).mulVec ψ
    rw [Module.End.mul_apply, Module.End.mul_apply, Ad_apply (opMat n c), hρ, Matrix.mul_vecMulVec, Matrix.vecMulVec_mul, ← Matrix.star_mulVec, Ad_apply,
      conjTranspose_conjTranspose, ← Matrix.mulVec_mulVec, ← Matrix.mulVec_mulVec, Matrix.dotProduct_mulVec (star ψ), ← Matrix.star_mulVec]
  have h2 : star ψ ⬝ᵥ (tw els (uOf G n) (chan Ks) ρ).mulVec ψ = (((∑ g ∈ els, stateFidelity Ks (run n ((G.toCircuit g).getD []) ψ)) / els.card : ℝ) : ℂ) := by
    unfold tw
    rw [LinearMap.smul_apply, LinearMap.sum_apply, Matrix.smul_mulVec, dotProduct_smul, Matrix.sum_mulVec, dotProduct_sum, ← Finset.sum_congr rfl h1]
    push_cast
    rw [smul_eq_mul, div_eq_inv_mul]
  have hρψ : ρ.mulVec ψ = ψ := by
    rw [hρ, Matrix.vecMulVec_mulVec, hnrm]; simp
  have htr : ρ.trace = 1 := by
    rw [hρ, Matrix.trace_vecMulVec, dotProduct_comm, hnrm]
  rw [htw, LinearMap.add_apply, LinearMap.smul_apply, LinearMap.smul_apply, Module.End.one_apply] at h2
  have hDep : Dep n ρ = ((1 / 2 ^ n : ℂ)) • 1 := by
    show (ρ.trace / 2 ^ n) • (1 : Op n) = _
    rw [htr]
  rw [hDep, Matrix.add_mulVec, Matrix.smul_mulVec, Matrix.smul_mulVec, Matrix.smul_mulVec, Matrix.one_mulVec, hρψ, dotProduct_add, dotProduct_smul,
    dotProduct_smul, dotProduct_smul, hnrm] at h2
  have h3 : (((∑ g ∈ els, stateFidelity Ks (run n ((G.toCircuit g).getD []) ψ)) / els.card : ℝ) : ℂ) = ((decay Ks + (1 - decay Ks) * (1 / 2 ^ n) : ℝ) : ℂ) := by
    rw [← h2]; push_cast; simp only [smul_eq_mul, mul_one]
  rw [Complex.ofReal_inj.1 h3]
  have := C113_epc hn Ks
  unfold Fit.epc at this
  have h4 : (2 : ℝ) ^ n ≠ 0 := by positivity
  field_simp at this ⊢
  linarith

/-- C113: if the noise of the random elements is depolarising, the interleaved estimate is the average infidelity of the noise of the
interleaved element, whatever that noise is. -/
theorem C113_interleaved_epc {n : ℕ} (hn : 0 < n) {c : List Ins} (hc : ∀ i ∈ c, Ok n i) {Ks Rs : List (Op n)} (hR : IsChannel Rs) {p : ℝ} (hp : p ≠ 0)
    (hdep : ∀ ρ : Op n, (Ks.map fun K => K * ρ * Kᴴ).sum = (p : ℂ) • ρ + ((1 - p : ℂ) * (ρ.trace / 2 ^ n)) • 1) (e₁ e₂ : ℝ) :
    decay Ks = p ∧ decay (composite (opMat n c) Ks Rs) = p * decay Rs ∧
      (Fit.interleaved n (decay Ks) (decay (composite (opMat n c) Ks Rs)) e₁ e₂).epcEst = 1 - avgFidelity Rs := by
  have hd : (1 : ℝ) < 2 ^ n := one_lt_pow₀ (by norm_num) (by omega)
  have h0 : ((2 : ℝ) ^ n) ^ 2 - 1 ≠ 0 := by nlinarith
  have hch : chan Ks = (p : ℂ) • 1 + (1 - p : ℂ) • Dep n := by
    refine LinearMap.ext fun ρ => ?_
    unfold chan
    rw [list_sum_apply, List.map_map]
    refine (hdep ρ).trans ?_
    rw [mul_smul]
    rfl
  have h1 : decay Ks = p := by
    have := strace_chan Ks
    rw [hch, map_add, map_smul, map_smul, strace_one, strace_Dep] at this
    simp only [smul_eq_mul] at this
    have h2 : p * (2 ^ n) ^ 2 + (1 - p) * 1 = processFidelity Ks * (2 ^ n) ^ 2 := by exact_mod_cast this
    unfold decay
    rw [div_eq_iff h0]
    linarith
  have hDU : Ad (opMat n c) * Dep n * Ad (opMat n c)ᴴ = Dep n := by
    refine LinearMap.ext fun ρ => ?_
    show opMat n c * ((((opMat n c)ᴴ * ρ * (opMat n c)ᴴᴴ).trace / 2 ^ n) • (1 : Op n)) * (opMat n c)ᴴ = (ρ.trace / 2 ^ n) • 1
    rw [conjTranspose_conjTranspose, Matrix.trace_mul_comm, ← Matrix.mul_assoc, opMat_unitary' hc, Matrix.one_mul, Matrix.mul_smul, Matrix.mul_one, Matrix.smul_mul,
      opMat_unitary' hc]
  have hcomp : chan (composite (opMat n c) Ks Rs) = (p : ℂ) • chan Rs + (1 - p : ℂ) • (chan Rs * Dep n) := by
    rw [← chan_composite hc, hch]
    show chan Rs * Ad (opMat n c) * ((p : ℂ) • 1 + (1 - p : ℂ) • Dep n) * Ad (opMat n c)ᴴ = _
    rw [mul_assoc, mul_assoc, ← mul_assoc (Ad (opMat n c)), mul_add, add_mul, mul_smul_comm, mul_smul_comm, mul_one, smul_mul_assoc, smul_mul_assoc, hDU, ← Ad_mul,
      opMat_unitary' hc, Ad_one, mul_add, mul_smul_comm, mul_smul_comm, mul_one]
  have hRD : LinearMap.trace ℂ (Op n) (chan Rs * Dep n) = 1 := by
    have hh : Dep n * chan Rs = Dep n := LinearMap.ext fun ρ => by
      show ((chan Rs ρ).trace / 2 ^ n) • (1 : Op n) = (ρ.trace / 2 ^ n) • 1
      rw [trace_Ad_sum hR]
    rw [LinearMap.trace_mul_comm, hh, strace_Dep]
  have h2 : decay (composite (opMat n c) Ks Rs) = p * decay Rs := by
    have := strace_chan (composite (opMat n c) Ks Rs)
    rw [hcomp, map_add, map_smul, map_smul, hRD, strace_chan] at this
    simp only [smul_eq_mul] at this
    have h3 : p * (processFidelity Rs * (2 ^ n) ^ 2) + (1 - p) * 1 = processFidelity (composite (opMat n c) Ks Rs) * (2 ^ n) ^ 2 := by exact_mod_cast this
    unfold decay
    rw [mul_div_assoc', div_left_inj' h0]
    linarith
  refine ⟨h1, h2, ?_⟩
  rw [h1, h2, (C108_estimates n p (decay Rs) e₁ e₂ hp).1, C113_epc hn]

/-! ### A coherent error -/

/-- The one-qubit phase gate `diag(1, w)`. -/
noncomputable def dg (w : ℂ) : Op 1 := Matrix.diagonal fun y => if y 0 then w else 1

theorem dg_mul (w v : ℂ) : dg w * dg v = dg (w * v) := by
  unfold dg
  rw [Matrix.diagonal_mul_diagonal]
  congr 1
  funext y
  split_ifs <;> simp

theorem dg_conj (w : ℂ) : (dg w)ᴴ = dg (star w) := by
  unfold dg
  rw [Matrix.diagonal_conjTranspose]
  congr 1
  funext y
  show star (if y 0 then w else 1) = _
  split_ifs <;> simp

theorem dg_one : dg 1 = 1 := by
  unfold dg; simp

theorem sum_one (f : Basis (Fin 1) → ℂ) : ∑ y, f y = f (fun _ => false) + f fun _ => true := by
  rw [← (Equiv.funUnique (Fin 1) Bool).symm.sum_comp f, Fintype.sum_bool, add_comm]
  rfl

theorem dg_trace (w : ℂ) : (dg w).trace = 1 + w := by
  unfold Matrix.trace
  rw [sum_one]
  simp [dg]

theorem dg_channel {w : ℂ} (h : star w * w = 1) : IsChannel [dg w] := by
  unfold IsChannel
  rw [List.map_cons, List.map_nil, List.sum_cons, List.sum_nil, add_zero, dg_conj, dg_mul, h, dg_one]

theorem dg_fidelity (w : ℂ) : processFidelity [dg w] = Complex.normSq (1 + w) / 4 := by
  unfold processFidelity
  rw [List.map_cons, List.map_nil, List.sum_cons, List.sum_nil, add_zero, dg_trace]
  norm_num

theorem opMat_z : opMat 1 [.gate .z [0]] = dg (-1) := by
  ext y x
  show act 1 (.gate .z [0]) (ket x) y = _
  rw [act_one _ 0 (by norm_num)]
  show app1 mZ 0 (ket x) y = dg (-1) y x
  have e : ∀ b, Function.update y 0 b = fun _ => b := fun b => by funext i; rw [Subsingleton.elim i 0]; simp
  have hy : y = fun _ => y 0 := by funext i; rw [Subsingleton.elim i 0]
  have hx : x = fun _ => x 0 := by funext i; rw [Subsingleton.elim i 0]
  unfold app1 dg
  rw [e, e, Matrix.diagonal_apply]
  generalize y 0 = b at *
  generalize x 0 = c at *
  subst hy hx
  have h1 : ∀ b c : Bool, ((fun _ => b : Fin 1 → Bool) = fun _ => c) ↔ b = c := fun b c => ⟨fun h => congrFun h 0, fun h => by rw [h]⟩
  unfold ket
  simp only [h1]
  cases b <;> cases c <;> simp [mZ]

/-- Finding: the interval `[systematic_err_L, systematic_err_R]` that `InterleavedRBFitter` reports for the error of the interleaved gate does
not contain it when the errors are coherent: with the phase error `diag(1, (4+3i)/5)` after every random element and its inverse squared after
the interleaved Z gate the two curves are equal, the estimate is 0, the interval is at most [-2/15, 2/15], and the error of the gate is 6/25. -/
theorem C113_finding_systematic : ∃ Ks Rs : List (Op 1), IsChannel Ks ∧ IsChannel Rs ∧ ∀ e₁ e₂ : ℝ,
    (Fit.interleaved 1 (decay Ks) (decay (composite (opMat 1 [.gate .z [0]]) Ks Rs)) e₁ e₂).epcEst = 0 ∧
    (Fit.interleaved 1 (decay Ks) (decay (composite (opMat 1 [.gate .z [0]]) Ks Rs)) e₁ e₂).sysR ≤ 2 / 15 ∧ 1 - avgFidelity Rs = 6 / 25 := by
  refine ⟨[dg ⟨4 / 5, 3 / 5⟩], [dg ⟨7 / 25, -24 / 25⟩], dg_channel ?_, dg_channel ?_, fun e₁ e₂ => ?_⟩
  · rw [← starRingEnd_apply, ← Complex.normSq_eq_conj_mul_self, Complex.normSq_mk]; norm_num
  · rw [← starRingEnd_apply, ← Complex.normSq_eq_conj_mul_self, Complex.normSq_mk]; norm_num
  have hc : composite (opMat 1 [.gate .z [0]]) [dg ⟨4 / 5, 3 / 5⟩] [dg ⟨7 / 25, -24 / 25⟩] = [dg ⟨4 / 5, -3 / 5⟩] := by
    unfold composite
    rw [opMat_z, dg_conj]
    simp only [List.flatMap_cons, List.flatMap_nil, List.map_cons, List.map_nil, List.append_nil, dg_mul]
    congr 2
    apply Complex.ext <;> simp <;> norm_num
  have f1 : decay [dg ⟨4 / 5, 3 / 5⟩] = 13 / 15 := by
    unfold decay
    rw [dg_fidelity]
    have : (1 : ℂ) + ⟨4 / 5, 3 / 5⟩ = ⟨9 / 5, 3 / 5⟩ := by apply Complex.ext <;> norm_num
    rw [this, Complex.normSq_mk]; norm_num
  have f2 : decay [dg ⟨4 / 5, -3 / 5⟩] = 13 / 15 := by
    unfold decay
    rw [dg_fidelity]
    have : (1 : ℂ) + ⟨4 / 5, -3 / 5⟩ = ⟨9 / 5, -3 / 5⟩ := by apply Complex.ext <;> norm_num
    rw [this, Complex.normSq_mk]; norm_num
  rw [hc, f1, f2]
  refine ⟨by simp only [Fit.interleaved]; norm_num, ?_, ?_⟩
  · simp only [Fit.interleaved]
    refine le_trans (add_le_add_right (min_le_left _ _) _) ?_
    norm_num [abs_of_nonpos, abs_of_nonneg]
  · unfold avgFidelity
    rw [dg_fidelity]
    have : (1 : ℂ) + ⟨7 / 25, -24 / 25⟩ = ⟨32 / 25, -24 / 25⟩ := by apply Complex.ext <;> norm_num
    rw [this, Complex.normSq_mk]; norm_num

/-- The Clifford group of one qubit with that coherent error: the mean is `1/2 (13/15)^m + 1/2`. -/
example : ∃ els : Finset (List Ins), IsClifford freeGroup 1 els ∧
    ∀ m : ℕ, expect els m (success (N := 1) freeGroup [0] [] [dg ⟨4 / 5, 3 / 5⟩] [1] [] (start 1)) = Fit.fitFun m (1 / 2) (13 / 15) (1 / 2) := by
  obtain ⟨els, h1, h2⟩ := cliff_exists 1
  refine ⟨els, h1, fun m => ?_⟩
  have hK : IsChannel [dg ⟨4 / 5, 3 / 5⟩] := dg_channel (by
    rw [← starRingEnd_apply, ← Complex.normSq_eq_conj_mul_self, Complex.normSq_mk]; norm_num)
  have := C113_ideal (N := 1) (pat := [0]) free_lawful (by simp) (by simp) (by simp) h2 h1 (Ks := [dg ⟨4 / 5, 3 / 5⟩]) hK m
  have f1 : decay [dg ⟨4 / 5, 3 / 5⟩] = 13 / 15 := by
    unfold decay
    rw [dg_fidelity]
    have : (1 : ℂ) + ⟨4 / 5, 3 / 5⟩ = ⟨9 / 5, 3 / 5⟩ := by apply Complex.ext <;> norm_num
    rw [this, Complex.normSq_mk]; norm_num
  rw [show decay (n := [0].length) [dg ⟨4 / 5, 3 / 5⟩] = 13 / 15 from f1] at this
  rw [this]
  norm_num

/-- The CNOT-dihedral group of one qubit: in the Z basis the coherent phase error does not show, in the X basis it does. -/
example : ∃ els : Finset (Σ n, Dihedral.Elem n), (∀ g, g ∈ els ↔ DihMem 1 g) ∧
    (∃ A B : ℝ, ∀ m : ℕ, expect els m (success (N := 1) (dihGroup Dihedral.cpySetOrder) [0] [] [dg ⟨4 / 5, 3 / 5⟩] [1] [] (start 1)) = Fit.fitFun m A 1 B) ∧
    ∃ A B : ℝ, ∀ m : ℕ, expect els m (success (N := 1) (dihGroup Dihedral.cpySetOrder) [0] [(part [0] (hBefore [0]), [1])] [dg ⟨4 / 5, 3 / 5⟩] [1]
      [(part [0] (hAfter [0]), [1])] (start 1)) = Fit.fitFun m A (4 / 5) B := by
  obtain ⟨els, h⟩ := dih_exists 1
  have hK : IsChannel [dg ⟨4 / 5, 3 / 5⟩] := dg_channel (by
    rw [← starRingEnd_apply, ← Complex.normSq_eq_conj_mul_self, Complex.normSq_mk]; norm_num)
  have hP : population [dg ⟨4 / 5, 3 / 5⟩] = 1 := by
    unfold population
    have : ∀ y : Basis (Fin 1), Complex.normSq (dg ⟨4 / 5, 3 / 5⟩ y y) = 1 := by
      intro y
      unfold dg
      rw [Matrix.diagonal_apply_eq]
      split_ifs
      · rw [Complex.normSq_mk]; norm_num
      · simp
    simp only [this, List.map_cons, List.map_nil, List.sum_cons, List.sum_nil]
    simp
  have hF : processFidelity [dg ⟨4 / 5, 3 / 5⟩] = 9 / 10 := by
    rw [dg_fidelity]
    have : (1 : ℂ) + ⟨4 / 5, 3 / 5⟩ = ⟨9 / 5, 3 / 5⟩ := by apply Complex.ext <;> norm_num
    rw [this, Complex.normSq_mk]; norm_num
  have hz : decayZ [dg ⟨4 / 5, 3 / 5⟩] = 1 := by unfold decayZ; rw [hP]; norm_num
  have hrr : decayR [dg ⟨4 / 5, 3 / 5⟩] = 4 / 5 := by unfold decayR; rw [hP, hF]; norm_num
  refine ⟨els, h, ?_, ?_⟩
  · have := C113_dihedral_z (N := 1) (pat := [0]) (by simp) (by simp) (by simp) (by simp) h (Ks := [dg ⟨4 / 5, 3 / 5⟩]) hK [1] [] (by simp) (start 1)
      (by intro s hs; rw [start, List.mem_singleton] at hs; exact ⟨fun _ => false, 1, by rw [hs]; funext y; rw [one_mul]; rfl⟩)
    rw [show decayZ (n := [0].length) [dg ⟨4 / 5, 3 / 5⟩] = 1 from hz] at this
    exact this
  · have := C113_dihedral_x (N := 1) (pat := [0]) (by simp) (by simp) (by simp) (by simp) h (Ks := [dg ⟨4 / 5, 3 / 5⟩]) hK [1] [(part [0] (hBefore [0]), [1])]
      [(part [0] (hAfter [0]), [1])] (by
        intro cK hcK
        rw [List.mem_singleton] at hcK
        rw [hcK]
        exact part_gatesOn (h_ok (flat := [0]) (N := 1) (by simp)).2) (start 1)
      (C113_xbasis_ready (by simp) (by simp) (by simp) (by simp) (by simp))
    rw [show decayR (n := [0].length) [dg ⟨4 / 5, 3 / 5⟩] = 4 / 5 from hrr] at this
    exact this

theorem runsK_self (pats : List (List ℕ)) (pat : List ℕ) (l : List (List Ins × List (Op pat.length))) :
    RunsK N pats pat l (l.map fun cK => (pat, cK.1, cK.2.map (applyOn N pat))) := by
  constructor
  · rw [List.filter_eq_self.2 ?_, List.map_map]
    · rfl
    · intro ev hev
      obtain ⟨cp, -, rfl⟩ := List.mem_map.1 hev
      simp
  · intro ev hev hne
    obtain ⟨cp, -, rfl⟩ := List.mem_map.1 hev
    exact absurd rfl hne

/-- The circuits of two simultaneous patterns with the coherent error after the random elements on qubit 0. -/
example : ∃ ret row c, rbSeq (fun _ => freeGroup) (fun _ => exRand) exArgs = some ret ∧ ret.plain[0]? = some row ∧ row[0]? = some c ∧
    ∃ (gs : List _) (body : List Ins) (blocks : List (List Ins)) (inv : List Ins), gs.length = 2 ∧ seqOn freeGroup [0] gs = some (blocks, inv) ∧
      c.ins = body ++ measures [3, 1, 0] ∧ part [0] body = blocks.flatten ++ inv ∧
      ∃ evs, RunsK 4 [[3, 1], [0]] [0] (blocks.map (fun b => (b, [dg ⟨4 / 5, 3 / 5⟩])) ++ [(inv, [1])]) evs ∧
        outcome [0] (fun _ => false) (noisyK evs (start 4)) = success freeGroup [0] [] [dg ⟨4 / 5, 3 / 5⟩] [1] [] (start 4) gs := by
  have hr : ∀ p ∈ exArgs.pats, ∀ rs k, FreeMem p.length (exRand p.length rs k) := by
    intro p hp rs k
    have : p = [3, 1] ∨ p = [0] := by simpa [exArgs, Args.pats] using hp
    rcases this with rfl | rfl
    · exact exRand_mem 2 (Or.inr rfl) rs k
    · exact exRand_mem 1 (Or.inl rfl) rs k
  have hN : ∀ q ∈ exArgs.pats.flatten, q < 4 := by decide
  have hsome : ∃ ret row c xr, rbSeq (fun _ => freeGroup) (fun _ => exRand) exArgs = some ret ∧ ret.plain[0]? = some row ∧ row[0]? = some c ∧
      ret.lengths[1]? = some xr ∧ xr[0]? = some 2 := by
    obtain ⟨steps, h1, h2, h3⟩ := C42_family (groups := fun _ => freeGroup) (rand := fun _ => exRand) (dihedral := false) rfl free_lawful hr exArgs_valid hN
    have hlen : steps.length = 2 := h1
    obtain ⟨l, hl⟩ : ∃ l, steps[0]? = some l := ⟨steps[0], List.getElem?_eq_getElem (by omega)⟩
    have hl3 : l.length = 3 := (h2 0 l hl).1
    refine ⟨_, l.map Step.std, l[0].std, [2, 4, 8], h3, ?_, ?_, rfl, rfl⟩
    · show (steps.map (·.map Step.std))[0]? = _
      rw [List.getElem?_map, hl]; rfl
    · rw [List.getElem?_map, List.getElem?_eq_getElem (by omega)]; rfl
  obtain ⟨ret, row, c, xr, h1, h2, h3, h4, h5⟩ := hsome
  obtain ⟨gs, body, blocks, inv, -, g2, g3, g4, g5, g6⟩ := C113_plain (N := 4) (groups := fun _ => freeGroup) (rand := fun _ => exRand) (dihedral := false)
    rfl free_lawful hr exArgs_valid hN h1 h2 h3 (i := 1) rfl h4 h5
  exact ⟨ret, row, c, h1, h2, h3, gs, body, blocks, inv, by exact_mod_cast g2, g3, g4, g5, _, runsK_self _ _ _, g6 _ _ _ _ (runsK_self _ _ _)⟩

end Verif.RB
