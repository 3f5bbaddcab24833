import Verif.RB.LemmasTens
import Verif.RB.PropsTwirl
set_option linter.unusedSimpArgs false
set_option linter.unusedVariables false
/-
C114: purity randomized benchmarking on a device with arbitrary noise: the circuits measure the purity of the state after the sequence, its
mean is the decay curve that the fitter fits, and the fitted parameter is the unitarity of the noise.
-/
namespace Verif.RB
open Verif.Quantum Matrix
variable {E : Type} {G : Group E} {Mem : ℕ → E → Prop} {N n : ℕ} {pat : List ℕ} {els : Finset E}

/-! ### The data -/

/-- The purity computed from the correlators of all `3^n` purity circuits: every Pauli string is estimated by the mean over the circuits
that measure it. -/
noncomputable def purityR (n : ℕ) (corr : ℕ → ℕ → ℝ) : ℝ :=
  (∑ c ∈ Finset.range (4 ^ n), (((Fit.pairsOf n c).map fun x => corr x.1 x.2).sum / (Fit.pairsOf n c).length) ^ 2) / 2 ^ n

/-- C114: what the code computes from rational correlators. -/
theorem C114_data (n : ℕ) (zcorr : ℕ → ℕ → ℚ) : ∃ v, Purity.purityOf n (3 ^ n) zcorr = some v ∧ (v : ℝ) = purityR n fun d ind => (zcorr d ind : ℝ) := by
  refine ⟨_, Fit.C112_purity n zcorr, ?_⟩
  unfold Fit.purityMean purityR
  have e : ((List.range (4 ^ n)).map fun c => Fit.pauliMean n zcorr c ^ 2).sum = ∑ c ∈ Finset.range (4 ^ n), Fit.pauliMean n zcorr c ^ 2 := rfl
  rw [e]
  push_cast
  congr 1
  refine Finset.sum_congr rfl fun c _ => ?_
  unfold Fit.pauliMean
  rw [Rat.cast_div]
  congr 2
  · generalize Fit.pairsOf n c = l
    induction l with
    | nil => simp
    | cons x l ih => rw [List.map_cons, List.sum_cons, List.map_cons, List.sum_cons, Rat.cast_add, ih]

theorem pairs_pos (n : ℕ) {z : ℕ} (hz : z < 4 ^ n) : 0 < (Fit.pairsOf n z).length := by
  obtain ⟨a, ha, b, hb, he⟩ := Purity.C80_covered n z hz
  refine List.length_pos_of_mem (a := (b, a)) ?_
  unfold Fit.pairsOf
  rw [List.mem_filter]
  exact ⟨List.mem_flatMap.2 ⟨b, List.mem_range.2 hb, List.mem_map.2 ⟨a, List.mem_range.2 ha, rfl⟩⟩, by simpa using (Fit.isCorr_iff n a b z hz).2 he⟩

theorem pairs_mem {n c : ℕ} {x : ℕ × ℕ} (h : x ∈ Fit.pairsOf n c) : x.1 < 3 ^ n ∧ x.2 < 2 ^ n ∧ Fit.IsCorr n x.2 x.1 c := by
  unfold Fit.pairsOf at h
  rw [List.mem_filter] at h
  obtain ⟨d, h1, h2⟩ := List.mem_flatMap.1 h.1
  obtain ⟨ind, h3, rfl⟩ := List.mem_map.1 h2
  exact ⟨List.mem_range.1 h1, List.mem_range.1 h3, by simpa using h.2⟩

/-- The purity computed from the exact correlators of a state. -/
theorem purityR_eq {ρ : Op n} (hρ : ρᴴ = ρ) (corr : ℕ → ℕ → ℝ) (h : ∀ d < 3 ^ n, ∀ ind < 2 ^ n, (corr d ind : ℂ) =
    ∑ y ∈ Finset.range (2 ^ n), ((Purity.zsign ind y : ℤ) : ℂ) * (Ad (opMat n (locRot n d)) ρ) (fun k => y.testBit k) (fun k => y.testBit k)) :
    purityR n corr = purity ρ := by
  have hm : ∀ c < 4 ^ n, (((Fit.pairsOf n c).map fun x => corr x.1 x.2).sum / (Fit.pairsOf n c).length) ^ 2 =
      Complex.normSq (ρ * tens fun k : Fin n => sig (c / 4 ^ k.val % 4)).trace := by
    intro c hc
    have hv : ∀ x ∈ Fit.pairsOf n c, (corr x.1 x.2 : ℂ) = (ρ * tens fun k : Fin n => sig (c / 4 ^ k.val % 4)).trace := by
      intro x hx
      obtain ⟨h1, h2, h3⟩ := pairs_mem hx
      rw [h _ h1 _ h2, corr_string ρ _ _ c h2 h3]
    have hp := pairs_pos n hc
    obtain ⟨x0, hx0⟩ := List.exists_mem_of_length_pos hp
    have e : (Fit.pairsOf n c).map (fun x => corr x.1 x.2) = List.replicate (Fit.pairsOf n c).length (corr x0.1 x0.2) := by
      rw [List.eq_replicate_iff]
      refine ⟨by simp, fun b hb => ?_⟩
      obtain ⟨x, hx, rfl⟩ := List.mem_map.1 hb
      have := (hv x hx).trans (hv x0 hx0).symm
      exact_mod_cast this
    rw [e, List.sum_replicate, nsmul_eq_mul, mul_div_cancel_left₀ _ (by exact_mod_cast hp.ne'), ← hv x0 hx0, Complex.normSq_ofReal, sq]
  unfold purityR
  rw [Finset.sum_congr rfl fun c hc => hm c (Finset.mem_range.1 hc), Finset.sum_range fun c => Complex.normSq (ρ * tens fun k : Fin n => sig (c / 4 ^ k.val % 4)).trace]
  have e2 : ∑ c : Fin (4 ^ n), Complex.normSq (ρ * tens fun k : Fin n => sig (c.val / 4 ^ k.val % 4)).trace =
      ∑ s : Fin n → Fin 4, Complex.normSq (ρ * tens fun k => sig (s k)).trace := by
    rw [← (finFunctionFinEquiv (m := 4) (n := n)).symm.sum_comp]
    rfl
  rw [e2, pauli_complete]
  have h3 : purity ρ = (hs ρ ρ).re := by rw [← purity_hs hρ, Complex.ofReal_re]
  rw [h3, mul_div_cancel_left₀ _ (by positivity)]

/-! ### The circuits -/

/-- C114: the `3^n` purity circuits of one seed and length share the sequence; on a device with any noise after every element and after the
inverse, whatever happens on the other subsets, the purity computed from their exact correlators is the purity of the state of the subset
after the sequence. -/
theorem C114_circuits {groups : Bool → Group E} {rand : Bool → Rand E} {a : Args E} {dihedral : Bool} (hg : groupOf a.groupGates = some dihedral)
    (hL : Lawful (groups dihedral) Mem) (hr : ∀ p ∈ a.pats, ∀ rs k, Mem p.length (rand dihedral p.length rs k)) (h : ValidArgs Mem a)
    (hN : ∀ q ∈ a.pats.flatten, q < N) {ret : Ret} (hret : rbSeq groups rand a = some ret) {j k i : ℕ} {rows : List (List Circ)} {pat : List ℕ}
    {xr : List ℤ} {x : ℤ} (hrow : ret.purities[j]? = some rows) (hi : a.pats[i]? = some pat) (hxr : ret.lengths[i]? = some xr)
    (hx : xr[k]? = some x) :
    ∃ gs body blocks inv, Drawn (rand dihedral) pat.length gs ∧ (gs.length : ℤ) = x ∧ seqOn (groups dihedral) pat gs = some (blocks, inv) ∧
      (∀ d < 3 ^ pat.length, ∃ row c, rows[d]? = some row ∧ row[k]? = some c ∧
        c.ins = body ++ purityGates a.pats pat.length d ++ measures a.pats.flatten) ∧
      part pat body = blocks.flatten ++ inv ∧
      ∀ (Ks Js : List (Op pat.length)) (e : Ens N) (evs : ℕ → List (KEvent N)), (∀ d < 3 ^ pat.length, RunsK N a.pats pat (blocks.map (fun b => (b, Ks)) ++
          [(inv, Js), (part pat (purityGates a.pats pat.length d), [1])]) (evs d)) →
        purityR pat.length (fun d ind => ∑ y ∈ Finset.range (2 ^ pat.length), ((Purity.zsign ind y : ℤ) : ℝ) * outcome pat (fun k => y.testBit k) (noisyK (evs d) e)) =
          finalPurity (groups dihedral) pat Ks Js e gs := by
  have hG := good_of_valid hL h hr hN
  obtain ⟨steps, s1, s2, -, -, -, -, s3⟩ := ret_steps hg hL hr h hN hret
  have hpur : a.isPurity = true := by
    rcases s3 with s3 | s3
    · rw [s3] at hrow; simp at hrow
    · exact s3.1
  have s4 : ret.purities = steps.map fun l => (List.range (3 ^ a.dim)).map fun d => l.filterMap fun s => s.purity[d]? := by
    rcases s3 with s3 | s3
    · rw [s3] at hrow; simp at hrow
    · exact s3.2
  have hmem := List.mem_of_getElem? hi
  have hdim : ∀ p ∈ a.pats, p.length = a.dim := dim_eq h hpur
  have hpd := hdim pat hmem
  rw [s4, List.getElem?_map, Option.map_eq_some_iff] at hrow
  obtain ⟨l, hl, rfl⟩ := hrow
  rw [s2, List.getElem?_map, Option.map_eq_some_iff] at hxr
  obtain ⟨m, hm, rfl⟩ := hxr
  rw [List.getElem?_map, Option.map_eq_some_iff] at hx
  obtain ⟨v, hv, rfl⟩ := hx
  obtain ⟨hlen, H, h1, -⟩ := s1 j l hl
  have hkl : k < l.length := by
    rw [hlen]
    exact (List.getElem?_eq_some_iff.1 hv).1
  obtain ⟨hs, hgl⟩ := h1 k l[k] v (List.getElem?_eq_getElem hkl) hv
  obtain ⟨body, b1, -, -, b2⟩ := hs.std
  have hd := hs.drawn i pat hi
  have hgm := drawn_mem hd (hr pat hmem)
  have ht := hG.pats.tgt pat hmem
  obtain ⟨blocks, inv, q1, q2⟩ := seqOn_of b1 hi
  obtain ⟨blocks', inv', cinv, p1, p2, p3, p4, -⟩ := seqOn_spec (N := N) hL ht (hG.pats.pos _ hmem) hgm
  rw [q1] at p1; cases p1
  have hpl : ∀ s ∈ l, ∃ f : ℕ → Circ, s.purity = (List.range (3 ^ a.dim)).map f := by
    intro s hs
    obtain ⟨k', hk', rfl⟩ := List.getElem_of_mem hs
    obtain ⟨hs', -⟩ := h1 k' l[k'] (a.lens[k']'(by rw [← hlen]; exact hk')) (List.getElem?_eq_getElem hk') (List.getElem?_eq_getElem _)
    obtain ⟨body', -, -, -, b2'⟩ := hs'.std
    exact ⟨_, b2' hpur⟩
  refine ⟨_, body, blocks, inv, hd, hgl i m hm, q1, ?_, q2, ?_⟩
  · intro d hd
    rw [hpd] at hd ⊢
    refine ⟨l.filterMap fun s => s.purity[d]?, ⟨circType dihedral ++ "_purity_".toList ++ purityLetters a.dim d ++ suffix k (j + a.seedOffset),
      body ++ purityGates a.pats a.dim d ++ measures a.pats.flatten⟩, ?_, ?_, ?_⟩
    · rw [List.getElem?_map, List.getElem?_range hd]; rfl
    · rw [filterMap_get _ _ ?_, List.getElem?_eq_getElem hkl, Option.bind_some, b2 hpur, List.getElem?_map, List.getElem?_range hd]
      · rfl
      · intro s hs
        obtain ⟨f, hf⟩ := hpl s hs
        exact ⟨f d, by rw [hf, List.getElem?_map, List.getElem?_range hd]; rfl⟩
    · rfl
  · intro Ks Js e evs hev
    have hnd : a.pats.Nodup := by
      rw [List.nodup_iff_injective_getElem]
      intro i1 i2 he
      by_contra hne
      have hne' : i1.val ≠ i2.val := fun h => hne (Fin.ext h)
      have := hG.pats.disj' (List.getElem?_eq_getElem i1.2) (List.getElem?_eq_getElem i2.2) hne'
      have he' : a.pats[i1.val] = a.pats[i2.val] := he
      obtain ⟨q, hq⟩ := List.exists_mem_of_ne_nil _ (h.subset_ne _ (List.getElem_mem i1.2))
      exact this q hq (he' ▸ hq)
    have hlens : ∀ p ∈ a.pats, p.length = pat.length := fun p hp => by rw [hdim p hp, hpd]
    have hseq : ∀ b ∈ blocks.map (fun b => (b, Ks)) ++ [(inv, Js)], OnSub pat b.1 := by
      intro cK hcK
      rcases List.mem_append.1 hcK with hcK | hcK
      · obtain ⟨b, hb, rfl⟩ := List.mem_map.1 hcK
        exact blocks_onSub hL ht hgm p2 b hb
      · rw [List.mem_singleton.1 hcK]; exact ⟨cinv, p3, p4⟩
    set ρ := redE ht (noisyK ((blocks.map (fun b => (b, Ks)) ++ [(inv, Js)]).map fun cK => (pat, cK.1, cK.2.map (applyOn N pat))) e) with hρ
    have hfin : finalPurity (groups dihedral) pat Ks Js e ((H k).1 i) = purity ρ := by
      unfold finalPurity
      rw [q1, Option.map_some, Option.getD_some, density_eq ht]
    rw [hfin]
    refine purityR_eq (redE_herm ht _) _ fun d hd ind hind => ?_
    have hrot : replaceQ (locRot pat.length d) pat = some (part pat (purityGates a.pats pat.length d)) := part_purity hG.pats hnd hmem hlens d
    have hred : redE ht (noisyK (evs d) e) = Ad (opMat pat.length (locRot pat.length d)) ρ := by
      rw [runsK_red hG.pats.tgt ht (pats_dis hG.pats hi) (evs d) _ ?_ (hev d hd) e e rfl]
      · rw [show blocks.map (fun b => (b, Ks)) ++ [(inv, Js), (part pat (purityGates a.pats pat.length d), [1])] =
            (blocks.map (fun b => (b, Ks)) ++ [(inv, Js)]) ++ [(part pat (purityGates a.pats pat.length d), [1])] by simp,
          List.map_append, noisyK_append, List.map_cons, List.map_nil, noisyK, noisyK]
        dsimp only
        rw [redE_block ht (locRot_ok _ _ _ (le_refl _)) hrot, ← hρ]
        have h1 : chan [(1 : Op pat.length)] = 1 := by unfold chan; simp [Ad_one]
        rw [h1]; rfl
      · intro cK hcK
        rw [show blocks.map (fun b => (b, Ks)) ++ [(inv, Js), (part pat (purityGates a.pats pat.length d), [1])] =
            (blocks.map (fun b => (b, Ks)) ++ [(inv, Js)]) ++ [(part pat (purityGates a.pats pat.length d), [1])] by simp] at hcK
        rcases List.mem_append.1 hcK with hcK | hcK
        · exact hseq cK hcK
        · rw [List.mem_singleton.1 hcK]; exact ⟨_, locRot_ok _ _ _ (le_refl _), hrot⟩
    push_cast
    refine Finset.sum_congr rfl fun y _ => ?_
    rw [outcome_red ht, hred]

/-! ### The curve -/

theorem trace_start_real {ρ : Op n} (h : ρᴴ = ρ) : ρ.trace = ((ρ.trace.re : ℝ) : ℂ) := by
  have := Matrix.trace_conjTranspose ρ
  rw [h] at this
  exact (Complex.conj_eq_iff_re.1 this.symm).symm

theorem trace_seq {u : E → (Sup n)ˣ} {Λ : Sup n} (htr : ∀ e ∈ els, ∀ A, (Λ ((u e : Sup n) A)).trace = A.trace)
    (hinv : ∀ e ∈ els, ∀ A, ((((u e)⁻¹ : (Sup n)ˣ) : Sup n) A).trace = A.trace) (l : List E) (hl : ∀ g ∈ l, g ∈ els) (A : Op n) :
    (((((prodU (l.map u))⁻¹ : (Sup n)ˣ) : Sup n) * seqOp Λ (l.map u)) A).trace = A.trace := by
  induction l generalizing A with
  | nil => simp [prodU, seqOp]
  | cons g l ih =>
    have e2 : (((((prodU ((g :: l).map u))⁻¹ : (Sup n)ˣ) : Sup n) * seqOp Λ ((g :: l).map u)) A) =
        (((u g)⁻¹ : (Sup n)ˣ) : Sup n) (((((prodU (l.map u))⁻¹ : (Sup n)ˣ) : Sup n) * seqOp Λ (l.map u)) (Λ ((u g : Sup n) A))) := by
      simp only [List.map_cons, prodU, seqOp, _root_.mul_inv_rev, Units.val_mul, Module.End.mul_apply]
    rw [e2, hinv g (hl g (by simp)), ih (fun g' h => hl g' (by simp [h])), htr g (hl g (by simp))]

theorem ex_affine (hpos : els.Nonempty) (m : ℕ) (a c : ℂ) (F : List E → ℂ) : ex els m (fun l => a * F l + c) = a * ex els m F + c := by
  have hc : (els.card : ℂ) ≠ 0 := by
    rw [Ne, Nat.cast_eq_zero, Finset.card_eq_zero]; exact hpos.ne_empty
  induction m generalizing F with
  | zero => rfl
  | succ m ih =>
    unfold ex
    simp only [ih]
    rw [Finset.sum_add_distrib, ← Finset.mul_sum, Finset.sum_const, nsmul_eq_mul, smul_eq_mul, smul_eq_mul, mul_add, inv_mul_cancel_left₀ hc]
    ring

/-- The mean purity after sequences of `m` elements. -/
theorem expect_purity (hL : Lawful G Mem) (hd : pat.Nodup) (hlt : ∀ q ∈ pat, q < N) (hn : pat ≠ []) (hm : ∀ g ∈ els, Mem pat.length g)
    (hC : IsClifford G pat.length els) {Ks : List (Op pat.length)} (hK : IsChannel Ks) {Js : List (Op pat.length)} {a b : ℝ}
    (hJ : ∀ ρ : Op pat.length, ρᴴ = ρ → purity (output Js ρ) = a * purity ρ + b * ρ.trace.re ^ 2) (e : Ens N) (m : ℕ) :
    expect els m (finalPurity G pat Ks Js e) = a * (unitarity Ks ^ m * purity (density pat e) +
      (∑ k ∈ Finset.range m, unitarity Ks ^ k) * ((purity (output Ks 1) / 2 ^ pat.length - unitarity Ks) / 2 ^ pat.length) * (density pat e).trace.re ^ 2) +
      b * (density pat e).trace.re ^ 2 := by
  have ht : Tgt N pat := ⟨hd, hlt⟩
  have hok : ∀ g ∈ els, ∃ c, G.toCircuit g = some c ∧ ∀ i ∈ c, Ok pat.length i := fun g hg => hL.ok (hm g hg)
  have hcl := cliff_closed hC hok
  obtain ⟨g, hg⟩ := hcl.pos
  rw [density_eq ht]
  set τ := redE ht e with hτ
  have hτh : τᴴ = τ := redE_herm ht e
  set X := fun l : List E => ((((prodU (l.map (uOf G pat.length)))⁻¹ : (Sup pat.length)ˣ) : Sup pat.length) * seqOp (chan Ks) (l.map (uOf G pat.length))) τ with hX
  have htr : ∀ e ∈ els, ∀ A, (chan Ks ((uOf G pat.length e : Sup pat.length) A)).trace = A.trace := fun e he A => by
    rw [show (chan Ks ((uOf G pat.length e : Sup pat.length) A)).trace = _ from trace_Ad_sum hK _, trace_u (hok e he)]
  have hinv : ∀ e ∈ els, ∀ A, ((((uOf G pat.length e)⁻¹ : (Sup pat.length)ˣ) : Sup pat.length) A).trace = A.trace := fun e he A => by
    rw [← trace_u (hok e he), ← Module.End.mul_apply, Units.mul_inv, Module.End.one_apply]
  have hex := ex_purity (u := uOf G pat.length) (fun e he A => hs_u_inv (hok e he) A A) hcl.pos htr (cliff_mean (List.length_pos_iff.2 hn) hC hok Ks) m τ
  have h1 : ((expect els m (finalPurity G pat Ks Js e) : ℝ) : ℂ) = (a : ℂ) * ex els m (fun l => hs (X l) (X l)) + (b * (τ.trace.re : ℝ) ^ 2 : ℂ) := by
    rw [expect_ex, ← ex_affine hcl.pos]
    refine ex_congr els m fun l _ hl => ?_
    obtain ⟨ρ, r1, r2, r3⟩ := finalPurity_eq hL ht ⟨g, hm g hg⟩ Ks Js e fun g hg => hm g (hl g hg)
    have r4 : X l = ρ := r3.symm
    have r5 : τ.trace = (X l).trace := (trace_seq htr hinv l hl τ).symm
    rw [r2, hJ ρ r1, r4, ← purity_hs r1, r5, r4]
    push_cast; rfl
  rw [hex, ← purity_hs hτh, trace_start_real hτh, Complex.normSq_ofReal] at h1
  have h2 : ((expect els m (finalPurity G pat Ks Js e) : ℝ) : ℂ) = ((a * (unitarity Ks ^ m * purity τ +
      (∑ k ∈ Finset.range m, unitarity Ks ^ k) * ((purity (output Ks 1) / 2 ^ pat.length - unitarity Ks) / 2 ^ pat.length) * τ.trace.re ^ 2) +
      b * τ.trace.re ^ 2 : ℝ) : ℂ) := by
    rw [h1]; simp only [Complex.ofReal_re]; push_cast; ring
  exact_mod_cast h2

/-- C114: for any channel `Ks` after every random element, any initial state and noise `Js` of the inverse that changes purities affinely
(for example none, any unitary error, any depolarising noise), the mean purity over all sequences of `m` elements is `A u^m + B` for all
`m`, with constants `A`, `B` and the unitarity `u` of the noise. -/
theorem C114_decay (hL : Lawful G Mem) (hd : pat.Nodup) (hlt : ∀ q ∈ pat, q < N) (hn : pat ≠ []) (hm : ∀ g ∈ els, Mem pat.length g)
    (hC : IsClifford G pat.length els) {Ks : List (Op pat.length)} (hK : IsChannel Ks) {Js : List (Op pat.length)} {a b : ℝ}
    (hJ : ∀ ρ : Op pat.length, ρᴴ = ρ → purity (output Js ρ) = a * purity ρ + b * ρ.trace.re ^ 2) (e : Ens N) :
    ∃ A B : ℝ, ∀ m : ℕ, expect els m (finalPurity G pat Ks Js e) = Fit.fitFun m A (unitarity Ks) B := by
  have hpos := List.length_pos_iff.2 hn
  by_cases hu : unitarity Ks = 1
  · refine ⟨0, a * purity (density pat e) + b * (density pat e).trace.re ^ 2, fun m => ?_⟩
    rw [expect_purity hL hd hlt hn hm hC hK hJ e m, unitarity_one hpos hK hu, hu]
    simp [Fit.fitFun]
  · have hu' : unitarity Ks - 1 ≠ 0 := sub_ne_zero.2 hu
    refine ⟨a * (purity (density pat e) + ((purity (output Ks 1) / 2 ^ pat.length - unitarity Ks) / 2 ^ pat.length) / (unitarity Ks - 1) * (density pat e).trace.re ^ 2),
      b * (density pat e).trace.re ^ 2 - a * (((purity (output Ks 1) / 2 ^ pat.length - unitarity Ks) / 2 ^ pat.length) / (unitarity Ks - 1) * (density pat e).trace.re ^ 2),
      fun m => ?_⟩
    rw [expect_purity hL hd hlt hn hm hC hK hJ e m, geom_sum_eq hu]
    unfold Fit.fitFun
    rw [Real.rpow_natCast]
    generalize (purity (output Ks 1) / 2 ^ pat.length - unitarity Ks) / 2 ^ pat.length = w
    field_simp
    ring

/-- C114: noise of the inverse that changes purities affinely: none, any unitary error, any depolarising noise. -/
theorem C114_inverse {Js : List (Op n)} : ((∃ U, Js = [U] ∧ Uᴴ * U = 1) → ∀ ρ : Op n, ρᴴ = ρ → purity (output Js ρ) = 1 * purity ρ + 0 * ρ.trace.re ^ 2) ∧
    ∀ p : ℝ, (∀ ρ, output Js ρ = (p : ℂ) • ρ + ((1 - p : ℂ) * (ρ.trace / 2 ^ n)) • 1) → ∀ ρ : Op n, ρᴴ = ρ →
      purity (output Js ρ) = p ^ 2 * purity ρ + (1 - p ^ 2) / 2 ^ n * ρ.trace.re ^ 2 := by
  constructor
  · rintro ⟨U, rfl, hU⟩ ρ -
    unfold purity output
    rw [List.map_cons, List.map_nil, List.sum_cons, List.sum_nil, add_zero, one_mul, zero_mul, add_zero]
    congr 1
    rw [show U * ρ * Uᴴ * (U * ρ * Uᴴ) = U * (ρ * (Uᴴ * U) * ρ * Uᴴ) by simp only [Matrix.mul_assoc], hU, Matrix.mul_one, Matrix.trace_mul_comm,
      Matrix.mul_assoc, hU, Matrix.mul_one]
  · intro p h ρ hρ
    have hc2 : (2 : ℂ) ^ n ≠ 0 := pow_ne_zero _ two_ne_zero
    have ht := trace_start_real hρ
    have e : (output Js ρ * output Js ρ).trace = (((p ^ 2 : ℝ)) : ℂ) * (ρ * ρ).trace + (((1 - p ^ 2) / 2 ^ n * ρ.trace.re ^ 2 : ℝ) : ℂ) := by
      rw [h, Matrix.add_mul, Matrix.mul_add, Matrix.mul_add]
      simp only [Matrix.smul_mul, Matrix.mul_smul, Matrix.mul_one, Matrix.one_mul, Matrix.trace_add, Matrix.trace_smul, Matrix.trace_one, card_basis, smul_eq_mul]
      rw [ht]
      push_cast
      simp only [Complex.ofReal_re]
      field_simp
      ring
    unfold purity
    rw [e, Complex.add_re, Complex.re_ofReal_mul, Complex.ofReal_re]

theorem density_start (ht : Tgt N pat) : purity (density pat (start N)) = 1 ∧ (density pat (start N)).trace = 1 := by
  rw [density_eq ht]
  refine ⟨?_, (red_start ht).2⟩
  have h : ∀ x x', redE ht (start N) x x' = (ket0 : State (Fin pat.length) ℂ) x * star ((ket0 : State (Fin pat.length) ℂ) x') := by
    intro x x'
    unfold redE start
    rw [List.map_cons, List.map_nil, List.sum_cons, List.sum_nil, add_zero, Matrix.smul_apply, red_rest, Complex.ofReal_one, one_smul,
      Finset.sum_eq_single (fun _ => false)]
    · have h0 := slice_ket0 (N := N) ht (r := fun _ => false) (by simp [rest])
      rw [if_pos rfl] at h0
      exact congrArg₂ (fun u v => u * star v) (congrFun h0 x) (congrFun h0 x')
    · intro r hr hne
      have h0 := slice_ket0 (N := N) ht hr
      rw [if_neg hne] at h0
      have := congrFun h0 x
      unfold slice at this
      show ket0 (glue ht.inj r x) * _ = 0
      rw [this, zero_mul]
    · intro h; exact absurd (by simp [rest]) h
  have h2 : purity (redE ht (start N)) = (hs (redE ht (start N)) (redE ht (start N))).re := by rw [← purity_hs (redE_herm ht _), Complex.ofReal_re]
  rw [h2, hs_self_re]
  simp only [h]
  rw [Finset.sum_eq_single (fun _ => false), Finset.sum_eq_single (fun _ => false)]
  · simp [ket0]
  · intro x _ hx; simp [ket0, hx]
  · intro h; exact absurd (Finset.mem_univ _) h
  · intro x _ hx; simp [ket0, hx]
  · intro h; exact absurd (Finset.mem_univ _) h

/-- C114: noise that leaves the maximally mixed state alone, a perfect inverse and the ground state: the curve is `(1 - 1/d) u^m + 1/d`. -/
theorem C114_ideal (hL : Lawful G Mem) (hd : pat.Nodup) (hlt : ∀ q ∈ pat, q < N) (hn : pat ≠ []) (hm : ∀ g ∈ els, Mem pat.length g)
    (hC : IsClifford G pat.length els) {Ks : List (Op pat.length)} (hK : IsChannel Ks) (hun : output Ks 1 = 1) (m : ℕ) :
    expect els m (finalPurity G pat Ks [1] (start N)) = Fit.fitFun m (1 - 1 / 2 ^ pat.length) (unitarity Ks) (1 / 2 ^ pat.length) := by
  have ht : Tgt N pat := ⟨hd, hlt⟩
  have hd0 : (2 : ℝ) ^ pat.length ≠ 0 := by positivity
  obtain ⟨s1, s2⟩ := density_start ht
  have h1 : purity (output Ks 1) / 2 ^ pat.length = 1 := by
    rw [hun, show purity (1 : Op pat.length) = (hs (1 : Op pat.length) 1).re by rw [← purity_hs conjTranspose_one, Complex.ofReal_re], hs_one_one, div_self hd0]
  rw [expect_purity (a := 1) (b := 0) hL hd hlt hn hm hC hK (by intro ρ _; simp [output]) (start N) m, h1, s1, s2]
  unfold Fit.fitFun
  rw [Real.rpow_natCast]
  have h2 := mul_neg_geom_sum (unitarity Ks) m
  rw [mul_comm] at h2
  simp only [Complex.one_re]
  rw [← mul_div_assoc, h2]
  field_simp
  ring

/-! ### The unitarity -/

/-- C114: the unitarity is that of Wallman et al.: the mean over the Clifford group of `d / (d - 1) tr Λ(gψg† - 1/d)²`, for every pure
state `ψ` (a Hermitian operator of trace and purity 1). -/
theorem C114_unitarity (hL : Lawful G Mem) (hn : 0 < n) (hm : ∀ g ∈ els, Mem n g) (hC : IsClifford G n els) (Ks : List (Op n)) {ψ : Op n}
    (h1 : ψᴴ = ψ) (h2 : ψ.trace = 1) (h3 : purity ψ = 1) :
    (∑ g ∈ els, 2 ^ n / (2 ^ n - 1) * purity (output Ks (opMat n ((G.toCircuit g).getD []) * ψ * (opMat n ((G.toCircuit g).getD []))ᴴ - (1 / 2 ^ n : ℂ) • 1))) / els.card =
      unitarity Ks := by
  have hok : ∀ g ∈ els, ∃ c, G.toCircuit g = some c ∧ ∀ i ∈ c, Ok n i := fun g hg => hL.ok (hm g hg)
  have hd := one_lt_d hn
  have hd1 : (2 : ℝ) ^ n - 1 ≠ 0 := by linarith
  set A : Op n := ψ - (1 / 2 ^ n : ℂ) • 1 with hA
  have hstar : star (1 / 2 ^ n : ℂ) = 1 / 2 ^ n := by
    rw [show (1 / 2 ^ n : ℂ) = ((1 / 2 ^ n : ℝ) : ℂ) by push_cast; rfl]; exact Complex.conj_ofReal _
  have hAh : Aᴴ = A := by rw [hA, conjTranspose_sub, h1, conjTranspose_smul, conjTranspose_one, hstar]
  have hc2 : (2 : ℂ) ^ n ≠ 0 := pow_ne_zero _ two_ne_zero
  have hA0 : A.trace = 0 := by
    rw [hA, Matrix.trace_sub, h2, Matrix.trace_smul, Matrix.trace_one, card_basis, smul_eq_mul]
    push_cast
    rw [one_div, inv_mul_cancel₀ hc2, sub_self]
  have hAA : hs A A = ((1 - 1 / 2 ^ n : ℝ) : ℂ) := by
    have e : hs A A = hs A ψ - (1 / 2 ^ n : ℂ) * hs A 1 := by
      have e' : A = ψ + (-(1 / 2 ^ n : ℂ)) • 1 := by rw [hA, sub_eq_add_neg, neg_smul]
      calc hs A A = hs A (ψ + (-(1 / 2 ^ n : ℂ)) • 1) := congrArg (hs A) e'
        _ = _ := by rw [hs_add, hs_smul]; ring
    have e1 : hs A 1 = 0 := by unfold hs; rw [Matrix.mul_one, hAh, hA0]
    have e2 : hs A ψ = hs ψ ψ - (1 / 2 ^ n : ℂ) * ψ.trace := by
      unfold hs
      rw [hAh, h1, hA, Matrix.sub_mul, Matrix.trace_sub, Matrix.smul_mul, Matrix.one_mul, Matrix.trace_smul, smul_eq_mul]
    rw [e, e1, e2, ← purity_hs h1, h3, h2]
    push_cast; ring
  have key := cliff_mean hn hC hok Ks A
  rw [hA0, hAA, Complex.normSq_zero, Complex.ofReal_zero, mul_zero, add_zero] at key
  have e3 : ∀ g ∈ els, hs (chan Ks ((uOf G n g : Sup n) A)) (chan Ks ((uOf G n g : Sup n) A)) =
      ((purity (output Ks (opMat n ((G.toCircuit g).getD []) * ψ * (opMat n ((G.toCircuit g).getD []))ᴴ - (1 / 2 ^ n : ℂ) • 1)) : ℝ) : ℂ) := by
    intro g hg
    obtain ⟨c, c1, c2⟩ := hok g hg
    have e4 : (uOf G n g : Sup n) A = opMat n ((G.toCircuit g).getD []) * ψ * (opMat n ((G.toCircuit g).getD []))ᴴ - (1 / 2 ^ n : ℂ) • 1 := by
      rw [uOf_eq c1 c2, c1, Option.getD_some]
      show opMat n c * A * (opMat n c)ᴴ = _
      rw [hA, Matrix.mul_sub, Matrix.sub_mul, Matrix.mul_smul, Matrix.mul_one, Matrix.smul_mul, opMat_unitary' c2]
    have e5 : ((uOf G n g : Sup n) A)ᴴ = (uOf G n g : Sup n) A := by
      rw [uOf_eq c1 c2]; exact Ad_herm _ _ hAh
    rw [← purity_hs (chan_herm _ _ e5), ← output_eq, e4]
  rw [Finset.sum_congr rfl e3] at key
  have key' : (els.card : ℝ)⁻¹ * ∑ g ∈ els, purity (output Ks (opMat n ((G.toCircuit g).getD []) * ψ * (opMat n ((G.toCircuit g).getD []))ᴴ - (1 / 2 ^ n : ℂ) • 1)) =
      unitarity Ks * (1 - 1 / 2 ^ n) := by
    refine Complex.ofReal_injective ?_
    rw [Complex.ofReal_mul, Complex.ofReal_inv, Complex.ofReal_natCast, Complex.ofReal_sum, Complex.ofReal_mul, ← key]
  rw [← Finset.mul_sum, mul_div_assoc, div_eq_inv_mul _ (els.card : ℝ), key']
  have : (2 : ℝ) ^ n ≠ 0 := by positivity
  field_simp

/-- C114: the unitarity lies between the square of the decay parameter of the success probabilities and 1. -/
theorem C114_bounds (hn : 0 < n) {Ks : List (Op n)} (hK : IsChannel Ks) : decay Ks ^ 2 ≤ unitarity Ks ∧ unitarity Ks ≤ 1 := by
  obtain ⟨els, h1, h2⟩ := cliff_exists n
  exact ⟨decay_le hn h1 (fun g hg => free_lawful.ok (h2 g hg)) hK, unitarity_le hn hK⟩

/-- C114: a unitary error has unitarity 1, depolarising noise the square of its decay parameter. -/
theorem C114_values (hn : 0 < n) : (∀ U : Op n, Uᴴ * U = 1 → unitarity [U] = 1) ∧
    ∀ (Ks : List (Op n)) (p : ℝ), (∀ ρ, output Ks ρ = (p : ℂ) • ρ + ((1 - p : ℂ) * (ρ.trace / 2 ^ n)) • 1) → unitarity Ks = p ^ 2 ∧ decay Ks = p := by
  have hd := one_lt_d hn
  have h0 : ((2 : ℝ) ^ n) ^ 2 - 1 ≠ 0 := by nlinarith
  have hd0 : (2 : ℝ) ^ n ≠ 0 := by positivity
  have hp1 : purity (1 : Op n) = 2 ^ n := by
    rw [show purity (1 : Op n) = (hs (1 : Op n) 1).re by rw [← purity_hs conjTranspose_one, Complex.ofReal_re], hs_one_one]
  refine ⟨fun U hU => ?_, fun Ks p h => ?_⟩
  · have hU' : U * Uᴴ = 1 := mul_eq_one_comm.1 hU
    have e1 : output [U] 1 = 1 := by
      unfold output
      rw [List.map_cons, List.map_nil, List.sum_cons, List.sum_nil, add_zero, Matrix.mul_one, hU']
    unfold unitarity
    rw [e1, hp1, div_self hd0]
    simp only [List.map_cons, List.map_nil, List.sum_cons, List.sum_nil, add_zero]
    rw [hU, ← hs_one, show hs (1 : Op n) 1 = ((2 ^ n : ℝ) : ℂ) by rw [← hs_one_one, hs_self, Complex.ofReal_re], Complex.normSq_ofReal, div_eq_one_iff_eq h0]
    ring
  · have hch : chan Ks = (p : ℂ) • 1 + (1 - p : ℂ) • Dep n := by
      refine LinearMap.ext fun ρ => ?_
      rw [← output_eq, h, mul_smul]
      rfl
    constructor
    · have e1 : output Ks 1 = 1 := by
        rw [h, Matrix.trace_one, card_basis]
        push_cast
        rw [div_self (pow_ne_zero _ two_ne_zero), mul_one, ← add_smul]
        simp
      have hsD : ∀ A B : Op n, hs (Dep n A) B = hs A (Dep n B) := by
        intro A B
        show hs ((A.trace / 2 ^ n) • (1 : Op n)) B = hs A ((B.trace / 2 ^ n) • (1 : Op n))
        rw [hs_smul]
        unfold hs
        rw [conjTranspose_smul, conjTranspose_one, Matrix.smul_mul, Matrix.one_mul, Matrix.trace_smul, Matrix.mul_one, Matrix.trace_conjTranspose, smul_eq_mul, star_div₀, star_pow]
        simp only [star_ofNat]
        ring
      have hadj : ∀ A B : Op n, hs (chan Ks A) B = hs A (chan Ks B) := by
        intro A B
        rw [hch]
        simp only [LinearMap.add_apply, LinearMap.smul_apply, Module.End.one_apply, hs_add, hs_smul, add_hs]
        have hsm : ∀ (r : ℝ) (A B : Op n), hs ((r : ℂ) • A) B = (r : ℂ) * hs A B := by
          intro r A B
          unfold hs
          rw [conjTranspose_smul, Matrix.smul_mul, Matrix.trace_smul, smul_eq_mul]
          congr 1; exact Complex.conj_ofReal r
        have e : (1 - p : ℂ) = ((1 - p : ℝ) : ℂ) := by push_cast; rfl
        rw [e, hsm, hsm, hsD]
      have hH : chanH Ks = chan Ks := by
        refine LinearMap.ext fun B => ?_
        have : ∀ A, hs A (chanH Ks B - chan Ks B) = 0 := by
          intro A
          rw [sub_eq_add_neg, hs_add, ← neg_one_smul ℂ, hs_smul, ← hs_chan, ← hadj]; ring
        have h3 := this (chanH Ks B - chan Ks B)
        rw [hs_self, Complex.ofReal_eq_zero] at h3
        have h4 := (Finset.sum_eq_zero_iff_of_nonneg fun x _ => Finset.sum_nonneg fun y _ => Complex.normSq_nonneg ((chanH Ks B - chan Ks B) x y)).1 h3
        have h5 : chanH Ks B - chan Ks B = 0 := by
          ext x y
          exact Complex.normSq_eq_zero.1 ((Finset.sum_eq_zero_iff_of_nonneg fun y _ => Complex.normSq_nonneg _).1 (h4 x (Finset.mem_univ _)) y (Finset.mem_univ _))
        exact sub_eq_zero.1 h5
      have ht := strace_chanH Ks
      rw [hH, hch] at ht
      have e2 : ((p : ℂ) • (1 : Sup n) + (1 - p : ℂ) • Dep n) * ((p : ℂ) • (1 : Sup n) + (1 - p : ℂ) • Dep n) = ((p : ℂ) ^ 2) • (1 : Sup n) + (1 - (p : ℂ) ^ 2) • Dep n := by
        simp only [mul_add, add_mul, mul_smul_comm, smul_mul_assoc, mul_one, one_mul, Dep_Dep, smul_smul, smul_add]
        module
      rw [e2, map_add, map_smul, map_smul, strace_one, strace_Dep] at ht
      simp only [smul_eq_mul, mul_one] at ht
      have ht' : p ^ 2 * (2 ^ n) ^ 2 + (1 - p ^ 2) = (Ks.map fun K => (Ks.map fun K' => Complex.normSq (K'ᴴ * K).trace).sum).sum := by exact_mod_cast ht
      unfold unitarity
      rw [← ht', e1, hp1, div_self hd0, div_eq_iff h0]
      ring
    · have := strace_chan Ks
      rw [hch, map_add, map_smul, map_smul, strace_one, strace_Dep] at this
      simp only [smul_eq_mul] at this
      have h2 : p * (2 ^ n) ^ 2 + (1 - p) * 1 = processFidelity Ks * (2 ^ n) ^ 2 := by exact_mod_cast this
      unfold decay
      rw [div_eq_iff h0]
      linarith

/-- C114: the purity estimate (`pepc`) of the code, from the exact parameter of the curve, is at most the error per element; it is the error
per element for depolarising noise and 0 for a unitary error. -/
theorem C114_pepc (hn : 0 < n) {Ks : List (Op n)} (hK : IsChannel Ks) (err : ℝ) :
    0 ≤ (Fit.purity n (unitarity Ks) err).2.2 ∧ (Fit.purity n (unitarity Ks) err).2.2 ≤ 1 - avgFidelity Ks ∧
      (∀ p : ℝ, 0 ≤ p → (∀ ρ, output Ks ρ = (p : ℂ) • ρ + ((1 - p : ℂ) * (ρ.trace / 2 ^ n)) • 1) → (Fit.purity n (unitarity Ks) err).2.2 = 1 - avgFidelity Ks) ∧
      ∀ U : Op n, Uᴴ * U = 1 → (Fit.purity n (unitarity [U]) err).2.2 = 0 := by
  have hd := one_lt_d hn
  have hf : 0 ≤ ((2 : ℝ) ^ n - 1) / 2 ^ n := div_nonneg (by linarith) (by positivity)
  obtain ⟨b1, b2⟩ := C114_bounds hn hK
  rw [← C113_epc hn]
  simp only [Fit.purity, Fit.epc]
  refine ⟨?_, ?_, ?_, ?_⟩
  · refine mul_nonneg hf ?_
    rw [sub_nonneg]
    exact Real.sqrt_le_one.2 b2
  · refine mul_le_mul_of_nonneg_left ?_ hf
    have : decay Ks ≤ Real.sqrt (unitarity Ks) := (le_abs_self _).trans (Real.abs_le_sqrt b1)
    linarith
  · intro p hp h
    obtain ⟨h1, h2⟩ := (C114_values hn).2 Ks p h
    rw [h1, h2, Real.sqrt_sq hp]
  · intro U hU
    rw [(C114_values hn).1 U hU, Real.sqrt_one, sub_self, mul_zero]

/-- The Clifford group of one qubit with a coherent phase error: the success probabilities decay with 13/15, the purities do not. -/
example : ∃ els : Finset (List Ins), IsClifford freeGroup 1 els ∧ decay [dg ⟨4 / 5, 3 / 5⟩] = 13 / 15 ∧
    ∀ m : ℕ, expect els m (finalPurity (N := 1) freeGroup [0] [dg ⟨4 / 5, 3 / 5⟩] [1] (start 1)) = Fit.fitFun m (1 / 2) 1 (1 / 2) := by
  obtain ⟨els, h1, h2⟩ := cliff_exists 1
  have hw : star (⟨4 / 5, 3 / 5⟩ : ℂ) * ⟨4 / 5, 3 / 5⟩ = 1 := by
    rw [← starRingEnd_apply, ← Complex.normSq_eq_conj_mul_self, Complex.normSq_mk]; norm_num
  have hK : IsChannel [dg ⟨4 / 5, 3 / 5⟩] := dg_channel hw
  have f1 : decay [dg ⟨4 / 5, 3 / 5⟩] = 13 / 15 := by
    unfold decay
    rw [dg_fidelity]
    have : (1 : ℂ) + ⟨4 / 5, 3 / 5⟩ = ⟨9 / 5, 3 / 5⟩ := by apply Complex.ext <;> norm_num
    rw [this, Complex.normSq_mk]; norm_num
  refine ⟨els, h1, f1, fun m => ?_⟩
  have hun : (dg ⟨4 / 5, 3 / 5⟩)ᴴ * dg ⟨4 / 5, 3 / 5⟩ = 1 := by rw [dg_conj, dg_mul, hw, dg_one]
  have h3 : output [dg ⟨4 / 5, 3 / 5⟩] 1 = 1 := by
    unfold output
    rw [List.map_cons, List.map_nil, List.sum_cons, List.sum_nil, add_zero, Matrix.mul_one, mul_eq_one_comm.1 hun]
  have := C114_ideal (N := 1) (pat := [0]) free_lawful (by simp) (by simp) (by simp) h2 h1 (Ks := [dg ⟨4 / 5, 3 / 5⟩]) hK h3 m
  rw [show unitarity (n := [0].length) [dg ⟨4 / 5, 3 / 5⟩] = 1 from (C114_values (n := 1) (by norm_num)).1 _ hun] at this
  rw [this]
  norm_num

/-- Kraus operators of depolarising noise: the identity and all matrix units. -/
theorem depolarising_exists (n : ℕ) {p : ℝ} (h0 : 0 ≤ p) (h1 : p ≤ 1) : ∃ Ks : List (Op n), IsChannel Ks ∧
    ∀ ρ, output Ks ρ = (p : ℂ) • ρ + ((1 - p : ℂ) * (ρ.trace / 2 ^ n)) • 1 := by
  have hc2 : (2 : ℂ) ^ n ≠ 0 := pow_ne_zero _ two_ne_zero
  have hsq : ∀ {r : ℝ}, 0 ≤ r → (Real.sqrt r : ℂ) * (Real.sqrt r : ℂ) = r := fun h => by rw [← Complex.ofReal_mul, Real.mul_self_sqrt h]
  have hs1 : ∀ r : ℝ, star (r : ℂ) = r := Complex.conj_ofReal
  set r : ℝ := (1 - p) / 2 ^ n with hr
  have hr0 : 0 ≤ r := div_nonneg (by linarith) (by positivity)
  have hrd : (r : ℂ) = (1 - p) / 2 ^ n := by rw [hr]; push_cast; rfl
  let L : List (Op n) := (Finset.univ : Finset (Basis (Fin n) × Basis (Fin n))).toList.map fun x => (Real.sqrt r : ℂ) • Matrix.single x.1 x.2 1
  have hL : ∀ f : Op n → Op n, (L.map f).sum = ∑ x : Basis (Fin n) × Basis (Fin n), f ((Real.sqrt r : ℂ) • Matrix.single x.1 x.2 1) := by
    intro f
    rw [List.map_map, Finset.sum_map_toList]; rfl
  have hone : ∑ x : Basis (Fin n), Matrix.single x x (1 : ℂ) = 1 := by
    ext i j
    rw [Matrix.sum_apply, Finset.sum_eq_single i]
    · by_cases h : i = j
      · subst h; simp
      · rw [Matrix.single_apply, if_neg (by tauto), Matrix.one_apply_ne h]
    · intro b _ hb; rw [Matrix.single_apply, if_neg (by tauto)]
    · intro h; exact absurd (Finset.mem_univ _) h
  refine ⟨((Real.sqrt p : ℂ) • 1) :: L, ?_, fun ρ => ?_⟩
  · unfold IsChannel
    rw [List.map_cons, List.sum_cons, hL]
    simp only [conjTranspose_smul, conjTranspose_one, Matrix.smul_mul, Matrix.mul_smul, Matrix.one_mul, smul_smul, hs1, hsq h0, hsq hr0, Matrix.conjTranspose_single, star_one,
      Matrix.single_mul_single_same, mul_one]
    rw [Fintype.sum_prod_type]
    simp only [← Finset.smul_sum, hone]
    rw [Finset.sum_const, Finset.card_univ, card_basis, ← Nat.cast_smul_eq_nsmul ℂ, smul_smul, ← add_smul, hrd]
    push_cast
    rw [div_mul_cancel₀ _ hc2, add_sub_cancel, one_smul]
  · unfold output
    rw [List.map_cons, List.sum_cons, hL]
    simp only [conjTranspose_smul, conjTranspose_one, Matrix.smul_mul, Matrix.mul_smul, Matrix.one_mul, Matrix.mul_one, smul_smul, hs1, hsq h0, hsq hr0,
      Matrix.conjTranspose_single, star_one, Matrix.single_mul_mul_single, one_mul, mul_one]
    rw [← Finset.smul_sum, Fintype.sum_prod_type]
    congr 1
    have : ∀ i : Basis (Fin n), ∑ j : Basis (Fin n), Matrix.single i i (ρ j j) = ρ.trace • Matrix.single i i (1 : ℂ) := by
      intro i
      rw [Matrix.smul_single, smul_eq_mul, mul_one]
      exact (map_sum (Matrix.singleAddMonoidHom (α := ℂ) i i) (fun j => ρ j j) Finset.univ).symm
    simp only [this]
    rw [← Finset.smul_sum, hone, smul_smul, hrd]
    congr 1; ring

/-- Depolarising noise of two qubits with `p = 4/5`: unitarity 16/25; the estimate from the purities is the error per element, 3/20. -/
example : ∃ Ks : List (Op 2), IsChannel Ks ∧ unitarity Ks = 16 / 25 ∧ (Fit.purity 2 (unitarity Ks) 0).2.2 = 1 - avgFidelity Ks ∧
    (Fit.purity 2 (unitarity Ks) 0).2.2 = 3 / 20 := by
  obtain ⟨Ks, h1, h2⟩ := depolarising_exists 2 (p := 4 / 5) (by norm_num) (by norm_num)
  have h3 := (C114_values (n := 2) (by norm_num)).2 Ks _ h2
  refine ⟨Ks, h1, by rw [h3.1]; norm_num, (C114_pepc (by norm_num) h1 0).2.2.1 _ (by norm_num) h2, ?_⟩
  rw [h3.1]
  simp only [Fit.purity]
  rw [Real.sqrt_sq (by norm_num)]
  norm_num

/-- A state as in `C114_unitarity`. -/
example : ∃ ψ : Op 1, ψᴴ = ψ ∧ ψ.trace = 1 ∧ purity ψ = 1 := by
  have ht : Tgt 1 [0] := ⟨by simp, by simp⟩
  exact ⟨density [0] (start 1), by rw [density_eq ht]; exact redE_herm ht _, (density_start ht).2, (density_start ht).1⟩

/-- Purity circuits on two subsets of two qubits, with the same coherent error of two qubits after every element: the nine circuits measure the
purity of the final state. -/
example : ∃ ret rows, rbSeq (fun _ => freeGroup) (fun _ => exRand)
      { nseeds := 1, lengthVector := some [1, 3], pattern := some [[3, 1], [0, 2]], mult := .scalar 1, seedOffset := 0, align := false
        inter := none, isPurity := true, groupGates := none, randSeed := .none } = some ret ∧ ret.purities[0]? = some rows ∧
    ∃ (gs : List (List Ins)) (body : List Ins) (blocks : List (List Ins)) (inv : List Ins), gs.length = 3 ∧ (∀ d < 9, ∃ row c, rows[d]? = some row ∧ row[1]? = some c ∧
        c.ins = body ++ purityGates [[3, 1], [0, 2]] 2 d ++ measures [3, 1, 0, 2]) ∧ part [3, 1] body = blocks.flatten ++ inv ∧
      ∀ Ks : List (Op 2), ∃ evs : ℕ → List (KEvent 4), (∀ d < 9, RunsK 4 [[3, 1], [0, 2]] [3, 1] (blocks.map (fun b => (b, Ks)) ++
          [(inv, [1]), (part [3, 1] (purityGates [[3, 1], [0, 2]] 2 d), [1])]) (evs d)) ∧
        purityR 2 (fun d ind => ∑ y ∈ Finset.range 4, ((Purity.zsign ind y : ℤ) : ℝ) * outcome [3, 1] (fun k => y.testBit k) (noisyK (evs d) (start 4))) =
          finalPurity freeGroup [3, 1] Ks [1] (start 4) gs := by
  obtain ⟨a, ha⟩ : ∃ a : Args (List Ins), a = { nseeds := 1, lengthVector := some [1, 3], pattern := some [[3, 1], [0, 2]], mult := .scalar 1, seedOffset := 0, align := false
                                                inter := none, isPurity := true, groupGates := none, randSeed := .none } := ⟨_, rfl⟩
  have hpats : a.pats = [[3, 1], [0, 2]] := by rw [ha]; rfl
  have hr : ∀ p ∈ a.pats, ∀ rs k, FreeMem p.length (exRand p.length rs k) := by
    intro p hp rs k
    rw [hpats] at hp
    have : p = [3, 1] ∨ p = [0, 2] := by simpa using hp
    rcases this with rfl | rfl <;> exact exRand_mem 2 (Or.inr rfl) rs k
  have hN : ∀ q ∈ a.pats.flatten, q < 4 := by rw [hpats]; decide
  have hv : ValidArgs FreeMem a := by
    rw [ha]
    exact
      { pats_ne := by decide
        subset_ne := by decide
        distinct := by decide
        lens_ne := by decide
        increasing := by decide
        lens_pos := by decide
        mult := Or.inr ⟨_, rfl⟩
        mult_pos := by decide
        purity := by intro _; decide
        inter := by intro l hl; cases hl
        seed := by decide }
  have hg : groupOf a.groupGates = some false := by rw [ha]; rfl
  obtain ⟨steps, h1, h2, h3⟩ := C42_family (groups := fun _ => freeGroup) (rand := fun _ => exRand) (dihedral := false) hg free_lawful hr hv hN
  have hns : steps.length = 1 := by rw [h1, ha]
  obtain ⟨l, hl⟩ : ∃ l, steps[0]? = some l := ⟨steps[0], List.getElem?_eq_getElem (by omega)⟩
  have hip : a.isPurity = true := by rw [ha]
  simp only [hip] at h3
  have hlen : a.mults.map (fun m => a.lens.map fun l => l * m) = [[1, 3], [1, 3]] := by rw [ha]; decide
  rw [hlen] at h3
  rw [← ha]
  refine ⟨_, _, h3, by rw [show ∀ x y z, (Ret.purity x y z).purities = x from fun _ _ _ => rfl, List.getElem?_map, hl]; rfl, ?_⟩
  obtain ⟨gs, body, blocks, inv, -, g2, -, g4, g5, g6⟩ := C114_circuits (N := 4) (groups := fun _ => freeGroup) (rand := fun _ => exRand) (dihedral := false)
    hg free_lawful hr hv hN h3 (j := 0) (k := 1) (i := 0) (pat := [3, 1]) (xr := [1, 3]) (x := 3)
    (by rw [show ∀ x y z, (Ret.purity x y z).purities = x from fun _ _ _ => rfl, List.getElem?_map, hl]; rfl) (by rw [hpats]; rfl) rfl rfl
  rw [hpats] at g4 g6
  exact ⟨gs, body, blocks, inv, by exact_mod_cast g2, g4, g5, fun Ks => ⟨_, fun d _ => runsK_self _ _ _, g6 Ks [1] (start 4) _ fun d _ => runsK_self _ _ _⟩⟩

end Verif.RB
