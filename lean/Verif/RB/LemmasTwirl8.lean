import Verif.RB.LemmasTwirl7
import Verif.RB.PropsNoise
set_option linter.unusedSimpArgs false
set_option linter.unusedVariables false
/-
States in the two bases, and the shape of the curves.
-/
namespace Verif.RB
open Verif.Quantum Matrix
variable {E : Type} {G : Group E} {Mem : ℕ → E → Prop} {N n : ℕ} {pat : List ℕ} {els : Finset E}

theorem curve {F : ℕ → ℝ} {f : ℝ} {u v : ℂ} (h : ∀ m, (F m : ℂ) = (f : ℂ) ^ m * u + v) (m : ℕ) : F m = Fit.fitFun m u.re f v.re := by
  have := congrArg Complex.re (h m)
  rw [Complex.ofReal_re, Complex.add_re, ← Complex.ofReal_pow, Complex.re_ofReal_mul] at this
  unfold Fit.fitFun
  rw [this, Real.rpow_natCast, mul_comm]

theorem Dg_apply (ρ : Op n) (x x' : Basis (Fin n)) : Dg n ρ x x' = if x = x' then ρ x x else 0 := by
  show Matrix.diagonal ρ.diag x x' = _
  rw [Matrix.diagonal_apply, Matrix.diag_apply]

/-- A mixture of basis states is diagonal. -/
theorem Dg_basis (ht : Tgt N pat) {e : Ens N} (h : ∀ s ∈ e, ∃ (b : Basis (Fin N)) (w : ℂ), s.2 = fun y => w * ket b y) : Dg pat.length (redE ht e) = redE ht e := by
  unfold redE
  rw [list_map_sum, List.map_map]
  congr 1
  refine List.map_congr_left fun s hs => ?_
  obtain ⟨b, w, hb⟩ := h s hs
  show Dg pat.length ((s.1 : ℂ) • red ht s.2) = _
  rw [map_smul]
  congr 1
  ext x x'
  rw [Dg_apply]
  split_ifs with hx
  · rw [hx]
  · unfold red
    rw [Finset.sum_eq_zero, mul_zero]
    intro y _
    rw [hb]
    show w * ket b (glue ht.inj y x) * star (w * ket b (glue ht.inj y x')) = 0
    by_cases h1 : glue ht.inj y x = b
    · have h2 : glue ht.inj y x' ≠ b := by
        intro h2
        refine hx ?_
        rw [← glue_rest ht y x, ← glue_rest ht y x', h1, h2]
      rw [show (ket b (glue ht.inj y x') : ℂ) = 0 from if_neg h2, mul_zero, star_zero, mul_zero]
    · rw [show (ket b (glue ht.inj y x) : ℂ) = 0 from if_neg h1, mul_zero, zero_mul]

/-- A state whose readings are equally likely. -/
theorem Dg_uniform (ht : Tgt N pat) {e : Ens N} (h : ∀ x x' : Basis (Fin pat.length), outcome pat x e = outcome pat x' e) :
    Dg pat.length (redE ht e) = Dep pat.length (redE ht e) := by
  have h0 : ∀ x, redE ht e x x = redE ht e (fun _ => false) fun _ => false := by
    intro x
    rw [← outcome_red, ← outcome_red, h x fun _ => false]
  have htr : (redE ht e).trace = 2 ^ pat.length * redE ht e (fun _ => false) fun _ => false := by
    unfold Matrix.trace
    simp only [Matrix.diag_apply]
    rw [Finset.sum_congr rfl fun x _ => h0 x, Finset.sum_const, nsmul_eq_mul, Finset.card_univ, card_basis]
    push_cast; rfl
  ext x x'
  rw [Dg_apply]
  show _ = (((redE ht e).trace / 2 ^ pat.length) • (1 : Op pat.length)) x x'
  rw [htr, mul_div_cancel_left₀ _ (pow_ne_zero _ two_ne_zero), Matrix.smul_apply, Matrix.one_apply, smul_eq_mul, mul_ite, mul_one, mul_zero]
  split_ifs with hx
  · exact h0 x
  · rfl

theorem outcome_start (ht : Tgt N pat) (x : Basis (Fin pat.length)) : outcome pat x (start N) = if x = fun _ => false then 1 else 0 := by
  classical
  unfold start
  rw [outcome_eq]
  simp only [List.map_cons, List.map_nil, List.sum_cons, List.sum_nil, add_zero, one_mul]
  unfold mp
  have hp : ∀ y : Basis (Fin N), Quantum.prob (ket0 : State (Fin N) ℂ) y = if y = fun _ => false then 1 else 0 := by
    intro y
    unfold Quantum.prob
    show Complex.normSq (ket (fun _ => false) y) = _
    unfold ket
    split_ifs <;> simp
  simp only [hp]
  rw [Finset.sum_filter]
  rw [Finset.sum_eq_single (fun _ => false)]
  · rw [if_pos rfl]
    by_cases hx : x = fun _ => false
    · rw [if_pos hx, if_pos]; intro q j _; rw [hx]
    · rw [if_neg hx, if_neg]
      intro h
      refine hx (funext fun j => ?_)
      exact (h (ht.inj j) j rfl).symm
  · intro y _ hy; rw [if_neg hy, ite_self]
  · intro h; exact absurd (Finset.mem_univ _) h

theorem red_start (ht : Tgt N pat) : redE ht (start N) (fun _ => false) (fun _ => false) = 1 ∧ (redE ht (start N)).trace = 1 := by
  have h : ∀ x, redE ht (start N) x x = if x = fun _ => false then 1 else 0 := by
    intro x
    rw [← outcome_red, outcome_start ht]
    split_ifs <;> simp
  refine ⟨by rw [h, if_pos rfl], ?_⟩
  unfold Matrix.trace
  simp only [Matrix.diag_apply, h]
  rw [Finset.sum_ite_eq' Finset.univ, if_pos (Finset.mem_univ _)]

/-- Hadamard gates on distinct qubits, from |0…0⟩. -/
theorem h_layer (qs : List ℕ) (hd : qs.Nodup) (hN : ∀ q ∈ qs, q < N) (y : Basis (Fin N)) :
    run N (qs.map fun q => .gate .h [q]) ket0 y = open Classical in if ∀ q : Fin N, q.val ∉ qs → y q = false then rt ^ qs.length else 0 := by
  classical
  induction qs using List.reverseRecOn generalizing y with
  | nil =>
    show (ket0 : State (Fin N) ℂ) y = _
    unfold ket0
    by_cases hy : y = fun _ => false
    · rw [if_pos hy, if_pos (by intro q _; rw [hy])]; simp
    · rw [if_neg hy, if_neg]
      intro h; exact hy (funext fun q => h q (by simp))
  | append_singleton qs q ih =>
    have hq : q < N := hN q (by simp)
    have hnd : qs.Nodup ∧ q ∉ qs := by
      rw [List.nodup_append] at hd
      exact ⟨hd.1, fun h => hd.2.2 q h q (by simp) rfl⟩
    rw [List.map_append, run_append]
    show act N (.gate .h [q]) _ y = _
    rw [act_one _ _ hq]
    show app1 mH ⟨q, hq⟩ _ y = _
    unfold app1
    rw [ih hnd.1 (fun q' h => hN q' (by simp [h])), ih hnd.1 (fun q' h => hN q' (by simp [h]))]
    have h1 : ¬ ∀ p : Fin N, p.val ∉ qs → Function.update y ⟨q, hq⟩ true p = false := by
      intro h
      have := h ⟨q, hq⟩ hnd.2
      simp at this
    have h2 : (∀ p : Fin N, p.val ∉ qs → Function.update y ⟨q, hq⟩ false p = false) ↔ ∀ p : Fin N, p.val ∉ qs ++ [q] → y p = false := by
      constructor
      · intro h p hp
        simp only [List.mem_append, List.mem_singleton, not_or] at hp
        have := h p hp.1
        rwa [Function.update_of_ne (fun h => hp.2 (congrArg Fin.val h))] at this
      · intro h p hp
        by_cases hpq : p = ⟨q, hq⟩
        · rw [hpq, Function.update_self]
        · rw [Function.update_of_ne hpq]
          refine h p ?_
          simp only [List.mem_append, List.mem_singleton, not_or]
          exact ⟨hp, fun h => hpq (Fin.ext h)⟩
    rw [if_neg h1, mul_zero, List.length_append, pow_add]
    by_cases h3 : ∀ p : Fin N, p.val ∉ qs ++ [q] → y p = false
    · rw [if_pos (h2.2 h3), if_pos h3]
      have : mH (y ⟨q, hq⟩) false = rt := by cases y ⟨q, hq⟩ <;> simp [mH]
      rw [this]
      simp [mul_comm]
    · rw [if_neg (fun h => h3 (h2.1 h)), if_neg h3]; simp

theorem part_hBefore (pat flat : List ℕ) : part pat (hBefore flat) = (flat.filter fun q => decide (q ∈ pat)).map fun q => .gate .h [q] := by
  unfold hBefore part
  induction flat with
  | nil => rfl
  | cons q flat ih =>
    rw [List.flatMap_cons, List.filter_append, ih, List.filter_cons]
    by_cases h : q ∈ pat <;> simp [h]

/-- After the Hadamard gates all readings of the subset are equally likely. -/
theorem h_ready (ht : Tgt N pat) {flat : List ℕ} (hd : flat.Nodup) (hN : ∀ q ∈ flat, q < N) (hsub : ∀ q ∈ pat, q ∈ flat) (x : Basis (Fin pat.length)) :
    outcome pat x ((start N).map fun s => (s.1, run N (part pat (hBefore flat)) s.2)) = Complex.normSq (rt ^ (flat.filter fun q => decide (q ∈ pat)).length) := by
  classical
  unfold start
  rw [outcome_eq, part_hBefore]
  simp only [List.map_cons, List.map_nil, List.sum_cons, List.sum_nil, add_zero, one_mul]
  unfold mp Quantum.prob
  simp only [h_layer _ (hd.filter _) (fun q hq => hN q (List.mem_of_mem_filter hq))]
  rw [Finset.sum_filter, Finset.sum_eq_single (putBits pat x fun _ => false)]
  · rw [if_pos, if_pos]
    · intro q hq
      unfold putBits
      rw [dif_neg]
      intro h
      exact hq (List.mem_filter.2 ⟨hsub _ h, by simpa using h⟩)
    · intro q j hq
      unfold putBits
      rw [dif_pos (by rw [hq]; exact List.getElem_mem _)]
      congr 1
      refine Fin.ext ?_
      show pat.idxOf q.val = j.val
      rw [hq]
      exact List.Nodup.idxOf_getElem ht.nodup _ _
  · intro y _ hy
    by_cases h1 : ∀ (q : Fin N) (j : Fin pat.length), q.val = pat[j] → y q = x j
    · rw [if_pos h1, if_neg, map_zero]
      intro h2
      refine hy (funext fun q => ?_)
      unfold putBits
      by_cases hq : q.val ∈ pat
      · rw [dif_pos hq]
        exact h1 q _ (List.getElem_idxOf (List.idxOf_lt_length_of_mem hq)).symm
      · rw [dif_neg hq]
        exact h2 q fun h => hq (by simpa using (List.mem_filter.1 h).2)
    · rw [if_neg h1]
  · intro h; exact absurd (Finset.mem_univ _) h

/-! ### The circuits of a sequence act on the subset -/

theorem blocks_onSub (hL : Lawful G Mem) (ht : Tgt N pat) {gs : List E} (hg : ∀ g ∈ gs, Mem pat.length g) {blocks : List (List Ins)}
    (h : gs.mapM (embed G pat) = some blocks) : ∀ b ∈ blocks, OnSub pat b := by
  induction gs generalizing blocks with
  | nil => cases h; simp
  | cons g gs ih =>
    obtain ⟨c, d, -, a2, a3, a4, -⟩ := embed_spec (N := N) hL ht (hg g (by simp))
    rw [List.mapM_cons, a2] at h
    cases hx : gs.mapM (embed G pat) with
    | none => rw [hx] at h; cases h
    | some bs =>
      rw [hx] at h; cases h
      intro b hb
      rcases List.mem_cons.1 hb with rfl | hb
      · exact ⟨c, a4, a3⟩
      · exact ih (fun g hg' => hg g (by simp [hg'])) hx b hb

theorem alternate_fst (Ks Rs : List (Op n)) (bs : List (List Ins)) : ∀ cK ∈ alternate Ks Rs bs, cK.1 ∈ bs := by
  match bs with
  | [] => intro cK h; simp [alternate] at h
  | [b] => intro cK h; rw [alternate, List.mem_singleton] at h; rw [h]; simp
  | b :: g :: l =>
    intro cK h
    rw [alternate, List.mem_cons, List.mem_cons] at h
    rcases h with rfl | rfl | h
    · simp
    · simp
    · have := alternate_fst Ks Rs l cK h
      simp [this]

/-- What the sequence generator does on a subset is what `seqOn` says. -/
theorem seqOn_of {pats : List (List ℕ)} {L : ℕ → List E} {pre body : List Ins} (h : IsSeq G pats N L pre body) {i : ℕ} (hi : pats[i]? = some pat) :
    ∃ blocks inv, seqOn G pat (L i) = some (blocks, inv) ∧ part pat body = blocks.flatten ++ inv := by
  obtain ⟨e0, e, blocks, inv, inv', h0, h1, h2, h3, h4, -, h6⟩ := h.parts i pat hi
  refine ⟨blocks, inv', ?_, h6⟩
  unfold seqOn
  simp only [Option.bind_eq_bind, h0, Option.bind_some, h1, h2, h3, h4]
  rfl

/-- The outcome does not depend on the other subsets. -/
theorem outcome_runs {pats : List (List ℕ)} (htp : ∀ p ∈ pats, Tgt N p) (ht : Tgt N pat) (hdis : ∀ p ∈ pats, p ≠ pat → ∀ q ∈ pat, q ∉ p)
    {evs : List (KEvent N)} {l : List (List Ins × List (Op pat.length))} (hl : ∀ cK ∈ l, OnSub pat cK.1) (h : RunsK N pats pat l evs) (e : Ens N) :
    outcome pat (fun _ => false) (noisyK evs e) = survival pat l e := by
  have := runsK_red htp ht hdis evs l hl h e e rfl
  unfold survival
  have h1 := outcome_red ht (fun _ => false) (noisyK evs e)
  rw [this, ← outcome_red ht] at h1
  exact_mod_cast h1

end Verif.RB
