import Verif.RB.LemmasTwirl3
import Verif.RB.LemmasNoise3
set_option linter.unusedSimpArgs false
set_option linter.unusedVariables false
set_option linter.unusedSectionVars false
/-
The density matrix of a subset of a register, and what circuits and channels do to it.
-/
namespace Verif.RB
open Verif.Quantum Matrix

variable {N : ℕ} {pat : List ℕ}

/-! ### The reduced density matrix -/

/-- Density matrix of the qubits `pat` of a pure state. -/
noncomputable def red (ht : Tgt N pat) (ψ : State (Fin N) ℂ) : Op pat.length := fun x x' =>
  ((2 : ℂ) ^ pat.length)⁻¹ * ∑ y, ψ (glue ht.inj y x) * star (ψ (glue ht.inj y x'))

/-- ... and of a mixed state. -/
noncomputable def redE (ht : Tgt N pat) (e : Ens N) : Op pat.length := (e.map fun s => (s.1 : ℂ) • red ht s.2).sum

theorem putBits_eq (ht : Tgt N pat) (x : Basis (Fin pat.length)) (y : Basis (Fin N)) : putBits pat x y = glue ht.inj y x := by
  funext q
  unfold putBits
  by_cases h : q.val ∈ pat
  · rw [dif_pos h]
    have h1 : pat.idxOf q.val < pat.length := List.idxOf_lt_length_of_mem h
    have h2 : ht.inj ⟨pat.idxOf q.val, h1⟩ = q := Fin.ext (List.getElem_idxOf h1)
    conv_rhs => rw [← h2]
    rw [glue_at ht.injective]
  · rw [dif_neg h, glue_off]
    rintro i rfl
    exact h (List.getElem_mem _)

theorem applyOn_glue (ht : Tgt N pat) (K : Op pat.length) (ψ : State (Fin N) ℂ) (y : Basis (Fin N)) :
    slice ht.inj y (applyOn N pat K ψ) = K.mulVec (slice ht.inj y ψ) := by
  funext x
  unfold slice applyOn
  simp only [Matrix.mulVec, dotProduct]
  refine Finset.sum_congr rfl fun x' _ => ?_
  rw [putBits_eq ht, glue_glue]
  congr 2
  funext j
  unfold bitOf
  have hj : pat[j] < N := ht.lt _ (List.getElem_mem _)
  have h2 : (⟨pat[j], hj⟩ : Fin N) = ht.inj j := rfl
  rw [dif_pos hj, h2, glue_at ht.injective]

theorem red_slice (ht : Tgt N pat) (ψ : State (Fin N) ℂ) (x x' : Basis (Fin pat.length)) :
    red ht ψ x x' = ((2 : ℂ) ^ pat.length)⁻¹ * ∑ y, slice ht.inj y ψ x * star (slice ht.inj y ψ x') := rfl

theorem red_mulVec (ht : Tgt N pat) (K : Op pat.length) {ψ φ : State (Fin N) ℂ} (h : ∀ y, slice ht.inj y φ = K.mulVec (slice ht.inj y ψ)) :
    red ht φ = Ad K (red ht ψ) := by
  ext x x'
  rw [red_slice, Ad_apply, Matrix.mul_apply]
  simp only [h, Matrix.mul_apply, Matrix.mulVec, dotProduct, red_slice, Matrix.conjTranspose_apply, star_sum, StarMul.star_mul]
  simp only [Finset.sum_mul_sum, Finset.mul_sum, Finset.sum_mul]
  rw [Finset.sum_comm]
  rw [Finset.sum_congr rfl fun a _ => Finset.sum_comm]
  refine Finset.sum_congr rfl fun b _ => Finset.sum_congr rfl fun a _ => Finset.sum_congr rfl fun y _ => ?_
  ring

theorem red_applyOn (ht : Tgt N pat) (K : Op pat.length) (ψ : State (Fin N) ℂ) : red ht (applyOn N pat K ψ) = Ad K (red ht ψ) :=
  red_mulVec ht K fun y => applyOn_glue ht K ψ y

theorem red_run (ht : Tgt N pat) {c d : List Ins} (hc : ∀ i ∈ c, Ok pat.length i) (hd : replaceQ c pat = some d) (ψ : State (Fin N) ℂ) :
    red ht (run N d ψ) = Ad (opMat pat.length c) (red ht ψ) := by
  obtain ⟨d', h3, -, -, -, h4⟩ := replaceQ_spec ht hc
  rw [hd, Option.some.injEq] at h3
  subst h3
  exact red_mulVec ht _ fun y => by rw [h4, opMat_mulVec hc]

theorem sum_rest' (ht : Tgt N pat) (g : Basis (Fin N) → ℝ) (x : Basis (Fin pat.length)) : ∑ y, g (glue ht.inj y x) = 2 ^ pat.length * ∑ r ∈ rest ht, g (glue ht.inj r x) := by
  rw [← sum_rest ht fun y => g (glue ht.inj y x)]
  simp only [glue_glue, Finset.sum_const, Finset.card_univ, card_basis, nsmul_eq_mul]
  rw [← Finset.mul_sum]; push_cast; rfl

theorem mp_red (ht : Tgt N pat) (x : Basis (Fin pat.length)) (ψ : State (Fin N) ℂ) : ((mp pat x ψ : ℝ) : ℂ) = red ht ψ x x := by
  rw [mp_slice ht]
  have := sum_rest' ht (fun y => Complex.normSq (ψ y)) x
  have h2 : ((2 : ℂ) ^ pat.length) ≠ 0 := pow_ne_zero _ two_ne_zero
  unfold red
  have e : ∀ z : ℂ, z * star z = (Complex.normSq z : ℝ) := fun z => by rw [Complex.normSq_eq_conj_mul_self, mul_comm]; rfl
  simp only [e]
  rw [← Complex.ofReal_sum, this]
  push_cast
  field_simp
  rfl

theorem outcome_red (ht : Tgt N pat) (x : Basis (Fin pat.length)) (e : Ens N) : ((outcome pat x e : ℝ) : ℂ) = redE ht e x x := by
  rw [outcome_eq]
  unfold redE
  induction e with
  | nil => simp
  | cons s e ih =>
    rw [List.map_cons, List.sum_cons, List.map_cons, List.sum_cons, Complex.ofReal_add, ih, Matrix.add_apply, Matrix.smul_apply, Complex.ofReal_mul, mp_red ht]
    rfl

/-- The operation of a channel. -/
noncomputable def chan {n : ℕ} (Ks : List (Op n)) : Sup n := (Ks.map Ad).sum

theorem list_sum_apply {n : ℕ} (l : List (Sup n)) (ρ : Op n) : l.sum ρ = (l.map fun T => T ρ).sum := by
  induction l with
  | nil => rfl
  | cons T l ih => rw [List.sum_cons, List.map_cons, List.sum_cons, LinearMap.add_apply, ih]

theorem list_map_sum {n : ℕ} (T : Sup n) (l : List (Op n)) : T l.sum = (l.map T).sum := by
  induction l with
  | nil => simp
  | cons ρ l ih => rw [List.sum_cons, map_add, List.map_cons, List.sum_cons, ih]

theorem sum_branch (ht : Tgt N pat) (Ks : List (State (Fin N) ℂ → State (Fin N) ℂ)) (e : Ens N) :
    redE ht (branch Ks e) = (e.map fun s => (s.1 : ℂ) • (Ks.map fun K => red ht (K s.2)).sum).sum := by
  unfold redE branch
  induction e with
  | nil => rfl
  | cons s e ih =>
    rw [List.flatMap_cons, List.map_append, List.sum_append, ih, List.map_cons, List.sum_cons, List.map_map]
    congr 1
    rw [List.smul_sum, List.map_map]
    rfl

theorem redE_block (ht : Tgt N pat) {c d : List Ins} (hc : ∀ i ∈ c, Ok pat.length i) (hd : replaceQ c pat = some d) (Ks : List (Op pat.length)) (e : Ens N) :
    redE ht (branch (Ks.map (applyOn N pat)) (e.map fun s => (s.1, run N d s.2))) = chan Ks (Ad (opMat pat.length c) (redE ht e)) := by
  rw [sum_branch, List.map_map]
  unfold redE
  rw [list_map_sum, list_map_sum, List.map_map, List.map_map]
  congr 1
  refine List.map_congr_left fun s _ => ?_
  simp only [Function.comp]
  rw [map_smul, map_smul]
  congr 1
  unfold chan
  rw [list_sum_apply, List.map_map, List.map_map]
  congr 1
  refine List.map_congr_left fun K _ => ?_
  simp only [Function.comp]
  rw [red_applyOn ht, red_run ht hc hd]

theorem list_mulVec {n : ℕ} (l : List (Op n)) (φ : State (Fin n) ℂ) : l.sum.mulVec φ = (l.map fun K => K.mulVec φ).sum := by
  induction l with
  | nil => simp
  | cons K l ih => rw [List.sum_cons, Matrix.add_mulVec, List.map_cons, List.sum_cons, ih]

theorem list_dot {n : ℕ} (φ : State (Fin n) ℂ) (l : List (State (Fin n) ℂ)) : (l.map fun χ => φ ⬝ᵥ χ).sum = φ ⬝ᵥ l.sum := by
  induction l with
  | nil => simp
  | cons χ l ih => rw [List.map_cons, List.sum_cons, List.sum_cons, dotProduct_add, ih]

theorem channel_dot {n : ℕ} {Ks : List (Op n)} (h : IsChannel Ks) (φ χ : State (Fin n) ℂ) :
    (Ks.map fun K => ∑ x, K.mulVec φ x * star (K.mulVec χ x)).sum = ∑ x, φ x * star (χ x) := by
  have e : ∀ K : Op n, ∑ x, K.mulVec φ x * star (K.mulVec χ x) = star χ ⬝ᵥ ((Kᴴ * K).mulVec φ) := by
    intro K
    rw [← Matrix.mulVec_mulVec, Matrix.dotProduct_mulVec, ← Matrix.star_mulVec]
    simp only [dotProduct]
    exact Finset.sum_congr rfl fun x _ => mul_comm _ _
  simp only [e]
  have := list_dot (star χ) (Ks.map fun K => (Kᴴ * K).mulVec φ)
  rw [List.map_map] at this
  refine Eq.trans this ?_
  have h2 := list_mulVec (Ks.map fun K => Kᴴ * K) φ
  rw [List.map_map] at h2
  unfold IsChannel at h
  rw [h] at h2
  refine Eq.trans (congrArg _ h2.symm) ?_
  rw [Matrix.one_mulVec]
  simp only [dotProduct]
  exact Finset.sum_congr rfl fun x _ => mul_comm _ _

theorem run_dot {n : ℕ} {c : List Ins} (hc : ∀ i ∈ c, Ok n i) (φ χ : State (Fin n) ℂ) : ∑ x, run n c φ x * star (run n c χ x) = ∑ x, φ x * star (χ x) := by
  have := inner_run c hc χ φ
  unfold Quantum.inner at this
  refine Eq.trans (Finset.sum_congr rfl fun x _ => mul_comm _ _) (this.trans (Finset.sum_congr rfl fun x _ => mul_comm _ _))

theorem red_other {pat' : List ℕ} (ht : Tgt N pat) (ht' : Tgt N pat') (hdis : ∀ q ∈ pat, q ∉ pat') (ψ : State (Fin N) ℂ) (x x' : Basis (Fin pat.length)) :
    red ht ψ x x' = ((2 : ℂ) ^ pat.length)⁻¹ * (((2 : ℂ) ^ pat'.length)⁻¹ * ∑ y, ∑ z, slice ht'.inj (glue ht.inj y x) ψ z * star (slice ht'.inj (glue ht.inj y x') ψ z)) := by
  unfold red
  congr 1
  have comm : ∀ y z x, glue ht.inj (glue ht'.inj y z) x = glue ht'.inj (glue ht.inj y x) z := by
    intro y z x
    funext q
    by_cases h : ∃ j, ht.inj j = q
    · obtain ⟨j, rfl⟩ := h
      rw [glue_at ht.injective, glue_off, glue_at ht.injective]
      intro i he
      have he' : pat'[i] = pat[j] := Fin.mk.inj he
      exact hdis pat[j] (List.getElem_mem _) (he' ▸ List.getElem_mem _)
    · push Not at h
      rw [glue_off _ _ _ h]
      by_cases h' : ∃ j, ht'.inj j = q
      · obtain ⟨j, rfl⟩ := h'
        rw [glue_at ht'.injective, glue_at ht'.injective]
      · push Not at h'
        rw [glue_off _ _ _ h', glue_off _ _ _ h', glue_off _ _ _ h]
  have h2 : ((2 : ℂ) ^ pat'.length) ≠ 0 := pow_ne_zero _ two_ne_zero
  have key : ∀ g : Basis (Fin N) → ℂ, ∑ y, ∑ z, g (glue ht'.inj y z) = 2 ^ pat'.length * ∑ y, g y := by
    intro g
    have e1 : ∀ g : Basis (Fin N) → ℝ, ∑ y, ∑ z, g (glue ht'.inj y z) = 2 ^ pat'.length * ∑ y, g y := by
      intro g
      rw [Finset.sum_comm, Finset.sum_congr rfl fun z _ => sum_rest' ht' g z, ← Finset.mul_sum, Finset.sum_comm, sum_rest]
    refine Complex.ext ?_ ?_
    · have := e1 fun y => (g y).re
      simp only [Complex.re_sum]
      rw [this, show ((2 : ℂ) ^ pat'.length) = ((2 ^ pat'.length : ℝ) : ℂ) by push_cast; rfl, Complex.re_ofReal_mul, Complex.re_sum]
    · have := e1 fun y => (g y).im
      simp only [Complex.im_sum]
      rw [this, show ((2 : ℂ) ^ pat'.length) = ((2 ^ pat'.length : ℝ) : ℂ) by push_cast; rfl, Complex.im_ofReal_mul, Complex.im_sum]
  have := key fun y => ψ (glue ht.inj y x) * star (ψ (glue ht.inj y x'))
  simp only [comm] at this
  simp only [slice]
  rw [this]
  field_simp

/-- Circuits and channels on other qubits do not change the density matrix. -/
theorem redE_other {pat' : List ℕ} (ht : Tgt N pat) (ht' : Tgt N pat') (hdis : ∀ q ∈ pat, q ∉ pat') {d : List Ins} (hd : OnSub pat' d)
    {Ks : List (Op pat'.length)} (hK : IsChannel Ks) (e : Ens N) :
    redE ht (branch (Ks.map (applyOn N pat')) (e.map fun s => (s.1, run N d s.2))) = redE ht e := by
  obtain ⟨c, h1, h2⟩ := hd
  obtain ⟨d', h3, -, -, -, h4⟩ := replaceQ_spec ht' h1
  rw [h2, Option.some.injEq] at h3
  subst h3
  rw [sum_branch, List.map_map]
  unfold redE
  congr 1
  refine List.map_congr_left fun s _ => ?_
  simp only [Function.comp]
  congr 1
  ext x x'
  have sum_app : ∀ l : List (Op pat.length), l.sum x x' = (l.map fun M => M x x').sum := by
    intro l
    induction l with
    | nil => rfl
    | cons M l ih => rw [List.sum_cons, Matrix.add_apply, ih, List.map_cons, List.sum_cons]
  rw [sum_app, List.map_map, List.map_map]
  have step : ∀ K : Op pat'.length, red ht (applyOn N pat' K (run N d s.2)) x x' = ((2 : ℂ) ^ pat.length)⁻¹ * (((2 : ℂ) ^ pat'.length)⁻¹ * ∑ y,
      ∑ z, K.mulVec (run pat'.length c (slice ht'.inj (glue ht.inj y x) s.2)) z * star (K.mulVec (run pat'.length c (slice ht'.inj (glue ht.inj y x') s.2)) z)) := by
    intro K
    rw [red_other ht ht' hdis]
    simp only [applyOn_glue ht', h4]
  have e1 : (Ks.map (((fun M : Op pat.length => M x x') ∘ fun K => red ht (K (run N d s.2))) ∘ applyOn N pat')) = Ks.map fun K =>
      ((2 : ℂ) ^ pat.length)⁻¹ * (((2 : ℂ) ^ pat'.length)⁻¹ * ∑ y,
      ∑ z, K.mulVec (run pat'.length c (slice ht'.inj (glue ht.inj y x) s.2)) z * star (K.mulVec (run pat'.length c (slice ht'.inj (glue ht.inj y x') s.2)) z)) :=
    List.map_congr_left fun K _ => step K
  have sum_fin : ∀ (l : List (Op pat'.length)) (g : Op pat'.length → Basis (Fin N) → ℂ), (l.map fun K => ∑ y, g K y).sum = ∑ y, (l.map fun K => g K y).sum := by
    intro l g
    induction l with
    | nil => simp
    | cons K l ih => simp only [List.map_cons, List.sum_cons, ih, Finset.sum_add_distrib]
  refine Eq.trans (congrArg List.sum e1) ?_
  rw [List.sum_map_mul_left, List.sum_map_mul_left, sum_fin, red_other ht ht' hdis s.2]
  congr 2
  refine Finset.sum_congr rfl fun y _ => ?_
  rw [channel_dot hK, run_dot h1]

/-- Only the events on the subset matter, and they only see its density matrix. -/
theorem runsK_red {pats : List (List ℕ)} (htp : ∀ p ∈ pats, Tgt N p) (ht : Tgt N pat) (hdis : ∀ p ∈ pats, p ≠ pat → ∀ q ∈ pat, q ∉ p)
    (evs : List (KEvent N)) (l : List (List Ins × List (Op pat.length))) (hl : ∀ cK ∈ l, OnSub pat cK.1) (h : RunsK N pats pat l evs) (e e' : Ens N)
    (he : redE ht e = redE ht e') :
    redE ht (noisyK evs e) = redE ht (noisyK (l.map fun cK => (pat, cK.1, cK.2.map (applyOn N pat))) e') := by
  induction evs generalizing e e' l with
  | nil =>
    obtain ⟨h1, -⟩ := h
    have : l = [] := by
      cases l with
      | nil => rfl
      | cons a l => simp at h1
    subst this
    exact he
  | cons ev evs ih =>
    obtain ⟨h1, h2⟩ := h
    by_cases hev : ev.1 = pat
    · rw [List.filter_cons_of_pos (by simpa using hev), List.map_cons] at h1
      cases l with
      | nil => simp at h1
      | cons cK l =>
        rw [List.map_cons, List.cons.injEq] at h1
        obtain ⟨h3, h4⟩ := h1
        obtain ⟨qs, d, Js⟩ := ev
        dsimp only at hev h3
        subst hev
        obtain ⟨rfl, rfl⟩ := Prod.mk.inj h3
        obtain ⟨c, c1, c2⟩ := hl cK (by simp)
        rw [List.map_cons, noisyK, noisyK]
        refine ih l (fun x hx => hl x (by simp [hx])) ⟨h4, fun ev' h' => h2 ev' (by simp [h'])⟩ _ _ ?_
        dsimp only
        rw [redE_block ht c1 c2, redE_block ht c1 c2, he]
    · rw [List.filter_cons_of_neg (by simpa using hev)] at h1
      obtain ⟨hp, hg, Ks, hK, hKs⟩ := h2 ev (by simp) hev
      rw [noisyK]
      refine ih l hl ⟨h1, fun ev' h' => h2 ev' (by simp [h'])⟩ _ _ ?_
      rw [hKs, redE_other ht (htp _ hp) (hdis _ hp hev) (OnSub.of_gates (htp _ hp) hg) hK, he]

end Verif.RB
