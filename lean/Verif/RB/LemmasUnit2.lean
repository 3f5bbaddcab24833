import Verif.RB.LemmasUnit
import Mathlib.Algebra.Order.Chebyshev
import Mathlib.Algebra.Order.BigOperators.Ring.Finset
set_option linter.unusedSimpArgs false
set_option linter.unusedVariables false
set_option linter.unusedSectionVars false
/-
The density matrix after an RB sequence; bounds on the unitarity.
-/
namespace Verif.RB
open Verif.Quantum Matrix
variable {E : Type} {G : Group E} {Mem : ℕ → E → Prop} {N n : ℕ} {pat : List ℕ} {els : Finset E}

/-! ### The density matrix -/

theorem sum_rest_c (ht : Tgt N pat) (g : Basis (Fin N) → ℂ) : ∑ r ∈ rest ht, ∑ x, g (glue ht.inj r x) = ∑ y, g y := by
  apply Complex.ext
  · simp only [Complex.re_sum]; exact sum_rest ht fun y => (g y).re
  · simp only [Complex.im_sum]; exact sum_rest ht fun y => (g y).im

theorem red_rest (ht : Tgt N pat) (ψ : State (Fin N) ℂ) (x x' : Basis (Fin pat.length)) :
    red ht ψ x x' = ∑ y ∈ rest ht, ψ (glue ht.inj y x) * star (ψ (glue ht.inj y x')) := by
  unfold red
  rw [← sum_rest_c ht fun y => ψ (glue ht.inj y x) * star (ψ (glue ht.inj y x'))]
  simp only [glue_glue, Finset.sum_const, Finset.card_univ, card_basis, nsmul_eq_mul]
  rw [← Finset.mul_sum]
  push_cast
  rw [inv_mul_cancel_left₀ (pow_ne_zero _ two_ne_zero)]

theorem rest_eq (ht : Tgt N pat) : (Finset.univ.filter fun y : Basis (Fin N) => ∀ q ∈ pat, bitOf y q = false) = rest ht := by
  unfold rest
  refine Finset.filter_congr fun y _ => ?_
  constructor
  · intro h
    funext j
    have := h pat[j] (List.getElem_mem _)
    have hj : pat[j] < N := ht.lt _ (List.getElem_mem _)
    unfold bitOf at this
    rw [dif_pos hj] at this
    exact this
  · intro h q hq
    obtain ⟨j, hj, rfl⟩ := List.getElem_of_mem hq
    unfold bitOf
    rw [dif_pos (ht.lt _ (List.getElem_mem _))]
    exact congrFun h ⟨j, hj⟩

theorem list_apply (l : List (Op n)) (x x' : Basis (Fin n)) : l.sum x x' = (l.map fun A => A x x').sum := by
  induction l with
  | nil => rfl
  | cons A l ih => rw [List.sum_cons, Matrix.add_apply, ih, List.map_cons, List.sum_cons]

theorem density_eq (ht : Tgt N pat) (e : Ens N) : density pat e = redE ht e := by
  ext x x'
  unfold density redE
  rw [list_apply, List.map_map]
  congr 1
  refine List.map_congr_left fun s _ => ?_
  simp only [Function.comp]
  rw [Matrix.smul_apply, smul_eq_mul, red_rest, ← rest_eq ht]
  simp only [putBits_eq ht]

theorem red_herm (ht : Tgt N pat) (ψ : State (Fin N) ℂ) : (red ht ψ)ᴴ = red ht ψ := by
  ext x x'
  rw [Matrix.conjTranspose_apply, red_rest, red_rest, star_sum]
  refine Finset.sum_congr rfl fun y _ => ?_
  rw [StarMul.star_mul, star_star]

theorem redE_herm (ht : Tgt N pat) (e : Ens N) : (redE ht e)ᴴ = redE ht e := by
  unfold redE
  induction e with
  | nil => simp
  | cons s e ih =>
    rw [List.map_cons, List.sum_cons, conjTranspose_add, ih, conjTranspose_smul, red_herm]
    congr 2
    exact Complex.conj_ofReal _

/-- The purity after the sequence, as a function of the state before the noise of the inverse. -/
theorem finalPurity_eq (hL : Lawful G Mem) (ht : Tgt N pat) (hpos : ∃ e, Mem pat.length e) (Ks Js : List (Op pat.length)) (e : Ens N) {gs : List E}
    (hg : ∀ g ∈ gs, Mem pat.length g) :
    ∃ ρ : Op pat.length, ρᴴ = ρ ∧ finalPurity G pat Ks Js e gs = purity (output Js ρ) ∧
      ρ = ((((prodU (gs.map (uOf G pat.length)))⁻¹ : (Sup pat.length)ˣ) : Sup pat.length) * seqOp (chan Ks) (gs.map (uOf G pat.length))) (redE ht e) := by
  obtain ⟨blocks, inv, cinv, h1, h2, h3, h4, h5⟩ := seqOn_spec hL ht hpos hg
  refine ⟨_, ?_, ?_, rfl⟩
  · have hr := redE_block ht h3 h4 [1] (noisyK (blocks.map fun b => (pat, b, Ks.map (applyOn N pat))) e)
    rw [seq_red hL ht Ks hg h2, h5] at hr
    have h1 : chan [(1 : Op pat.length)] = 1 := by unfold chan; simp [Ad_one]
    rw [h1, Module.End.one_apply] at hr
    rw [Module.End.mul_apply, ← hr]
    exact redE_herm ht _
  · unfold finalPurity
    rw [h1, Option.map_some, Option.getD_some, density_eq ht, List.map_append, List.map_map, noisyK_append]
    rw [List.map_cons, List.map_nil, noisyK, noisyK]
    dsimp only
    rw [redE_block ht h3 h4, output_eq, h5]
    have := seq_red hL ht Ks hg h2 e
    rw [Module.End.mul_apply, ← this]
    rfl

/-! ### Bounds -/

theorem hs_self_re (A : Op n) : (hs A A).re = ∑ x, ∑ y, Complex.normSq (A x y) := by rw [hs_self, Complex.ofReal_re]

theorem hs_self_nonneg (A : Op n) : 0 ≤ (hs A A).re := by
  rw [hs_self_re]
  exact Finset.sum_nonneg fun x _ => Finset.sum_nonneg fun y _ => Complex.normSq_nonneg _

theorem hs_sum (A B : Op n) : hs A B = ∑ p : Basis (Fin n) × Basis (Fin n), (starRingEnd ℂ) (A p.1 p.2) * B p.1 p.2 := by
  unfold hs
  simp only [Matrix.trace, Matrix.diag_apply, Matrix.mul_apply, Matrix.conjTranspose_apply]
  rw [Finset.sum_comm, Fintype.sum_prod_type]
  rfl

/-- Cauchy-Schwarz. -/
theorem hs_cs (A B : Op n) : Complex.normSq (hs A B) ≤ (hs A A).re * (hs B B).re := by
  rw [hs_self_re, hs_self_re, ← Fintype.sum_prod_type' (f := fun x y => Complex.normSq (A x y)), ← Fintype.sum_prod_type' (f := fun x y => Complex.normSq (B x y)), Complex.normSq_eq_norm_sq, hs_sum]
  have h1 : ‖∑ p : Basis (Fin n) × Basis (Fin n), (starRingEnd ℂ) (A p.1 p.2) * B p.1 p.2‖ ≤ ∑ p : Basis (Fin n) × Basis (Fin n), ‖A p.1 p.2‖ * ‖B p.1 p.2‖ := by
    refine (norm_sum_le _ _).trans (Finset.sum_le_sum fun p _ => ?_)
    rw [norm_mul, Complex.norm_conj]
  have h2 := Finset.sum_mul_sq_le_sq_mul_sq Finset.univ (fun p : Basis (Fin n) × Basis (Fin n) => ‖A p.1 p.2‖) fun p => ‖B p.1 p.2‖
  simp only [Complex.normSq_eq_norm_sq]
  refine le_trans ?_ h2
  exact pow_le_pow_left₀ (norm_nonneg _) h1 2

theorem hs_one_one : (hs (1 : Op n) 1).re = 2 ^ n := by
  rw [hs_one, Matrix.trace_one, card_basis]
  push_cast
  rw [show ((2 : ℂ) ^ n) = ((2 ^ n : ℝ) : ℂ) by push_cast; rfl, Complex.ofReal_re]

theorem channel_traces {Ks : List (Op n)} (hK : IsChannel Ks) : (Ks.map fun K => (hs K K).re).sum = 2 ^ n := by
  have h : ∀ l : List (Op n), (l.map fun K => (hs K K).re).sum = ((l.map fun K => Kᴴ * K).sum.trace).re := by
    intro l
    induction l with
    | nil => simp
    | cons K l ih => rw [List.map_cons, List.sum_cons, List.map_cons, List.sum_cons, Matrix.trace_add, Complex.add_re, ih]; rfl
  rw [h, hK, ← hs_one, hs_one_one]

theorem purity_one_ge {Ks : List (Op n)} (hK : IsChannel Ks) : 2 ^ n ≤ purity (output Ks 1) := by
  have h := hs_cs (1 : Op n) (chan Ks 1)
  rw [hs_one, hs_one_one, show (chan Ks 1).trace = (1 : Op n).trace from trace_Ad_sum hK 1, ← hs_one] at h
  have h1 : hs (1 : Op n) 1 = ((2 ^ n : ℝ) : ℂ) := by
    rw [← hs_one_one, hs_self, Complex.ofReal_re]
  have h2 : purity (output Ks 1) = (hs (chan Ks 1) (chan Ks 1)).re := by
    rw [output_eq, ← purity_hs (chan_herm _ _ conjTranspose_one), Complex.ofReal_re]
  rw [h1, Complex.normSq_ofReal, ← h2] at h
  have : (0 : ℝ) < 2 ^ n := by positivity
  exact le_of_mul_le_mul_left h this

theorem gram_le {Ks : List (Op n)} (hK : IsChannel Ks) : (Ks.map fun K => (Ks.map fun K' => Complex.normSq (K'ᴴ * K).trace).sum).sum ≤ (2 ^ n) ^ 2 := by
  have h : ∀ l l' : List (Op n), (l.map fun K => (l'.map fun K' => Complex.normSq (K'ᴴ * K).trace).sum).sum ≤
      (l.map fun K => (hs K K).re).sum * (l'.map fun K => (hs K K).re).sum := by
    intro l l'
    rw [← List.sum_map_mul_right]
    refine List.sum_le_sum fun K _ => ?_
    rw [← List.sum_map_mul_left]
    refine List.sum_le_sum fun K' _ => ?_
    rw [mul_comm]
    exact hs_cs K' K
  refine (h Ks Ks).trans ?_
  rw [channel_traces hK, sq]

theorem one_lt_d (hn : 0 < n) : (1 : ℝ) < 2 ^ n := one_lt_pow₀ (by norm_num) (by omega)

theorem unitarity_le (hn : 0 < n) {Ks : List (Op n)} (hK : IsChannel Ks) : unitarity Ks ≤ 1 := by
  have h1 := purity_one_ge hK
  have h2 := gram_le hK
  have hd := one_lt_d hn
  unfold unitarity
  rw [div_le_one (by nlinarith)]
  have : 1 ≤ purity (output Ks 1) / 2 ^ n := by rw [le_div_iff₀ (by linarith)]; linarith
  linarith

/-- A channel of unitarity 1 leaves the maximally mixed state alone, as far as the purity shows. -/
theorem unitarity_one (hn : 0 < n) {Ks : List (Op n)} (hK : IsChannel Ks) (h : unitarity Ks = 1) : purity (output Ks 1) / 2 ^ n = 1 := by
  have h1 := purity_one_ge hK
  have h2 := gram_le hK
  have hd := one_lt_d hn
  have h3 : 1 ≤ purity (output Ks 1) / 2 ^ n := by rw [le_div_iff₀ (by linarith)]; linarith
  unfold unitarity at h
  rw [div_eq_one_iff_eq (by nlinarith)] at h
  linarith

theorem sum_hs (A : Op n) (s : Finset E) (f : E → Op n) : hs A (∑ e ∈ s, f e) = ∑ e ∈ s, hs A (f e) := by
  unfold hs
  rw [Matrix.mul_sum, Matrix.trace_sum]

/-- The square of the decay parameter is at most the unitarity. -/
theorem decay_le (hn : 0 < n) (hC : IsClifford G n els) (hok : ∀ e ∈ els, ∃ c, G.toCircuit e = some c ∧ ∀ i ∈ c, Ok n i) {Ks : List (Op n)} (hK : IsChannel Ks) :
    decay Ks ^ 2 ≤ unitarity Ks := by
  have hcl := cliff_closed hC hok
  set A : Op n := P (unit ⟨0, hn⟩ true) fun _ => false with hA
  have hA0 : A.trace = 0 := by
    rw [hA, P_trace, if_neg]
    rintro ⟨h, -⟩
    have := congrFun h ⟨0, hn⟩
    simp [unit] at this
  have hAp : 0 < (hs A A).re := by
    refine lt_of_le_of_ne (hs_self_nonneg A) fun h => P_ne_zero (n := n) (unit ⟨0, hn⟩ true) (fun _ => false) ?_
    rw [hs_self_re] at h
    have h1 := (Finset.sum_eq_zero_iff_of_nonneg fun x _ => Finset.sum_nonneg fun y _ => Complex.normSq_nonneg (A x y)).1 h.symm
    ext x y
    have h2 := (Finset.sum_eq_zero_iff_of_nonneg fun y _ => Complex.normSq_nonneg (A x y)).1 (h1 x (Finset.mem_univ _)) y (Finset.mem_univ _)
    exact Complex.normSq_eq_zero.1 h2
  have hc : 0 < (els.card : ℝ) := by exact_mod_cast Finset.card_pos.2 hcl.pos
  have h1 := cliff_mean hn hC hok Ks A
  have h2 := congrArg (fun T : Sup n => hs A (T A)) (cliff_twirl hn hC hok hK)
  simp only [LinearMap.add_apply, LinearMap.smul_apply, Module.End.one_apply, hs_add, hs_smul, hs_Dep, hA0, Complex.normSq_zero, Complex.ofReal_zero, zero_div, mul_zero, add_zero] at h2
  rw [hA0, Complex.normSq_zero, Complex.ofReal_zero, mul_zero, add_zero] at h1
  unfold tw at h2
  rw [LinearMap.smul_apply, hs_smul, LinearMap.sum_apply, sum_hs] at h2
  have e3 : ∀ e ∈ els, hs A (((((uOf G n e)⁻¹ : (Sup n)ˣ) : Sup n) * chan Ks * (uOf G n e : Sup n)) A) = hs ((uOf G n e : Sup n) A) (chan Ks ((uOf G n e : Sup n) A)) := by
    intro e he
    rw [Module.End.mul_apply, Module.End.mul_apply, ← hs_u (hok e he)]
  rw [Finset.sum_congr rfl e3] at h2
  have e4 : ∀ e ∈ els, (hs ((uOf G n e : Sup n) A) ((uOf G n e : Sup n) A)).re = (hs A A).re := by
    intro e he
    rw [hs_u (hok e he), ← Module.End.mul_apply, Units.inv_mul, Module.End.one_apply]
  have ha : hs A A = (((hs A A).re : ℝ) : ℂ) := by rw [hs_self, Complex.ofReal_re]
  set a := (hs A A).re
  -- the two means as real numbers
  have m1 : (els.card : ℝ)⁻¹ * ∑ e ∈ els, (hs (chan Ks ((uOf G n e : Sup n) A)) (chan Ks ((uOf G n e : Sup n) A))).re = unitarity Ks * a := by
    have := congrArg Complex.re h1
    rw [ha, ← Complex.ofReal_mul, Complex.ofReal_re, ← Complex.ofReal_natCast, ← Complex.ofReal_inv, Complex.re_ofReal_mul, Complex.re_sum] at this
    exact this
  have m2 : (els.card : ℝ)⁻¹ * ∑ e ∈ els, (hs ((uOf G n e : Sup n) A) (chan Ks ((uOf G n e : Sup n) A))).re = decay Ks * a := by
    have := congrArg Complex.re h2
    rw [ha, ← Complex.ofReal_mul, Complex.ofReal_re, ← Complex.ofReal_natCast, ← Complex.ofReal_inv, Complex.re_ofReal_mul, Complex.re_sum] at this
    exact this
  have m3 : (∑ e ∈ els, (hs ((uOf G n e : Sup n) A) (chan Ks ((uOf G n e : Sup n) A))).re) ^ 2 ≤
      els.card * ∑ e ∈ els, (hs ((uOf G n e : Sup n) A) (chan Ks ((uOf G n e : Sup n) A))).re ^ 2 := sq_sum_le_card_mul_sum_sq
  have m4 : ∑ e ∈ els, (hs ((uOf G n e : Sup n) A) (chan Ks ((uOf G n e : Sup n) A))).re ^ 2 ≤
      a * ∑ e ∈ els, (hs (chan Ks ((uOf G n e : Sup n) A)) (chan Ks ((uOf G n e : Sup n) A))).re := by
    rw [Finset.mul_sum]
    refine Finset.sum_le_sum fun e he => ?_
    have := hs_cs ((uOf G n e : Sup n) A) (chan Ks ((uOf G n e : Sup n) A))
    rw [e4 e he] at this
    refine le_trans ?_ this
    rw [Complex.normSq_apply]
    nlinarith [mul_self_nonneg (hs ((uOf G n e : Sup n) A) (chan Ks ((uOf G n e : Sup n) A))).im]
  set X := ∑ e ∈ els, (hs (chan Ks ((uOf G n e : Sup n) A)) (chan Ks ((uOf G n e : Sup n) A))).re
  set Y := ∑ e ∈ els, (hs ((uOf G n e : Sup n) A) (chan Ks ((uOf G n e : Sup n) A))).re
  have x1 : X = els.card * (unitarity Ks * a) := by rw [← m1, mul_inv_cancel_left₀ hc.ne']
  have y1 : Y = els.card * (decay Ks * a) := by rw [← m2, mul_inv_cancel_left₀ hc.ne']
  have h5 : Y ^ 2 ≤ els.card * (a * X) := m3.trans (mul_le_mul_of_nonneg_left m4 hc.le)
  rw [x1, y1] at h5
  have h6 : (els.card * a) ^ 2 * decay Ks ^ 2 ≤ (els.card * a) ^ 2 * unitarity Ks := by
    calc (els.card * a) ^ 2 * decay Ks ^ 2 = (els.card * (decay Ks * a)) ^ 2 := by ring
      _ ≤ _ := h5
      _ = _ := by ring
  exact le_of_mul_le_mul_left h6 (pow_pos (mul_pos hc hAp) 2)

end Verif.RB
