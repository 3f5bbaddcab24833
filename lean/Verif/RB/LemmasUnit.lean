import Verif.RB.SpecUnitarity
import Verif.RB.LemmasTwirl8
set_option linter.unusedSimpArgs false
set_option linter.unusedVariables false
set_option linter.unusedSectionVars false
/-
Purity of the state after an RB sequence.
-/
namespace Verif.RB
open Verif.Quantum Matrix
variable {E : Type} {G : Group E} {Mem : ℕ → E → Prop} {N n : ℕ} {pat : List ℕ} {els : Finset E}

/-! ### The Hilbert-Schmidt product -/

/-- `tr A†B`. -/
noncomputable def hs (A B : Op n) : ℂ := (Aᴴ * B).trace

theorem hs_add (A B C : Op n) : hs A (B + C) = hs A B + hs A C := by
  unfold hs; rw [Matrix.mul_add, Matrix.trace_add]

theorem hs_smul (A : Op n) (z : ℂ) (B : Op n) : hs A (z • B) = z * hs A B := by
  unfold hs; rw [Matrix.mul_smul, Matrix.trace_smul, smul_eq_mul]

theorem add_hs (A B C : Op n) : hs (A + B) C = hs A C + hs B C := by
  unfold hs; rw [conjTranspose_add, Matrix.add_mul, Matrix.trace_add]

theorem zero_hs (C : Op n) : hs 0 C = 0 := by
  unfold hs; simp

theorem hs_zero (C : Op n) : hs C 0 = 0 := by
  unfold hs; simp

theorem hs_Ad (K A B : Op n) : hs (Ad K A) B = hs A (Ad Kᴴ B) := by
  unfold hs
  rw [Ad_apply, Ad_apply, conjTranspose_mul, conjTranspose_mul, conjTranspose_conjTranspose, Matrix.mul_assoc, Matrix.trace_mul_comm]
  simp only [Matrix.mul_assoc]

/-- The adjoint operation. -/
noncomputable def chanH (Ks : List (Op n)) : Sup n := chan (Ks.map fun K => Kᴴ)

theorem chan_cons (K : Op n) (Ks : List (Op n)) (A : Op n) : chan (K :: Ks) A = Ad K A + chan Ks A := by
  unfold chan; rw [List.map_cons, List.sum_cons, LinearMap.add_apply]

theorem hs_chan (Ks : List (Op n)) (A B : Op n) : hs (chan Ks A) B = hs A (chanH Ks B) := by
  unfold chanH
  induction Ks with
  | nil => simp [chan, hs]
  | cons K Ks ih => rw [chan_cons, add_hs, List.map_cons, chan_cons, hs_add, ih, hs_Ad]

theorem hs_one (A : Op n) : hs (1 : Op n) A = A.trace := by
  unfold hs; rw [conjTranspose_one, Matrix.one_mul]

theorem hs_Dep (A : Op n) : hs A (Dep n A) = (Complex.normSq A.trace : ℂ) / 2 ^ n := by
  show hs A ((A.trace / 2 ^ n) • (1 : Op n)) = _
  rw [hs_smul]
  unfold hs
  rw [Matrix.mul_one, Matrix.trace_conjTranspose, Complex.normSq_eq_conj_mul_self]
  rw [show star A.trace = (starRingEnd ℂ) A.trace from rfl]
  ring

theorem hs_self (A : Op n) : hs A A = ((∑ x, ∑ y, Complex.normSq (A x y) : ℝ) : ℂ) := by
  unfold hs
  simp only [Matrix.trace, Matrix.diag_apply, Matrix.mul_apply, Matrix.conjTranspose_apply]
  rw [Finset.sum_comm]
  push_cast
  refine Finset.sum_congr rfl fun x _ => Finset.sum_congr rfl fun y _ => ?_
  rw [Complex.normSq_eq_conj_mul_self]; rfl

theorem hs_u {e : E} (hok : ∃ c, G.toCircuit e = some c ∧ ∀ i ∈ c, Ok n i) (A B : Op n) :
    hs ((uOf G n e : Sup n) A) B = hs A ((((uOf G n e)⁻¹ : (Sup n)ˣ) : Sup n) B) := by
  obtain ⟨c, c1, c2⟩ := hok
  rw [uOf_eq c1 c2]
  exact hs_Ad _ _ _

theorem hs_u_inv {e : E} (hok : ∃ c, G.toCircuit e = some c ∧ ∀ i ∈ c, Ok n i) (A B : Op n) :
    hs ((((uOf G n e)⁻¹ : (Sup n)ˣ) : Sup n) A) ((((uOf G n e)⁻¹ : (Sup n)ˣ) : Sup n) B) = hs A B := by
  rw [← hs_u hok, ← Module.End.mul_apply, Units.mul_inv, Module.End.one_apply]

theorem trace_u {e : E} (hok : ∃ c, G.toCircuit e = some c ∧ ∀ i ∈ c, Ok n i) (A : Op n) : ((uOf G n e : Sup n) A).trace = A.trace := by
  obtain ⟨c, c1, c2⟩ := hok
  rw [uOf_eq c1 c2]
  show (opMat n c * A * (opMat n c)ᴴ).trace = _
  rw [Matrix.trace_mul_comm, ← Matrix.mul_assoc, opMat_unitary c2, Matrix.one_mul]

/-! ### The mean over a group -/

/-- If the mean of `‖Λ g A‖²` over the elements is `α ‖A‖² + β |tr A|²`, the mean over sequences of `m` elements follows. -/
theorem ex_purity {u : E → (Sup n)ˣ} {Λ : Sup n} {α β : ℂ} (hiso : ∀ e ∈ els, ∀ A, hs ((((u e)⁻¹ : (Sup n)ˣ) : Sup n) A) ((((u e)⁻¹ : (Sup n)ˣ) : Sup n) A) = hs A A)
    (hpos : els.Nonempty) (htr : ∀ e ∈ els, ∀ A, (Λ ((u e : Sup n) A)).trace = A.trace)
    (htw : ∀ A, (els.card : ℂ)⁻¹ * ∑ e ∈ els, hs (Λ ((u e : Sup n) A)) (Λ ((u e : Sup n) A)) = α * hs A A + β * (Complex.normSq A.trace : ℂ)) (m : ℕ) (A : Op n) :
    ex els m (fun l => hs (((((prodU (l.map u))⁻¹ : (Sup n)ˣ) : Sup n) * seqOp Λ (l.map u)) A) (((((prodU (l.map u))⁻¹ : (Sup n)ˣ) : Sup n) * seqOp Λ (l.map u)) A)) =
      α ^ m * hs A A + (∑ k ∈ Finset.range m, α ^ k) * β * (Complex.normSq A.trace : ℂ) := by
  induction m generalizing A with
  | zero => simp [ex, prodU, seqOp]
  | succ m ih =>
    unfold ex
    have e1 : ∀ g ∈ els, ex els m (fun l => hs (((((prodU ((g :: l).map u))⁻¹ : (Sup n)ˣ) : Sup n) * seqOp Λ ((g :: l).map u)) A)
        (((((prodU ((g :: l).map u))⁻¹ : (Sup n)ˣ) : Sup n) * seqOp Λ ((g :: l).map u)) A)) =
        α ^ m * hs (Λ ((u g : Sup n) A)) (Λ ((u g : Sup n) A)) + (∑ k ∈ Finset.range m, α ^ k) * β * (Complex.normSq A.trace : ℂ) := by
      intro g hg
      rw [← htr g hg A, ← ih]
      refine ex_congr els m fun l _ _ => ?_
      have e2 : (((((prodU ((g :: l).map u))⁻¹ : (Sup n)ˣ) : Sup n) * seqOp Λ ((g :: l).map u)) A) =
          (((u g)⁻¹ : (Sup n)ˣ) : Sup n) (((((prodU (l.map u))⁻¹ : (Sup n)ˣ) : Sup n) * seqOp Λ (l.map u)) (Λ ((u g : Sup n) A))) := by
        simp only [List.map_cons, prodU, seqOp, _root_.mul_inv_rev, Units.val_mul, Module.End.mul_apply]
      rw [e2, hiso g hg]
    have hc : (els.card : ℂ) ≠ 0 := by
      rw [Ne, Nat.cast_eq_zero, Finset.card_eq_zero]; exact hpos.ne_empty
    rw [Finset.sum_congr rfl e1, Finset.sum_add_distrib, ← Finset.mul_sum, Finset.sum_const, nsmul_eq_mul, smul_eq_mul, mul_add, mul_left_comm, htw,
      inv_mul_cancel_left₀ hc, Finset.sum_range_succ, pow_succ]
    ring

/-! ### The twirl of `Λ†Λ` -/

theorem strace_mul_Dep (X : Sup n) : LinearMap.trace ℂ (Op n) (X * Dep n) = (X 1).trace / 2 ^ n := by
  rw [strace]
  have : ∀ y x : Basis (Fin n), (X * Dep n) (Matrix.single y x 1) y x = if y = x then (X 1) y y / 2 ^ n else 0 := by
    intro y x
    rw [Module.End.mul_apply]
    show X (((Matrix.single y x (1 : ℂ)).trace / 2 ^ n) • (1 : Op n)) y x = _
    rw [map_smul, Matrix.smul_apply, smul_eq_mul]
    split_ifs with h
    · subst h
      rw [Matrix.trace_single_eq_same]; ring
    · rw [Matrix.trace_single_eq_of_ne _ _ _ h]; simp
  simp only [this, Finset.sum_ite_eq, Finset.mem_univ, if_true]
  rw [Matrix.trace, Finset.sum_div]
  rfl

theorem output_eq (Ks : List (Op n)) (A : Op n) : output Ks A = chan Ks A := by
  induction Ks with
  | nil => simp [output, chan]
  | cons K Ks ih => rw [chan_cons, ← ih]; rfl

theorem Ad_herm (K A : Op n) (h : Aᴴ = A) : (Ad K A)ᴴ = Ad K A := by
  rw [Ad_apply, conjTranspose_mul, conjTranspose_mul, conjTranspose_conjTranspose, h, Matrix.mul_assoc]

theorem chan_herm (Ks : List (Op n)) (A : Op n) (h : Aᴴ = A) : (chan Ks A)ᴴ = chan Ks A := by
  induction Ks with
  | nil => simp [chan]
  | cons K Ks ih => rw [chan_cons, conjTranspose_add, ih, Ad_herm K A h]

theorem purity_hs {A : Op n} (h : Aᴴ = A) : ((purity A : ℝ) : ℂ) = hs A A := by
  have : purity A = (hs A A).re := by unfold purity hs; rw [h]
  rw [this, hs_self, Complex.ofReal_re]

theorem strace_chanH (Ks : List (Op n)) : LinearMap.trace ℂ (Op n) (chanH Ks * chan Ks) =
    (((Ks.map fun K => (Ks.map fun K' => Complex.normSq (K'ᴴ * K).trace).sum).sum : ℝ) : ℂ) := by
  unfold chanH
  rw [chan_mul]
  have h1 : ∀ l : List (Op n), LinearMap.trace ℂ (Op n) (chan l) = ((l.map fun K => Complex.normSq K.trace).sum : ℝ) := by
    intro l
    induction l with
    | nil => simp [chan]
    | cons K l ih =>
      have : chan (K :: l) = Ad K + chan l := by unfold chan; rw [List.map_cons, List.sum_cons]
      rw [this, map_add, ih, strace_Ad, List.map_cons, List.sum_cons]; push_cast; rfl
  rw [h1]
  congr 1
  have h2 : ∀ (l : List (Op n)), (((l.map fun K => Kᴴ).flatMap fun R => Ks.map fun K => R * K).map fun K => Complex.normSq K.trace).sum =
      (Ks.map fun K => (l.map fun K' => Complex.normSq (K'ᴴ * K).trace).sum).sum := by
    intro l
    induction l with
    | nil => simp
    | cons K' l ih =>
      rw [List.map_cons, List.flatMap_cons, List.map_append, List.sum_append, ih]
      simp only [List.map_cons, List.sum_cons, List.map_map, Function.comp_def]
      rw [List.sum_map_add]
  exact h2 Ks

theorem Dep_u {e : E} (hok : ∃ c, G.toCircuit e = some c ∧ ∀ i ∈ c, Ok n i) : Dep n * (uOf G n e : Sup n) = (uOf G n e : Sup n) * Dep n := by
  refine LinearMap.ext fun A => ?_
  rw [Module.End.mul_apply, Module.End.mul_apply]
  show (((uOf G n e : Sup n) A).trace / 2 ^ n) • (1 : Op n) = (uOf G n e : Sup n) ((A.trace / 2 ^ n) • (1 : Op n))
  rw [trace_u hok, map_smul]
  congr 1
  obtain ⟨c, c1, c2⟩ := hok
  rw [uOf_eq c1 c2]
  show 1 = opMat n c * 1 * (opMat n c)ᴴ
  rw [Matrix.mul_one, opMat_unitary' c2]

/-- The twirl of `Λ†Λ`. -/
theorem cliff_square (hn : 0 < n) (hC : IsClifford G n els) (hok : ∀ e ∈ els, ∃ c, G.toCircuit e = some c ∧ ∀ i ∈ c, Ok n i) (Ks : List (Op n)) :
    tw els (uOf G n) (chanH Ks * chan Ks) = (unitarity Ks : ℂ) • 1 + ((purity (output Ks 1) / 2 ^ n - unitarity Ks : ℝ) : ℂ) • Dep n := by
  have hcl := cliff_closed hC hok
  have key : ∀ d, HSC n d → Comm (tw els (uOf G n) (chanH Ks * chan Ks)) d := by
    intro d hd
    obtain ⟨e, he, h⟩ := hC.complete d hd
    obtain ⟨c, c1, c2⟩ := hok e he
    exact comm_of hcl _ he c1 c2 (h c c1)
  obtain ⟨f, g, hf⟩ := form_clifford_gen (T := tw els (uOf G n) (chanH Ks * chan Ks)) hn
    (fun q => key _ fun i hi => by rw [List.mem_singleton.1 hi]; exact ⟨⟨rfl, q.2⟩, Or.inl ⟨_, rfl⟩⟩)
    (fun q => key _ fun i hi => by rw [List.mem_singleton.1 hi]; exact ⟨⟨rfl, q.2⟩, Or.inr (Or.inl ⟨_, rfl⟩)⟩)
    (fun i j hij => key _ fun k hk => by
      rw [List.mem_singleton.1 hk]; exact ⟨⟨rfl, i.2, j.2, fun h => hij (Fin.ext h)⟩, Or.inr (Or.inr ⟨_, _, rfl⟩)⟩)
  have ht := strace_tw hcl.pos (uOf G n) (chanH Ks * chan Ks) 1 (fun e _ => by rw [one_mul, mul_one])
  have ht2 := strace_tw hcl.pos (uOf G n) (chanH Ks * chan Ks) (Dep n) (fun e he => Dep_u (hok e he))
  rw [one_mul, one_mul, hf, map_add, map_smul, map_smul, strace_one, strace_Dep, strace_chanH] at ht
  rw [hf, mul_add, mul_smul_comm, mul_smul_comm, mul_one, Dep_Dep, map_add, map_smul, map_smul, strace_Dep, LinearMap.trace_mul_comm, strace_mul_Dep, ← hs_one,
    Module.End.mul_apply, ← hs_chan, ← purity_hs (chan_herm _ _ conjTranspose_one), ← output_eq] at ht2
  simp only [smul_eq_mul, mul_one] at ht ht2
  have hd : (1 : ℝ) < (2 ^ n) ^ 2 := by
    have : (1 : ℝ) < 2 ^ n := one_lt_pow₀ (by norm_num) (by omega)
    nlinarith
  have hd' : (((2 : ℂ) ^ n) ^ 2 - 1) ≠ 0 := by
    have : (((2 ^ n) ^ 2 - 1 : ℝ) : ℂ) ≠ 0 := by
      rw [Ne, Complex.ofReal_eq_zero]; linarith
    push_cast at this; exact this
  have h1 : f = (unitarity Ks : ℂ) := by
    unfold unitarity
    rw [Complex.ofReal_div, Complex.ofReal_sub, ← ht]
    push_cast
    rw [← ht2, eq_div_iff hd']
    ring
  have h2 : g = ((purity (output Ks 1) / 2 ^ n - unitarity Ks : ℝ) : ℂ) := by
    rw [Complex.ofReal_sub, ← h1]
    push_cast
    rw [← ht2]; ring
  rw [hf, h1, h2]

/-- The mean of `‖Λ g A‖²` over the Clifford group. -/
theorem cliff_mean (hn : 0 < n) (hC : IsClifford G n els) (hok : ∀ e ∈ els, ∃ c, G.toCircuit e = some c ∧ ∀ i ∈ c, Ok n i) (Ks : List (Op n)) (A : Op n) :
    (els.card : ℂ)⁻¹ * ∑ e ∈ els, hs (chan Ks ((uOf G n e : Sup n) A)) (chan Ks ((uOf G n e : Sup n) A)) =
      (unitarity Ks : ℂ) * hs A A + ((purity (output Ks 1) / 2 ^ n - unitarity Ks : ℝ) : ℂ) / 2 ^ n * (Complex.normSq A.trace : ℂ) := by
  have h := congrArg (fun T : Sup n => hs A (T A)) (cliff_square hn hC hok Ks)
  simp only [LinearMap.add_apply, LinearMap.smul_apply, Module.End.one_apply, hs_add, hs_smul, hs_Dep] at h
  rw [div_mul_eq_mul_div, ← mul_div_assoc'] 
  rw [← h]
  unfold tw
  rw [LinearMap.smul_apply, hs_smul, LinearMap.sum_apply]
  congr 1
  have : ∀ (s : Finset E) (f : E → Op n), hs A (∑ e ∈ s, f e) = ∑ e ∈ s, hs A (f e) := by
    intro s f
    unfold hs
    rw [Matrix.mul_sum, Matrix.trace_sum]
  rw [this]
  refine Finset.sum_congr rfl fun e he => ?_
  rw [Module.End.mul_apply, Module.End.mul_apply, Module.End.mul_apply, ← hs_u (hok e he), ← hs_chan]

end Verif.RB
