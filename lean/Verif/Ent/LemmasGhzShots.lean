import Verif.Ent.SpecGhzShots
import Verif.RB.PropsPurityShots
set_option linter.unusedSimpArgs false
set_option linter.unusedVariables false
/-
Lemmas for C131: averages and scatter of Fourier coefficients, norms of states.
-/
namespace Verif.Ent
open Verif Verif.Quantum Complex Verif.Expval

variable {n : ℕ}

/-! ### Expectations -/

theorem shots_nonneg {O : Type} [Fintype O] {S : ℕ} {w : O → ℝ} (hw : IsDistr w) (ω : Fin S → O) : 0 ≤ shotsProb w ω :=
  Finset.prod_nonneg fun k _ => hw.1 _

theorem shots_total {O : Type} [Fintype O] (S : ℕ) {w : O → ℝ} (hw : IsDistr w) : ∑ ω : Fin S → O, shotsProb w ω = 1 := by
  unfold shotsProb
  have := Finset.prod_univ_sum (fun _ : Fin S => (Finset.univ : Finset O)) fun _ o => w o
  rw [Fintype.piFinset_univ] at this
  rw [← this, hw.2]
  simp

theorem runs_total {N S : ℕ} {O : Type} [Fintype O] {w : Fin N → O → ℝ} (hw : ∀ k, IsDistr (w k)) :
    ∑ ω : Fin N → Fin S → O, ∏ k, shotsProb (w k) (ω k) = 1 := by
  classical
  have := Finset.prod_univ_sum (fun _ : Fin N => (Finset.univ : Finset (Fin S → O))) fun k u => shotsProb (w k) u
  rw [Fintype.piFinset_univ] at this
  rw [← this, Finset.prod_congr rfl fun k _ => shots_total S (hw k)]
  simp

theorem exp_fst {A B : Type} [Fintype A] [Fintype B] (p : A → ℝ) (q : B → ℝ) (hq : ∑ b, q b = 1) (f : A → ℝ) :
    ∑ ω : A × B, (p ω.1 * q ω.2) * f ω.1 = ∑ a, p a * f a := by
  rw [Fintype.sum_prod_type]
  refine Finset.sum_congr rfl fun a _ => ?_
  have : ∀ b, p a * q b * f a = p a * f a * q b := fun b => by ring
  simp only [this]
  rw [← Finset.mul_sum, hq, mul_one]

theorem exp_snd {A B : Type} [Fintype A] [Fintype B] (p : A → ℝ) (q : B → ℝ) (hp : ∑ a, p a = 1) (f : B → ℝ) :
    ∑ ω : A × B, (p ω.1 * q ω.2) * f ω.2 = ∑ b, q b * f b := by
  rw [Fintype.sum_prod_type, Finset.sum_comm]
  refine Finset.sum_congr rfl fun b _ => ?_
  have : ∀ a, p a * q b * f b = q b * f b * p a := fun a => by ring
  simp only [this]
  rw [← Finset.mul_sum, hp, mul_one]

/-- The scatter of a sum of independent numbers with complex weights. -/
theorem complex_scatter {N : ℕ} {U : Type} [Fintype U] (Q : Fin N → U → ℝ) (hQ : ∀ k, ∑ u, Q k u = 1) (a : Fin N → ℂ)
    (f : Fin N → U → ℝ) (hf : ∀ k, ∑ u, Q k u * f k u = 0) :
    ∑ κ : Fin N → U, (∏ k, Q k (κ k)) * ‖∑ k, (f k (κ k) : ℂ) * a k‖ ^ 2 = ∑ k, ‖a k‖ ^ 2 * ∑ u, Q k u * f k u ^ 2 := by
  have h1 := RB.sum_variance Q hQ Finset.univ id (fun _ _ _ _ h => h) (fun k u => f k u * (a k).re) (fun k _ => by
    simp only [← mul_assoc, id]; rw [← Finset.sum_mul, hf, zero_mul])
  have h2 := RB.sum_variance Q hQ Finset.univ id (fun _ _ _ _ h => h) (fun k u => f k u * (a k).im) (fun k _ => by
    simp only [← mul_assoc, id]; rw [← Finset.sum_mul, hf, zero_mul])
  simp only [id] at h1 h2
  have e : ∀ κ : Fin N → U, (∏ k, Q k (κ k)) * ‖∑ k, (f k (κ k) : ℂ) * a k‖ ^ 2 =
      (∏ k, Q k (κ k)) * (∑ k, f k (κ k) * (a k).re) ^ 2 + (∏ k, Q k (κ k)) * (∑ k, f k (κ k) * (a k).im) ^ 2 := by
    intro κ
    rw [← Complex.normSq_eq_norm_sq, Complex.normSq_apply]
    simp only [Complex.re_sum, Complex.im_sum, Complex.re_ofReal_mul, Complex.im_ofReal_mul]
    ring
  simp only [e]
  rw [Finset.sum_add_distrib, h1, h2, ← Finset.sum_add_distrib]
  refine Finset.sum_congr rfl fun k _ => ?_
  rw [← Finset.sum_add_distrib, Finset.mul_sum]
  refine Finset.sum_congr rfl fun u _ => ?_
  rw [← Complex.normSq_eq_norm_sq, Complex.normSq_apply]
  ring

/-- The values at the phases. -/
noncomputable def onRange {N : ℕ} (y : Fin N → ℝ) (k : ℕ) : ℝ := if h : k < N then y ⟨k, h⟩ else 0

/-- The weights of the transform. -/
noncomputable def twiddle (N m : ℕ) (k : Fin N) : ℂ := exp (-(2 * Real.pi * I * (m * (k : ℕ) / N)))

theorem twiddle_norm (N m : ℕ) (k : Fin N) : ‖twiddle N m k‖ = 1 := by
  unfold twiddle
  rw [show (-(2 * Real.pi * I * (m * (k : ℕ) / N)) : ℂ) = ((-(2 * Real.pi * (m * (k : ℕ) / N)) : ℝ) : ℂ) * I by push_cast; ring,
    Complex.norm_exp_ofReal_mul_I]

theorem fft_fin (N m : ℕ) (y : ℕ → ℝ) : fft N (fun k => (y k : ℂ)) m = (1 / N) * ∑ k : Fin N, (y k : ℂ) * twiddle N m k := by
  unfold fft twiddle
  rw [Finset.sum_range]

/-- Averages over the shots. -/
noncomputable def means {N S : ℕ} {O : Type} (g : O → ℝ) (ω : Fin N → Fin S → O) (k : ℕ) : ℝ :=
  onRange (fun k => QV.avg g (ω k)) k

/-- Expected values. -/
noncomputable def expected {N : ℕ} {O : Type} [Fintype O] (w : Fin N → O → ℝ) (g : O → ℝ) (k : ℕ) : ℝ :=
  onRange (fun k => ∑ o, w k o * g o) k

theorem fft_diff {N S : ℕ} {O : Type} [Fintype O] (w : Fin N → O → ℝ) (g : O → ℝ) (m : ℕ) (ω : Fin N → Fin S → O) :
    fft N (fun k => (means g ω k : ℂ)) m - fft N (fun k => (expected w g k : ℂ)) m =
      (1 / N) * ∑ k : Fin N, ((QV.avg g (ω k) - ∑ o, w k o * g o : ℝ) : ℂ) * twiddle N m k := by
  rw [fft_fin, fft_fin, ← mul_sub, ← Finset.sum_sub_distrib]
  congr 1
  refine Finset.sum_congr rfl fun k _ => ?_
  simp only [means, expected, onRange, k.2, dif_pos]
  push_cast
  ring

theorem one_mean {S : ℕ} (hS : 0 < S) {O : Type} [Fintype O] {w : O → ℝ} (hw : IsDistr w) (g : O → ℝ) :
    ∑ u : Fin S → O, shotsProb w u * QV.avg g u = ∑ o, w o * g o := QV.avg_mean S hS w hw.2 g

theorem one_centred {S : ℕ} (hS : 0 < S) {O : Type} [Fintype O] {w : O → ℝ} (hw : IsDistr w) (g : O → ℝ) :
    ∑ u : Fin S → O, shotsProb w u * (QV.avg g u - ∑ o, w o * g o) = 0 := by
  simp only [mul_sub]
  rw [Finset.sum_sub_distrib, one_mean hS hw, ← Finset.sum_mul, shots_total S hw]
  ring

/-- The scatter of a coefficient. -/
theorem fft_scatter {N S : ℕ} (hN : 0 < N) (hS : 0 < S) {O : Type} [Fintype O] {w : Fin N → O → ℝ} (hw : ∀ k, IsDistr (w k)) (g : O → ℝ) (V : ℝ)
    (hV : ∀ k, ∑ o, w k o * g o ^ 2 - (∑ o, w k o * g o) ^ 2 ≤ V) (m : ℕ) :
    ∑ ω : Fin N → Fin S → O, (∏ k, shotsProb (w k) (ω k)) *
      ‖fft N (fun k => (means g ω k : ℂ)) m - fft N (fun k => (expected w g k : ℂ)) m‖ ^ 2 ≤ V / (N * S) := by
  have hN' : (0 : ℝ) < N := by exact_mod_cast hN
  have hS' : (0 : ℝ) < S := by exact_mod_cast hS
  have h := complex_scatter (fun k u => shotsProb (w k) u) (fun k => shots_total S (hw k)) (twiddle N m)
    (fun k u => QV.avg g u - ∑ o, w k o * g o) (fun k => one_centred hS (hw k) g)
  have e : ∀ ω : Fin N → Fin S → O, (∏ k, shotsProb (w k) (ω k)) *
      ‖fft N (fun k => (means g ω k : ℂ)) m - fft N (fun k => (expected w g k : ℂ)) m‖ ^ 2 =
      (1 / N ^ 2) * ((∏ k, shotsProb (w k) (ω k)) * ‖∑ k : Fin N, ((QV.avg g (ω k) - ∑ o, w k o * g o : ℝ) : ℂ) * twiddle N m k‖ ^ 2) := by
    intro ω
    rw [fft_diff, norm_mul, mul_pow]
    have : ‖(1 / (N : ℂ))‖ = 1 / N := by simp
    rw [this]
    ring
  simp only [e]
  rw [← Finset.mul_sum, h]
  have hk : ∀ k : Fin N, ‖twiddle N m k‖ ^ 2 * ∑ u : Fin S → O, shotsProb (w k) u * (QV.avg g u - ∑ o, w k o * g o) ^ 2 ≤ V / S := by
    intro k
    rw [twiddle_norm, one_pow, one_mul]
    have := QV.avg_variance S hS (w k) (hw k).2 g _ rfl
    unfold shotsProb
    rw [this]
    exact div_le_div_of_nonneg_right (hV k) hS'.le
  have hs := Finset.sum_le_sum fun k (_ : k ∈ (Finset.univ : Finset (Fin N))) => hk k
  rw [Finset.sum_const, Finset.card_univ, Fintype.card_fin, nsmul_eq_mul] at hs
  calc (1 / (N : ℝ) ^ 2) * _ ≤ (1 / (N : ℝ) ^ 2) * (N * (V / S)) := mul_le_mul_of_nonneg_left hs (by positivity)
    _ = V / (N * S) := by field_simp

/-- The average of a coefficient. -/
theorem fft_mean {N S : ℕ} (hS : 0 < S) {O : Type} [Fintype O] {w : Fin N → O → ℝ} (hw : ∀ k, IsDistr (w k)) (g : O → ℝ) (m : ℕ) :
    ∑ ω : Fin N → Fin S → O, ((∏ k, shotsProb (w k) (ω k) : ℝ) : ℂ) *
      (fft N (fun k => (means g ω k : ℂ)) m - fft N (fun k => (expected w g k : ℂ)) m) = 0 := by
  have e : ∀ ω : Fin N → Fin S → O, ((∏ k, shotsProb (w k) (ω k) : ℝ) : ℂ) *
      (fft N (fun k => (means g ω k : ℂ)) m - fft N (fun k => (expected w g k : ℂ)) m) =
      (1 / N) * ∑ k : Fin N, (((∏ j, shotsProb (w j) (ω j)) * (QV.avg g (ω k) - ∑ o, w k o * g o) : ℝ) : ℂ) * twiddle N m k := by
    intro ω
    rw [fft_diff, mul_left_comm, Finset.mul_sum]
    congr 1
    refine Finset.sum_congr rfl fun k _ => ?_
    push_cast
    ring
  simp only [e]
  rw [← Finset.mul_sum, Finset.sum_comm]
  have hk : ∀ k : Fin N, ∑ ω : Fin N → Fin S → O, (((∏ j, shotsProb (w j) (ω j)) * (QV.avg g (ω k) - ∑ o, w k o * g o) : ℝ) : ℂ) * twiddle N m k = 0 := by
    intro k
    rw [← Finset.sum_mul, ← Complex.ofReal_sum,
      Expval.marginal_one (fun k u => shotsProb (w k) u) (fun k => shots_total S (hw k)) k fun u => QV.avg g u - ∑ o, w k o * g o, one_centred hS (hw k)]
    simp
  rw [Finset.sum_congr rfl fun k _ => hk k]
  simp

/-- Cauchy and Schwarz: the average of a number is at most the root of the average of its square. -/
theorem mean_le_root {Ω : Type} [Fintype Ω] (P : Ω → ℝ) (hP : ∀ ω, 0 ≤ P ω) (hs : ∑ ω, P ω = 1) (f : Ω → ℝ) :
    ∑ ω, P ω * f ω ≤ Real.sqrt (∑ ω, P ω * f ω ^ 2) := by
  apply Real.le_sqrt_of_sq_le
  have h := Finset.sum_nonneg fun ω (_ : ω ∈ Finset.univ) => mul_nonneg (hP ω) (sq_nonneg (f ω - ∑ ω, P ω * f ω))
  have e : ∑ ω, P ω * (f ω - ∑ ω, P ω * f ω) ^ 2 = (∑ ω, P ω * f ω ^ 2) - (∑ ω, P ω * f ω) ^ 2 := by
    generalize hm : ∑ ω, P ω * f ω = m
    have : ∀ ω, P ω * (f ω - m) ^ 2 = P ω * f ω ^ 2 - 2 * m * (P ω * f ω) + m ^ 2 * P ω := fun ω => by ring
    simp only [this]
    rw [Finset.sum_add_distrib, Finset.sum_sub_distrib, ← Finset.mul_sum, ← Finset.mul_sum, hm, hs]
    ring
  linarith

theorem sqrt_sub_le (a b : ℝ) (ha : 0 ≤ a) (hb : 0 ≤ b) : (Real.sqrt a - Real.sqrt b) ^ 2 ≤ |a - b| := by
  have h1 := Real.sq_sqrt ha
  have h2 := Real.sq_sqrt hb
  have e : a - b = (Real.sqrt a - Real.sqrt b) * (Real.sqrt a + Real.sqrt b) := by nlinarith
  rw [e, abs_mul, ← sq_abs, sq]
  refine mul_le_mul_of_nonneg_left ?_ (abs_nonneg _)
  rw [abs_of_nonneg (add_nonneg (Real.sqrt_nonneg a) (Real.sqrt_nonneg b))]
  rw [abs_le]
  constructor <;> linarith [Real.sqrt_nonneg a, Real.sqrt_nonneg b]

/-! ### Norms -/

/-- The squared norm. -/
noncomputable def nrm (ψ : State (Fin n) ℂ) : ℝ := ∑ x, outcome ψ x

theorem nrm_inner (ψ : State (Fin n) ℂ) : (nrm ψ : ℂ) = Quantum.inner ψ ψ := by
  unfold nrm outcome Quantum.inner
  push_cast
  exact Finset.sum_congr rfl fun x _ => Complex.normSq_eq_conj_mul_self

theorem nrm_app1 (u : Mat2 ℂ) (hu : mmul (adj u) u = mI) (q : Fin n) (ψ : State (Fin n) ℂ) : nrm (app1 u q ψ) = nrm ψ := by
  have : (nrm (app1 u q ψ) : ℂ) = nrm ψ := by
    rw [nrm_inner, nrm_inner, inner_app1, app1_mul, hu, app1_one]
  exact_mod_cast this

theorem unitary_mH : mmul (adj mH) mH = mI := by
  rw [adj_mH]
  funext r c
  cases r <;> cases c <;> simp [mmul, mH, mI, rt_rt] <;> norm_num

theorem unitary_mX : mmul (adj mX) mX = mI := by
  funext r c
  cases r <;> cases c <;> simp [mmul, mX, mI, adj]

theorem conj_phase (l : ℝ) : (starRingEnd ℂ) (exp (l * I)) * exp (l * I) = 1 := by
  rw [← Complex.normSq_eq_conj_mul_self, Complex.normSq_eq_norm_sq, Complex.norm_exp_ofReal_mul_I]
  norm_num

theorem unitary_mU1 (l : ℝ) : mmul (adj (mU1 l)) (mU1 l) = mI := by
  funext r c
  cases r <;> cases c <;> simp [mmul, mU1, mI, adj, conj_phase, -Complex.exp_conj, ← Complex.exp_conj]
  rw [← Complex.exp_add]; simp

theorem unitary_mU2 (p l : ℝ) : mmul (adj (mU2 p l)) (mU2 p l) = mI := by
  have hrr : starRingEnd ℂ rt = rt := by unfold rt; exact Complex.conj_ofReal _
  have hp := conj_phase p
  have hl := conj_phase l
  have hpl : exp (((p : ℂ) + l) * I) = exp (p * I) * exp (l * I) := by rw [add_mul, Complex.exp_add]
  funext r c
  cases r <;> cases c <;> simp only [mmul, mU2, mI, adj, hpl, map_mul, map_neg, hrr] <;>
    generalize exp ((p : ℂ) * I) = P at * <;> generalize exp ((l : ℂ) * I) = L at * <;> generalize hP : (starRingEnd ℂ) P = P' at * <;>
    generalize hL : (starRingEnd ℂ) L = L' at * <;> simp
  · linear_combination (1 + P' * P) * rt_rt + (1 / 2) * hp
  · linear_combination rt * rt * L * hp
  · linear_combination rt * rt * L' * hp
  · linear_combination (L' * L + P' * P * L' * L) * rt_rt + (1 / 2) * L' * L * hp + hl

theorem nrm_gate {g : Instr ℝ} {ψ ψ' : State (Fin n) ℂ} (h : applyGate n ψ g = some ψ') : nrm ψ' = nrm ψ := by
  have h1 : ∀ (u : Mat2 ℂ), mmul (adj u) u = mI → ∀ q, on1 n u q ψ = some ψ' → nrm ψ' = nrm ψ := by
    intro u hu q h
    unfold on1 at h
    split at h
    · cases h; exact nrm_app1 u hu _ ψ
    · cases h
  cases g with
  | h q => exact h1 _ unitary_mH q h
  | x q => exact h1 _ unitary_mX q h
  | u1 l q => exact h1 _ (unitary_mU1 l) q h
  | u2 p l q => exact h1 _ (unitary_mU2 p l) q h
  | barrier => cases h; rfl
  | measure q c => cases h
  | cx c t =>
    simp only [applyGate] at h
    split at h
    · cases h
      rename_i hq
      have hct : (⟨c, hq.1⟩ : Fin n) ≠ ⟨t, hq.2.1⟩ := fun e => hq.2.2 (congrArg Fin.val e)
      have : (nrm (appCX (⟨c, hq.1⟩ : Fin n) ⟨t, hq.2.1⟩ ψ) : ℂ) = nrm ψ := by
        rw [nrm_inner, nrm_inner, inner_appCX _ _ hct]
        congr 1
        funext x
        unfold appCX
        congr 1
        rw [Function.update_of_ne hct, Function.update_self, Function.update_idem, Bool.xor_assoc, Bool.xor_self, Bool.xor_false,
          Function.update_eq_self]
      exact_mod_cast this
    · cases h

theorem nrm_exec (circ : List (Instr ℝ)) (s s' : State (Fin n) ℂ × List (ℕ × ℕ)) (h : circ.foldlM (execStep n) s = some s') : nrm s'.1 = nrm s.1 := by
  induction circ generalizing s with
  | nil => cases h; rfl
  | cons g circ ih =>
    rw [List.foldlM_cons, Option.bind_eq_bind, Option.bind_eq_some_iff] at h
    obtain ⟨t, h1, h2⟩ := h
    rw [ih t h2]
    have gate : (if s.2 = [] then (applyGate n s.1 g).map fun ψ => (ψ, ([] : List (ℕ × ℕ))) else none) = some t → nrm t.1 = nrm s.1 := by
      intro h
      split at h
      · rw [Option.map_eq_some_iff] at h
        obtain ⟨ψ, h3, rfl⟩ := h
        exact nrm_gate h3
      · cases h
    cases g with
    | measure q c => simp only [execStep] at h1; split at h1; · cases h1; rfl
                     · cases h1
    | barrier => cases h1; rfl
    | h q => exact gate h1
    | x q => exact gate h1
    | u1 l q => exact gate h1
    | u2 p l q => exact gate h1
    | cx c t => exact gate h1

theorem nrm_run (l : List (Instr ℝ)) (ψ ψ' : State (Fin n) ℂ) (h : runGates n l ψ = some ψ') : nrm ψ' = nrm ψ := by
  unfold runGates at h
  induction l generalizing ψ with
  | nil => cases h; rfl
  | cons g l ih =>
    rw [List.foldlM_cons, Option.bind_eq_bind, Option.bind_eq_some_iff] at h
    obtain ⟨t, h1, h2⟩ := h
    rw [ih t h2, nrm_gate h1]

end Verif.Ent
