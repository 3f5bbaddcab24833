import Verif.Ent.LemmasNoisy
set_option linter.unusedSimpArgs false
set_option linter.unusedVariables false
/-
C130: what the fidelities and bounds of the GHZ analysis mean on an imperfect device.
-/
namespace Verif.Ent
open Verif Verif.Quantum Complex

variable {n : ℕ}

/-! ### Lemmas on lists -/

theorem mapM_total {α β : Type} {f : α → Option β} {g : α → β} (l : List α) (h : ∀ a ∈ l, f a = some (g a)) :
    l.mapM f = some (l.map g) := by
  induction l with
  | nil => rfl
  | cons a l ih =>
    rw [List.mapM_cons, h a (by simp), ih (fun a ha => h a (by simp [ha]))]
    rfl

theorem list_sum_comm {α β : Type} [Fintype β] (l : List α) (g : α → β → ℂ) :
    (l.map fun a => ∑ x, g a x).sum = ∑ x, (l.map fun a => g a x).sum := by
  induction l with
  | nil => simp
  | cons a l ih => simp only [List.map_cons, List.sum_cons, ih, Finset.sum_add_distrib]

theorem cast_list_sum (l : List ℝ) : ((l.sum : ℝ) : ℂ) = (l.map fun r : ℝ => (r : ℂ)).sum := by
  induction l with
  | nil => simp
  | cons a l ih => simp [ih]

theorem sig_list {α : Type} (l : List α) (F : α → Basis (Fin n) → Basis (Fin n) → ℂ) (d : ℝ) :
    (l.map fun a => sig (F a) d).sum = sig (fun x y => (l.map fun a => F a x y).sum) d := by
  unfold sig
  rw [list_sum_comm]
  refine Finset.sum_congr rfl fun x _ => ?_
  rw [list_sum_comm]
  refine Finset.sum_congr rfl fun y _ => ?_
  rw [List.sum_map_mul_right]

/-! ### Density matrices -/

theorem dens_conj (e : Mixture n) (x y : Basis (Fin n)) : (starRingEnd ℂ) (dens e x y) = dens e y x := by
  unfold dens
  induction e with
  | nil => simp
  | cons ψ e ih =>
    simp only [List.map_cons, List.sum_cons, map_add, map_mul, Complex.conj_conj]
    rw [ih, mul_comm]

theorem dens_diag (e : Mixture n) (x : Basis (Fin n)) : dens e x x = (pop e x : ℂ) := by
  unfold dens pop outcome
  induction e with
  | nil => simp
  | cons ψ e ih =>
    simp only [List.map_cons, List.sum_cons, Complex.ofReal_add]
    rw [ih, Complex.mul_conj]

theorem pop_nonneg (e : Mixture n) (x : Basis (Fin n)) : 0 ≤ pop e x := by
  unfold pop outcome
  induction e with
  | nil => simp
  | cons ψ e ih =>
    simp only [List.map_cons, List.sum_cons]
    exact add_nonneg (normSq_nonneg _) ih

theorem dens_le (e : Mixture n) (x y : Basis (Fin n)) : ‖dens e x y‖ ≤ (pop e x + pop e y) / 2 := by
  unfold dens pop outcome
  induction e with
  | nil => simp
  | cons ψ e ih =>
    simp only [List.map_cons, List.sum_cons]
    refine (norm_add_le _ _).trans ?_
    have h1 : ‖ψ x * (starRingEnd ℂ) (ψ y)‖ ≤ (normSq (ψ x) + normSq (ψ y)) / 2 := by
      rw [norm_mul, RCLike.norm_conj, Complex.normSq_eq_norm_sq, Complex.normSq_eq_norm_sq]
      nlinarith [sq_nonneg (‖ψ x‖ - ‖ψ y‖)]
    linarith

theorem inner_ghzAt (hn : 1 ≤ n) (φ : ℝ) (ψ : State (Fin n) ℂ) :
    Quantum.inner (ghzAt n φ) ψ = rt * (ψ (zeros n) + exp (-(φ * I)) * ψ (ones n)) := by
  have hrr : starRingEnd ℂ rt = rt := by unfold rt; exact Complex.conj_ofReal _
  have he : starRingEnd ℂ (exp (φ * I)) = exp (-(φ * I)) := by rw [← Complex.exp_conj]; simp
  unfold Quantum.inner
  have : ∀ x : Basis (Fin n), (starRingEnd ℂ) (ghzAt n φ x) * ψ x =
      (if x = zeros n then rt * ψ (zeros n) else 0) + (if x = ones n then rt * exp (-(φ * I)) * ψ (ones n) else 0) := by
    intro x
    unfold ghzAt
    by_cases h0 : x = zeros n
    · rw [if_pos h0, if_pos h0, if_neg (by rw [h0]; exact zeros_ne_ones hn), hrr, h0, add_zero]
    · rw [if_neg h0, if_neg h0]
      by_cases h1 : x = ones n
      · rw [if_pos h1, if_pos h1, map_mul, hrr, he, h1, zero_add]
      · rw [if_neg h1, if_neg h1]; simp
  rw [Finset.sum_congr rfl fun x _ => this x, Finset.sum_add_distrib, Finset.sum_ite_eq', Finset.sum_ite_eq']
  simp only [Finset.mem_univ, if_true]
  ring

theorem fidelityAt_eq (hn : 1 ≤ n) (e : Mixture n) (φ : ℝ) :
    fidelityAt e φ = (pop e (zeros n) + pop e (ones n)) / 2 + (exp (φ * I) * dens e (zeros n) (ones n)).re := by
  unfold fidelityAt pop dens outcome
  induction e with
  | nil => simp
  | cons ψ e ih =>
    simp only [List.map_cons, List.sum_cons, mul_add, Complex.add_re]
    rw [ih]
    have h : normSq (Quantum.inner (ghzAt n φ) ψ) = (normSq (ψ (zeros n)) + normSq (ψ (ones n))) / 2 +
        (exp (φ * I) * (ψ (zeros n) * (starRingEnd ℂ) (ψ (ones n)))).re := by
      have hr : normSq rt = 1 / 2 := by
        have : (normSq rt : ℂ) = 1 / 2 := by
          rw [Complex.normSq_eq_conj_mul_self]
          rw [show starRingEnd ℂ rt = rt by unfold rt; exact Complex.conj_ofReal _, rt_rt]
        have h2 : (normSq rt : ℂ) = ((1 / 2 : ℝ) : ℂ) := by rw [this]; push_cast; rfl
        exact_mod_cast h2
      have he : normSq (exp (-(φ * I))) = 1 := by
        rw [Complex.normSq_eq_norm_sq, show (-(φ * I) : ℂ) = ((-φ : ℝ) : ℂ) * I by push_cast; ring, Complex.norm_exp_ofReal_mul_I]
        norm_num
      rw [inner_ghzAt hn, map_mul, hr, Complex.normSq_add, map_mul normSq, he, one_mul]
      have hc : (starRingEnd ℂ) (exp (-(φ * I)) * ψ (ones n)) = exp (φ * I) * (starRingEnd ℂ) (ψ (ones n)) := by
        rw [map_mul, ← Complex.exp_conj]; simp
      rw [hc, show ψ (zeros n) * (exp (φ * I) * (starRingEnd ℂ) (ψ (ones n))) = exp (φ * I) * (ψ (zeros n) * (starRingEnd ℂ) (ψ (ones n))) by ring]
      ring
    rw [h]
    ring

theorem best_fidelity (hn : 1 ≤ n) (e : Mixture n) :
    BestFidelity e ((pop e (zeros n) + pop e (ones n)) / 2 + ‖dens e (zeros n) (ones n)‖) := by
  constructor
  · refine ⟨-Complex.arg (dens e (zeros n) (ones n)), ?_⟩
    rw [fidelityAt_eq hn]
    congr 1
    set z := dens e (zeros n) (ones n)
    have h := Complex.norm_mul_exp_arg_mul_I z
    have : exp (((-Complex.arg z : ℝ) : ℂ) * I) * z = (‖z‖ : ℂ) := by
      conv_lhs => rw [← h]
      rw [mul_left_comm, ← Complex.exp_add]
      push_cast
      simp
    rw [this, Complex.ofReal_re]
  · rintro f ⟨φ, rfl⟩
    rw [fidelityAt_eq hn]
    have := Complex.re_le_norm (exp (φ * I) * dens e (zeros n) (ones n))
    rw [norm_mul, Complex.norm_exp_ofReal_mul_I, one_mul] at this
    linarith

theorem execFrom_meas (hn : 1 ≤ n) (l : List (Instr ℝ)) (ψ φ : State (Fin n) ℂ) (h : runGates n l ψ = some φ) :
    execFrom n (l ++ measurementCirc n true) ψ = some (φ, measured n true) := by
  unfold execFrom
  rw [List.foldlM_append, exec_gates l _ _ h]
  simp only [Option.bind_eq_bind, Option.bind_some, measurementCirc, List.foldlM_cons, execStep, if_true]
  have := exec_measures (n := n) (List.range n) (by intro q hq; simpa using hq) (φ, [])
  simpa [measured] using this

/-! ### Parity oscillations -/

/-- The state after the rotation. -/
noncomputable def rotated (d : ℝ) (ψ : State (Fin n) ℂ) : State (Fin n) ℂ := fun x => ∑ y, (∏ q, mU2 d (-d) (x q) (y q)) * ψ y

theorem po_rest (hn : 1 ≤ n) (d : ℝ) (ψ : State (Fin n) ℂ) :
    execFrom n ([.barrier] ++ (List.range n).map (fun i => .u2 d (-d) i) ++ [.barrier] ++ measurementCirc n true) ψ =
      some (rotated d ψ, measured n true) := by
  apply execFrom_meas hn
  have hu := run_everywhere (n := n) (fun i => .u2 d (-d) i) (mU2 d (-d)) (fun i ψ => rfl) ψ
  simp only [runGates_append, run_mid [.barrier] (by simp), Option.bind_some, hu]
  rfl

theorem po_shows (hn : 1 ≤ n) (prep : List (Instr ℝ)) (d : ℝ) (e : Mixture n) :
    ∃ y, PoShows e prep (poWith n prep d) y := by
  refine ⟨_, _, _, ?_, mapM_total e fun ψ _ => po_rest hn d ψ, ?_, rfl⟩
  · unfold poWith; simp only [List.append_assoc]
  · intro o ho
    obtain ⟨ψ, -, rfl⟩ := List.mem_map.1 ho
    rfl

theorem po_value (hn : 1 ≤ n) (prep : List (Instr ℝ)) (d : ℝ) (e : Mixture n) (y : ℝ) (h : PoShows e prep (poWith n prep d) y) :
    (y : ℂ) = sig (fun z x => if z = flip x then (-1) ^ n * dens e x z else 0) d := by
  obtain ⟨rest, out, h1, h2, -, rfl⟩ := h
  have hr : rest = [.barrier] ++ (List.range n).map (fun i => .u2 d (-d) i) ++ [.barrier] ++ measurementCirc n true := by
    unfold poWith at h1
    simp only [List.append_assoc] at h1 ⊢
    exact (List.append_cancel_left h1).symm
  subst hr
  rw [mapM_total e fun ψ _ => po_rest hn d ψ] at h2
  cases h2
  rw [cast_list_sum, List.map_map, List.map_map]
  have : (((fun r : ℝ => (r : ℂ)) ∘ fun o : State (Fin n) ℂ × List (ℕ × ℕ) => parity o.1) ∘ fun ψ => (rotated d ψ, measured n true)) =
      fun ψ => sig (fun z x => if z = flip x then (-1) ^ n * (ψ x * (starRingEnd ℂ) (ψ z)) else 0) d := by
    funext ψ
    exact parity_u2 d ψ
  rw [this, sig_list]
  congr 1
  funext z x
  by_cases hz : z = flip x
  · simp only [if_pos hz]
    rw [List.sum_map_mul_left]
    rfl
  · simp only [if_neg hz]
    simp

theorem po_fidelity (hn : 1 ≤ n) (N : ℕ) (hN : 2 * n < N) (prep : List (Instr ℝ)) (e : Mixture n) (y : ℕ → ℝ)
    (hy : ∀ k, PoShows e prep (poWith n prep (phase N k)) (y k)) :
    ‖fft N (fun k => (y k : ℂ)) n‖ = ‖dens e (zeros n) (ones n)‖ := by
  have : (fun k => (y k : ℂ)) = fun k => sig (fun z x => if z = flip x then (-1) ^ n * dens e x z else 0) (phase N k) := by
    funext k; exact po_value hn prep _ e _ (hy k)
  rw [this, fft_sig N hN _ n le_rfl, coef_top, if_pos (flip_zeros (n := n)).symm, norm_mul, norm_pow]
  simp

theorem po_info (hn : 1 ≤ n) (N : ℕ) (hN : 2 * n < N) (prep : List (Instr ℝ)) (e : Mixture n) (y ym : ℕ → ℝ) (p : Pops) (F Fm : ℝ)
    (hF : infoPo N n (fun k => y k) (fun k => ym k) p = some (F, Fm)) :
    ((∀ k, PoShows e prep (poWith n prep (phase N k)) (y k)) → p.P0 = pop e (zeros n) → p.P1 = pop e (ones n) → BestFidelity e F) ∧
    ((∀ k, PoShows e prep (poWith n prep (phase N k)) (ym k)) → p.P0m = pop e (zeros n) → p.P1m = pop e (ones n) → BestFidelity e Fm) := by
  unfold infoPo at hF
  rw [if_pos (by omega)] at hF
  simp only [Option.some.injEq, Prod.mk.injEq] at hF
  obtain ⟨rfl, rfl⟩ := hF
  have hb := best_fidelity hn e
  constructor
  · intro hy h0 h1
    rw [po_fidelity hn N hN prep e y hy, h0, h1]
    convert hb using 1
    ring
  · intro hy h0 h1
    rw [po_fidelity hn N hN prep e ym hy, h0, h1]
    convert hb using 1
    ring

/-- **C130** (parity oscillations, linear): whatever state the imperfect preparation leaves, the circuits run, and the fidelity
reported from their parities and the populations of 0…0 and 1…1 is the fidelity of that state with the best GHZ state. -/
theorem C130_po_linear (n : ℕ) (hn : 1 ≤ n) (N : ℕ) (hN : 2 * n < N) (e : Mixture n) :
    (∀ δ, ∃ y, PoShows e (ghzSimple n false true) (ghzPo n δ) y) ∧
    ∀ (y ym : ℕ → ℝ) (p : Pops) (F Fm : ℝ), infoPo N n (fun k => y k) (fun k => ym k) p = some (F, Fm) →
      ((∀ k, PoShows e (ghzSimple n false true) (ghzPo n (phase N k)) (y k)) →
        p.P0 = pop e (zeros n) → p.P1 = pop e (ones n) → BestFidelity e F) ∧
      ((∀ k, PoShows e (ghzSimple n false true) (ghzPo n (phase N k)) (ym k)) →
        p.P0m = pop e (zeros n) → p.P1m = pop e (ones n) → BestFidelity e Fm) :=
  ⟨fun δ => po_shows hn _ δ e, fun y ym p F Fm h => po_info hn N hN _ e y ym p F Fm h⟩

/-- **C130** (parity oscillations, tiers): the same for the circuits along the tiers of a device. -/
theorem C130_po_layout (cmap : List (ℕ × ℕ)) (root : ℕ) (tier : Dict ℕ (List (ℕ × ℕ))) (h : Schedule cmap root tier) (n : ℕ)
    (hn : 2 ≤ n) (hmax : n ≤ (root :: targets tier).length) (N : ℕ) (hN : 2 * n < N) (e : Mixture n) :
    ∃ prep layout, ghzLayout tier n true = some (prep, layout) ∧ ∃ circ : ℝ → List (Instr ℝ),
      (∀ δ, layoutPo tier n δ = some (circ δ, layout)) ∧ (∀ δ, ∃ y, PoShows e prep (circ δ) y) ∧
      ∀ (y ym : ℕ → ℝ) (p : Pops) (F Fm : ℝ), infoPo N n (fun k => y k) (fun k => ym k) p = some (F, Fm) →
        ((∀ k, PoShows e prep (circ (phase N k)) (y k)) → p.P0 = pop e (zeros n) → p.P1 = pop e (ones n) → BestFidelity e F) ∧
        ((∀ k, PoShows e prep (circ (phase N k)) (ym k)) → p.P0m = pop e (zeros n) → p.P1m = pop e (ones n) → BestFidelity e Fm) := by
  obtain ⟨prep, layout, h1, h2⟩ := prep_layout h n hn hmax true
  refine ⟨prep, layout, h1, fun δ => poWith n prep δ, ?_, fun δ => po_shows (by omega) _ δ e,
    fun y ym p F Fm h => po_info (by omega) N hN _ e y ym p F Fm h⟩
  intro δ
  unfold layoutPo
  simp only [h1, Option.bind_eq_bind, Option.bind_some]

/-! ### Multiple quantum coherences -/

/-- The middle part of the circuit. -/
def mqcMid (n : ℕ) (mid : List (Instr ℝ)) (d : ℝ) : List (Instr ℝ) :=
  [.barrier] ++ (List.range n).map (fun i => .u1 d i) ++ mid ++ (List.range n).map (fun i => .x i) ++ [.barrier]

/-- The state after the middle part. -/
noncomputable def turned (d : ℝ) (ψ : State (Fin n) ℂ) : State (Fin n) ℂ := fun x => exp (wt (flip x) * d * I) * ψ (flip x)

theorem mqc_mid (mid : List (Instr ℝ)) (hmid : ∀ g ∈ mid, g = .barrier) (d : ℝ) (ψ : State (Fin n) ℂ) :
    runGates n (mqcMid n mid d) ψ = some (turned d ψ) := by
  unfold mqcMid
  simp only [runGates_append, run_mid [.barrier] (by simp), Option.bind_some, run_u1_any, run_mid mid hmid, run_x_any]
  rfl

/-- What the Kraus operator `B` and reading 0…0 after the inverse ask of a state. -/
noncomputable def bra (B : Kraus n) (x : Basis (Fin n)) : ℂ := ∑ z, ghz n z * B z x

theorem mqc_inv (hn : 1 ≤ n) {prep : List (Instr ℝ)} (h : IsPrep n prep) (φ : State (Fin n) ℂ) :
    ∃ χ, execFrom n (prep.reverse ++ measurementCirc n true) φ = some (χ, measured n true) ∧ χ (zeros n) = ∑ x, ghz n x * φ x := by
  obtain ⟨χ, h1, h2⟩ := prep_amp hn h φ
  exact ⟨χ, execFrom_meas hn _ _ _ h1, h2⟩

theorem mqc_amp (B : Kraus n) (d : ℝ) (ψ : State (Fin n) ℂ) :
    (∑ x, ghz n x * B.app (turned d ψ) x) = ∑ x, bra B (flip x) * (exp (wt x * d * I) * ψ x) := by
  unfold Kraus.app bra turned
  simp only [Finset.mul_sum, Finset.sum_mul]
  rw [Finset.sum_comm]
  let f : Function.Involutive (flip (n := n)) := flip_flip
  rw [← Equiv.sum_comp f.toPerm]
  refine Finset.sum_congr rfl fun x _ => ?_
  refine Finset.sum_congr rfl fun z _ => ?_
  show ghz n z * (B z (flip x) * (exp (wt (flip (flip x)) * d * I) * ψ (flip (flip x)))) = _
  rw [flip_flip]
  ring

theorem mqc_prob (B : Kraus n) (d : ℝ) (ψ : State (Fin n) ℂ) :
    ((normSq (∑ x, ghz n x * B.app (turned d ψ) x) : ℝ) : ℂ) =
      sig (fun x y => ((starRingEnd ℂ) (bra B (flip y)) * bra B (flip x)) * (ψ x * (starRingEnd ℂ) (ψ y))) d := by
  rw [mqc_amp, Complex.normSq_eq_conj_mul_self, map_sum, Finset.sum_mul_sum, Finset.sum_comm]
  unfold sig
  refine Finset.sum_congr rfl fun x _ => ?_
  refine Finset.sum_congr rfl fun y _ => ?_
  have he : exp (((wt x : ℂ) - wt y) * d * I) = exp (wt x * d * I) * (starRingEnd ℂ) (exp (wt y * d * I)) := by
    rw [← Complex.exp_conj, ← Complex.exp_add]
    congr 1
    simp
    ring
  rw [he]
  simp only [map_mul]
  ring

theorem mqc_total {prep : List (Instr ℝ)} (hn : 1 ≤ n) (h : IsPrep n prep) :
    ∃ inv : State (Fin n) ℂ → State (Fin n) ℂ, (∀ φ, execFrom n (prep.reverse ++ measurementCirc n true) φ = some (inv φ, measured n true)) ∧
      ∀ φ, inv φ (zeros n) = ∑ x, ghz n x * φ x := by
  choose f hf using fun φ => mqc_inv hn h φ
  exact ⟨f, fun φ => (hf φ).1, fun φ => (hf φ).2⟩

theorem mqcWith_eq {prep : List (Instr ℝ)} (h : IsPrep n prep) (mid : List (Instr ℝ)) (pi d : ℝ) :
    mqcWith pi n prep mid d true = some (prep ++ mqcMid n mid d ++ (prep.reverse ++ measurementCirc n true)) := by
  unfold mqcWith mqcMid
  rw [prep_inverse h pi]
  simp only [Option.bind_eq_bind, Option.bind_some, List.append_assoc]

theorem mqc_shows (hn : 1 ≤ n) {prep : List (Instr ℝ)} (h : IsPrep n prep) (mid : List (Instr ℝ)) (hmid : ∀ g ∈ mid, g = .barrier) (d : ℝ)
    (e : Mixture n) (Bs : List (Kraus n)) :
    ∃ y, MqcShows e Bs prep prep.reverse (prep ++ mqcMid n mid d ++ (prep.reverse ++ measurementCirc n true)) y := by
  obtain ⟨inv, h1, -⟩ := mqc_total hn h
  refine ⟨_, mqcMid n mid d, _, _, rfl, mapM_total e fun ψ _ => mqc_mid mid hmid d ψ, mapM_total _ fun φ _ => h1 φ, ?_, rfl⟩
  intro o ho
  obtain ⟨ψ, -, rfl⟩ := List.mem_map.1 ho
  rfl

theorem sum_flatMap_map {α β : Type} (l : List α) (m : List β) (g : α → β → ℂ) :
    ((l.flatMap fun a => m.map fun b => g a b).sum) = (l.map fun a => (m.map fun b => g a b).sum).sum := by
  induction l with
  | nil => rfl
  | cons a l ih => rw [List.flatMap_cons, List.sum_append, ih]; rfl

theorem mqc_value (hn : 1 ≤ n) {prep : List (Instr ℝ)} (h : IsPrep n prep) (mid : List (Instr ℝ)) (hmid : ∀ g ∈ mid, g = .barrier) (d : ℝ)
    (e : Mixture n) (Bs : List (Kraus n)) (y : ℝ)
    (hy : MqcShows e Bs prep prep.reverse (prep ++ mqcMid n mid d ++ (prep.reverse ++ measurementCirc n true)) y) :
    (y : ℂ) = sig (fun x y => effect Bs (flip y) (flip x) * dens e x y) d := by
  obtain ⟨inv, h1, h2⟩ := mqc_total hn h
  obtain ⟨mid', es, out, g1, g2, g3, -, rfl⟩ := hy
  have hm : mid' = mqcMid n mid d := by
    simp only [List.append_assoc] at g1
    have := List.append_cancel_left g1
    rw [← List.append_assoc, ← List.append_assoc] at this
    simp only [List.append_assoc] at this
    exact (List.append_cancel_right this).symm
  subst hm
  rw [mapM_total e fun ψ _ => mqc_mid mid hmid d ψ] at g2
  cases g2
  rw [mapM_total _ fun φ _ => h1 φ] at g3
  cases g3
  rw [cast_list_sum]
  simp only [List.map_flatMap, List.flatMap_map, List.map_map, Function.comp_def, outcome, h2, mqc_prob]
  rw [sum_flatMap_map]
  simp only [sig_list]
  congr 1
  funext x y
  have : (fun ψ : State (Fin n) ℂ => (Bs.map fun B => (starRingEnd ℂ) (bra B (flip y)) * bra B (flip x) * (ψ x * (starRingEnd ℂ) (ψ y))).sum) =
      fun ψ => effect Bs (flip y) (flip x) * (ψ x * (starRingEnd ℂ) (ψ y)) := by
    funext ψ
    rw [List.sum_map_mul_right]
    rfl
  rw [this, List.sum_map_mul_left]
  rfl

/-- The coherence intensities of a mirrored experiment. -/
theorem mqc_mirror (hn : 1 ≤ n) (N : ℕ) (hN : 2 * n < N) {prep : List (Instr ℝ)} (h : IsPrep n prep) (mid : List (Instr ℝ))
    (hmid : ∀ g ∈ mid, g = .barrier) (e : Mixture n) (Bs : List (Kraus n)) (hm : Mirrors e Bs) (y : ℕ → ℝ)
    (hy : ∀ k, MqcShows e Bs prep prep.reverse (prep ++ mqcMid n mid (phase N k) ++ (prep.reverse ++ measurementCirc n true)) (y k)) :
    Real.sqrt ‖fft N (fun k => (y k : ℂ)) n‖ = ‖dens e (zeros n) (ones n)‖ ∧
      (pop e (zeros n) + pop e (ones n)) / 2 ≤ Real.sqrt (‖fft N (fun k => (y k : ℂ)) 0‖ / 2) := by
  have hs : (fun k => (y k : ℂ)) = fun k => sig (fun x y => ((normSq (dens e x y) : ℝ) : ℂ)) (phase N k) := by
    funext k
    rw [mqc_value hn h mid hmid _ e Bs _ (hy k)]
    congr 1
    funext x z
    rw [hm z x, ← dens_conj e x z, Complex.normSq_eq_conj_mul_self]
  constructor
  · rw [hs, fft_sig N hN _ n le_rfl, coef_top, Complex.norm_real, Real.norm_of_nonneg (normSq_nonneg _), ← dens_conj,
      Complex.normSq_conj, Complex.normSq_eq_norm_sq, Real.sqrt_sq (norm_nonneg _)]
  · rw [hs, fft_sig N hN _ 0 (by omega)]
    have hc : coef (fun x y => ((normSq (dens e x y) : ℝ) : ℂ)) ((0 : ℕ) : ℤ) =
        ((∑ x, ∑ y, (if (wt x : ℤ) - wt y = ((0 : ℕ) : ℤ) then normSq (dens e x y) else 0) : ℝ) : ℂ) := by
      unfold coef
      push_cast
      refine Finset.sum_congr rfl fun x _ => Finset.sum_congr rfl fun y _ => ?_
      split <;> simp
    rw [hc, Complex.norm_real]
    have hnn : ∀ x : Basis (Fin n), ∀ y, 0 ≤ (if (wt x : ℤ) - wt y = ((0 : ℕ) : ℤ) then normSq (dens e x y) else 0) := by
      intro x y; split
      · exact normSq_nonneg _
      · exact le_rfl
    have hge : pop e (zeros n) ^ 2 + pop e (ones n) ^ 2 ≤
        ∑ x, ∑ y, (if (wt x : ℤ) - wt y = ((0 : ℕ) : ℤ) then normSq (dens e x y) else 0) := by
      have hd : ∀ x : Basis (Fin n), pop e x ^ 2 ≤ ∑ y, (if (wt x : ℤ) - wt y = ((0 : ℕ) : ℤ) then normSq (dens e x y) else 0) := by
        intro x
        refine le_trans ?_ (Finset.single_le_sum (fun y _ => hnn x y) (Finset.mem_univ x))
        rw [if_pos (by simp), dens_diag, Complex.normSq_ofReal, sq]
      have := Finset.add_le_sum (f := fun x => ∑ y, (if (wt x : ℤ) - wt y = ((0 : ℕ) : ℤ) then normSq (dens e x y) else 0))
        (fun x _ => Finset.sum_nonneg fun y _ => hnn x y) (Finset.mem_univ (zeros n)) (Finset.mem_univ (ones n)) (zeros_ne_ones hn)
      linarith [hd (zeros n), hd (ones n)]
    rw [Real.norm_of_nonneg (Finset.sum_nonneg fun x _ => Finset.sum_nonneg fun y _ => hnn x y)]
    apply Real.le_sqrt_of_sq_le
    revert hge
    generalize (∑ x : Basis (Fin n), ∑ y : Basis (Fin n), (if (wt x : ℤ) - wt y = ((0 : ℕ) : ℤ) then normSq (dens e x y) else 0)) = S
    intro hge
    nlinarith [sq_nonneg (pop e (zeros n) - pop e (ones n))]

/-- What is said of the fidelity `F` and the bounds `LB` and `UB` of a mixture. -/
def MqcRight (e : Mixture n) (F LB UB : ℝ) : Prop := BestFidelity e F ∧ LB ≤ F ∧ F ≤ UB

theorem mqc_info (hn : 1 ≤ n) (N : ℕ) (hN : 2 * n < N) {prep : List (Instr ℝ)} (h : IsPrep n prep) (mid : List (Instr ℝ))
    (hmid : ∀ g ∈ mid, g = .barrier) (e : Mixture n) (Bs : List (Kraus n)) (hm : Mirrors e Bs) (y ym : ℕ → ℝ) (p : Pops) (info : MqcInfo)
    (hF : infoMqc N n (fun k => y k) (fun k => ym k) p = some info) (h0 : p.P0m = pop e (zeros n)) (h1 : p.P1m = pop e (ones n)) :
    ((∀ k, MqcShows e Bs prep prep.reverse (prep ++ mqcMid n mid (phase N k) ++ (prep.reverse ++ measurementCirc n true)) (y k)) →
      MqcRight e info.F info.LB info.UB) ∧
    ((∀ k, MqcShows e Bs prep prep.reverse (prep ++ mqcMid n mid (phase N k) ++ (prep.reverse ++ measurementCirc n true)) (ym k)) →
      MqcRight e info.Fm info.LBm info.UBm) := by
  unfold infoMqc at hF
  rw [if_pos (by omega)] at hF
  simp only [Option.some.injEq] at hF
  subst hF
  have hb := best_fidelity hn e
  have hd := dens_le e (zeros n) (ones n)
  constructor
  · intro hy
    obtain ⟨g1, g2⟩ := mqc_mirror hn N hN h mid hmid e Bs hm y hy
    refine ⟨?_, ?_, ?_⟩
    · simp only [g1, h0, h1]
      convert hb using 1
      ring
    · simp only [g1, h0, h1]
      linarith
    · simp only [g1, h0, h1]
      linarith
  · intro hy
    obtain ⟨g1, g2⟩ := mqc_mirror hn N hN h mid hmid e Bs hm ym hy
    refine ⟨?_, ?_, ?_⟩
    · simp only [g1, h0, h1]
      convert hb using 1
      ring
    · simp only [g1, h0, h1]
      linarith
    · simp only [g1, h0, h1]
      linarith

/-- **C130** (coherences, linear): whatever the noise, the circuits run; and when the inverse is as imperfect as the preparation, the
fidelity reported is that of the prepared state with the best GHZ state, and it lies between the two bounds reported. -/
theorem C130_mqc_linear (n : ℕ) (hn : 1 ≤ n) (N : ℕ) (hN : 2 * n < N) (e : Mixture n) (Bs : List (Kraus n)) :
    ∃ (inv : List (Instr ℝ)) (circ : ℝ → List (Instr ℝ)), inverse Real.pi (ghzSimple n false true) = some inv ∧
      (∀ δ, ghzMqc Real.pi n δ true = some (circ δ)) ∧ (∀ δ, ∃ y, MqcShows e Bs (ghzSimple n false true) inv (circ δ) y) ∧
      (Mirrors e Bs → ∀ (y ym : ℕ → ℝ) (p : Pops) (info : MqcInfo), infoMqc N n (fun k => y k) (fun k => ym k) p = some info →
        p.P0m = pop e (zeros n) → p.P1m = pop e (ones n) →
        ((∀ k, MqcShows e Bs (ghzSimple n false true) inv (circ (phase N k)) (y k)) → MqcRight e info.F info.LB info.UB) ∧
        ((∀ k, MqcShows e Bs (ghzSimple n false true) inv (circ (phase N k)) (ym k)) → MqcRight e info.Fm info.LBm info.UBm)) :=
  ⟨_, fun δ => _, prep_inverse (prep_line n hn) _, fun δ => mqcWith_eq (prep_line n hn) [] _ δ,
    fun δ => mqc_shows hn (prep_line n hn) [] (by simp) δ e Bs,
    fun hm y ym p info h h0 h1 => mqc_info hn N hN (prep_line n hn) [] (by simp) e Bs hm y ym p info h h0 h1⟩

/-- **C130** (coherences, tiers): the same for the circuits along the tiers of a device. -/
theorem C130_mqc_layout (cmap : List (ℕ × ℕ)) (root : ℕ) (tier : Dict ℕ (List (ℕ × ℕ))) (h : Schedule cmap root tier) (n : ℕ)
    (hn : 2 ≤ n) (hmax : n ≤ (root :: targets tier).length) (N : ℕ) (hN : 2 * n < N) (e : Mixture n) (Bs : List (Kraus n)) :
    ∃ (prep inv : List (Instr ℝ)) (layout : Dict ℕ ℕ) (circ : ℝ → List (Instr ℝ)), ghzLayout tier n true = some (prep, layout) ∧
      inverse Real.pi prep = some inv ∧
      (∀ δ, layoutMqc Real.pi tier n δ true = some (circ δ, layout)) ∧ (∀ δ, ∃ y, MqcShows e Bs prep inv (circ δ) y) ∧
      (Mirrors e Bs → ∀ (y ym : ℕ → ℝ) (p : Pops) (info : MqcInfo), infoMqc N n (fun k => y k) (fun k => ym k) p = some info →
        p.P0m = pop e (zeros n) → p.P1m = pop e (ones n) →
        ((∀ k, MqcShows e Bs prep inv (circ (phase N k)) (y k)) → MqcRight e info.F info.LB info.UB) ∧
        ((∀ k, MqcShows e Bs prep inv (circ (phase N k)) (ym k)) → MqcRight e info.Fm info.LBm info.UBm)) := by
  obtain ⟨prep, layout, h1, h2⟩ := prep_layout h n hn hmax true
  refine ⟨prep, _, layout, fun δ => _, h1, prep_inverse h2 _, ?_, fun δ => mqc_shows (by omega) h2 [.barrier] (by simp) δ e Bs,
    fun hm y ym p info h h0 h1 => mqc_info (by omega) N hN h2 [.barrier] (by simp) e Bs hm y ym p info h h0 h1⟩
  intro δ
  unfold layoutMqc
  simp only [h1, mqcWith_eq h2 [.barrier] Real.pi δ, Option.bind_eq_bind, Option.bind_some]

/-! ### Pauli noise -/

theorem ghz_flip (x : Basis (Fin n)) : ghz n (flip x) = ghz n x := by
  unfold ghz flip
  simp only [Bool.not_eq_false', Bool.not_eq_true']
  exact if_congr or_comm rfl rfl

theorem flip_eq (x : Basis (Fin n)) : flip x = bxor x (ones n) := by
  funext q; simp [flip, bxor, ones]

theorem sgn_conj (a x : Basis (Fin n)) : (starRingEnd ℂ) (sgn a x) = sgn a x := by
  rcases sgn_pm (K := ℂ) a x with h | h <;> rw [h] <;> simp

theorem pauliKraus_app (w : ℝ) (a b : Basis (Fin n)) (ψ : State (Fin n) ℂ) (x : Basis (Fin n)) :
    (pauliKraus w a b).app ψ x = Real.sqrt w * sgn a x * ψ (bxor x b) := by
  unfold Kraus.app pauliKraus
  simp only [ite_mul, zero_mul, Finset.sum_ite_eq', Finset.mem_univ, if_true]

theorem bxor_bxor (x b : Basis (Fin n)) : bxor (bxor x b) b = x := by
  rw [bxor_assoc, bxor_self, bxor_zero]

theorem pauli_bra (w : ℝ) (a b x : Basis (Fin n)) :
    bra (pauliKraus w a b) x = ghz n (bxor x b) * (Real.sqrt w * sgn a (bxor x b)) := by
  unfold bra pauliKraus
  rw [Finset.sum_eq_single (bxor x b)]
  · rw [if_pos (bxor_bxor x b).symm]
  · intro z _ hz
    rw [if_neg, mul_zero]
    intro h
    apply hz
    rw [h, bxor_bxor]
  · intro h; exact absurd (Finset.mem_univ _) h

/-- **C130** (Pauli noise): when the same mixture of Pauli errors strikes after the preparation and before the inverse, the inverse
is as imperfect as the preparation. -/
theorem C130_pauli (n : ℕ) (L : List (ℝ × Basis (Fin n) × Basis (Fin n))) :
    Mirrors (L.map fun p => (pauliKraus p.1 p.2.1 p.2.2).app (ghz n)) (L.map fun p => pauliKraus p.1 p.2.1 p.2.2) := by
  intro x y
  unfold effect dens
  rw [List.map_map, List.map_map]
  congr 1
  refine List.map_congr_left fun p _ => ?_
  obtain ⟨w, a, b⟩ := p
  show (starRingEnd ℂ) (bra (pauliKraus w a b) (flip x)) * bra (pauliKraus w a b) (flip y) =
    (pauliKraus w a b).app (ghz n) x * (starRingEnd ℂ) ((pauliKraus w a b).app (ghz n) y)
  have hb : ∀ x : Basis (Fin n), bxor (flip x) b = flip (bxor x b) := by
    intro x; rw [flip_eq, flip_eq, bxor_assoc, bxor_comm (ones n) b, bxor_assoc]
  have key : ∀ x : Basis (Fin n), bra (pauliKraus w a b) (flip x) = (sgn a (ones n) * sgn a b) * (pauliKraus w a b).app (ghz n) x := by
    intro x
    rw [pauli_bra, pauliKraus_app, hb, ghz_flip, flip_eq, sgn_bxor_right, sgn_bxor_right]
    ring
  have hconj : ∀ x : Basis (Fin n), (starRingEnd ℂ) ((pauliKraus w a b).app (ghz n) x) = (pauliKraus w a b).app (ghz n) x := by
    intro x
    rw [pauliKraus_app, map_mul, map_mul, Complex.conj_ofReal, sgn_conj, ghz_real]
  rw [key, key, map_mul, map_mul, sgn_conj, sgn_conj, hconj, hconj]
  have h1 := sgn_sq (K := ℂ) a (ones n)
  have h2 := sgn_sq (K := ℂ) a b
  linear_combination ((pauliKraus w a b).app (ghz n) x * (pauliKraus w a b).app (ghz n) y * (sgn a b * sgn a b)) * h1 +
    ((pauliKraus w a b).app (ghz n) x * (pauliKraus w a b).app (ghz n) y) * h2

/-! ### When only the preparation is imperfect -/

theorem ghz_eq (x : Basis (Fin n)) : ghz n x = if x = zeros n ∨ x = ones n then rt else 0 := by
  unfold ghz
  refine if_congr ?_ rfl rfl
  rw [funext_iff, funext_iff]
  rfl

/-- No noise. -/
def noNoise (n : ℕ) : Kraus n := fun x y => if x = y then 1 else 0

theorem effect_noNoise (x y : Basis (Fin n)) : effect [noNoise n] x y = ghz n x * ghz n y := by
  unfold effect noNoise
  simp [ghz_real]

theorem normSq_rt : normSq rt = 1 / 2 := by
  have : (normSq rt : ℂ) = 1 / 2 := by
    rw [Complex.normSq_eq_conj_mul_self]
    rw [show starRingEnd ℂ rt = rt by unfold rt; exact Complex.conj_ofReal _, rt_rt]
  have h2 : (normSq rt : ℂ) = ((1 / 2 : ℝ) : ℂ) := by rw [this]; push_cast; rfl
  exact_mod_cast h2

/-- The GHZ state with probability `p`, the basis state 10…0 otherwise. -/
noncomputable def leaky (n : ℕ) (p : ℝ) : Mixture n :=
  [fun x => Real.sqrt p * ghz n x, fun x => Real.sqrt (1 - p) * ket (onlyZero n) x]

theorem onlyZero_ne_zeros (hn : 2 ≤ n) : zeros n ≠ onlyZero n := fun h => by
  have := congrFun h ⟨0, by omega⟩
  simp [zeros, onlyZero] at this

theorem onlyZero_ne_ones (hn : 2 ≤ n) : ones n ≠ onlyZero n := fun h => by
  have := congrFun h ⟨1, by omega⟩
  simp [ones, onlyZero] at this

theorem leaky_dens (hn : 2 ≤ n) (p : ℝ) (hp : 0 ≤ p) (x y : Basis (Fin n)) (hx : x = zeros n ∨ x = ones n) (hy : y = zeros n ∨ y = ones n) :
    dens (leaky n p) x y = ((p / 2 : ℝ) : ℂ) := by
  have hrr : starRingEnd ℂ rt = rt := by unfold rt; exact Complex.conj_ofReal _
  have hk : ∀ x, x = zeros n ∨ x = ones n → ket (K := ℂ) (onlyZero n) x = 0 := by
    rintro x (rfl | rfl)
    · exact if_neg (onlyZero_ne_zeros hn)
    · exact if_neg (onlyZero_ne_ones hn)
  unfold dens leaky
  simp only [List.map_cons, List.map_nil, List.sum_cons, List.sum_nil, hk x hx, hk y hy, ghz_eq, if_pos hx, if_pos hy]
  have hs : (Real.sqrt p : ℂ) * Real.sqrt p = (p : ℂ) := by
    rw [← Complex.ofReal_mul, Real.mul_self_sqrt hp]
  rw [map_mul, hrr, Complex.conj_ofReal]
  push_cast
  linear_combination (rt * rt) * hs + (p : ℂ) * rt_rt

theorem leaky_pop (hn : 2 ≤ n) (p : ℝ) (hp : 0 ≤ p) (x : Basis (Fin n)) (hx : x = zeros n ∨ x = ones n) : pop (leaky n p) x = p / 2 := by
  have := dens_diag (leaky n p) x
  rw [leaky_dens hn p hp x x hx hx] at this
  exact_mod_cast this.symm

theorem leaky_best (hn : 2 ≤ n) (p : ℝ) (hp : 0 ≤ p) : BestFidelity (leaky n p) p := by
  have := best_fidelity (by omega) (leaky n p)
  rw [leaky_pop hn p hp _ (Or.inl rfl), leaky_pop hn p hp _ (Or.inr rfl), leaky_dens hn p hp _ _ (Or.inl rfl) (Or.inr rfl),
    Complex.norm_real, Real.norm_of_nonneg (by linarith)] at this
  convert this using 1
  ring

theorem leaky_total (hn : 2 ≤ n) (p : ℝ) (h0 : 0 ≤ p) (h1 : p ≤ 1) : ∑ x, pop (leaky n p) x = 1 := by
  have : ∀ x : Basis (Fin n), pop (leaky n p) x = (if x = zeros n then p / 2 else 0) + (if x = ones n then p / 2 else 0) +
      if x = onlyZero n then 1 - p else 0 := by
    intro x
    by_cases hz : x = zeros n
    · rw [leaky_pop hn p h0 x (Or.inl hz), if_pos hz, if_neg (by rw [hz]; exact zeros_ne_ones (by omega)),
        if_neg (by rw [hz]; exact onlyZero_ne_zeros hn)]
      ring
    · by_cases ho : x = ones n
      · rw [leaky_pop hn p h0 x (Or.inr ho), if_neg hz, if_pos ho, if_neg (by rw [ho]; exact onlyZero_ne_ones hn)]
        ring
      · rw [if_neg hz, if_neg ho]
        unfold pop leaky outcome
        simp only [List.map_cons, List.map_nil, List.sum_cons, List.sum_nil, ghz_eq, if_neg (not_or.2 ⟨hz, ho⟩), ket]
        split
        · simp [Complex.normSq_ofReal, Real.mul_self_sqrt (show 0 ≤ 1 - p by linarith)]
        · simp
  rw [Finset.sum_congr rfl fun x _ => this x, Finset.sum_add_distrib, Finset.sum_add_distrib, Finset.sum_ite_eq', Finset.sum_ite_eq',
    Finset.sum_ite_eq']
  simp only [Finset.mem_univ, if_true]
  ring

/-- **C130** (finding): the bounds and the fidelity are only right because preparation and inverse are assumed to be equally imperfect.
When the preparation leaves the GHZ state with probability `p` and another basis state otherwise, and the inverse is perfect, the best
fidelity is `p`; but the "lower bound" is √p and the fidelity reported is (p + √p)/2, both larger than `p`. -/
theorem C130_finding_bound (n : ℕ) (hn : 2 ≤ n) (N : ℕ) (hN : 2 * n < N) (p : ℝ) (hp0 : 0 < p) (hp1 : p < 1) :
    (∑ x, pop (leaky n p) x = 1) ∧ BestFidelity (leaky n p) p ∧
    ∃ (inv : List (Instr ℝ)) (circ : ℝ → List (Instr ℝ)), inverse Real.pi (ghzSimple n false true) = some inv ∧
      (∀ δ, ghzMqc Real.pi n δ true = some (circ δ)) ∧
      (∀ δ, ∃ y, MqcShows (leaky n p) [noNoise n] (ghzSimple n false true) inv (circ δ) y) ∧
      ∀ (y ym : ℕ → ℝ) (P : Pops) (info : MqcInfo), infoMqc N n (fun k => y k) (fun k => ym k) P = some info →
        P.P0m = pop (leaky n p) (zeros n) → P.P1m = pop (leaky n p) (ones n) →
        (∀ k, MqcShows (leaky n p) [noNoise n] (ghzSimple n false true) inv (circ (phase N k)) (y k)) →
        info.LB = Real.sqrt p ∧ info.F = (p + Real.sqrt p) / 2 ∧ p < info.LB ∧ p < info.F := by
  have hl := prep_line n (by omega)
  refine ⟨leaky_total hn p hp0.le hp1.le, leaky_best hn p hp0.le, _, fun δ => _, prep_inverse hl _,
    fun δ => mqcWith_eq hl [] _ δ, fun δ => mqc_shows (by omega) hl [] (by simp) δ _ _, ?_⟩
  intro y ym P info hF h0 h1 hy
  have hs : (fun k => (y k : ℂ)) = fun k => sig (fun x z => effect [noNoise n] (flip z) (flip x) * dens (leaky n p) x z) (phase N k) := by
    funext k
    exact mqc_value (by omega) hl [] (by simp) _ _ _ _ (hy k)
  have hI : fft N (fun k => (y k : ℂ)) n = ((p / 4 : ℝ) : ℂ) := by
    rw [hs, fft_sig N hN _ n le_rfl, coef_top, flip_zeros, flip_ones, effect_noNoise, ghz_eq, ghz_eq, if_pos (Or.inr rfl), if_pos (Or.inl rfl),
      rt_rt, leaky_dens hn p hp0.le _ _ (Or.inr rfl) (Or.inl rfl)]
    push_cast
    ring
  have hq : Real.sqrt ‖fft N (fun k => (y k : ℂ)) n‖ = Real.sqrt p / 2 := by
    rw [hI, Complex.norm_real, Real.norm_of_nonneg (by linarith), Real.sqrt_div hp0.le, show (4 : ℝ) = 2 ^ 2 by norm_num,
      Real.sqrt_sq (by norm_num)]
  have hlt : p < Real.sqrt p := by
    apply Real.lt_sqrt_of_sq_lt
    nlinarith
  rw [leaky_pop hn p hp0.le _ (Or.inl rfl)] at h0
  rw [leaky_pop hn p hp0.le _ (Or.inr rfl)] at h1
  unfold infoMqc at hF
  rw [if_pos (by omega)] at hF
  simp only [Option.some.injEq] at hF
  subst hF
  have e1 : 2 * (Real.sqrt p / 2) = Real.sqrt p := by ring
  have e2 : (1 / 2) * (p / 2 + p / 2) + Real.sqrt p / 2 = (p + Real.sqrt p) / 2 := by ring
  simp only [hq, h0, h1, e1, e2, true_and]
  exact ⟨hlt, by linarith⟩

/-! ### A concrete experiment -/

/-- Three qubits; a bit flip of qubit 0 with probability 1/10. -/
noncomputable def flips : List (ℝ × Basis (Fin 3) × Basis (Fin 3)) := [(9 / 10, zeros 3, zeros 3), (1 / 10, zeros 3, onlyZero 3)]

theorem flips_dens (x y : Basis (Fin 3)) (hx : x = zeros 3 ∨ x = ones 3) (hy : y = zeros 3 ∨ y = ones 3) :
    dens (flips.map fun p => (pauliKraus p.1 p.2.1 p.2.2).app (ghz 3)) x y = ((9 / 20 : ℝ) : ℂ) := by
  have hrr : starRingEnd ℂ rt = rt := by unfold rt; exact Complex.conj_ofReal _
  have hz : ∀ x : Basis (Fin 3), sgn (K := ℂ) (zeros 3) x = 1 := fun x => sgn_zero_left x
  have hb : ∀ x : Basis (Fin 3), bxor x (zeros 3) = x := fun x => bxor_zero x
  have hk : ∀ x : Basis (Fin 3), x = zeros 3 ∨ x = ones 3 → ghz 3 (bxor x (onlyZero 3)) = 0 := by
    intro x hx
    rw [ghz_eq, if_neg]
    rcases hx with rfl | rfl <;> decide
  unfold dens flips
  simp only [List.map_cons, List.map_nil, List.sum_cons, List.sum_nil, pauliKraus_app, hz, hb, hk x hx, hk y hy, ghz_eq, if_pos hx, if_pos hy]
  have hs : (Real.sqrt (9 / 10) : ℂ) * Real.sqrt (9 / 10) = (9 / 10 : ℂ) := by
    rw [← Complex.ofReal_mul, Real.mul_self_sqrt (by norm_num)]
    push_cast
    rfl
  rw [map_mul, map_mul, hrr, Complex.conj_ofReal]
  push_cast
  simp only [map_one, mul_zero, map_zero, add_zero, mul_one]
  linear_combination (rt * rt) * hs + (9 / 10 : ℂ) * rt_rt

/-- Not vacuous: with this noise after the preparation and before the inverse, the seven circuits run and the fidelity reported is 9/10. -/
theorem C130_experiment : ∃ (inv : List (Instr ℝ)) (circ : ℝ → List (Instr ℝ)) (y : ℕ → ℝ) (info : MqcInfo),
    (∀ δ, ghzMqc Real.pi 3 δ true = some (circ δ)) ∧
    (∀ k, MqcShows (flips.map fun p => (pauliKraus p.1 p.2.1 p.2.2).app (ghz 3)) (flips.map fun p => pauliKraus p.1 p.2.1 p.2.2)
      (ghzSimple 3 false true) inv (circ (phase 7 k)) (y k)) ∧
    infoMqc 7 3 (fun k => y k) (fun k => y k) ⟨9 / 20, 9 / 20, 9 / 20, 9 / 20⟩ = some info ∧ info.F = 9 / 10 ∧ info.LB ≤ 9 / 10 := by
  obtain ⟨inv, circ, -, h2, h3, h4⟩ := C130_mqc_linear 3 (by norm_num) 7 (by norm_num)
    (flips.map fun p => (pauliKraus p.1 p.2.1 p.2.2).app (ghz 3)) (flips.map fun p => pauliKraus p.1 p.2.1 p.2.2)
  choose y hy using fun k => h3 (phase 7 k)
  have hp : ∀ x, x = zeros 3 ∨ x = ones 3 → pop (flips.map fun p => (pauliKraus p.1 p.2.1 p.2.2).app (ghz 3)) x = 9 / 20 := by
    intro x hx
    have := dens_diag (flips.map fun p => (pauliKraus p.1 p.2.1 p.2.2).app (ghz 3)) x
    rw [flips_dens x x hx hx] at this
    exact_mod_cast this.symm
  obtain ⟨info, hi⟩ : ∃ info, infoMqc 7 3 (fun k => (y k : ℂ)) (fun k => (y k : ℂ)) ⟨9 / 20, 9 / 20, 9 / 20, 9 / 20⟩ = some info := ⟨_, rfl⟩
  have hr := (h4 (C130_pauli 3 flips) y y _ info hi (hp _ (Or.inl rfl)).symm (hp _ (Or.inr rfl)).symm).1 hy
  have hF : info.F = 9 / 10 := by
    have hb := best_fidelity (by norm_num) (flips.map fun p => (pauliKraus p.1 p.2.1 p.2.2).app (ghz 3))
    rw [hp _ (Or.inl rfl), hp _ (Or.inr rfl), flips_dens _ _ (Or.inl rfl) (Or.inr rfl), Complex.norm_real, Real.norm_of_nonneg (by norm_num)] at hb
    rw [hr.1.unique hb]
    norm_num
  exact ⟨inv, circ, y, info, h2, hy, hi, hF, by rw [← hF]; exact hr.2.1⟩

end Verif.Ent
