import Verif.Tomo.PropsShots
/-
C118: how the result of the least squares method of `StateTomographyFitter.fit` compares with the best density matrix.
-/
set_option linter.unusedSimpArgs false
namespace Verif.Tomo
open Verif Verif.Quantum Verif.Counts

/-- The misfit of a matrix, setting by setting. -/
theorem residual_sum (n : ℕ) (hn : 0 < n) (prep : Str → Option SM) (data : Dict Key Counts) (h : StateData n data) (freqs : List ℝ) (rows : List SM)
    (hfd : fitterData pauliMeas prep data = some (freqs, rows)) (m : ℕ → ℕ → ℂ) :
    residual rows freqs none (vecF (2 ^ n) m) = ∑ t : Fin n → Fin 3, ∑ s, Complex.normSq (traceMul (2 ^ n) (projN t s) m - (freqAt data t s : ℂ)) := by
  obtain ⟨freqs', rows', h1, _, _, _, _, h2⟩ := fitterData_sum n hn prep data h
  obtain ⟨rfl, rfl⟩ : freqs' = freqs ∧ rows' = rows := by
    rw [h1] at hfd; exact Prod.mk.inj (Option.some.inj hfd)
  unfold residual
  simp only [weightAt, Complex.ofReal_one, one_mul]
  rw [h2 ℝ (fun op f => Complex.normSq (rowDot op (vecF (2 ^ n) m) - (f : ℂ))) fun op op' f e1 e2 e3 => by
    rw [rowDot_congr_op op op' _ e1 e2 (Nat.two_pow_pos n) e3]]
  refine Finset.sum_congr rfl fun t _ => Finset.sum_congr rfl fun s _ => ?_
  rw [rowDot_opN, traceMul_congr (2 ^ n) (fun _ _ _ _ => rfl) (fun a' b' ha' _ => vecF_get (2 ^ n) m a' b' ha')]

theorem sum_fin1 {M : Type} [AddCommMonoid M] {κ : Type} [Fintype κ] (g : (Fin 1 → κ) → M) : ∑ t, g t = ∑ t : κ, g fun _ => t :=
  ((Equiv.funUnique (Fin 1) κ).symm.sum_comp g).symm

theorem one_qubit_misfit (y : ℕ → ℕ → ℂ) :
    ∑ t : Fin 1 → Fin 3, ∑ s, Complex.normSq (traceMul (2 ^ 1) (projN t s) y) = dist2 (2 ^ 1) y (fun _ _ => 0) + Complex.normSq (tr (2 ^ 1) y) := by
  simp only [sum_fin1, Fin.sum_univ_three, Fintype.sum_bool]
  simp [traceMul, projN, dist2, tr, Finset.sum_range_succ, axisLabel, pauliProjector, Complex.normSq_apply]
  ring

/-- **C118** (one qubit, constrained).  For one qubit and no weights, the result fits the data best among all density matrices. -/
theorem C118_constrained (prep : Str → Option SM) (data : Dict Key Counts) (h : StateData 1 data) (eigh : ℕ → (ℕ → ℕ → ℂ) → (ℕ → ℝ) × (ℕ → ℕ → ℂ))
    (he : GoodEigh (2 ^ 1) eigh) (beta : ℝ) (m : ℕ → ℕ → ℂ) (hm : FitReturns false beta eigh prep 1 data m) (freqs : List ℝ) (rows : List SM)
    (hfd : fitterData pauliMeas prep data = some (freqs, rows)) (W : ℕ → ℕ → ℂ) (hW : IsDensity (2 ^ 1) W) :
    residual rows freqs none (vecF (2 ^ 1) m) ≤ residual rows freqs none (vecF (2 ^ 1) W) := by
  obtain ⟨h1, h2, _⟩ := (fit_closed 1 Nat.one_pos prep data h eigh he beta).2 m hm
  have key : ∀ V, IsDensity (2 ^ 1) V → residual rows freqs none (vecF (2 ^ 1) V) = dist2 (2 ^ 1) V (linearEstimate (n := 1) (freqAt data)) := by
    intro V hV
    rw [residual_sum 1 Nat.one_pos prep data h freqs rows hfd]
    have e1 : ∀ (t : Fin 1 → Fin 3) (s : Fin 1 → Bool), traceMul (2 ^ 1) (projN t s) V - (freqAt data t s : ℂ) =
        traceMul (2 ^ 1) (projN t s) fun a b => V a b - linearEstimate (n := 1) (freqAt data) a b := by
      intro t s
      rw [← one_qubit_trace h t s]
      simp only [traceMul, ← Finset.sum_sub_distrib, mul_sub]
    simp only [e1]
    rw [one_qubit_misfit]
    obtain ⟨freqs', rows', h1', _, ⟨x, hx⟩, h4⟩ := C118_estimate 1 Nat.one_pos prep data h
    obtain ⟨L, hL, _, hLt, _⟩ := h4 x hx
    have hcf := linearEstimate_eq 1 Nat.one_pos prep data h L ⟨freqs', rows', x, h1', hx, hL⟩
    have e2 : tr (2 ^ 1) (fun a b => V a b - linearEstimate (n := 1) (freqAt data) a b) = 0 := by
      unfold tr
      rw [Finset.sum_sub_distrib, ← Finset.sum_congr rfl fun k hk => hcf k k (Finset.mem_range.1 hk) (Finset.mem_range.1 hk)]
      exact sub_eq_zero.2 (hV.2.trans hLt.symm)
    rw [e2, map_zero, add_zero]
    unfold dist2
    simp only [sub_zero]
  rw [key m h1, key W hW]
  exact h2 W hW

/-! ### Two qubits -/

/-- Four shots of each label of two qubits.  Where only one qubit is measured in the Z basis it gives 0, where both are they disagree; X and Y
measurements are uniform. -/
def twoShots : Shots 2 4 := fun i j =>
  if i.1 j = 2 then (if i.1 (1 - j) = 2 then (decide ((i.2 : ℕ) < 2) != decide (j = 0)) else false) else (i.2 : ℕ).testBit j

/-- The frequencies of these shots. -/
def twoFreq (t0 t1 : Fin 3) (s0 s1 : Bool) : ℚ :=
  ((Finset.univ.filter fun i : Fin 4 => twoShots (![t0, t1], i) = ![s0, s1]).card : ℚ) / 4

def twoTable (t0 t1 : Fin 3) (s0 s1 : Bool) : ℚ :=
  if t0 = 2 then (if t1 = 2 then (if s0 = s1 then 0 else 1 / 2) else (if s0 then 0 else 1 / 2))
  else if t1 = 2 then (if s1 then 0 else 1 / 2) else 1 / 4

theorem twoFreq_eq (t0 t1 : Fin 3) (s0 s1 : Bool) : twoFreq t0 t1 s0 s1 = twoTable t0 t1 s0 s1 := by
  revert t0 t1 s0 s1; decide +kernel

theorem sum_fin2 {M : Type} [AddCommMonoid M] {κ : Type} [Fintype κ] (g : (Fin 2 → κ) → M) : ∑ t, g t = ∑ t0 : κ, ∑ t1 : κ, g ![t0, t1] := by
  rw [← (piFinTwoEquiv fun _ => κ).symm.sum_comp, Fintype.sum_prod_type]
  refine Finset.sum_congr rfl fun a _ => Finset.sum_congr rfl fun b _ => ?_
  rfl

theorem freqAt_two (t0 t1 : Fin 3) (s0 s1 : Bool) : freqAt (experiment twoShots) ![t0, t1] ![s0, s1] = (twoTable t0 t1 s0 s1 : ℝ) := by
  rw [total_of_sampled (by norm_num) (C118_experiment 2 4 (by norm_num) twoShots), ← twoFreq_eq, twoFreq]
  push_cast
  rfl

/-- A diagonal matrix of two qubits with equal entries at 01 and 10. -/
noncomputable def diag2 (x y z : ℝ) (a b : ℕ) : ℂ := if a = b then (if a = 0 then x else if a = 3 then z else y : ℝ) else 0

theorem dual_two (a0 a1 b0 b1 : Bool) :
    ∑ t0, ∑ t1, ∑ s0, ∑ s1, ((twoTable t0 t1 s0 s1 : ℝ) : ℂ) * (dual1 t0 s0 a0 b0 * dual1 t1 s1 a1 b1) =
      if a0 = b0 ∧ a1 = b1 then (if a0 = false ∧ a1 = false then 1 / 3 else if a0 = true ∧ a1 = true then - (1 / 3) else 1 / 2) else 0 := by
  cases a0 <;> cases a1 <;> cases b0 <;> cases b1 <;>
    simp [Fin.sum_univ_three, twoTable, dual1, axisLabel, pauliProjector] <;> ring_nf

theorem estimate_two (a b : ℕ) (ha : a < 4) (hb : b < 4) :
    linearEstimate (n := 2) (freqAt (experiment twoShots)) a b = diag2 (1 / 3) (1 / 2) (-(1 / 3)) a b := by
  unfold linearEstimate
  simp only [sum_fin2, freqAt_two, dualN, Fin.prod_univ_two, Matrix.cons_val_zero, Matrix.cons_val_one]
  rw [dual_two]
  interval_cases a <;> interval_cases b <;> simp [diag2, Nat.testBit]

theorem diag2_density (x y z : ℝ) (hx : 0 ≤ x) (hy : 0 ≤ y) (hz : 0 ≤ z) (h : x + y + y + z = 1) : IsDensity (2 ^ 2) (diag2 x y z) := by
  refine ⟨fun u => ⟨x * Complex.normSq (u 0) + y * Complex.normSq (u 1) + y * Complex.normSq (u 2) + z * Complex.normSq (u 3), ?_, ?_⟩, ?_⟩
  · have := Complex.normSq_nonneg
    have h0 := mul_nonneg hx (this (u 0))
    have h1 := mul_nonneg hy (this (u 1))
    have h2 := mul_nonneg hy (this (u 2))
    have h3 := mul_nonneg hz (this (u 3))
    linarith
  · simp [Finset.sum_range_succ, diag2, Complex.normSq_eq_conj_mul_self]
    ring
  · have e : tr (2 ^ 2) (diag2 x y z) = ((x + y + y + z : ℝ) : ℂ) := by
      simp [tr, diag2, Finset.sum_range_succ]
    rw [e, h, Complex.ofReal_one]

/-- The fit of these data. -/
theorem fit_two (eigh : ℕ → (ℕ → ℕ → ℂ) → (ℕ → ℝ) × (ℕ → ℕ → ℂ)) (he : GoodEigh (2 ^ 2) eigh) (prep : Str → Option SM) (beta : ℝ) (m : ℕ → ℕ → ℂ)
    (hm : FitReturns false beta eigh prep 2 (experiment twoShots) m) (a b : ℕ) (ha : a < 2 ^ 2) (hb : b < 2 ^ 2) : m a b = diag2 (2 / 9) (7 / 18) 0 a b := by
  obtain ⟨⟨hp, ht⟩, h2, _⟩ := (fit_closed 2 (by norm_num) prep _ (C118_experiment 2 4 (by norm_num) twoShots).toStateData eigh he beta).2 m hm
  have h3 := h2 _ (diag2_density (2 / 9) (7 / 18) 0 (by norm_num) (by norm_num) le_rfl (by norm_num))
  have hest : ∀ a b, a < 2 ^ 2 → b < 2 ^ 2 → linearEstimate (n := 2) (freqAt (experiment twoShots)) a b = diag2 (1 / 3) (1 / 2) (-(1 / 3)) a b := estimate_two
  rw [dist2_congr (2 ^ 2) m m _ _ (fun _ _ _ _ => rfl) hest, dist2_congr (2 ^ 2) (diag2 (2 / 9) (7 / 18) 0) _ _ _ (fun _ _ _ _ => rfl) hest] at h3
  obtain ⟨x, hx, ex⟩ := hp fun k => if k = 3 then 1 else 0
  have hr3 : 0 ≤ (m 3 3).re := by
    simp [Finset.sum_range_succ] at ex
    rw [ex]; simpa using hx
  have htr := congrArg Complex.re ht
  have hz : dist2 (2 ^ 2) m (diag2 (2 / 9) (7 / 18) 0) ≤ 0 := by
    simp [dist2, tr, diag2, Finset.sum_range_succ, Complex.normSq_apply] at h3 htr ⊢
    nlinarith
  have hnn : ∀ r ∈ Finset.range (2 ^ 2), 0 ≤ ∑ c ∈ Finset.range (2 ^ 2), Complex.normSq (m r c - diag2 (2 / 9) (7 / 18) 0 r c) :=
    fun r _ => Finset.sum_nonneg fun c _ => Complex.normSq_nonneg _
  have h0 := (Finset.sum_eq_zero_iff_of_nonneg hnn).1 (le_antisymm hz (Finset.sum_nonneg hnn)) a (Finset.mem_range.2 ha)
  have h1 := (Finset.sum_eq_zero_iff_of_nonneg fun c _ => Complex.normSq_nonneg _).1 h0 b (Finset.mem_range.2 hb)
  exact sub_eq_zero.1 (Complex.normSq_eq_zero.1 h1)

theorem traceMul_diag2 (x y z : ℝ) (t0 t1 : Fin 3) (s0 s1 : Bool) :
    traceMul (2 ^ 2) (projN ![t0, t1] ![s0, s1]) (diag2 x y z) = (((if t0 = 2 then (if s0 then 0 else 1) else 1 / 2) * (if t1 = 2 then (if s1 then 0 else 1) else 1 / 2) * x +
      (if t0 = 2 then (if s0 then 1 else 0) else 1 / 2) * (if t1 = 2 then (if s1 then 0 else 1) else 1 / 2) * y +
      (if t0 = 2 then (if s0 then 0 else 1) else 1 / 2) * (if t1 = 2 then (if s1 then 1 else 0) else 1 / 2) * y +
      (if t0 = 2 then (if s0 then 1 else 0) else 1 / 2) * (if t1 = 2 then (if s1 then 1 else 0) else 1 / 2) * z : ℝ) : ℂ) := by
  have e : ∀ (t : Fin 3) (s c : Bool), pauliProjector (axisLabel t) s c c = ((if t = 2 then (if s = c then 1 else 0) else 1 / 2 : ℝ) : ℂ) := by
    intro t s c
    fin_cases t <;> cases s <;> cases c <;> simp [axisLabel, pauliProjector]
  simp [traceMul, Finset.sum_range_succ, diag2, projN, Fin.prod_univ_two, Nat.testBit, e]
  fin_cases t0 <;> fin_cases t1 <;> cases s0 <;> cases s1 <;> simp

/-- **C118** (finding).  For two qubits the result need not be the density matrix that fits the data best, although the documentation of `fit` says the
fitted state is obtained by minimising the misfit subject to positivity and trace 1: for these data `diag(2/5, 3/10, 3/10, 0)` fits them better. -/
theorem C118_finding_constrained (eigh : ℕ → (ℕ → ℕ → ℂ) → (ℕ → ℝ) × (ℕ → ℕ → ℂ)) (he : GoodEigh (2 ^ 2) eigh) (prep : Str → Option SM) (beta : ℝ)
    (m : ℕ → ℕ → ℂ) (hm : FitReturns false beta eigh prep 2 (experiment twoShots) m) (freqs : List ℝ) (rows : List SM)
    (hfd : fitterData pauliMeas prep (experiment twoShots) = some (freqs, rows)) :
    ∃ W, IsDensity (2 ^ 2) W ∧ residual rows freqs none (vecF (2 ^ 2) W) < residual rows freqs none (vecF (2 ^ 2) m) := by
  refine ⟨diag2 (2 / 5) (3 / 10) 0, diag2_density _ _ _ (by norm_num) (by norm_num) le_rfl (by norm_num), ?_⟩
  have hd := (C118_experiment 2 4 (by norm_num) twoShots).toStateData
  rw [residual_sum 2 (by norm_num) prep _ hd freqs rows hfd, residual_sum 2 (by norm_num) prep _ hd freqs rows hfd]
  have e : ∀ (t : Fin 2 → Fin 3) (s : Fin 2 → Bool), traceMul (2 ^ 2) (projN t s) m = traceMul (2 ^ 2) (projN t s) (diag2 (2 / 9) (7 / 18) 0) := fun t s =>
    traceMul_congr (2 ^ 2) (fun _ _ _ _ => rfl) (fit_two eigh he prep beta m hm)
  simp only [e, sum_fin2, freqAt_two, traceMul_diag2, ← Complex.ofReal_sub, Complex.normSq_ofReal]
  have h02 : (0 : Fin 3) ≠ 2 := by decide
  have h12 : (1 : Fin 3) ≠ 2 := by decide
  simp only [Fin.sum_univ_three, Fintype.sum_bool, twoTable, h02, h12, if_true, if_false]
  norm_num

/-- The hypotheses are met. -/
example : ∃ eigh m, GoodEigh (2 ^ 2) eigh ∧ FitReturns false (1/2) eigh (fun _ => none) 2 (experiment twoShots) m := by
  obtain ⟨eigh, he⟩ := exists_goodEigh (2 ^ 2)
  obtain ⟨m, hm⟩ := (C118_fit 2 (by norm_num) (fun _ => none) _ (C118_experiment 2 4 (by norm_num) twoShots).toStateData eigh he (1/2)).1
  exact ⟨eigh, m, he, hm⟩

end Verif.Tomo
