import Verif.Tomo.LemmasShots
import Verif.Tomo.LemmasIndep
import Mathlib.Analysis.InnerProductSpace.Projection.Minimal
import Mathlib.Analysis.InnerProductSpace.PiL2
/-
C118: state tomography from finitely many shots.
-/
set_option linter.unusedSimpArgs false
set_option linter.unusedVariables false
namespace Verif.Tomo
open Verif Verif.Quantum Verif.Counts

/-! ### Helpers -/

theorem psd_convex (d : ℕ) (m p : ℕ → ℕ → ℂ) (hm : PSD d m) (hp : PSD d p) (t : ℝ) (h0 : 0 ≤ t) (h1 : t ≤ 1) :
    PSD d fun r c => p r c + (t : ℂ) * (m r c - p r c) := by
  intro u
  obtain ⟨x, hx, ex⟩ := hm u
  obtain ⟨y, hy, ey⟩ := hp u
  refine ⟨(1 - t) * y + t * x, by nlinarith, ?_⟩
  push_cast
  rw [← ex, ← ey, Finset.mul_sum, Finset.mul_sum, ← Finset.sum_add_distrib]
  refine Finset.sum_congr rfl fun r _ => ?_
  rw [Finset.mul_sum, Finset.mul_sum, ← Finset.sum_add_distrib]
  exact Finset.sum_congr rfl fun c _ => by ring

theorem normSq_line (p m q : ℂ) (t : ℝ) :
    Complex.normSq (p + (t : ℂ) * (q - p) - m) = Complex.normSq (p - m) + 2 * t * ((starRingEnd ℂ) (p - m) * (q - p)).re + t ^ 2 * Complex.normSq (q - p) := by
  simp only [Complex.normSq_apply, Complex.mul_re, Complex.mul_im, Complex.sub_re, Complex.sub_im, Complex.add_re, Complex.add_im,
    Complex.ofReal_re, Complex.ofReal_im, Complex.conj_re, Complex.conj_im]
  ring

/-- The projection onto a convex set is a contraction towards its elements. -/
theorem closest_contracts (d : ℕ) (m p ρ : ℕ → ℕ → ℂ) (hp : PSD d p) (htp : tr d p = tr d m) (hρ : PSD d ρ) (htρ : tr d ρ = tr d m)
    (hc : ∀ W, PSD d W → tr d W = tr d m → dist2 d p m ≤ dist2 d W m) : dist2 d p ρ ≤ dist2 d m ρ := by
  set R := ∑ r ∈ Finset.range d, ∑ c ∈ Finset.range d, ((starRingEnd ℂ) (p r c - m r c) * (ρ r c - p r c)).re with hR
  set D := dist2 d ρ p with hD
  have hD0 : 0 ≤ D := Finset.sum_nonneg fun r _ => Finset.sum_nonneg fun c _ => Complex.normSq_nonneg _
  have hline : ∀ t : ℝ, dist2 d (fun r c => p r c + (t : ℂ) * (ρ r c - p r c)) m = dist2 d p m + 2 * t * R + t ^ 2 * D := by
    intro t
    simp only [hD, hR, dist2, Finset.mul_sum]
    rw [← Finset.sum_add_distrib, ← Finset.sum_add_distrib]
    refine Finset.sum_congr rfl fun r _ => ?_
    rw [← Finset.sum_add_distrib, ← Finset.sum_add_distrib]
    exact Finset.sum_congr rfl fun c _ => normSq_line _ _ _ _
  have hRnn : 0 ≤ R := by
    by_contra hneg
    push Not at hneg
    set t := min 1 (-R / (D + 1)) with ht
    have hpos : 0 < t := lt_min one_pos (div_pos (by linarith) (by linarith))
    have hle : t ≤ 1 := min_le_left _ _
    have hle2 : t * (D + 1) ≤ -R := by
      have := min_le_right 1 (-R / (D + 1))
      rw [← ht, le_div_iff₀ (by linarith)] at this
      exact this
    have h1 := hc _ (psd_convex d ρ p hρ hp t hpos.le hle) (by
      unfold tr at htp htρ ⊢
      rw [Finset.sum_add_distrib, ← Finset.mul_sum, Finset.sum_sub_distrib, htp, htρ, sub_self, mul_zero, add_zero])
    rw [hline] at h1
    nlinarith
  have hfin : dist2 d m ρ = dist2 d p m + dist2 d p ρ + 2 * R := by
    simp only [hR, dist2, Finset.mul_sum]
    rw [← Finset.sum_add_distrib, ← Finset.sum_add_distrib]
    refine Finset.sum_congr rfl fun r _ => ?_
    rw [← Finset.sum_add_distrib, ← Finset.sum_add_distrib]
    refine Finset.sum_congr rfl fun c _ => ?_
    simp only [Complex.normSq_apply, Complex.mul_re, Complex.sub_re, Complex.sub_im, Complex.conj_re, Complex.conj_im, Complex.mul_im]
    ring
  have h3 : 0 ≤ dist2 d p m := Finset.sum_nonneg fun r _ => Finset.sum_nonneg fun c _ => Complex.normSq_nonneg _
  linarith

theorem dist2_congr (d : ℕ) (m m' p p' : ℕ → ℕ → ℂ) (h : ∀ a b, a < d → b < d → m a b = m' a b) (h' : ∀ a b, a < d → b < d → p a b = p' a b) :
    dist2 d m p = dist2 d m' p' := by
  unfold dist2
  refine Finset.sum_congr rfl fun a ha => Finset.sum_congr rfl fun b hb => ?_
  rw [h a b (Finset.mem_range.1 ha) (Finset.mem_range.1 hb), h' a b (Finset.mem_range.1 ha) (Finset.mem_range.1 hb)]

/-- A least squares solution exists for every problem. -/
theorem exists_lstsq (rows : List SM) (freqs : List ℝ) (weights : Option (List ℝ)) : ∃ x, IsLstsq rows freqs weights x := by
  let f : (ℕ → ℂ) →ₗ[ℂ] EuclideanSpace ℂ (Fin rows.length) :=
    { toFun := fun x => WithLp.toLp 2 fun i => (weightAt weights i : ℂ) * rowDot (rows.getD i smOne) x
      map_add' := by
        intro x y
        ext i
        have := rowDot_add (rows.getD i smOne) x y 1
        simp only [one_mul] at this
        show (weightAt weights i : ℂ) * rowDot (rows.getD i smOne) (fun k => x k + y k) = _
        rw [this]; simp [mul_add]
      map_smul' := by
        intro c x
        ext i
        have := rowDot_add (rows.getD i smOne) (fun _ => 0) x c
        simp only [zero_add] at this
        show (weightAt weights i : ℂ) * rowDot (rows.getD i smOne) (fun k => c * x k) = _
        rw [this]
        have h0 : rowDot (rows.getD i smOne) (fun _ => 0) = 0 := by simp [rowDot]
        rw [h0]
        simp; ring }
  let b : EuclideanSpace ℂ (Fin rows.length) := WithLp.toLp 2 fun i => (weightAt weights i : ℂ) * (freqs.getD i 0 : ℂ)
  have hcomp : IsComplete ((LinearMap.range f : Submodule ℂ (EuclideanSpace ℂ (Fin rows.length))) : Set (EuclideanSpace ℂ (Fin rows.length))) :=
    (Submodule.complete_of_finiteDimensional _)
  obtain ⟨v, ⟨x, rfl⟩, hv⟩ := Submodule.exists_norm_eq_iInf_of_complete_subspace (LinearMap.range f) hcomp b
  have hres : ∀ y, residual rows freqs weights y = ‖b - f y‖ ^ 2 := by
    intro y
    rw [EuclideanSpace.norm_sq_eq]
    unfold residual
    rw [Finset.sum_range]
    refine Finset.sum_congr rfl fun i _ => ?_
    rw [← Complex.normSq_eq_norm_sq, ← Complex.normSq_neg]
    congr 1
    show _ = (weightAt weights i : ℂ) * (freqs.getD i 0 : ℂ) - (weightAt weights i : ℂ) * rowDot (rows.getD i smOne) y
    ring
  refine ⟨x, fun y => ?_⟩
  rw [hres, hres]
  have hle : ‖b - f x‖ ≤ ‖b - f y‖ := by
    rw [hv]
    exact ciInf_le ⟨0, by rintro _ ⟨w, rfl⟩; exact norm_nonneg _⟩ (⟨f y, y, rfl⟩ : LinearMap.range f)
  exact pow_le_pow_left₀ (norm_nonneg _) hle 2

theorem freqAt_sum {n : ℕ} (hn : 0 < n) {data : Dict Key Counts} (h : StateData n data) (t : Fin n → Fin 3) : ∑ s, freqAt data t s = 1 := by
  have hg := h.counts _ (cnt_mem h t)
  unfold freqAt
  rw [← Finset.sum_div]
  have e : ∑ s : Fin n → Bool, (((cnt data t).getD (outcomeStr s) 0 : ℤ) : ℝ) = ((total (cnt data t) : ℤ) : ℝ) := by
    rw [← sum_getD n _ hg.1]
    have h1 : ((bitStrings n).map fun k => (cnt data t).getD k 0).sum = ∑ k ∈ Finset.range (2 ^ n), (cnt data t).getD ((bitStrings n).getD k []) 0 := by
      rw [← length_bitStrings n]
      generalize bitStrings n = l
      induction l with
      | nil => simp
      | cons a l ih => rw [List.map_cons, List.sum_cons, List.length_cons, Finset.sum_range_succ', ih, add_comm]; rfl
    rw [h1, sum_range_bits]
    push_cast
    refine Finset.sum_congr rfl fun s _ => ?_
    have hk : Nat.ofBits s < (bitStrings n).length := by rw [length_bitStrings]; exact Nat.ofBits_lt_two_pow _
    rw [List.getD_eq_getElem _ _ hk, bitStrings_outcome]
  rw [e, div_self]
  have := hg.2.2
  exact_mod_cast this.ne'

/-! ### C118 -/

/-- **C118** (linear estimate).  For any counts of the `3^n` Pauli labels the least squares problem `fit` sets up without weights has one solution.
It is Hermitian with trace 1, and it is the sum over labels and outcomes of the observed frequency times the tensor product of `Π - 1/3`, `Π` being
the projectors of the outcome. -/
theorem C118_estimate (n : ℕ) (hn : 0 < n) (prep : Str → Option SM) (data : Dict Key Counts) (h : StateData n data) :
    ∃ freqs rows, fitterData pauliMeas prep data = some (freqs, rows) ∧ (∀ beta, fitterWeights false beta data = some none) ∧ (∃ x, IsLstsq rows freqs none x) ∧
      ∀ x, IsLstsq rows freqs none x → ∃ m, reshapeF (2 ^ n * 2 ^ n) x = some (2 ^ n, m) ∧
        (∀ a b, a < 2 ^ n → b < 2 ^ n → (starRingEnd ℂ) (m a b) = m b a) ∧ tr (2 ^ n) m = 1 ∧
        ∀ a b, a < 2 ^ n → b < 2 ^ n → m a b = ∑ t : Fin n → Fin 3, ∑ s : Fin n → Bool,
          ((data.getD (.state (settingLabel t)) []).getD (outcomeStr s) 0 : ℂ) / (total (data.getD (.state (settingLabel t)) []) : ℂ) *
            ∏ j : Fin n, (pauliProjector (axisLabel (t j)) (s j) (a.testBit j) (b.testBit j) - if a.testBit j = b.testBit j then 1 / 3 else 0) := by
  obtain ⟨freqs, rows, h1, _, _, _, _, _⟩ := fitterData_sum n hn prep data h
  have hne : data ≠ [] := by
    have := cnt_mem h (fun _ : Fin n => 0)
    rintro rfl; simp at this
  have hw : ∀ beta, fitterWeights false beta data = some none := by
    intro beta
    cases data with
    | nil => exact absurd rfl hne
    | cons kv rest => rfl
  refine ⟨freqs, rows, h1, hw, exists_lstsq _ _ _, fun x hx => ?_⟩
  have hs : Nat.sqrt (2 ^ n * 2 ^ n) = 2 ^ n := Nat.sqrt_eq _
  have hcf := lstsq_closed_form n hn prep data h freqs rows h1 x hx
  refine ⟨fun i j => x (j * 2 ^ n + i), by unfold reshapeF; rw [hs, if_neg (by simp)], ?_, ?_, ?_⟩
  · intro a b ha hb
    beta_reduce
    rw [hcf a b ha hb, hcf b a hb ha]
    unfold linearEstimate
    rw [map_sum]
    refine Finset.sum_congr rfl fun t _ => ?_
    rw [map_sum]
    refine Finset.sum_congr rfl fun s _ => ?_
    rw [map_mul, Complex.conj_ofReal, dualN_conj]
  · have e : tr (2 ^ n) (fun i j => x (j * 2 ^ n + i)) = tr (2 ^ n) (linearEstimate (n := n) (freqAt data)) :=
      Finset.sum_congr rfl fun k hk => hcf k k (Finset.mem_range.1 hk) (Finset.mem_range.1 hk)
    rw [e]
    unfold tr linearEstimate
    rw [Finset.sum_comm]
    have e2 : ∀ t : Fin n → Fin 3, ∑ k ∈ Finset.range (2 ^ n), ∑ s, (freqAt data t s : ℂ) * dualN t s k k = (1 / 3) ^ n := by
      intro t
      rw [Finset.sum_comm]
      have e3 : ∀ s : Fin n → Bool, ∑ k ∈ Finset.range (2 ^ n), (freqAt data t s : ℂ) * dualN t s k k = (freqAt data t s : ℂ) * (1 / 3) ^ n := by
        intro s
        rw [← Finset.mul_sum, ← dualN_tr t s]; rfl
      simp only [e3]
      rw [← Finset.sum_mul, ← Complex.ofReal_sum, freqAt_sum hn h]; simp
    simp only [e2]
    rw [Finset.sum_const, Finset.card_univ, Fintype.card_fun, Fintype.card_fin, Fintype.card_fin, nsmul_eq_mul]
    push_cast
    rw [← mul_pow]; norm_num
  · intro a b ha hb
    beta_reduce
    rw [hcf a b ha hb]
    unfold linearEstimate
    refine Finset.sum_congr rfl fun t _ => Finset.sum_congr rfl fun s _ => ?_
    simp only [freqAt, cnt, dualN, dual1]
    push_cast
    rfl

/-- A Hermitian matrix of trace 1 after the last two steps of `lstsq_fit`. -/
theorem lstsqPost_density (d : ℕ) (eigh : ℕ → (ℕ → ℕ → ℂ) → (ℕ → ℝ) × (ℕ → ℕ → ℂ)) (he : GoodEigh d eigh) (x : ℕ → ℂ) (m : ℕ → ℕ → ℂ) (size : ℕ)
    (e1 : reshapeF size x = some (d, m)) (hh : ∀ a b, a < d → b < d → (starRingEnd ℂ) (m a b) = m b a) (ht : tr d m = 1) :
    ∃ p, lstsqPost eigh size x true (some 1) = some p ∧ IsDensity d p ∧ (∀ W, IsDensity d W → dist2 d p m ≤ dist2 d W m) ∧
      ∀ W, IsDensity d W → dist2 d p W ≤ dist2 d m W := by
  obtain ⟨p, h1, h2, h3, h4⟩ := C52_matrix d m _ _ (he m fun r c hr hc => hh c r hc hr) (by rw [ht]; simp)
  have hpt : ∑ k ∈ Finset.range d, p k k = 1 := by rw [← ht, ← h3]; rfl
  have hr : rescaleTrace d (some 1) p = p := by
    funext a b
    simp only [rescaleTrace]
    rw [hpt, div_one, mul_one]
  refine ⟨p, ?_, ⟨h2, hpt⟩, fun W hW => h4 W hW.1 (hW.2.trans ht.symm), fun W hW =>
    closest_contracts d m p W h2 h3 hW.1 (hW.2.trans ht.symm) h4⟩
  unfold lstsqPost
  rw [e1]
  simp [h1, hr]

/-- The linear estimate has the closed form. -/
theorem linearEstimate_eq (n : ℕ) (hn : 0 < n) (prep : Str → Option SM) (data : Dict Key Counts) (h : StateData n data) (L : ℕ → ℕ → ℂ)
    (hL : IsLinearEstimate n prep data L) (a b : ℕ) (ha : a < 2 ^ n) (hb : b < 2 ^ n) : L a b = linearEstimate (n := n) (freqAt data) a b := by
  obtain ⟨freqs, rows, x, h1, hx, e1⟩ := hL
  rw [← lstsq_closed_form n hn prep data h _ _ h1 x hx a b ha hb]
  have hs : Nat.sqrt (2 ^ n * 2 ^ n) = 2 ^ n := Nat.sqrt_eq _
  unfold reshapeF at e1
  rw [hs, if_neg (by simp)] at e1
  rw [← (Prod.mk.inj (Option.some.inj e1)).2]

theorem fit_closed (n : ℕ) (hn : 0 < n) (prep : Str → Option SM) (data : Dict Key Counts) (h : StateData n data)
    (eigh : ℕ → (ℕ → ℕ → ℂ) → (ℕ → ℝ) × (ℕ → ℕ → ℂ)) (he : GoodEigh (2 ^ n) eigh) (beta : ℝ) :
    (∃ m, FitReturns false beta eigh prep n data m) ∧
    ∀ m, FitReturns false beta eigh prep n data m → IsDensity (2 ^ n) m ∧
      (∀ W, IsDensity (2 ^ n) W → dist2 (2 ^ n) m (linearEstimate (n := n) (freqAt data)) ≤ dist2 (2 ^ n) W (linearEstimate (n := n) (freqAt data))) ∧
      ∀ W, IsDensity (2 ^ n) W → dist2 (2 ^ n) m W ≤ dist2 (2 ^ n) (linearEstimate (n := n) (freqAt data)) W := by
  obtain ⟨freqs, rows, h1, h2, ⟨x0, hx0⟩, h4⟩ := C118_estimate n hn prep data h
  refine ⟨?_, ?_⟩
  · obtain ⟨m, e1, hh, ht, _⟩ := h4 x0 hx0
    obtain ⟨p, hp, _⟩ := lstsqPost_density (2 ^ n) eigh he x0 m _ e1 hh ht
    exact ⟨p, freqs, rows, none, x0, h1, h2 beta, hx0, hp⟩
  · rintro p ⟨freqs', rows', weights', x, h1', h2', hx, hp⟩
    obtain ⟨rfl, rfl⟩ : freqs' = freqs ∧ rows' = rows := by
      rw [h1] at h1'; exact (Prod.mk.inj (Option.some.inj h1')).imp Eq.symm Eq.symm
    obtain rfl : weights' = none := by rw [h2] at h2'; exact (Option.some.inj h2').symm
    obtain ⟨m, e1, hh, ht, _⟩ := h4 x hx
    obtain ⟨p', hp', h5, h6, h7⟩ := lstsqPost_density (2 ^ n) eigh he x m _ e1 hh ht
    obtain rfl : p' = p := by rw [hp'] at hp; exact Option.some.inj hp
    have hcf : ∀ a b, a < 2 ^ n → b < 2 ^ n → m a b = linearEstimate (n := n) (freqAt data) a b := by
      intro a b ha hb
      rw [← lstsq_closed_form n hn prep data h _ _ h1 x hx a b ha hb]
      have hs : Nat.sqrt (2 ^ n * 2 ^ n) = 2 ^ n := Nat.sqrt_eq _
      unfold reshapeF at e1
      rw [hs, if_neg (by simp)] at e1
      rw [← (Prod.mk.inj (Option.some.inj e1)).2]
    refine ⟨h5, fun W hW => ?_, fun W hW => ?_⟩
    · have := h6 W hW
      rwa [dist2_congr _ p' p' m _ (fun _ _ _ _ => rfl) hcf, dist2_congr _ W W m _ (fun _ _ _ _ => rfl) hcf] at this
    · have := h7 W hW
      rwa [dist2_congr _ m _ W W hcf (fun _ _ _ _ => rfl)] at this

/-- **C118** (fit).  Whatever the counts, the fit without weights returns a density matrix.  It is the density matrix closest to the linear estimate
in the Frobenius norm, and it is at least as close to *every* density matrix (in particular the true state) as the linear estimate is: enforcing
positivity never makes the estimate worse. -/
theorem C118_fit (n : ℕ) (hn : 0 < n) (prep : Str → Option SM) (data : Dict Key Counts) (h : StateData n data)
    (eigh : ℕ → (ℕ → ℕ → ℂ) → (ℕ → ℝ) × (ℕ → ℕ → ℂ)) (he : GoodEigh (2 ^ n) eigh) (beta : ℝ) :
    (∃ m, FitReturns false beta eigh prep n data m) ∧
    ∀ m L, FitReturns false beta eigh prep n data m → IsLinearEstimate n prep data L → IsDensity (2 ^ n) m ∧
      (∀ W, IsDensity (2 ^ n) W → dist2 (2 ^ n) m L ≤ dist2 (2 ^ n) W L) ∧
      ∀ W, IsDensity (2 ^ n) W → dist2 (2 ^ n) m W ≤ dist2 (2 ^ n) L W := by
  obtain ⟨h1, h2⟩ := fit_closed n hn prep data h eigh he beta
  refine ⟨h1, fun m L hm hL => ?_⟩
  obtain ⟨h3, h4, h5⟩ := h2 m hm
  have hcf := linearEstimate_eq n hn prep data h L hL
  refine ⟨h3, fun W hW => ?_, fun W hW => ?_⟩
  · rw [dist2_congr _ m m L _ (fun _ _ _ _ => rfl) hcf, dist2_congr _ W W L _ (fun _ _ _ _ => rfl) hcf]
    exact h4 W hW
  · rw [dist2_congr _ L _ W W hcf (fun _ _ _ _ => rfl)]
    exact h5 W hW

/-! ### Random outcomes -/

theorem proj1_idem (t : Fin 3) (o x y : Bool) : ∑ z, pauliProjector (axisLabel t) o x z * pauliProjector (axisLabel t) o z y = pauliProjector (axisLabel t) o x y := by
  fin_cases t <;> cases o <;> cases x <;> cases y <;> simp [axisLabel, pauliProjector] <;> ring_nf <;> simp [Complex.I_sq] <;> norm_num

theorem projN_idem {n : ℕ} (t : Fin n → Fin 3) (s : Fin n → Bool) (a b : ℕ) : ∑ c ∈ Finset.range (2 ^ n), projN t s a c * projN t s c b = projN t s a b := by
  rw [sum_range_bits]
  simp only [projN, testBit_ofBits', ← Finset.prod_mul_distrib]
  rw [sum_prod_pi fun (j : Fin n) z => pauliProjector (axisLabel (t j)) (s j) (a.testBit j) z * pauliProjector (axisLabel (t j)) (s j) z (b.testBit j)]
  exact Finset.prod_congr rfl fun j _ => proj1_idem _ _ _ _

theorem projN_conj {n : ℕ} (t : Fin n → Fin 3) (s : Fin n → Bool) (a b : ℕ) : (starRingEnd ℂ) (projN t s a b) = projN t s b a := by
  rw [projN, projN, map_prod]
  exact Finset.prod_congr rfl fun j _ => conj_projector _ _ _ _

/-- Probabilities of a state are real and not negative. -/
theorem traceMul_projN_nonneg {n : ℕ} (ρ : ℕ → ℕ → ℂ) (hρ : PSD (2 ^ n) ρ) (t : Fin n → Fin 3) (s : Fin n → Bool) :
    ∃ x : ℝ, 0 ≤ x ∧ traceMul (2 ^ n) (projN t s) ρ = x := by
  choose x hx ex using fun c : ℕ => hρ fun r => projN t s r c
  refine ⟨∑ c ∈ Finset.range (2 ^ n), x c, Finset.sum_nonneg fun c _ => hx c, ?_⟩
  push_cast
  simp only [← ex, projN_conj]
  unfold traceMul
  rw [Finset.sum_comm]
  symm
  rw [Finset.sum_comm]
  refine Finset.sum_congr rfl fun r _ => ?_
  rw [Finset.sum_comm]
  refine Finset.sum_congr rfl fun q _ => ?_
  rw [← projN_idem t s q r, Finset.sum_mul]
  exact Finset.sum_congr rfl fun c _ => by ring

theorem outcomeProb_eq {n : ℕ} (ρ : ℕ → ℕ → ℂ) (hρ : PSD (2 ^ n) ρ) (t : Fin n → Fin 3) (s : Fin n → Bool) :
    (outcomeProb n ρ t s : ℂ) = traceMul (2 ^ n) (projN t s) ρ ∧ 0 ≤ outcomeProb n ρ t s := by
  obtain ⟨x, hx, e⟩ := traceMul_projN_nonneg ρ hρ t s
  unfold outcomeProb
  rw [show outcomeProj n (settingLabel t) (outcomeStr s) = projN t s from funext fun a => funext fun b => outcomeProj_eq t s a b, e]
  simpa using hx

theorem outcomeProb_sum {n : ℕ} (ρ : ℕ → ℕ → ℂ) (hρ : IsDensity (2 ^ n) ρ) (t : Fin n → Fin 3) : ∑ s, outcomeProb n ρ t s = 1 := by
  apply Complex.ofReal_injective
  push_cast
  simp only [(outcomeProb_eq ρ hρ.1 t _).1]
  unfold traceMul
  rw [Finset.sum_comm]
  have e : ∀ a ∈ Finset.range (2 ^ n), ∑ s : Fin n → Bool, ∑ b ∈ Finset.range (2 ^ n), projN t s a b * ρ b a = ρ a a := by
    intro a ha
    rw [Finset.sum_comm, Finset.sum_eq_single a]
    · rw [← Finset.sum_mul, projN_sum t a a (Finset.mem_range.1 ha) (Finset.mem_range.1 ha), if_pos rfl, one_mul]
    · intro b hb hne
      rw [← Finset.sum_mul, projN_sum t a b (Finset.mem_range.1 ha) (Finset.mem_range.1 hb), if_neg hne.symm, zero_mul]
    · intro h; exact absurd ha h
  rw [Finset.sum_congr rfl e]
  exact hρ.2

theorem total_of_sampled {n N : ℕ} (hn : 0 < n) {data : Dict Key Counts} {ω : Shots n N} (h : Sampled data ω) (t : Fin n → Fin 3) :
    ∀ s, freqAt data t s = ((Finset.univ.filter fun i => ω (t, i) = s).card : ℝ) / N := by
  have hm := cnt_mem h.toStateData t
  have hc := h.tally t _ hm
  have hsum := freqAt_sum hn h.toStateData t
  have hpos := (h.counts _ hm).2.2
  have htot : total (cnt data t) = (N : ℤ) := by
    unfold freqAt at hsum
    rw [← Finset.sum_div, div_eq_one_iff_eq (by exact_mod_cast hpos.ne')] at hsum
    simp only [hc] at hsum
    have h2 : ∑ s : Fin n → Bool, (Finset.univ.filter fun i : Fin N => ω (t, i) = s).card = N := by
      rw [← Finset.card_eq_sum_card_fiberwise (f := fun i : Fin N => ω (t, i)) (s := Finset.univ) (t := Finset.univ) (fun _ _ => Finset.mem_univ _)]
      simp
    have h3 : ((total (cnt data t) : ℤ) : ℝ) = ((N : ℤ) : ℝ) := by
      rw [← hsum]
      push_cast
      exact_mod_cast h2
    exact_mod_cast h3
  intro s
  unfold freqAt
  rw [hc s, htot]
  push_cast
  rfl

/-- The linear estimate is a sum over the shots. -/
theorem estimate_sampled {n N : ℕ} (hn : 0 < n) {data : Dict Key Counts} {ω : Shots n N} (h : Sampled data ω) (a b : ℕ) :
    linearEstimate (n := n) (freqAt data) a b = ∑ i : (Fin n → Fin 3) × Fin N, dualN i.1 (ω i) a b / N := by
  unfold linearEstimate
  rw [Fintype.sum_prod_type]
  refine Finset.sum_congr rfl fun t _ => ?_
  simp only [total_of_sampled hn h t]
  have e : ∀ s : Fin n → Bool, ((((Finset.univ.filter fun i => ω (t, i) = s).card : ℝ) / N : ℝ) : ℂ) * dualN t s a b =
      ∑ i : Fin N, if ω (t, i) = s then dualN t s a b / N else 0 := by
    intro s
    rw [← Finset.sum_filter, Finset.sum_const, nsmul_eq_mul]
    push_cast
    ring
  simp only [e]
  rw [Finset.sum_comm]
  refine Finset.sum_congr rfl fun i _ => ?_
  simp

theorem mean_shots {n N : ℕ} (hN : 0 < N) (ρ : ℕ → ℕ → ℂ) (hρ : IsDensity (2 ^ n) ρ) (a b : ℕ) (ha : a < 2 ^ n) (hb : b < 2 ^ n) :
    ∑ i : (Fin n → Fin 3) × Fin N, ∑ s, (outcomeProb n ρ i.1 s : ℂ) * (dualN i.1 s a b / N) = ρ a b := by
  rw [Fintype.sum_prod_type, ← dualN_recon n ρ a b ha hb]
  refine Finset.sum_congr rfl fun t _ => ?_
  dsimp only
  rw [Finset.sum_const, Finset.card_univ, Fintype.card_fin, nsmul_eq_mul, Finset.mul_sum]
  refine Finset.sum_congr rfl fun s _ => ?_
  rw [(outcomeProb_eq ρ hρ.1 t s).1]
  have : (N : ℂ) ≠ 0 := by exact_mod_cast hN.ne'
  field_simp

/-- The shots have a probability distribution. -/
theorem C118_distribution {n N : ℕ} (ρ : ℕ → ℕ → ℂ) (hρ : IsDensity (2 ^ n) ρ) : (∀ ω : Shots n N, 0 ≤ shotsProb ρ ω) ∧ ∑ ω : Shots n N, shotsProb ρ ω = 1 :=
  ⟨fun ω => Finset.prod_nonneg fun i _ => (outcomeProb_eq ρ hρ.1 _ _).2,
    indep_sum_one (fun (i : (Fin n → Fin 3) × Fin N) s => outcomeProb n ρ i.1 s) fun i => outcomeProb_sum ρ hρ i.1⟩

/-- **C118** (unbiased).  For `N` shots of each label on copies of the state `ρ`, the expected value of the linear estimate is `ρ`. -/
theorem C118_unbiased (n N : ℕ) (hn : 0 < n) (hN : 0 < N) (ρ : ℕ → ℕ → ℂ) (hρ : IsDensity (2 ^ n) ρ) (exp : Shots n N → Dict Key Counts)
    (hexp : ∀ ω, Sampled (exp ω) ω) (prep : Str → Option SM) (est : Shots n N → ℕ → ℕ → ℂ)
    (hest : ∀ ω, IsLinearEstimate n prep (exp ω) (est ω)) (a b : ℕ) (ha : a < 2 ^ n) (hb : b < 2 ^ n) :
    ∑ ω, (shotsProb ρ ω : ℂ) * est ω a b = ρ a b := by
  have e : ∀ ω, est ω a b = ∑ i : (Fin n → Fin 3) × Fin N, dualN i.1 (ω i) a b / N := by
    intro ω
    rw [← estimate_sampled hn (hexp ω), linearEstimate_eq n hn prep _ (hexp ω).toStateData _ (hest ω) a b ha hb]
  simp only [e]
  rw [← mean_shots hN ρ hρ a b ha hb]
  exact indep_mean_sum (fun (i : (Fin n → Fin 3) × Fin N) s => outcomeProb n ρ i.1 s) (fun i => outcomeProb_sum ρ hρ i.1) fun i s => dualN i.1 s a b / N

theorem error_linear (n N : ℕ) (hn : 0 < n) (hN : 0 < N) (ρ : ℕ → ℕ → ℂ) (hρ : IsDensity (2 ^ n) ρ) (exp : Shots n N → Dict Key Counts)
    (hexp : ∀ ω, Sampled (exp ω) ω) :
    ∑ ω, shotsProb ρ ω * dist2 (2 ^ n) (linearEstimate (n := n) (freqAt (exp ω))) ρ ≤ (5 / 3) ^ n / N := by
  unfold dist2
  simp only [Finset.mul_sum]
  rw [Finset.sum_comm]
  have e : ∀ a ∈ Finset.range (2 ^ n), ∑ ω : Shots n N, ∑ b ∈ Finset.range (2 ^ n), shotsProb ρ ω *
      Complex.normSq (linearEstimate (n := n) (freqAt (exp ω)) a b - ρ a b) ≤
      ∑ b ∈ Finset.range (2 ^ n), ∑ i : (Fin n → Fin 3) × Fin N, ∑ s, outcomeProb n ρ i.1 s * Complex.normSq (dualN i.1 s a b / N) := by
    intro a ha
    rw [Finset.sum_comm]
    refine Finset.sum_le_sum fun b hb => ?_
    have := indep_variance (fun (i : (Fin n → Fin 3) × Fin N) s => outcomeProb n ρ i.1 s) (fun i => outcomeProb_sum ρ hρ i.1) fun i s => dualN i.1 s a b / N
    rw [mean_shots hN ρ hρ a b (Finset.mem_range.1 ha) (Finset.mem_range.1 hb)] at this
    refine le_trans (le_of_eq (Finset.sum_congr rfl fun ω _ => ?_)) this
    rw [estimate_sampled hn (hexp ω)]
    rfl
  refine le_trans (Finset.sum_le_sum e) (le_of_eq ?_)
  have hN' : (N : ℝ) ≠ 0 := by exact_mod_cast hN.ne'
  have hinner : ∀ t : Fin n → Fin 3, ∀ s : Fin n → Bool, ∑ a ∈ Finset.range (2 ^ n), ∑ b ∈ Finset.range (2 ^ n), Complex.normSq (dualN t s a b / N) = (5 / 9) ^ n / (N : ℝ) ^ 2 := by
    intro t s
    rw [← dualN_norm t s]
    simp only [Finset.sum_div]
    refine Finset.sum_congr rfl fun a _ => Finset.sum_congr rfl fun b _ => ?_
    rw [map_div₀, Complex.normSq_natCast, pow_two]
  have hswap : ∑ a ∈ Finset.range (2 ^ n), ∑ b ∈ Finset.range (2 ^ n), ∑ i : (Fin n → Fin 3) × Fin N, ∑ s, outcomeProb n ρ i.1 s * Complex.normSq (dualN i.1 s a b / N) =
      ∑ i : (Fin n → Fin 3) × Fin N, ∑ s, outcomeProb n ρ i.1 s * ∑ a ∈ Finset.range (2 ^ n), ∑ b ∈ Finset.range (2 ^ n), Complex.normSq (dualN i.1 s a b / N) := by
    simp only [Finset.mul_sum]
    have e1 : ∀ a ∈ Finset.range (2 ^ n), ∑ b ∈ Finset.range (2 ^ n), ∑ i : (Fin n → Fin 3) × Fin N, ∑ s, outcomeProb n ρ i.1 s * Complex.normSq (dualN i.1 s a b / N) =
        ∑ i : (Fin n → Fin 3) × Fin N, ∑ s, ∑ b ∈ Finset.range (2 ^ n), outcomeProb n ρ i.1 s * Complex.normSq (dualN i.1 s a b / N) := by
      intro a _
      rw [Finset.sum_comm]
      refine Finset.sum_congr rfl fun i _ => ?_
      rw [Finset.sum_comm]
    rw [Finset.sum_congr rfl e1, Finset.sum_comm]
    refine Finset.sum_congr rfl fun i _ => ?_
    rw [Finset.sum_comm]
  rw [hswap]
  simp only [hinner]
  have e3 : ∀ i : (Fin n → Fin 3) × Fin N, ∑ s, outcomeProb n ρ i.1 s * ((5 / 9) ^ n / (N : ℝ) ^ 2) = (5 / 9) ^ n / (N : ℝ) ^ 2 := by
    intro i
    rw [← Finset.sum_mul, outcomeProb_sum ρ hρ, one_mul]
  simp only [e3]
  rw [Finset.sum_const, Finset.card_univ, Fintype.card_prod, Fintype.card_fun, Fintype.card_fin, Fintype.card_fin, Fintype.card_fin, nsmul_eq_mul]
  push_cast
  rw [show (5 / 3 : ℝ) ^ n = 3 ^ n * (5 / 9) ^ n by rw [← mul_pow]; norm_num]
  field_simp

/-- **C118** (accuracy).  Measure every one of the `3^n` Pauli labels `N` times on copies of any `n`-qubit state `ρ`.  The expected squared Frobenius
distance from `ρ` to the density matrix `fit(method='lstsq', standard_weights=False)` returns is at most `(5/3)^n / N`. -/
theorem C118_accuracy (n N : ℕ) (hn : 0 < n) (hN : 0 < N) (ρ : ℕ → ℕ → ℂ) (hρ : IsDensity (2 ^ n) ρ) (exp : Shots n N → Dict Key Counts)
    (hexp : ∀ ω, Sampled (exp ω) ω) (prep : Str → Option SM) (eigh : ℕ → (ℕ → ℕ → ℂ) → (ℕ → ℝ) × (ℕ → ℕ → ℂ)) (he : GoodEigh (2 ^ n) eigh) (beta : ℝ)
    (fit : Shots n N → ℕ → ℕ → ℂ) (hfit : ∀ ω, FitReturns false beta eigh prep n (exp ω) (fit ω)) :
    ∑ ω, shotsProb ρ ω * dist2 (2 ^ n) (fit ω) ρ ≤ (5 / 3) ^ n / N := by
  refine le_trans (Finset.sum_le_sum fun ω _ => ?_) (error_linear n N hn hN ρ hρ exp hexp)
  refine mul_le_mul_of_nonneg_left ?_ ((C118_distribution ρ hρ).1 ω)
  exact ((fit_closed n hn prep (exp ω) (hexp ω).toStateData eigh he beta).2 _ (hfit ω)).2.2 ρ hρ

/-- **C118** (confidence).  So the probability that the result is further than `ε` from the true state is at most `(5/3)^n / (N ε²)`: for every
accuracy and confidence there is a number of shots that achieves them, whatever the state. -/
theorem C118_confidence (n N : ℕ) (hn : 0 < n) (hN : 0 < N) (ρ : ℕ → ℕ → ℂ) (hρ : IsDensity (2 ^ n) ρ) (exp : Shots n N → Dict Key Counts)
    (hexp : ∀ ω, Sampled (exp ω) ω) (prep : Str → Option SM) (eigh : ℕ → (ℕ → ℕ → ℂ) → (ℕ → ℝ) × (ℕ → ℕ → ℂ)) (he : GoodEigh (2 ^ n) eigh) (beta : ℝ)
    (fit : Shots n N → ℕ → ℕ → ℂ) (hfit : ∀ ω, FitReturns false beta eigh prep n (exp ω) (fit ω)) (ε : ℝ) (hε : 0 < ε) :
    (∑ ω, if ε ^ 2 ≤ dist2 (2 ^ n) (fit ω) ρ then shotsProb ρ ω else 0) ≤ (5 / 3) ^ n / (N * ε ^ 2) := by
  have h := C118_accuracy n N hn hN ρ hρ exp hexp prep eigh he beta fit hfit
  have hNpos : (0 : ℝ) < N := by exact_mod_cast hN
  rw [← div_div, le_div_iff₀ (by positivity), Finset.sum_mul]
  refine le_trans (Finset.sum_le_sum fun ω _ => ?_) h
  have h0 := (C118_distribution ρ hρ).1 ω
  split
  · rename_i h1
    exact mul_le_mul_of_nonneg_left h1 h0
  · rw [zero_mul]
    exact mul_nonneg h0 (Finset.sum_nonneg fun r _ => Finset.sum_nonneg fun c _ => Complex.normSq_nonneg _)

/-! ### Weights -/

theorem weightAt_pos (rows : List SM) (weights : Option (List ℝ)) (hw : PosWeights rows weights) (i : ℕ) (hi : i < rows.length) : weightAt weights i ≠ 0 := by
  cases weights with
  | none => exact one_ne_zero
  | some ws =>
    obtain ⟨h1, h2⟩ := hw ws rfl
    have hi' : i < ws.length := by rw [h1]; exact hi
    show ws.getD i 0 ≠ 0
    rw [List.getD_eq_getElem _ _ hi']; exact ne_of_gt (h2 _ (List.getElem_mem _))

theorem residual_zero (rows : List SM) (freqs : List ℝ) (weights : Option (List ℝ)) (hw : PosWeights rows weights) (x : ℕ → ℂ) :
    residual rows freqs weights x = 0 ↔ ∀ i < rows.length, rowDot (rows.getD i smOne) x = (freqs.getD i 0 : ℂ) := by
  unfold residual
  rw [Finset.sum_eq_zero_iff_of_nonneg fun i _ => Complex.normSq_nonneg _]
  refine ⟨fun h i hi => ?_, fun h i hi => ?_⟩
  · have := h i (Finset.mem_range.2 hi)
    rw [Complex.normSq_eq_zero, ← mul_sub, mul_eq_zero] at this
    rcases this with h1 | h1
    · exact absurd (by exact_mod_cast h1) (weightAt_pos rows weights hw i hi)
    · exact sub_eq_zero.1 h1
  · rw [h i (Finset.mem_range.1 hi), sub_self, map_zero]

/-- A vector is determined by its products with the rows. -/
theorem eq_of_rowDot (n : ℕ) (rows : List SM)
    (hrows : ∀ op ∈ rows, op.dim = 2 ^ n ∧ ∀ a b, a < 2 ^ n → b < 2 ^ n → (starRingEnd ℂ) (op.e a b) = op.e b a)
    (hcover : ∀ t : Fin n → Fin 3, ∀ s, ∃ op ∈ rows, ∀ a b, a < 2 ^ n → b < 2 ^ n → op.e a b = projN t s a b) (x y : ℕ → ℂ)
    (h : ∀ i < rows.length, rowDot (rows.getD i smOne) x = rowDot (rows.getD i smOne) y) (a b : ℕ) (ha : a < 2 ^ n) (hb : b < 2 ^ n) :
    x (b * 2 ^ n + a) = y (b * 2 ^ n + a) := by
  have key : ∀ t : Fin n → Fin 3, ∀ s, traceMul (2 ^ n) (projN t s) (fun a b => x (b * 2 ^ n + a)) = traceMul (2 ^ n) (projN t s) (fun a b => y (b * 2 ^ n + a)) := by
    intro t s
    obtain ⟨op, hop, he⟩ := hcover t s
    obtain ⟨i, hi, rfl⟩ := List.mem_iff_getElem.1 hop
    have h1 := h i hi
    rw [List.getD_eq_getElem _ _ hi] at h1
    rw [rowDot_congr_op _ (opN t s) (2 ^ n) (hrows _ hop).1 rfl (Nat.two_pow_pos n) he, rowDot_congr_op _ (opN t s) (2 ^ n) (hrows _ hop).1 rfl (Nat.two_pow_pos n) he,
      rowDot_opN, rowDot_opN] at h1
    exact h1
  have h1 := dualN_recon n (fun a b => x (b * 2 ^ n + a)) a b ha hb
  have h2 := dualN_recon n (fun a b => y (b * 2 ^ n + a)) a b ha hb
  rw [← h1, ← h2]
  exact Finset.sum_congr rfl fun t _ => Finset.sum_congr rfl fun s _ => by rw [key]

/-- **C118** (weights).  With any positive weights, in particular the default ones, the least squares problem still has exactly one solution and it is
Hermitian; whenever its trace is positive the fit returns a density matrix. -/
theorem C118_weighted (n : ℕ) (hn : 0 < n) (prep : Str → Option SM) (data : Dict Key Counts) (h : StateData n data)
    (eigh : ℕ → (ℕ → ℕ → ℂ) → (ℕ → ℝ) × (ℕ → ℕ → ℂ)) (he : GoodEigh (2 ^ n) eigh) (standard : Bool) (beta : ℝ) (hb : 0 ≤ beta) :
    ∃ freqs rows weights, fitterData pauliMeas prep data = some (freqs, rows) ∧ fitterWeights standard beta data = some weights ∧
      (∃ x, IsLstsq rows freqs weights x) ∧
      (∀ x y, IsLstsq rows freqs weights x → IsLstsq rows freqs weights y → ∀ a b, a < 2 ^ n → b < 2 ^ n → x (b * 2 ^ n + a) = y (b * 2 ^ n + a)) ∧
      ∀ x, IsLstsq rows freqs weights x → ∃ m, reshapeF (2 ^ n * 2 ^ n) x = some (2 ^ n, m) ∧
        (∀ a b, a < 2 ^ n → b < 2 ^ n → (starRingEnd ℂ) (m a b) = m b a) ∧
        (0 < (tr (2 ^ n) m).re → ∃ p, lstsqPost eigh (2 ^ n * 2 ^ n) x true (some 1) = some p ∧ IsDensity (2 ^ n) p) := by
  obtain ⟨freqs, rows, h1, hfl, hrl, hrows, hcover, hsum⟩ := fitterData_sum n hn prep data h
  have hne : data ≠ [] := by
    have := cnt_mem h (fun _ : Fin n => 0)
    rintro rfl; simp at this
  have hkl : ∀ kv ∈ data, keyLen kv.1 = n := fun kv hkv => by
    obtain ⟨l, e, hl⟩ := h.only kv hkv
    rw [e]; exact hl.1
  obtain ⟨ws, w1, w2, w3⟩ := C53_fitter standard beta hb data n hn hne hkl h.counts
  have hw : PosWeights rows ws := by
    intro l hl
    cases standard
    · rw [w2 rfl] at hl; cases hl
    · obtain ⟨l', e, hlen, hpos⟩ := w3 rfl
      rw [e] at hl
      obtain rfl := Option.some.inj hl
      exact ⟨by rw [hlen, hrl], hpos⟩
  have huniq : ∀ x y, IsLstsq rows freqs ws x → IsLstsq rows freqs ws y → ∀ a b, a < 2 ^ n → b < 2 ^ n → x (b * 2 ^ n + a) = y (b * 2 ^ n + a) := by
    intro x y hx hy
    refine eq_of_rowDot n rows hrows hcover x y fun i hi => ?_
    -- the gradients in direction `x - y` differ by the sum of squares
    have g1 := normal_of_lstsq _ _ _ x hx fun k => x k + -1 * y k
    have g2 := normal_of_lstsq _ _ _ y hy fun k => x k + -1 * y k
    have g3 : gradient rows freqs ws x (fun k => x k + -1 * y k) - gradient rows freqs ws y (fun k => x k + -1 * y k) =
        ((∑ i ∈ Finset.range rows.length, Complex.normSq ((weightAt ws i : ℂ) * (rowDot (rows.getD i smOne) x - rowDot (rows.getD i smOne) y)) : ℝ) : ℂ) := by
      unfold gradient
      rw [← Finset.sum_sub_distrib]
      push_cast
      refine Finset.sum_congr rfl fun i _ => ?_
      rw [rowDot_add, Complex.normSq_eq_conj_mul_self, map_mul, Complex.conj_ofReal, show rowDot (rows.getD i smOne) x + -1 * rowDot (rows.getD i smOne) y =
        rowDot (rows.getD i smOne) x - rowDot (rows.getD i smOne) y by ring]
      ring
    rw [g1, g2, sub_zero] at g3
    have g4 : (∑ i ∈ Finset.range rows.length, Complex.normSq ((weightAt ws i : ℂ) * (rowDot (rows.getD i smOne) x - rowDot (rows.getD i smOne) y)) : ℝ) = 0 := by
      exact_mod_cast g3.symm
    rw [Finset.sum_eq_zero_iff_of_nonneg fun i _ => Complex.normSq_nonneg _] at g4
    have g5 := g4 i (Finset.mem_range.2 hi)
    rw [Complex.normSq_eq_zero, mul_eq_zero] at g5
    rcases g5 with g5 | g5
    · exact absurd (by exact_mod_cast g5) (weightAt_pos rows ws hw i hi)
    · exact sub_eq_zero.1 g5
  refine ⟨freqs, rows, ws, h1, w1, exists_lstsq _ _ _, huniq, fun x hx => ?_⟩
  have hs : Nat.sqrt (2 ^ n * 2 ^ n) = 2 ^ n := Nat.sqrt_eq _
  have hre : reshapeF (2 ^ n * 2 ^ n) x = some (2 ^ n, fun i j => x (j * 2 ^ n + i)) := by unfold reshapeF; rw [hs, if_neg (by simp)]
  -- the adjoint of a solution is a solution
  have hadj : IsLstsq rows freqs ws (vecF (2 ^ n) fun a b => (starRingEnd ℂ) (x (a * 2 ^ n + b))) := by
    have hres : residual rows freqs ws (vecF (2 ^ n) fun a b => (starRingEnd ℂ) (x (a * 2 ^ n + b))) = residual rows freqs ws x := by
      unfold residual
      refine Finset.sum_congr rfl fun i hi => ?_
      have hi' := Finset.mem_range.1 hi
      have hm : rows.getD i smOne ∈ rows := by rw [List.getD_eq_getElem _ _ hi']; exact List.getElem_mem _
      have e : rowDot (rows.getD i smOne) (vecF (2 ^ n) fun a b => (starRingEnd ℂ) (x (a * 2 ^ n + b))) = (starRingEnd ℂ) (rowDot (rows.getD i smOne) x) := by
        rw [rowDot_hermitian _ _ (hrows _ hm).1 (Nat.two_pow_pos n) (hrows _ hm).2, rowDot_hermitian _ _ (hrows _ hm).1 (Nat.two_pow_pos n) (hrows _ hm).2]
        unfold traceMul
        rw [map_sum, Finset.sum_comm]
        refine Finset.sum_congr rfl fun b hb => ?_
        rw [map_sum]
        refine Finset.sum_congr rfl fun a ha => ?_
        have ha' := Finset.mem_range.1 ha
        have hb' := Finset.mem_range.1 hb
        beta_reduce
        rw [vecF_get _ _ _ _ hb', map_mul, (hrows _ hm).2 _ _ hb' ha']
      rw [e]
      have e2 : ((weightAt ws i : ℂ) * (starRingEnd ℂ) (rowDot (rows.getD i smOne) x) - (weightAt ws i : ℂ) * (freqs.getD i 0 : ℂ)) =
          (starRingEnd ℂ) ((weightAt ws i : ℂ) * rowDot (rows.getD i smOne) x - (weightAt ws i : ℂ) * (freqs.getD i 0 : ℂ)) := by
        rw [map_sub, map_mul, map_mul, Complex.conj_ofReal, Complex.conj_ofReal]
      rw [e2, Complex.normSq_conj]
    intro y
    rw [hres]
    exact hx y
  have hh : ∀ a b, a < 2 ^ n → b < 2 ^ n → (starRingEnd ℂ) (x (b * 2 ^ n + a)) = x (a * 2 ^ n + b) := by
    intro a b ha hb
    have := huniq _ _ hadj hx b a hb ha
    rw [vecF_get _ _ _ _ hb] at this
    exact this
  refine ⟨_, hre, hh, fun ht => ?_⟩
  have hh' : ∀ r c, r < 2 ^ n → c < 2 ^ n → (starRingEnd ℂ) ((fun i j => x (j * 2 ^ n + i)) c r) = (fun i j => x (j * 2 ^ n + i)) r c := fun r c hr hc => hh c r hc hr
  obtain ⟨p, q1, q2, q3, q4⟩ := C52_matrix (2 ^ n) _ _ _ (he _ hh') ht.le
  refine ⟨rescaleTrace (2 ^ n) (some 1) p, ?_, ?_⟩
  · unfold lstsqPost
    rw [hre]
    simp [q1]
  · have hpt : ∑ k ∈ Finset.range (2 ^ n), p k k = tr (2 ^ n) p := rfl
    obtain ⟨v, w, hv⟩ := exists_eigh (2 ^ n) p q2
    have hreal : tr (2 ^ n) p = ((tr (2 ^ n) p).re : ℂ) := by
      rw [tr_eigh hv, Complex.ofReal_re]
    have hpos : 0 < (tr (2 ^ n) p).re := by rw [q3]; exact ht
    have hne0 : tr (2 ^ n) p ≠ 0 := by
      rw [hreal]
      exact_mod_cast hpos.ne'
    refine ⟨fun u => ?_, ?_⟩
    · obtain ⟨y, hy, ey⟩ := q2 u
      refine ⟨y / (tr (2 ^ n) p).re, div_nonneg hy hpos.le, ?_⟩
      push_cast
      rw [← hreal, ← ey, div_eq_mul_inv, Finset.sum_mul]
      refine Finset.sum_congr rfl fun r _ => ?_
      rw [Finset.sum_mul]
      refine Finset.sum_congr rfl fun c _ => ?_
      simp only [rescaleTrace]
      rw [hpt]
      ring
    · unfold tr
      simp only [rescaleTrace]
      rw [← Finset.sum_mul, hpt, one_div, mul_inv_cancel₀ hne0]

/-! ### One qubit -/

theorem one_qubit_exact (f : Fin 3 → Bool → ℝ) (hf : ∀ t, f t false + f t true = 1) (t : Fin 3) (s : Bool) :
    ∑ t', ∑ s', (f t' s' : ℂ) * ∑ c, ∑ d, pauliProjector (axisLabel t) s c d * dual1 t' s' d c = f t s := by
  have hf' : ∀ t, (f t true : ℂ) = 1 - f t false := by
    intro t
    rw [← Complex.ofReal_one, ← Complex.ofReal_sub, ← hf t]; congr 1; ring
  have I2 : Complex.I * Complex.I = -1 := Complex.I_mul_I
  fin_cases t <;> cases s <;> simp [dual1, axisLabel, pauliProjector, Fin.sum_univ_three, hf'] <;> ring_nf <;> (simp [Complex.I_sq]; try ring)

/-- The closed form for one qubit fits the data exactly. -/
theorem one_qubit_trace {data : Dict Key Counts} (h : StateData 1 data) (t : Fin 1 → Fin 3) (s : Fin 1 → Bool) :
    traceMul (2 ^ 1) (projN t s) (linearEstimate (n := 1) (freqAt data)) = (freqAt data t s : ℂ) := by
  have hlin : traceMul (2 ^ 1) (projN t s) (linearEstimate (n := 1) (freqAt data)) =
      ∑ t' : Fin 1 → Fin 3, ∑ s' : Fin 1 → Bool, (freqAt data t' s' : ℂ) * traceMul (2 ^ 1) (projN t s) (dualN t' s') := by
    unfold traceMul linearEstimate
    simp only [Finset.mul_sum]
    have e1 : ∀ a ∈ Finset.range (2 ^ 1), ∑ b ∈ Finset.range (2 ^ 1), ∑ t' : Fin 1 → Fin 3, ∑ s' : Fin 1 → Bool, projN t s a b * ((freqAt data t' s' : ℂ) * dualN t' s' b a) =
        ∑ t' : Fin 1 → Fin 3, ∑ s' : Fin 1 → Bool, ∑ b ∈ Finset.range (2 ^ 1), projN t s a b * ((freqAt data t' s' : ℂ) * dualN t' s' b a) := by
      intro a _
      rw [Finset.sum_comm]
      refine Finset.sum_congr rfl fun t' _ => ?_
      rw [Finset.sum_comm]
    rw [Finset.sum_congr rfl e1, Finset.sum_comm]
    refine Finset.sum_congr rfl fun t' _ => ?_
    rw [Finset.sum_comm]
    exact Finset.sum_congr rfl fun s' _ => Finset.sum_congr rfl fun a _ => Finset.sum_congr rfl fun b _ => by ring
  have hten : ∀ t' : Fin 1 → Fin 3, ∀ s' : Fin 1 → Bool, traceMul (2 ^ 1) (projN t s) (dualN t' s') =
      ∑ c, ∑ d, pauliProjector (axisLabel (t 0)) (s 0) c d * dual1 (t' 0) (s' 0) d c := by
    intro t' s'
    have := traceMul_tensor 1 (fun j => pauliProjector (axisLabel (t j)) (s j)) fun j => dual1 (t' j) (s' j)
    refine this.trans ?_
    simp
  rw [hlin]
  simp only [hten]
  have hone := one_qubit_exact (fun t s => freqAt data (fun _ : Fin 1 => t) fun _ => s) (fun t => by
    have := freqAt_sum Nat.one_pos h (fun _ : Fin 1 => t)
    rw [← this, ← (Equiv.funUnique (Fin 1) Bool).symm.sum_comp, Fintype.sum_bool, add_comm]
    rfl) (t 0) (s 0)
  have et : ∀ t : Fin 1 → Fin 3, (fun _ : Fin 1 => t 0) = t := fun t => funext fun i => by rw [Subsingleton.elim i 0]
  have es : ∀ s : Fin 1 → Bool, (fun _ : Fin 1 => s 0) = s := fun s => funext fun i => by rw [Subsingleton.elim i 0]
  rw [et t, es s] at hone
  rw [← hone, ← (Equiv.funUnique (Fin 1) (Fin 3)).symm.sum_comp]
  refine Finset.sum_congr rfl fun t' _ => ?_
  rw [← (Equiv.funUnique (Fin 1) Bool).symm.sum_comp]
  rfl

/-- **C118** (one qubit).  For one qubit the weights do not matter: the default weighted fit returns what the fit without weights returns, so all of the
above, with `n = 1`, holds for it. -/
theorem C118_one_qubit (prep : Str → Option SM) (data : Dict Key Counts) (h : StateData 1 data) (eigh : ℕ → (ℕ → ℕ → ℂ) → (ℕ → ℝ) × (ℕ → ℕ → ℂ))
    (standard : Bool) (beta : ℝ) (hb : 0 ≤ beta) (m : ℕ → ℕ → ℂ) (hm : FitReturns standard beta eigh prep 1 data m) : FitReturns false beta eigh prep 1 data m := by
  obtain ⟨freqs, rows, weights, x, h1, h2, hx, hp⟩ := hm
  obtain ⟨freqs', rows', h1', hfl, hrl, hrows, hcover, hsum⟩ := fitterData_sum 1 Nat.one_pos prep data h
  obtain ⟨rfl, rfl⟩ : freqs' = freqs ∧ rows' = rows := by
    rw [h1'] at h1; exact Prod.mk.inj (Option.some.inj h1)
  have hne : data ≠ [] := by
    have := cnt_mem h (fun _ : Fin 1 => 0)
    rintro rfl; simp at this
  have hkl : ∀ kv ∈ data, keyLen kv.1 = 1 := fun kv hkv => by
    obtain ⟨l, e, hl⟩ := h.only kv hkv
    rw [e]; exact hl.1
  obtain ⟨ws, w1, w2, w3⟩ := C53_fitter standard beta hb data 1 Nat.one_pos hne hkl h.counts
  obtain rfl : ws = weights := by rw [w1] at h2; exact Option.some.inj h2
  have hw : PosWeights rows' ws := by
    intro l hl
    cases standard
    · rw [w2 rfl] at hl; cases hl
    · obtain ⟨l', e, hlen, hpos⟩ := w3 rfl
      rw [e] at hl
      obtain rfl := Option.some.inj hl
      exact ⟨by rw [hlen, hrl], hpos⟩
  have hnone : PosWeights rows' none := fun ws h => by cases h
  -- the closed form fits the data exactly
  have hex : residual rows' freqs' none (vecF (2 ^ 1) (linearEstimate (n := 1) (freqAt data))) = 0 := by
    unfold residual
    simp only [weightAt, Complex.ofReal_one, one_mul]
    rw [hsum ℝ (fun op f => Complex.normSq (rowDot op (vecF (2 ^ 1) (linearEstimate (n := 1) (freqAt data))) - (f : ℂ))) fun op op' f e1 e2 e3 => by
      rw [rowDot_congr_op op op' _ e1 e2 (Nat.two_pow_pos 1) e3]]
    refine Finset.sum_eq_zero fun t _ => Finset.sum_eq_zero fun s _ => ?_
    rw [Complex.normSq_eq_zero, sub_eq_zero, rowDot_opN,
      traceMul_congr (2 ^ 1) (fun _ _ _ _ => rfl) (fun a' b' ha' _ => vecF_get (2 ^ 1) (linearEstimate (n := 1) (freqAt data)) a' b' ha')]
    exact one_qubit_trace h t s
  have hall := (residual_zero rows' freqs' none hnone _).1 hex
  have hwz := (residual_zero rows' freqs' ws hw _).2 hall
  have hxz : residual rows' freqs' ws x = 0 := by
    refine le_antisymm ?_ (Finset.sum_nonneg fun i _ => Complex.normSq_nonneg _)
    rw [← hwz]; exact hx _
  have hx0 := (residual_zero rows' freqs' none hnone x).2 ((residual_zero rows' freqs' ws hw x).1 hxz)
  obtain ⟨_, _, _, hwn, _, _⟩ := C118_estimate 1 Nat.one_pos prep data h
  refine ⟨freqs', rows', none, x, h1', hwn beta, fun y => ?_, hp⟩
  rw [hx0]
  exact Finset.sum_nonneg fun i _ => Complex.normSq_nonneg _

/-! ### The hypotheses are met -/

/-- The counts of a list of outcome strings, as a backend collects them. -/
def shotCounts (l : List Str) : Counts := l.foldl (fun d k => d.set k (d.getD k 0 + 1)) []

theorem shotCounts_spec (l : List Str) : (shotCounts l).WF ∧ (∀ k, (shotCounts l).getD k 0 = (l.count k : ℤ)) ∧ ∀ k, k ∈ (shotCounts l).map (·.1) ↔ k ∈ l := by
  induction l using List.reverseRecOn with
  | nil => exact ⟨Dict.wf_nil, fun k => rfl, fun k => by simp [shotCounts]⟩
  | append_singleton l x ih =>
    obtain ⟨h1, h2, h3⟩ := ih
    have e : shotCounts (l ++ [x]) = (shotCounts l).set x ((shotCounts l).getD x 0 + 1) := by
      unfold shotCounts
      rw [List.foldl_append]; rfl
    rw [e]
    refine ⟨Dict.wf_set _ h1 _ _, fun k => ?_, fun k => ?_⟩
    · rw [Dict.getD_set, h2, h2, List.count_append, List.count_singleton]
      by_cases hk : k = x
      · subst hk; simp
      · simp [hk, Ne.symm hk]
    · have := Dict.mem_keys_set (shotCounts l) x k ((shotCounts l).getD x 0 + 1)
      rw [this, h3]
      simp [or_comm]

/-- The data of an experiment with the given shots. -/
noncomputable def experiment {n N : ℕ} (ω : Shots n N) : Dict Key Counts :=
  (Finset.univ : Finset (Fin n → Fin 3)).toList.map fun t =>
    (Key.state (settingLabel t), shotCounts ((List.finRange N).map fun i => outcomeStr (ω (t, i))))

theorem outcomeStr_inj {n : ℕ} : Function.Injective (outcomeStr (n := n)) := by
  intro s s' h
  have := congrArg ofBin h
  rw [ofBin_outcomeStr, ofBin_outcomeStr] at this
  funext j
  rw [← testBit_ofBits' s j, ← testBit_ofBits' s' j, this]

/-- Every list of shots, at least one per label, gives tomography data. -/
theorem C118_experiment (n N : ℕ) (hN : 0 < N) (ω : Shots n N) : Sampled (experiment ω) ω := by
  have hmem : ∀ t c, (Key.state (settingLabel t), c) ∈ experiment ω ↔ c = shotCounts ((List.finRange N).map fun i => outcomeStr (ω (t, i))) := by
    intro t c
    unfold experiment
    rw [List.mem_map]
    constructor
    · rintro ⟨t', _, e⟩
      obtain ⟨e1, e2⟩ := Prod.mk.inj e
      obtain rfl := settingLabel_inj (Key.state.inj e1)
      exact e2.symm
    · rintro rfl
      exact ⟨t, by simp, rfl⟩
  refine ⟨⟨?_, ?_, ?_, ?_⟩, ?_⟩
  · show (List.map (·.1) (experiment ω)).Nodup
    unfold experiment
    rw [List.map_map]
    refine (Finset.nodup_toList _).map ?_
    intro t t' e
    exact settingLabel_inj (Key.state.inj e)
  · intro kv hkv
    obtain ⟨t, _, rfl⟩ := List.mem_map.1 hkv
    exact ⟨_, rfl, settingLabel_isLabel t⟩
  · intro l hl
    obtain ⟨t, rfl⟩ := exists_setting l hl
    exact ⟨_, (hmem t _).2 rfl⟩
  · intro kv hkv
    obtain ⟨t, _, rfl⟩ := List.mem_map.1 hkv
    obtain ⟨h1, h2, h3⟩ := shotCounts_spec ((List.finRange N).map fun i => outcomeStr (ω (t, i)))
    set c := shotCounts ((List.finRange N).map fun i => outcomeStr (ω (t, i))) with hc
    have hkey : ∀ kv ∈ c, ∃ i, kv.1 = outcomeStr (ω (t, i)) := by
      intro kv hkv
      have := (h3 kv.1).1 (List.mem_map.2 ⟨kv, hkv, rfl⟩)
      obtain ⟨i, _, e⟩ := List.mem_map.1 this
      exact ⟨i, e.symm⟩
    have hval : ∀ kv ∈ c, 0 < kv.2 := by
      intro kv hkv
      have e1 := h2 kv.1
      unfold Dict.getD at e1
      rw [Dict.get?_of_mem c h1 kv.1 kv.2 hkv] at e1
      have e2 : kv.2 = (((List.finRange N).map fun i => outcomeStr (ω (t, i))).count kv.1 : ℤ) := e1
      rw [e2]
      exact_mod_cast List.count_pos_iff.2 ((h3 kv.1).1 (List.mem_map.2 ⟨kv, hkv, rfl⟩))
    have hne : c ≠ [] := by
      intro h0
      have := (h3 (outcomeStr (ω (t, ⟨0, hN⟩)))).2 (List.mem_map.2 ⟨⟨0, hN⟩, List.mem_finRange _, rfl⟩)
      rw [h0] at this
      simp at this
    refine ⟨⟨hne, h1, ?_, ?_⟩, fun kv hkv => (hval kv hkv).le, ?_⟩
    · intro kv hkv
      obtain ⟨i, e⟩ := hkey kv hkv
      rw [e]; exact (outcomeStr_bits _).1
    · intro kv hkv
      obtain ⟨i, e⟩ := hkey kv hkv
      rw [e]; exact (outcomeStr_bits _).2
    · unfold total
      exact List.sum_pos _ (fun x hx => by obtain ⟨kv, hkv, rfl⟩ := List.mem_map.1 hx; exact hval kv hkv) (by simpa using hne)
  · intro t c htc s
    rw [(hmem t c).1 htc, (shotCounts_spec _).2.1, Nat.cast_inj]
    rw [List.count, List.countP_map, List.countP_eq_length_filter]
    have e : ∀ i : Fin N, ((fun x => x == outcomeStr s) ∘ fun i => outcomeStr (ω (t, i))) i = decide (ω (t, i) = s) := by
      intro i
      rw [Bool.eq_iff_iff]
      simp only [Function.comp, beq_iff_eq, decide_eq_true_eq]
      exact outcomeStr_inj.eq_iff
    rw [show ((fun x => x == outcomeStr s) ∘ fun i => outcomeStr (ω (t, i))) = fun i => decide (ω (t, i) = s) from funext e, Fin.univ_def]
    rfl

/-- A linear algebra routine as required exists. -/
theorem exists_goodEigh (d : ℕ) : ∃ eigh, GoodEigh d eigh := by
  classical
  refine ⟨fun d m => if h : ∀ r c, r < d → c < d → (starRingEnd ℂ) (m c r) = m r c then
    ((exists_eigh_hermitian d m h).choose, (exists_eigh_hermitian d m h).choose_spec.choose) else (fun _ => 0, fun _ _ => 0), fun m hm => ?_⟩
  beta_reduce
  rw [dif_pos hm]
  exact (exists_eigh_hermitian d m hm).choose_spec.choose_spec

/-- For every number of qubits, state and number of shots the experiment and the fit exist, and the bound holds of them. -/
example (n N : ℕ) (hn : 0 < n) (hN : 0 < N) (ρ : ℕ → ℕ → ℂ) (hρ : IsDensity (2 ^ n) ρ) :
    ∃ eigh, ∃ fit : Shots n N → ℕ → ℕ → ℂ, (∀ ω, FitReturns false (1/2) eigh (fun _ => none) n (experiment ω) (fit ω)) ∧
      ∑ ω, shotsProb ρ ω * dist2 (2 ^ n) (fit ω) ρ ≤ (5 / 3) ^ n / N := by
  obtain ⟨eigh, he⟩ := exists_goodEigh (2 ^ n)
  choose fit hfit using fun ω : Shots n N => (C118_fit n hn (fun _ => none) _ (C118_experiment n N hN ω).toStateData eigh he (1/2)).1
  exact ⟨eigh, fit, hfit, C118_accuracy n N hn hN ρ hρ experiment (C118_experiment n N hN) _ eigh he _ fit hfit⟩

/-- One qubit in `|0><0|`. -/
example : IsDensity (2 ^ 1) exState := ⟨exState_psd, by simp [tr, exState]⟩

/-- One qubit, 100 shots of each of the three labels: the mean squared error is at most 1/60. -/
example : ((5 : ℝ) / 3) ^ 1 / (100 : ℕ) = 1 / 60 := by norm_num

end Verif.Tomo
