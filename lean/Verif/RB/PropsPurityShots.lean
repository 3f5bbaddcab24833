import Verif.RB.SpecPurityShots
import Verif.Expval.PropsCalShots
import Mathlib.Algebra.Order.Chebyshev
set_option linter.unusedSimpArgs false
set_option linter.unusedVariables false
set_option linter.unusedSectionVars false
/-
C127: purities computed from finitely many shots.
-/
namespace Verif.RB
open Verif Verif.Counts Verif.Expval

variable {O : Type} [Fintype O] {N : ℕ}

/-! ### Independent numbers -/

theorem marginal_two {I U : Type} [Fintype I] [DecidableEq I] [Fintype U] (Q : I → U → ℝ) (hQ : ∀ i, ∑ u, Q i u = 1) {i j : I} (hij : i ≠ j) (f g : U → ℝ) :
    ∑ κ : I → U, (∏ i, Q i (κ i)) * (f (κ i) * g (κ j)) = (∑ u, Q i u * f u) * ∑ u, Q j u * g u := by
  have := Finset.prod_univ_sum (fun _ : I => (Finset.univ : Finset U)) fun k u => Q k u * ((if k = i then f u else 1) * if k = j then g u else 1)
  rw [Fintype.piFinset_univ] at this
  have h1 : (∏ k, ∑ u, Q k u * ((if k = i then f u else 1) * if k = j then g u else 1)) = (∑ u, Q i u * f u) * ∑ u, Q j u * g u := by
    rw [Finset.prod_eq_mul i j hij (fun k _ hk => by simp [hk.1, hk.2, hQ]) (fun h => absurd (Finset.mem_univ _) h) (fun h => absurd (Finset.mem_univ _) h)]
    simp [hij, hij.symm]
  rw [← h1, this]
  refine Finset.sum_congr rfl fun κ _ => ?_
  rw [Finset.prod_mul_distrib, Finset.prod_mul_distrib]
  congr 2
  · rw [Finset.prod_eq_single i (fun k _ hk => by simp [hk]) (fun h => absurd (Finset.mem_univ _) h), if_pos rfl]
  · rw [Finset.prod_eq_single j (fun k _ hk => by simp [hk]) (fun h => absurd (Finset.mem_univ _) h), if_pos rfl]

/-- The variance of a sum of independent numbers. -/
theorem sum_variance {I U X : Type} [Fintype I] [DecidableEq I] [Fintype U] [DecidableEq X] (Q : I → U → ℝ) (hQ : ∀ i, ∑ u, Q i u = 1) (S : Finset X) (ι : X → I)
    (hι : ∀ a ∈ S, ∀ b ∈ S, ι a = ι b → a = b) (f : X → U → ℝ) (hf : ∀ a ∈ S, ∑ u, Q (ι a) u * f a u = 0) :
    ∑ κ : I → U, (∏ i, Q i (κ i)) * (∑ a ∈ S, f a (κ (ι a))) ^ 2 = ∑ a ∈ S, ∑ u, Q (ι a) u * f a u ^ 2 := by
  have e : ∀ κ : I → U, (∏ i, Q i (κ i)) * (∑ a ∈ S, f a (κ (ι a))) ^ 2 = ∑ a ∈ S, ∑ b ∈ S, (∏ i, Q i (κ i)) * (f a (κ (ι a)) * f b (κ (ι b))) := by
    intro κ
    rw [sq, Finset.sum_mul_sum, Finset.mul_sum]
    exact Finset.sum_congr rfl fun a _ => Finset.mul_sum _ _ _
  simp only [e]
  rw [Finset.sum_comm]
  refine Finset.sum_congr rfl fun a ha => ?_
  rw [Finset.sum_comm, Finset.sum_eq_single a]
  · have := marginal_one Q hQ (ι a) fun u => f a u ^ 2
    rw [← this]
    exact Finset.sum_congr rfl fun κ _ => by rw [sq]
  · intro b hb hne
    rw [marginal_two Q hQ (fun h => hne (hι a ha b hb h).symm) (f a) (f b), hf a ha, zero_mul]
  · intro h; exact absurd ha h

/-! ### The circuits that measure a Pauli string -/

theorem sum_blocks (k n : ℕ) {A : Type} [AddCommMonoid A] (g : ℕ → A) : ∑ i ∈ Finset.range (n * k), g i = ∑ a ∈ Finset.range n, ∑ b ∈ Finset.range k, g (k * a + b) := by
  induction n with
  | zero => simp
  | succ n ih => rw [Nat.succ_mul, Finset.sum_range_add, ih, Finset.sum_range_succ, Nat.mul_comm k n]

theorem idle_succ (m c : ℕ) : idle (m + 1) c = idle m (c / 4) + if c % 4 = 0 then 1 else 0 := by
  unfold idle
  rw [Finset.card_filter, Finset.card_filter, Finset.sum_range_succ']
  congr 1
  · refine Finset.sum_congr rfl fun i _ => ?_
    rw [pow_succ, Nat.mul_comm (4 ^ i), ← Nat.div_div_eq_div_mul]
  · simp

theorem pairs_nodup (m c : ℕ) : (Fit.pairsOf m c).Nodup := by
  unfold Fit.pairsOf
  refine List.Nodup.filter _ ?_
  rw [List.nodup_flatMap]
  refine ⟨fun d _ => List.Nodup.map (fun a b h => by simpa using h) List.nodup_range, ?_⟩
  refine List.Pairwise.imp ?_ (List.nodup_range (n := 3 ^ m))
  intro a b hab
  rw [Function.onFun, List.disjoint_left]
  intro x hx hy
  obtain ⟨i, -, rfl⟩ := List.mem_map.1 hx
  obtain ⟨j, -, h⟩ := List.mem_map.1 hy
  simp only [Prod.mk.injEq] at h
  exact hab h.1.symm

theorem pairs_length_sum (m c : ℕ) (hc : c < 4 ^ m) : (Fit.pairsOf m c).length = ∑ d ∈ Finset.range (3 ^ m), ∑ ind ∈ Finset.range (2 ^ m), if Purity.F234 m ind d = c then 1 else 0 := by
  unfold Fit.pairsOf
  rw [List.filter_flatMap, List.length_flatMap]
  change ∑ d ∈ Finset.range (3 ^ m), _ = _
  refine Finset.sum_congr rfl fun d _ => ?_
  rw [← Finset.card_filter, List.filter_map, List.length_map]
  have : (List.range (2 ^ m)).filter ((fun x : ℕ × ℕ => decide (Fit.IsCorr m x.2 x.1 c)) ∘ fun ind => (d, ind)) = (List.range (2 ^ m)).filter fun ind => decide (Purity.F234 m ind d = c) := by
    refine List.filter_congr fun ind _ => ?_
    simp only [Function.comp]
    rw [decide_eq_decide]
    exact Fit.isCorr_iff m ind d c hc
  rw [this]
  rfl

theorem letters_count (r : ℕ) (hr : r < 4) : ∑ y ∈ Finset.range 3, ∑ x ∈ Finset.range 2, (if Purity.lut x y = r then 1 else 0) = 3 ^ if r = 0 then 1 else 0 := by
  have : ∀ r < 4, ∑ y ∈ Finset.range 3, ∑ x ∈ Finset.range 2, (if Purity.lut x y = r then 1 else 0) = 3 ^ if r = 0 then 1 else 0 := by decide
  exact this r hr

theorem lut_lt (x y : ℕ) (hx : x < 2) (hy : y < 3) : Purity.lut x y < 4 := by
  have : ∀ x < 2, ∀ y < 3, Purity.lut x y < 4 := by decide
  exact this x hx y hy

/-- A Pauli string is measured by three circuits for every qubit on which it is the identity. -/
theorem pairs_length (m c : ℕ) (hc : c < 4 ^ m) : (Fit.pairsOf m c).length = 3 ^ idle m c := by
  rw [pairs_length_sum m c hc]
  induction m generalizing c with
  | zero => simp at hc; simp [idle, Purity.F234, hc]
  | succ m ih =>
    rw [pow_succ, sum_blocks, pow_succ]
    simp only [sum_blocks 2 (2 ^ m)]
    rw [idle_succ, pow_add, ← ih (c / 4) (by rw [pow_succ] at hc; omega), ← letters_count (c % 4) (by omega), Finset.sum_mul]
    refine Finset.sum_congr rfl fun d _ => ?_
    rw [Finset.sum_mul]
    have e : ∀ ind y, y ∈ Finset.range 3 → ∑ x ∈ Finset.range 2, (if Purity.F234 (m + 1) (2 * ind + x) (3 * d + y) = c then 1 else 0) =
        (if Purity.F234 m ind d = c / 4 then 1 else 0) * ∑ x ∈ Finset.range 2, if Purity.lut x y = c % 4 then 1 else 0 := by
      intro ind y hy
      rw [Finset.mul_sum]
      refine Finset.sum_congr rfl fun x hx => ?_
      have hx := Finset.mem_range.1 hx
      have hy := Finset.mem_range.1 hy
      have h4 := lut_lt x y hx hy
      rw [Purity.F234, show (2 * ind + x) % 2 = x by omega, show (3 * d + y) % 3 = y by omega, show (2 * ind + x) / 2 = ind by omega, show (3 * d + y) / 3 = d by omega]
      by_cases h1 : Purity.F234 m ind d = c / 4
      · by_cases h2 : Purity.lut x y = c % 4
        · rw [if_pos h1, if_pos h2, if_pos (by omega), one_mul]
        · rw [if_pos h1, if_neg h2, if_neg (by omega), one_mul]
      · rw [if_neg h1, zero_mul, if_neg (by omega)]
    have e2 : ∀ y ∈ Finset.range 3, ∑ ind ∈ Finset.range (2 ^ m), ∑ x ∈ Finset.range 2, (if Purity.F234 (m + 1) (2 * ind + x) (3 * d + y) = c then 1 else 0) =
        ∑ ind ∈ Finset.range (2 ^ m), (if Purity.F234 m ind d = c / 4 then 1 else 0) * ∑ x ∈ Finset.range 2, if Purity.lut x y = c % 4 then 1 else 0 :=
      fun y hy => Finset.sum_congr rfl fun ind _ => e ind y hy
    rw [Finset.sum_congr rfl e2, Finset.sum_comm]
    exact Finset.sum_congr rfl fun ind _ => (Finset.mul_sum _ _ _).symm

/-- The sum over all Pauli strings. -/
theorem idle_total (m : ℕ) : ∑ c ∈ Finset.range (4 ^ m), (1 : ℝ) / 3 ^ idle m c = (10 / 3) ^ m := by
  induction m with
  | zero => simp [idle]
  | succ m ih =>
    rw [pow_succ, sum_blocks, pow_succ, ← ih, Finset.sum_mul]
    refine Finset.sum_congr rfl fun c _ => ?_
    have e : ∀ r ∈ Finset.range 4, (1 : ℝ) / 3 ^ idle (m + 1) (4 * c + r) = 1 / 3 ^ idle m c * (1 / 3 ^ if r = 0 then 1 else 0) := by
      intro r hr
      have hr := Finset.mem_range.1 hr
      rw [idle_succ, show (4 * c + r) / 4 = c by omega, show (4 * c + r) % 4 = r by omega, pow_add, one_div_mul_one_div]
    rw [Finset.sum_congr rfl e, ← Finset.mul_sum]
    congr 1
    simp [Finset.sum_range_succ]
    norm_num

theorem pairs_inj {m c : ℕ} {a b : ℕ × ℕ} (ha : a ∈ Fit.pairsOf m c) (hb : b ∈ Fit.pairsOf m c) (h : a.1 = b.1) : a = b := by
  obtain ⟨-, a2, a3⟩ := pairs_mem ha
  obtain ⟨-, b2, b3⟩ := pairs_mem hb
  refine Prod.ext h (Nat.eq_of_testBit_eq fun i => ?_)
  by_cases hi : i < m
  · have h1 := a3 i hi
    have h2 := b3 i hi
    rw [h1, h] at h2
    have hl : ∀ y, Purity.letter (y % 3) ≠ 0 := by
      intro y
      have : ∀ z < 3, Purity.letter z ≠ 0 := by decide
      exact this _ (Nat.mod_lt _ (by norm_num))
    cases ha' : a.2.testBit i <;> cases hb' : b.2.testBit i <;> rw [ha', hb'] at h2 <;> simp at h2 ⊢
    · exact hl _ h2.symm
    · exact hl _ h2
  · rw [Nat.testBit_lt_two_pow (lt_of_lt_of_le a2 (Nat.pow_le_pow_right (by norm_num) (by omega))),
      Nat.testBit_lt_two_pow (lt_of_lt_of_le b2 (Nat.pow_le_pow_right (by norm_num) (by omega)))]

/-! ### The estimate of a Pauli string -/

/-- The estimate of the expectation value of a Pauli string from the shots. -/
noncomputable def shotMean (lo m : ℕ) (out : O → Str) (ω : Fin (3 ^ m) → Fin N → O) (c : ℕ) : ℝ :=
  (∑ x ∈ (Fit.pairsOf m c).toFinset, QV.avg (fun o => (Fit.signOn lo m x.2 (out o) : ℝ)) (ω (Fin.ofNat (3 ^ m) x.1))) / 3 ^ idle m c

theorem sign_sq (lo m ind : ℕ) (s : Str) : (Fit.signOn lo m ind s : ℝ) ^ 2 = 1 := by
  unfold Fit.signOn
  push_cast
  rw [← pow_mul, mul_comm, pow_mul]
  norm_num

variable {w : ℕ → O → ℝ} {out : O → Str} {lo m : ℕ} {x : ℕ → ℝ}

theorem shotsProb_one (h : Measures w out lo m x) (d : Fin (3 ^ m)) : ∑ u : Fin N → O, shotsProb (w d) u = 1 :=
  QV.draws_sum_one N _ (h.distr d d.2).2

theorem runProb_nonneg (h : Measures w out lo m x) (ω : Fin (3 ^ m) → Fin N → O) : 0 ≤ runProb m w ω :=
  Finset.prod_nonneg fun d _ => Finset.prod_nonneg fun k _ => (h.distr d d.2).1 _

theorem runProb_one (h : Measures w out lo m x) : ∑ ω : Fin (3 ^ m) → Fin N → O, runProb m w ω = 1 :=
  product_one (fun (d : Fin (3 ^ m)) (u : Fin N → O) => shotsProb (w d) u) (shotsProb_one h)

theorem ofNat_val {d : ℕ} (hd : d < 3 ^ m) : (Fin.ofNat (3 ^ m) d : ℕ) = d := Nat.mod_eq_of_lt hd

theorem avg_pair (h : Measures w out lo m x) {c : ℕ} (hc : c < 4 ^ m) {a : ℕ × ℕ} (ha : a ∈ Fit.pairsOf m c) :
    ∑ o, w (Fin.ofNat (3 ^ m) a.1 : Fin (3 ^ m)) o * (Fit.signOn lo m a.2 (out o) : ℝ) = x c := by
  obtain ⟨h1, h2, h3⟩ := pairs_mem ha
  rw [ofNat_val h1]
  exact h.expect _ h1 _ h2 c hc h3

theorem shotMean_mean (hN : 0 < N) (h : Measures w out lo m x) {c : ℕ} (hc : c < 4 ^ m) :
    ∑ ω : Fin (3 ^ m) → Fin N → O, runProb m w ω * shotMean lo m out ω c = x c := by
  have e : ∀ ω : Fin (3 ^ m) → Fin N → O, runProb m w ω * shotMean lo m out ω c =
      (∑ a ∈ (Fit.pairsOf m c).toFinset, runProb m w ω * QV.avg (fun o => (Fit.signOn lo m a.2 (out o) : ℝ)) (ω (Fin.ofNat (3 ^ m) a.1))) / 3 ^ idle m c := by
    intro ω
    unfold shotMean
    rw [← Finset.mul_sum, mul_div_assoc]
  simp only [e]
  rw [← Finset.sum_div, Finset.sum_comm]
  have e2 : ∀ a ∈ (Fit.pairsOf m c).toFinset, ∑ ω : Fin (3 ^ m) → Fin N → O, runProb m w ω * QV.avg (fun o => (Fit.signOn lo m a.2 (out o) : ℝ)) (ω (Fin.ofNat (3 ^ m) a.1)) = x c := by
    intro a ha
    have ha := List.mem_toFinset.1 ha
    have h1 := marginal_one (fun (d : Fin (3 ^ m)) (u : Fin N → O) => shotsProb (w d) u) (shotsProb_one h) (Fin.ofNat (3 ^ m) a.1)
      fun u => QV.avg (fun o => (Fit.signOn lo m a.2 (out o) : ℝ)) u
    refine h1.trans ?_
    refine (QV.avg_mean N hN _ (h.distr _ (Fin.ofNat (3 ^ m) a.1).2).2 _).trans ?_
    exact avg_pair h hc ha
  rw [Finset.sum_congr rfl e2, Finset.sum_const, List.toFinset_card_of_nodup (pairs_nodup m c), pairs_length m c hc, nsmul_eq_mul]
  push_cast
  rw [mul_div_cancel_left₀ _ (by positivity)]

theorem shotMean_var (hN : 0 < N) (h : Measures w out lo m x) {c : ℕ} (hc : c < 4 ^ m) :
    ∑ ω : Fin (3 ^ m) → Fin N → O, runProb m w ω * (shotMean lo m out ω c - x c) ^ 2 = (1 - x c ^ 2) / (N * 3 ^ idle m c) := by
  have hM : (3 : ℝ) ^ idle m c ≠ 0 := by positivity
  have hcard : ((Fit.pairsOf m c).toFinset.card : ℝ) = 3 ^ idle m c := by
    rw [List.toFinset_card_of_nodup (pairs_nodup m c), pairs_length m c hc]; push_cast; rfl
  have hz : ∀ a ∈ (Fit.pairsOf m c).toFinset, ∑ u : Fin N → O, shotsProb (w (Fin.ofNat (3 ^ m) a.1 : Fin (3 ^ m))) u * (QV.avg (fun o => (Fit.signOn lo m a.2 (out o) : ℝ)) u - x c) = 0 := by
    intro a ha
    simp only [mul_sub, Finset.sum_sub_distrib, ← Finset.sum_mul]
    rw [shotsProb_one h, one_mul, sub_eq_zero]
    exact (QV.avg_mean N hN _ (h.distr _ (Fin.ofNat (3 ^ m) a.1).2).2 _).trans (avg_pair h hc (List.mem_toFinset.1 ha))
  have hv : ∀ a ∈ (Fit.pairsOf m c).toFinset, ∑ u : Fin N → O, shotsProb (w (Fin.ofNat (3 ^ m) a.1 : Fin (3 ^ m))) u * (QV.avg (fun o => (Fit.signOn lo m a.2 (out o) : ℝ)) u - x c) ^ 2 =
      (1 - x c ^ 2) / N := by
    intro a ha
    have := QV.avg_variance N hN _ (h.distr _ (Fin.ofNat (3 ^ m) a.1).2).2 (fun o => (Fit.signOn lo m a.2 (out o) : ℝ)) (x c) (avg_pair h hc (List.mem_toFinset.1 ha))
    refine this.trans ?_
    simp only [sign_sq, mul_one]
    rw [(h.distr _ (Fin.ofNat (3 ^ m) a.1).2).2]
  have key := sum_variance (fun (d : Fin (3 ^ m)) (u : Fin N → O) => shotsProb (w d) u) (shotsProb_one h) (Fit.pairsOf m c).toFinset (fun a => Fin.ofNat (3 ^ m) a.1)
    (by
      intro a ha b hb hab
      have ha := List.mem_toFinset.1 ha
      have hb := List.mem_toFinset.1 hb
      refine pairs_inj ha hb ?_
      have := congrArg Fin.val hab
      simp only [ofNat_val (pairs_mem ha).1, ofNat_val (pairs_mem hb).1] at this
      exact this)
    (fun a u => QV.avg (fun o => (Fit.signOn lo m a.2 (out o) : ℝ)) u - x c) hz
  rw [Finset.sum_congr rfl hv, Finset.sum_const, nsmul_eq_mul, hcard] at key
  have e : ∀ ω : Fin (3 ^ m) → Fin N → O, runProb m w ω * (shotMean lo m out ω c - x c) ^ 2 =
      (∏ d : Fin (3 ^ m), shotsProb (w d) (ω d)) * (∑ a ∈ (Fit.pairsOf m c).toFinset, (QV.avg (fun o => (Fit.signOn lo m a.2 (out o) : ℝ)) (ω (Fin.ofNat (3 ^ m) a.1)) - x c)) ^ 2 / (3 ^ idle m c) ^ 2 := by
    intro ω
    unfold shotMean runProb
    rw [Finset.sum_sub_distrib, Finset.sum_const, nsmul_eq_mul, hcard]
    field_simp
  simp only [e]
  rw [← Finset.sum_div, key]
  field_simp

/-! ### The purity -/

theorem shotMean_sq (hN : 0 < N) (h : Measures w out lo m x) {c : ℕ} (hc : c < 4 ^ m) :
    ∑ ω : Fin (3 ^ m) → Fin N → O, runProb m w ω * shotMean lo m out ω c ^ 2 = x c ^ 2 + (1 - x c ^ 2) / (N * 3 ^ idle m c) := by
  have h1 := shotMean_var hN h hc
  have h2 := shotMean_mean hN h hc
  have h3 := runProb_one (N := N) h
  have e : ∀ ω : Fin (3 ^ m) → Fin N → O, runProb m w ω * shotMean lo m out ω c ^ 2 =
      runProb m w ω * (shotMean lo m out ω c - x c) ^ 2 + 2 * x c * (runProb m w ω * shotMean lo m out ω c) - x c ^ 2 * runProb m w ω := fun ω => by ring
  simp only [e, Finset.sum_sub_distrib, Finset.sum_add_distrib, ← Finset.mul_sum]
  rw [h1, h2, h3]
  ring

theorem x_le (h : Measures w out lo m x) {c : ℕ} (hc : c < 4 ^ m) : x c ^ 2 ≤ 1 := by
  have hp := pairs_pos m hc
  obtain ⟨a, ha⟩ := List.exists_mem_of_length_pos hp
  have hd := h.distr _ (Fin.ofNat (3 ^ m) a.1).2
  rw [← avg_pair h hc ha, sq_le_one_iff_abs_le_one]
  refine (Finset.abs_sum_le_sum_abs _ _).trans ?_
  rw [← hd.2]
  refine Finset.sum_le_sum fun o _ => ?_
  have : |(Fit.signOn lo m a.2 (out o) : ℝ)| = 1 := by
    rw [← sq_eq_sq₀ (abs_nonneg _) zero_le_one, sq_abs, sign_sq, one_pow]
  rw [abs_mul, this, mul_one, abs_of_nonneg (hd.1 o)]

theorem shotMean_le (hN : 0 < N) (out : O → Str) (ω : Fin (3 ^ m) → Fin N → O) {c : ℕ} (hc : c < 4 ^ m) : |shotMean lo m out ω c| ≤ 1 := by
  have hN' : (0 : ℝ) < N := by exact_mod_cast hN
  unfold shotMean
  rw [abs_div, abs_of_pos (show (0 : ℝ) < 3 ^ idle m c by positivity), div_le_one (by positivity)]
  refine (Finset.abs_sum_le_sum_abs _ _).trans ?_
  have : ∀ a ∈ (Fit.pairsOf m c).toFinset, |QV.avg (fun o => (Fit.signOn lo m a.2 (out o) : ℝ)) (ω (Fin.ofNat (3 ^ m) a.1))| ≤ 1 := by
    intro a _
    unfold QV.avg
    rw [abs_div, abs_of_pos hN', div_le_one hN']
    refine (Finset.abs_sum_le_sum_abs _ _).trans ?_
    have : ∀ k ∈ (Finset.univ : Finset (Fin N)), |(Fit.signOn lo m a.2 (out (ω (Fin.ofNat (3 ^ m) a.1) k)) : ℝ)| ≤ 1 := fun k _ => by
      rw [← sq_le_one_iff_abs_le_one, sign_sq]
    refine (Finset.sum_le_sum this).trans ?_
    simp
  refine (Finset.sum_le_sum this).trans ?_
  rw [Finset.sum_const, List.toFinset_card_of_nodup (pairs_nodup m c), pairs_length m c hc]
  simp

theorem excess_small (hN : 0 < N) (x : ℕ → ℝ) : (∑ c ∈ Finset.range (4 ^ m), (1 - x c ^ 2) / (N * 3 ^ idle m c)) ≤ (10 / 3 : ℝ) ^ m / (N : ℝ) := by
  have hN' : (0 : ℝ) < N := by exact_mod_cast hN
  rw [← idle_total, Finset.sum_div]
  refine Finset.sum_le_sum fun c _ => ?_
  rw [div_div, mul_comm (3 ^ idle m c : ℝ)]
  exact div_le_div_of_nonneg_right (by nlinarith [sq_nonneg (x c)]) (by positivity)

/-- The purity computed from the estimates. -/
noncomputable def shotPurity (lo m : ℕ) (out : O → Str) (ω : Fin (3 ^ m) → Fin N → O) : ℝ := (∑ c ∈ Finset.range (4 ^ m), shotMean lo m out ω c ^ 2) / 2 ^ m

theorem shotPurity_accurate (hN : 0 < N) (h : Measures w out lo m x) : PurityAccurate m w x fun ω : Fin (3 ^ m) → Fin N → O => shotPurity lo m out ω := by
  have hN' : (0 : ℝ) < N := by exact_mod_cast hN
  refine ⟨?_, ?_, ?_, ?_⟩
  · have e : ∀ ω : Fin (3 ^ m) → Fin N → O, runProb m w ω * shotPurity lo m out ω = (∑ c ∈ Finset.range (4 ^ m), runProb m w ω * shotMean lo m out ω c ^ 2) / 2 ^ m := fun ω => by
      unfold shotPurity
      rw [← Finset.mul_sum, mul_div_assoc]
    simp only [e]
    rw [← Finset.sum_div, Finset.sum_comm, Finset.sum_congr rfl fun c hc => shotMean_sq hN h (Finset.mem_range.1 hc), Finset.sum_add_distrib, add_div]
    rfl
  · refine div_nonneg (Finset.sum_nonneg fun c hc => div_nonneg ?_ (by positivity)) (by positivity)
    have := x_le h (Finset.mem_range.1 hc)
    linarith
  · unfold excess
    rw [div_le_iff₀ (by positivity)]
    refine (excess_small hN x).trans (le_of_eq ?_)
    rw [div_mul_eq_mul_div, ← mul_pow]
    norm_num
  · intro ε hε
    have key : ∑ ω : Fin (3 ^ m) → Fin N → O, runProb m w ω * (shotPurity lo m out ω - statePurity m x) ^ 2 ≤ 4 * (10 / 3) ^ m / N := by
      have hp : ∀ ω : Fin (3 ^ m) → Fin N → O, (shotPurity lo m out ω - statePurity m x) ^ 2 ≤ ∑ c ∈ Finset.range (4 ^ m), 4 * (shotMean lo m out ω c - x c) ^ 2 := by
        intro ω
        unfold shotPurity statePurity
        rw [← sub_div, ← Finset.sum_sub_distrib, div_pow, div_le_iff₀ (by positivity)]
        refine (sq_sum_le_card_mul_sum_sq).trans ?_
        rw [Finset.card_range, mul_comm]
        refine mul_le_mul ?_ (le_of_eq ?_) (by positivity) (Finset.sum_nonneg fun c _ => by positivity)
        · refine Finset.sum_le_sum fun c hc => ?_
          have h1 := shotMean_le (lo := lo) hN out ω (Finset.mem_range.1 hc)
          have h2 := x_le h (Finset.mem_range.1 hc)
          rw [sq_le_one_iff_abs_le_one] at h2
          rw [abs_le] at h1 h2
          rw [sq_sub_sq, mul_pow]
          exact mul_le_mul_of_nonneg_right (by nlinarith) (sq_nonneg _)
        · rw [← pow_mul, mul_comm m 2, pow_mul]; push_cast; norm_num
      calc ∑ ω : Fin (3 ^ m) → Fin N → O, runProb m w ω * (shotPurity lo m out ω - statePurity m x) ^ 2
          ≤ ∑ ω : Fin (3 ^ m) → Fin N → O, ∑ c ∈ Finset.range (4 ^ m), 4 * (runProb m w ω * (shotMean lo m out ω c - x c) ^ 2) := by
            refine Finset.sum_le_sum fun ω _ => (mul_le_mul_of_nonneg_left (hp ω) (runProb_nonneg h ω)).trans (le_of_eq ?_)
            rw [Finset.mul_sum]
            exact Finset.sum_congr rfl fun c _ => by ring
        _ = 4 * ∑ c ∈ Finset.range (4 ^ m), (1 - x c ^ 2) / (N * 3 ^ idle m c) := by
            rw [Finset.sum_comm, Finset.mul_sum]
            refine Finset.sum_congr rfl fun c hc => ?_
            rw [← Finset.mul_sum, shotMean_var hN h (Finset.mem_range.1 hc)]
        _ ≤ 4 * ((10 / 3) ^ m / N) := mul_le_mul_of_nonneg_left (excess_small hN x) (by norm_num)
        _ = _ := by ring
    refine (markov (runProb m w) (runProb_nonneg h) _ (fun ω => (shotPurity lo m out ω - statePurity m x) ^ 2 / ε ^ 2) (fun ω => by positivity) fun ω hω => ?_).trans ?_
    · rw [le_div_iff₀ (by positivity), one_mul, ← sq_abs (_ - _)]
      exact pow_le_pow_left₀ hε.le hω 2
    · have : ∀ ω : Fin (3 ^ m) → Fin N → O, runProb m w ω * ((shotPurity lo m out ω - statePurity m x) ^ 2 / ε ^ 2) = runProb m w ω * (shotPurity lo m out ω - statePurity m x) ^ 2 / ε ^ 2 :=
        fun ω => (mul_div_assoc _ _ _).symm
      simp only [this]
      rw [← Finset.sum_div, ← div_div]
      exact div_le_div_of_nonneg_right key (by positivity)

/-! ### The recorded shots -/

theorem wsum_split (f : Str → ℤ) (l : List (Str × ℤ)) (T : Finset Str) (hT : ∀ kv ∈ l, kv.1 ∈ T) :
    wsum f l = ∑ s ∈ T, f s * ((l.filter fun kv => kv.1 = s).map (·.2)).sum := by
  induction l with
  | nil => simp [wsum]
  | cons p l ih =>
    rw [wsum_cons, ih fun kv hkv => hT kv (by simp [hkv])]
    have e : ∀ s, (((p :: l).filter fun kv => kv.1 = s).map (·.2)).sum = (if p.1 = s then p.2 else 0) + ((l.filter fun kv => kv.1 = s).map (·.2)).sum := by
      intro s
      by_cases hs : p.1 = s <;> simp [List.filter_cons, hs]
    simp only [e, mul_add, Finset.sum_add_distrib]
    congr 1
    rw [Finset.sum_eq_single p.1]
    · simp
    · intro b _ hb; rw [if_neg (Ne.symm hb), mul_zero]
    · intro hn; exact absurd (hT p (by simp)) hn

theorem shotsOf_wsum {rs : List Fit.Result} {name : Str} {ω : Fin N → O} (h : ShotsOf rs name out ω) (f : Str → ℤ) : wsum f (Fit.records rs name) = ∑ k, f (out (ω k)) := by
  classical
  have hT := wsum_split f (Fit.records rs name) (((Fit.records rs name).map (·.1)).toFinset ∪ Finset.univ.image fun k => out (ω k)) (fun kv hkv => by
    rw [Finset.mem_union, List.mem_toFinset]
    exact Or.inl (List.mem_map_of_mem hkv))
  rw [hT, ← Finset.sum_fiberwise_of_maps_to (t := ((Fit.records rs name).map (·.1)).toFinset ∪ Finset.univ.image fun k => out (ω k)) (g := fun k => out (ω k))
    (fun k _ => Finset.mem_union_right _ (Finset.mem_image_of_mem _ (Finset.mem_univ k)))]
  refine Finset.sum_congr rfl fun s _ => ?_
  rw [h s, Finset.sum_congr rfl fun k hk => by rw [(Finset.mem_filter.1 hk).2], Finset.sum_const, nsmul_eq_mul, mul_comm]

theorem shotsOf_corr {rs : List Fit.Result} {name : Str} {ω : Fin N → O} (h : ShotsOf rs name out ω) (lo m ind : ℕ) :
    (Fit.corr rs name lo m ind : ℝ) = QV.avg (fun o => (Fit.signOn lo m ind (out o) : ℝ)) ω := by
  have h1 : Fit.shots rs name = N := by
    have := shotsOf_wsum h fun _ => 1
    simpa [wsum, Fit.shots] using this
  unfold Fit.corr QV.avg
  rw [shotsOf_wsum h, h1]
  push_cast
  rfl

theorem shots_purity {rs : List Fit.Result} {name : ℕ → Str} {ω : Fin (3 ^ m) → Fin N → O} (h : ∀ d : Fin (3 ^ m), ShotsOf rs (name d) out (ω d)) (lo : ℕ) :
    ((Fit.purityMean m fun d ind => Fit.corr rs (name d) lo m ind : ℚ) : ℝ) = shotPurity lo m out ω := by
  obtain ⟨v, h1, h2⟩ := C114_data m fun d ind => Fit.corr rs (name d) lo m ind
  rw [Fit.C112_purity] at h1
  rw [Option.some.inj h1, h2]
  unfold purityR shotPurity
  congr 1
  refine Finset.sum_congr rfl fun c hc => ?_
  have hc := Finset.mem_range.1 hc
  congr 1
  unfold shotMean
  rw [pairs_length m c hc, ← List.sum_toFinset _ (pairs_nodup m c)]
  push_cast
  congr 1
  refine Finset.sum_congr rfl fun a ha => ?_
  have hd := (pairs_mem (List.mem_toFinset.1 ha)).1
  have := shotsOf_corr (h (Fin.ofNat (3 ^ m) a.1)) lo m a.2
  rwa [ofNat_val hd] at this

/-! ### C127 -/

/-- C127: the purity that a `PurityRBFitter` reports for a pattern, a seed and a length, when each of the `3^m` purity circuits was run with `N` independent
shots: its average is larger than the purity of the state by the excess, and it is rarely far from it. -/
theorem C127_new (hN : 0 < N) (curve : Fit.CurveFit) (ty : ℕ → Str) (n nlen : ℕ) (hm : 0 < m) (rs : (Fin (3 ^ m) → Fin N → O) → List Fit.Result) (seeds : List ℤ)
    (hform : ∀ ω, ∀ r ∈ rs ω, ∀ e ∈ r, ∃ (t : Str) (k : ℕ) (s : ℤ), e.1 = t ++ suffix k s)
    (hseeds : ∀ ω, (Fit.addData Fit.State.init (rs ω)).map Fit.State.nseeds = some seeds) (h : ∀ ω, Fit.PurityData ty n (3 ^ m) nlen (rs ω) seeds)
    (pattern : List (List ℕ)) (hp : ∀ p ∈ pattern, p.length = m) (hn : (pattern.map List.length).sum ≤ n)
    (lengths : List (List ℤ)) (l0 : List ℤ) (hl : lengths.head? = some l0) (hl0 : l0.length = nlen)
    (i j k : ℕ) (hi : i < pattern.length) (s : ℤ) (hj : seeds[j]? = some s) (hk : k < nlen)
    (hs : ∀ ω, ∀ d : Fin (3 ^ m), ShotsOf (rs ω) (ty d ++ suffix k s) out (ω d)) (hx : Measures w out (Fit.offset pattern i) m x) :
    ∃ est : (Fin (3 ^ m) → Fin N → O) → ℚ, PurityAccurate m w x (fun ω => (est ω : ℝ)) ∧
      ∀ ω f, Fit.PFitter.new curve (some (rs ω)) (3 ^ m) lengths (some pattern) = some f →
        ∃ row vals, f.inner.raw[i]? = some row ∧ row[j]? = some vals ∧ vals[k]? = some (est ω) := by
  refine ⟨fun ω => Fit.purityMean m fun d ind => Fit.corr (rs ω) (ty d ++ suffix k s) (Fit.offset pattern i) m ind, ?_, ?_⟩
  · have := shotPurity_accurate hN hx
    have e : (fun ω : Fin (3 ^ m) → Fin N → O => ((Fit.purityMean m fun d ind => Fit.corr (rs ω) (ty d ++ suffix k s) (Fit.offset pattern i) m ind : ℚ) : ℝ)) =
        fun ω => shotPurity (Fit.offset pattern i) m out ω := funext fun ω => shots_purity (name := fun d => ty d ++ suffix k s) (hs ω) _
    rw [e]
    exact this
  · intro ω f hf
    obtain ⟨-, h2⟩ := Fit.C112_new curve ty n m nlen hm (rs ω) seeds (hform ω) (hseeds ω) (h ω) pattern hp hn lengths l0 hl hl0 f hf
    rw [h2]
    refine ⟨_, _, by rw [List.getElem?_map, List.getElem?_range hi]; rfl, by rw [List.getElem?_map, hj]; rfl, by rw [List.getElem?_map, List.getElem?_range hk]; rfl⟩

/-- C127, finding: the reported purity is too large on average for every state with a Pauli string that is not certain. -/
theorem C127_finding_bias (hN : 0 < N) (h : Measures w out lo m x) {est : (Fin (3 ^ m) → Fin N → O) → ℝ} (he : PurityAccurate m w x est) {c : ℕ} (hc : c < 4 ^ m)
    (hx : x c ^ 2 ≠ 1) : statePurity m x < ∑ ω, runProb m w ω * est ω := by
  have hN' : (0 : ℝ) < N := by exact_mod_cast hN
  rw [he.mean, lt_add_iff_pos_right]
  refine div_pos (Finset.sum_pos' (fun c hc => div_nonneg ?_ (by positivity)) ⟨c, Finset.mem_range.2 hc, div_pos ?_ (by positivity)⟩) (by positivity)
  · have := x_le h (Finset.mem_range.1 hc)
    linarith
  · have := lt_of_le_of_ne (x_le h hc) hx
    linarith

/-- C127: for one qubit the average is a linear function of the purity, … -/
theorem C127_one_qubit (hN : 0 < N) (h : Measures w out lo 1 x) {est : (Fin (3 ^ 1) → Fin N → O) → ℝ} (he : PurityAccurate 1 w x est) :
    ∑ ω, runProb 1 w ω * est ω = (1 - 1 / N) * statePurity 1 x + 2 / N := by
  have hN' : (N : ℝ) ≠ 0 := by exact_mod_cast hN.ne'
  have h0 : x 0 = 1 := by
    have := h.expect 0 (by norm_num) 0 (by norm_num) 0 (by norm_num) (by decide)
    rw [← this]
    have e : ∀ o, Fit.signOn lo 1 0 (out o) = 1 := fun o => by simp [Fit.signOn]
    simp only [e, Int.cast_one, mul_one]
    exact (h.distr 0 (by norm_num)).2
  have e0 : idle 1 0 = 1 := by decide
  have e1 : idle 1 1 = 0 := by decide
  have e2 : idle 1 2 = 0 := by decide
  have e3 : idle 1 3 = 0 := by decide
  rw [he.mean]
  unfold excess statePurity
  rw [show 4 ^ 1 = 4 from rfl]
  simp only [Finset.sum_range_succ, Finset.sum_range_zero, e0, e1, e2, e3, h0]
  field_simp
  ring

/-- … so that averages that decay with the length still decay at the same rate: finitely many shots change the amplitude and the offset, not the parameter
from which the error per Clifford is computed. -/
theorem C127_one_qubit_decay (hN : 0 < N) (W : ℕ → ℕ → O → ℝ) (X : ℕ → ℕ → ℝ) (h : ∀ l, Measures (W l) out lo 1 (X l)) (est : ℕ → (Fin (3 ^ 1) → Fin N → O) → ℝ)
    (he : ∀ l, PurityAccurate 1 (W l) (X l) (est l)) (A u B : ℝ) (hdecay : ∀ l, statePurity 1 (X l) = A * u ^ l + B) (l : ℕ) :
    ∑ ω, runProb 1 (W l) ω * est l ω = (1 - 1 / N) * A * u ^ l + ((1 - 1 / N) * B + 2 / N) := by
  rw [C127_one_qubit hN (h l) (he l), hdecay]
  ring

/-! ### One maximally mixed qubit -/

def coinOut (b : Bool) : Str := if b then "1".toList else "0".toList

noncomputable def coinW (_ : ℕ) (_ : Bool) : ℝ := 1 / 2

def coinX (c : ℕ) : ℝ := if c = 0 then 1 else 0

def coinTy (d : ℕ) : Str := "rb_purity_".toList ++ [purityLetter d]

def coinCounts (u : Fin N → Bool) : Counts :=
  [("0".toList, ((Finset.univ.filter fun k => coinOut (u k) = "0".toList).card : ℤ)), ("1".toList, ((Finset.univ.filter fun k => coinOut (u k) = "1".toList).card : ℤ))]

def coinRs (ω : Fin (3 ^ 1) → Fin N → Bool) : List Fit.Result :=
  [[("rb_purity_Z_length_0_seed_5".toList, coinCounts (ω 0))], [("rb_purity_X_length_0_seed_5".toList, coinCounts (ω 1))], [("rb_purity_Y_length_0_seed_5".toList, coinCounts (ω 2))]]

theorem coin_measures : Measures coinW coinOut 0 1 coinX := by
  refine ⟨fun d _ => ⟨fun o => by norm_num [coinW], by norm_num [coinW]⟩, ?_⟩
  intro d hd ind hind c hc hI
  have h0 := hI 0 (by norm_num)
  simp only [pow_zero, Nat.div_one, pow_one] at h0 hd hind hc
  have key : ∀ d < 3, ∀ ind < 2, ∀ c < 4, (c % 4 = if ind.testBit 0 then Purity.letter (d % 3) else 0) →
      Fit.signOn 0 1 ind (coinOut true) + Fit.signOn 0 1 ind (coinOut false) = if c = 0 then 2 else 0 := by decide
  have := key d hd ind hind c hc h0
  rw [Fintype.sum_bool]
  have h2 : (Fit.signOn 0 1 ind (coinOut true) : ℝ) + (Fit.signOn 0 1 ind (coinOut false) : ℝ) = if c = 0 then 2 else 0 := by exact_mod_cast this
  unfold coinW coinX
  by_cases h3 : c = 0
  · rw [if_pos h3] at h2 ⊢; linarith
  · rw [if_neg h3] at h2 ⊢; linarith

theorem coin_oneReg (u : Fin N → Bool) : OneReg 1 (coinCounts u) := by
  have hk : ∀ kv ∈ coinCounts u, kv.1 = "0".toList ∨ kv.1 = "1".toList := by
    intro kv hkv
    unfold coinCounts at hkv
    rcases List.mem_cons.1 hkv with rfl | hkv
    · exact Or.inl rfl
    · obtain rfl := List.mem_singleton.1 hkv; exact Or.inr rfl
  refine ⟨by simp [coinCounts], by unfold Dict.WF coinCounts; simp, fun kv hkv => ?_, fun kv hkv => ?_⟩
  · rcases hk kv hkv with h | h <;> rw [h] <;> decide
  · rcases hk kv hkv with h | h <;> rw [h] <;> decide

theorem coin_mem {ω : Fin (3 ^ 1) → Fin N → Bool} {r : Fit.Result} (hr : r ∈ coinRs ω) : ∃ d < 3 ^ 1, ∃ u : Fin N → Bool, r = [(coinTy d ++ suffix 0 5, coinCounts u)] := by
  unfold coinRs at hr
  rcases List.mem_cons.1 hr with rfl | hr
  · exact ⟨0, by norm_num, ω 0, rfl⟩
  · rcases List.mem_cons.1 hr with rfl | hr
    · exact ⟨1, by norm_num, ω 1, rfl⟩
    · obtain rfl := List.mem_singleton.1 hr
      exact ⟨2, by norm_num, ω 2, rfl⟩

theorem coin_records (ω : Fin (3 ^ 1) → Fin N → Bool) (d : Fin (3 ^ 1)) : Fit.records (coinRs ω) (coinTy d ++ suffix 0 5) = coinCounts (ω d) := by
  have h3 : ∀ d : Fin 3, d = 0 ∨ d = 1 ∨ d = 2 := by decide
  rcases h3 d with rfl | rfl | rfl <;> simp [Fit.records, coinRs] <;> rfl

theorem coin_shots (ω : Fin (3 ^ 1) → Fin N → Bool) (d : Fin (3 ^ 1)) : ShotsOf (coinRs ω) (coinTy d ++ suffix 0 5) coinOut (ω d) := by
  intro s
  rw [coin_records]
  unfold coinCounts
  by_cases h0 : s = "0".toList
  · subst h0
    simp [List.filter_cons]
  · by_cases h1 : s = "1".toList
    · subst h1
      simp [List.filter_cons]
    · have : (Finset.univ.filter fun k => coinOut (ω d k) = s) = ∅ := by
        refine Finset.filter_eq_empty_iff.2 fun k _ => ?_
        unfold coinOut
        split
        · exact fun h => h1 h.symm
        · exact fun h => h0 h.symm
      rw [this]
      have e0 : decide ("0".toList = s) = false := decide_eq_false (Ne.symm h0)
      have e1 : decide ("1".toList = s) = false := decide_eq_false (Ne.symm h1)
      rw [List.filter_cons, e0, List.filter_cons, e1]
      simp

/-- C127 on a maximally mixed qubit: the hypotheses hold, and the average of the reported purity is not 1/2 but 1/2 + 3/(2N). -/
theorem C127_experiment (hN : 0 < N) (curve : Fit.CurveFit) :
    ∃ est : (Fin (3 ^ 1) → Fin N → Bool) → ℚ, ∑ ω, runProb 1 coinW ω * (est ω : ℝ) = 1 / 2 + 3 / (2 * N) ∧
      ∀ ω f, Fit.PFitter.new curve (some (coinRs ω)) (3 ^ 1) [[1]] (some [[0]]) = some f →
        ∃ row vals, f.inner.raw[0]? = some row ∧ row[0]? = some vals ∧ vals[0]? = some (est ω) := by
  have hN' : (N : ℝ) ≠ 0 := by exact_mod_cast hN.ne'
  obtain ⟨est, h1, h2⟩ := C127_new hN curve coinTy 1 1 one_pos coinRs [5] (by
      intro ω r hr e he
      obtain ⟨d, -, u, rfl⟩ := coin_mem hr
      obtain rfl := List.mem_singleton.1 he
      exact ⟨coinTy d, 0, 5, rfl⟩)
    (fun ω => rfl) (by
      intro ω
      refine ⟨by decide, ?_, ?_, ?_, ?_⟩
      · intro j hj d hd
        obtain rfl : j = 0 := by simpa using hj
        have h3 : ∀ d < 3 ^ 1, d = 0 ∨ d = 1 ∨ d = 2 := by decide
        rcases h3 d hd with rfl | rfl | rfl
        · exact ⟨_, _, rfl, 0, 5, rfl⟩
        · exact ⟨_, _, rfl, 0, 5, rfl⟩
        · exact ⟨_, _, rfl, 0, 5, rfl⟩
      · intro r hr
        obtain ⟨d, -, u, rfl⟩ := coin_mem hr
        simp
      · intro r hr e he
        obtain ⟨d, -, u, rfl⟩ := coin_mem hr
        obtain rfl := List.mem_singleton.1 he
        exact coin_oneReg u
      · intro s hs d hd k hk
        obtain rfl : s = 5 := by simpa using hs
        obtain rfl : k = 0 := by omega
        have := shotsOf_wsum (coin_shots ω ⟨d, hd⟩) fun _ => 1
        have e : Fit.shots (coinRs ω) (coinTy d ++ suffix 0 5) = N := by simpa [wsum, Fit.shots] using this
        rw [e]
        exact_mod_cast hN)
    [[0]] (by decide) (by decide) [[1]] [1] rfl rfl 0 0 0 (by decide) 5 rfl (by decide) coin_shots coin_measures
  refine ⟨est, ?_, h2⟩
  rw [C127_one_qubit hN coin_measures h1]
  have : statePurity 1 coinX = 1 / 2 := by
    unfold statePurity coinX
    norm_num
  rw [this]
  field_simp
  ring

end Verif.RB
