import Verif.Accred.LemmasAccept
import Mathlib.Algebra.BigOperators.Ring.Finset
set_option linter.unusedSectionVars false
set_option linter.unusedSimpArgs false
/-
The probability of acceptance as a sum over errors, and the bound.
-/
namespace Verif.Accred
open Verif Verif.Quantum Finset

variable {n : ℕ} {κ : Type} [Fintype κ]

theorem prod_sum_fin {m : ℕ} {α : Type} [Fintype α] (f : Fin m → α → ℝ) : ∏ k, ∑ a, f k a = ∑ p : Fin m → α, ∏ k, f k (p k) := by
  classical
  rw [Finset.prod_univ_sum, Fintype.piFinset_univ]

/-- The pads of a circuit. -/
abbrev Pad (n l : ℕ) := Fin (2 * l + 3) → Basis (Fin n)

/-- The random numbers of a run: those of the traps and those of the pads. -/
def coinsEquiv (n l m : ℕ) : (Fin m → Coins n l) ≃ (Fin m → Bits n l) × (Fin m → Pad n l) where
  toFun c := (fun k => bitsOf (c k), fun k => (c k).2.2)
  invFun p k := ((p.1 k).1, (p.1 k).2, p.2 k)
  left_inv _ := rfl
  right_inv _ := rfl

/-- The corrected outcomes of an accepted run with `s` recorded. -/
noncomputable def ind {m : ℕ} (v0 : Fin m) (s : Str) (k : Fin m) (y : Basis (Fin n)) : ℝ :=
  if (if k = v0 then str y = s else y = fun _ => false) then 1 else 0

theorem ind_prod {m : ℕ} (v0 : Fin m) (s : Str) (y : Fin m → Basis (Fin n)) (r : ℝ) :
    (if (∀ k, k ≠ v0 → y k = fun _ => false) ∧ str (y v0) = s then r else 0) = (∏ k, ind v0 s k (y k)) * r := by
  split
  · next h =>
    rw [prod_eq_one, one_mul]
    intro k _
    unfold ind
    rw [if_pos]
    split
    · next hk => subst hk; exact h.2
    · next hk => exact h.1 k hk
  · next h =>
    have : ∃ k, ¬ (if k = v0 then str (y k) = s else y k = fun _ => false) := by
      by_contra hc
      push Not at hc
      refine h ⟨fun k hk => ?_, ?_⟩
      · have := hc k; rwa [if_neg hk] at this
      · have := hc v0; rwa [if_pos rfl] at this
    obtain ⟨k, hk⟩ := this
    rw [prod_eq_zero (mem_univ k), zero_mul]
    unfold ind
    rw [if_neg hk]

/-- The probability of recording `s` with the errors `π` in the target. -/
noncomputable def tgt (L : Layers n n) (π : Path n L.two.length) (s : Str) : ℝ :=
  ∑ y : Basis (Fin n), (if str y = s then 1 else 0) * pathProb L.gate L.two L.single π y

/-- The facts about the layers of a target. -/
structure GoodL (L : Layers n n) : Prop where
  gate : L.gate ≠ .other
  regs : ∀ t ∈ L.two, (Accred.regs t).Nodup
  len : L.single.length = L.two.length + 1
  fine : ∀ s ∈ L.single, ∀ a ∈ s, a.fine
  meas : Straight L.meas

theorem GoodL.two {L : Layers n n} (h : GoodL L) : ∀ t ∈ L.two, ∀ p ∈ t, p.1 ≠ p.2 := fun t ht => regs_ne (h.regs t ht)

/-- The weight of the errors of a run. -/
noncomputable def W (D : Device κ n) (e : κ → ℂ) (L : Layers n n) {m : ℕ} (Ps : Fin m → Path n L.two.length) : ℝ :=
  nrm2 (runEnv D L.gate L.two 0 (List.ofFn Ps) e)

/-- The factor of one circuit. -/
noncomputable def fac (L : Layers n n) {m : ℕ} (v0 : Fin m) (s : Str) (Ps : Fin m → Path n L.two.length) (k : Fin m) : ℝ :=
  if k = v0 then Fintype.card (Bits n L.two.length) * tgt L (Ps k) s else escSum L.gate L.two (Ps k)

theorem fac_eq (L : Layers n n) (h : GoodL L) {m : ℕ} (v0 : Fin m) (s : Str) (Ps : Fin m → Path n L.two.length) (k : Fin m) :
    ∑ b : Bits n L.two.length, ∑ y : Basis (Fin n), ind v0 s k y * pathProb L.gate L.two (singlesOf L v0 k b) (Ps k) y = fac L v0 s Ps k := by
  unfold fac
  split
  · next hk =>
    subst hk
    simp only [ind, singlesOf, if_true]
    rw [sum_const, card_univ, nsmul_eq_mul]
    rfl
  · next hk =>
    unfold escSum
    refine sum_congr rfl fun b _ => ?_
    have hk' : (k : ℕ) ≠ v0 := fun h => hk (Fin.ext h)
    rw [sum_eq_single fun _ => false]
    · simp only [ind, singlesOf, if_neg hk, if_neg hk', if_true, one_mul]
      exact trap_prob L.gate h.gate L.two h.regs (Ps k) b.1 (bitFn b.2)
    · intro y _ hy
      simp [ind, hk, hy]
    · simp

/-- Number of pads of a circuit. -/
noncomputable def padCard (n l : ℕ) : ℝ := 2 ^ n * (4 ^ n) ^ (l + 1)

theorem padCard_eq (n l : ℕ) : padCard n l = Fintype.card (Pad n l) := by
  unfold padCard Pad Basis
  simp only [Fintype.card_fun, Fintype.card_bool, Fintype.card_fin]
  push_cast
  rw [show (4 : ℝ) = 2 ^ 2 by norm_num]
  simp only [← pow_mul, ← pow_add]
  congr 1
  ring

theorem acc_num (D : Device κ n) (e : κ → ℂ) (L : Layers n n) (h : GoodL L) (v : ℕ) (v0 : Fin (v + 1)) (s : Str) :
    (∑ coins : Fin (v + 1) → Coins n L.two.length, ∑ ys : Fin (v + 1) → Basis (Fin n),
      if recorded L v v0 (drawOf coins) (List.ofFn ys) = some s then circProb D e L v v0 (drawOf coins) (List.ofFn ys) else 0) =
    padCard n L.two.length ^ (v + 1) * ∑ Ps : Fin (v + 1) → Path n L.two.length, W D e L Ps * ∏ k, fac L v0 s Ps k := by
  obtain ⟨F, hF⟩ : ∃ F : (Fin (v + 1) → Bits n L.two.length) → (Fin (v + 1) → Pad n L.two.length) → (Fin (v + 1) → Basis (Fin n)) → ℝ,
    F = fun bs ps y => nrm2 (shotsL D 0 (List.ofFn fun k => qcirc L (singlesOf L v0 k (bs k)) (ps k))
      (List.ofFn fun k => bxor (y k) (padFn (ps k) (2 * L.two.length + 2))) e) := ⟨_, rfl⟩
  have h1 : ∀ coins : Fin (v + 1) → Coins n L.two.length, (∑ ys : Fin (v + 1) → Basis (Fin n),
      if recorded L v v0 (drawOf coins) (List.ofFn ys) = some s then circProb D e L v v0 (drawOf coins) (List.ofFn ys) else 0) =
      ∑ y : Fin (v + 1) → Basis (Fin n), (∏ k, ind v0 s k (y k)) * F (coinsEquiv _ _ _ coins).1 (coinsEquiv _ _ _ coins).2 y := by
    intro coins
    have hinv : Function.Involutive fun (y : Fin (v + 1) → Basis (Fin n)) k => bxor (y k) (lastPad (coins k).2.2) := by
      intro y
      funext k
      exact bxor_cancel _ _
    rw [← Equiv.sum_comp (Function.Involutive.toPerm _ hinv)]
    refine sum_congr rfl fun y _ => ?_
    simp only [Function.Involutive.coe_toPerm]
    simp only [recorded_iff L h.gate h.two h.len h.meas, bxor_cancel]
    rw [ind_prod]
    congr 1
    unfold circProb
    rw [gen_eq L h.gate h.two h.len]
    dsimp only
    rw [hF]
    unfold runProb nrm2
    dsimp only
    rw [shotsL_eq, List.map_ofFn]
    rfl
  simp only [h1]
  rw [Equiv.sum_comp (coinsEquiv n L.two.length (v + 1)) fun p => ∑ y : Fin (v + 1) → Basis (Fin n), (∏ k, ind v0 s k (y k)) * F p.1 p.2 y,
    Fintype.sum_prod_type]
  have h2 : ∀ bs : Fin (v + 1) → Bits n L.two.length, (∑ ps : Fin (v + 1) → Pad n L.two.length, ∑ y : Fin (v + 1) → Basis (Fin n),
      (∏ k, ind v0 s k (y k)) * F bs ps y) = padCard n L.two.length ^ (v + 1) * ∑ Ps : Fin (v + 1) → Path n L.two.length, W D e L Ps *
        ∏ k, ∑ y : Basis (Fin n), ind v0 s k y * pathProb L.gate L.two (singlesOf L v0 k (bs k)) (Ps k) y := by
    intro bs
    rw [sum_comm]
    have h3 := fun y : Fin (v + 1) → Basis (Fin n) => run_sum L.gate L.two h.gate h.two L.meas D (v + 1) (fun k => singlesOf L v0 k (bs k))
      (fun k => singlesOf_length L h.len v0 k (bs k)) (fun k => singlesOf_single L (fun s hs a ha => (h.fine s hs a ha).1) v0 k (bs k))
      (fun k c => qcirc L (singlesOf L v0 k (bs k)) c) (fun k c => ((List.finRange n).map (lastPad c)).reverse)
      (fun k c => qcirc_spec L h.gate h.two _ (singlesOf_length L h.len v0 k (bs k)) c) y 0 e
    have h4 : ∀ y : Fin (v + 1) → Basis (Fin n), (∑ ps : Fin (v + 1) → Pad n L.two.length, (∏ k, ind v0 s k (y k)) * F bs ps y) =
        ∑ Ps : Fin (v + 1) → Path n L.two.length, padCard n L.two.length ^ (v + 1) * (W D e L Ps *
          ∏ k, ind v0 s k (y k) * pathProb L.gate L.two (singlesOf L v0 k (bs k)) (Ps k) (y k)) := by
      intro y
      rw [← mul_sum, hF]
      refine (congrArg (fun r => (∏ k, ind v0 s k (y k)) * r) (h3 y)).trans ?_
      rw [mul_sum, mul_sum]
      refine sum_congr rfl fun Ps _ => ?_
      rw [prod_mul_distrib]
      unfold padCard W
      ring
    refine (sum_congr rfl fun y _ => h4 y).trans ?_
    rw [sum_comm, mul_sum]
    refine sum_congr rfl fun Ps _ => ?_
    rw [← mul_sum, ← mul_sum, prod_sum_fin fun k y => ind v0 s k y * pathProb L.gate L.two (singlesOf L v0 k (bs k)) (Ps k) y]
  simp only [h2]
  rw [← mul_sum]
  congr 1
  rw [sum_comm]
  refine sum_congr rfl fun Ps _ => ?_
  rw [← mul_sum]
  congr 1
  rw [← prod_sum_fin fun k b => ∑ y : Basis (Fin n), ind v0 s k y * pathProb L.gate L.two (singlesOf L v0 k b) (Ps k) y]
  exact prod_congr rfl fun k _ => fac_eq L h v0 s Ps k

/-! ### The bound -/

/-- Probability that all traps miss the errors. -/
noncomputable def miss (L : Layers n n) {m : ℕ} (Ps : Fin m → Path n L.two.length) (v0 : Fin m) : ℝ :=
  ∏ k ∈ univ.erase v0, (escSum L.gate L.two (Ps k) / Fintype.card (Bits n L.two.length))

theorem bits_pos (n l : ℕ) : (0 : ℝ) < Fintype.card (Bits n l) := by
  have : 0 < Fintype.card (Bits n l) := Fintype.card_pos
  exact_mod_cast this

theorem prod_fac (L : Layers n n) {m : ℕ} (v0 : Fin m) (s : Str) (Ps : Fin m → Path n L.two.length) :
    ∏ k, fac L v0 s Ps k = (Fintype.card (Bits n L.two.length) : ℝ) ^ m * (miss L Ps v0 * tgt L (Ps v0) s) := by
  have hB := (bits_pos n L.two.length).ne'
  have h1 : ∀ k, fac L v0 s Ps k = (Fintype.card (Bits n L.two.length) : ℝ) *
      (if k = v0 then tgt L (Ps k) s else escSum L.gate L.two (Ps k) / Fintype.card (Bits n L.two.length)) := by
    intro k
    unfold fac
    split
    · rfl
    · field_simp
  simp only [h1]
  rw [prod_mul_distrib, prod_const, card_univ, Fintype.card_fin, ← mul_prod_erase univ _ (mem_univ v0), if_pos rfl, mul_comm (tgt L (Ps v0) s)]
  congr 2
  unfold miss
  exact prod_congr rfl fun k hk => if_neg (ne_of_mem_erase hk)

theorem acc_formula (D : Device κ n) (e : κ → ℂ) (L : Layers n n) (h : GoodL L) (v : ℕ) (s : Str) :
    accProb D e L v s = (∑ Ps : Fin (v + 1) → Path n L.two.length, W D e L Ps * ∑ v0, miss L Ps v0 * tgt L (Ps v0) s) / (v + 1) := by
  unfold accProb
  simp only [acc_num D e L h v, prod_fac]
  have hB := (bits_pos n L.two.length).ne'
  have hP : padCard n L.two.length ≠ 0 := by unfold padCard; positivity
  have hcard : (Fintype.card (Fin (v + 1) → Coins n L.two.length) : ℝ) =
      (Fintype.card (Bits n L.two.length) : ℝ) ^ (v + 1) * padCard n L.two.length ^ (v + 1) := by
    rw [Fintype.card_congr (coinsEquiv n L.two.length (v + 1)), Fintype.card_prod, Fintype.card_fun, Fintype.card_fun (α := Fin (v + 1)) (β := Pad n L.two.length),
      padCard_eq, Fintype.card_fin]
    push_cast
    rfl
  rw [hcard, ← mul_sum, sum_comm, Fintype.card_fin]
  have h3 : (∑ Ps : Fin (v + 1) → Path n L.two.length, ∑ v0, W D e L Ps * ((Fintype.card (Bits n L.two.length) : ℝ) ^ (v + 1) *
      (miss L Ps v0 * tgt L (Ps v0) s))) = (Fintype.card (Bits n L.two.length) : ℝ) ^ (v + 1) *
        ∑ Ps : Fin (v + 1) → Path n L.two.length, W D e L Ps * ∑ v0, miss L Ps v0 * tgt L (Ps v0) s := by
    rw [mul_sum]
    refine sum_congr rfl fun Ps _ => ?_
    rw [mul_sum, mul_sum]
    refine sum_congr rfl fun v0 _ => ?_
    ring
  rw [h3]
  have hv : ((v : ℝ) + 1) ≠ 0 := by positivity
  push_cast
  field_simp

theorem miss_nonneg (L : Layers n n) {m : ℕ} (Ps : Fin m → Path n L.two.length) (v0 : Fin m) : 0 ≤ miss L Ps v0 :=
  prod_nonneg fun _ _ => div_nonneg (escSum_nonneg _ _ _) (bits_pos _ _).le

theorem W_nonneg (D : Device κ n) (e : κ → ℂ) (L : Layers n n) {m : ℕ} (Ps : Fin m → Path n L.two.length) : 0 ≤ W D e L Ps :=
  sum_nonneg fun _ _ => Complex.normSq_nonneg _

theorem tgt_nonneg (L : Layers n n) (π : Path n L.two.length) (s : Str) : 0 ≤ tgt L π s :=
  sum_nonneg fun y _ => mul_nonneg (by split <;> norm_num) (pathProb_nonneg _ _ _ _ _)

theorem sum_strings (f : Basis (Fin n) → ℝ) : ∑ s ∈ strings n, ∑ y : Basis (Fin n), (if str y = s then 1 else 0) * f y = ∑ y, f y := by
  rw [sum_comm]
  refine sum_congr rfl fun y _ => ?_
  rw [← sum_mul, sum_ite_eq, if_pos, one_mul]
  unfold strings
  exact mem_image_of_mem _ (mem_univ y)

theorem tgt_total (L : Layers n n) (h : GoodL L) (π : Path n L.two.length) : ∑ s ∈ strings n, tgt L π s = 1 := by
  unfold tgt
  rw [sum_strings]
  exact target_total L.gate L.two h.two L.single (fun s hs a ha => (h.fine s hs a ha).2) π

/-- The probability of `s` without noise. -/
noncomputable def ideal (L : Layers n n) (s : Str) : ℝ := strProb (sem (interleave L.gate L.single L.two) ket0) (keyOf L.meas) s

theorem tgt_harmless (L : Layers n n) (h : GoodL L) (π : Path n L.two.length) (hπ : Harmless L.two π) (s : Str) : tgt L π s = ideal L s := by
  unfold tgt ideal strProb
  rw [sum_filter]
  refine sum_congr rfl fun y _ => ?_
  rw [target_harmless L.gate L.two L.single h.len π hπ, keyOf_straight L.meas h.meas]
  split <;> simp

/-- The path without errors. -/
theorem harmless_zero (T : List (List (Fin n × Fin n))) : Harmless T (fun _ => false, fun _ => p0) := by
  have h : ∀ (T : List (List (Fin n × Fin n))), BandClean T (List.ofFn fun _ : Fin (T.length + 1) => (p0 : PP n)) ∧
      lastX T (List.ofFn fun _ : Fin (T.length + 1) => (p0 : PP n)) = fun _ => false := by
    intro T
    induction T with
    | nil => exact ⟨trivial, rfl⟩
    | cons t T ih => rw [List.ofFn_succ]; exact ⟨⟨rfl, ih.1⟩, ih.2⟩
  exact ⟨rfl, h T⟩

theorem ideal_nonneg (L : Layers n n) (h : GoodL L) (s : Str) : 0 ≤ ideal L s := by
  rw [← tgt_harmless L h _ (harmless_zero L.two)]; exact tgt_nonneg _ _ _

theorem ideal_total (L : Layers n n) (h : GoodL L) : ∑ s ∈ strings n, ideal L s = 1 := by
  rw [← tgt_total L h (fun _ => false, fun _ => p0)]
  exact sum_congr rfl fun s _ => (tgt_harmless L h _ (harmless_zero L.two) s).symm

open Classical in
theorem dev_le (L : Layers n n) (h : GoodL L) (π : Path n L.two.length) :
    ∑ s ∈ strings n, |tgt L π s - ideal L s| ≤ if Harmless L.two π then 0 else 2 := by
  split
  · next hπ =>
    rw [sum_eq_zero]
    intro s _
    rw [tgt_harmless L h π hπ, sub_self, abs_zero]
  · have : ∑ s ∈ strings n, |tgt L π s - ideal L s| ≤ ∑ s ∈ strings n, (tgt L π s + ideal L s) := by
      refine sum_le_sum fun s _ => ?_
      rw [abs_le]
      have h1 := tgt_nonneg L π s
      have h2 := ideal_nonneg L h s
      constructor <;> linarith
    rw [sum_add_distrib, tgt_total L h, ideal_total L h] at this
    linarith

theorem three_quarters (k : ℕ) : (k : ℝ) * (3 / 4) ^ (k - 1) ≤ 27 / 16 := by
  have h : ∀ j : ℕ, ((j + 4 : ℕ) : ℝ) * (3 / 4) ^ (j + 3) ≤ 27 / 16 := by
    intro j
    induction j with
    | zero => norm_num
    | succ j ih =>
      have hp : (0 : ℝ) ≤ (3 / 4) ^ (j + 3) := by positivity
      have hj : (0 : ℝ) ≤ (j : ℝ) * (3 / 4) ^ (j + 3) := by positivity
      rw [show j + 1 + 3 = (j + 3) + 1 by ring, pow_succ]
      push_cast at ih ⊢
      nlinarith
  rcases k with _ | _ | _ | _ | k
  · norm_num
  · norm_num
  · norm_num
  · norm_num
  · exact h k

open Classical in
/-- At most three and three eighths of the deviation is missed. -/
theorem miss_dev (L : Layers n n) (h : GoodL L) {m : ℕ} (Ps : Fin m → Path n L.two.length) (hP : ∀ k, OneSided L.two (Ps k)) :
    ∑ v0, miss L Ps v0 * (if Harmless L.two (Ps v0) then 0 else 2) ≤ 27 / 8 := by
  obtain ⟨H, hH⟩ : ∃ H : Finset (Fin m), H = univ.filter fun k => ¬ Harmless L.two (Ps k) := ⟨_, rfl⟩
  have h1 : ∀ v0 ∈ H, miss L Ps v0 ≤ (3 / 4) ^ (H.card - 1) := by
    intro v0 hv
    unfold miss
    have hB := bits_pos n L.two.length
    have h2 : ∏ k ∈ univ.erase v0, (escSum L.gate L.two (Ps k) / Fintype.card (Bits n L.two.length)) ≤
        ∏ k ∈ univ.erase v0, (if k ∈ H then (3 / 4 : ℝ) else 1) := by
      refine prod_le_prod (fun _ _ => div_nonneg (escSum_nonneg _ _ _) hB.le) fun k _ => ?_
      rw [div_le_iff₀ hB]
      split
      · next hk =>
        rw [hH, mem_filter] at hk
        exact escSum_bound L.gate h.gate L.two h.regs (Ps k) (hP k) hk.2
      · rw [one_mul]; exact escSum_le _ _ _
    refine h2.trans (le_of_eq ?_)
    rw [prod_ite, prod_const_one, mul_one, prod_const]
    congr 1
    rw [← card_erase_of_mem hv]
    congr 1
    ext k
    simp only [mem_filter, mem_erase, mem_univ, and_true]
  have h3 : ∑ v0, miss L Ps v0 * (if Harmless L.two (Ps v0) then (0 : ℝ) else 2) = ∑ v0 ∈ H, miss L Ps v0 * 2 := by
    rw [hH, sum_filter]
    refine sum_congr rfl fun v0 _ => ?_
    by_cases hv : Harmless L.two (Ps v0) <;> simp [hv]
  rw [h3]
  have h4 : ∑ v0 ∈ H, miss L Ps v0 * 2 ≤ ∑ _v0 ∈ H, (3 / 4 : ℝ) ^ (H.card - 1) * 2 := sum_le_sum fun v0 hv => by linarith [h1 v0 hv]
  rw [sum_const, nsmul_eq_mul] at h4
  have := three_quarters H.card
  linarith

/-- **Soundness** in terms of layers. -/
theorem sound_core (D : Device κ n) (e : κ → ℂ) (he : nrm2 e = 1) (hD : ∀ i, (D.prep i).NoFlip ∨ (D.meas i).NoFlip) (L : Layers n n) (h : GoodL L) (v : ℕ) :
    ∑ s ∈ strings n, |accProb D e L v s - pAcc D e L v * ideal L s| ≤ 27 / 8 / (v + 1) := by
  classical
  have hv : (0 : ℝ) < (v : ℝ) + 1 := by positivity
  have hp : pAcc D e L v = (∑ Ps : Fin (v + 1) → Path n L.two.length, W D e L Ps * ∑ v0, miss L Ps v0) / (v + 1) := by
    unfold pAcc
    simp only [acc_formula D e L h]
    rw [← sum_div, sum_comm]
    congr 1
    refine sum_congr rfl fun Ps _ => ?_
    rw [← mul_sum, sum_comm]
    congr 1
    refine sum_congr rfl fun v0 _ => ?_
    rw [← mul_sum, tgt_total L h, mul_one]
  have h1 : ∀ s, accProb D e L v s - pAcc D e L v * ideal L s =
      (∑ Ps : Fin (v + 1) → Path n L.two.length, W D e L Ps * ∑ v0, miss L Ps v0 * (tgt L (Ps v0) s - ideal L s)) / (v + 1) := by
    intro s
    rw [hp, acc_formula D e L h, div_mul_eq_mul_div, ← sub_div, sum_mul, ← sum_sub_distrib]
    congr 1
    refine sum_congr rfl fun Ps _ => ?_
    rw [mul_assoc, ← mul_sub, sum_mul, ← sum_sub_distrib]
    congr 1
    exact sum_congr rfl fun v0 _ => by ring
  have h2 : ∀ s, |accProb D e L v s - pAcc D e L v * ideal L s| ≤
      (∑ Ps : Fin (v + 1) → Path n L.two.length, W D e L Ps * ∑ v0, miss L Ps v0 * |tgt L (Ps v0) s - ideal L s|) / (v + 1) := by
    intro s
    rw [h1 s, abs_div, abs_of_pos hv]
    refine div_le_div_of_nonneg_right ?_ hv.le
    refine (abs_sum_le_sum_abs _ _).trans (sum_le_sum fun Ps _ => ?_)
    rw [abs_mul, abs_of_nonneg (W_nonneg D e L Ps)]
    refine mul_le_mul_of_nonneg_left ?_ (W_nonneg D e L Ps)
    refine (abs_sum_le_sum_abs _ _).trans (sum_le_sum fun v0 _ => ?_)
    rw [abs_mul, abs_of_nonneg (miss_nonneg L Ps v0)]
  refine (sum_le_sum fun s _ => h2 s).trans ?_
  rw [← sum_div]
  refine div_le_div_of_nonneg_right ?_ hv.le
  rw [sum_comm]
  have h3 : ∀ Ps : Fin (v + 1) → Path n L.two.length, (∑ s ∈ strings n, W D e L Ps * ∑ v0, miss L Ps v0 * |tgt L (Ps v0) s - ideal L s|) ≤
      W D e L Ps * (27 / 8) := by
    intro Ps
    rw [← mul_sum]
    by_cases hP : ∀ k, OneSided L.two (Ps k)
    · refine mul_le_mul_of_nonneg_left ?_ (W_nonneg D e L Ps)
      rw [sum_comm]
      refine le_trans ?_ (miss_dev L h Ps hP)
      refine sum_le_sum fun v0 _ => ?_
      rw [← mul_sum]
      exact mul_le_mul_of_nonneg_left (dev_le L h (Ps v0)) (miss_nonneg L Ps v0)
    · push Not at hP
      obtain ⟨k, hk⟩ := hP
      have : W D e L Ps = 0 := by
        unfold W
        rw [runEnv_onesided D L.gate L.two hD 0 (List.ofFn Ps) ⟨Ps k, by simp [-List.ofFn_succ], hk⟩]
        simp [nrm2]
      rw [this, zero_mul, zero_mul]
  refine (sum_le_sum fun Ps _ => h3 Ps).trans ?_
  rw [← sum_mul]
  have := run_weights D L.gate L.two h.two (v + 1) 0 e
  unfold W
  rw [this, he, one_mul]

end Verif.Accred
