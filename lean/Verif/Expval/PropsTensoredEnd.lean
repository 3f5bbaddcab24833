import Verif.Expval.PropsTensoredCal
/-
C121: the tensored mitigator end to end, calibrated and applied with finitely many shots.
-/
namespace Verif.Expval
open Verif Verif.Counts

/-! ### Specification -/

/-- Upper bound of the factor by which mitigation with error matrices within `η` of `as` amplifies errors. -/
noncomputable def amplification (as : List (Mat ℝ)) (η : ℝ) : ℝ := (as.map fun a => (1 + |a 1 0 - a 0 1| + 2 * η) / (1 - a 1 0 - a 0 1 - 2 * η)).prod

/-! ### Lemmas -/

/-- Products of distributions differ by no more than their factors together. -/
theorem prod_bits_near (n : ℕ) (f g : ℕ → ℕ → ℝ) (hf : ∀ t < n, ∀ b < 2, 0 ≤ f t b) (hf1 : ∀ t < n, f t 0 + f t 1 = 1)
    (hg : ∀ t < n, ∀ b < 2, 0 ≤ g t b) (hg1 : ∀ t < n, g t 0 + g t 1 = 1) :
    ∑ y ∈ Finset.range (2 ^ n), |∏ t ∈ Finset.range n, f t (bit y t) - ∏ t ∈ Finset.range n, g t (bit y t)| ≤
      ∑ t ∈ Finset.range n, (|f t 0 - g t 0| + |f t 1 - g t 1|) := by
  induction n with
  | zero => simp
  | succ n ih =>
    have ih := ih (fun t ht => hf t (by omega)) (fun t ht => hf1 t (by omega)) (fun t ht => hg t (by omega)) fun t ht => hg1 t (by omega)
    rw [sum_pow_succ, Finset.sum_range_succ _ n]
    have hG := sum_prod_bits n g
    rw [Finset.prod_eq_one fun t ht => hg1 t (by have := Finset.mem_range.1 ht; omega)] at hG
    have hstep : ∀ y ∈ Finset.range (2 ^ n),
        |∏ t ∈ Finset.range (n + 1), f t (bit y t) - ∏ t ∈ Finset.range (n + 1), g t (bit y t)| +
          |∏ t ∈ Finset.range (n + 1), f t (bit (y + 2 ^ n) t) - ∏ t ∈ Finset.range (n + 1), g t (bit (y + 2 ^ n) t)| ≤
        |∏ t ∈ Finset.range n, f t (bit y t) - ∏ t ∈ Finset.range n, g t (bit y t)| +
          (∏ t ∈ Finset.range n, g t (bit y t)) * (|f n 0 - g n 0| + |f n 1 - g n 1|) := by
      intro y hy
      have hy' := Finset.mem_range.1 hy
      have e1 : ∀ (f : ℕ → ℕ → ℝ), ∀ t ∈ Finset.range n, f t (bit (y + 2 ^ n) t) = f t (bit y t) := by
        intro f t ht
        have := bit_add_high (b := 1) hy' t (Finset.mem_range.1 ht)
        rw [Nat.mul_one] at this; rw [this]
      have e2 : bit (y + 2 ^ n) n = 1 := by
        have := bit_high (b := 1) hy' (by omega); rwa [Nat.mul_one] at this
      rw [Finset.prod_range_succ, Finset.prod_range_succ, Finset.prod_range_succ, Finset.prod_range_succ, Finset.prod_congr rfl (e1 f), Finset.prod_congr rfl (e1 g),
        e2, bit_of_ge hy' le_rfl]
      have hGy : 0 ≤ ∏ t ∈ Finset.range n, g t (bit y t) := Finset.prod_nonneg fun t ht => hg t (by have := Finset.mem_range.1 ht; omega) _ (bit_lt _ _)
      set F := ∏ t ∈ Finset.range n, f t (bit y t)
      set G := ∏ t ∈ Finset.range n, g t (bit y t)
      have one : ∀ b < 2, |F * f n b - G * g n b| ≤ |F - G| * f n b + G * |f n b - g n b| := by
        intro b hb
        have hfb := hf n (by omega) b hb
        calc |F * f n b - G * g n b| = |(F - G) * f n b + G * (f n b - g n b)| := by ring_nf
          _ ≤ |(F - G) * f n b| + |G * (f n b - g n b)| := abs_add_le _ _
          _ = |F - G| * f n b + G * |f n b - g n b| := by rw [abs_mul, abs_mul, abs_of_nonneg hfb, abs_of_nonneg hGy]
      have h0 := one 0 (by omega)
      have h1 := one 1 (by omega)
      have hs := hf1 n (by omega)
      have : |F - G| * f n 0 + |F - G| * f n 1 = |F - G| := by rw [← mul_add, hs, mul_one]
      linarith
    refine (Finset.sum_le_sum hstep).trans ?_
    rw [Finset.sum_add_distrib, ← Finset.sum_mul, hG, one_mul]
    exact add_le_add_left ih _

theorem prodNoise_near (as As : List (Mat ℝ)) (hl : As.length = as.length) (hr : ∀ a ∈ as, ∃ e0 e1, Readout a e0 e1) (hR : ∀ a ∈ As, ∃ e0 e1, Readout a e0 e1) (η : ℝ)
    (hnear : ∀ q < as.length, ∀ y < 2, ∀ x < 2, |As.getD q (fun _ _ => 0) y x - as.getD q (fun _ _ => 0) y x| < η) (x : ℕ) :
    ∑ y ∈ Finset.range (2 ^ as.length), |prodNoise as y x - prodNoise As y x| ≤ 2 * as.length * η := by
  have h1 := prod_bits_near as.length (fun t b => as.getD t (fun _ _ => 0) b (x.testBit t).toNat) (fun t b => As.getD t (fun _ _ => 0) b (x.testBit t).toNat)
    (fun t ht b hb => by
      obtain ⟨e0, e1, h⟩ := hr _ (getD_mem_of_lt as (fun _ _ => 0) t ht)
      exact h.entries.1 b hb _ (Bool.toNat_lt _))
    (fun t ht => by
      obtain ⟨e0, e1, h⟩ := hr _ (getD_mem_of_lt as (fun _ _ => 0) t ht)
      exact h.entries.2 _ (Bool.toNat_lt _))
    (fun t ht b hb => by
      obtain ⟨e0, e1, h⟩ := hR _ (getD_mem_of_lt As (fun _ _ => 0) t (by omega))
      exact h.entries.1 b hb _ (Bool.toNat_lt _))
    (fun t ht => by
      obtain ⟨e0, e1, h⟩ := hR _ (getD_mem_of_lt As (fun _ _ => 0) t (by omega))
      exact h.entries.2 _ (Bool.toNat_lt _))
  have e : ∑ y ∈ Finset.range (2 ^ as.length), |prodNoise as y x - prodNoise As y x| =
      ∑ y ∈ Finset.range (2 ^ as.length), |∏ t ∈ Finset.range as.length, as.getD t (fun _ _ => 0) (bit y t) (x.testBit t).toNat -
        ∏ t ∈ Finset.range as.length, As.getD t (fun _ _ => 0) (bit y t) (x.testBit t).toNat| := by
    unfold prodNoise
    rw [hl]
    rfl
  rw [e]
  refine h1.trans ?_
  have h2 : ∀ t ∈ Finset.range as.length, |as.getD t (fun _ _ => 0) 0 (x.testBit t).toNat - As.getD t (fun _ _ => 0) 0 (x.testBit t).toNat| +
      |as.getD t (fun _ _ => 0) 1 (x.testBit t).toNat - As.getD t (fun _ _ => 0) 1 (x.testBit t).toNat| ≤ 2 * η := by
    intro t ht
    have a0 := hnear t (Finset.mem_range.1 ht) 0 (by omega) _ (Bool.toNat_lt (x.testBit t))
    have a1 := hnear t (Finset.mem_range.1 ht) 1 (by omega) _ (Bool.toNat_lt (x.testBit t))
    rw [abs_sub_comm] at a0 a1
    linarith
  refine (Finset.sum_le_sum h2).trans (le_of_eq ?_)
  rw [Finset.sum_const, Finset.card_range, nsmul_eq_mul]
  ring

theorem prod_map_le (as As : List (Mat ℝ)) (hl : As.length = as.length) (f g : Mat ℝ → ℝ) (h0 : ∀ q < as.length, 0 ≤ f (As.getD q (fun _ _ => 0)))
    (h : ∀ q < as.length, f (As.getD q (fun _ _ => 0)) ≤ g (as.getD q (fun _ _ => 0))) : (As.map f).prod ≤ (as.map g).prod := by
  induction as generalizing As with
  | nil =>
    have : As = [] := List.length_eq_zero_iff.1 hl
    subst this
    simp
  | cons a as ih =>
    obtain _ | ⟨A, As⟩ := As
    · simp at hl
    · have hl' : As.length = as.length := by simpa using hl
      rw [List.map_cons, List.prod_cons, List.map_cons, List.prod_cons]
      have z0 := h0 0 (by simp)
      have z := h 0 (by simp)
      simp only [List.getD_cons_zero] at z0 z
      refine mul_le_mul z (ih As hl' (fun q hq => ?_) fun q hq => ?_) (List.prod_nonneg fun v hv => ?_) (z0.trans z)
      · have := h0 (q + 1) (by simpa using hq)
        rwa [List.getD_cons_succ] at this
      · have := h (q + 1) (by simpa using hq)
        rwa [List.getD_cons_succ, List.getD_cons_succ] at this
      · obtain ⟨B, hB, rfl⟩ := List.mem_map.1 hv
        obtain ⟨q, hq, rfl⟩ := List.getElem_of_mem hB
        have := h0 (q + 1) (by simp; omega)
        rw [List.getD_cons_succ, List.getD_eq_getElem?_getD, List.getElem?_eq_getElem hq, Option.getD_some] at this
        exact this

/-! ### C121 -/

open Classical in
/-- **C121** (tensored mitigator, end to end).  `K` shots of each of the two default calibration circuits and `N` shots of the circuit, on a device whose qubits are
misread independently with the matrices `as`. -/
theorem C121_tensored_end_to_end {O : Type} [Fintype O] (as : List (Mat ℝ)) (hn : 1 ≤ as.length) (hr : ∀ a ∈ as, ∃ e0 e1, Readout a e0 e1)
    {K N : ℕ} (hK : 0 < K) (hN : 0 < N) (inv : ℕ → Mat ℝ → Mat ℝ) (hinv : InvCorrect inv)
    (circs : List MeasMit.Circ) (metas : List Meta) (h : mitigatorCircuits as.length "tensored".toList none = some (circs, metas))
    (cal : (Fin 2 → Fin K → Fin (2 ^ as.length)) → ℕ → IntCounts) (hcal : ∀ κ (x : Fin 2), RecordsInt (κ x) (cal κ x))
    (c₀ : ℝ) (hc₀ : 0 < c₀) (hclean : ∀ q < as.length, ∀ x < 2, c₀ ≤ cleanProb as q x)
    (nc : ℕ) (clbits : Option (List ℕ)) (T : List ℕ) (hT : Selects nc clbits T) (hl : T.length = as.length)
    (diagonal : Option (List ℝ)) (hd : UnitDiag as.length diagonal)
    (w : O → ℝ) (hw : IsDistr w) (out : O → Str) (p : ℕ → ℝ)
    (hdev : NoisyReadout w (fun o => readBits T (out o)) (2 ^ as.length) (prodNoise as) (prodNoise as) p 0)
    (c : (Fin N → O) → Counts) (hc : ∀ ω, Records nc out ω (c ω)) (η ε : ℝ) (hη : 0 < η) (hε : 0 < ε)
    (hsep : ∀ a ∈ as, a 1 0 + a 0 1 + 2 * η < 1) :
    (∑ κ : Fin 2 → Fin K → Fin (2 ^ as.length), ∑ ω : Fin N → O,
      if ∃ st As e, calibrationData (cal κ) metas = some st ∧ fitTensored (K := ℝ) st = some As ∧
        tensoredExpval inv As (c ω) diagonal none clbits = some e ∧
        |e.1 - ∑ x ∈ Finset.range (2 ^ as.length), diagVal as.length diagonal x * p x| < amplification as η * (2 * as.length * η + ε)
      then 0 else pairProb (prodNoise as) κ * shotsProb w ω) ≤
      2 * as.length * (4 * (1 - c₀) + 1 / η ^ 2) / (K * c₀) + 2 * Real.exp (-(N * ε ^ 2 / 2)) := by
  have hnoise := prodNoise_isNoise as hr
  have hpos : ∀ κ, 0 ≤ pairProb (K := K) (prodNoise as) κ := fun κ =>
    Finset.prod_nonneg fun x _ => Finset.prod_nonneg fun k _ => (hnoise _ (calState_lt _ _)).1 _ (κ x k).2
  have hsp : ∀ ω : Fin N → O, 0 ≤ shotsProb w ω := fun ω => Finset.prod_nonneg fun k _ => hw.1 _
  have hs1 : ∑ ω : Fin N → O, shotsProb w ω = 1 := QV.draws_sum_one N w hw.2
  have hc1 : ∑ κ, pairProb (n := as.length) (K := K) (prodNoise as) κ = 1 := by
    refine product_one (fun (x : Fin 2) (u : Fin K → Fin (2 ^ as.length)) => ∏ k, prodNoise as (u k) (calState as.length x)) fun x => ?_
    refine QV.draws_sum_one K (fun z : Fin (2 ^ as.length) => prodNoise as z (calState as.length x)) ?_
    rw [← (hnoise _ (calState_lt as.length x)).2, Finset.sum_range]
  set truth := ∑ x ∈ Finset.range (2 ^ as.length), diagVal as.length diagonal x * p x with htruth
  have herr := C121_tensored_calibration_error as hn hr hK circs metas h cal hcal c₀ hc₀ hclean η hη
  refine le_trans (Finset.sum_le_sum (g := fun κ => (if FittedNear as η (cal κ) metas then 0 else pairProb (prodNoise as) κ) +
    pairProb (prodNoise as) κ * (2 * Real.exp (-(N * ε ^ 2 / 2)))) fun κ _ => ?_) (le_trans (le_of_eq ?_) (add_le_add_left herr (2 * Real.exp (-(N * ε ^ 2 / 2)))))
  · have hexp : 0 ≤ pairProb (prodNoise as) κ * (2 * Real.exp (-(N * ε ^ 2 / 2))) := mul_nonneg (hpos κ) (by positivity)
    by_cases hgood : FittedNear as η (cal κ) metas
    · rw [if_pos hgood, zero_add]
      obtain ⟨st, As, f1, f2, f3, f4⟩ := hgood
      have hsep' : ∀ q < as.length, As.getD q (fun _ _ => 0) 1 0 + As.getD q (fun _ _ => 0) 0 1 < 1 := by
        intro q hq
        have a1 := (abs_lt.1 ((f4 q hq).2 1 (by omega) 0 (by omega))).2
        have a2 := (abs_lt.1 ((f4 q hq).2 0 (by omega) 1 (by omega))).2
        have := hsep _ (getD_mem_of_lt as (fun _ _ => 0) q hq)
        linarith
      have hR : ∀ a ∈ As, ∃ e0 e1, Readout a e0 e1 := by
        intro a ha
        obtain ⟨q, hq, rfl⟩ := List.getElem_of_mem ha
        obtain ⟨⟨e0, e1, p0, p1, v0, v1, v2, v3⟩, -⟩ := f4 q (by omega)
        have hs := hsep' q (by omega)
        have e : As.getD q (fun _ _ => 0) = As[q] := by rw [List.getD_eq_getElem?_getD, List.getElem?_eq_getElem hq, Option.getD_some]
        rw [e] at v0 v1 v2 v3 hs
        exact ⟨e0, e1, v0, v1, v2, v3, p0, p1, by rw [v1, v2] at hs; exact hs⟩
      have hdev' : NoisyReadout w (fun o => readBits T (out o)) (2 ^ T.length) (prodNoise as) (prodNoise As) p (2 * as.length * η) := by
        rw [hl]
        exact ⟨hdev.nonneg, hdev.total, hdev.device, fun x _ => prodNoise_near as As f3 hr hR η (fun q hq => (f4 q hq).2) x⟩
      obtain ⟨γ, est, hγ, he, hacc⟩ := C121_tensored hN inv hinv As nc clbits T hT none As rfl (by omega) hR diagonal (by rw [hl]; exact hd) w hw out (prodNoise as) p
        (2 * as.length * η) hdev' c hc
      rw [hl] at hacc
      have hγ' : γ = (As.map tensoredGamma1).prod := by
        unfold tensoredGamma at hγ
        injection hγ with hγ
        exact hγ.symm
      have hden : ∀ q < as.length, 0 < 1 - As.getD q (fun _ _ => 0) 1 0 - As.getD q (fun _ _ => 0) 0 1 := fun q hq => by have := hsep' q hq; linarith
      have hγpos : 0 < γ := by
        rw [hγ']
        refine List.prod_pos fun v hv => ?_
        obtain ⟨a, ha, rfl⟩ := List.mem_map.1 hv
        obtain ⟨e0, e1, ho⟩ := hR a ha
        unfold tensoredGamma1
        rw [ho.a10, ho.a01]
        have := ho.lt
        have h2 : 0 < 1 - e0 - e1 := by linarith
        have h3 := abs_nonneg (e0 - e1)
        positivity
      have hγle : γ ≤ amplification as η := by
        rw [hγ']
        unfold amplification
        refine prod_map_le as As f3 _ _ (fun q hq => ?_) fun q hq => ?_
        · unfold tensoredGamma1
          have := hden q hq
          have h3 := abs_nonneg (As.getD q (fun _ _ => 0) 1 0 - As.getD q (fun _ _ => 0) 0 1)
          positivity
        · unfold tensoredGamma1
          have a1 := (f4 q hq).2 1 (by omega) 0 (by omega)
          have a2 := (f4 q hq).2 0 (by omega) 1 (by omega)
          have b1 := (abs_lt.1 a1)
          have b2 := (abs_lt.1 a2)
          have hs := hsep _ (getD_mem_of_lt as (fun _ _ => 0) q hq)
          set A := As.getD q (fun _ _ => 0)
          set a := as.getD q (fun _ _ => 0)
          have hnum : |A 1 0 - A 0 1| ≤ |a 1 0 - a 0 1| + 2 * η := by
            have : A 1 0 - A 0 1 = (a 1 0 - a 0 1) + ((A 1 0 - a 1 0) - (A 0 1 - a 0 1)) := by ring
            rw [this]
            refine (abs_add_le _ _).trans (add_le_add_right ((abs_sub _ _).trans ?_) _)
            linarith
          exact div_le_div₀ (by have := abs_nonneg (a 1 0 - a 0 1); linarith) (by linarith) (by linarith) (by linarith)
      have hh := hacc.hoeffding (γ * ε) (by positivity)
      have e1 : (N : ℝ) * (γ * ε) ^ 2 / (2 * γ ^ 2) = N * ε ^ 2 / 2 := by
        field_simp
      rw [e1] at hh
      refine le_trans ?_ (mul_le_mul_of_nonneg_left hh (hpos κ))
      rw [Finset.mul_sum]
      refine Finset.sum_le_sum fun ω _ => ?_
      by_cases hok : |(est ω).1 - truth| < amplification as η * (2 * as.length * η + ε)
      · rw [if_pos ⟨st, As, est ω, f1, f2, he ω, hok⟩]
        split
        · exact mul_nonneg (hpos κ) (hsp ω)
        · simp
      · have : γ * (2 * as.length * η) + γ * ε ≤ |(est ω).1 - truth| := by
          refine le_trans ?_ (not_lt.1 hok)
          rw [← mul_add]
          exact mul_le_mul_of_nonneg_right hγle (by positivity)
        rw [if_pos this]
        split
        · exact mul_nonneg (hpos κ) (hsp ω)
        · exact le_rfl
    · rw [if_neg hgood]
      have : (∑ ω : Fin N → O, if ∃ st As e, calibrationData (cal κ) metas = some st ∧ fitTensored (K := ℝ) st = some As ∧
          tensoredExpval inv As (c ω) diagonal none clbits = some e ∧ |e.1 - truth| < amplification as η * (2 * as.length * η + ε)
          then 0 else pairProb (prodNoise as) κ * shotsProb w ω) ≤ ∑ ω : Fin N → O, pairProb (prodNoise as) κ * shotsProb w ω := by
        refine Finset.sum_le_sum fun ω _ => ?_
        split
        · exact mul_nonneg (hpos κ) (hsp ω)
        · exact le_rfl
      rw [← Finset.mul_sum, hs1, mul_one] at this
      linarith
  · rw [Finset.sum_add_distrib, ← Finset.sum_mul, hc1, one_mul]

theorem exReadout : Readout exNoise (1 / 10) (1 / 5) := by constructor <;> norm_num [exNoise]

/-- What is read of two qubits. -/
def exStr (o : Fin 4) : Str := [if o.val.testBit 1 then '1' else '0', if o.val.testBit 0 then '1' else '0']

open Classical in
/-- Non-vacuity: two qubits, both in state 1, each misread with probability 1/10 in state 0 and 1/5 in state 1.  The estimate of `⟨ZZ⟩ = 1` is positive and below 2
except with probability `2004/K + 2 exp(-N/800)`. -/
theorem C121_tensored_experiment (K N : ℕ) (hK : 0 < K) (hN : 0 < N) : ∃ (inv : ℕ → Mat ℝ → Mat ℝ) (circs : List MeasMit.Circ) (metas : List Meta)
    (cal : (Fin 2 → Fin K → Fin (2 ^ 2)) → ℕ → IntCounts) (c : (Fin N → Fin 4) → Counts),
    InvCorrect inv ∧ mitigatorCircuits 2 "tensored".toList none = some (circs, metas) ∧ (∀ κ (x : Fin 2), RecordsInt (κ x) (cal κ x)) ∧
    (∀ ω, Records 2 exStr ω (c ω)) ∧
    (∑ κ : Fin 2 → Fin K → Fin (2 ^ 2), ∑ ω : Fin N → Fin 4,
      if ∃ st As e, calibrationData (cal κ) metas = some st ∧ fitTensored (K := ℝ) st = some As ∧
        tensoredExpval inv As (c ω) none none none = some e ∧ |e.1 - 1| < 1
      then 0 else pairProb (prodNoise [exNoise, exNoise]) κ * shotsProb (fun o : Fin 4 => prodNoise [exNoise, exNoise] o 3) ω) ≤ 2004 / K + 2 * Real.exp (-(N / 800)) := by
  obtain ⟨inv, hinv⟩ := exists_invCorrect (K := ℝ)
  obtain ⟨circs, metas, hm, -⟩ := (C18_labels 2 (by omega) "tensored".toList).1 rfl
  choose cal0 hcal0 using fun u : Fin K → Fin (2 ^ 2) => exists_recordsInt u
  choose c hc using fun ω : Fin N → Fin 4 => exists_records (N := N) 2 exStr (by decide) hN ω
  let cal : (Fin 2 → Fin K → Fin (2 ^ 2)) → ℕ → IntCounts := fun κ x => if h : x < 2 then cal0 (κ ⟨x, h⟩) else []
  have hcal : ∀ κ (x : Fin 2), RecordsInt (κ x) (cal κ x) := by
    intro κ x
    simp only [cal, dif_pos x.2]
    exact hcal0 _
  refine ⟨inv, circs, metas, cal, c, hinv, hm, hcal, hc, ?_⟩
  have hr : ∀ a ∈ [exNoise, exNoise], ∃ e0 e1, Readout a e0 e1 := by
    intro a ha
    simp only [List.mem_cons, List.not_mem_nil, or_false, or_self] at ha
    subst ha
    exact ⟨_, _, exReadout⟩
  have hno := prodNoise_isNoise [exNoise, exNoise] hr 3 (by decide)
  have := C121_tensored_end_to_end [exNoise, exNoise] (by simp) hr hK hN inv hinv circs metas hm cal hcal (4 / 5) (by norm_num)
    (by
      intro q hq x hx
      have hq' : q < 2 := by simpa using hq
      unfold cleanProb
      interval_cases q <;> interval_cases x
      · rw [show (Finset.range [exNoise, exNoise].length).erase 0 = {1} by rfl]; norm_num [exNoise]
      · rw [show (Finset.range [exNoise, exNoise].length).erase 0 = {1} by rfl]; norm_num [exNoise]
      · rw [show (Finset.range [exNoise, exNoise].length).erase 1 = {0} by rfl]; norm_num [exNoise]
      · rw [show (Finset.range [exNoise, exNoise].length).erase 1 = {0} by rfl]; norm_num [exNoise])
    2 none [0, 1] (by decide) rfl none (by intro d h; cases h) (fun o : Fin 4 => prodNoise [exNoise, exNoise] o 3)
    ⟨fun o => hno.1 o (by have := o.2; simp), by rw [← hno.2, Finset.sum_range]; rfl⟩ exStr (fun x => if x = 3 then 1 else 0)
    { nonneg := fun x _ => by split <;> norm_num
      total := by norm_num [Finset.sum_range_succ]
      device := by
        intro y hy
        have e : ∀ o : Fin 4, readBits [0, 1] (exStr o) = o := by decide
        have hy4 : y < 4 := by simpa using hy
        simp only [e]
        rw [Finset.sum_eq_single ⟨y, hy4⟩ (fun b _ hb => if_neg fun h => hb (Fin.ext h)) fun h => absurd (Finset.mem_univ _) h, if_pos rfl]
        rw [Finset.sum_eq_single 3 (fun b _ hb => by simp [hb]) (fun h => absurd (Finset.mem_range.2 (by decide)) h)]
        simp
      calibrated := by simp } c hc (1 / 20) (1 / 20) (by norm_num) (by norm_num) (by
        intro a ha
        simp only [List.mem_cons, List.not_mem_nil, or_false, or_self] at ha
        subst ha
        norm_num [exNoise])
  have et : ∑ x ∈ Finset.range (2 ^ [exNoise, exNoise].length), diagVal [exNoise, exNoise].length (none : Option (List ℝ)) x * (if x = 3 then (1 : ℝ) else 0) = 1 := by
    rw [Finset.sum_eq_single 3 (fun b _ hb => by simp [hb]) (fun h => absurd (Finset.mem_range.2 (by decide)) h)]
    have hb : (Nat.testBit 3 1) = true := by decide
    have hb0 : (Nat.testBit 3 0) = true := by decide
    norm_num [diagVal, Finset.sum_range_succ, hb, hb0, Finset.prod_range_succ]
  have ea : amplification [exNoise, exNoise] (1 / 20) * (2 * ([exNoise, exNoise].length : ℝ) * (1 / 20) + 1 / 20) = 1 := by
    norm_num [amplification, exNoise, abs_of_neg]
  rw [et, ea] at this
  refine this.trans (le_of_eq ?_)
  congr 1
  · have hK' : (K : ℝ) ≠ 0 := by exact_mod_cast hK.ne'
    simp only [List.length_cons, List.length_nil]
    field_simp
    norm_num
  · congr 3; ring

end Verif.Expval
