import Verif.Expval.LemmasCtmpShots
import Verif.Expval.PropsShots
/-
C125 CTMP mitigated expectation values from finitely many shots and random numbers.
-/
set_option linter.unusedSectionVars false
namespace Verif.Expval.Ctmp
open Verif Verif.Counts Verif.Expval

variable {O : Type} [Fintype O] {N : ℕ}

/-- Scatter of the mean of draws about any number. -/
theorem avg_about {T : Type} [Fintype T] (M : ℕ) (hM : 0 < M) (q : T → ℝ) (hq1 : ∑ t, q t = 1) (Y : T → ℝ) (v m : ℝ) (hv : ∑ t, q t * Y t = v) :
    ∑ τ : Fin M → T, (∏ i, q (τ i)) * (QV.avg Y τ - m) ^ 2 = (∑ t, q t * Y t ^ 2 - v ^ 2) / M + (v - m) ^ 2 := by
  have h1 := QV.avg_variance M hM q hq1 Y v hv
  have h2 := QV.avg_mean M hM q hq1 Y
  have h3 := QV.draws_sum_one M q hq1
  rw [hv] at h2
  have e : ∀ τ : Fin M → T, (∏ i, q (τ i)) * (QV.avg Y τ - m) ^ 2 =
      (∏ i, q (τ i)) * (QV.avg Y τ - v) ^ 2 + 2 * (v - m) * ((∏ i, q (τ i)) * QV.avg Y τ) + ((v - m) ^ 2 - 2 * (v - m) * v) * ∏ i, q (τ i) := by
    intro τ; ring
  simp only [e, Finset.sum_add_distrib, ← Finset.mul_sum]
  rw [h1, h2, h3]
  ring

/-- The scatter over shots and random numbers together. -/
theorem scatter_eq {T : Type} [Fintype T] (hN : 0 < N) (w : O → ℝ) (hw : IsDistr w) (M : ℕ) (hM : 0 < M) (q : (Fin N → O) → T → ℝ)
    (hq1 : ∀ ω, ∑ t, q ω t = 1) (Y : T → ℝ) (co : O → ℝ) (hmean : ∀ ω, ∑ t, q ω t * Y t = QV.avg co ω) :
    (∑ ω, shotsProb w ω * ∑ τ : Fin M → T, (∏ i, q ω (τ i)) * QV.avg Y τ = ∑ o, w o * co o) ∧
    ∑ ω, shotsProb w ω * ∑ τ : Fin M → T, (∏ i, q ω (τ i)) * (QV.avg Y τ - ∑ o, w o * co o) ^ 2 =
      (∑ ω, shotsProb w ω * (∑ t, q ω t * Y t ^ 2 - QV.avg co ω ^ 2)) / M + (∑ o, w o * co o ^ 2 - (∑ o, w o * co o) ^ 2) / N := by
  constructor
  · have : ∀ ω, ∑ τ : Fin M → T, (∏ i, q ω (τ i)) * QV.avg Y τ = QV.avg co ω := fun ω => by rw [QV.avg_mean M hM (q ω) (hq1 ω), hmean]
    simp only [this]
    exact QV.avg_mean N hN w hw.2 co
  · simp only [fun ω => avg_about M hM (q ω) (hq1 ω) Y _ (∑ o, w o * co o) (hmean ω), mul_add, Finset.sum_add_distrib]
    rw [Finset.sum_div]
    congr 1
    · exact Finset.sum_congr rfl fun ω _ => by ring
    · exact QV.avg_variance N hN w hw.2 co _ rfl

theorem shots_nonneg (w : O → ℝ) (hw : IsDistr w) (ω : Fin N → O) : 0 ≤ shotsProb w ω := Finset.prod_nonneg fun _ _ => hw.1 _

theorem accurate_randomised_of {T : Type} [Fintype T] (hN : 0 < N) (w : O → ℝ) (hw : IsDistr w) (M : ℕ) (g : ℝ) (hg : 1 ≤ g) (hM : N * g ≤ M)
    (q : (Fin N → O) → T → ℝ) (hq0 : ∀ ω t, 0 ≤ q ω t) (hq1 : ∀ ω, ∑ t, q ω t = 1) (Y : T → ℝ) (hY : ∀ t, |Y t| ≤ g) (co : O → ℝ) (hco : ∀ o, |co o| ≤ g)
    (hmean : ∀ ω, ∑ t, q ω t * Y t = QV.avg co ω) (truth η : ℝ) (hb : |∑ o, w o * co o - truth| ≤ g * η) (E : (Fin N → O) → (ℝ → ℝ) → ℝ)
    (hE : ∀ ω F, E ω F = ∑ τ : Fin M → T, (∏ i, q ω (τ i)) * F (QV.avg Y τ)) : AccurateRandomised w E truth g η := by
  classical
  have hg0 : 0 < g := lt_of_lt_of_le one_pos hg
  have hN' : (0 : ℝ) < N := by exact_mod_cast hN
  have hM' : (0 : ℝ) < M := lt_of_lt_of_le (mul_pos hN' hg0) hM
  have hMn : 0 < M := by exact_mod_cast hM'
  obtain ⟨hm, hs⟩ := scatter_eq hN w hw M hMn q hq1 Y co hmean
  have hsum : ∑ ω : Fin N → O, shotsProb w ω = 1 := QV.draws_sum_one N w hw.2
  have hP := fun ω : Fin N → O => shots_nonneg w hw ω
  have hQ := fun (ω : Fin N → O) (τ : Fin M → T) => (Finset.prod_nonneg fun i _ => hq0 ω (τ i) : 0 ≤ ∏ i, q ω (τ i))
  have hscat : ∑ ω, shotsProb w ω * ∑ τ : Fin M → T, (∏ i, q ω (τ i)) * (QV.avg Y τ - ∑ o, w o * co o) ^ 2 ≤ (g ^ 2 + g) / N := by
    rw [hs]
    have h1 : ∑ ω : Fin N → O, shotsProb w ω * (∑ t, q ω t * Y t ^ 2 - QV.avg co ω ^ 2) ≤ g ^ 2 := by
      calc ∑ ω : Fin N → O, shotsProb w ω * (∑ t, q ω t * Y t ^ 2 - QV.avg co ω ^ 2) ≤ ∑ ω : Fin N → O, shotsProb w ω * g ^ 2 := by
            refine Finset.sum_le_sum fun ω _ => mul_le_mul_of_nonneg_left ?_ (hP ω)
            have : ∑ t, q ω t * Y t ^ 2 ≤ g ^ 2 := by
              calc ∑ t, q ω t * Y t ^ 2 ≤ ∑ t, q ω t * g ^ 2 := Finset.sum_le_sum fun t _ => mul_le_mul_of_nonneg_left (by
                    rw [← sq_abs (Y t)]; exact pow_le_pow_left₀ (abs_nonneg _) (hY t) 2) (hq0 ω t)
                _ = g ^ 2 := by rw [← Finset.sum_mul, hq1, one_mul]
            nlinarith [sq_nonneg (QV.avg co ω)]
        _ = g ^ 2 := by rw [← Finset.sum_mul, hsum, one_mul]
    have h2 : ∑ o, w o * co o ^ 2 - (∑ o, w o * co o) ^ 2 ≤ g ^ 2 := by
      have : ∑ o, w o * co o ^ 2 ≤ g ^ 2 := by
        calc ∑ o, w o * co o ^ 2 ≤ ∑ o, w o * g ^ 2 := Finset.sum_le_sum fun o _ => mul_le_mul_of_nonneg_left (by
              rw [← sq_abs (co o)]; exact pow_le_pow_left₀ (abs_nonneg _) (hco o) 2) (hw.1 o)
          _ = g ^ 2 := by rw [← Finset.sum_mul, hw.2, one_mul]
      nlinarith [sq_nonneg (∑ o, w o * co o)]
    have h3 : (∑ ω : Fin N → O, shotsProb w ω * (∑ t, q ω t * Y t ^ 2 - QV.avg co ω ^ 2)) / M ≤ g / N := by
      calc _ ≤ g ^ 2 / M := div_le_div_of_nonneg_right h1 hM'.le
        _ ≤ g ^ 2 / (N * g) := div_le_div_of_nonneg_left (by positivity) (by positivity) hM
        _ = g / N := by field_simp
    have h4 := div_le_div_of_nonneg_right h2 hN'.le
    rw [add_div]
    linarith
  have hmE : ∑ ω, shotsProb w ω * E ω (fun e => e) = ∑ o, w o * co o := by simp only [hE]; exact hm
  have hfar : ∀ ε e : ℝ, g * η + ε ≤ |e - truth| → ε ≤ |e - ∑ o, w o * co o| := by
    intro ε e h
    have := abs_add_le (e - ∑ o, w o * co o) (∑ o, w o * co o - truth)
    rw [sub_add_sub_cancel] at this
    linarith
  refine ⟨?_, by rw [hmE]; exact hb, ?_, fun ε hε => ?_, fun ε hε => ?_⟩
  · have : ∀ ω, E ω (fun _ => 1) = 1 := fun ω => by rw [hE]; simp only [mul_one]; exact QV.draws_sum_one M (q ω) (hq1 ω)
    simp only [this, mul_one]
    exact hsum
  · rw [hmE]
    simp only [hE]
    exact hscat
  · simp only [hE]
    calc ∑ ω, shotsProb w ω * ∑ τ : Fin M → T, (∏ i, q ω (τ i)) * (if g * η + ε ≤ |QV.avg Y τ - truth| then 1 else 0)
        ≤ ∑ ω, shotsProb w ω * ∑ τ : Fin M → T, (∏ i, q ω (τ i)) * ((QV.avg Y τ - ∑ o, w o * co o) ^ 2 / ε ^ 2) := by
          refine Finset.sum_le_sum fun ω _ => mul_le_mul_of_nonneg_left (Finset.sum_le_sum fun τ _ => mul_le_mul_of_nonneg_left ?_ (hQ ω τ)) (hP ω)
          split
          · next h =>
            rw [le_div_iff₀ (by positivity), one_mul, ← sq_abs (QV.avg Y τ - _)]
            exact pow_le_pow_left₀ hε.le (hfar ε _ h) 2
          · positivity
      _ = (∑ ω, shotsProb w ω * ∑ τ : Fin M → T, (∏ i, q ω (τ i)) * (QV.avg Y τ - ∑ o, w o * co o) ^ 2) / ε ^ 2 := by
          rw [Finset.sum_div]
          refine Finset.sum_congr rfl fun ω _ => ?_
          rw [mul_div_assoc, Finset.sum_div]
          congr 1
          exact Finset.sum_congr rfl fun τ _ => by ring
      _ ≤ (g ^ 2 + g) / N / ε ^ 2 := div_le_div_of_nonneg_right hscat (by positivity)
      _ = (g ^ 2 + g) / (N * ε ^ 2) := by rw [div_div]
  · simp only [hE]
    have hhalf : 0 ≤ ε / 2 := by linarith
    have hA : ∀ ω, (∑ τ : Fin M → T, if ε / 2 ≤ |QV.avg Y τ - QV.avg co ω| then ∏ i, q ω (τ i) else 0) ≤ 2 * Real.exp (-(N * ε ^ 2 / (8 * g ^ 2))) := by
      intro ω
      refine le_trans (hoeffding M hMn (q ω) (hq0 ω) (hq1 ω) Y g hg0 hY _ (hmean ω) (ε / 2) hhalf _ fun τ h => h) ?_
      refine mul_le_mul_of_nonneg_left (Real.exp_le_exp.2 (neg_le_neg ?_)) (by norm_num)
      have hNM : (N : ℝ) ≤ M := le_trans (le_mul_of_one_le_right hN'.le hg) hM
      rw [div_pow, show (M : ℝ) * (ε ^ 2 / 2 ^ 2) / (2 * g ^ 2) = M * ε ^ 2 / (8 * g ^ 2) by field_simp; ring]
      exact div_le_div_of_nonneg_right (mul_le_mul_of_nonneg_right hNM (by positivity)) (by positivity)
    have hB : (∑ ω : Fin N → O, if ε / 2 ≤ |QV.avg co ω - ∑ o, w o * co o| then shotsProb w ω else 0) ≤ 2 * Real.exp (-(N * ε ^ 2 / (8 * g ^ 2))) := by
      refine le_trans (hoeffding N hN w hw.1 hw.2 co g hg0 hco _ rfl (ε / 2) hhalf _ fun ω h => h) (le_of_eq ?_)
      congr 3
      rw [div_pow]
      field_simp
      ring
    calc ∑ ω, shotsProb w ω * ∑ τ : Fin M → T, (∏ i, q ω (τ i)) * (if g * η + ε ≤ |QV.avg Y τ - truth| then 1 else 0)
        ≤ ∑ ω, shotsProb w ω * (2 * Real.exp (-(N * ε ^ 2 / (8 * g ^ 2))) + if ε / 2 ≤ |QV.avg co ω - ∑ o, w o * co o| then 1 else 0) := by
          refine Finset.sum_le_sum fun ω _ => mul_le_mul_of_nonneg_left ?_ (hP ω)
          by_cases hv : ε / 2 ≤ |QV.avg co ω - ∑ o, w o * co o|
          · rw [if_pos hv]
            have h1 : ∑ τ : Fin M → T, (∏ i, q ω (τ i)) * (if g * η + ε ≤ |QV.avg Y τ - truth| then (1 : ℝ) else 0) ≤ ∑ τ : Fin M → T, ∏ i, q ω (τ i) :=
              Finset.sum_le_sum fun τ _ => mul_le_of_le_one_right (hQ ω τ) (by split <;> norm_num)
            rw [QV.draws_sum_one M (q ω) (hq1 ω)] at h1
            have := (Real.exp_pos (-(N * ε ^ 2 / (8 * g ^ 2)))).le
            linarith
          · rw [if_neg hv, add_zero]
            refine le_trans (Finset.sum_le_sum fun τ _ => ?_) (hA ω)
            by_cases h : g * η + ε ≤ |QV.avg Y τ - truth|
            · have h' := hfar ε _ h
              have h3 := abs_add_le (QV.avg Y τ - QV.avg co ω) (QV.avg co ω - ∑ o, w o * co o)
              rw [sub_add_sub_cancel] at h3
              rw [if_pos h, if_pos (by push Not at hv; linarith), mul_one]
            · rw [if_neg h, mul_zero]
              split
              · exact hQ ω τ
              · exact le_rfl
      _ = 2 * Real.exp (-(N * ε ^ 2 / (8 * g ^ 2))) + ∑ ω : Fin N → O, if ε / 2 ≤ |QV.avg co ω - ∑ o, w o * co o| then shotsProb w ω else 0 := by
          simp only [mul_add, Finset.sum_add_distrib, ← Finset.sum_mul]
          rw [hsum, one_mul]
          congr 1
          exact Finset.sum_congr rfl fun ω _ => by split <;> simp
      _ ≤ 4 * Real.exp (-(N * ε ^ 2 / (8 * g ^ 2))) := by linarith

/-! ### The inverse of the noise -/

theorem exp_neg_mul (dim : ℕ) (G : Matrix (Fin dim) (Fin dim) ℝ) : NormedSpace.exp (-G) * NormedSpace.exp G = 1 := by
  rw [← Matrix.exp_add_of_commute _ _ (Commute.neg_left (Commute.refl G)), neg_add_cancel]
  have := exp_scalar dim 0
  rw [zero_smul, Real.exp_zero, one_smul] at this
  exact this

/-- The inverse noise, on numbers. -/
noncomputable def invNoise (dim : ℕ) (G : Mat ℝ) (y x : ℕ) : ℝ :=
  if h : y < dim ∧ x < dim then (NormedSpace.exp (-(asMatrix dim G))) ⟨y, h.1⟩ ⟨x, h.2⟩ else 0

theorem invNoise_isInv (dim : ℕ) (G : Mat ℝ) (S : ℕ → ℕ → ℝ) (hS : ∀ y x : Fin dim, S y x = (NormedSpace.exp (asMatrix dim G)) y x) :
    IsInv dim (invNoise dim G) S := by
  intro i hi j hj
  rw [Finset.sum_range fun k => invNoise dim G i k * S k j]
  have h := congrFun (congrFun (exp_neg_mul dim (asMatrix dim G)) ⟨i, hi⟩) ⟨j, hj⟩
  rw [Matrix.mul_apply, Matrix.one_apply] at h
  rw [show (if i = j then (1 : ℝ) else 0) = if (⟨i, hi⟩ : Fin dim) = ⟨j, hj⟩ then 1 else 0 by simp only [Fin.mk.injEq], ← h]
  refine Finset.sum_congr rfl fun k _ => ?_
  rw [← hS k ⟨j, hj⟩]
  unfold invNoise
  rw [dif_pos ⟨hi, k.2⟩]

/-- The sum of a sample's average over the columns of the inverse. -/
theorem sgn_average' (dim : ℕ) (G : Mat ℝ) (hG : IsGenerator dim G) (p d : ℕ → ℝ) (hp : ∀ x < dim, 0 ≤ p x) (hp1 : ∑ x ∈ Finset.range dim, p x = 1) :
    Real.exp (2 * noiseStrength dim G) * ∑ t, sgnLaw (noiseStrength dim G) dim (samplingMatrix dim G) p t * sgnVal d t =
      ∑ x ∈ Finset.range dim, (∑ y ∈ Finset.range dim, invNoise dim G y x * d y) * p x := by
  rw [sgn_average dim G hG p d hp hp1, Finset.sum_range fun x => (∑ y ∈ Finset.range dim, invNoise dim G y x * d y) * p x]
  refine Finset.sum_congr rfl fun x _ => ?_
  rw [mul_comm, Finset.sum_range fun y => invNoise dim G y x * d y]
  congr 1
  refine Finset.sum_congr rfl fun y _ => ?_
  unfold invNoise
  rw [dif_pos ⟨y.2, x.2⟩]

theorem sgnVal_bound {dim : ℕ} (d : ℕ → ℝ) (hd : ∀ x < dim, |d x| ≤ 1) (t : Sgn dim) : |sgnVal d t| ≤ 1 := by
  unfold sgnVal
  rw [abs_mul, abs_pow, abs_neg, abs_one, one_pow, one_mul]
  exact hd _ t.2.2

theorem invNoise_coeff (dim : ℕ) (G : Mat ℝ) (hG : IsGenerator dim G) (d : ℕ → ℝ) (hd : ∀ x < dim, |d x| ≤ 1) (x : ℕ) (hx : x < dim) :
    |∑ y ∈ Finset.range dim, invNoise dim G y x * d y| ≤ Real.exp (2 * noiseStrength dim G) := by
  have hp0 : ∀ z < dim, (0 : ℝ) ≤ (fun z => if z = x then (1 : ℝ) else 0) z := fun z _ => by simp only; split <;> norm_num
  have hp1 : ∑ z ∈ Finset.range dim, (fun z => if z = x then (1 : ℝ) else 0) z = 1 := by
    simp only
    rw [Finset.sum_ite_eq' (Finset.range dim) x, if_pos (Finset.mem_range.2 hx)]
  have h := sgn_average' dim G hG (fun z => if z = x then 1 else 0) d hp0 hp1
  have hr : ∑ z ∈ Finset.range dim, (∑ y ∈ Finset.range dim, invNoise dim G y z * d y) * (if z = x then (1 : ℝ) else 0) =
      ∑ y ∈ Finset.range dim, invNoise dim G y x * d y := by
    rw [Finset.sum_eq_single x]
    · rw [if_pos rfl, mul_one]
    · intro z _ hz; rw [if_neg hz, mul_zero]
    · intro h; exact absurd (Finset.mem_range.2 hx) h
  rw [hr] at h
  rw [← h, abs_mul, abs_of_pos (Real.exp_pos _)]
  have hγ := (noiseStrength_max dim G).1
  have hB := C26_sampling dim G hG
  refine mul_le_of_le_one_right (Real.exp_pos _).le ?_
  calc |∑ t, sgnLaw (noiseStrength dim G) dim (samplingMatrix dim G) (fun z => if z = x then 1 else 0) t * sgnVal d t|
      ≤ ∑ t, |sgnLaw (noiseStrength dim G) dim (samplingMatrix dim G) (fun z => if z = x then 1 else 0) t * sgnVal d t| := Finset.abs_sum_le_sum_abs _ _
    _ ≤ ∑ t, sgnLaw (noiseStrength dim G) dim (samplingMatrix dim G) (fun z => if z = x then 1 else 0) t := Finset.sum_le_sum fun t _ => by
        rw [abs_mul, abs_of_nonneg (sgnLaw_nonneg _ hγ dim _ hB _ hp0 hp1 t)]
        exact mul_le_of_le_one_right (sgnLaw_nonneg _ hγ dim _ hB _ hp0 hp1 t) (sgnVal_bound d hd t)
    _ = 1 := sgnLaw_total _ hγ dim _ hB _ hp0 hp1

/-! ### The call -/

theorem maxRate_unique (dim : ℕ) (G G' : ℕ → ℕ → ℝ) (hGG : ∀ j < dim, G j j = G' j j) (a b : ℝ) (ha : IsMaxRate dim G a) (hb : IsMaxRate dim G' b) : a = b := by
  obtain ⟨a0, a1, a2⟩ := ha
  obtain ⟨b0, b1, b2⟩ := hb
  refine le_antisymm ?_ ?_
  · rcases a2 with h | ⟨j, hj, h⟩
    · rw [h]; exact b0
    · rw [h, hGG j hj]; exact b1 j hj
  · rcases b2 with h | ⟨j, hj, h⟩
    · rw [h]; exact a0
    · rw [h, ← hGG j hj]; exact a1 j hj

omit [Fintype O] in
theorem shares_avg {n m : ℕ} {out : O → Str} {ω : Fin N → O} {c : Counts} (h : Records n out ω c) (read : Str → ℕ) (hr : ∀ s, read s < 2 ^ m) (vec : ℕ → ℝ)
    (hvec : ∀ y < 2 ^ m, vec y = share ℝ c fun s => read s = y) (f : ℕ → ℝ) :
    ∑ y ∈ Finset.range (2 ^ m), f y * vec y = QV.avg (fun o => f (read (out o))) ω := by
  have := congrArg Prod.fst (expvalVec_shots h read hr f vec hvec)
  rw [expvalVec_fst] at this
  exact this

/-- What `expectation_value` prepares for the sampling loop. -/
theorem ctmp_setup (hN : 0 < N) (gens : List (Gen × ℝ)) (hg : ∀ p ∈ gens, p.1.WF ∧ 0 ≤ p.2) (numQubits : ℕ) (qubits : Option (List ℕ)) (n : ℕ)
    (clbits : Option (List ℕ)) (T : List ℕ) (hT : Selects n clbits T) (qs Q : List ℕ) (hqs : qubits.getD (List.range numQubits) = qs)
    (hQ : Q.Pairwise (· < ·)) (hp : qs.Perm Q) (hl : Q.length = T.length) (diagonal : Option (List ℝ)) (hd : UnitDiag T.length diagonal)
    (out : O → Str) (c : (Fin N → O) → Counts) (hc : ∀ ω, Records n out ω (c ω)) :
    ∃ (G : Mat ℝ) (d : ℕ → ℝ) (vec : (Fin N → O) → ℕ → ℝ), IsGenerator (2 ^ T.length) G ∧
      (∀ y < 2 ^ T.length, ∀ x < 2 ^ T.length, G y x = genSum gens Q y x) ∧ (∀ x < 2 ^ T.length, |d x| ≤ 1) ∧
      (∀ x < 2 ^ T.length, d x = diagVal T.length diagonal x) ∧
      (∀ ω, ctmpCall gens numQubits (c ω) diagonal qubits clbits = some ⟨2 ^ T.length, noiseStrength (2 ^ T.length) G, vec ω,
        toCsc (2 ^ T.length) (samplingMatrix (2 ^ T.length) G), d, N, ctmpSamples N (noiseStrength (2 ^ T.length) G)⟩) ∧
      (∀ ω, ∀ f : ℕ → ℝ, ∑ y ∈ Finset.range (2 ^ T.length), f y * vec ω y = QV.avg (fun o => f (readQubits T qs (out o))) ω) ∧
      (∀ ω, ∀ x < 2 ^ T.length, 0 ≤ vec ω x) := by
  have hql : qs.length = T.length := by rw [hp.length_eq, hl]
  have hqn := nodup_of_perm hQ hp
  obtain ⟨G, hG1, hG2, hG3⟩ := C26_generator_matrix gens hg qs Q hQ hp
  rw [hl] at hG2 hG3
  obtain ⟨d, hdo, hdv⟩ := unit_diag T.length diagonal hd
  obtain ⟨d', hdo', hdv'⟩ := diagOr_eq T.length diagonal fun l hl => (hd l hl).1
  obtain rfl : d = d' := Option.some.inj (hdo.symm.trans hdo')
  have hrl := readQubits_lt T qs hqn hql
  have hv := fun ω => C21_vector_qubits (K := ℝ) n (c ω) (hc ω).reg (hc ω).nonneg (by rw [(hc ω).total]; exact_mod_cast hN) clbits T hT
    (some qs.length) (fun x hx => by rw [← Option.some.inj hx, hql]) qs hqn hql
  choose vec hv1 hv2 using hv
  refine ⟨G, d, vec, hG2, hG3, hdv, hdv', fun ω => ?_, fun ω f => shares_avg (hc ω) (readQubits T qs) hrl (vec ω) (hv2 ω) f, fun ω x hx => ?_⟩
  · unfold ctmpCall
    rw [hqs]
    simp only [hv1, Option.bind_eq_bind, Option.bind_some]
    rw [hdo]
    simp only [Option.bind_some]
    rw [hG1]
    have hs : shotsOf (c ω) = (N : ℤ) := (hc ω).total
    simp only [Option.bind_some, Option.pure_def, hs]
  · have h := shares_avg (hc ω) (readQubits T qs) hrl (vec ω) (hv2 ω) fun y => if y = x then 1 else 0
    have e : ∑ y ∈ Finset.range (2 ^ T.length), (if y = x then (1 : ℝ) else 0) * vec ω y = vec ω x := by
      rw [Finset.sum_eq_single x]
      · rw [if_pos rfl, one_mul]
      · intro y _ hy; rw [if_neg hy, zero_mul]
      · intro h'; exact absurd (Finset.mem_range.2 hx) h'
    rw [e] at h
    rw [h]
    unfold QV.avg
    refine div_nonneg (Finset.sum_nonneg fun k _ => ?_) (Nat.cast_nonneg _)
    simp only
    split <;> norm_num

/-- The value of a call, as a function of the draws. -/
noncomputable def valueOf (s : CtmpCall) (draws : List (Draws ℝ)) : ℝ := ((ctmpResult s draws).getD (0, 0)).1

theorem valueOf_law (dim : ℕ) (G : Mat ℝ) (hG : IsGenerator dim G) (p d : ℕ → ℝ) (hp : ∀ x < dim, 0 ≤ p x) (hp1 : ∑ x ∈ Finset.range dim, p x = 1)
    (shots : ℤ) (M : ℕ) (F : ℝ → ℝ) :
    rngMean (noiseStrength dim G) dim p (batches M) (fun ds => F (valueOf ⟨dim, noiseStrength dim G, p, toCsc dim (samplingMatrix dim G), d, shots, M⟩ ds)) =
      ∑ τ : Fin M → Sgn dim, (∏ i, sgnLaw (noiseStrength dim G) dim (samplingMatrix dim G) p (τ i)) *
        F (QV.avg (fun t => Real.exp (2 * noiseStrength dim G) * sgnVal d t) τ) := by
  unfold valueOf ctmpResult
  refine (estimate_law (noiseStrength dim G) (noiseStrength_max dim G).1 dim (samplingMatrix dim G) (C26_sampling dim G hG) p hp hp1 d
    (Real.exp (2 * noiseStrength dim G)) M
    (fun o => F (((o.map fun e => (e, Real.exp (2 * noiseStrength dim G) / √(shots : ℝ))).getD (0, 0)).1))).trans ?_
  refine Finset.sum_congr rfl fun τ _ => ?_
  simp only [Option.map_some, Option.getD_some]
  unfold QV.avg
  rw [← Finset.mul_sum, mul_div_assoc]

theorem valueOf_some (dim : ℕ) (G : Mat ℝ) (hG : IsGenerator dim G) (p d : ℕ → ℝ) (shots : ℤ) (M : ℕ) (ds : List (Draws ℝ)) (h : Possible dim (batches M) ds) :
    ctmpResult ⟨dim, noiseStrength dim G, p, toCsc dim (samplingMatrix dim G), d, shots, M⟩ ds =
      some (valueOf ⟨dim, noiseStrength dim G, p, toCsc dim (samplingMatrix dim G), d, shots, M⟩ ds, Real.exp (2 * noiseStrength dim G) / √(shots : ℝ)) := by
  obtain ⟨e, he⟩ := estimate_some dim (samplingMatrix dim G) (C26_sampling dim G hG) d (Real.exp (2 * noiseStrength dim G)) M (batches M) ds h
  unfold valueOf ctmpResult
  simp only [he, Option.map_some, Option.getD_some]

/-! ## C125 -/

/-- **C125.**  If the device reads its outcomes through a noise matrix that differs by at most `η` (column sums) from `exp(G)`, `G` the sum of the
calibrated generators on the qubits, then what the CTMP mitigator returns for `N` shots and any answer of the random number generator is a value and the
error bar e^{2γ}/√N, and the value is an accurate estimate of the noiseless expectation: over shots and random numbers it deviates on average by at most
e^{2γ}η, scatters by at most (e^{4γ}+e^{2γ})/N, and large deviations are exponentially rare in `N`. -/
theorem C125_accuracy (hN : 0 < N) (gens : List (Gen × ℝ)) (hg : ∀ p ∈ gens, p.1.WF ∧ 0 ≤ p.2) (numQubits : ℕ) (qubits : Option (List ℕ)) (n : ℕ)
    (clbits : Option (List ℕ)) (T : List ℕ) (hT : Selects n clbits T) (qs Q : List ℕ) (hqs : qubits.getD (List.range numQubits) = qs)
    (hQ : Q.Pairwise (· < ·)) (hp : qs.Perm Q) (hl : Q.length = T.length) (diagonal : Option (List ℝ)) (hd : UnitDiag T.length diagonal)
    (γ : ℝ) (hγ : IsMaxRate (2 ^ T.length) (genSum gens Q) γ) (S : ℕ → ℕ → ℝ)
    (hS : ∀ y x : Fin (2 ^ T.length), S y x = (NormedSpace.exp (asMatrix (2 ^ T.length) (genSum gens Q))) y x)
    (w : O → ℝ) (hw : IsDistr w) (out : O → Str) (M : ℕ → ℕ → ℝ) (p : ℕ → ℝ) (η : ℝ)
    (hdev : NoisyReadout w (fun o => readQubits T qs (out o)) (2 ^ T.length) M S p η) (c : (Fin N → O) → Counts) (hc : ∀ ω, Records n out ω (c ω)) :
    ∃ (call : (Fin N → O) → CtmpCall) (est : (Fin N → O) → List (Draws ℝ) → ℝ),
      (∀ ω, ctmpCall gens numQubits (c ω) diagonal qubits clbits = some (call ω)) ∧
      (∀ ω draws, Possible (call ω).dim (batches (call ω).numSamples) draws → ctmpResult (call ω) draws = some (est ω draws, Real.exp (2 * γ) / √N)) ∧
      AccurateRandomised w (fun ω F => rngMean (call ω).gamma (call ω).dim (call ω).probs (batches (call ω).numSamples) fun ds => F (est ω ds))
        (∑ x ∈ Finset.range (2 ^ T.length), diagVal T.length diagonal x * p x) (Real.exp (2 * γ)) η := by
  have hql : qs.length = T.length := by rw [hp.length_eq, hl]
  have hrl := readQubits_lt T qs (nodup_of_perm hQ hp) hql
  obtain ⟨G, d, vec, hG, hGe, hdv, hdv', hcall, havg, hvec⟩ := ctmp_setup hN gens hg numQubits qubits n clbits T hT qs Q hqs hQ hp hl diagonal hd out c hc
  obtain rfl : noiseStrength (2 ^ T.length) G = γ :=
    maxRate_unique _ G _ (fun j hj => hGe j hj j hj) _ _ (noiseStrength_max (2 ^ T.length) G) hγ
  have hGm : asMatrix (2 ^ T.length) (genSum gens Q) = asMatrix (2 ^ T.length) G := by
    funext y x; exact (hGe y y.2 x x.2).symm
  rw [hGm] at hS
  have hγ0 := hγ.1
  have hN' : (0 : ℝ) < N := by exact_mod_cast hN
  have hvec1 : ∀ ω, ∑ y ∈ Finset.range (2 ^ T.length), vec ω y = 1 := fun ω => by
    have := havg ω fun _ => 1
    simp only [one_mul] at this
    rw [this]
    unfold QV.avg
    simp [hN'.ne']
  set γ := noiseStrength (2 ^ T.length) G with hγd
  have hg1 : 1 ≤ Real.exp (2 * γ) := Real.one_le_exp (by linarith)
  refine ⟨fun ω => ⟨2 ^ T.length, γ, vec ω, toCsc (2 ^ T.length) (samplingMatrix (2 ^ T.length) G), d, N, ctmpSamples N γ⟩,
    fun ω => valueOf ⟨2 ^ T.length, γ, vec ω, toCsc (2 ^ T.length) (samplingMatrix (2 ^ T.length) G), d, N, ctmpSamples N γ⟩, hcall, fun ω ds h => ?_, ?_⟩
  · exact valueOf_some (2 ^ T.length) G hG (vec ω) d N _ ds h
  · have hB := C26_sampling _ G hG
    have hM : (N : ℝ) * Real.exp (2 * γ) ≤ (ctmpSamples N γ : ℕ) := by
      unfold ctmpSamples
      refine le_trans ?_ (Nat.le_ceil _)
      refine mul_le_mul_of_nonneg_right ?_ (Real.exp_pos _).le
      simp
    refine accurate_randomised_of hN w hw (ctmpSamples N γ) (Real.exp (2 * γ)) hg1 hM
      (fun ω => sgnLaw γ (2 ^ T.length) (samplingMatrix (2 ^ T.length) G) (vec ω))
      (fun ω => sgnLaw_nonneg γ hγ0 _ _ hB _ (hvec ω) (hvec1 ω)) (fun ω => sgnLaw_total γ hγ0 _ _ hB _ (hvec ω) (hvec1 ω))
      (fun t => Real.exp (2 * γ) * sgnVal d t) (fun t => ?_)
      (fun o => ∑ z ∈ Finset.range (2 ^ T.length), invNoise (2 ^ T.length) G z (readQubits T qs (out o)) * d z)
      (fun o => invNoise_coeff _ G hG d hdv _ (hrl (out o))) (fun ω => ?_) _ η ?_ _ fun ω F => ?_
    · rw [abs_mul, abs_of_pos (Real.exp_pos _)]
      exact mul_le_of_le_one_right (Real.exp_pos _).le (sgnVal_bound d hdv t)
    · have h := sgn_average' _ G hG (vec ω) d (hvec ω) (hvec1 ω)
      rw [havg ω fun x => ∑ y ∈ Finset.range (2 ^ T.length), invNoise (2 ^ T.length) G y x * d y] at h
      rw [← h, Finset.mul_sum]
      exact Finset.sum_congr rfl fun t _ => by ring
    · have hb := hdev.bias (fun o => hrl (out o)) _ (invNoise_isInv _ G S hS) d _ (Real.exp_pos (2 * γ)).le fun y hy => invNoise_coeff _ G hG d hdv y hy
      have htruth : ∑ x ∈ Finset.range (2 ^ T.length), d x * p x = ∑ x ∈ Finset.range (2 ^ T.length), diagVal T.length diagonal x * p x :=
        Finset.sum_congr rfl fun x hx => by rw [hdv' x (Finset.mem_range.1 hx)]
      rw [htruth] at hb
      exact hb
    · exact valueOf_law _ G hG (vec ω) d (hvec ω) (hvec1 ω) N _ F

/-- **C125** (error bar).  The standard deviation of the value is at most √2 times the error bar. -/
theorem C125_error_bar (w : O → ℝ) (E : (Fin N → O) → (ℝ → ℝ) → ℝ) (truth γ η : ℝ) (hγ : 0 ≤ γ) (h : AccurateRandomised w E truth (Real.exp (2 * γ)) η) :
    ∑ ω, shotsProb w ω * E ω (fun e => (e - ∑ ω', shotsProb w ω' * E ω' fun e => e) ^ 2) ≤ (√2 * (Real.exp (2 * γ) / √N)) ^ 2 := by
  refine le_trans h.scatter ?_
  have h1 : 1 ≤ Real.exp (2 * γ) := Real.one_le_exp (by linarith)
  rw [mul_pow, div_pow, Real.sq_sqrt (by norm_num), Real.sq_sqrt (Nat.cast_nonneg _), ← mul_div_assoc]
  refine div_le_div_of_nonneg_right ?_ (Nat.cast_nonneg _)
  nlinarith

/-- The experiment of the finding: one qubit that reads 0 or 1 with probability one half each. -/
def coinOut (o : Fin 2) : Str := if o = 0 then ['0'] else ['1']

/-- **Finding C125.**  The error bar e^{2γ}/√shots, which a comment in the code calls an upper bound, covers the scatter of the shots only and not that of
the random numbers: without noise, for every number of shots from 1600 on, the variance of the value is (2 - 1/N)/N, nearly twice the square of the error
bar 1/√N. -/
theorem C125_finding_error_bar (hN : 1600 ≤ N) (c : (Fin N → Fin 2) → Counts) (hc : ∀ ω, Records 1 coinOut ω (c ω)) :
    ∃ (call : (Fin N → Fin 2) → CtmpCall) (est : (Fin N → Fin 2) → List (Draws ℝ) → ℝ),
      (∀ ω, ctmpCall [] 1 (c ω) none none none = some (call ω)) ∧
      (∀ ω draws, Possible (call ω).dim (batches (call ω).numSamples) draws → ctmpResult (call ω) draws = some (est ω draws, 1 / √N)) ∧
      (∑ ω, shotsProb (fun _ => 1 / 2) ω * rngMean (call ω).gamma (call ω).dim (call ω).probs (batches (call ω).numSamples) (fun ds => est ω ds) = 0) ∧
      (∑ ω, shotsProb (fun _ => 1 / 2) ω * rngMean (call ω).gamma (call ω).dim (call ω).probs (batches (call ω).numSamples) (fun ds => est ω ds ^ 2) =
        (2 - 1 / N) / N) ∧
      (1 / √N) ^ 2 < (2 - 1 / (N : ℝ)) / N := by
  have hN0 : 0 < N := by omega
  have hN' : (0 : ℝ) < N := by exact_mod_cast hN0
  have hw : IsDistr (fun _ : Fin 2 => (1 / 2 : ℝ)) := ⟨fun _ => by norm_num, by simp⟩
  obtain ⟨G, d, vec, hG, hGe, hdv, hdv', hcall, havg, hvec⟩ := ctmp_setup hN0 [] (by simp) 1 none 1 none [0] (by decide) [0] [0] rfl (by decide)
    (List.Perm.refl _) rfl none (by intro l h; cases h) coinOut c hc
  simp only [List.length_singleton] at *
  have hG0 : ∀ y < 2 ^ 1, ∀ x < 2 ^ 1, G y x = 0 := fun y hy x hx => by rw [hGe y hy x hx]; rfl
  have hγ : noiseStrength (2 ^ 1) G = 0 :=
    maxRate_unique _ G (fun _ _ => 0) (fun j hj => hG0 j hj j hj) _ _ (noiseStrength_max (2 ^ 1) G) ⟨le_rfl, by simp, Or.inl rfl⟩
  have hB := C26_sampling _ G hG
  have hvec1 : ∀ ω, ∑ y ∈ Finset.range (2 ^ 1), vec ω y = 1 := fun ω => by
    have := havg ω fun _ => 1
    simp only [one_mul] at this
    rw [this]
    unfold QV.avg
    simp [hN'.ne']
  have hM : ctmpSamples N (noiseStrength (2 ^ 1) G) = N := by
    unfold ctmpSamples
    rw [hγ, mul_zero, Real.exp_zero, mul_one, max_eq_right (by exact_mod_cast hN)]
    simp
  have hd0 : d 0 = 1 := by rw [hdv' 0 (by norm_num)]; simp [diagVal]
  have hd1 : d 1 = -1 := by rw [hdv' 1 (by norm_num)]; simp [diagVal]
  have hr0 : readQubits [0] [0] (coinOut 0) = 0 := by decide
  have hr1 : readQubits [0] [0] (coinOut 1) = 1 := by decide
  have hexp : NormedSpace.exp (-(asMatrix (2 ^ 1) G)) = 1 := by
    have : asMatrix (2 ^ 1) G = 0 := by funext y x; exact hG0 y y.2 x x.2
    rw [this, neg_zero]
    have h := exp_scalar (2 ^ 1) 0
    rw [zero_smul, Real.exp_zero, one_smul] at h
    exact h
  have hco : ∀ x < 2 ^ 1, ∑ z ∈ Finset.range (2 ^ 1), invNoise (2 ^ 1) G z x * d z = d x := by
    intro x hx
    rw [Finset.sum_eq_single x]
    · unfold invNoise; rw [dif_pos ⟨hx, hx⟩, hexp, Matrix.one_apply_eq, one_mul]
    · intro z hz hzx
      unfold invNoise
      rw [dif_pos ⟨Finset.mem_range.1 hz, hx⟩, hexp, Matrix.one_apply_ne (by simpa using hzx), zero_mul]
    · intro h; exact absurd (Finset.mem_range.2 hx) h
  set co : Fin 2 → ℝ := fun o => d (readQubits [0] [0] (coinOut o)) with hcod
  have hco0 : co 0 = 1 := by rw [hcod]; simp only [hr0, hd0]
  have hco1 : co 1 = -1 := by rw [hcod]; simp only [hr1, hd1]
  set q := fun ω => sgnLaw (noiseStrength (2 ^ 1) G) (2 ^ 1) (samplingMatrix (2 ^ 1) G) (vec ω) with hqd
  set Y : Sgn (2 ^ 1) → ℝ := fun t => Real.exp (2 * noiseStrength (2 ^ 1) G) * sgnVal d t with hYd
  have hq1 : ∀ ω, ∑ t, q ω t = 1 := fun ω => sgnLaw_total _ (by rw [hγ]) _ _ hB _ (hvec ω) (hvec1 ω)
  have hmean : ∀ ω, ∑ t, q ω t * Y t = QV.avg co ω := by
    intro ω
    have h := sgn_average' _ G hG (vec ω) d (hvec ω) (hvec1 ω)
    have hr : ∑ x ∈ Finset.range (2 ^ 1), (∑ y ∈ Finset.range (2 ^ 1), invNoise (2 ^ 1) G y x * d y) * vec ω x = ∑ x ∈ Finset.range (2 ^ 1), d x * vec ω x :=
      Finset.sum_congr rfl fun x hx => by rw [hco x (Finset.mem_range.1 hx)]
    rw [hr, havg ω d] at h
    rw [← h, Finset.mul_sum]
    exact Finset.sum_congr rfl fun t _ => by rw [hqd, hYd]; ring
  have hY2 : ∀ t, Y t ^ 2 = 1 := by
    intro t
    rw [hYd]
    simp only [hγ, mul_zero, Real.exp_zero, one_mul]
    have : d t.2 ^ 2 = 1 := by
      have h2 : (t.2 : ℕ) < 2 := t.2.2
      rcases (by omega : (t.2 : ℕ) = 0 ∨ (t.2 : ℕ) = 1) with h | h
      · rw [h, hd0]; norm_num
      · rw [h, hd1]; norm_num
    unfold sgnVal
    rw [mul_pow, this, mul_one, ← pow_mul, mul_comm, pow_mul]
    norm_num
  have hm0 : ∑ o : Fin 2, (1 / 2 : ℝ) * co o = 0 := by rw [Fin.sum_univ_two, hco0, hco1]; norm_num
  obtain ⟨h1, h2⟩ := scatter_eq hN0 (fun _ => 1 / 2) hw N hN0 q hq1 Y co hmean
  have hv2 : ∑ ω : Fin N → Fin 2, shotsProb (fun _ => 1 / 2) ω * QV.avg co ω ^ 2 = 1 / N := by
    have h := QV.avg_variance N hN0 (fun _ : Fin 2 => (1 / 2 : ℝ)) hw.2 co 0 hm0
    simp only [sub_zero] at h
    unfold shotsProb
    rw [h, Fin.sum_univ_two, hco0, hco1]
    norm_num
  refine ⟨fun ω => ⟨2 ^ 1, noiseStrength (2 ^ 1) G, vec ω, toCsc (2 ^ 1) (samplingMatrix (2 ^ 1) G), d, N, ctmpSamples N (noiseStrength (2 ^ 1) G)⟩,
    fun ω => valueOf ⟨2 ^ 1, noiseStrength (2 ^ 1) G, vec ω, toCsc (2 ^ 1) (samplingMatrix (2 ^ 1) G), d, N, ctmpSamples N (noiseStrength (2 ^ 1) G)⟩,
    hcall, fun ω ds h => ?_, ?_, ?_, ?_⟩
  · have h := valueOf_some (2 ^ 1) G hG (vec ω) d N _ ds h
    rw [h]
    simp only [hγ, mul_zero, Real.exp_zero, Int.cast_natCast]
  · refine Eq.trans (Finset.sum_congr rfl fun ω _ => ?_) (h1.trans hm0)
    congr 1
    have := valueOf_law _ G hG (vec ω) d (hvec ω) (hvec1 ω) N (ctmpSamples N (noiseStrength (2 ^ 1) G)) fun e => e
    rw [hM] at this ⊢
    exact this
  · rw [hm0] at h2
    simp only [sub_zero] at h2
    have h3 : ∑ ω : Fin N → Fin 2, shotsProb (fun _ => 1 / 2) ω * (∑ t, q ω t * Y t ^ 2 - QV.avg co ω ^ 2) = 1 - 1 / N := by
      simp only [hY2, mul_one, hq1, mul_sub, Finset.sum_sub_distrib, hv2]
      congr 1
      exact QV.draws_sum_one N _ hw.2
    rw [h3, Fin.sum_univ_two, hco0, hco1] at h2
    refine Eq.trans (Finset.sum_congr rfl fun ω _ => ?_) (h2.trans ?_)
    · congr 1
      have := valueOf_law _ G hG (vec ω) d (hvec ω) (hvec1 ω) N (ctmpSamples N (noiseStrength (2 ^ 1) G)) fun e => e ^ 2
      rw [hM] at this ⊢
      exact this
    · ring
  · rw [div_pow, one_pow, Real.sq_sqrt hN'.le]
    refine div_lt_div_of_pos_right ?_ hN'
    have : (1 : ℝ) / N < 1 := by
      rw [div_lt_one hN']
      exact_mod_cast (by omega : 1 < N)
    linarith

/-- The generator that turns 0 into 1 on qubit 0. -/
def flipUp : Gen := ⟨['1'], ['0'], [0]⟩

theorem exp_flip (dim : ℕ) (hdim : dim = 2) (a : ℝ) (G : Mat ℝ) (h00 : G 0 0 = -a) (h10 : G 1 0 = a) (h01 : G 0 1 = 0) (h11 : G 1 1 = 0) (y x : Fin dim) :
    (NormedSpace.exp (asMatrix dim G)) y x = if x.1 = 0 then (if y.1 = 0 then Real.exp (-a) else 1 - Real.exp (-a)) else if y.1 = 0 then 0 else 1 := by
  subst hdim
  let U : (Matrix (Fin 2) (Fin 2) ℝ)ˣ := ⟨!![1, 0; -1, 1], !![1, 0; 1, 1], by ext i j; fin_cases i <;> fin_cases j <;> simp [Matrix.mul_apply, Fin.sum_univ_two],
    by ext i j; fin_cases i <;> fin_cases j <;> simp [Matrix.mul_apply, Fin.sum_univ_two]⟩
  have e : asMatrix 2 G = (U : Matrix (Fin 2) (Fin 2) ℝ) * Matrix.diagonal ![-a, 0] * (U⁻¹ : (Matrix (Fin 2) (Fin 2) ℝ)ˣ) := by
    have hU : ((U⁻¹ : (Matrix (Fin 2) (Fin 2) ℝ)ˣ) : Matrix (Fin 2) (Fin 2) ℝ) = !![1, 0; 1, 1] := rfl
    have hU' : (U : Matrix (Fin 2) (Fin 2) ℝ) = !![1, 0; -1, 1] := rfl
    rw [hU, hU']
    ext i j
    fin_cases i <;> fin_cases j <;> simp [asMatrix, h00, h01, h10, h11, Matrix.mul_apply, Matrix.diagonal, Matrix.vecHead, Matrix.vecTail]
  rw [e, Matrix.exp_units_conj, Matrix.exp_diagonal]
  have hU : ((U⁻¹ : (Matrix (Fin 2) (Fin 2) ℝ)ˣ) : Matrix (Fin 2) (Fin 2) ℝ) = !![1, 0; 1, 1] := rfl
  have hU' : (U : Matrix (Fin 2) (Fin 2) ℝ) = !![1, 0; -1, 1] := rfl
  rw [hU, hU']
  have hE : (NormedSpace.exp (![-a, 0] : Fin 2 → ℝ)) = ![Real.exp (-a), 1] := by
    funext i
    rw [Pi.coe_exp, ← Real.exp_eq_exp_ℝ]
    fin_cases i <;> simp
  rw [hE]
  fin_cases y <;> fin_cases x <;> simp [Matrix.mul_apply, Fin.sum_univ_two, Matrix.diagonal, Matrix.vecHead, Matrix.vecTail, sub_eq_add_neg, add_comm]

/-- An experiment C125 speaks about: a qubit prepared in 0 and read as 1 with probability one half, calibrated exactly as the generator 0 → 1 with rate
log 2.  The mean of the estimates is the true value 1, and an error of one half or more in 8000 shots has probability at most 1/100. -/
theorem C125_experiment (c : (Fin 8000 → Fin 2) → Counts) (hc : ∀ ω, Records 1 coinOut ω (c ω)) :
    ∃ (call : (Fin 8000 → Fin 2) → CtmpCall) (est : (Fin 8000 → Fin 2) → List (Draws ℝ) → ℝ),
      (∀ ω, ctmpCall [(flipUp, Real.log 2)] 1 (c ω) none none none = some (call ω)) ∧
      AccurateRandomised (fun _ => 1 / 2) (fun ω F => rngMean (call ω).gamma (call ω).dim (call ω).probs (batches (call ω).numSamples) fun ds => F (est ω ds))
        1 4 0 := by
  have hlog : 0 ≤ Real.log 2 := Real.log_nonneg (by norm_num)
  have hs : ∀ y x : ℕ, genSum [(flipUp, Real.log 2)] [0] y x =
      Real.log 2 * ((if Sends [0] flipUp flipUp.a flipUp.b x y then 1 else 0) - if Sends [0] flipUp flipUp.a flipUp.a x y then 1 else 0) := by
    intro y x
    unfold genSum
    rw [List.map_singleton, List.sum_singleton, if_pos (by decide)]
  have g00 : genSum [(flipUp, Real.log 2)] [0] 0 0 = -Real.log 2 := by
    rw [hs, if_neg (by decide), if_pos (by decide)]; ring
  have g10 : genSum [(flipUp, Real.log 2)] [0] 1 0 = Real.log 2 := by
    rw [hs, if_pos (by decide), if_neg (by decide)]; ring
  have g01 : genSum [(flipUp, Real.log 2)] [0] 0 1 = 0 := by
    rw [hs, if_neg (by decide), if_neg (by decide)]; ring
  have g11 : genSum [(flipUp, Real.log 2)] [0] 1 1 = 0 := by
    rw [hs, if_neg (by decide), if_neg (by decide)]; ring
  have h2 : Real.exp (-Real.log 2) = 1 / 2 := by rw [Real.exp_neg, Real.exp_log (by norm_num)]; norm_num
  have h4 : Real.exp (2 * Real.log 2) = 4 := by
    rw [two_mul, Real.exp_add, Real.exp_log (by norm_num)]; norm_num
  have hwf : flipUp.WF := by constructor <;> decide
  obtain ⟨call, est, h1, -, h3⟩ := C125_accuracy (N := 8000) (by norm_num) [(flipUp, Real.log 2)] (by
      intro p hp
      obtain rfl := List.mem_singleton.1 hp
      exact ⟨hwf, hlog⟩) 1 none 1 none [0] (by decide) [0] [0] rfl (by decide) (List.Perm.refl _) rfl none (by intro l h; cases h)
    (Real.log 2) ⟨hlog, fun j hj => by
      have : j < 2 := hj
      rcases (by omega : j = 0 ∨ j = 1) with rfl | rfl
      · rw [g00, neg_neg]
      · rw [g11, neg_zero]; exact hlog, Or.inr ⟨0, by decide, by rw [g00, neg_neg]⟩⟩
    (fun y x => if x = 0 then 1 / 2 else if y = 0 then 0 else 1)
    (fun y x => by rw [exp_flip (2 ^ [0].length) rfl (Real.log 2) _ g00 g10 g01 g11 y x, h2]; norm_num) (fun _ => 1 / 2) ⟨fun _ => by norm_num, by simp⟩ coinOut
    (fun y x => if x = 0 then 1 / 2 else if y = 0 then 0 else 1) (fun x => if x = 0 then 1 else 0) 0
    ⟨fun x _ => by split <;> norm_num, by simp, fun y hy => by
      have : y < 2 := hy
      have hr0 : readQubits [0] [0] (coinOut 0) = 0 := by decide
      have hr1 : readQubits [0] [0] (coinOut 1) = 1 := by decide
      rw [Fin.sum_univ_two, hr0, hr1]
      rcases (by omega : y = 0 ∨ y = 1) with rfl | rfl <;> simp, fun x _ => by simp⟩ c hc
  refine ⟨call, est, h1, ?_⟩
  rw [h4] at h3
  simpa [Finset.sum_range_succ, diagVal] using h3

/-- The counts in the hypotheses of C125 exist. -/
example : ∃ c : (Fin 8000 → Fin 2) → Counts, ∀ ω, Records 1 coinOut ω (c ω) := by
  choose c hc using fun ω : Fin 8000 → Fin 2 => exists_records 1 coinOut (by decide) (by norm_num) ω
  exact ⟨c, hc⟩

end Verif.Expval.Ctmp
