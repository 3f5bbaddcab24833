import Verif.Expval.SpecShots
import Verif.Expval.LemmasShots
import Verif.Expval.PropsMore
import Verif.QV.PropsStat
/-
C121 expectation values from finitely many shots, without mitigation and with the complete and the tensored mitigator.
-/
namespace Verif.Expval
open Verif Verif.Counts

variable {O : Type} [Fintype O] {N : ℕ}

/-! ### Counts and shots -/

/-- A sum over a dictionary of tallies is a sum over what was tallied. -/
theorem sum_of_tally {κ : Type} [DecidableEq κ] (c : Dict κ ℤ) (hwf : Dict.WF c) (s : Fin N → κ) (ht : ∀ x, c.getD x 0 = ((Finset.univ.filter fun k => s k = x).card : ℤ))
    (f : κ → ℝ) : (c.map fun kv => f kv.1 * (kv.2 : ℝ)).sum = ∑ k, f (s k) := by
  have hmem : ∀ kv ∈ c, (kv.2 : ℝ) = ∑ k, if s k = kv.1 then (1 : ℝ) else 0 := by
    intro kv hkv
    have := ht kv.1
    rw [Dict.getD, Dict.get?_of_mem _ hwf kv.1 kv.2 hkv, Option.getD_some] at this
    rw [this, Finset.sum_boole]
    simp
  have e : (c.map fun kv => f kv.1 * (kv.2 : ℝ)) = c.map fun kv => ∑ k, if s k = kv.1 then f kv.1 else 0 :=
    List.map_congr_left fun kv hkv => by
      rw [hmem kv hkv, Finset.mul_sum]
      exact Finset.sum_congr rfl fun k _ => by split <;> simp
  rw [e]
  have hsw : (c.map fun kv => ∑ k, if s k = kv.1 then f kv.1 else 0).sum = ∑ k, (c.map fun kv => if s k = kv.1 then f kv.1 else 0).sum := by
    clear e hmem ht hwf
    induction c with
    | nil => simp
    | cons a c ih => simp [ih, Finset.sum_add_distrib]
  rw [hsw]
  refine Finset.sum_congr rfl fun k _ => ?_
  have hk : s k ∈ c.map (·.1) := by
    by_contra hn
    have h1 := ht (s k)
    have h2 : Dict.getD c (s k) 0 = 0 := by rw [Dict.getD, (Dict.get?_eq_none_iff c _).2 hn]; rfl
    rw [h2] at h1
    have : 0 < (Finset.univ.filter fun k' => s k' = s k).card := Finset.card_pos.2 ⟨k, by simp⟩
    omega
  have hnd : (c.map (·.1)).Nodup := hwf
  clear hsw e hmem ht hwf
  generalize s k = x at hk
  induction c with
  | nil => simp at hk
  | cons a c ih =>
    rw [List.map_cons, List.sum_cons]
    rw [List.map_cons, List.nodup_cons] at hnd
    rw [List.map_cons, List.mem_cons] at hk
    by_cases hs : x = a.1
    · subst hs
      rw [if_pos rfl]
      have : (c.map fun kv => if a.1 = kv.1 then f kv.1 else 0).sum = 0 := by
        refine List.sum_eq_zero fun x hx => ?_
        obtain ⟨kv, hkv, rfl⟩ := List.mem_map.1 hx
        rw [if_neg]
        intro e
        exact hnd.1 (e ▸ List.mem_map_of_mem hkv)
      rw [this, add_zero]
    · rw [if_neg hs, zero_add]
      exact ih hnd.2 (hk.resolve_left hs)

omit [Fintype O] in
/-- Averages over the counts are averages over the shots. -/
theorem Records.sum {n : ℕ} {out : O → Str} {ω : Fin N → O} {c : Counts} (h : Records n out ω c) (f : Str → ℝ) :
    (c.map fun kv => f kv.1 * (kv.2 : ℝ)).sum = ∑ k, f (out (ω k)) := sum_of_tally c h.reg.wf (fun k => out (ω k)) h.tally f

omit [Fintype O] in
theorem Records.nonneg {n : ℕ} {out : O → Str} {ω : Fin N → O} {c : Counts} (h : Records n out ω c) : ∀ kv ∈ c, 0 ≤ kv.2 := by
  intro kv hkv
  have := h.tally kv.1
  rw [Dict.getD, Dict.get?_of_mem _ h.reg.wf kv.1 kv.2 hkv, Option.getD_some] at this
  rw [this]; positivity

omit [Fintype O] in
theorem Records.total {n : ℕ} {out : O → Str} {ω : Fin N → O} {c : Counts} (h : Records n out ω c) : Counts.total c = N := by
  have := h.sum fun _ => 1
  simp only [one_mul, Finset.sum_const, Finset.card_univ, Fintype.card_fin, nsmul_eq_mul, mul_one] at this
  have e : ((Counts.total c : ℤ) : ℝ) = (N : ℝ) := by
    rw [← this]
    unfold Counts.total
    clear this h
    induction c with
    | nil => simp
    | cons a c ih => simp only [List.map_cons, List.sum_cons, Int.cast_add, ih]
  exact_mod_cast e

omit [Fintype O] in
theorem Records.mean {n : ℕ} {out : O → Str} {ω : Fin N → O} {c : Counts} (h : Records n out ω c) (f : Str → ℝ) :
    mean c f = QV.avg (fun o => f (out o)) ω := by
  unfold Expval.mean QV.avg
  rw [h.sum, h.total]
  simp

omit [Fintype O] in
/-- Every list of outcomes has a counts dictionary. -/
theorem exists_records (n : ℕ) (out : O → Str) (hout : ∀ o, IsBits (out o) ∧ (out o).length = n) (hN : 0 < N) (ω : Fin N → O) : ∃ c, Records n out ω c := by
  classical
  obtain ⟨h1, h2, h3⟩ := QV.tallyCounts_spec ((List.finRange N).map fun k => out (ω k))
  refine ⟨QV.tallyCounts ((List.finRange N).map fun k => out (ω k)), ⟨?_, h1, ?_, ?_⟩, fun s => ?_⟩
  · intro e
    have := (h3 (out (ω ⟨0, hN⟩))).2 (List.mem_map.2 ⟨_, List.mem_finRange _, rfl⟩)
    rw [e] at this
    simp at this
  · intro kv hkv
    obtain ⟨k, _, e⟩ := List.mem_map.1 ((h3 kv.1).1 (List.mem_map_of_mem hkv))
    rw [← e]; exact (hout _).1
  · intro kv hkv
    obtain ⟨k, _, e⟩ := List.mem_map.1 ((h3 kv.1).1 (List.mem_map_of_mem hkv))
    rw [← e]; exact (hout _).2
  · rw [h2, List.count_eq_countP, List.countP_map, List.countP_eq_length_filter]
    have e : (Finset.univ.filter fun k => out (ω k) = s) = ((List.finRange N).filter ((fun x => x == s) ∘ fun k => out (ω k))).toFinset := by
      ext k; simp
    rw [e, List.toFinset_card_of_nodup ((List.nodup_finRange N).filter _)]

/-! ### The estimate as a mean over the shots -/

theorem accurate_of (hN : 0 < N) (w : O → ℝ) (hw : IsDistr w) (X : O → ℝ) (g η truth : ℝ) (hg : 0 ≤ g) (hX : ∀ o, |X o| ≤ g)
    (hb : |∑ o, w o * X o - truth| ≤ g * η) (est : (Fin N → O) → ℝ × ℝ)
    (he : ∀ ω, est ω = (QV.avg X ω, (QV.avg (fun o => X o ^ 2) ω - QV.avg X ω ^ 2) / N)) : Accurate w est truth g η := by
  classical
  have hm : ∑ ω, shotsProb w ω * (est ω).1 = ∑ o, w o * X o := by
    simp only [he]; exact QV.avg_mean N hN w hw.2 X
  have hN' : (0 : ℝ) < N := by exact_mod_cast hN
  have hev : ∀ ε : ℝ, ∀ ω, g * η + ε ≤ |(est ω).1 - truth| → ε ≤ |QV.avg X ω - ∑ o, w o * X o| := by
    intro ε ω h
    rw [he] at h
    have := abs_add_le (QV.avg X ω - ∑ o, w o * X o) (∑ o, w o * X o - truth)
    rw [sub_add_sub_cancel] at this
    simp only at h
    linarith
  refine ⟨by rw [hm]; exact hb, ?_, ?_, fun ε hε => ?_, fun ε hε => ?_⟩
  · rw [hm]
    simp only [he]
    have := QV.avg_variance N hN w hw.2 X _ rfl
    unfold shotsProb
    rw [this]
    refine div_le_div_of_nonneg_right ?_ hN'.le
    have h2 : ∑ x, w x * X x ^ 2 ≤ g ^ 2 := by
      calc ∑ x, w x * X x ^ 2 ≤ ∑ x, w x * g ^ 2 := Finset.sum_le_sum fun x _ => mul_le_mul_of_nonneg_left (by
            rw [← sq_abs (X x)]; exact pow_le_pow_left₀ (abs_nonneg _) (hX x) 2) (hw.1 x)
        _ = g ^ 2 := by rw [← Finset.sum_mul, hw.2, one_mul]
    nlinarith [sq_nonneg (∑ o, w o * X o)]
  · rw [hm]
    simp only [he]
    exact sample_variance N hN w hw.2 X _ rfl
  · exact chebyshev_abs N hN w hw.1 hw.2 X g hX _ rfl ε hε _ (hev ε)
  · rcases hg.lt_or_eq with hg | rfl
    · exact hoeffding N hN w hw.1 hw.2 X g hg hX _ rfl ε hε.le _ (hev ε)
    · have h1 : (∑ ω : Fin N → O, if (0 : ℝ) * η + ε ≤ |(est ω).1 - truth| then shotsProb w ω else 0) ≤ ∑ ω : Fin N → O, shotsProb w ω :=
        Finset.sum_le_sum fun ω _ => by
          split
          · exact le_rfl
          · exact Finset.prod_nonneg fun _ _ => hw.1 _
      have h2 : ∑ ω : Fin N → O, shotsProb w ω = 1 := QV.draws_sum_one N w hw.2
      rw [h2] at h1
      refine le_trans h1 ?_
      norm_num

/-- The average of a coefficient over the outcomes of the device. -/
theorem sum_by_read (w : O → ℝ) (read : O → ℕ) (dim : ℕ) (hr : ∀ o, read o < dim) (co : ℕ → ℝ) :
    ∑ o, w o * co (read o) = ∑ y ∈ Finset.range dim, co y * ∑ o, if read o = y then w o else 0 := by
  simp only [Finset.mul_sum]
  rw [Finset.sum_comm]
  refine Finset.sum_congr rfl fun o _ => ?_
  rw [Finset.sum_eq_single (read o)]
  · rw [if_pos rfl, mul_comm]
  · intro y _ hy; rw [if_neg (Ne.symm hy), mul_zero]
  · intro h; exact absurd (Finset.mem_range.2 (hr o)) h

/-- A coefficient that inverts the calibrated noise gives the noiseless average up to the calibration error. -/
theorem NoisyReadout.bias {w : O → ℝ} {read : O → ℕ} {dim : ℕ} {M S : ℕ → ℕ → ℝ} {p : ℕ → ℝ} {η : ℝ} (h : NoisyReadout w read dim M S p η)
    (hr : ∀ o, read o < dim) (B : ℕ → ℕ → ℝ) (hB : IsInv dim B S) (d : ℕ → ℝ) (g : ℝ) (hg : 0 ≤ g)
    (hco : ∀ y < dim, |∑ z ∈ Finset.range dim, B z y * d z| ≤ g) :
    |∑ o, w o * (∑ z ∈ Finset.range dim, B z (read o) * d z) - ∑ x ∈ Finset.range dim, d x * p x| ≤ g * η := by
  set co : ℕ → ℝ := fun y => ∑ z ∈ Finset.range dim, B z y * d z with hcod
  have h1 := sum_by_read w read dim hr co
  have h2 := inverse_exact dim B S hB d p (fun y => ∑ x ∈ Finset.range dim, S y x * p x) fun _ _ => rfl
  rw [show (∑ o, w o * ∑ z ∈ Finset.range dim, B z (read o) * d z) = ∑ o, w o * co (read o) from rfl, h1, ← h2]
  have h3 : ∑ y ∈ Finset.range dim, co y * (∑ o, if read o = y then w o else 0) - ∑ y ∈ Finset.range dim, co y * ∑ x ∈ Finset.range dim, S y x * p x =
      ∑ x ∈ Finset.range dim, p x * ∑ y ∈ Finset.range dim, co y * (M y x - S y x) := by
    rw [← Finset.sum_sub_distrib]
    have : ∀ y ∈ Finset.range dim, co y * (∑ o, if read o = y then w o else 0) - co y * (∑ x ∈ Finset.range dim, S y x * p x) =
        ∑ x ∈ Finset.range dim, p x * (co y * (M y x - S y x)) := by
      intro y hy
      rw [h.device y (Finset.mem_range.1 hy), ← mul_sub, ← Finset.sum_sub_distrib, Finset.mul_sum]
      exact Finset.sum_congr rfl fun x _ => by ring
    rw [Finset.sum_congr rfl this, Finset.sum_comm]
    exact Finset.sum_congr rfl fun x _ => by rw [Finset.mul_sum]
  show |∑ y ∈ Finset.range dim, co y * (∑ o, if read o = y then w o else 0) - ∑ y ∈ Finset.range dim, co y * ∑ x ∈ Finset.range dim, S y x * p x| ≤ g * η
  rw [h3]
  calc |∑ x ∈ Finset.range dim, p x * ∑ y ∈ Finset.range dim, co y * (M y x - S y x)|
      ≤ ∑ x ∈ Finset.range dim, |p x * ∑ y ∈ Finset.range dim, co y * (M y x - S y x)| := Finset.abs_sum_le_sum_abs _ _
    _ ≤ ∑ x ∈ Finset.range dim, p x * (g * η) := by
        refine Finset.sum_le_sum fun x hx => ?_
        have hx' := Finset.mem_range.1 hx
        rw [abs_mul, abs_of_nonneg (h.nonneg x hx')]
        refine mul_le_mul_of_nonneg_left ?_ (h.nonneg x hx')
        calc |∑ y ∈ Finset.range dim, co y * (M y x - S y x)| ≤ ∑ y ∈ Finset.range dim, |co y * (M y x - S y x)| := Finset.abs_sum_le_sum_abs _ _
          _ ≤ ∑ y ∈ Finset.range dim, g * |M y x - S y x| := Finset.sum_le_sum fun y hy => by
              rw [abs_mul]; exact mul_le_mul_of_nonneg_right (hco y (Finset.mem_range.1 hy)) (abs_nonneg _)
          _ ≤ g * η := by rw [← Finset.mul_sum]; exact mul_le_mul_of_nonneg_left (h.calibrated x hx') hg
    _ = g * η := by rw [← Finset.sum_mul, h.total, one_mul]

omit [Fintype O] in
/-- What `_expval_with_stddev` makes of the vector of shares, as a mean over the shots. -/
theorem expvalVec_shots {n m : ℕ} {out : O → Str} {ω : Fin N → O} {c : Counts} (h : Records n out ω c) (read : Str → ℕ) (hr : ∀ s, read s < 2 ^ m) (co vec : ℕ → ℝ)
    (hvec : ∀ y < 2 ^ m, vec y = share ℝ c fun s => read s = y) :
    expvalVec m co vec (total c) =
      (QV.avg (fun o => co (read (out o))) ω, (QV.avg (fun o => co (read (out o)) ^ 2) ω - QV.avg (fun o => co (read (out o))) ω ^ 2) / N) := by
  have key : ∀ f : ℕ → ℝ, ∑ y ∈ Finset.range (2 ^ m), f y * vec y = QV.avg (fun o => f (read (out o))) ω := by
    intro f
    have e : ∀ y ∈ Finset.range (2 ^ m), f y * vec y = (∑ k, if read (out (ω k)) = y then f y else 0) / N := by
      intro y hy
      rw [hvec y (Finset.mem_range.1 hy)]
      unfold share
      rw [h.mean]
      unfold QV.avg
      rw [← mul_div_assoc, Finset.mul_sum]
      congr 1
      exact Finset.sum_congr rfl fun k _ => by by_cases hk : read (out (ω k)) = y <;> simp [hk]
    rw [Finset.sum_congr rfl e, ← Finset.sum_div, Finset.sum_comm]
    unfold QV.avg
    congr 1
    refine Finset.sum_congr rfl fun k _ => ?_
    rw [Finset.sum_eq_single (read (out (ω k)))]
    · rw [if_pos rfl]
    · intro y _ hy; rw [if_neg (Ne.symm hy)]
    · intro h'; exact absurd (Finset.mem_range.2 (hr _)) h'
  refine Prod.ext ?_ ?_
  · rw [expvalVec_fst, key]
  · rw [expvalVec_snd, key co, key fun y => co y ^ 2, h.total]
    simp

theorem readQubits_lt (T qs : List ℕ) (hq : qs.Nodup) (hl : qs.length = T.length) (s : Str) : readQubits T qs s < 2 ^ T.length := by
  unfold readQubits
  rw [← hl, ← sum_rank qs hq fun u j => clbit s (T.getD j 0) * 2 ^ u]
  exact sum_bits_lt _ _ fun t _ => by unfold clbit; split <;> omega

/-! ## C121 -/

/-- **C121** (no mitigation).  The unmitigated expectation value of an observable with values in [-1, 1] is an unbiased estimate of its expectation in the
distribution of the outcomes. -/
theorem C121_plain (hN : 0 < N) (n : ℕ) (clbits : Option (List ℕ)) (T : List ℕ) (hT : Selects n clbits T) (diagonal : Option (List ℝ)) (hd : UnitDiag T.length diagonal)
    (w : O → ℝ) (hw : IsDistr w) (out : O → Str) (c : (Fin N → O) → Counts) (hc : ∀ ω, Records n out ω (c ω)) :
    ∃ est, (∀ ω, expectationValue (c ω) diagonal clbits = some (est ω)) ∧ Accurate w est (∑ o, w o * observable diagonal T (out o)) 1 0 := by
  refine ⟨fun ω => (QV.avg (fun o => observable diagonal T (out o)) ω,
    (QV.avg (fun o => observable diagonal T (out o) ^ 2) ω - QV.avg (fun o => observable diagonal T (out o)) ω ^ 2) / N), fun ω => ?_, ?_⟩
  · have h := hc ω
    obtain ⟨e, v, h1, h2, h3, -⟩ := C20_expectation_value n (c ω) h.reg h.nonneg (by rw [h.total]; exact_mod_cast hN) clbits T hT diagonal fun d hd' => (hd d hd').1
    rw [h1, h3, h2, h.mean, h.mean, h.total]
    simp
  · refine accurate_of hN w hw (fun o => observable diagonal T (out o)) 1 0 _ zero_le_one (fun o => ?_) (by simp) _ fun _ => rfl
    cases diagonal with
    | none => simp [observable, abs_pow]
    | some l =>
      simp only [observable]
      obtain ⟨h1, h2⟩ := hd l rfl
      rw [List.getD_eq_getElem?_getD, List.getElem?_eq_getElem (by rw [h1]; exact readBits_lt T _), Option.getD_some]
      exact h2 _ (List.getElem_mem _)

/-- **C121** (complete mitigator, listed qubits). -/
theorem C121_complete (hN : 0 < N) (inv : ℕ → Mat ℝ → Mat ℝ) (hinv : InvCorrect inv) (A : Mat ℝ) (D : ℕ) (n : ℕ)
    (clbits : Option (List ℕ)) (T : List ℕ) (hT : Selects n clbits T)
    (qs Q : List ℕ) (hQ : Q.Pairwise (· < ·)) (hp : qs.Perm Q) (hD : ∀ q ∈ Q, q < D) (hl : Q.length = T.length)
    (diagonal : Option (List ℝ)) (hd : UnitDiag T.length diagonal) (hi : ∃ B, IsInv (2 ^ Q.length) B (subNoise A D Q))
    (w : O → ℝ) (hw : IsDistr w) (out : O → Str) (M : ℕ → ℕ → ℝ) (p : ℕ → ℝ) (η : ℝ)
    (hdev : NoisyReadout w (fun o => readQubits T qs (out o)) (2 ^ T.length) M (subNoise A D Q) p η)
    (c : (Fin N → O) → Counts) (hc : ∀ ω, Records n out ω (c ω)) :
    ∃ B est, completeMit inv A D qs = some B ∧ (∀ ω, completeExpval inv A D (c ω) diagonal (some qs) clbits = some (est ω)) ∧
      Accurate w est (∑ x ∈ Finset.range (2 ^ T.length), diagVal T.length diagonal x * p x) (completeGamma (2 ^ T.length) B) η := by
  have hql : qs.length = T.length := by rw [hp.length_eq, hl]
  have hqn := nodup_of_perm hQ hp
  obtain ⟨m, hm, hinvm⟩ := completeMit_eq inv hinv A D qs Q hQ hp hD hi
  rw [hl] at hinvm
  obtain ⟨d, hdo, hdv⟩ := unit_diag T.length diagonal hd
  obtain ⟨d', hdo', hdv'⟩ := diagOr_eq T.length diagonal fun l hl => (hd l hl).1
  obtain rfl : d = d' := Option.some.inj (hdo.symm.trans hdo')
  have htruth : ∑ x ∈ Finset.range (2 ^ T.length), d x * p x = ∑ x ∈ Finset.range (2 ^ T.length), diagVal T.length diagonal x * p x :=
    Finset.sum_congr rfl fun x hx => by rw [hdv' x (Finset.mem_range.1 hx)]
  have hg := oneNorm_completeGamma (2 ^ T.length) Nat.one_le_two_pow m
  have hg0 := oneNorm_nonneg _ _ _ hg
  have hco := fun x hx => coeff_bound _ m _ hg d hdv x hx
  have hrl := readQubits_lt T qs hqn hql
  refine ⟨m, fun ω => (QV.avg (fun o => ∑ z ∈ Finset.range (2 ^ T.length), m z (readQubits T qs (out o)) * d z) ω,
    (QV.avg (fun o => (∑ z ∈ Finset.range (2 ^ T.length), m z (readQubits T qs (out o)) * d z) ^ 2) ω -
      QV.avg (fun o => ∑ z ∈ Finset.range (2 ^ T.length), m z (readQubits T qs (out o)) * d z) ω ^ 2) / N), hm, fun ω => ?_, ?_⟩
  · have h := hc ω
    obtain ⟨vec, hv, hvec⟩ := C21_vector_qubits (K := ℝ) n (c ω) h.reg h.nonneg (by rw [h.total]; exact_mod_cast hN) clbits T hT none (by simp) qs hqn hql
    have := expvalVec_shots h (readQubits T qs) hrl (fun x => ∑ z ∈ Finset.range (2 ^ T.length), m z x * d z) vec hvec
    unfold completeExpval
    rw [hv]
    simp only [Option.bind_eq_bind, Option.bind_some, Option.getD_some]
    rw [hm]
    simp only [Option.bind_some]
    rw [hdo]
    simp only [Option.bind_some, Option.pure_def, this]
  · have hb := hdev.bias (fun o => hrl (out o)) m hinvm d _ hg0 hco
    rw [htruth] at hb
    exact accurate_of hN w hw _ _ η _ hg0 (fun o => hco _ (hrl (out o))) hb _ fun _ => rfl

/-- **C121** (complete mitigator, all qubits). -/
theorem C121_complete_all (hN : 0 < N) (inv : ℕ → Mat ℝ → Mat ℝ) (hinv : InvCorrect inv) (A : Mat ℝ) (D : ℕ) (n : ℕ)
    (clbits : Option (List ℕ)) (T : List ℕ) (hT : Selects n clbits T) (hl : T.length = D)
    (diagonal : Option (List ℝ)) (hd : UnitDiag D diagonal) (hi : ∃ B, IsInv (2 ^ D) B A)
    (w : O → ℝ) (hw : IsDistr w) (out : O → Str) (M : ℕ → ℕ → ℝ) (p : ℕ → ℝ) (η : ℝ)
    (hdev : NoisyReadout w (fun o => readBits T (out o)) (2 ^ D) M A p η)
    (c : (Fin N → O) → Counts) (hc : ∀ ω, Records n out ω (c ω)) :
    ∃ B est, completeMit inv A D (List.range D) = some B ∧ IsInv (2 ^ D) B A ∧ (∀ ω, completeExpval inv A D (c ω) diagonal none clbits = some (est ω)) ∧
      Accurate w est (∑ x ∈ Finset.range (2 ^ D), diagVal D diagonal x * p x) (completeGamma (2 ^ D) B) η := by
  have hfull := subNoise_full A D
  obtain ⟨B, hB⟩ := hi
  obtain ⟨m, hm, hinvm⟩ := completeMit_eq inv hinv A D (List.range D) (List.range D) List.pairwise_lt_range
    (List.Perm.refl _) (fun q hq => List.mem_range.1 hq)
    ⟨B, by rw [List.length_range]; exact isInv_congr _ B A _ (fun y hy x hx => (hfull y x hy hx).symm) hB⟩
  rw [List.length_range] at hinvm
  have hinvm := isInv_congr _ m _ A (fun y hy x hx => hfull y x hy hx) hinvm
  subst hl
  obtain ⟨d, hdo, hdv⟩ := unit_diag T.length diagonal hd
  obtain ⟨d', hdo', hdv'⟩ := diagOr_eq T.length diagonal fun l hl => (hd l hl).1
  obtain rfl : d = d' := Option.some.inj (hdo.symm.trans hdo')
  have htruth : ∑ x ∈ Finset.range (2 ^ T.length), d x * p x = ∑ x ∈ Finset.range (2 ^ T.length), diagVal T.length diagonal x * p x :=
    Finset.sum_congr rfl fun x hx => by rw [hdv' x (Finset.mem_range.1 hx)]
  have hg := oneNorm_completeGamma (2 ^ T.length) Nat.one_le_two_pow m
  have hg0 := oneNorm_nonneg _ _ _ hg
  have hco := fun x hx => coeff_bound _ m _ hg d hdv x hx
  have hrl := readBits_lt T
  refine ⟨m, fun ω => (QV.avg (fun o => ∑ z ∈ Finset.range (2 ^ T.length), m z (readBits T (out o)) * d z) ω,
    (QV.avg (fun o => (∑ z ∈ Finset.range (2 ^ T.length), m z (readBits T (out o)) * d z) ^ 2) ω -
      QV.avg (fun o => ∑ z ∈ Finset.range (2 ^ T.length), m z (readBits T (out o)) * d z) ω ^ 2) / N), hm, hinvm, fun ω => ?_, ?_⟩
  · have h := hc ω
    obtain ⟨vec, hv, hvec⟩ := C21_vector (K := ℝ) n (c ω) h.reg h.nonneg (by rw [h.total]; exact_mod_cast hN) clbits T hT none (by simp)
    have := expvalVec_shots h (readBits T) hrl (fun x => ∑ z ∈ Finset.range (2 ^ T.length), m z x * d z) vec fun y _ => hvec y
    unfold completeExpval
    rw [hv]
    simp only [Option.bind_eq_bind, Option.bind_some, Option.getD_none]
    rw [hm]
    simp only [Option.bind_some]
    rw [hdo]
    simp only [Option.bind_some, Option.pure_def, this]
  · have hb := hdev.bias (fun o => hrl (out o)) m hinvm d _ hg0 hco
    rw [htruth] at hb
    exact accurate_of hN w hw _ _ η _ hg0 (fun o => hco _ (hrl (out o))) hb _ fun _ => rfl

/-- **C121** (tensored mitigator). -/
theorem C121_tensored (hN : 0 < N) (inv : ℕ → Mat ℝ → Mat ℝ) (hinv : InvCorrect inv) (amats : List (Mat ℝ)) (n : ℕ)
    (clbits : Option (List ℕ)) (T : List ℕ) (hT : Selects n clbits T)
    (qubits : Option (List ℕ)) (as : List (Mat ℝ)) (has : Listed amats qubits as) (hl : as.length = T.length)
    (hr : ∀ a ∈ as, ∃ e0 e1, Readout a e0 e1) (diagonal : Option (List ℝ)) (hd : UnitDiag T.length diagonal)
    (w : O → ℝ) (hw : IsDistr w) (out : O → Str) (M : ℕ → ℕ → ℝ) (p : ℕ → ℝ) (η : ℝ)
    (hdev : NoisyReadout w (fun o => readBits T (out o)) (2 ^ T.length) M (prodNoise as) p η)
    (c : (Fin N → O) → Counts) (hc : ∀ ω, Records n out ω (c ω)) :
    ∃ g est, tensoredGamma amats qubits = some g ∧ (∀ ω, tensoredExpval inv amats (c ω) diagonal qubits clbits = some (est ω)) ∧
      Accurate w est (∑ x ∈ Finset.range (2 ^ T.length), diagVal T.length diagonal x * p x) g η := by
  obtain ⟨d, hdo, hdv⟩ := unit_diag T.length diagonal hd
  obtain ⟨d', hdo', hdv'⟩ := diagOr_eq T.length diagonal fun l hl => (hd l hl).1
  obtain rfl : d = d' := Option.some.inj (hdo.symm.trans hdo')
  have htruth : ∑ x ∈ Finset.range (2 ^ T.length), d x * p x = ∑ x ∈ Finset.range (2 ^ T.length), diagVal T.length diagonal x * p x :=
    Finset.sum_congr rfl fun x hx => by rw [hdv' x (Finset.mem_range.1 hx)]
  have hinvs : ∀ t < as.length, IsInv 2 ((as.map (inv 2)).getD t (fun _ _ => 0)) (as.getD t (fun _ _ => 0)) := by
    intro j hj
    have h1 : (as.map (inv 2)).getD j (fun _ _ => 0) = inv 2 (as.getD j (fun _ _ => 0)) := by
      rw [List.getD_eq_getElem?_getD, List.getElem?_map, List.getElem?_eq_getElem hj, List.getD_eq_getElem?_getD,
        List.getElem?_eq_getElem hj]
      rfl
    rw [h1]
    have hm : as.getD j (fun _ _ => 0) ∈ as := by
      rw [List.getD_eq_getElem?_getD, List.getElem?_eq_getElem hj, Option.getD_some]; exact List.getElem_mem hj
    obtain ⟨e0, e1, h⟩ := hr _ hm
    refine hinv 2 _ ⟨inv22 _, inv22_isInv _ ?_⟩
    rw [h.a00, h.a11, h.a01, h.a10]
    have := h.lt
    intro h'
    nlinarith
  have hprod : IsInv (2 ^ as.length) (prodNoise (as.map (inv 2))) (prodNoise as) := prodNoise_inv as _ (by simp) hinvs
  obtain ⟨g, hg, hnorm, -⟩ := C25_product amats qubits as (as.map (inv 2)) has hr (by simp) hinvs
  have hain : listedInverses inv amats qubits = some (as.map (inv 2)) := by
    cases qubits with
    | none => rw [show as = amats from has]; rfl
    | some qs =>
      refine mapM_listed (fun q => (amats[q]?).map (inv 2)) qs _ (by simpa using has.1) fun j hj => ?_
      rw [has.2 j hj, List.getElem?_map]
  obtain ⟨co, hco, hcov⟩ := tensoredCoeffs_eq (as.map (inv 2)) d
  rw [List.length_map] at hco hcov
  rw [hl] at hco hcov hprod hnorm
  have hg0 := oneNorm_nonneg _ _ _ hnorm
  have hcb := fun x hx => coeff_bound _ _ _ hnorm d hdv x hx
  have hrl := readBits_lt T
  refine ⟨g, fun ω => (QV.avg (fun o => co (readBits T (out o))) ω,
    (QV.avg (fun o => co (readBits T (out o)) ^ 2) ω - QV.avg (fun o => co (readBits T (out o))) ω ^ 2) / N), hg, fun ω => ?_, ?_⟩
  · have h := hc ω
    obtain ⟨vec, hv, hvec⟩ := C21_vector (K := ℝ) n (c ω) h.reg h.nonneg (by rw [h.total]; exact_mod_cast hN) clbits T hT none (by simp)
    have := expvalVec_shots h (readBits T) hrl co vec fun y _ => hvec y
    unfold tensoredExpval
    rw [hv]
    simp only [Option.bind_eq_bind, Option.bind_some]
    rw [hain]
    simp only [Option.bind_some]
    rw [hdo]
    simp only [Option.bind_some]
    rw [hco]
    simp only [Option.bind_some, Option.pure_def, this]
  · have hb := hdev.bias (fun o => hrl (out o)) _ hprod d _ hg0 hcb
    rw [htruth] at hb
    refine accurate_of hN w hw _ _ η _ hg0 (fun o => ?_) ?_ _ fun _ => rfl
    · rw [hcov]; exact hcb _ (hrl (out o))
    · simp only [hcov]; exact hb

open Classical in
/-- **C121** (required shots).  With the number of shots that `required_shots(δ)` asks for, the error exceeds the calibration part by `δ` or more with probability
at most 1/4. -/
theorem C121_required (w : O → ℝ) (est : (Fin N → O) → ℝ × ℝ) (truth g η : ℝ) (h : Accurate w est truth g η) (hg : 0 < g) (δ : ℝ) (hδ : 0 < δ)
    (hN : requiredShots g δ ≤ N) : (∑ ω, if g * η + δ ≤ |(est ω).1 - truth| then shotsProb w ω else 0) ≤ 1 / 4 := by
  refine le_trans (h.chebyshev δ hδ) ?_
  unfold requiredShots at hN
  have h1 : 4 * g ^ 2 / δ ^ 2 ≤ (N : ℝ) := by
    have := Int.ceil_le.1 hN
    exact_mod_cast this
  rw [div_le_iff₀ (by positivity)] at h1
  have hpos : 0 < N * δ ^ 2 := lt_of_lt_of_le (by positivity) h1
  rw [div_le_div_iff₀ hpos (by norm_num)]
  linarith

end Verif.Expval
