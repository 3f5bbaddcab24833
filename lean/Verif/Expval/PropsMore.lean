import Verif.Expval.PropsMit
import Mathlib.Analysis.SpecialFunctions.Pow.Real
import Mathlib.Algebra.Order.Floor.Ring
set_option linter.unusedSectionVars false
set_option linter.unusedSimpArgs false
/-
C81 error bounds of mitigated values, C82 assignment fidelity, C83 calibration data.
-/
namespace Verif.Expval
open Verif Verif.Counts

/-! ## C81 -/

/-- C81: the returned number of shots is the smallest one for which the upper bound on the standard deviation is at
most half of the tolerance. -/
theorem C81_required_shots (gamma delta : ℝ) (hg : 0 < gamma) (hd : 0 < delta) (shots : ℤ) (hs : 0 < shots) :
    stddevUpperBound gamma shots ≤ delta / 2 ↔ requiredShots gamma delta ≤ shots := by
  unfold stddevUpperBound requiredShots
  have hs' : (0 : ℝ) < shots := by exact_mod_cast hs
  have hsq : 0 < √(shots : ℝ) := Real.sqrt_pos.2 hs'
  rw [div_le_iff₀ hsq, Int.ceil_le, div_le_iff₀ (by positivity)]
  have h1 : (4 * gamma ^ 2 ≤ shots * delta ^ 2) ↔ gamma ^ 2 ≤ (delta / 2 * √(shots : ℝ)) ^ 2 := by
    rw [mul_pow, Real.sq_sqrt hs'.le]
    constructor <;> intro h <;> nlinarith
  rw [h1]
  exact (sq_le_sq₀ hg.le (by positivity)).symm

/-- The required number is positive, so that the equivalence applies to it. -/
theorem C81_required_pos (gamma delta : ℝ) (hg : 0 < gamma) (hd : 0 < delta) :
    0 < requiredShots gamma delta ∧ stddevUpperBound gamma (requiredShots gamma delta) ≤ delta / 2 := by
  have h : 0 < requiredShots gamma delta := by
    unfold requiredShots
    exact Int.ceil_pos.2 (by positivity)
  exact ⟨h, (C81_required_shots gamma delta hg hd _ h).2 (le_refl _)⟩

/-- C81: the overhead is the factor between the required shots with and without mitigation, rounded up. -/
theorem C81_overhead (gamma delta : ℝ) (hg : 0 < gamma) (hd : 0 < delta) :
    requiredShots gamma delta ≤ mitigationOverhead gamma * requiredShots 1 delta := by
  unfold requiredShots mitigationOverhead
  rw [Int.ceil_le]
  push_cast
  have h1 := Int.le_ceil (gamma ^ 2)
  have h2 := Int.le_ceil (4 * (1 : ℝ) ^ 2 / delta ^ 2)
  have h3 : 0 ≤ 4 * (1 : ℝ) ^ 2 / delta ^ 2 := by positivity
  calc 4 * gamma ^ 2 / delta ^ 2 = gamma ^ 2 * (4 * 1 ^ 2 / delta ^ 2) := by ring
    _ ≤ _ := mul_le_mul h1 h2 h3 (le_trans (by positivity) h1)

variable {K : Type} [Field K] [LinearOrder K] [IsStrictOrderedRing K]

/-- Bounded coefficients averaged over a distribution. -/
theorem expvalVec_bound (n : ℕ) (co probs : ℕ → K) (shots : ℤ) (hs : 0 < shots) (g : K) (_hg : 0 ≤ g)
    (hco : ∀ x < 2 ^ n, |co x| ≤ g) (hp : ∀ x < 2 ^ n, 0 ≤ probs x) (h1 : ∑ x ∈ Finset.range (2 ^ n), probs x = 1) :
    |(expvalVec n co probs shots).1| ≤ g ∧ 0 ≤ (expvalVec n co probs shots).2 ∧
      (expvalVec n co probs shots).2 ≤ g ^ 2 / (shots : K) := by
  have hs' : (0 : K) < shots := by exact_mod_cast hs
  rw [expvalVec_fst, expvalVec_snd]
  set e := ∑ x ∈ Finset.range (2 ^ n), co x * probs x with he
  have hsq : ∑ x ∈ Finset.range (2 ^ n), co x ^ 2 * probs x ≤ g ^ 2 := by
    calc ∑ x ∈ Finset.range (2 ^ n), co x ^ 2 * probs x ≤ ∑ x ∈ Finset.range (2 ^ n), g ^ 2 * probs x := by
          refine Finset.sum_le_sum fun x hx => mul_le_mul_of_nonneg_right ?_ (hp x (Finset.mem_range.1 hx))
          rw [← sq_abs (co x)]
          exact pow_le_pow_left₀ (abs_nonneg _) (hco x (Finset.mem_range.1 hx)) 2
      _ = g ^ 2 := by rw [← Finset.mul_sum, h1, mul_one]
  have hvar : 0 ≤ ∑ x ∈ Finset.range (2 ^ n), co x ^ 2 * probs x - e ^ 2 := by
    have h2 : ∑ x ∈ Finset.range (2 ^ n), (co x - e) ^ 2 * probs x =
        ∑ x ∈ Finset.range (2 ^ n), co x ^ 2 * probs x - e ^ 2 := by
      have : ∀ x ∈ Finset.range (2 ^ n), (co x - e) ^ 2 * probs x =
          co x ^ 2 * probs x - 2 * e * (co x * probs x) + e ^ 2 * probs x := fun x _ => by ring
      rw [Finset.sum_congr rfl this, Finset.sum_add_distrib, Finset.sum_sub_distrib, ← Finset.mul_sum, ← Finset.mul_sum, h1, ← he]
      ring
    rw [← h2]
    exact Finset.sum_nonneg fun x hx => mul_nonneg (sq_nonneg _) (hp x (Finset.mem_range.1 hx))
  refine ⟨?_, div_nonneg hvar hs'.le, div_le_div_of_nonneg_right (by nlinarith [sq_nonneg e]) hs'.le⟩
  calc |e| ≤ ∑ x ∈ Finset.range (2 ^ n), |co x * probs x| := Finset.abs_sum_le_sum_abs _ _
    _ ≤ ∑ x ∈ Finset.range (2 ^ n), g * probs x := by
        refine Finset.sum_le_sum fun x hx => ?_
        have hx := Finset.mem_range.1 hx
        rw [abs_mul, abs_of_nonneg (hp x hx)]
        exact mul_le_mul_of_nonneg_right (hco x hx) (hp x hx)
    _ = g := by rw [← Finset.mul_sum, h1, mul_one]

theorem coeff_bound (dim : ℕ) (B : Mat K) (g : K) (hB : IsOneNorm dim B g) (d : ℕ → K) (hd : ∀ z < dim, |d z| ≤ 1) (x : ℕ)
    (hx : x < dim) : |∑ z ∈ Finset.range dim, B z x * d z| ≤ g := by
  calc |∑ z ∈ Finset.range dim, B z x * d z| ≤ ∑ z ∈ Finset.range dim, |B z x * d z| := Finset.abs_sum_le_sum_abs _ _
    _ ≤ ∑ z ∈ Finset.range dim, |B z x| := by
        refine Finset.sum_le_sum fun z hz => ?_
        rw [abs_mul]
        exact mul_le_of_le_one_right (abs_nonneg _) (hd z (Finset.mem_range.1 hz))
    _ ≤ g := hB.1 x hx

theorem oneNorm_nonneg (dim : ℕ) (B : Mat K) (g : K) (hB : IsOneNorm dim B g) : 0 ≤ g := by
  obtain ⟨j, _, h⟩ := hB.2
  rw [← h]
  exact Finset.sum_nonneg fun i _ => abs_nonneg _

/-- Values of the observable within the unit interval. -/
def UnitDiag (n : ℕ) (diagonal : Option (List K)) : Prop :=
  ∀ d, diagonal = some d → d.length = 2 ^ n ∧ ∀ x ∈ d, |x| ≤ 1

theorem unit_diag (n : ℕ) (diagonal : Option (List K)) (h : UnitDiag n diagonal) :
    ∃ d, diagOr n diagonal = some d ∧ ∀ x < 2 ^ n, |d x| ≤ 1 := by
  obtain ⟨d, h1, h2⟩ := diagOr_eq n diagonal fun l hl => (h l hl).1
  refine ⟨d, h1, fun x hx => ?_⟩
  rw [h2 x hx]
  cases diagonal with
  | none => simp only [diagVal]; rw [abs_pow, abs_neg, abs_one, one_pow]
  | some l =>
    simp only [diagVal]
    have hl := (h l rfl).1
    rw [List.getD_eq_getElem?_getD, List.getElem?_eq_getElem (by omega), Option.getD_some]
    exact (h l rfl).2 _ (List.getElem_mem _)

/-- C81: for an observable with values in [-1, 1] the complete mitigator's value is at most gamma in absolute value and its
variance lies between 0 and gamma²/shots, gamma being the 1-norm of the mitigation matrix of the qubits. -/
theorem C81_complete (inv : ℕ → Mat K → Mat K) (A : Mat K) (N : ℕ)
    (n : ℕ) (c : Counts) (hc : OneReg n c) (hnn : ∀ kv ∈ c, 0 ≤ kv.2) (hpos : 0 < total c)
    (clbits : Option (List ℕ)) (T : List ℕ) (hT : Selects n clbits T)
    (qs : List ℕ) (hq : qs.Nodup) (hl : qs.length = T.length)
    (diagonal : Option (List K)) (hd : UnitDiag T.length diagonal)
    (B : Mat K) (hB : completeMit inv A N qs = some B) :
    ∃ e v, completeExpval inv A N c diagonal (some qs) clbits = some (e, v) ∧
      |e| ≤ completeGamma (2 ^ T.length) B ∧ 0 ≤ v ∧ v ≤ completeGamma (2 ^ T.length) B ^ 2 / (total c : K) := by
  obtain ⟨vec, hv, hvec⟩ := C21_vector_qubits (K := K) n c hc hnn hpos clbits T hT none (by simp) qs hq hl
  obtain ⟨hd1, hd2⟩ := C21_distribution_qubits (K := K) c hnn hpos T qs hq hl
  obtain ⟨d, hdo, hdv⟩ := unit_diag T.length diagonal hd
  have hg := oneNorm_completeGamma (2 ^ T.length) Nat.one_le_two_pow B
  have := expvalVec_bound T.length (fun x => ∑ z ∈ Finset.range (2 ^ T.length), B z x * d z) vec (total c) hpos
    (completeGamma (2 ^ T.length) B) (oneNorm_nonneg _ _ _ hg) (fun x hx => coeff_bound _ B _ hg d hdv x hx)
    (fun x hx => by rw [hvec x hx]; exact hd1 x)
    (by rw [← hd2]; exact Finset.sum_congr rfl fun x hx => hvec x (Finset.mem_range.1 hx))
  refine ⟨_, _, ?_, this⟩
  unfold completeExpval
  rw [hv]
  simp only [Option.bind_eq_bind, Option.bind_some, Option.getD_some]
  rw [hB]
  simp only [Option.bind_some]
  rw [hdo]
  rfl

/-- C81: the same for the tensored mitigator with admissible error rates. -/
theorem C81_tensored (inv : ℕ → Mat K → Mat K) (hinv : InvCorrect inv) (amats : List (Mat K))
    (n : ℕ) (c : Counts) (hc : OneReg n c) (hnn : ∀ kv ∈ c, 0 ≤ kv.2) (hpos : 0 < total c)
    (clbits : Option (List ℕ)) (T : List ℕ) (hT : Selects n clbits T)
    (qubits : Option (List ℕ)) (as : List (Mat K)) (has : Listed amats qubits as) (hl : as.length = T.length)
    (hr : ∀ a ∈ as, ∃ e0 e1, Readout a e0 e1)
    (diagonal : Option (List K)) (hd : UnitDiag T.length diagonal) :
    ∃ e v g, tensoredExpval inv amats c diagonal qubits clbits = some (e, v) ∧ tensoredGamma amats qubits = some g ∧
      |e| ≤ g ∧ 0 ≤ v ∧ v ≤ g ^ 2 / (total c : K) := by
  obtain ⟨vec, hv, hvec⟩ := C21_vector (K := K) n c hc hnn hpos clbits T hT none (by simp)
  obtain ⟨hd1, hd2⟩ := C21_distribution (K := K) c hnn hpos T
  obtain ⟨d, hdo, hdv⟩ := unit_diag T.length diagonal hd
  have hinvs : ∀ t < as.length, IsInv 2 ((as.map (inv 2)).getD t (fun _ _ => 0)) (as.getD t (fun _ _ => 0)) := by
    intro j hj
    have h1 : (as.map (inv 2)).getD j (fun _ _ => 0) = inv 2 (as.getD j (fun _ _ => 0)) := by
      rw [List.getD_eq_getElem?_getD, List.getElem?_map, List.getElem?_eq_getElem hj, List.getD_eq_getElem?_getD,
        List.getElem?_eq_getElem hj]
      rfl
    rw [h1]
    have hm : as.getD j (fun _ _ => 0) ∈ as := by
      rw [List.getD_eq_getElem?_getD, List.getElem?_eq_getElem hj, Option.getD_some]; exact List.getElem_mem hj
    obtain ⟨e0, e1, h⟩ := hr _ hm
    refine hinv 2 _ ⟨inv22 _, inv22_isInv _ ?_⟩
    rw [h.a00, h.a11, h.a01, h.a10]
    have := h.lt
    intro h'
    nlinarith
  obtain ⟨g, hg, hn, -⟩ := C25_product amats qubits as (as.map (inv 2)) has hr (by simp) hinvs
  have hain : listedInverses inv amats qubits = some (as.map (inv 2)) := by
    cases qubits with
    | none => rw [show as = amats from has]; rfl
    | some qs =>
      refine mapM_listed (fun q => (amats[q]?).map (inv 2)) qs _ (by simpa using has.1) fun j hj => ?_
      rw [has.2 j hj, List.getElem?_map]
  obtain ⟨co, hco, hcov⟩ := tensoredCoeffs_eq (as.map (inv 2)) d
  rw [List.length_map] at hco hcov
  rw [hl] at hn hco hcov
  have := expvalVec_bound T.length co vec (total c) hpos g (oneNorm_nonneg _ _ _ hn)
    (fun x hx => by rw [hcov x]; exact coeff_bound _ _ _ hn d hdv x hx)
    (fun x _ => by rw [hvec x]; exact hd1 x)
    (by rw [← hd2]; exact Finset.sum_congr rfl fun x _ => hvec x)
  refine ⟨_, _, g, ?_, hg, this⟩
  unfold tensoredExpval
  rw [hv]
  simp only [Option.bind_eq_bind, Option.bind_some]
  rw [hain]
  simp only [Option.bind_some]
  rw [hdo]
  simp only [Option.bind_some]
  rw [hco]
  rfl

/-- Non-vacuity of C81: a faulty qubit, value 5/3·1 bounded by gamma = 5/3. -/
example : let A : Mat ℚ := fun i j => if i = 0 then (if j = 0 then 3 / 4 else 0) else (if j = 0 then 1 / 4 else 1)
    tensoredGamma [A] none = some (5 / 3) ∧ Readout A (1 / 4) 0 ∧
      tensoredExpval (fun _ m => inv22 m) [A] [(['0'], 4)] none none none = some (5 / 3, 0) := by
  refine ⟨by decide +kernel, ?_, by decide +kernel⟩
  constructor <;> norm_num

/-! ## C82 -/

theorem sum_diag_prod (as : List (Mat K)) : ∑ i ∈ Finset.range (2 ^ as.length), prodNoise as i i =
    ∏ t ∈ Finset.range as.length, (as.getD t (fun _ _ => 0) 0 0 + as.getD t (fun _ _ => 0) 1 1) :=
  sum_prod_bits as.length fun t b => as.getD t (fun _ _ => 0) b b

/-- C82: the tensored mitigator's fidelity is the average diagonal entry of the product of the listed matrices. -/
theorem C82_fidelity (amats : List (Mat K)) (qs : List ℕ) (as : List (Mat K)) (has : Listed amats (some qs) as) :
    tensoredFidelity amats (some qs) = some (baseFidelity (2 ^ as.length) (prodNoise as)) := by
  have key : ∀ (qs : List ℕ) (as : List (Mat K)) (f : K), as.length = qs.length →
      (∀ j < qs.length, amats[qs.getD j 0]? = as[j]?) →
      qs.foldlM (fun fid i => do
        let a ← amats[i]?
        pure (fid * ((a 0 0 + a 1 1) / 2))) f = some (f * (as.map fun a => (a 0 0 + a 1 1) / 2).prod) := by
    intro qs
    induction qs with
    | nil =>
      intro as f hl _
      have : as = [] := List.eq_nil_of_length_eq_zero (by simpa using hl)
      subst this; simp
    | cons q qs ih =>
      intro as f hl h
      cases as with
      | nil => simp at hl
      | cons a as =>
        have h0 := h 0 (by simp)
        simp at h0
        rw [List.foldlM_cons, h0]
        simp only [Option.bind_eq_bind, Option.bind_some, Option.pure_def]
        have := ih as (f * ((a 0 0 + a 1 1) / 2)) (by simpa using hl) fun j hj => by
          have := h (j + 1) (by simpa using hj)
          simpa using this
        simp only [Option.bind_eq_bind, Option.pure_def] at this
        rw [this, List.map_cons, List.prod_cons, mul_assoc]
  unfold tensoredFidelity baseFidelity
  rw [Option.getD_some, key qs as 1 has.1 has.2, one_mul, sum_diag_prod]
  congr 1
  have h2 := prod_zipIdx as (fun _ _ => 0) fun a _ => (a 0 0 + a 1 1) / 2
  have h3 : (as.map fun a => (a 0 0 + a 1 1) / 2) = as.zipIdx.map fun p => (p.1 0 0 + p.1 1 1) / 2 := by
    conv_lhs => rw [← List.zipIdx_map_fst 0 as, List.map_map]
    rfl
  rw [h3, h2, Finset.prod_div_distrib, Finset.prod_const, Finset.card_range]
  push_cast
  rfl

/-- C82 without a qubit list: all matrices. -/
theorem C82_fidelity_all (amats : List (Mat K)) :
    tensoredFidelity amats none = some (baseFidelity (2 ^ amats.length) (prodNoise amats)) := by
  rw [← C82_fidelity amats (List.range amats.length) amats ⟨by simp, fun j hj => by
    rw [List.length_range] at hj
    simp [List.getD_eq_getElem?_getD, List.getElem?_range hj]⟩]
  rfl

/-- Non-vacuity of C82. -/
example : let A0 : Mat ℚ := fun i j => if i = j then 1 else 0
    let A1 : Mat ℚ := fun i j => if i = 0 then (if j = 0 then 3 / 4 else 0) else (if j = 0 then 1 / 4 else 1)
    tensoredFidelity [A0, A1, A1] (some [2, 0]) = some (7 / 8) ∧ baseFidelity 4 (prodNoise [A1, A0]) = 7 / 8 := by
  refine ⟨by decide +kernel, by decide +kernel⟩

/-! ## C83 -/

theorem getD_combineInt (c1 c2 : IntCounts) (h2 : Dict.WF c2) (k : ℕ) :
    (combineInt c1 c2).getD k 0 = c1.getD k 0 + c2.getD k 0 := by
  unfold combineInt
  induction c2 generalizing c1 with
  | nil => simp [Dict.getD]
  | cons a c2 ih =>
    obtain ⟨a, v⟩ := a
    have hnd : a ∉ c2.map (·.1) ∧ Dict.WF c2 := by
      unfold Dict.WF at h2 ⊢
      simpa using h2
    rw [List.foldl_cons, ih _ hnd.2, Dict.getD_set]
    by_cases h : a = k
    · subst h
      have : Dict.getD c2 a 0 = 0 := by
        unfold Dict.getD
        rw [(Dict.get?_eq_none_iff c2 a).2 hnd.1]; rfl
      rw [if_pos rfl, this]
      simp [Dict.getD, Dict.get?_cons]
    · rw [if_neg h]
      simp [Dict.getD, Dict.get?_cons, h]

/-- The experiments that count: marked as measurement calibration. -/
def IsCal (m : Meta) : Prop := m.experiment = some "meas_mit".toList

instance (m : Meta) : Decidable (IsCal m) := by unfold IsCal; infer_instance

/-- Sum over the calibration experiments labelled `key` of the number of outcomes `o`. -/
def pooled (counts : ℕ → IntCounts) (metadata : List Meta) (key o : ℕ) : ℤ :=
  ∑ i ∈ Finset.range metadata.length,
    if IsCal (metadata.getD i ⟨none, [], none⟩) ∧ ofBin (metadata.getD i ⟨none, [], none⟩).cal = key then (counts i).getD o 0 else 0

/-- C83: calibration data from the results: every calibration experiment contributes its counts to its label, repeated
labels are added up, other experiments are ignored, and the register size is the length of the labels. -/
theorem C83_calibration_data (counts : ℕ → IntCounts) (hwf : ∀ i, Dict.WF (counts i)) (metadata : List Meta)
    (hm : ∀ m ∈ metadata, IsCal m → IsBits m.cal ∧ m.cal ≠ []) :
    ∃ st, calibrationData counts metadata = some st ∧
      (∀ key, (st.data.get? key).isSome ↔ ∃ m ∈ metadata, IsCal m ∧ ofBin m.cal = key) ∧
      (∀ key c, st.data.get? key = some c → ∀ o, c.getD o 0 = pooled counts metadata key o) ∧
      st.numQubits = (metadata.find? fun m => decide (IsCal m)).map (·.cal.length) ∧
      st.method = metadata.findSome? fun m => if IsCal m then m.method else none := by
  induction metadata using List.reverseRecOn with
  | nil => exact ⟨_, rfl, by simp, by simp [Dict.get?], rfl, rfl⟩
  | append_singleton l m ih =>
    obtain ⟨st, h1, h2, h3, h4, h5⟩ := ih fun m' hm' => hm m' (by simp [hm'])
    have hstep : calibrationData counts (l ++ [m]) = calStep counts st (m, l.length) := by
      unfold calibrationData at h1 ⊢
      rw [List.zipIdx_append, List.foldlM_append, h1]
      simp [List.zipIdx_cons]
    have hpool : ∀ key o, pooled counts (l ++ [m]) key o = pooled counts l key o +
        if IsCal m ∧ ofBin m.cal = key then (counts l.length).getD o 0 else 0 := by
      intro key o
      unfold pooled
      rw [List.length_append, List.length_singleton, Finset.sum_range_succ]
      congr 1
      · refine Finset.sum_congr rfl fun i hi => ?_
        have hi := Finset.mem_range.1 hi
        rw [show (l ++ [m]).getD i ⟨none, [], none⟩ = l.getD i ⟨none, [], none⟩ by
          simp [List.getD_eq_getElem?_getD, List.getElem?_append_left hi]]
      · rw [show (l ++ [m]).getD l.length ⟨none, [], none⟩ = m by simp [List.getD_eq_getElem?_getD]]
    rw [hstep]
    by_cases hc : IsCal m
    · obtain ⟨hb, hne⟩ := hm m (by simp) hc
      have hparse : parseBin m.cal = some (ofBin m.cal) := by unfold parseBin; rw [if_pos ⟨hb, hne⟩]
      have hs : calStep counts st (m, l.length) = some ⟨(match st.data.get? (ofBin m.cal) with
          | none => st.data.set (ofBin m.cal) (counts l.length)
          | some old => st.data.set (ofBin m.cal) (combineInt old (counts l.length))),
          st.numQubits.or (some m.cal.length), st.method.or m.method⟩ := by
        unfold calStep
        rw [if_pos (show m.experiment = some "meas_mit".toList from hc)]
        simp only [hparse, Option.bind_eq_bind, Option.bind_some]
        rfl
      refine ⟨_, hs, ?_, ?_, ?_, ?_⟩
      · intro key
        have hor : (∃ m' ∈ l ++ [m], IsCal m' ∧ ofBin m'.cal = key) ↔
            (∃ m' ∈ l, IsCal m' ∧ ofBin m'.cal = key) ∨ ofBin m.cal = key := by
          constructor
          · rintro ⟨m', hm', h⟩
            rcases List.mem_append.1 hm' with h' | h'
            · exact Or.inl ⟨m', h', h⟩
            · rw [List.mem_singleton] at h'; subst h'; exact Or.inr h.2
          · rintro (⟨m', h', h⟩ | h)
            · exact ⟨m', by simp [h'], h⟩
            · exact ⟨m, by simp, hc, h⟩
        rw [hor, ← h2 key]
        cases hg : st.data.get? (ofBin m.cal) <;> simp only [Dict.get?_set] <;> by_cases hk : ofBin m.cal = key <;> simp [hk]
      · intro key c hget o
        rw [hpool]
        cases hg : st.data.get? (ofBin m.cal) with
        | none =>
          simp only [hg, Dict.get?_set] at hget
          by_cases hk : ofBin m.cal = key
          · rw [if_pos hk, Option.some.injEq] at hget
            subst hget
            rw [if_pos ⟨hc, hk⟩]
            have : pooled counts l key o = 0 := by
              unfold pooled
              refine Finset.sum_eq_zero fun i hi => ?_
              rw [if_neg]
              rintro ⟨ha, hb⟩
              have hi := Finset.mem_range.1 hi
              have hmem : l.getD i ⟨none, [], none⟩ ∈ l := by
                rw [List.getD_eq_getElem?_getD, List.getElem?_eq_getElem hi, Option.getD_some]; exact List.getElem_mem hi
              have := (h2 key).2 ⟨_, hmem, ha, hb⟩
              rw [← hk, hg] at this
              simp at this
            rw [this, zero_add]
          · rw [if_neg hk] at hget
            rw [if_neg fun h => hk h.2, add_zero]
            exact h3 key c hget o
        | some old =>
          simp only [hg, Dict.get?_set] at hget
          by_cases hk : ofBin m.cal = key
          · rw [if_pos hk, Option.some.injEq] at hget
            subst hget
            rw [if_pos ⟨hc, hk⟩, getD_combineInt _ _ (hwf _)]
            rw [h3 key old (by rw [← hk]; exact hg) o]
          · rw [if_neg hk] at hget
            rw [if_neg fun h => hk h.2, add_zero]
            exact h3 key c hget o
      · simp only [h4, List.find?_append]
        cases hf : l.find? (fun m => decide (IsCal m)) <;> simp [hc]
      · simp only [h5, List.findSome?_append]
        cases hf : l.findSome? (fun m => if IsCal m then m.method else none) <;> simp [hc]
    · have hs : calStep counts st (m, l.length) = some st := by
        unfold calStep
        rw [if_neg (show ¬ m.experiment = some "meas_mit".toList from hc)]
      refine ⟨st, hs, ?_, ?_, ?_, ?_⟩
      · intro key
        rw [h2 key]
        constructor
        · rintro ⟨m', h', h⟩; exact ⟨m', by simp [h'], h⟩
        · rintro ⟨m', h', h⟩
          rcases List.mem_append.1 h' with h' | h'
          · exact ⟨m', h', h⟩
          · rw [List.mem_singleton] at h'; subst h'; exact absurd h.1 hc
      · intro key c hget o
        rw [hpool, if_neg fun h => hc h.1, add_zero]
        exact h3 key c hget o
      · rw [h4, List.find?_append]; simp [hc]
      · rw [h5, List.findSome?_append]; simp [hc]

/-- Non-vacuity of C83: label 01 measured twice, one unrelated experiment in between. -/
example : let counts : ℕ → IntCounts := fun i => [(1, [5, 7, 3].getD i 0), (i, 2)]
    let mk : Str → Meta := fun l => ⟨some "meas_mit".toList, l, some "complete".toList⟩
    ((calibrationData counts [mk ['0', '1'], ⟨none, [], none⟩, mk ['0', '1']]).map fun st =>
      (st.data, st.numQubits)) = some ([(1, [(1, 8), (0, 2), (2, 2)])], some 2) := by decide +kernel

end Verif.Expval
