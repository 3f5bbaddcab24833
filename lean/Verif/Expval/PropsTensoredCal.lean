import Verif.Expval.LemmasRatio
/-
C121: the calibration of the tensored mitigator from finitely many shots.
-/
namespace Verif.Expval
open Verif Verif.Counts

/-! ### Specification -/

/-- The number prepared by the first (`x = 0`) or second (`x = 1`) default calibration circuit: all qubits in 0, or all qubits in 1. -/
def calState (n : ℕ) (x : Fin 2) : ℕ := if x = 0 then 0 else 2 ^ n - 1

/-- Probability of the calibration outcomes `κ`: in shot `k` of calibration circuit `x` the number `κ x k` was read. -/
noncomputable def pairProb {n K : ℕ} (R : ℕ → ℕ → ℝ) (κ : Fin 2 → Fin K → Fin (2 ^ n)) : ℝ := ∏ x, ∏ k, R (κ x k) (calState n x)

/-- The tensored fit to the calibration results succeeds; the fitted matrices have columns of probabilities, and all their entries are within `η` of those of `as`. -/
abbrev FittedNear (as : List (Mat ℝ)) (η : ℝ) (counts : ℕ → IntCounts) (metas : List Meta) : Prop :=
  ∃ st As, calibrationData counts metas = some st ∧ fitTensored (K := ℝ) st = some As ∧ As.length = as.length ∧
        ∀ q < as.length, (∃ e0 e1 : ℝ, 0 ≤ e0 ∧ 0 ≤ e1 ∧ (As.getD q (fun _ _ => 0)) 0 0 = 1 - e0 ∧ (As.getD q (fun _ _ => 0)) 1 0 = e0 ∧
            (As.getD q (fun _ _ => 0)) 0 1 = e1 ∧ (As.getD q (fun _ _ => 0)) 1 1 = 1 - e1) ∧
          ∀ y < 2, ∀ x < 2, |As.getD q (fun _ _ => 0) y x - as.getD q (fun _ _ => 0) y x| < η

/-! ### Lemmas -/

theorem testBit_calState (n : ℕ) (x : Fin 2) (q : ℕ) (hq : q < n) : (calState n x).testBit q = (x : ℕ).testBit 0 := by
  unfold calState
  fin_cases x
  · simp
  · simp [Nat.testBit_two_pow_sub_one, hq]

theorem calState_lt (n : ℕ) (x : Fin 2) : calState n x < 2 ^ n := by
  have : 0 < 2 ^ n := by positivity
  unfold calState; split <;> omega

theorem ofBin_ones (n : ℕ) : ofBin (List.replicate n '1') = 2 ^ n - 1 := by
  induction n with
  | zero => rfl
  | succ n ih =>
    have : 0 < 2 ^ n := by positivity
    rw [List.replicate_succ', ofBin_append, ih, pow_succ]
    simp [bitVal]
    omega

theorem ofBin_zeros (n : ℕ) : ofBin (List.replicate n '0') = 0 := by
  have := ofBin_replicate_append n []
  rw [List.append_nil] at this
  rw [this]; rfl

/-- The metadata of the tensored calibration. -/
theorem tensored_metas (n : ℕ) (circs : List MeasMit.Circ) (metas : List Meta) (h : mitigatorCircuits n "tensored".toList none = some (circs, metas)) :
    metas = [⟨some "meas_mit".toList, List.replicate n '0', some "tensored".toList⟩, ⟨some "meas_mit".toList, List.replicate n '1', some "tensored".toList⟩] := by
  have hm : methodLabels n "tensored".toList = some [List.replicate n '0', List.replicate n '1'] := by
    unfold methodLabels
    rw [if_pos rfl]
  unfold mitigatorCircuits at h
  simp only [hm, Option.bind_eq_bind, Option.bind_some] at h
  rw [Option.bind_eq_some_iff] at h
  obtain ⟨cs, _, h2⟩ := h
  injection h2 with h2
  rw [Prod.mk.injEq] at h2
  rw [← h2.2]
  rfl

theorem tensored_data (n : ℕ) (hn : 1 ≤ n) (cal : ℕ → IntCounts) :
    calibrationData cal [⟨some "meas_mit".toList, List.replicate n '0', some "tensored".toList⟩, ⟨some "meas_mit".toList, List.replicate n '1', some "tensored".toList⟩] =
      some ⟨[(0, cal 0), (2 ^ n - 1, cal 1)], some n, some "tensored".toList⟩ := by
  have h2 : 2 ≤ 2 ^ n := by
    calc 2 = 2 ^ 1 := rfl
      _ ≤ 2 ^ n := Nat.pow_le_pow_right (by omega) hn
  have p0 : parseBin (List.replicate n '0') = some 0 := by
    unfold parseBin
    rw [if_pos ⟨fun c hc => Or.inl (List.eq_of_mem_replicate hc), by intro h; have := congrArg List.length h; simp at this; omega⟩, ofBin_zeros]
  have p1 : parseBin (List.replicate n '1') = some (2 ^ n - 1) := by
    unfold parseBin
    rw [if_pos ⟨fun c hc => Or.inr (List.eq_of_mem_replicate hc), by intro h; have := congrArg List.length h; simp at this; omega⟩, ofBin_ones]
  have hne : ¬ (0 : ℕ) = 2 ^ n - 1 := by omega
  unfold calibrationData
  simp only [List.zipIdx_cons, List.zipIdx_nil, List.foldlM_cons, List.foldlM_nil, Option.bind_eq_bind]
  unfold calStep
  simp only [if_true, p0, p1, Option.bind_eq_bind, Option.bind_some, Option.pure_def]
  simp [Dict.get?, Dict.set, hne]

/-- A reading of the circuit `x` without an error outside qubit `q`. -/
def CleanAt (n q : ℕ) (x : Fin 2) (z : Fin (2 ^ n)) : Prop := AgreeOutside n [q] (calState n x) z

/-- It reads `y` on qubit `q`. -/
def Reads (n q y : ℕ) (z : Fin (2 ^ n)) : Prop := Spells [q] z y

instance (n q : ℕ) (x : Fin 2) : DecidablePred (CleanAt n q x) := fun _ => inferInstanceAs (Decidable (AgreeOutside _ _ _ _))
instance (n q y : ℕ) : DecidablePred (Reads n q y) := fun _ => inferInstanceAs (Decidable (Spells _ _ _))

theorem pair_tally {n K : ℕ} (q : ℕ) (hq : q < n) (κ : Fin 2 → Fin K → Fin (2 ^ n)) (cal : ℕ → IntCounts) (hcal : ∀ x : Fin 2, RecordsInt (κ x) (cal x))
    (x : Fin 2) (P : ℕ → ℕ → Prop) [∀ a b, Decidable (P a b)] (hP : ∀ a b, P a b → Spells [q] a x) :
    (tally [(0, cal 0), (2 ^ n - 1, cal 1)] P : ℝ) = ((Finset.univ.filter fun k => P (calState n x) (κ x k)).card : ℝ) := by
  have one : ∀ z : Fin 2, ((((cal z).map fun kv => if P (calState n z) kv.1 then kv.2 else 0).sum : ℤ) : ℝ) =
      ((Finset.univ.filter fun k => P (calState n z) (κ z k)).card : ℝ) := by
    intro z
    rw [Int.cast_list_sum, List.map_map]
    have := sum_of_tally (cal z) (hcal z).wf (fun k => (κ z k : ℕ)) (hcal z).tally fun y => if P (calState n z) y then (1 : ℝ) else 0
    rw [Finset.sum_boole] at this
    rw [← this]
    congr 1
    refine List.map_congr_left fun kv _ => ?_
    by_cases h : P (calState n z) kv.1 <;> simp [h]
  have zero : ∀ z : Fin 2, z ≠ x → ((Finset.univ.filter fun k => P (calState n z) (κ z k)).card : ℝ) = 0 := by
    intro z hz
    rw [Nat.cast_eq_zero, Finset.card_eq_zero, Finset.filter_eq_empty_iff]
    intro k _ h
    have h1 := hP _ _ h 0 (by simp)
    simp only [List.getD_cons_zero, List.length_cons, List.length_nil] at h1
    rw [testBit_calState n z q hq] at h1
    apply hz
    fin_cases z <;> fin_cases x <;> simp_all
  have e : (tally [(0, cal 0), (2 ^ n - 1, cal 1)] P : ℝ) = ∑ z : Fin 2, ((Finset.univ.filter fun k => P (calState n z) (κ z k)).card : ℝ) := by
    rw [Fin.sum_univ_two, ← one 0, ← one 1]
    unfold tally
    simp [calState]
  rw [e, Finset.sum_eq_single x (fun z _ hz => zero z hz) fun h => absurd (Finset.mem_univ _) h]

/-- The fitted matrices are quotients of counts. -/
theorem tensored_fit {n K : ℕ} (hn : 1 ≤ n) (circs : List MeasMit.Circ) (metas : List Meta)
    (h : mitigatorCircuits n "tensored".toList none = some (circs, metas))
    (κ : Fin 2 → Fin K → Fin (2 ^ n)) (cal : ℕ → IntCounts) (hcal : ∀ x : Fin 2, RecordsInt (κ x) (cal x))
    (hD : ∀ q < n, ∀ x : Fin 2, 0 < (Finset.univ.filter fun k => CleanAt n q x (κ x k)).card) :
    ∃ st As, calibrationData cal metas = some st ∧ st.method = some "tensored".toList ∧ fitTensored (K := ℝ) st = some As ∧ As.length = n ∧
      ∀ q < n, ∀ y < 2, ∀ x : Fin 2, As.getD q (fun _ _ => 0) y x =
        ((Finset.univ.filter fun k => CleanAt n q x (κ x k) ∧ Reads n q y (κ x k)).card : ℝ) / (Finset.univ.filter fun k => CleanAt n q x (κ x k)).card := by
  rw [tensored_metas n circs metas h]
  refine ⟨⟨[(0, cal 0), (2 ^ n - 1, cal 1)], some n, some "tensored".toList⟩, ?_⟩
  rw [tensored_data n hn]
  set data : Dict ℕ IntCounts := [(0, cal 0), (2 ^ n - 1, cal 1)] with hdata
  have hsp : ∀ q < n, ∀ x : Fin 2, Spells [q] (calState n x) x := by
    intro q hq x p hp
    have : p = 0 := by simpa using hp
    subst this
    simp [testBit_calState n x q hq]
  have hq1 : ∀ q < n, ∃ A : Mat ℝ, (assignmentMatrix (K := ℝ) data n (some [q])).map (·.2) = some A ∧
      ∀ y < 2, ∀ x : Fin 2, A y x = ((Finset.univ.filter fun k => CleanAt n q x (κ x k) ∧ Reads n q y (κ x k)).card : ℝ) /
        (Finset.univ.filter fun k => CleanAt n q x (κ x k)).card := by
    intro q hq
    have t1 : ∀ x : Fin 2, (tally data (fun a b => Spells [q] a x ∧ AgreeOutside n [q] a b) : ℝ) = ((Finset.univ.filter fun k => CleanAt n q x (κ x k)).card : ℝ) := by
      intro x
      rw [hdata, pair_tally q hq κ cal hcal x _ fun a b h => h.1]
      congr 2
      exact Finset.filter_congr fun k _ => by simp [CleanAt, hsp q hq x]
    have t2 : ∀ (x : Fin 2) (y : ℕ), (tally data (fun a b => (Spells [q] a x ∧ AgreeOutside n [q] a b) ∧ Spells [q] b y) : ℝ) =
        ((Finset.univ.filter fun k => CleanAt n q x (κ x k) ∧ Reads n q y (κ x k)).card : ℝ) := by
      intro x y
      rw [hdata, pair_tally q hq κ cal hcal x _ fun a b h => h.1.1]
      congr 2
      exact Finset.filter_congr fun k _ => by simp [CleanAt, Reads, hsp q hq x]
    obtain ⟨hnone, hval⟩ := C19_subset (K := ℝ) data n [q]
    cases hA : assignmentMatrix (K := ℝ) data n (some [q]) with
    | none =>
      obtain ⟨x, hx, h0⟩ := hnone.1 hA
      have hx2 : x < 2 := by simpa using hx
      have := t1 ⟨x, hx2⟩
      simp only at this
      rw [h0, Int.cast_zero] at this
      have h3 := hD q hq ⟨x, hx2⟩
      exact absurd this.symm (by exact_mod_cast h3.ne')
    | some r =>
      obtain ⟨dim, A⟩ := r
      obtain ⟨hd, hv⟩ := hval dim A hA
      have hd2 : dim = 2 := by simpa using hd
      refine ⟨A, rfl, fun y hy x => ?_⟩
      rw [hv y (by omega) x (by omega), t1 x, t2 x y]
  choose! F hF using hq1
  refine ⟨(List.range n).map F, rfl, rfl, ?_, by simp, fun q hq y hy x => ?_⟩
  · unfold fitTensored
    simp only [Option.bind_eq_bind, Option.bind_some]
    exact mapM_eq_some _ _ F fun q hq => (hF q (List.mem_range.1 hq)).1
  · rw [List.getD_eq_getElem?_getD, List.getElem?_map, List.getElem?_range hq, Option.map_some, Option.getD_some]
    exact (hF q hq).2 y hy x

theorem getD_mem_of_lt {α : Type} (as : List α) (d : α) (q : ℕ) (hq : q < as.length) : as.getD q d ∈ as := by
  rw [List.getD_eq_getElem?_getD, List.getElem?_eq_getElem hq, Option.getD_some]; exact List.getElem_mem hq

/-- What `Readout` says about the entries. -/
theorem Readout.entries {a : Mat ℝ} {e0 e1 : ℝ} (h : Readout a e0 e1) : (∀ y < 2, ∀ x < 2, 0 ≤ a y x) ∧ (∀ x < 2, a 0 x + a 1 x = 1) := by
  have := h.lt
  have h0 := h.pos0
  have h1 := h.pos1
  refine ⟨fun y hy x hx => ?_, fun x hx => ?_⟩
  · interval_cases y <;> interval_cases x <;> simp only [h.a00, h.a10, h.a01, h.a11] <;> linarith
  · interval_cases x <;> simp only [h.a00, h.a10, h.a01, h.a11] <;> ring

theorem prodNoise_isNoise (as : List (Mat ℝ)) (hr : ∀ a ∈ as, ∃ e0 e1, Readout a e0 e1) : IsNoise (2 ^ as.length) (prodNoise as) := by
  intro x _
  refine ⟨fun y _ => Finset.prod_nonneg fun t ht => ?_, ?_⟩
  · obtain ⟨e0, e1, h⟩ := hr _ (getD_mem_of_lt as (fun _ _ => 0) t (Finset.mem_range.1 ht))
    exact h.entries.1 _ (Bool.toNat_lt _) _ (Bool.toNat_lt _)
  · unfold prodNoise
    refine (sum_prod_bits as.length fun t b => as.getD t (fun _ _ => 0) b (x.testBit t).toNat).trans ?_
    refine Finset.prod_eq_one fun t ht => ?_
    obtain ⟨e0, e1, h⟩ := hr _ (getD_mem_of_lt as (fun _ _ => 0) t (Finset.mem_range.1 ht))
    exact h.entries.2 _ (Bool.toNat_lt _)

/-- Probability that a shot of calibration circuit `x` has no error outside qubit `q`. -/
noncomputable def cleanProb (as : List (Mat ℝ)) (q : ℕ) (x : ℕ) : ℝ := ∏ t ∈ (Finset.range as.length).erase q, as.getD t (fun _ _ => 0) x x

theorem clean_reads (as : List (Mat ℝ)) (q : ℕ) (hq : q < as.length) (x : Fin 2) (y : ℕ) (hy : y < 2) :
    (∑ z : Fin (2 ^ as.length), if CleanAt as.length q x z ∧ Reads as.length q y z then prodNoise as z (calState as.length x) else 0) =
      cleanProb as q x * as.getD q (fun _ _ => 0) y x := by
  have hbit : ∀ z < 2, (z.testBit 0).toNat = z := by
    intro z hz
    interval_cases z <;> rfl
  have e : ∀ z : Fin (2 ^ as.length), (CleanAt as.length q x z ∧ Reads as.length q y z) ↔ z = ⟨withBit as.length q (calState as.length x) y, withBit_lt _ _ _ _⟩ := by
    intro z
    rw [Fin.ext_iff]
    exact withBit_iff as.length q (calState as.length x) y z hq z.2
  rw [Finset.sum_congr rfl fun z _ => by rw [if_congr (e z) rfl rfl], Finset.sum_ite_eq', if_pos (Finset.mem_univ _), prodNoise_withBit as q _ y hq,
    testBit_calState _ _ _ hq, hbit y hy, hbit x x.2, mul_comm]
  congr 1
  refine Finset.prod_congr rfl fun t ht => ?_
  rw [testBit_calState _ _ _ (Finset.mem_range.1 (Finset.mem_of_mem_erase ht)), hbit x x.2]

theorem clean_total (as : List (Mat ℝ)) (hr : ∀ a ∈ as, ∃ e0 e1, Readout a e0 e1) (q : ℕ) (hq : q < as.length) (x : Fin 2) :
    (∑ z : Fin (2 ^ as.length), if CleanAt as.length q x z then prodNoise as z (calState as.length x) else 0) = cleanProb as q x := by
  obtain ⟨e0, e1, h⟩ := hr _ (getD_mem_of_lt as (fun _ _ => 0) q hq)
  have h0 := clean_reads as q hq x 0 (by omega)
  have h1 := clean_reads as q hq x 1 (by omega)
  have : ∀ z : Fin (2 ^ as.length), (if CleanAt as.length q x z then prodNoise as z (calState as.length x) else 0) =
      (if CleanAt as.length q x z ∧ Reads as.length q 0 z then prodNoise as z (calState as.length x) else 0) +
      (if CleanAt as.length q x z ∧ Reads as.length q 1 z then prodNoise as z (calState as.length x) else 0) := by
    intro z
    have hz : Reads as.length q 1 z ↔ ¬ Reads as.length q 0 z := by simp [Reads, Spells]
    by_cases a : CleanAt as.length q x z <;> by_cases b : Reads as.length q 0 z <;> simp [hz, a, b]
  rw [Finset.sum_congr rfl fun z _ => this z, Finset.sum_add_distrib, h0, h1, ← mul_add, h.entries.2 x x.2, mul_one]

/-! ### C121 -/

/-- The default calibration circuits of the tensored mitigator prepare all qubits in 0 and all qubits in 1. -/
theorem C121_tensored_circuits (n : ℕ) (hn : 1 ≤ n) (circs : List MeasMit.Circ) (metas : List Meta)
    (h : mitigatorCircuits n "tensored".toList none = some (circs, metas)) :
    circs.length = 2 ∧ ∀ (x : Fin 2) (hx : (x : ℕ) < circs.length), ofBin (MeasMit.readout circs[x]) = calState n x := by
  obtain ⟨hlen, hread⟩ := C18_readback n "tensored".toList none (by simp) hn circs metas h
  have hmet := tensored_metas n circs metas h
  have hml : metas.length = 2 := by rw [hmet]; rfl
  refine ⟨by omega, fun x hx => ?_⟩
  have := (hread x hx (by omega)).1
  show ofBin (MeasMit.readout circs[(x : ℕ)]) = _
  rw [this]
  subst hmet
  fin_cases x
  · simp [calState, ofBin_zeros]
  · simp [calState, ofBin_ones]

open Classical in
/-- With `K` shots of each calibration circuit on a device whose qubits are misread independently with the matrices `as`, the matrices fitted by the tensored
mitigator are all within `η` of `as`, except with probability at most `2 n (4 (1 - c₀) + 1 / η²) / (K c₀)`, where `c₀` bounds from below the probability that a
calibration shot has no error outside a given qubit (the fit drops the other shots). -/
theorem C121_tensored_calibration_error (as : List (Mat ℝ)) (hn : 1 ≤ as.length) (hr : ∀ a ∈ as, ∃ e0 e1, Readout a e0 e1) {K : ℕ} (hK : 0 < K)
    (circs : List MeasMit.Circ) (metas : List Meta) (h : mitigatorCircuits as.length "tensored".toList none = some (circs, metas))
    (cal : (Fin 2 → Fin K → Fin (2 ^ as.length)) → ℕ → IntCounts) (hcal : ∀ κ (x : Fin 2), RecordsInt (κ x) (cal κ x))
    (c₀ : ℝ) (hc₀ : 0 < c₀) (hclean : ∀ q < as.length, ∀ x < 2, c₀ ≤ cleanProb as q x) (η : ℝ) (hη : 0 < η) :
    (∑ κ : Fin 2 → Fin K → Fin (2 ^ as.length),
      if FittedNear as η (cal κ) metas then 0 else pairProb (prodNoise as) κ) ≤
      2 * as.length * (4 * (1 - c₀) + 1 / η ^ 2) / (K * c₀) := by
  have hK' : (0 : ℝ) < K := by exact_mod_cast hK
  have hnoise := prodNoise_isNoise as hr
  let dev : Fin as.length × Fin 2 → (Fin K → Fin (2 ^ as.length)) → ℝ := fun i u =>
    ratioDev (CleanAt as.length i.1 i.2) (Reads as.length i.1 1) (cleanProb as i.1 i.2) (as.getD i.1 (fun _ _ => 0) 1 i.2) η u
  have hpos : ∀ κ, 0 ≤ pairProb (K := K) (prodNoise as) κ := fun κ =>
    Finset.prod_nonneg fun x _ => Finset.prod_nonneg fun k _ => (hnoise _ (calState_lt _ _)).1 _ (κ x k).2
  have hw : ∀ x : Fin 2, ∑ z : Fin (2 ^ as.length), prodNoise as z (calState as.length x) = 1 := by
    intro x
    rw [← (hnoise _ (calState_lt as.length x)).2, Finset.sum_range]
  have hcp : ∀ (q : Fin as.length) (x : Fin 2), 0 < cleanProb as q x := fun q x => lt_of_lt_of_le hc₀ (hclean q q.2 x x.2)
  have hm := markov (fun κ => pairProb (K := K) (prodNoise as) κ) hpos
    (fun κ => ¬ FittedNear as η (cal κ) metas)
    (fun κ => ∑ i, dev i (κ i.2)) (fun κ => Finset.sum_nonneg fun i _ => ratioDev_nonneg _ _ _ _ _ _) (fun κ hbad => by
      by_contra hlt
      apply hbad
      have hone : ∀ i, dev i (κ i.2) < 1 := fun i =>
        lt_of_le_of_lt (Finset.single_le_sum (f := fun i => dev i (κ i.2)) (fun i _ => ratioDev_nonneg _ _ _ _ _ _) (Finset.mem_univ i)) (not_le.1 hlt)
      have hnear := fun (q : Fin as.length) (x : Fin 2) => ratio_near hK (CleanAt as.length q x) (Reads as.length q 1) (cleanProb as q x)
        (as.getD q (fun _ _ => 0) 1 x) η (hcp q x) hη (κ x) (hone (q, x))
      obtain ⟨st, As, f1, -, f2, f3, f4⟩ := tensored_fit hn circs metas h κ (cal κ) (hcal κ) fun q hq x => (hnear ⟨q, hq⟩ x).1
      refine ⟨st, As, f1, f2, f3, fun q hq => ?_⟩
      obtain ⟨e0, e1, hro⟩ := hr _ (getD_mem_of_lt as (fun _ _ => 0) q hq)
      have hsum : ∀ x : Fin 2, As.getD q (fun _ _ => 0) 0 x + As.getD q (fun _ _ => 0) 1 x = 1 := by
        intro x
        rw [f4 q hq 0 (by omega) x, f4 q hq 1 (by omega) x, ← add_div, ← Nat.cast_add]
        have hD := (hnear ⟨q, hq⟩ x).1
        have : (Finset.univ.filter fun k => CleanAt as.length q x (κ x k) ∧ Reads as.length q 0 (κ x k)).card +
            (Finset.univ.filter fun k => CleanAt as.length q x (κ x k) ∧ Reads as.length q 1 (κ x k)).card =
            (Finset.univ.filter fun k => CleanAt as.length q x (κ x k)).card := by
          rw [← Finset.card_filter_add_card_filter_not (s := Finset.univ.filter fun k => CleanAt as.length q x (κ x k)) (p := fun k => Reads as.length q 0 (κ x k)),
            Finset.filter_filter, Finset.filter_filter]
          congr 2
          exact Finset.filter_congr fun k _ => by simp [Reads, Spells]
        rw [this, div_self]
        exact_mod_cast hD.ne'
      have hnn : ∀ y < 2, ∀ x : Fin 2, 0 ≤ As.getD q (fun _ _ => 0) y x := fun y hy x => by rw [f4 q hq y hy x]; positivity
      have hn1 : ∀ x : Fin 2, |As.getD q (fun _ _ => 0) 1 x - as.getD q (fun _ _ => 0) 1 x| < η := by
        intro x
        rw [f4 q hq 1 (by omega) x]
        exact (hnear ⟨q, hq⟩ x).2
      have hn0 : ∀ x : Fin 2, |As.getD q (fun _ _ => 0) 0 x - as.getD q (fun _ _ => 0) 0 x| < η := by
        intro x
        have a1 := hsum x
        have a2 := hro.entries.2 x x.2
        rw [show As.getD q (fun _ _ => 0) 0 x - as.getD q (fun _ _ => 0) 0 x = -(As.getD q (fun _ _ => 0) 1 x - as.getD q (fun _ _ => 0) 1 x) by linarith, abs_neg]
        exact hn1 x
      refine ⟨⟨As.getD q (fun _ _ => 0) 1 0, As.getD q (fun _ _ => 0) 0 1, hnn 1 (by omega) 0, hnn 0 (by omega) 1, ?_, rfl, rfl, ?_⟩, fun y hy x hx => ?_⟩
      · have := hsum 0
        simp only [Fin.val_zero] at this
        linarith
      · have := hsum 1
        simp only [Fin.val_one] at this
        linarith
      · interval_cases y
        · exact hn0 ⟨x, hx⟩
        · exact hn1 ⟨x, hx⟩)
  have hL : ∀ κ, (if FittedNear as η (cal κ) metas then 0 else pairProb (K := K) (prodNoise as) κ) = _ := fun κ => (ite_not _ _ _).symm
  rw [Finset.sum_congr rfl fun κ _ => hL κ]
  refine hm.trans ?_
  simp only [Finset.mul_sum]
  rw [Finset.sum_comm]
  have hone : ∀ i : Fin as.length × Fin 2, ∑ κ, pairProb (K := K) (prodNoise as) κ * dev i (κ i.2) ≤ (4 * (1 - c₀) + 1 / η ^ 2) / (K * c₀) := by
    intro i
    have e := marginal_one (fun (x : Fin 2) (u : Fin K → Fin (2 ^ as.length)) => ∏ k, prodNoise as (u k) (calState as.length x))
      (fun x => QV.draws_sum_one K (fun z : Fin (2 ^ as.length) => prodNoise as z (calState as.length x)) (hw x)) i.2 fun u => dev i u
    unfold pairProb
    rw [e, ratioDev_mean hK (fun z : Fin (2 ^ as.length) => prodNoise as z (calState as.length i.2)) (hw i.2) (CleanAt as.length i.1 i.2) (Reads as.length i.1 1) _ _ η
      (hcp i.1 i.2) hη (clean_total as hr i.1 i.1.2 i.2) (clean_reads as i.1 i.1.2 i.2 1 (by omega))]
    set c := cleanProb as i.1 i.2
    set a := as.getD i.1 (fun _ _ => 0) 1 (i.2 : ℕ)
    have hcc : c₀ ≤ c := hclean i.1 i.1.2 i.2 i.2.2
    have hcpos : 0 < c := hcp i.1 i.2
    have h1 : 4 * (a * (1 - a)) / η ^ 2 ≤ 1 / η ^ 2 := div_le_div_of_nonneg_right (by nlinarith [sq_nonneg (1 - 2 * a)]) (by positivity)
    rw [div_le_div_iff₀ (by positivity) (by positivity)]
    have h2 : 0 ≤ 1 / η ^ 2 := by positivity
    have h3 : (4 * (1 - c) + 4 * (a * (1 - a)) / η ^ 2) * c₀ ≤ (4 * (1 - c₀) + 1 / η ^ 2) * c := by nlinarith
    nlinarith
  refine (Finset.sum_le_sum fun i _ => hone i).trans (le_of_eq ?_)
  simp only [Finset.sum_const, Finset.card_univ, Fintype.card_prod, Fintype.card_fin, nsmul_eq_mul]
  push_cast
  ring

end Verif.Expval
