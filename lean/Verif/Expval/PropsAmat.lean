import Verif.Expval.LemmasVec
import Mathlib.Tactic.Positivity
import Mathlib.Tactic.NormNum
import Mathlib.Algebra.BigOperators.Field
set_option linter.unusedSectionVars false
set_option linter.unusedSimpArgs false
/-
C19: assignment matrices from calibration data.
-/
namespace Verif.Expval
open Verif Verif.Counts

/-! ### Specification -/

/-- Number of calibration shots with prepared label and outcome satisfying `P`. -/
def tally (calData : Dict ℕ IntCounts) (P : ℕ → ℕ → Prop) [∀ a b, Decidable (P a b)] : ℤ :=
  (calData.map fun p => (p.2.map fun kv => if P p.1 kv.1 then kv.2 else 0).sum).sum

/-- The bits of `i` at the positions `qs` spell the number `x`, the first listed qubit being the most
significant digit. -/
def Spells (qs : List ℕ) (i x : ℕ) : Prop :=
  ∀ p < qs.length, i.testBit (qs.getD p 0) = x.testBit (qs.length - 1 - p)

/-- Label and outcome agree on every qubit below `N` that is not listed. -/
def AgreeOutside (N : ℕ) (qs : List ℕ) (a b : ℕ) : Prop := ∀ q < N, q ∉ qs → a.testBit q = b.testBit q

instance (qs : List ℕ) (i x : ℕ) : Decidable (Spells qs i x) := by unfold Spells; infer_instance
instance (N : ℕ) (qs : List ℕ) (a b : ℕ) : Decidable (AgreeOutside N qs a b) := by unfold AgreeOutside; infer_instance

/-! ### Lemmas -/

theorem bit_shift (i q : ℕ) : (i &&& (1 <<< q)) >>> q = bit i q := by
  rw [Nat.one_shiftLeft]
  unfold bit
  apply Nat.eq_of_testBit_eq
  intro t
  rw [Nat.testBit_shiftRight, Nat.testBit_and, Nat.testBit_two_pow]
  cases t with
  | zero => cases h : i.testBit q <;> simp [h]
  | succ t =>
    have : q ≠ q + (t + 1) := by omega
    cases h : i.testBit q <;> simp [this, Nat.testBit_succ]

theorem amatIndex_eq (i : ℕ) (qs : List ℕ) :
    amatIndex i qs = ∑ t ∈ Finset.range qs.length, bit i (qs.getD (qs.length - 1 - t) 0) * 2 ^ t := by
  unfold amatIndex
  simp only [bit_shift]
  simp only [Nat.shiftLeft_eq]
  rw [sum_zipIdx qs 0 fun q p => bit i q * 2 ^ (qs.length - 1 - p)]
  rw [← Finset.sum_range_reflect]
  refine Finset.sum_congr rfl fun t ht => ?_
  have := Finset.mem_range.1 ht
  rw [show qs.length - 1 - (qs.length - 1 - t) = t by omega]

theorem amatIndex_lt (i : ℕ) (qs : List ℕ) : amatIndex i qs < 2 ^ qs.length := by
  rw [amatIndex_eq]
  exact sum_bits_lt _ _ fun t _ => bit_lt _ _

theorem bit_inj {x y t s : ℕ} : bit x t = bit y s ↔ x.testBit t = y.testBit s := by
  unfold bit
  constructor
  · intro h; revert h; cases x.testBit t <;> cases y.testBit s <;> simp
  · intro h; rw [h]

theorem amatIndex_iff (i : ℕ) (qs : List ℕ) (x : ℕ) (hx : x < 2 ^ qs.length) : amatIndex i qs = x ↔ Spells qs i x := by
  constructor
  · rintro rfl p hp
    rw [← bit_inj, amatIndex_eq, bit_sum _ _ (fun t _ => bit_lt _ _) _ (by omega)]
    rw [show qs.length - 1 - (qs.length - 1 - p) = p by omega]
  · intro h
    refine eq_of_bits (amatIndex_lt i qs) hx fun t ht => ?_
    rw [amatIndex_eq, bit_sum _ _ (fun t _ => bit_lt _ _) _ ht]
    have := bit_inj.2 (h (qs.length - 1 - t) (by omega))
    rw [this, show qs.length - 1 - (qs.length - 1 - t) = t by omega]

theorem amatMask_eq (qs : List ℕ) (N : ℕ) :
    amatMask qs N = ∑ i ∈ Finset.range N, (if i ∈ qs then 0 else 1) * 2 ^ i := by
  unfold amatMask
  induction N with
  | zero => simp
  | succ N ih =>
    rw [List.range_succ, List.foldl_append, ih, Finset.sum_range_succ]
    simp only [List.foldl_cons, List.foldl_nil]
    split <;> simp

theorem testBit_mask (qs : List ℕ) (N q : ℕ) : (amatMask qs N).testBit q = decide (q < N ∧ q ∉ qs) := by
  have hlt : amatMask qs N < 2 ^ N := by
    rw [amatMask_eq]; exact sum_bits_lt _ _ fun t _ => by split <;> omega
  by_cases hq : q < N
  · have := bit_sum N (fun i => if i ∈ qs then 0 else 1) (fun t _ => by split <;> omega) q hq
    rw [← amatMask_eq] at this
    unfold bit at this
    by_cases h : q ∈ qs <;> cases hb : (amatMask qs N).testBit q <;> simp_all
  · rw [Nat.testBit_lt_two_pow (lt_of_lt_of_le hlt (Nat.pow_le_pow_right (by omega) (by omega)))]
    simp [hq]

theorem mask_iff (qs : List ℕ) (N a b : ℕ) :
    a &&& amatMask qs N = b &&& amatMask qs N ↔ AgreeOutside N qs a b := by
  constructor
  · intro h q hq hqs
    have := congrArg (fun x => x.testBit q) h
    simpa [Nat.testBit_and, testBit_mask, hq, hqs] using this
  · intro h
    apply Nat.eq_of_testBit_eq
    intro q
    rw [Nat.testBit_and, Nat.testBit_and, testBit_mask]
    by_cases hq : q < N ∧ q ∉ qs
    · rw [h q hq.1 hq.2]
    · simp [hq]

variable {K : Type} [Field K] [LinearOrder K] [IsStrictOrderedRing K]

theorem foldl_addAt (l : List (ℕ × ℤ)) (P : ℕ → Prop) [DecidablePred P] (r : ℕ → ℕ) (col : ℕ) (m : Mat K) (y x : ℕ) :
    l.foldl (fun m kv => if P kv.1 then addAt m (r kv.1) col (kv.2 : K) else m) m y x =
      m y x + ((l.map fun kv => if P kv.1 ∧ r kv.1 = y ∧ col = x then kv.2 else 0).sum : ℤ) := by
  induction l generalizing m with
  | nil => simp
  | cons a l ih =>
    rw [List.foldl_cons, ih, List.map_cons, List.sum_cons, Int.cast_add, ← add_assoc]
    congr 1
    by_cases h : P a.1
    · rw [if_pos h]
      unfold addAt
      by_cases h2 : r a.1 = y ∧ col = x
      · rw [if_pos ⟨h2.1.symm, h2.2.symm⟩, if_pos ⟨h, h2⟩]
      · rw [if_neg fun h' => h2 ⟨h'.1.symm, h'.2.symm⟩, if_neg fun h' => h2 h'.2]; simp
    · rw [if_neg h, if_neg fun h' => h h'.1]; simp

theorem foldl_cal (l : List (ℕ × IntCounts)) (step : Mat K → ℕ → IntCounts → Mat K) (w : ℕ → ℕ → Prop)
    [∀ a b, Decidable (w a b)] (y x : ℕ)
    (hstep : ∀ m cal counts, step m cal counts y x = m y x + ((counts.map fun kv => if w cal kv.1 then kv.2 else 0).sum : ℤ))
    (m : Mat K) :
    l.foldl (fun m p => step m p.1 p.2) m y x = m y x + (tally l w : ℤ) := by
  induction l generalizing m with
  | nil => simp [tally]
  | cons a l ih =>
    rw [List.foldl_cons, ih, hstep]
    unfold tally
    rw [List.map_cons, List.sum_cons, Int.cast_add]
    ring

theorem tally_congr (d : Dict ℕ IntCounts) (P Q : ℕ → ℕ → Prop) [∀ a b, Decidable (P a b)] [∀ a b, Decidable (Q a b)]
    (h : ∀ p ∈ d, ∀ kv ∈ p.2, (P p.1 kv.1 ↔ Q p.1 kv.1)) : tally d P = tally d Q := by
  unfold tally
  congr 1
  refine List.map_congr_left fun p hp => ?_
  congr 1
  refine List.map_congr_left fun kv hkv => ?_
  by_cases hq : Q p.1 kv.1
  · rw [if_pos hq, if_pos ((h p hp kv hkv).2 hq)]
  · rw [if_neg hq, if_neg fun h' => hq ((h p hp kv hkv).1 h')]

theorem tally_nonneg (d : Dict ℕ IntCounts) (hnn : ∀ p ∈ d, ∀ kv ∈ p.2, 0 ≤ kv.2) (P : ℕ → ℕ → Prop)
    [∀ a b, Decidable (P a b)] : 0 ≤ tally d P := by
  unfold tally
  refine List.sum_nonneg fun x hx => ?_
  obtain ⟨p, hp, rfl⟩ := List.mem_map.1 hx
  refine List.sum_nonneg fun x hx => ?_
  obtain ⟨kv, hkv, rfl⟩ := List.mem_map.1 hx
  split
  · exact hnn p hp kv hkv
  · exact le_refl _

/-- Summing over a digit that takes one value below `dim` for every shot. -/
theorem sum_tally (d : Dict ℕ IntCounts) (P : ℕ → ℕ → Prop) [∀ a b, Decidable (P a b)] (r : ℕ → ℕ) (dim : ℕ)
    (hr : ∀ p ∈ d, ∀ kv ∈ p.2, r kv.1 < dim) :
    ∑ y ∈ Finset.range dim, tally d (fun a b => P a b ∧ r b = y) = tally d P := by
  unfold tally
  have inner : ∀ (cal : ℕ) (l : List (ℕ × ℤ)), (∀ kv ∈ l, r kv.1 < dim) →
      ∑ y ∈ Finset.range dim, (l.map fun kv => if P cal kv.1 ∧ r kv.1 = y then kv.2 else 0).sum =
        (l.map fun kv => if P cal kv.1 then kv.2 else 0).sum := by
    intro cal l hl
    induction l with
    | nil => simp
    | cons a l ih =>
      simp only [List.map_cons, List.sum_cons, Finset.sum_add_distrib]
      rw [ih fun kv hkv => hl kv (by simp [hkv])]
      congr 1
      by_cases h : P cal a.1
      · simp only [h, true_and, if_true]
        rw [Finset.sum_ite_eq, if_pos (Finset.mem_range.2 (hl a (by simp)))]
      · simp [h]
  induction d with
  | nil => simp
  | cons a d ih =>
    simp only [List.map_cons, List.sum_cons, Finset.sum_add_distrib]
    rw [ih fun p hp => hr p (by simp [hp]), inner a.1 a.2 (hr a (by simp))]

/-! ### Theorems -/

/-- C19, subset of qubits: entry `(y, x)` is the number of shots with label reading `x` and outcome reading `y` on
the listed qubits and without error elsewhere, divided by the number of such shots for label `x`; the request is
rejected exactly when the latter number is zero for some `x`. -/
theorem C19_subset (calData : Dict ℕ IntCounts) (N : ℕ) (qs : List ℕ) :
    (assignmentMatrix (K := K) calData N (some qs) = none ↔
      ∃ x < 2 ^ qs.length, tally calData (fun a b => Spells qs a x ∧ AgreeOutside N qs a b) = 0) ∧
    ∀ dim (A : Mat K), assignmentMatrix calData N (some qs) = some (dim, A) → dim = 2 ^ qs.length ∧
      ∀ y < dim, ∀ x < dim,
        A y x = (tally calData (fun a b => (Spells qs a x ∧ AgreeOutside N qs a b) ∧ Spells qs b y) : K) /
          (tally calData (fun a b => Spells qs a x ∧ AgreeOutside N qs a b) : K) := by
  set amat : Mat K := calData.foldl (fun m p => accumLocal qs (amatMask qs N) m p.1 p.2) (fun _ _ => 0) with hamat
  have hent : ∀ y x, x < 2 ^ qs.length → amat y x =
      (tally calData (fun a b => (Spells qs a x ∧ AgreeOutside N qs a b) ∧ amatIndex b qs = y) : K) := by
    intro y x hx
    rw [hamat, foldl_cal calData (accumLocal qs (amatMask qs N))
      (fun a b => a &&& amatMask qs N = b &&& amatMask qs N ∧ amatIndex b qs = y ∧ amatIndex a qs = x) y x
      (fun m cal counts => foldl_addAt counts (fun k => cal &&& amatMask qs N = k &&& amatMask qs N)
        (fun k => amatIndex k qs) (amatIndex cal qs) m y x)]
    rw [zero_add]
    congr 1
    refine tally_congr _ _ _ fun p _ kv _ => ?_
    rw [mask_iff, amatIndex_iff p.1 qs x hx]
    tauto
  have hren : ∀ x < 2 ^ qs.length, ∑ y ∈ Finset.range (2 ^ qs.length), amat y x =
      (tally calData (fun a b => Spells qs a x ∧ AgreeOutside N qs a b) : K) := by
    intro x hx
    rw [← sum_tally calData (fun a b => Spells qs a x ∧ AgreeOutside N qs a b) (fun b => amatIndex b qs) (2 ^ qs.length)
      (fun p _ kv _ => amatIndex_lt _ _), Int.cast_sum]
    exact Finset.sum_congr rfl fun y _ => hent y x hx
  have hdef : assignmentMatrix (K := K) calData N (some qs) =
      if (List.range (2 ^ qs.length)).any (fun j => ∑ i ∈ Finset.range (2 ^ qs.length), amat i j = 0) then none
      else some (2 ^ qs.length, fun i j => amat i j / ∑ i ∈ Finset.range (2 ^ qs.length), amat i j) := rfl
  constructor
  · rw [hdef]
    by_cases h : (List.range (2 ^ qs.length)).any (fun j => ∑ i ∈ Finset.range (2 ^ qs.length), amat i j = 0) = true
    · rw [if_pos h]
      obtain ⟨x, hx, h⟩ := List.any_eq_true.1 h
      have hx := List.mem_range.1 hx
      have h := of_decide_eq_true h
      rw [hren x hx] at h
      exact ⟨fun _ => ⟨x, hx, by exact_mod_cast h⟩, fun _ => rfl⟩
    · rw [if_neg h]
      refine ⟨fun h' => by simp at h', fun ⟨x, hx, h'⟩ => absurd (List.any_eq_true.2 ⟨x, List.mem_range.2 hx, ?_⟩) h⟩
      rw [decide_eq_true_iff, hren x hx, h', Int.cast_zero]
  · intro dim A hA
    rw [hdef] at hA
    split_ifs at hA
    simp only [Option.some.injEq, Prod.mk.injEq] at hA
    obtain ⟨rfl, rfl⟩ := hA
    refine ⟨rfl, fun y hy x hx => ?_⟩
    beta_reduce
    rw [hren x hx, hent y x hx]
    congr 2
    refine tally_congr _ _ _ fun p _ kv _ => ?_
    rw [amatIndex_iff kv.1 qs y hy]

/-- C19, whole register: entry `(y, x)` is the share of the outcomes `y` among the shots with label `x`. -/
theorem C19_full (calData : Dict ℕ IntCounts) (N : ℕ)
    (hr : ∀ p ∈ calData, p.1 < 2 ^ N ∧ ∀ kv ∈ p.2, kv.1 < 2 ^ N) :
    (assignmentMatrix (K := K) calData N none = none ↔ ∃ x < 2 ^ N, tally calData (fun a _ => a = x) = 0) ∧
    ∀ dim (A : Mat K), assignmentMatrix calData N none = some (dim, A) → dim = 2 ^ N ∧
      ∀ y < dim, ∀ x < dim,
        A y x = (tally calData (fun a b => a = x ∧ b = y) : K) / (tally calData (fun a _ => a = x) : K) := by
  set amat : Mat K := calData.foldl (fun m p => accumFull m p.1 p.2) (fun _ _ => 0) with hamat
  have hent : ∀ y x, amat y x = (tally calData (fun a b => a = x ∧ b = y) : K) := by
    intro y x
    rw [hamat, foldl_cal calData accumFull (fun a b => True ∧ b = y ∧ a = x) y x
      (fun m cal counts => by
        have := foldl_addAt counts (fun _ => True) (fun k => k) cal m y x
        simp only [if_true] at this
        exact this)]
    rw [zero_add]
    congr 1
    exact tally_congr _ _ _ fun p _ kv _ => by tauto
  have hren : ∀ x < 2 ^ N, ∑ y ∈ Finset.range (2 ^ N), amat y x = (tally calData (fun a _ => a = x) : K) := by
    intro x hx
    rw [← sum_tally calData (fun a _ => a = x) (fun b => b) (2 ^ N) (fun p hp kv hkv => (hr p hp).2 kv hkv), Int.cast_sum]
    exact Finset.sum_congr rfl fun y _ => hent y x
  have hbad : (calData.any fun p => p.2.any fun kv => decide (2 ^ N ≤ kv.1 ∨ 2 ^ N ≤ p.1)) = false := by
    rw [Bool.eq_false_iff]
    intro h
    obtain ⟨p, hp, h⟩ := List.any_eq_true.1 h
    obtain ⟨kv, hkv, h⟩ := List.any_eq_true.1 h
    have h1 := (hr p hp).1
    have h2 := (hr p hp).2 kv hkv
    have := of_decide_eq_true h
    omega
  have hdef : assignmentMatrix (K := K) calData N none =
      if (List.range (2 ^ N)).any (fun j => ∑ i ∈ Finset.range (2 ^ N), amat i j = 0) then none
      else some (2 ^ N, fun i j => amat i j / ∑ i ∈ Finset.range (2 ^ N), amat i j) := by
    unfold assignmentMatrix
    simp only [hbad]
    rfl
  constructor
  · rw [hdef]
    by_cases h : (List.range (2 ^ N)).any (fun j => ∑ i ∈ Finset.range (2 ^ N), amat i j = 0) = true
    · rw [if_pos h]
      obtain ⟨x, hx, h⟩ := List.any_eq_true.1 h
      have hx := List.mem_range.1 hx
      have h := of_decide_eq_true h
      rw [hren x hx] at h
      exact ⟨fun _ => ⟨x, hx, by exact_mod_cast h⟩, fun _ => rfl⟩
    · rw [if_neg h]
      refine ⟨fun h' => by simp at h', fun ⟨x, hx, h'⟩ => absurd (List.any_eq_true.2 ⟨x, List.mem_range.2 hx, ?_⟩) h⟩
      rw [decide_eq_true_iff, hren x hx, h', Int.cast_zero]
  · intro dim A hA
    rw [hdef] at hA
    split_ifs at hA
    simp only [Option.some.injEq, Prod.mk.injEq] at hA
    obtain ⟨rfl, rfl⟩ := hA
    refine ⟨rfl, fun y hy x hx => ?_⟩
    beta_reduce
    rw [hren x hx, hent y x]

theorem assignmentMatrix_renorm (calData : Dict ℕ IntCounts) (N : ℕ) (qubits : Option (List ℕ)) (dim : ℕ) (A : Mat K)
    (h : assignmentMatrix calData N qubits = some (dim, A)) : ∃ M : Mat K, (∀ x < dim, ∑ y ∈ Finset.range dim, M y x ≠ 0) ∧
      A = fun i j => M i j / ∑ i ∈ Finset.range dim, M i j := by
  unfold assignmentMatrix at h
  simp only [] at h
  split_ifs at h with h1 h2
  simp only [Option.some.injEq, Prod.mk.injEq] at h
  obtain ⟨h3, rfl⟩ := h
  rw [h3] at h2 ⊢
  refine ⟨_, fun x hx h' => h2 (List.any_eq_true.2 ⟨x, List.mem_range.2 hx, decide_eq_true h'⟩), rfl⟩

/-- C19: every assignment matrix that is returned has columns adding up to one, and non-negative entries when
the recorded counts are non-negative. -/
theorem C19_stochastic (calData : Dict ℕ IntCounts) (N : ℕ) (hnn : ∀ p ∈ calData, ∀ kv ∈ p.2, 0 ≤ kv.2)
    (hr : ∀ p ∈ calData, p.1 < 2 ^ N ∧ ∀ kv ∈ p.2, kv.1 < 2 ^ N)
    (qubits : Option (List ℕ)) (dim : ℕ) (A : Mat K) (h : assignmentMatrix calData N qubits = some (dim, A)) :
    (∀ x < dim, ∑ y ∈ Finset.range dim, A y x = 1) ∧ ∀ y < dim, ∀ x < dim, 0 ≤ A y x := by
  constructor
  · intro x hx
    obtain ⟨M, hM, rfl⟩ := assignmentMatrix_renorm calData N qubits dim A h
    rw [← Finset.sum_div, div_self (hM x hx)]
  · intro y hy x hx
    cases qubits with
    | none =>
      rw [((C19_full calData N hr).2 dim A h).2 y hy x hx]
      exact div_nonneg (by exact_mod_cast tally_nonneg calData hnn _) (by exact_mod_cast tally_nonneg calData hnn _)
    | some qs =>
      rw [((C19_subset calData N qs).2 dim A h).2 y hy x hx]
      exact div_nonneg (by exact_mod_cast tally_nonneg calData hnn _) (by exact_mod_cast tally_nonneg calData hnn _)

/-- Non-vacuity: two qubits calibrated with labels 00 and 11, asked for qubit 1. -/
example : (assignmentMatrix (K := ℚ) [(0, [(0, 6), (2, 2), (1, 9)]), (3, [(3, 3), (1, 1)])] 2 (some [1])).map
    (fun r => (r.1, r.2 0 0, r.2 1 0, r.2 0 1, r.2 1 1)) = some (2, 3 / 4, 1 / 4, 1 / 4, 3 / 4) := by decide +kernel

/-- Without data for label 1 the whole-register matrix is rejected. -/
example : assignmentMatrix (K := ℚ) [(0, [(0, 6)]), (3, [(3, 3)])] 2 none = none := by
  rw [(C19_full (K := ℚ) _ 2 (by decide +kernel)).1]
  exact ⟨1, by decide, by decide +kernel⟩

/-- C19 finding: asking for all qubits by name does not give the matrix of the whole register: rows and columns
come in bit-reversed order. -/
theorem C19_finding_order :
    let cal : Dict ℕ IntCounts := [(0, [(0, 3), (1, 1)]), (1, [(1, 1)]), (2, [(2, 1)]), (3, [(3, 1)])]
    (assignmentMatrix (K := ℚ) cal 2 none).map (fun r => (r.2 1 0, r.2 2 0)) = some (1 / 4, 0) ∧
    (assignmentMatrix (K := ℚ) cal 2 (some [0, 1])).map (fun r => (r.2 1 0, r.2 2 0)) = some (0, 1 / 4) := by
  decide +kernel

end Verif.Expval
