import Verif.Tomo.SpecProcShots
import Verif.Tomo.LemmasShots
/-
The dual frame of the preparations and measurements of process tomography.
-/
set_option linter.unusedSimpArgs false
set_option linter.unusedVariables false
set_option linter.unnecessarySeqFocus false
namespace Verif.Tomo
open Verif Verif.Quantum Verif.Counts

/-! ### One qubit -/

/-- The state of a label. -/
noncomputable def prep1 (B : PrepBasis) (i : Fin 4) (x y : Bool) : ℂ := (B.mat (B.label i)).e x.toNat y.toNat

/-- Its dual. -/
noncomputable def edual1 (B : PrepBasis) (i : Fin 4) (x y : Bool) : ℂ :=
  match B with
  | .sic => 3 / 2 * prep1 .sic i x y - if x = y then 1 / 2 else 0
  | .pauli =>
    if i = 2 then (if x = y then 0 else 1) else if i = 3 then (if x = y then 0 else if x then Complex.I else -Complex.I)
    else ((if x = y then (if x = (i == 1) then 2 else 0) else -1 - if x then Complex.I else -Complex.I) / 2)

theorem label_pauli : PrepBasis.label .pauli 0 = "Zp".toList ∧ PrepBasis.label .pauli 1 = "Zm".toList ∧
    PrepBasis.label .pauli 2 = "Xp".toList ∧ PrepBasis.label .pauli 3 = "Yp".toList := by decide

theorem label_sic : PrepBasis.label .sic 0 = "S0".toList ∧ PrepBasis.label .sic 1 = "S1".toList ∧
    PrepBasis.label .sic 2 = "S2".toList ∧ PrepBasis.label .sic 3 = "S3".toList := by decide

/-- The SIC states in terms of a cube root of unity and a square root of two. -/
theorem sic_entries : ∃ w s : ℂ, w ^ 2 = -1 - w ∧ s ^ 2 = 2 ∧ (starRingEnd ℂ) w = -1 - w ∧ (starRingEnd ℂ) s = s ∧ ∀ i x y, prep1 .sic i x y =
    if i = 0 then (if x = false ∧ y = false then 1 else 0)
    else if x = false ∧ y = false then 1 / 3 else if x = true ∧ y = true then 2 / 3
    else if i = 1 then s / 3 else if (i = 2) = (x = false) then w * s / 3 else (-1 - w) * s / 3 := by
  have hv : Complex.exp (-Real.pi * (2 * Complex.I) / 3) = -1 - Complex.exp (Real.pi * (2 * Complex.I) / 3) := by
    linear_combination omega_sum
  have hm := omega_mul
  have hc := omega_conj
  rw [hv] at hm hc
  refine ⟨Complex.exp (Real.pi * (2 * Complex.I) / 3), ((√2 : ℝ) : ℂ), by linear_combination -hm, ?_, hc, Complex.conj_ofReal _, ?_⟩
  · rw [pow_two, ← Complex.ofReal_mul, Real.mul_self_sqrt (by norm_num)]; norm_num
  · obtain ⟨l0, l1, l2, l3⟩ := label_sic
    intro i x y
    unfold prep1
    have hv' : Complex.exp (-(Real.pi * (2 * Complex.I)) / 3) = -1 - Complex.exp (Real.pi * (2 * Complex.I) / 3) := by rw [← hv, neg_mul]
    fin_cases i
    · simp only [Fin.zero_eta, l0]
      cases x <;> cases y <;> simp [PrepBasis.mat, sicPreparationMatrix, m2]
    · simp only [Fin.mk_one, l1]
      cases x <;> cases y <;> simp [PrepBasis.mat, sicPreparationMatrix, m2]
    · simp only [Fin.reduceFinMk, l2]
      cases x <;> cases y <;> simp [PrepBasis.mat, sicPreparationMatrix, m2, hv']
    · simp only [Fin.reduceFinMk, l3]
      cases x <;> cases y <;> simp [PrepBasis.mat, sicPreparationMatrix, m2, hv']

theorem pauli_entries (i : Fin 4) (x y : Bool) : prep1 .pauli i x y =
    if i = 0 then (if x = false ∧ y = false then 1 else 0) else if i = 1 then (if x = true ∧ y = true then 1 else 0)
    else if x = y then 1 / 2 else if i = 2 then 1 / 2 else if x then Complex.I / 2 else - Complex.I / 2 := by
  obtain ⟨l0, l1, l2, l3⟩ := label_pauli
  unfold prep1
  fin_cases i
  · simp only [Fin.zero_eta, l0]
    cases x <;> cases y <;> simp [PrepBasis.mat, pauliPreparationMatrix, m2]
  · simp only [Fin.mk_one, l1]
    cases x <;> cases y <;> simp [PrepBasis.mat, pauliPreparationMatrix, m2]
  · simp only [Fin.reduceFinMk, l2]
    cases x <;> cases y <;> simp [PrepBasis.mat, pauliPreparationMatrix, m2]
  · simp only [Fin.reduceFinMk, l3]
    cases x <;> cases y <;> simp [PrepBasis.mat, pauliPreparationMatrix, m2] <;> ring

theorem edual1_recon (B : PrepBasis) (a b c d : Bool) : ∑ i, edual1 B i a b * prep1 B i c d = if a = d ∧ b = c then 1 else 0 := by
  cases B
  · simp only [edual1, pauli_entries, Fin.sum_univ_four]
    have I2 := Complex.I_sq
    cases a <;> cases b <;> cases c <;> cases d <;> simp <;> ring_nf <;> simp [I2] <;> norm_num
  · obtain ⟨w, s, hw, hs, -, -, h⟩ := sic_entries
    simp only [edual1, h, Fin.sum_univ_four]
    cases a <;> cases b <;> cases c <;> cases d <;> simp <;> ring_nf <;> simp [hw, hs] <;> ring

theorem edual1_dual (B : PrepBasis) (i k : Fin 4) : ∑ c, ∑ d, prep1 B i c d * edual1 B k d c = if i = k then 1 else 0 := by
  cases B
  · simp only [edual1, pauli_entries, Fintype.sum_bool]
    have I2 := Complex.I_sq
    fin_cases i <;> fin_cases k <;> simp <;> ring_nf <;> (try simp [I2])
  · obtain ⟨w, s, hw, hs, -, -, h⟩ := sic_entries
    simp only [edual1, h, Fintype.sum_bool]
    fin_cases i <;> fin_cases k <;> simp <;> ring_nf <;> (try simp [hw, hs]) <;> (try ring)

theorem edual1_sum (B : PrepBasis) (a b : Bool) : ∑ i, edual1 B i a b = if a = b then 1 else 0 := by
  cases B
  · simp only [edual1, Fin.sum_univ_four]
    cases a <;> cases b <;> simp <;> ring_nf
  · obtain ⟨w, s, hw, hs, -, -, h⟩ := sic_entries
    simp only [edual1, h, Fin.sum_univ_four]
    cases a <;> cases b <;> simp <;> ring_nf

theorem prep1_conj (B : PrepBasis) (i : Fin 4) (x y : Bool) : (starRingEnd ℂ) (prep1 B i x y) = prep1 B i y x := by
  cases B
  · simp only [pauli_entries]
    fin_cases i <;> cases x <;> cases y <;> simp [Complex.conj_ofNat, neg_div]
  · obtain ⟨w, s, hw, hs, cw, cs, h⟩ := sic_entries
    simp only [h]
    fin_cases i <;> cases x <;> cases y <;> simp [Complex.conj_ofNat, cw, cs]

theorem edual1_conj (B : PrepBasis) (i : Fin 4) (x y : Bool) : (starRingEnd ℂ) (edual1 B i x y) = edual1 B i y x := by
  cases B
  · fin_cases i <;> cases x <;> cases y <;> simp [edual1, Complex.conj_ofNat, sub_eq_add_neg]
  · simp only [edual1, map_sub, map_mul, prep1_conj]
    cases x <;> cases y <;> simp [Complex.conj_ofNat]

theorem prep1_idem (B : PrepBasis) (i : Fin 4) (x y : Bool) : ∑ z, prep1 B i x z * prep1 B i z y = prep1 B i x y := by
  cases B
  · simp only [pauli_entries, Fintype.sum_bool]
    have I2 := Complex.I_sq
    fin_cases i <;> cases x <;> cases y <;> simp <;> ring_nf <;> (try simp [I2]) <;> (try norm_num)
  · obtain ⟨w, s, hw, hs, -, -, h⟩ := sic_entries
    simp only [h, Fintype.sum_bool]
    fin_cases i <;> cases x <;> cases y <;> simp <;> ring_nf <;> (try simp [hw, hs]) <;> (try ring)

theorem prep1_tr (B : PrepBasis) (i : Fin 4) : ∑ x, prep1 B i x x = 1 := by
  cases B
  · simp only [pauli_entries, Fintype.sum_bool]
    fin_cases i <;> simp <;> norm_num
  · obtain ⟨w, s, hw, hs, -, -, h⟩ := sic_entries
    simp only [h, Fintype.sum_bool]
    fin_cases i <;> simp <;> norm_num

/-- The squared norm of the dual of a preparation. -/
noncomputable def PrepBasis.kappa : PrepBasis → ℝ
  | .pauli => 2
  | .sic => 5 / 4

theorem edual1_norm (B : PrepBasis) (i : Fin 4) : ∑ x, ∑ y, Complex.normSq (edual1 B i x y) = B.kappa := by
  apply Complex.ofReal_injective
  push_cast
  simp only [Complex.normSq_eq_conj_mul_self, edual1_conj]
  cases B
  · simp only [PrepBasis.kappa, edual1, Fintype.sum_bool]
    have I2 := Complex.I_sq
    fin_cases i <;> simp <;> ring_nf <;> (try simp [I2]) <;> (try norm_num)
  · obtain ⟨w, s, hw, hs, -, -, h⟩ := sic_entries
    simp only [PrepBasis.kappa, edual1, h, Fintype.sum_bool]
    fin_cases i <;> simp <;> ring_nf <;> (try simp [hw, hs]) <;> (try ring)

/-! ### `n` qubits -/

/-- A product over the qubits of deltas. -/
theorem prod_delta {n : ℕ} (a b : ℕ) (ha : a < 2 ^ n) (hb : b < 2 ^ n) :
    (∏ j : Fin n, if a.testBit j = b.testBit j then (1 : ℂ) else 0) = if a = b then 1 else 0 := by
  by_cases h : a = b
  · subst h; simp
  · rw [if_neg h]
    have : ∃ j : Fin n, a.testBit j ≠ b.testBit j := by
      by_contra hc'
      push Not at hc'
      refine h (Nat.eq_of_testBit_eq fun i => ?_)
      by_cases hi : i < n
      · exact hc' ⟨i, hi⟩
      · rw [Nat.testBit_eq_false_of_lt (lt_of_lt_of_le ha (Nat.pow_le_pow_right (by norm_num) (by omega))),
          Nat.testBit_eq_false_of_lt (lt_of_lt_of_le hb (Nat.pow_le_pow_right (by norm_num) (by omega)))]
    obtain ⟨j, hj⟩ := this
    exact Finset.prod_eq_zero (Finset.mem_univ j) (if_neg hj)

/-- The prepared state. -/
noncomputable def prepN (B : PrepBasis) {n : ℕ} (p : Fin n → Fin 4) (a b : ℕ) : ℂ := ∏ j : Fin n, prep1 B (p j) (a.testBit j) (b.testBit j)

/-- Its dual. -/
noncomputable def edualN (B : PrepBasis) {n : ℕ} (p : Fin n → Fin 4) (a b : ℕ) : ℂ := ∏ j : Fin n, edual1 B (p j) (a.testBit j) (b.testBit j)

theorem prepN_conj (B : PrepBasis) {n : ℕ} (p : Fin n → Fin 4) (a b : ℕ) : (starRingEnd ℂ) (prepN B p a b) = prepN B p b a := by
  unfold prepN
  rw [map_prod]
  exact Finset.prod_congr rfl fun j _ => prep1_conj _ _ _ _

theorem edualN_conj (B : PrepBasis) {n : ℕ} (p : Fin n → Fin 4) (a b : ℕ) : (starRingEnd ℂ) (edualN B p a b) = edualN B p b a := by
  unfold edualN
  rw [map_prod]
  exact Finset.prod_congr rfl fun j _ => edual1_conj _ _ _ _

theorem prepN_idem (B : PrepBasis) {n : ℕ} (p : Fin n → Fin 4) (a b : ℕ) : ∑ c ∈ Finset.range (2 ^ n), prepN B p a c * prepN B p c b = prepN B p a b := by
  rw [sum_range_bits]
  simp only [prepN, testBit_ofBits', ← Finset.prod_mul_distrib]
  rw [sum_prod_pi fun (j : Fin n) z => prep1 B (p j) (a.testBit j) z * prep1 B (p j) z (b.testBit j)]
  exact Finset.prod_congr rfl fun j _ => prep1_idem _ _ _ _

theorem prepN_tr (B : PrepBasis) {n : ℕ} (p : Fin n → Fin 4) : tr (2 ^ n) (prepN B p) = 1 := by
  unfold tr
  rw [sum_range_bits]
  simp only [prepN, testBit_ofBits']
  rw [sum_prod_pi fun (j : Fin n) x => prep1 B (p j) x x]
  simp only [prep1_tr, Finset.prod_const_one]

theorem edualN_recon (B : PrepBasis) {n : ℕ} (a b c d : ℕ) (ha : a < 2 ^ n) (hb : b < 2 ^ n) (hc : c < 2 ^ n) (hd : d < 2 ^ n) :
    ∑ p : Fin n → Fin 4, edualN B p a b * prepN B p c d = if a = d ∧ b = c then 1 else 0 := by
  simp only [edualN, prepN, ← Finset.prod_mul_distrib]
  rw [sum_prod_pi fun (j : Fin n) i => edual1 B i (a.testBit j) (b.testBit j) * prep1 B i (c.testBit j) (d.testBit j)]
  simp only [edual1_recon]
  have e : ∀ j : Fin n, (if a.testBit j = d.testBit j ∧ b.testBit j = c.testBit j then (1 : ℂ) else 0) =
      (if a.testBit j = d.testBit j then 1 else 0) * if b.testBit j = c.testBit j then 1 else 0 := by
    intro j
    by_cases h1 : a.testBit j = d.testBit j <;> by_cases h2 : b.testBit j = c.testBit j <;> simp [h1, h2]
  simp only [e]
  rw [Finset.prod_mul_distrib, prod_delta a d ha hd, prod_delta b c hb hc]
  by_cases h1 : a = d <;> by_cases h2 : b = c <;> simp [h1, h2]

theorem edualN_sum (B : PrepBasis) {n : ℕ} (a b : ℕ) (ha : a < 2 ^ n) (hb : b < 2 ^ n) : ∑ p : Fin n → Fin 4, edualN B p a b = if a = b then 1 else 0 := by
  simp only [edualN]
  rw [sum_prod_pi fun (j : Fin n) i => edual1 B i (a.testBit j) (b.testBit j)]
  simp only [edual1_sum]
  exact prod_delta a b ha hb

theorem edualN_dual (B : PrepBasis) {n : ℕ} (p k : Fin n → Fin 4) : traceMul (2 ^ n) (prepN B p) (edualN B k) = if p = k then 1 else 0 := by
  have := traceMul_tensor n (fun j => prep1 B (p j)) fun j => edual1 B (k j)
  refine Eq.trans this ?_
  simp only [edual1_dual]
  by_cases h : p = k
  · subst h; simp
  · rw [if_neg h]
    obtain ⟨j, hj⟩ := Function.ne_iff.1 h
    exact Finset.prod_eq_zero (Finset.mem_univ j) (if_neg hj)

theorem edualN_norm (B : PrepBasis) {n : ℕ} (p : Fin n → Fin 4) :
    ∑ a ∈ Finset.range (2 ^ n), ∑ b ∈ Finset.range (2 ^ n), Complex.normSq (edualN B p a b) = B.kappa ^ n := by
  rw [sum_range_bits]
  simp only [sum_range_bits, edualN, testBit_ofBits', map_prod]
  rw [sum_prod_pi2 fun (j : Fin n) x y => Complex.normSq (edual1 B (p j) x y)]
  simp only [edual1_norm, Finset.prod_const, Finset.card_univ, Fintype.card_fin]

/-! ### Preparations and measurements -/

/-- Indices of a tensor product. -/
theorem index_div {d : ℕ} (i a : ℕ) (ha : a < d) : (i * d + a) / d = i ∧ (i * d + a) % d = a :=
  ⟨by rw [Nat.mul_comm, Nat.mul_add_div (by omega), Nat.div_eq_of_lt ha, Nat.add_zero], by rw [Nat.mul_comm, Nat.mul_add_mod, Nat.mod_eq_of_lt ha]⟩

/-- Sums over the indices of a tensor product. -/
theorem sum_tensor {M : Type} [AddCommMonoid M] (n : ℕ) (F : ℕ → M) :
    ∑ k ∈ Finset.range (2 ^ (n + n)), F k = ∑ i ∈ Finset.range (2 ^ n), ∑ a ∈ Finset.range (2 ^ n), F (i * 2 ^ n + a) := by
  rw [Nat.pow_add]
  have : ∀ m, ∑ k ∈ Finset.range (m * 2 ^ n), F k = ∑ b ∈ Finset.range m, ∑ a ∈ Finset.range (2 ^ n), F (b * 2 ^ n + a) := by
    intro m
    induction m with
    | zero => simp
    | succ m ih => rw [Nat.succ_mul, Finset.sum_range_add, ih, Finset.sum_range_succ]
  exact this _

/-- The operator of a preparation and a measurement. -/
noncomputable def opP (B : PrepBasis) {n : ℕ} (p : Fin n → Fin 4) (t : Fin n → Fin 3) (s : Fin n → Bool) : SM :=
  kron (SM.transpose ⟨2 ^ n, prepN B p⟩) (opN t s)

/-- Its dual. -/
noncomputable def dualP (B : PrepBasis) {n : ℕ} (p : Fin n → Fin 4) (t : Fin n → Fin 3) (s : Fin n → Bool) (a b : ℕ) : ℂ :=
  edualN B p (b / 2 ^ n) (a / 2 ^ n) * dualN t s (a % 2 ^ n) (b % 2 ^ n)

theorem opP_dim (B : PrepBasis) {n : ℕ} (p : Fin n → Fin 4) (t : Fin n → Fin 3) (s : Fin n → Bool) : (opP B p t s).dim = 2 ^ (n + n) := by
  rw [Nat.pow_add]; rfl

theorem opP_conj (B : PrepBasis) {n : ℕ} (p : Fin n → Fin 4) (t : Fin n → Fin 3) (s : Fin n → Bool) (a b : ℕ) :
    (starRingEnd ℂ) ((opP B p t s).e a b) = (opP B p t s).e b a := by
  show (starRingEnd ℂ) (prepN B p (b / 2 ^ n) (a / 2 ^ n) * projN t s (a % 2 ^ n) (b % 2 ^ n)) = prepN B p (a / 2 ^ n) (b / 2 ^ n) * projN t s (b % 2 ^ n) (a % 2 ^ n)
  rw [map_mul, prepN_conj]
  congr 1
  rw [projN, projN, map_prod]
  exact Finset.prod_congr rfl fun j _ => conj_projector _ _ _ _

theorem dualP_conj (B : PrepBasis) {n : ℕ} (p : Fin n → Fin 4) (t : Fin n → Fin 3) (s : Fin n → Bool) (a b : ℕ) :
    (starRingEnd ℂ) (dualP B p t s a b) = dualP B p t s b a := by
  unfold dualP
  rw [map_mul, edualN_conj, dualN_conj]

theorem traceMul_opP (B : PrepBasis) {n : ℕ} (p : Fin n → Fin 4) (t : Fin n → Fin 3) (s : Fin n → Bool) (S : ℕ → ℕ → ℕ → ℕ → ℂ) :
    traceMul (2 ^ (n + n)) (opP B p t s).e (choi (2 ^ n) S) = traceMul (2 ^ n) (projN t s) (applyMap (2 ^ n) S (prepN B p)) := by
  rw [Nat.pow_add]
  exact traceMul_kron (2 ^ n) (Nat.two_pow_pos n) ⟨2 ^ n, prepN B p⟩ (opN t s) rfl rfl S

/-- Every matrix is a Choi matrix. -/
theorem eq_choi (d : ℕ) (X : ℕ → ℕ → ℂ) (a b : ℕ) : choi d (fun i j r s => X (i * d + r) (j * d + s)) a b = X a b := by
  unfold choi
  dsimp only
  rw [Nat.div_add_mod', Nat.div_add_mod']

/-- **Reconstruction**. -/
theorem dualP_recon (B : PrepBasis) (n : ℕ) (S : ℕ → ℕ → ℕ → ℕ → ℂ) (a b : ℕ) (ha : a < 2 ^ (n + n)) (hb : b < 2 ^ (n + n)) :
    ∑ p : Fin n → Fin 4, ∑ t : Fin n → Fin 3, ∑ s, dualP B p t s a b * traceMul (2 ^ n) (projN t s) (applyMap (2 ^ n) S (prepN B p)) = choi (2 ^ n) S a b := by
  have hpos := Nat.two_pow_pos n
  rw [Nat.pow_add] at ha hb
  have ha1 := Nat.div_lt_of_lt_mul ha
  have hb1 := Nat.div_lt_of_lt_mul hb
  have ha2 := Nat.mod_lt a hpos
  have hb2 := Nat.mod_lt b hpos
  have e : ∀ p : Fin n → Fin 4, ∑ t : Fin n → Fin 3, ∑ s, dualP B p t s a b * traceMul (2 ^ n) (projN t s) (applyMap (2 ^ n) S (prepN B p)) =
      edualN B p (b / 2 ^ n) (a / 2 ^ n) * applyMap (2 ^ n) S (prepN B p) (a % 2 ^ n) (b % 2 ^ n) := by
    intro p
    rw [← dualN_recon n (applyMap (2 ^ n) S (prepN B p)) _ _ ha2 hb2]
    simp only [Finset.mul_sum, dualP, mul_assoc]
  simp only [e, applyMap, Finset.mul_sum]
  rw [Finset.sum_comm]
  have e2 : ∀ i ∈ Finset.range (2 ^ n), ∑ p : Fin n → Fin 4, ∑ j ∈ Finset.range (2 ^ n),
      edualN B p (b / 2 ^ n) (a / 2 ^ n) * (prepN B p i j * S i j (a % 2 ^ n) (b % 2 ^ n)) =
      ∑ j ∈ Finset.range (2 ^ n), (if b / 2 ^ n = j ∧ a / 2 ^ n = i then 1 else 0) * S i j (a % 2 ^ n) (b % 2 ^ n) := by
    intro i hi
    rw [Finset.sum_comm]
    refine Finset.sum_congr rfl fun j hj => ?_
    rw [← edualN_recon B _ _ _ _ hb1 ha1 (Finset.mem_range.1 hi) (Finset.mem_range.1 hj), Finset.sum_mul]
    exact Finset.sum_congr rfl fun p _ => by ring
  rw [Finset.sum_congr rfl e2, Finset.sum_eq_single (a / 2 ^ n)]
  · rw [Finset.sum_eq_single (b / 2 ^ n)]
    · simp [choi]
    · intro j _ hne
      rw [if_neg (fun h => hne h.1.symm), zero_mul]
    · intro h; exact absurd (Finset.mem_range.2 hb1) h
  · intro i _ hne
    refine Finset.sum_eq_zero fun j _ => ?_
    rw [if_neg (fun h => hne h.2.symm), zero_mul]
  · intro h; exact absurd (Finset.mem_range.2 ha1) h

/-- The matrix whose pairing with an operator gives the entry of the dual. -/
noncomputable def probeP (B : PrepBasis) (n a b : ℕ) : ℕ → ℕ → ℂ :=
  choi (2 ^ n) fun i j r s => (∑ k : Fin n → Fin 4, edualN B k (b / 2 ^ n) (a / 2 ^ n) * edualN B k j i) * probeN n (a % 2 ^ n) (b % 2 ^ n) r s

theorem traceMul_probeP (B : PrepBasis) {n : ℕ} (p : Fin n → Fin 4) (t : Fin n → Fin 3) (s : Fin n → Bool) (a b : ℕ) :
    traceMul (2 ^ (n + n)) (opP B p t s).e (probeP B n a b) = dualP B p t s a b := by
  unfold probeP dualP
  rw [traceMul_opP, ← traceMul_probe]
  have e : applyMap (2 ^ n) (fun i j r s => (∑ k : Fin n → Fin 4, edualN B k (b / 2 ^ n) (a / 2 ^ n) * edualN B k j i) * probeN n (a % 2 ^ n) (b % 2 ^ n) r s) (prepN B p) =
      fun r s => edualN B p (b / 2 ^ n) (a / 2 ^ n) * probeN n (a % 2 ^ n) (b % 2 ^ n) r s := by
    funext r s
    unfold applyMap
    have e1 : ∑ i ∈ Finset.range (2 ^ n), ∑ j ∈ Finset.range (2 ^ n), prepN B p i j *
        ((∑ k : Fin n → Fin 4, edualN B k (b / 2 ^ n) (a / 2 ^ n) * edualN B k j i) * probeN n (a % 2 ^ n) (b % 2 ^ n) r s) =
        (∑ k : Fin n → Fin 4, edualN B k (b / 2 ^ n) (a / 2 ^ n) * traceMul (2 ^ n) (prepN B p) (edualN B k)) * probeN n (a % 2 ^ n) (b % 2 ^ n) r s := by
      simp only [traceMul, Finset.mul_sum, Finset.sum_mul]
      symm
      rw [Finset.sum_comm]
      refine Finset.sum_congr rfl fun i _ => ?_
      symm
      rw [Finset.sum_comm]
      exact Finset.sum_congr rfl fun k _ => Finset.sum_congr rfl fun j _ => by ring
    rw [e1]
    simp only [edualN_dual]
    simp
  rw [e]
  unfold traceMul
  simp only [Finset.mul_sum]
  exact Finset.sum_congr rfl fun i _ => Finset.sum_congr rfl fun j _ => by ring

theorem dualP_norm (B : PrepBasis) {n : ℕ} (p : Fin n → Fin 4) (t : Fin n → Fin 3) (s : Fin n → Bool) :
    ∑ a ∈ Finset.range (2 ^ (n + n)), ∑ b ∈ Finset.range (2 ^ (n + n)), Complex.normSq (dualP B p t s a b) = (B.kappa * (5 / 9)) ^ n := by
  rw [mul_pow, ← edualN_norm B p, ← dualN_norm t s, sum_tensor]
  simp only [sum_tensor]
  have e : ∀ i ∈ Finset.range (2 ^ n), ∀ a ∈ Finset.range (2 ^ n), ∑ j ∈ Finset.range (2 ^ n), ∑ b ∈ Finset.range (2 ^ n),
      Complex.normSq (dualP B p t s (i * 2 ^ n + a) (j * 2 ^ n + b)) =
      (∑ j ∈ Finset.range (2 ^ n), Complex.normSq (edualN B p j i)) * ∑ b ∈ Finset.range (2 ^ n), Complex.normSq (dualN t s a b) := by
    intro i _ a ha
    rw [Finset.sum_mul_sum]
    refine Finset.sum_congr rfl fun j _ => Finset.sum_congr rfl fun b hb => ?_
    have h1 := index_div i a (Finset.mem_range.1 ha)
    have h2 := index_div j b (Finset.mem_range.1 hb)
    simp only [dualP, h1.1, h1.2, h2.1, h2.2, map_mul]
  rw [Finset.sum_congr rfl fun i hi => Finset.sum_congr rfl fun a ha => e i hi a ha]
  simp only [← Finset.mul_sum]
  rw [← Finset.sum_mul, Finset.sum_comm]

/-- The partial trace of the dual over the output. -/
theorem dualP_ptrace (B : PrepBasis) {n : ℕ} (p : Fin n → Fin 4) (t : Fin n → Fin 3) (s : Fin n → Bool) (i j : ℕ) :
    ∑ r ∈ Finset.range (2 ^ n), dualP B p t s (i * 2 ^ n + r) (j * 2 ^ n + r) = edualN B p j i * (1 / 3) ^ n := by
  rw [← dualN_tr t s, tr, Finset.mul_sum]
  refine Finset.sum_congr rfl fun r hr => ?_
  have h1 := index_div i r (Finset.mem_range.1 hr)
  have h2 := index_div j r (Finset.mem_range.1 hr)
  simp only [dualP, h1.1, h1.2, h2.1, h2.2]

end Verif.Tomo
