import Verif.Ent.Analysis
import Verif.Quantum.Gates
import Mathlib.Algebra.Order.BigOperators.Group.List
import Mathlib.Analysis.Matrix.PosDef
import Mathlib.Algebra.Field.GeomSum
set_option linter.unusedSimpArgs false
set_option linter.unusedVariables false
/-
C66: the expectation value of Z ⊗ … ⊗ Z.  C90: the fidelity of a density matrix.  C91: the Fourier analysis.
-/
namespace Verif.Ent
open Verif

/-! ### C66 -/

section Z
variable {K : Type} [Field K]

/-- The sign of an outcome: −1 for an odd number of ones. -/
def sign (s : Str) : K := (-1) ^ s.count '1'

theorem compositeZ_succ (n : ℕ) (hn : 1 ≤ n) : (compositeZ (n + 1) : ℕ → ℕ → K) = kron2 (compositeZ n) sigmaZ := by
  unfold compositeZ
  rw [show n + 1 - 1 = (n - 1) + 1 by omega, List.range'_concat, List.foldl_append]
  rfl

theorem sigma_bit (c : Char) (h : c = '0' ∨ c = '1') : sigmaZ (bitVal c) (bitVal c) = (sign [c] : K) := by
  rcases h with rfl | rfl <;> simp [sigmaZ, bitVal, sign]

theorem compositeZ_diag (s : Str) (hs : IsBits s) (h1 : 1 ≤ s.length) : compositeZ s.length (ofBin s) (ofBin s) = (sign s : K) := by
  induction s using List.reverseRecOn with
  | nil => simp at h1
  | append_singleton t c ih =>
    have hc : c = '0' ∨ c = '1' := hs c (by simp)
    rw [List.length_append, List.length_singleton, ofBin_append]
    have hb := bitVal_le c
    by_cases ht : t.length = 0
    · have : t = [] := List.length_eq_zero_iff.1 ht
      subst this
      simp only [ofBin_nil, Nat.mul_zero, Nat.zero_add, List.nil_append, List.length_nil]
      exact sigma_bit c hc
    · rw [compositeZ_succ _ (by omega)]
      unfold kron2
      rw [show (2 * ofBin t + bitVal c) / 2 = ofBin t by omega, show (2 * ofBin t + bitVal c) % 2 = bitVal c by omega,
        ih (fun x hx => hs x (by simp [hx])) (by omega), sigma_bit c hc]
      unfold sign
      rw [List.count_append, pow_add]

theorem sum_getD (d : Dict Str K) (hd : Dict.WF d) (L : List Str) (hL : L.Nodup) (w : Str → K) :
    (L.map fun s => d.getD s 0 * w s).sum = ((d.filter fun kv => decide (kv.1 ∈ L)).map fun kv => kv.2 * w kv.1).sum := by
  induction d with
  | nil => simp [Dict.getD]
  | cons kv d ih =>
    obtain ⟨k, v⟩ := kv
    unfold Dict.WF at hd
    rw [List.map_cons, List.nodup_cons] at hd
    have hk : Dict.getD d k 0 = 0 := by
      unfold Dict.getD; rw [(Dict.get?_eq_none_iff d k).2 hd.1]; rfl
    have e : ∀ s, Dict.getD ((k, v) :: d) s 0 = (if k = s then v else 0) + Dict.getD d s 0 := by
      intro s
      unfold Dict.getD
      rw [Dict.get?_cons]
      by_cases h : k = s
      · subst h
        rw [if_pos rfl, if_pos rfl]
        unfold Dict.getD at hk
        rw [hk]; simp
      · rw [if_neg h, if_neg h]; simp
    have hsum : ∀ M : List Str, M.Nodup → (M.map fun s => (if k = s then v else 0) * w s).sum = if k ∈ M then v * w k else 0 := by
      intro M hM
      induction M with
      | nil => simp
      | cons a M ihM =>
        rw [List.nodup_cons] at hM
        rw [List.map_cons, List.sum_cons, ihM hM.2]
        by_cases h : k = a
        · subst h; simp [hM.1]
        · simp [h]
    simp only [e, add_mul]
    rw [List.sum_map_add, ih hd.2, hsum L hL]
    by_cases h : k ∈ L
    · rw [if_pos h, List.filter_cons_of_pos (by simpa using h), List.map_cons, List.sum_cons]
    · rw [if_neg h, List.filter_cons_of_neg (by simpa using h), zero_add]

/-- The outcomes of `n` qubits. -/
def Outcome (n : ℕ) (s : Str) : Prop := IsBits s ∧ s.length = n

instance (n : ℕ) (s : Str) : Decidable (Outcome n s) := by unfold Outcome IsBits; infer_instance

/-- **C66**: the value is the sum of the counts of the `n`-bit outcomes with sign −1 for an odd number of ones; keys of any other
form are ignored. -/
theorem C66_value (counts : Dict Str K) (hd : Dict.WF counts) (n : ℕ) (hn : 1 ≤ n) :
    zExpvalue counts n = some ((counts.filter fun kv => decide (Outcome n kv.1)).map fun kv => kv.2 * sign kv.1).sum := by
  unfold zExpvalue orderedList
  rw [max_eq_left hn]
  simp only [List.length_map, if_true, Option.some.injEq]
  rw [List.zipWith_map, List.zipWith_self]
  have h2 : (List.map (fun a => counts.getD (zfill n (binDigits a)) 0 * compositeZ n a a) (List.range (2 ^ n))) =
      (bitStrings n).map fun s => counts.getD s 0 * sign s := by
    rw [← map_ofBin_bitStrings, List.map_map]
    apply List.map_congr_left
    intro s hs
    obtain ⟨h1, h2⟩ := (mem_bitStrings n s).1 hs
    simp only [Function.comp]
    rw [← h2, zfill_binDigits s h1 (by omega), compositeZ_diag s h1 (by omega)]
  rw [h2, sum_getD counts hd _ (nodup_bitStrings n)]
  congr 2
  apply List.filter_congr
  intro kv _
  apply decide_eq_decide.2
  rw [mem_bitStrings]; rfl

/-- **C66** (all the keys are outcomes of `n` qubits). -/
theorem C66_all (counts : Dict Str K) (hd : Dict.WF counts) (n : ℕ) (hn : 1 ≤ n) (hk : ∀ kv ∈ counts, Outcome n kv.1) :
    zExpvalue counts n = some (counts.map fun kv => kv.2 * sign kv.1).sum := by
  rw [C66_value counts hd n hn, List.filter_eq_self.2]
  intro kv h
  simpa using hk kv h

theorem sign_cases (s : Str) : (sign s : K) = 1 ∨ (sign s : K) = -1 := neg_one_pow_eq_or K _

/-- **C66** (bound): for counts that are not negative the value lies between minus and plus the total. -/
theorem C66_bound [LinearOrder K] [IsStrictOrderedRing K] (counts : Dict Str K) (hd : Dict.WF counts) (n : ℕ) (hn : 1 ≤ n)
    (hv : ∀ kv ∈ counts, 0 ≤ kv.2) : ∃ v, zExpvalue counts n = some v ∧ |v| ≤ (counts.map (·.2)).sum := by
  refine ⟨_, C66_value counts hd n hn, ?_⟩
  clear hd
  induction counts with
  | nil => simp
  | cons kv d ih =>
    have h1 := ih fun x hx => hv x (by simp [hx])
    have h2 := hv kv (by simp)
    rw [List.map_cons, List.sum_cons]
    by_cases h : Outcome n kv.1
    · rw [List.filter_cons_of_pos (by simpa using h), List.map_cons, List.sum_cons]
      refine (abs_add_le _ _).trans (add_le_add ?_ h1)
      rcases sign_cases (K := K) kv.1 with e | e <;> rw [e] <;> simp [abs_of_nonneg h2]
    · rw [List.filter_cons_of_neg (by simpa using h)]
      linarith

/-- **C66** (the extreme values): all the shots in outcomes with an even number of ones give the total. -/
theorem C66_even (counts : Dict Str K) (hd : Dict.WF counts) (n : ℕ) (hn : 1 ≤ n) (hk : ∀ kv ∈ counts, Outcome n kv.1)
    (he : ∀ kv ∈ counts, Even (kv.1.count '1')) : zExpvalue counts n = some (counts.map (·.2)).sum := by
  rw [C66_all counts hd n hn hk]
  congr 2
  apply List.map_congr_left
  intro kv h
  unfold sign
  rw [(he kv h).neg_one_pow, mul_one]

/-- **C66** (finding): keys with a space between registers, as Qiskit writes them, are ignored; and for no qubits an exception. -/
theorem C66_finding_registers : zExpvalue [(['0', ' ', '1'], (100 : ℚ))] 2 = some 0 ∧ zExpvalue [(['0'], (100 : ℚ))] 0 = none := by
  constructor <;> decide +kernel

example : zExpvalue [(['0', '0'], (50 : ℚ)), (['1', '1'], 30), (['0', '1'], 20)] 2 = some 60 ∧
    Dict.WF [(['0', '0'], (50 : ℚ)), (['1', '1'], 30), (['0', '1'], 20)] ∧
    ∀ kv ∈ [(['0', '0'], (50 : ℚ)), (['1', '1'], 30), (['0', '1'], 20)], Outcome 2 kv.1 := by
  refine ⟨by decide +kernel, by unfold Dict.WF; decide +kernel, by decide +kernel⟩

end Z

/-! ### C90 -/

open Complex Quantum ComplexOrder

/-- The GHZ state with a phase, (|0…0⟩ + e^{iφ} |1…1⟩)/√2, in a space of dimension `d + 1`: the first and the last basis state. -/
noncomputable def ghzVec (d : ℕ) (φ : ℝ) : Fin (d + 1) → ℂ := fun i =>
  if i = 0 then rt else if i = Fin.last d then rt * exp (φ * I) else 0

/-- ⟨ψ|ρ|ψ⟩. -/
noncomputable def fid {d : ℕ} (rho : Matrix (Fin (d + 1)) (Fin (d + 1)) ℂ) (v : Fin (d + 1) → ℂ) : ℝ :=
  (star v ⬝ᵥ rho.mulVec v).re

theorem fid_ghz {d : ℕ} (hd : 1 ≤ d) (rho : Matrix (Fin (d + 1)) (Fin (d + 1)) ℂ) (hh : rho.IsHermitian) (φ : ℝ) :
    fid rho (ghzVec d φ) = ((rho 0 0).re + (rho (Fin.last d) (Fin.last d)).re) / 2 + (exp (φ * I) * rho 0 (Fin.last d)).re := by
  have hne : (Fin.last d) ≠ (0 : Fin (d + 1)) := by
    intro h; have := congrArg Fin.val h; simp at this; omega
  have hv : ghzVec d φ = Pi.single 0 rt + Pi.single (Fin.last d) (rt * exp (φ * I)) := by
    funext i
    unfold ghzVec
    by_cases h0 : i = 0
    · subst h0; simp [Pi.single_apply, hne.symm]
    · by_cases h1 : i = Fin.last d
      · subst h1; simp [Pi.single_apply, hne]
      · simp [Pi.single_apply, h0, h1]
  have hrr : starRingEnd ℂ rt = rt := by unfold rt; exact Complex.conj_ofReal _
  have hN0 : rho (Fin.last d) 0 = starRingEnd ℂ (rho 0 (Fin.last d)) := (hh.apply 0 (Fin.last d)).symm ▸ by simp
  have hee : starRingEnd ℂ (exp (φ * I)) * exp (φ * I) = 1 := by
    rw [← Complex.exp_conj, ← Complex.exp_add]; simp
  unfold fid
  have key : star (ghzVec d φ) ⬝ᵥ rho.mulVec (ghzVec d φ) =
      (rho 0 0 + rho (Fin.last d) (Fin.last d) + (exp (φ * I) * rho 0 (Fin.last d) + starRingEnd ℂ (exp (φ * I) * rho 0 (Fin.last d)))) / 2 := by
    rw [hv, Matrix.mulVec_add, star_add, Pi.star_single, Pi.star_single, add_dotProduct, single_dotProduct, single_dotProduct]
    simp only [Pi.add_apply, Matrix.mulVec_single, Matrix.col_apply, Pi.smul_apply, MulOpposite.smul_eq_mul_unop, MulOpposite.unop_op,
      star_mul', Complex.star_def, hrr, hN0, map_mul]
    linear_combination (rho 0 0 + rho 0 (Fin.last d) * exp (φ * I) + starRingEnd ℂ (exp (φ * I)) * starRingEnd ℂ (rho 0 (Fin.last d)) +
      starRingEnd ℂ (exp (φ * I)) * exp (φ * I) * rho (Fin.last d) (Fin.last d)) * rt_sq + (rho (Fin.last d) (Fin.last d) / 2) * hee
  rw [key]
  rw [Complex.add_conj]
  generalize (exp (φ * I) * rho 0 (Fin.last d)).re = t
  simp
  ring

/-- **C90**: for a density matrix (Hermitian, positive) the returned number is the largest fidelity with a state
(|0…0⟩ + e^{iφ}|1…1⟩)/√2. -/
theorem C90_fidelity {d : ℕ} (hd : 1 ≤ d) (rho : Matrix (Fin (d + 1)) (Fin (d + 1)) ℂ) (hpos : rho.PosSemidef) :
    (∀ φ, fid rho (ghzVec d φ) ≤ rhoToFidelity rho) ∧ ∃ φ, fid rho (ghzVec d φ) = rhoToFidelity rho := by
  have hh := hpos.isHermitian
  have hdiag : ∀ i, 0 ≤ (rho i i).re ∧ (rho i i).im = 0 := by
    intro i
    have := hpos.diag_nonneg (i := i)
    rw [Complex.le_def] at this
    exact ⟨this.1, this.2.symm⟩
  have hval : rhoToFidelity rho = ((rho 0 0).re + (rho (Fin.last d) (Fin.last d)).re) / 2 + ‖rho 0 (Fin.last d)‖ := by
    unfold rhoToFidelity
    have hN0 : ‖rho (Fin.last d) 0‖ = ‖rho 0 (Fin.last d)‖ := by
      rw [← hh.apply 0 (Fin.last d)]; simp
    have e0 : rho 0 0 = ((rho 0 0).re : ℂ) := Complex.ext rfl (hdiag 0).2
    have e1 : rho (Fin.last d) (Fin.last d) = ((rho (Fin.last d) (Fin.last d)).re : ℂ) := Complex.ext rfl (hdiag _).2
    rw [hN0, e0, e1]
    have : (((rho 0 0).re : ℂ) + ((rho (Fin.last d) (Fin.last d)).re : ℂ) + (‖rho 0 (Fin.last d)‖ : ℂ) + (‖rho 0 (Fin.last d)‖ : ℂ)) / 2 =
        ((((rho 0 0).re + (rho (Fin.last d) (Fin.last d)).re) / 2 + ‖rho 0 (Fin.last d)‖ : ℝ) : ℂ) := by
      push_cast; ring
    rw [this, Complex.norm_real, Real.norm_eq_abs, abs_of_nonneg]
    · simp
    · have := (hdiag 0).1
      have := (hdiag (Fin.last d)).1
      positivity
  rw [hval]
  constructor
  · intro φ
    rw [fid_ghz hd rho hh]
    have : (exp (φ * I) * rho 0 (Fin.last d)).re ≤ ‖rho 0 (Fin.last d)‖ := by
      refine (Complex.re_le_norm _).trans ?_
      rw [norm_mul, Complex.norm_exp_ofReal_mul_I, one_mul]
    linarith
  · refine ⟨-(rho 0 (Fin.last d)).arg, ?_⟩
    rw [fid_ghz hd rho hh]
    congr 1
    conv_lhs => rw [← Complex.norm_mul_exp_arg_mul_I (rho 0 (Fin.last d))]
    rw [mul_left_comm, ← Complex.exp_add]
    simp

/-- A GHZ state with any phase on two qubits is a positive matrix of fidelity 1. -/
example (φ : ℝ) : (Matrix.vecMulVec (ghzVec 3 φ) (star (ghzVec 3 φ))).PosSemidef ∧
    rhoToFidelity (Matrix.vecMulVec (ghzVec 3 φ) (star (ghzVec 3 φ))) = 1 := by
  refine ⟨Matrix.posSemidef_vecMulVec_self_star _, ?_⟩
  have hrr : starRingEnd ℂ rt = rt := by unfold rt; exact Complex.conj_ofReal _
  have hn : ‖rt‖ * ‖rt‖ = 1 / 2 := by rw [← norm_mul, rt_sq]; simp
  have hl : (Fin.last 3 : Fin 4) ≠ 0 := by decide
  have hee : starRingEnd ℂ (exp (φ * I)) * exp (φ * I) = 1 := by
    rw [← Complex.exp_conj, ← Complex.exp_add]; simp
  simp only [rhoToFidelity, Matrix.vecMulVec_apply, ghzVec, Pi.star_apply, if_true, hl, if_false, Complex.star_def, map_mul, hrr, norm_mul,
    Complex.norm_exp_ofReal_mul_I, Complex.norm_conj, mul_one, hn]
  have e : rt * exp (φ * I) * (rt * starRingEnd ℂ (exp (φ * I))) = 1 / 2 := by
    linear_combination (exp (φ * I) * starRingEnd ℂ (exp (φ * I))) * rt_sq + (1 / 2) * hee
  rw [e, rt_sq]
  norm_num

/-! ### C91 -/

theorem sum_root (N : ℕ) (hN : 1 ≤ N) (j : ℤ) :
    (1 / N : ℂ) * ∑ k ∈ Finset.range N, exp (2 * Real.pi * I * (j * k / N)) = if (N : ℤ) ∣ j then 1 else 0 := by
  have hN0 : (N : ℂ) ≠ 0 := by exact_mod_cast (by omega : N ≠ 0)
  have hpow : ∀ k : ℕ, exp (2 * Real.pi * I * (j * k / N)) = exp (2 * Real.pi * I * (j / N)) ^ k := by
    intro k
    rw [← Complex.exp_nat_mul]
    congr 1; ring
  simp only [hpow]
  split
  · rename_i h
    obtain ⟨m, rfl⟩ := h
    have : exp (2 * Real.pi * I * (((N * m : ℤ) : ℂ) / N)) = 1 := by
      rw [Complex.exp_eq_one_iff]
      refine ⟨m, ?_⟩
      push_cast
      field_simp
    rw [this]
    simp
    field_simp
  · rename_i h
    have hne : exp (2 * Real.pi * I * (j / N)) ≠ 1 := by
      intro he
      rw [Complex.exp_eq_one_iff] at he
      obtain ⟨m, hm⟩ := he
      apply h
      refine ⟨m, ?_⟩
      have hpi : (2 * Real.pi * I : ℂ) ≠ 0 := by
        simp [Real.pi_ne_zero]
      have h2 : (2 * Real.pi * I : ℂ) * (j / N) = 2 * Real.pi * I * m := by rw [hm]; ring
      have h3 := mul_left_cancel₀ hpi h2
      rw [div_eq_iff hN0] at h3
      have : (j : ℂ) = ((N * m : ℤ) : ℂ) := by rw [h3]; push_cast; ring
      exact_mod_cast this
    rw [geom_sum_eq hne]
    have : exp (2 * Real.pi * I * (j / N)) ^ N = 1 := by
      rw [← Complex.exp_nat_mul, Complex.exp_eq_one_iff]
      exact ⟨j, by field_simp⟩
    rw [this]
    simp

/-- A trigonometric polynomial Σ c_j e^{i j x}. -/
noncomputable def trig (J : Finset ℤ) (c : ℤ → ℂ) (x : ℝ) : ℂ := ∑ j ∈ J, c j * exp (j * x * I)

/-- The phases at which the circuits are run: 2πk/N. -/
noncomputable def phase (N k : ℕ) : ℝ := 2 * Real.pi * k / N

/-- **C91** (Fourier coefficients): for the signal of any trigonometric polynomial sampled at the phases 2πk/N, entry `m` of the
transform is the sum of the coefficients whose frequency is congruent to `m` modulo `N`. -/
theorem C91_fourier (N : ℕ) (hN : 1 ≤ N) (J : Finset ℤ) (c : ℤ → ℂ) (m : ℕ) :
    fft N (fun k => trig J c (phase N k)) m = ∑ j ∈ J, if (N : ℤ) ∣ j - m then c j else 0 := by
  have hN0 : (N : ℂ) ≠ 0 := by exact_mod_cast (by omega : N ≠ 0)
  unfold fft trig phase
  simp only [Finset.sum_mul]
  rw [Finset.sum_comm, Finset.mul_sum]
  apply Finset.sum_congr rfl
  intro j _
  have h : ∀ k : ℕ, c j * exp (j * ((2 * Real.pi * k / N : ℝ) : ℂ) * I) * exp (-(2 * Real.pi * I * (m * k / N))) =
      c j * exp (2 * Real.pi * I * (((j - m : ℤ) : ℂ) * k / N)) := by
    intro k
    rw [mul_assoc, ← Complex.exp_add]
    congr 2
    push_cast
    ring
  simp only [h]
  rw [← Finset.mul_sum, mul_left_comm, sum_root N hN]
  split <;> simp

/-- **C91** (no aliasing): when the frequencies are smaller than N/2, entry `n` is the coefficient of frequency `n`. -/
theorem C91_coefficient (N : ℕ) (J : Finset ℤ) (c : ℤ → ℂ) (n : ℕ) (hJ : ∀ j ∈ J, 2 * |j| < N) (hn : 2 * n < N) (hc : ∀ j ∉ J, c j = 0) :
    fft N (fun k => trig J c (phase N k)) n = c n := by
  rw [C91_fourier N (by omega)]
  by_cases hm : (n : ℤ) ∈ J
  · rw [Finset.sum_eq_single_of_mem (n : ℤ) hm]
    · simp
    · intro j hj hne
      rw [if_neg]
      intro hdvd
      have h1 := hJ j hj
      have h2 : |j - n| < N := by
        have := abs_sub j (n : ℤ)
        rw [show |(n : ℤ)| = n from abs_of_nonneg (by omega)] at this
        omega
      have := Int.eq_zero_of_abs_lt_dvd hdvd h2
      omega
  · rw [hc n hm]
    apply Finset.sum_eq_zero
    intro j hj
    rw [if_neg]
    intro hdvd
    have h1 := hJ j hj
    have h2 : |j - n| < N := by
      have := abs_sub j (n : ℤ)
      rw [show |(n : ℤ)| = n from abs_of_nonneg (by omega)] at this
      omega
    have := Int.eq_zero_of_abs_lt_dvd hdvd h2
    have : j = n := by omega
    exact hm (this ▸ hj)

/-- The noise-free MQC signal (C65). -/
noncomputable def mqcIdeal (N n : ℕ) (k : ℕ) : ℂ := (((1 + Real.cos (n * phase N k)) / 2 : ℝ) : ℂ)

/-- The noise-free parity signal (C65). -/
noncomputable def poIdeal (N n : ℕ) (k : ℕ) : ℂ := (((-1) ^ n * Real.cos (n * phase N k) : ℝ) : ℂ)

theorem cos_trig (n : ℕ) (x : ℝ) : ((Real.cos (n * x) : ℝ) : ℂ) = (exp (((n : ℤ) : ℂ) * x * I) + exp (((-(n : ℤ) : ℤ) : ℂ) * x * I)) / 2 := by
  push_cast
  rw [Complex.cos]
  congr 2
  congr 1
  ring

theorem mqcIdeal_trig (N n : ℕ) (hn : 1 ≤ n) :
    mqcIdeal N n = fun k => trig {0, (n : ℤ), -(n : ℤ)} (fun j => if j = 0 then 1 / 2 else if j = n ∨ j = -n then 1 / 4 else 0) (phase N k) := by
  funext k
  have h1 : (0 : ℤ) ∉ ({(n : ℤ), -(n : ℤ)} : Finset ℤ) := by simp; omega
  have h2 : (n : ℤ) ∉ ({-(n : ℤ)} : Finset ℤ) := by simp; omega
  unfold trig mqcIdeal
  rw [Finset.sum_insert h1, Finset.sum_insert h2, Finset.sum_singleton]
  have e1 : ((n : ℤ)) ≠ 0 := by omega
  have e2 : (-(n : ℤ)) ≠ 0 := by omega
  beta_reduce
  rw [if_pos rfl, if_neg e1, if_neg e2, if_pos (Or.inl rfl), if_pos (Or.inr rfl)]
  have := cos_trig n (phase N k)
  push_cast at this ⊢
  rw [this]
  simp
  ring

theorem poIdeal_trig (N n : ℕ) (hn : 1 ≤ n) :
    poIdeal N n = fun k => trig {(n : ℤ), -(n : ℤ)} (fun j => if j = n ∨ j = -n then (-1) ^ n / 2 else 0) (phase N k) := by
  funext k
  have h2 : (n : ℤ) ∉ ({-(n : ℤ)} : Finset ℤ) := by simp; omega
  unfold trig poIdeal
  rw [Finset.sum_insert h2, Finset.sum_singleton]
  beta_reduce
  rw [if_pos (Or.inl rfl), if_pos (Or.inr rfl)]
  have := cos_trig n (phase N k)
  push_cast at this ⊢
  rw [this]
  ring

/-- **C91** (MQC): the noise-free signal with populations ½ and ½ gives fidelity 1, and both bounds are 1. -/
theorem C91_mqc (N n : ℕ) (hn : 1 ≤ n) (hN : 2 * n < N) :
    ∃ info, infoMqc N n (mqcIdeal N n) (mqcIdeal N n) ⟨1 / 2, 1 / 2, 1 / 2, 1 / 2⟩ = some info ∧
      info.F = 1 ∧ info.Fm = 1 ∧ info.LB = 1 ∧ info.UB = 1 ∧ info.LBm = 1 ∧ info.UBm = 1 := by
  have hJ : ∀ j ∈ ({0, (n : ℤ), -(n : ℤ)} : Finset ℤ), 2 * |j| < N := by
    intro j hj
    simp only [Finset.mem_insert, Finset.mem_singleton] at hj
    rcases hj with rfl | rfl | rfl
    · simp; omega
    · rw [abs_of_nonneg (by omega)]; omega
    · rw [abs_neg, abs_of_nonneg (by omega)]; omega
  have hc : ∀ j ∉ ({0, (n : ℤ), -(n : ℤ)} : Finset ℤ), (fun j : ℤ => if j = 0 then (1 / 2 : ℂ) else if j = n ∨ j = -n then 1 / 4 else 0) j = 0 := by
    intro j hj
    simp only [Finset.mem_insert, Finset.mem_singleton, not_or] at hj
    simp [hj.1, hj.2.1, hj.2.2]
  have h0 : fft N (mqcIdeal N n) 0 = 1 / 2 := by
    rw [mqcIdeal_trig N n hn, C91_coefficient N _ _ 0 hJ (by omega) hc]
    simp
  have h1 : fft N (mqcIdeal N n) n = 1 / 4 := by
    rw [mqcIdeal_trig N n hn, C91_coefficient N _ _ n hJ (by omega) hc]
    have : ((n : ℤ)) ≠ 0 := by omega
    simp [show n ≠ 0 by omega]
  have hs : Real.sqrt ‖(1 / 4 : ℂ)‖ = 1 / 2 := by
    rw [show ‖(1 / 4 : ℂ)‖ = (1 / 2) ^ 2 by norm_num]
    exact Real.sqrt_sq (by norm_num)
  have hs0 : Real.sqrt (‖(1 / 2 : ℂ)‖ / 2) = 1 / 2 := by
    rw [show ‖(1 / 2 : ℂ)‖ / 2 = (1 / 2) ^ 2 by norm_num]
    exact Real.sqrt_sq (by norm_num)
  unfold infoMqc
  rw [if_pos (by omega)]
  refine ⟨_, rfl, ?_⟩
  simp only [h0, h1, hs, hs0]
  norm_num

/-- **C91** (parity oscillations): the noise-free signal with populations ½ and ½ gives fidelity 1. -/
theorem C91_po (N n : ℕ) (hn : 1 ≤ n) (hN : 2 * n < N) :
    infoPo N n (poIdeal N n) (poIdeal N n) ⟨1 / 2, 1 / 2, 1 / 2, 1 / 2⟩ = some (1, 1) := by
  have hJ : ∀ j ∈ ({(n : ℤ), -(n : ℤ)} : Finset ℤ), 2 * |j| < N := by
    intro j hj
    simp only [Finset.mem_insert, Finset.mem_singleton] at hj
    rcases hj with rfl | rfl
    · rw [abs_of_nonneg (by omega)]; omega
    · rw [abs_neg, abs_of_nonneg (by omega)]; omega
  have hc : ∀ j ∉ ({(n : ℤ), -(n : ℤ)} : Finset ℤ), (fun j : ℤ => if j = n ∨ j = -n then ((-1) ^ n / 2 : ℂ) else 0) j = 0 := by
    intro j hj
    simp only [Finset.mem_insert, Finset.mem_singleton, not_or] at hj
    simp [hj.1, hj.2]
  have h1 : ‖fft N (poIdeal N n) n‖ = 1 / 2 := by
    rw [poIdeal_trig N n hn, C91_coefficient N _ _ n hJ (by omega) hc]
    simp
  unfold infoPo
  rw [if_pos (by omega)]
  simp only [h1]
  norm_num

/-- **C91** (finding): the raw fidelity of the MQC analysis does not depend on the raw populations: it uses the mitigated ones. -/
theorem C91_finding_raw (N n : ℕ) (hn : 1 ≤ n) (hN : 2 * n < N) :
    ∃ info, infoMqc N n (mqcIdeal N n) (mqcIdeal N n) ⟨0, 0, 1 / 2, 1 / 2⟩ = some info ∧ info.F = 1 ∧ info.Fm = 1 := by
  obtain ⟨info, h1, h2, h2m, -⟩ := C91_mqc N n hn hN
  unfold infoMqc at h1 ⊢
  rw [if_pos (by omega)] at h1 ⊢
  refine ⟨_, rfl, ?_⟩
  have h3 := Option.some.inj h1
  rw [← h3] at h2 h2m
  exact ⟨h2, h2m⟩

/-- **C91** (finding): with N = 2n phases the two frequencies ±n fall together and the parity analysis of the noise-free signal
returns the fidelity 3/2. -/
theorem C91_finding_aliasing (n : ℕ) (hn : 1 ≤ n) :
    infoPo (2 * n) n (poIdeal (2 * n) n) (poIdeal (2 * n) n) ⟨1 / 2, 1 / 2, 1 / 2, 1 / 2⟩ = some (3 / 2, 3 / 2) := by
  have h2 : (n : ℤ) ∉ ({-(n : ℤ)} : Finset ℤ) := by simp; omega
  have h1 : ‖fft (2 * n) (poIdeal (2 * n) n) n‖ = 1 := by
    rw [poIdeal_trig (2 * n) n hn, C91_fourier (2 * n) (by omega), Finset.sum_insert h2, Finset.sum_singleton]
    have hd1 : ((2 * n : ℕ) : ℤ) ∣ (n : ℤ) - (n : ℕ) := by simp
    have hd2 : ((2 * n : ℕ) : ℤ) ∣ -(n : ℤ) - (n : ℕ) := ⟨-1, by push_cast; ring⟩
    rw [if_pos hd1, if_pos hd2, if_pos (Or.inl rfl), if_pos (Or.inr rfl), ← mul_two, norm_mul, norm_div]
    simp
  unfold infoPo
  rw [if_pos (by omega)]
  simp only [h1]
  norm_num

end Verif.Ent
