import Verif.RB.Purity
import Verif.Py.BinLemmas
import Verif.Py.DictLemmas
import Mathlib.Algebra.BigOperators.Fin
import Mathlib.Data.List.GetD
import Mathlib.Tactic.FieldSimp
import Mathlib.Tactic.Ring
import Mathlib.Tactic.IntervalCases
set_option linter.unusedSimpArgs false
set_option linter.unusedVariables false
/-
C80: the purity of purity RB.
-/
namespace Verif.RB.Purity
open Verif

/-- The Pauli letter (1 = X, 2 = Y, 3 = Z) measured for a base-3 digit of the number of the purity circuit: 0 ↦ Z, 1 ↦ X, 2 ↦ Y. -/
def letter (t : ℕ) : ℕ := if t = 0 then 3 else if t = 1 then 1 else 2

theorem lut_eq (a t : ℕ) (ha : a < 2) (ht : t < 3) : lut a t = if a = 0 then 0 else letter t := by
  interval_cases a <;> interval_cases t <;> rfl

/-- C80: the correlator with index set `a` (bits) in the purity circuit `b` (base-3 digits) is the Pauli string with the identity on the
qubits outside `a` and the letter measured by `b` on the qubits in `a`, written in base 4. -/
theorem C80_pauli_index (n a b i : ℕ) (hi : i < n) :
    F234 n a b / 4 ^ i % 4 = if a / 2 ^ i % 2 = 0 then 0 else letter (b / 3 ^ i % 3) := by
  induction n generalizing a b i with
  | zero => omega
  | succ n ih =>
    unfold F234
    have hl : lut (a % 2) (b % 3) < 4 := by
      rw [lut_eq _ _ (Nat.mod_lt _ (by norm_num)) (Nat.mod_lt _ (by norm_num))]
      unfold letter
      split_ifs <;> omega
    cases i with
    | zero =>
      simp only [pow_zero, Nat.div_one]
      rw [← lut_eq _ _ (Nat.mod_lt _ (by norm_num)) (Nat.mod_lt _ (by norm_num))]
      omega
    | succ i =>
      have h4 : (lut (a % 2) (b % 3) + 4 * F234 n (a / 2) (b / 3)) / 4 ^ (i + 1) = F234 n (a / 2) (b / 3) / 4 ^ i := by
        rw [pow_succ, Nat.mul_comm (4 ^ i), ← Nat.div_div_eq_div_mul]
        congr 1
        omega
      rw [h4, ih _ _ i (by omega), pow_succ, Nat.mul_comm (2 ^ i), ← Nat.div_div_eq_div_mul, pow_succ, Nat.mul_comm (3 ^ i), ← Nat.div_div_eq_div_mul]

theorem F234_lt (n a b : ℕ) : F234 n a b < 4 ^ n := by
  induction n generalizing a b with
  | zero => simp [F234]
  | succ n ih =>
    unfold F234
    have h1 := ih (a / 2) (b / 3)
    have hl : lut (a % 2) (b % 3) < 4 := by
      rw [lut_eq _ _ (Nat.mod_lt _ (by norm_num)) (Nat.mod_lt _ (by norm_num))]
      unfold letter
      split_ifs <;> omega
    rw [pow_succ]; omega

/-- C80: every Pauli string is measured by some purity circuit. -/
theorem C80_covered (n c : ℕ) (hc : c < 4 ^ n) : ∃ a < 2 ^ n, ∃ b < 3 ^ n, F234 n a b = c := by
  induction n generalizing c with
  | zero => exact ⟨0, by norm_num, 0, by norm_num, by simp at hc; simp [F234, hc]⟩
  | succ n ih =>
    obtain ⟨a, ha, b, hb, h⟩ := ih (c / 4) (by rw [pow_succ] at hc; omega)
    have hd : ∃ x < 2, ∃ y < 3, lut x y = c % 4 := by
      have : c % 4 < 4 := Nat.mod_lt _ (by norm_num)
      generalize c % 4 = d at *
      interval_cases d
      · exact ⟨0, by norm_num, 0, by norm_num, rfl⟩
      · exact ⟨1, by norm_num, 1, by norm_num, rfl⟩
      · exact ⟨1, by norm_num, 2, by norm_num, rfl⟩
      · exact ⟨1, by norm_num, 0, by norm_num, rfl⟩
    obtain ⟨x, hx, y, hy, hxy⟩ := hd
    refine ⟨2 * a + x, by rw [pow_succ]; omega, 3 * b + y, by rw [pow_succ]; omega, ?_⟩
    unfold F234
    rw [show (2 * a + x) % 2 = x by omega, show (3 * b + y) % 3 = y by omega, show (2 * a + x) / 2 = a by omega, show (3 * b + y) / 3 = b by omega, h, hxy]
    omega

theorem count_binDigits (m n : ℕ) (hm : m < 2 ^ n) : (binDigits m).count '1' = ((List.range n).map fun k => m / 2 ^ k % 2).sum := by
  induction n generalizing m with
  | zero => simp at hm; subst hm; decide
  | succ n ih =>
    have hsplit : ((List.range (n + 1)).map fun k => m / 2 ^ k % 2).sum = m % 2 + ((List.range n).map fun k => m / 2 / 2 ^ k % 2).sum := by
      rw [List.range_succ_eq_map, List.map_cons, List.sum_cons, List.map_map]
      congr 2
      · simp
      · refine List.map_congr_left ?_
        intro k _
        simp only [Function.comp, Nat.succ_eq_add_one]
        rw [pow_succ, Nat.mul_comm, Nat.div_div_eq_div_mul]
    rw [hsplit, ← ih (m / 2) (by rw [pow_succ] at hm; omega)]
    by_cases h : m < 2
    · have : m = 0 ∨ m = 1 := by omega
      rcases this with rfl | rfl <;> decide
    · rw [binDigits_ge m (by omega), List.count_append]
      have : m % 2 = 0 ∨ m % 2 = 1 := by omega
      rcases this with h | h <;> simp [h, Nat.add_comm]

/-- C80: the observable of the index set `i` gives an outcome `j` the sign `(-1)^(number of ones on the qubits in i)`. -/
theorem C80_sign (n i j : ℕ) (hi : i < 2 ^ n) :
    zsign i j = (-1) ^ ((List.range n).map fun k => (i / 2 ^ k % 2) * (j / 2 ^ k % 2)).sum := by
  unfold zsign
  rw [count_binDigits (i &&& j) n (lt_of_le_of_lt Nat.and_le_left hi)]
  have e : ((List.range n).map fun k => (i &&& j) / 2 ^ k % 2) = (List.range n).map fun k => (i / 2 ^ k % 2) * (j / 2 ^ k % 2) := by
    refine List.map_congr_left ?_
    intro k _
    have h : ∀ x : ℕ, x / 2 ^ k % 2 = (x.testBit k).toNat := fun x => by rw [Nat.toNat_testBit]
    rw [h, h, h, Nat.testBit_and]
    cases i.testBit k <;> cases j.testBit k <;> rfl
  rw [e]
  generalize ((List.range n).map fun k => (i / 2 ^ k % 2) * (j / 2 ^ k % 2)).sum = s
  by_cases hs : s % 2 = 0
  · rw [if_neg (by simpa using hs), Even.neg_one_pow (Nat.even_iff.2 hs)]
  · rw [if_pos hs, Odd.neg_one_pow (Nat.odd_iff.2 (by omega))]

/-- Invariant of the accumulation. -/
theorem acc_inv (N : ℕ) (E : ℕ → ℚ) (l : List (ℕ × ℚ)) (hl : ∀ zv ∈ l, zv.1 < N ∧ zv.2 = E zv.1) (st : List ℚ × List ℕ)
    (h1 : st.1.length = N) (h2 : st.2.length = N) (hinv : ∀ z < N, st.1.getD z 0 = (st.2.getD z 0 : ℕ) * E z) :
    let r := l.foldl accStep st
    r.1.length = N ∧ r.2.length = N ∧ (∀ z < N, r.1.getD z 0 = (r.2.getD z 0 : ℕ) * E z) ∧
      (∀ z < N, st.2.getD z 0 ≤ r.2.getD z 0) ∧ ∀ zv ∈ l, 0 < r.2.getD zv.1 0 := by
  induction l generalizing st with
  | nil => exact ⟨h1, h2, hinv, fun z _ => le_refl _, by simp⟩
  | cons a l ih =>
    obtain ⟨ha1, ha2⟩ := hl a (by simp)
    have gq : ∀ z < N, (accStep st a).1.getD z 0 = st.1.getD z 0 + if a.1 = z then a.2 else 0 := by
      intro z hz
      unfold accStep
      rw [List.getD_eq_getElem _ _ (by simp [h1, hz]), List.getD_eq_getElem _ _ (by rw [h1]; exact hz), List.getElem_modify]
      split_ifs <;> simp
    have gn : ∀ z < N, (accStep st a).2.getD z 0 = st.2.getD z 0 + if a.1 = z then 1 else 0 := by
      intro z hz
      unfold accStep
      rw [List.getD_eq_getElem _ _ (by simp [h2, hz]), List.getD_eq_getElem _ _ (by rw [h2]; exact hz), List.getElem_modify]
      split_ifs <;> simp
    obtain ⟨i1, i2, i3, i4, i5⟩ := ih (fun x hx => hl x (by simp [hx])) (accStep st a) (by simp [accStep, h1]) (by simp [accStep, h2]) (by
      intro z hz
      rw [gq z hz, gn z hz, hinv z hz]
      by_cases he : a.1 = z
      · simp only [he, if_true]; rw [ha2, he]; push_cast; ring
      · simp [he])
    refine ⟨i1, i2, i3, ?_, ?_⟩
    · intro z hz
      have := i4 z hz
      rw [gn z hz] at this
      simp only [List.foldl_cons]
      omega
    · intro zv hzv
      simp only [List.foldl_cons]
      rcases List.mem_cons.1 hzv with rfl | hzv
      · have := i4 zv.1 ha1
        rw [gn _ ha1, if_pos rfl] at this
        omega
      · exact i5 zv hzv

/-- C80: if every measured correlator is the expectation value `E` of its Pauli string, the purity reported with all `3^n` circuits is
`2^-n` times the sum of the squares of the expectation values of all `4^n` Pauli strings, however often a string was measured. -/
theorem C80_purity (n : ℕ) (E : ℕ → ℚ) (zcorr : ℕ → ℕ → ℚ) (h : ∀ pur < 3 ^ n, ∀ ind < 2 ^ n, zcorr pur ind = E (F234 n ind pur)) :
    purityOf n (3 ^ n) zcorr = some (((List.range (4 ^ n)).map fun c => E c ^ 2).sum / 2 ^ n) := by
  have key := acc_inv (4 ^ n) E ((List.range (3 ^ n)).flatMap fun pur => (List.range (2 ^ n)).map fun ind => (F234 n ind pur, zcorr pur ind)) (by
      intro zv hzv
      obtain ⟨pur, hp, hzv⟩ := List.mem_flatMap.1 hzv
      obtain ⟨ind, hi, rfl⟩ := List.mem_map.1 hzv
      exact ⟨F234_lt _ _ _, h pur (List.mem_range.1 hp) ind (List.mem_range.1 hi)⟩)
    (List.replicate (4 ^ n) 0, List.replicate (4 ^ n) 0) (by simp) (by simp) (by intro z hz; simp [List.getD_eq_getElem?_getD, List.getElem?_replicate, hz])
  obtain ⟨k1, k2, k3, -, k5⟩ := key
  change (accumulate n (3 ^ n) zcorr).1.length = _ at k1
  change (accumulate n (3 ^ n) zcorr).2.length = _ at k2
  have k3' : ∀ z < 4 ^ n, (accumulate n (3 ^ n) zcorr).1.getD z 0 = ((accumulate n (3 ^ n) zcorr).2.getD z 0 : ℕ) * E z := k3
  have hpos : ∀ z < 4 ^ n, 0 < (accumulate n (3 ^ n) zcorr).2.getD z 0 := by
    intro z hz
    obtain ⟨a, ha, b, hb, rfl⟩ := C80_covered n z hz
    exact k5 (F234 n a b, zcorr b a) (List.mem_flatMap.2 ⟨b, List.mem_range.2 hb, List.mem_map.2 ⟨a, List.mem_range.2 ha, rfl⟩⟩)
  unfold purityOf
  simp only []
  rw [if_neg]
  · congr 2
    congr 1
    refine List.ext_getElem (by simp [k1, k2]) ?_
    intro z hz1 hz2
    have hz : z < 4 ^ n := by simpa using hz2
    simp only [List.getElem_map, List.getElem_zip, List.getElem_range]
    have e1 := k3' z hz
    have e2 := hpos z hz
    rw [List.getD_eq_getElem _ _ (by rw [k1]; exact hz), List.getD_eq_getElem _ _ (by rw [k2]; exact hz)] at e1
    rw [List.getD_eq_getElem _ _ (by rw [k2]; exact hz)] at e2
    rw [e1, mul_div_assoc, mul_comm, div_mul_cancel₀ _ (by exact_mod_cast e2.ne')]
  · intro hmem
    obtain ⟨z, hz, he⟩ := List.getElem_of_mem hmem
    have := hpos z (by rw [← k2]; exact hz)
    rw [List.getD_eq_getElem _ _ hz, he] at this
    exact lt_irrefl _ this

/-- One qubit in the state |0⟩ (expectation values 1, 0, 0, 1): purity one. -/
example : purityOf 1 (3 ^ 1) (fun pur ind => [1, 0, 0, 1].getD (F234 1 ind pur) 0) = some 1 := by
  rw [C80_purity 1 (fun c => [1, 0, 0, 1].getD c 0) _ (fun _ _ _ _ => rfl)]
  decide +kernel

/-- With fewer circuits than `3^n` some Pauli string is never measured and the computation raises. -/
example : purityOf 1 2 (fun _ _ => 1) = none := by decide +kernel

/-- C80: the average of an observable dictionary over counts of `n`-bit outcomes is the mean of the signs. -/
theorem C80_average (n : ℕ) (hn : 1 ≤ n) (i : ℕ) (hi : i < 2 ^ n) (counts : Dict Str ℤ) (hb : ∀ kv ∈ counts, IsBits kv.1 ∧ kv.1.length = n) :
    averageData counts (zdict n i) = (counts.map fun kv => (kv.2 : ℚ) * (zsign i (ofBin kv.1) : ℤ)).sum / ((counts.map (·.2)).sum : ℤ) := by
  unfold averageData
  congr 2
  refine List.map_congr_left ?_
  intro kv hkv
  obtain ⟨h1, h2⟩ := hb kv hkv
  have hget : (zdict n i).getD kv.1 0 = zsign i (ofBin kv.1) := by
    unfold Dict.getD
    rw [Dict.get?_of_mem (zdict n i) ?_ kv.1 (zsign i (ofBin kv.1)) ?_]
    · rfl
    · unfold Dict.WF zdict
      rw [List.map_map]
      refine List.Nodup.map_on ?_ List.nodup_range
      intro x _ y _ h
      have := congrArg ofBin h
      simpa [ofBin_zfill, ofBin_binDigits] using this
    · unfold zdict
      refine List.mem_map.2 ⟨ofBin kv.1, List.mem_range.2 (by rw [← h2]; exact ofBin_lt _), ?_⟩
      rw [← h2, zfill_binDigits _ h1 (by omega)]
  rw [hget]
  push_cast
  ring

end Verif.RB.Purity
