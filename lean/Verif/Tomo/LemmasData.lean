import Verif.Tomo.Fit
import Verif.Tomo.Spec
import Verif.Counts.Weighted
import Verif.Py.BitStrings
import Mathlib.Data.Nat.Bitwise
/-
What "exact data" means for tomography, stated on the counts dictionaries themselves, and its relation to the arrays of the fitter.
-/
set_option linter.unusedSimpArgs false
set_option linter.unusedVariables false
namespace Verif.Tomo
open Verif Verif.Quantum Verif.Counts

/-! ### Specification -/

/-- Specification: counts of `n` measured bits, no negative entry, at least one shot. -/
def GoodCounts (n : ℕ) (c : Counts) : Prop := OneReg n c ∧ (∀ kv ∈ c, 0 ≤ kv.2) ∧ 0 < total c

instance (n : ℕ) (c : Counts) : Decidable (GoodCounts n c) := by unfold GoodCounts; infer_instance

/-- Specification: the projector of an outcome string `s` (qubit 0 right-most) when qubit `j` is measured in the basis `l[j]`. -/
noncomputable def outcomeProj (n : ℕ) (l : List Str) (s : Str) : ℕ → ℕ → ℂ := fun a b =>
  ∏ j ∈ Finset.range n, pauliProjector (l.getD j []) (charAt s j = some '1') (a.testBit j) (b.testBit j)

/-- Specification: the frequency of every outcome string is its probability. -/
def ExactFreq (n : ℕ) (c : Counts) (prob : Str → ℂ) : Prop :=
  ∀ s, IsBits s → s.length = n → ((c.getD s 0 : ℤ) : ℂ) / ((total c : ℤ) : ℂ) = prob s

/-! ### The arrays -/

theorem charAt_ofBin (s : Str) (hs : IsBits s) (j : ℕ) (hj : j < s.length) : (charAt s j = some '1') ↔ (ofBin s).testBit j = true := by
  induction s using List.reverseRecOn generalizing j with
  | nil => simp at hj
  | append_singleton t c ih =>
    rw [ofBin_append]
    have ht : IsBits t := fun x hx => hs x (by simp [hx])
    have hc : c = '0' ∨ c = '1' := hs c (by simp)
    cases j with
    | zero =>
      have h1 : charAt (t ++ [c]) 0 = some c := by simp [charAt]
      rw [h1, Nat.testBit_zero]
      rcases hc with rfl | rfl
      · simp [bitVal]
      · simp [bitVal]
    | succ j =>
      have hjl : j < t.length := by simpa using hj
      have h1 : charAt (t ++ [c]) (j + 1) = charAt t j := by
        unfold charAt
        rw [List.length_append, List.length_singleton, show t.length + 1 - 1 - (j + 1) = t.length - 1 - j by omega,
          List.getElem?_append_left (by omega)]
      rw [h1, ih ht j hjl, Nat.testBit_add_one, show (2 * ofBin t + bitVal c) / 2 = ofBin t by
        have := bitVal_le c
        omega]

theorem sum_indicator (l : List Str) (hl : l.Nodup) (s : Str) (hs : s ∈ l) (v : ℤ) : (l.map fun k => (if s = k then (1 : ℤ) else 0) * v).sum = v := by
  induction l with
  | nil => simp at hs
  | cons a l ih =>
    rw [List.nodup_cons] at hl
    rw [List.map_cons, List.sum_cons]
    rcases List.mem_cons.1 hs with rfl | h
    · have : (l.map fun k => (if s = k then (1 : ℤ) else 0) * v).sum = 0 := by
        apply List.sum_eq_zero
        intro x hx
        obtain ⟨k, hk, rfl⟩ := List.mem_map.1 hx
        rw [if_neg (show s ≠ k from fun h => hl.1 (h ▸ hk)), zero_mul]
      rw [this]; simp
    · rw [ih hl.2 h, if_neg (show s ≠ a from fun e => hl.1 (e ▸ h))]; simp

theorem sum_getD (n : ℕ) (c : Counts) (h : OneReg n c) : ((bitStrings n).map fun k => c.getD k 0).sum = total c := by
  have e : ((bitStrings n).map fun k => c.getD k 0) = (bitStrings n).map fun k => wsum (fun s => if s = k then 1 else 0) c :=
    List.map_congr_left fun k _ => getD_eq_wsum c h.wf k
  rw [e]
  have hb := h.bits
  have hl := h.len
  clear e h
  induction c with
  | nil => simp [wsum, total]
  | cons p c ih =>
    simp only [wsum_cons]
    rw [List.sum_map_add, ih (fun kv hkv => hb kv (by simp [hkv])) (fun kv hkv => hl kv (by simp [hkv])),
      sum_indicator _ (nodup_bitStrings n) p.1 ((mem_bitStrings n p.1).2 ⟨hb p (by simp), hl p (by simp)⟩)]
    simp [total]

theorem countsArray_eq (n : ℕ) (hn : 0 < n) (c : Counts) : countsArray n c = (bitStrings n).map fun k => c.getD k 0 := by
  unfold countsArray
  rw [countKeys_eq_bitStrings n hn]

theorem countsArray_sum (n : ℕ) (hn : 0 < n) (c : Counts) (h : OneReg n c) : (countsArray n c).sum = total c := by
  rw [countsArray_eq n hn, sum_getD n c h]

theorem countsArray_nonneg (n : ℕ) (c : Counts) (h : ∀ kv ∈ c, 0 ≤ kv.2) : ∀ x ∈ countsArray n c, 0 ≤ x := by
  intro x hx
  obtain ⟨k, hk, rfl⟩ := List.mem_map.1 hx
  clear hk hx
  show 0 ≤ c.getD k 0
  induction c with
  | nil => simp [Dict.getD, Dict.get?]
  | cons p c ih =>
    obtain ⟨a, v⟩ := p
    have := ih fun kv hkv => h kv (by simp [hkv])
    unfold Dict.getD at this ⊢
    rw [Dict.get?_cons]
    split
    · exact h (a, v) (by simp)
    · exact this

theorem bitStrings_getElem (n k : ℕ) (hk : k < (bitStrings n).length) : ofBin (bitStrings n)[k] = k := by
  have h := map_ofBin_bitStrings n
  have : ((bitStrings n).map ofBin)[k]'(by simpa using hk) = k := by simp [h]
  simpa using this

/-- Entry `k` of the fitter's frequencies, from exact data. -/
theorem frequencies_exact (n : ℕ) (hn : 0 < n) (c : Counts) (h : OneReg n c) (l : List Str) (F : (ℕ → ℕ → ℂ) → ℂ)
    (hex : ExactFreq n c fun s => F (outcomeProj n l s)) (k : ℕ) (hk : k < 2 ^ n) (op : ℕ → ℕ → ℂ)
    (hop : ∀ a b, op a b = ∏ j ∈ Finset.range n, pauliProjector (l.getD j []) (k.testBit j) (a.testBit j) (b.testBit j)) :
    (((frequencies (countsArray n c)).getD k 0 : ℝ) : ℂ) = F op := by
  have hk' : k < (bitStrings n).length := by rw [length_bitStrings]; exact hk
  have hm := (mem_bitStrings n _).1 (List.getElem_mem hk')
  have h1 : (frequencies (countsArray n c)).getD k 0 = ((c.getD (bitStrings n)[k] 0 : ℤ) : ℝ) / ((total c : ℤ) : ℝ) := by
    unfold frequencies
    rw [countsArray_sum n hn c h, countsArray_eq n hn, List.map_map, List.getD_eq_getElem _ _ (by simpa using hk')]
    simp
  rw [h1]
  have h2 := hex _ hm.1 hm.2
  push_cast
  rw [h2]
  beta_reduce
  congr 1
  funext a b
  rw [hop]
  unfold outcomeProj
  refine Finset.prod_congr rfl fun j hj => ?_
  rw [Finset.mem_range] at hj
  have := charAt_ofBin _ hm.1 j (by rw [hm.2]; exact hj)
  rw [bitStrings_getElem n k hk'] at this
  congr 1
  rw [Bool.eq_iff_iff, decide_eq_true_iff]
  exact this

end Verif.Tomo
