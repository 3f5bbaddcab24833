import Verif.Tomo.LemmasData
import Verif.Counts.Lemmas
import Verif.Py.SplitLemmas
import Mathlib.Algebra.Order.BigOperators.Group.List
import Mathlib.Tactic.Linarith
import Mathlib.Tactic.FieldSimp
import Mathlib.Tactic.Positivity
/-
C53: the weights of the tomography data.
-/
set_option linter.unusedSectionVars false
set_option linter.unusedSimpArgs false
set_option linter.unusedVariables false
namespace Verif.Tomo
open Verif Verif.Counts

/-- An entry of a list of nonnegative numbers is at most the sum, and strictly less if another entry is positive. -/
theorem le_sum_of_nonneg {l : List ℝ} (hnn : ∀ c ∈ l, 0 ≤ c) {c : ℝ} (hc : c ∈ l) : c ≤ l.sum :=
  List.single_le_sum hnn c hc

/-- The hedged frequency of one count lies strictly between 0 and 1 when the hedging parameter is positive. -/
theorem hedged_pos {l : List ℝ} (hnn : ∀ c ∈ l, 0 ≤ c) (h2 : 2 ≤ l.length) {beta : ℝ} (hb : 0 < beta) {c : ℝ} (hc : c ∈ l) :
    0 < (c + beta) / (l.sum + l.length * beta) ∧ (c + beta) / (l.sum + l.length * beta) < 1 := by
  have h0 := hnn c hc
  have hle := le_sum_of_nonneg hnn hc
  have h2' : (2 : ℝ) ≤ l.length := by exact_mod_cast h2
  have : 2 * beta ≤ l.length * beta := mul_le_mul_of_nonneg_right h2' hb.le
  have hd : 0 < l.sum + l.length * beta := by linarith
  refine ⟨div_pos (by linarith) hd, ?_⟩
  rw [div_lt_one hd]; linarith

/-- **C53**.  For counts of two or more outcomes with at least one shot and any nonnegative hedging parameter the weights are those
of the documentation, `sqrt(shots / (p (1 - p)))` with `p` strictly between 0 and 1 — so they are finite and positive.  For a positive
parameter `p` is the documented `(count + beta) / (shots + K beta)`. -/
theorem C53_weights (counts : List ℝ) (hnn : ∀ c ∈ counts, 0 ≤ c) (hs : 0 < counts.sum) (h2 : 2 ≤ counts.length) (beta : ℝ)
    (hb : 0 ≤ beta) :
    ∃ ws, binomialWeights counts beta = some ws ∧ ws.length = counts.length ∧
      ∀ i (hi : i < counts.length) (hw : i < ws.length), ∃ p, 0 < p ∧ p < 1 ∧ ws[i] = √(counts.sum / (p * (1 - p))) ∧ 0 < ws[i] ∧
        (0 < beta → p = (counts[i] + beta) / (counts.sum + counts.length * beta)) ∧
        (beta = 0 → 0 ∉ counts → counts.sum ∉ counts → p = counts[i] / counts.sum) := by
  refine ⟨_, by unfold binomialWeights; rw [if_neg (not_lt.2 hb)], by simp [hedged], ?_⟩
  intro i hi hw
  have hc : counts[i] ∈ counts := List.getElem_mem hi
  have main : ∀ p : ℝ, 0 < p → p < 1 → 0 < √(counts.sum / (p * (1 - p))) := fun p h0 h1 =>
    Real.sqrt_pos.2 (div_pos hs (mul_pos h0 (by linarith)))
  have hp : 0 < (counts[i] + effectiveBeta counts beta) / (counts.sum + counts.length * effectiveBeta counts beta) ∧
      (counts[i] + effectiveBeta counts beta) / (counts.sum + counts.length * effectiveBeta counts beta) < 1 := by
    unfold effectiveBeta
    by_cases hcase : beta = 0 ∧ (counts.sum ∈ counts ∨ 0 ∈ counts)
    · rw [if_pos hcase]
      exact hedged_pos hnn h2 (by norm_num) hc
    · rw [if_neg hcase]
      rcases hb.lt_or_eq with hb' | hb'
      · exact hedged_pos hnn h2 hb' hc
      · subst hb'
        simp only [true_and, not_or] at hcase
        rw [add_zero, mul_zero, add_zero]
        have h0 : counts[i] ≠ 0 := fun h => hcase.2 (h ▸ hc)
        have h1 : counts[i] ≠ counts.sum := fun h => hcase.1 (h ▸ hc)
        refine ⟨div_pos (lt_of_le_of_ne (hnn _ hc) h0.symm) hs, ?_⟩
        rw [div_lt_one hs]
        exact lt_of_le_of_ne (le_sum_of_nonneg hnn hc) h1
  refine ⟨_, hp.1, hp.2, by simp [hedged], ?_, ?_, ?_⟩
  · simp only [hedged, List.map_map, List.getElem_map, Function.comp_apply]
    exact main _ hp.1 hp.2
  · intro hb'
    rw [show effectiveBeta counts beta = beta from if_neg fun h => hb'.ne' h.1]
  · intro hb' h0 h1
    rw [show effectiveBeta counts beta = 0 from by rw [effectiveBeta, if_neg (by rintro ⟨_, h | h⟩; exacts [h1 h, h0 h]), hb']]
    rw [add_zero, mul_zero, add_zero]

/-- **C53** (rejection): a negative hedging parameter is refused. -/
theorem C53_rejects (counts : List ℝ) (beta : ℝ) (h : beta < 0) : binomialWeights counts beta = none := if_pos h

/-- Finding: for a counts dictionary the weights are computed over the outcomes that occur (`pad_zeros=True` has no effect), so with a
single observed outcome the hedged frequency is exactly 1 and the weight is a division by zero. -/
theorem C53_finding_single_outcome (beta : ℝ) (hb : 0 < beta) :
    weightCounts [("0".toList, 10)] = some [10] ∧ hedged [10] beta = [1] := by
  refine ⟨?_, ?_⟩
  · have : marginalCounts [("0".toList, 10)] none true = some [("0".toList, 10)] := by decide +kernel
    unfold weightCounts
    rw [this]
    rfl
  · simp only [hedged, List.map_cons, List.map_nil, List.sum_cons, List.sum_nil, List.length_cons, List.length_nil]
    have h : (10 : ℝ) + beta ≠ 0 := by linarith
    rw [show (10 : ℝ) + 0 + ((0 + 1 : ℕ) : ℝ) * beta = 10 + beta by push_cast; ring, div_self h]

example : ∃ ws, binomialWeights [10, 0, 0, 6] 0 = some ws ∧ ws.length = 4 := by
  obtain ⟨ws, h, e, _⟩ := C53_weights [10, 0, 0, 6] (by intro c hc; simp at hc; rcases hc with rfl | rfl | rfl <;> norm_num)
    (by norm_num) (by norm_num) 0 le_rfl
  exact ⟨ws, h, e⟩

/-! ### In the fitter -/

/-- The number of measured qubits of a label. -/
def keyLen : Key → ℕ
  | .state l => l.length
  | .process _ m => m.length

theorem length_countsArray (n : ℕ) (c : Counts) : (countsArray n c).length = 2 ^ n := by simp [countsArray, length_countKeys]

theorem sum_cast (l : List ℤ) : (l.map fun (c : ℤ) => (c : ℝ)).sum = ((l.sum : ℤ) : ℝ) := by
  induction l with
  | nil => simp
  | cons a l ih => rw [List.map_cons, List.sum_cons, List.sum_cons, ih]; push_cast; ring

/-- **C53** (data).  With counts of at least one shot for every label on one or more qubits, the weights handed to the solver are one
positive number per outcome of every label; without `standard_weights` there are none. -/
theorem C53_fitter (standard : Bool) (beta : ℝ) (hb : 0 ≤ beta) (data : Dict Key Counts) (n : ℕ) (hn : 0 < n) (hne : data ≠ [])
    (hk : ∀ kv ∈ data, keyLen kv.1 = n) (hc : ∀ kv ∈ data, GoodCounts n kv.2) :
    ∃ ws, fitterWeights standard beta data = some ws ∧ (standard = false → ws = none) ∧
      (standard = true → ∃ l, ws = some l ∧ l.length = data.length * 2 ^ n ∧ ∀ w ∈ l, 0 < w) := by
  have h2 : 2 ≤ 2 ^ n := by
    calc 2 = 2 ^ 1 := rfl
      _ ≤ 2 ^ n := Nat.pow_le_pow_right (by norm_num) hn
  have each : ∀ kv ∈ data, ∃ ws, binomialWeights ((countsArray n kv.2).map fun (c : ℤ) => (c : ℝ)) beta = some ws ∧
      ws.length = 2 ^ n ∧ ∀ w ∈ ws, 0 < w := by
    intro kv hkv
    obtain ⟨hr, h0', hs'⟩ := hc kv hkv
    have h0 := countsArray_nonneg n kv.2 h0'
    have hs : 0 < (countsArray n kv.2).sum := by rw [countsArray_sum n hn kv.2 hr]; exact hs'
    obtain ⟨ws, e, hl, h⟩ := C53_weights ((countsArray n kv.2).map fun (c : ℤ) => (c : ℝ))
      (by intro c hc; obtain ⟨x, hx, rfl⟩ := List.mem_map.1 hc; exact_mod_cast h0 x hx)
      (by rw [sum_cast]; exact_mod_cast hs)
      (by rw [List.length_map, length_countsArray]; exact h2) beta hb
    refine ⟨ws, e, by rw [hl, List.length_map, length_countsArray], ?_⟩
    intro w hw
    obtain ⟨i, hi, rfl⟩ := List.mem_iff_getElem.1 hw
    obtain ⟨p, _, _, _, hpos, _⟩ := h i (by rw [← hl]; exact hi) hi
    exact hpos
  have hwt : ∀ kv ∈ data, binomialWeights ((countsArray n kv.2).map fun (c : ℤ) => (c : ℝ)) beta =
      some ((binomialWeights ((countsArray n kv.2).map fun (c : ℤ) => (c : ℝ)) beta).getD []) := by
    intro kv hkv
    obtain ⟨ws, e, _⟩ := each kv hkv
    rw [e]; rfl
  have hmap := mapM_eq_some data (fun kv : Key × Counts => binomialWeights ((countsArray n kv.2).map fun (c : ℤ) => (c : ℝ)) beta) _ hwt
  have hfold : ∀ d : List (Key × Counts), (∀ kv ∈ d, kv ∈ data) →
      ((d.map fun kv => (binomialWeights ((countsArray n kv.2).map fun (c : ℤ) => (c : ℝ)) beta).getD []).flatten).length =
        d.length * 2 ^ n ∧
      ∀ w ∈ (d.map fun kv => (binomialWeights ((countsArray n kv.2).map fun (c : ℤ) => (c : ℝ)) beta).getD []).flatten, 0 < w := by
    intro d
    induction d with
    | nil => intro _; simp
    | cons kv d ih =>
      intro hd
      obtain ⟨i1, i2⟩ := ih fun x hx => hd x (by simp [hx])
      obtain ⟨ws, e, hl, hp⟩ := each kv (hd kv (by simp))
      simp only [List.map_cons, List.flatten_cons, List.length_append, e, Option.getD_some, hl, i1, List.length_cons, List.mem_append]
      refine ⟨by ring, ?_⟩
      rintro w (hw | hw)
      · exact hp w hw
      · exact i2 w hw
  cases data with
  | nil => exact absurd rfl hne
  | cons kv rest =>
    obtain ⟨k0, c0⟩ := kv
    have hn0 := hk (k0, c0) (by simp)
    have hunf : fitterWeights standard beta ((k0, c0) :: rest) = if standard then
        (List.mapM (fun kv : Key × Counts => binomialWeights ((countsArray n kv.2).map fun (c : ℤ) => (c : ℝ)) beta) ((k0, c0) :: rest)).bind
          (fun ws => some (some ws.flatten)) else some none := by
      subst hn0
      cases k0 <;> rfl
    rw [hunf]
    cases standard
    · exact ⟨none, rfl, fun _ => rfl, fun h => absurd h (by decide)⟩
    · rw [if_pos rfl, hmap, Option.bind_some]
      exact ⟨_, rfl, fun h => absurd h (by decide), fun _ => ⟨_, rfl, hfold _ fun _ h => h⟩⟩

example : GoodCounts 1 [("0".toList, 3), ("1".toList, 1)] := by decide +kernel

end Verif.Tomo
