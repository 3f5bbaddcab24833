import Verif.Tomo.Fit
import Mathlib.Algebra.Order.Field.Basic
import Mathlib.Algebra.Order.BigOperators.Ring.Finset
import Mathlib.Tactic.Linarith
import Mathlib.Tactic.FieldSimp
import Mathlib.Tactic.Positivity
/-
The eigenvalue rescaling of `make_positive_semidefinite`.
-/
set_option linter.unusedSectionVars false
set_option linter.unusedSimpArgs false
set_option linter.unusedVariables false
namespace Verif.Tomo

variable {K : Type} [Field K] [LinearOrder K] [IsStrictOrderedRing K]

/-- The eigenvalues after the first `j` steps. -/
def wizardTo (dim : ℕ) (v : ℕ → K) (j : ℕ) : ℕ → K := (List.range j).foldl (wizardStep dim 0) v

theorem wizardTo_succ (dim : ℕ) (v : ℕ → K) (j : ℕ) : wizardTo dim v (j + 1) = wizardStep dim 0 (wizardTo dim v j) j := by
  unfold wizardTo
  rw [List.range_succ, List.foldl_append]; rfl

/-- The invariant: the first `m` values are zero and were below `-τ`, all the others are shifted by `τ`; either the loop is still
setting values to zero (`m = j`), or it has met a non-negative value. -/
structure WInv (dim : ℕ) (v : ℕ → K) (j m : ℕ) (τ : K) : Prop where
  mj : m ≤ j
  low : ∀ k < m, wizardTo dim v j k = 0 ∧ v k + τ < 0
  high : ∀ k, m ≤ k → k < dim → wizardTo dim v j k = v k + τ
  stop : m < j → 0 ≤ v m + τ
  sum : m < dim → ∑ k ∈ Finset.Ico m dim, (v k + τ) = ∑ k ∈ Finset.range dim, v k
  neg : m = dim → 0 < dim → ∑ k ∈ Finset.range dim, v k < 0
  tau : τ ≤ 0

theorem wizard_inv (dim : ℕ) (v : ℕ → K) (hv : ∀ i k, i ≤ k → k < dim → v i ≤ v k) (j : ℕ) (hj : j ≤ dim) :
    ∃ m τ, WInv dim v j m τ := by
  induction j with
  | zero =>
    refine ⟨0, 0, le_rfl, by simp, ?_, by simp, ?_, ?_, le_rfl⟩
    · intro k _ _; simp [wizardTo]
    · intro _; simp
    · intro h h'; omega
  | succ j ih =>
    obtain ⟨m, τ, h⟩ := ih (by omega)
    have hjd : j < dim := by omega
    rw [show (∃ m τ, WInv dim v (j + 1) m τ) ↔ _ from Iff.rfl]
    by_cases hm : m < j
    · -- already stopped
      have hpos : 0 ≤ v j + τ := le_trans (h.stop hm) (by linarith [hv m j (by omega) hjd])
      have hval : wizardTo dim v j j = v j + τ := h.high j (by omega) hjd
      have e : wizardTo dim v (j + 1) = wizardTo dim v j := by
        rw [wizardTo_succ]; unfold wizardStep
        rw [if_neg (by rw [hval]; exact not_lt.2 hpos)]
      refine ⟨m, τ, by omega, ?_, ?_, fun _ => h.stop hm, h.sum, h.neg, h.tau⟩
      · rw [e]; exact h.low
      · rw [e]; exact h.high
    · have hmj : m = j := le_antisymm h.mj (by omega)
      subst hmj
      have hval : wizardTo dim v m m = v m + τ := h.high m le_rfl hjd
      by_cases hneg : v m + τ < 0
      · -- set to zero
        have hs := h.sum hjd
        have hico : ∑ k ∈ Finset.Ico m dim, (v k + τ) = (v m + τ) + ∑ k ∈ Finset.Ico (m + 1) dim, (v k + τ) := by
          rw [Finset.sum_eq_sum_Ico_succ_bot hjd]
        by_cases hlast : m + 1 < dim
        · have hd : (0 : K) < (dim : K) - ((m : K) + 1) := by
            have : ((m + 1 : ℕ) : K) < dim := by exact_mod_cast hlast
            push_cast at this; linarith
          have hδ : (v m + τ) / ((dim : K) - ((m : K) + 1)) < 0 := div_neg_of_neg_of_pos hneg hd
          refine ⟨m + 1, τ + (v m + τ) / ((dim : K) - ((m : K) + 1)), le_rfl, ?_, ?_, by omega, ?_, by omega, by linarith [h.tau]⟩
          · intro k hk
            rw [wizardTo_succ]; unfold wizardStep
            rw [if_pos (by rw [hval]; exact hneg)]
            by_cases hkm : k = m
            · subst hkm
              simp only [if_true]
              exact ⟨trivial, by linarith⟩
            · have hk' : k < m := by omega
              rw [if_neg hkm, if_neg (by omega)]
              exact ⟨(h.low k hk').1, by linarith [(h.low k hk').2]⟩
          · intro k hk hkd
            rw [wizardTo_succ]; unfold wizardStep
            rw [if_pos (by rw [hval]; exact hneg), if_neg (by omega), if_pos (by omega), hval, h.high k (by omega) hkd]
            ring
          · intro _
            rw [← hs, hico]
            have : ∀ k, v k + (τ + (v m + τ) / ((dim : K) - ((m : K) + 1))) =
                (v k + τ) + (v m + τ) / ((dim : K) - ((m : K) + 1)) := fun k => by ring
            simp only [this]
            rw [Finset.sum_add_distrib, Finset.sum_const, Nat.card_Ico, nsmul_eq_mul]
            have hc : ((dim - (m + 1) : ℕ) : K) = (dim : K) - ((m : K) + 1) := by
              rw [Nat.cast_sub (by omega)]; push_cast; ring
            rw [hc, mul_div_cancel₀ _ (ne_of_gt hd)]; ring
        · have hmd : m + 1 = dim := by omega
          refine ⟨m + 1, τ, le_rfl, ?_, by omega, by omega, by omega, ?_, h.tau⟩
          · intro k hk
            rw [wizardTo_succ]; unfold wizardStep
            rw [if_pos (by rw [hval]; exact hneg)]
            by_cases hkm : k = m
            · subst hkm
              simp only [if_true]
              exact ⟨trivial, hneg⟩
            · have hk' : k < m := by omega
              rw [if_neg hkm, if_neg (by omega)]
              exact h.low k hk'
          · intro _ _
            rw [← hs, hico, hmd]; simpa using hneg
      · -- stop here
        have e : wizardTo dim v (m + 1) = wizardTo dim v m := by
          rw [wizardTo_succ]; unfold wizardStep
          rw [if_neg (by rw [hval]; exact hneg)]
        refine ⟨m, τ, by omega, ?_, ?_, fun _ => not_lt.1 hneg, h.sum, h.neg, h.tau⟩
        · rw [e]; exact h.low
        · rw [e]; exact h.high

/-- The result: zeros below `m`, a common shift above. -/
theorem wizard_spec (dim : ℕ) (v : ℕ → K) (hv : ∀ i k, i ≤ k → k < dim → v i ≤ v k) :
    ∃ m τ, m ≤ dim ∧ (∀ k < m, wizard dim 0 v k = 0 ∧ v k + τ < 0) ∧
      (∀ k, m ≤ k → k < dim → wizard dim 0 v k = v k + τ ∧ 0 ≤ v k + τ) ∧
      (m < dim → ∑ k ∈ Finset.range dim, wizard dim 0 v k = ∑ k ∈ Finset.range dim, v k) ∧
      (m = dim → 0 < dim → ∑ k ∈ Finset.range dim, v k < 0) ∧ τ ≤ 0 := by
  obtain ⟨m, τ, h⟩ := wizard_inv dim v hv dim le_rfl
  refine ⟨m, τ, h.mj, h.low, ?_, ?_, h.neg, h.tau⟩
  · intro k hk hkd
    refine ⟨h.high k hk hkd, ?_⟩
    have := h.stop (by omega)
    linarith [hv m k hk hkd]
  · intro hm
    rw [← h.sum hm, Finset.range_eq_Ico, ← Finset.sum_Ico_consecutive _ (Nat.zero_le m) h.mj]
    rw [Finset.sum_eq_zero (s := Finset.Ico 0 m), zero_add]
    · exact Finset.sum_congr rfl fun k hk => h.high k (Finset.mem_Ico.1 hk).1 (Finset.mem_Ico.1 hk).2
    · intro k hk; exact (h.low k (Finset.mem_Ico.1 hk).2).1

theorem wizard_nonneg (dim : ℕ) (v : ℕ → K) (hv : ∀ i k, i ≤ k → k < dim → v i ≤ v k) (k : ℕ) (hk : k < dim) :
    0 ≤ wizard dim 0 v k := by
  obtain ⟨m, τ, h1, h2, h3, _⟩ := wizard_spec dim v hv
  by_cases hkm : k < m
  · rw [(h2 k hkm).1]
  · rw [(h3 k (by omega) hk).1]; exact (h3 k (by omega) hk).2

theorem wizard_mono (dim : ℕ) (v : ℕ → K) (hv : ∀ i k, i ≤ k → k < dim → v i ≤ v k) (i k : ℕ) (hik : i ≤ k) (hk : k < dim) :
    wizard dim 0 v i ≤ wizard dim 0 v k := by
  obtain ⟨m, τ, h1, h2, h3, _⟩ := wizard_spec dim v hv
  by_cases him : i < m
  · rw [(h2 i him).1]; exact wizard_nonneg dim v hv k hk
  · rw [(h3 i (by omega) (by omega)).1, (h3 k (by omega) hk).1]; linarith [hv i k hik hk]

theorem wizard_sum (dim : ℕ) (v : ℕ → K) (hv : ∀ i k, i ≤ k → k < dim → v i ≤ v k) (ht : 0 ≤ ∑ k ∈ Finset.range dim, v k) :
    ∑ k ∈ Finset.range dim, wizard dim 0 v k = ∑ k ∈ Finset.range dim, v k := by
  obtain ⟨m, τ, h1, h2, h3, h4, h5, _⟩ := wizard_spec dim v hv
  rcases Nat.lt_or_ge m dim with hm | hm
  · exact h4 hm
  · rcases Nat.eq_zero_or_pos dim with hd | hd
    · subst hd; simp
    · exact absurd (h5 (by omega) hd) (not_lt.2 ht)

/-- A negative trace gives the zero spectrum. -/
theorem wizard_zero (dim : ℕ) (v : ℕ → K) (hv : ∀ i k, i ≤ k → k < dim → v i ≤ v k) (ht : ∑ k ∈ Finset.range dim, v k < 0) (k : ℕ)
    (hk : k < dim) : wizard dim 0 v k = 0 := by
  obtain ⟨m, τ, h1, h2, h3, h4, h5, _⟩ := wizard_spec dim v hv
  rcases Nat.lt_or_ge m dim with hm | hm
  · have := h4 hm
    have hn : 0 ≤ ∑ k ∈ Finset.range dim, wizard dim 0 v k :=
      Finset.sum_nonneg fun k hk => wizard_nonneg dim v hv k (Finset.mem_range.1 hk)
    rw [this] at hn
    exact absurd ht (not_lt.2 hn)
  · exact (h2 k (by omega)).1

theorem wizard_id (dim : ℕ) (v : ℕ → K) (h0 : ∀ k < dim, 0 ≤ v k) : wizard dim 0 v = v := by
  have : ∀ j ≤ dim, wizardTo dim v j = v := by
    intro j hj
    induction j with
    | zero => rfl
    | succ j ih =>
      rw [wizardTo_succ, ih (by omega)]
      unfold wizardStep
      rw [if_neg (not_lt.2 (h0 j (by omega)))]
  exact this dim le_rfl

/-- The result is the closest non-negative spectrum with the same sum. -/
theorem wizard_closest (dim : ℕ) (v : ℕ → K) (hv : ∀ i k, i ≤ k → k < dim → v i ≤ v k) (ht : 0 ≤ ∑ k ∈ Finset.range dim, v k)
    (w : ℕ → K) (hw : ∀ k < dim, 0 ≤ w k) (hs : ∑ k ∈ Finset.range dim, w k = ∑ k ∈ Finset.range dim, v k) :
    ∑ k ∈ Finset.range dim, (wizard dim 0 v k - v k) ^ 2 ≤ ∑ k ∈ Finset.range dim, (w k - v k) ^ 2 := by
  have hsum := wizard_sum dim v hv ht
  obtain ⟨m, τ, h1, h2, h3, _⟩ := wizard_spec dim v hv
  have key : ∀ k ∈ Finset.range dim, (wizard dim 0 v k - v k) ^ 2 + 2 * τ * (w k - wizard dim 0 v k) ≤ (w k - v k) ^ 2 := by
    intro k hk
    have hk' := Finset.mem_range.1 hk
    by_cases hkm : k < m
    · obtain ⟨e, hlt⟩ := h2 k hkm
      rw [e]
      have := hw k hk'
      nlinarith [mul_nonneg this (le_of_lt (neg_pos.2 hlt)), sq_nonneg (w k)]
    · obtain ⟨e, _⟩ := h3 k (by omega) hk'
      rw [e]
      nlinarith [sq_nonneg (w k - (v k + τ))]
  have := Finset.sum_le_sum key
  rw [Finset.sum_add_distrib, ← Finset.mul_sum, Finset.sum_sub_distrib, hs, hsum, sub_self, mul_zero, add_zero] at this
  exact this

end Verif.Tomo
