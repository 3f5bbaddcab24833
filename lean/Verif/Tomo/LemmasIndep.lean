import Mathlib.Data.Complex.BigOperators
import Mathlib.Algebra.BigOperators.Ring.Finset
import Mathlib.Data.Fintype.BigOperators
import Mathlib.Data.Fintype.Prod
import Mathlib.Tactic.LinearCombination
import Mathlib.Tactic.Linarith
/-
Mean and variance of sums of independent complex random variables over finite sets.
-/
namespace Verif.Tomo

variable {ι κ : Type} [Fintype ι] [DecidableEq ι] [Fintype κ]

theorem indep_sum_one (p : ι → κ → ℝ) (hp : ∀ i, ∑ k, p i k = 1) : ∑ ω : ι → κ, ∏ i, p i (ω i) = 1 := by
  have := Finset.prod_univ_sum (fun _ : ι => (Finset.univ : Finset κ)) p
  rw [Fintype.piFinset_univ] at this
  rw [← this]
  exact Finset.prod_eq_one fun i _ => hp i

theorem indep_pair (p : ι → κ → ℝ) (hp : ∀ i, ∑ k, p i k = 1) (i j : ι) (hij : i ≠ j) (A B : κ → ℂ) :
    ∑ ω : ι → κ, (((∏ l, p l (ω l) : ℝ)) : ℂ) * (A (ω i) * B (ω j)) = (∑ k, (p i k : ℂ) * A k) * ∑ k, (p j k : ℂ) * B k := by
  have := Finset.prod_univ_sum (fun _ : ι => (Finset.univ : Finset κ)) fun l k => (p l k : ℂ) * ((if l = i then A k else 1) * if l = j then B k else 1)
  rw [Fintype.piFinset_univ] at this
  have e1 : ∀ ω : ι → κ, (((∏ l, p l (ω l) : ℝ)) : ℂ) * (A (ω i) * B (ω j)) =
      ∏ l, ((p l (ω l) : ℂ) * ((if l = i then A (ω l) else 1) * if l = j then B (ω l) else 1)) := by
    intro ω
    rw [Finset.prod_mul_distrib, Finset.prod_mul_distrib, Finset.prod_ite_eq' Finset.univ i fun l => A (ω l),
      Finset.prod_ite_eq' Finset.univ j fun l => B (ω l)]
    simp
  simp only [e1]
  rw [← this, ← Finset.mul_prod_erase _ _ (Finset.mem_univ i), ← Finset.mul_prod_erase _ _ (Finset.mem_erase.2 ⟨hij.symm, Finset.mem_univ j⟩),
    Finset.prod_eq_one (s := (Finset.univ.erase i).erase j)]
  · simp [hij, hij.symm]
  · intro l hl
    have h1 := (Finset.mem_erase.1 hl).1
    have h2 := (Finset.mem_erase.1 (Finset.mem_erase.1 hl).2).1
    simp only [if_neg h1, if_neg h2, mul_one]
    rw [← Complex.ofReal_sum, hp]; simp

theorem indep_mean (p : ι → κ → ℝ) (hp : ∀ i, ∑ k, p i k = 1) (i : ι) (A : κ → ℂ) :
    ∑ ω : ι → κ, (((∏ l, p l (ω l) : ℝ)) : ℂ) * A (ω i) = ∑ k, (p i k : ℂ) * A k := by
  have := Finset.prod_univ_sum (fun _ : ι => (Finset.univ : Finset κ)) fun l k => (p l k : ℂ) * (if l = i then A k else 1)
  rw [Fintype.piFinset_univ] at this
  have e1 : ∀ ω : ι → κ, (((∏ l, p l (ω l) : ℝ)) : ℂ) * A (ω i) = ∏ l, ((p l (ω l) : ℂ) * (if l = i then A (ω l) else 1)) := by
    intro ω
    rw [Finset.prod_mul_distrib, Finset.prod_ite_eq' Finset.univ i fun l => A (ω l)]
    simp
  simp only [e1]
  rw [← this, ← Finset.mul_prod_erase _ _ (Finset.mem_univ i), Finset.prod_eq_one (s := Finset.univ.erase i)]
  · simp
  · intro l hl
    simp only [if_neg (Finset.mem_erase.1 hl).1, mul_one]
    rw [← Complex.ofReal_sum, hp]; simp

/-- The mean of a sum. -/
theorem indep_mean_sum (p : ι → κ → ℝ) (hp : ∀ i, ∑ k, p i k = 1) (Y : ι → κ → ℂ) :
    ∑ ω : ι → κ, (((∏ l, p l (ω l) : ℝ)) : ℂ) * ∑ i, Y i (ω i) = ∑ i, ∑ k, (p i k : ℂ) * Y i k := by
  simp only [Finset.mul_sum]
  rw [Finset.sum_comm]
  exact Finset.sum_congr rfl fun i _ => indep_mean p hp i (Y i)

/-- The variance of a sum of independent terms is the sum of their variances, at most the sum of their mean squares. -/
theorem indep_variance (p : ι → κ → ℝ) (hp : ∀ i, ∑ k, p i k = 1) (Y : ι → κ → ℂ) :
    ∑ ω : ι → κ, (∏ l, p l (ω l)) * Complex.normSq (∑ i, Y i (ω i) - ∑ i, ∑ k, (p i k : ℂ) * Y i k) ≤ ∑ i, ∑ k, p i k * Complex.normSq (Y i k) := by
  set μ : ι → ℂ := fun i => ∑ k, (p i k : ℂ) * Y i k with hμ
  set Z : ι → κ → ℂ := fun i k => Y i k - μ i with hZ
  have hZ0 : ∀ i, ∑ k, (p i k : ℂ) * Z i k = 0 := by
    intro i
    simp only [hZ, mul_sub, Finset.sum_sub_distrib]
    rw [← Finset.sum_mul, ← Complex.ofReal_sum, hp]
    simp [hμ]
  have hZ0' : ∀ i, ∑ k, (p i k : ℂ) * (starRingEnd ℂ) (Z i k) = 0 := by
    intro i
    have := congrArg (starRingEnd ℂ) (hZ0 i)
    rw [map_sum, map_zero] at this
    rw [← this]
    exact Finset.sum_congr rfl fun k _ => by rw [map_mul, Complex.conj_ofReal]
  have hsub : ∀ ω : ι → κ, ∑ i, Y i (ω i) - ∑ i, μ i = ∑ i, Z i (ω i) := fun ω => by rw [← Finset.sum_sub_distrib]
  have hkey : ((∑ ω : ι → κ, (∏ l, p l (ω l)) * Complex.normSq (∑ i, Z i (ω i)) : ℝ) : ℂ) = ((∑ i, ∑ k, p i k * Complex.normSq (Z i k) : ℝ) : ℂ) := by
    push_cast
    simp only [Complex.normSq_eq_conj_mul_self, map_sum, Finset.sum_mul, Finset.mul_sum]
    rw [Finset.sum_comm]
    refine Finset.sum_congr rfl fun i _ => ?_
    rw [Finset.sum_comm, Finset.sum_eq_single i]
    · have := indep_mean p hp i fun k => (starRingEnd ℂ) (Z i k) * Z i k
      push_cast at this
      exact this
    · intro j _ hj
      have := indep_pair p hp j i hj (fun k => (starRingEnd ℂ) (Z j k)) (fun k => Z i k)
      push_cast at this
      rw [this, hZ0', zero_mul]
    · intro h; exact absurd (Finset.mem_univ i) h
  have hkey' := Complex.ofReal_injective hkey
  simp only [hsub]
  rw [hkey']
  refine Finset.sum_le_sum fun i _ => ?_
  have hvar : ∑ k, p i k * Complex.normSq (Z i k) = ∑ k, p i k * Complex.normSq (Y i k) - Complex.normSq (μ i) := by
    apply Complex.ofReal_injective
    push_cast
    simp only [Complex.normSq_eq_conj_mul_self]
    have e : ∀ k, (p i k : ℂ) * ((starRingEnd ℂ) (Z i k) * Z i k) = (p i k : ℂ) * ((starRingEnd ℂ) (Y i k) * Y i k) -
        (starRingEnd ℂ) (μ i) * ((p i k : ℂ) * Y i k) - μ i * ((p i k : ℂ) * (starRingEnd ℂ) (Y i k)) + (p i k : ℂ) * ((starRingEnd ℂ) (μ i) * μ i) := by
      intro k
      simp only [hZ, map_sub]; ring
    simp only [e, Finset.sum_add_distrib, Finset.sum_sub_distrib, ← Finset.mul_sum, ← Finset.sum_mul]
    have e2 : ∑ k, (p i k : ℂ) * (starRingEnd ℂ) (Y i k) = (starRingEnd ℂ) (μ i) := by
      simp only [hμ, map_sum, map_mul, Complex.conj_ofReal]
    rw [e2, show ∑ k, (p i k : ℂ) * Y i k = μ i from rfl, ← Complex.ofReal_sum, hp]
    push_cast
    ring
  rw [hvar]
  have := Complex.normSq_nonneg (μ i)
  linarith

end Verif.Tomo
