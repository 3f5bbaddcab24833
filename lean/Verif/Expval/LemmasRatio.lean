import Verif.Expval.PropsCalShots
import Verif.Expval.PropsFitter
/-
C121: an error rate estimated from the shots that meet a condition (a quotient of two counts).
-/
set_option linter.unusedSectionVars false
namespace Verif.Expval
open Verif Verif.Counts

variable {T : Type} [Fintype T] [DecidableEq T]

/-- How far the counted shots are from their means. -/
noncomputable def ratioDev {K : ℕ} (C Y : T → Prop) [DecidablePred C] [DecidablePred Y] (c a η : ℝ) (u : Fin K → T) : ℝ :=
  4 * (QV.avg (fun z => if C z then (1 : ℝ) else 0) u - c) ^ 2 / c ^ 2 +
    4 * (QV.avg (fun z => if C z then (if Y z then 1 else 0) - a else (0 : ℝ)) u) ^ 2 / (c ^ 2 * η ^ 2)

theorem ratioDev_nonneg {K : ℕ} (C Y : T → Prop) [DecidablePred C] [DecidablePred Y] (c a η : ℝ) (u : Fin K → T) : 0 ≤ ratioDev C Y c a η u := by
  unfold ratioDev; positivity

theorem ratioDev_mean {K : ℕ} (hK : 0 < K) (w : T → ℝ) (hw : ∑ z, w z = 1) (C Y : T → Prop) [DecidablePred C] [DecidablePred Y] (c a η : ℝ) (hc : 0 < c)
    (hη : 0 < η) (hC : (∑ z, if C z then w z else 0) = c) (hY : (∑ z, if C z ∧ Y z then w z else 0) = c * a) :
    ∑ u : Fin K → T, (∏ k, w (u k)) * ratioDev C Y c a η u = (4 * (1 - c) + 4 * (a * (1 - a)) / η ^ 2) / (K * c) := by
  have hK' : (0 : ℝ) < K := by exact_mod_cast hK
  have m1 : ∑ z, w z * (if C z then (1 : ℝ) else 0) = c := by rw [← hC]; exact Finset.sum_congr rfl fun z _ => by split <;> simp
  have m1' : ∑ z, w z * (if C z then (1 : ℝ) else 0) ^ 2 = c := by rw [← hC]; exact Finset.sum_congr rfl fun z _ => by split <;> simp
  have m2 : ∑ z, w z * (if C z then (if Y z then 1 else 0) - a else (0 : ℝ)) = 0 := by
    have : ∀ z, w z * (if C z then (if Y z then 1 else 0) - a else (0 : ℝ)) = (if C z ∧ Y z then w z else 0) - a * (if C z then w z else 0) := by
      intro z
      by_cases h1 : C z <;> by_cases h2 : Y z <;> simp [h1, h2] <;> ring
    rw [Finset.sum_congr rfl fun z _ => this z, Finset.sum_sub_distrib, ← Finset.mul_sum, hC, hY]; ring
  have m2' : ∑ z, w z * (if C z then (if Y z then 1 else 0) - a else (0 : ℝ)) ^ 2 = c * (a * (1 - a)) := by
    have : ∀ z, w z * (if C z then (if Y z then 1 else 0) - a else (0 : ℝ)) ^ 2 = (1 - 2 * a) * (if C z ∧ Y z then w z else 0) + a ^ 2 * (if C z then w z else 0) := by
      intro z
      by_cases h1 : C z <;> by_cases h2 : Y z <;> simp [h1, h2] <;> ring
    rw [Finset.sum_congr rfl fun z _ => this z, Finset.sum_add_distrib, ← Finset.mul_sum, ← Finset.mul_sum, hC, hY]; ring
  have v1 := QV.avg_variance K hK w hw _ c m1
  have v2 := QV.avg_variance K hK w hw _ 0 m2
  rw [m1'] at v1
  rw [m2'] at v2
  simp only [sub_zero] at v2
  have e : ∀ u : Fin K → T, (∏ k, w (u k)) * ratioDev C Y c a η u =
      4 / c ^ 2 * ((∏ k, w (u k)) * (QV.avg (fun z => if C z then (1 : ℝ) else 0) u - c) ^ 2) +
      4 / (c ^ 2 * η ^ 2) * ((∏ k, w (u k)) * (QV.avg (fun z => if C z then (if Y z then 1 else 0) - a else (0 : ℝ)) u) ^ 2) := by
    intro u; unfold ratioDev; ring
  rw [Finset.sum_congr rfl fun u _ => e u, Finset.sum_add_distrib, ← Finset.mul_sum, ← Finset.mul_sum, v1, v2]
  field_simp
  ring

/-- If they are not far, the quotient is near `a`. -/
theorem ratio_near {K : ℕ} (hK : 0 < K) (C Y : T → Prop) [DecidablePred C] [DecidablePred Y] (c a η : ℝ) (hc : 0 < c) (hη : 0 < η) (u : Fin K → T)
    (h : ratioDev C Y c a η u < 1) : 0 < (Finset.univ.filter fun k => C (u k)).card ∧
      |((Finset.univ.filter fun k => C (u k) ∧ Y (u k)).card : ℝ) / (Finset.univ.filter fun k => C (u k)).card - a| < η := by
  have hK' : (0 : ℝ) < K := by exact_mod_cast hK
  set D : ℝ := ((Finset.univ.filter fun k => C (u k)).card : ℝ) with hD
  set N : ℝ := ((Finset.univ.filter fun k => C (u k) ∧ Y (u k)).card : ℝ) with hN
  have a1 : QV.avg (fun z => if C z then (1 : ℝ) else 0) u = D / K := by
    unfold QV.avg; rw [Finset.sum_boole]
  have a2 : QV.avg (fun z => if C z then (if Y z then 1 else 0) - a else (0 : ℝ)) u = (N - a * D) / K := by
    unfold QV.avg
    congr 1
    have : ∀ k, (if C (u k) then (if Y (u k) then 1 else 0) - a else (0 : ℝ)) = (if C (u k) ∧ Y (u k) then 1 else 0) - a * (if C (u k) then 1 else 0) := by
      intro k
      by_cases h1 : C (u k) <;> by_cases h2 : Y (u k) <;> simp [h1, h2]
    rw [Finset.sum_congr rfl fun k _ => this k, Finset.sum_sub_distrib, ← Finset.mul_sum, Finset.sum_boole, Finset.sum_boole]
  unfold ratioDev at h
  rw [a1, a2] at h
  have h1 : 4 * (D / K - c) ^ 2 / c ^ 2 < 1 := lt_of_le_of_lt (le_add_of_nonneg_right (by positivity)) h
  have h2 : 4 * ((N - a * D) / K) ^ 2 / (c ^ 2 * η ^ 2) < 1 := lt_of_le_of_lt (le_add_of_nonneg_left (by positivity)) h
  rw [div_lt_one (by positivity)] at h1 h2
  have h1' : |2 * (D / K - c)| < c := abs_lt_of_sq_lt_sq (by nlinarith) hc.le
  have h2' : |2 * ((N - a * D) / K)| < c * η := abs_lt_of_sq_lt_sq (by nlinarith) (by positivity)
  rw [abs_lt] at h1'
  have hDK : c / 2 < D / K := by linarith [h1'.1]
  have hDpos : 0 < D := by
    have : 0 < D / K := lt_trans (by positivity) hDK
    by_contra hn
    have := div_nonpos_of_nonpos_of_nonneg (not_lt.1 hn) hK'.le
    linarith
  refine ⟨(Nat.cast_pos (α := ℝ)).1 hDpos, ?_⟩
  have e : N / D - a = (N - a * D) / K / (D / K) := by field_simp
  rw [e, abs_div, abs_of_pos (lt_trans (by positivity) hDK), div_lt_iff₀ (lt_trans (by positivity) hDK)]
  rw [abs_mul, abs_two] at h2'
  nlinarith

end Verif.Expval
