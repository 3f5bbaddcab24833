import Verif.Expval.PropsShots
import Verif.Expval.PropsAmat
import Verif.Expval.Props
import Mathlib.LinearAlgebra.Matrix.NonsingularInverse
import Mathlib.Algebra.Order.Chebyshev
/-
C121, second part: the calibration matrix of the complete mitigator from finitely many shots, and the mitigated value end to end.
-/
namespace Verif.Expval
open Verif Verif.Counts

/-! ### Perturbed noise matrices -/

/-- If `B₀` inverts `R` and `A` is close to `R`, then `A` shrinks no vector much. -/
theorem perturb_lower (dim : ℕ) (B₀ R A : ℕ → ℕ → ℝ) (hB : IsInv dim B₀ R) (g η : ℝ) (hg : ∀ j < dim, ∑ i ∈ Finset.range dim, |B₀ i j| ≤ g) (hg0 : 0 ≤ g)
    (hη : ∀ x < dim, ∑ y ∈ Finset.range dim, |R y x - A y x| ≤ η) (v : ℕ → ℝ) :
    (1 - g * η) * ∑ i ∈ Finset.range dim, |v i| ≤ g * ∑ j ∈ Finset.range dim, |∑ x ∈ Finset.range dim, A j x * v x| := by
  have hB0 : ∀ u : ℕ → ℝ, ∑ i ∈ Finset.range dim, |∑ j ∈ Finset.range dim, B₀ i j * u j| ≤ g * ∑ j ∈ Finset.range dim, |u j| := by
    intro u
    calc ∑ i ∈ Finset.range dim, |∑ j ∈ Finset.range dim, B₀ i j * u j| ≤ ∑ i ∈ Finset.range dim, ∑ j ∈ Finset.range dim, |B₀ i j| * |u j| :=
          Finset.sum_le_sum fun i _ => (Finset.abs_sum_le_sum_abs _ _).trans (le_of_eq (Finset.sum_congr rfl fun j _ => abs_mul _ _))
      _ = ∑ j ∈ Finset.range dim, (∑ i ∈ Finset.range dim, |B₀ i j|) * |u j| := by
          rw [Finset.sum_comm]; exact Finset.sum_congr rfl fun j _ => by rw [Finset.sum_mul]
      _ ≤ ∑ j ∈ Finset.range dim, g * |u j| := Finset.sum_le_sum fun j hj => mul_le_mul_of_nonneg_right (hg j (Finset.mem_range.1 hj)) (abs_nonneg _)
      _ = g * ∑ j ∈ Finset.range dim, |u j| := by rw [Finset.mul_sum]
  have hid : ∀ i ∈ Finset.range dim, v i = ∑ j ∈ Finset.range dim, B₀ i j * (∑ x ∈ Finset.range dim, A j x * v x) +
      ∑ j ∈ Finset.range dim, B₀ i j * (∑ x ∈ Finset.range dim, (R j x - A j x) * v x) := by
    intro i hi
    rw [← Finset.sum_add_distrib]
    have : ∀ j ∈ Finset.range dim, B₀ i j * (∑ x ∈ Finset.range dim, A j x * v x) + B₀ i j * (∑ x ∈ Finset.range dim, (R j x - A j x) * v x) =
        ∑ x ∈ Finset.range dim, B₀ i j * R j x * v x := by
      intro j _
      rw [← mul_add, ← Finset.sum_add_distrib, Finset.mul_sum]
      exact Finset.sum_congr rfl fun x _ => by ring
    rw [Finset.sum_congr rfl this, Finset.sum_comm]
    have : ∀ x ∈ Finset.range dim, ∑ j ∈ Finset.range dim, B₀ i j * R j x * v x = if i = x then v x else 0 := by
      intro x hx
      rw [← Finset.sum_mul, hB i (Finset.mem_range.1 hi) x (Finset.mem_range.1 hx)]
      split <;> simp
    rw [Finset.sum_congr rfl this, Finset.sum_ite_eq, if_pos hi]
  have h1 : ∑ i ∈ Finset.range dim, |v i| ≤ g * ∑ j ∈ Finset.range dim, |∑ x ∈ Finset.range dim, A j x * v x| +
      g * ∑ j ∈ Finset.range dim, |∑ x ∈ Finset.range dim, (R j x - A j x) * v x| := by
    refine le_trans ?_ (add_le_add (hB0 fun j => ∑ x ∈ Finset.range dim, A j x * v x) (hB0 fun j => ∑ x ∈ Finset.range dim, (R j x - A j x) * v x))
    rw [← Finset.sum_add_distrib]
    exact Finset.sum_le_sum fun i hi => by
      conv_lhs => rw [hid i hi]
      exact abs_add_le _ _
  have h2 : ∑ j ∈ Finset.range dim, |∑ x ∈ Finset.range dim, (R j x - A j x) * v x| ≤ η * ∑ x ∈ Finset.range dim, |v x| := by
    calc ∑ j ∈ Finset.range dim, |∑ x ∈ Finset.range dim, (R j x - A j x) * v x| ≤ ∑ j ∈ Finset.range dim, ∑ x ∈ Finset.range dim, |R j x - A j x| * |v x| :=
          Finset.sum_le_sum fun i _ => (Finset.abs_sum_le_sum_abs _ _).trans (le_of_eq (Finset.sum_congr rfl fun j _ => abs_mul _ _))
      _ = ∑ x ∈ Finset.range dim, (∑ j ∈ Finset.range dim, |R j x - A j x|) * |v x| := by
          rw [Finset.sum_comm]; exact Finset.sum_congr rfl fun j _ => by rw [Finset.sum_mul]
      _ ≤ ∑ x ∈ Finset.range dim, η * |v x| := Finset.sum_le_sum fun j hj => mul_le_mul_of_nonneg_right (hη j (Finset.mem_range.1 hj)) (abs_nonneg _)
      _ = η * ∑ x ∈ Finset.range dim, |v x| := by rw [Finset.mul_sum]
  have h3 := mul_le_mul_of_nonneg_left h2 hg0
  linarith

/-- Then `A` is invertible as well. -/
theorem perturb_inv (dim : ℕ) (B₀ R A : ℕ → ℕ → ℝ) (hB : IsInv dim B₀ R) (g η : ℝ) (hg : ∀ j < dim, ∑ i ∈ Finset.range dim, |B₀ i j| ≤ g) (hg0 : 0 ≤ g)
    (hη : ∀ x < dim, ∑ y ∈ Finset.range dim, |R y x - A y x| ≤ η) (hlt : g * η < 1) : ∃ B, IsInv dim B A := by
  classical
  let Am : Matrix (Fin dim) (Fin dim) ℝ := fun i j => A i j
  have hinj : Function.Injective Am.mulVec := by
    intro u u' huu
    have hz : Am.mulVec (u - u') = 0 := by rw [Matrix.mulVec_sub, huu, sub_self]
    have := perturb_lower dim B₀ R A hB g η hg hg0 hη (fun i => if h : i < dim then (u - u') ⟨i, h⟩ else 0)
    have e : ∀ j ∈ Finset.range dim, ∑ x ∈ Finset.range dim, A j x * (if h : x < dim then (u - u') ⟨x, h⟩ else 0) = 0 := by
      intro j hj
      have hz' := congrFun hz ⟨j, Finset.mem_range.1 hj⟩
      rw [Finset.sum_range]
      simpa [Matrix.mulVec, dotProduct, Am] using hz'
    rw [Finset.sum_eq_zero (s := Finset.range dim) (f := fun j => |∑ x ∈ Finset.range dim, A j x * (if h : x < dim then (u - u') ⟨x, h⟩ else 0)|)
      (fun j hj => by rw [e j hj, abs_zero]), mul_zero] at this
    have hs : ∑ i ∈ Finset.range dim, |if h : i < dim then (u - u') ⟨i, h⟩ else 0| ≤ 0 := by
      by_contra hn
      have := mul_pos (sub_pos.2 hlt) (not_le.1 hn)
      linarith
    have h0 := (Finset.sum_eq_zero_iff_of_nonneg (fun i _ => abs_nonneg _)).1 (le_antisymm hs (Finset.sum_nonneg fun i _ => abs_nonneg _))
    funext i
    have := h0 i (Finset.mem_range.2 i.2)
    rw [abs_eq_zero, dif_pos i.2] at this
    exact sub_eq_zero.1 this
  have hu : IsUnit Am := Matrix.mulVec_injective_iff_isUnit.1 hinj
  have hm : Am⁻¹ * Am = 1 := Matrix.nonsing_inv_mul Am ((Matrix.isUnit_iff_isUnit_det Am).1 hu)
  refine ⟨fun i j => if h : i < dim ∧ j < dim then Am⁻¹ ⟨i, h.1⟩ ⟨j, h.2⟩ else 0, fun i hi j hj => ?_⟩
  have := congrFun (congrFun hm ⟨i, hi⟩) ⟨j, hj⟩
  rw [Matrix.mul_apply, Matrix.one_apply] at this
  rw [Finset.sum_range]
  simp only [hi, Fin.is_lt, and_self, dif_pos]
  rw [show (if i = j then (1 : ℝ) else 0) = if (⟨i, hi⟩ : Fin dim) = ⟨j, hj⟩ then 1 else 0 by simp [Fin.ext_iff], ← this]

/-- The inverse of `A` is not much larger. -/
theorem perturb_norm (dim : ℕ) (B₀ R A B : ℕ → ℕ → ℝ) (hB : IsInv dim B₀ R) (g η : ℝ) (hg : ∀ j < dim, ∑ i ∈ Finset.range dim, |B₀ i j| ≤ g) (hg0 : 0 ≤ g)
    (hη : ∀ x < dim, ∑ y ∈ Finset.range dim, |R y x - A y x| ≤ η) (hlt : g * η < 1) (hBA : IsInv dim B A) (j : ℕ) (hj : j < dim) :
    ∑ i ∈ Finset.range dim, |B i j| ≤ g / (1 - g * η) := by
  classical
  have hright : ∀ k < dim, ∑ x ∈ Finset.range dim, A k x * B x j = if k = j then 1 else 0 := by
    let Am : Matrix (Fin dim) (Fin dim) ℝ := fun i j => A i j
    let Bm : Matrix (Fin dim) (Fin dim) ℝ := fun i j => B i j
    have h1 : Bm * Am = 1 := by
      ext a b
      have := hBA a a.2 b b.2
      rw [Finset.sum_range] at this
      rw [Matrix.mul_apply, Matrix.one_apply, show (∑ k, Bm a k * Am k b) = ∑ k : Fin dim, B a k * A k b from rfl, this]
      simp [Fin.ext_iff]
    have h2 : Am * Bm = 1 := mul_eq_one_comm.1 h1
    intro k hk
    have := congrFun (congrFun h2 ⟨k, hk⟩) ⟨j, hj⟩
    rw [Matrix.mul_apply, Matrix.one_apply] at this
    rw [Finset.sum_range]
    rw [show (if k = j then (1 : ℝ) else 0) = if (⟨k, hk⟩ : Fin dim) = ⟨j, hj⟩ then 1 else 0 by simp [Fin.ext_iff], ← this]
  have := perturb_lower dim B₀ R A hB g η hg hg0 hη fun i => B i j
  have e : ∑ k ∈ Finset.range dim, |∑ x ∈ Finset.range dim, A k x * B x j| = 1 := by
    rw [Finset.sum_congr rfl fun k hk => by rw [hright k (Finset.mem_range.1 hk)], Finset.sum_eq_single j]
    · simp
    · intro b _ hb; simp [hb]
    · intro h; exact absurd (Finset.mem_range.2 hj) h
  rw [e, mul_one] at this
  rw [le_div_iff₀ (by linarith), mul_comm]
  exact this

/-! ### Calibration from finitely many shots -/

/-- Product distributions: the marginal of one factor. -/
theorem marginal_one {I U : Type} [Fintype I] [DecidableEq I] [Fintype U] (Q : I → U → ℝ) (hQ : ∀ i, ∑ u, Q i u = 1) (i₀ : I) (f : U → ℝ) :
    ∑ κ : I → U, (∏ i, Q i (κ i)) * f (κ i₀) = ∑ u, Q i₀ u * f u := by
  have := Finset.prod_univ_sum (fun _ : I => (Finset.univ : Finset U)) fun i u => Q i u * if i = i₀ then f u else 1
  rw [Fintype.piFinset_univ] at this
  rw [Finset.prod_eq_single i₀ (fun i _ hi => by simp [hi, hQ]) (fun h => absurd (Finset.mem_univ _) h)] at this
  simp only [if_true] at this
  rw [this]
  refine Finset.sum_congr rfl fun κ _ => ?_
  rw [Finset.prod_mul_distrib]
  congr 1
  rw [Finset.prod_eq_single i₀ (fun i _ hi => by simp [hi]) (fun h => absurd (Finset.mem_univ _) h), if_pos rfl]

theorem product_one {I U : Type} [Fintype I] [DecidableEq I] [Fintype U] (Q : I → U → ℝ) (hQ : ∀ i, ∑ u, Q i u = 1) : ∑ κ : I → U, ∏ i, Q i (κ i) = 1 := by
  have := Finset.prod_univ_sum (fun _ : I => (Finset.univ : Finset U)) fun i u => Q i u
  rw [Fintype.piFinset_univ] at this
  rw [← this]
  simp [hQ]

/-- Share of the calibration shots that prepared `x` and read `y`. -/
noncomputable def calShare {dim K : ℕ} (u : Fin K → Fin dim) (y : ℕ) : ℝ := ((Finset.univ.filter fun k => (u k : ℕ) = y).card : ℝ) / K

theorem calShare_avg {dim K : ℕ} (u : Fin K → Fin dim) (y : ℕ) : calShare u y = QV.avg (fun z : Fin dim => if (z : ℕ) = y then 1 else 0) u := by
  unfold calShare QV.avg
  rw [Finset.sum_boole]

/-- Expected squared error of one calibrated column. -/
theorem column_error {dim K : ℕ} (hK : 0 < K) (q : ℕ → ℝ) (h0 : ∀ y < dim, 0 ≤ q y) (h1 : ∑ y ∈ Finset.range dim, q y = 1) :
    ∑ u : Fin K → Fin dim, (∏ k, q (u k)) * (∑ y ∈ Finset.range dim, |q y - calShare u y|) ^ 2 ≤ dim / K := by
  have hK' : (0 : ℝ) < K := by exact_mod_cast hK
  have hw : ∑ z : Fin dim, q z = 1 := by rw [← h1, Finset.sum_range]
  have hP : ∀ u : Fin K → Fin dim, 0 ≤ ∏ k, q (u k) := fun u => Finset.prod_nonneg fun k _ => h0 _ (u k).2
  have hvar : ∀ y ∈ Finset.range dim, ∑ u : Fin K → Fin dim, (∏ k, q (u k)) * (q y - calShare u y) ^ 2 ≤ q y / K := by
    intro y hy
    have hy' := Finset.mem_range.1 hy
    have hm : ∑ z : Fin dim, q z * (if (z : ℕ) = y then (1 : ℝ) else 0) = q y := by
      rw [Finset.sum_eq_single ⟨y, hy'⟩]
      · simp
      · intro b _ hb
        rw [if_neg (fun h => hb (Fin.ext h)), mul_zero]
      · intro h; exact absurd (Finset.mem_univ _) h
    have := QV.avg_variance K hK (fun z : Fin dim => q z) hw (fun z : Fin dim => if (z : ℕ) = y then (1 : ℝ) else 0) (q y) hm
    have e : ∀ u : Fin K → Fin dim, (∏ k, q (u k)) * (q y - calShare u y) ^ 2 =
        (∏ k, q (u k)) * (QV.avg (fun z : Fin dim => if (z : ℕ) = y then (1 : ℝ) else 0) u - q y) ^ 2 := fun u => by rw [calShare_avg]; ring
    rw [Finset.sum_congr rfl fun u _ => e u, this]
    refine div_le_div_of_nonneg_right ?_ hK'.le
    have : ∑ z : Fin dim, q z * (if (z : ℕ) = y then (1 : ℝ) else 0) ^ 2 = q y := by
      rw [← hm]; exact Finset.sum_congr rfl fun z _ => by split <;> simp
    rw [this]
    nlinarith [sq_nonneg (q y)]
  calc ∑ u : Fin K → Fin dim, (∏ k, q (u k)) * (∑ y ∈ Finset.range dim, |q y - calShare u y|) ^ 2
      ≤ ∑ u : Fin K → Fin dim, (∏ k, q (u k)) * (dim * ∑ y ∈ Finset.range dim, (q y - calShare u y) ^ 2) := by
        refine Finset.sum_le_sum fun u _ => mul_le_mul_of_nonneg_left ?_ (hP u)
        have := sq_sum_le_card_mul_sum_sq (s := Finset.range dim) (f := fun y => |q y - calShare u y|)
        simpa only [Finset.card_range, sq_abs] using this
    _ = dim * ∑ y ∈ Finset.range dim, ∑ u : Fin K → Fin dim, (∏ k, q (u k)) * (q y - calShare u y) ^ 2 := by
        rw [Finset.sum_comm, Finset.mul_sum]
        exact Finset.sum_congr rfl fun u _ => by rw [← Finset.mul_sum]; ring
    _ ≤ dim * ∑ y ∈ Finset.range dim, q y / K := mul_le_mul_of_nonneg_left (Finset.sum_le_sum hvar) (by positivity)
    _ = dim / K := by rw [← Finset.sum_div, h1]; ring

open Classical in
/-- A calibration with `K` shots per state has an error of `η` or more in some column with probability at most `dim² / (K η²)`. -/
theorem calibration_error {dim K : ℕ} (hK : 0 < K) (R : ℕ → ℕ → ℝ) (hR : IsNoise dim R) (η : ℝ) (hη : 0 < η) :
    (∑ κ : Fin dim → Fin K → Fin dim, if ∃ x : Fin dim, η ≤ ∑ y ∈ Finset.range dim, |R y x - calShare (κ x) y| then calProb R κ else 0) ≤
      dim ^ 2 / (K * η ^ 2) := by
  have hK' : (0 : ℝ) < K := by exact_mod_cast hK
  have hsum : ∀ x : Fin dim, ∑ u : Fin K → Fin dim, ∏ k, R (u k) x = 1 := by
    intro x
    refine QV.draws_sum_one K (fun z : Fin dim => R z x) ?_
    rw [← (hR x x.2).2, Finset.sum_range]
  have h1 := markov (fun κ : Fin dim → Fin K → Fin dim => calProb R κ)
    (fun κ => Finset.prod_nonneg fun x _ => Finset.prod_nonneg fun k _ => (hR x x.2).1 _ (κ x k).2)
    (fun κ => ∃ x : Fin dim, η ≤ ∑ y ∈ Finset.range dim, |R y x - calShare (κ x) y|)
    (fun κ => ∑ x : Fin dim, (∑ y ∈ Finset.range dim, |R y x - calShare (κ x) y|) ^ 2 / η ^ 2)
    (fun κ => Finset.sum_nonneg fun x _ => by positivity) (fun κ h => by
      obtain ⟨x, hx⟩ := h
      refine le_trans ?_ (Finset.single_le_sum (f := fun x : Fin dim => (∑ y ∈ Finset.range dim, |R y x - calShare (κ x) y|) ^ 2 / η ^ 2)
        (fun x _ => by positivity) (Finset.mem_univ x))
      rw [le_div_iff₀ (by positivity), one_mul]
      exact pow_le_pow_left₀ hη.le hx 2)
  refine le_trans h1 ?_
  simp only [Finset.mul_sum]
  rw [Finset.sum_comm]
  have h2 : ∀ x : Fin dim, ∑ κ : Fin dim → Fin K → Fin dim, calProb R κ * ((∑ y ∈ Finset.range dim, |R y x - calShare (κ x) y|) ^ 2 / η ^ 2) ≤ dim / K / η ^ 2 := by
    intro x
    have := marginal_one (fun (x : Fin dim) (u : Fin K → Fin dim) => ∏ k, R (u k) x) hsum x
      fun u => (∑ y ∈ Finset.range dim, |R y x - calShare u y|) ^ 2 / η ^ 2
    unfold calProb
    rw [this]
    have e : ∀ u : Fin K → Fin dim, (∏ k, R (u k) x) * ((∑ y ∈ Finset.range dim, |R y x - calShare u y|) ^ 2 / η ^ 2) =
        (∏ k, R (u k) x) * (∑ y ∈ Finset.range dim, |R y x - calShare u y|) ^ 2 / η ^ 2 := fun u => by ring
    rw [Finset.sum_congr rfl fun u _ => e u, ← Finset.sum_div]
    exact div_le_div_of_nonneg_right (column_error hK (fun y => R y x) (hR x x.2).1 (hR x x.2).2) (by positivity)
  refine le_trans (Finset.sum_le_sum fun x _ => h2 x) (le_of_eq ?_)
  simp only [Finset.sum_const, Finset.card_univ, Fintype.card_fin, nsmul_eq_mul]
  field_simp

/-- The metadata of the complete calibration. -/
theorem complete_metas (n : ℕ) (circs : List MeasMit.Circ) (metas : List Meta) (h : mitigatorCircuits n "complete".toList none = some (circs, metas)) :
    metas = (List.range (2 ^ n)).map fun j => ⟨some "meas_mit".toList, zfill n (binDigits j), some "complete".toList⟩ := by
  have hm : methodLabels n "complete".toList = some (countKeys n) := by
    unfold methodLabels
    rw [if_neg (by decide), if_neg (by decide), if_pos rfl]
  unfold mitigatorCircuits at h
  simp only [hm, Option.bind_eq_bind, Option.bind_some] at h
  rw [Option.bind_eq_some_iff] at h
  obtain ⟨cs, _, h2⟩ := h
  injection h2 with h2
  rw [Prod.mk.injEq] at h2
  rw [← h2.2]
  unfold countKeys
  rw [List.map_map]
  rfl

/-- The calibration data after the first `m` experiments. -/
theorem calibration_fold (n : ℕ) (hn : 1 ≤ n) (counts : ℕ → IntCounts) (m : ℕ) (hm : m ≤ 2 ^ n) :
    calibrationData counts ((List.range m).map fun j => (⟨some "meas_mit".toList, zfill n (binDigits j), some "complete".toList⟩ : Meta)) =
      some ⟨(List.range m).map fun j => (j, counts j), if m = 0 then none else some n, if m = 0 then none else some "complete".toList⟩ := by
  unfold calibrationData
  induction m with
  | zero => rfl
  | succ m ih =>
    have ih := ih (by omega)
    rw [List.range_succ, List.map_append, List.map_singleton, List.zipIdx_append, List.foldlM_append, ih]
    have hk : zfill n (binDigits m) ∈ countKeys n := List.mem_map.2 ⟨m, List.mem_range.2 (by omega), rfl⟩
    obtain ⟨hb, hl⟩ := (mem_countKeys n hn _).1 hk
    have hp : parseBin (zfill n (binDigits m)) = some m := by
      unfold parseBin
      rw [if_pos ⟨hb, by intro h; rw [h] at hl; simp at hl; omega⟩, ofBin_zfill, ofBin_binDigits]
    have hnone : Dict.get? ((List.range m).map fun j => (j, counts j)) m = none := by
      rw [Dict.get?_eq_none_iff]
      simp
    simp only [Option.bind_eq_bind, Option.bind_some, List.length_map, List.length_range, zero_add, List.zipIdx_singleton, List.foldlM_cons, List.foldlM_nil]
    unfold calStep
    simp only [if_true, hp, Option.bind_eq_bind, Option.bind_some, hnone, hl, Option.pure_def]
    rw [Option.some.injEq, CalState.mk.injEq]
    refine ⟨?_, ?_, ?_⟩
    · rw [List.map_append, List.map_singleton]
      have := Dict.foldl_set_fresh [()] (fun _ => m) (fun _ => counts m) ((List.range m).map fun j => (j, counts j)) (by
        rw [List.map_map]
        simp only [List.map_singleton]
        refine List.nodup_append.2 ⟨?_, by simp, ?_⟩
        · rw [show ((fun x : ℕ × IntCounts => x.1) ∘ fun j => (j, counts j)) = id from rfl, List.map_id]
          exact List.nodup_range
        · intro a ha b hb
          simp at ha hb
          omega)
      exact this
    · rw [if_neg (by omega : ¬ m + 1 = 0)]
      by_cases h0 : m = 0 <;> simp [h0]
    · rw [if_neg (by omega : ¬ m + 1 = 0)]
      by_cases h0 : m = 0 <;> simp [h0]

/-- The fitted matrix of the complete mitigator is the matrix of the shares of the calibration shots. -/
theorem C121_calibration (n : ℕ) (hn : 1 ≤ n) {K : ℕ} (hK : 0 < K) (circs : List MeasMit.Circ) (metas : List Meta)
    (h : mitigatorCircuits n "complete".toList none = some (circs, metas))
    (κ : Fin (2 ^ n) → Fin K → Fin (2 ^ n)) (cal : ℕ → IntCounts) (hcal : ∀ x : Fin (2 ^ n), RecordsInt (κ x) (cal x)) :
    circs.length = 2 ^ n ∧ (∀ x (hx : x < circs.length), ofBin (MeasMit.readout circs[x]) = x) ∧
    ∃ st A, calibrationData cal metas = some st ∧ st.method = some "complete".toList ∧ fitComplete (K := ℝ) st = some (n, A) ∧
      ∀ y < 2 ^ n, ∀ x : Fin (2 ^ n), A y x = calShare (κ x) y := by
  have hmet := complete_metas n circs metas h
  have hpos : 0 < 2 ^ n := by positivity
  obtain ⟨hlen, hread⟩ := C18_readback n "complete".toList none (by simp) hn circs metas h
  have hml : metas.length = 2 ^ n := by rw [hmet]; simp
  refine ⟨by omega, fun x hx => ?_, ?_⟩
  · rw [(hread x hx (by omega)).1]
    have : metas[x].cal = zfill n (binDigits x) := by
      subst hmet
      simp
    rw [this, ofBin_zfill, ofBin_binDigits]
  · have hdata := calibration_fold n hn cal (2 ^ n) le_rfl
    rw [if_neg hpos.ne', if_neg hpos.ne', ← hmet] at hdata
    have hrange : ∀ p ∈ (List.range (2 ^ n)).map (fun j => (j, cal j)), p.1 < 2 ^ n ∧ ∀ kv ∈ p.2, kv.1 < 2 ^ n := by
      intro p hp
      obtain ⟨j, hj, rfl⟩ := List.mem_map.1 hp
      exact ⟨List.mem_range.1 hj, (hcal ⟨j, List.mem_range.1 hj⟩).range⟩
    have htally : ∀ (x : Fin (2 ^ n)) (P : ℕ → Prop) [DecidablePred P],
        ((tally ((List.range (2 ^ n)).map fun j => (j, cal j)) (fun a b => a = (x : ℕ) ∧ P b) : ℤ) : ℝ) = ((Finset.univ.filter fun k => P (κ x k : ℕ)).card : ℝ) := by
      intro x P _
      unfold tally
      rw [List.map_map, Int.cast_list_sum, List.map_map]
      have e1 : ((List.range (2 ^ n)).map ((Int.cast : ℤ → ℝ) ∘ ((fun p : ℕ × IntCounts => (p.2.map fun kv => if p.1 = (x : ℕ) ∧ P kv.1 then kv.2 else 0).sum) ∘ fun j => (j, cal j)))) =
          (List.range (2 ^ n)).map fun j => if j = (x : ℕ) then ((Finset.univ.filter fun k => P (κ x k : ℕ)).card : ℝ) else 0 := by
        refine List.map_congr_left fun j hj => ?_
        simp only [Function.comp]
        by_cases hjx : j = (x : ℕ)
        · subst hjx
          rw [if_pos rfl, Int.cast_list_sum, List.map_map]
          have := sum_of_tally (cal x) (hcal x).wf (fun k => (κ x k : ℕ)) (hcal x).tally fun y => if P y then (1 : ℝ) else 0
          rw [Finset.sum_boole] at this
          rw [← this]
          congr 1
          refine List.map_congr_left fun kv _ => ?_
          by_cases hP : P kv.1 <;> simp [hP]
        · simp [hjx]
      rw [e1, sum_map_range, Finset.sum_ite_eq', if_pos (Finset.mem_range.2 x.2)]
    have htot : ∀ x : Fin (2 ^ n), ((tally ((List.range (2 ^ n)).map fun j => (j, cal j)) (fun a _ => a = (x : ℕ)) : ℤ) : ℝ) = K := by
      intro x
      have := htally x fun _ => True
      simp only [and_true, Finset.filter_true, Finset.card_univ, Fintype.card_fin] at this
      exact this
    have hK' : (K : ℝ) ≠ 0 := by exact_mod_cast hK.ne'
    obtain ⟨hnone, hval⟩ := C19_full (K := ℝ) ((List.range (2 ^ n)).map fun j => (j, cal j)) n hrange
    cases hA : assignmentMatrix (K := ℝ) ((List.range (2 ^ n)).map fun j => (j, cal j)) n none with
    | none =>
      obtain ⟨x, hx, h0⟩ := hnone.1 hA
      have := htot ⟨x, hx⟩
      simp only at this
      rw [h0] at this
      exact absurd this.symm (by simpa using hK')
    | some r =>
      obtain ⟨dim, A⟩ := r
      obtain ⟨hd, hv⟩ := hval dim A hA
      refine ⟨_, A, hdata, rfl, ?_, fun y hy x => ?_⟩
      · unfold fitComplete
        simp [hA]
      · rw [hv y (by omega) x (by omega), htot x, htally x fun b => b = y]
        rfl

open Classical in
/-- With `K` calibration shots per state, the matrix fitted from them differs from the noise of the device by `η` or more in some column with probability at
most `4^n / (K η²)`. -/
theorem C121_calibration_error (n : ℕ) (hn : 1 ≤ n) {K : ℕ} (hK : 0 < K) (circs : List MeasMit.Circ) (metas : List Meta)
    (h : mitigatorCircuits n "complete".toList none = some (circs, metas)) (R : ℕ → ℕ → ℝ) (hR : IsNoise (2 ^ n) R)
    (cal : (Fin (2 ^ n) → Fin K → Fin (2 ^ n)) → ℕ → IntCounts) (hcal : ∀ κ (x : Fin (2 ^ n)), RecordsInt (κ x) (cal κ x)) (η : ℝ) (hη : 0 < η) :
    (∑ κ : Fin (2 ^ n) → Fin K → Fin (2 ^ n),
      if ∃ st A, calibrationData (cal κ) metas = some st ∧ fitComplete (K := ℝ) st = some (n, A) ∧
        ∀ x < 2 ^ n, ∑ y ∈ Finset.range (2 ^ n), |R y x - A y x| < η then 0 else calProb R κ) ≤ 4 ^ n / (K * η ^ 2) := by
  refine le_trans (Finset.sum_le_sum fun κ _ => ?_) ((calibration_error hK R hR η hη).trans (le_of_eq ?_))
  · obtain ⟨_, _, st, A, h1, _, h2, h3⟩ := C121_calibration n hn hK circs metas h κ (cal κ) (hcal κ)
    have hpos : 0 ≤ calProb R κ := Finset.prod_nonneg fun x _ => Finset.prod_nonneg fun k _ => (hR x x.2).1 _ (κ x k).2
    by_cases hbad : ∃ x : Fin (2 ^ n), η ≤ ∑ y ∈ Finset.range (2 ^ n), |R y x - calShare (κ x) y|
    · rw [if_pos hbad]
      split
      · exact hpos
      · exact le_rfl
    · rw [if_neg hbad, if_pos]
      refine ⟨st, A, h1, h2, fun x hx => ?_⟩
      have := not_le.1 fun h => hbad ⟨⟨x, hx⟩, h⟩
      rwa [Finset.sum_congr rfl fun y hy => by rw [← h3 y (Finset.mem_range.1 hy) ⟨x, hx⟩]] at this
  · push_cast
    rw [← pow_mul, mul_comm n 2, pow_mul]
    norm_num

open Classical in
/-- The mitigated expectation value end to end: `K` calibration shots per state, `N` shots of the circuit, on a device whose readout noise is `R`. -/
theorem C121_end_to_end {O : Type} [Fintype O] (n : ℕ) (hn : 1 ≤ n) {K N : ℕ} (hK : 0 < K) (hN : 0 < N) (inv : ℕ → Mat ℝ → Mat ℝ) (hinv : InvCorrect inv)
    (circs : List MeasMit.Circ) (metas : List Meta) (h : mitigatorCircuits n "complete".toList none = some (circs, metas))
    (R B₀ : ℕ → ℕ → ℝ) (hR : IsNoise (2 ^ n) R) (hB : IsInv (2 ^ n) B₀ R) (g : ℝ) (hg : ∀ j < 2 ^ n, ∑ i ∈ Finset.range (2 ^ n), |B₀ i j| ≤ g)
    (cal : (Fin (2 ^ n) → Fin K → Fin (2 ^ n)) → ℕ → IntCounts) (hcal : ∀ κ (x : Fin (2 ^ n)), RecordsInt (κ x) (cal κ x))
    (nc : ℕ) (clbits : Option (List ℕ)) (T : List ℕ) (hT : Selects nc clbits T) (hl : T.length = n)
    (diagonal : Option (List ℝ)) (hd : UnitDiag n diagonal)
    (w : O → ℝ) (hw : IsDistr w) (out : O → Str) (p : ℕ → ℝ) (hdev : NoisyReadout w (fun o => readBits T (out o)) (2 ^ n) R R p 0)
    (c : (Fin N → O) → Counts) (hc : ∀ ω, Records nc out ω (c ω)) (η ε : ℝ) (hη : 0 < η) (hε : 0 < ε) (hlt : g * η < 1) :
    (∑ κ : Fin (2 ^ n) → Fin K → Fin (2 ^ n), ∑ ω : Fin N → O,
      if ∃ st A e, calibrationData (cal κ) metas = some st ∧ fitComplete (K := ℝ) st = some (n, A) ∧
        completeExpval inv A n (c ω) diagonal none clbits = some e ∧
        |e.1 - ∑ x ∈ Finset.range (2 ^ n), diagVal n diagonal x * p x| < g * (η + ε) / (1 - g * η) then 0 else calProb R κ * shotsProb w ω) ≤
      4 ^ n / (K * η ^ 2) + 2 * Real.exp (-(N * ε ^ 2 / 2)) := by
  have hpos : ∀ κ, 0 ≤ calProb (K := K) (dim := 2 ^ n) R κ := fun κ => Finset.prod_nonneg fun x _ => Finset.prod_nonneg fun k _ => (hR x x.2).1 _ (κ x k).2
  have hsp : ∀ ω : Fin N → O, 0 ≤ shotsProb w ω := fun ω => Finset.prod_nonneg fun k _ => hw.1 _
  have hs1 : ∑ ω : Fin N → O, shotsProb w ω = 1 := QV.draws_sum_one N w hw.2
  have hc1 : ∑ κ, calProb (K := K) (dim := 2 ^ n) R κ = 1 := by
    refine product_one (fun (x : Fin (2 ^ n)) (u : Fin K → Fin (2 ^ n)) => ∏ k, R (u k) x) fun x => ?_
    refine QV.draws_sum_one K (fun z : Fin (2 ^ n) => R z x) ?_
    rw [← (hR x x.2).2, Finset.sum_range]
  have hdim : 0 < 2 ^ n := by positivity
  have hg0 : 0 ≤ g := le_trans (Finset.sum_nonneg fun i _ => abs_nonneg _) (hg 0 hdim)
  set truth := ∑ x ∈ Finset.range (2 ^ n), diagVal n diagonal x * p x with htruth
  have hinner : ∀ κ : Fin (2 ^ n) → Fin K → Fin (2 ^ n), (∑ ω : Fin N → O,
      if ∃ st A e, calibrationData (cal κ) metas = some st ∧ fitComplete (K := ℝ) st = some (n, A) ∧
        completeExpval inv A n (c ω) diagonal none clbits = some e ∧ |e.1 - truth| < g * (η + ε) / (1 - g * η) then 0 else calProb R κ * shotsProb w ω) ≤
      (if ∃ x : Fin (2 ^ n), η ≤ ∑ y ∈ Finset.range (2 ^ n), |R y x - calShare (κ x) y| then calProb R κ else 0) +
        calProb R κ * (2 * Real.exp (-(N * ε ^ 2 / 2))) := by
    intro κ
    have hexp : 0 ≤ calProb R κ * (2 * Real.exp (-(N * ε ^ 2 / 2))) := mul_nonneg (hpos κ) (by positivity)
    by_cases hbad : ∃ x : Fin (2 ^ n), η ≤ ∑ y ∈ Finset.range (2 ^ n), |R y x - calShare (κ x) y|
    · rw [if_pos hbad]
      have : (∑ ω : Fin N → O, if ∃ st A e, calibrationData (cal κ) metas = some st ∧ fitComplete (K := ℝ) st = some (n, A) ∧
          completeExpval inv A n (c ω) diagonal none clbits = some e ∧ |e.1 - truth| < g * (η + ε) / (1 - g * η) then 0 else calProb R κ * shotsProb w ω) ≤
          ∑ ω : Fin N → O, calProb R κ * shotsProb w ω := by
        refine Finset.sum_le_sum fun ω _ => ?_
        split
        · exact mul_nonneg (hpos κ) (hsp ω)
        · exact le_rfl
      rw [← Finset.mul_sum, hs1, mul_one] at this
      linarith
    · rw [if_neg hbad, zero_add]
      obtain ⟨_, _, st, A, h1, _, h2, h3⟩ := C121_calibration n hn hK circs metas h κ (cal κ) (hcal κ)
      have hA : ∀ x < 2 ^ n, ∑ y ∈ Finset.range (2 ^ n), |R y x - A y x| ≤ η := by
        intro x hx
        have := not_le.1 fun h => hbad ⟨⟨x, hx⟩, h⟩
        rw [Finset.sum_congr rfl fun y hy => by rw [← h3 y (Finset.mem_range.1 hy) ⟨x, hx⟩]] at this
        exact this.le
      obtain ⟨B, est, hB1, hB2, he, hacc⟩ := C121_complete_all hN inv hinv A n nc clbits T hT hl diagonal hd
        (perturb_inv (2 ^ n) B₀ R A hB g η hg hg0 hA hlt) w hw out R p η ⟨hdev.nonneg, hdev.total, hdev.device, hA⟩ c hc
      set γ := completeGamma (2 ^ n) B with hγ
      have hγle : γ ≤ g / (1 - g * η) := by
        obtain ⟨_, j, hj, hj'⟩ := oneNorm_completeGamma (2 ^ n) hdim B
        rw [hγ, ← hj']
        exact perturb_norm (2 ^ n) B₀ R A B hB g η hg hg0 hA hlt hB2 j hj
      have hγpos : 0 < γ := by
        have hle := (oneNorm_completeGamma (2 ^ n) hdim B).1
        by_contra hn
        have hz : ∀ k < 2 ^ n, B 0 k = 0 := by
          intro k hk
          have h4 := Finset.single_le_sum (f := fun i => |B i k|) (fun i _ => abs_nonneg _) (Finset.mem_range.2 hdim)
          have h5 := hle k hk
          have : |B 0 k| ≤ 0 := by linarith
          exact abs_eq_zero.1 (le_antisymm this (abs_nonneg _))
        have := hB2 0 hdim 0 hdim
        rw [Finset.sum_eq_zero fun k hk => by rw [hz k (Finset.mem_range.1 hk), zero_mul]] at this
        simp at this
      have hh := hacc.hoeffding (γ * ε) (by positivity)
      have e1 : (N : ℝ) * (γ * ε) ^ 2 / (2 * γ ^ 2) = N * ε ^ 2 / 2 := by
        field_simp
      rw [e1] at hh
      refine le_trans ?_ (mul_le_mul_of_nonneg_left hh (hpos κ))
      rw [Finset.mul_sum]
      refine Finset.sum_le_sum fun ω _ => ?_
      by_cases hgood : |(est ω).1 - truth| < g * (η + ε) / (1 - g * η)
      · rw [if_pos ⟨st, A, est ω, h1, h2, he ω, hgood⟩]
        split
        · exact mul_nonneg (hpos κ) (hsp ω)
        · simp
      · have : γ * η + γ * ε ≤ |(est ω).1 - truth| := by
          refine le_trans ?_ (not_lt.1 hgood)
          rw [← mul_add, show g * (η + ε) / (1 - g * η) = g / (1 - g * η) * (η + ε) by ring]
          exact mul_le_mul_of_nonneg_right hγle (by positivity)
        rw [if_pos this]
        split
        · exact mul_nonneg (hpos κ) (hsp ω)
        · exact le_rfl
  refine le_trans (Finset.sum_le_sum fun κ _ => hinner κ) ?_
  rw [Finset.sum_add_distrib, ← Finset.sum_mul, hc1, one_mul]
  refine add_le_add_left ((calibration_error hK R hR η hη).trans (le_of_eq ?_)) _
  push_cast
  rw [← pow_mul, mul_comm n 2, pow_mul]
  norm_num

theorem exists_recordsInt {dim K : ℕ} (u : Fin K → Fin dim) : ∃ c, RecordsInt u c := by
  refine ⟨(List.range dim).map fun y => (y, ((Finset.univ.filter fun k => (u k : ℕ) = y).card : ℤ)), ?_, ?_, fun y => ?_⟩
  · unfold Dict.WF
    simpa [List.map_map, Function.comp_def] using List.nodup_range
  · intro kv hkv
    obtain ⟨y, hy, rfl⟩ := List.mem_map.1 hkv
    exact List.mem_range.1 hy
  · have hwf : Dict.WF ((List.range dim).map fun y => (y, ((Finset.univ.filter fun k => (u k : ℕ) = y).card : ℤ))) := by
      unfold Dict.WF
      simpa [List.map_map, Function.comp_def] using List.nodup_range
    by_cases hy : y < dim
    · rw [Dict.getD, Dict.get?_of_mem _ hwf y _ (List.mem_map.2 ⟨y, List.mem_range.2 hy, rfl⟩), Option.getD_some]
    · rw [Dict.getD, (Dict.get?_eq_none_iff _ _).2 (by simpa using hy), Option.getD_none, eq_comm, Int.natCast_eq_zero, Finset.card_eq_zero,
        Finset.filter_eq_empty_iff]
      intro k _ e
      exact hy (e ▸ (u k).2)

/-- Readout noise of the example device: `0` is misread with probability 1/10, `1` with probability 1/5. -/
noncomputable def exNoise : ℕ → ℕ → ℝ := fun y x => if x = 0 then (if y = 0 then 9 / 10 else 1 / 10) else (if y = 0 then 1 / 5 else 4 / 5)

/-- The example device reads `1` with probability 5/8 in a state that gives `1` with probability 3/4. -/
theorem exDevice (S : ℕ → ℕ → ℝ) (η : ℝ) (h : ∀ x < 2 ^ 1, ∑ y ∈ Finset.range (2 ^ 1), |exNoise y x - S y x| ≤ η) :
    NoisyReadout (fun o : Fin 2 => if o = 0 then (3 / 8 : ℝ) else 5 / 8) (fun o => readBits [0] (if o = 0 then ['0'] else ['1'])) (2 ^ 1) exNoise S
      (fun x => if x = 0 then 1 / 4 else 3 / 4) η where
  nonneg := fun x _ => by split <;> norm_num
  total := by norm_num [Finset.sum_range_succ]
  device := by
    intro y hy
    have h0 : readBits [0] ['0'] = 0 := by decide
    have h1 : readBits [0] ['1'] = 1 := by decide
    rw [Fin.sum_univ_two]
    have : y = 0 ∨ y = 1 := by omega
    rcases this with rfl | rfl <;> norm_num [h0, h1, Finset.sum_range_succ, exNoise]
  calibrated := h

theorem exDistr : IsDistr (fun o : Fin 2 => if o = 0 then (3 / 8 : ℝ) else 5 / 8) := by
  refine ⟨fun o => ?_, by norm_num [Fin.sum_univ_two]⟩
  fin_cases o <;> norm_num

open Classical in
/-- Non-vacuity of the theorems of this file: a qubit measured with these errors in a state that gives `1` with probability 3/4; `K` calibration shots per state
and `N` shots of the circuit estimate `⟨Z⟩ = -1/2` up to `22/59`, except with probability `400/K + 2 exp(-N/200)`. -/
theorem C121_experiment (K N : ℕ) (hK : 0 < K) (hN : 0 < N) : ∃ (inv : ℕ → Mat ℝ → Mat ℝ) (circs : List MeasMit.Circ) (metas : List Meta)
    (cal : (Fin (2 ^ 1) → Fin K → Fin (2 ^ 1)) → ℕ → IntCounts) (c : (Fin N → Fin 2) → Counts),
    InvCorrect inv ∧ mitigatorCircuits 1 "complete".toList none = some (circs, metas) ∧ (∀ κ (x : Fin (2 ^ 1)), RecordsInt (κ x) (cal κ x)) ∧
    (∀ ω, Records 1 (fun o : Fin 2 => if o = 0 then ['0'] else ['1']) ω (c ω)) ∧
    (∑ κ : Fin (2 ^ 1) → Fin K → Fin (2 ^ 1), ∑ ω : Fin N → Fin 2,
      if ∃ st A e, calibrationData (cal κ) metas = some st ∧ fitComplete (K := ℝ) st = some (1, A) ∧
        completeExpval inv A 1 (c ω) none none none = some e ∧ |e.1 - (-1 / 2)| < 22 / 59
      then 0 else calProb exNoise κ * shotsProb (fun o : Fin 2 => if o = 0 then (3 / 8 : ℝ) else 5 / 8) ω) ≤ 400 / K + 2 * Real.exp (-(N / 200)) := by
  obtain ⟨inv, hinv⟩ := exists_invCorrect (K := ℝ)
  obtain ⟨circs, metas, hm, -⟩ := (C18_labels 1 le_rfl "complete".toList).2.1 rfl
  choose cal0 hcal0 using fun u : Fin K → Fin (2 ^ 1) => exists_recordsInt u
  choose c hc using fun ω : Fin N → Fin 2 => exists_records (N := N) 1 (fun o : Fin 2 => if o = 0 then ['0'] else ['1']) (by decide) hN ω
  let cal : (Fin (2 ^ 1) → Fin K → Fin (2 ^ 1)) → ℕ → IntCounts := fun κ x => if h : x < 2 ^ 1 then cal0 (κ ⟨x, h⟩) else []
  have hcal : ∀ κ (x : Fin (2 ^ 1)), RecordsInt (κ x) (cal κ x) := by
    intro κ x
    simp only [cal, dif_pos x.2]
    exact hcal0 _
  refine ⟨inv, circs, metas, cal, c, hinv, hm, hcal, hc, ?_⟩
  have hx2 : ∀ x < 2 ^ 1, x = 0 ∨ x = 1 := by omega
  have hinv0 : IsInv (2 ^ 1) (inv22 exNoise) exNoise := inv22_isInv _ (by norm_num [exNoise])
  have := C121_end_to_end 1 le_rfl hK hN inv hinv circs metas hm exNoise (inv22 exNoise)
    (by
      intro x hx
      rcases hx2 x hx with rfl | rfl
      · refine ⟨fun y hy => ?_, by norm_num [Finset.sum_range_succ, exNoise]⟩
        rcases hx2 y hy with rfl | rfl <;> norm_num [exNoise]
      · refine ⟨fun y hy => ?_, by norm_num [Finset.sum_range_succ, exNoise]⟩
        rcases hx2 y hy with rfl | rfl <;> norm_num [exNoise])
    hinv0 (11 / 7) (by
      intro j hj
      rcases hx2 j hj with rfl | rfl <;> norm_num [Finset.sum_range_succ, exNoise, inv22, abs_of_pos, abs_of_neg])
    cal hcal 1 none [0] (by decide) rfl none (by intro d h; cases h) (fun o : Fin 2 => if o = 0 then (3 / 8 : ℝ) else 5 / 8)
    exDistr
    (fun o : Fin 2 => if o = 0 then ['0'] else ['1']) (fun x => if x = 0 then 1 / 4 else 3 / 4)
    (exDevice exNoise 0 (by simp)) c hc (1 / 10) (1 / 10) (by norm_num) (by norm_num) (by norm_num)
  have et : ∑ x ∈ Finset.range (2 ^ 1), diagVal 1 (none : Option (List ℝ)) x * (if x = 0 then (1 / 4 : ℝ) else 3 / 4) = -1 / 2 := by
    norm_num [Finset.sum_range_succ, diagVal]
  rw [et, show (11 / 7 : ℝ) * (1 / 10 + 1 / 10) / (1 - 11 / 7 * (1 / 10)) = 22 / 59 by norm_num] at this
  refine this.trans (le_of_eq ?_)
  congr 1
  · rw [show (K : ℝ) * (1 / 10) ^ 2 = K / 100 by ring]; field_simp; norm_num
  · congr 3; ring

/-- Non-vacuity of `C121_plain`, `C121_complete`, `C121_tensored` and `C121_required`: the same qubit with a calibration that takes both error rates to be
3/20, off by 1/10 in both columns. -/
example (N : ℕ) (hN : 400 ≤ N) : ∃ (inv : ℕ → Mat ℝ → Mat ℝ) (c : (Fin N → Fin 2) → Counts) (S : Mat ℝ) (e₁ e₂ e₃ : (Fin N → Fin 2) → ℝ × ℝ) (g₂ g₃ : ℝ), InvCorrect inv ∧
    (∀ ω, expectationValue (c ω) none none = some (e₁ ω)) ∧ (∀ ω, completeExpval inv S 1 (c ω) none (some [0]) none = some (e₂ ω)) ∧
    (∀ ω, tensoredExpval inv [S] (c ω) none none none = some (e₃ ω)) ∧
    Accurate (fun o : Fin 2 => if o = 0 then (3 / 8 : ℝ) else 5 / 8) e₁ (-1 / 4) 1 0 ∧
    Accurate (fun o : Fin 2 => if o = 0 then (3 / 8 : ℝ) else 5 / 8) e₂ (-1 / 2) g₂ (1 / 10) ∧
    Accurate (fun o : Fin 2 => if o = 0 then (3 / 8 : ℝ) else 5 / 8) e₃ (-1 / 2) g₃ (1 / 10) ∧ requiredShots (1 : ℝ) (1 / 10) ≤ N := by
  obtain ⟨inv, hinv⟩ := exists_invCorrect (K := ℝ)
  have hN' : 0 < N := by omega
  choose c hc using fun ω : Fin N → Fin 2 => exists_records (N := N) 1 (fun o : Fin 2 => if o = 0 then ['0'] else ['1']) (by decide) hN' ω
  let S : Mat ℝ := fun y x => if x = 0 then (if y = 0 then 17 / 20 else 3 / 20) else (if y = 0 then 3 / 20 else 17 / 20)
  have hS : ∀ x < 2 ^ 1, ∑ y ∈ Finset.range (2 ^ 1), |exNoise y x - S y x| ≤ 1 / 10 := by
    intro x hx
    have : x = 0 ∨ x = 1 := by omega
    rcases this with rfl | rfl <;> norm_num [Finset.sum_range_succ, exNoise, S, abs_of_pos, abs_of_neg]
  have hu : UnitDiag 1 (none : Option (List ℝ)) := by intro d h; cases h
  have hsel : Selects 1 none [0] := by decide
  have et : ∑ x ∈ Finset.range (2 ^ 1), diagVal 1 (none : Option (List ℝ)) x * (if x = 0 then (1 / 4 : ℝ) else 3 / 4) = -1 / 2 := by
    norm_num [Finset.sum_range_succ, diagVal]
  obtain ⟨e₁, h1, a1⟩ := C121_plain hN' 1 none [0] hsel none hu _ exDistr _ c hc
  have hsub : ∀ y < 2 ^ 1, ∀ x < 2 ^ 1, subNoise S 1 [0] y x = S y x := fun y hy x hx => subNoise_full S 1 y x hy hx
  have hprod : ∀ y < 2 ^ 1, ∀ x < 2 ^ 1, prodNoise [S] y x = S y x := by
    intro y hy x hx
    have h1 : y = 0 ∨ y = 1 := by omega
    have h2 : x = 0 ∨ x = 1 := by omega
    rcases h1 with rfl | rfl <;> rcases h2 with rfl | rfl <;> simp [prodNoise]
  have hri : ∃ B, IsInv (2 ^ [0].length) B (subNoise S 1 [0]) := by
    refine ⟨inv22 S, fun i hi j hj => ?_⟩
    have := inv22_isInv S (by norm_num [S]) i hi j hj
    rw [← this]
    exact Finset.sum_congr rfl fun k hk => by rw [hsub k (Finset.mem_range.1 hk) j hj]
  obtain ⟨B, e₂, -, h2, a2⟩ := C121_complete hN' inv hinv S 1 1 none [0] hsel [0] [0] (by simp) (List.Perm.refl _) (by simp) rfl none hu hri _ exDistr _ exNoise
    (fun x => if x = 0 then 1 / 4 else 3 / 4) (1 / 10)
    (by
      have := exDevice (subNoise S 1 [0]) (1 / 10) fun x hx => by
        rw [Finset.sum_congr rfl fun y hy => by rw [hsub y (Finset.mem_range.1 hy) x hx]]
        exact hS x hx
      have e : (fun o : Fin 2 => readQubits [0] [0] (if o = 0 then ['0'] else ['1'])) = fun o => readBits [0] (if o = 0 then ['0'] else ['1']) := by
        funext o; fin_cases o <;> decide
      rw [e]
      exact this) c hc
  obtain ⟨g₃, e₃, -, h3, a3⟩ := C121_tensored hN' inv hinv [S] 1 none [0] hsel none [S] rfl rfl
    (by
      intro a ha
      rw [List.mem_singleton] at ha
      subst ha
      exact ⟨3 / 20, 3 / 20, by constructor <;> norm_num [S]⟩) none hu _ exDistr _ exNoise (fun x => if x = 0 then 1 / 4 else 3 / 4) (1 / 10)
    (exDevice (prodNoise [S]) (1 / 10) fun x hx => by
      rw [Finset.sum_congr rfl fun y hy => by rw [hprod y (Finset.mem_range.1 hy) x hx]]
      exact hS x hx) c hc
  refine ⟨inv, c, S, e₁, e₂, e₃, _, g₃, hinv, h1, h2, h3, ?_, et ▸ a2, et ▸ a3, ?_⟩
  · have : ∑ o : Fin 2, (if o = 0 then (3 / 8 : ℝ) else 5 / 8) * observable none [0] (if o = 0 then ['0'] else ['1']) = -1 / 4 := by
      have h0 : onesOn [0] ['0'] = 0 := by decide
      have h1 : onesOn [0] ['1'] = 1 := by decide
      rw [Fin.sum_univ_two]
      norm_num [observable, h0, h1]
    exact this ▸ a1
  · unfold requiredShots
    rw [Int.ceil_le]
    have : (400 : ℝ) ≤ N := by exact_mod_cast hN
    push_cast
    norm_num
    exact hN

end Verif.Expval
