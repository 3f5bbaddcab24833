import Verif.RB.LemmasTwirl
import Verif.RB.LemmasNoise2
import Verif.RB.Instances
import Verif.Accred.LemmasFrame
import Mathlib.LinearAlgebra.Matrix.ToLin
import Mathlib.LinearAlgebra.Matrix.NonsingularInverse
set_option linter.unusedSimpArgs false
set_option linter.unusedVariables false
set_option linter.unusedSectionVars false
/-
Operations that commute with the Pauli operators and with the gates of a group.
-/
namespace Verif.RB
open Verif.Quantum Matrix

variable {n : ℕ}

/-- Operations on operators. -/
abbrev Sup (n : ℕ) := Module.End ℂ (Op n)

/-- `ρ ↦ U ρ U†`. -/
noncomputable def Ad (U : Op n) : Sup n where
  toFun ρ := U * ρ * Uᴴ
  map_add' ρ σ := by rw [Matrix.mul_add, Matrix.add_mul]
  map_smul' z ρ := by simp

theorem Ad_apply (U ρ : Op n) : Ad U ρ = U * ρ * Uᴴ := rfl

theorem Ad_mul (U V : Op n) : Ad (U * V) = Ad U * Ad V := by
  refine LinearMap.ext fun ρ => ?_
  rw [Module.End.mul_apply, Ad_apply, Ad_apply, Ad_apply, conjTranspose_mul]
  simp only [Matrix.mul_assoc]

theorem Ad_one : Ad (1 : Op n) = 1 := by
  refine LinearMap.ext fun ρ => ?_
  rw [Ad_apply]; simp

theorem Ad_phase (z : ℂ) (hz : ‖z‖ = 1) (U : Op n) : Ad (z • U) = Ad U := by
  refine LinearMap.ext fun ρ => ?_
  rw [Ad_apply, Ad_apply, conjTranspose_smul]
  simp only [Matrix.smul_mul, Matrix.mul_smul, smul_smul]
  have : star z * z = 1 := by
    have := Complex.normSq_eq_conj_mul_self (z := z)
    rw [Complex.normSq_eq_norm_sq, hz] at this
    simpa using this.symm
  rw [this, one_smul]

/-! ### Matrices of circuits -/

theorem opMat_mulVec {c : List Ins} (hc : ∀ i ∈ c, Ok n i) (ψ : State (Fin n) ℂ) : (opMat n c).mulVec ψ = run n c ψ := by
  rw [run_ket c hc]
  funext y
  simp only [Matrix.mulVec, dotProduct, opMat]
  exact Finset.sum_congr rfl fun x _ => mul_comm _ _

theorem op_ext {A B : Op n} (h : ∀ ψ, A.mulVec ψ = B.mulVec ψ) : A = B := by
  ext y x
  have := congrFun (h (Pi.single x 1)) y
  simpa using this

theorem opMat_append {c d : List Ins} (hc : ∀ i ∈ c, Ok n i) (hd : ∀ i ∈ d, Ok n i) : opMat n (c ++ d) = opMat n d * opMat n c := by
  refine op_ext fun ψ => ?_
  rw [← Matrix.mulVec_mulVec, opMat_mulVec hc, opMat_mulVec hd, opMat_mulVec, run_append]
  intro i hi
  rcases List.mem_append.1 hi with h | h
  · exact hc i h
  · exact hd i h

theorem opMat_nil : opMat n [] = 1 := by
  refine op_ext fun ψ => ?_
  rw [opMat_mulVec (by simp), Matrix.one_mulVec]
  rfl

theorem opMat_same {c d : List Ins} (h : Same n c d) : ∃ z : ℂ, ‖z‖ = 1 ∧ opMat n c = z • opMat n d := by
  obtain ⟨z, hz, h⟩ := h
  refine ⟨z, hz, ?_⟩
  ext y x
  simp [opMat, h]

theorem same_opMat {c d : List Ins} (hc : ∀ i ∈ c, Ok n i) (hd : ∀ i ∈ d, Ok n i) {z : ℂ} (hz : ‖z‖ = 1) (h : opMat n c = z • opMat n d) : Same n c d := by
  refine same_of_kets hc hd hz fun b => ?_
  funext y
  have := congrFun (congrFun h y) b
  simpa [opMat] using this

theorem opMat_unitary {c : List Ins} (hc : ∀ i ∈ c, Ok n i) : (opMat n c)ᴴ * opMat n c = 1 := by
  ext y x
  have := inner_run c hc (ket y) (ket x)
  unfold Quantum.inner at this
  rw [Matrix.mul_apply, Matrix.one_apply]
  simp only [Matrix.conjTranspose_apply, opMat]
  refine Eq.trans this ?_
  unfold ket
  rw [Finset.sum_eq_single y]
  · simp
  · intro b _ hb; simp [hb]
  · intro h; exact absurd (Finset.mem_univ _) h

theorem opMat_unitary' {c : List Ins} (hc : ∀ i ∈ c, Ok n i) : opMat n c * (opMat n c)ᴴ = 1 :=
  mul_eq_one_comm.1 (opMat_unitary hc)

/-- Conjugation by a circuit, as an invertible operation. -/
noncomputable def adU {c : List Ins} (hc : ∀ i ∈ c, Ok n i) : (Sup n)ˣ where
  val := Ad (opMat n c)
  inv := Ad (opMat n c)ᴴ
  val_inv := by rw [← Ad_mul, opMat_unitary' hc, Ad_one]
  inv_val := by rw [← Ad_mul, opMat_unitary hc, Ad_one]

theorem adU_same {c d : List Ins} (hc : ∀ i ∈ c, Ok n i) (hd : ∀ i ∈ d, Ok n i) (h : Same n c d) : adU hc = adU hd := by
  obtain ⟨z, hz, h⟩ := opMat_same h
  ext1
  show Ad _ = Ad _
  rw [h, Ad_phase z hz]

theorem adU_append {c d : List Ins} (hc : ∀ i ∈ c, Ok n i) (hd : ∀ i ∈ d, Ok n i) (hcd : ∀ i ∈ c ++ d, Ok n i) : adU hcd = adU hd * adU hc := by
  ext1
  show Ad _ = Ad _ * Ad _
  rw [opMat_append hc hd, Ad_mul]

/-! ### Pauli operators -/

/-- The matrix of `Z^a X^b`. -/
def P (a b : Basis (Fin n)) : Op n := fun y x => if x = bxor y b then sgn a y else 0

theorem P_mulVec (a b : Basis (Fin n)) (ψ : State (Fin n) ℂ) : (P a b).mulVec ψ = pauli a b ψ := by
  funext y
  simp only [Matrix.mulVec, dotProduct, P, pauli]
  rw [Finset.sum_eq_single (bxor y b)]
  · simp
  · intro x _ hx; simp [hx]
  · intro h; exact absurd (Finset.mem_univ _) h

theorem bxor_bxor (y b : Basis (Fin n)) : bxor (bxor y b) b = y := by rw [bxor_assoc, bxor_self, bxor_zero]

theorem conj_sgn (a y : Basis (Fin n)) : star (sgn a y : ℂ) = sgn a y := by
  rcases sgn_pm (K := ℂ) a y with h | h <;> rw [h] <;> simp

/-- Entries of a conjugated operator. -/
theorem AdP_apply (c d : Basis (Fin n)) (M : Op n) (y x : Basis (Fin n)) :
    Ad (P c d) M y x = sgn c y * M (bxor y d) (bxor x d) * sgn c x := by
  rw [Ad_apply, Matrix.mul_apply, Finset.sum_eq_single (bxor x d)]
  · rw [Matrix.mul_apply, Finset.sum_eq_single (bxor y d)]
    · simp [P, Matrix.conjTranspose_apply, conj_sgn]
    · intro z _ hz; simp [P, hz]
    · intro h; exact absurd (Finset.mem_univ _) h
  · intro z _ hz
    simp [P, Matrix.conjTranspose_apply, hz]
  · intro h; exact absurd (Finset.mem_univ _) h

theorem AdP_P (c d a b : Basis (Fin n)) : Ad (P c d) (P a b) = ((sgn c b : ℂ) * sgn a d) • P a b := by
  ext y x
  rw [AdP_apply]
  simp only [P, Matrix.smul_apply, smul_eq_mul]
  have h1 : bxor x d = bxor (bxor y d) b ↔ x = bxor y b := by
    constructor
    · intro h
      have := congrArg (fun z => bxor z d) h
      simp only [bxor_bxor] at this
      rw [this, bxor_assoc, bxor_assoc, bxor_comm b d, ← bxor_assoc, ← bxor_assoc, bxor_bxor]
    · rintro rfl
      rw [bxor_assoc, bxor_assoc, bxor_comm b d]
  by_cases h : x = bxor y b
  · rw [if_pos (h1.2 h), if_pos h, h, sgn_bxor_right, sgn_bxor_right]
    have := sgn_sq (K := ℂ) c y
    linear_combination (sgn a y * sgn a d * sgn c b) * this
  · rw [if_neg fun h' => h (h1.1 h'), if_neg h]; ring

/-- Every assignment is reached from 0 by flipping bits. -/
theorem basis_induct {p : Basis (Fin n) → Prop} (h0 : p fun _ => false) (hs : ∀ d q, p d → p (bxor d (unit q true))) (d : Basis (Fin n)) : p d := by
  suffices ∀ (s : Finset (Fin n)) (d : Basis (Fin n)), (∀ q, d q = true → q ∈ s) → p d from this Finset.univ d (by simp)
  intro s
  induction s using Finset.induction_on with
  | empty =>
    intro d hd
    have : d = fun _ => false := by
      funext q
      cases h : d q
      · rfl
      · exact absurd (hd q h) (by simp)
    rw [this]; exact h0
  | insert q s hq ih =>
    intro d hd
    cases h : d q
    · refine ih d fun q' hq' => ?_
      rcases Finset.mem_insert.1 (hd q' hq') with rfl | h'
      · rw [h] at hq'; cases hq'
      · exact h'
    · have e : d = bxor (bxor d (unit q true)) (unit q true) := (bxor_bxor _ _).symm
      rw [e]
      refine hs _ q (ih _ fun q' hq' => ?_)
      rw [bxor_unit, h] at hq'
      by_cases e' : q' = q
      · subst e'; simp at hq'
      · rw [Function.update_of_ne e'] at hq'
        exact (Finset.mem_insert.1 (hd q' hq')).resolve_left e'

/-- An operation that commutes with conjugation by X and Z on every qubit is diagonal in the Pauli operators. -/
theorem diag_of_comm {T : Sup n} (hX : ∀ q, T * Ad (P (fun _ => false) (unit q true)) = Ad (P (fun _ => false) (unit q true)) * T)
    (hZ : ∀ q, T * Ad (P (unit q true) fun _ => false) = Ad (P (unit q true) fun _ => false) * T) (a b : Basis (Fin n)) : ∃ t : ℂ, T (P a b) = t • P a b := by
  set X := T (P a b) with hX'
  have kz : ∀ q y x, (if y q then (-1 : ℂ) else 1) * X y x * (if x q then (-1 : ℂ) else 1) = (if b q then (-1 : ℂ) else 1) * X y x := by
    intro q y x
    have h1 := congrArg (fun f : Sup n => f (P a b)) (hZ q)
    simp only [Module.End.mul_apply, AdP_P, map_smul] at h1
    have h2 := congrFun (congrFun h1 y) x
    rw [AdP_apply] at h2
    simp only [Matrix.smul_apply, smul_eq_mul, sgn_unit, sgn_zero_right, bxor_zero, Bool.true_and, mul_one] at h2
    exact h2.symm
  have kx : ∀ q y x, X (bxor y (unit q true)) (bxor x (unit q true)) = (if a q then (-1 : ℂ) else 1) * X y x := by
    intro q y x
    have h1 := congrArg (fun f : Sup n => f (P a b)) (hX q)
    simp only [Module.End.mul_apply, AdP_P, map_smul] at h1
    have h2 := congrFun (congrFun h1 y) x
    rw [AdP_apply] at h2
    simp only [Matrix.smul_apply, smul_eq_mul, sgn_zero_left, one_mul, mul_one, Accred.sgn_comm' a, sgn_unit, Bool.true_and] at h2
    exact h2.symm
  have kx' : ∀ d y x, X (bxor y d) (bxor x d) = sgn a d * X y x := by
    intro d
    induction d using basis_induct with
    | h0 => intro y x; simp [bxor_zero, sgn_zero_right]
    | hs d q ih =>
      intro y x
      rw [← bxor_assoc, ← bxor_assoc, kx, ih, sgn_bxor_right, Accred.sgn_comm' a (unit q true), sgn_unit, Bool.true_and]; ring
  refine ⟨X (fun _ => false) b, ?_⟩
  ext y x
  simp only [P, Matrix.smul_apply, smul_eq_mul]
  by_cases h : x = bxor y b
  · rw [if_pos h]
    have := kx' y (fun _ => false) b
    rw [h, mul_comm, ← this, bxor_comm (fun _ => false) y, bxor_zero, bxor_comm y b]
  · rw [if_neg h, mul_zero]
    obtain ⟨q, hq⟩ : ∃ q, x q ≠ bxor y b q := by
      by_contra hc
      push Not at hc
      exact h (funext hc)
    have := kz q y x
    have hne : ∀ u v w : Bool, v ≠ Bool.xor u w → (if u then (-1 : ℂ) else 1) * X y x * (if v then (-1 : ℂ) else 1) = (if w then (-1 : ℂ) else 1) * X y x → X y x = 0 := by
      intro u v w h1 h2
      cases u <;> cases v <;> cases w <;> simp at h1 h2
      all_goals first
        | exact absurd h1 (by decide)
        | linear_combination (1 / 2 : ℂ) * h2
        | linear_combination (-1 / 2 : ℂ) * h2
        | (have h3 : X y x + X y x = 0 := by linear_combination h2
           linear_combination (1 / 2 : ℂ) * h3)
        | (have h3 : X y x + X y x = 0 := by linear_combination - h2
           linear_combination (1 / 2 : ℂ) * h3)
    exact hne _ _ _ hq this

/-- The Pauli operators span all operators. -/
theorem ext_pauli {T T' : Sup n} (h : ∀ a b, T (P a b) = T' (P a b)) : T = T' := by
  have e : ∀ y b : Basis (Fin n), (Matrix.single y (bxor y b) 1 : Op n) = ((2 : ℂ) ^ n)⁻¹ • ∑ a, (sgn a y : ℂ) • P a b := by
    intro y b
    ext y' x'
    rw [Matrix.smul_apply, Matrix.sum_apply]
    simp only [Matrix.smul_apply, smul_eq_mul, P, Matrix.single_apply]
    by_cases hx : x' = bxor y' b
    · simp only [if_pos hx]
      rw [sum_sgn]
      by_cases hy : y = y'
      · subst hy; simp [hx]
      · simp [hy]
    · simp only [if_neg hx, mul_zero, Finset.sum_const_zero]
      rw [if_neg]
      rintro ⟨rfl, rfl⟩
      exact hx rfl
  refine LinearMap.ext fun ρ => ?_
  rw [Matrix.matrix_eq_sum_single ρ]
  simp only [map_sum]
  refine Finset.sum_congr rfl fun y _ => Finset.sum_congr rfl fun x _ => ?_
  have hx : x = bxor y (bxor y x) := by rw [← bxor_assoc, bxor_self, bxor_comm, bxor_zero]
  have hs : (Matrix.single y x (ρ y x) : Op n) = ρ y x • Matrix.single y (bxor y (bxor y x)) 1 := by
    rw [← hx, Matrix.smul_single, smul_eq_mul, mul_one]
  rw [hs, e, map_smul, map_smul, map_smul, map_smul, map_sum, map_sum]
  simp only [map_smul, h]

end Verif.RB
