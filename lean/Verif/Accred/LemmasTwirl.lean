import Verif.Accred.SpecNoise
import Mathlib.Data.Fintype.BigOperators
import Mathlib.Tactic.FieldSimp
set_option linter.unusedSectionVars false
/-
Averaging over the pads turns noise into random Pauli errors.
-/
namespace Verif.Accred
open Verif Verif.Quantum Finset

variable {n : ℕ} {κ : Type} [Fintype κ]

/-- Pauli operators by their bits `(z, x)`. -/
abbrev PP (n : ℕ) := Basis (Fin n) × Basis (Fin n)

/-- A Pauli operator as a linear map. -/
noncomputable def pauliL (p : PP n) : State (Fin n) ℂ →ₗ[ℂ] State (Fin n) ℂ where
  toFun := pauli p.1 p.2
  map_add' ψ φ := by funext x; simp only [pauli, Pi.add_apply]; ring
  map_smul' c ψ := by funext x; simp only [pauli, Pi.smul_apply, smul_eq_mul, RingHom.id_apply]; ring

theorem applyGate_add (g : Gate n) (ψ φ : State (Fin n) ℂ) : applyGate g (ψ + φ) = applyGate g ψ + applyGate g φ := by
  rcases g.kind with ⟨m1, q1, e1, s1⟩ | ⟨c1, t1, e1, s1⟩ | ⟨c1, t1, e1, s1⟩ | e1 <;> rw [e1]
  · funext x; simp only [app1, Pi.add_apply]; ring
  · rfl
  · funext x; simp only [appCZ, Pi.add_apply]; split <;> ring
  · rfl

theorem applyGate_smul' (g : Gate n) (c : ℂ) (ψ : State (Fin n) ℂ) : applyGate g (c • ψ) = c • applyGate g ψ :=
  applyGate_smul g c ψ

theorem sem_add (l : List (Gate n)) (ψ φ : State (Fin n) ℂ) : sem l (ψ + φ) = sem l ψ + sem l φ := by
  induction l generalizing ψ φ with
  | nil => rfl
  | cons g l ih => rw [sem_cons, applyGate_add, ih]; rfl

/-- A circuit as a linear map. -/
noncomputable def semL (l : List (Gate n)) : State (Fin n) ℂ →ₗ[ℂ] State (Fin n) ℂ where
  toFun := sem l
  map_add' := sem_add l
  map_smul' c ψ := sem_smul l c ψ

/-- An operation on the qubits only. -/
def onSys (f : State (Fin n) ℂ →ₗ[ℂ] State (Fin n) ℂ) : Joint κ n →ₗ[ℂ] Joint κ n where
  toFun Ψ k := f (Ψ k)
  map_add' Ψ Φ := by funext k; simp
  map_smul' c Ψ := by funext k; simp

/-- An operation on the environment only. -/
def onEnv (f : (κ → ℂ) →ₗ[ℂ] κ → ℂ) : Joint κ n →ₗ[ℂ] Joint κ n where
  toFun Ψ k x := f (fun k' => Ψ k' x) k
  map_add' Ψ Φ := by funext k x; exact congrFun (f.map_add (fun k' => Ψ k' x) (fun k' => Φ k' x)) k
  map_smul' c Ψ := by funext k x; exact congrFun (f.map_smul c (fun k' => Ψ k' x)) k

/-- The part of an operation that leads from the outcome `y'` to `y`. -/
def block (M : Joint κ n →ₗ[ℂ] Joint κ n) (y y' : Basis (Fin n)) : (κ → ℂ) →ₗ[ℂ] κ → ℂ where
  toFun v k := M (fun k' x => if x = y' then v k' else 0) k y
  map_add' v w := by
    funext k
    rw [Pi.add_apply, ← Pi.add_apply (M _ k), ← Pi.add_apply (M _), ← M.map_add]
    refine congrFun (congrFun (congrArg M ?_) k) y
    funext k' x
    simp only [Pi.add_apply]
    split <;> simp
  map_smul' c v := by
    funext k
    rw [RingHom.id_apply, Pi.smul_apply, ← Pi.smul_apply c (M _ k), ← Pi.smul_apply c (M _), ← M.map_smul]
    refine congrFun (congrFun (congrArg M ?_) k) y
    funext k' x
    simp only [Pi.smul_apply]
    split <;> simp

/-- The operation on the environment that goes with the Pauli operator `p` on the qubits. -/
noncomputable def coef (M : Joint κ n →ₗ[ℂ] Joint κ n) (p : PP n) : (κ → ℂ) →ₗ[ℂ] κ → ℂ :=
  ((1 : ℂ) / 2 ^ n) • ∑ y, (sgn p.1 y : ℂ) • block M y (bxor y p.2)

theorem sgn_comm' (a b : Basis (Fin n)) : (sgn a b : ℂ) = sgn b a := by
  unfold sgn; simp only [Bool.and_comm]

/-- Orthogonality of the characters. -/
theorem sum_sgn (a : Basis (Fin n)) : ∑ y, (sgn a y : ℂ) = if a = fun _ => false then 2 ^ n else 0 := by
  split
  · next h => subst h; simp [sgn_zero_left]
  · next h =>
    obtain ⟨q, hq⟩ : ∃ q, a q = true := by
      by_contra hc
      exact h (funext fun q => by simpa using fun hq => hc ⟨q, hq⟩)
    have e : ∑ y, (sgn a y : ℂ) = ∑ y, (sgn a (bxor y (Quantum.unit q true)) : ℂ) :=
      (Equiv.sum_comp (Function.Involutive.toPerm (fun y => bxor y (Quantum.unit q true)) fun y => by
        dsimp only; rw [bxor_assoc, bxor_self, bxor_zero]) fun y => (sgn a y : ℂ)).symm
    simp only [sgn_bxor_right] at e
    rw [← sum_mul, sgn_comm' a (Quantum.unit q true), sgn_unit, hq] at e
    simp at e
    have : (2 : ℂ) * ∑ y, (sgn a y : ℂ) = 0 := by linear_combination e
    simpa using this

theorem bxor_eq_zero {a b : Basis (Fin n)} : (bxor a b = fun _ => false) ↔ a = b := by
  constructor
  · intro h
    funext q
    have := congrFun h q
    simpa [bxor] using this
  · rintro rfl; exact bxor_self _

theorem bxor_cancel (a b : Basis (Fin n)) : bxor (bxor a b) b = a := by rw [bxor_assoc, bxor_self, bxor_zero]

theorem sum_sgn_sgn (a b : Basis (Fin n)) : ∑ y, (sgn a y : ℂ) * sgn b y = if a = b then 2 ^ n else 0 := by
  simp only [← sgn_bxor_left, sum_sgn, bxor_eq_zero]

/-- The expansion of an operation in Pauli operators. -/
theorem expand (M : Joint κ n →ₗ[ℂ] Joint κ n) (Ψ : Joint κ n) :
    M Ψ = ∑ p : PP n, onSys (pauliL p) (onEnv (coef M p) Ψ) := by
  have h1 : ∀ y k, M Ψ k y = ∑ y', block M y y' (fun k' => Ψ k' y') k := by
    intro y k
    have : Ψ = ∑ y', fun k' x => if x = y' then Ψ k' y' else 0 := by
      funext k' x
      rw [Finset.sum_apply, Finset.sum_apply]
      simp
    conv_lhs => rw [this]
    rw [map_sum, Finset.sum_apply, Finset.sum_apply]
    rfl
  funext k y
  rw [h1, Finset.sum_apply, Finset.sum_apply, Fintype.sum_prod_type, sum_comm]
  have h2 : ∀ b, ∑ a, onSys (pauliL (a, b)) (onEnv (coef M (a, b)) Ψ) k y = block M y (bxor y b) (fun k' => Ψ k' (bxor y b)) k := by
    intro b
    have h3 : ∀ a, onSys (pauliL (a, b)) (onEnv (coef M (a, b)) Ψ) k y =
        ∑ y', (1 : ℂ) / 2 ^ n * ((sgn a y * sgn a y') * block M y' (bxor y' b) (fun k' => Ψ k' (bxor y b)) k) := by
      intro a
      show (sgn a y : ℂ) * (coef M (a, b) (fun k' => Ψ k' (bxor y b)) k) = _
      simp only [coef, LinearMap.smul_apply, LinearMap.sum_apply, Pi.smul_apply, Finset.sum_apply, smul_eq_mul, mul_sum]
      refine sum_congr rfl fun y' _ => ?_
      ring
    simp only [h3]
    rw [sum_comm]
    simp only [← mul_sum, ← sum_mul]
    have h4 : ∀ y', ∑ a, (sgn a y : ℂ) * sgn a y' = if y = y' then 2 ^ n else 0 := by
      intro y'
      rw [← sum_sgn_sgn]
      exact sum_congr rfl fun a _ => by rw [sgn_comm', sgn_comm' a y']
    simp only [h4, ite_mul, zero_mul, sum_ite_eq, mem_univ, if_true]
    field_simp
  simp only [h2]
  exact (Equiv.sum_comp (Function.Involutive.toPerm (fun b => bxor y b) fun b => by
    dsimp only; rw [← bxor_assoc, bxor_self, bxor_comm, bxor_zero]) fun y' => block M y y' (fun k' => Ψ k' y') k).symm

/-- The sign between two Pauli operators. -/
noncomputable def chi (q p : PP n) : ℂ := sgn q.1 p.2 * sgn p.1 q.2

/-- An operation between a pad and its removal. -/
noncomputable def conj (q : PP n) (M : Joint κ n →ₗ[ℂ] Joint κ n) : Joint κ n →ₗ[ℂ] Joint κ n :=
  (sgn q.1 q.2 : ℂ) • onSys (pauliL q) ∘ₗ M ∘ₗ onSys (pauliL q)

theorem pauliL_sq (q : PP n) (ψ : State (Fin n) ℂ) : pauliL q (pauliL q ψ) = (sgn q.1 q.2 : ℂ) • ψ := by
  funext x
  show (sgn q.1 x : ℂ) * (sgn q.1 (bxor x q.2) * ψ (bxor (bxor x q.2) q.2)) = sgn q.1 q.2 * ψ x
  rw [bxor_cancel, sgn_bxor_right]
  linear_combination (sgn q.1 q.2 * ψ x) * sgn_sq (K := ℂ) q.1 x

theorem pauliL_comm (q p : PP n) (ψ : State (Fin n) ℂ) : pauliL q (pauliL p ψ) = chi q p • pauliL p (pauliL q ψ) := by
  funext x
  show (sgn q.1 x : ℂ) * (sgn p.1 (bxor x q.2) * ψ (bxor (bxor x q.2) p.2)) =
    chi q p * (sgn p.1 x * (sgn q.1 (bxor x p.2) * ψ (bxor (bxor x p.2) q.2)))
  rw [sgn_bxor_right, sgn_bxor_right, bxor_assoc, bxor_assoc, bxor_comm q.2, chi]
  linear_combination (-(sgn q.1 x * sgn p.1 x * sgn p.1 q.2 * ψ (bxor x (bxor p.2 q.2)))) * sgn_sq (K := ℂ) q.1 p.2

theorem conj_expand (q : PP n) (M : Joint κ n →ₗ[ℂ] Joint κ n) (Ψ : Joint κ n) :
    conj q M Ψ = ∑ p : PP n, chi q p • onSys (pauliL p) (onEnv (coef M p) Ψ) := by
  show (sgn q.1 q.2 : ℂ) • onSys (pauliL q) (M (onSys (pauliL q) Ψ)) = _
  rw [expand M, map_sum, smul_sum]
  refine sum_congr rfl fun p _ => ?_
  funext k
  show (sgn q.1 q.2 : ℂ) • pauliL q (pauliL p (onEnv (coef M p) (onSys (pauliL q) Ψ) k)) = chi q p • pauliL p (onEnv (coef M p) Ψ k)
  have : onEnv (coef M p) (onSys (pauliL q) Ψ) k = pauliL q (onEnv (coef M p) Ψ k) := by
    funext x
    show coef M p (fun k' => sgn q.1 x * Ψ k' (bxor x q.2)) k = sgn q.1 x * coef M p (fun k' => Ψ k' (bxor x q.2)) k
    exact congrFun ((coef M p).map_smul (sgn q.1 x) fun k' => Ψ k' (bxor x q.2)) k
  rw [this, pauliL_comm q p, pauliL_sq, map_smul, smul_smul, smul_smul]
  congr 1
  linear_combination chi q p * sgn_sq (K := ℂ) q.1 q.2

theorem chi_orth (p p' : PP n) : ∑ q : PP n, chi q p * chi q p' = if p = p' then 4 ^ n else 0 := by
  rw [Fintype.sum_prod_type]
  have : ∀ z x : Basis (Fin n), chi (z, x) p * chi (z, x) p' = (sgn p.2 z * sgn p'.2 z) * (sgn p.1 x * sgn p'.1 x) := by
    intro z x
    simp only [chi]
    rw [sgn_comm' z, sgn_comm' z]
    ring
  simp only [this, ← mul_sum, ← sum_mul, sum_sgn_sgn]
  rw [show (4 : ℂ) = 2 * 2 by norm_num, mul_pow]
  by_cases h1 : p.1 = p'.1 <;> by_cases h2 : p.2 = p'.2 <;> simp [h1, h2, Prod.ext_iff]

/-- Squared norm. -/
noncomputable def nrm2 {ι : Type} [Fintype ι] (v : ι → ℂ) : ℝ := ∑ k, Complex.normSq (v k)

theorem parseval {Q P ι : Type} [Fintype Q] [Fintype P] [DecidableEq P] [Fintype ι] (χ : Q → P → ℂ) (hr : ∀ q p, (starRingEnd ℂ) (χ q p) = χ q p)
    (N : ℝ) (hχ : ∀ p p', ∑ q, χ q p * χ q p' = if p = p' then (N : ℂ) else 0) (v : P → ι → ℂ) :
    ∑ q, nrm2 (∑ p, χ q p • v p) = N * ∑ p, nrm2 (v p) := by
  unfold nrm2
  rw [sum_comm, mul_sum]
  have : ∀ k, ∑ q, Complex.normSq ((∑ p, χ q p • v p) k) = N * ∑ p, Complex.normSq (v p k) := by
    intro k
    apply Complex.ofReal_injective
    push_cast
    simp only [← Complex.mul_conj, Finset.sum_apply, Pi.smul_apply, smul_eq_mul, map_sum, map_mul, hr]
    have : ∀ q, (∑ p, χ q p * v p k) * ∑ p, χ q p * (starRingEnd ℂ) (v p k) =
        ∑ p, ∑ p', (χ q p * χ q p') * (v p k * (starRingEnd ℂ) (v p' k)) := by
      intro q
      rw [sum_mul_sum]
      exact sum_congr rfl fun p _ => sum_congr rfl fun p' _ => by ring
    simp only [this]
    rw [sum_comm, mul_sum]
    refine sum_congr rfl fun p _ => ?_
    rw [sum_comm]
    simp only [← sum_mul, hχ]
    simp
  simp only [this]
  rw [← mul_sum, sum_comm, ← mul_sum]

theorem sgn_real (a b : Basis (Fin n)) : (starRingEnd ℂ) (sgn a b : ℂ) = sgn a b := by
  rcases sgn_pm (K := ℂ) a b with h | h <;> simp [h]

/-- One pad: the average over the pad is a sum over Pauli errors. -/
theorem twirl {ι : Type} [Fintype ι] (M : Joint κ n →ₗ[ℂ] Joint κ n) (F : Joint κ n →ₗ[ℂ] ι → ℂ) (Ψ : Joint κ n) :
    ∑ q : PP n, nrm2 (F (conj q M Ψ)) = 4 ^ n * ∑ p : PP n, nrm2 (F (onSys (pauliL p) (onEnv (coef M p) Ψ))) := by
  have := parseval (fun q p : PP n => chi q p) (fun q p => by simp [chi, sgn_real]) (4 ^ n) (by simpa using chi_orth (n := n))
    fun p => F (onSys (pauliL p) (onEnv (coef M p) Ψ))
  rw [← this]
  refine sum_congr rfl fun q _ => ?_
  rw [conj_expand, map_sum]
  simp only [map_smul]

/-- The pad of the preparation: the average over the Z operators is a sum over the basis states. -/
theorem twirl_prep {ι : Type} [Fintype ι] (F : Joint κ n →ₗ[ℂ] ι → ℂ) (Ψ : Joint κ n) :
    ∑ z : Basis (Fin n), nrm2 (F (onSys (pauliL (z, fun _ => false)) Ψ)) = 2 ^ n * ∑ a : Basis (Fin n), nrm2 (F fun k x => Ψ k a * ket a x) := by
  have := parseval (fun q p : Basis (Fin n) => (sgn q p : ℂ)) (fun q p => sgn_real q p) (2 ^ n) (by
    intro p p'
    have := sum_sgn_sgn p p'
    simp only [sgn_comm' p, sgn_comm' p'] at this
    simpa using this)
    fun a => F fun k x => Ψ k a * ket a x
  rw [← this]
  refine sum_congr rfl fun z _ => ?_
  have : onSys (pauliL (z, fun _ => false)) Ψ = ∑ a, (sgn z a : ℂ) • fun k x => Ψ k a * ket a x := by
    funext k x
    rw [Finset.sum_apply, Finset.sum_apply]
    show (sgn z x : ℂ) * Ψ k (bxor x fun _ => false) = ∑ a, sgn z a * (Ψ k a * ket a x)
    simp [ket, bxor_zero]
  rw [this, map_sum]
  simp only [map_smul]

end Verif.Accred
