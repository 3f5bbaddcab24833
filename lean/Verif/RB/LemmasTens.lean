import Verif.RB.LemmasUnit2
import Verif.RB.PropsNoisePurity
import Verif.RB.PropsPurityFit
import Mathlib.Algebra.BigOperators.Fin
set_option linter.unusedSimpArgs false
set_option linter.unusedVariables false
set_option linter.unusedSectionVars false
/-
Products of one-qubit matrices; Pauli strings and the purity.
-/
namespace Verif.RB
open Verif.Quantum Matrix
variable {N n : ℕ}

/-- Product of one-qubit matrices. -/
def tens (M : Fin n → Mat2 ℂ) : Op n := fun y x => ∏ k, M k (y k) (x k)

def mul2 (A B : Mat2 ℂ) : Mat2 ℂ := fun r c => A r false * B false c + A r true * B true c

def dag2 (A : Mat2 ℂ) : Mat2 ℂ := fun r c => star (A c r)

theorem tens_mul (A B : Fin n → Mat2 ℂ) : tens A * tens B = tens fun k => mul2 (A k) (B k) := by
  ext y x
  rw [Matrix.mul_apply]
  unfold tens
  have : ∀ k, mul2 (A k) (B k) (y k) (x k) = ∑ b : Bool, A k (y k) b * B k b (x k) := by
    intro k
    rw [Fintype.sum_bool, add_comm]; rfl
  simp only [this]
  rw [Finset.prod_univ_sum, Fintype.piFinset_univ]
  refine Finset.sum_congr rfl fun z _ => ?_
  rw [Finset.prod_mul_distrib]

theorem tens_dag (A : Fin n → Mat2 ℂ) : (tens A)ᴴ = tens fun k => dag2 (A k) := by
  ext y x
  rw [Matrix.conjTranspose_apply]
  unfold tens dag2
  rw [star_prod]

/-- The matrix of the rotation of a digit. -/
noncomputable def rot (t : ℕ) : Mat2 ℂ := match t with
  | 0 => mI
  | 1 => Kind.mat .rx90
  | _ => Kind.mat .ry90

theorem tens_one : tens (fun _ : Fin n => (mI : Mat2 ℂ)) = 1 := by
  ext y x
  unfold tens mI
  by_cases h : y = x
  · subst h; simp
  · rw [Matrix.one_apply_ne h]
    obtain ⟨k, hk⟩ := Function.ne_iff.1 h
    exact Finset.prod_eq_zero (Finset.mem_univ k) (by simp [hk])

theorem app1_tens (u : Mat2 ℂ) (q : Fin n) (M : Fin n → Mat2 ℂ) (hM : M q = mI) (x : Basis (Fin n)) :
    app1 u q (fun y => tens M y x) = fun y => tens (Function.update M q u) y x := by
  funext y
  unfold app1 tens
  have h : ∀ b, ∏ k, M k (Function.update y q b k) (x k) = (if b = x q then 1 else 0) * ∏ k ∈ Finset.univ.erase q, M k (y k) (x k) := by
    intro b
    rw [← Finset.mul_prod_erase Finset.univ _ (Finset.mem_univ q), Function.update_self, hM]
    congr 1
    refine Finset.prod_congr rfl fun k hk => ?_
    rw [Function.update_of_ne (Finset.ne_of_mem_erase hk)]
  beta_reduce
  rw [h, h, ← Finset.mul_prod_erase Finset.univ (fun k => Function.update M q u k (y k) (x k)) (Finset.mem_univ q), Function.update_self]
  have h2 : ∏ k ∈ Finset.univ.erase q, Function.update M q u k (y k) (x k) = ∏ k ∈ Finset.univ.erase q, M k (y k) (x k) :=
    Finset.prod_congr rfl fun k hk => by rw [Function.update_of_ne (Finset.ne_of_mem_erase hk)]
  rw [h2]
  cases x q <;> simp

theorem opMat_locRot (n d m : ℕ) (hm : m ≤ n) : opMat n (locRot m d) = tens fun k : Fin n => if k.val < m then rot (dig3 d k) else mI := by
  induction m with
  | zero =>
    simp only [Nat.not_lt_zero, if_false]
    rw [tens_one]
    exact opMat_nil
  | succ m ih =>
    have hq : m < n := hm
    have e : locRot (m + 1) d = locRot m d ++ (match dig3 d m with | 0 => [] | 1 => [.gate .rx90 [m]] | _ => [.gate .ry90 [m]]) := by
      unfold locRot
      rw [List.range_succ, List.flatMap_append, List.flatMap_cons, List.flatMap_nil, List.append_nil]
      rcases dig3 d m with _ | _ | t <;> rfl
    have hM : (fun k : Fin n => if k.val < m + 1 then rot (dig3 d k) else mI) =
        Function.update (fun k : Fin n => if k.val < m then rot (dig3 d k) else mI) ⟨m, hq⟩ (rot (dig3 d m)) := by
      funext k
      by_cases hk : k = ⟨m, hq⟩
      · subst hk; simp
      · have : k.val ≠ m := fun h => hk (Fin.ext h)
        rw [Function.update_of_ne hk]
        have : (k.val < m + 1) ↔ k.val < m := by omega
        simp only [this]
    have ih' := ih (by omega)
    have key : ∀ (kd : Kind) (hk : kd.mat = rot (dig3 d m)) (x : Basis (Fin n)), run n [.gate kd [m]] (run n (locRot m d) (ket x)) =
        fun y => tens (fun k : Fin n => if k.val < m + 1 then rot (dig3 d k) else mI) y x := by
      intro kd hk x
      rw [run_cons, run_nil, act_one _ _ hq, show run n (locRot m d) (ket x) = fun y => opMat n (locRot m d) y x from rfl, ih', hk,
        app1_tens _ _ _ (by simp), ← hM]
    ext y x
    show run n (locRot (m + 1) d) (ket x) y = _
    rw [e, run_append]
    rcases ht : dig3 d m with _ | _ | t
    · show run n [] _ y = _
      rw [run_nil, show run n (locRot m d) (ket x) y = opMat n (locRot m d) y x from rfl, ih', hM, ht]
      congr 1
      rw [eq_comm, Function.update_eq_self_iff]
      simp [rot]
    · exact congrFun (key .rx90 (by rw [ht]; rfl) x) y
    · exact congrFun (key .ry90 (by rw [ht]; rfl) x) y

/-- The observable measured through a letter: `I`, `Y` (after the rotation about X), `-X` (after the rotation about Y), `Z`. -/
noncomputable def sig (t : ℕ) : Mat2 ℂ := fun r c =>
  if t = 0 then (if r = c then 1 else 0) else if t = 1 then (if r = c then 0 else if r then Complex.I else -Complex.I)
  else if t = 2 then (if r = c then 0 else -1) else (if r = c then (if r then -1 else 1) else 0)

/-- `Z` or the identity. -/
def zi (b : Bool) : Mat2 ℂ := fun r c => if r = c then (if b && r then -1 else 1) else 0

theorem rot_sig (t : ℕ) (ht : t < 3) (b : Bool) : mul2 (dag2 (rot t)) (mul2 (zi b) (rot t)) = sig (if b then Purity.letter t else 0) := by
  have h := rt_sq
  have hs : (starRingEnd ℂ) rt = rt := by unfold rt; exact Complex.conj_ofReal _
  have hI := Complex.I_mul_I
  interval_cases t <;> cases b <;> funext r c <;> cases r <;> cases c <;>
    simp [mul2, dag2, zi, rot, sig, Purity.letter, mI, Kind.mat, hs] <;>
    first
    | done
    | linear_combination 2 * h - rt * rt * hI
    | linear_combination 2 * h + rt * rt * hI
    | linear_combination 2 * h
    | linear_combination -2 * h
    | linear_combination -rt * rt * hI
    | linear_combination rt * rt * hI
    | linear_combination h + rt * rt * hI
    | linear_combination h - rt * rt * hI
    | linear_combination 2 * Complex.I * h
    | linear_combination -2 * Complex.I * h
    | ring

theorem sig_complete (y x y' x' : Bool) : ∑ t : Fin 4, sig t y x * star (sig t y' x') = if y = y' ∧ x = x' then 2 else 0 := by
  rw [Fin.sum_univ_four]
  cases y <;> cases x <;> cases y' <;> cases x' <;> simp [sig] <;> norm_num

/-- The expectation values of all Pauli strings give the purity. -/
theorem pauli_complete (ρ : Op n) : ∑ s : Fin n → Fin 4, Complex.normSq (ρ * tens fun k => sig (s k)).trace = 2 ^ n * (hs ρ ρ).re := by
  have h : ((∑ s : Fin n → Fin 4, Complex.normSq (ρ * tens fun k => sig (s k)).trace : ℝ) : ℂ) = 2 ^ n * hs ρ ρ := by
    push_cast
    have e1 : ∀ s : Fin n → Fin 4, (Complex.normSq (ρ * tens fun k => sig (s k)).trace : ℂ) =
        ∑ p : Basis (Fin n) × Basis (Fin n), ∑ p' : Basis (Fin n) × Basis (Fin n), ρ p.1 p.2 * star (ρ p'.1 p'.2) *
          ∏ k, (sig (s k) (p.2 k) (p.1 k) * star (sig (s k) (p'.2 k) (p'.1 k))) := by
      intro s
      have e2 : (ρ * tens fun k => sig (s k)).trace = ∑ p : Basis (Fin n) × Basis (Fin n), ρ p.1 p.2 * ∏ k, sig (s k) (p.2 k) (p.1 k) := by
        rw [Fintype.sum_prod_type]
        simp only [Matrix.trace, Matrix.diag_apply, Matrix.mul_apply, tens]
      rw [← Complex.mul_conj, e2, map_sum, Finset.sum_mul_sum]
      refine Finset.sum_congr rfl fun p _ => Finset.sum_congr rfl fun p' _ => ?_
      rw [map_mul, map_prod, Finset.prod_mul_distrib]
      simp only [← starRingEnd_apply]
      ring
    simp only [e1]
    rw [Finset.sum_comm, Finset.sum_congr rfl fun p _ => Finset.sum_comm]
    simp only [← Finset.mul_sum]
    have e3 : ∀ p p' : Basis (Fin n) × Basis (Fin n), ∑ s : Fin n → Fin 4, ∏ k, (sig (s k) (p.2 k) (p.1 k) * star (sig (s k) (p'.2 k) (p'.1 k))) =
        if p = p' then 2 ^ n else 0 := by
      intro p p'
      have := Finset.prod_univ_sum (fun _ : Fin n => (Finset.univ : Finset (Fin 4))) fun k t => sig t (p.2 k) (p.1 k) * star (sig t (p'.2 k) (p'.1 k))
      rw [Fintype.piFinset_univ] at this
      rw [← this]
      simp only [sig_complete]
      split_ifs with hp
      · subst hp; simp
      · have : ∃ k, ¬ (p.2 k = p'.2 k ∧ p.1 k = p'.1 k) := by
          by_contra hne
          push Not at hne
          exact hp (Prod.ext (funext fun k => (hne k).2) (funext fun k => (hne k).1))
        obtain ⟨k, hk⟩ := this
        exact Finset.prod_eq_zero (Finset.mem_univ k) (if_neg hk)
    simp only [e3, mul_ite, mul_zero, Finset.sum_ite_eq, Finset.mem_univ, if_true]
    rw [hs_sum, Finset.mul_sum]
    refine Finset.sum_congr rfl fun p _ => ?_
    rw [← starRingEnd_apply]; ring
  have := congrArg Complex.re h
  rw [Complex.ofReal_re] at this
  rw [this, show ((2 : ℂ) ^ n) = ((2 ^ n : ℝ) : ℂ) by push_cast; rfl, Complex.re_ofReal_mul]

theorem sum_bits (F : Basis (Fin n) → ℂ) : ∑ y ∈ Finset.range (2 ^ n), F (fun k => y.testBit k) = ∑ x, F x := by
  refine Finset.sum_nbij' (fun y => fun k : Fin n => y.testBit k) (fun x => Nat.ofBits x) ?_ ?_ ?_ ?_ ?_
  · intro y _; exact Finset.mem_univ _
  · intro x _; exact Finset.mem_range.2 (Nat.ofBits_lt_two_pow x)
  · intro y hy
    rw [Nat.ofBits_testBit, Nat.mod_eq_of_lt (Finset.mem_range.1 hy)]
  · intro x _
    funext k
    exact Nat.testBit_ofBits_lt x k k.2
  · intro y _; rfl

/-- The correlator of the qubit set `ind` after the rotations of the purity circuit `d` is the expectation value of a Pauli string. -/
theorem corr_string (ρ : Op n) (d ind c : ℕ) (hind : ind < 2 ^ n) (hc : Fit.IsCorr n ind d c) :
    ∑ y ∈ Finset.range (2 ^ n), ((Purity.zsign ind y : ℤ) : ℂ) * (Ad (opMat n (locRot n d)) ρ) (fun k => y.testBit k) (fun k => y.testBit k) =
      (ρ * tens fun k => sig (c / 4 ^ k.val % 4)).trace := by
  have hz : ∀ y : ℕ, ((Purity.zsign ind y : ℤ) : ℂ) = ∏ k : Fin n, zi (ind.testBit k) (y.testBit k) (y.testBit k) := by
    intro y
    have := zsign_prod n ind y hind
    rw [Finset.prod_range fun k => if ind.testBit k && y.testBit k then (-1 : ℝ) else 1] at this
    rw [show ((Purity.zsign ind y : ℤ) : ℂ) = (((Purity.zsign ind y : ℤ) : ℝ) : ℂ) by push_cast; rfl, this, Complex.ofReal_prod]
    refine Finset.prod_congr rfl fun k _ => ?_
    unfold zi
    rw [if_pos rfl]
    split_ifs <;> simp
  simp only [hz]
  rw [sum_bits fun x => (∏ k : Fin n, zi (ind.testBit k) (x k) (x k)) * (Ad (opMat n (locRot n d)) ρ) x x]
  have h1 : ∑ x, (∏ k : Fin n, zi (ind.testBit k) (x k) (x k)) * (Ad (opMat n (locRot n d)) ρ) x x =
      (tens (fun k : Fin n => zi (ind.testBit k)) * Ad (opMat n (locRot n d)) ρ).trace := by
    simp only [Matrix.trace, Matrix.diag_apply, Matrix.mul_apply]
    refine Finset.sum_congr rfl fun x _ => ?_
    rw [Finset.sum_eq_single x]
    · rfl
    · intro z _ hz
      obtain ⟨k, hk⟩ := Function.ne_iff.1 hz
      have : tens (fun k : Fin n => zi (ind.testBit k)) x z = 0 := Finset.prod_eq_zero (Finset.mem_univ k) (if_neg (Ne.symm hk))
      rw [this, zero_mul]
    · intro h; exact absurd (Finset.mem_univ _) h
  rw [h1, Ad_apply]
  have h2 : (tens (fun k : Fin n => zi (ind.testBit k)) * (opMat n (locRot n d) * ρ * (opMat n (locRot n d))ᴴ)).trace =
      (ρ * ((opMat n (locRot n d))ᴴ * (tens (fun k : Fin n => zi (ind.testBit k)) * opMat n (locRot n d)))).trace := by
    rw [← Matrix.mul_assoc, Matrix.trace_mul_comm, ← Matrix.mul_assoc, ← Matrix.mul_assoc, Matrix.trace_mul_comm]
    simp only [Matrix.mul_assoc]
  rw [h2, opMat_locRot n d n (le_refl _), tens_dag, tens_mul, tens_mul]
  congr 3
  funext k
  rw [if_pos k.2, rot_sig (dig3 d k) (Nat.mod_lt _ (by norm_num)), hc k k.2]
  rfl

end Verif.RB
