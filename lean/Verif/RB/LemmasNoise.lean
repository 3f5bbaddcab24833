import Verif.RB.SpecNoise
import Verif.RB.LemmasLoop
import Verif.Quantum.Born
set_option linter.unusedSimpArgs false
set_option linter.unusedVariables false
/-
Depolarising noise between unitary circuits.
-/
namespace Verif.RB
open Verif.Quantum Complex

/-! ### The adjoint of a circuit -/

theorem adj_mat (k : Kind) : adj k.mat = k.inv.mat := by
  have hr : (starRingEnd ℂ) rt = rt := by unfold rt; exact conj_ofReal _
  funext r c
  cases k with
  | t j =>
    have hw : ‖Dihedral.ω‖ = 1 := by
      unfold Dihedral.ω
      rw [Complex.norm_exp]; simp
    cases r <;> cases c <;> simp [adj, Kind.mat, Kind.inv, Dihedral.mTpow, ← inv_eq_conj hw]
  | _ => cases r <;> cases c <;> simp [adj, Kind.mat, Kind.inv, mX, Dihedral.mY, mZ, mH, mS, mSdg, mI, hr]

theorem inner_perm {n : ℕ} (σ : Basis (Fin n) ≃ Basis (Fin n)) (φ χ : State (Fin n) ℂ) :
    inner (fun x => φ (σ x)) χ = inner φ (fun x => χ (σ.symm x)) := by
  unfold Quantum.inner
  rw [← Equiv.sum_comp σ (fun x => (starRingEnd ℂ) (φ x) * χ (σ.symm x))]
  simp

theorem inner_act2 {n : ℕ} (k : Kind) (a b : Fin n) (h : a ≠ b) (φ χ : State (Fin n) ℂ) :
    inner (act2 k a b φ) χ = inner φ (act2 k.inv a b χ) := by
  have perm : ∀ f : Basis (Fin n) → Basis (Fin n), (∀ x, f (f x) = x) → inner (fun x => φ (f x)) χ = inner φ fun x => χ (f x) :=
    fun f hf => inner_perm ⟨f, f, hf, hf⟩ φ χ
  cases k <;> simp only [act2, Kind.inv]
  · refine perm (fun x => Function.update x b (Bool.xor (x b) (x a))) fun x => ?_
    beta_reduce
    rw [Function.update_self, Function.update_of_ne h, Function.update_idem]
    simp
  · unfold Quantum.inner appCZ
    refine Finset.sum_congr rfl fun x _ => ?_
    split <;> simp
  · refine perm (fun x q => x (Equiv.swap a b q)) fun x => ?_
    funext q; simp

theorem inner_act {n : ℕ} {i j : Ins} (hi : Ok n i) (hj : i.inv = some j) (φ χ : State (Fin n) ℂ) :
    inner (act n i φ) χ = inner φ (act n j χ) := by
  rcases ok_cases hi with ⟨k, q, hq, rfl, hk⟩ | ⟨k, a, b, ha, hb, rfl, hab, hk⟩ | ⟨qs, rfl, hqs⟩
  · cases hj
    rw [act_one k q hq, act_one k.inv q hq, inner_app1, adj_mat]
  · cases hj
    rw [act_two k a b ha hb, act_two k.inv a b ha hb, inner_act2 _ _ _ (by simpa using hab)]
  · cases hj; rfl

theorem inv_some {n : ℕ} {i : Ins} (hi : Ok n i) : ∃ j, i.inv = some j := by
  cases i with
  | gate k qs => exact ⟨_, rfl⟩
  | barrier qs => exact ⟨_, rfl⟩
  | measure q c => exact absurd hi id

/-- Circuits preserve inner products. -/
theorem inner_run {n : ℕ} (c : List Ins) (hc : ∀ i ∈ c, Ok n i) (φ χ : State (Fin n) ℂ) : inner (run n c φ) (run n c χ) = inner φ χ := by
  induction c generalizing φ χ with
  | nil => rfl
  | cons i c ih =>
    rw [run_cons, run_cons, ih (fun j hj => hc j (by simp [hj]))]
    obtain ⟨j, hj⟩ := inv_some (hc i (by simp))
    rw [inner_act (hc i (by simp)) hj, (act_inv (hc i (by simp)) hj).2]

/-- Every circuit has an adjoint. -/
theorem adjoint_run {n : ℕ} (c : List Ins) (hc : ∀ i ∈ c, Ok n i) :
    ∃ d : List Ins, (∀ i ∈ d, Ok n i) ∧ ∀ φ χ, inner (run n c φ) χ = inner φ (run n d χ) := by
  induction c with
  | nil => exact ⟨[], by simp, fun _ _ => rfl⟩
  | cons i c ih =>
    obtain ⟨d, h1, h2⟩ := ih fun j hj => hc j (by simp [hj])
    obtain ⟨j, hj⟩ := inv_some (hc i (by simp))
    refine ⟨d ++ [j], ?_, fun φ χ => ?_⟩
    · intro a ha
      rcases List.mem_append.1 ha with ha | ha
      · exact h1 a ha
      · rw [List.mem_singleton.1 ha]; exact (act_inv (hc i (by simp)) hj).1
    · rw [run_cons, h2, inner_act (hc i (by simp)) hj, run_append]; rfl

/-- The squared norm. -/
noncomputable def nrm {n : ℕ} (ψ : State (Fin n) ℂ) : ℝ := ∑ x, prob ψ x

theorem nrm_inner {n : ℕ} (ψ : State (Fin n) ℂ) : ((nrm ψ : ℝ) : ℂ) = inner ψ ψ := by
  unfold nrm Quantum.inner prob
  rw [ofReal_sum]
  refine Finset.sum_congr rfl fun x _ => ?_
  rw [normSq_eq_conj_mul_self]

theorem nrm_run {n : ℕ} (c : List Ins) (hc : ∀ i ∈ c, Ok n i) (ψ : State (Fin n) ℂ) : nrm (run n c ψ) = nrm ψ := by
  have := nrm_inner (run n c ψ)
  rw [inner_run c hc, ← nrm_inner] at this
  exact_mod_cast this

theorem nrm_ket {n : ℕ} (x : Basis (Fin n)) : nrm (ket x) = 1 := by
  unfold nrm prob ket
  rw [Finset.sum_eq_single x]
  · simp
  · intro y _ hy; simp [hy]
  · intro h; exact absurd (Finset.mem_univ _) h

/-- An amplitude after a circuit is the inner product with a unit vector. -/
theorem amp_run {n : ℕ} (c : List Ins) (hc : ∀ i ∈ c, Ok n i) (x : Basis (Fin n)) :
    ∃ u : State (Fin n) ℂ, nrm u = 1 ∧ ∀ φ, run n c φ x = inner u φ := by
  obtain ⟨d, h1, h2⟩ := adjoint_run c hc
  refine ⟨run n d (ket x), by rw [nrm_run d h1, nrm_ket], fun φ => ?_⟩
  have hx : ∀ χ : State (Fin n) ℂ, χ x = (starRingEnd ℂ) (inner χ (ket x)) := by
    intro χ
    unfold Quantum.inner ket
    rw [Finset.sum_eq_single x]
    · simp
    · intro y _ hy; simp [hy]
    · intro h; exact absurd (Finset.mem_univ _) h
  have hs : ∀ φ χ : State (Fin n) ℂ, (starRingEnd ℂ) (inner φ χ) = inner χ φ := by
    intro φ χ
    unfold Quantum.inner
    rw [map_sum]
    refine Finset.sum_congr rfl fun y _ => ?_
    rw [map_mul, conj_conj, mul_comm]
  rw [hx (run n c φ), h2, hs]

/-! ### Averaging over the Pauli operators -/

theorem sum_sgn {n : ℕ} (y z : Basis (Fin n)) : ∑ a : Basis (Fin n), (sgn a y : ℂ) * sgn a z = if y = z then 2 ^ n else 0 := by
  unfold sgn
  have h := Fintype.prod_sum (R := ℂ) (f := fun (q : Fin n) (v : Bool) => (if v && y q then -1 else 1) * (if v && z q then -1 else 1))
  rw [show (∑ a : Basis (Fin n), (∏ q, if a q && y q then (-1 : ℂ) else 1) * ∏ q, if a q && z q then (-1 : ℂ) else 1) =
    ∑ a : Basis (Fin n), ∏ q, ((if a q && y q then (-1 : ℂ) else 1) * if a q && z q then (-1 : ℂ) else 1) from
      Finset.sum_congr rfl fun a _ => Finset.prod_mul_distrib.symm]
  rw [show (∑ a : Basis (Fin n), ∏ q, ((if a q && y q then (-1 : ℂ) else 1) * if a q && z q then (-1 : ℂ) else 1)) =
    ∏ q : Fin n, ∑ v : Bool, ((if v && y q then (-1 : ℂ) else 1) * if v && z q then (-1 : ℂ) else 1) from h.symm]
  by_cases hyz : y = z
  · subst hyz
    rw [if_pos rfl]
    rw [Finset.prod_congr rfl (fun q _ => show (∑ v : Bool, ((if v && y q then (-1 : ℂ) else 1) * if v && y q then (-1 : ℂ) else 1)) = 2 by
      cases y q <;> simp <;> norm_num)]
    simp
  · rw [if_neg hyz]
    obtain ⟨q, hq⟩ := Function.ne_iff.1 hyz
    refine Finset.prod_eq_zero (Finset.mem_univ q) ?_
    revert hq
    cases y q <;> cases z q <;> simp

theorem normSq_sum_sgn {n : ℕ} (f : Basis (Fin n) → ℂ) :
    ∑ a : Basis (Fin n), normSq (∑ y, sgn a y * f y) = 2 ^ n * ∑ y, normSq (f y) := by
  have h : ((∑ a : Basis (Fin n), normSq (∑ y, sgn a y * f y) : ℝ) : ℂ) = ((2 ^ n * ∑ y, normSq (f y) : ℝ) : ℂ) := by
    have hc : ∀ a y : Basis (Fin n), (starRingEnd ℂ) (sgn a y : ℂ) = sgn a y := by
      intro a y
      rcases sgn_pm (K := ℂ) a y with h | h <;> rw [h] <;> simp
    push_cast
    simp only [normSq_eq_conj_mul_self, map_sum, map_mul, hc, Finset.sum_mul_sum]
    rw [Finset.sum_comm]
    rw [Finset.mul_sum]
    refine Finset.sum_congr rfl fun y _ => ?_
    rw [Finset.sum_comm]
    rw [Finset.sum_eq_single y]
    · rw [← Finset.sum_congr rfl (fun a _ => show (sgn a y * sgn a y : ℂ) * ((starRingEnd ℂ) (f y) * f y) =
        sgn a y * (starRingEnd ℂ) (f y) * (sgn a y * f y) by ring), ← Finset.sum_mul, sum_sgn, if_pos rfl]
    · intro z _ hz
      rw [← Finset.sum_congr rfl (fun a _ => show (sgn a y * sgn a z : ℂ) * ((starRingEnd ℂ) (f y) * f z) =
        sgn a y * (starRingEnd ℂ) (f y) * (sgn a z * f z) by ring), ← Finset.sum_mul, sum_sgn, if_neg (Ne.symm hz), zero_mul]
    · intro h; exact absurd (Finset.mem_univ _) h
  exact_mod_cast h

/-- After a random Pauli operator and any circuit all outcomes are equally likely. -/
theorem twirl {n : ℕ} (c : List Ins) (hc : ∀ i ∈ c, Ok n i) (φ : State (Fin n) ℂ) (x : Basis (Fin n)) :
    ∑ a : Basis (Fin n), ∑ b : Basis (Fin n), prob (run n c (pauli a b φ)) x = 2 ^ n * nrm φ := by
  obtain ⟨u, hu, hrun⟩ := amp_run c hc x
  rw [Finset.sum_comm]
  have hb : ∀ b : Basis (Fin n), ∑ a : Basis (Fin n), prob (run n c (pauli a b φ)) x = 2 ^ n * ∑ y, normSq (u y) * normSq (φ (bxor y b)) := by
    intro b
    have : ∀ a : Basis (Fin n), prob (run n c (pauli a b φ)) x = normSq (∑ y, sgn a y * ((starRingEnd ℂ) (u y) * φ (bxor y b))) := by
      intro a
      unfold Quantum.prob
      rw [hrun]
      unfold Quantum.inner pauli
      congr 1
      exact Finset.sum_congr rfl fun y _ => by ring
    simp only [this]
    rw [normSq_sum_sgn]
    congr 1
    refine Finset.sum_congr rfl fun y _ => ?_
    rw [map_mul, normSq_conj]
  simp only [hb]
  rw [← Finset.mul_sum, Finset.sum_comm]
  have hy : ∀ y : Basis (Fin n), ∑ b, normSq (u y) * normSq (φ (bxor y b)) = normSq (u y) * nrm φ := by
    intro y
    rw [← Finset.mul_sum]
    congr 1
    unfold nrm Quantum.prob
    refine Fintype.sum_bijective (fun b => bxor y b) ?_ _ _ fun b => rfl
    refine Function.Involutive.bijective fun b => ?_
    rw [← bxor_assoc, bxor_self, bxor_comm, bxor_zero]
  simp only [hy]
  rw [← Finset.sum_mul, show ∑ y, normSq (u y) = 1 from hu, one_mul]

end Verif.RB
