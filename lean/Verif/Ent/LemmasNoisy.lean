import Verif.Ent.SpecNoisy
import Mathlib.Algebra.BigOperators.Fin
import Mathlib.Algebra.BigOperators.Pi
set_option linter.unusedSimpArgs false
set_option linter.unusedVariables false
/-
Lemmas for C130.
-/
namespace Verif.Ent
open Verif Verif.Quantum Complex

variable {n : ℕ}

/-! ### One gate on every qubit -/

theorem run_list (g : ℕ → Instr ℝ) (u : Mat2 ℂ) (hg : ∀ i (ψ : State (Fin n) ℂ), applyGate n ψ (g i) = on1 n u i ψ)
    (L : List (Fin n)) (ψ : State (Fin n) ℂ) :
    runGates n (L.map fun i => g i.val) ψ = some (appAll (L.map fun i => (i, u)) ψ) := by
  induction L generalizing ψ with
  | nil => rfl
  | cons i L ih =>
    rw [List.map_cons, runGates_cons, hg]
    have : on1 n u i.val ψ = some (app1 u i ψ) := by unfold on1; rw [dif_pos i.isLt]
    rw [this, Option.bind_some, ih]
    rfl

theorem run_everywhere (g : ℕ → Instr ℝ) (u : Mat2 ℂ) (hg : ∀ i (ψ : State (Fin n) ℂ), applyGate n ψ (g i) = on1 n u i ψ)
    (ψ : State (Fin n) ℂ) :
    runGates n ((List.range n).map g) ψ = some (fun x => ∑ y, (∏ q, u (x q) (y q)) * ψ y) := by
  have h := run_list g u hg (List.finRange n) ψ
  have e : (List.finRange n).map (fun i => g i.val) = (List.range n).map g := by
    rw [← List.map_coe_finRange_eq_range, List.map_map]; rfl
  rw [e] at h
  rw [h]
  congr 1
  funext x
  have hm : ((List.finRange n).map fun i => (i, u)).map (·.1) = List.finRange n := by
    rw [List.map_map]; exact List.map_id _
  rw [appAll_eq_sum _ (by rw [hm]; exact List.nodup_finRange n)]
  refine Finset.sum_congr rfl fun y _ => ?_
  rw [if_pos (by rw [hm]; intro q hq; exact absurd (List.mem_finRange q) hq)]
  congr 1
  rw [List.map_map]
  exact (List.prod_ofFn (f := fun q => u (x q) (y q))).symm ▸ (by rw [List.ofFn_eq_map]; rfl)

/-- The number of ones. -/
def wt (x : Basis (Fin n)) : ℕ := (Finset.univ.filter fun q => x q = true).card

theorem wt_le (x : Basis (Fin n)) : wt x ≤ n := by
  have := Finset.card_filter_le (Finset.univ : Finset (Fin n)) fun q => x q = true
  simpa [wt] using this

theorem wt_zeros : wt (zeros n) = 0 := by simp [wt, zeros]

theorem wt_ones : wt (ones n) = n := by simp [wt, ones]

theorem wt_eq_zero {x : Basis (Fin n)} (h : wt x = 0) : x = zeros n := by
  unfold wt at h
  rw [Finset.card_eq_zero, Finset.filter_eq_empty_iff] at h
  funext q
  simpa [zeros] using h (Finset.mem_univ q)

theorem wt_eq_n {x : Basis (Fin n)} (h : wt x = n) : x = ones n := by
  unfold wt at h
  have : (Finset.univ.filter fun q => x q = true) = Finset.univ := by
    apply Finset.eq_univ_of_card
    rw [h, Fintype.card_fin]
  funext q
  have hq : q ∈ Finset.univ.filter fun q => x q = true := by rw [this]; exact Finset.mem_univ q
  simpa [ones] using hq

theorem wt_flip (x : Basis (Fin n)) : wt (flip x) + wt x = n := by
  have := Finset.card_filter_add_card_filter_not (s := (Finset.univ : Finset (Fin n))) (fun q => x q = true)
  rw [Finset.card_univ, Fintype.card_fin] at this
  have e : (Finset.univ.filter fun q => ¬ x q = true) = Finset.univ.filter fun q => flip x q = true := by
    ext q; simp [flip]
  rw [e] at this
  unfold wt
  omega

theorem flip_flip (x : Basis (Fin n)) : flip (flip x) = x := by funext q; simp [flip]

theorem flip_zeros : flip (zeros n) = ones n := rfl

theorem flip_ones : flip (ones n) = zeros n := rfl

theorem zeros_ne_ones (hn : 1 ≤ n) : zeros n ≠ ones n := fun h => by
  have := congrFun h ⟨0, by omega⟩
  simp [zeros, ones] at this

theorem prod_u1 (d : ℝ) (x y : Basis (Fin n)) : (∏ q, mU1 d (x q) (y q)) = if y = x then exp (wt x * d * I) else 0 := by
  by_cases h : y = x
  · subst h
    rw [if_pos rfl]
    simp only [mU1, if_true]
    rw [Finset.prod_ite, Finset.prod_const, Finset.prod_const_one, mul_one, ← Complex.exp_nat_mul, mul_assoc]
    rfl
  · rw [if_neg h]
    obtain ⟨q, hq⟩ := Function.ne_iff.1 h
    exact Finset.prod_eq_zero (Finset.mem_univ q) (by simp [mU1, Ne.symm hq])

theorem prod_x (x y : Basis (Fin n)) : (∏ q, (mX : Mat2 ℂ) (x q) (y q)) = if y = flip x then 1 else 0 := by
  by_cases h : y = flip x
  · subst h
    rw [if_pos rfl]
    exact Finset.prod_eq_one fun q _ => by simp [mX, flip]
  · rw [if_neg h]
    obtain ⟨q, hq⟩ := Function.ne_iff.1 h
    refine Finset.prod_eq_zero (Finset.mem_univ q) ?_
    have : x q = y q := by
      revert hq; simp only [flip]; cases x q <;> cases y q <;> simp
    simp [mX, this]

theorem run_u1_any (d : ℝ) (ψ : State (Fin n) ℂ) :
    runGates n ((List.range n).map fun i => .u1 d i) ψ = some (fun x => exp (wt x * d * I) * ψ x) := by
  rw [run_everywhere _ (mU1 d) (fun i ψ => rfl)]
  congr 1
  funext x
  simp only [prod_u1, ite_mul, zero_mul, Finset.sum_ite_eq', Finset.mem_univ, if_true]

theorem run_x_any (ψ : State (Fin n) ℂ) :
    runGates n ((List.range n).map fun i => (.x i : Instr ℝ)) ψ = some (fun x => ψ (flip x)) := by
  rw [run_everywhere _ mX (fun i ψ => rfl)]
  congr 1
  funext x
  simp only [prod_x, ite_mul, zero_mul, one_mul, Finset.sum_ite_eq', Finset.mem_univ, if_true]

/-! ### Parity after the rotation -/

/-- The entries of U2(δ,−δ)† Z U2(δ,−δ). -/
theorem signed_u2 (d : ℝ) (a b : Bool) :
    mU2 d (-d) false a * (starRingEnd ℂ) (mU2 d (-d) false b) - mU2 d (-d) true a * (starRingEnd ℂ) (mU2 d (-d) true b) =
      if a = b then 0 else if b then -exp (d * I) else -exp (-(d * I)) := by
  have hrr : starRingEnd ℂ rt = rt := by unfold rt; exact Complex.conj_ofReal _
  have hee : exp (d * I) * exp (-(d * I)) = 1 := by rw [← Complex.exp_add]; simp
  have he : starRingEnd ℂ (exp (d * I)) = exp (-(d * I)) := by
    rw [← Complex.exp_conj]; simp
  have he' : starRingEnd ℂ (exp (-(d * I))) = exp (d * I) := by
    rw [← Complex.exp_conj]; simp
  cases a <;> cases b <;>
    simp only [mU2, map_mul, map_neg, hrr, he, ofReal_neg, neg_mul, he', add_neg_cancel, zero_mul, Complex.exp_zero, mul_one,
      if_true, if_false, Bool.false_eq_true, reduceCtorEq]
  · linear_combination (-(rt * rt)) * hee
  · linear_combination (-2 * exp (d * I)) * rt_rt
  · linear_combination (-2 * exp (-(d * I))) * rt_rt
  · linear_combination (rt * rt) * hee

theorem prod_signed (d : ℝ) (y z : Basis (Fin n)) :
    (∏ q, if y q = z q then (0 : ℂ) else if z q then -exp (d * I) else -exp (-(d * I))) =
      if z = flip y then (-1) ^ n * exp (((wt z : ℂ) - wt y) * d * I) else 0 := by
  by_cases h : z = flip y
  · rw [if_pos h]
    have e1 : ∀ q, (if y q = z q then (0 : ℂ) else if z q then -exp (d * I) else -exp (-(d * I))) =
        (-1) * ((if z q = true then exp (d * I) else 1) * (if y q = true then exp (-(d * I)) else 1)) := by
      intro q
      rw [h]
      simp only [flip]
      by_cases hy : y q = true
      · simp [hy]
      · simp [Bool.not_eq_true _ ▸ hy]
    rw [Finset.prod_congr rfl fun q _ => e1 q, Finset.prod_mul_distrib, Finset.prod_mul_distrib]
    simp only [Finset.prod_ite, Finset.prod_const, one_pow, mul_one, Finset.card_univ, Fintype.card_fin]
    rw [← Complex.exp_nat_mul, ← Complex.exp_nat_mul, ← Complex.exp_add]
    congr 2
    unfold wt
    ring
  · rw [if_neg h]
    obtain ⟨q, hq⟩ := Function.ne_iff.1 h
    refine Finset.prod_eq_zero (Finset.mem_univ q) ?_
    have : y q = z q := by
      revert hq; simp only [flip]; cases y q <;> cases z q <;> simp
    rw [if_pos this]

theorem parity_u2 (d : ℝ) (ψ : State (Fin n) ℂ) :
    ((parity (fun x => ∑ y, (∏ q, mU2 d (-d) (x q) (y q)) * ψ y) : ℝ) : ℂ) =
      ∑ z, ∑ y, (if z = flip y then (-1) ^ n * (ψ y * (starRingEnd ℂ) (ψ z)) else 0) * exp (((wt z : ℂ) - wt y) * d * I) := by
  unfold parity outcome
  push_cast
  simp only [Complex.normSq_eq_conj_mul_self, map_sum, map_mul, map_prod]
  have e : ∀ x : Basis (Fin n), ((-1) ^ (Finset.univ.filter fun q => x q = true).card : ℂ) *
      ((∑ z, (∏ q, (starRingEnd ℂ) (mU2 d (-d) (x q) (z q))) * (starRingEnd ℂ) (ψ z)) * ∑ y, (∏ q, mU2 d (-d) (x q) (y q)) * ψ y) =
      ∑ z, ∑ y, (ψ y * (starRingEnd ℂ) (ψ z)) *
        ∏ q, (fun b => (if b = true then (-1 : ℂ) else 1) * (mU2 d (-d) b (y q) * (starRingEnd ℂ) (mU2 d (-d) b (z q)))) (x q) := by
    intro x
    rw [sign_prod, Finset.sum_mul_sum, Finset.mul_sum]
    refine Finset.sum_congr rfl fun z _ => ?_
    rw [Finset.mul_sum]
    refine Finset.sum_congr rfl fun y _ => ?_
    simp only [Finset.prod_mul_distrib]
    ring
  rw [Finset.sum_congr rfl fun x _ => e x, Finset.sum_comm]
  refine Finset.sum_congr rfl fun z _ => ?_
  rw [Finset.sum_comm]
  refine Finset.sum_congr rfl fun y _ => ?_
  rw [← Finset.mul_sum]
  have h := Finset.prod_univ_sum (fun _ : Fin n => (Finset.univ : Finset Bool))
    (fun q b => (if b = true then (-1 : ℂ) else 1) * (mU2 d (-d) b (y q) * (starRingEnd ℂ) (mU2 d (-d) b (z q))))
  simp only [Fintype.piFinset_univ] at h
  rw [← h]
  have e2 : ∀ q : Fin n, (∑ b : Bool, (if b = true then (-1 : ℂ) else 1) * (mU2 d (-d) b (y q) * (starRingEnd ℂ) (mU2 d (-d) b (z q)))) =
      if y q = z q then (0 : ℂ) else if z q then -exp (d * I) else -exp (-(d * I)) := by
    intro q
    rw [← signed_u2 d (y q) (z q)]
    simp only [Fintype.sum_bool, if_true, Bool.false_eq_true, if_false]
    ring
  rw [Finset.prod_congr rfl fun q _ => e2 q, prod_signed]
  split <;> ring

/-! ### The inverse of the preparation -/

/-- A gate that is its own inverse and its own adjoint. -/
def SelfAdj (g : Instr ℝ) : Prop := g = .barrier ∨ (∃ q, g = .h q) ∨ ∃ c t, g = .cx c t

theorem adj_mH : adj mH = mH := by
  have hrr : starRingEnd ℂ rt = rt := by unfold rt; exact Complex.conj_ofReal _
  funext r c
  cases r <;> cases c <;> simp [adj, mH, hrr]

theorem inner_appCX (c t : Fin n) (hct : c ≠ t) (φ χ : State (Fin n) ℂ) :
    Quantum.inner (appCX c t φ) χ = Quantum.inner φ (appCX c t χ) := by
  unfold Quantum.inner appCX
  let f : Basis (Fin n) → Basis (Fin n) := fun x => Function.update x t (Bool.xor (x t) (x c))
  have hf : Function.Involutive f := by
    intro x
    have hc : f x c = x c := by simp only [f]; rw [Function.update_of_ne hct]
    have ht : f x t = Bool.xor (x t) (x c) := by simp only [f]; rw [Function.update_self]
    show Function.update (f x) t (Bool.xor (f x t) (f x c)) = x
    rw [hc, ht]
    simp only [f, Function.update_idem, Bool.xor_assoc, Bool.xor_self, Bool.xor_false, Function.update_eq_self]
  rw [← Equiv.sum_comp hf.toPerm]
  refine Finset.sum_congr rfl fun x _ => ?_
  show (starRingEnd ℂ) (φ (f (f x))) * χ (f x) = (starRingEnd ℂ) (φ x) * χ (f x)
  rw [hf x]

/-- Gates that are their own adjoints: what can be run in one state can be run in every state, and they can be moved to the
other side of an inner product. -/
theorem selfAdj_gate {g : Instr ℝ} (hg : SelfAdj g) {ψ ψ' : State (Fin n) ℂ} (h : applyGate n ψ g = some ψ') (φ : State (Fin n) ℂ) :
    ∃ φ', applyGate n φ g = some φ' ∧ Quantum.inner φ' ψ = Quantum.inner φ ψ' := by
  rcases hg with rfl | ⟨q, rfl⟩ | ⟨c, t, rfl⟩
  · cases h
    exact ⟨φ, rfl, rfl⟩
  · simp only [applyGate, on1] at h ⊢
    split at h
    · cases h
      rename_i hq
      rw [dif_pos hq]
      exact ⟨_, rfl, by rw [inner_app1, adj_mH]⟩
    · cases h
  · simp only [applyGate] at h ⊢
    split at h
    · cases h
      rename_i hq
      rw [dif_pos hq]
      refine ⟨_, rfl, ?_⟩
      rw [inner_appCX]
      intro e
      exact hq.2.2 (congrArg Fin.val e)
    · cases h

theorem selfAdj_run (l : List (Instr ℝ)) (hl : ∀ g ∈ l, SelfAdj g) {ψ ψ' : State (Fin n) ℂ} (h : runGates n l ψ = some ψ')
    (φ : State (Fin n) ℂ) : ∃ φ', runGates n l.reverse φ = some φ' ∧ Quantum.inner φ' ψ = Quantum.inner φ ψ' := by
  induction l generalizing ψ with
  | nil => cases h; exact ⟨φ, rfl, rfl⟩
  | cons g l ih =>
    rw [runGates_cons, Option.bind_eq_some_iff] at h
    obtain ⟨χ, h1, h2⟩ := h
    obtain ⟨φ1, h3, h4⟩ := ih (fun g hg => hl g (by simp [hg])) h2
    obtain ⟨φ2, h5, h6⟩ := selfAdj_gate (hl g (by simp)) h1 φ1
    refine ⟨φ2, ?_, by rw [h6, h4]⟩
    rw [List.reverse_cons, runGates_append, h3, Option.bind_some, runGates_cons, h5]
    rfl

theorem prep_selfAdj {circ : List (Instr ℝ)} (h : IsPrep n circ) : ∀ g ∈ circ, SelfAdj g := by
  obtain ⟨ps, hf, -, -⟩ := h
  intro g hg
  by_cases hb : g = .barrier
  · exact Or.inl hb
  · right
    have : g ∈ circ.filter fun g => decide (g ≠ .barrier) := List.mem_filter.2 ⟨hg, by simpa using hb⟩
    rw [hf] at this
    rcases List.mem_cons.1 this with h | h
    · exact Or.inl ⟨_, h⟩
    · exact Or.inr (mem_tree' 1 ps g h)

theorem ghz_real (x : Basis (Fin n)) : (starRingEnd ℂ) (ghz n x) = ghz n x := by
  have hrr : starRingEnd ℂ rt = rt := by unfold rt; exact Complex.conj_ofReal _
  unfold ghz
  split
  · exact hrr
  · simp

/-- The amplitude of 0…0 after the inverse of the preparation is the overlap with the GHZ state. -/
theorem prep_amp (hn : 1 ≤ n) {prep : List (Instr ℝ)} (h : IsPrep n prep) (φ : State (Fin n) ℂ) :
    ∃ φ', runGates n prep.reverse φ = some φ' ∧ φ' (zeros n) = ∑ x, ghz n x * φ x := by
  have hr := prep_run h
  rw [show pairSt n n rt rt = ghz n from (pairSt_ghz (n := n)).resolve_right (by omega)] at hr
  obtain ⟨φ', h1, h2⟩ := selfAdj_run prep (prep_selfAdj h) hr φ
  refine ⟨φ', h1, ?_⟩
  have h3 : Quantum.inner φ' (ket0 : State (Fin n) ℂ) = (starRingEnd ℂ) (φ' (zeros n)) := by
    unfold Quantum.inner ket0
    simp only [mul_ite, mul_one, mul_zero, Finset.sum_ite_eq', Finset.mem_univ, if_true]
    rfl
  rw [h3] at h2
  have h4 := congrArg (starRingEnd ℂ) h2
  rw [Complex.conj_conj] at h4
  rw [h4]
  unfold Quantum.inner
  rw [map_sum]
  refine Finset.sum_congr rfl fun x _ => ?_
  rw [map_mul, Complex.conj_conj, ghz_real, mul_comm]

/-! ### Fourier coefficients of a signal Σ f(x,y) e^{i(|x|−|y|)δ} -/

/-- The signal of a two-sided sum. -/
noncomputable def sig (f : Basis (Fin n) → Basis (Fin n) → ℂ) (d : ℝ) : ℂ := ∑ x, ∑ y, f x y * exp (((wt x : ℂ) - wt y) * d * I)

/-- Its coefficients. -/
noncomputable def coef (f : Basis (Fin n) → Basis (Fin n) → ℂ) (j : ℤ) : ℂ := ∑ x, ∑ y, if (wt x : ℤ) - wt y = j then f x y else 0

theorem diff_mem (x y : Basis (Fin n)) : (wt x : ℤ) - wt y ∈ Finset.Icc (-(n : ℤ)) n := by
  have := wt_le x
  have := wt_le y
  rw [Finset.mem_Icc]
  omega

theorem sig_trig (f : Basis (Fin n) → Basis (Fin n) → ℂ) (d : ℝ) : sig f d = trig (Finset.Icc (-(n : ℤ)) n) (coef f) d := by
  unfold sig trig coef
  simp only [Finset.sum_mul]
  rw [Finset.sum_comm' (t' := Finset.univ) (s' := fun _ => Finset.Icc (-(n : ℤ)) n) (by simp)]
  refine Finset.sum_congr rfl fun x _ => ?_
  rw [Finset.sum_comm' (t' := Finset.univ) (s' := fun _ => Finset.Icc (-(n : ℤ)) n) (by simp)]
  refine Finset.sum_congr rfl fun y _ => ?_
  simp only [ite_mul, zero_mul]
  rw [Finset.sum_ite_eq, if_pos (diff_mem x y)]
  push_cast
  rfl

theorem fft_sig (N : ℕ) (hN : 2 * n < N) (f : Basis (Fin n) → Basis (Fin n) → ℂ) (m : ℕ) (hm : m ≤ n) :
    fft N (fun k => sig f (phase N k)) m = coef f m := by
  simp only [sig_trig]
  apply C91_coefficient
  · intro j hj
    rw [Finset.mem_Icc] at hj
    have := abs_le.2 hj
    omega
  · omega
  · intro j hj
    unfold coef
    refine Finset.sum_eq_zero fun x _ => Finset.sum_eq_zero fun y _ => if_neg fun h => hj (by rw [← h]; exact diff_mem x y)

theorem coef_top (f : Basis (Fin n) → Basis (Fin n) → ℂ) : coef f n = f (ones n) (zeros n) := by
  unfold coef
  rw [Finset.sum_eq_single (ones n), Finset.sum_eq_single (zeros n)]
  · rw [if_pos]; rw [wt_ones, wt_zeros]; simp
  · intro y _ hy
    rw [if_neg]
    intro h
    apply hy
    apply wt_eq_zero
    rw [wt_ones] at h
    omega
  · intro h; exact absurd (Finset.mem_univ _) h
  · intro x _ hx
    refine Finset.sum_eq_zero fun y _ => if_neg fun h => hx (wt_eq_n ?_)
    have := wt_le x
    have := wt_le y
    omega
  · intro h; exact absurd (Finset.mem_univ _) h

end Verif.Ent
