import Verif.Ent.PropsGhz
import Verif.Quantum.Born
import Mathlib.Analysis.SpecialFunctions.Trigonometric.Basic
set_option linter.unusedSimpArgs false
set_option linter.unusedVariables false
/-
C65: the signals of the multiple quantum coherence and parity oscillation circuits.
-/
namespace Verif.Ent
open Verif Verif.Quantum Complex

/-! ### Specification -/

/-- The probability of the outcome `x`. -/
noncomputable def outcome {n : ℕ} (ψ : State (Fin n) ℂ) (x : Basis (Fin n)) : ℝ := normSq (ψ x)

/-- The outcome in which only qubit 0 reads 1. -/
def onlyZero (n : ℕ) : Basis (Fin n) := fun q => decide (q.val = 0)

/-- The expectation value of Z ⊗ … ⊗ Z: +1 for an even number of ones, −1 for an odd number. -/
noncomputable def parity {n : ℕ} (ψ : State (Fin n) ℂ) : ℝ :=
  ∑ x : Basis (Fin n), (-1) ^ (Finset.univ.filter fun q => x q = true).card * outcome ψ x

/-! ### Lemmas -/

/-- A circuit made of a Hadamard gate on qubit 0, a tree of CNOTs and barriers. -/
def IsPrep (n : ℕ) (circ : List (Instr ℝ)) : Prop :=
  ∃ ps, (circ.filter fun g => decide (g ≠ .barrier)) = .h 0 :: tree 1 ps ∧ 1 + ps.length = n ∧ Before 1 ps

theorem prep_line (n : ℕ) (hn : 1 ≤ n) : IsPrep n (ghzSimple n false true) := by
  refine ⟨List.range' 0 (n - 1), ?_, by rw [List.length_range']; omega, line_before 0 (n - 1)⟩
  unfold ghzSimple
  simp only [Bool.false_eq_true, if_false, List.append_nil]
  rw [List.filter_eq_self.2]
  · rw [line_tree 0 (n - 1)]
  · intro g hg
    rcases List.mem_cons.1 hg with rfl | hg
    · simp
    · obtain ⟨i, -, rfl⟩ := List.mem_map.1 hg
      simp

theorem prep_layout {cmap : List (ℕ × ℕ)} {root : ℕ} {tier : Dict ℕ (List (ℕ × ℕ))} (h : Schedule cmap root tier) (n : ℕ)
    (hn : 2 ≤ n) (hmax : n ≤ (root :: targets tier).length) (b : Bool) :
    ∃ circ layout, ghzLayout tier n b = some (circ, layout) ∧ IsPrep n circ := by
  obtain ⟨s, hs, inv⟩ := layout_spec h n hn b
  obtain ⟨ps, hf, hpl, hb, -⟩ := inv.circ
  refine ⟨_, _, hs, ps, hf, ?_, hb⟩
  rw [hpl, List.length_take]
  rw [targets_eq] at hmax
  simp only [List.length_cons, List.length_map] at hmax
  omega

theorem mem_tree' (k : ℕ) (ps : List ℕ) (g : Instr ℝ) (h : g ∈ tree k ps) : ∃ c t, g = .cx c t := by
  induction ps generalizing k with
  | nil => cases h
  | cons p ps ih =>
    rcases List.mem_cons.1 h with h | h
    · exact ⟨_, _, h⟩
    · exact ih _ h

theorem prep_inverse {n : ℕ} {circ : List (Instr ℝ)} (h : IsPrep n circ) (pi : ℝ) : inverse pi circ = some circ.reverse := by
  obtain ⟨ps, hf, -, -⟩ := h
  have hg : ∀ g ∈ circ.reverse, g = .barrier ∨ g = .h 0 ∨ ∃ c t, g = .cx c t := by
    intro g hg
    rw [List.mem_reverse] at hg
    by_cases hb : g = .barrier
    · exact Or.inl hb
    · right
      have : g ∈ circ.filter fun g => decide (g ≠ .barrier) := List.mem_filter.2 ⟨hg, by simpa using hb⟩
      rw [hf] at this
      rcases List.mem_cons.1 this with h | h
      · exact Or.inl h
      · exact Or.inr (mem_tree' 1 ps g h)
  unfold inverse
  generalize circ.reverse = l at hg ⊢
  induction l with
  | nil => rfl
  | cons g l ih =>
    rw [List.mapM_cons, ih (fun g hg' => hg g (by simp [hg']))]
    rcases hg g (by simp) with rfl | rfl | ⟨c, t, rfl⟩ <;> rfl

variable {n : ℕ}

theorem prep_run {circ : List (Instr ℝ)} (h : IsPrep n circ) : runGates n circ ket0 = some (pairSt n n rt rt) := by
  obtain ⟨ps, hf, hl, hb⟩ := h
  rw [← runGates_barriers, hf, run_prep ps hb hl]

theorem prep_unrun {circ : List (Instr ℝ)} (h : IsPrep n circ) (a b : ℂ) :
    runGates n circ.reverse (pairSt n n a b) = some (pairSt n 1 (rt * (a + b)) (rt * (a - b))) := by
  obtain ⟨ps, hf, hl, hb⟩ := h
  rw [← runGates_barriers, List.filter_reverse, hf, List.reverse_cons, runGates_append]
  have := run_tree_reverse (n := n) ps 1 hb (by omega) a b
  rw [hl] at this
  rw [this, Option.bind_some, runGates_cons]
  simp only [applyGate]
  rw [pairSt_h (n := n) (by omega)]
  rfl

theorem run_u1 (d : ℝ) (a b : ℂ) :
    runGates n ((List.range n).map fun i => .u1 d i) (pairSt n n a b) = some (pairSt n n a (b * exp (n * d * I))) := by
  rw [pairSt_prod, run_all _ (mU1 d) (fun i ψ => rfl), pairSt_prod]
  congr 1
  funext x
  have e1 : mv (mU1 d) (dlt false) = dlt false := by
    funext r; cases r <;> simp [mv, mU1, dlt]
  have e2 : mv (mU1 d) (dlt true) = fun r => exp (d * I) * dlt true r := by
    funext r; cases r <;> simp [mv, mU1, dlt]
  rw [e1, e2, prodSt_dlt, prodSt_dlt1 true]
  split
  · rw [← Complex.exp_nat_mul, mul_one, mul_assoc]
  · simp

theorem run_x (a b : ℂ) : runGates n ((List.range n).map fun i => (.x i : Instr ℝ)) (pairSt n n a b) = some (pairSt n n b a) := by
  rw [pairSt_prod, run_all _ mX (fun i ψ => rfl), pairSt_prod]
  congr 1
  funext x
  have e1 : mv mX (dlt false) = dlt true := by
    funext r; cases r <;> simp [mv, mX, dlt]
  have e2 : mv mX (dlt true) = dlt false := by
    funext r; cases r <;> simp [mv, mX, dlt]
  rw [e1, e2, add_comm]

theorem run_mid (mid : List (Instr ℝ)) (hmid : ∀ g ∈ mid, g = .barrier) (ψ : State (Fin n) ℂ) : runGates n mid ψ = some ψ := by
  induction mid with
  | nil => rfl
  | cons g l ih =>
    rw [hmid g (by simp), runGates_cons]
    exact ih fun g hg => hmid g (by simp [hg])

theorem rt_rt : rt * rt = (1 / 2 : ℂ) := by have := rt_sq; simpa [sq] using this

theorem mqc_exec (hn : 1 ≤ n) (prep mid : List (Instr ℝ)) (h : IsPrep n prep) (hmid : ∀ g ∈ mid, g = .barrier) (pi d : ℝ) (full : Bool) :
    ∃ circ, mqcWith pi n prep mid d full = some circ ∧
      exec n circ = some (pairSt n 1 ((exp (n * d * I) + 1) / 2) ((exp (n * d * I) - 1) / 2), measured n full) := by
  unfold mqcWith
  rw [prep_inverse h pi]
  refine ⟨_, rfl, ?_⟩
  apply exec_measurementCirc hn
  simp only [runGates_append, prep_run h, Option.bind_some, run_u1, run_mid mid hmid, run_x, prep_unrun h,
    run_mid [.barrier] (by simp)]
  congr 2
  · linear_combination (exp (n * d * I) + 1) * rt_rt
  · linear_combination (exp (n * d * I) - 1) * rt_rt

theorem normSq_half_add (θ : ℝ) : normSq ((exp (θ * I) + 1) / 2) = (1 + Real.cos θ) / 2 := by
  rw [exp_mul_I, ← ofReal_cos, ← ofReal_sin, normSq_div, normSq_apply]
  have := Real.sin_sq_add_cos_sq θ
  simp [normSq_apply, -ofReal_cos, -ofReal_sin]
  nlinarith

theorem normSq_half_sub (θ : ℝ) : normSq ((exp (θ * I) - 1) / 2) = (1 - Real.cos θ) / 2 := by
  rw [exp_mul_I, ← ofReal_cos, ← ofReal_sin, normSq_div, normSq_apply]
  have := Real.sin_sq_add_cos_sq θ
  simp [normSq_apply, -ofReal_cos, -ofReal_sin]
  nlinarith

/-- The signal of an MQC circuit. -/
structure MqcSignal (n : ℕ) (d : ℝ) (full : Bool) (circ : List (Instr ℝ)) : Prop where
  run : ∃ ψ, exec n circ = some (ψ, measured n full) ∧
    outcome ψ (fun _ => false) = (1 + Real.cos (n * d)) / 2 ∧
    outcome ψ (onlyZero n) = (1 - Real.cos (n * d)) / 2 ∧
    ∀ x, x ≠ (fun _ => false) → x ≠ onlyZero n → outcome ψ x = 0

theorem mqc_signal (hn : 1 ≤ n) (prep mid : List (Instr ℝ)) (h : IsPrep n prep) (hmid : ∀ g ∈ mid, g = .barrier) (pi d : ℝ) (full : Bool) :
    ∃ circ, mqcWith pi n prep mid d full = some circ ∧ MqcSignal n d full circ := by
  obtain ⟨circ, h1, h2⟩ := mqc_exec hn prep mid h hmid pi d full
  refine ⟨circ, h1, ⟨_, h2, ?_, ?_, ?_⟩⟩
  · have e : ¬ ∀ q : Fin n, false = decide (q.val < 1) := fun h => by
      have := h ⟨0, by omega⟩
      simp at this
    simp only [outcome, pairSt, implies_true, if_true, if_neg e, add_zero]
    have := normSq_half_add (n * d)
    push_cast at this
    exact this
  · have e : ¬ ∀ q : Fin n, onlyZero n q = false := fun h => by
      have := h ⟨0, by omega⟩
      simp [onlyZero] at this
    have e2 : ∀ q : Fin n, onlyZero n q = decide (q.val < 1) := by
      intro q; simp [onlyZero]
    simp only [outcome, pairSt, if_neg e, if_pos e2, zero_add]
    have := normSq_half_sub (n * d)
    push_cast at this
    exact this
  · intro x hx1 hx2
    have e : ¬ ∀ q : Fin n, x q = false := fun h => hx1 (funext h)
    have e2 : ¬ ∀ q : Fin n, x q = decide (q.val < 1) := fun h => hx2 (by funext q; rw [h q]; simp [onlyZero])
    simp only [outcome, pairSt, if_neg e, if_neg e2, add_zero, map_zero]

/-! ### C65: multiple quantum coherence -/

/-- **C65** (MQC, linear): the ground state is found with probability (1 + cos nδ)/2, the state in which only qubit 0 is 1 with
probability (1 − cos nδ)/2, and no other. -/
theorem C65_mqc_linear (n : ℕ) (hn : 1 ≤ n) (δ : ℝ) (full : Bool) :
    ∃ circ, ghzMqc Real.pi n δ full = some circ ∧ MqcSignal n δ full circ :=
  mqc_signal hn _ [] (prep_line n hn) (by simp) _ δ full

/-- **C65** (MQC, tiers): the same for the circuit along the tiers of a device. -/
theorem C65_mqc_layout (cmap : List (ℕ × ℕ)) (root : ℕ) (tier : Dict ℕ (List (ℕ × ℕ))) (h : Schedule cmap root tier) (n : ℕ)
    (hn : 2 ≤ n) (hmax : n ≤ (root :: targets tier).length) (δ : ℝ) (full : Bool) :
    ∃ circ layout, layoutMqc Real.pi tier n δ full = some (circ, layout) ∧ MqcSignal n δ full circ := by
  obtain ⟨prep, layout, h1, h2⟩ := prep_layout h n hn hmax true
  obtain ⟨circ, h3, h4⟩ := mqc_signal (by omega) prep [.barrier] h2 (by simp) Real.pi δ full
  refine ⟨circ, layout, ?_, h4⟩
  unfold layoutMqc
  simp only [h1, h3, Option.bind_eq_bind, Option.bind_some]

/-- **C65** (MQC): measuring only the first qubit shows the same signal. -/
theorem C65_mqc_first (n : ℕ) (hn : 1 ≤ n) (δ : ℝ) (full : Bool) :
    ∃ circ ψ ms, ghzMqc Real.pi n δ full = some circ ∧ exec n circ = some (ψ, ms) ∧
      ∑ x ∈ Finset.univ.filter (fun x : Basis (Fin n) => x ⟨0, by omega⟩ = false), outcome ψ x = (1 + Real.cos (n * δ)) / 2 := by
  obtain ⟨circ, h1, ⟨ψ, h2, h3, h4, h5⟩⟩ := C65_mqc_linear n hn δ full
  refine ⟨circ, ψ, _, h1, h2, ?_⟩
  rw [Finset.sum_eq_single (fun _ => false), h3]
  · intro x hx hne
    refine h5 x hne fun h => ?_
    simp only [Finset.mem_filter] at hx
    rw [h] at hx
    simp [onlyZero] at hx
  · intro h
    simp at h

/-! ### C65: parity oscillations -/

theorem po_exec (hn : 1 ≤ n) (prep : List (Instr ℝ)) (h : IsPrep n prep) (d : ℝ) :
    exec n (poWith n prep d) =
      some (fun x => rt * prodSt (fun r => mU2 d (-d) r false) x + rt * prodSt (fun r => mU2 d (-d) r true) x, measured n true) := by
  unfold poWith
  apply exec_measurementCirc hn
  have e : ∀ b, mv (mU2 d (-d)) (dlt b) = fun r => mU2 d (-d) r b := by
    intro b; funext r; cases b <;> simp [mv, dlt]
  simp only [runGates_append, prep_run h, Option.bind_some, run_mid [.barrier] (by simp)]
  rw [pairSt_prod, run_all _ (mU2 d (-d)) (fun i ψ => rfl)]
  simp only [Option.bind_some, run_mid [.barrier] (by simp), e]

theorem sign_prod (x : Basis (Fin n)) : ((-1) ^ (Finset.univ.filter fun q => x q = true).card : ℂ) = ∏ q, if x q = true then (-1 : ℂ) else 1 := by
  rw [Finset.prod_ite, Finset.prod_const, Finset.prod_const_one, mul_one]

theorem sum_prod (f : Bool → ℂ) : ∑ x : Basis (Fin n), ∏ q, f (x q) = (f false + f true) ^ n := by
  have := Finset.prod_univ_sum (fun _ : Fin n => (Finset.univ : Finset Bool)) (fun _ b => f b)
  simp only [Fintype.piFinset_univ] at this
  rw [← this]
  simp [add_comm]

theorem signed_sum (v w : Bool → ℂ) :
    ∑ x : Basis (Fin n), ((-1) ^ (Finset.univ.filter fun q => x q = true).card : ℂ) * (prodSt v x * starRingEnd ℂ (prodSt w x)) =
      (v false * starRingEnd ℂ (w false) - v true * starRingEnd ℂ (w true)) ^ n := by
  have : ∀ x : Basis (Fin n), ((-1) ^ (Finset.univ.filter fun q => x q = true).card : ℂ) * (prodSt v x * starRingEnd ℂ (prodSt w x)) =
      ∏ q, (fun b => (if b = true then (-1 : ℂ) else 1) * (v b * starRingEnd ℂ (w b))) (x q) := by
    intro x
    rw [sign_prod]
    simp only [prodSt, map_prod, ← Finset.prod_mul_distrib]
  rw [Finset.sum_congr rfl fun x _ => this x, sum_prod (fun b => (if b = true then (-1 : ℂ) else 1) * (v b * starRingEnd ℂ (w b)))]
  simp [sub_eq_add_neg]

theorem po_parity (hn : 1 ≤ n) (d : ℝ) :
    parity (n := n) (fun x => rt * prodSt (fun r => mU2 d (-d) r false) x + rt * prodSt (fun r => mU2 d (-d) r true) x) =
      (-1) ^ n * Real.cos (n * d) := by
  have hrr : starRingEnd ℂ rt = rt := by unfold rt; exact Complex.conj_ofReal _
  have hee : exp (d * I) * exp (-(d * I)) = 1 := by rw [← Complex.exp_add]; simp
  have he : starRingEnd ℂ (exp (d * I)) = exp (-(d * I)) := by
    rw [← Complex.exp_conj]; simp
  have he' : starRingEnd ℂ (exp (-(d * I))) = exp (d * I) := by
    rw [← Complex.exp_conj]; simp
  have key : ((parity (n := n) (fun x => rt * prodSt (fun r => mU2 d (-d) r false) x + rt * prodSt (fun r => mU2 d (-d) r true) x) : ℝ) : ℂ) =
      (((-1) ^ n * Real.cos (n * d) : ℝ) : ℂ) := by
    unfold parity outcome
    push_cast
    simp only [Complex.normSq_eq_conj_mul_self]
    set A : State (Fin n) ℂ := prodSt (fun r => mU2 d (-d) r false) with hA
    set B : State (Fin n) ℂ := prodSt (fun r => mU2 d (-d) r true) with hB
    have hsplit : ∀ x : Basis (Fin n), ((-1) ^ (Finset.univ.filter fun q => x q = true).card : ℂ) *
        (starRingEnd ℂ (rt * A x + rt * B x) * (rt * A x + rt * B x)) =
        (1 / 2) * (((-1) ^ (Finset.univ.filter fun q => x q = true).card : ℂ) * (A x * starRingEnd ℂ (A x)) +
         ((-1) ^ (Finset.univ.filter fun q => x q = true).card : ℂ) * (A x * starRingEnd ℂ (B x)) +
         ((-1) ^ (Finset.univ.filter fun q => x q = true).card : ℂ) * (B x * starRingEnd ℂ (A x)) +
         ((-1) ^ (Finset.univ.filter fun q => x q = true).card : ℂ) * (B x * starRingEnd ℂ (B x))) := by
      intro x
      simp only [map_add, map_mul, hrr]
      linear_combination (((-1) ^ (Finset.univ.filter fun q => x q = true).card : ℂ) * (starRingEnd ℂ (A x) + starRingEnd ℂ (B x)) * (A x + B x)) * rt_rt
    rw [Finset.sum_congr rfl fun x _ => hsplit x, ← Finset.mul_sum]
    simp only [Finset.sum_add_distrib]
    rw [hA, hB]
    simp only [signed_sum]
    simp only [mU2, map_mul, map_neg, hrr, he, ofReal_neg, neg_mul, he', add_neg_cancel, zero_mul, Complex.exp_zero, mul_one]
    have z : (0 : ℂ) ^ n = 0 := zero_pow (by omega)
    have t1 : rt * rt - rt * exp (d * I) * (rt * exp (-(d * I))) = 0 := by linear_combination (-(rt * rt)) * hee
    have t4 : -(rt * exp (-(d * I))) * -(rt * exp (d * I)) - rt * rt = 0 := by linear_combination (rt * rt) * hee
    have t2 : rt * -(rt * exp (d * I)) - rt * exp (d * I) * rt = -1 * exp (d * I) := by linear_combination (-2 * exp (d * I)) * rt_rt
    have t3 : -(rt * exp (-(d * I))) * rt - rt * (rt * exp (-(d * I))) = -1 * exp (-(d * I)) := by linear_combination (-2 * exp (-(d * I))) * rt_rt
    simp only [neg_mul, one_mul, mul_neg, neg_neg] at t1 t2 t3 t4 ⊢
    simp only [t1, t2, t3, t4, z]
    rw [neg_pow (exp (d * I)), neg_pow (exp (-(d * I))), ← Complex.exp_nat_mul, ← Complex.exp_nat_mul]
    rw [Complex.cos]
    rw [show (n : ℂ) * (d * I) = n * d * I by ring, show (n : ℂ) * -(d * I) = -(n * d) * I by ring]
    ring
  exact_mod_cast key

/-- **C65** (parity oscillations, linear): the parity of the measured qubits oscillates as (−1)ⁿ cos nδ. -/
theorem C65_po_linear (n : ℕ) (hn : 1 ≤ n) (δ : ℝ) :
    ∃ ψ, exec n (ghzPo n δ) = some (ψ, measured n true) ∧ parity ψ = (-1) ^ n * Real.cos (n * δ) :=
  ⟨_, po_exec hn _ (prep_line n hn) δ, po_parity hn δ⟩

/-- **C65** (parity oscillations, tiers). -/
theorem C65_po_layout (cmap : List (ℕ × ℕ)) (root : ℕ) (tier : Dict ℕ (List (ℕ × ℕ))) (h : Schedule cmap root tier) (n : ℕ)
    (hn : 2 ≤ n) (hmax : n ≤ (root :: targets tier).length) (δ : ℝ) :
    ∃ circ layout ψ, layoutPo tier n δ = some (circ, layout) ∧ exec n circ = some (ψ, measured n true) ∧
      parity ψ = (-1) ^ n * Real.cos (n * δ) := by
  obtain ⟨prep, layout, h1, h2⟩ := prep_layout h n hn hmax true
  refine ⟨_, layout, _, ?_, po_exec (by omega) prep h2 δ, po_parity (by omega) δ⟩
  unfold layoutPo
  simp only [h1, Option.bind_eq_bind, Option.bind_some]

/-- Not vacuous: a turn by π/n flips the signal of the linear circuits from 1 to 0 and from (−1)ⁿ to its negative. -/
example : ∃ circ, ghzMqc Real.pi 3 (Real.pi / 3) true = some circ ∧ ∃ ψ, exec 3 circ = some (ψ, measured 3 true) ∧
    outcome ψ (fun _ => false) = 0 ∧ outcome ψ (onlyZero 3) = 1 := by
  obtain ⟨circ, h1, ⟨ψ, h2, h3, h4, -⟩⟩ := C65_mqc_linear 3 (by norm_num) (Real.pi / 3) true
  have e : ((3 : ℕ) : ℝ) * (Real.pi / 3) = Real.pi := by push_cast; ring
  rw [e, Real.cos_pi] at h3 h4
  exact ⟨circ, h1, ψ, h2, by rw [h3]; norm_num, by rw [h4]; norm_num⟩

end Verif.Ent
