import Verif.Char.Sem
import Verif.Char.ModelReal
set_option linter.unusedSimpArgs false
set_option linter.unusedVariables false
/-
Lemmas: states on the equator of the Bloch sphere and the effect of the blocks of gates on them.
-/
namespace Verif.Char
open Verif Verif.Quantum Complex
open Verif.Ent (mU1 mU2 mv dlt)

/-- `v` is `(|0⟩ + e^{iα}|1⟩)/√2` up to a global phase. -/
def Eqv (α : ℝ) (v : Bool → ℂ) : Prop := ∃ c : ℂ, normSq c = 1 ∧ v = fun b => c * (rt * if b then exp (α * I) else 1)

theorem normSq_exp (a : ℝ) : normSq (exp (a * I)) = 1 := by
  rw [normSq_eq_norm_sq, norm_exp_ofReal_mul_I]; norm_num

theorem normSq_rt : normSq rt = 1 / 2 := by
  have : rt = ((1 / Real.sqrt 2 : ℝ) : ℂ) := rfl
  rw [this, normSq_ofReal, div_mul_div_comm, Real.mul_self_sqrt (by norm_num)]
  norm_num

theorem exp_inv (a : ℝ) : exp ((a : ℂ) * I) * exp (-(a : ℂ) * I) = 1 := by
  rw [← exp_add]; simp

theorem Eqv.u1 {α : ℝ} {v : Bool → ℂ} (h : Eqv α v) (β : ℝ) : Eqv (α + β) (mv (mU1 β) v) := by
  obtain ⟨c, hc, rfl⟩ := h
  refine ⟨c, hc, ?_⟩
  funext b
  cases b
  · simp [mv, mU1]
  · simp only [mv, mU1, Bool.true_eq_false, if_false, if_true, zero_mul, zero_add]
    rw [show ((α + β : ℝ) : ℂ) * I = (α : ℂ) * I + (β : ℂ) * I by push_cast; ring, exp_add]
    ring

theorem Eqv.x {α : ℝ} {v : Bool → ℂ} (h : Eqv α v) : Eqv (-α) (mv mX v) := by
  obtain ⟨c, hc, rfl⟩ := h
  refine ⟨c * exp (α * I), by rw [normSq_mul, hc, normSq_exp]; norm_num, ?_⟩
  funext b
  have := exp_inv α
  cases b
  · simp [mv, mX]; ring
  · simp only [mv, mX, Bool.true_eq_false, if_false, if_true, zero_mul, add_zero, Bool.false_eq_true]
    push_cast
    linear_combination (-c * rt) * this

theorem Eqv.y {α : ℝ} {v : Bool → ℂ} (h : Eqv α v) : Eqv (Real.pi - α) (mv mY v) := by
  obtain ⟨c, hc, rfl⟩ := h
  refine ⟨-I * c * exp (α * I), by rw [normSq_mul, normSq_mul, hc, normSq_exp]; simp, ?_⟩
  funext b
  have := exp_inv α
  cases b
  · simp [mv, mY]; ring
  · simp only [mv, mY, Bool.true_eq_false, if_false, if_true, zero_mul, add_zero, Bool.false_eq_true]
    rw [show ((Real.pi - α : ℝ) : ℂ) * I = (Real.pi : ℂ) * I + -(α : ℂ) * I by push_cast; ring, exp_add, exp_pi_mul_I]
    linear_combination (-I * c * rt) * this

theorem eqv_y90 : Eqv 0 (mv (mU2 0 0) (dlt false)) := by
  refine ⟨1, by simp, ?_⟩
  funext b
  cases b <;> simp [mv, mU2, dlt]

theorem eqv_h : Eqv 0 (mv mH (dlt false)) := by
  refine ⟨1, by simp, ?_⟩
  funext b
  cases b <;> simp [mv, mH, dlt]

theorem normSq_one_add (α : ℝ) : normSq (1 + exp (α * I)) = 2 + 2 * Real.cos α := by
  rw [exp_mul_I, ← ofReal_cos, ← ofReal_sin, normSq_apply]
  simp [-ofReal_cos, -ofReal_sin]
  nlinarith [Real.sin_sq_add_cos_sq α]

theorem normSq_one_sub (α : ℝ) : normSq (1 - exp (α * I)) = 2 - 2 * Real.cos α := by
  rw [exp_mul_I, ← ofReal_cos, ← ofReal_sin, normSq_apply]
  simp [-ofReal_cos, -ofReal_sin]
  nlinarith [Real.sin_sq_add_cos_sq α]

theorem Eqv.final_h {α : ℝ} {v : Bool → ℂ} (h : Eqv α v) :
    normSq (mv mH v true) = (1 - Real.cos α) / 2 ∧ normSq (mv mH v false) = (1 + Real.cos α) / 2 := by
  obtain ⟨c, hc, rfl⟩ := h
  have e1 : mv mH (fun b => c * (rt * if b then exp (α * I) else 1)) true = c * (rt * rt) * (1 - exp (α * I)) := by
    simp [mv, mH]; ring
  have e2 : mv mH (fun b => c * (rt * if b then exp (α * I) else 1)) false = c * (rt * rt) * (1 + exp (α * I)) := by
    simp [mv, mH]; ring
  rw [e1, e2]
  simp only [normSq_mul, hc, normSq_rt, normSq_one_add, normSq_one_sub]
  constructor <;> ring

theorem Eqv.final_y90 {α : ℝ} {v : Bool → ℂ} (h : Eqv α v) :
    normSq (mv (mU2 0 0) v true) = (1 + Real.cos α) / 2 ∧ normSq (mv (mU2 0 0) v false) = (1 - Real.cos α) / 2 := by
  obtain ⟨c, hc, rfl⟩ := h
  have e1 : mv (mU2 0 0) (fun b => c * (rt * if b then exp (α * I) else 1)) true = c * (rt * rt) * (1 + exp (α * I)) := by
    simp [mv, mU2]; ring
  have e2 : mv (mU2 0 0) (fun b => c * (rt * if b then exp (α * I) else 1)) false = c * (rt * rt) * (1 - exp (α * I)) := by
    simp [mv, mU2]; ring
  rw [e1, e2]
  simp only [normSq_mul, hc, normSq_rt, normSq_one_add, normSq_one_sub]
  constructor <;> ring

/-! ### Blocks -/

theorem blockVec_nil (D : Device) (d : ℝ) (v : Bool → ℂ) : blockVec D d [] v = v := rfl

theorem blockVec_cons (D : Device) (d : ℝ) (g : Instr ℝ) (l : List (Instr ℝ)) (v : Bool → ℂ) :
    blockVec D d (g :: l) v = blockVec D d l (mv (matOf D d g) v) := rfl

theorem blockVec_append (D : Device) (d : ℝ) (l m : List (Instr ℝ)) (v : Bool → ℂ) :
    blockVec D d (l ++ m) v = blockVec D d m (blockVec D d l v) := by
  unfold blockVec; rw [List.foldl_append]

/-- A block repeated `k` times. -/
theorem blockVec_repeat (D : Device) (d : ℝ) (l : List (Instr ℝ)) (k : ℕ) (v : Bool → ℂ) :
    blockVec D d ((List.range k).flatMap fun _ => l) v = (blockVec D d l)^[k] v := by
  induction k with
  | zero => rfl
  | succ k ih =>
    rw [List.range_succ, List.flatMap_append, blockVec_append, ih, Function.iterate_succ_apply']
    simp

theorem mv_u1_u1 (a b : ℝ) (v : Bool → ℂ) : mv (mU1 a) (mv (mU1 b) v) = mv (mU1 (a + b)) v := by
  funext r
  cases r
  · simp [mv, mU1]
  · simp only [mv, mU1, Bool.true_eq_false, if_false, if_true, zero_mul, zero_add]
    rw [show ((a + b : ℝ) : ℂ) * I = (a : ℂ) * I + (b : ℂ) * I by push_cast; ring, exp_add]
    ring

theorem mv_u1_zero (v : Bool → ℂ) : mv (mU1 0) v = v := by
  funext r
  cases r <;> simp [mv, mU1]

theorem blockVec_padId (D : Device) (d : ℝ) (q k : ℕ) (v : Bool → ℂ) :
    blockVec D d (padId q k) v = mv (mU1 (k * d)) v := by
  unfold padId
  rw [blockVec_append, blockVec_repeat]
  have h1 : ∀ v, blockVec D d [Instr.barrier [q]] v = v := by
    intro v
    simp [blockVec_cons, blockVec_nil, matOf, mv_mI]
  rw [h1]
  induction k with
  | zero => simp [mv_u1_zero]
  | succ k ih =>
    rw [Function.iterate_succ_apply', ih]
    simp only [blockVec_cons, blockVec_nil, matOf, mv_mI]
    rw [mv_u1_u1]
    congr 2
    push_cast
    ring

theorem onQ_padId (C : List ℕ) (q k : ℕ) : ∀ g ∈ padId q k, OnQ C q g := by
  intro g hg
  unfold padId at hg
  simp only [List.mem_append, List.mem_flatMap, List.mem_cons, List.not_mem_nil, or_false] at hg
  rcases hg with ⟨a, -, rfl | rfl⟩ | rfl <;> simp [OnQ]

/-- The identity gates on qubit `q`. -/
def idCount {A : Type} [DecidableEq A] (q : ℕ) (ops : List (Instr A)) : ℕ := ops.countP fun g => decide (g = Instr.id q)

end Verif.Char
