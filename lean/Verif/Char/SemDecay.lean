import Verif.Char.Sem
import Verif.Char.ModelReal
set_option linter.unusedSimpArgs false
set_option linter.unusedVariables false
/-
Meaning of the coherence circuits on a device whose qubits relax and dephase during identity gates.  Textbook semantics with one density
matrix per qubit (the circuits contain no two-qubit gates), not code of the repository.
-/
namespace Verif.Char
open Verif Verif.Quantum Complex
open Verif.Ent (mU1 mU2 mv dlt)

/-- Relaxation time, dephasing time and phase per identity gate of every qubit, and the duration of an identity gate. -/
structure Relax where
  t1 : ℕ → ℝ
  t2 : ℕ → ℝ
  phase : ℕ → ℝ
  gateTime : ℝ

/-- A gate on a density matrix: `u ρ u†`. -/
noncomputable def conjBy (u ρ : Mat2 ℂ) : Mat2 ℂ := fun r c =>
  ∑ a : Bool, ∑ b : Bool, u r a * ρ a b * starRingEnd ℂ (u c b)

/-- The time `t` passes: the population of 1 decays with `T1` into 0, the coherence decays with `T2`, and state 1 picks up a phase. -/
noncomputable def decay (t T1 T2 δ : ℝ) (ρ : Mat2 ℂ) : Mat2 ℂ := fun r c =>
  match r, c with
  | true, true => (Real.exp (-t / T1) : ℂ) * ρ true true
  | false, false => ρ false false + (1 - (Real.exp (-t / T1) : ℂ)) * ρ true true
  | false, true => (Real.exp (-t / T2) : ℂ) * exp (-(δ * I)) * ρ false true
  | true, false => (Real.exp (-t / T2) : ℂ) * exp (δ * I) * ρ true false

/-- The effect of a one-qubit gate. -/
noncomputable def relaxOp (R : Relax) (q : ℕ) : Instr ℝ → Mat2 ℂ → Mat2 ℂ
  | .h _ => conjBy mH
  | .x _ => conjBy mX
  | .y _ => conjBy mY
  | .id _ => decay R.gateTime (R.t1 q) (R.t2 q) (R.phase q)
  | .u1 l _ => conjBy (mU1 l)
  | .u2 p l _ => conjBy (mU2 p l)
  | _ => id

/-- The qubit of a one-qubit gate. -/
def gateQubit : Instr ℝ → Option ℕ
  | .h q => some q
  | .x q => some q
  | .y q => some q
  | .id q => some q
  | .u1 _ q => some q
  | .u2 _ _ q => some q
  | _ => none

/-- One instruction: the density matrices and the pairs (qubit, classical bit) measured so far.  Two-qubit gates and gates after a
measurement are given no meaning. -/
noncomputable def relaxStep (R : Relax) (n m : ℕ) (s : (ℕ → Mat2 ℂ) × List (ℕ × ℕ)) (g : Instr ℝ) : Option ((ℕ → Mat2 ℂ) × List (ℕ × ℕ)) :=
  match g with
  | .measure q c => if q < n ∧ c < m then some (s.1, s.2 ++ [(q, c)]) else none
  | .barrier _ => some s
  | g => match gateQubit g with
    | some q => if q < n ∧ s.2 = [] then some (Function.update s.1 q (relaxOp R q g (s.1 q)), []) else none
    | none => none

/-- State 0. -/
def rho0 : Mat2 ℂ := fun r c => if r = false ∧ c = false then 1 else 0

/-- Running circuit `C` measures qubit `qubits[i]` into classical bit `i`, for every `i` and nothing else, and the bit of qubit `q` reads
1 with probability `p q` and 0 with probability `1 - p q`. -/
def RelaxReads (R : Relax) (C : Circ ℝ) (qubits : List ℕ) (p : ℕ → ℝ) : Prop :=
  ∃ ρ, C.ops.foldlM (relaxStep R C.nq C.nc) (fun _ => rho0, []) = some (ρ, qubits.zipIdx) ∧ C.nc = qubits.length ∧
    ∀ q ∈ qubits, ρ q true true = p q ∧ ρ q false false = (1 - p q : ℝ)

/-! ### Blocks -/

/-- The effect of a block on its qubit. -/
noncomputable def relaxBlock (R : Relax) (q : ℕ) (l : List (Instr ℝ)) (ρ : Mat2 ℂ) : Mat2 ℂ := l.foldl (fun ρ g => relaxOp R q g ρ) ρ

theorem relaxBlock_cons (R : Relax) (q : ℕ) (g : Instr ℝ) (l : List (Instr ℝ)) (ρ : Mat2 ℂ) :
    relaxBlock R q (g :: l) ρ = relaxBlock R q l (relaxOp R q g ρ) := rfl
theorem relaxBlock_append (R : Relax) (q : ℕ) (l m : List (Instr ℝ)) (ρ : Mat2 ℂ) :
    relaxBlock R q (l ++ m) ρ = relaxBlock R q m (relaxBlock R q l ρ) := by
  unfold relaxBlock; rw [List.foldl_append]

theorem relax_run_block (R : Relax) (n m q : ℕ) (hq : q < n) (l : List (Instr ℝ)) (hl : ∀ g ∈ l, OnQ [] q g) (ρ : ℕ → Mat2 ℂ) :
    l.foldlM (relaxStep R n m) (ρ, []) = some (Function.update ρ q (relaxBlock R q l (ρ q)), []) := by
  induction l generalizing ρ with
  | nil => simp [relaxBlock]
  | cons g l ih =>
    rw [List.foldlM_cons]
    have hstep : relaxStep R n m (ρ, []) g = some (Function.update ρ q (relaxOp R q g (ρ q)), []) := by
      have hg := hl g (by simp)
      cases g with
      | h p => obtain rfl : p = q := hg; simp [relaxStep, gateQubit, hq]
      | x p => obtain rfl : p = q := hg; simp [relaxStep, gateQubit, hq]
      | y p => obtain rfl : p = q := hg; simp [relaxStep, gateQubit, hq]
      | id p => obtain rfl : p = q := hg; simp [relaxStep, gateQubit, hq]
      | u1 a p => obtain rfl : p = q := hg; simp [relaxStep, gateQubit, hq]
      | u2 a b p => obtain rfl : p = q := hg; simp [relaxStep, gateQubit, hq]
      | cx c t => simp [OnQ] at hg
      | barrier qs => simp [relaxStep, relaxOp]
      | measure a b => exact absurd hg id
    rw [hstep]
    simp only [Option.bind_eq_bind, Option.bind_some]
    rw [ih fun x hx => hl x (by simp [hx])]
    simp [Function.update_idem, relaxBlock_cons]

theorem relax_run_blocks (R : Relax) (n m : ℕ) (qubits : List ℕ) (hnd : qubits.Nodup) (hn : ∀ q ∈ qubits, q < n)
    (blk : ℕ → List (Instr ℝ)) (hl : ∀ q ∈ qubits, ∀ g ∈ blk q, OnQ [] q g) (ρ : ℕ → Mat2 ℂ) :
    (qubits.flatMap blk).foldlM (relaxStep R n m) (ρ, []) =
      some (fun q => if q ∈ qubits then relaxBlock R q (blk q) (ρ q) else ρ q, []) := by
  induction qubits generalizing ρ with
  | nil => simp
  | cons q l ih =>
    have hnd' := List.nodup_cons.1 hnd
    rw [List.flatMap_cons, List.foldlM_append, relax_run_block R n m q (hn q (by simp)) (blk q) (hl q (by simp))]
    simp only [Option.bind_eq_bind, Option.bind_some]
    rw [ih hnd'.2 (fun p hp => hn p (by simp [hp])) (fun p hp => hl p (by simp [hp]))]
    congr 2
    funext p
    by_cases hpq : p = q
    · subst hpq
      simp [hnd'.1]
    · simp [hpq, Function.update_of_ne hpq]

/-- Blocks on the qubits, a barrier and the final measurements. -/
theorem relax_reads (R : Relax) (C : Circ ℝ) (qubits : List ℕ) (hnd : qubits.Nodup) (blk : ℕ → List (Instr ℝ)) (bs : List ℕ)
    (hops : C.ops = qubits.flatMap blk ++ [Instr.barrier bs] ++ measureAll qubits) (hnc : C.nc = qubits.length)
    (hn : ∀ q ∈ qubits, q < C.nq) (hl : ∀ q ∈ qubits, ∀ g ∈ blk q, OnQ [] q g) (p : ℕ → ℝ)
    (hp : ∀ q ∈ qubits, relaxBlock R q (blk q) rho0 true true = p q ∧ relaxBlock R q (blk q) rho0 false false = (1 - p q : ℝ)) :
    RelaxReads R C qubits p := by
  refine ⟨fun q => if q ∈ qubits then relaxBlock R q (blk q) rho0 else rho0, ?_, hnc, ?_⟩
  · rw [hops, List.foldlM_append, List.foldlM_append, relax_run_blocks R C.nq C.nc qubits hnd hn blk hl]
    simp only [Option.bind_eq_bind, Option.bind_some]
    have hb : [Instr.barrier bs].foldlM (relaxStep R C.nq C.nc) ((fun q => if q ∈ qubits then relaxBlock R q (blk q) rho0 else rho0), []) =
        some ((fun q => if q ∈ qubits then relaxBlock R q (blk q) rho0 else rho0), []) := rfl
    rw [hb, Option.bind_some]
    have key : ∀ (l : List (ℕ × ℕ)) (hl : ∀ p ∈ l, p.1 < C.nq ∧ p.2 < C.nc) (s : (ℕ → Mat2 ℂ) × List (ℕ × ℕ)),
        (l.map fun p => (Instr.measure p.1 p.2 : Instr ℝ)).foldlM (relaxStep R C.nq C.nc) s = some (s.1, s.2 ++ l) := by
      intro l
      induction l with
      | nil => intro _ s; simp
      | cons a l ih =>
        intro h s
        rw [List.map_cons, List.foldlM_cons]
        have ha := h a (by simp)
        simp only [relaxStep, ha, if_true, Option.bind_eq_bind, Option.bind_some, true_and]
        rw [ih fun x hx => h x (by simp [hx])]
        simp
    unfold measureAll
    rw [key qubits.zipIdx]
    · simp
    · intro x hx
      obtain ⟨-, h2, h3⟩ := List.mem_zipIdx hx
      refine ⟨?_, by rw [hnc]; simpa using h2⟩
      apply hn
      rw [h3]
      exact List.getElem_mem _
  · intro q hq
    simp only [if_pos hq]
    exact hp q hq

end Verif.Char
