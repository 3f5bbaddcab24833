import Verif.Ent.Model
import Verif.Quantum.Gates
import Mathlib.Analysis.SpecialFunctions.Trigonometric.Basic
import Mathlib.Analysis.SpecialFunctions.Exponential
set_option linter.unusedSimpArgs false
set_option linter.unusedVariables false
/-
Meaning of the circuits: the state vector of `n` qubits and the measured bits.  Textbook semantics, not code of the
repository.
-/
namespace Verif.Ent
open Verif Verif.Quantum Complex

/-- The gate U1. -/
noncomputable def mU1 (l : ℝ) : Mat2 ℂ := fun r c => if r = c then (if r then exp (l * I) else 1) else 0

/-- The gate U2. -/
noncomputable def mU2 (p l : ℝ) : Mat2 ℂ := fun r c =>
  match r, c with
  | false, false => rt
  | false, true => -(rt * exp (l * I))
  | true, false => rt * exp (p * I)
  | true, true => rt * exp ((p + l) * I)

/-- Apply a one-qubit gate to qubit `q` of a register of `n` qubits; a qubit outside the register is an exception. -/
noncomputable def on1 (n : ℕ) (u : Mat2 ℂ) (q : ℕ) (ψ : State (Fin n) ℂ) : Option (State (Fin n) ℂ) :=
  if h : q < n then some (app1 u ⟨q, h⟩ ψ) else none

/-- One gate. -/
noncomputable def applyGate (n : ℕ) (ψ : State (Fin n) ℂ) : Instr ℝ → Option (State (Fin n) ℂ)
  | .h q => on1 n mH q ψ
  | .x q => on1 n mX q ψ
  | .cx c t => if h : c < n ∧ t < n ∧ c ≠ t then some (appCX ⟨c, h.1⟩ ⟨t, h.2.1⟩ ψ) else none
  | .u1 l q => on1 n (mU1 l) q ψ
  | .u2 p l q => on1 n (mU2 p l) q ψ
  | .barrier => some ψ
  | .measure _ _ => none

/-- A sequence of gates without measurements. -/
noncomputable def runGates (n : ℕ) (l : List (Instr ℝ)) (ψ : State (Fin n) ℂ) : Option (State (Fin n) ℂ) := l.foldlM (applyGate n) ψ

/-- One instruction: the state and the pairs (qubit, classical bit) measured so far.  A gate after a measurement does not
occur and is not given a meaning. -/
noncomputable def execStep (n : ℕ) (s : State (Fin n) ℂ × List (ℕ × ℕ)) (g : Instr ℝ) : Option (State (Fin n) ℂ × List (ℕ × ℕ)) :=
  match g with
  | .measure q c => if q < n then some (s.1, s.2 ++ [(q, c)]) else none
  | .barrier => some s
  | g => if s.2 = [] then (applyGate n s.1 g).map fun ψ => (ψ, []) else none

/-- Run a circuit on |0…0⟩: the state before the measurements and the measured pairs. -/
noncomputable def exec (n : ℕ) (circ : List (Instr ℝ)) : Option (State (Fin n) ℂ × List (ℕ × ℕ)) :=
  circ.foldlM (execStep n) (ket0, [])

/-- The GHZ state. -/
noncomputable def ghz (n : ℕ) : State (Fin n) ℂ := fun x => if (∀ q, x q = false) ∨ (∀ q, x q = true) then rt else 0

/-! ### Lemmas -/

variable {n : ℕ}

theorem runGates_nil (ψ : State (Fin n) ℂ) : runGates n [] ψ = some ψ := rfl

theorem runGates_cons (g : Instr ℝ) (l : List (Instr ℝ)) (ψ : State (Fin n) ℂ) :
    runGates n (g :: l) ψ = (applyGate n ψ g).bind (runGates n l) := rfl

theorem runGates_append (l m : List (Instr ℝ)) (ψ : State (Fin n) ℂ) :
    runGates n (l ++ m) ψ = (runGates n l ψ).bind (runGates n m) := by
  unfold runGates; rw [List.foldlM_append]; rfl

theorem exec_gates (l : List (Instr ℝ)) (ψ φ : State (Fin n) ℂ) (h : runGates n l ψ = some φ) :
    l.foldlM (execStep n) (ψ, []) = some (φ, []) := by
  induction l generalizing ψ with
  | nil => cases h; rfl
  | cons g l ih =>
    rw [runGates_cons, Option.bind_eq_some_iff] at h
    obtain ⟨χ, h1, h2⟩ := h
    rw [List.foldlM_cons]
    have : execStep n (ψ, []) g = some (χ, []) := by
      cases g <;> simp_all [execStep, applyGate]
    rw [this]
    exact ih χ h2

theorem exec_measures (l : List ℕ) (hl : ∀ q ∈ l, q < n) (s : State (Fin n) ℂ × List (ℕ × ℕ)) :
    (l.map fun i => (Instr.measure i i : Instr ℝ)).foldlM (execStep n) s = some (s.1, s.2 ++ l.map fun i => (i, i)) := by
  induction l generalizing s with
  | nil => simp
  | cons q l ih =>
    rw [List.map_cons, List.foldlM_cons]
    have hq := hl q (by simp)
    simp only [execStep, hq, if_true, Option.bind_eq_bind, Option.bind_some]
    rw [ih (fun x hx => hl x (by simp [hx]))]
    simp

/-- The measurements at the end. -/
def measured (n : ℕ) (full : Bool) : List (ℕ × ℕ) := if full then (List.range n).map fun i => (i, i) else [(0, 0)]

theorem exec_measurementCirc (hn : 1 ≤ n) (l : List (Instr ℝ)) (φ : State (Fin n) ℂ) (full : Bool) (h : runGates n l ket0 = some φ) :
    exec n (l ++ measurementCirc n full) = some (φ, measured n full) := by
  unfold exec
  rw [List.foldlM_append, exec_gates l _ _ h]
  simp only [Option.bind_eq_bind, Option.bind_some, measurementCirc, List.foldlM_cons, execStep]
  cases full with
  | false =>
    simp only [Bool.false_eq_true, if_false]
    have := exec_measures (n := n) [0] (by intro q hq; simp at hq; omega) (φ, [])
    simpa [measured] using this
  | true =>
    simp only [if_true]
    have := exec_measures (n := n) (List.range n) (by intro q hq; simpa using hq) (φ, [])
    simpa [measured] using this

theorem runGates_barriers (l : List (Instr ℝ)) (ψ : State (Fin n) ℂ) :
    runGates n (l.filter fun g => decide (g ≠ .barrier)) ψ = runGates n l ψ := by
  induction l generalizing ψ with
  | nil => rfl
  | cons g l ih =>
    by_cases h : g = .barrier
    · rw [List.filter_cons_of_neg (by simpa using h), ih, runGates_cons, h]; rfl
    · rw [List.filter_cons_of_pos (by simpa using h), runGates_cons, runGates_cons]
      congr 1
      funext χ
      exact ih χ

/-- `a |0…0⟩ + b |1…10…0⟩` with `k` ones. -/
noncomputable def pairSt (n k : ℕ) (a b : ℂ) : State (Fin n) ℂ := fun x =>
  (if ∀ q, x q = false then a else 0) + (if ∀ q, x q = decide (q.val < k) then b else 0)

theorem ket0_eq : (ket0 : State (Fin n) ℂ) = pairSt n 1 1 0 := by
  funext x
  simp only [ket0, pairSt, ite_self, add_zero, funext_iff]

theorem pairSt_h (hn : 1 ≤ n) (a b : ℂ) : on1 n mH 0 (pairSt n 1 a b) = some (pairSt n 1 (rt * (a + b)) (rt * (a - b))) := by
  unfold on1
  rw [dif_pos (show 0 < n by omega)]
  congr 1
  funext x
  have e1 : (∀ q : Fin n, Function.update x ⟨0, by omega⟩ false q = false) ↔ ∀ q : Fin n, q.val ≠ 0 → x q = false := by
    constructor
    · intro h q hq
      have := h q
      rwa [Function.update_of_ne (fun h => hq (by rw [h]))] at this
    · intro h q
      by_cases hq : q = ⟨0, by omega⟩
      · rw [hq, Function.update_self]
      · rw [Function.update_of_ne hq]; exact h q fun h => hq (Fin.ext h)
  have e2 : ¬ (∀ q : Fin n, Function.update x ⟨0, by omega⟩ false q = decide (q.val < 1)) := by
    intro h
    have := h ⟨0, by omega⟩
    simp at this
  have e3 : ¬ (∀ q : Fin n, Function.update x ⟨0, by omega⟩ true q = false) := by
    intro h
    have := h ⟨0, by omega⟩
    simp at this
  have e4 : (∀ q : Fin n, Function.update x ⟨0, by omega⟩ true q = decide (q.val < 1)) ↔ ∀ q : Fin n, q.val ≠ 0 → x q = false := by
    constructor
    · intro h q hq
      have := h q
      rw [Function.update_of_ne (fun h => hq (by rw [h]))] at this
      rw [this]; simp; omega
    · intro h q
      by_cases hq : q = ⟨0, by omega⟩
      · rw [hq, Function.update_self]; simp
      · have hq' : q.val ≠ 0 := fun h => hq (Fin.ext h)
        rw [Function.update_of_ne hq, h q hq']; simp; omega
  have e5 : (∀ q : Fin n, x q = false) ↔ x ⟨0, by omega⟩ = false ∧ ∀ q : Fin n, q.val ≠ 0 → x q = false := by
    constructor
    · intro h; exact ⟨h _, fun q _ => h q⟩
    · rintro ⟨h1, h2⟩ q
      by_cases hq : q.val = 0
      · rw [show q = ⟨0, by omega⟩ from Fin.ext hq]; exact h1
      · exact h2 q hq
  have e6 : (∀ q : Fin n, x q = decide (q.val < 1)) ↔ x ⟨0, by omega⟩ = true ∧ ∀ q : Fin n, q.val ≠ 0 → x q = false := by
    constructor
    · intro h
      refine ⟨by rw [h]; simp, fun q hq => ?_⟩
      rw [h]; simp; omega
    · rintro ⟨h1, h2⟩ q
      by_cases hq : q.val = 0
      · rw [show q = ⟨0, by omega⟩ from Fin.ext hq, h1]; simp
      · rw [h2 q hq]; simp; omega
  simp only [app1, pairSt, e1, if_neg e2, if_neg e3, e4, e5, e6]
  by_cases hR : ∀ q : Fin n, q.val ≠ 0 → x q = false
  · have hT := eq_true hR
    simp only [hT, and_true, if_true]
    cases hx : x ⟨0, by omega⟩ <;> simp [mH] <;> ring
  · have hF := eq_false hR
    simp only [hF, and_false, if_false]
    simp

theorem pairSt_cx (k c : ℕ) (hc : c < k) (hk : k < n) (a b : ℂ) :
    appCX (⟨c, by omega⟩ : Fin n) ⟨k, hk⟩ (pairSt n k a b) = pairSt n (k + 1) a b := by
  funext x
  simp only [appCX, pairSt]
  have hne : (⟨c, by omega⟩ : Fin n) ≠ ⟨k, hk⟩ := by simp; omega
  have e1 : (∀ q : Fin n, Function.update x ⟨k, hk⟩ (Bool.xor (x ⟨k, hk⟩) (x ⟨c, by omega⟩)) q = false) ↔ ∀ q : Fin n, x q = false := by
    constructor
    · intro h q
      have hxc : x ⟨c, by omega⟩ = false := by
        have := h ⟨c, by omega⟩
        rwa [Function.update_of_ne hne] at this
      by_cases hq : q = ⟨k, hk⟩
      · have := h ⟨k, hk⟩
        rw [Function.update_self, hxc] at this
        rw [hq]; simpa using this
      · have := h q
        rwa [Function.update_of_ne hq] at this
    · intro h q
      by_cases hq : q = ⟨k, hk⟩
      · rw [hq, Function.update_self, h, h]; rfl
      · rw [Function.update_of_ne hq]; exact h q
  have e2 : (∀ q : Fin n, Function.update x ⟨k, hk⟩ (Bool.xor (x ⟨k, hk⟩) (x ⟨c, by omega⟩)) q = decide (q.val < k)) ↔
      ∀ q : Fin n, x q = decide (q.val < k + 1) := by
    constructor
    · intro h q
      have hxc : x ⟨c, by omega⟩ = true := by
        have := h ⟨c, by omega⟩
        rw [Function.update_of_ne hne] at this
        rw [this]; simpa using hc
      by_cases hq : q = ⟨k, hk⟩
      · have := h ⟨k, hk⟩
        rw [Function.update_self, hxc] at this
        rw [hq]; simpa using this
      · have := h q
        rw [Function.update_of_ne hq] at this
        rw [this]
        have : q.val ≠ k := fun h => hq (Fin.ext h)
        congr 1; simp; omega
    · intro h q
      by_cases hq : q = ⟨k, hk⟩
      · rw [hq, Function.update_self, h, h]
        simp; omega
      · rw [Function.update_of_ne hq, h]
        have : q.val ≠ k := fun h => hq (Fin.ext h)
        congr 1; simp; omega
  simp only [e1, e2]

theorem appCX_invol (c t : Fin n) (h : c ≠ t) (ψ : State (Fin n) ℂ) : appCX c t (appCX c t ψ) = ψ := by
  funext x
  simp only [appCX, Function.update_self, Function.update_of_ne h, Function.update_idem]
  congr 1
  rw [show Bool.xor (Bool.xor (x t) (x c)) (x c) = x t by cases x t <;> cases x c <;> rfl]
  exact Function.update_eq_self _ _

/-- CNOT gates onto the qubits `k`, `k + 1`, … from the controls `ps`. -/
def tree : ℕ → List ℕ → List (Instr ℝ)
  | _, [] => []
  | k, p :: ps => .cx p k :: tree (k + 1) ps

/-- Every control comes before its target. -/
def Before : ℕ → List ℕ → Prop
  | _, [] => True
  | k, p :: ps => p < k ∧ Before (k + 1) ps

theorem run_tree (ps : List ℕ) (k : ℕ) (hb : Before k ps) (hk : k + ps.length ≤ n) (a b : ℂ) :
    runGates n (tree k ps) (pairSt n k a b) = some (pairSt n (k + ps.length) a b) := by
  induction ps generalizing k with
  | nil => rfl
  | cons p ps ih =>
    obtain ⟨h1, h2⟩ := hb
    simp only [List.length_cons] at hk
    rw [tree, runGates_cons]
    have hkn : k < n := by omega
    have : applyGate n (pairSt n k a b) (.cx p k) = some (pairSt n (k + 1) a b) := by
      simp only [applyGate]
      rw [dif_pos (show p < n ∧ k < n ∧ p ≠ k from ⟨by omega, hkn, by omega⟩), pairSt_cx k p h1 hkn]
    rw [this, Option.bind_some, ih (k + 1) h2 (by omega)]
    simp only [List.length_cons]
    rw [show k + 1 + ps.length = k + (ps.length + 1) by omega]

theorem run_tree_reverse (ps : List ℕ) (k : ℕ) (hb : Before k ps) (hk : k + ps.length ≤ n) (a b : ℂ) :
    runGates n (tree k ps).reverse (pairSt n (k + ps.length) a b) = some (pairSt n k a b) := by
  induction ps generalizing k with
  | nil => rfl
  | cons p ps ih =>
    obtain ⟨h1, h2⟩ := hb
    simp only [List.length_cons] at hk
    have hkn : k < n := by omega
    have h3 := ih (k + 1) h2 (by omega)
    rw [show k + 1 + ps.length = k + (p :: ps).length by simp; omega] at h3
    rw [tree, List.reverse_cons, runGates_append, h3, Option.bind_some, runGates_cons]
    have : applyGate n (pairSt n (k + 1) a b) (.cx p k) = some (pairSt n k a b) := by
      simp only [applyGate]
      rw [dif_pos (show p < n ∧ k < n ∧ p ≠ k from ⟨by omega, hkn, by omega⟩), ← pairSt_cx k p h1 hkn, appCX_invol _ _ (by simp; omega)]
    rw [this]; rfl

theorem pairSt_ghz : pairSt n n rt rt = ghz n ∨ n = 0 := by
  by_cases hn : n = 0
  · exact Or.inr hn
  left
  funext x
  simp only [pairSt, ghz]
  have e : (∀ q : Fin n, x q = decide (q.val < n)) ↔ ∀ q, x q = true := by simp
  rw [if_congr e rfl rfl]
  by_cases h1 : ∀ q, x q = false
  · have h2 : ¬ ∀ q, x q = true := fun h => by
      have := h1 ⟨0, by omega⟩
      rw [h] at this; cases this
    rw [if_pos h1, if_neg h2, if_pos (Or.inl h1), add_zero]
  · by_cases h2 : ∀ q, x q = true
    · rw [if_neg h1, if_pos h2, if_pos (Or.inr h2), zero_add]
    · rw [if_neg h1, if_neg h2, if_neg (by rintro (h | h); exact h1 h; exact h2 h), add_zero]

/-- The preparation: a Hadamard gate on qubit 0 and CNOTs along a tree. -/
theorem run_prep (ps : List ℕ) (hb : Before 1 ps) (hn : 1 + ps.length = n) :
    runGates n (.h 0 :: tree 1 ps) ket0 = some (pairSt n n rt rt) := by
  rw [runGates_cons, ket0_eq]
  have h : applyGate n (pairSt n 1 1 0) (.h 0) = some (pairSt n 1 rt rt) := by
    simp only [applyGate]
    rw [pairSt_h (by omega)]
    simp
  rw [h, Option.bind_some, run_tree ps 1 hb (by omega), hn]

/-! ### Product states -/

/-- A product state with the same one-qubit state everywhere. -/
def prodSt (v : Bool → ℂ) : State (Fin n) ℂ := fun x => ∏ q, v (x q)

/-- A 2×2 matrix times a vector. -/
def mv (u : Mat2 ℂ) (v : Bool → ℂ) : Bool → ℂ := fun r => u r false * v false + u r true * v true

theorem app1_prod (u : Mat2 ℂ) (p : Fin n) (w : Fin n → Bool → ℂ) :
    app1 u p (fun x => ∏ q, w q (x q)) = fun x => ∏ q, (if q = p then mv u (w p) else w q) (x q) := by
  funext x
  simp only [app1]
  have h : ∀ b, (∏ q, w q (Function.update x p b q)) = w p b * ∏ q ∈ Finset.univ.erase p, w q (x q) := by
    intro b
    rw [← Finset.mul_prod_erase Finset.univ _ (Finset.mem_univ p), Function.update_self]
    congr 1
    apply Finset.prod_congr rfl
    intro q hq
    rw [Function.update_of_ne (Finset.ne_of_mem_erase hq)]
  rw [h, h, ← Finset.mul_prod_erase Finset.univ _ (Finset.mem_univ p)]
  have h2 : (∏ q ∈ Finset.univ.erase p, (if q = p then mv u (w p) else w q) (x q)) = ∏ q ∈ Finset.univ.erase p, w q (x q) := by
    apply Finset.prod_congr rfl
    intro q hq
    rw [if_neg (Finset.ne_of_mem_erase hq)]
  rw [h2, if_pos rfl]
  simp only [mv]
  ring

theorem app1_lin (u : Mat2 ℂ) (p : Fin n) (a b : ℂ) (φ χ : State (Fin n) ℂ) :
    app1 u p (fun x => a * φ x + b * χ x) = fun x => a * app1 u p φ x + b * app1 u p χ x := by
  funext x; simp only [app1]; ring

/-- The same gate on every qubit of a superposition of two product states. -/
theorem run_all (g : ℕ → Instr ℝ) (u : Mat2 ℂ) (hg : ∀ i (ψ : State (Fin n) ℂ), applyGate n ψ (g i) = on1 n u i ψ) (a b : ℂ) (v w : Bool → ℂ) :
    runGates n ((List.range n).map g) (fun x => a * prodSt v x + b * prodSt w x) =
      some (fun x => a * prodSt (mv u v) x + b * prodSt (mv u w) x) := by
  have key : ∀ m ≤ n, runGates n ((List.range m).map g) (fun x => a * prodSt v x + b * prodSt w x) =
      some (fun x => a * (∏ q : Fin n, (if q.val < m then mv u v else v) (x q)) + b * (∏ q : Fin n, (if q.val < m then mv u w else w) (x q))) := by
    intro m
    induction m with
    | zero => intro _; simp [runGates_nil, prodSt]
    | succ m ih =>
      intro hm
      rw [List.range_succ, List.map_append, runGates_append, ih (by omega), Option.bind_some, List.map_singleton, runGates_cons, hg]
      unfold on1
      rw [dif_pos (show m < n by omega), Option.bind_some, runGates_nil, app1_lin]
      have h : ∀ z : Bool → ℂ, app1 u ⟨m, by omega⟩ (fun x => ∏ q : Fin n, (if q.val < m then mv u z else z) (x q)) =
          fun x => ∏ q : Fin n, (if q.val < m + 1 then mv u z else z) (x q) := by
        intro z
        rw [app1_prod u ⟨m, by omega⟩ (fun q => if q.val < m then mv u z else z)]
        funext x
        apply Finset.prod_congr rfl
        intro q _
        by_cases hq : q = ⟨m, by omega⟩
        · subst hq; simp
        · have : q.val ≠ m := fun h => hq (Fin.ext h)
          rw [if_neg hq]
          by_cases h : q.val < m
          · rw [if_pos h, if_pos (by omega)]
          · rw [if_neg h, if_neg (by omega)]
      rw [h, h]
  have := key n (le_refl n)
  rw [this]
  simp [prodSt]

/-- The basis vectors of one qubit. -/
def dlt (b : Bool) : Bool → ℂ := fun r => if r = b then 1 else 0

theorem prodSt_dlt (b : Bool) (c : ℂ) (x : Basis (Fin n)) : prodSt (fun r => c * dlt b r) x = if ∀ q, x q = b then c ^ n else 0 := by
  unfold prodSt dlt
  split
  · rename_i h
    rw [Finset.prod_congr rfl (fun q _ => by rw [h q])]
    simp
  · rename_i h
    push Not at h
    obtain ⟨q, hq⟩ := h
    exact Finset.prod_eq_zero (Finset.mem_univ q) (by simp [hq])

theorem prodSt_dlt1 (b : Bool) (x : Basis (Fin n)) : prodSt (dlt b) x = if ∀ q, x q = b then 1 else 0 := by
  have := prodSt_dlt b 1 x
  simpa using this

theorem pairSt_prod (a b : ℂ) : pairSt n n a b = fun x => a * prodSt (dlt false) x + b * prodSt (dlt true) x := by
  funext x
  simp only [pairSt, prodSt_dlt1]
  have e : (∀ q : Fin n, x q = decide (q.val < n)) ↔ ∀ q, x q = true := by simp
  rw [if_congr e rfl rfl]
  simp

end Verif.Ent
