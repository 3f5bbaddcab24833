import Verif.Char.Model
import Verif.Ent.Sem
import Mathlib.Analysis.SpecialFunctions.Trigonometric.Basic
set_option linter.unusedSimpArgs false
set_option linter.unusedVariables false
/-
Meaning of the characterization circuits on a device whose gates may be imperfect.  Textbook semantics, not code of the
repository.
-/
namespace Verif.Char
open Verif Verif.Quantum Complex
open Verif.Ent (mU1 mU2 mv dlt)

/-- What the gates of a device do.  `phase q x` is the phase that qubit `q` picks up in state 1 during one identity gate
while the register shows the bits `x`; `u2` is the operation performed for the U2 gate; `cx` is the operation performed on
the target of a CX whose control is 1.  The other gates are exact. -/
structure Device where
  phase : ℕ → (ℕ → Bool) → ℝ
  u2 : ℝ → ℝ → Mat2 ℂ
  cx : Mat2 ℂ

/-- The perfect device. -/
noncomputable def ideal : Device := ⟨fun _ _ => 0, mU2, mX⟩

/-- Pauli Y. -/
noncomputable def mY : Mat2 ℂ := fun r c => if r = c then 0 else (if r then I else -I)

variable {n : ℕ}

/-- The bits of a register, 0 outside. -/
def ext (x : Basis (Fin n)) : ℕ → Bool := fun q => if h : q < n then x ⟨q, h⟩ else false

/-- A phase on state 1 of a qubit. -/
noncomputable def appPhase (φ : (ℕ → Bool) → ℝ) (q : Fin n) (ψ : State (Fin n) ℂ) : State (Fin n) ℂ := fun x =>
  (if x q then exp (φ (ext x) * I) else 1) * ψ x

/-- An operation on `t` if `c` is 1. -/
def appC (u : Mat2 ℂ) (c t : Fin n) (ψ : State (Fin n) ℂ) : State (Fin n) ℂ := fun x => if x c then app1 u t ψ x else ψ x

/-- Apply a one-qubit gate; a qubit outside the register is an exception. -/
noncomputable def on1 (n : ℕ) (u : Mat2 ℂ) (q : ℕ) (ψ : State (Fin n) ℂ) : Option (State (Fin n) ℂ) :=
  if h : q < n then some (app1 u ⟨q, h⟩ ψ) else none

/-- One gate. -/
noncomputable def applyGate (D : Device) (n : ℕ) (ψ : State (Fin n) ℂ) : Instr ℝ → Option (State (Fin n) ℂ)
  | .h q => on1 n mH q ψ
  | .x q => on1 n mX q ψ
  | .y q => on1 n mY q ψ
  | .id q => if h : q < n then some (appPhase (D.phase q) ⟨q, h⟩ ψ) else none
  | .u1 l q => on1 n (mU1 l) q ψ
  | .u2 p l q => on1 n (D.u2 p l) q ψ
  | .cx c t => if h : c < n ∧ t < n ∧ c ≠ t then some (appC D.cx ⟨c, h.1⟩ ⟨t, h.2.1⟩ ψ) else none
  | .barrier _ => some ψ
  | .measure _ _ => none

/-- A sequence of gates without measurements. -/
noncomputable def runGates (D : Device) (n : ℕ) (l : List (Instr ℝ)) (ψ : State (Fin n) ℂ) : Option (State (Fin n) ℂ) :=
  l.foldlM (applyGate D n) ψ

/-- One instruction: the state and the pairs (qubit, classical bit) measured so far.  A gate after a measurement does not
occur and is not given a meaning; a measurement into a missing classical bit is an exception. -/
noncomputable def execStep (D : Device) (n m : ℕ) (s : State (Fin n) ℂ × List (ℕ × ℕ)) (g : Instr ℝ) :
    Option (State (Fin n) ℂ × List (ℕ × ℕ)) :=
  match g with
  | .measure q c => if q < n ∧ c < m then some (s.1, s.2 ++ [(q, c)]) else none
  | .barrier _ => some s
  | g => if s.2 = [] then (applyGate D n s.1 g).map fun ψ => (ψ, []) else none

/-- Run a circuit on |0…0⟩: the state before the measurements and the measured pairs (qubit, classical bit). -/
noncomputable def exec (D : Device) (C : Circ ℝ) : Option (State (Fin C.nq) ℂ × List (ℕ × ℕ)) :=
  C.ops.foldlM (execStep D C.nq C.nc) (ket0, [])

/-- The probability that measuring qubit `q` gives `b`. -/
noncomputable def probBit (ψ : State (Fin n) ℂ) (q : ℕ) (b : Bool) : ℝ := ∑ x : Basis (Fin n), if ext x q = b then prob ψ x else 0

/-- Running circuit `C` on device `D` measures qubit `qubits[i]` into classical bit `i`, for every `i` and nothing else, and
the bit of qubit `q` reads 1 with probability `p q` and 0 with probability `1 - p q`. -/
def Reads (D : Device) (C : Circ ℝ) (qubits : List ℕ) (p : ℕ → ℝ) : Prop :=
  ∃ ψ, exec D C = some (ψ, qubits.zipIdx) ∧ C.nc = qubits.length ∧
    ∀ q ∈ qubits, probBit ψ q true = p q ∧ probBit ψ q false = 1 - p q

/-! ### Product states -/

/-- The product state with the vector `w q` on qubit `q`. -/
noncomputable def tens (n : ℕ) (w : ℕ → Bool → ℂ) : State (Fin n) ℂ := fun x => ∏ q : Fin n, w q (x q)

theorem tens_split (w : ℕ → Bool → ℂ) (q : Fin n) (x : Basis (Fin n)) :
    tens n w x = w q (x q) * ∏ p ∈ Finset.univ.erase q, w p (x p) := by
  unfold tens
  rw [Finset.mul_prod_erase Finset.univ (fun p : Fin n => w p (x p)) (Finset.mem_univ q)]

theorem tens_update_state (w : ℕ → Bool → ℂ) (q : Fin n) (x : Basis (Fin n)) (b : Bool) :
    tens n w (Function.update x q b) = w q b * ∏ p ∈ Finset.univ.erase q, w p (x p) := by
  rw [tens_split w q, Function.update_self]
  congr 1
  refine Finset.prod_congr rfl ?_
  intro p hp
  rw [Function.update_of_ne (Finset.ne_of_mem_erase hp)]

theorem tens_update_vec (w : ℕ → Bool → ℂ) (q : Fin n) (v : Bool → ℂ) (x : Basis (Fin n)) :
    tens n (Function.update w q v) x = v (x q) * ∏ p ∈ Finset.univ.erase q, w p (x p) := by
  rw [tens_split _ q, Function.update_self]
  congr 1
  refine Finset.prod_congr rfl ?_
  intro p hp
  rw [Function.update_of_ne (fun h => Finset.ne_of_mem_erase hp (Fin.ext h))]

theorem app1_tens (u : Mat2 ℂ) (q : Fin n) (w : ℕ → Bool → ℂ) :
    app1 u q (tens n w) = tens n (Function.update w q (mv u (w q))) := by
  funext x
  rw [tens_update_vec]
  simp only [app1, tens_update_state, mv]
  ring

theorem ket0_tens : (ket0 : State (Fin n) ℂ) = tens n fun _ => dlt false := by
  funext x
  unfold ket0 tens dlt
  by_cases h : x = fun _ => false
  · rw [if_pos h]
    subst h
    simp
  · rw [if_neg h]
    obtain ⟨q, hq⟩ : ∃ q, x q ≠ false := by
      by_contra hc
      push Not at hc
      exact h (funext hc)
    exact (Finset.prod_eq_zero (Finset.mem_univ q) (by simp [hq])).symm

theorem phase_tens (φ : (ℕ → Bool) → ℝ) (q : Fin n) (w : ℕ → Bool → ℂ) (d : ℝ)
    (h : ∀ x : Basis (Fin n), (∀ p : Fin n, p ≠ q → w p (x p) ≠ 0) → φ (ext x) = d) :
    appPhase φ q (tens n w) = tens n (Function.update w q (mv (mU1 d) (w q))) := by
  funext x
  rw [tens_update_vec]
  unfold appPhase
  rw [tens_split w q x]
  by_cases hx : ∀ p : Fin n, p ≠ q → w p (x p) ≠ 0
  · rw [h x hx]
    cases hq : x q <;> simp [mv, mU1] <;> ring
  · push Not at hx
    obtain ⟨p, hp, h0⟩ := hx
    have : ∏ p ∈ Finset.univ.erase q, w p (x p) = 0 :=
      Finset.prod_eq_zero (Finset.mem_erase.2 ⟨hp, Finset.mem_univ p⟩) h0
    rw [this]
    ring

theorem appC_tens (u : Mat2 ℂ) (c t : Fin n) (hct : c ≠ t) (w : ℕ → Bool → ℂ) (hw : w c = dlt true) :
    appC u c t (tens n w) = tens n (Function.update w t (mv u (w t))) := by
  funext x
  unfold appC
  split
  · rw [app1_tens]
  · rename_i hx
    have hx' : x c = false := by simpa using hx
    have h1 : tens n w x = 0 := by
      rw [tens_split w c x, hw, hx']
      simp [dlt]
    have h2 : tens n (Function.update w t (mv u (w t))) x = 0 := by
      rw [tens_split _ c x, Function.update_of_ne (fun h => hct (Fin.ext h)), hw, hx']
      simp [dlt]
    rw [h1, h2]

/-! ### Blocks of gates that act on one qubit -/

/-- The matrix of an instruction acting on a qubit that picks up the phase `d` during an identity gate. -/
noncomputable def matOf (D : Device) (d : ℝ) : Instr ℝ → Mat2 ℂ
  | .h _ => mH
  | .x _ => mX
  | .y _ => mY
  | .id _ => mU1 d
  | .u1 l _ => mU1 l
  | .u2 p l _ => D.u2 p l
  | .cx _ _ => D.cx
  | .barrier _ => mI
  | .measure _ _ => mI

/-- The instruction acts on qubit `q` only; a CX must have its control in `C`. -/
def OnQ (C : List ℕ) (q : ℕ) : Instr ℝ → Prop
  | .h p => p = q
  | .x p => p = q
  | .y p => p = q
  | .id p => p = q
  | .u1 _ p => p = q
  | .u2 _ _ p => p = q
  | .cx c t => t = q ∧ c ∈ C
  | .barrier _ => True
  | .measure _ _ => False

/-- The effect of a block on the vector of its qubit. -/
noncomputable def blockVec (D : Device) (d : ℝ) (l : List (Instr ℝ)) (v : Bool → ℂ) : Bool → ℂ :=
  l.foldl (fun v g => mv (matOf D d g) v) v

theorem mv_mI (v : Bool → ℂ) : mv mI v = v := by
  funext r
  cases r <;> simp [mv, mI]

theorem runGates_cons (D : Device) (g : Instr ℝ) (l : List (Instr ℝ)) (ψ : State (Fin n) ℂ) :
    runGates D n (g :: l) ψ = (applyGate D n ψ g).bind (runGates D n l) := rfl

theorem runGates_append (D : Device) (l m : List (Instr ℝ)) (ψ : State (Fin n) ℂ) :
    runGates D n (l ++ m) ψ = (runGates D n l ψ).bind (runGates D n m) := by
  unfold runGates; rw [List.foldlM_append]; rfl

/-- Running a block on a product state.  `S` are qubits on whose state the idle phase may depend. -/
theorem run_block (D : Device) (C : List ℕ) (S : List ℕ) (q : ℕ) (hq : q < n) (hS : q ∉ S) (d : ℝ) (l : List (Instr ℝ)) (hl : ∀ g ∈ l, OnQ C q g)
    (hC : ∀ c ∈ C, c < n ∧ c ≠ q) (w : ℕ → Bool → ℂ) (hw : ∀ c ∈ C, w c = dlt true)
    (hph : ∀ x : Basis (Fin n), (∀ s ∈ S, w s (ext x s) ≠ 0) → D.phase q (ext x) = d) (hSn : ∀ s ∈ S, s < n) :
    runGates D n l (tens n w) = some (tens n (Function.update w q (blockVec D d l (w q)))) := by
  induction l generalizing w with
  | nil =>
    simp only [blockVec, List.foldl_nil, Function.update_eq_self]
    rfl
  | cons g l ih =>
    have hstep : applyGate D n (tens n w) g = some (tens n (Function.update w q (mv (matOf D d g) (w q)))) := by
      have hg := hl g (by simp)
      cases g with
      | h p => obtain rfl : p = q := hg; simp only [applyGate, on1, dif_pos hq, matOf]; rw [app1_tens]
      | x p => obtain rfl : p = q := hg; simp only [applyGate, on1, dif_pos hq, matOf]; rw [app1_tens]
      | y p => obtain rfl : p = q := hg; simp only [applyGate, on1, dif_pos hq, matOf]; rw [app1_tens]
      | id p =>
        obtain rfl : p = q := hg
        simp only [applyGate, dif_pos hq, matOf]
        rw [phase_tens _ ⟨p, hq⟩ w d]
        intro x hx
        refine hph x ?_
        intro s hs
        have hsn := hSn s hs
        have := hx ⟨s, hsn⟩ (fun h => hS (by
          have h' : s = p := by simpa using h
          exact h' ▸ hs))
        simpa [ext, hsn] using this
      | u1 a p => obtain rfl : p = q := hg; simp only [applyGate, on1, dif_pos hq, matOf]; rw [app1_tens]
      | u2 a b p => obtain rfl : p = q := hg; simp only [applyGate, on1, dif_pos hq, matOf]; rw [app1_tens]
      | cx c t =>
        obtain ⟨rfl, hc⟩ := hg
        have h1 := hC c hc
        simp only [applyGate, dif_pos (show c < n ∧ t < n ∧ c ≠ t from ⟨h1.1, hq, h1.2⟩), matOf]
        rw [appC_tens D.cx ⟨c, h1.1⟩ ⟨t, hq⟩ (fun h => h1.2 (Fin.val_eq_of_eq h)) w (hw c hc)]
      | barrier qs => simp only [applyGate, matOf, mv_mI, Function.update_eq_self]
      | measure a b => exact absurd hg id
    rw [runGates_cons, hstep, Option.bind_some, ih (fun x hx => hl x (by simp [hx]))]
    · simp only [Function.update_idem, Function.update_self, blockVec, List.foldl_cons]
    · intro c hc
      rw [Function.update_of_ne (hC c hc).2]
      exact hw c hc
    · intro x hx
      refine hph x ?_
      intro s hs
      have := hx s hs
      rwa [Function.update_of_ne (show s ≠ q from fun h => hS (h ▸ hs))] at this

/-- Running one block per qubit, the qubits being distinct. -/
theorem run_blocks (D : Device) (S : List ℕ) (d : ℕ → ℝ) (qubits : List ℕ) (hnd : qubits.Nodup) (hn : ∀ q ∈ qubits, q < n)
    (hS : ∀ q ∈ qubits, q ∉ S) (hSn : ∀ s ∈ S, s < n) (blk : ℕ → List (Instr ℝ)) (hl : ∀ q ∈ qubits, ∀ g ∈ blk q, OnQ [] q g)
    (w : ℕ → Bool → ℂ) (hph : ∀ q ∈ qubits, ∀ x : Basis (Fin n), (∀ s ∈ S, w s (ext x s) ≠ 0) → D.phase q (ext x) = d q) :
    runGates D n (qubits.flatMap blk) (tens n w)
      = some (tens n fun q => if q ∈ qubits then blockVec D (d q) (blk q) (w q) else w q) := by
  induction qubits generalizing w with
  | nil => simp [runGates]
  | cons q l ih =>
    have hnd' := List.nodup_cons.1 hnd
    rw [List.flatMap_cons, runGates_append, run_block D [] S q (hn q (by simp)) (hS q (by simp)) (d q) (blk q) (hl q (by simp)) (by simp) w (by simp)
      (hph q (by simp)) hSn, Option.bind_some, ih hnd'.2 (fun p hp => hn p (by simp [hp])) (fun p hp => hS p (by simp [hp]))
      (fun p hp => hl p (by simp [hp]))]
    · congr 2
      funext p
      by_cases hpq : p = q
      · subst hpq
        simp [hnd'.1]
      · simp [hpq, Function.update_of_ne hpq]
    · intro p hp x hx
      refine hph p (by simp [hp]) x ?_
      intro s hs
      have := hx s hs
      rwa [Function.update_of_ne (show s ≠ q from fun h => hS q (by simp) (h ▸ hs))] at this

theorem exec_gates (D : Device) (m : ℕ) (l : List (Instr ℝ)) (ψ φ : State (Fin n) ℂ) (h : runGates D n l ψ = some φ) :
    l.foldlM (execStep D n m) (ψ, []) = some (φ, []) := by
  induction l generalizing ψ with
  | nil => cases h; rfl
  | cons g l ih =>
    rw [runGates_cons, Option.bind_eq_some_iff] at h
    obtain ⟨χ, h1, h2⟩ := h
    rw [List.foldlM_cons]
    have : execStep D n m (ψ, []) g = some (χ, []) := by
      cases g <;> simp_all [execStep, applyGate]
    rw [this]
    exact ih χ h2

theorem exec_measures (D : Device) (m : ℕ) (l : List (ℕ × ℕ)) (hl : ∀ p ∈ l, p.1 < n ∧ p.2 < m) (s : State (Fin n) ℂ × List (ℕ × ℕ)) :
    (l.map fun p => (Instr.measure p.1 p.2 : Instr ℝ)).foldlM (execStep D n m) s = some (s.1, s.2 ++ l) := by
  induction l generalizing s with
  | nil => simp
  | cons q l ih =>
    rw [List.map_cons, List.foldlM_cons]
    have hq := hl q (by simp)
    simp only [execStep, hq, if_true, Option.bind_eq_bind, Option.bind_some, true_and]
    rw [ih (fun x hx => hl x (by simp [hx]))]
    simp

theorem le_foldl_max (l : List ℕ) (a : ℕ) : a ≤ l.foldl max a ∧ ∀ q ∈ l, q ≤ l.foldl max a := by
  induction l generalizing a with
  | nil => simp
  | cons b l ih =>
    obtain ⟨h1, h2⟩ := ih (max a b)
    refine ⟨le_trans (le_max_left a b) h1, ?_⟩
    intro q hq
    rcases List.mem_cons.1 hq with rfl | hq
    · exact le_trans (le_max_right a _) h1
    · exact h2 q hq

theorem regSize_lt {l : List ℕ} {k : ℕ} (h : regSize l = some k) : ∀ q ∈ l, q < k := by
  unfold regSize at h
  split at h
  · cases h
  · cases h
    intro q hq
    have := (le_foldl_max l 0).2 q hq
    omega

theorem regSize_some {l : List ℕ} (h : l ≠ []) : regSize l = some (l.foldl max 0 + 1) := by
  unfold regSize
  rw [if_neg h]

/-- The reading of a product state. -/
theorem probBit_tens (w : ℕ → Bool → ℂ) (q : ℕ) (hq : q < n) (b : Bool)
    (hw : ∀ p < n, p ≠ q → normSq (w p false) + normSq (w p true) = 1) : probBit (tens n w) q b = normSq (w q b) := by
  have e : ∀ x : Basis (Fin n), (if ext x q = b then prob (tens n w) x else 0)
      = ∏ p : Fin n, (if p.val = q then (if x p = b then normSq (w p (x p)) else 0) else normSq (w p (x p))) := by
    intro x
    unfold prob tens
    rw [map_prod]
    have hx : ext x q = x ⟨q, hq⟩ := by simp [ext, hq]
    rw [hx]
    by_cases hb : x ⟨q, hq⟩ = b
    · rw [if_pos hb]
      refine Finset.prod_congr rfl ?_
      intro p _
      by_cases hp : p.val = q
      · have : p = ⟨q, hq⟩ := Fin.ext hp
        subst this
        rw [if_pos rfl, if_pos hb]
      · rw [if_neg hp]
    · rw [if_neg hb]
      refine (Finset.prod_eq_zero (Finset.mem_univ ⟨q, hq⟩) ?_).symm
      rw [if_pos rfl, if_neg hb]
  unfold probBit
  rw [Finset.sum_congr rfl fun x _ => e x]
  have hs := (Finset.prod_univ_sum (fun _ : Fin n => (Finset.univ : Finset Bool))
    (fun p b' => if p.val = q then (if b' = b then normSq (w p b') else 0) else normSq (w p b')))
  rw [Fintype.piFinset_univ] at hs
  rw [← hs]
  rw [Finset.prod_eq_single_of_mem (⟨q, hq⟩ : Fin n) (Finset.mem_univ _)]
  · cases b <;> simp
  · intro p _ hp
    have hp' : p.val ≠ q := fun h => hp (Fin.ext h)
    simp only [if_neg hp', Fintype.sum_bool]
    rw [add_comm]
    exact hw p p.isLt hp'

/-- Gates that leave a normalised product state, followed by the final measurements. -/
theorem reads_of_run (D : Device) (C : Circ ℝ) (qubits : List ℕ) (gates tail : List (Instr ℝ)) (hops : C.ops = gates ++ tail ++ measureAll qubits)
    (htail : ∀ g ∈ tail, ∃ qs, g = .barrier qs) (hnc : C.nc = qubits.length) (hn : ∀ q ∈ qubits, q < C.nq) (w : ℕ → Bool → ℂ)
    (hrun : runGates D C.nq gates ket0 = some (tens C.nq w)) (p : ℕ → ℝ)
    (hp : ∀ q ∈ qubits, normSq (w q true) = p q ∧ normSq (w q false) = 1 - p q)
    (hnorm : ∀ q < C.nq, q ∉ qubits → normSq (w q false) + normSq (w q true) = 1) : Reads D C qubits p := by
  refine ⟨tens C.nq w, ?_, hnc, ?_⟩
  · unfold exec
    rw [hops, List.foldlM_append, List.foldlM_append, exec_gates D C.nc gates _ _ hrun]
    simp only [Option.bind_eq_bind, Option.bind_some]
    have ht : ∀ (tl : List (Instr ℝ)) (s : State (Fin C.nq) ℂ × List (ℕ × ℕ)), (∀ g ∈ tl, ∃ qs, g = .barrier qs) →
        tl.foldlM (execStep D C.nq C.nc) s = some s := by
      intro tl
      induction tl with
      | nil => intro s _; rfl
      | cons g tl ih =>
        intro s h
        obtain ⟨qs, rfl⟩ := h g (by simp)
        rw [List.foldlM_cons]
        simp only [execStep, Option.bind_eq_bind, Option.bind_some]
        exact ih s fun g hg => h g (by simp [hg])
    rw [ht tail _ htail, Option.bind_some]
    unfold measureAll
    rw [exec_measures D C.nc qubits.zipIdx]
    · simp
    · intro x hx
      obtain ⟨-, h2, h3⟩ := List.mem_zipIdx hx
      refine ⟨?_, by rw [hnc]; simpa using h2⟩
      apply hn
      rw [h3]
      exact List.getElem_mem _
  · intro q hq
    have hN : ∀ r < C.nq, r ≠ q → normSq (w r false) + normSq (w r true) = 1 := by
      intro r hr _
      by_cases hrq : r ∈ qubits
      · obtain ⟨h1, h2⟩ := hp r hrq
        rw [h1, h2]; ring
      · exact hnorm r hr hrq
    rw [probBit_tens w q (hn q hq) true hN, probBit_tens w q (hn q hq) false hN]
    exact hp q hq

end Verif.Char
