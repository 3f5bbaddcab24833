import Verif.RepCode.Lemmas
/-
Propagation of bit flips through the circuit.
-/
namespace Verif.RepCode
open Verif

theorem run_append (a b : List Op) (s : Sim) : run (a ++ b) s = run b (run a s) := by
  simp [run, List.foldl_append]

theorem run_cons (a : Op) (b : List Op) (s : Sim) : run (a :: b) s = run b (step s a) := rfl

/-- Bitwise difference of two simulation states. -/
def Sim.xor (s t : Sim) : Sim := ⟨fun q => (s.q q).xor (t.q q), fun c => (s.m c).xor (t.m c)⟩

def Op.notX : Op → Bool
  | .x _ => false
  | _ => true

/-- State of the flips: the same instructions without the X gates. -/
def lin (l : List Op) (s : Sim) : Sim := run (l.filter Op.notX) s

theorem step_xor (s t : Sim) (o : Op) :
    step (s.xor t) o = (step s o).xor (if o.notX then step t o else t) := by
  cases o with
  | x a =>
    simp only [step, Sim.xor, Op.notX, Bool.false_eq_true, if_false, Sim.mk.injEq, and_true]
    funext b; split
    · next h => subst h; cases s.q b <;> cases t.q b <;> rfl
    · rfl
  | cx a c =>
    simp only [step, Sim.xor, Op.notX, if_true, Sim.mk.injEq, and_true]
    funext b; split
    · cases s.q c <;> cases s.q a <;> cases t.q c <;> cases t.q a <;> rfl
    · rfl
  | measure a c =>
    simp only [step, Sim.xor, Op.notX, if_true, Sim.mk.injEq, true_and]
    funext b; split <;> rfl
  | reset a =>
    simp only [step, Sim.xor, Op.notX, if_true, Sim.mk.injEq, and_true]
    funext b; split <;> rfl

theorem run_xor (l : List Op) (s t : Sim) : run l (s.xor t) = (run l s).xor (lin l t) := by
  induction l generalizing s t with
  | nil => rfl
  | cons o l ih =>
    rw [run_cons, step_xor, ih, run_cons, lin, lin]
    cases h : o.notX <;> simp [h, run_cons]

/-- A single flipped qubit. -/
def single (q : Qb) : Sim := ⟨fun b => decide (b = q), fun _ => false⟩

/-- Classical bits flipped at the end if qubit `q` is flipped before the instructions `l`. -/
def flip (l : List Op) (q : Qb) : Cl → Bool := (lin l (single q)).m

theorem run_inject (pre post : List Op) (q : Qb) (s : Sim) :
    (run (pre ++ Op.x q :: post) s).m = fun c => ((run (pre ++ post) s).m c).xor (flip post q c) := by
  rw [run_append, run_append, run_cons]
  have : step (run pre s) (.x q) = (run pre s).xor (single q) := by
    simp only [step, Sim.xor, single, Sim.mk.injEq, Bool.xor_false, and_true]
    funext b
    split
    · next h => subst h; simp
    · next h => simp [h]
  rw [this, run_xor]
  rfl

theorem lin_xor (l : List Op) (s t : Sim) : lin l (s.xor t) = (lin l s).xor (lin l t) := by
  have h : (l.filter Op.notX).filter Op.notX = l.filter Op.notX := by simp
  rw [lin, run_xor, lin, h]
  rfl

/-- A classical bit the instructions never write. -/
def Unwritten (l : List Op) (c : Cl) : Prop := ∀ q, Op.measure q c ∉ l

theorem run_mem_unwritten (l : List Op) (c : Cl) (h : Unwritten l c) (s : Sim) : (run l s).m c = s.m c := by
  induction l generalizing s with
  | nil => rfl
  | cons o l ih =>
    rw [run_cons, ih (fun q hq => h q (List.mem_cons_of_mem _ hq))]
    cases o with
    | measure a e =>
      simp only [step]
      split
      · next h1 => subst h1; exact absurd (List.mem_cons_self) (h a)
      · rfl
    | _ => rfl

/-- Memory contents only matter where they are not overwritten; the flips caused by a flipped
classical bit stay on that bit. -/
theorem run_indep_mem (l : List Op) (s : Sim) (m' : Cl → Bool) :
    (run l ⟨s.q, m'⟩).q = (run l s).q := by
  induction l generalizing s m' with
  | nil => rfl
  | cons o l ih =>
    rw [run_cons, run_cons]
    cases o with
    | measure a e => exact ih (step s (.measure a e)) _
    | x a => exact ih (step s (.x a)) _
    | cx a b => exact ih (step s (.cx a b)) _
    | reset a => exact ih (step s (.reset a)) _

theorem lin_zero (l : List Op) : lin l Sim.zero = Sim.zero := by
  have h := lin_xor l Sim.zero Sim.zero
  have e : Sim.zero.xor Sim.zero = Sim.zero := rfl
  rw [e] at h
  have hs : ∀ s : Sim, s.xor s = Sim.zero := by
    intro s; simp [Sim.xor, Sim.zero]
  rw [hs] at h
  exact h

theorem flip_cx (a b q : Qb) (l : List Op) (hab : a ≠ b) :
    flip (Op.cx a b :: l) q = fun c => if q = a then (flip l a c).xor (flip l b c) else flip l q c := by
  funext c
  rw [flip, lin, List.filter_cons_of_pos rfl, run_cons]
  change (lin l (step (single q) (Op.cx a b))).m c = _
  by_cases h : q = a
  · subst h
    have : step (single q) (Op.cx q b) = (single q).xor (single b) := by
      simp only [step, single, Sim.xor, Sim.mk.injEq, Bool.xor_false, and_true]
      funext e
      by_cases h1 : e = b
      · subst h1; simp [Ne.symm hab]
      · simp [h1]
    rw [this, lin_xor]
    simp [Sim.xor, flip]
  · have : step (single q) (Op.cx a b) = single q := by
      simp only [step, single, Sim.mk.injEq, and_true]
      funext e
      have : ¬ a = q := fun h' => h h'.symm
      by_cases h1 : e = b
      · subst h1; simp [this]
      · simp [h1]
    rw [this]
    simp [h, flip]

theorem flip_measure (a q : Qb) (c : Cl) (l : List Op) (hc : Unwritten l c) :
    flip (Op.measure a c :: l) q = fun e => if q = a ∧ e = c then true else flip l q e := by
  funext e
  rw [flip, lin, List.filter_cons_of_pos rfl, run_cons]
  change (lin l (step (single q) (Op.measure a c))).m e = _
  have hs : step (single q) (Op.measure a c) = (single q).xor ⟨fun _ => false, fun e => decide (q = a ∧ e = c)⟩ := by
    simp only [step, single, Sim.xor, Sim.mk.injEq, Bool.xor_false, true_and]
    funext e
    by_cases h1 : e = c <;> by_cases h2 : a = q <;> simp [h1, h2, eq_comm]
  rw [hs, lin_xor]
  have hu : Unwritten (l.filter Op.notX) c := fun q hq => hc q ((List.mem_filter.1 hq).1)
  have h2 : (lin l ⟨fun _ => false, fun e => decide (q = a ∧ e = c)⟩).m e = decide (q = a ∧ e = c) := by
    -- all qubits are unflipped, so every measurement writes `false`
    have key : ∀ (l : List Op) (m : Cl → Bool), (∀ o ∈ l, o.notX = true) → (∀ e, m e = true → Unwritten l e) →
        (run l ⟨fun _ => false, m⟩).m = m := by
      intro l
      induction l with
      | nil => intro m _ _; rfl
      | cons o l ih =>
        intro m hx hm
        have hstep : step ⟨fun _ => false, m⟩ o = ⟨fun _ => false, m⟩ := by
          cases o with
          | x a => have := hx (Op.x a) (by simp); simp [Op.notX] at this
          | cx a b => simp [step]
          | measure a c' =>
            simp only [step, Sim.mk.injEq, true_and]
            funext e
            split
            · next h =>
              subst h
              cases hme : m e
              · rfl
              · exact absurd List.mem_cons_self (hm e hme a)
            · rfl
          | reset a => simp [step]
        rw [run_cons, hstep]
        exact ih m (fun o ho => hx o (List.mem_cons_of_mem _ ho))
          (fun e he q hq => hm e he q (List.mem_cons_of_mem _ hq))
    rw [lin, key _ _ (fun o ho => (List.mem_filter.1 ho).2)]
    intro e he
    simp only [decide_eq_true_eq] at he
    rw [he.2]
    exact hu
  simp only [Sim.xor, h2]
  by_cases h : q = a ∧ e = c
  · obtain ⟨rfl, rfl⟩ := h
    have hl : (lin l (single q)).m e = false := run_mem_unwritten _ _ hu _
    simp [hl]
  · simp only [h, decide_false, Bool.xor_false, if_false]
    rfl

theorem flip_reset (a q : Qb) (l : List Op) :
    flip (Op.reset a :: l) q = fun e => if q = a then false else flip l q e := by
  funext e
  rw [flip, lin, List.filter_cons_of_pos rfl, run_cons]
  change (lin l (step (single q) (Op.reset a))).m e = _
  by_cases h : q = a
  · subst h
    have : step (single q) (Op.reset q) = Sim.zero := by
      simp only [step, single, Sim.zero, Sim.mk.injEq, and_true]
      funext b
      by_cases h : b = q <;> simp [h]
    rw [this, lin_zero]
    simp [Sim.zero]
  · have : step (single q) (Op.reset a) = single q := by
      simp only [step, single, Sim.mk.injEq, and_true]
      funext b
      by_cases h1 : b = a
      · subst h1; simpa using fun h' : b = q => h h'.symm
      · simp [h1]
    rw [this]
    simp [h, flip]

theorem flip_x (a q : Qb) (l : List Op) : flip (Op.x a :: l) q = flip l q := by
  rw [flip, lin, List.filter_cons_of_neg (by simp [Op.notX])]
  rfl

end Verif.RepCode
