import Verif.Accred.Lemmas
set_option linter.unusedSimpArgs false
/-
The layers returned by `layer_parser` multiply to the circuit.
-/
namespace Verif.Accred
open Verif Verif.Quantum

variable {n m : Nat}

/-- The qubits of a two-qubit layer. -/
def regs (t : List (Fin n × Fin n)) : List (Fin n) := t.flatMap fun p => [p.1, p.2]

theorem regs_append (t t' : List (Fin n × Fin n)) : regs (t ++ t') = regs t ++ regs t' := by
  simp [regs]

theorem qubits_twoGates (g : TwoQ) (t : List (Fin n × Fin n)) (a : Gate n) (ha : a ∈ twoGates g t) (q : Fin n)
    (hq : q ∈ a.qubits) : q ∈ regs t := by
  simp only [twoGates, List.mem_map] at ha
  obtain ⟨p, hp, rfl⟩ := ha
  simp only [regs, List.mem_flatMap]
  refine ⟨p, hp, ?_⟩
  split at hq <;> simpa [Gate.qubits] using hq

theorem interleave_append (g : TwoQ) (P : List (List (Gate n))) (Q : List (List (Fin n × Fin n)))
    (h : P.length = Q.length) :
    ∃ R, ∀ S T, interleave g (P ++ S) (Q ++ T) = R ++ interleave g S T := by
  induction P generalizing Q with
  | nil =>
    obtain rfl : Q = [] := List.length_eq_zero_iff.1 h.symm
    exact ⟨[], fun S T => rfl⟩
  | cons a P ih =>
    obtain ⟨b, Q, rfl⟩ : ∃ b Q', Q = b :: Q' := by
      cases Q with
      | nil => simp at h
      | cons b Q => exact ⟨b, Q, rfl⟩
    obtain ⟨R, hR⟩ := ih Q (by simpa using h)
    exact ⟨a ++ twoGates g b ++ R, fun S T => by simp [interleave, hR]⟩

/-- Invariant of the loop of `layer_parser` after the instructions `done`. -/
structure Inv (g : TwoQ) (st : PState n m) (done : List (InOp n m)) : Prop where
  ex : ∃ pre A B tpre T, st.single = pre ++ [A, B] ∧ st.two = tpre ++ [T] ∧ pre.length = tpre.length ∧
    st.current = regs T ∧ (regs T).Nodup ∧ (∀ t ∈ tpre, (regs t).Nodup) ∧
    (regs T = [] → B = []) ∧ (∀ b ∈ B, ∀ q ∈ b.qubits, q ∈ regs T) ∧
    ∀ ψ, sem (interleave g (pre ++ [A, B]) (tpre ++ [T])) ψ = sem (done.flatMap InOp.gates) ψ

theorem modify_append {α : Type} (l r : List α) (i : Nat) (f : α → α) :
    (l ++ r).modify (l.length + i) f = l ++ r.modify i f := by
  induction l with
  | nil => simp
  | cons a l ih =>
    rw [List.length_cons, show l.length + 1 + i = (l.length + i) + 1 by omega, List.cons_append,
      List.modify_succ_cons, ih, List.cons_append]

theorem appendAt_two {α : Type} (pre : List (List α)) (A B : List α) (x : α) :
    appendAt (pre ++ [A, B]) 2 x = pre ++ [A ++ [x], B] := by
  unfold appendAt
  have : (pre ++ [A, B]).length - 2 = pre.length + 0 := by simp
  rw [this, modify_append]
  rfl

theorem appendAt_one {α : Type} (pre : List (List α)) (A B : List α) (x : α) :
    appendAt (pre ++ [A, B]) 1 x = pre ++ [A, B ++ [x]] := by
  unfold appendAt
  have : (pre ++ [A, B]).length - 1 = pre.length + 1 := by simp
  rw [this, modify_append]
  rfl

theorem appendAt_last {α : Type} (pre : List (List α)) (B : List α) (x : α) :
    appendAt (pre ++ [B]) 1 x = pre ++ [B ++ [x]] := by
  unfold appendAt
  have : (pre ++ [B]).length - 1 = pre.length + 0 := by simp
  rw [this, modify_append]
  rfl

theorem Inv.newLayer {g : TwoQ} {st : PState n m} {done : List (InOp n m)} (h : Inv g st done) :
    Inv g (newLayer st) done ∧ (Accred.newLayer st).current = [] := by
  obtain ⟨pre, A, B, tpre, T, h1, h2, h3, h4, h5, h6, h7, h8, h9⟩ := h.ex
  refine ⟨⟨pre ++ [A], B, [], tpre ++ [T], [], by simp [Accred.newLayer, h1], by simp [Accred.newLayer, h2],
    by simp [h3], rfl, by simp [regs], ?_, fun _ => rfl, by simp, fun ψ => ?_⟩, rfl⟩
  · intro t ht
    rcases List.mem_append.1 ht with ht | ht
    · exact h6 t ht
    · simp at ht; subst ht; exact h5
  · rw [← h9 ψ]
    obtain ⟨R, hR⟩ := interleave_append g pre tpre h3
    congr 1
    rw [hR, List.append_assoc, List.append_assoc, hR]
    simp [interleave, twoGates]

/-- What an iteration does to the semantics when it appends `x` after the first single-qubit layer. -/
theorem inter_tail (g : TwoQ) (A B : List (Gate n)) (T : List (Fin n × Fin n)) :
    interleave g [A, B] [T] = A ++ twoGates g T ++ B := rfl

theorem parseStep_inv (g : TwoQ) (hg : g ≠ .other) (st : PState n m) (done : List (InOp n m)) (h : Inv g st done)
    (op : InOp n m) (hop : op.isBody) :
    ∃ st', parseStep g st op = some st' ∧ Inv g st' (done ++ [op]) ∧ st'.meas = st.meas := by
  cases op with
  | measure q c => exact absurd hop (by simp [InOp.isBody])
  | other => exact absurd hop (by simp [InOp.isBody])
  | barrier =>
    refine ⟨_, rfl, ?_, by simp only [apply_ite PState.meas]; simp [newLayer]⟩
    have hst : Inv g (if st.current ≠ [] then newLayer st else st) done := by
      split
      · exact h.newLayer.1
      · exact h
    generalize (if st.current ≠ [] then newLayer st else st) = st1 at hst
    obtain ⟨pre, A, B, tpre, T, h1, h2, h3, h4, h5, h6, h7, h8, h9⟩ := hst.ex
    refine ⟨pre, A ++ [.barrier], B, tpre, T, by simp only [h1, appendAt_two], h2, h3, h4, h5, h6, h7, h8, fun ψ => ?_⟩
    rw [List.flatMap_append, show ([InOp.barrier] : List (InOp n m)).flatMap InOp.gates = [] from rfl, List.append_nil, ← h9 ψ]
    obtain ⟨R, hR⟩ := interleave_append g pre tpre h3
    rw [hR, hR, inter_tail, inter_tail]
    simp [sem_append, applyGate]
  | u mat q =>
    obtain ⟨pre, A, B, tpre, T, h1, h2, h3, h4, h5, h6, h7, h8, h9⟩ := h.ex
    obtain ⟨R, hR⟩ := interleave_append g pre tpre h3
    by_cases hq : q ∈ st.current
    · refine ⟨{ st with single := appendAt st.single 1 (.u mat q) }, by simp only [parseStep, if_pos hq], ?_, rfl⟩
      have hqT : q ∈ regs T := h4 ▸ hq
      refine ⟨pre, A, B ++ [.u mat q], tpre, T, by simp only [h1, appendAt_one], h2, h3, h4, h5, h6, ?_, ?_, fun ψ => ?_⟩
      · intro he; rw [he] at hqT; simp at hqT
      · intro b hb q' hq'
        rcases List.mem_append.1 hb with hb | hb
        · exact h8 b hb q' hq'
        · simp at hb; subst hb; simp [Gate.qubits] at hq'; subst hq'; exact hqT
      · rw [List.flatMap_append, sem_append, ← h9 ψ, hR, hR, inter_tail, inter_tail]
        simp [sem_append, InOp.gates]
    · refine ⟨{ st with single := appendAt st.single 2 (.u mat q) }, by simp only [parseStep, if_neg hq], ?_, rfl⟩
      have hqT : q ∉ regs T := h4 ▸ hq
      refine ⟨pre, A ++ [.u mat q], B, tpre, T, by simp only [h1, appendAt_two], h2, h3, h4, h5, h6, h7, h8, fun ψ => ?_⟩
      rw [List.flatMap_append, sem_append, ← h9 ψ, hR, hR, inter_tail, inter_tail]
      simp only [sem_append, InOp.gates, List.flatMap_singleton, sem_cons, sem_nil]
      rw [gate_sem_comm _ B, gate_sem_comm _ (twoGates g T)]
      · intro a ha q' hq' hq''
        simp [Gate.qubits] at hq'; subst hq'
        exact hqT (qubits_twoGates g T a ha _ hq'')
      · intro a ha q' hq' hq''
        simp [Gate.qubits] at hq'; subst hq'
        exact hqT (h8 a ha _ hq'')
  | cx a b =>
    have hab : a ≠ b := hop
    set st1 := if a ∈ st.current ∨ b ∈ st.current then newLayer st else st with hst1
    have hI : Inv g st1 done ∧ a ∉ st1.current ∧ b ∉ st1.current ∧ st1.meas = st.meas := by
      rw [hst1]
      split
      · exact ⟨h.newLayer.1, by simp [h.newLayer.2], by simp [h.newLayer.2], rfl⟩
      · next hc => push Not at hc; exact ⟨h, hc.1, hc.2, rfl⟩
    obtain ⟨hI, ha, hb, hmeas⟩ := hI
    obtain ⟨pre, A, B, tpre, T, h1, h2, h3, h4, h5, h6, h7, h8, h9⟩ := hI.ex
    obtain ⟨R, hR⟩ := interleave_append g pre tpre h3
    rw [h4] at ha hb
    have hregs : regs (T ++ [(a, b)]) = regs T ++ [a, b] := by rw [regs_append]; rfl
    have hnodup : (regs (T ++ [(a, b)])).Nodup := by
      rw [hregs, List.nodup_append]
      refine ⟨h5, by simp [hab], ?_⟩
      intro x hx y hy
      simp at hy
      rintro rfl
      rcases hy with rfl | rfl
      · exact ha hx
      · exact hb hx
    have hne : regs (T ++ [(a, b)]) ≠ [] := by rw [hregs]; simp
    cases g with
    | other => exact absurd rfl hg
    | cx =>
      refine ⟨{ st1 with
        two := appendAt st1.two 1 (a, b)
        current := st1.current ++ [a, b] }, by simp only [parseStep, ← hst1], ?_, hmeas⟩
      refine ⟨pre, A, B, tpre, T ++ [(a, b)], h1, by simp only [h2, appendAt_last], h3, by simp only [h4, hregs],
        hnodup, h6, fun he => absurd he hne, ?_, fun ψ => ?_⟩
      · intro b' hb' q hq; rw [hregs]; exact List.mem_append_left _ (h8 b' hb' q hq)
      · rw [List.flatMap_append, sem_append, ← h9 ψ, hR, hR, inter_tail, inter_tail, twoGates_append]
        simp only [sem_append, InOp.gates, List.flatMap_singleton, sem_cons, sem_nil]
        rw [gate_sem_comm _ B]
        · rfl
        · intro b' hb' q hq hq'
          simp [Gate.qubits] at hq
          rcases hq with rfl | rfl
          · exact ha (h8 b' hb' _ hq')
          · exact hb (h8 b' hb' _ hq')
    | cz =>
      refine ⟨{ st1 with
        two := appendAt st1.two 1 (a, b)
        single := appendAt (appendAt st1.single 1 (.h b)) 2 (.h b)
        current := st1.current ++ [a, b] }, by simp only [parseStep, ← hst1], ?_, hmeas⟩
      refine ⟨pre, A ++ [.h b], B ++ [.h b], tpre, T ++ [(a, b)], by simp only [h1, appendAt_one, appendAt_two],
        by simp only [h2, appendAt_last], h3, by simp only [h4, hregs],
        hnodup, h6, fun he => absurd he hne, ?_, fun ψ => ?_⟩
      · intro b' hb' q hq; rw [hregs]
        rcases List.mem_append.1 hb' with hb' | hb'
        · exact List.mem_append_left _ (h8 b' hb' q hq)
        · simp at hb'; subst hb'; simp [Gate.qubits] at hq; subst hq; simp
      · rw [List.flatMap_append, sem_append, ← h9 ψ, hR, hR, inter_tail, inter_tail, twoGates_append]
        simp only [sem_append, InOp.gates, List.flatMap_singleton, sem_cons, sem_nil]
        have hB : ∀ g' : Gate n, (∀ q ∈ g'.qubits, q = a ∨ q = b) → ∀ χ, applyGate g' (sem B χ) = sem B (applyGate g' χ) := by
          intro g' hg' χ
          apply gate_sem_comm
          intro b' hb' q hq hq'
          rcases hg' q hq with rfl | rfl
          · exact ha (h8 b' hb' _ hq')
          · exact hb (h8 b' hb' _ hq')
        have hT' : ∀ χ, applyGate (.h b) (sem (twoGates .cz T) χ) = sem (twoGates .cz T) (applyGate (.h b) χ) := by
          intro χ
          apply gate_sem_comm
          intro b' hb' q hq hq'
          simp [Gate.qubits] at hq; subst hq
          exact hb (qubits_twoGates _ T b' hb' _ hq')
        rw [hB (.h b) (by simp [Gate.qubits]), hB (.cx a b) (by simp [Gate.qubits]), ← hT']
        congr 1
        exact h_cz_h a b hab _

/-- The layers of a parsed circuit: shape, disjoint gates, and product. -/
theorem layerParser_spec (g : TwoQ) (hg : g ≠ .other) (body : List (InOp n m)) (hbody : ∀ op ∈ body, op.isBody)
    (meas : List (Fin n × Fin m)) :
    ∃ L : Layers n m, layerParser g (body ++ meas.map fun p => .measure p.1 p.2) = some L ∧ L.gate = g ∧
      L.meas = meas ∧ L.single.length = L.two.length + 1 ∧ (∀ t ∈ L.two, (regs t).Nodup) ∧
      ∀ ψ, sem (interleave g L.single L.two) ψ = sem (body.flatMap InOp.gates) ψ := by
  have hbodyfold : ∀ (l : List (InOp n m)) (_ : ∀ op ∈ l, op.isBody) (st : PState n m) (done : List (InOp n m)),
      Inv g st done → ∃ st', l.foldlM (parseStep g) st = some st' ∧ Inv g st' (done ++ l) ∧ st'.meas = st.meas := by
    intro l
    induction l with
    | nil => intro _ st done h; exact ⟨st, rfl, by simpa using h, rfl⟩
    | cons op l ih =>
      intro hl st done h
      obtain ⟨st1, e1, i1, m1⟩ := parseStep_inv g hg st done h op (hl op List.mem_cons_self)
      obtain ⟨st2, e2, i2, m2⟩ := ih (fun o ho => hl o (List.mem_cons_of_mem _ ho)) st1 _ i1
      exact ⟨st2, by rw [List.foldlM_cons, e1]; exact e2, by simpa using i2, m2.trans m1⟩
  have hmeasfold : ∀ (l : List (Fin n × Fin m)) (st : PState n m),
      (l.map fun p => InOp.measure p.1 p.2).foldlM (parseStep g) st = some { st with meas := st.meas ++ l } := by
    intro l
    induction l with
    | nil => intro st; simp
    | cons p l ih =>
      intro st
      rw [List.map_cons, List.foldlM_cons]
      show (some _).bind _ = _
      rw [Option.bind_some]
      simp [ih]
  have h0 : Inv g (⟨[[], []], [[]], [], []⟩ : PState n m) [] :=
    ⟨[], [], [], [], [], rfl, rfl, rfl, rfl, by simp [regs], by simp, fun _ => rfl, by simp, fun ψ => rfl⟩
  obtain ⟨st, e, hI, hm⟩ := hbodyfold body hbody _ [] h0
  obtain ⟨pre, A, B, tpre, T, h1, h2, h3, h4, h5, h6, h7, h8, h9⟩ := hI.ex
  simp only [List.nil_append] at h9 hm
  have hfold : (body ++ meas.map fun p => InOp.measure p.1 p.2).foldlM (parseStep g) ⟨[[], []], [[]], [], []⟩ =
      some { st with meas := meas } := by
    rw [List.foldlM_append, e]
    show (some st).bind _ = _
    rw [Option.bind_some, hmeasfold, hm, List.nil_append]
  unfold layerParser
  rw [hfold]
  show ∃ L, (if st.current = [] then _ else _) = some L ∧ _
  by_cases hc : st.current = []
  · rw [if_pos hc]
    rw [h4] at hc
    have hB := h7 hc
    have hT : T = [] := by
      cases T with
      | nil => rfl
      | cons p T => simp [regs] at hc
    refine ⟨_, rfl, rfl, rfl, ?_, ?_, fun ψ => ?_⟩
    · simp [h1, h2, h3]
    · simpa [h2] using h6
    · rw [← h9 ψ]
      simp only [h1, h2]
      have : (pre ++ [A, B]).dropLast = pre ++ [A] := by
        rw [show pre ++ [A, B] = (pre ++ [A]) ++ [B] by simp, List.dropLast_concat]
      rw [this, List.dropLast_concat, hB, hT]
      obtain ⟨R, hR⟩ := interleave_append g pre tpre h3
      have e1 := hR [A] []
      rw [List.append_nil] at e1
      rw [e1, hR]
      simp [interleave, twoGates]
  · rw [if_neg hc]
    refine ⟨_, rfl, rfl, rfl, ?_, ?_, fun ψ => ?_⟩
    · simp [h1, h2, h3]
    · intro t ht
      simp only [h2] at ht
      rcases List.mem_append.1 ht with ht | ht
      · exact h6 t ht
      · simp at ht; subst ht; exact h5
    · simp only [h1, h2]; exact h9 ψ

end Verif.Accred
