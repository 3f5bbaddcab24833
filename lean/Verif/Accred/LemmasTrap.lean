import Verif.Accred.LemmasParse
set_option linter.unusedSimpArgs false
/-
Trap circuits: what `_routine_two` builds.
-/
namespace Verif.Accred
open Verif Verif.Quantum

variable {n m : Nat}

/-- States fixed by every CX gate. -/
def CXFixed (φ : State (Fin n) ℂ) : Prop := ∀ c t : Fin n, c ≠ t → appCX c t φ = φ

theorem cxFixed_ket0 : CXFixed (ket0 : State (Fin n) ℂ) := by
  intro c t hct
  funext x
  simp only [appCX, ket0]
  congr 1
  apply propext
  constructor
  · intro h
    have hc : x c = false := by
      have := congrFun h c
      rwa [Function.update_of_ne hct] at this
    have ht : x t = false := by
      have := congrFun h t
      simpa [hc] using this
    funext q
    by_cases hq : q = t
    · subst hq; exact ht
    · have := congrFun h q
      rwa [Function.update_of_ne hq] at this
  · rintro rfl
    funext q
    by_cases hq : q = t
    · subst hq; simp
    · simp [hq]

/-- State after Hadamard gates on the qubits of `l`. -/
noncomputable def plus (l : List (Fin n)) : State (Fin n) ℂ := fun x =>
  if ∀ q, q ∉ l → x q = false then rt ^ l.length else 0

theorem app1_mH_plus (l : List (Fin n)) (q : Fin n) (hq : q ∉ l) : app1 mH q (plus l) = plus (l ++ [q]) := by
  funext x
  simp only [app1, plus]
  have h1 : (∀ p, p ∉ l → Function.update x q true p = false) ↔ False := by
    simp only [iff_false]
    intro h
    have := h q hq
    simp at this
  have h0 : (∀ p, p ∉ l → Function.update x q false p = false) ↔ ∀ p, p ∉ l ++ [q] → x p = false := by
    constructor
    · intro h p hp
      simp only [List.mem_append, List.mem_singleton, not_or] at hp
      have := h p hp.1
      rwa [Function.update_of_ne hp.2] at this
    · intro h p hp
      by_cases e : p = q
      · subst e; simp
      · rw [Function.update_of_ne e]; exact h p (by simp [hp, e])
  rw [if_congr h0 rfl rfl, if_congr h1 rfl rfl]
  simp only [if_false, mul_zero, add_zero, mH, Bool.and_false, Bool.false_eq_true, List.length_append,
    List.length_singleton]
  split
  · rw [pow_succ, mul_comm]
  · simp

theorem sem_hs (l l0 : List (Fin n)) (hl : (l0 ++ l).Nodup) : sem (l.map Gate.h) (plus l0) = plus (l0 ++ l) := by
  induction l generalizing l0 with
  | nil => simp
  | cons q l ih =>
    rw [List.map_cons, sem_cons]
    have hq : q ∉ l0 := by
      rw [List.nodup_append] at hl
      intro h
      exact hl.2.2 q h q List.mem_cons_self rfl
    have : applyGate (.h q) (plus l0) = plus (l0 ++ [q]) := app1_mH_plus l0 q hq
    rw [this, ih (l0 ++ [q]) (by simpa using hl)]
    simp

theorem plus_nil : (plus [] : State (Fin n) ℂ) = ket0 := by
  funext x
  simp only [plus, ket0, List.not_mem_nil, not_false_eq_true, forall_const, List.length_nil, pow_zero]
  congr 1
  exact propext ⟨fun h => funext h, fun h q => congrFun h q⟩

theorem sem_hs_ket0 : sem ((List.finRange n).map Gate.h) ket0 = plus (List.finRange n) := by
  rw [← plus_nil, sem_hs _ _ (by simpa using List.nodup_finRange n), List.nil_append]

theorem cxFixed_plus : CXFixed (plus (List.finRange n)) := by
  intro c t _
  funext x
  simp [appCX, plus]

theorem sem_hs_hs (l : List (Fin n)) (hl : l.Nodup) (ψ : State (Fin n) ℂ) :
    sem (l.map Gate.h) (sem (l.map Gate.h) ψ) = ψ := by
  induction l generalizing ψ with
  | nil => rfl
  | cons q l ih =>
    rw [List.nodup_cons] at hl
    simp only [List.map_cons, sem_cons]
    rw [gate_sem_comm, ih hl.2]
    · exact h_h q ψ
    · intro g' hg' p hp hp'
      simp only [List.mem_map] at hg'
      obtain ⟨r, hr, rfl⟩ := hg'
      simp [Gate.qubits] at hp hp'
      subst hp; subst hp'
      exact hl.1 hr

/-- The gates around a two-qubit gate turn it into a CX. -/
theorem trapPair_spec (g : TwoQ) (hg : g ≠ .other) (r : Bool) (p : Fin n × Fin n) (hp : p.1 ≠ p.2) :
    ∃ a b, trapPair g r p = some (a, b) ∧ (∀ x ∈ a ++ b, ∀ q ∈ x.qubits, q = p.1 ∨ q = p.2) ∧
      ∀ φ, CXFixed φ → sem b (sem (twoGates g [p]) (sem a φ)) = φ := by
  have hp' := hp.symm
  cases g with
  | other => exact absurd rfl hg
  | cx =>
    cases r
    · refine ⟨_, _, rfl, by simp [Gate.qubits], fun φ hφ => ?_⟩
      simp only [twoGates, List.map_cons, List.map_nil, if_true, sem_cons, sem_nil, applyGate]
      rw [s_cx _ _ hp, sdg_s]
      exact hφ _ _ hp
    · refine ⟨_, _, rfl, by simp [Gate.qubits], fun φ hφ => ?_⟩
      simp only [twoGates, List.map_cons, List.map_nil, if_true, sem_cons, sem_nil, applyGate]
      rw [← h_cz_h p.1 p.2 hp, h_h, app1_comm mH mH _ _ hp, h_h, s_cz, app1_comm mH mS _ _ hp, sdg_s,
        appCZ_comm, h_cz_h _ _ hp']
      exact hφ _ _ hp'
  | cz =>
    cases r
    · refine ⟨_, _, rfl, by simp [Gate.qubits], fun φ hφ => ?_⟩
      simp only [twoGates, List.map_cons, List.map_nil, reduceCtorEq, if_false, sem_cons, sem_nil, applyGate]
      rw [app1_comm mH mS _ _ hp', appCZ_comm, s_cz, sdg_s, appCZ_comm, h_cz_h _ _ hp]
      exact hφ _ _ hp
    · refine ⟨_, _, rfl, by simp [Gate.qubits], fun φ hφ => ?_⟩
      simp only [twoGates, List.map_cons, List.map_nil, reduceCtorEq, if_false, sem_cons, sem_nil, applyGate]
      rw [s_cz, app1_comm mH mS _ _ hp, sdg_s, appCZ_comm, h_cz_h _ _ hp']
      exact hφ _ _ hp'

theorem trapPairs_spec (g : TwoQ) (hg : g ≠ .other) (rnd : Nat → Bool) (t : List (Fin n × Fin n))
    (ht : (regs t).Nodup) (k : Nat) :
    ∃ prs, ((t.zipIdx k).mapM fun p => trapPair g (rnd p.2) p.1) = some prs ∧
      (∀ pr ∈ prs, ∀ x ∈ pr.1 ++ pr.2, ∀ q ∈ x.qubits, q ∈ regs t) ∧
      ∀ E F : List (Gate n), (∀ x ∈ E ++ F, ∀ q ∈ x.qubits, q ∉ regs t) → ∀ φ, CXFixed φ →
        sem (prs.flatMap (·.2) ++ F) (sem (twoGates g t) (sem (prs.flatMap (·.1) ++ E) φ)) = sem F (sem E φ) := by
  induction t generalizing k with
  | nil => exact ⟨[], rfl, by simp, fun E F _ φ _ => rfl⟩
  | cons p t ih =>
    have hr : regs (p :: t) = p.1 :: p.2 :: regs t := rfl
    rw [hr, List.nodup_cons, List.nodup_cons] at ht
    obtain ⟨h1, h2, h3⟩ := ht
    simp only [List.mem_cons, not_or] at h1
    obtain ⟨prs, e, hq, hsem⟩ := ih h3 (k + 1)
    obtain ⟨a, b, e', hq', hsem'⟩ := trapPair_spec g hg (rnd k) p h1.1
    refine ⟨(a, b) :: prs, ?_, ?_, ?_⟩
    · rw [List.zipIdx_cons, List.mapM_cons]
      show (trapPair g (rnd k) p).bind _ = _
      rw [e', Option.bind_some, e]; rfl
    · intro pr hpr x hx q hxq
      rw [hr]
      rcases List.mem_cons.1 hpr with rfl | hpr
      · rcases hq' x hx q hxq with rfl | rfl <;> simp
      · exact List.mem_cons_of_mem _ (List.mem_cons_of_mem _ (hq pr hpr x hx q hxq))
    · intro E F hEF φ hφ
      have hEF' : ∀ x ∈ E ++ F, ∀ q ∈ x.qubits, q ≠ p.1 ∧ q ≠ p.2 ∧ q ∉ regs t := by
        intro x hx q hxq
        have := hEF x hx q hxq
        rw [hr] at this
        simp only [List.mem_cons, not_or] at this
        exact this
      -- gates of the rest avoid `p`
      have havoid : ∀ x ∈ prs.flatMap (·.1) ++ E, ∀ q ∈ x.qubits, q ≠ p.1 ∧ q ≠ p.2 := by
        intro x hx q hxq
        rcases List.mem_append.1 hx with hx | hx
        · obtain ⟨pr, hpr, hx⟩ := List.mem_flatMap.1 hx
          have := hq pr hpr x (List.mem_append_left _ hx) q hxq
          exact ⟨fun h => h1.2 (h ▸ this), fun h => h2 (h ▸ this)⟩
        · have := hEF' x (List.mem_append_left _ hx) q hxq
          exact ⟨this.1, this.2.1⟩
      have hT : ∀ x ∈ twoGates g t, ∀ q ∈ x.qubits, q ≠ p.1 ∧ q ≠ p.2 := by
        intro x hx q hxq
        have := qubits_twoGates g t x hx q hxq
        exact ⟨fun h => h1.2 (h ▸ this), fun h => h2 (h ▸ this)⟩
      have hp2 : ∀ x ∈ twoGates g [p], ∀ q ∈ x.qubits, q = p.1 ∨ q = p.2 := by
        intro x hx q hxq
        have := qubits_twoGates g [p] x hx q hxq
        simpa [regs] using this
      have comm : ∀ (l l' : List (Gate n)), (∀ x ∈ l, ∀ q ∈ x.qubits, q = p.1 ∨ q = p.2) →
          (∀ x ∈ l', ∀ q ∈ x.qubits, q ≠ p.1 ∧ q ≠ p.2) → ∀ ψ, sem l (sem l' ψ) = sem l' (sem l ψ) := by
        intro l l' hl hl' ψ
        apply sem_comm
        intro x hx y hy q hxq hyq
        have := hl' y hy q hyq
        rcases hl x hx q hxq with h | h
        · exact this.1 h
        · exact this.2 h
      rw [List.flatMap_cons, List.flatMap_cons, twoGates_cons, List.append_assoc, List.append_assoc,
        sem_append b, sem_append (twoGates g [p]), sem_append a,
        comm _ _ hp2 havoid, comm _ _ (fun x hx => hq' x (List.mem_append_right _ hx)) hT,
        comm _ _ (fun x hx => hq' x (List.mem_append_right _ hx)) havoid, hsem' φ hφ]
      exact hsem E F (fun x hx q hxq => (hEF' x hx q hxq).2.2) φ hφ

theorem trapIdle_spec (f : Nat → Bool) (qs : List (Fin n)) (hq : qs.Nodup) (k : Nat) (ψ : State (Fin n) ℂ) :
    let idle := (qs.zipIdx k).map fun p => trapIdle (f p.2) p.1
    (∀ x ∈ idle.flatMap (·.1) ++ idle.flatMap (·.2), ∀ q ∈ x.qubits, q ∈ qs) ∧
    sem (idle.flatMap (·.2)) (sem (idle.flatMap (·.1)) ψ) = ψ := by
  induction qs generalizing k ψ with
  | nil => simp
  | cons q qs ih =>
    rw [List.nodup_cons] at hq
    obtain ⟨h1, h2⟩ := ih hq.2 (k + 1) ψ
    simp only [List.zipIdx_cons, List.map_cons, List.flatMap_cons]
    set idle := (qs.zipIdx (k + 1)).map fun p => trapIdle (f p.2) p.1 with hidle
    have hq1 : ∀ x ∈ (trapIdle (f k) q).1 ++ (trapIdle (f k) q).2, ∀ p ∈ x.qubits, p = q := by
      unfold trapIdle
      cases f k <;> simp [Gate.qubits]
    constructor
    · intro x hx p hp
      have : x ∈ (trapIdle (f k) q).1 ++ (trapIdle (f k) q).2 ∨ x ∈ idle.flatMap (·.1) ++ idle.flatMap (·.2) := by
        simp only [List.mem_append] at hx ⊢
        tauto
      rcases this with h | h
      · rw [hq1 x h p hp]; exact List.mem_cons_self
      · exact List.mem_cons_of_mem _ (h1 x h p hp)
    · rw [sem_append, sem_append, sem_comm (trapIdle (f k) q).2 (idle.flatMap (·.1))]
      · have : sem (trapIdle (f k) q).2 (sem (trapIdle (f k) q).1 ψ) = ψ := by
          unfold trapIdle
          cases f k
          · exact sdg_s q ψ
          · exact h_h q ψ
        rw [this]; exact h2
      · intro x hx y hy p hxp hyp
        have e1 := hq1 x (List.mem_append_right _ hx) p hxp
        have e2 := h1 y (List.mem_append_left _ hy) p hyp
        subst e1; exact hq.1 e2

theorem interleave_last (g : TwoQ) (R : List (List (Gate n))) (T : List (List (Fin n × Fin n)))
    (h : R.length = T.length + 1) (hs : List (Gate n)) :
    interleave g (R.modify (R.length - 1) (· ++ hs)) T = interleave g R T ++ hs := by
  induction T generalizing R with
  | nil =>
    obtain ⟨s, rfl⟩ : ∃ s, R = [s] := List.length_eq_one_iff.1 h
    rfl
  | cons t T ih =>
    obtain ⟨s, R, rfl⟩ : ∃ s S', R = s :: S' := by
      cases R with
      | nil => simp at h
      | cons s S' => exact ⟨s, S', rfl⟩
    have hR : R.length = T.length + 1 := by simpa using h
    have : (s :: R).length - 1 = (R.length - 1) + 1 := by simp; omega
    rw [this, List.modify_succ_cons, interleave, ih R hR, interleave, List.append_assoc, List.append_assoc,
      List.append_assoc]

theorem trap_fold (g : TwoQ) (hg : g ≠ .other) (rnd : Nat → Nat → Bool) (T : List (List (Fin n × Fin n)))
    (hT : ∀ t ∈ T, (regs t).Nodup) (pre : List (List (Gate n))) (A : List (Gate n)) :
    ∃ R, (T.zipIdx pre.length).foldlM (trapLayer g rnd) (pre ++ A :: List.replicate T.length []) = some (pre ++ R) ∧
      R.length = T.length + 1 ∧
      ∀ ψ φ, CXFixed φ → sem A ψ = φ → sem (interleave g R T) ψ = φ := by
  induction T generalizing pre A with
  | nil => exact ⟨[A], rfl, rfl, fun ψ φ _ h => h⟩
  | cons t T ih =>
    have hnd := hT t List.mem_cons_self
    obtain ⟨prs, e, hq, hsem⟩ := trapPairs_spec g hg (rnd pre.length) t hnd 0
    set qs := (List.finRange n).filter fun q => q ∉ regs t with hqs
    set idle := qs.zipIdx.map fun p => trapIdle (rnd pre.length (t.length + p.2)) p.1 with hidle
    have hqn : qs.Nodup := (List.nodup_finRange n).filter _
    have hI := fun ψ => trapIdle_spec (fun i => rnd pre.length (t.length + i)) qs hqn 0 ψ
    have hstep : trapLayer g rnd (pre ++ A :: List.replicate (t :: T).length []) (t, pre.length) =
        some ((pre ++ [A ++ (prs ++ idle).flatMap (·.1)]) ++ ((prs ++ idle).flatMap (·.2) :: List.replicate T.length [])) := by
      unfold trapLayer
      simp only [e]
      show some _ = _
      have e1 := modify_append pre (A :: List.replicate (t :: T).length []) 0 (· ++ (prs ++ idle).flatMap (·.1))
      have e2 := modify_append pre ((A ++ (prs ++ idle).flatMap (·.1)) :: List.replicate (t :: T).length []) 1
        (· ++ (prs ++ idle).flatMap (·.2))
      simp only [Nat.add_zero, List.modify_zero_cons] at e1
      refine congrArg some ?_
      show ((pre ++ A :: List.replicate (t :: T).length []).modify pre.length (· ++ (prs ++ idle).flatMap (·.1))).modify
        (pre.length + 1) (· ++ (prs ++ idle).flatMap (·.2)) = _
      rw [e1, e2]
      simp [List.replicate_succ]
    obtain ⟨R, hR, hlen, hRsem⟩ := ih (fun t ht => hT t (List.mem_cons_of_mem _ ht))
      (pre ++ [A ++ (prs ++ idle).flatMap (·.1)]) ((prs ++ idle).flatMap (·.2))
    refine ⟨(A ++ (prs ++ idle).flatMap (·.1)) :: R, ?_, by simp [hlen], ?_⟩
    · rw [List.zipIdx_cons, List.foldlM_cons, hstep]
      simpa using hR
    · intro ψ φ hφ hA
      rw [interleave, sem_append, sem_append, sem_append, hA]
      apply hRsem _ φ hφ
      rw [List.flatMap_append, List.flatMap_append, hsem _ _ _ φ hφ]
      · exact (hI φ).2
      · intro x hx q hxq
        have := (hI φ).1 x hx q hxq
        rw [hqs] at this
        simpa using (List.mem_filter.1 this).2

/-- Without noise a trap circuit, before padding, returns to |0…0⟩. -/
theorem routineTwo_spec (L : Layers n m) (hg : L.gate ≠ .other) (hT : ∀ t ∈ L.two, (regs t).Nodup)
    (basis : Bool) (rnd : Nat → Nat → Bool) :
    ∃ S, routineTwo L basis rnd = some S ∧ S.length = L.two.length + 1 ∧
      sem (interleave L.gate S L.two) ket0 = ket0 := by
  cases basis
  · obtain ⟨R, hR, hlen, hsem⟩ := trap_fold L.gate hg rnd L.two hT [] []
    refine ⟨R, ?_, hlen, hsem ket0 ket0 cxFixed_ket0 rfl⟩
    simp only [List.nil_append, List.length_nil] at hR
    simp [routineTwo, List.replicate_succ, hR]
  · obtain ⟨R, hR, hlen, hsem⟩ := trap_fold L.gate hg rnd L.two hT [] ((List.finRange n).map Gate.h)
    refine ⟨R.modify (R.length - 1) (· ++ (List.finRange n).map Gate.h), ?_, by simpa using hlen, ?_⟩
    · simp only [List.nil_append, List.length_nil] at hR
      simp [routineTwo, List.replicate_succ, hR]
    · rw [interleave_last _ _ _ hlen, sem_append, hsem ket0 _ cxFixed_plus sem_hs_ket0, ← sem_hs_ket0]
      exact sem_hs_hs _ (List.nodup_finRange n) _

end Verif.Accred
