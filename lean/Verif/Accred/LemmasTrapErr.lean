import Verif.Accred.LemmasFrame
set_option linter.unusedSectionVars false
set_option linter.unusedSimpArgs false
/-
Which errors a trap circuit lets pass.
-/
namespace Verif.Accred
open Verif Verif.Quantum

variable {n : ℕ}

/-! ### The layers of a trap -/

/-- Gates around one two-qubit gate. -/
def prG (g : TwoQ) (r : Bool) (p : Fin n × Fin n) : List (Gate n) × List (Gate n) := (trapPair g r p).getD ([], [])

theorem trapPair_prG (g : TwoQ) (hg : g ≠ .other) (r : Bool) (p : Fin n × Fin n) : trapPair g r p = some (prG g r p) := by
  cases g <;> cases r <;> first | rfl | exact absurd rfl hg

/-- Qubits without a gate. -/
def idleQ (t : List (Fin n × Fin n)) : List (Fin n) := (List.finRange n).filter fun q => q ∉ regs t

/-- Gates around a layer. -/
def layAll (g : TwoQ) (rnd : ℕ → Bool) (t : List (Fin n × Fin n)) : List (List (Gate n) × List (Gate n)) :=
  (t.zipIdx.map fun p => prG g (rnd p.2) p.1) ++ (idleQ t).zipIdx.map fun p => trapIdle (rnd (t.length + p.2)) p.1

/-- Gates before a layer. -/
def layA (g : TwoQ) (rnd : ℕ → Bool) (t : List (Fin n × Fin n)) : List (Gate n) := (layAll g rnd t).flatMap (·.1)

/-- Gates after a layer. -/
def layB (g : TwoQ) (rnd : ℕ → Bool) (t : List (Fin n × Fin n)) : List (Gate n) := (layAll g rnd t).flatMap (·.2)

/-- The one-qubit layers of a trap. -/
def trapSingles (g : TwoQ) (rnd : ℕ → ℕ → Bool) (post : List (Gate n)) : ℕ → List (List (Fin n × Fin n)) → List (Gate n) → List (List (Gate n))
  | _, [], pre => [pre ++ post]
  | k, t :: T, pre => (pre ++ layA g (rnd k) t) :: trapSingles g rnd post (k + 1) T (layB g (rnd k) t)

theorem trapSingles_length (g : TwoQ) (rnd : ℕ → ℕ → Bool) (post : List (Gate n)) (k : ℕ) (T : List (List (Fin n × Fin n))) (pre : List (Gate n)) :
    (trapSingles g rnd post k T pre).length = T.length + 1 := by
  induction T generalizing k pre with
  | nil => rfl
  | cons t T ih => simp [trapSingles, ih]

theorem trapSingles_post (g : TwoQ) (rnd : ℕ → ℕ → Bool) (post : List (Gate n)) (k : ℕ) (T : List (List (Fin n × Fin n))) (pre : List (Gate n)) :
    (trapSingles g rnd [] k T pre).modify T.length (· ++ post) = trapSingles g rnd post k T pre := by
  induction T generalizing k pre with
  | nil => simp [trapSingles]
  | cons t T ih => simp [trapSingles, ih]

theorem mapM_some {α β : Type} (f : α → Option β) (h : α → β) (l : List α) (e : ∀ x ∈ l, f x = some (h x)) : l.mapM f = some (l.map h) := by
  induction l with
  | nil => rfl
  | cons x l ih =>
    rw [List.mapM_cons, e x List.mem_cons_self, ih fun x hx => e x (List.mem_cons_of_mem _ hx)]
    rfl

theorem trapLayer_eq (g : TwoQ) (hg : g ≠ .other) (rnd : ℕ → ℕ → Bool) (trap : List (List (Gate n))) (t : List (Fin n × Fin n)) (k : ℕ) :
    trapLayer g rnd trap (t, k) = some ((trap.modify k (· ++ layA g (rnd k) t)).modify (k + 1) (· ++ layB g (rnd k) t)) := by
  unfold trapLayer
  dsimp only
  rw [mapM_some (fun p : (Fin n × Fin n) × ℕ => trapPair g (rnd k p.2) p.1) (fun p => prG g (rnd k p.2) p.1) _ fun p _ => trapPair_prG g hg _ _]
  rfl

theorem trapFold_eq (g : TwoQ) (hg : g ≠ .other) (rnd : ℕ → ℕ → Bool) (T : List (List (Fin n × Fin n))) (pre : List (List (Gate n))) (A : List (Gate n)) :
    (T.zipIdx pre.length).foldlM (trapLayer g rnd) (pre ++ A :: List.replicate T.length []) = some (pre ++ trapSingles g rnd [] pre.length T A) := by
  induction T generalizing pre A with
  | nil => simp [trapSingles]
  | cons t T ih =>
    have hstep : trapLayer g rnd (pre ++ A :: List.replicate (t :: T).length []) (t, pre.length) =
        some ((pre ++ [A ++ layA g (rnd pre.length) t]) ++ (layB g (rnd pre.length) t :: List.replicate T.length [])) := by
      rw [trapLayer_eq g hg]
      have e1 := modify_append pre (A :: List.replicate (t :: T).length []) 0 (· ++ layA g (rnd pre.length) t)
      have e2 := modify_append pre ((A ++ layA g (rnd pre.length) t) :: List.replicate (t :: T).length []) 1 (· ++ layB g (rnd pre.length) t)
      simp only [Nat.add_zero, List.modify_zero_cons] at e1
      rw [e1, e2]
      simp [List.replicate_succ]
    have := ih (pre ++ [A ++ layA g (rnd pre.length) t]) (layB g (rnd pre.length) t)
    rw [List.zipIdx_cons, List.foldlM_cons, hstep]
    simpa [trapSingles] using this

/-- Hadamard gates on all qubits. -/
def hsG (b : Bool) : List (Gate n) := if b then (List.finRange n).map Gate.h else []

theorem routineTwo_eq {m : ℕ} (L : Layers n m) (hg : L.gate ≠ .other) (b : Bool) (rnd : ℕ → ℕ → Bool) :
    routineTwo L b rnd = some (trapSingles L.gate rnd (hsG b) 0 L.two (hsG b)) := by
  cases b
  · have h := trapFold_eq L.gate hg rnd L.two [] []
    simp only [List.nil_append, List.length_nil] at h
    simp [routineTwo, List.replicate_succ, h, hsG]
  · have h := trapFold_eq L.gate hg rnd L.two [] ((List.finRange n).map Gate.h)
    simp only [List.nil_append, List.length_nil] at h
    simp [routineTwo, List.replicate_succ, h, hsG, trapSingles_length, trapSingles_post]

/-- One-qubit Clifford gates. -/
def Gate.cliff1 : Gate n → Prop
  | .h _ => True
  | .s _ => True
  | .sdg _ => True
  | _ => False

theorem Gate.cliff1.cliff {a : Gate n} (h : a.cliff1) : a.cliff := by cases a <;> simp_all [Gate.cliff1, Gate.cliff]

theorem Gate.cliff1.single {a : Gate n} (h : a.cliff1) : a.isTwo = false := by cases a <;> simp_all [Gate.cliff1, Gate.isTwo]

theorem Gate.cliff1.ok {a : Gate n} (h : a.cliff1) : a.ok := by cases a <;> simp_all [Gate.cliff1, Gate.ok]

theorem layAll_cliff (g : TwoQ) (rnd : ℕ → Bool) (t : List (Fin n × Fin n)) : ∀ pr ∈ layAll g rnd t, ∀ a ∈ pr.1 ++ pr.2, a.cliff1 := by
  intro pr hpr a ha
  simp only [layAll, List.mem_append, List.mem_map] at hpr
  rcases hpr with ⟨p, -, rfl⟩ | ⟨p, -, rfl⟩
  · generalize rnd p.2 = r at ha
    cases g <;> cases r <;> simp [prG, trapPair] at ha <;> aesop (add norm Gate.cliff1)
  · generalize rnd (t.length + p.2) = r at ha
    cases r <;> simp [trapIdle] at ha <;> aesop (add norm Gate.cliff1)

theorem layA_cliff (g : TwoQ) (rnd : ℕ → Bool) (t : List (Fin n × Fin n)) : ∀ a ∈ layA g rnd t, a.cliff1 := by
  intro a ha
  obtain ⟨pr, hpr, h⟩ := List.mem_flatMap.1 ha
  exact layAll_cliff g rnd t pr hpr a (List.mem_append_left _ h)

theorem layB_cliff (g : TwoQ) (rnd : ℕ → Bool) (t : List (Fin n × Fin n)) : ∀ a ∈ layB g rnd t, a.cliff1 := by
  intro a ha
  obtain ⟨pr, hpr, h⟩ := List.mem_flatMap.1 ha
  exact layAll_cliff g rnd t pr hpr a (List.mem_append_right _ h)

theorem hsG_cliff (b : Bool) : ∀ a ∈ (hsG b : List (Gate n)), a.cliff1 := by
  intro a ha
  cases b
  · cases ha
  · simp only [hsG, if_true, List.mem_map] at ha
    obtain ⟨q, -, rfl⟩ := ha
    trivial

theorem trapSingles_cliff (g : TwoQ) (rnd : ℕ → ℕ → Bool) (post : List (Gate n)) (hpost : ∀ a ∈ post, a.cliff1) (k : ℕ) (T : List (List (Fin n × Fin n)))
    (pre : List (Gate n)) (hpre : ∀ a ∈ pre, a.cliff1) : ∀ s ∈ trapSingles g rnd post k T pre, ∀ a ∈ s, a.cliff1 := by
  induction T generalizing k pre with
  | nil =>
    intro s hs a ha
    simp only [trapSingles, List.mem_singleton] at hs
    subst hs
    rcases List.mem_append.1 ha with h | h
    · exact hpre a h
    · exact hpost a h
  | cons t T ih =>
    intro s hs a ha
    simp only [trapSingles, List.mem_cons] at hs
    rcases hs with rfl | hs
    · rcases List.mem_append.1 ha with h | h
      · exact hpre a h
      · exact layA_cliff _ _ _ a h
    · exact ih (k + 1) _ (layB_cliff _ _ _) s hs a ha

/-! ### Locality -/

/-- Equal on the qubits of `Q`. -/
def Agree (Q : List (Fin n)) (v w : PP n) : Prop := ∀ q ∈ Q, v.1 q = w.1 q ∧ v.2 q = w.2 q

theorem Agree.refl (Q : List (Fin n)) (v : PP n) : Agree Q v v := fun _ _ => ⟨rfl, rfl⟩

theorem Agree.symm {Q : List (Fin n)} {v w : PP n} (h : Agree Q v w) : Agree Q w v := fun q hq => ⟨(h q hq).1.symm, (h q hq).2.symm⟩

theorem Agree.trans {Q : List (Fin n)} {v w u : PP n} (h : Agree Q v w) (h' : Agree Q w u) : Agree Q v u :=
  fun q hq => ⟨(h q hq).1.trans (h' q hq).1, (h q hq).2.trans (h' q hq).2⟩

theorem cjG_off (a : Gate n) (v : PP n) (q : Fin n) (hq : q ∉ a.qubits) : (cjG a v).1 q = v.1 q ∧ (cjG a v).2 q = v.2 q := by
  cases a <;> simp [Gate.qubits] at hq <;> simp [cjG, hq]

theorem cj_off (Q : List (Fin n)) (l : List (Gate n)) (hl : ∀ a ∈ l, ∀ q ∈ a.qubits, q ∉ Q) (v : PP n) : Agree Q (cj l v) v := by
  induction l generalizing v with
  | nil => exact .refl _ _
  | cons a l ih =>
    refine (ih (fun a ha => hl a (List.mem_cons_of_mem _ ha)) (cjG a v)).trans fun q hq => ?_
    exact cjG_off a v q fun h => hl a List.mem_cons_self q h hq

theorem cjG_on (Q : List (Fin n)) (a : Gate n) (ha : ∀ q ∈ a.qubits, q ∈ Q) (v w : PP n) (h : Agree Q v w) : Agree Q (cjG a v) (cjG a w) := by
  intro q hq
  have h0 := h q hq
  cases a <;> simp [Gate.qubits] at ha <;> simp only [cjG, Function.update_apply] <;> first
    | exact h0
    | (have h1 := h _ ha; simp only [h1.1, h1.2, h0.1, h0.2, and_self])
    | (have h1 := h _ ha.1; have h2 := h _ ha.2; simp only [h1.1, h1.2, h2.1, h2.2, h0.1, h0.2, and_self])

theorem cj_on (Q : List (Fin n)) (l : List (Gate n)) (hl : ∀ a ∈ l, ∀ q ∈ a.qubits, q ∈ Q) (v w : PP n) (h : Agree Q v w) : Agree Q (cj l v) (cj l w) := by
  induction l generalizing v w with
  | nil => exact h
  | cons a l ih => exact ih (fun a ha => hl a (List.mem_cons_of_mem _ ha)) _ _ (cjG_on Q a (hl a List.mem_cons_self) v w h)

/-- Gates elsewhere do not matter. -/
theorem cj_mid (Q : List (Fin n)) (l₁ l l₂ : List (Gate n)) (h1 : ∀ a ∈ l₁, ∀ q ∈ a.qubits, q ∉ Q) (h2 : ∀ a ∈ l₂, ∀ q ∈ a.qubits, q ∉ Q)
    (hl : ∀ a ∈ l, ∀ q ∈ a.qubits, q ∈ Q) (v : PP n) : Agree Q (cj (l₁ ++ l ++ l₂) v) (cj l v) := by
  rw [cj_append, cj_append]
  exact (cj_off Q l₂ h2 _).trans (cj_on Q l hl _ _ (cj_off Q l₁ h1 v))

/-- What the trap does to a pair of qubits or to an idle qubit. -/
structure Block (Q : List (Fin n)) (a b : Bool → List (Gate n)) (c : List (Gate n)) : Prop where
  inA : ∀ r, ∀ x ∈ a r, ∀ q ∈ x.qubits, q ∈ Q
  inB : ∀ r, ∀ x ∈ b r, ∀ q ∈ x.qubits, q ∈ Q
  inC : ∀ x ∈ c, ∀ q ∈ x.qubits, q ∈ Q
  splitX : ∀ r v, (∀ q ∈ Q, v.2 q = false) → ∀ q ∈ Q, (cj (b r) (cj c (cj (a r) v))).2 q = false
  splitZ : ∀ r v, (∀ q ∈ Q, v.1 q = false) → ∀ q ∈ Q, (cj (b r) (cj c (cj (a r) v))).1 q = false
  post : ∀ v, Agree Q (cj (b true) (cj c v)) (cj (b false) (cj c v)) → Agree Q v p0
  pre : ∀ v, Agree Q (cj (a true) v) (cj (a false) v) → Agree Q v p0

theorem block_pair (g : TwoQ) (hg : g ≠ .other) (p : Fin n × Fin n) (hp : p.1 ≠ p.2) :
    Block [p.1, p.2] (fun r => (prG g r p).1) (fun r => (prG g r p).2) (twoGates g [p]) := by
  obtain ⟨i, j⟩ := p
  have hp : i ≠ j := hp
  have hp' := hp.symm
  cases g with
  | other => exact absurd rfl hg
  | cx =>
    constructor
    · intro r; cases r <;> simp [prG, trapPair, Gate.qubits]
    · intro r; cases r <;> simp [prG, trapPair, Gate.qubits]
    · simp [twoGates, Gate.qubits]
    · intro r v; cases r <;> simp [prG, trapPair, twoGates, cj, cjG, hp, hp'] <;> (try intro h1 h2; simp [h1, h2])
    · intro r v; cases r <;> simp [prG, trapPair, twoGates, cj, cjG, hp, hp'] <;> (try intro h1 h2; simp [h1, h2])
    · intro v; simp [Agree, prG, trapPair, twoGates, cj, cjG, hp, hp', p0]
      cases v.1 i <;> cases v.1 j <;> cases v.2 i <;> cases v.2 j <;> simp
    · intro v; simp [Agree, prG, trapPair, twoGates, cj, cjG, hp, hp', p0]
      cases v.1 i <;> cases v.1 j <;> cases v.2 i <;> cases v.2 j <;> simp
  | cz =>
    constructor
    · intro r; cases r <;> simp [prG, trapPair, Gate.qubits]
    · intro r; cases r <;> simp [prG, trapPair, Gate.qubits]
    · simp [twoGates, Gate.qubits]
    · intro r v; cases r <;> simp [prG, trapPair, twoGates, cj, cjG, hp, hp'] <;> (try intro h1 h2; simp [h1, h2])
    · intro r v; cases r <;> simp [prG, trapPair, twoGates, cj, cjG, hp, hp'] <;> (try intro h1 h2; simp [h1, h2])
    · intro v; simp [Agree, prG, trapPair, twoGates, cj, cjG, hp, hp', p0]
      cases v.1 i <;> cases v.1 j <;> cases v.2 i <;> cases v.2 j <;> simp
    · intro v; simp [Agree, prG, trapPair, twoGates, cj, cjG, hp, hp', p0]
      cases v.1 i <;> cases v.1 j <;> cases v.2 i <;> cases v.2 j <;> simp

theorem block_idle (q : Fin n) : Block [q] (fun r => (trapIdle r q).1) (fun r => (trapIdle r q).2) [] := by
  constructor
  · intro r; cases r <;> simp [trapIdle, Gate.qubits]
  · intro r; cases r <;> simp [trapIdle, Gate.qubits]
  · simp
  · intro r v; cases r <;> simp [trapIdle, cj, cjG]
  · intro r v; cases r <;> simp [trapIdle, cj, cjG]
  · intro v; simp [Agree, trapIdle, cj, cjG, p0]
    cases v.1 q <;> cases v.2 q <;> simp
  · intro v; simp [Agree, trapIdle, cj, cjG, p0]
    cases v.1 q <;> cases v.2 q <;> simp

theorem pairs_avoid (g : TwoQ) (rnd : ℕ → Bool) (t : List (Fin n × Fin n)) (k : ℕ) (Q : List (Fin n)) (h : ∀ q ∈ Q, q ∉ regs t) :
    ∀ x ∈ (t.zipIdx k).map (fun p => prG g (rnd p.2) p.1), ∀ a ∈ x.1 ++ x.2, ∀ q ∈ a.qubits, q ∉ Q := by
  intro x hx a ha q hq hQ
  simp only [List.mem_map] at hx
  obtain ⟨⟨p, i⟩, hp, rfl⟩ := hx
  have hpt : p ∈ t := by
    have := List.mem_zipIdx hp
    rw [this.2.2]; exact List.getElem_mem _
  apply h q hQ
  refine List.mem_flatMap.2 ⟨p, hpt, ?_⟩
  dsimp only at ha
  generalize rnd i = r at ha
  cases g <;> cases r <;> simp [prG, trapPair] at ha <;> aesop (add norm Gate.qubits)

theorem idle_avoid (f : ℕ → Bool) (qs : List (Fin n)) (k : ℕ) (Q : List (Fin n)) (h : ∀ q ∈ Q, q ∉ qs) :
    ∀ x ∈ (qs.zipIdx k).map (fun p => trapIdle (f p.2) p.1), ∀ a ∈ x.1 ++ x.2, ∀ q ∈ a.qubits, q ∉ Q := by
  intro x hx a ha q hq hQ
  simp only [List.mem_map] at hx
  obtain ⟨⟨p, i⟩, hp, rfl⟩ := hx
  have hpt : p ∈ qs := by
    have := List.mem_zipIdx hp
    rw [this.2.2]; exact List.getElem_mem _
  apply h q hQ
  dsimp only at ha
  generalize f i = r at ha
  have : q = p := by cases r <;> simp [trapIdle] at ha <;> aesop (add norm Gate.qubits)
  rw [this]; exact hpt

theorem two_avoid (g : TwoQ) (t : List (Fin n × Fin n)) (Q : List (Fin n)) (h : ∀ q ∈ Q, q ∉ regs t) :
    ∀ a ∈ twoGates g t, ∀ q ∈ a.qubits, q ∉ Q := fun a ha q hq hQ => h q hQ (qubits_twoGates g t a ha q hq)

/-- Every qubit belongs to a block with a random bit of its own. -/
theorem block_at (g : TwoQ) (hg : g ≠ .other) (t : List (Fin n × Fin n)) (ht : (regs t).Nodup) (q : Fin n) :
    ∃ i, i < n ∧ ∃ (Q : List (Fin n)) (a b : Bool → List (Gate n)) (c : List (Gate n)), q ∈ Q ∧ Block Q a b c ∧
      (∀ rnd v, Agree Q (cj (layA g rnd t) v) (cj (a (rnd i)) v)) ∧ (∀ v, Agree Q (cj (twoGates g t) v) (cj c v)) ∧
      ∀ rnd v, Agree Q (cj (layB g rnd t) v) (cj (b (rnd i)) v) := by
  have hlen : (regs t).length = 2 * t.length := by
    clear ht
    induction t with
    | nil => rfl
    | cons p t ih =>
      have : regs (p :: t) = p.1 :: p.2 :: regs t := rfl
      rw [this]
      simp only [List.length_cons, ih]
      omega
  by_cases hq : q ∈ regs t
  · obtain ⟨p, hp, hqp⟩ := List.mem_flatMap.1 hq
    obtain ⟨t1, t2, rfl⟩ := List.append_of_mem hp
    have hr : regs (t1 ++ p :: t2) = regs t1 ++ (p.1 :: p.2 :: regs t2) := by rw [regs_append]; rfl
    have hn : (regs (t1 ++ p :: t2)).length ≤ n := by simpa using List.Nodup.length_le_card ht
    rw [hr] at ht
    have hp12 : p.1 ≠ p.2 := by
      have := (List.nodup_append.1 ht).2.1
      simp only [List.nodup_cons, List.mem_cons, not_or] at this
      exact this.1.1
    have h1 : ∀ q ∈ [p.1, p.2], q ∉ regs t1 := by
      intro q hq hq'
      exact (List.nodup_append.1 ht).2.2 q hq' q (by simp at hq; rcases hq with rfl | rfl <;> simp) rfl
    have h2 : ∀ q ∈ [p.1, p.2], q ∉ regs t2 := by
      have := (List.nodup_append.1 ht).2.1
      simp only [List.nodup_cons, List.mem_cons, not_or] at this
      intro q hq
      simp at hq
      rcases hq with rfl | rfl
      · exact this.1.2
      · exact this.2.1
    have h3 : ∀ q ∈ [p.1, p.2], q ∉ idleQ (t1 ++ p :: t2) := by
      intro q hq hq'
      have := (List.mem_filter.1 hq').2
      rw [hr] at this
      simp at hq
      rcases hq with rfl | rfl <;> simp at this
    have hB := block_pair g hg p hp12
    have hall : ∀ rnd, layAll g rnd (t1 ++ p :: t2) = t1.zipIdx.map (fun p => prG g (rnd p.2) p.1) ++ prG g (rnd t1.length) p ::
        ((t2.zipIdx (t1.length + 1)).map (fun p => prG g (rnd p.2) p.1) ++
          (idleQ (t1 ++ p :: t2)).zipIdx.map fun p' => trapIdle (rnd ((t1 ++ p :: t2).length + p'.2)) p'.1) := by
      intro rnd
      simp [layAll, List.zipIdx_append, List.zipIdx_cons]
    refine ⟨t1.length, by simp only [List.length_append, List.length_cons] at hlen; omega, [p.1, p.2], _, _, _, by simpa using hqp, hB, ?_, ?_, ?_⟩
    · intro rnd v
      rw [layA, hall, List.flatMap_append, List.flatMap_cons, ← List.append_assoc]
      refine cj_mid _ _ _ _ ?_ ?_ (hB.inA _) v
      · intro a ha
        obtain ⟨x, hx, hax⟩ := List.mem_flatMap.1 ha
        exact pairs_avoid g rnd t1 0 _ h1 x hx a (List.mem_append_left _ hax)
      · intro a ha
        obtain ⟨x, hx, hax⟩ := List.mem_flatMap.1 ha
        rcases List.mem_append.1 hx with hx | hx
        · exact pairs_avoid g rnd t2 _ _ h2 x hx a (List.mem_append_left _ hax)
        · exact idle_avoid (fun i => rnd ((t1 ++ p :: t2).length + i)) _ 0 _ h3 x hx a (List.mem_append_left _ hax)
    · intro v
      rw [twoGates_append, twoGates_cons, ← List.append_assoc]
      exact cj_mid _ _ _ _ (two_avoid g t1 _ h1) (two_avoid g t2 _ h2) hB.inC v
    · intro rnd v
      rw [layB, hall, List.flatMap_append, List.flatMap_cons, ← List.append_assoc]
      refine cj_mid _ _ _ _ ?_ ?_ (hB.inB _) v
      · intro a ha
        obtain ⟨x, hx, hax⟩ := List.mem_flatMap.1 ha
        exact pairs_avoid g rnd t1 0 _ h1 x hx a (List.mem_append_right _ hax)
      · intro a ha
        obtain ⟨x, hx, hax⟩ := List.mem_flatMap.1 ha
        rcases List.mem_append.1 hx with hx | hx
        · exact pairs_avoid g rnd t2 _ _ h2 x hx a (List.mem_append_right _ hax)
        · exact idle_avoid (fun i => rnd ((t1 ++ p :: t2).length + i)) _ 0 _ h3 x hx a (List.mem_append_right _ hax)
  · have hqi : q ∈ idleQ t := List.mem_filter.2 ⟨List.mem_finRange q, by simpa using hq⟩
    have hnd : (idleQ t).Nodup := (List.nodup_finRange n).filter _
    have hn : (regs t ++ idleQ t).length ≤ n := by
      have : (regs t ++ idleQ t).Nodup := by
        rw [List.nodup_append]
        refine ⟨ht, hnd, fun a ha b hb hab => ?_⟩
        subst hab
        have := (List.mem_filter.1 hb).2
        simp [ha] at this
      simpa using List.Nodup.length_le_card this
    obtain ⟨q1, q2, e⟩ := List.append_of_mem hqi
    rw [e] at hnd hn
    have h1 : ∀ p ∈ [q], p ∉ q1 := by
      intro p hp hp'
      simp at hp; subst hp
      exact (List.nodup_append.1 hnd).2.2 p hp' p (by simp) rfl
    have h2 : ∀ p ∈ [q], p ∉ q2 := by
      intro p hp
      simp at hp; subst hp
      exact (List.nodup_cons.1 (List.nodup_append.1 hnd).2.1).1
    have h3 : ∀ p ∈ [q], p ∉ regs t := by
      intro p hp
      simp at hp; subst hp
      exact hq
    have hB := block_idle q
    have hall : ∀ rnd, layAll g rnd t = (t.zipIdx.map (fun p => prG g (rnd p.2) p.1) ++ q1.zipIdx.map fun p => trapIdle (rnd (t.length + p.2)) p.1) ++
        trapIdle (rnd (t.length + q1.length)) q :: (q2.zipIdx (q1.length + 1)).map fun p => trapIdle (rnd (t.length + p.2)) p.1 := by
      intro rnd
      simp [layAll, e, List.zipIdx_append, List.zipIdx_cons]
    refine ⟨t.length + q1.length, by simp only [List.length_append, List.length_cons, hlen] at hn; omega, [q], _, _, _, by simp, hB, ?_, ?_, ?_⟩
    · intro rnd v
      rw [layA, hall, List.flatMap_append, List.flatMap_cons, ← List.append_assoc]
      refine cj_mid _ _ _ _ ?_ ?_ (hB.inA _) v
      · intro a ha
        obtain ⟨x, hx, hax⟩ := List.mem_flatMap.1 ha
        rcases List.mem_append.1 hx with hx | hx
        · exact pairs_avoid g rnd t _ _ h3 x hx a (List.mem_append_left _ hax)
        · exact idle_avoid (fun i => rnd (t.length + i)) _ 0 _ h1 x hx a (List.mem_append_left _ hax)
      · intro a ha
        obtain ⟨x, hx, hax⟩ := List.mem_flatMap.1 ha
        exact idle_avoid (fun i => rnd (t.length + i)) _ _ _ h2 x hx a (List.mem_append_left _ hax)
    · intro v
      exact cj_off _ _ (two_avoid g t _ h3) v
    · intro rnd v
      rw [layB, hall, List.flatMap_append, List.flatMap_cons, ← List.append_assoc]
      refine cj_mid _ _ _ _ ?_ ?_ (hB.inB _) v
      · intro a ha
        obtain ⟨x, hx, hax⟩ := List.mem_flatMap.1 ha
        rcases List.mem_append.1 hx with hx | hx
        · exact pairs_avoid g rnd t _ _ h3 x hx a (List.mem_append_right _ hax)
        · exact idle_avoid (fun i => rnd (t.length + i)) _ 0 _ h1 x hx a (List.mem_append_right _ hax)
      · intro a ha
        obtain ⟨x, hx, hax⟩ := List.mem_flatMap.1 ha
        exact idle_avoid (fun i => rnd (t.length + i)) _ _ _ h2 x hx a (List.mem_append_right _ hax)

end Verif.Accred
