import Verif.Accred.Spec
import Mathlib.Data.List.Nodup
set_option linter.unusedSectionVars false
set_option linter.unusedSimpArgs false
/-
Lemmas on the semantics of gate lists.
-/
namespace Verif.Accred
open Verif Verif.Quantum

variable {n m : Nat}

@[simp] theorem sem_nil (ψ : State (Fin n) ℂ) : sem [] ψ = ψ := rfl
@[simp] theorem sem_cons (g : Gate n) (l : List (Gate n)) (ψ : State (Fin n) ℂ) :
    sem (g :: l) ψ = sem l (applyGate g ψ) := rfl
theorem sem_append (l l' : List (Gate n)) (ψ : State (Fin n) ℂ) : sem (l ++ l') ψ = sem l' (sem l ψ) := by
  simp [sem]

theorem applyGate_smul (g : Gate n) (k : ℂ) (ψ : State (Fin n) ℂ) :
    applyGate g (fun x => k * ψ x) = fun x => k * applyGate g ψ x := by
  cases g
  all_goals first
    | exact app1_smul _ _ _ _
    | exact appCX_smul _ _ _ _
    | exact appCZ_smul _ _ _ _
    | rfl

theorem sem_smul (l : List (Gate n)) (k : ℂ) (ψ : State (Fin n) ℂ) :
    sem l (fun x => k * ψ x) = fun x => k * sem l ψ x := by
  induction l generalizing ψ with
  | nil => rfl
  | cons g l ih => rw [sem_cons, applyGate_smul, ih, sem_cons]

theorem EqSign.sem {ψ φ : State (Fin n) ℂ} (l : List (Gate n)) (h : EqSign ψ φ) :
    EqSign (Accred.sem l ψ) (Accred.sem l φ) := h.map _ (sem_smul l)

/-- Qubits touched by a gate. -/
def Gate.qubits : Gate n → List (Fin n)
  | .u _ q => [q]
  | .x q => [q]
  | .z q => [q]
  | .h q => [q]
  | .s q => [q]
  | .sdg q => [q]
  | .cx c t => [c, t]
  | .cz a b => [a, b]
  | .barrier => []

theorem Gate.kind (g : Gate n) :
    (∃ m q, applyGate g = app1 m q ∧ g.qubits = [q]) ∨ (∃ c t, applyGate g = appCX c t ∧ g.qubits = [c, t]) ∨
    (∃ a b, applyGate g = appCZ a b ∧ g.qubits = [a, b]) ∨ (applyGate g = id) := by
  cases g
  case cx c t => exact Or.inr (Or.inl ⟨_, _, rfl, rfl⟩)
  case cz c t => exact Or.inr (Or.inr (Or.inl ⟨_, _, rfl, rfl⟩))
  case barrier => exact Or.inr (Or.inr (Or.inr rfl))
  all_goals exact Or.inl ⟨_, _, rfl, rfl⟩

theorem gate_comm (g g' : Gate n) (h : ∀ q ∈ g.qubits, q ∉ g'.qubits) (ψ : State (Fin n) ℂ) :
    applyGate g (applyGate g' ψ) = applyGate g' (applyGate g ψ) := by
  rcases g.kind with ⟨m1, q1, e1, s1⟩ | ⟨c1, t1, e1, s1⟩ | ⟨c1, t1, e1, s1⟩ | e1 <;>
  rcases g'.kind with ⟨m2, q2, e2, s2⟩ | ⟨c2, t2, e2, s2⟩ | ⟨c2, t2, e2, s2⟩ | e2 <;>
  rw [e1, e2] <;> (try rfl) <;> rw [s1, s2] at h <;>
  simp only [List.mem_cons, List.not_mem_nil, or_false, forall_eq, not_or, forall_eq_or_imp] at h
  · exact app1_comm _ _ _ _ h _
  · exact app1_appCX _ _ _ _ h.1 h.2 _
  · exact app1_appCZ _ _ _ _ h.1 h.2 _
  · exact (app1_appCX _ _ _ _ (Ne.symm h.1) (Ne.symm h.2) _).symm
  · exact appCX_appCX _ _ _ _ h.1.1 h.1.2 h.2.1 h.2.2 _
  · exact appCX_appCZ _ _ _ _ h.2.1 h.2.2 _
  · exact (app1_appCZ _ _ _ _ (Ne.symm h.1) (Ne.symm h.2) _).symm
  · exact (appCX_appCZ _ _ _ _ (Ne.symm h.1.2) (Ne.symm h.2.2) _).symm
  · exact appCZ_appCZ _ _ _ _ _

/-- A gate on other qubits moves past a circuit. -/
theorem gate_sem_comm (g : Gate n) (l : List (Gate n)) (h : ∀ g' ∈ l, ∀ q ∈ g.qubits, q ∉ g'.qubits)
    (ψ : State (Fin n) ℂ) : applyGate g (sem l ψ) = sem l (applyGate g ψ) := by
  induction l generalizing ψ with
  | nil => rfl
  | cons a l ih =>
    rw [sem_cons, ih (fun g' hg' => h g' (List.mem_cons_of_mem _ hg')), sem_cons,
      gate_comm g a (h a List.mem_cons_self)]

theorem sem_comm (l l' : List (Gate n)) (h : ∀ g ∈ l, ∀ g' ∈ l', ∀ q ∈ g.qubits, q ∉ g'.qubits)
    (ψ : State (Fin n) ℂ) : sem l (sem l' ψ) = sem l' (sem l ψ) := by
  induction l generalizing ψ with
  | nil => rfl
  | cons a l ih =>
    rw [sem_cons, gate_sem_comm a l' (h a List.mem_cons_self), ih (fun g hg => h g (List.mem_cons_of_mem _ hg)),
      sem_cons]

/-! ### The pads -/

/-- The bits of `z` on the qubits of `l`. -/
def mask (l : List (Fin n)) (z : Basis (Fin n)) : Basis (Fin n) := fun q => z q && decide (q ∈ l)

theorem mask_cons (q : Fin n) (l : List (Fin n)) (hq : q ∉ l) (z : Basis (Fin n)) :
    mask (q :: l) z = bxor (mask l z) (Quantum.unit q (z q)) := by
  funext p
  by_cases h : p = q
  · subst h; simp [mask, bxor, Quantum.unit, hq]
  · simp [mask, bxor, Quantum.unit, h]

theorem mask_finRange (z : Basis (Fin n)) : mask (List.finRange n) z = z := by
  funext p; simp [mask]

theorem sem_optZ (b : Bool) (q : Fin n) (ψ : State (Fin n) ℂ) :
    sem (if b then [Gate.z q] else []) ψ = pauli (Quantum.unit q b) (fun _ => false) ψ := by
  cases b
  · simp [unit_false, pauli_zero]
  · simp [applyGate, app1_mZ]

theorem sem_optX (b : Bool) (q : Fin n) (ψ : State (Fin n) ℂ) :
    sem (if b then [Gate.x q] else []) ψ = pauli (fun _ => false) (Quantum.unit q b) ψ := by
  cases b
  · simp [unit_false, pauli_zero]
  · simp [applyGate, app1_mX]

theorem zero_bxor (a : Basis (Fin n)) : bxor (fun _ => false) a = a := by
  rw [bxor_comm, bxor_zero]

theorem sem_flatMap_pauli (f : Fin n → List (Gate n)) (z x : Basis (Fin n))
    (hf : ∀ q ψ, EqSign (sem (f q) ψ) (pauli (Quantum.unit q (z q)) (Quantum.unit q (x q)) ψ))
    (l : List (Fin n)) (hl : l.Nodup) (ψ : State (Fin n) ℂ) :
    EqSign (sem (l.flatMap f) ψ) (pauli (mask l z) (mask l x) ψ) := by
  induction l generalizing ψ with
  | nil =>
    have : ∀ z : Basis (Fin n), mask [] z = fun _ => false := by intro z; funext p; simp [mask]
    rw [this, this, pauli_zero]; exact .refl _
  | cons q l ih =>
    rw [List.nodup_cons] at hl
    rw [List.flatMap_cons, sem_append, mask_cons q l hl.1, mask_cons q l hl.1]
    refine (ih hl.2 _).trans (EqSign.trans ?_ (pauli_pauli _ _ _ _ _))
    exact (hf q ψ).map _ (pauli_smul _ _)

theorem sem_padZX (z x : Basis (Fin n)) (ψ : State (Fin n) ℂ) : EqSign (sem (padZX z x) ψ) (pauli z x ψ) := by
  have := sem_flatMap_pauli (fun q => (if z q then [Gate.z q] else []) ++ (if x q then [Gate.x q] else [])) z x
    (fun q ψ => by
      rw [sem_append, sem_optZ, sem_optX]
      refine (pauli_pauli _ _ _ _ _).trans (.of_eq ?_)
      rw [zero_bxor, bxor_zero]) (List.finRange n) (List.nodup_finRange n) ψ
  rwa [mask_finRange, mask_finRange] at this

theorem sem_padXZ (z x : Basis (Fin n)) (ψ : State (Fin n) ℂ) : EqSign (sem (padXZ z x) ψ) (pauli z x ψ) := by
  have := sem_flatMap_pauli (fun q => (if x q then [Gate.x q] else []) ++ (if z q then [Gate.z q] else [])) z x
    (fun q ψ => by
      rw [sem_append, sem_optX, sem_optZ]
      refine (pauli_pauli _ _ _ _ _).trans (.of_eq ?_)
      rw [zero_bxor, bxor_zero]) (List.finRange n) (List.nodup_finRange n) ψ
  rwa [mask_finRange, mask_finRange] at this

theorem sem_initZ (z : Basis (Fin n)) :
    EqSign (sem ((List.finRange n).flatMap fun q => if z q then [Gate.z q] else []) ket0) ket0 := by
  have := sem_flatMap_pauli (fun q => if z q then [Gate.z q] else []) z (fun _ => false)
    (fun q ψ => by rw [sem_optZ, unit_false]; exact .refl _) (List.finRange n) (List.nodup_finRange n) ket0
  rw [mask_finRange, mask_finRange] at this
  refine this.trans (.of_eq ?_)
  funext x
  simp only [pauli, bxor_zero, ket0]
  split
  · next h => rw [h, sgn_zero_right, mul_one]
  · simp

/-! ### Paulis through a two-qubit layer -/

theorem updatePauli_spec (g : TwoQ) (hg : g ≠ .other) (z x : Basis (Fin n)) (p : Fin n × Fin n)
    (hp : p.1 ≠ p.2) : ∃ z' x', updatePauli g (z, x) p = some (z', x') ∧
      ∀ ψ, EqSign (sem (twoGates g [p]) (pauli z x ψ)) (pauli z' x' (sem (twoGates g [p]) ψ)) := by
  cases g with
  | other => exact absurd rfl hg
  | cx =>
    refine ⟨_, _, rfl, fun ψ => .of_eq ?_⟩
    simp only [twoGates, List.map_cons, List.map_nil, if_true, sem_cons, sem_nil, applyGate]
    rw [appCX_pauli _ _ hp, bxor_unit, bxor_unit]
  | cz =>
    refine ⟨_, _, rfl, fun ψ => ?_⟩
    simp only [twoGates, List.map_cons, List.map_nil, reduceCtorEq, if_false, sem_cons, sem_nil, applyGate]
    refine (appCZ_pauli _ _ _ _ _).trans (.of_eq ?_)
    rw [bxor_unit, bxor_unit]

theorem twoGates_cons (g : TwoQ) (p : Fin n × Fin n) (l : List (Fin n × Fin n)) :
    twoGates g (p :: l) = twoGates g [p] ++ twoGates g l := rfl

theorem twoGates_append (g : TwoQ) (l l' : List (Fin n × Fin n)) :
    twoGates g (l ++ l') = twoGates g l ++ twoGates g l' := by simp [twoGates]

theorem foldlM_updatePauli (g : TwoQ) (hg : g ≠ .other) (l : List (Fin n × Fin n))
    (hl : ∀ p ∈ l, p.1 ≠ p.2) (z x : Basis (Fin n)) :
    ∃ z' x', l.foldlM (updatePauli g) (z, x) = some (z', x') ∧
      ∀ ψ, EqSign (sem (twoGates g l) (pauli z x ψ)) (pauli z' x' (sem (twoGates g l) ψ)) := by
  induction l generalizing z x with
  | nil => exact ⟨z, x, rfl, fun ψ => .refl _⟩
  | cons p l ih =>
    obtain ⟨z1, x1, e1, h1⟩ := updatePauli_spec g hg z x p (hl p List.mem_cons_self)
    obtain ⟨z2, x2, e2, h2⟩ := ih (fun p hp => hl p (List.mem_cons_of_mem _ hp)) z1 x1
    refine ⟨z2, x2, by rw [List.foldlM_cons, e1]; exact e2, fun ψ => ?_⟩
    rw [twoGates_cons, sem_append, sem_append]
    exact (EqSign.sem _ (h1 ψ)).trans (h2 _)

/-! ### The padded circuit -/

/-- Alternate single-qubit layers and two-qubit layers. -/
def interleave (g : TwoQ) : List (List (Gate n)) → List (List (Fin n × Fin n)) → List (Gate n)
  | s :: S, t :: T => s ++ twoGates g t ++ interleave g S T
  | s :: _, [] => s
  | [], _ => []

theorem qotp_fold (L : Layers n m) (hg : L.gate ≠ .other) (rng : Nat → Basis (Fin n))
    (T : List (List (Fin n × Fin n))) (hT : ∀ t ∈ T, ∀ p ∈ t, p.1 ≠ p.2) (S pre : List (List (Gate n)))
    (hS : L.single = pre ++ S) (hlen : S.length = T.length + 1) (circ temp : List (Gate n))
    (χ : State (Fin n) ℂ) (hχ : EqSign (sem (circ ++ temp) ket0) χ) :
    ∃ circ' temp' last, (T.zipIdx pre.length).foldlM (qotpStep L rng) (circ, temp) = some (circ', temp') ∧
      L.single.getLast? = some last ∧
      EqSign (sem (circ' ++ (temp' ++ last)) ket0) (sem (interleave L.gate S T) χ) := by
  induction T generalizing S pre circ temp χ with
  | nil =>
    obtain ⟨s, rfl⟩ : ∃ s, S = [s] := List.length_eq_one_iff.1 hlen
    refine ⟨circ, temp, s, rfl, by rw [hS]; simp, ?_⟩
    rw [← List.append_assoc, sem_append]
    exact EqSign.sem _ hχ
  | cons t T ih =>
    obtain ⟨s, S', rfl⟩ : ∃ s S', S = s :: S' := by
      cases S with
      | nil => simp at hlen
      | cons s S' => exact ⟨s, S', rfl⟩
    set zs := rng (2 * pre.length + 1) with hzs
    set xs := rng (2 * pre.length + 2) with hxs
    obtain ⟨z', x', e, h⟩ := foldlM_updatePauli L.gate hg t (hT t List.mem_cons_self) zs xs
    have hstep : qotpStep L rng (circ, temp) (t, pre.length) = some
        (circ ++ (temp ++ s ++ padZX zs xs) ++ [Gate.barrier] ++ twoGates L.gate t ++ [Gate.barrier],
          padXZ z' x') := by
      unfold qotpStep
      have : L.single[pre.length]? = some s := by rw [hS]; simp
      simp only [this, ← hzs, ← hxs]
      show ((List.foldlM (updatePauli L.gate) (zs, xs) t).bind fun zx => some (_, padXZ zx.1 zx.2)) = _
      rw [e]; rfl
    have key : EqSign (sem ((circ ++ (temp ++ s ++ padZX zs xs) ++ [Gate.barrier] ++ twoGates L.gate t
        ++ [Gate.barrier]) ++ padXZ z' x') ket0) (sem (s ++ twoGates L.gate t) χ) := by
      have hb : ∀ ψ : State (Fin n) ℂ, sem [Gate.barrier] ψ = ψ := fun _ => rfl
      simp only [sem_append, hb] at hχ ⊢
      have h1 := (sem_padZX zs xs (sem s (sem temp (sem circ ket0)))).trans
        ((EqSign.sem s hχ).map _ (pauli_smul zs xs))
      have h2 := (EqSign.sem (twoGates L.gate t) h1).trans (h (sem s χ))
      have h3 := (EqSign.sem (padXZ z' x') h2).trans (sem_padXZ z' x' _)
      refine (h3.trans (pauli_pauli _ _ _ _ _)).trans (.of_eq ?_)
      rw [bxor_self, bxor_self, pauli_zero]
    obtain ⟨c', t', last, hf, hlast, hfin⟩ := ih (fun t ht => hT t (List.mem_cons_of_mem _ ht)) S' (pre ++ [s])
      (by rw [hS]; simp) (by simpa using hlen) _ _ _ key
    refine ⟨c', t', last, ?_, hlast, ?_⟩
    · rw [List.zipIdx_cons, List.foldlM_cons, hstep]
      simpa using hf
    · rw [interleave, sem_append (s ++ _)]; exact hfin

/-- The padded circuit prepares the state of the layers, up to the final Pauli and a sign. -/
theorem qotpFromLayers_spec (L : Layers n m) (hg : L.gate ≠ .other) (hT : ∀ t ∈ L.two, ∀ p ∈ t, p.1 ≠ p.2)
    (hlen : L.single.length = L.two.length + 1) (rng : Nat → Basis (Fin n)) :
    ∃ circ xs zs, qotpFromLayers L rng = some (circ, L.meas, ((List.finRange n).map xs).reverse) ∧
      EqSign (sem circ ket0) (pauli zs xs (sem (interleave L.gate L.single L.two) ket0)) := by
  obtain ⟨c', t', last, hf, hlast, hfin⟩ := qotp_fold L hg rng L.two hT L.single [] rfl hlen []
    ((List.finRange n).flatMap fun q => if rng 0 q then [Gate.z q] else []) ket0 (sem_initZ _)
  simp only [List.length_nil] at hf
  refine ⟨c' ++ (t' ++ last ++ padZX (rng (2 * L.two.length + 1)) (rng (2 * L.two.length + 2))),
    rng (2 * L.two.length + 2), rng (2 * L.two.length + 1), ?_, ?_⟩
  · simp only [qotpFromLayers, hf, hlast, List.append_assoc]; rfl
  · rw [← List.append_assoc, sem_append (c' ++ _)]
    exact (sem_padZX _ _ _).trans (hfin.map _ (pauli_smul _ _))

end Verif.Accred
