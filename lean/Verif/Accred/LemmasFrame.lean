import Verif.Accred.LemmasRun
import Verif.Accred.LemmasTrap
set_option linter.unusedSectionVars false
set_option linter.unusedSimpArgs false
/-
Pauli errors carried to the end of a trap circuit.
-/
namespace Verif.Accred
open Verif Verif.Quantum Finset

variable {n : ℕ}

/-! ### Pauli operators through Clifford gates -/

/-- Equality up to a phase. -/
def PhaseEq (ψ φ : State (Fin n) ℂ) : Prop := ∃ c : ℂ, Complex.normSq c = 1 ∧ ψ = c • φ

theorem PhaseEq.refl (ψ : State (Fin n) ℂ) : PhaseEq ψ ψ := ⟨1, by simp, by simp⟩

theorem PhaseEq.trans {ψ φ χ : State (Fin n) ℂ} (h : PhaseEq ψ φ) (h' : PhaseEq φ χ) : PhaseEq ψ χ := by
  obtain ⟨c, hc, rfl⟩ := h
  obtain ⟨d, hd, rfl⟩ := h'
  exact ⟨c * d, by simp [hc, hd], by rw [smul_smul]⟩

theorem PhaseEq.map {ψ φ : State (Fin n) ℂ} (f : State (Fin n) ℂ →ₗ[ℂ] State (Fin n) ℂ) (h : PhaseEq ψ φ) : PhaseEq (f ψ) (f φ) := by
  obtain ⟨c, hc, rfl⟩ := h
  exact ⟨c, hc, by rw [map_smul]⟩

theorem PhaseEq.of_sign {ψ φ : State (Fin n) ℂ} (h : EqSign ψ φ) : PhaseEq ψ φ := by
  rcases h with rfl | rfl
  · exact .refl _
  · exact ⟨-1, by simp, by funext x; simp⟩

theorem PhaseEq.prob {ψ φ : State (Fin n) ℂ} (h : PhaseEq ψ φ) (x : Basis (Fin n)) : prob ψ x = prob φ x := by
  obtain ⟨c, hc, rfl⟩ := h
  simp [Quantum.prob, hc]

theorem sgn_update (z : Basis (Fin n)) (q : Fin n) (b : Bool) (y : Basis (Fin n)) :
    (sgn (Function.update z q b) y : ℂ) = sgn z y * if Bool.xor (z q) b && y q then -1 else 1 := by
  have : Function.update z q b = bxor z (unit q (Bool.xor (z q) b)) := by
    rw [bxor_unit]; congr 1; cases z q <;> cases b <;> rfl
  rw [this, sgn_bxor_left, sgn_unit]

theorem sgn_update_right (z : Basis (Fin n)) (q : Fin n) (b : Bool) (y : Basis (Fin n)) :
    (sgn z (Function.update y q b) : ℂ) = sgn z y * if z q && Bool.xor (y q) b then -1 else 1 := by
  rw [sgn_comm', sgn_update, sgn_comm', Bool.and_comm]

/-- The effect of a gate on a Pauli operator moved past it: Z part and X part. -/
def cjG : Gate n → PP n → PP n
  | .h q, v => (Function.update v.1 q (v.2 q), Function.update v.2 q (v.1 q))
  | .s q, v => (Function.update v.1 q (Bool.xor (v.1 q) (v.2 q)), v.2)
  | .sdg q, v => (Function.update v.1 q (Bool.xor (v.1 q) (v.2 q)), v.2)
  | .cx c t, v => (Function.update v.1 c (Bool.xor (v.1 c) (v.1 t)), Function.update v.2 t (Bool.xor (v.2 t) (v.2 c)))
  | .cz a b, v => (Function.update (Function.update v.1 a (Bool.xor (v.1 a) (v.2 b))) b (Bool.xor (v.1 b) (v.2 a)), v.2)
  | _, v => v

/-- The gates of traps. -/
def Gate.cliff : Gate n → Prop
  | .h _ => True
  | .s _ => True
  | .sdg _ => True
  | .cx c t => c ≠ t
  | .cz a b => a ≠ b
  | _ => False

theorem app1_mS_eq (q : Fin n) (ψ : State (Fin n) ℂ) (y : Basis (Fin n)) : app1 mS q ψ y = (if y q then Complex.I else 1) * ψ y := by
  simp only [app1, mS]
  cases h : y q <;> simp [← h]

theorem app1_mSdg_eq (q : Fin n) (ψ : State (Fin n) ℂ) (y : Basis (Fin n)) : app1 mSdg q ψ y = (if y q then -Complex.I else 1) * ψ y := by
  simp only [app1, mSdg]
  cases h : y q <;> simp [← h]

theorem bxor_update (y x : Basis (Fin n)) (q : Fin n) (b c : Bool) : bxor (Function.update y q b) (Function.update x q c) = Function.update (bxor y x) q (Bool.xor b c) := by
  funext p
  by_cases h : p = q
  · subst h; simp [bxor]
  · simp [bxor, h]

theorem cjG_spec (g : Gate n) (hg : g.cliff) (v : PP n) (ψ : State (Fin n) ℂ) : PhaseEq (applyGate g (pauliL v ψ)) (pauliL (cjG g v) (applyGate g ψ)) := by
  obtain ⟨z, x⟩ := v
  cases g with
  | u m q => exact hg.elim
  | x q => exact hg.elim
  | z q => exact hg.elim
  | barrier => exact hg.elim
  | h q =>
    refine ⟨if z q && x q then -1 else 1, by split <;> simp, ?_⟩
    funext y
    show app1 mH q (pauli z x ψ) y = (if z q && x q then -1 else 1) * (sgn (Function.update z q (x q)) y * app1 mH q ψ (bxor y (Function.update x q (z q))))
    have e1 : ∀ b, bxor (Function.update y q b) x = Function.update (bxor y x) q (Bool.xor b (x q)) := by
      intro b
      rw [← bxor_update, Function.update_eq_self]
    have e2 : ∀ b, Function.update (bxor y (Function.update x q (z q))) q b = Function.update (bxor y x) q b := by
      intro b
      have : bxor y (Function.update x q (z q)) = Function.update (bxor y x) q (Bool.xor (y q) (z q)) := by
        rw [← bxor_update, Function.update_eq_self]
      rw [this, Function.update_idem]
    have e3 : bxor y (Function.update x q (z q)) q = Bool.xor (y q) (z q) := by simp [bxor]
    simp only [app1, pauli, e1, e2, e3, sgn_update, sgn_update_right, mH]
    cases y q <;> cases z q <;> cases x q <;> simp <;> ring
  | s q =>
    refine ⟨if x q then -Complex.I else 1, by split <;> simp, ?_⟩
    funext y
    show app1 mS q (pauli z x ψ) y = (if x q then -Complex.I else 1) * (sgn (Function.update z q (Bool.xor (z q) (x q))) y * app1 mS q ψ (bxor y x))
    have e3 : bxor y x q = Bool.xor (y q) (x q) := by simp [bxor]
    simp only [app1_mS_eq, pauli, e3, sgn_update]
    have hI : Complex.I * Complex.I = -1 := Complex.I_mul_I
    cases y q <;> cases z q <;> cases x q <;> simp
    all_goals first
      | linear_combination (-(sgn z y * ψ (bxor y x))) * hI
      | linear_combination (sgn z y * ψ (bxor y x)) * hI
      | ring1
  | sdg q =>
    refine ⟨if x q then Complex.I else 1, by split <;> simp, ?_⟩
    funext y
    show app1 mSdg q (pauli z x ψ) y = (if x q then Complex.I else 1) * (sgn (Function.update z q (Bool.xor (z q) (x q))) y * app1 mSdg q ψ (bxor y x))
    have e3 : bxor y x q = Bool.xor (y q) (x q) := by simp [bxor]
    simp only [app1_mSdg_eq, pauli, e3, sgn_update]
    have hI : Complex.I * Complex.I = -1 := Complex.I_mul_I
    cases y q <;> cases z q <;> cases x q <;> simp
    all_goals first
      | linear_combination (-(sgn z y * ψ (bxor y x))) * hI
      | linear_combination (sgn z y * ψ (bxor y x)) * hI
      | ring1
  | cx c t =>
    obtain ⟨z', x', e, h⟩ := updatePauli_spec .cx (by decide) z x (c, t) hg
    have := Option.some.inj e
    have h1 := h ψ
    obtain ⟨rfl, rfl⟩ := Prod.mk.inj this
    exact .of_sign h1
  | cz a b =>
    have hab : a ≠ b := hg
    obtain ⟨z', x', e, h⟩ := updatePauli_spec .cz (by decide) z x (a, b) hg
    have := Option.some.inj e
    have h1 := h ψ
    obtain ⟨rfl, rfl⟩ := Prod.mk.inj this
    rw [Function.update_of_ne hab.symm] at h1
    exact .of_sign h1

/-- A Pauli operator moved past a list of gates. -/
def cj (l : List (Gate n)) (v : PP n) : PP n := l.foldl (fun v g => cjG g v) v

theorem cj_append (l l' : List (Gate n)) (v : PP n) : cj (l ++ l') v = cj l' (cj l v) := by simp [cj]

theorem cj_cons (g : Gate n) (l : List (Gate n)) (v : PP n) : cj (g :: l) v = cj l (cjG g v) := rfl

theorem cj_spec (l : List (Gate n)) (hl : ∀ g ∈ l, g.cliff) (v : PP n) (ψ : State (Fin n) ℂ) : PhaseEq (sem l (pauliL v ψ)) (pauliL (cj l v) (sem l ψ)) := by
  induction l generalizing v ψ with
  | nil => exact .refl _
  | cons g l ih =>
    rw [sem_cons, sem_cons, cj_cons]
    exact ((cjG_spec g (hl g List.mem_cons_self) v ψ).map (semL l)).trans (ih (fun g hg => hl g (List.mem_cons_of_mem _ hg)) _ _)

/-- Product of Pauli operators, up to phase. -/
def pxor (v w : PP n) : PP n := (bxor v.1 w.1, bxor v.2 w.2)

theorem pauliL_pauliL (v w : PP n) (ψ : State (Fin n) ℂ) : PhaseEq (pauliL v (pauliL w ψ)) (pauliL (pxor v w) ψ) :=
  .of_sign (pauli_pauli _ _ _ _ _)

theorem pxor_comm (v w : PP n) : pxor v w = pxor w v := by simp only [pxor, bxor_comm]

/-- The trivial Pauli operator. -/
def p0 : PP n := (fun _ => false, fun _ => false)

theorem pxor_p0 (v : PP n) : pxor v p0 = v := by simp [pxor, p0, bxor_zero]

theorem pxor_self (v : PP n) : pxor v v = p0 := by simp [pxor, p0, bxor_self]

theorem pxor_eq_p0 (v w : PP n) : pxor v w = p0 ↔ v = w := by
  constructor
  · intro h
    have h1 := (Prod.mk.inj h).1
    have h2 := (Prod.mk.inj h).2
    exact Prod.ext (bxor_eq_zero.1 h1) (bxor_eq_zero.1 h2)
  · rintro rfl; exact pxor_self _

theorem cjG_pxor (g : Gate n) (v w : PP n) : cjG g (pxor v w) = pxor (cjG g v) (cjG g w) := by
  have hb : ∀ (a b : Basis (Fin n)) (q : Fin n), bxor a b q = Bool.xor (a q) (b q) := fun _ _ _ => rfl
  cases g <;> simp only [cjG, pxor, bxor_update, hb, Bool.xor_assoc, Bool.xor_left_comm]

theorem cj_pxor (l : List (Gate n)) (v w : PP n) : cj l (pxor v w) = pxor (cj l v) (cj l w) := by
  induction l generalizing v w with
  | nil => rfl
  | cons g l ih => rw [cj_cons, cj_cons, cj_cons, cjG_pxor, ih]

theorem cj_p0 (l : List (Gate n)) : cj l (p0 : PP n) = p0 := by
  have := cj_pxor l p0 p0
  rwa [pxor_self, pxor_self] at this

/-- The errors of a path carried to the end. -/
def cjPath (g : TwoQ) : List (List (Gate n)) → List (List (Fin n × Fin n)) → List (PP n) → PP n → PP n
  | s :: S, t :: T, p :: ps, v => cjPath g S T ps (cj (twoGates g t) (pxor p (cj s v)))
  | s :: _, [], p :: _, v => pxor p (cj s v)
  | _, _, _, v => v

theorem two_cliff (g : TwoQ) (t : List (Fin n × Fin n)) (ht : ∀ p ∈ t, p.1 ≠ p.2) : ∀ a ∈ twoGates g t, a.cliff := by
  intro a ha
  simp only [twoGates, List.mem_map] at ha
  obtain ⟨p, hp, rfl⟩ := ha
  split
  · exact ht p hp
  · exact ht p hp

theorem cjPath_spec (g : TwoQ) (T : List (List (Fin n × Fin n))) (hT : ∀ t ∈ T, ∀ p ∈ t, p.1 ≠ p.2) (S : List (List (Gate n)))
    (hS : ∀ s ∈ S, ∀ a ∈ s, a.cliff) (hlen : S.length = T.length + 1) (ps : List (PP n)) (hps : ps.length = T.length + 1) (v : PP n)
    (ψ : State (Fin n) ℂ) : PhaseEq (sysPath g S T ps (pauliL v ψ)) (pauliL (cjPath g S T ps v) (sem (interleave g S T) ψ)) := by
  induction T generalizing S ps v ψ with
  | nil =>
    obtain ⟨s, rfl⟩ : ∃ s, S = [s] := List.length_eq_one_iff.1 hlen
    obtain ⟨p, rfl⟩ : ∃ p, ps = [p] := List.length_eq_one_iff.1 hps
    exact ((cj_spec s (hS s List.mem_cons_self) v ψ).map (pauliL p)).trans (pauliL_pauliL _ _ _)
  | cons t T ih =>
    obtain ⟨s, S, rfl⟩ : ∃ s S', S = s :: S' := by
      cases S with
      | nil => simp at hlen
      | cons s S' => exact ⟨s, S', rfl⟩
    obtain ⟨p, ps, rfl⟩ : ∃ s S', ps = s :: S' := by
      cases ps with
      | nil => simp at hps
      | cons s S' => exact ⟨s, S', rfl⟩
    have h1 := ((cj_spec s (hS s List.mem_cons_self) v ψ).map (pauliL p)).trans (pauliL_pauliL _ _ _)
    have h2 := (h1.map (semL (twoGates g t))).trans (cj_spec _ (two_cliff g t (hT t List.mem_cons_self)) _ _)
    rw [interleave, sem_append, sem_append]
    exact (h2.map (sysPath g S T ps)).trans (ih (fun t ht => hT t (List.mem_cons_of_mem _ ht)) S (fun s hs => hS s (List.mem_cons_of_mem _ hs))
      (by simpa using hlen) ps (by simpa using hps) _ _)

end Verif.Accred
