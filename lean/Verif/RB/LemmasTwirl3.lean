import Verif.RB.LemmasTwirl2
import Mathlib.LinearAlgebra.Trace
import Mathlib.LinearAlgebra.Matrix.StdBasis
set_option linter.unusedSimpArgs false
set_option linter.unusedVariables false
set_option linter.unusedSectionVars false
/-
Operations that commute with the Clifford or the CNOT-dihedral group, and their traces.
-/
namespace Verif.RB
open Verif.Quantum Matrix

variable {n : ℕ}

/-! ### Orbits of the Pauli operators -/

/-- CX gates do not change `t`. -/
def InvCX (t : Basis (Fin n) → Basis (Fin n) → ℂ) : Prop := ∀ i j, i ≠ j → ∀ a b,
  t a b = t (Function.update a i (Bool.xor (a i) (a j))) (Function.update b j (Bool.xor (b j) (b i)))
/-- CZ gates do not change `t`. -/
def InvCZ (t : Basis (Fin n) → Basis (Fin n) → ℂ) : Prop := ∀ i j, i ≠ j → ∀ a b,
  t a b = t (Function.update (Function.update a i (Bool.xor (a i) (b j))) j (Bool.xor (a j) (b i))) b
/-- S gates do not change `t`. -/
def InvS (t : Basis (Fin n) → Basis (Fin n) → ℂ) : Prop := ∀ q a b, t a b = t (Function.update a q (Bool.xor (a q) (b q))) b
/-- H gates do not change `t`. -/
def InvH (t : Basis (Fin n) → Basis (Fin n) → ℂ) : Prop := ∀ q a b, t a b = t (Function.update a q (b q)) (Function.update b q (a q))

theorem cz_of_h {t : Basis (Fin n) → Basis (Fin n) → ℂ} (h : InvH t) (hx : InvCX t) : InvCZ t := by
  intro i j hij a b
  rw [h j a b, hx i j hij, h j]
  congr 1
  · funext q
    by_cases h1 : q = j
    · subst h1; simp [hij]
    · by_cases h2 : q = i
      · subst h2; simp [hij]
      · simp [h1, h2]
  · funext q
    by_cases h1 : q = j
    · subst h1; simp [hij.symm]
    · simp [h1]

theorem eq_unit {a : Basis (Fin n)} {q : Fin n} (h : a q = true) (h' : ∀ p, p ≠ q → a p = false) : a = unit q true := by
  funext p
  by_cases hp : p = q
  · subst hp; simp [unit, h]
  · simp [unit, hp, h' p hp]

/-- Flipping bits other than `q` to 0 one after the other. -/
theorem reduce {p : Basis (Fin n) → Prop} (q : Fin n) (hu : p (unit q true))
    (hs : ∀ a r, r ≠ q → a q = true → a r = true → p (Function.update a r false) → p a) (a : Basis (Fin n)) (ha : a q = true) : p a := by
  suffices ∀ (s : Finset (Fin n)) (a : Basis (Fin n)), a q = true → (∀ r, r ≠ q → a r = true → r ∈ s) → p a from this Finset.univ a ha (by simp)
  intro s
  induction s using Finset.induction_on with
  | empty =>
    intro a ha h
    rw [eq_unit ha fun r hr => by
      cases h1 : a r
      · rfl
      · exact absurd (h r hr h1) (by simp)]
    exact hu
  | insert r s hr ih =>
    intro a ha h
    by_cases h1 : r ≠ q ∧ a r = true
    · refine hs a r h1.1 ha h1.2 (ih _ (by rw [Function.update_of_ne h1.1.symm]; exact ha) fun r' h2 h3 => ?_)
      have hne : r' ≠ r := by rintro rfl; simp at h3
      rw [Function.update_of_ne hne] at h3
      exact (Finset.mem_insert.1 (h r' h2 h3)).resolve_left hne
    · refine ih a ha fun r' h2 h3 => (Finset.mem_insert.1 (h r' h2 h3)).resolve_left ?_
      rintro rfl
      exact h1 ⟨h2, h3⟩

theorem ne_zero_iff {a : Basis (Fin n)} (h : a ≠ fun _ => false) : ∃ q, a q = true := by
  by_contra hc
  push Not at hc
  exact h (funext fun q => by simpa using hc q)

theorem orbit_z' {t : Basis (Fin n) → Basis (Fin n) → ℂ} (hx : InvCX t) (q : Fin n) (a : Basis (Fin n)) (ha : a q = true) :
    t a (fun _ => false) = t (unit q true) fun _ => false := by
  refine reduce (p := fun a => t a (fun _ => false) = t (unit q true) fun _ => false) q rfl ?_ a ha
  intro a r hr h1 h2 ih
  rw [← ih, hx r q hr a fun _ => false, h1, h2]
  congr 1
  funext p
  by_cases hp : p = q <;> simp [hp]

/-- All Z-type Pauli operators but the identity are in one orbit of the CX gates. -/
theorem orbit_z {t : Basis (Fin n) → Basis (Fin n) → ℂ} (hx : InvCX t) (q : Fin n) (a : Basis (Fin n)) (ha : a ≠ fun _ => false) :
    t a (fun _ => false) = t (unit q true) fun _ => false := by
  obtain ⟨r, hr⟩ := ne_zero_iff ha
  rw [orbit_z' hx r a hr]
  by_cases h : r = q
  · rw [h]
  · have h1 : Function.update (unit r true) q true r = true := by rw [Function.update_of_ne h]; simp [unit]
    have h2 : Function.update (unit r true) q true q = true := by simp
    rw [← orbit_z' hx r _ h1, orbit_z' hx q _ h2]

theorem orbit_x' {t : Basis (Fin n) → Basis (Fin n) → ℂ} (hx : InvCX t) (hz : InvCZ t) (hS : InvS t) (q : Fin n) (a b : Basis (Fin n)) (hb : b q = true) :
    t a b = t (fun _ => false) (unit q true) := by
  refine reduce (p := fun b => ∀ a, t a b = t (fun _ => false) (unit q true)) q ?_ ?_ b hb a
  · have hq : ∀ a : Basis (Fin n), a q = true → t a (unit q true) = t (fun _ => false) (unit q true) := by
      intro a ha
      refine reduce (p := fun a => t a (unit q true) = t (fun _ => false) (unit q true)) q ?_ ?_ a ha
      · rw [hS q (unit q true) (unit q true)]
        congr 1
        funext p
        by_cases hp : p = q
        · subst hp; simp [unit]
        · simp [unit, hp]
      · intro a r hr h1 h2 ih
        rw [← ih, hz q r hr.symm a]
        congr 1
        funext p
        by_cases hp : p = r
        · subst hp; simp [unit, h2, hr]
        · by_cases hp' : p = q
          · subst hp'; simp [unit, hr, hp, h1]
          · simp [hp, hp']
    intro a
    cases ha : a q
    · rw [hS q]
      refine hq _ ?_
      simp [unit, ha]
    · exact hq a ha
  · intro b r hr h1 h2 ih a
    rw [hx q r hr.symm, h1, h2]
    exact ih _

/-- All the other Pauli operators are in one orbit of the CX, CZ and S gates. -/
theorem orbit_x {t : Basis (Fin n) → Basis (Fin n) → ℂ} (hx : InvCX t) (hz : InvCZ t) (hS : InvS t) (q : Fin n) (a b : Basis (Fin n))
    (hb : b ≠ fun _ => false) : t a b = t (fun _ => false) (unit q true) := by
  obtain ⟨r, hr⟩ := ne_zero_iff hb
  rw [orbit_x' hx hz hS r a b hr]
  by_cases h : r = q
  · rw [h]
  · have h1 : Function.update (unit r true) q true r = true := by rw [Function.update_of_ne h]; simp [unit]
    have h2 : Function.update (unit r true) q true q = true := by simp
    rw [← orbit_x' hx hz hS r (fun _ => false) _ h1, orbit_x' hx hz hS q _ _ h2]

/-! ### Gates -/

theorem P_ne_zero (a b : Basis (Fin n)) : P a b ≠ 0 := by
  intro h
  have := congrFun (congrFun h fun _ => false) b
  simp [P, bxor_comm _ b, bxor_zero, sgn_zero_right] at this

/-- `T` commutes with conjugation by the circuit `c`. -/
def Comm (T : Sup n) (c : List Ins) : Prop := T * Ad (opMat n c) = Ad (opMat n c) * T

theorem Comm.append {T : Sup n} {c d : List Ins} (hc : ∀ i ∈ c, Ok n i) (hd : ∀ i ∈ d, Ok n i) (h : Comm T c) (h' : Comm T d) : Comm T (c ++ d) := by
  unfold Comm at *
  rw [opMat_append hc hd, Ad_mul, ← mul_assoc, h', mul_assoc, h, mul_assoc]

theorem Comm.same {T : Sup n} {c d : List Ins} (h : Comm T c) (hs : Same n c d) : Comm T d := by
  obtain ⟨z, hz, e⟩ := opMat_same hs
  unfold Comm at *
  rwa [e, Ad_phase z hz] at h

theorem move {T : Sup n} {c : List Ins} (hc : ∀ i ∈ c, Ok n i) (h : Comm T c) {a b a' b' : Basis (Fin n)} {t t' : ℂ} (e : T (P a b) = t • P a b)
    (e' : T (P a' b') = t' • P a' b') (hm : ∃ z : ℂ, z ≠ 0 ∧ ∀ ψ, run n c (pauli a b ψ) = z • pauli a' b' (run n c ψ)) : t = t' := by
  obtain ⟨z, hz, hm⟩ := hm
  have h1 : opMat n c * P a b = z • (P a' b' * opMat n c) := by
    refine op_ext fun ψ => ?_
    rw [Matrix.smul_mulVec, ← Matrix.mulVec_mulVec, ← Matrix.mulVec_mulVec, P_mulVec, P_mulVec, opMat_mulVec hc, opMat_mulVec hc, hm]
  have h2 : Ad (opMat n c) (P a b) = z • P a' b' := by
    rw [Ad_apply, h1, Matrix.smul_mul, Matrix.mul_assoc, opMat_unitary' hc, Matrix.mul_one]
  have h3 := congrArg (fun f : Sup n => f (P a b)) h
  simp only [Module.End.mul_apply, h2, e, map_smul, e', smul_smul] at h3
  have h4 : (z * t' - t * z) • P a' b' = 0 := by rw [sub_smul, h3, sub_self]
  rcases smul_eq_zero.1 h4 with h5 | h5
  · have : z * (t' - t) = 0 := by linear_combination h5
    rcases mul_eq_zero.1 this with h | h
    · exact absurd h hz
    · exact (sub_eq_zero.1 h).symm
  · exact absurd h5 (P_ne_zero _ _)

theorem phase_ne {c : ℂ} (h : Complex.normSq c = 1) : c ≠ 0 := by rintro rfl; simp at h

theorem pauliL_eq (v : Accred.PP n) (ψ : State (Fin n) ℂ) : Accred.pauliL v ψ = pauli v.1 v.2 ψ := rfl

theorem move_h (q : Fin n) (a b : Basis (Fin n)) : ∃ z : ℂ, z ≠ 0 ∧ ∀ ψ, run n [.gate .h [q.val]] (pauli a b ψ) =
    z • pauli (Function.update a q (b q)) (Function.update b q (a q)) (run n [.gate .h [q.val]] ψ) := by
  refine ⟨if a q && b q then -1 else 1, by split <;> simp, fun ψ => ?_⟩
  have hr : ∀ ψ, run n [.gate .h [q.val]] ψ = app1 mH q ψ := fun ψ => by simp [run, act, Kind.mat]
  rw [hr, hr]
  funext y
  show app1 mH q (pauli a b ψ) y = (if a q && b q then -1 else 1) * (sgn (Function.update a q (b q)) y * app1 mH q ψ (bxor y (Function.update b q (a q))))
  have e1 : ∀ c, bxor (Function.update y q c) b = Function.update (bxor y b) q (Bool.xor c (b q)) := by
    intro c
    rw [← Accred.bxor_update, Function.update_eq_self]
  have e4 : bxor y (Function.update b q (a q)) = Function.update (bxor y b) q (Bool.xor (y q) (a q)) := by
    rw [← Accred.bxor_update, Function.update_eq_self]
  have e2 : ∀ c, Function.update (bxor y (Function.update b q (a q))) q c = Function.update (bxor y b) q c := by
    intro c
    rw [e4, Function.update_idem]
  have e3 : bxor y (Function.update b q (a q)) q = Bool.xor (y q) (a q) := by simp [bxor]
  simp only [app1, pauli, e1, e2, e3, Accred.sgn_update, Accred.sgn_update_right, mH]
  cases y q <;> cases a q <;> cases b q <;> simp <;> ring

theorem move_s (q : Fin n) (a b : Basis (Fin n)) : ∃ z : ℂ, z ≠ 0 ∧ ∀ ψ, run n [.gate .s [q.val]] (pauli a b ψ) =
    z • pauli (Function.update a q (Bool.xor (a q) (b q))) b (run n [.gate .s [q.val]] ψ) := by
  refine ⟨if b q then -Complex.I else 1, by split <;> simp, fun ψ => ?_⟩
  have hr : ∀ ψ, run n [.gate .s [q.val]] ψ = app1 mS q ψ := fun ψ => by simp [run, act, Kind.mat]
  rw [hr, hr]
  funext y
  show app1 mS q (pauli a b ψ) y = (if b q then -Complex.I else 1) * (sgn (Function.update a q (Bool.xor (a q) (b q))) y * app1 mS q ψ (bxor y b))
  have e3 : bxor y b q = Bool.xor (y q) (b q) := by simp [bxor]
  simp only [Accred.app1_mS_eq, pauli, e3, Accred.sgn_update]
  have hI : Complex.I * Complex.I = -1 := Complex.I_mul_I
  cases y q <;> cases a q <;> cases b q <;> simp
  all_goals first
    | linear_combination (-(sgn a y * ψ (bxor y b))) * hI
    | linear_combination (sgn a y * ψ (bxor y b)) * hI
    | ring1

theorem bxor_unit' (a : Basis (Fin n)) (q : Fin n) (v : Bool) : bxor a (unit q v) = Function.update a q (Bool.xor (a q) v) := bxor_unit a q v

theorem move_cx {i j : Fin n} (hij : i ≠ j) (a b : Basis (Fin n)) : ∃ z : ℂ, z ≠ 0 ∧ ∀ ψ, run n [.gate .cx [i.val, j.val]] (pauli a b ψ) =
    z • pauli (Function.update a i (Bool.xor (a i) (a j))) (Function.update b j (Bool.xor (b j) (b i))) (run n [.gate .cx [i.val, j.val]] ψ) := by
  refine ⟨1, one_ne_zero, fun ψ => ?_⟩
  have hr : ∀ ψ, run n [.gate .cx [i.val, j.val]] ψ = appCX i j ψ := fun ψ => by simp [run, act]
  rw [hr, hr, one_smul, appCX_pauli i j hij, bxor_unit, bxor_unit]

theorem move_cz {i j : Fin n} (hij : i ≠ j) (a b : Basis (Fin n)) : ∃ z : ℂ, z ≠ 0 ∧ ∀ ψ, run n [.gate .cz [i.val, j.val]] (pauli a b ψ) =
    z • pauli (Function.update (Function.update a i (Bool.xor (a i) (b j))) j (Bool.xor (a j) (b i))) b (run n [.gate .cz [i.val, j.val]] ψ) := by
  have hr : ∀ ψ, run n [.gate .cz [i.val, j.val]] ψ = appCZ i j ψ := fun ψ => by simp [run, act]
  refine ⟨if b i && b j then -1 else 1, by split <;> simp, fun ψ => ?_⟩
  rw [hr, hr]
  have e : Function.update (Function.update a i (Bool.xor (a i) (b j))) j (Bool.xor (a j) (b i)) = bxor (bxor a (unit i (b j))) (unit j (b i)) := by
    rw [bxor_unit, bxor_unit, Function.update_of_ne hij.symm]
  rw [e]
  funext x
  simp only [appCZ, pauli, sgn_bxor_left, sgn_unit, Pi.smul_apply, smul_eq_mul]
  have hall : ∀ (p q r s : Bool) (A P : ℂ), (if p && q then -(A * P) else A * P) =
      (if r && s then -1 else 1) * (((A * if s && p then -1 else 1) * if r && q then -1 else 1) *
        if (Bool.xor p r && Bool.xor q s) then -P else P) := by
    intro p q r s A P
    cases p <;> cases q <;> cases r <;> cases s <;> simp
  exact hall (x i) (x j) (b i) (b j) (sgn a x) (ψ (bxor x b))

/-! ### The completely depolarising and the dephasing operation -/

/-- `ρ ↦ tr ρ / 2^n`. -/
noncomputable def Dep (n : ℕ) : Sup n where
  toFun ρ := (ρ.trace / 2 ^ n) • 1
  map_add' ρ σ := by rw [Matrix.trace_add, add_div, add_smul]
  map_smul' z ρ := by rw [Matrix.trace_smul, smul_eq_mul, mul_div_assoc, mul_smul]; rfl

/-- The diagonal part. -/
def Dg (n : ℕ) : Sup n where
  toFun ρ := Matrix.diagonal ρ.diag
  map_add' ρ σ := by rw [Matrix.diag_add]; exact (Matrix.diagonal_add _ _).symm
  map_smul' z ρ := by rw [Matrix.diag_smul, Matrix.diagonal_smul]; rfl

theorem bxor_eq_self {y b : Basis (Fin n)} : y = bxor y b ↔ b = fun _ => false := by
  constructor
  · intro h
    funext q
    have := congrFun h q
    simp only [bxor] at this
    revert this
    cases y q <;> cases b q <;> simp
  · rintro rfl; rw [bxor_zero]

theorem P_zero : P (n := n) (fun _ => false) (fun _ => false) = 1 := by
  refine op_ext fun ψ => ?_
  rw [P_mulVec, pauli_zero, Matrix.one_mulVec]

theorem P_trace (a b : Basis (Fin n)) : (P a b).trace = if a = (fun _ => false) ∧ b = (fun _ => false) then 2 ^ n else 0 := by
  unfold Matrix.trace
  simp only [Matrix.diag_apply, P, bxor_eq_self]
  by_cases hb : b = fun _ => false
  · simp only [if_pos hb]
    have := sum_sgn (n := n) a (fun _ => false)
    simp only [sgn_zero_right, mul_one] at this
    simp only [Accred.sgn_comm' a]
    rw [this]
    simp [hb]
  · simp [hb]

theorem Dep_P (a b : Basis (Fin n)) : Dep n (P a b) = if a = (fun _ => false) ∧ b = (fun _ => false) then P a b else 0 := by
  show ((P a b).trace / 2 ^ n) • (1 : Op n) = _
  rw [P_trace]
  split_ifs with h
  · rw [h.1, h.2, P_zero]; simp
  · simp

theorem Dg_P (a b : Basis (Fin n)) : Dg n (P a b) = if b = (fun _ => false) then P a b else 0 := by
  show Matrix.diagonal (P a b).diag = _
  ext y x
  by_cases hb : b = fun _ => false
  · rw [if_pos hb]
    by_cases h : y = x
    · subst h; simp
    · rw [Matrix.diagonal_apply_ne _ h]
      simp [P, hb, bxor_zero, Ne.symm h]
  · rw [if_neg hb]
    by_cases h : y = x
    · subst h; simp [P, bxor_eq_self, hb]
    · rw [Matrix.diagonal_apply_ne _ h]; rfl

/-- An operation that commutes with the gates of the CNOT-dihedral group. -/
theorem form_dih_gen {T : Sup n} (hn : 0 < n) (hX : ∀ q : Fin n, Comm T [.gate .x [q.val]])
    (hZ : ∀ q : Fin n, Comm T [.gate .z [q.val]]) (hS : ∀ q : Fin n, Comm T [.gate .s [q.val]])
    (hCX : ∀ i j : Fin n, i ≠ j → Comm T [.gate .cx [i.val, j.val]]) (hCZ : ∀ i j : Fin n, i ≠ j → Comm T [.gate .cz [i.val, j.val]]) :
    ∃ w z r : ℂ, T = r • 1 + (z - r) • Dg n + (w - z) • Dep n ∧ ∀ a b, T (P a b) = (if b = fun _ => false then (if a = fun _ => false then w else z) else r) • P a b := by
  have o1 : ∀ (k : Kind) (q : Fin n), k.arity = 1 → ∀ i ∈ [Ins.gate k [q.val]], Ok n i := fun k q hk i hi => by
    rw [List.mem_singleton.1 hi]; exact ⟨hk, q.2⟩
  have o2 : ∀ (k : Kind) (i j : Fin n), k.arity = 2 → i ≠ j → ∀ l ∈ [Ins.gate k [i.val, j.val]], Ok n l := fun k i j hk hij l hl => by
    rw [List.mem_singleton.1 hl]; exact ⟨hk, i.2, j.2, fun h => hij (Fin.ext h)⟩
  have eX : ∀ q : Fin n, opMat n [.gate .x [q.val]] = P (fun _ => false) (unit q true) := fun q => op_ext fun ψ => by
    rw [opMat_mulVec (o1 _ q rfl), P_mulVec, ← app1_mX]; simp [run, act, Kind.mat]
  have eZ : ∀ q : Fin n, opMat n [.gate .z [q.val]] = P (unit q true) (fun _ => false) := fun q => op_ext fun ψ => by
    rw [opMat_mulVec (o1 _ q rfl), P_mulVec, ← app1_mZ]; simp [run, act, Kind.mat]
  have hd := diag_of_comm (T := T) (fun q => by rw [← eX]; exact hX q) (fun q => by rw [← eZ]; exact hZ q)
  choose t ht using hd
  have iS : InvS t := fun q a b => move (o1 _ q rfl) (hS q) (ht _ _) (ht _ _) (move_s q a b)
  have iCX : InvCX t := fun i j hij a b => move (o2 _ i j rfl hij) (hCX i j hij) (ht _ _) (ht _ _) (move_cx hij a b)
  have iCZ : InvCZ t := fun i j hij a b => move (o2 _ i j rfl hij) (hCZ i j hij) (ht _ _) (ht _ _) (move_cz hij a b)
  have hP : ∀ a b, T (P a b) = (if b = fun _ => false then (if a = fun _ => false then t (fun _ => false) (fun _ => false) else t (unit ⟨0, hn⟩ true) fun _ => false)
      else t (fun _ => false) (unit ⟨0, hn⟩ true)) • P a b := by
    intro a b
    rw [ht]
    by_cases hb : b = fun _ => false
    · rw [if_pos hb]
      by_cases ha : a = fun _ => false
      · rw [if_pos ha, ha, hb]
      · rw [if_neg ha, hb, orbit_z iCX ⟨0, hn⟩ a ha]
    · rw [if_neg hb, orbit_x iCX iCZ iS ⟨0, hn⟩ a b hb]
  refine ⟨_, _, _, ext_pauli fun a b => ?_, hP⟩
  rw [hP]
  simp only [LinearMap.add_apply, LinearMap.smul_apply, Module.End.one_apply, Dg_P, Dep_P]
  by_cases hb : b = fun _ => false
  · by_cases ha : a = fun _ => false
    · rw [if_pos hb, if_pos ha, if_pos hb, if_pos ⟨ha, hb⟩, ← add_smul, ← add_smul]; congr 1; ring
    · rw [if_pos hb, if_neg ha, if_pos hb, if_neg fun h => ha h.1, ← add_smul, smul_zero, add_zero]; congr 1; ring
  · rw [if_neg hb, if_neg hb, if_neg fun h => hb h.2]; simp

/-- An operation that preserves traces and commutes with the gates of the CNOT-dihedral group. -/
theorem form_dih {T : Sup n} (hn : 0 < n) (htr : ∀ ρ, (T ρ).trace = ρ.trace) (hX : ∀ q : Fin n, Comm T [.gate .x [q.val]])
    (hZ : ∀ q : Fin n, Comm T [.gate .z [q.val]]) (hS : ∀ q : Fin n, Comm T [.gate .s [q.val]])
    (hCX : ∀ i j : Fin n, i ≠ j → Comm T [.gate .cx [i.val, j.val]]) (hCZ : ∀ i j : Fin n, i ≠ j → Comm T [.gate .cz [i.val, j.val]]) :
    ∃ z r : ℂ, T = r • 1 + (z - r) • Dg n + (1 - z) • Dep n ∧ ∀ a b, T (P a b) = (if b = fun _ => false then (if a = fun _ => false then 1 else z) else r) • P a b := by
  obtain ⟨w, z, r, h1, h2⟩ := form_dih_gen hn hX hZ hS hCX hCZ
  have hw : w = 1 := by
    have := htr (P (fun _ => false) fun _ => false)
    rw [h2, if_pos rfl, if_pos rfl, Matrix.trace_smul, P_trace, if_pos ⟨rfl, rfl⟩, smul_eq_mul] at this
    exact mul_right_cancel₀ (pow_ne_zero _ two_ne_zero) (by rw [this, one_mul])
  subst hw
  exact ⟨z, r, h1, h2⟩

/-- An operation that commutes with the gates of the Clifford group. -/
theorem form_clifford_gen {T : Sup n} (hn : 0 < n) (hH : ∀ q : Fin n, Comm T [.gate .h [q.val]])
    (hS : ∀ q : Fin n, Comm T [.gate .s [q.val]]) (hCX : ∀ i j : Fin n, i ≠ j → Comm T [.gate .cx [i.val, j.val]]) :
    ∃ f g : ℂ, T = f • 1 + g • Dep n := by
  have o1 : ∀ (k : Kind) (q : Fin n), k.arity = 1 → ∀ i ∈ [Ins.gate k [q.val]], Ok n i := fun k q hk i hi => by
    rw [List.mem_singleton.1 hi]; exact ⟨hk, q.2⟩
  have o2 : ∀ (k : Kind) (i j : Fin n), k.arity = 2 → i ≠ j → ∀ l ∈ [Ins.gate k [i.val, j.val]], Ok n l := fun k i j hk hij l hl => by
    rw [List.mem_singleton.1 hl]; exact ⟨hk, i.2, j.2, fun h => hij (Fin.ext h)⟩
  have app : ∀ {c d : List Ins}, (∀ i ∈ c, Ok n i) → (∀ i ∈ d, Ok n i) → ∀ i ∈ c ++ d, Ok n i := fun hc hd i hi =>
    (List.mem_append.1 hi).elim (hc i) (hd i)
  have hZ : ∀ q : Fin n, Comm T [.gate .z [q.val]] := fun q => by
    refine ((hS q).append (o1 _ q rfl) (o1 _ q rfl) (hS q)).same ⟨1, by simp, fun ψ => ?_⟩
    funext y
    simp only [List.cons_append, List.nil_append, run, List.foldl, act, q.2, dif_pos, Kind.mat, app1_mul, one_mul]
    congr 2
    funext r c
    cases r <;> cases c <;> simp [mmul, mS, mZ]
  have hX : ∀ q : Fin n, Comm T [.gate .x [q.val]] := fun q => by
    refine (((hH q).append (o1 _ q rfl) (o1 _ q rfl) (hZ q)).append (app (o1 _ q rfl) (o1 _ q rfl)) (o1 _ q rfl) (hH q)).same ⟨1, by simp, fun ψ => ?_⟩
    funext y
    simp only [List.cons_append, List.nil_append, run, List.foldl, act, q.2, dif_pos, Kind.mat, app1_mul, one_mul]
    congr 2
    have hr : rt * rt = (1 / 2 : ℂ) := by
      have := rt_sq
      linear_combination this
    funext r c
    cases r <;> cases c <;> simp [mmul, mH, mX, mZ] <;> linear_combination (2 : ℂ) * hr
  have hCZ : ∀ i j : Fin n, i ≠ j → Comm T [.gate .cz [i.val, j.val]] := fun i j hij => by
    refine (((hH j).append (o1 _ j rfl) (o2 _ i j rfl hij) (hCX i j hij)).append (app (o1 _ j rfl) (o2 _ i j rfl hij)) (o1 _ j rfl) (hH j)).same ⟨1, by simp, fun ψ => ?_⟩
    have hr : rt * rt = (1 / 2 : ℂ) := by
      have := rt_sq
      linear_combination this
    funext y
    simp only [List.cons_append, List.nil_append, run, List.foldl, act, i.2, j.2, dif_pos, and_self, Kind.mat, one_mul, Fin.eta]
    simp only [app1, appCX, appCZ, Function.update_self, Function.update_of_ne hij, Function.update_idem, mH]
    cases hi : y i <;> cases hj : y j <;> simp <;> try rw [← hj, Function.update_eq_self]
    all_goals first
      | linear_combination (2 * ψ y) * hr
      | linear_combination (-2 * ψ y) * hr
  obtain ⟨w, z, r, h1, h2⟩ := form_dih_gen hn hX hZ hS hCX hCZ
  have hzr : z = r := by
    have hu : (unit (⟨0, hn⟩ : Fin n) true) ≠ fun _ => false := fun h => by
      have := congrFun h ⟨0, hn⟩
      simp [unit] at this
    have e1 := h2 (unit (⟨0, hn⟩ : Fin n) true) fun _ => false
    have e2 := h2 (fun _ => false) (unit (⟨0, hn⟩ : Fin n) true)
    rw [if_pos rfl, if_neg hu] at e1
    rw [if_neg hu] at e2
    refine move (o1 _ ⟨0, hn⟩ rfl) (hH ⟨0, hn⟩) e1 e2 ?_
    have := move_h ⟨0, hn⟩ (unit (⟨0, hn⟩ : Fin n) true) fun _ => false
    convert this using 7
    · funext p
      by_cases hp : p = ⟨0, hn⟩
      · subst hp; simp
      · simp [hp, unit]
    · funext p
      by_cases hp : p = ⟨0, hn⟩
      · subst hp; simp [unit]
      · simp [hp, unit]
  refine ⟨r, w - r, ?_⟩
  rw [h1, hzr]; simp

/-- An operation that preserves traces and commutes with the gates of the Clifford group. -/
theorem form_clifford {T : Sup n} (hn : 0 < n) (htr : ∀ ρ, (T ρ).trace = ρ.trace) (hH : ∀ q : Fin n, Comm T [.gate .h [q.val]])
    (hS : ∀ q : Fin n, Comm T [.gate .s [q.val]]) (hCX : ∀ i j : Fin n, i ≠ j → Comm T [.gate .cx [i.val, j.val]]) :
    ∃ f : ℂ, T = f • 1 + (1 - f) • Dep n := by
  obtain ⟨f, g, h⟩ := form_clifford_gen hn hH hS hCX
  have hg : g = 1 - f := by
    have := htr 1
    have h2 : (2 : ℂ) ^ n ≠ 0 := pow_ne_zero _ two_ne_zero
    have hD : Dep n 1 = 1 := by rw [← P_zero, Dep_P, if_pos ⟨rfl, rfl⟩]
    rw [h, LinearMap.add_apply, LinearMap.smul_apply, LinearMap.smul_apply, Module.End.one_apply, hD, Matrix.trace_add, Matrix.trace_smul, Matrix.trace_smul,
      smul_eq_mul, smul_eq_mul, ← add_mul] at this
    have h3 : (1 : Op n).trace ≠ 0 := by rw [← P_zero, P_trace, if_pos ⟨rfl, rfl⟩]; exact h2
    have h4 : f + g = 1 := mul_right_cancel₀ h3 (by rw [this, one_mul])
    linear_combination h4
  exact ⟨f, hg ▸ h⟩

/-! ### Traces of operations -/

theorem strace (T : Sup n) : LinearMap.trace ℂ (Op n) T = ∑ y, ∑ x, T (Matrix.single y x 1) y x := by
  rw [LinearMap.trace_eq_matrix_trace ℂ (Matrix.stdBasis ℂ (Basis (Fin n)) (Basis (Fin n))), Matrix.trace, Fintype.sum_prod_type]
  refine Finset.sum_congr rfl fun y _ => Finset.sum_congr rfl fun x _ => ?_
  rw [Matrix.diag_apply, LinearMap.toMatrix_apply, Matrix.stdBasis_eq_single]
  rfl

theorem strace_Ad (K : Op n) : LinearMap.trace ℂ (Op n) (Ad K) = (Complex.normSq K.trace : ℝ) := by
  rw [strace, Complex.normSq_eq_conj_mul_self, Matrix.trace, map_sum, Finset.sum_mul_sum, Finset.sum_comm]
  refine Finset.sum_congr rfl fun x _ => Finset.sum_congr rfl fun y _ => ?_
  rw [Ad_apply, Matrix.mul_apply, Finset.sum_eq_single x]
  · rw [Matrix.mul_apply, Finset.sum_eq_single y]
    · simp [Matrix.conjTranspose_apply, mul_comm]
    · intro z _ hz; simp [Matrix.single_apply, Ne.symm hz]
    · intro h; exact absurd (Finset.mem_univ _) h
  · intro z _ hz
    rw [Matrix.mul_apply, Finset.sum_eq_zero, zero_mul]
    intro w _; simp [Matrix.single_apply, Ne.symm hz]
  · intro h; exact absurd (Finset.mem_univ _) h

theorem card_basis : Fintype.card (Basis (Fin n)) = 2 ^ n := by simp

theorem strace_one : LinearMap.trace ℂ (Op n) 1 = (2 ^ n) ^ 2 := by
  rw [strace]
  simp only [Module.End.one_apply, Matrix.single_apply, and_self, if_true, Finset.sum_const, Finset.card_univ, card_basis]
  simp [sq]

theorem strace_Dep : LinearMap.trace ℂ (Op n) (Dep n) = 1 := by
  rw [strace]
  have : ∀ y x : Basis (Fin n), Dep n (Matrix.single y x 1) y x = if y = x then 1 / 2 ^ n else 0 := by
    intro y x
    show ((Matrix.trace (Matrix.single y x (1 : ℂ)) / 2 ^ n) • (1 : Op n)) y x = _
    by_cases h : y = x
    · subst h
      rw [Matrix.trace_single_eq_same, Matrix.smul_apply, Matrix.one_apply_eq, if_pos rfl]; simp
    · rw [Matrix.smul_apply, Matrix.one_apply_ne h, if_neg h]; simp
  simp only [this]
  simp only [Finset.sum_ite_eq, Finset.mem_univ, if_true, Finset.sum_const, Finset.card_univ, card_basis, nsmul_eq_mul]
  push_cast
  field_simp

theorem strace_Dg : LinearMap.trace ℂ (Op n) (Dg n) = 2 ^ n := by
  rw [strace]
  have : ∀ y x : Basis (Fin n), Dg n (Matrix.single y x 1) y x = if y = x then 1 else 0 := by
    intro y x
    show Matrix.diagonal (Matrix.single y x (1 : ℂ)).diag y x = _
    by_cases h : y = x
    · subst h; simp
    · rw [Matrix.diagonal_apply_ne _ h, if_neg h]
  simp only [this]
  simp

end Verif.RB
