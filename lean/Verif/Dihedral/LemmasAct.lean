import Verif.Dihedral.LemmasValid
/-
What the gate methods do to the operator an element stands for.
-/
set_option linter.unusedSimpArgs false
set_option linter.unusedVariables false
set_option linter.unusedSectionVars false
namespace Verif.Dihedral
open Verif.Quantum

theorem ω_norm : ‖ω‖ = 1 := by
  unfold ω
  have : (Real.pi * Complex.I / 4 : ℂ) = ((Real.pi / 4 : ℝ) : ℂ) * Complex.I := by push_cast; ring
  rw [this, Complex.norm_exp_ofReal_mul_I]

theorem ω_pow_four : ω ^ 4 = -1 := by
  unfold ω
  rw [← Complex.exp_nat_mul]
  have : ((4 : ℕ) : ℂ) * (Real.pi * Complex.I / 4) = Real.pi * Complex.I := by push_cast; ring
  rw [this, Complex.exp_pi_mul_I]

theorem ω_pow_eight : ω ^ 8 = 1 := by
  have : ω ^ 8 = (ω ^ 4) ^ 2 := by ring
  rw [this, ω_pow_four]; norm_num

theorem ω_ne : ω ≠ 0 := by
  intro h; have := ω_norm; rw [h] at this; simp at this

/-- `ω` to an exponent modulo 8. -/
noncomputable def W (a : ZMod 8) : ℂ := ω ^ a.val

theorem ω_pow_mod (m : ℕ) : ω ^ (m % 8) = ω ^ m := by
  conv_rhs => rw [← Nat.mod_add_div m 8, pow_add, pow_mul, ω_pow_eight, one_pow, mul_one]

theorem W_add (a b : ZMod 8) : W (a + b) = W a * W b := by
  unfold W
  rw [ZMod.val_add, ω_pow_mod, pow_add]

theorem W_zero : W 0 = 1 := by simp [W]

theorem W_norm (a : ZMod 8) : ‖W a‖ = 1 := by rw [W, norm_pow, ω_norm, one_pow]

theorem W_ne (a : ZMod 8) : W a ≠ 0 := by
  intro h; have := W_norm a; rw [h] at this; simp at this

theorem W_intCast (k : ℤ) : W (k : ZMod 8) = ω ^ k := by
  have h : ω ^ k = ω ^ (k % 8) := by
    conv_lhs => rw [← Int.emod_add_mul_ediv k 8, zpow_add₀ ω_ne, zpow_mul]
    have : ω ^ (8 : ℤ) = 1 := by exact_mod_cast ω_pow_eight
    rw [this, one_zpow, mul_one]
  rw [h, W]
  have h2 : ((ZMod.val (k : ZMod 8) : ℕ) : ℤ) = k % 8 := by
    have := ZMod.val_intCast (n := 8) k
    exact_mod_cast this
  rw [← h2, zpow_natCast]

theorem W_four : W 4 = -1 := by
  have : W 4 = ω ^ 4 := rfl
  rw [this, ω_pow_four]

/-- `r` is `e` followed by the basis map `A` with phases `k` (up to a constant phase); validity kept. -/
structure Step {n : ℕ} (e r : Elem n) (A : Basis (Fin n) → Basis (Fin n)) (k : Basis (Fin n) → ZMod 8) : Prop where
  good : Good r
  w0 : r.poly.w0 = e.poly.w0
  rd : Rd e.poly → Rd r.poly
  det : detOdd e.linear = true → detOdd r.linear = true
  aff : ∀ x, aff r x = A (aff e x)
  val : ∃ c : ZMod 8, ∀ x, value r.poly (ext x) = value e.poly (ext x) + k (Dihedral.aff e x) + c

theorem Step.refl {n : ℕ} {e : Elem n} (he : Good e) : Step e e (fun b => b) (fun _ => 0) :=
  ⟨he, rfl, fun h => h, fun h => h, fun _ => rfl, 0, fun _ => by ring⟩

theorem Step.trans {n : ℕ} {e r s : Elem n} {A B k l} (h : Step e r A k) (h' : Step r s B l) :
    Step e s (fun b => B (A b)) (fun b => k b + l (A b)) := by
  obtain ⟨c, hc⟩ := h.val
  obtain ⟨d, hd⟩ := h'.val
  exact ⟨h'.good, h'.w0.trans h.w0, fun x => h'.rd (h.rd x), fun x => h'.det (h.det x),
    fun x => by rw [h'.aff, h.aff], c + d, fun x => by rw [hd, hc, h.aff]; ring⟩

theorem Step.congr {n : ℕ} {e r : Elem n} {A B k l} (h : Step e r A k) (hA : ∀ b, A b = B b) (hk : ∀ b, k b = l b) :
    Step e r B l := by
  rw [← (funext hA : A = B), ← (funext hk : k = l)]; exact h

theorem step_phase {n : ℕ} {e : Elem n} (he : Good e) (k : ℤ) {i : ℕ} (hi : i < n) :
    ∃ r, phase e k i = some r ∧ Step e r (fun b => b) (fun b => if b ⟨i, hi⟩ then (k : ZMod 8) else 0) := by
  obtain ⟨r, h1, h2, h3, h4, h5, h6, h7⟩ := phase_spec he k hi
  refine ⟨r, h1, h2, h5, h6, fun h => by rw [h3]; exact h, fun x => ?_, -(if e.shift ⟨i, hi⟩ = 1 then (k : ZMod 8) else 0),
    fun x => by rw [h7]; ring⟩
  unfold Dihedral.aff
  rw [h3, h4]

theorem step_cnot {n : ℕ} {e : Elem n} (he : Good e) {i j : ℕ} (hi : i < n) (hj : j < n) (hij : i ≠ j) :
    ∃ r, cnot e i j = some r ∧ Step e r
      (fun b => Function.update b ⟨j, hj⟩ (Bool.xor (b ⟨j, hj⟩) (b ⟨i, hi⟩))) (fun _ => 0) := by
  obtain ⟨r, h1, h2, h3, h4⟩ := cnot_some e hi hj
  have hij' : (⟨i, hi⟩ : Fin n) ≠ ⟨j, hj⟩ := by simpa using hij
  refine ⟨r, h1, he.cnot h2 h3 h4, by rw [h2], by rw [h2]; exact fun h => h, fun h => ?_, aff_cnot hij' h3 h4, 0,
    fun x => by rw [h2]; ring⟩
  rw [h3]; exact detOdd_cnot hij' h

theorem step_flip {n : ℕ} {e : Elem n} (he : Good e) {i : ℕ} (hi : i < n) :
    ∃ r, flip e i = some r ∧ Step e r (fun b => Function.update b ⟨i, hi⟩ (!b ⟨i, hi⟩)) (fun _ => 0) :=
  ⟨_, flip_some e hi, he.flip _, rfl, fun h => h, fun h => h, aff_flip _, 0, fun x => by ring⟩

/-- Basis map of a gate. -/
def gateMap {n : ℕ} : Gate → Basis (Fin n) → Basis (Fin n)
  | .x q, b => if h : q < n then Function.update b ⟨q, h⟩ (!b ⟨q, h⟩) else b
  | .y q, b => if h : q < n then Function.update b ⟨q, h⟩ (!b ⟨q, h⟩) else b
  | .cx c t, b => if h : c < n ∧ t < n then
      Function.update b ⟨t, h.2⟩ (Bool.xor (b ⟨t, h.2⟩) (b ⟨c, h.1⟩)) else b
  | _, b => b

/-- Phase of a gate, as an exponent of `ω`. -/
def gatePhase {n : ℕ} : Gate → Basis (Fin n) → ZMod 8
  | .z q, b => if h : q < n then (if b ⟨q, h⟩ then 4 else 0) else 0
  | .y q, b => if h : q < n then (if b ⟨q, h⟩ then 0 else 4) else 0
  | .u1 k q, b => if h : q < n then (if b ⟨q, h⟩ then (k : ZMod 8) else 0) else 0
  | .cz p q, b => if h : p < n ∧ q < n then (if b ⟨p, h.1⟩ && b ⟨q, h.2⟩ then 4 else 0) else 0
  | _, _ => 0

theorem cz_phase (a b : Bool) : (if b then ((7 : ℤ) : ZMod 8) else 0) + (if a then ((7 : ℤ) : ZMod 8) else 0) +
    (if Bool.xor a b then ((2 : ℤ) : ZMod 8) else 0) + (if b then ((7 : ℤ) : ZMod 8) else 0) +
      (if a then ((7 : ℤ) : ZMod 8) else 0) = if a && b then 4 else 0 := by
  cases a <;> cases b <;> decide

/-- Every gate acts on elements as it should. -/
theorem step_gate {n : ℕ} {e : Elem n} (he : Good e) {g : Gate} (hg : GateOk n g) :
    ∃ r, appendGate e g = some r ∧ Step e r (gateMap g) (gatePhase g) := by
  match g, hg with
  | .x q, hq =>
    obtain ⟨r, h, s⟩ := step_flip he (show q < n from hq)
    exact ⟨r, h, s.congr (fun b => by simp [gateMap, show q < n from hq]) fun b => rfl⟩
  | .z q, hq =>
    obtain ⟨r, h, s⟩ := step_phase he 4 (show q < n from hq)
    exact ⟨r, h, s.congr (fun b => rfl) fun b => by simp [gatePhase, show q < n from hq]⟩
  | .y q, hq =>
    obtain ⟨r, h, s⟩ := step_flip he (show q < n from hq)
    obtain ⟨r', h', s'⟩ := step_phase s.good 4 (show q < n from hq)
    refine ⟨r', by simp [appendGate, h, h'], (s.trans s').congr (fun b => by simp [gateMap, show q < n from hq]) fun b => ?_⟩
    simp only [gatePhase, show q < n from hq, dif_pos, Function.update_self]
    cases b ⟨q, hq⟩ <;> simp
  | .u1 k q, hq =>
    obtain ⟨r, h, s⟩ := step_phase he k (show q < n from hq)
    exact ⟨r, h, s.congr (fun b => rfl) fun b => by simp [gatePhase, show q < n from hq]⟩
  | .cx c t, hq =>
    obtain ⟨r, h, s⟩ := step_cnot he hq.1.1 hq.1.2 hq.2
    exact ⟨r, h, s.congr (fun b => by simp [gateMap, hq.1]) fun b => rfl⟩
  | .cz p q, hq =>
    have hpq : (⟨p, hq.1.1⟩ : Fin n) ≠ ⟨q, hq.1.2⟩ := by simpa using hq.2
    obtain ⟨r1, h1, s1⟩ := step_phase he 7 hq.1.2
    obtain ⟨r2, h2, s2⟩ := step_phase s1.good 7 hq.1.1
    obtain ⟨r3, h3, s3⟩ := step_cnot s2.good hq.1.2 hq.1.1 (Ne.symm hq.2)
    obtain ⟨r4, h4, s4⟩ := step_phase s3.good 2 hq.1.1
    obtain ⟨r5, h5, s5⟩ := step_cnot s4.good hq.1.2 hq.1.1 (Ne.symm hq.2)
    obtain ⟨r6, h6, s6⟩ := step_phase s5.good 7 hq.1.2
    obtain ⟨r7, h7, s7⟩ := step_phase s6.good 7 hq.1.1
    refine ⟨r7, by simp [appendGate, h1, h2, h3, h4, h5, h6, h7],
      ((((((s1.trans s2).trans s3).trans s4).trans s5).trans s6).trans s7).congr (fun b => ?_) fun b => ?_⟩
    · simp only [gateMap, Function.update_self, Function.update_of_ne hpq.symm, Function.update_idem]
      rw [Bool.xor_assoc, Bool.xor_self, Bool.xor_false, Function.update_eq_self]
    · simp only [gatePhase, hq.1, and_self, dif_pos, Function.update_self, Function.update_of_ne hpq.symm,
        Function.update_idem, add_zero, Bool.xor_assoc, Bool.xor_self, Bool.xor_false]
      exact cz_phase _ _
  | .id q, _ => exact ⟨e, rfl, Step.refl he⟩

theorem step_circuit {n : ℕ} (c : List Gate) (hc : ∀ g ∈ c, GateOk n g) {e : Elem n} (he : Good e) :
    ∃ r A k, appendCircuit e c = some r ∧ Step e r A k := by
  induction c generalizing e with
  | nil => exact ⟨e, _, _, rfl, Step.refl he⟩
  | cons g c ih =>
    obtain ⟨r, h, s⟩ := step_gate he (hc g (by simp))
    obtain ⟨r', A, k, h', s'⟩ := ih (fun g hg => hc g (by simp [hg])) s.good
    refine ⟨r', _, _, ?_, s.trans s'⟩
    unfold appendCircuit at *
    rw [List.foldlM_cons, h]; exact h'

/-! ### Action on states -/

theorem ket_update {n : ℕ} (b y : Basis (Fin n)) (q : Fin n) (v : Bool) :
    (ket b (Function.update y q v) : ℂ) = if b q = v then (if Function.update y q (b q) = b then 1 else 0) else 0 := by
  unfold ket
  by_cases h : b q = v
  · subst h; simp
  · rw [if_neg h, if_neg]
    intro e; apply h; rw [← e]; simp

theorem update_eq_iff {n : ℕ} (b y : Basis (Fin n)) (q : Fin n) (v : Bool) :
    y = Function.update b q v ↔ y q = v ∧ Function.update y q (b q) = b := by
  constructor
  · rintro rfl; simp
  · rintro ⟨h1, h2⟩
    rw [← h2, Function.update_idem, ← h1, Function.update_eq_self]

theorem app1_ket {n : ℕ} (u : Mat2 ℂ) (q : Fin n) (b : Basis (Fin n)) (y : Basis (Fin n)) :
    app1 u q (ket b) y = u false (b q) * ket (Function.update b q false) y +
      u true (b q) * ket (Function.update b q true) y := by
  simp only [app1, ket_update]
  have h : ∀ v, (ket (Function.update b q v) y : ℂ) = if y q = v ∧ Function.update y q (b q) = b then 1 else 0 := by
    intro v; unfold ket; simp only [update_eq_iff]
  rw [h, h]
  by_cases hb : Function.update y q (b q) = b
  · simp only [hb, and_true, if_true]
    cases y q <;> cases b q <;> simp
  · simp [hb]

theorem appCX_ket {n : ℕ} {c t : Fin n} (hct : c ≠ t) (b : Basis (Fin n)) :
    (appCX c t (ket b) : State (Fin n) ℂ) = ket (Function.update b t (Bool.xor (b t) (b c))) := by
  funext y
  unfold appCX
  show (if _ then _ else _) = if _ then _ else _
  congr 1
  rw [eq_iff_iff]
  constructor
  · rintro rfl
    simp [hct, Function.update_of_ne hct, Bool.xor_assoc]
  · rintro rfl
    simp [hct, Function.update_of_ne hct, Bool.xor_assoc]

theorem appCZ_ket {n : ℕ} (p q : Fin n) (b : Basis (Fin n)) (y : Basis (Fin n)) :
    (appCZ p q (ket b) : State (Fin n) ℂ) y = (if b p && b q then -1 else 1) * ket b y := by
  unfold appCZ ket
  by_cases h : y = b
  · subst h; by_cases h2 : (y p && y q) = true <;> simp [h2]
  · simp [h]

/-- Every gate acts on basis states as described by its map and phase (up to a constant for `y`). -/
theorem applyGate_ket {n : ℕ} {g : Gate} (hg : GateOk n g) :
    ∃ z : ℂ, ‖z‖ = 1 ∧ ∀ b : Basis (Fin n), applyGate g (ket b) = some fun y => z * (W (gatePhase g b) * ket (gateMap g b) y) := by
  match g, hg with
  | .x q, hq =>
    have hq : q < n := hq
    refine ⟨1, by simp, fun b => ?_⟩
    simp only [applyGate, hq, dif_pos, gatePhase, gateMap, W_zero, one_mul]
    congr 1; funext y
    rw [app1_ket]
    cases h : b ⟨q, hq⟩ <;> simp [mX]
  | .z q, hq =>
    have hq : q < n := hq
    refine ⟨1, by simp, fun b => ?_⟩
    simp only [applyGate, hq, dif_pos, gatePhase, gateMap, one_mul]
    congr 1; funext y
    rw [app1_ket]
    have hu : Function.update b ⟨q, hq⟩ (b ⟨q, hq⟩) = b := Function.update_eq_self _ _
    cases h : b ⟨q, hq⟩ <;> rw [h] at hu <;> simp [mZ, W_zero, W_four, hu]
  | .y q, hq =>
    have hq : q < n := hq
    refine ⟨-Complex.I, by simp, fun b => ?_⟩
    simp only [applyGate, hq, dif_pos, gatePhase, gateMap]
    congr 1; funext y
    rw [app1_ket]
    cases h : b ⟨q, hq⟩ <;> simp [mY, W_zero, W_four]
  | .u1 k q, hq =>
    have hq : q < n := hq
    refine ⟨1, by simp, fun b => ?_⟩
    simp only [applyGate, hq, dif_pos, gatePhase, gateMap, one_mul]
    congr 1; funext y
    rw [app1_ket]
    have hu : Function.update b ⟨q, hq⟩ (b ⟨q, hq⟩) = b := Function.update_eq_self _ _
    cases h : b ⟨q, hq⟩ <;> rw [h] at hu <;> simp [mTpow, W_zero, W_intCast, hu]
  | .cx c t, hq =>
    refine ⟨1, by simp, fun b => ?_⟩
    have h' : (⟨c, hq.1.1⟩ : Fin n) ≠ ⟨t, hq.1.2⟩ := by simpa using hq.2
    have h0 : (c < n ∧ t < n) ∧ c ≠ t := hq
    simp only [applyGate, dif_pos h0, dif_pos h0.1, gatePhase, gateMap, W_zero, one_mul]
    rw [appCX_ket h']
  | .cz p q, hq =>
    refine ⟨1, by simp, fun b => ?_⟩
    have h0 : (p < n ∧ q < n) ∧ p ≠ q := hq
    simp only [applyGate, dif_pos h0, dif_pos h0.1, gatePhase, gateMap, one_mul]
    congr 1; funext y
    rw [appCZ_ket]
    by_cases h : (b ⟨p, h0.1.1⟩ && b ⟨q, h0.1.2⟩) = true <;> simp [h, W_zero, W_four]
  | .id q, hq =>
    have hq : q < n := hq
    exact ⟨1, by simp, fun b => by simp [applyGate, hq, gatePhase, gateMap, W_zero]⟩

theorem applyGate_smul {n : ℕ} {g : Gate} (hg : GateOk n g) (z : ℂ) {ψ φ : State (Fin n) ℂ}
    (h : applyGate g ψ = some φ) : applyGate g (fun y => z * ψ y) = some fun y => z * φ y := by
  match g, hg with
  | .x q, hq => have hq : q < n := hq; simp only [applyGate, hq, dif_pos, Option.some.injEq] at h ⊢; rw [app1_smul, h]
  | .z q, hq => have hq : q < n := hq; simp only [applyGate, hq, dif_pos, Option.some.injEq] at h ⊢; rw [app1_smul, h]
  | .y q, hq => have hq : q < n := hq; simp only [applyGate, hq, dif_pos, Option.some.injEq] at h ⊢; rw [app1_smul, h]
  | .u1 k q, hq => have hq : q < n := hq; simp only [applyGate, hq, dif_pos, Option.some.injEq] at h ⊢; rw [app1_smul, h]
  | .cx c t, hq =>
    have h0 : (c < n ∧ t < n) ∧ c ≠ t := hq
    simp only [applyGate, dif_pos h0, Option.some.injEq] at h ⊢; rw [appCX_smul, h]
  | .cz c t, hq =>
    have h0 : (c < n ∧ t < n) ∧ c ≠ t := hq
    simp only [applyGate, dif_pos h0, Option.some.injEq] at h ⊢; rw [appCZ_smul, h]
  | .id q, hq => have hq : q < n := hq; simp only [applyGate, hq, if_pos, Option.some.injEq] at h ⊢; rw [h]

theorem img_eq {n : ℕ} (e : Elem n) (x : Basis (Fin n)) : img e x = fun y => W (value e.poly (ext x)) * ket (aff e x) y := rfl

/-- The state an element yields, pushed through a gate, is the state of the updated element. -/
theorem applyGate_img {n : ℕ} {e r : Elem n} {g : Gate} (hg : GateOk n g) (s : Step e r (gateMap g) (gatePhase g)) :
    ∃ z : ℂ, ‖z‖ = 1 ∧ ∀ x, applyGate g (img e x) = some fun y => z * img r x y := by
  obtain ⟨z, hz, h⟩ := applyGate_ket hg
  obtain ⟨c, hc⟩ := s.val
  refine ⟨z * W (-c), by rw [norm_mul, hz, W_norm, one_mul], fun x => ?_⟩
  rw [img_eq, applyGate_smul hg _ (h _)]
  congr 1; funext y
  rw [img_eq, ← s.aff, hc, W_add, W_add]
  have : W (-c) * W c = 1 := by rw [← W_add, neg_add_cancel, W_zero]
  linear_combination (-(z * W (value e.poly (ext x)) * W (gatePhase g (aff e x)) * ket (aff r x) y)) * this

theorem applyCircuit_smul {n : ℕ} (c : List Gate) (hc : ∀ g ∈ c, GateOk n g) (z : ℂ) {ψ φ : State (Fin n) ℂ}
    (h : applyCircuit c ψ = some φ) : applyCircuit c (fun y => z * ψ y) = some fun y => z * φ y := by
  induction c generalizing ψ with
  | nil => cases h; rfl
  | cons g c ih =>
    unfold applyCircuit at *
    rw [List.foldlM_cons] at h ⊢
    cases hg : applyGate g ψ with
    | none => rw [hg] at h; exact absurd h (by simp)
    | some χ =>
      rw [hg] at h
      rw [applyGate_smul (hc g (by simp)) z hg]
      exact ih (fun g hg => hc g (by simp [hg])) h

theorem applyCircuit_img {n : ℕ} (c : List Gate) (hc : ∀ g ∈ c, GateOk n g) {e : Elem n} (he : Good e) :
    ∃ r, appendCircuit e c = some r ∧ (∃ A k, Step e r A k) ∧ ∃ z : ℂ, ‖z‖ = 1 ∧
      ∀ x, applyCircuit c (img e x) = some fun y => z * img r x y := by
  induction c generalizing e with
  | nil => exact ⟨e, rfl, ⟨_, _, Step.refl he⟩, 1, by simp, fun x => by simp [applyCircuit]⟩
  | cons g c ih =>
    obtain ⟨r, h, s⟩ := step_gate he (hc g (by simp))
    obtain ⟨z, hz, hi⟩ := applyGate_img (hc g (by simp)) s
    obtain ⟨r', h', ⟨A, k, s'⟩, z', hz', hi'⟩ := ih (fun g hg => hc g (by simp [hg])) s.good
    refine ⟨r', ?_, ⟨_, _, s.trans s'⟩, z * z', by rw [norm_mul, hz, hz', one_mul], fun x => ?_⟩
    · unfold appendCircuit at *
      rw [List.foldlM_cons, h]; exact h'
    · have h2 := applyCircuit_smul c (fun g hg => hc g (by simp [hg])) z (hi' x)
      unfold applyCircuit at *
      rw [List.foldlM_cons, hi]
      refine Eq.trans h2 ?_
      congr 1; funext y; ring

/-- The identity element. -/
theorem Good.one (n : ℕ) : Good (Elem.one n) := by
  refine ⟨WF.zero n, ?_, ?_, ?_⟩
  · intro S hS; rw [show (Elem.one n).poly = Poly.zero n from rfl, coef_zero]; exact dvd_zero _
  · intro i j; unfold Elem.one; simp only; split_ifs <;> simp
  · intro i; simp [Elem.one]

theorem img_one {n : ℕ} (x : Basis (Fin n)) : img (Elem.one n) x = ket x := by
  rw [img_eq, show (Elem.one n).poly = Poly.zero n from rfl, value_zero, W_zero]
  have : aff (Elem.one n) x = x := by
    funext i
    simp only [aff, Elem.one, ite_mul, one_mul, zero_mul, Finset.sum_ite_eq, Finset.mem_univ, if_true, add_zero]
    cases x i <;> simp [bit]
  rw [this]; funext y; ring

theorem valid_one (n : ℕ) : isCnotDihedral (Elem.one n) = true := by
  rw [isCnot_iff]
  refine ⟨Good.one n, Rd.zero n, rfl, ?_⟩
  rw [detOdd_iff]
  have : mat2 (Elem.one n).linear = 1 := by
    ext i j; simp only [mat2, Elem.one, Matrix.one_apply]; split_ifs <;> simp
  rw [this, Matrix.det_one]

end Verif.Dihedral
