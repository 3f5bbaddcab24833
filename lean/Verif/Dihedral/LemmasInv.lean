import Verif.Dihedral.LemmasEq
/-
Inverse, reversed and conjugated circuits.
-/
set_option linter.unusedSimpArgs false
set_option linter.unusedVariables false
namespace Verif.Dihedral
open Verif.Quantum

theorem inv_inv (g : Gate) : g.inv.inv = g := by cases g <;> simp [Gate.inv]

theorem invCircuit_invCircuit (c : List Gate) : invCircuit (invCircuit c) = c := by
  unfold invCircuit
  rw [List.map_reverse, List.reverse_reverse, List.map_map]
  have : Gate.inv ∘ Gate.inv = id := funext inv_inv
  rw [this, List.map_id]

theorem GateOk.inv {n : ℕ} {g : Gate} (h : GateOk n g) : GateOk n g.inv := by cases g <;> exact h
theorem GateOk.conj {n : ℕ} {g : Gate} (h : GateOk n g) : GateOk n g.conj := by cases g <;> exact h

theorem ok_invCircuit {n : ℕ} {c : List Gate} (h : ∀ g ∈ c, GateOk n g) : ∀ g ∈ invCircuit c, GateOk n g := by
  intro g hg
  simp only [invCircuit, List.mem_reverse, List.mem_map] at hg
  obtain ⟨g', h1, rfl⟩ := hg
  exact (h g' h1).inv

theorem mXX : mmul mX mX = (mI : Mat2 ℂ) := by funext r c; cases r <;> cases c <;> simp [mmul, mX, mI]
theorem mZZ : mmul mZ mZ = (mI : Mat2 ℂ) := by funext r c; cases r <;> cases c <;> simp [mmul, mZ, mI]
theorem mYY : mmul mY mY = (mI : Mat2 ℂ) := by funext r c; cases r <;> cases c <;> simp [mmul, mY, mI]
theorem mTT (k : ℤ) : mmul (mTpow (-k)) (mTpow k) = mI := by
  funext r c
  have h0 : ω ≠ 0 := by unfold ω; exact Complex.exp_ne_zero _
  cases r <;> cases c <;> simp [mmul, mTpow, mI]
  rw [inv_mul_cancel₀ (zpow_ne_zero _ h0)]

theorem cx_cx {n : ℕ} {c t : Fin n} (h : c ≠ t) (ψ : State (Fin n) ℂ) : appCX c t (appCX c t ψ) = ψ := by
  funext x
  unfold appCX
  rw [Function.update_self, Function.update_of_ne h, Function.update_idem]
  congr 1
  have : Bool.xor (Bool.xor (x t) (x c)) (x c) = x t := by cases x t <;> cases x c <;> rfl
  rw [this, Function.update_eq_self]

theorem cz_cz {n : ℕ} (a b : Fin n) (ψ : State (Fin n) ℂ) : appCZ a b (appCZ a b ψ) = ψ := by
  funext x
  unfold appCZ
  split_ifs <;> simp

/-- A gate followed by its inverse. -/
theorem applyGate_inv {n : ℕ} {g : Gate} (hg : GateOk n g) (ψ : State (Fin n) ℂ) :
    ∃ φ, applyGate g ψ = some φ ∧ applyGate g.inv φ = some ψ := by
  match g, hg with
  | .x q, hq => have hq : q < n := hq; exact ⟨_, dif_pos hq, (dif_pos hq).trans (by rw [app1_mul, mXX, app1_one])⟩
  | .z q, hq => have hq : q < n := hq; exact ⟨_, dif_pos hq, (dif_pos hq).trans (by rw [app1_mul, mZZ, app1_one])⟩
  | .y q, hq => have hq : q < n := hq; exact ⟨_, dif_pos hq, (dif_pos hq).trans (by rw [app1_mul, mYY, app1_one])⟩
  | .u1 k q, hq => have hq : q < n := hq; exact ⟨_, dif_pos hq, (dif_pos hq).trans (by rw [app1_mul, mTT, app1_one])⟩
  | .cx c t, hq => exact ⟨_, dif_pos hq, (dif_pos hq).trans (by rw [cx_cx]; intro h; exact hq.2 (Fin.mk.inj h))⟩
  | .cz a b, hq => exact ⟨_, dif_pos hq, (dif_pos hq).trans (by rw [cz_cz])⟩
  | .id q, hq => have hq : q < n := hq; exact ⟨_, if_pos hq, if_pos hq⟩

theorem applyCircuit_append {n : ℕ} (c d : List Gate) (ψ : State (Fin n) ℂ) :
    applyCircuit (c ++ d) ψ = (applyCircuit c ψ).bind (applyCircuit d) := by
  unfold applyCircuit
  rw [List.foldlM_append]; rfl

/-- A circuit followed by its inverse. -/
theorem applyCircuit_inv {n : ℕ} (c : List Gate) (hc : ∀ g ∈ c, GateOk n g) (ψ : State (Fin n) ℂ) :
    ∃ φ, applyCircuit c ψ = some φ ∧ applyCircuit (invCircuit c) φ = some ψ := by
  induction c generalizing ψ with
  | nil => exact ⟨ψ, rfl, rfl⟩
  | cons g c ih =>
    obtain ⟨φ, h1, h2⟩ := applyGate_inv (hc g (by simp)) ψ
    obtain ⟨χ, h3, h4⟩ := ih (fun g hg => hc g (by simp [hg])) φ
    refine ⟨χ, ?_, ?_⟩
    · unfold applyCircuit at *
      rw [List.foldlM_cons, h1]; exact h3
    · have : invCircuit (g :: c) = invCircuit c ++ [g.inv] := by simp [invCircuit]
      rw [this, applyCircuit_append, h4]
      show applyCircuit [g.inv] φ = some ψ
      unfold applyCircuit
      rw [List.foldlM_cons, h2]; rfl

/-- What a decomposition says about the operators: the circuit acts as the element, up to a phase. -/
theorem circuit_img {n : ℕ} {c : List Gate} (hc : ∀ g ∈ c, GateOk n g) {e : Elem n} (h : fromCircuit n c = some e) :
    isCnotDihedral e = true ∧ ∃ z : ℂ, ‖z‖ = 1 ∧ ∀ x, applyCircuit c (ket x) = some fun y => z * img e x y := by
  obtain ⟨ge, re, we, de⟩ := (isCnot_iff _).1 (valid_one n)
  obtain ⟨r, h', ⟨A, k, s⟩, z, hz, hx⟩ := applyCircuit_img c hc ge
  have : r = e := by unfold fromCircuit at h; rw [h'] at h; exact Option.some.inj h
  subst this
  exact ⟨(isCnot_iff r).2 ⟨s.good, s.rd re, s.w0.trans we, s.det de⟩, z, hz, fun x => by rw [← img_one]; exact hx x⟩

theorem opApply_img {n : ℕ} (a b : Elem n) (x : Basis (Fin n)) :
    opApply a (img b x) = fun y => W (value b.poly (ext x)) * img a (aff b x) y := by
  funext y
  unfold opApply
  rw [img_eq b]
  exact opApply_smul_ket a _ _ y

/-- Elements of a circuit and of its inverse are inverse to each other. -/
theorem inv_sameOp {n : ℕ} {c : List Gate} (hc : ∀ g ∈ c, GateOk n g) {e r : Elem n} (he : fromCircuit n c = some e)
    (hr : fromCircuit n (invCircuit c) = some r) : SameOp (fun x => opApply r (img e x)) ket := by
  obtain ⟨-, z, hz, h1⟩ := circuit_img hc he
  obtain ⟨-, w, hw, h2⟩ := circuit_img (ok_invCircuit hc) hr
  have z0 : z ≠ 0 := fun h => by rw [h, norm_zero] at hz; exact zero_ne_one hz
  have w0 : w ≠ 0 := fun h => by rw [h, norm_zero] at hw; exact zero_ne_one hw
  refine ⟨z⁻¹ * w⁻¹, by rw [norm_mul, norm_inv, norm_inv, hz, hw]; simp, fun x => ?_⟩
  obtain ⟨φ, h3, h4⟩ := applyCircuit_inv c hc (ket x)
  rw [h1 x] at h3
  have h3 := Option.some.inj h3
  rw [← h3, img_eq] at h4
  have h5 := applyCircuit_smul _ (ok_invCircuit hc) (z * W (value e.poly (ext x))) (h2 (aff e x))
  have h6 : (fun y => z * (W (value e.poly (ext x)) * ket (aff e x) y)) =
    (fun y => z * W (value e.poly (ext x)) * ket (aff e x) y : State (Fin n) ℂ) := by funext y; ring
  simp only at h4
  rw [h6, h5] at h4
  have h7 := Option.some.inj h4
  show opApply r (img e x) = _
  rw [opApply_img]
  funext y
  rw [← congrFun h7 y]
  field_simp

/-! Conjugation. -/

theorem star_W (k : ZMod 8) : star (W k) = W (-k) := by
  have h : W k * W (-k) = 1 := by rw [← W_add, add_neg_cancel, W_zero]
  have hn : W k * star (W k) = 1 := by
    have := Complex.mul_conj (W k)
    rw [Complex.normSq_eq_norm_sq, W_norm] at this
    simpa using this
  exact mul_left_cancel₀ (W_ne k) (hn.trans h.symm)

/-- Complex conjugate of a state. -/
noncomputable def conjState {n : ℕ} (ψ : State (Fin n) ℂ) : State (Fin n) ℂ := fun y => star (ψ y)

theorem conj_app1 {n : ℕ} (u : Mat2 ℂ) (q : Fin n) (ψ : State (Fin n) ℂ) :
    conjState (app1 u q ψ) = app1 (fun r c => star (u r c)) q (conjState ψ) := by
  funext y; simp [conjState, app1]

theorem star_omega_zpow (k : ℤ) : star (ω ^ k) = ω ^ (8 - k) := by
  have h1 : ω ^ k = W (k : ZMod 8) := (W_intCast k).symm
  have h2 : ω ^ (8 - k) = W ((8 - k : ℤ) : ZMod 8) := (W_intCast _).symm
  rw [h1, h2, star_W]
  congr 1
  push_cast
  have : (8 : ZMod 8) = 0 := by decide
  rw [this]; ring

theorem conj_gate {n : ℕ} {g : Gate} (hg : GateOk n g) :
    ∃ z : ℂ, ‖z‖ = 1 ∧ ∀ ψ φ : State (Fin n) ℂ, applyGate g ψ = some φ →
      applyGate g.conj (conjState ψ) = some fun y => z * conjState φ y := by
  match g, hg with
  | .x q, hq =>
    have hq : q < n := hq
    refine ⟨1, by simp, fun ψ φ h => ?_⟩
    have h : app1 mX ⟨q, hq⟩ ψ = φ := Option.some.inj ((dif_pos hq).symm.trans h)
    refine (dif_pos hq).trans ?_
    rw [← h, conj_app1]
    simp only [one_mul]
    have : (fun r c => star (mX r c : ℂ)) = mX := by funext r c; cases r <;> cases c <;> simp [mX]
    rw [this]
  | .z q, hq =>
    have hq : q < n := hq
    refine ⟨1, by simp, fun ψ φ h => ?_⟩
    have h : app1 mZ ⟨q, hq⟩ ψ = φ := Option.some.inj ((dif_pos hq).symm.trans h)
    refine (dif_pos hq).trans ?_
    rw [← h, conj_app1]
    simp only [one_mul]
    have : (fun r c => star (mZ r c : ℂ)) = mZ := by funext r c; cases r <;> cases c <;> simp [mZ]
    rw [this]
  | .y q, hq =>
    have hq : q < n := hq
    refine ⟨-1, by simp, fun ψ φ h => ?_⟩
    have h : app1 mY ⟨q, hq⟩ ψ = φ := Option.some.inj ((dif_pos hq).symm.trans h)
    refine (dif_pos hq).trans ?_
    rw [← h, conj_app1]
    have : (fun r c => star (mY r c : ℂ)) = fun r c => -mY r c := by funext r c; cases r <;> cases c <;> simp [mY]
    rw [this]
    congr 1; funext y; simp only [app1]; ring
  | .u1 k q, hq =>
    have hq : q < n := hq
    refine ⟨1, by simp, fun ψ φ h => ?_⟩
    have h : app1 (mTpow k) ⟨q, hq⟩ ψ = φ := Option.some.inj ((dif_pos hq).symm.trans h)
    refine (dif_pos hq).trans ?_
    rw [← h, conj_app1]
    simp only [one_mul]
    have : (fun r c => star (mTpow k r c : ℂ)) = mTpow (8 - k) := by
      funext r c
      have := star_omega_zpow k
      cases r <;> cases c <;> simp only [mTpow, if_true, if_false, reduceCtorEq, Bool.false_eq_true, star_one, star_zero, Bool.true_eq_false]
      exact this
    rw [this]
  | .cx c t, hq =>
    refine ⟨1, by simp, fun ψ φ h => ?_⟩
    have h : appCX ⟨c, hq.1.1⟩ ⟨t, hq.1.2⟩ ψ = φ := Option.some.inj ((dif_pos hq).symm.trans h)
    refine (dif_pos hq).trans ?_
    rw [← h]
    simp only [one_mul]
    rfl
  | .cz a b, hq =>
    refine ⟨1, by simp, fun ψ φ h => ?_⟩
    have h : appCZ ⟨a, hq.1.1⟩ ⟨b, hq.1.2⟩ ψ = φ := Option.some.inj ((dif_pos hq).symm.trans h)
    refine (dif_pos hq).trans ?_
    rw [← h]
    congr 1; funext y
    simp only [one_mul, appCZ, conjState]
    split_ifs <;> simp
  | .id q, hq =>
    have hq : q < n := hq
    refine ⟨1, by simp, fun ψ φ h => ?_⟩
    have h : ψ = φ := Option.some.inj ((if_pos hq).symm.trans h)
    refine (if_pos hq).trans ?_
    rw [← h]; simp

theorem conj_circuit {n : ℕ} (c : List Gate) (hc : ∀ g ∈ c, GateOk n g) :
    ∃ z : ℂ, ‖z‖ = 1 ∧ ∀ ψ φ : State (Fin n) ℂ, applyCircuit c ψ = some φ →
      applyCircuit (c.map Gate.conj) (conjState ψ) = some fun y => z * conjState φ y := by
  induction c with
  | nil => exact ⟨1, by simp, fun ψ φ h => by cases h; simp [applyCircuit]⟩
  | cons g c ih =>
    obtain ⟨z, hz, h1⟩ := conj_gate (hc g (by simp))
    obtain ⟨w, hw, h2⟩ := ih (fun g hg => hc g (by simp [hg]))
    refine ⟨z * w, by rw [norm_mul, hz, hw, one_mul], fun ψ φ h => ?_⟩
    unfold applyCircuit at h
    rw [List.foldlM_cons] at h
    obtain ⟨χ, h3, h4⟩ := Option.bind_eq_some_iff.1 h
    have h5 := h1 ψ χ h3
    have h6 := h2 χ φ h4
    rw [List.map_cons]
    have h7 := applyCircuit_smul _ (fun g' hg' => by
      obtain ⟨g'', h8, rfl⟩ := List.mem_map.1 hg'
      exact (hc g'' (by simp [h8])).conj) z h6
    unfold applyCircuit at h7 ⊢
    rw [List.foldlM_cons, h5]
    refine Eq.trans h7 ?_
    congr 1; funext y; ring

/-! Transposition. -/

/-- The bilinear form `Σ_y φ(y) ψ(y)`. -/
noncomputable def pair {n : ℕ} (φ ψ : State (Fin n) ℂ) : ℂ := ∑ y, φ y * ψ y

theorem pair_ket {n : ℕ} (b : Basis (Fin n)) (ψ : State (Fin n) ℂ) : pair (ket b) ψ = ψ b := by
  unfold pair
  rw [Finset.sum_eq_single b]
  · simp [ket]
  · intro x _ hx; simp [ket, hx]
  · intro h; exact absurd (Finset.mem_univ _) h

theorem pair_comm {n : ℕ} (φ ψ : State (Fin n) ℂ) : pair φ ψ = pair ψ φ := by
  unfold pair; exact Finset.sum_congr rfl fun y _ => mul_comm _ _

/-- Flipping a bit. -/
def flipBit {n : ℕ} (q : Fin n) : Basis (Fin n) ≃ Basis (Fin n) where
  toFun y := Function.update y q (!y q)
  invFun y := Function.update y q (!y q)
  left_inv y := by simp
  right_inv y := by simp

theorem app1_diag_anti {n : ℕ} (u : Mat2 ℂ) (q : Fin n) (ψ : State (Fin n) ℂ) (y : Basis (Fin n)) :
    app1 u q ψ y = u (y q) (y q) * ψ y + u (y q) (!y q) * ψ (flipBit q y) := by
  have hu := Function.update_eq_self q y
  unfold app1
  show _ = _ + _ * ψ (Function.update y q (!y q))
  cases h : y q
  · rw [h] at hu; rw [hu]; simp
  · rw [h] at hu; rw [hu]; simp [add_comm]

theorem pair_app1 {n : ℕ} (u : Mat2 ℂ) (q : Fin n) (φ ψ : State (Fin n) ℂ) :
    pair φ (app1 u q ψ) = pair (app1 (fun r c => u c r) q φ) ψ := by
  unfold pair
  simp only [app1_diag_anti, mul_add, add_mul, Finset.sum_add_distrib]
  congr 1
  · exact Finset.sum_congr rfl fun y _ => by ring
  · rw [← Equiv.sum_comp (flipBit q)]
    refine Finset.sum_congr rfl fun y _ => ?_
    have h1 : (flipBit q y) q = !y q := by simp [flipBit]
    have h2 : flipBit q (flipBit q y) = y := (flipBit q).left_inv y
    rw [h1, h2, Bool.not_not]; ring

/-- CX as a permutation. -/
def cxPerm {n : ℕ} {c t : Fin n} (h : c ≠ t) : Basis (Fin n) ≃ Basis (Fin n) where
  toFun x := Function.update x t (Bool.xor (x t) (x c))
  invFun x := Function.update x t (Bool.xor (x t) (x c))
  left_inv x := by
    simp only [Function.update_self, Function.update_of_ne h, Function.update_idem]
    have : Bool.xor (Bool.xor (x t) (x c)) (x c) = x t := by cases x t <;> cases x c <;> rfl
    rw [this, Function.update_eq_self]
  right_inv x := by
    simp only [Function.update_self, Function.update_of_ne h, Function.update_idem]
    have : Bool.xor (Bool.xor (x t) (x c)) (x c) = x t := by cases x t <;> cases x c <;> rfl
    rw [this, Function.update_eq_self]

theorem pair_cx {n : ℕ} {c t : Fin n} (h : c ≠ t) (φ ψ : State (Fin n) ℂ) :
    pair φ (appCX c t ψ) = pair (appCX c t φ) ψ := by
  unfold pair
  rw [← Equiv.sum_comp (cxPerm h)]
  refine Finset.sum_congr rfl fun y _ => ?_
  have : cxPerm h (cxPerm h y) = y := (cxPerm h).left_inv y
  show φ (cxPerm h y) * ψ (cxPerm h (cxPerm h y)) = φ (cxPerm h y) * ψ y
  rw [this]

theorem pair_cz {n : ℕ} (a b : Fin n) (φ ψ : State (Fin n) ℂ) : pair φ (appCZ a b ψ) = pair (appCZ a b φ) ψ := by
  unfold pair
  refine Finset.sum_congr rfl fun y _ => ?_
  unfold appCZ; split_ifs <;> ring

theorem pair_gate {n : ℕ} {g : Gate} (hg : GateOk n g) : ∃ z : ℂ, ‖z‖ = 1 ∧ ∀ φ ψ : State (Fin n) ℂ,
    ∃ φ' ψ', applyGate g φ = some φ' ∧ applyGate g ψ = some ψ' ∧ pair φ ψ' = z * pair φ' ψ := by
  match g, hg with
  | .x q, hq =>
    have hq : q < n := hq
    refine ⟨1, by simp, fun φ ψ => ⟨_, _, dif_pos hq, dif_pos hq, ?_⟩⟩
    rw [pair_app1, one_mul]
    congr 2; funext r c; cases r <;> cases c <;> simp [mX]
  | .z q, hq =>
    have hq : q < n := hq
    refine ⟨1, by simp, fun φ ψ => ⟨_, _, dif_pos hq, dif_pos hq, ?_⟩⟩
    rw [pair_app1, one_mul]
    congr 2; funext r c; cases r <;> cases c <;> simp [mZ]
  | .y q, hq =>
    have hq : q < n := hq
    refine ⟨-1, by simp, fun φ ψ => ⟨_, _, dif_pos hq, dif_pos hq, ?_⟩⟩
    rw [pair_app1]
    have : (fun r c => mY c r) = fun r c => -mY r c := by funext r c; cases r <;> cases c <;> simp [mY]
    rw [this]
    unfold pair
    rw [Finset.mul_sum]
    exact Finset.sum_congr rfl fun y _ => by simp only [app1]; ring
  | .u1 k q, hq =>
    have hq : q < n := hq
    refine ⟨1, by simp, fun φ ψ => ⟨_, _, dif_pos hq, dif_pos hq, ?_⟩⟩
    rw [pair_app1, one_mul]
    congr 2; funext r c; cases r <;> cases c <;> simp [mTpow]
  | .cx c t, hq =>
    refine ⟨1, by simp, fun φ ψ => ⟨_, _, dif_pos hq, dif_pos hq, ?_⟩⟩
    rw [pair_cx (fun h => hq.2 (Fin.mk.inj h)), one_mul]
  | .cz a b, hq =>
    refine ⟨1, by simp, fun φ ψ => ⟨_, _, dif_pos hq, dif_pos hq, ?_⟩⟩
    rw [pair_cz, one_mul]
  | .id q, hq =>
    have hq : q < n := hq
    exact ⟨1, by simp, fun φ ψ => ⟨_, _, if_pos hq, if_pos hq, by rw [one_mul]⟩⟩

theorem pair_smul {n : ℕ} (z : ℂ) (φ ψ : State (Fin n) ℂ) : pair (fun y => z * φ y) ψ = z * pair φ ψ := by
  unfold pair; rw [Finset.mul_sum]; exact Finset.sum_congr rfl fun y _ => by ring

theorem pair_circuit {n : ℕ} (c : List Gate) (hc : ∀ g ∈ c, GateOk n g) : ∃ z : ℂ, ‖z‖ = 1 ∧ ∀ φ ψ : State (Fin n) ℂ,
    ∃ φ' ψ', applyCircuit c.reverse φ = some φ' ∧ applyCircuit c ψ = some ψ' ∧ pair φ ψ' = z * pair φ' ψ := by
  induction c with
  | nil => exact ⟨1, by simp, fun φ ψ => ⟨φ, ψ, rfl, rfl, by rw [one_mul]⟩⟩
  | cons g c ih =>
    obtain ⟨z, hz, h1⟩ := pair_gate (hc g (by simp))
    obtain ⟨w, hw, h2⟩ := ih (fun g hg => hc g (by simp [hg]))
    refine ⟨z * w, by rw [norm_mul, hz, hw, one_mul], fun φ ψ => ?_⟩
    obtain ⟨_, ψ₁, -, h3, -⟩ := h1 φ ψ
    obtain ⟨φ₁, ψ₂, h4, h5, h6⟩ := h2 φ ψ₁
    obtain ⟨φ₂, ψ₁', h7, h8, h9⟩ := h1 φ₁ ψ
    rw [h3] at h8; cases h8
    refine ⟨φ₂, ψ₂, ?_, ?_, ?_⟩
    · rw [List.reverse_cons, applyCircuit_append, h4]
      show applyCircuit [g] φ₁ = _
      unfold applyCircuit; rw [List.foldlM_cons, h7]; rfl
    · unfold applyCircuit at *; rw [List.foldlM_cons, h3]; exact h5
    · rw [h6, h9]; ring

end Verif.Dihedral
