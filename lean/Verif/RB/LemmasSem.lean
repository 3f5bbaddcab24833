import Verif.RB.Spec
set_option linter.unusedSimpArgs false
set_option linter.unusedVariables false
set_option linter.unusedTactic false
set_option linter.unreachableTactic false
/-
Operators of circuits: linearity, commutation, inverses, embedding into a larger register.
-/
namespace Verif.RB
open Verif.Quantum Complex

theorem run_nil (n : ℕ) (ψ : State (Fin n) ℂ) : run n [] ψ = ψ := rfl
theorem run_cons (n : ℕ) (i : Ins) (c : List Ins) (ψ : State (Fin n) ℂ) : run n (i :: c) ψ = run n c (act n i ψ) := rfl
theorem run_append (n : ℕ) (c d : List Ins) (ψ : State (Fin n) ℂ) : run n (c ++ d) ψ = run n d (run n c ψ) := by
  unfold run; rw [List.foldl_append]

theorem appSwap_smul {n : ℕ} (a b : Fin n) (k : ℂ) (ψ : State (Fin n) ℂ) :
    appSwap a b (fun x => k * ψ x) = fun x => k * appSwap a b ψ x := rfl

/-- One- and two-qubit gates, in the form they act. -/
theorem act_one {n : ℕ} (k : Kind) (q : ℕ) (h : q < n) (ψ : State (Fin n) ℂ) :
    act n (.gate k [q]) ψ = app1 k.mat ⟨q, h⟩ ψ := by unfold act; exact dif_pos h

/-- A two-qubit operator. -/
noncomputable def act2 {n : ℕ} (k : Kind) (a b : Fin n) (ψ : State (Fin n) ℂ) : State (Fin n) ℂ :=
  match k with
  | .cx => appCX a b ψ
  | .cz => appCZ a b ψ
  | .swap => appSwap a b ψ
  | _ => ψ

theorem act_two {n : ℕ} (k : Kind) (a b : ℕ) (ha : a < n) (hb : b < n) (ψ : State (Fin n) ℂ) :
    act n (.gate k [a, b]) ψ = act2 k ⟨a, ha⟩ ⟨b, hb⟩ ψ := by
  unfold act act2; exact dif_pos ⟨ha, hb⟩

theorem act_barrier {n : ℕ} (qs : List ℕ) (ψ : State (Fin n) ℂ) : act n (.barrier qs) ψ = ψ := rfl

theorem act2_smul {n : ℕ} (k : Kind) (a b : Fin n) (z : ℂ) (ψ : State (Fin n) ℂ) :
    act2 k a b (fun x => z * ψ x) = fun x => z * act2 k a b ψ x := by
  cases k <;> simp only [act2, appCX_smul, appCZ_smul, appSwap_smul]

/-- Case split on the instructions that may occur. -/
theorem ok_cases {n : ℕ} {i : Ins} (h : Ok n i) :
    (∃ k q, ∃ hq : q < n, i = .gate k [q] ∧ k.arity = 1) ∨
    (∃ k a b, ∃ (ha : a < n) (hb : b < n), i = .gate k [a, b] ∧ a ≠ b ∧ k.arity = 2) ∨
    ∃ qs, i = .barrier qs ∧ ∀ q ∈ qs, q < n := by
  match i, h with
  | .gate k [q], h => exact Or.inl ⟨k, q, h.2, rfl, h.1⟩
  | .gate k [a, b], h => exact Or.inr (Or.inl ⟨k, a, b, h.2.1, h.2.2.1, rfl, h.2.2.2, h.1⟩)
  | .barrier qs, h => exact Or.inr (Or.inr ⟨qs, rfl, h⟩)

theorem act_smul {n : ℕ} {i : Ins} (h : Ok n i) (z : ℂ) (ψ : State (Fin n) ℂ) :
    act n i (fun x => z * ψ x) = fun x => z * act n i ψ x := by
  rcases ok_cases h with ⟨k, q, hq, rfl, -⟩ | ⟨k, a, b, ha, hb, rfl, -, -⟩ | ⟨qs, rfl, -⟩
  · rw [act_one k q hq, act_one k q hq, app1_smul]
  · rw [act_two k a b ha hb, act_two k a b ha hb, act2_smul]
  · rfl

theorem run_smul {n : ℕ} (c : List Ins) (h : ∀ i ∈ c, Ok n i) (z : ℂ) (ψ : State (Fin n) ℂ) :
    run n c (fun x => z * ψ x) = fun x => z * run n c ψ x := by
  induction c generalizing ψ with
  | nil => rfl
  | cons i c ih =>
    rw [run_cons, run_cons, act_smul (h i (by simp)), ih (fun j hj => h j (by simp [hj]))]

/-! ### `Same` -/

theorem Same.refl (n : ℕ) (c : List Ins) : Same n c c := ⟨1, by simp, fun ψ => by simp⟩

theorem Same.symm {n : ℕ} {c d : List Ins} (h : Same n c d) : Same n d c := by
  obtain ⟨z, hz, h⟩ := h
  have z0 : z ≠ 0 := fun h => by rw [h, norm_zero] at hz; exact zero_ne_one hz
  refine ⟨z⁻¹, by rw [norm_inv, hz, inv_one], fun ψ => ?_⟩
  rw [h]; funext x; rw [← mul_assoc, inv_mul_cancel₀ z0, one_mul]

theorem Same.trans {n : ℕ} {c d e : List Ins} (h : Same n c d) (h' : Same n d e) : Same n c e := by
  obtain ⟨z, hz, h⟩ := h
  obtain ⟨w, hw, h'⟩ := h'
  refine ⟨z * w, by rw [norm_mul, hz, hw, one_mul], fun ψ => ?_⟩
  rw [h, h']; funext x; ring

theorem Same.of_eq {n : ℕ} {c d : List Ins} (h : ∀ ψ, run n c ψ = run n d ψ) : Same n c d :=
  ⟨1, by simp, fun ψ => by simp [h]⟩

theorem Same.append {n : ℕ} {a b c d : List Ins} (hc : ∀ i ∈ c, Ok n i)
    (h : Same n a b) (h' : Same n c d) : Same n (a ++ c) (b ++ d) := by
  obtain ⟨z, hz, h⟩ := h
  obtain ⟨w, hw, h'⟩ := h'
  refine ⟨z * w, by rw [norm_mul, hz, hw, one_mul], fun ψ => ?_⟩
  rw [run_append, run_append, h, run_smul c hc, h']; funext x; ring

/-! ### Commutation of gates on disjoint qubits -/

theorem swap_app1 {n : ℕ} (u : Mat2 ℂ) (q a b : Fin n) (ha : q ≠ a) (hb : q ≠ b) (ψ : State (Fin n) ℂ) :
    app1 u q (appSwap a b ψ) = appSwap a b (app1 u q ψ) := by
  funext x
  have h : ∀ v : Bool, (fun p => Function.update x q v (Equiv.swap a b p)) = Function.update (fun p => x (Equiv.swap a b p)) q v := by
    intro v; funext p
    by_cases hp : p = q
    · subst hp; rw [Equiv.swap_apply_of_ne_of_ne ha hb]; simp
    · rw [Function.update_of_ne hp, Function.update_of_ne]
      intro h
      apply hp
      have := congrArg (Equiv.swap a b) h
      rwa [Equiv.swap_apply_self, Equiv.swap_apply_of_ne_of_ne ha hb] at this
  unfold app1 appSwap
  simp only [h, Equiv.swap_apply_of_ne_of_ne ha hb]

theorem swap_swap {n : ℕ} (c d a b : Fin n) (h1 : c ≠ a) (h2 : c ≠ b) (h3 : d ≠ a) (h4 : d ≠ b) (ψ : State (Fin n) ℂ) :
    appSwap c d (appSwap a b ψ) = appSwap a b (appSwap c d ψ) := by
  funext x
  unfold appSwap
  congr 1; funext q
  congr 1
  simp only [Equiv.swap_apply_def]
  split_ifs <;> simp_all

theorem swap_cx {n : ℕ} (c d a b : Fin n) (h1 : c ≠ a) (h2 : c ≠ b) (h3 : d ≠ a) (h4 : d ≠ b) (ψ : State (Fin n) ℂ) :
    appCX c d (appSwap a b ψ) = appSwap a b (appCX c d ψ) := by
  funext x
  unfold appSwap appCX
  beta_reduce
  rw [Equiv.swap_apply_of_ne_of_ne h1 h2, Equiv.swap_apply_of_ne_of_ne h3 h4]
  congr 1; funext q
  by_cases hp : q = d
  · subst hp; rw [Equiv.swap_apply_of_ne_of_ne h3 h4]; simp
  · rw [Function.update_of_ne hp, Function.update_of_ne]
    intro h
    apply hp
    have := congrArg (Equiv.swap a b) h
    rwa [Equiv.swap_apply_self, Equiv.swap_apply_of_ne_of_ne h3 h4] at this

theorem swap_cz {n : ℕ} (c d a b : Fin n) (h1 : c ≠ a) (h2 : c ≠ b) (h3 : d ≠ a) (h4 : d ≠ b) (ψ : State (Fin n) ℂ) :
    appCZ c d (appSwap a b ψ) = appSwap a b (appCZ c d ψ) := by
  funext x
  unfold appSwap appCZ
  beta_reduce
  rw [Equiv.swap_apply_of_ne_of_ne h1 h2, Equiv.swap_apply_of_ne_of_ne h3 h4]

theorem app1_act2 {n : ℕ} (u : Mat2 ℂ) (q : Fin n) (k : Kind) (a b : Fin n) (ha : q ≠ a) (hb : q ≠ b) (ψ : State (Fin n) ℂ) :
    app1 u q (act2 k a b ψ) = act2 k a b (app1 u q ψ) := by
  cases k <;> simp only [act2] <;> first | rfl | exact app1_appCX u q a b ha hb ψ | exact app1_appCZ u q a b ha hb ψ | exact swap_app1 u q a b ha hb ψ

theorem act2_act2 {n : ℕ} (k l : Kind) (c d a b : Fin n) (h1 : c ≠ a) (h2 : c ≠ b) (h3 : d ≠ a) (h4 : d ≠ b) (ψ : State (Fin n) ℂ) :
    act2 k c d (act2 l a b ψ) = act2 l a b (act2 k c d ψ) := by
  have e1 := appCX_appCX c d a b h1 h2 h3 h4
  have e2 := appCX_appCZ c d a b h3 h4
  have e3 := appCX_appCZ a b c d h2.symm h4.symm
  have e4 := appCZ_appCZ (ι := Fin n) c d a b
  have e5 := swap_cx c d a b h1 h2 h3 h4
  have e6 := swap_cx a b c d h1.symm h3.symm h2.symm h4.symm
  have e7 := swap_cz c d a b h1 h2 h3 h4
  have e8 := swap_cz a b c d h1.symm h3.symm h2.symm h4.symm
  have e9 := swap_swap c d a b h1 h2 h3 h4
  cases k <;> cases l <;> simp only [act2] <;> first | rfl | simp only [e1, e4, e9] | simp only [e2] | simp only [e3] | simp only [e5] | simp only [e6] | simp only [e7] | simp only [e8]

/-- The qubits of an instruction. -/
def Ins.qubits : Ins → List ℕ
  | .gate _ qs => qs
  | .barrier qs => qs
  | .measure q _ => [q]

theorem act_comm {n : ℕ} {i j : Ins} (hi : Ok n i) (hj : Ok n j) (hd : ∀ q ∈ i.qubits, q ∉ j.qubits) (ψ : State (Fin n) ℂ) :
    act n i (act n j ψ) = act n j (act n i ψ) := by
  rcases ok_cases hi with ⟨k, q, hq, rfl, -⟩ | ⟨k, a, b, ha, hb, rfl, -, -⟩ | ⟨qs, rfl, -⟩
  · rcases ok_cases hj with ⟨l, p, hp, rfl, -⟩ | ⟨l, c, d, hc, hd', rfl, -, -⟩ | ⟨qs, rfl, -⟩
    · rw [act_one k q hq, act_one k q hq, act_one l p hp, act_one l p hp, app1_comm]
      intro h; exact hd q (by simp [Ins.qubits]) (by simp [Ins.qubits, Fin.mk.inj h])
    · rw [act_one k q hq, act_one k q hq, act_two l c d hc hd', act_two l c d hc hd', app1_act2]
      · intro h; exact hd q (by simp [Ins.qubits]) (by simp [Ins.qubits, Fin.mk.inj h])
      · intro h; exact hd q (by simp [Ins.qubits]) (by simp [Ins.qubits, Fin.mk.inj h])
    · rfl
  · rcases ok_cases hj with ⟨l, p, hp, rfl, -⟩ | ⟨l, c, d, hc, hd', rfl, -, -⟩ | ⟨qs, rfl, -⟩
    · rw [act_two k a b ha hb, act_two k a b ha hb, act_one l p hp, act_one l p hp, app1_act2]
      · intro h; exact hd a (by simp [Ins.qubits]) (by simp [Ins.qubits, Fin.mk.inj h])
      · intro h; exact hd b (by simp [Ins.qubits]) (by simp [Ins.qubits, Fin.mk.inj h])
    · rw [act_two k a b ha hb, act_two k a b ha hb, act_two l c d hc hd', act_two l c d hc hd', act2_act2]
      · intro h; exact hd a (by simp [Ins.qubits]) (by simp [Ins.qubits, Fin.mk.inj h])
      · intro h; exact hd a (by simp [Ins.qubits]) (by simp [Ins.qubits, Fin.mk.inj h])
      · intro h; exact hd b (by simp [Ins.qubits]) (by simp [Ins.qubits, Fin.mk.inj h])
      · intro h; exact hd b (by simp [Ins.qubits]) (by simp [Ins.qubits, Fin.mk.inj h])
    · rfl
  · rfl

/-! ### Inverse circuits -/

theorem arity_inv (k : Kind) : k.inv.arity = k.arity := by cases k <;> rfl

theorem mat_inv (k : Kind) : mmul k.inv.mat k.mat = mI := by
  have h := rt_sq
  have hI := I_mul_I
  cases k with
  | h => exact mH_mH
  | s => exact mSdg_mS
  | sdg => exact mS_mSdg
  | t k =>
    have h0 : Verif.Dihedral.ω ≠ 0 := by unfold Verif.Dihedral.ω; exact exp_ne_zero _
    funext r c; cases r <;> cases c <;> simp [Kind.inv, Kind.mat, mmul, Verif.Dihedral.mTpow, mI]
    rw [inv_mul_cancel₀ (zpow_ne_zero _ h0)]
  | rx90 => funext r c; cases r <;> cases c <;> simp [Kind.inv, Kind.mat, mmul, mI] <;> first | linear_combination 2 * h - rt * rt * hI | ring
  | rx90dg => funext r c; cases r <;> cases c <;> simp [Kind.inv, Kind.mat, mmul, mI] <;> first | linear_combination 2 * h - rt * rt * hI | ring
  | ry90 => funext r c; cases r <;> cases c <;> simp [Kind.inv, Kind.mat, mmul, mI] <;> first | linear_combination 2 * h | ring
  | ry90dg => funext r c; cases r <;> cases c <;> simp [Kind.inv, Kind.mat, mmul, mI] <;> first | linear_combination 2 * h | ring
  | x => funext r c; cases r <;> cases c <;> simp [Kind.inv, Kind.mat, mmul, mI, mX]
  | y => funext r c; cases r <;> cases c <;> simp [Kind.inv, Kind.mat, mmul, mI, Verif.Dihedral.mY]
  | z => funext r c; cases r <;> cases c <;> simp [Kind.inv, Kind.mat, mmul, mI, mZ]
  | id => funext r c; cases r <;> cases c <;> simp [Kind.inv, Kind.mat, mmul, mI]
  | cx => funext r c; cases r <;> cases c <;> simp [Kind.inv, Kind.mat, mmul, mI]
  | cz => funext r c; cases r <;> cases c <;> simp [Kind.inv, Kind.mat, mmul, mI]
  | swap => funext r c; cases r <;> cases c <;> simp [Kind.inv, Kind.mat, mmul, mI]

theorem act2_inv {n : ℕ} (k : Kind) (a b : Fin n) (h : a ≠ b) (ψ : State (Fin n) ℂ) : act2 k.inv a b (act2 k a b ψ) = ψ := by
  cases k <;> simp only [act2, Kind.inv]
  · funext x
    unfold appCX
    rw [Function.update_self, Function.update_of_ne h, Function.update_idem]
    congr 1
    have : Bool.xor (Bool.xor (x b) (x a)) (x a) = x b := by cases x b <;> cases x a <;> rfl
    rw [this, Function.update_eq_self]
  · funext x
    unfold appCZ
    split_ifs <;> simp
  · funext x
    unfold appSwap
    simp

theorem act_inv {n : ℕ} {i j : Ins} (hi : Ok n i) (hj : i.inv = some j) : Ok n j ∧ ∀ ψ, act n j (act n i ψ) = ψ := by
  rcases ok_cases hi with ⟨k, q, hq, rfl, hk⟩ | ⟨k, a, b, ha, hb, rfl, hab, hk⟩ | ⟨qs, rfl, hqs⟩
  · cases hj
    exact ⟨⟨(arity_inv k).trans hk, hq⟩, fun ψ => by rw [act_one k q hq, act_one k.inv q hq, app1_mul, mat_inv, app1_one]⟩
  · cases hj
    exact ⟨⟨(arity_inv k).trans hk, ha, hb, hab⟩, fun ψ => by
      rw [act_two k a b ha hb, act_two k.inv a b ha hb, act2_inv]; intro h; exact hab (Fin.mk.inj h)⟩
  · cases hj; exact ⟨hqs, fun ψ => rfl⟩

theorem invCirc_spec {n : ℕ} {c : List Ins} (hc : ∀ i ∈ c, Ok n i) :
    ∃ d, invCirc c = some d ∧ (∀ i ∈ d, Ok n i) ∧ (∀ i ∈ d, ∃ j ∈ c, j.inv = some i) ∧ ∀ ψ, run n (c ++ d) ψ = ψ := by
  induction c with
  | nil => exact ⟨[], rfl, by simp, by simp, fun ψ => rfl⟩
  | cons i c ih =>
    obtain ⟨d, h1, h2, h3, h4⟩ := ih fun j hj => hc j (by simp [hj])
    have hi := hc i (by simp)
    obtain ⟨j, hj⟩ : ∃ j, i.inv = some j := by
      rcases ok_cases hi with ⟨k, q, hq, rfl, hk⟩ | ⟨k, a, b, ha, hb, rfl, hab, hk⟩ | ⟨qs, rfl, hqs⟩ <;> exact ⟨_, rfl⟩
    obtain ⟨hj1, hj2⟩ := act_inv hi hj
    unfold invCirc at h1 ⊢
    obtain ⟨d', h5, h6⟩ := Option.map_eq_some_iff.1 h1
    refine ⟨d ++ [j], by rw [List.mapM_cons, hj, h5]; simp [← h6], ?_, ?_, ?_⟩
    · intro k hk
      rcases List.mem_append.1 hk with hk | hk
      · exact h2 k hk
      · rw [List.mem_singleton.1 hk]; exact hj1
    · intro k hk
      rcases List.mem_append.1 hk with hk | hk
      · obtain ⟨l, hl, e⟩ := h3 k hk; exact ⟨l, by simp [hl], e⟩
      · rw [List.mem_singleton.1 hk]; exact ⟨i, by simp, hj⟩
    · intro ψ
      rw [List.cons_append, run_cons, ← List.append_assoc, run_append, h4, run_cons, run_nil, hj2]

end Verif.RB
