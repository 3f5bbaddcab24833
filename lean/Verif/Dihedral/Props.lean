import Verif.Dihedral.LemmasOrder
/-
C35–C38 and C40: phase polynomials and elements of the CNOT-dihedral group
(qiskit/ignis/verification/randomized_benchmarking/dihedral.py).

The specification is in `Spec.lean`: `value p x` is the value mod 8 of a phase polynomial at a 0/1
point, `img e x` the image `ω^{p(x)} |Bx + c⟩` of a basis state, `opApply e` its linear extension,
`applyGate`/`applyCircuit` the gates as matrices on state vectors and `SameOp` equality up to one
global phase.
-/
set_option linter.unusedSimpArgs false
set_option linter.unusedVariables false
namespace Verif.Dihedral
open Verif.Quantum

/-! ### C35 -/

/-- C35: on a polynomial of any number of variables `set_term` accepts every increasing index tuple of
length at most 3, afterwards `get_term` returns the value (mod 8) for this tuple, and the old value for
every other such tuple; the tables keep their sizes. -/
theorem C35_set_get {n : ℕ} (p : Poly n) (hp : WF p) (t : List ℕ) (ht : Valid n t) (v : ℤ) :
    ∃ q, setTerm p t v = some q ∧ WF q ∧ getTerm q t = some (v % 8) ∧
      ∀ s, Valid n s → s ≠ t → getTerm q s = getTerm p s := by
  obtain ⟨q, h1, h2⟩ := setTerm_isSome p hp ht v
  refine ⟨q, h1, h2, ?_, fun s hs hne => ?_⟩
  · rw [getTerm_setTerm p q hp ht ht v h1, if_pos rfl]
  · rw [getTerm_setTerm p q hp ht hs v h1, if_neg hne]

/-- C35: `get_term` answers for every increasing index tuple of length at most 3. -/
theorem C35_get {n : ℕ} (p : Poly n) (hp : WF p) (t : List ℕ) (ht : Valid n t) : ∃ v, getTerm p t = some v :=
  getTerm_isSome p hp ht

/-- C35: tuples that are not increasing, or out of range, are rejected by both. -/
theorem C35_rejects {n : ℕ} (p : Poly n) (t : List ℕ) (hl : t.length ≤ 3) (ht : ¬ Valid n t) (v : ℤ) :
    getTerm p t = none ∧ setTerm p t v = none := by
  have hok : okIdx n t = false := by
    by_contra h
    rw [Bool.not_eq_false] at h
    apply ht
    unfold okIdx at h
    simp only [Bool.and_eq_true, Bool.not_eq_true'] at h
    refine ⟨(any_diff_iff hl).1 h.2, fun i hi => ?_, hl⟩
    have := h.1
    rw [List.any_eq_false] at this
    have := this i hi
    simpa using this
  constructor
  · unfold getTerm; rw [if_neg (by omega), hok]; rfl
  · unfold setTerm; rw [if_neg (by omega), hok]; rfl

/-- The hypotheses are met: five variables, a cubic term. -/
example : WF (Poly.zero 5) ∧ Valid 5 [1, 3, 4] ∧ ¬ Valid 5 [3, 1] := by
  refine ⟨WF.zero 5, ?_, ?_⟩ <;> unfold Valid <;> decide

/-! ### C36 -/

/-- C36: values of a sum, mod 8, at every point. -/
theorem C36_add {n : ℕ} (p q : Poly n) (hp : WF p) (hq : WF q) (x : ℕ → Bool) :
    WF (add p q) ∧ value (add p q) x = value p x + value q x := ⟨hp.add hq, value_add hp hq x⟩

/-- C36: values of an integer multiple. -/
theorem C36_smul {n : ℕ} (p : Poly n) (hp : WF p) (k : ℤ) (x : ℕ → Bool) :
    WF (smul p k) ∧ value (smul p k) x = value p x * k := ⟨hp.smul k, value_smul hp k x⟩

/-- C36: the coefficients of the product with a monomial, in whatever order sets are enumerated: the
coefficient of `S` collects all terms `T` with `T ∪ M = S`; terms of more than three variables are
dropped. -/
theorem C36_mul_monomial_coefficients {n : ℕ} (so : SetOrder) (hso : IsSetOrder so) (p q : Poly n) (hp : WF p)
    (M : List ℕ) (h : mulMonomial so p M = some q) (S : Finset ℕ) (hS : S ∈ Terms n) :
    coef q S = ∑ T ∈ Terms n, if T ∪ M.toFinset = S then coef p T else 0 :=
  (coef_mulMonomial hso hp h).2 S hS

/-- An accepted monomial is over existing variables. -/
theorem mulMonomial_valid {n : ℕ} {so : SetOrder} (hso : IsSetOrder so) {p q : Poly n} {M : List ℕ}
    (h : mulMonomial so p M = some q) : Valid n M := by
  obtain ⟨h1, h2⟩ := mulMonomial_idx h
  by_cases h0 : M.length = 0
  · rw [List.length_eq_zero_iff] at h0; subst h0; exact ⟨List.Pairwise.nil, by simp, by simp⟩
  unfold mulMonomial at h
  rw [if_neg (by omega), if_neg (by simpa using (any_diff_iff h2).2 h1), if_neg h0] at h
  have hfst : ∃ r, mulMonomialStep so p M (Poly.zero n) [] = some r := by
    rw [terms, List.append_assoc, List.append_assoc, List.singleton_append, List.foldlM_cons] at h
    cases hs : mulMonomialStep so p M (Poly.zero n) [] with
    | none => rw [hs] at h; simp at h
    | some r => exact ⟨r, rfl⟩
  obtain ⟨r, hr⟩ := hfst
  unfold mulMonomialStep at hr
  have hso' := hso [] M List.Pairwise.nil (by simp) h1 h2
  have hlen : (so [] M).length ≤ 3 := by
    have hsub : so [] M ⊆ M := fun i hi => by simpa using (hso'.2 i).1 hi
    exact (hso'.1.subperm hsub).length_le.trans h2
  cases hg : getTerm (Poly.zero n) (so [] M) with
  | none => simp [hg, getTerm_nil] at hr
  | some v =>
    have hok : okIdx n (so [] M) = true := by
      by_contra hb
      unfold getTerm at hg
      rw [if_neg (by omega)] at hg
      simp [hb] at hg
    refine ⟨h1, fun i hi => ?_, h2⟩
    have hmem : i ∈ so [] M := (hso'.2 i).2 (Or.inr hi)
    unfold okIdx at hok
    simp only [Bool.and_eq_true, Bool.not_eq_true', List.any_eq_false] at hok
    simpa using hok.1 i hmem

/-- C36: multiplying by a monomial `M` (when accepted, in whatever order sets are enumerated) multiplies
the value at every point by the value of `M`, provided that no term present in the polynomial leaves the
representable range, i.e. has more than three variables together with `M`. -/
theorem C36_mul_monomial {n : ℕ} (so : SetOrder) (hso : IsSetOrder so) (p q : Poly n) (hp : WF p) (M : List ℕ)
    (h : mulMonomial so p M = some q)
    (hdeg : ∀ T ∈ Terms n, coef p T ≠ 0 → (T ∪ M.toFinset).card ≤ 3) (x : ℕ → Bool) :
    value q x = value p x * mono x M.toFinset := by
  obtain ⟨-, hc⟩ := coef_mulMonomial hso hp h
  have hv := mulMonomial_valid hso h
  rw [value_eq_of_conv (Terms n) (coef p) (fun T => T ∪ M.toFinset) hc x]
  unfold value
  rw [Finset.sum_mul]
  refine Finset.sum_congr rfl fun T hT => ?_
  by_cases h0 : coef p T = 0
  · simp [h0]
  · rw [if_pos (by
      by_contra hn
      have := union_mem_Terms hT hv.mem_Terms hn
      have := hdeg T hT h0
      omega), mono_union, mul_assoc]

/-- C36: with CPython's set order and at most eight variables `mul_monomial` accepts every increasing
tuple of at most three variables. -/
theorem C36_mul_monomial_accepts {n : ℕ} (hn : n ≤ 8) (p : Poly n) (hp : WF p) (M : List ℕ) (hM : Valid n M) :
    ∃ q, mulMonomial cpySetOrder p M = some q := by
  rw [mulMonomial_agree (cpy_agree hn) p hM]
  exact mulMonomial_some sorted_isSetOrder (sorted_ascending n) hp hM

/-- Where the restriction on degrees matters: `x₀x₁x₂ · x₃` becomes the zero polynomial, although its
value at the all-ones point is 1. -/
theorem C36_finding_degree_four_dropped :
    ∃ p : Poly 4, WF p ∧ setTerm (Poly.zero 4) [0, 1, 2] 1 = some p ∧ mulMonomial cpySetOrder p [3] = some (Poly.zero 4) ∧
      value p (fun _ => true) * mono (fun _ => true) {3} = 1 := by
  refine ⟨⟨0, [0, 0, 0, 0], [0, 0, 0, 0, 0, 0], [1, 0, 0, 0]⟩, by unfold WF; decide, by decide +kernel, by decide +kernel, ?_⟩
  have h := getTerm_isSome (n := 4)
  have hv : value (⟨0, [0, 0, 0, 0], [0, 0, 0, 0, 0, 0], [1, 0, 0, 0]⟩ : Poly 4) (fun _ => true) = 1 := by
    have hz : Valid 4 [0, 1, 2] := by unfold Valid; decide
    have hp : setTerm (Poly.zero 4) [0, 1, 2] 1 = some ⟨0, [0, 0, 0, 0], [0, 0, 0, 0, 0, 0], [1, 0, 0, 0]⟩ := by
      decide +kernel
    rw [value_add_single (p := Poly.zero 4) hz.mem_Terms 1, value_zero]
    · simp [mono]
    · intro S hS
      rw [coef_setTerm (WF.zero 4) hz hp hS]
      rw [coef_zero]
      by_cases hS' : S = [0, 1, 2].toFinset <;> simp [hS', coef_zero]
  rw [hv]; simp [mono]

/-- On nine variables CPython enumerates `{1, 8}` as `8, 1`, and `mul_monomial` raises
"Indices are non-increasing!" even for the zero polynomial and a single variable. -/
theorem C36_finding_nine_variables :
    mulMonomial cpySetOrder (Poly.zero 9) [0] = none ∧ mulMonomial cpySetOrder (Poly.zero 9) [8] = none := by
  constructor <;> decide +kernel

/-- The hypotheses are met: `(2x₀ + 6x₀x₁ + 4x₁x₂) · x₀` on three variables. -/
example : ∃ p q : Poly 3, WF p ∧ mulMonomial cpySetOrder p [0] = some q ∧
    q = ⟨0, [2, 0, 0], [6, 0, 0], [4]⟩ ∧ p = ⟨0, [2, 0, 0], [6, 0, 4], [0]⟩ := by
  refine ⟨_, _, ?_, ?_, rfl, rfl⟩
  · unfold WF; decide
  · decide +kernel
example : IsSetOrder sorted ∧ AscendingBelow sorted 20 := ⟨sorted_isSetOrder, sorted_ascending 20⟩

/-! ### C37 -/

theorem gate_step {n : ℕ} {e : Elem n} (he : isCnotDihedral e = true) {g : Gate} (hg : GateOk n g) :
    ∃ r, appendGate e g = some r ∧ isCnotDihedral r = true ∧
      ∃ z : ℂ, ‖z‖ = 1 ∧ ∀ x, applyGate g (img e x) = some fun y => z * img r x y := by
  obtain ⟨ge, re, we, de⟩ := (isCnot_iff e).1 he
  obtain ⟨r, h, s⟩ := step_gate ge hg
  exact ⟨r, h, (isCnot_iff r).2 ⟨s.good, s.rd re, s.w0.trans we, s.det de⟩, applyGate_img hg s⟩

/-- From `U e = z · r` to the statement about `r`. -/
theorem sameOp_symm' {n : ℕ} {f g : (Fin n → Bool) → State (Fin n) ℂ} {z : ℂ} (hz : ‖z‖ = 1)
    (h : ∀ x, f x = fun y => z * g x y) : SameOp g f := by
  have h0 : z ≠ 0 := fun h => by rw [h, norm_zero] at hz; exact zero_ne_one hz
  refine ⟨z⁻¹, by rw [norm_inv, hz, inv_one], fun x => ?_⟩
  funext y
  rw [h x, ← mul_assoc, inv_mul_cancel₀ h0, one_mul]

theorem SameOp.symm {n : ℕ} {f g : (Fin n → Bool) → State (Fin n) ℂ} (h : SameOp f g) : SameOp g f := by
  obtain ⟨z, hz, h⟩ := h
  exact sameOp_symm' hz h

theorem SameOp.trans {n : ℕ} {f g k : (Fin n → Bool) → State (Fin n) ℂ} (h : SameOp f g) (h' : SameOp g k) :
    SameOp f k := by
  obtain ⟨z, hz, h⟩ := h
  obtain ⟨w, hw, h'⟩ := h'
  refine ⟨z * w, by rw [norm_mul, hz, hw, one_mul], fun x => ?_⟩
  funext y
  rw [h x, h' x]; simp only; ring

theorem apply_x {n : ℕ} (i : Fin n) (ψ : State (Fin n) ℂ) : applyGate (.x i) ψ = some (app1 mX i ψ) := by
  unfold applyGate; exact dif_pos i.2
theorem apply_u1 {n : ℕ} (k : ℤ) (i : Fin n) (ψ : State (Fin n) ℂ) :
    applyGate (.u1 k i) ψ = some (app1 (mTpow k) i ψ) := by
  unfold applyGate; exact dif_pos i.2
theorem apply_cx {n : ℕ} {i j : Fin n} (h : i ≠ j) (ψ : State (Fin n) ℂ) :
    applyGate (.cx i j) ψ = some (appCX i j ψ) := by
  unfold applyGate; exact dif_pos ⟨⟨i.2, j.2⟩, fun h' => h (Fin.ext h')⟩

/-- C37: `cnot(i, j)` on two different qubits composes the operator of the element with CX, up to a
global phase, and keeps the element valid. -/
theorem C37_cnot {n : ℕ} (e : Elem n) (he : isCnotDihedral e = true) (i j : Fin n) (hij : i ≠ j) :
    ∃ r, cnot e i j = some r ∧ isCnotDihedral r = true ∧ SameOp (img r) (fun x => appCX i j (img e x)) := by
  have hg : GateOk n (.cx i j) := ⟨⟨i.2, j.2⟩, fun h => hij (Fin.ext h)⟩
  obtain ⟨r, h, hv, z, hz, hx⟩ := gate_step he hg
  refine ⟨r, h, hv, sameOp_symm' hz fun x => ?_⟩
  exact Option.some.inj ((apply_cx hij _).symm.trans (hx x))

/-- C37: `phase(k, i)` composes with `T^k = diag(1, e^{ikπ/4})` on qubit `i`. -/
theorem C37_phase {n : ℕ} (e : Elem n) (he : isCnotDihedral e = true) (k : ℤ) (i : Fin n) :
    ∃ r, phase e k i = some r ∧ isCnotDihedral r = true ∧ SameOp (img r) (fun x => app1 (mTpow k) i (img e x)) := by
  have hg : GateOk n (.u1 k i) := i.2
  obtain ⟨r, h, hv, z, hz, hx⟩ := gate_step he hg
  refine ⟨r, h, hv, sameOp_symm' hz fun x => ?_⟩
  exact Option.some.inj ((apply_u1 k i _).symm.trans (hx x))

/-- C37: `flip(i)` composes with X on qubit `i`. -/
theorem C37_flip {n : ℕ} (e : Elem n) (he : isCnotDihedral e = true) (i : Fin n) :
    ∃ r, flip e i = some r ∧ isCnotDihedral r = true ∧ SameOp (img r) (fun x => app1 mX i (img e x)) := by
  have hg : GateOk n (.x i) := i.2
  obtain ⟨r, h, hv, z, hz, hx⟩ := gate_step he hg
  refine ⟨r, h, hv, sameOp_symm' hz fun x => ?_⟩
  exact Option.some.inj ((apply_x i _).symm.trans (hx x))

/-- C37: the identity element is valid and stands for the identity operator. -/
theorem C37_identity (n : ℕ) : isCnotDihedral (Elem.one n) = true ∧ ∀ x, img (Elem.one n) x = ket x :=
  ⟨valid_one n, img_one⟩

/-- C37: `from_circuit` of any circuit of x, y, z, u1(kπ/4), cx, cz and id gates on existing distinct
qubits yields a valid element, and its operator is the one of the circuit up to a global phase. -/
theorem C37_circuit {n : ℕ} (c : List Gate) (hc : ∀ g ∈ c, GateOk n g) :
    ∃ r, fromCircuit n c = some r ∧ isCnotDihedral r = true ∧
      ∃ U : (Fin n → Bool) → State (Fin n) ℂ, (∀ x, applyCircuit c (ket x) = some (U x)) ∧ SameOp (img r) U := by
  obtain ⟨ge, re, we, de⟩ := (isCnot_iff _).1 (valid_one n)
  obtain ⟨r, h, ⟨A, k, s⟩, z, hz, hx⟩ := applyCircuit_img c hc ge
  refine ⟨r, h, (isCnot_iff r).2 ⟨s.good, s.rd re, s.w0.trans we, s.det de⟩,
    fun x y => z * img r x y, fun x => ?_, sameOp_symm' hz fun x => rfl⟩
  rw [← img_one]; exact hx x

/-- C37: other gates are rejected. -/
theorem C37_rejects {n : ℕ} (c d : List Gate) (q : List ℕ) : fromCircuit n (c ++ .other q :: d) = none := by
  unfold fromCircuit appendCircuit
  rw [List.foldlM_append]
  cases h : c.foldlM appendGate (Elem.one n) with
  | none => rfl
  | some r => simp [List.foldlM_cons, appendGate]

/-- `cnot` with equal control and target is accepted and makes the element singular. -/
theorem C37_finding_equal_qubits : ∃ r, cnot (Elem.one 1) 0 0 = some r ∧ isCnotDihedral r = false := by
  refine ⟨⟨Poly.zero 1, fun _ _ => 0, fun _ => 0⟩, ?_, ?_⟩
  · unfold cnot
    rw [dif_pos (by decide)]
    congr 2
    · funext i j; fin_cases i; fin_cases j; decide
    · funext i; fin_cases i; decide
  · decide +kernel

/-- The hypotheses are met: a three-qubit circuit of all gates. -/
example : ∃ r, fromCircuit 3 [.x 0, .cx 0 1, .u1 3 1, .cz 2 1, .y 2, .z 0, .cx 2 0, .u1 (-1) 2, .id 1] = some r ∧
    isCnotDihedral r = true := by
  obtain ⟨r, h, hv, -⟩ := C37_circuit (n := 3)
    [.x 0, .cx 0 1, .u1 3 1, .cz 2 1, .y 2, .z 0, .cx 2 0, .u1 (-1) 2, .id 1] (by simp [GateOk])
  exact ⟨r, h, hv⟩

/-! ### C38 -/

theorem norm_W (k : ZMod 8) : ‖W k‖ = 1 := W_norm k

theorem mul_sameOp {n : ℕ} {so : SetOrder} (hso : IsSetOrder so) {a b r : Elem n} (ha : isCnotDihedral a = true)
    (hb : isCnotDihedral b = true) (h : elemMul so a b = some r) :
    isCnotDihedral ({ r with poly := { r.poly with w0 := 0 } } : Elem n) = true ∧
      SameOp (img ({ r with poly := { r.poly with w0 := 0 } } : Elem n)) (fun x => opApply a (img b x)) := by
  obtain ⟨h1, h2⟩ := mul_valid hso ha hb h
  exact ⟨h1, sameOp_symm' (norm_W _) fun x => funext fun y => h2 x y⟩

/-- C38: whenever `a.compose(b)` returns, in whatever order sets are enumerated, the result is a valid
element and stands for first `a` then `b` (`front`: first `b` then `a`), up to a global phase. -/
theorem C38_compose {n : ℕ} (so : SetOrder) (hso : IsSetOrder so) (a b r : Elem n) (ha : isCnotDihedral a = true)
    (hb : isCnotDihedral b = true) (front : Bool) (h : compose so a b front = some r) :
    isCnotDihedral r = true ∧
      SameOp (img r) (fun x => if front then opApply a (img b x) else opApply b (img a x)) := by
  unfold compose at h
  cases front with
  | true =>
    simp only [if_true, Option.bind_eq_bind] at h ⊢
    obtain ⟨r', h', hr⟩ := Option.bind_eq_some_iff.1 h
    cases hr
    exact mul_sameOp hso ha hb h'
  | false =>
    simp only [Bool.false_eq_true, if_false, Option.bind_eq_bind] at h ⊢
    obtain ⟨r', h', hr⟩ := Option.bind_eq_some_iff.1 h
    cases hr
    exact mul_sameOp hso hb ha h'

/-- C38: whenever `a.dot(b)` returns, it stands for the matrix product: first `b` then `a`. -/
theorem C38_dot {n : ℕ} (so : SetOrder) (hso : IsSetOrder so) (a b r : Elem n) (ha : isCnotDihedral a = true)
    (hb : isCnotDihedral b = true) (h : dot so a b = some r) :
    isCnotDihedral r = true ∧ SameOp (img r) (fun x => opApply a (img b x)) := by
  unfold dot at h
  obtain ⟨r', h', hr⟩ := Option.bind_eq_some_iff.1 h
  cases hr
  exact mul_sameOp hso ha hb h'

/-- C38: on at most eight qubits, with CPython's set order, `compose` and `dot` return for all valid
elements. -/
theorem C38_returns {n : ℕ} (hn : n ≤ 8) (a b : Elem n) (ha : isCnotDihedral a = true) (hb : isCnotDihedral b = true) :
    (∃ r, dot cpySetOrder a b = some r) ∧ ∀ front, ∃ r, compose cpySetOrder a b front = some r := by
  have hga := ((isCnot_iff a).1 ha).1
  have hgb := ((isCnot_iff b).1 hb).1
  obtain ⟨r, hr⟩ := elemMul_some sorted_isSetOrder (sorted_ascending n) hga hgb
  obtain ⟨s, hs⟩ := elemMul_some sorted_isSetOrder (sorted_ascending n) hgb hga
  rw [← elemMul_agree (cpy_agree hn)] at hr hs
  refine ⟨⟨_, by unfold dot; rw [hr]; rfl⟩, fun front => ?_⟩
  cases front with
  | true => exact ⟨_, by unfold compose; rw [if_pos rfl, hr]; rfl⟩
  | false => exact ⟨_, by unfold compose; rw [if_neg (by simp), hs]; rfl⟩

/-- C38, both together, for CPython on at most eight qubits. -/
theorem C38_compose_cpython {n : ℕ} (hn : n ≤ 8) (a b : Elem n) (ha : isCnotDihedral a = true)
    (hb : isCnotDihedral b = true) (front : Bool) :
    ∃ r, compose cpySetOrder a b front = some r ∧ isCnotDihedral r = true ∧
      SameOp (img r) (fun x => if front then opApply a (img b x) else opApply b (img a x)) := by
  obtain ⟨r, hr⟩ := (C38_returns hn a b ha hb).2 front
  have hr' : compose sorted a b front = some r := by
    rw [← hr]; unfold compose; rw [elemMul_agree (cpy_agree hn), elemMul_agree (cpy_agree hn)]
  obtain ⟨h1, h2⟩ := C38_compose sorted sorted_isSetOrder a b r ha hb front hr'
  exact ⟨r, hr, h1, h2⟩

/-- On nine qubits, with CPython's set order, `compose` raises: here `T` on qubit 0 after the identity. -/
theorem C38_finding_nine_qubits : ∃ a b : Elem 9, isCnotDihedral a = true ∧ isCnotDihedral b = true ∧
    phase (Elem.one 9) 1 0 = some b ∧ a = Elem.one 9 ∧ compose cpySetOrder a b false = none := by
  obtain ⟨b, hb, hv, -⟩ := C37_phase (Elem.one 9) (valid_one 9) 1 (0 : Fin 9)
  refine ⟨_, b, valid_one 9, hv, hb, rfl, ?_⟩
  have hb' : b = ⟨⟨0, [1, 0, 0, 0, 0, 0, 0, 0, 0], List.replicate 36 0, List.replicate 84 0⟩, (Elem.one 9).linear, (Elem.one 9).shift⟩ := by
    have : (phase (Elem.one 9) 1 ((0 : Fin 9) : ℕ)).map Elem.poly =
      some ⟨0, [1, 0, 0, 0, 0, 0, 0, 0, 0], List.replicate 36 0, List.replicate 84 0⟩ := by decide +kernel
    rw [hb] at this
    have h1 : b.poly = _ := Option.some.inj this
    have h2 : b.linear = (Elem.one 9).linear ∧ b.shift = (Elem.one 9).shift := by
      unfold phase at hb
      rw [dif_pos (by decide)] at hb
      simp only [Option.bind_eq_bind, Option.bind_eq_some_iff] at hb
      obtain ⟨_, _, _, _, _, _, h⟩ := hb
      cases h
      exact ⟨rfl, rfl⟩
    rw [← h1, ← h2.1, ← h2.2]
  rw [hb']
  have : (compose cpySetOrder (Elem.one 9) (⟨⟨0, [1, 0, 0, 0, 0, 0, 0, 0, 0], List.replicate 36 0, List.replicate 84 0⟩, (Elem.one 9).linear, (Elem.one 9).shift⟩ : Elem 9) false).isNone = true := by
    decide +kernel
  simpa using this

/-- `__rmul__` reads the shift of the wrong operand: with self = X and other = T the product `other * self`
computed by `self.__rmul__(other)` is not the composed operator (it is the valid element T·x ↦ x + 1). -/
theorem C38_finding_rmul : ∃ self other r : Elem 1, isCnotDihedral self = true ∧ isCnotDihedral other = true ∧
    elemRmul cpySetOrder self other = some r ∧ isCnotDihedral r = true ∧
    ¬ SameOp (img r) (fun x => opApply other (img self x)) := by
  have hs : elemMul cpySetOrder (⟨⟨0, [1], [], []⟩, fun _ _ => 1, fun _ => 0⟩ : Elem 1)
      ⟨⟨0, [0], [], []⟩, fun _ _ => 1, fun _ => 1⟩ = some ⟨⟨1, [7], [], []⟩, fun _ _ => 1, fun _ => 1⟩ := by
    unfold elemMul
    have e1 : (List.finRange 1).mapM (fun i => newVar (n := 1) ((fun _ _ => (1 : ℤ) : Fin 1 → Fin 1 → ℤ) i) ((fun _ => (1 : ℤ) : Fin 1 → ℤ) i)) =
      some [⟨1, [7], [], []⟩] := by decide +kernel
    rw [e1]
    have e2 : evaluate (n := 1) cpySetOrder ⟨0, [1], [], []⟩ [⟨1, [7], [], []⟩] = some ⟨1, [7], [], []⟩ := by decide +kernel
    simp only [Option.bind_eq_bind, Option.bind_some, e2]
    congr 2
  have hr : elemRmul cpySetOrder (⟨⟨0, [0], [], []⟩, fun _ _ => 1, fun _ => 1⟩ : Elem 1)
      ⟨⟨0, [1], [], []⟩, fun _ _ => 1, fun _ => 0⟩ = some ⟨⟨0, [1], [], []⟩, fun _ _ => 1, fun _ => 1⟩ := by
    unfold elemRmul
    have e1 : (List.finRange 1).mapM (fun i => newVar (n := 1) ((fun _ _ => (1 : ℤ) : Fin 1 → Fin 1 → ℤ) i) ((fun _ => (0 : ℤ) : Fin 1 → ℤ) i)) =
      some [⟨0, [1], [], []⟩] := by decide +kernel
    rw [e1]
    have e2 : evaluate (n := 1) cpySetOrder ⟨0, [1], [], []⟩ [⟨0, [1], [], []⟩] = some ⟨0, [1], [], []⟩ := by decide +kernel
    simp only [Option.bind_eq_bind, Option.bind_some, e2]
    congr 2
  refine ⟨_, _, _, by decide +kernel, by decide +kernel, hr, by decide +kernel, fun h => ?_⟩
  obtain ⟨h1, h2⟩ := mul_sameOp sorted_isSetOrder (by decide +kernel) (by decide +kernel)
    ((elemMul_agree (cpy_agree (by norm_num)) _ _).symm.trans hs)
  have := eq_of_sameOp (by decide +kernel) h1 (h.trans h2.symm)
  have := congrArg (fun e => e.poly.w1) this
  revert this; decide

/-- The hypotheses are met. -/
example : ∃ a b r : Elem 2, isCnotDihedral a = true ∧ isCnotDihedral b = true ∧ a ≠ b ∧
    compose cpySetOrder a b false = some r := by
  obtain ⟨a, -, ha, -⟩ := C37_cnot (Elem.one 2) (valid_one 2) 0 1 (by decide)
  obtain ⟨b, hb, hb', -⟩ := C37_flip (Elem.one 2) (valid_one 2) 0
  obtain ⟨r, hr⟩ := (C38_returns (by norm_num) (Elem.one 2) b (valid_one 2) hb').2 false
  refine ⟨_, b, r, valid_one 2, hb', ?_, hr⟩
  intro h
  have h2 : (flip (Elem.one 2) ((0 : Fin 2) : ℕ)).map (fun e => e.shift 0) = some 1 := by decide +kernel
  rw [hb, ← h] at h2
  revert h2; decide +kernel

/-! ### C40 -/

/-- C40: two valid elements compare equal if and only if they stand for the same operator up to a global
phase. -/
theorem C40_eq_iff {n : ℕ} (a b : Elem n) (ha : isCnotDihedral a = true) (hb : isCnotDihedral b = true) :
    elemEq a b = true ↔ SameOp (img a) (img b) := by
  unfold elemEq
  rw [decide_eq_true_eq]
  constructor
  · rintro rfl; exact ⟨1, by simp, fun x => by simp⟩
  · exact eq_of_sameOp ha hb

/-- C40: hence two circuits give equal elements if and only if they implement the same operator up to a
global phase. -/
theorem C40_circuits {n : ℕ} (c d : List Gate) (hc : ∀ g ∈ c, GateOk n g) (hd : ∀ g ∈ d, GateOk n g) :
    ∃ (a b : Elem n) (U V : (Fin n → Bool) → State (Fin n) ℂ), fromCircuit n c = some a ∧ fromCircuit n d = some b ∧ (∀ x, applyCircuit c (ket x) = some (U x)) ∧
      (∀ x, applyCircuit d (ket x) = some (V x)) ∧ (elemEq a b = true ↔ SameOp U V) := by
  obtain ⟨a, h1, h2, U, h3, h4⟩ := C37_circuit c hc
  obtain ⟨b, h5, h6, V, h7, h8⟩ := C37_circuit d hd
  refine ⟨a, b, U, V, h1, h5, h3, h7, ?_⟩
  rw [C40_eq_iff a b h2 h6]
  exact ⟨fun h => (h4.symm.trans h).trans h8, fun h => (h4.trans h).trans h8.symm⟩

/-- The hypotheses are met, with different elements: the identity and X on one of two qubits. -/
example : ∃ a b : Elem 2, isCnotDihedral a = true ∧ isCnotDihedral b = true ∧ elemEq a b = false := by
  obtain ⟨b, hb, hb', -⟩ := C37_flip (Elem.one 2) (valid_one 2) 0
  refine ⟨_, b, valid_one 2, hb', ?_⟩
  unfold elemEq
  rw [decide_eq_false_iff_not]
  intro h
  have h2 : (flip (Elem.one 2) ((0 : Fin 2) : ℕ)).map (fun e => e.shift 0) = some 1 := by decide +kernel
  rw [hb, ← h] at h2
  revert h2; decide +kernel

end Verif.Dihedral
