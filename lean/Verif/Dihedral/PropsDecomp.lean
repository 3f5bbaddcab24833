import Verif.Dihedral.LemmasSmall
import Verif.Dihedral.LemmasInv
import Verif.Dihedral.LemmasTensor
import Verif.Dihedral.Props
/-
C39 and C73–C75: decomposition into circuits, adjoint, conjugate, transpose, tensor products and random
elements of the CNOT-dihedral group (dihedral.py).
-/
set_option linter.unusedSimpArgs false
set_option linter.unusedVariables false
namespace Verif.Dihedral
open Verif.Quantum

/-! ### C39 -/

/-- C39: for every valid element on any number of qubits `to_circuit` returns a circuit of
CNOT-dihedral gates on existing qubits, `from_circuit` of this circuit is the same element, and the
circuit implements the operator of the element up to a global phase. -/
theorem C39_round_trip {n : ℕ} (hn : 0 < n) (e : Elem n) (he : isCnotDihedral e = true) :
    ∃ c, toCircuit e = some c ∧ (∀ g ∈ c, GateOk n g) ∧ fromCircuit n c = some e ∧
      ∃ U : (Fin n → Bool) → State (Fin n) ℂ, (∀ x, applyCircuit c (ket x) = some (U x)) ∧ SameOp (img e) U := by
  obtain ⟨c, h1, h2, h3⟩ := toCircuit_spec hn he
  refine ⟨c, h1, h2, h3, ?_⟩
  obtain ⟨-, z, hz, h4⟩ := circuit_img h2 h3
  exact ⟨_, h4, sameOp_symm' hz fun x => rfl⟩

/-- C39, the other direction: any circuit of CNOT-dihedral gates may be replaced by the decomposition of
its element; both implement the same operator up to a global phase. -/
theorem C39_resynthesis {n : ℕ} (hn : 0 < n) (c : List Gate) (hc : ∀ g ∈ c, GateOk n g) :
    ∃ (e : Elem n) (d : List Gate) (U V : (Fin n → Bool) → State (Fin n) ℂ), fromCircuit n c = some e ∧ toCircuit e = some d ∧
      (∀ x, applyCircuit c (ket x) = some (U x)) ∧ (∀ x, applyCircuit d (ket x) = some (V x)) ∧ SameOp U V := by
  obtain ⟨e, h1, h2, U, h3, h4⟩ := C37_circuit c hc
  obtain ⟨d, h5, -, -, V, h6, h7⟩ := C39_round_trip hn e h2
  exact ⟨e, d, U, V, h1, h5, h3, h6, h4.symm.trans h7⟩

/-- The hypotheses are met: a four-qubit element. -/
example : ∃ (e : Elem 4) (c : List Gate), isCnotDihedral e = true ∧ toCircuit e = some c := by
  obtain ⟨e, -, he, -⟩ := C37_circuit (n := 4) [.x 0, .cx 0 3, .u1 3 3, .cz 2 1, .cx 3 1, .u1 1 1] (by simp [GateOk])
  obtain ⟨c, hc, -⟩ := C39_round_trip (by norm_num) e he
  exact ⟨e, c, he, hc⟩

/-! ### C73 -/

/-- C73: `adjoint` of a valid element is valid and inverse to it, on both sides, up to a global phase. -/
theorem C73_adjoint {n : ℕ} (hn : 0 < n) (e : Elem n) (he : isCnotDihedral e = true) :
    ∃ r, adjoint e = some r ∧ isCnotDihedral r = true ∧
      SameOp (fun x => opApply r (img e x)) ket ∧ SameOp (fun x => opApply e (img r x)) ket := by
  obtain ⟨c, h1, h2, h3⟩ := toCircuit_spec hn he
  obtain ⟨r, h4, h5, -⟩ := C37_circuit (invCircuit c) (ok_invCircuit h2)
  refine ⟨r, by unfold adjoint; rw [h1]; exact h4, h5, inv_sameOp h2 h3 h4, ?_⟩
  exact inv_sameOp (ok_invCircuit h2) h4 (by rw [invCircuit_invCircuit]; exact h3)

/-- C73: `conjugate` of a valid element is valid and its matrix is the complex conjugate of the matrix of
the element, up to a global phase. -/
theorem C73_conjugate {n : ℕ} (hn : 0 < n) (e : Elem n) (he : isCnotDihedral e = true) :
    ∃ r, conjugate e = some r ∧ isCnotDihedral r = true ∧ SameOp (img r) (fun x y => star (img e x y)) := by
  obtain ⟨c, h1, h2, h3⟩ := toCircuit_spec hn he
  have hok : ∀ g ∈ c.map Gate.conj, GateOk n g := fun g hg => by
    obtain ⟨g', h, rfl⟩ := List.mem_map.1 hg
    exact (h2 g' h).conj
  obtain ⟨r, h4, h5, -⟩ := C37_circuit (c.map Gate.conj) hok
  refine ⟨r, by unfold conjugate; rw [h1]; exact h4, h5, ?_⟩
  obtain ⟨-, z, hz, h6⟩ := circuit_img h2 h3
  obtain ⟨-, w, hw, h7⟩ := circuit_img hok h4
  obtain ⟨v, hv, h8⟩ := conj_circuit c h2
  refine SameOp.symm ?_
  have z0 : z ≠ 0 := fun h => by rw [h, norm_zero] at hz; exact zero_ne_one hz
  have v0 : v ≠ 0 := fun h => by rw [h, norm_zero] at hv; exact zero_ne_one hv
  refine ⟨w * v⁻¹ * (star z)⁻¹, by rw [norm_mul, norm_mul, norm_inv, norm_inv, norm_star, hz, hw, hv]; simp, fun x => ?_⟩
  have h9 := h8 (ket x) _ (h6 x)
  have hk : conjState (ket x : State (Fin n) ℂ) = ket x := by
    funext y; unfold conjState ket; split_ifs <;> simp
  rw [hk, h7 x] at h9
  have h10 := Option.some.inj h9
  funext y
  have h11 := congrFun h10 y
  simp only [conjState, star_mul'] at h11
  have hsz : star z ≠ 0 := star_ne_zero.2 z0
  rw [mul_assoc, mul_assoc]
  rw [eq_comm, mul_comm, mul_assoc, mul_assoc, mul_comm (img r x y), h11]
  field_simp

/-- C73: `transpose` of a valid element is valid and its matrix is the transposed matrix of the element,
up to a global phase. -/
theorem C73_transpose {n : ℕ} (hn : 0 < n) (e : Elem n) (he : isCnotDihedral e = true) :
    ∃ r, transpose e = some r ∧ isCnotDihedral r = true ∧ SameOp (img r) (fun x y => img e y x) := by
  obtain ⟨c, h1, h2, h3⟩ := toCircuit_spec hn he
  have hok : ∀ g ∈ c.reverse, GateOk n g := fun g hg => h2 g (List.mem_reverse.1 hg)
  obtain ⟨r, h4, h5, -⟩ := C37_circuit c.reverse hok
  refine ⟨r, by unfold transpose; rw [h1]; exact h4, h5, ?_⟩
  obtain ⟨-, z, hz, h6⟩ := circuit_img h2 h3
  obtain ⟨-, w, hw, h7⟩ := circuit_img hok h4
  obtain ⟨v, hv, h8⟩ := pair_circuit c h2
  have w0 : w ≠ 0 := fun h => by rw [h, norm_zero] at hw; exact zero_ne_one hw
  have v0 : v ≠ 0 := fun h => by rw [h, norm_zero] at hv; exact zero_ne_one hv
  refine ⟨v⁻¹ * w⁻¹ * z, by rw [norm_mul, norm_mul, norm_inv, norm_inv, hz, hw, hv]; simp, fun x => ?_⟩
  funext y
  obtain ⟨φ', ψ', h9, h10, h11⟩ := h8 (ket x) (ket y)
  rw [h7 x] at h9; rw [h6 y] at h10
  have h9 := Option.some.inj h9
  have h10 := Option.some.inj h10
  rw [← h9, ← h10, pair_ket, pair_comm, pair_ket] at h11
  rw [mul_assoc, h11]
  field_simp

/-- The hypotheses are met. -/
example : ∃ e r : Elem 3, isCnotDihedral e = true ∧ adjoint e = some r := by
  obtain ⟨e, -, he, -⟩ := C37_circuit (n := 3) [.x 0, .u1 3 1, .cz 2 1, .cx 2 0] (by simp [GateOk])
  obtain ⟨r, hr, -⟩ := C73_adjoint (by norm_num) e he
  exact ⟨e, r, he, hr⟩

/-! ### C74 -/

/-- C74: `a.tensor(b)` of valid elements is valid and acts as `a` on the first qubits 0, …, m-1 and as `b`
on the following ones. -/
theorem C74_tensor {m n : ℕ} (a : Elem m) (b : Elem n) (ha : isCnotDihedral a = true) (hb : isCnotDihedral b = true) :
    ∃ r, tensor a b = some r ∧ isCnotDihedral r = true ∧ ∀ x y : Fin (m + n) → Bool,
      img r x y = img a (fun i => x (Fin.castAdd n i)) (fun i => y (Fin.castAdd n i)) *
        img b (fun i => x (Fin.natAdd m i)) (fun i => y (Fin.natAdd m i)) := tensor_spec ha hb

/-- C74: `a.expand(b)` is the other way round: `b` acts on the first qubits and `a` on the following. -/
theorem C74_expand {m n : ℕ} (a : Elem m) (b : Elem n) (ha : isCnotDihedral a = true) (hb : isCnotDihedral b = true) :
    ∃ r, expand a b = some r ∧ isCnotDihedral r = true ∧ ∀ x y : Fin (n + m) → Bool,
      img r x y = img b (fun i => x (Fin.castAdd m i)) (fun i => y (Fin.castAdd m i)) *
        img a (fun i => x (Fin.natAdd n i)) (fun i => y (Fin.natAdd n i)) := tensor_spec hb ha

/-- The docstring calls `a.tensor(b)` the operator "self tensor other".  In the convention of qiskit
operators (and of this package's state vectors) the right factor of a tensor product lives on the low
qubits; here it is the left factor: with a = X on one qubit and b = identity, X acts on qubit 0. -/
theorem C74_finding_order : ∃ a b : Elem 1, ∃ r : Elem 2, isCnotDihedral a = true ∧ isCnotDihedral b = true ∧
    flip (Elem.one 1) 0 = some a ∧ b = Elem.one 1 ∧ tensor a b = some r ∧
    img r (fun _ => false) = ket (fun q => decide (q = 0)) := by
  obtain ⟨a, ha, hv, -⟩ := C37_flip (Elem.one 1) (valid_one 1) 0
  obtain ⟨r, h1, h2, h3⟩ := C74_tensor a (Elem.one 1) hv (valid_one 1)
  refine ⟨a, _, r, hv, valid_one 1, ha, rfl, h1, ?_⟩
  have hp : a.poly = Poly.zero 1 := by
    unfold flip at ha; rw [dif_pos (by decide)] at ha; cases ha; rfl
  have haff : aff a (fun _ => false) = fun _ => true := by
    unfold flip at ha; rw [dif_pos (by decide)] at ha; cases ha
    funext i; fin_cases i; decide +kernel
  funext y
  rw [h3, img_one, img_eq, hp, value_zero, W_zero]
  simp only [one_mul]
  rw [haff]
  have hall : ∀ y : Fin 2 → Bool, ((if (fun i : Fin 1 => y (Fin.castAdd 1 i)) = (fun _ => true) then (1 : ℤ) else 0) *
    (if (fun i : Fin 1 => y (Fin.natAdd 1 i)) = (fun _ => false) then 1 else 0)) =
    if y = (fun q => decide (q = 0)) then 1 else 0 := by decide +kernel
  have := congrArg (Int.cast (R := ℂ)) (hall y)
  push_cast at this
  unfold ket
  exact this

/-- The hypotheses are met. -/
example : ∃ (a : Elem 2) (b : Elem 3) (r : Elem (2 + 3)), isCnotDihedral a = true ∧ isCnotDihedral b = true ∧ tensor a b = some r := by
  obtain ⟨a, -, ha, -⟩ := C37_circuit (n := 2) [.cx 0 1, .u1 3 1] (by simp [GateOk])
  obtain ⟨b, -, hb, -⟩ := C37_circuit (n := 3) [.x 0, .u1 3 1, .cz 2 1, .cx 2 0] (by simp [GateOk])
  obtain ⟨r, hr, -⟩ := C74_tensor a b ha hb
  exact ⟨a, b, r, ha, hb, hr⟩

/-! ### C75 -/

/-- C75: whatever is drawn, the element `random_cnotdihedral` returns is a valid element, provided the
coefficient arrays have the sizes requested in the code. -/
theorem C75_valid {n : ℕ} (w1 : List (Fin 8)) (w2 : List (Fin 4)) (w3 : List (Fin 2))
    (h1 : w1.length = n) (h2 : w2.length = nc2 n) (h3 : w3.length = nc3 n)
    (linears : List (Fin n → Fin n → Fin 2)) (shift : Fin n → Fin 2) (e : Elem n)
    (h : randomElem n w1 w2 w3 linears shift = some e) : isCnotDihedral e = true := by
  unfold randomElem at h
  obtain ⟨m, hm, hr⟩ := Option.bind_eq_some_iff.1 h
  cases hr
  have hdet := List.find?_some hm
  unfold isCnotDihedral
  rw [if_neg (by simp [h1, h2, h3]), hdet, if_neg (by simp), if_neg, if_neg, ]
  · push Not
    constructor
    · intro i
      have : ∀ k : Fin 2, (((k : ℕ) : ℤ)) ∈ ([0, 1] : List ℤ) := by decide
      exact this _
    · intro i j
      have : ∀ k : Fin 2, (((k : ℕ) : ℤ)) ∈ ([0, 1] : List ℤ) := by decide
      exact this _
  · push Not
    refine ⟨?_, ?_, ?_⟩
    · intro a ha
      obtain ⟨k, -, rfl⟩ := List.mem_map.1 ha
      have : ∀ k : Fin 8, (((k : ℕ) : ℤ)) ∈ ([0, 1, 2, 3, 4, 5, 6, 7] : List ℤ) := by decide
      exact this _
    · intro a ha
      obtain ⟨k, -, rfl⟩ := List.mem_map.1 ha
      have : ∀ k : Fin 4, 2 * (((k : ℕ) : ℤ)) ∈ ([0, 2, 4, 6] : List ℤ) := by decide
      exact this _
    · intro a ha
      obtain ⟨k, -, rfl⟩ := List.mem_map.1 ha
      have : ∀ k : Fin 2, 4 * (((k : ℕ) : ℤ)) ∈ ([0, 4] : List ℤ) := by decide
      exact this _

theorem lift_list {α : Type} (f : α → ℤ) (l : List ℤ) (h : ∀ a ∈ l, ∃ k, f k = a) : ∃ l' : List α, l'.map f = l := by
  induction l with
  | nil => exact ⟨[], rfl⟩
  | cons a l ih =>
    obtain ⟨k, hk⟩ := h a (by simp)
    obtain ⟨l', hl'⟩ := ih fun a ha => h a (by simp [ha])
    exact ⟨k :: l', by simp [hk, hl']⟩

/-- C75: every valid element can be drawn. -/
theorem C75_all {n : ℕ} (e : Elem n) (he : isCnotDihedral e = true) :
    ∃ (w1 : List (Fin 8)) (w2 : List (Fin 4)) (w3 : List (Fin 2)) (m : Fin n → Fin n → Fin 2) (shift : Fin n → Fin 2),
      w1.length = n ∧ w2.length = nc2 n ∧ w3.length = nc3 n ∧ randomElem n w1 w2 w3 [m] shift = some e := by
  unfold isCnotDihedral at he
  split_ifs at he with c1 c2 c3 c4
  push Not at c1 c3 c4
  obtain ⟨c5, c6, c7, c8⟩ := c1
  obtain ⟨d1, d2, d3⟩ := c3
  obtain ⟨d4, d5⟩ := c4
  have f8 : ∀ a ∈ ([0, 1, 2, 3, 4, 5, 6, 7] : List ℤ), ∃ k : Fin 8, ((k : ℕ) : ℤ) = a := by decide
  have f4 : ∀ a ∈ ([0, 2, 4, 6] : List ℤ), ∃ k : Fin 4, 2 * ((k : ℕ) : ℤ) = a := by decide
  have f24 : ∀ a ∈ ([0, 4] : List ℤ), ∃ k : Fin 2, 4 * ((k : ℕ) : ℤ) = a := by decide
  have f2 : ∀ a ∈ ([0, 1] : List ℤ), ∃ k : Fin 2, ((k : ℕ) : ℤ) = a := by decide
  obtain ⟨w1, h1⟩ := lift_list (fun k : Fin 8 => ((k : ℕ) : ℤ)) _ fun a ha => f8 a (d1 a ha)
  obtain ⟨w2, h2⟩ := lift_list (fun k : Fin 4 => 2 * ((k : ℕ) : ℤ)) _ fun a ha => f4 a (d2 a ha)
  obtain ⟨w3, h3⟩ := lift_list (fun k : Fin 2 => 4 * ((k : ℕ) : ℤ)) _ fun a ha => f24 a (d3 a ha)
  choose m hm using fun i j => f2 _ (d5 i j)
  choose s hs using fun i => f2 _ (d4 i)
  refine ⟨w1, w2, w3, m, s, ?_, ?_, ?_, ?_⟩
  · rw [← c6, ← h1, List.length_map]
  · rw [← c7, ← h2, List.length_map]
  · rw [← c8, ← h3, List.length_map]
  · have hl : (fun i j => ((m i j : ℕ) : ℤ)) = e.linear := funext fun i => funext fun j => hm i j
    have hd : detOdd (fun i j => ((m i j : ℕ) : ℤ)) = true := by rw [hl]; simpa using c2
    unfold randomElem
    rw [List.find?_cons_of_pos (p := fun m : Fin n → Fin n → Fin 2 => detOdd fun i j => ((m i j : ℕ) : ℤ)) hd]
    simp only [Option.bind_eq_bind, Option.bind_some]
    rw [h1, h2, h3, hl, funext hs, ← c5]
    rfl

/-- The hypotheses are met. -/
example : ∃ e, randomElem 2 [3, 7] [1] [] [fun _ _ => 1, fun i j => if i = j then 1 else 0] (fun _ => 1) = some e ∧
    isCnotDihedral e = true := by
  have : (randomElem 2 [3, 7] [1] [] [fun _ _ => 1, fun i j => if i = j then 1 else 0] (fun _ => 1)).isSome = true := by
    decide +kernel
  obtain ⟨e, he⟩ := Option.isSome_iff_exists.1 this
  exact ⟨e, he, C75_valid (n := 2) [3, 7] [1] [] (by decide) (by decide) (by decide) _ _ e he⟩

end Verif.Dihedral
