import Verif.Dihedral.LemmasText
import Verif.Dihedral.Props
/-
C140: the printed form of an element says what the element is.
-/
namespace Verif.Dihedral
open Verif

/-- An element whose phase polynomial may have a constant term, as products have, and that is otherwise valid. -/
def ValidUpToPhase {n : ℕ} (e : Elem n) : Prop :=
  isCnotDihedral ({ e with poly := { e.poly with w0 := 0 } } : Elem n) = true ∧ 0 ≤ e.poly.w0 ∧ e.poly.w0 < 8

/-- C140: printing a polynomial does not raise, and the text, read as a sum of products, has the value of the polynomial for all
values of the variables. -/
theorem C140_poly {n : ℕ} (p : Poly n) (hp : WF p) : ∃ s, polyText p = some s ∧ ∀ x, readSum x s = some (value p x) :=
  ⟨_, polyText_eq hp, fun x => readPoly hp (polyText_eq hp) x⟩

/-- C140: printing an element does not raise, and the text, read in the usual way, gives for every basis state the power of
`ω` by which it is multiplied and the basis state it is mapped to. -/
theorem C140_text {n : ℕ} (hn : 0 < n) (e : Elem n) (he : ValidUpToPhase e) :
    ∃ s, elemText e = some s ∧ ∀ x : Fin n → Bool, readText s (ext x) =
      some (value e.poly (ext x), (List.finRange n).map fun i => ((bit (aff e x i) : ℤ) : ZMod 2)) := by
  obtain ⟨g, -, -, hd⟩ := (isCnot_iff _).1 he.1
  exact elemText_read hn g.wf g.lin g.sh hd

/-- C140: hence elements with the same text, of whatever size, are equal. -/
theorem C140_unique {m n : ℕ} (hm : 0 < m) (hn : 0 < n) (a : Elem m) (b : Elem n) (ha : ValidUpToPhase a) (hb : ValidUpToPhase b) :
    elemText a = elemText b ↔ ∃ h : m = n, h ▸ a = b := by
  constructor
  · intro h
    obtain ⟨s, h1, h2⟩ := C140_text hm a ha
    obtain ⟨t, h3, h4⟩ := C140_text hn b hb
    rw [h1, h3, Option.some.injEq] at h
    subst h
    have hmn : m = n := by
      have e1 := h2 fun _ => false
      have e2 := h4 fun _ => false
      have hx : (ext fun _ : Fin m => false) = ext fun _ : Fin n => false := by funext i; simp [ext]
      rw [hx, e2, Option.some.injEq, Prod.mk.injEq] at e1
      have := congrArg List.length e1.2
      simpa using this.symm
    subst hmn
    refine ⟨rfl, ?_⟩
    have hread : ∀ x : Fin m → Bool, value a.poly (ext x) = value b.poly (ext x) ∧ aff a x = aff b x := by
      intro x
      have e := (h2 x).symm.trans (h4 x)
      rw [Option.some.injEq, Prod.mk.injEq] at e
      refine ⟨e.1, funext fun i => ?_⟩
      have := List.map_inj_left.1 e.2 i (List.mem_finRange i)
      revert this
      unfold bit
      cases aff a x i <;> cases aff b x i <;> decide
    obtain ⟨ga, ra, -, -⟩ := (isCnot_iff _).1 ha.1
    obtain ⟨gb, rb, -, -⟩ := (isCnot_iff _).1 hb.1
    have hp : a.poly = b.poly := Poly.ext_coef ga.wf gb.wf ⟨ha.2, ra.2⟩ ⟨hb.2, rb.2⟩ (coef_eq_of_value fun x => (hread x).1)
    obtain ⟨hl, hs⟩ := aff_inj ga gb fun x => (hread x).2
    cases a; cases b; simp_all
  · rintro ⟨rfl, rfl⟩; rfl

/-- C140: and two valid elements of one size have the same text if and only if they stand for the same operator up to a global
phase. -/
theorem C140_operator {n : ℕ} (hn : 0 < n) (a b : Elem n) (ha : isCnotDihedral a = true) (hb : isCnotDihedral b = true) :
    elemText a = elemText b ↔ SameOp (img a) (img b) := by
  have h0 : ∀ e : Elem n, isCnotDihedral e = true → ValidUpToPhase e := by
    intro e he
    obtain ⟨-, -, hw, -⟩ := (isCnot_iff _).1 he
    refine ⟨?_, by omega, by omega⟩
    have : ({ e with poly := { e.poly with w0 := 0 } } : Elem n) = e := by
      obtain ⟨⟨w0, w1, w2, w3⟩, l, s⟩ := e
      simp only at hw; simp [hw]
    rw [this]; exact he
  rw [C140_unique hn hn a b (h0 a ha) (h0 b hb), ← C40_eq_iff a b ha hb]
  simp [elemEq]

/-- Non-vacuity: the text of a valid element in which all parts of the format occur. -/
theorem C140_experiment : ∃ e : Elem 2, fromCircuit 2 [.u1 1 0, .u1 3 1, .cx 0 1, .u1 7 1, .cx 0 1, .u1 1 0, .u1 1 1, .cx 0 1, .x 0] = some e ∧
    isCnotDihedral e = true ∧ (elemText e).map String.ofList =
      some "phase polynomial = \n0 + x_0 + 3*x_1 + 2*x_0*x_1\naffine function = \n (x_0 + 1,x_0 + x_1)\n" := by
  obtain ⟨e, h1, h2, -⟩ := C37_circuit (n := 2) [.u1 1 0, .u1 3 1, .cx 0 1, .u1 7 1, .cx 0 1, .u1 1 0, .u1 1 1, .cx 0 1, .x 0]
    (by simp [GateOk])
  refine ⟨e, h1, h2, ?_⟩
  have h3 : ((fromCircuit 2 [.u1 1 0, .u1 3 1, .cx 0 1, .u1 7 1, .cx 0 1, .u1 1 0, .u1 1 1, .cx 0 1, .x 0]).bind elemText).map String.ofList =
      some "phase polynomial = \n0 + x_0 + 3*x_1 + 2*x_0*x_1\naffine function = \n (x_0 + 1,x_0 + x_1)\n" := by decide +kernel
  rw [h1] at h3
  exact h3

/-- C140, finding: the text of a polynomial does not say how many variables it has: the zero polynomials in one and in two
variables are printed alike, and differ (their representations have different lengths). -/
theorem C140_finding_variables : polyText (Poly.zero 1) = polyText (Poly.zero 2) ∧ (Poly.zero 1).w1 ≠ (Poly.zero 2).w1 := by
  decide +kernel

end Verif.Dihedral
