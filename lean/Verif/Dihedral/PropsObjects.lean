import Verif.Dihedral.LemmasObjects
import Verif.Dihedral.PropsDecomp
/-
C136: programs with CNOT-dihedral elements (qiskit/ignis/verification/randomized_benchmarking/dihedral.py),
any calls in any order, including calls that raise.

The model is in `Objects.lean` (which cells an element owns, what is written in place), what is expected in
`SpecObjects.lean`.
-/
set_option linter.unusedSimpArgs false
set_option linter.unusedVariables false
namespace Verif.Dihedral
open Verif.Quantum

/-! ### Elements do not interfere -/

/-- C136: after any program (with exceptions caught and ignored), one more call leaves every element as it
is, in all attributes, except the one it is meant to change in place.  Elements are never lost. -/
theorem C136_independent (so : SetOrder) (cs : List Cmd) (c : Cmd) (a : ℕ) :
    let h := Heap.empty.run so cs
    a < h.objs.length → c.target ≠ some a →
      (h.step so c).1.look a = h.look a ∧ a < (h.step so c).1.objs.length := by
  intro h ha hc
  have i : HeapInv h := inv_run so cs inv_empty
  rcases step_kind so h c with ⟨b, o, ht, ho, w⟩ | ⟨e, -⟩ | ⟨p, l, s, -, e⟩
  · exact ⟨w.look i ho fun hb => hc (hb ▸ ht), by rw [w.objs]; exact ha⟩
  · rw [e]; exact ⟨rfl, ha⟩
  · rw [e]; exact ⟨alloc_look_old i p l s ha, by rw [alloc_objs]; simp; omega⟩

/-- C136: a call that raises changes nothing at all, unless it is `append_circuit`. -/
theorem C136_raise (so : SetOrder) (cs : List Cmd) (c : Cmd) (hc : ∀ a g, c ≠ .append a g) :
    let h := Heap.empty.run so cs
    (h.step so c).2 = .raised → (h.step so c).1 = h := by
  intro h hr
  rcases step_kind so h c with ⟨b, o, ht, ho, w⟩ | ⟨e, -⟩ | ⟨p, l, s, -, e⟩
  · cases c with
    | prim a m =>
      simp only [Cmd.target, Option.some.injEq] at ht
      subst ht
      simp only [Heap.step, ho] at hr ⊢
      unfold Heap.prim at hr ⊢
      cases he : h.elem o.n o with
      | none => rfl
      | some e =>
        rw [he] at hr
        cases m with
        | flip i => simp only at hr ⊢; cases hf : flip e i with
          | none => rfl
          | some r => rw [hf] at hr; simp at hr
        | phase k i => simp only at hr ⊢; cases hf : phase e k i with
          | none => rfl
          | some r => rw [hf] at hr; simp at hr
        | cnot i j => simp only at hr ⊢; cases hf : cnot e i j with
          | none => rfl
          | some r => rw [hf] at hr; simp at hr
    | append a g => exact absurd rfl (hc a g)
    | _ => simp [Cmd.target] at ht
  · exact e
  · rw [e] at hr; simp [Heap.alloc] at hr

/-! ### In-place calls on one element -/

/-- The gate of an in-place call. -/
def Prim.gate : Prim → Gate
  | .flip i => .x i
  | .phase k i => .u1 k i
  | .cnot i j => .cx i j

theorem attrs_setPoly {h : Heap} {o : Obj} {p l s} (p' : Poly o.n) (ha : h.attrs o.n o = some (p, l, s)) :
    (h.setPoly o p').attrs o.n o = some (p', l, s) := by
  unfold Heap.attrs at ha ⊢
  simp only [Option.bind_eq_bind, Option.bind_eq_some_iff] at ha
  obtain ⟨q, h1, m, h2, t, h3, h4⟩ := ha
  obtain ⟨rfl, rfl, rfl⟩ := by simpa using h4
  have hp : o.p < (h.polys o.n).length := (List.getElem?_eq_some_iff.1 h1).1
  simp [Heap.setPoly, h2, h3, hp]

theorem attrs_setLin {h : Heap} {o : Obj} {p l s} (l' : Fin o.n → Fin o.n → ℤ) (ha : h.attrs o.n o = some (p, l, s)) :
    (h.setLin o l').attrs o.n o = some (p, l', s) := by
  unfold Heap.attrs at ha ⊢
  simp only [Option.bind_eq_bind, Option.bind_eq_some_iff] at ha
  obtain ⟨q, h1, m, h2, t, h3, h4⟩ := ha
  obtain ⟨rfl, rfl, rfl⟩ := by simpa using h4
  have hp : o.l < (h.lins o.n).length := (List.getElem?_eq_some_iff.1 h2).1
  simp [Heap.setLin, h1, h3, hp]

theorem attrs_setShift {h : Heap} {o : Obj} {p l s} (v : Fin o.n → ℤ) (ha : h.attrs o.n o = some (p, l, s)) :
    (h.setShift o v).attrs o.n o = some (p, l, s.put v) := by
  unfold Heap.attrs at ha ⊢
  simp only [Option.bind_eq_bind, Option.bind_eq_some_iff] at ha
  obtain ⟨q, h1, m, h2, t, h3, h4⟩ := ha
  obtain ⟨rfl, rfl, rfl⟩ := by simpa using h4
  simp [Heap.setShift, h1, h2, h3]

/-- `shift` holds the entries `v`, in a list (`true`) or in an array. -/
def stored {n : ℕ} (k : Bool) (v : Fin n → ℤ) : Shift n := if k then .lst v else .arr v

theorem stored_vec {n : ℕ} (k : Bool) (v : Fin n → ℤ) : (stored k v).vec? = some v := by cases k <;> rfl
theorem stored_put {n : ℕ} (k : Bool) (v w : Fin n → ℤ) : (stored k v).put w = stored k w := by cases k <;> rfl

/-- The object holds the element `e`. -/
def Holds (h : Heap) (o : Obj) (k : Bool) (e : Elem o.n) : Prop :=
  h.attrs o.n o = some (e.poly, e.linear, stored k e.shift)

theorem Holds.elem {h : Heap} {o : Obj} {k : Bool} {e : Elem o.n} (ha : Holds h o k e) : h.elem o.n o = some e := by
  unfold Heap.elem
  rw [ha]
  simp [stored_vec]

theorem prim_holds {h : Heap} {o : Obj} {k : Bool} {e r : Elem o.n} (ha : Holds h o k e) {m : Prim}
    (hr : appendGate e m.gate = some r) : (h.prim o m).2 = .done ∧ Holds (h.prim o m).1 o k r := by
  unfold Heap.prim
  rw [ha.elem]
  cases m with
  | flip i =>
    have hr' : flip e i = some r := hr
    simp only [hr']
    refine ⟨trivial, ?_⟩
    unfold Holds
    rw [attrs_setShift _ ha, stored_put]
    unfold flip at hr'
    split_ifs at hr'
    cases hr'; rfl
  | phase t i =>
    have hr' : phase e t i = some r := hr
    simp only [hr']
    refine ⟨trivial, ?_⟩
    unfold Holds
    rw [attrs_setPoly _ ha]
    unfold phase at hr'
    by_cases hi : i < o.n
    swap
    · rw [dif_neg hi] at hr'; exact absurd hr' (by simp)
    rw [dif_pos hi] at hr'
    simp only [Option.bind_eq_bind, Option.bind_eq_some_iff] at hr'
    obtain ⟨_, _, _, _, _, _, hr'⟩ := hr'
    cases hr'; rfl
  | cnot i j =>
    have hr' : cnot e i j = some r := hr
    simp only [hr']
    refine ⟨trivial, ?_⟩
    unfold Holds
    rw [attrs_setShift _ (attrs_setLin _ ha), stored_put]
    unfold cnot at hr'
    split_ifs at hr'
    cases hr'; rfl

theorem prims_holds {o : Obj} {k : Bool} : ∀ (ms : List Prim) {h : Heap} {e r : Elem o.n}, Holds h o k e →
    ms.foldlM (fun e m => appendGate e (Prim.gate m)) e = some r →
    (h.prims o ms).2 = .done ∧ Holds (h.prims o ms).1 o k r
  | [], h, e, r, ha, hr => by
    simp only [List.foldlM_nil, Option.pure_def, Option.some.injEq] at hr
    subst hr
    exact ⟨rfl, ha⟩
  | m :: ms, h, e, r, ha, hr => by
    rw [List.foldlM_cons] at hr
    obtain ⟨e', h1, h2⟩ := Option.bind_eq_some_iff.1 hr
    obtain ⟨h3, h4⟩ := prim_holds ha h1
    unfold Heap.prims
    generalize h.prim o m = q at h3 h4
    obtain ⟨h', out⟩ := q
    simp only at h3 h4
    subst h3
    exact prims_holds ms h4 h2

/-- The methods called for a gate do to the element what `appendGate` says. -/
theorem appendGate_prims {n : ℕ} (e : Elem n) (g : Gate) :
    appendGate e g = (g.prims).bind fun ms => ms.foldlM (fun e m => appendGate e (Prim.gate m)) e := by
  cases g <;> simp [Gate.prims, appendGate, Prim.gate, List.foldlM_cons]

theorem append_holds {o : Obj} {k : Bool} : ∀ (gs : List Gate) {h : Heap} {e r : Elem o.n}, Holds h o k e →
    appendCircuit e gs = some r → (h.append o gs).2 = .done ∧ Holds (h.append o gs).1 o k r
  | [], h, e, r, ha, hr => by
    simp only [appendCircuit, List.foldlM_nil, Option.pure_def, Option.some.injEq] at hr
    subst hr
    exact ⟨rfl, ha⟩
  | g :: gs, h, e, r, ha, hr => by
    unfold appendCircuit at hr
    rw [List.foldlM_cons] at hr
    obtain ⟨e', h1, h2⟩ := Option.bind_eq_some_iff.1 hr
    rw [appendGate_prims] at h1
    obtain ⟨ms, h3, h4⟩ := Option.bind_eq_some_iff.1 h1
    obtain ⟨h5, h6⟩ := prims_holds ms ha h4
    unfold Heap.append
    rw [h3]
    simp only
    generalize h.prims o ms = q at h5 h6
    obtain ⟨h', out⟩ := q
    simp only at h5 h6
    subst h5
    exact append_holds gs h6 h2

/-- An exception at a later gate: the gates before it have been applied. -/
theorem append_fails {o : Obj} {k : Bool} (q : List ℕ) (ds : List Gate) : ∀ (gs : List Gate) {h : Heap} {e r : Elem o.n},
    Holds h o k e → appendCircuit e gs = some r →
    (h.append o (gs ++ .other q :: ds)).2 = .raised ∧ Holds (h.append o (gs ++ .other q :: ds)).1 o k r
  | [], h, e, r, ha, hr => by
    simp only [appendCircuit, List.foldlM_nil, Option.pure_def, Option.some.injEq] at hr
    subst hr
    exact ⟨rfl, ha⟩
  | g :: gs, h, e, r, ha, hr => by
    unfold appendCircuit at hr
    rw [List.foldlM_cons] at hr
    obtain ⟨e', h1, h2⟩ := Option.bind_eq_some_iff.1 hr
    rw [appendGate_prims] at h1
    obtain ⟨ms, h3, h4⟩ := Option.bind_eq_some_iff.1 h1
    obtain ⟨h5, h6⟩ := prims_holds ms ha h4
    rw [List.cons_append]
    unfold Heap.append
    rw [h3]
    simp only
    generalize h.prims o ms = q' at h5 h6
    obtain ⟨h', out⟩ := q'
    simp only at h5 h6
    subst h5
    exact append_fails q ds gs h6 h2

/-! ### Operators -/

theorem SameOp.refl {n : ℕ} (f : Op n) : SameOp f f := ⟨1, by simp, fun x => by simp⟩

theorem SameOp.andThen {n : ℕ} {U U' V V' : Op n} (h : SameOp U U') (k : SameOp V V') :
    SameOp (U.andThen V) (U'.andThen V') := by
  obtain ⟨z, hz, h⟩ := h
  obtain ⟨w, hw, k⟩ := k
  refine ⟨z * w, by rw [norm_mul, hz, hw, one_mul], fun x => funext fun y => ?_⟩
  unfold Op.andThen
  rw [Finset.mul_sum]
  refine Finset.sum_congr rfl fun t _ => ?_
  rw [h x, k t]; ring

theorem SameOp.beside {m n : ℕ} {U U' : Op m} {V V' : Op n} (h : SameOp U U') (k : SameOp V V') :
    SameOp (U.beside V) (U'.beside V') := by
  obtain ⟨z, hz, h⟩ := h
  obtain ⟨w, hw, k⟩ := k
  refine ⟨z * w, by rw [norm_mul, hz, hw, one_mul], fun x => funext fun y => ?_⟩
  unfold Op.beside
  rw [h, k]; ring

theorem andThen_ket {n : ℕ} (U : Op n) : U.andThen ket = U := by
  funext x y
  unfold Op.andThen
  rw [Finset.sum_eq_single y]
  · simp [ket]
  · intro z _ hz; simp [ket, Ne.symm hz]
  · intro h; exact absurd (Finset.mem_univ _) h

theorem ket_andThen {n : ℕ} (U : Op n) : Op.andThen ket U = U := by
  funext x y
  unfold Op.andThen
  rw [Finset.sum_eq_single x]
  · simp [ket]
  · intro z _ hz; simp [ket, hz]
  · intro h; exact absurd (Finset.mem_univ _) h

theorem andThen_assoc {n : ℕ} (U V W' : Op n) : (U.andThen V).andThen W' = U.andThen (V.andThen W') := by
  funext x y
  unfold Op.andThen
  simp only [Finset.sum_mul, Finset.mul_sum]
  rw [Finset.sum_comm]
  exact Finset.sum_congr rfl fun _ _ => Finset.sum_congr rfl fun _ _ => by ring

theorem opApply_andThen {n : ℕ} (a b : Elem n) : (fun x => opApply a (img b x)) = Op.andThen (img b) (img a) := rfl

/-- Inverses are unique up to a phase. -/
theorem inverse_unique {n : ℕ} {R E U V : Op n} (h1 : SameOp (R.andThen E) ket) (h2 : SameOp E U)
    (h3 : SameOp (U.andThen V) ket) : SameOp R V := by
  have k1 : SameOp (R.andThen (E.andThen V)) R := by
    have := (SameOp.refl R).andThen ((h2.andThen (SameOp.refl V)).trans h3)
    rwa [andThen_ket] at this
  have k2 : SameOp ((R.andThen E).andThen V) V := by
    have := h1.andThen (SameOp.refl V)
    rwa [ket_andThen] at this
  rw [andThen_assoc] at k2
  exact k1.symm.trans k2

theorem gate_ok_of_apply {n : ℕ} {m : Prim} {ψ φ : State (Fin n) ℂ} (h : m.apply ψ = some φ) : GateOk n m.gate := by
  cases m with
  | flip i =>
    unfold Prim.apply applyGate at h
    simp only at h
    split_ifs at h with hi
    exact hi
  | phase k i =>
    unfold Prim.apply applyGate at h
    simp only at h
    split_ifs at h with hi
    exact hi
  | cnot i j =>
    unfold Prim.apply applyGate at h
    simp only at h
    split_ifs at h with hi
    exact hi

theorem prim_apply_gate {n : ℕ} (m : Prim) (ψ : State (Fin n) ℂ) : m.apply ψ = applyCircuit [m.gate] ψ := by
  cases m <;> simp [Prim.apply, Prim.gate, applyCircuit]

/-- A circuit appended to a valid element. -/
theorem append_sameOp {n : ℕ} {e : Elem n} (he : isCnotDihedral e = true) {U V : Op n} (hU : SameOp (img e) U)
    {c : List Gate} (hc : ∀ g ∈ c, GateOk n g) (hV : ∀ x, applyCircuit c (U x) = some (V x)) :
    ∃ r, appendCircuit e c = some r ∧ isCnotDihedral r = true ∧ SameOp (img r) V := by
  obtain ⟨ge, re, we, de⟩ := (isCnot_iff _).1 he
  obtain ⟨r, h, ⟨A, k, s⟩, z, hz, hx⟩ := applyCircuit_img c hc ge
  refine ⟨r, h, (isCnot_iff r).2 ⟨s.good, s.rd re, s.w0.trans we, s.det de⟩, ?_⟩
  obtain ⟨w, hw, hU⟩ := hU
  have h1 : SameOp (fun x y => z * img r x y) V := by
    refine ⟨w, hw, fun x => ?_⟩
    have h2 := applyCircuit_smul c hc w (hV x)
    rw [← hU x, hx x] at h2
    exact Option.some.inj h2
  have h3 : SameOp (img r) (fun x y => z * img r x y) := sameOp_symm' hz fun x => rfl
  exact h3.trans h1

/-! ### Programs -/

/-- The elements of the program represent the expected operators. -/
structure Sim (h : Heap) (S : List OpEntry) : Prop where
  inv : HeapInv h
  len : h.objs.length = S.length
  rep : ∀ (a : ℕ) (E : OpEntry), S[a]? = some E → Represents h a E ∧ 1 ≤ E.n

theorem look_some {h : Heap} {a n : ℕ} {q : Poly n × (Fin n → Fin n → ℤ) × Shift n} (hl : h.look a = some ⟨n, some q⟩) :
    ∃ i j k, h.objs[a]? = some ⟨n, i, j, k⟩ ∧ h.attrs n ⟨n, i, j, k⟩ = some q := by
  unfold Heap.look at hl
  obtain ⟨⟨m, i, j, k⟩, h1, h2⟩ := Option.map_eq_some_iff.1 hl
  simp only [Sigma.mk.injEq] at h2
  obtain ⟨rfl, h2⟩ := h2
  exact ⟨i, j, k, h1, eq_of_heq h2⟩

theorem look_of {h : Heap} {a : ℕ} {o : Obj} {q} (ho : h.objs[a]? = some o) (ha : h.attrs o.n o = some q) :
    h.look a = some ⟨o.n, some q⟩ := by
  unfold Heap.look; rw [ho]; simp [ha]

/-- The object of an entry. -/
theorem Sim.get {h : Heap} {S : List OpEntry} (s : Sim h S) {a n : ℕ} {U : Op n} {k : Bool} (hE : S[a]? = some ⟨n, U, k⟩) :
    ∃ (i j t : ℕ) (e : Elem n), h.objs[a]? = some ⟨n, i, j, t⟩ ∧ Holds h ⟨n, i, j, t⟩ k e ∧
      isCnotDihedral e = true ∧ SameOp (img e) U ∧ 1 ≤ n := by
  obtain ⟨⟨p, l, v, h1, h2, h3⟩, h4⟩ := s.rep a _ hE
  obtain ⟨i, j, t, h5, h6⟩ := look_some h1
  exact ⟨i, j, t, ⟨p, l, v⟩, h5, h6, h2, h3, h4⟩

theorem Represents.of_look {h h' : Heap} {a : ℕ} {E : OpEntry} (hr : Represents h a E) (hl : h'.look a = h.look a) :
    Represents h' a E := by
  obtain ⟨p, l, v, h1, h2⟩ := hr
  exact ⟨p, l, v, hl.trans h1, h2⟩

/-- A new element. -/
theorem Sim.alloc {h : Heap} {S : List OpEntry} (s : Sim h S) {n : ℕ} (e : Elem n) (k : Bool) {U : Op n} (hn : 1 ≤ n)
    (he : isCnotDihedral e = true) (hU : SameOp (img e) U) :
    Sim (h.alloc e.poly e.linear (stored k e.shift)).1 (S ++ [⟨n, U, k⟩]) := by
  refine ⟨alloc_inv s.inv _ _ _, by rw [alloc_objs]; simp [s.len], fun a E hE => ?_⟩
  rcases Nat.lt_trichotomy a S.length with hl | hl | hl
  · rw [List.getElem?_append_left hl] at hE
    obtain ⟨h1, h2⟩ := s.rep a E hE
    exact ⟨h1.of_look (alloc_look_old s.inv _ _ _ (by rw [s.len]; exact hl)), h2⟩
  · subst hl
    rw [List.getElem?_concat_length] at hE
    cases hE
    refine ⟨⟨e.poly, e.linear, e.shift, ?_, he, hU⟩, hn⟩
    rw [← s.len, alloc_look_new]; rfl
  · rw [List.getElem?_eq_none (by simp; omega)] at hE; exact absurd hE (by simp)

/-- An element changed in place. -/
theorem Sim.write {h h' : Heap} {S : List OpEntry} (s : Sim h S) {a : ℕ} {o : Obj} (ho : h.objs[a]? = some o)
    (w : Only o h h') {k : Bool} {r : Elem o.n} (hr : Holds h' o k r) {U : Op o.n} (hn : 1 ≤ o.n)
    (he : isCnotDihedral r = true) (hU : SameOp (img r) U) : Sim h' (S.set a ⟨o.n, U, k⟩) := by
  refine ⟨w.inv s.inv, by rw [w.objs, List.length_set, s.len], fun b E hE => ?_⟩
  by_cases hab : a = b
  · subst hab
    have hlt : a < S.length := by rw [← s.len]; exact (List.getElem?_eq_some_iff.1 ho).1
    rw [List.getElem?_set_self hlt] at hE
    cases hE
    exact ⟨⟨r.poly, r.linear, r.shift, look_of (by rw [w.objs]; exact ho) hr, he, hU⟩, hn⟩
  · rw [List.getElem?_set_ne hab] at hE
    obtain ⟨h1, h2⟩ := s.rep b E hE
    exact ⟨h1.of_look (w.look s.inv ho hab), h2⟩

/-- The call returned: a new element with the next number, or nothing. -/
def Returned (h : Heap) (c : Cmd) (out : Out) : Prop :=
  if c.target = none then out = .new h.objs.length else out = .done

theorem sim_product {h : Heap} {S : List OpEntry} (s : Sim h S) {a b n : ℕ} {U V W' : Op n} {p q : Bool}
    (ha : S[a]? = some ⟨n, U, p⟩) (hb : S[b]? = some ⟨n, V, q⟩) {f : (n : ℕ) → Elem n → Elem n → Option (Elem n)}
    (hf : ∀ e e' : Elem n, isCnotDihedral e = true → isCnotDihedral e' = true → SameOp (img e) U → SameOp (img e') V →
      ∃ r, f n e e' = some r ∧ isCnotDihedral r = true ∧ SameOp (img r) W') :
    (h.product a b f).2 = .new h.objs.length ∧ Sim (h.product a b f).1 (S ++ [⟨n, W', true⟩]) := by
  obtain ⟨i, j, t, e, h1, h2, h3, h4, h5⟩ := s.get ha
  obtain ⟨i', j', t', e', k1, k2, k3, k4, k5⟩ := s.get hb
  obtain ⟨r, h6, h7, h8⟩ := hf e e' h3 k3 h4 k4
  have hp : h.product a b f = h.alloc r.poly r.linear (stored true r.shift) := by
    unfold Heap.product
    rw [h1, k1]
    simp only [if_true]
    have e1 := h2.elem
    have e2 := k2.elem
    simp only at e1 e2
    rw [e1, e2]
    simp only [h6]
    rfl
  rw [hp]
  exact ⟨rfl, s.alloc r true h5 h7 h8⟩

theorem sim_unary {h : Heap} {S : List OpEntry} (s : Sim h S) {a n : ℕ} {U W' : Op n} {p : Bool}
    (ha : S[a]? = some ⟨n, U, p⟩) {f : (n : ℕ) → Elem n → Option (Elem n)}
    (hf : ∀ e : Elem n, 1 ≤ n → isCnotDihedral e = true → SameOp (img e) U →
      ∃ r, f n e = some r ∧ isCnotDihedral r = true ∧ SameOp (img r) W') :
    (h.unary a f).2 = .new h.objs.length ∧ Sim (h.unary a f).1 (S ++ [⟨n, W', false⟩]) := by
  obtain ⟨i, j, t, e, h1, h2, h3, h4, h5⟩ := s.get ha
  obtain ⟨r, h6, h7, h8⟩ := hf e h5 h3 h4
  have hp : h.unary a f = h.alloc r.poly r.linear (stored false r.shift) := by
    unfold Heap.unary
    rw [h1]
    have e1 := h2.elem
    simp only at e1 ⊢
    rw [e1]
    simp only [h6]
    rfl
  rw [hp]
  exact ⟨rfl, s.alloc r false h5 h7 h8⟩

theorem sim_tensor {h : Heap} {S : List OpEntry} (s : Sim h S) {a b m n : ℕ} {U : Op m} {V : Op n}
    (ha : S[a]? = some ⟨m, U, false⟩) (hb : S[b]? = some ⟨n, V, false⟩) :
    ∃ o o', h.objs[a]? = some o ∧ h.objs[b]? = some o' ∧ (h.tensor o o').2 = .new h.objs.length ∧
      Sim (h.tensor o o').1 (S ++ [⟨m + n, U.beside V, false⟩]) := by
  obtain ⟨i, j, t, e, h1, h2, h3, h4, h5⟩ := s.get ha
  obtain ⟨i', j', t', e', k1, k2, k3, k4, k5⟩ := s.get hb
  obtain ⟨r, h6, h7, h8⟩ := C74_tensor e e' h3 k3
  have hp : h.tensor ⟨m, i, j, t⟩ ⟨n, i', j', t'⟩ = h.alloc r.poly r.linear (stored false r.shift) := by
    unfold Heap.tensor
    have e1 : h.attrs m ⟨m, i, j, t⟩ = some (e.poly, e.linear, .arr e.shift) := h2
    have e2 : h.attrs n ⟨n, i', j', t'⟩ = some (e'.poly, e'.linear, .arr e'.shift) := k2
    simp only [e1, e2]
    have e3 : tensorCore e e' = some r := h6
    rw [e3]
    rfl
  refine ⟨_, _, h1, k1, by rw [hp]; rfl, ?_⟩
  rw [hp]
  refine s.alloc r false (by omega) h7 ?_
  have : img r = Op.beside (img e) (img e') := by
    funext x y; exact h8 x y
  rw [this]
  exact h4.beside k4

/-- One proper call. -/
theorem sim_step {h : Heap} {S S' : List OpEntry} (s : Sim h S) {c : Cmd} (hc : Effect S c S') :
    Returned h c (h.step cpySetOrder c).2 ∧ Sim (h.step cpySetOrder c).1 S' := by
  cases c with
  | new n =>
    obtain ⟨h1, rfl⟩ := hc
    have hp : h.step cpySetOrder (.new n) = h.alloc (Elem.one n).poly (Elem.one n).linear (stored false (Elem.one n).shift) := by
      unfold Heap.step; simp only; rw [if_neg (by omega)]; rfl
    rw [hp]
    refine ⟨rfl, s.alloc (Elem.one n) false h1 (valid_one n) ⟨1, by simp, fun x => ?_⟩⟩
    rw [img_one]; simp
  | ofCircuit n g =>
    obtain ⟨h1, hg, U, hU, rfl⟩ := hc
    obtain ⟨r, h2, h3, U', h4, h5⟩ := C37_circuit g hg
    have hUU : U' = U := by
      funext x
      exact Option.some.inj ((h4 x).symm.trans (hU x))
    subst hUU
    have hp : h.step cpySetOrder (.ofCircuit n g) = h.alloc r.poly r.linear (stored false r.shift) := by
      unfold Heap.step; simp only; rw [if_neg (by omega), h2]; simp only; rw [if_pos h3]; rfl
    rw [hp]
    exact ⟨rfl, s.alloc r false h1 h3 h5⟩
  | ofElem a => exact hc.elim
  | copy a =>
    obtain ⟨⟨n, U, k⟩, hE, rfl⟩ := hc
    obtain ⟨i, j, t, e, h1, h2, h3, h4, h5⟩ := s.get hE
    have hp : h.step cpySetOrder (.copy a) = h.alloc e.poly e.linear (stored k e.shift) := by
      unfold Heap.step; simp only [h1]
      have e1 : h.attrs n ⟨n, i, j, t⟩ = some (e.poly, e.linear, stored k e.shift) := h2
      rw [e1]
    rw [hp]
    exact ⟨rfl, s.alloc e k h5 h3 h4⟩
  | prim a m =>
    obtain ⟨⟨n, U, k⟩, V, hE, hV, rfl⟩ := hc
    obtain ⟨i, j, t, e, h1, h2, h3, h4, h5⟩ := s.get hE
    have hok : GateOk n m.gate := gate_ok_of_apply (hV fun _ => false)
    obtain ⟨r, h6, h7, h8⟩ := append_sameOp h3 h4 (c := [m.gate]) (by simpa using hok)
      fun x => (prim_apply_gate m _).symm.trans (hV x)
    have h6' : appendGate e m.gate = some r := by simpa [appendCircuit, List.foldlM_cons] using h6
    obtain ⟨h9, h10⟩ := prim_holds h2 h6'
    have hp : h.step cpySetOrder (.prim a m) = h.prim ⟨n, i, j, t⟩ m := by
      unfold Heap.step; simp only [h1]
    rw [hp]
    exact ⟨h9, s.write h1 (only_prim h _ m) h10 h5 h7 h8⟩
  | append a g =>
    obtain ⟨⟨n, U, k⟩, V, hE, hok, hV, rfl⟩ := hc
    obtain ⟨i, j, t, e, h1, h2, h3, h4, h5⟩ := s.get hE
    obtain ⟨r, h6, h7, h8⟩ := append_sameOp h3 h4 hok hV
    obtain ⟨h9, h10⟩ := append_holds g h2 h6
    have hp : h.step cpySetOrder (.append a g) = h.append ⟨n, i, j, t⟩ g := by
      unfold Heap.step; simp only [h1]
    rw [hp]
    exact ⟨h9, s.write h1 (only_append _ g h) h10 h5 h7 h8⟩
  | mul a b => exact hc.elim
  | compose a b front =>
    obtain ⟨n, U, V, p, q, hn, ha, hb, rfl⟩ := hc
    refine sim_product s ha hb fun e e' he he' hU hV => ?_
    obtain ⟨r, h1, h2, h3⟩ := C38_compose_cpython hn e e' he he' front
    refine ⟨r, h1, h2, h3.trans ?_⟩
    cases front with
    | true => exact hV.andThen hU
    | false => exact hU.andThen hV
  | dot a b =>
    obtain ⟨n, U, V, p, q, hn, ha, hb, rfl⟩ := hc
    refine sim_product s ha hb fun e e' he he' hU hV => ?_
    obtain ⟨r, h1, h2, h3⟩ := C38_compose_cpython hn e e' he he' true
    refine ⟨r, ?_, h2, h3.trans (hV.andThen hU)⟩
    rw [← h1]; rfl
  | tensor a b =>
    obtain ⟨m, n, U, V, ha, hb, rfl⟩ := hc
    obtain ⟨o, o', h1, h2, h3, h4⟩ := sim_tensor s ha hb
    have hp : h.step cpySetOrder (.tensor a b) = h.tensor o o' := by
      unfold Heap.step; simp only [h1, h2]
    rw [hp]
    exact ⟨h3, h4⟩
  | expand a b =>
    obtain ⟨m, n, U, V, ha, hb, rfl⟩ := hc
    obtain ⟨o, o', h1, h2, h3, h4⟩ := sim_tensor s hb ha
    have hp : h.step cpySetOrder (.expand a b) = h.tensor o o' := by
      unfold Heap.step; simp only [h1, h2]
    rw [hp]
    exact ⟨h3, h4⟩
  | adjoint a =>
    obtain ⟨⟨n, U, k⟩, V, hE, h1, h2, rfl⟩ := hc
    refine sim_unary s hE fun e hn he hU => ?_
    obtain ⟨r, h3, h4, h5, h6⟩ := C73_adjoint hn e he
    exact ⟨r, h3, h4, inverse_unique h6 hU h1⟩
  | conjugate a =>
    obtain ⟨⟨n, U, k⟩, hE, rfl⟩ := hc
    refine sim_unary s hE fun e hn he hU => ?_
    obtain ⟨r, h3, h4, h5⟩ := C73_conjugate hn e he
    obtain ⟨z, hz, hU⟩ := hU
    refine ⟨r, h3, h4, h5.trans ⟨star z, by rw [norm_star, hz], fun x => funext fun y => ?_⟩⟩
    simp only [hU x]; simp
  | transpose a =>
    obtain ⟨⟨n, U, k⟩, hE, rfl⟩ := hc
    refine sim_unary s hE fun e hn he hU => ?_
    obtain ⟨r, h3, h4, h5⟩ := C73_transpose hn e he
    obtain ⟨z, hz, hU⟩ := hU
    refine ⟨r, h3, h4, h5.trans ⟨z, hz, fun x => funext fun y => ?_⟩⟩
    simp only [hU y]

theorem run_snoc (so : SetOrder) (h : Heap) (cs : List Cmd) (c : Cmd) :
    h.run so (cs ++ [c]) = ((h.run so cs).step so c).1 := by
  unfold Heap.run; rw [List.foldl_append]; rfl

theorem sim_empty : Sim Heap.empty [] := ⟨inv_empty, rfl, fun a E h => by simp at h⟩

theorem sim_run {cs : List Cmd} {S : List OpEntry} (hS : Effects [] cs S) : Sim (Heap.empty.run cpySetOrder cs) S := by
  induction hS with
  | nil => exact sim_empty
  | snoc h1 h2 ih =>
    rw [run_snoc]
    exact (sim_step ih h2).2

/-- C136: a program that uses the elements properly (`Effect`), any number of calls in any order: every
call returns, every element passes the tests of `is_cnotdihedral` and represents, up to a global phase,
the operator that the calls prescribe for it. -/
theorem C136_program {cs : List Cmd} {S : List OpEntry} (hS : Effects [] cs S) :
    (Heap.empty.run cpySetOrder cs).objs.length = S.length ∧
    (∀ (a : ℕ) (E : OpEntry), S[a]? = some E → Represents (Heap.empty.run cpySetOrder cs) a E) ∧
    ∀ c S', Effect S c S' →
      Returned (Heap.empty.run cpySetOrder cs) c ((Heap.empty.run cpySetOrder cs).step cpySetOrder c).2 := by
  have s := sim_run hS
  exact ⟨s.len, fun a E hE => (s.rep a E hE).1, fun c S' hc => (sim_step s hc).1⟩

/-! ### Comparing and checking -/

theorem early_of_valid {n : ℕ} {e : Elem n} (he : isCnotDihedral e = true) : earlyTests e = true := by
  unfold isCnotDihedral at he
  unfold earlyTests
  split_ifs at he ⊢
  rfl

/-- C136: after such a program `a == b` says whether the two elements stand for the same operator up to a
global phase, also between products and others. -/
theorem C136_equal {cs : List Cmd} {S : List OpEntry} (hS : Effects [] cs S) {a b n : ℕ} {U V : Op n} {p q : Bool}
    (ha : S[a]? = some ⟨n, U, p⟩) (hb : S[b]? = some ⟨n, V, q⟩) :
    ∃ r, (Heap.empty.run cpySetOrder cs).eq a b = some r ∧ (r = true ↔ SameOp U V) := by
  have s := sim_run hS
  obtain ⟨i, j, t, e, h1, h2, h3, h4, h5⟩ := s.get ha
  obtain ⟨i', j', t', e', k1, k2, k3, k4, k5⟩ := s.get hb
  have e1 : (Heap.empty.run cpySetOrder cs).attrs n ⟨n, i, j, t⟩ = some (e.poly, e.linear, stored p e.shift) := h2
  have e2 : (Heap.empty.run cpySetOrder cs).attrs n ⟨n, i', j', t'⟩ = some (e'.poly, e'.linear, stored q e'.shift) := k2
  refine ⟨elemEq e e', ?_, ?_⟩
  · unfold Heap.eq
    rw [h1, k1]
    simp only [Option.bind_eq_bind, Option.bind_some, if_true, e1, e2]
    have hd : decide (e.poly = e'.poly ∧ e.linear = e'.linear ∧ e.shift = e'.shift) = decide (e = e') := by
      refine decide_eq_decide.2 ?_
      cases e; cases e'; simp
    unfold elemEq
    rw [← hd]
    cases p <;> cases q <;> simp [stored, Shift.vec?]
  · rw [C40_eq_iff e e' h3 k3]
    exact ⟨fun h => (h4.symm.trans h).trans k4, fun h => (h4.trans h).trans k4.symm⟩

/-- C136: elements on different numbers of qubits are different. -/
theorem C136_equal_sizes {cs : List Cmd} {S : List OpEntry} (hS : Effects [] cs S) {a b : ℕ} {E F : OpEntry}
    (ha : S[a]? = some E) (hb : S[b]? = some F) (hne : E.n ≠ F.n) :
    (Heap.empty.run cpySetOrder cs).eq a b = some false := by
  have s := sim_run hS
  obtain ⟨m, U, p⟩ := E
  obtain ⟨n, V, q⟩ := F
  obtain ⟨i, j, t, e, h1, -⟩ := s.get ha
  obtain ⟨i', j', t', e', k1, -⟩ := s.get hb
  unfold Heap.eq
  rw [h1, k1]
  simp only [Option.bind_eq_bind, Option.bind_some]
  rw [if_neg hne]

/-- C136: after such a program `is_cnotdihedral` returns True on every element that did not come out of a
multiplication. -/
theorem C136_check {cs : List Cmd} {S : List OpEntry} (hS : Effects [] cs S) {a n : ℕ} {U : Op n}
    (ha : S[a]? = some ⟨n, U, false⟩) : (Heap.empty.run cpySetOrder cs).isCnot a = some true := by
  have s := sim_run hS
  obtain ⟨i, j, t, e, h1, h2, h3, h4, h5⟩ := s.get ha
  have e1 : (Heap.empty.run cpySetOrder cs).attrs n ⟨n, i, j, t⟩ = some (e.poly, e.linear, .arr e.shift) := h2
  unfold Heap.isCnot
  rw [h1]
  simp only [Option.bind_eq_bind, Option.bind_some, e1]
  exact congrArg some h3

/-- On an element that came out of `compose` or `dot` (or is a copy of one, or was changed in place
afterwards) `is_cnotdihedral` raises AttributeError: `shift` is a Python list, which has no `flatten`. -/
theorem C136_finding_check_of_product {cs : List Cmd} {S : List OpEntry} (hS : Effects [] cs S) {a n : ℕ} {U : Op n}
    (ha : S[a]? = some ⟨n, U, true⟩) : (Heap.empty.run cpySetOrder cs).isCnot a = none := by
  have s := sim_run hS
  obtain ⟨i, j, t, e, h1, h2, h3, h4, h5⟩ := s.get ha
  have e1 : (Heap.empty.run cpySetOrder cs).attrs n ⟨n, i, j, t⟩ = some (e.poly, e.linear, .lst e.shift) := h2
  unfold Heap.isCnot
  rw [h1]
  simp only [Option.bind_eq_bind, Option.bind_some, e1]
  have h6 : earlyTests (⟨e.poly, e.linear, e.shift⟩ : Elem n) = true := early_of_valid h3
  rw [if_pos h6]

/-- `CNOTDihedral(a)`, documented as "initialize from another CNOTDihedral", always raises. -/
theorem C136_finding_copy_constructor (so : SetOrder) (h : Heap) (a : ℕ) : h.step so (.ofElem a) = (h, .raised) := rfl

/-- `tensor` and `expand` of a product with an element that is not one always raise. -/
theorem C136_finding_tensor_mixed {cs : List Cmd} {S : List OpEntry} (hS : Effects [] cs S) {a b m n : ℕ} {U : Op m}
    {V : Op n} {p : Bool} (ha : S[a]? = some ⟨m, U, p⟩) (hb : S[b]? = some ⟨n, V, !p⟩) :
    ((Heap.empty.run cpySetOrder cs).step cpySetOrder (.tensor a b)).2 = .raised ∧
    ((Heap.empty.run cpySetOrder cs).step cpySetOrder (.expand a b)).2 = .raised := by
  have s := sim_run hS
  obtain ⟨i, j, t, e, h1, h2, h3, h4, h5⟩ := s.get ha
  obtain ⟨i', j', t', e', k1, k2, k3, k4, k5⟩ := s.get hb
  have e1 : (Heap.empty.run cpySetOrder cs).attrs m ⟨m, i, j, t⟩ = some (e.poly, e.linear, stored p e.shift) := h2
  have e2 : (Heap.empty.run cpySetOrder cs).attrs n ⟨n, i', j', t'⟩ = some (e'.poly, e'.linear, stored (!p) e'.shift) := k2
  unfold Heap.step
  simp only [h1, k1]
  unfold Heap.tensor
  simp only [e1, e2]
  cases p <;> simp [stored]

/-- `tensor` of two products on different numbers of qubits raises; on equal numbers it returns an element
that is equal to none of the elements of the program, in particular not to the tensor product. -/
theorem C136_finding_tensor_of_products {cs : List Cmd} {S : List OpEntry} (hS : Effects [] cs S) {a b m n : ℕ}
    {U : Op m} {V : Op n} (ha : S[a]? = some ⟨m, U, true⟩) (hb : S[b]? = some ⟨n, V, true⟩) :
    let h := Heap.empty.run cpySetOrder cs
    let r := h.step cpySetOrder (.tensor a b)
    (m ≠ n → r.2 = .raised) ∧
    (m = n → r.2 = .new h.objs.length ∧ ∀ (d : ℕ) (E : OpEntry), S[d]? = some E → r.1.eq h.objs.length d = some false) := by
  intro h r
  have s : Sim h S := sim_run hS
  obtain ⟨i, j, t, e, h1, h2, h3, h4, h5⟩ := s.get ha
  obtain ⟨i', j', t', e', k1, k2, k3, k4, k5⟩ := s.get hb
  have e1 : h.attrs m ⟨m, i, j, t⟩ = some (e.poly, e.linear, .lst e.shift) := h2
  have e2 : h.attrs n ⟨n, i', j', t'⟩ = some (e'.poly, e'.linear, .lst e'.shift) := k2
  have hr : r = h.tensor ⟨m, i, j, t⟩ ⟨n, i', j', t'⟩ := by
    show h.step cpySetOrder (.tensor a b) = _
    unfold Heap.step; simp only [h1, k1]
  refine ⟨fun hmn => ?_, fun hmn => ?_⟩
  · rw [hr]
    unfold Heap.tensor
    simp only [e1, e2, if_neg hmn]
  · obtain ⟨q, h6, -⟩ := C74_tensor e e' h3 k3
    have h6' : tensorCore (⟨e.poly, e.linear, e.shift⟩ : Elem m) (⟨e'.poly, e'.linear, e'.shift⟩ : Elem n) = some q := h6
    have hr' : r = h.alloc q.poly q.linear (.arr2 [List.ofFn e.shift, List.ofFn e'.shift]) := by
      rw [hr]
      unfold Heap.tensor
      simp only [e1, e2, if_pos hmn, h6']
    refine ⟨by rw [hr']; rfl, fun d E hd => ?_⟩
    obtain ⟨N, W', k⟩ := E
    obtain ⟨x, y, z, f, f1, f2, -⟩ := s.get hd
    have hdl : d < h.objs.length := (List.getElem?_eq_some_iff.1 f1).1
    rw [hr']
    unfold Heap.eq
    rw [alloc_objs, List.getElem?_concat_length, List.getElem?_append_left hdl, f1]
    simp only [Option.bind_eq_bind, Option.bind_some]
    by_cases hN : m + n = N
    · subst hN
      rw [if_pos rfl, alloc_attrs_new]
      have f3 : (h.alloc q.poly q.linear (.arr2 [List.ofFn e.shift, List.ofFn e'.shift])).1.attrs (m + n) ⟨m + n, x, y, z⟩ =
          some (f.poly, f.linear, stored k f.shift) :=
        (alloc_attrs_old h _ _ _ (o := ⟨m + n, x, y, z⟩) (s.inv.bnd d _ f1)).trans f2
      simp only [Option.bind_some, f3]
      cases k <;> simp [stored]
    · rw [if_neg hN]

/-- `append_circuit` that raises at an instruction which is no CNOT-dihedral gate has already applied the
instructions before it: the element then stands for the old operator followed by these. -/
theorem C136_finding_append_not_atomic {cs : List Cmd} {S : List OpEntry} (hS : Effects [] cs S) {a n : ℕ} {U V : Op n}
    {p : Bool} (ha : S[a]? = some ⟨n, U, p⟩) {c d : List Gate} {q : List ℕ} (hc : ∀ g ∈ c, GateOk n g)
    (hV : ∀ x, applyCircuit c (U x) = some (V x)) :
    let r := (Heap.empty.run cpySetOrder cs).step cpySetOrder (.append a (c ++ .other q :: d))
    r.2 = .raised ∧ Represents r.1 a ⟨n, V, p⟩ := by
  intro r
  have s := sim_run hS
  obtain ⟨i, j, t, e, h1, h2, h3, h4, h5⟩ := s.get ha
  obtain ⟨e', h6, h7, h8⟩ := append_sameOp h3 h4 hc hV
  obtain ⟨h9, h10⟩ := append_fails q d c h2 h6
  have hp : r = (Heap.empty.run cpySetOrder cs).append ⟨n, i, j, t⟩ (c ++ .other q :: d) := by
    show Heap.step _ _ _ = _
    unfold Heap.step; simp only [h1]
  rw [hp]
  exact ⟨h9, (((s.write h1 (only_append _ _ _) h10 h5 h7 h8).rep a ⟨n, V, p⟩
    (List.getElem?_set_self (by rw [← s.len]; exact (List.getElem?_eq_some_iff.1 h1).1))).1)⟩

/-! ### An example -/

/-- A program: two one-qubit elements, a gate in place, their product, a copy changed in place, an inverse
and a tensor product. -/
def exampleProgram : List Cmd :=
  [.new 1, .new 1, .prim 0 (.flip 0), .prim 1 (.phase 3 0), .compose 0 1 false, .copy 2, .prim 3 (.flip 0),
   .tensor 0 1, .append 4 [.cx 0 1, .cz 1 0]]

theorem applyCircuit_total {n : ℕ} : ∀ (c : List Gate) (hc : ∀ g ∈ c, GateOk n g) (ψ : State (Fin n) ℂ),
    ∃ φ, applyCircuit c ψ = some φ
  | [], _, ψ => ⟨ψ, rfl⟩
  | g :: c, hc, ψ => by
    have h1 : ∃ φ, applyGate g ψ = some φ := by
      have hg := hc g (by simp)
      cases g with
      | other q => exact hg.elim
      | x q => exact ⟨_, dif_pos hg⟩
      | y q => exact ⟨_, dif_pos hg⟩
      | z q => exact ⟨_, dif_pos hg⟩
      | u1 k q => exact ⟨_, dif_pos hg⟩
      | cx a b => exact ⟨_, dif_pos hg⟩
      | cz a b => exact ⟨_, dif_pos hg⟩
      | id q => exact ⟨_, if_pos hg⟩
    obtain ⟨φ, h1⟩ := h1
    obtain ⟨χ, h2⟩ := applyCircuit_total c (fun g hg => hc g (by simp [hg])) φ
    refine ⟨χ, ?_⟩
    unfold applyCircuit at h2 ⊢
    rw [List.foldlM_cons, h1]; exact h2

/-- The hypotheses are met: the example program is a proper one, it makes five elements, two of them
products. -/
theorem C136_experiment : ∃ S, Effects [] exampleProgram S ∧ S.length = 5 ∧ S.map (·.product) = [false, false, true, true, false] := by
  have tot : ∀ {n : ℕ} (c : List Gate), (∀ g ∈ c, GateOk n g) → ∀ U : Op n, ∃ V : Op n, ∀ x, applyCircuit c (U x) = some (V x) := by
    intro n c hc U
    choose V hV using fun x => applyCircuit_total c hc (U x)
    exact ⟨V, hV⟩
  have tot1 : ∀ {n : ℕ} (m : Prim), GateOk n m.gate → ∀ U : Op n, ∃ V : Op n, ∀ x, m.apply (U x) = some (V x) := by
    intro n m hm U
    obtain ⟨V, hV⟩ := tot [m.gate] (by simpa using hm) U
    exact ⟨V, fun x => (prim_apply_gate m _).trans (hV x)⟩
  obtain ⟨A, hA⟩ := tot1 (n := 1) (.flip 0) Nat.one_pos ket
  obtain ⟨B, hB⟩ := tot1 (n := 1) (.phase 3 0) Nat.one_pos ket
  obtain ⟨C, hC⟩ := tot1 (n := 1) (.flip 0) Nat.one_pos (A.andThen B)
  obtain ⟨D, hD⟩ := tot (n := 1 + 1) [.cx 0 1, .cz 1 0] (by simp [GateOk]) (A.beside B)
  have s1 : Effects [] [.new 1] [⟨1, ket, false⟩] := .snoc (.nil []) ⟨le_refl _, rfl⟩
  have s2 : Effects [] [.new 1, .new 1] [⟨1, ket, false⟩, ⟨1, ket, false⟩] := .snoc s1 ⟨le_refl _, rfl⟩
  have s3 : Effects [] [.new 1, .new 1, .prim 0 (.flip 0)] [⟨1, A, false⟩, ⟨1, ket, false⟩] :=
    .snoc s2 ⟨⟨1, ket, false⟩, A, rfl, hA, rfl⟩
  have s4 : Effects [] [.new 1, .new 1, .prim 0 (.flip 0), .prim 1 (.phase 3 0)] [⟨1, A, false⟩, ⟨1, B, false⟩] :=
    .snoc s3 ⟨⟨1, ket, false⟩, B, rfl, hB, rfl⟩
  have s5 : Effects [] [.new 1, .new 1, .prim 0 (.flip 0), .prim 1 (.phase 3 0), .compose 0 1 false]
      [⟨1, A, false⟩, ⟨1, B, false⟩, ⟨1, A.andThen B, true⟩] :=
    .snoc s4 ⟨1, A, B, false, false, by norm_num, rfl, rfl, rfl⟩
  have s6 : Effects [] [.new 1, .new 1, .prim 0 (.flip 0), .prim 1 (.phase 3 0), .compose 0 1 false, .copy 2]
      [⟨1, A, false⟩, ⟨1, B, false⟩, ⟨1, A.andThen B, true⟩, ⟨1, A.andThen B, true⟩] :=
    .snoc s5 ⟨⟨1, A.andThen B, true⟩, rfl, rfl⟩
  have s7 : Effects [] [.new 1, .new 1, .prim 0 (.flip 0), .prim 1 (.phase 3 0), .compose 0 1 false, .copy 2, .prim 3 (.flip 0)]
      [⟨1, A, false⟩, ⟨1, B, false⟩, ⟨1, A.andThen B, true⟩, ⟨1, C, true⟩] :=
    .snoc s6 ⟨⟨1, A.andThen B, true⟩, C, rfl, hC, rfl⟩
  have s8 : Effects [] [.new 1, .new 1, .prim 0 (.flip 0), .prim 1 (.phase 3 0), .compose 0 1 false, .copy 2, .prim 3 (.flip 0), .tensor 0 1]
      [⟨1, A, false⟩, ⟨1, B, false⟩, ⟨1, A.andThen B, true⟩, ⟨1, C, true⟩, ⟨1 + 1, A.beside B, false⟩] :=
    .snoc s7 ⟨1, 1, A, B, rfl, rfl, rfl⟩
  exact ⟨[⟨1, A, false⟩, ⟨1, B, false⟩, ⟨1, A.andThen B, true⟩, ⟨1, C, true⟩, ⟨1 + 1, D, false⟩],
    .snoc s8 ⟨⟨1 + 1, A.beside B, false⟩, D, rfl, by simp [GateOk], hD, rfl⟩, rfl, rfl⟩

end Verif.Dihedral
