import Verif.Dihedral.SpecObjects
/-
Cells of different elements are different, whatever the program does.
-/
set_option linter.unusedSimpArgs false
set_option linter.unusedVariables false
namespace Verif.Dihedral
open Verif.Quantum

/-- Every object has its cells, and no cell belongs to two objects. -/
structure HeapInv (h : Heap) : Prop where
  bnd : ∀ (a : ℕ) (o : Obj), h.objs[a]? = some o →
    o.p < (h.polys o.n).length ∧ o.l < (h.lins o.n).length ∧ o.s < (h.shifts o.n).length
  dis : ∀ (a b : ℕ) (o o' : Obj), h.objs[a]? = some o → h.objs[b]? = some o' → a ≠ b → o.n = o'.n →
    o.p ≠ o'.p ∧ o.l ≠ o'.l ∧ o.s ≠ o'.s

/-- `h'` differs from `h` at most in the cells of `o`. -/
structure Only (o : Obj) (h h' : Heap) : Prop where
  objs : h'.objs = h.objs
  lp : ∀ n, (h'.polys n).length = (h.polys n).length
  ll : ∀ n, (h'.lins n).length = (h.lins n).length
  ls : ∀ n, (h'.shifts n).length = (h.shifts n).length
  p : ∀ n i, ¬ (n = o.n ∧ i = o.p) → (h'.polys n)[i]? = (h.polys n)[i]?
  l : ∀ n i, ¬ (n = o.n ∧ i = o.l) → (h'.lins n)[i]? = (h.lins n)[i]?
  s : ∀ n i, ¬ (n = o.n ∧ i = o.s) → (h'.shifts n)[i]? = (h.shifts n)[i]?

theorem Only.refl (o : Obj) (h : Heap) : Only o h h :=
  ⟨rfl, fun _ => rfl, fun _ => rfl, fun _ => rfl, fun _ _ _ => rfl, fun _ _ _ => rfl, fun _ _ _ => rfl⟩

theorem Only.trans {o : Obj} {h h' h'' : Heap} (a : Only o h h') (b : Only o h' h'') : Only o h h'' :=
  ⟨b.objs.trans a.objs, fun n => (b.lp n).trans (a.lp n), fun n => (b.ll n).trans (a.ll n),
    fun n => (b.ls n).trans (a.ls n), fun n i c => (b.p n i c).trans (a.p n i c),
    fun n i c => (b.l n i c).trans (a.l n i c), fun n i c => (b.s n i c).trans (a.s n i c)⟩

theorem only_setPoly (h : Heap) (o : Obj) (p : Poly o.n) : Only o h (h.setPoly o p) := by
  refine ⟨rfl, fun n => ?_, fun _ => rfl, fun _ => rfl, fun n i c => ?_, fun _ _ _ => rfl, fun _ _ _ => rfl⟩
  · unfold Heap.setPoly
    by_cases hn : n = o.n
    · subst hn; simp
    · simp [Function.update_of_ne hn]
  · unfold Heap.setPoly
    by_cases hn : n = o.n
    · subst hn
      have hi : o.p ≠ i := fun h => c ⟨rfl, h.symm⟩
      simp [List.getElem?_set_ne hi]
    · simp [Function.update_of_ne hn]

theorem only_setLin (h : Heap) (o : Obj) (l : Fin o.n → Fin o.n → ℤ) : Only o h (h.setLin o l) := by
  refine ⟨rfl, fun _ => rfl, fun n => ?_, fun _ => rfl, fun _ _ _ => rfl, fun n i c => ?_, fun _ _ _ => rfl⟩
  · unfold Heap.setLin
    by_cases hn : n = o.n
    · subst hn; simp
    · simp [Function.update_of_ne hn]
  · unfold Heap.setLin
    by_cases hn : n = o.n
    · subst hn
      have hi : o.l ≠ i := fun h => c ⟨rfl, h.symm⟩
      simp [List.getElem?_set_ne hi]
    · simp [Function.update_of_ne hn]

theorem only_setShift (h : Heap) (o : Obj) (v : Fin o.n → ℤ) : Only o h (h.setShift o v) := by
  refine ⟨rfl, fun _ => rfl, fun _ => rfl, fun n => ?_, fun _ _ _ => rfl, fun _ _ _ => rfl, fun n i c => ?_⟩
  · unfold Heap.setShift
    by_cases hn : n = o.n
    · subst hn; simp
    · simp [Function.update_of_ne hn]
  · unfold Heap.setShift
    by_cases hn : n = o.n
    · subst hn
      have hi : o.s ≠ i := fun h => c ⟨rfl, h.symm⟩
      simp [List.getElem?_modify, hi]
    · simp [Function.update_of_ne hn]

theorem only_prim (h : Heap) (o : Obj) (m : Prim) : Only o h (h.prim o m).1 := by
  unfold Heap.prim
  cases h.elem o.n o with
  | none => exact Only.refl o h
  | some e =>
    cases m with
    | flip i => simp only; cases flip e i with
      | none => exact Only.refl o h
      | some r => exact only_setShift h o _
    | phase k i => simp only; cases phase e k i with
      | none => exact Only.refl o h
      | some r => exact only_setPoly h o _
    | cnot i j => simp only; cases cnot e i j with
      | none => exact Only.refl o h
      | some r => exact (only_setLin h o _).trans (only_setShift _ o _)

theorem only_prims (o : Obj) : ∀ (ms : List Prim) (h : Heap), Only o h (h.prims o ms).1
  | [], h => Only.refl o h
  | m :: ms, h => by
    unfold Heap.prims
    have h1 := only_prim h o m
    generalize h.prim o m = r at h1
    obtain ⟨h', out⟩ := r
    cases out with
    | done => exact Only.trans h1 (only_prims o ms h')
    | new a => exact h1
    | raised => exact h1
    | unmodelled => exact h1

theorem only_append (o : Obj) : ∀ (gs : List Gate) (h : Heap), Only o h (h.append o gs).1
  | [], h => Only.refl o h
  | g :: gs, h => by
    unfold Heap.append
    cases g.prims with
    | none => exact Only.refl o h
    | some ms =>
      simp only
      have h1 := only_prims o ms h
      generalize h.prims o ms = r at h1
      obtain ⟨h', out⟩ := r
      cases out with
      | done => exact Only.trans h1 (only_append o gs h')
      | new a => exact h1
      | raised => exact h1
      | unmodelled => exact h1

theorem Only.inv {o : Obj} {h h' : Heap} (c : Only o h h') (i : HeapInv h) : HeapInv h' := by
  refine ⟨fun a o' ha => ?_, fun a b o1 o2 ha hb => ?_⟩
  · rw [c.objs] at ha
    rw [c.lp, c.ll, c.ls]; exact i.bnd a o' ha
  · rw [c.objs] at ha hb; exact i.dis a b o1 o2 ha hb

/-- A write to one object is invisible in another. -/
theorem Only.attrs {o : Obj} {h h' : Heap} (c : Only o h h') (i : HeapInv h) {a b : ℕ} {o' : Obj}
    (ha : h.objs[a]? = some o) (hb : h.objs[b]? = some o') (hab : a ≠ b) : h'.attrs o'.n o' = h.attrs o'.n o' := by
  have hd := i.dis a b o o' ha hb hab
  unfold Heap.attrs
  rw [c.p o'.n o'.p fun k => (hd k.1.symm).1 k.2.symm, c.l o'.n o'.l fun k => (hd k.1.symm).2.1 k.2.symm,
    c.s o'.n o'.s fun k => (hd k.1.symm).2.2 k.2.symm]

theorem Only.look {o : Obj} {h h' : Heap} (c : Only o h h') (i : HeapInv h) {a b : ℕ}
    (ha : h.objs[a]? = some o) (hab : a ≠ b) : h'.look b = h.look b := by
  unfold Heap.look
  rw [c.objs]
  cases hb : h.objs[b]? with
  | none => rfl
  | some o' => simp [c.attrs i ha hb hab]

/-! Creating an object. -/

theorem alloc_objs (h : Heap) {n : ℕ} (p : Poly n) (l : Fin n → Fin n → ℤ) (s : Shift n) :
    (h.alloc p l s).1.objs = h.objs ++ [⟨n, (h.polys n).length, (h.lins n).length, (h.shifts n).length⟩] := rfl

theorem alloc_attrs_old (h : Heap) {n : ℕ} (p : Poly n) (l : Fin n → Fin n → ℤ) (s : Shift n) {o : Obj}
    (ho : o.p < (h.polys o.n).length ∧ o.l < (h.lins o.n).length ∧ o.s < (h.shifts o.n).length) :
    (h.alloc p l s).1.attrs o.n o = h.attrs o.n o := by
  unfold Heap.attrs Heap.alloc
  by_cases hn : o.n = n
  · obtain ⟨m, op, ol, os⟩ := o
    simp only at hn ho ⊢
    subst hn
    simp only [Function.update_self]
    rw [List.getElem?_append_left ho.1, List.getElem?_append_left ho.2.1, List.getElem?_append_left ho.2.2]
  · simp only [Function.update_of_ne hn]

theorem alloc_attrs_new (h : Heap) {n : ℕ} (p : Poly n) (l : Fin n → Fin n → ℤ) (s : Shift n) :
    (h.alloc p l s).1.attrs n ⟨n, (h.polys n).length, (h.lins n).length, (h.shifts n).length⟩ = some (p, l, s) := by
  unfold Heap.attrs Heap.alloc
  simp

theorem alloc_inv {h : Heap} (i : HeapInv h) {n : ℕ} (p : Poly n) (l : Fin n → Fin n → ℤ) (s : Shift n) :
    HeapInv (h.alloc p l s).1 := by
  have mono : ∀ o : Obj, (o.p < (h.polys o.n).length ∧ o.l < (h.lins o.n).length ∧ o.s < (h.shifts o.n).length) →
      o.p < ((h.alloc p l s).1.polys o.n).length ∧ o.l < ((h.alloc p l s).1.lins o.n).length ∧
        o.s < ((h.alloc p l s).1.shifts o.n).length := by
    intro o ho
    unfold Heap.alloc
    by_cases hn : o.n = n
    · obtain ⟨m, op, ol, os⟩ := o
      simp only at hn ho ⊢
      subst hn
      simp only [Function.update_self, List.length_append, List.length_singleton]
      omega
    · simp only [Function.update_of_ne hn]; exact ho
  have old : ∀ a o, (h.alloc p l s).1.objs[a]? = some o → (a < h.objs.length ∧ h.objs[a]? = some o) ∨
      (a = h.objs.length ∧ o = ⟨n, (h.polys n).length, (h.lins n).length, (h.shifts n).length⟩) := by
    intro a o ha
    rw [alloc_objs] at ha
    rcases Nat.lt_trichotomy a h.objs.length with hl | hl | hl
    · rw [List.getElem?_append_left hl] at ha; exact Or.inl ⟨hl, ha⟩
    · subst hl; rw [List.getElem?_concat_length] at ha; exact Or.inr ⟨rfl, (Option.some.inj ha).symm⟩
    · rw [List.getElem?_eq_none (by simp; omega)] at ha; exact absurd ha (by simp)
  refine ⟨fun a o ha => ?_, fun a b o o' ha hb hab hn => ?_⟩
  · rcases old a o ha with ⟨-, h1⟩ | ⟨-, rfl⟩
    · exact mono o (i.bnd a o h1)
    · unfold Heap.alloc; simp
  · rcases old a o ha with ⟨h1, h2⟩ | ⟨h1, rfl⟩ <;> rcases old b o' hb with ⟨h3, h4⟩ | ⟨h3, rfl⟩
    · exact i.dis a b o o' h2 h4 hab hn
    · have hb := i.bnd a o h2
      simp only at hn
      rw [hn] at hb
      refine ⟨?_, ?_, ?_⟩ <;> simp only <;> omega
    · have hb := i.bnd b o' h4
      simp only at hn
      rw [← hn] at hb
      refine ⟨?_, ?_, ?_⟩ <;> simp only <;> omega
    · exact absurd (h1.trans h3.symm) hab

theorem alloc_look_old {h : Heap} (i : HeapInv h) {n : ℕ} (p : Poly n) (l : Fin n → Fin n → ℤ) (s : Shift n) {a : ℕ}
    (ha : a < h.objs.length) : (h.alloc p l s).1.look a = h.look a := by
  unfold Heap.look
  rw [alloc_objs, List.getElem?_append_left ha, List.getElem?_eq_getElem ha]
  simp only [Option.map_some]
  rw [alloc_attrs_old h p l s (i.bnd a _ (List.getElem?_eq_getElem ha))]

theorem alloc_look_new (h : Heap) {n : ℕ} (p : Poly n) (l : Fin n → Fin n → ℤ) (s : Shift n) :
    (h.alloc p l s).1.look h.objs.length = some ⟨n, some (p, l, s)⟩ := by
  unfold Heap.look
  rw [alloc_objs, List.getElem?_concat_length]
  simp only [Option.map_some]
  rw [alloc_attrs_new]

/-! Every call is one of these. -/

/-- What a call can do to the heap. -/
inductive StepKind (h : Heap) (c : Cmd) (r : Heap × Out) : Prop
  | write (a : ℕ) (o : Obj) (ht : c.target = some a) (ho : h.objs[a]? = some o) (w : Only o h r.1)
  | same (e : r.1 = h) (no : ∀ a, r.2 ≠ .new a)
  | create {n : ℕ} (p : Poly n) (l : Fin n → Fin n → ℤ) (s : Shift n) (ht : c.target = none) (e : r = h.alloc p l s)

theorem kind_unary (h : Heap) (c : Cmd) (ht : c.target = none) (a : ℕ) (f : (n : ℕ) → Elem n → Option (Elem n)) :
    StepKind h c (h.unary a f) := by
  unfold Heap.unary
  cases h.objs[a]? with
  | none => exact .same rfl (by simp)
  | some o =>
    simp only
    cases h.elem o.n o with
    | none => exact .same rfl (by simp)
    | some e =>
      simp only
      cases f o.n e with
      | none => exact .same rfl (by simp)
      | some r => exact .create _ _ _ ht rfl

theorem kind_product (h : Heap) (c : Cmd) (ht : c.target = none) (a b : ℕ)
    (f : (n : ℕ) → Elem n → Elem n → Option (Elem n)) : StepKind h c (h.product a b f) := by
  unfold Heap.product
  cases h.objs[a]? with
  | none => exact .same rfl (by simp)
  | some o =>
    cases h.objs[b]? with
    | none => exact .same rfl (by simp)
    | some o' =>
      simp only
      split_ifs with hn
      · cases h.elem o.n o with
        | none => exact .same rfl (by simp)
        | some e =>
          cases h.elem o.n o' with
          | none => exact .same rfl (by simp)
          | some e' =>
            simp only
            cases f o.n e e' with
            | none => exact .same rfl (by simp)
            | some r => exact .create _ _ _ ht rfl
      · exact .same rfl (by simp)

theorem kind_tensor (h : Heap) (c : Cmd) (ht : c.target = none) (o0 o1 : Obj) : StepKind h c (h.tensor o0 o1) := by
  unfold Heap.tensor
  split
  · split
    · exact .same rfl (by simp)
    · exact .create _ _ _ ht rfl
  · split
    · split
      · exact .same rfl (by simp)
      · exact .create _ _ _ ht rfl
    · exact .same rfl (by simp)
  all_goals exact .same rfl (by simp)

theorem step_kind (so : SetOrder) (h : Heap) (c : Cmd) : StepKind h c (h.step so c) := by
  unfold Heap.step
  cases c with
  | new n => simp only; split_ifs; exacts [.same rfl (by simp), .create _ _ _ rfl rfl]
  | ofCircuit n g =>
    simp only; split_ifs
    · exact .same rfl (by simp)
    · cases fromCircuit n g with
      | none => exact .same rfl (by simp)
      | some e => simp only; split_ifs; exacts [.create _ _ _ rfl rfl, .same rfl (by simp)]
  | ofElem a => exact .same rfl (by simp)
  | copy a =>
    simp only
    cases h.objs[a]? with
    | none => exact .same rfl (by simp)
    | some o =>
      simp only
      cases h.attrs o.n o with
      | none => exact .same rfl (by simp)
      | some q => exact .create _ _ _ rfl rfl
  | prim a m =>
    simp only
    cases ho : h.objs[a]? with
    | none => exact .same rfl (by simp)
    | some o => exact .write a o rfl ho (only_prim h o m)
  | append a g =>
    simp only
    cases ho : h.objs[a]? with
    | none => exact .same rfl (by simp)
    | some o => exact .write a o rfl ho (only_append o g h)
  | mul a b => exact kind_product h _ rfl a b _
  | compose a b f => exact kind_product h _ rfl a b _
  | dot a b => exact kind_product h _ rfl a b _
  | tensor a b =>
    simp only
    cases h.objs[a]? with
    | none => exact .same rfl (by simp)
    | some o =>
      cases h.objs[b]? with
      | none => exact .same rfl (by simp)
      | some o' => exact kind_tensor h _ rfl _ _
  | expand a b =>
    simp only
    cases h.objs[a]? with
    | none => exact .same rfl (by simp)
    | some o =>
      cases h.objs[b]? with
      | none => exact .same rfl (by simp)
      | some o' => exact kind_tensor h _ rfl _ _
  | adjoint a => exact kind_unary h _ rfl a _
  | conjugate a => exact kind_unary h _ rfl a _
  | transpose a => exact kind_unary h _ rfl a _

theorem inv_empty : HeapInv Heap.empty :=
  ⟨fun a o h => by simp [Heap.empty] at h, fun a b o o' h => by simp [Heap.empty] at h⟩

theorem inv_step (so : SetOrder) {h : Heap} (i : HeapInv h) (c : Cmd) : HeapInv (h.step so c).1 := by
  rcases step_kind so h c with ⟨a, o, -, -, w⟩ | ⟨e, -⟩ | ⟨p, l, s, -, e⟩
  · exact w.inv i
  · rw [e]; exact i
  · rw [e]; exact alloc_inv i p l s

theorem inv_run (so : SetOrder) : ∀ (cs : List Cmd) {h : Heap}, HeapInv h → HeapInv (h.run so cs)
  | [], _, i => i
  | c :: cs, _, i => inv_run so cs (inv_step so i c)

end Verif.Dihedral
