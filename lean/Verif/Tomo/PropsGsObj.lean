import Verif.Tomo.GsObj
/-
C132: gate set bases after any history of construction and `add_gate`.
-/
set_option linter.unusedSectionVars false
set_option linter.unusedVariables false
namespace Verif.Tomo
open Verif Verif.Counts Matrix

variable {ι : Type}

/-! Specification. -/

/-- Specification: the listed gates are exactly the ones a circuit can use, and the matrix of each is the transfer matrix of what it adds to a
circuit. -/
def GsCoherent (ptm : Ptm ι) (h : GsHeap ι) (o : GsObj) : Prop :=
  ∀ l, (l ∈ o.gateLabels ↔ ∃ f, (h.view o).gates.get? l = some f) ∧ o.mats.get? l = ((h.view o).gates.get? l).bind ptm

/-- Specification: the gates a program mentions have transfer matrices and its dictionaries have distinct keys. -/
def GsCall.Fine (ptm : Ptm ι) : GsCall ι → Prop
  | .dict d => d.WF ∧ ∀ kv ∈ d, (ptm kv.2.ops).isSome = true
  | .build _ _ => True
  | .add _ g _ => (ptm g.ops).isSome = true

/-- Specification: the name under which `add_gate(gate, name)` adds a gate: the given one, else that of the gate object. -/
def AddsAs (g : GateArg ι) (name : Option Str) (nm : Str) : Prop := name = some nm ∨ (name = none ∧ ∃ f, g = .obj nm f)

/-- Specification: the dictionary from which a call makes a gate set, if any. -/
def GsCall.source : GsCall ι → Option ℕ
  | .build r _ => some r
  | _ => none

/-! Helpers. -/

theorem gateName_of {g : GateArg ι} {name : Option Str} {nm : Str} (h : AddsAs g name nm) : gateName g name = some nm := by
  rcases h with rfl | ⟨rfl, f, rfl⟩ <;> rfl

theorem get?_mapVal {κ υ ω : Type} [DecidableEq κ] (d : Dict κ υ) (f : υ → ω) (k : κ) :
    Dict.get? (d.map fun kv => (kv.1, f kv.2)) k = (Dict.get? d k).map f := by
  induction d with
  | nil => rfl
  | cons kv d ih =>
    obtain ⟨a, b⟩ := kv
    simp only [List.map_cons, Dict.get?_cons, ih]
    split <;> rfl

theorem view_get (h : GsHeap ι) (o : GsObj) (l : Str) :
    (h.view o).gates.get? l = ((h.dicts.getD o.ref []).get? l).map GateArg.ops := by
  unfold GsHeap.view
  exact get?_mapVal _ _ _

theorem mats_get (ptm : Ptm ι) (d : Dict Str (GateArg ι)) (mats : Dict Str PtmMat)
    (hm : (d.mapM fun kv => (ptm kv.2.ops).map fun m => (kv.1, m)) = some mats) (l : Str) :
    mats.get? l = (d.get? l).bind fun g => ptm g.ops := by
  induction d generalizing mats with
  | nil =>
    simp at hm
    subst hm
    rfl
  | cons kv d ih =>
    obtain ⟨a, g⟩ := kv
    rw [List.mapM_cons] at hm
    cases hp : ptm g.ops with
    | none => simp [hp] at hm
    | some m =>
      cases hr : d.mapM fun kv => (ptm kv.2.ops).map fun m => (kv.1, m) with
      | none => simp [hp, hr] at hm
      | some ms =>
        simp [hp, hr] at hm
        subst hm
        rw [Dict.get?_cons, Dict.get?_cons]
        by_cases e : a = l
        · simp [e, hp]
        · simp [e, ih ms hr]

theorem getD_modify (ds : List (Dict Str (GateArg ι))) (r r' : ℕ) (f : Dict Str (GateArg ι) → Dict Str (GateArg ι)) (hr : r < ds.length) :
    (ds.modify r f).getD r' [] = if r = r' then f (ds.getD r' []) else ds.getD r' [] := by
  rw [List.getD_eq_getElem?_getD, List.getElem?_modify, List.getD_eq_getElem?_getD]
  by_cases e : r = r'
  · subst e
    simp [hr]
  · simp [e]

/-- What holds between the calls of a program that still has the sources `rest` to use. -/
structure GsInv (ptm : Ptm ι) (rest : List ℕ) (h : GsHeap ι) : Prop where
  inRange : ∀ o ∈ h.objs, o.ref < h.dicts.length
  refs : (h.objs.map (·.ref)).Nodup
  apart : ∀ o ∈ h.objs, o.ref ∉ rest
  coh : ∀ o ∈ h.objs, GsCoherent ptm h o
  fine : ∀ d ∈ h.dicts, d.WF ∧ ∀ kv ∈ d, (ptm kv.2.ops).isSome = true

theorem coherent_of_getD (ptm : Ptm ι) (h h' : GsHeap ι) (o : GsObj) (e : h'.dicts.getD o.ref [] = h.dicts.getD o.ref [])
    (hc : GsCoherent ptm h o) : GsCoherent ptm h' o := by
  intro l
  have := hc l
  rw [view_get] at this ⊢
  rw [e]
  exact this

theorem set_fine (ptm : Ptm ι) (d : Dict Str (GateArg ι)) (nm : Str) (g : GateArg ι) (hg : (ptm g.ops).isSome = true)
    (hd : d.WF ∧ ∀ kv ∈ d, (ptm kv.2.ops).isSome = true) :
    (d.set nm g).WF ∧ ∀ kv ∈ d.set nm g, (ptm kv.2.ops).isSome = true := by
  have hw := Dict.wf_set d hd.1 nm g
  refine ⟨hw, ?_⟩
  rintro ⟨k, v⟩ hkv
  have h1 := Dict.get?_of_mem _ hw k v hkv
  rw [Dict.get?_set] at h1
  split at h1
  · obtain rfl := Option.some.inj h1
    exact hg
  · exact hd.2 _ (Dict.get?_mem _ _ _ h1)

theorem add_coherent (ptm : Ptm ι) (h : GsHeap ι) (i : ℕ) (o : GsObj) (g : GateArg ι) (nm : Str) (m : PtmMat) (objs : List GsObj)
    (hr : o.ref < h.dicts.length) (hm : ptm g.ops = some m) (hc : GsCoherent ptm h o) :
    GsCoherent ptm ⟨h.dicts.modify o.ref fun d => d.set nm g, objs⟩
      { o with gateLabels := o.gateLabels ++ [nm], mats := o.mats.set nm m } := by
  intro l
  have := hc l
  rw [view_get] at this ⊢
  simp only [getD_modify _ _ _ _ hr, if_pos, Dict.get?_set, List.mem_append, List.mem_singleton]
  by_cases e : l = nm
  · subst e
    simp [hm]
  · have e' : ¬ nm = l := fun x => e x.symm
    simpa [e, e'] using this

theorem inv_step (ptm : Ptm ι) (c : GsCall ι) (rest : List ℕ) (h : GsHeap ι) (hf : c.Fine ptm)
    (hn : (c.source.toList ++ rest).Nodup) (hi : GsInv ptm (c.source.toList ++ rest) h) : GsInv ptm rest (gsStep ptm h c).1 := by
  cases c with
  | dict d =>
    simp only [GsCall.source, Option.toList_none, List.nil_append] at hi
    refine ⟨?_, hi.refs, hi.apart, ?_, ?_⟩
    · intro o ho
      have := hi.inRange o ho
      simp only [gsStep, List.length_append, List.length_singleton]
      omega
    · intro o ho
      refine coherent_of_getD ptm h _ o ?_ (hi.coh o ho)
      simp only [gsStep, List.getD_eq_getElem?_getD]
      rw [List.getElem?_append_left (hi.inRange o ho)]
    · intro d' hd'
      simp only [gsStep, List.mem_append, List.mem_singleton] at hd'
      rcases hd' with hd' | rfl
      · exact hi.fine d' hd'
      · exact hf
  | build ref spam =>
    have hi' : GsInv ptm rest h := ⟨hi.inRange, hi.refs, fun o ho hx => hi.apart o ho (List.mem_append_right _ hx), hi.coh, hi.fine⟩
    simp only [gsStep]
    cases hd : h.dicts[ref]? with
    | none => exact hi'
    | some d =>
      simp only
      cases hm : d.mapM fun kv => (ptm kv.2.ops).map fun m => (kv.1, m) with
      | none => exact hi'
      | some mats =>
        have hlt : ref < h.dicts.length := (List.getElem?_eq_some_iff.1 hd).1
        simp only
        refine ⟨?_, ?_, ?_, ?_, hi.fine⟩
        · intro o ho
          rcases List.mem_append.1 ho with ho | ho
          · exact hi.inRange o ho
          · rw [List.mem_singleton] at ho
            subst ho
            exact hlt
        · rw [List.map_append, List.nodup_append]
          refine ⟨hi.refs, by simp, ?_⟩
          intro a ha b hb e
          obtain ⟨o, ho, rfl⟩ := List.mem_map.1 ha
          simp only [List.map_cons, List.map_nil, List.mem_singleton] at hb
          refine hi.apart o ho ?_
          rw [e, hb]
          simp [GsCall.source]
        · intro o ho
          rcases List.mem_append.1 ho with ho | ho
          · exact hi'.apart o ho
          · rw [List.mem_singleton] at ho
            subst ho
            simp only [GsCall.source, Option.toList_some, List.singleton_append, List.nodup_cons] at hn
            exact hn.1
        · intro o ho
          rcases List.mem_append.1 ho with ho | ho
          · exact coherent_of_getD ptm h _ o rfl (hi.coh o ho)
          · rw [List.mem_singleton] at ho
            subst ho
            intro l
            rw [view_get]
            simp only [List.getD_eq_getElem?_getD, hd, Option.getD_some]
            constructor
            · rw [Dict.mem_keys_iff, Option.isSome_iff_exists]
              constructor
              · rintro ⟨g, hg⟩
                exact ⟨g.ops, by rw [hg]; rfl⟩
              · rintro ⟨f, hf'⟩
                obtain ⟨g, hg, _⟩ := Option.map_eq_some_iff.1 hf'
                exact ⟨g, hg⟩
            · rw [mats_get ptm d mats hm l]
              cases d.get? l <;> rfl
  | add i g name =>
    simp only [GsCall.source, Option.toList_none, List.nil_append] at hi
    simp only [gsStep]
    cases ho : h.objs[i]? with
    | none => exact hi
    | some o =>
      simp only
      cases hnm : gateName g name with
      | none => exact hi
      | some nm =>
        simp only
        obtain ⟨m, hm⟩ := Option.isSome_iff_exists.1 (show (ptm g.ops).isSome = true from hf)
        rw [hm]
        simp only
        obtain ⟨hil, hie⟩ := List.getElem?_eq_some_iff.1 ho
        have hmem : o ∈ h.objs := List.mem_of_getElem? ho
        have hrefs : (h.objs.set i { o with gateLabels := o.gateLabels ++ [nm], mats := o.mats.set nm m }).map (·.ref) =
            h.objs.map (·.ref) := by
          rw [List.map_set]
          refine List.ext_getElem? fun j => ?_
          rw [List.getElem?_set]
          split
          · next e => subst e; simp [hil, hie]
          · rfl
        have hin : ∀ o' ∈ h.objs.set i { o with gateLabels := o.gateLabels ++ [nm], mats := o.mats.set nm m }, ∃ o'' ∈ h.objs, o''.ref = o'.ref := by
          intro o' ho'
          have : o'.ref ∈ (h.objs.set i { o with gateLabels := o.gateLabels ++ [nm], mats := o.mats.set nm m }).map (·.ref) :=
            List.mem_map.2 ⟨o', ho', rfl⟩
          rw [hrefs] at this
          obtain ⟨o'', h1, h2⟩ := List.mem_map.1 this
          exact ⟨o'', h1, h2⟩
        refine ⟨?_, ?_, ?_, ?_, ?_⟩
        · intro o' ho'
          obtain ⟨o'', h1, h2⟩ := hin o' ho'
          rw [List.length_modify, ← h2]
          exact hi.inRange o'' h1
        · simpa only [hrefs] using hi.refs
        · intro o' ho'
          obtain ⟨o'', h1, h2⟩ := hin o' ho'
          rw [← h2]
          exact hi.apart o'' h1
        · intro o' ho'
          obtain ⟨j, hj⟩ := List.mem_iff_getElem?.1 ho'
          rw [List.getElem?_set] at hj
          by_cases e : i = j
          · subst e
            rw [if_pos rfl, if_pos hil] at hj
            obtain rfl := Option.some.inj hj
            exact add_coherent ptm h i o g nm m _ (hi.inRange o hmem) hm (hi.coh o hmem)
          · rw [if_neg e] at hj
            have hmem' : o' ∈ h.objs := List.mem_of_getElem? hj
            refine coherent_of_getD ptm h _ o' ?_ (hi.coh o' hmem')
            rw [getD_modify _ _ _ _ (hi.inRange o hmem), if_neg]
            intro hr
            obtain ⟨hjl, hje⟩ := List.getElem?_eq_some_iff.1 hj
            refine e ((List.Nodup.getElem_inj_iff hi.refs (hi := by simpa using hil) (hj := by simpa using hjl)).1 ?_)
            simp only [List.getElem_map, hie, hje, hr]
        · intro d hd
          obtain ⟨j, hj⟩ := List.mem_iff_getElem?.1 hd
          rw [List.getElem?_modify] at hj
          obtain ⟨d0, hd0, hj⟩ := Option.map_eq_some_iff.1 hj
          have h0 := hi.fine d0 (List.mem_of_getElem? hd0)
          split at hj
          · subst hj
            exact set_fine ptm d0 nm g hf h0
          · subst hj
            exact h0

theorem inv_run (ptm : Ptm ι) (calls : List (GsCall ι)) (h : GsHeap ι) (hf : ∀ c ∈ calls, c.Fine ptm)
    (hn : (calls.filterMap GsCall.source).Nodup) (hi : GsInv ptm (calls.filterMap GsCall.source) h) :
    GsInv ptm [] (gsRun ptm h calls) := by
  induction calls generalizing h with
  | nil => exact hi
  | cons c cs ih =>
    have e : (c :: cs).filterMap GsCall.source = c.source.toList ++ cs.filterMap GsCall.source := by
      rw [List.filterMap_cons]
      cases c.source <;> rfl
    rw [e] at hn hi
    exact ih _ (fun c' hc' => hf c' (List.mem_cons_of_mem _ hc')) (List.Nodup.of_append_right hn)
      (inv_step ptm c _ h (hf c List.mem_cons_self) hn hi)

/-! Theorems. -/

/-- **C132**, every history.  Whatever dictionaries a program makes, whatever gate sets it builds from them and whatever gates it adds, in any
order and with failing calls in between: if no two gate sets are built from one dictionary and all gates have transfer matrices, then in
every gate set the listed gates are exactly those a circuit can use and each matrix is that of the gate a circuit would get. -/
theorem C132_coherent (ptm : Ptm ι) (calls : List (GsCall ι)) (hf : ∀ c ∈ calls, c.Fine ptm)
    (hn : (calls.filterMap GsCall.source).Nodup) :
    ∀ o ∈ (gsRun ptm ⟨[], []⟩ calls).objs, GsCoherent ptm (gsRun ptm ⟨[], []⟩ calls) o := by
  refine (inv_run ptm calls ⟨[], []⟩ hf hn ⟨?_, ?_, ?_, ?_, ?_⟩).coh <;> simp

/-- **C132**, one call.  `add_gate` with a name, or with a gate object, whose transfer matrix exists: the name is added to the list, a circuit
that uses the name gets the new gate, its matrix is the matrix of the new gate; other names, the SPAM circuits and the other gate sets'
lists and matrices stay as they were. -/
theorem C132_add (ptm : Ptm ι) (h : GsHeap ι) (i : ℕ) (o : GsObj) (g : GateArg ι) (name : Option Str) (nm : Str) (m : PtmMat)
    (ho : h.objs[i]? = some o) (hr : o.ref < h.dicts.length) (hnm : AddsAs g name nm) (hm : ptm g.ops = some m) :
    ∃ h' o', gsStep ptm h (.add i g name) = (h', true) ∧ h'.objs[i]? = some o' ∧ o'.gateLabels = o.gateLabels ++ [nm] ∧
      o'.spam = o.spam ∧
      (∀ q l, (h'.view o').gateOps q l = if l = nm then some (g.ops q) else (h.view o).gateOps q l) ∧
      (∀ l, o'.mats.get? l = if l = nm then some m else o.mats.get? l) ∧
      (∀ j, j ≠ i → h'.objs[j]? = h.objs[j]?) ∧
      ∀ (o2 : GsObj), o2.ref ≠ o.ref → h'.view o2 = h.view o2 := by
  obtain ⟨hil, hie⟩ := List.getElem?_eq_some_iff.1 ho
  refine ⟨⟨h.dicts.modify o.ref fun d => d.set nm g, h.objs.set i { o with gateLabels := o.gateLabels ++ [nm], mats := o.mats.set nm m }⟩,
    { o with gateLabels := o.gateLabels ++ [nm], mats := o.mats.set nm m }, ?_, ?_, rfl, rfl, ?_, ?_, ?_, ?_⟩
  · simp only [gsStep, ho, gateName_of hnm, hm]
  · rw [List.getElem?_set, if_pos rfl, if_pos hil]
  · intro q l
    unfold GateSet.gateOps
    rw [view_get, view_get]
    simp only [getD_modify _ _ _ _ hr, if_pos, Dict.get?_set]
    by_cases e : l = nm
    · subst e
      simp
    · have e' : ¬ nm = l := fun x => e x.symm
      simp [e, e']
  · intro l
    simp only [Dict.get?_set]
    exact if_congr ⟨Eq.symm, Eq.symm⟩ rfl rfl
  · intro j hj
    rw [List.getElem?_set, if_neg hj.symm]
  · intro o2 h2
    unfold GsHeap.view
    simp only [getD_modify _ _ _ _ hr, if_neg h2.symm]

/-- **C132**, errors.  `add_gate` on an existing gate set raises exactly if the gate is a function without a name or has no transfer matrix;
in the first case nothing has changed. -/
theorem C132_raises (ptm : Ptm ι) (h : GsHeap ι) (i : ℕ) (o : GsObj) (g : GateArg ι) (name : Option Str) (ho : h.objs[i]? = some o) :
    ((gsStep ptm h (.add i g name)).2 = false ↔ (name = none ∧ ∃ f, g = .fn f) ∨ ptm g.ops = none) ∧
    ((name = none ∧ ∃ f, g = .fn f) → gsStep ptm h (.add i g name) = (h, false)) := by
  constructor
  · simp only [gsStep, ho]
    cases name with
    | some nm =>
      simp only [gateName]
      cases hm : ptm g.ops <;> simp
    | none =>
      cases g with
      | obj nm f =>
        simp only [gateName]
        cases hm : ptm (GateArg.obj nm f).ops <;> simp
      | fn f => simp [gateName]
  · rintro ⟨rfl, f, rfl⟩
    simp only [gsStep, ho, gateName]

section
variable [DecidableEq ι]

/-- **C132**, circuits.  Adding a gate under a new name without quotes to a gate set fit for tomography leaves it fit for tomography:
the circuits of the larger gate set have distinct names and there is one for every SPAM circuit, every pair, and every gate, old or new,
between a pair. -/
theorem C132_circuits (ptm : Ptm ι) (h : GsHeap ι) (i : ℕ) (o : GsObj) (g : GateArg ι) (name : Option Str) (nm : Str) (m : PtmMat)
    (ho : h.objs[i]? = some o) (hr : o.ref < h.dicts.length) (hnm : AddsAs g name nm) (hm : ptm g.ops = some m)
    (hgood : GoodGateSet (h.view o)) (hnew : nm ∉ o.gateLabels) (hq : '\'' ∉ nm) (q : ι) :
    ∃ h' o' cs, gsStep ptm h (.add i g name) = (h', true) ∧ h'.objs[i]? = some o' ∧ GoodGateSet (h'.view o') ∧
      gatesetTomographyCircuits (h'.view o') q = some cs ∧ (cs.map Circ.name).Nodup ∧
      cs.length = (o.gateLabels.length + 1) * o.spam.length ^ 2 + o.spam.length ^ 2 + o.spam.length ∧
      ∀ k, ((∃ f, k = [f] ∧ o.spam.has f = true) ∨ (∃ f f', k = [f, f'] ∧ o.spam.has f = true ∧ o.spam.has f' = true) ∨
          ∃ f x f', k = [f, x, f'] ∧ o.spam.has f = true ∧ o.spam.has f' = true ∧ (x ∈ o.gateLabels ∨ x = nm)) →
        ∃ c ∈ cs, literalEval c.name = some (.state k) ∧ c.ops = gstOps (h'.view o') q k := by
  obtain ⟨h', o', hs, ho', hl, hsp, hops, hmats, -, -⟩ := C132_add ptm h i o g name nm m ho hr hnm hm
  have hhas : ∀ l, (h.view o).gates.has l = true → (h'.view o').gates.has l = true := by
    intro l hlh
    obtain ⟨f, hf⟩ := Option.isSome_iff_exists.1 hlh
    have := hops q l
    unfold GateSet.gateOps at this
    unfold Dict.has
    cases hx : (h'.view o').gates.get? l with
    | some _ => rfl
    | none =>
      rw [hx, hf] at this
      split at this <;> simp at this
  have hnmhas : (h'.view o').gates.has nm = true := by
    have := hops q nm
    unfold GateSet.gateOps at this
    rw [if_pos rfl] at this
    unfold Dict.has
    obtain ⟨f, hf, _⟩ := Option.map_eq_some_iff.1 this
    rw [hf]; rfl
  have hvs : (h'.view o').spam = o.spam := hsp
  have hvl : (h'.view o').gateLabels = o.gateLabels ++ [nm] := hl
  have good : GoodGateSet (h'.view o') := by
    refine ⟨?_, ?_, ?_, ?_, ?_, ?_⟩
    · rw [hvs]; exact hgood.spamNodup
    · rw [hvl]
      exact List.nodup_append.2 ⟨hgood.gatesNodup, by simp, by
        intro a ha b hb e
        rw [List.mem_singleton] at hb
        subst hb
        subst e
        exact hnew ha⟩
    · rw [hvs]; exact hgood.spamQuote
    · rw [hvl]
      intro a ha
      rcases List.mem_append.1 ha with ha | ha
      · exact hgood.gateQuote a ha
      · rw [List.mem_singleton] at ha
        subst ha
        exact hq
    · intro l hlm
      rw [hvl] at hlm
      rcases List.mem_append.1 hlm with ha | ha
      · exact hhas l (hgood.known l ha)
      · rw [List.mem_singleton] at ha
        subst ha
        exact hnmhas
    · intro f gs hfg l hlm
      rw [hvs] at hfg
      exact hhas l (hgood.spamKnown f gs hfg l hlm)
  obtain ⟨cs, hcs, hlen, hnd, hk, hc⟩ := C86_circuits (h'.view o') good q
  refine ⟨h', o', cs, hs, ho', good, hcs, hnd, ?_, ?_⟩
  · rw [hlen, hvl, hvs, List.length_append, List.length_singleton]
  · intro k hkk
    have key : GstKey (h'.view o') k := by
      rcases hkk with ⟨f, rfl, hf⟩ | ⟨f, f', rfl, hf, hf'⟩ | ⟨f, x, f', rfl, hf, hf', hx⟩
      · exact .one f (by rw [hvs]; exact hf)
      · exact .two f f' (by rw [hvs]; exact hf) (by rw [hvs]; exact hf')
      · refine .three f x f' (by rw [hvs]; exact hf) ?_ (by rw [hvs]; exact hf')
        rw [hvl, List.mem_append, List.mem_singleton]
        exact hx
    obtain ⟨c, hcm, hce⟩ := hk k key
    obtain ⟨k', hk', he', hops'⟩ := hc c hcm
    rw [hce] at he'
    obtain rfl : k = k' := by simpa using he'
    exact ⟨c, hcm, hce, hops'⟩

/-- Finding: adding a gate under a name in use to any gate set fit for tomography and with a SPAM circuit gives circuits of equal name: the
list of gates has the name twice. -/
theorem C132_finding_again (ptm : Ptm ι) (h : GsHeap ι) (i : ℕ) (o : GsObj) (g : GateArg ι) (name : Option Str) (nm : Str) (m : PtmMat)
    (ho : h.objs[i]? = some o) (hr : o.ref < h.dicts.length) (hnm : AddsAs g name nm) (hm : ptm g.ops = some m)
    (hgood : GoodGateSet (h.view o)) (hold : nm ∈ o.gateLabels) (hspam : o.spam ≠ []) (q : ι) :
    ∃ h' o' cs, gsStep ptm h (.add i g name) = (h', true) ∧ h'.objs[i]? = some o' ∧
      gatesetTomographyCircuits (h'.view o') q = some cs ∧ ¬ (cs.map Circ.name).Nodup := by
  obtain ⟨h', o', hs, ho', hl, hsp, hops, hmats, -, -⟩ := C132_add ptm h i o g name nm m ho hr hnm hm
  have hhas : ∀ l, (h.view o).gates.has l = true → (h'.view o').gates.has l = true := by
    intro l hlh
    obtain ⟨f, hf⟩ := Option.isSome_iff_exists.1 hlh
    have := hops q l
    unfold GateSet.gateOps at this
    unfold Dict.has
    cases hx : (h'.view o').gates.get? l with
    | some _ => rfl
    | none =>
      rw [hx, hf] at this
      split at this <;> simp at this
  have hvs : (h'.view o').spam = o.spam := hsp
  have hvl : (h'.view o').gateLabels = o.gateLabels ++ [nm] := hl
  let b : GateSet ι := ⟨o.gateLabels, (h'.view o').gates, o.spam⟩
  have good : GoodGateSet b := by
    refine ⟨hgood.spamNodup, hgood.gatesNodup, hgood.spamQuote, hgood.gateQuote, ?_, ?_⟩
    · intro l hlm
      exact hhas l (hgood.known l hlm)
    · intro f gs hfg l hlm
      exact hhas l (hgood.spamKnown f gs hfg l hlm)
  have hb : h'.view o' = ⟨o.gateLabels ++ [nm], b.gates, b.spam⟩ := by
    rw [← hvl, show b.spam = (h'.view o').spam from hvs.symm]
  have hblk : ∀ x, x ∈ b.gateLabels → gstBlock (h'.view o') q (some x) = some (b.spamLabels.flatMap fun f => b.spamLabels.map fun f' =>
      ⟨reprLabel ([f] ++ [x] ++ [f']), gstOps b q ([f] ++ [x] ++ [f'])⟩) := by
    intro x hx
    rw [hb]
    exact gstBlock_eq b good q (some x) (by rintro g' hg'; obtain rfl := Option.mem_some_iff.1 hg'; exact hx)
  obtain ⟨N, hnone⟩ : ∃ N, gstBlock b q none = some N := ⟨_, gstBlock_eq b good q none (by simp)⟩
  obtain ⟨S, hsing⟩ : ∃ S, gstSingles b q = some S := ⟨_, gstSingles_eq b good q⟩
  refine ⟨h', o', ((o.gateLabels ++ [nm]).map fun x => b.spamLabels.flatMap fun f => b.spamLabels.map fun f' =>
      (⟨reprLabel ([f] ++ [x] ++ [f']), gstOps b q ([f] ++ [x] ++ [f'])⟩ : Circ ι)).flatten ++ N ++ S, hs, ho', ?_, ?_⟩
  · unfold gatesetTomographyCircuits
    rw [hvl, mapM_eq_some (o.gateLabels ++ [nm]) _ _ fun x hx => hblk x ?_]
    · have e1 : gstBlock (h'.view o') q none = gstBlock b q none := by rw [hb]; rfl
      have e2 : gstSingles (h'.view o') q = gstSingles b q := by rw [hb]; rfl
      rw [e1, e2, hnone, hsing]
      simp only [Option.bind_eq_bind, Option.bind_some]
    · rcases List.mem_append.1 hx with hx | hx
      · exact hx
      · rw [List.mem_singleton] at hx
        subst hx
        exact hold
  · intro hnd
    rw [List.append_assoc, List.map_append] at hnd
    have h1 := List.Nodup.of_append_left hnd
    rw [List.map_append, List.flatten_append, List.map_append, List.nodup_append] at h1
    obtain ⟨-, -, h3⟩ := h1
    obtain ⟨f, hf⟩ : ∃ f, f ∈ b.spamLabels := by
      have : b.spamLabels.length ≠ 0 := by
        rw [length_spamLabels]
        simpa using hspam
      obtain ⟨f, hf⟩ := List.exists_mem_of_length_pos (Nat.pos_of_ne_zero this)
      exact ⟨f, hf⟩
    have hmem : (⟨reprLabel ([f] ++ [nm] ++ [f]), gstOps b q ([f] ++ [nm] ++ [f])⟩ : Circ ι) ∈
        b.spamLabels.flatMap fun f => b.spamLabels.map fun f' =>
          (⟨reprLabel ([f] ++ [nm] ++ [f']), gstOps b q ([f] ++ [nm] ++ [f'])⟩ : Circ ι) :=
      List.mem_flatMap.2 ⟨f, hf, List.mem_map.2 ⟨f, hf, rfl⟩⟩
    refine h3 (reprLabel ([f] ++ [nm] ++ [f])) ?_ (reprLabel ([f] ++ [nm] ++ [f])) ?_ rfl
    · exact List.mem_map.2 ⟨_, List.mem_flatten.2 ⟨_, List.mem_map.2 ⟨nm, hold, rfl⟩, hmem⟩, rfl⟩
    · exact List.mem_map.2 ⟨_, List.mem_flatten.2 ⟨_, List.mem_map.2 ⟨nm, by simp, rfl⟩, hmem⟩, rfl⟩
end

/-- Finding: two gate sets built from one dictionary share it.  After replacing a gate in the first one the circuits of the second use the new
gate while its matrix is still that of the old one. -/
theorem C132_finding_alias (ptm : Ptm ι) (f g : ι → List (Op ι)) (m m' : PtmMat) (hf : ptm f = some m) (hg : ptm g = some m')
    (hne : m ≠ m') (nm : Str) (spam : Dict Str (List Str)) :
    ∃ o, (gsRun ptm ⟨[], []⟩ [.dict [(nm, .fn f)], .build 0 spam, .build 0 spam, .add 0 (.fn g) (some nm)]).objs[1]? = some o ∧
      (∀ q, ((gsRun ptm ⟨[], []⟩ [.dict [(nm, .fn f)], .build 0 spam, .build 0 spam, .add 0 (.fn g) (some nm)]).view o).gateOps q nm =
        some (g q)) ∧ o.mats.get? nm = some m ∧
      ¬ GsCoherent ptm (gsRun ptm ⟨[], []⟩ [.dict [(nm, .fn f)], .build 0 spam, .build 0 spam, .add 0 (.fn g) (some nm)]) o := by
  have hrun : gsRun ptm ⟨[], []⟩ [.dict [(nm, .fn f)], .build 0 spam, .build 0 spam, .add 0 (.fn g) (some nm)] =
      ⟨[[(nm, GateArg.fn g)]], [⟨0, [nm, nm], [(nm, m')], spam⟩, ⟨0, [nm], [(nm, m)], spam⟩]⟩ := by
    simp [gsRun, gsStep, GateArg.ops, hf, hg, gateName, Dict.set]
  rw [hrun]
  refine ⟨⟨0, [nm], [(nm, m)], spam⟩, rfl, ?_, ?_, ?_⟩
  · intro q
    unfold GateSet.gateOps
    rw [view_get]
    simp [Dict.get?_cons, GateArg.ops]
  · simp [Dict.get?_cons]
  · intro hc
    have := (hc nm).2
    rw [view_get] at this
    simp [Dict.get?_cons, GateArg.ops, hg, hne] at this

/-- Finding: a gate without a transfer matrix (such as a function that measures) makes `add_gate` raise, but after the gate has been listed and
recorded: the gate set has a gate whose matrix is missing, or that of the gate it replaced. -/
theorem C132_finding_half (ptm : Ptm ι) (h : GsHeap ι) (i : ℕ) (o : GsObj) (g : GateArg ι) (name : Option Str) (nm : Str)
    (ho : h.objs[i]? = some o) (hr : o.ref < h.dicts.length) (hnm : AddsAs g name nm) (hm : ptm g.ops = none) :
    ∃ h' o', gsStep ptm h (.add i g name) = (h', false) ∧ h'.objs[i]? = some o' ∧ nm ∈ o'.gateLabels ∧
      (∀ q, (h'.view o').gateOps q nm = some (g.ops q)) ∧ o'.mats = o.mats := by
  obtain ⟨hil, hie⟩ := List.getElem?_eq_some_iff.1 ho
  refine ⟨⟨h.dicts.modify o.ref fun d => d.set nm g, h.objs.set i { o with gateLabels := o.gateLabels ++ [nm] }⟩,
    { o with gateLabels := o.gateLabels ++ [nm] }, ?_, ?_, by simp, ?_, rfl⟩
  · simp only [gsStep, ho, gateName_of hnm, hm]
  · rw [List.getElem?_set, if_pos rfl, if_pos hil]
  · intro q
    unfold GateSet.gateOps
    rw [view_get]
    simp only [getD_modify _ _ _ _ hr, if_pos, Dict.get?_set_self]
    rfl

/-- Specification: transfer matrices multiply: running `a` and then `b` has matrix (matrix of `b`)·(matrix of `a`). -/
def PtmMul (ptm : Ptm ι) : Prop :=
  ∀ a b A B, ptm a = some A → ptm b = some B → ptm (fun q => a q ++ b q) = some (B * A)

/-- **C132**, SPAM matrices.  In a coherent gate set, after any history, the matrix reported for a SPAM circuit of listed gates is the transfer
matrix of the circuit with the gates of the specification in reverse order. -/
theorem C132_spam (ptm : Ptm ι) (hmul : PtmMul ptm) (h : GsHeap ι) (o : GsObj) (hc : GsCoherent ptm h o)
    (hp : ∀ l f, (h.view o).gates.get? l = some f → (ptm f).isSome = true) (spec : List Str) (hne : spec ≠ [])
    (hl : ∀ g ∈ spec, g ∈ o.gateLabels) :
    ∃ M, spamMatrix o.mats spec = some M ∧ ptm (fun q => seqOps (h.view o) q spec.reverse) = some M := by
  have hone : ∀ g ∈ spec, ∃ f A, (h.view o).gates.get? g = some f ∧ ptm f = some A ∧ o.mats.get? g = some A := by
    intro g hg
    obtain ⟨f, hf⟩ := (hc g).1.1 (hl g hg)
    obtain ⟨A, hA⟩ := Option.isSome_iff_exists.1 (hp g f hf)
    refine ⟨f, A, hf, hA, ?_⟩
    rw [(hc g).2, hf]
    exact hA
  obtain ⟨g0, rest, rfl⟩ := List.exists_cons_of_ne_nil hne
  obtain ⟨f0, A0, hf0, hA0, hM0⟩ := hone g0 List.mem_cons_self
  have gen : ∀ (rest : List Str) (done : List Str) (A : PtmMat), (∀ g ∈ rest, ∃ f A, (h.view o).gates.get? g = some f ∧ ptm f = some A ∧ o.mats.get? g = some A) →
      ptm (fun q => seqOps (h.view o) q done.reverse) = some A →
      ∃ ms, (rest.mapM fun g => o.mats.get? g) = some ms ∧
        ptm (fun q => seqOps (h.view o) q (done ++ rest).reverse) = some (ms.foldl (· * ·) A) := by
    intro rest
    induction rest with
    | nil =>
      intro done A _ hA
      exact ⟨[], rfl, by simpa using hA⟩
    | cons g rest ih =>
      intro done A hr hA
      obtain ⟨f, B, hf, hB, hMB⟩ := hr g List.mem_cons_self
      obtain ⟨ms, hms, hms2⟩ := ih (done ++ [g]) (A * B) (fun g' hg' => hr g' (List.mem_cons_of_mem _ hg')) (by
        have := hmul f _ B A hB hA
        rw [← this]
        congr 1
        funext q
        simp [seqOps, hf])
      refine ⟨B :: ms, ?_, ?_⟩
      · rw [List.mapM_cons, hMB, hms]
        rfl
      · rw [List.append_assoc] at hms2
        exact hms2
  obtain ⟨ms, hms, hms2⟩ := gen rest [g0] A0 (fun g hg => hone g (List.mem_cons_of_mem _ hg)) (by
    rw [← hA0]
    congr 1
    funext q
    simp [seqOps, hf0])
  refine ⟨ms.foldl (· * ·) A0, ?_, hms2⟩
  unfold spamMatrix
  rw [List.mapM_cons, hM0, hms]
  rfl

/-- Finding: the `TomographyBasis` made from a gate set has no usable matrices.  `measurement_matrix` raises for every label and outcome, a
`TypeError` for the valid ones (the function takes one argument and is given two); `preparation_matrix` of a SPAM circuit that is not
itself the name of a gate is a `KeyError`. -/
theorem C132_finding_matrices (o : GsObj) :
    (∀ label outcome, ∃ e, o.matBasis.measurementMatrix label outcome = .error e) ∧
    (∀ label outcome, o.spam.has label = true → outcome ∈ ["0".toList, "1".toList] →
      o.matBasis.measurementMatrix label outcome = .error .type) ∧
    ∀ label, o.spam.has label = true → o.mats.get? label = none → o.matBasis.preparationMatrix label = .error .key := by
  have hin : ∀ label, o.spam.has label = true → label ∈ (o.spam.map (·.1)).insertionSort (· ≤ ·) := by
    intro label hl
    rw [List.mem_insertionSort, Dict.mem_keys_iff]
    exact hl
  refine ⟨?_, ?_, ?_⟩
  · intro label outcome
    unfold MatBasis.measurementMatrix GsObj.matBasis
    simp only [MatFn.call2]
    split
    · exact ⟨_, rfl⟩
    · split <;> exact ⟨_, rfl⟩
  · intro label outcome hl ho
    unfold MatBasis.measurementMatrix GsObj.matBasis
    simp only [MatFn.call2]
    rw [if_neg (not_not.2 (hin label hl)), if_neg (not_not.2 ho)]
  · intro label hl hm
    unfold MatBasis.preparationMatrix GsObj.matBasis
    simp only [MatFn.call1, GsObj.gateMatrix, hm]
    rw [if_neg (not_not.2 (hin label hl))]

/-! Non-vacuity. -/

/-- A toy transfer matrix: it only sees the number of instructions. -/
noncomputable def toyPtm : Ptm ℕ := fun f => some ((2 : ℝ) ^ (f 0).length • (1 : PtmMat))

theorem toy_mul : PtmMul toyPtm := by
  intro a b A B hA hB
  simp only [toyPtm, Option.some.injEq] at hA hB ⊢
  subst hA hB
  rw [List.length_append, pow_add, Matrix.smul_mul, Matrix.mul_smul, smul_smul, mul_comm, Matrix.one_mul]

/-- A program: two dictionaries, two gate sets, a failing `add_gate`, then two that succeed, one of them replacing a gate. -/
def toyCalls : List (GsCall ℕ) :=
  [.dict [("A".toList, .fn fun q => [.gate .x q])], .build 0 [("F".toList, ["A".toList])], .add 0 (.fn fun _ => []) none,
   .dict [("B".toList, .obj "B".toList fun q => [.gate .h q])], .build 1 [("F".toList, ["B".toList])],
   .add 0 (.obj "H".toList fun q => [.gate .h q]) none, .add 1 (.fn fun q => [.gate .x q, .gate .x q]) (some "B".toList)]

/-- The hypotheses of C132 hold of a program, which makes two gate sets, both coherent; the first one lists two gates and its circuit
makes sense. -/
theorem C132_experiment :
    (∀ c ∈ toyCalls, c.Fine toyPtm) ∧ (toyCalls.filterMap GsCall.source).Nodup ∧
    ((gsRun toyPtm ⟨[], []⟩ toyCalls).objs.map (·.gateLabels)) = [["A".toList, "H".toList], ["B".toList, "B".toList]] ∧
    ∀ o ∈ (gsRun toyPtm ⟨[], []⟩ toyCalls).objs, GsCoherent toyPtm (gsRun toyPtm ⟨[], []⟩ toyCalls) o := by
  have h1 : ∀ c ∈ toyCalls, c.Fine toyPtm := by
    intro c hc
    simp only [toyCalls, List.mem_cons, List.not_mem_nil, or_false] at hc
    rcases hc with rfl | rfl | rfl | rfl | rfl | rfl | rfl <;> simp [GsCall.Fine, toyPtm, Dict.WF]
  have h2 : (toyCalls.filterMap GsCall.source).Nodup := by
    show [0, 1].Nodup
    decide
  refine ⟨h1, h2, ?_, C132_coherent toyPtm toyCalls h1 h2⟩
  simp [toyCalls, gsRun, gsStep, toyPtm, gateName]

/-- A gate set fit for tomography, as built from a dictionary. -/
noncomputable def toyHeap : GsHeap ℕ := gsRun toyPtm ⟨[], []⟩ (toyCalls.take 2)

theorem toyHeap_eq : ∃ m, toyHeap = ⟨[[("A".toList, .fn fun q => [.gate .x q])]], [⟨0, ["A".toList], [("A".toList, m)], [("F".toList, ["A".toList])]⟩]⟩ := by
  exact ⟨(2 : ℝ) ^ 1 • (1 : PtmMat), rfl⟩

/-- The hypotheses of `C132_circuits` and of `C132_spam` hold of it. -/
example : ∃ o, toyHeap.objs[0]? = some o ∧ o.ref < toyHeap.dicts.length ∧ GoodGateSet (toyHeap.view o) ∧ "H".toList ∉ o.gateLabels ∧
    (∃ h' o' cs, gsStep toyPtm toyHeap (.add 0 (.obj "H".toList fun q => [.gate .h q]) none) = (h', true) ∧ h'.objs[0]? = some o' ∧
      gatesetTomographyCircuits (h'.view o') 0 = some cs ∧ cs.length = 4) ∧
    ∃ M, spamMatrix o.mats ["A".toList, "A".toList] = some M := by
  obtain ⟨m, e⟩ := toyHeap_eq
  have good : GoodGateSet (toyHeap.view ⟨0, ["A".toList], [("A".toList, m)], [("F".toList, ["A".toList])]⟩) := by
    rw [e]
    refine ⟨by simp [GsHeap.view], by simp [GsHeap.view], by simp [GsHeap.view, NoQuote], by simp [GsHeap.view, NoQuote], ?_, ?_⟩
    · intro g hg
      simp only [GsHeap.view, List.mem_singleton] at hg
      subst hg
      rfl
    · intro f gs hfg g hg
      have h1 := Dict.get?_mem _ _ _ hfg
      simp only [GsHeap.view, List.mem_singleton, Prod.mk.injEq] at h1
      obtain ⟨_, rfl⟩ := h1
      rw [List.mem_singleton] at hg
      subst hg
      rfl
  have ho : toyHeap.objs[0]? = some ⟨0, ["A".toList], [("A".toList, m)], [("F".toList, ["A".toList])]⟩ := by rw [e]; rfl
  have hr : 0 < toyHeap.dicts.length := by rw [e]; simp
  refine ⟨_, ho, hr, good, by simp, ?_, ?_⟩
  · obtain ⟨h', o', cs, a1, a2, _, a3, _, a4, _⟩ := C132_circuits toyPtm toyHeap 0 _ (.obj "H".toList fun q => [.gate .h q]) none
      "H".toList _ ho hr (.inr ⟨rfl, _, rfl⟩) rfl good (by simp) (by decide) 0
    exact ⟨h', o', cs, a1, a2, a3, by rw [a4]; rfl⟩
  · have hc := C132_coherent toyPtm (toyCalls.take 2) (fun c hc => C132_experiment.1 c (List.mem_of_mem_take hc)) (by show [0].Nodup; decide)
      _ (List.mem_of_getElem? ho)
    obtain ⟨M, hM, _⟩ := C132_spam toyPtm toy_mul toyHeap _ hc (fun _ _ _ => rfl) ["A".toList, "A".toList] (by simp) (by
      intro g hg
      simp at hg
      subst hg
      simp)
    exact ⟨M, hM⟩

end Verif.Tomo
