import Verif.RepCode.ErrorGraph
import Verif.RepCode.Lemmas11
/-
C142: the graphs of `make_error_graph`.
-/
namespace Verif.RepCode
open Verif

/-! ### Specification -/

/-- The symbol of an outcome string for a node: the types are separated by two blanks, the rounds by one. -/
def symbolAt (s : Str) (v : Tup) : Option Char := ((separateString s)[v.1]?.bind fun ty => ty[v.2.1]?).bind fun r => r[v.2.2]?

/-- The nodes of an outcome: the lit syndrome elements and all logical elements. -/
def Lit (s : Str) (v : Tup) : Prop := ∃ c, symbolAt s v = some c ∧ (c = '1' ∨ v.1 = 0)

/-- The subgraphs that a syndrome type belongs to name `n`. -/
def Belongs (sub : List (List Str)) (v : Tup) (n : Str) : Prop := ∃ row, sub[v.1]? = some row ∧ n ∈ row

/-! ### Proofs -/

theorem mem_errorNodes (s : Str) (v : Tup) : v ∈ errorNodes s ↔ Lit s v := by
  unfold errorNodes Lit symbolAt
  obtain ⟨a, b, c⟩ := v
  simp only [List.mem_flatMap, List.mem_filterMap, Prod.exists]
  constructor
  · rintro ⟨ty, t, h1, el, r, h2, ch, i, h3, h4⟩
    rw [List.mem_zipIdx_iff_getElem?] at h1 h2 h3
    simp only at h1 h2 h3
    split at h4
    · next h =>
      injection h4 with h4
      injection h4 with e1 e2
      injection e2 with e2 e3
      subst e1 e2 e3
      exact ⟨ch, by simp [h1, h2, h3], h⟩
    · cases h4
  · rintro ⟨ch, h, hc⟩
    simp only [Option.bind_eq_some_iff] at h
    obtain ⟨el, ⟨ty, h1, h2⟩, h3⟩ := h
    refine ⟨ty, a, ?_, el, b, ?_, ch, c, ?_, if_pos hc⟩
    · rw [List.mem_zipIdx_iff_getElem?]; exact h1
    · rw [List.mem_zipIdx_iff_getElem?]; exact h2
    · rw [List.mem_zipIdx_iff_getElem?]; exact h3

theorem init_get (names : List Str) (E : Dict Str (List Tup)) (n : Str) :
    (names.foldl (fun (E : Dict Str (List Tup)) n => E.set n []) E).get? n = if n ∈ names then some [] else E.get? n := by
  induction names generalizing E with
  | nil => simp
  | cons a l ih =>
    rw [List.foldl_cons, ih, Dict.get?_set]
    by_cases h : n ∈ l
    · simp [h]
    · by_cases e : a = n
      · simp [e]
      · simp [h, e, Ne.symm (show a ≠ n from e)]

/-- A table of node lists after adding some nodes. -/
structure Holds (sub : List (List Str)) (done : List Tup) (E : Dict Str (List Tup)) : Prop where
  keys : ∀ n, (E.get? n).isSome ↔ n ∈ sub.flatten
  nodes : ∀ n ns, E.get? n = some ns → ns.Nodup ∧ ∀ v, v ∈ ns ↔ v ∈ done ∧ Belongs sub v n

theorem addNode_get (v : Tup) (E : Dict Str (List Tup)) (n n' : Str) : (addNode v E n).get? n' =
    if n = n' then some (if v ∈ (E.get? n).getD [] then (E.get? n).getD [] else (E.get? n).getD [] ++ [v]) else E.get? n' := by
  unfold addNode
  rw [Dict.get?_set]

theorem row_get (v : Tup) (row : List Str) (E : Dict Str (List Tup)) (n : Str) : (row.foldl (addNode v) E).get? n =
    if n ∈ row then some (if v ∈ (E.get? n).getD [] then (E.get? n).getD [] else (E.get? n).getD [] ++ [v]) else E.get? n := by
  induction row generalizing E with
  | nil => simp
  | cons a l ih =>
    rw [List.foldl_cons, ih, addNode_get]
    by_cases e : a = n
    · subst e
      by_cases hv : v ∈ (E.get? a).getD []
      · simp [hv]
      · simp [hv]
    · by_cases h : n ∈ l
      · simp [h, e]
      · simp [h, e, Ne.symm (show a ≠ n from e)]

theorem holds_step {sub : List (List Str)} {done : List Tup} {E : Dict Str (List Tup)} (h : Holds sub done E) (v : Tup) (row : List Str) (hr : sub[v.1]? = some row) :
    Holds sub (done ++ [v]) (row.foldl (addNode v) E) := by
  have hsub : ∀ n ∈ row, n ∈ sub.flatten := fun n hn => List.mem_flatten.2 ⟨row, List.mem_of_getElem? hr, hn⟩
  constructor
  · intro n
    rw [row_get]
    by_cases hn : n ∈ row
    · simp only [if_pos hn, Option.isSome_some, true_iff]
      exact hsub n hn
    · rw [if_neg hn]
      exact h.keys n
  · intro n ns hns
    rw [row_get] at hns
    by_cases hn : n ∈ row
    · rw [if_pos hn] at hns
      obtain ⟨l, hl⟩ := Option.isSome_iff_exists.1 ((h.keys n).2 (hsub n hn))
      obtain ⟨h1, h2⟩ := h.nodes n l hl
      rw [hl, Option.getD_some] at hns
      injection hns with hns
      by_cases hv : v ∈ l
      · rw [if_pos hv] at hns
        subst hns
        refine ⟨h1, fun w => ?_⟩
        rw [h2]
        constructor
        · rintro ⟨a, b⟩
          exact ⟨by simp [a], b⟩
        · rintro ⟨a, b⟩
          rcases List.mem_append.1 a with a | a
          · exact ⟨a, b⟩
          · rw [List.mem_singleton.1 a]
            exact (h2 v).1 hv
      · rw [if_neg hv] at hns
        subst hns
        refine ⟨List.nodup_append.2 ⟨h1, by simp, ?_⟩, fun w => ?_⟩
        · intro a ha b hb hab
          rw [List.mem_singleton.1 hb] at hab
          exact hv (hab ▸ ha)
        · rw [List.mem_append, List.mem_append, h2]
          constructor
          · rintro (⟨a, b⟩ | a)
            · exact ⟨Or.inl a, b⟩
            · rw [List.mem_singleton.1 a]
              exact ⟨Or.inr (by simp), row, hr, hn⟩
          · rintro ⟨a | a, b⟩
            · exact Or.inl ⟨a, b⟩
            · exact Or.inr a
    · rw [if_neg hn] at hns
      obtain ⟨h1, h2⟩ := h.nodes n ns hns
      refine ⟨h1, fun w => ?_⟩
      rw [h2, List.mem_append]
      constructor
      · rintro ⟨a, b⟩
        exact ⟨Or.inl a, b⟩
      · rintro ⟨a | a, b⟩
        · exact ⟨a, b⟩
        · rw [List.mem_singleton.1 a] at b
          obtain ⟨row', hr', hn'⟩ := b
          rw [hr] at hr'
          injection hr' with hr'
          exact absurd (hr' ▸ hn') hn

theorem holds_fold {sub : List (List Str)} (l : List Tup) {done : List Tup} {E : Dict Str (List Tup)} (h : Holds sub done E) :
    ((∀ v ∈ l, v.1 < sub.length) → ∃ E', l.foldlM (fun E v => do
      let row ← sub[v.1]?
      some (row.foldl (addNode v) E)) E = some E') ∧
    ∀ E', l.foldlM (fun E v => do
      let row ← sub[v.1]?
      some (row.foldl (addNode v) E)) E = some E' → (∀ v ∈ l, v.1 < sub.length) ∧ Holds sub (done ++ l) E' := by
  induction l generalizing done E with
  | nil => exact ⟨fun _ => ⟨E, rfl⟩, fun E' h' => by injection h' with h'; subst h'; simpa using h⟩
  | cons v l ih =>
    constructor
    · intro hall
      have hlt := hall v List.mem_cons_self
      have hv : sub[v.1]? = some sub[v.1] := List.getElem?_eq_getElem hlt
      obtain ⟨E', hE'⟩ := (ih (holds_step h v _ hv)).1 fun w hw => hall w (List.mem_cons_of_mem _ hw)
      refine ⟨E', ?_⟩
      rw [List.foldlM_cons, hv]
      exact hE'
    · intro E' hE'
      rw [List.foldlM_cons] at hE'
      cases hr : sub[v.1]? with
      | none => rw [hr] at hE'; cases hE'
      | some row =>
        rw [hr] at hE'
        obtain ⟨h1, h2⟩ := (ih (holds_step h v row hr)).2 E' hE'
        refine ⟨?_, by simpa using h2⟩
        intro w hw
        rcases List.mem_cons.1 hw with rfl | hw
        · exact (List.getElem?_eq_some_iff.1 hr).1
        · exact h1 w hw

theorem holds_init (sub : List (List Str)) : Holds sub [] (sub.flatten.foldl (fun (E : Dict Str (List Tup)) n => E.set n []) []) := by
  constructor
  · intro n
    rw [init_get]
    by_cases h : n ∈ sub.flatten
    · simp [h]
    · simp only [h, iff_false]
      simp [Dict.get?]
  · intro n ns h
    rw [init_get] at h
    by_cases hn : n ∈ sub.flatten
    · rw [if_pos hn] at h
      injection h with h
      subst h
      simp
    · rw [if_neg hn] at h
      cases h

theorem graphNodes_spec (s : Str) (sub : List (List Str)) :
    ((∀ v, Lit s v → v.1 < sub.length) → ∃ E, graphNodes s sub = some E) ∧
    ∀ E, graphNodes s sub = some E → (∀ v, Lit s v → v.1 < sub.length) ∧ (∀ n, (E.get? n).isSome ↔ n ∈ sub.flatten) ∧
      ∀ n ns, E.get? n = some ns → ns.Nodup ∧ ∀ v, v ∈ ns ↔ Lit s v ∧ Belongs sub v n := by
  obtain ⟨h1, h2⟩ := holds_fold (errorNodes s) (holds_init sub)
  refine ⟨fun h => h1 fun v hv => h v ((mem_errorNodes s v).1 hv), fun E hE => ?_⟩
  obtain ⟨h3, h4⟩ := h2 E hE
  refine ⟨fun v hv => h3 v ((mem_errorNodes s v).2 hv), h4.keys, fun n ns hn => ⟨(h4.nodes n ns hn).1, fun v => ?_⟩⟩
  rw [(h4.nodes n ns hn).2, List.nil_append, mem_errorNodes]

theorem mapM_all {α β : Type} (f : α → Option β) (l : List α) (r : List β) (h : l.mapM f = some r) :
    (∀ a ∈ l, ∃ b ∈ r, f a = some b) ∧ ∀ b ∈ r, ∃ a ∈ l, f a = some b := by
  induction l generalizing r with
  | nil =>
    rw [List.mapM_nil] at h
    injection h with h
    subst h
    simp
  | cons a l ih =>
    rw [List.mapM_cons] at h
    cases ha : f a with
    | none => rw [ha] at h; cases h
    | some b =>
      rw [ha] at h
      cases hl : l.mapM f with
      | none => rw [hl] at h; cases h
      | some r' =>
        rw [hl] at h
        injection h with h
        subst h
        obtain ⟨h1, h2⟩ := ih r' hl
        constructor
        · intro x hx
          rcases List.mem_cons.1 hx with rfl | hx
          · exact ⟨b, List.mem_cons_self, ha⟩
          · obtain ⟨y, hy, e⟩ := h1 x hx
            exact ⟨y, List.mem_cons_of_mem _ hy, e⟩
        · intro y hy
          rcases List.mem_cons.1 hy with rfl | hy
          · exact ⟨a, List.mem_cons_self, ha⟩
          · obtain ⟨x, hx, e⟩ := h2 y hy
            exact ⟨x, List.mem_cons_of_mem _ hx, e⟩

theorem mapM_exists {α β : Type} (f : α → Option β) (l : List α) (h : ∀ a ∈ l, (f a).isSome) : ∃ r, l.mapM f = some r := by
  induction l with
  | nil => exact ⟨[], rfl⟩
  | cons a l ih =>
    obtain ⟨b, hb⟩ := Option.isSome_iff_exists.1 (h a List.mem_cons_self)
    obtain ⟨r, hr⟩ := ih fun x hx => h x (List.mem_cons_of_mem _ hx)
    exact ⟨b :: r, by rw [List.mapM_cons, hb, hr]; rfl⟩

theorem graphEdges_spec (sp : Tup → Tup → Option Int) (ns : List Tup) :
    ((∀ u ∈ ns, ∀ v ∈ ns, u ≠ v → (sp u v).isSome) → ∃ es, graphEdges sp ns = some es) ∧
    ∀ es, graphEdges sp ns = some es → (∀ u ∈ ns, ∀ v ∈ ns, u ≠ v → ∃ d, sp u v = some d ∧ (u, v, -d) ∈ es) ∧
      ∀ e ∈ es, e.1 ∈ ns ∧ e.2.1 ∈ ns ∧ e.1 ≠ e.2.1 ∧ sp e.1 e.2.1 = some (-e.2.2) := by
  constructor
  · intro h
    obtain ⟨r, hr⟩ := mapM_exists (fun u => (ns.filter fun v => v ≠ u).mapM fun v => do
      let d ← sp u v
      some (u, v, -d)) ns fun u hu => by
        obtain ⟨r, hr⟩ := mapM_exists (fun v => do
          let d ← sp u v
          some (u, v, -d)) (ns.filter fun v => v ≠ u) fun v hv => by
            obtain ⟨h1, h2⟩ := List.mem_filter.1 hv
            obtain ⟨d, hd⟩ := Option.isSome_iff_exists.1 (h u hu v h1 (Ne.symm (by simpa using h2)))
            rw [hd]
            rfl
        rw [hr]
        rfl
    exact ⟨r.flatten, by unfold graphEdges; rw [hr]; rfl⟩
  · intro es hes
    unfold graphEdges at hes
    cases hr : (ns.mapM fun u => (ns.filter fun v => v ≠ u).mapM fun v => do
      let d ← sp u v
      some (u, v, -d)) with
    | none => rw [hr] at hes; cases hes
    | some rows =>
      rw [hr] at hes
      injection hes with hes
      subst hes
      obtain ⟨h1, h2⟩ := mapM_all _ _ _ hr
      constructor
      · intro u hu v hv huv
        obtain ⟨row, hrow, e⟩ := h1 u hu
        obtain ⟨e', he', e''⟩ := (mapM_all _ _ _ e).1 v (List.mem_filter.2 ⟨hv, by simpa using huv.symm⟩)
        cases hd : sp u v with
        | none => rw [hd] at e''; cases e''
        | some d =>
          rw [hd] at e''
          injection e'' with e''
          exact ⟨d, rfl, List.mem_flatten.2 ⟨row, hrow, e'' ▸ he'⟩⟩
      · intro e he
        obtain ⟨row, hrow, he⟩ := List.mem_flatten.1 he
        obtain ⟨u, hu, hm⟩ := h2 row hrow
        obtain ⟨v, hv, e''⟩ := (mapM_all _ _ _ hm).2 e he
        obtain ⟨hv1, hv2⟩ := List.mem_filter.1 hv
        cases hd : sp u v with
        | none => rw [hd] at e''; cases e''
        | some d =>
          rw [hd] at e''
          injection e'' with e''
          subst e''
          exact ⟨hu, hv1, Ne.symm (by simpa using hv2), by simpa using hd⟩

/-- The weights of one graph. -/
def IsComplete (sp : Tup → Tup → Option Int) (ns : List Tup) (g : WGraph Tup) : Prop :=
  ∀ u v, (u ∈ ns ∧ v ∈ ns ∧ u ≠ v → ∃ d, sp u v = some d ∧ g u v = some (-d)) ∧ (¬ (u ∈ ns ∧ v ∈ ns ∧ u ≠ v) → g u v = none)

theorem complete_fold (sp : Tup → Tup → Option Int) (hsym : ∀ u v, sp u v = sp v u) (ns : List Tup) (es : List (Tup × Tup × Int)) (hes : graphEdges sp ns = some es)
    (g : WGraph Tup) (hg : ∀ u v, ¬ (u ∈ ns ∧ v ∈ ns ∧ u ≠ v) → g u v = none) : IsComplete sp ns (es.foldl addEdge g) := by
  obtain ⟨h1, h2⟩ := (graphEdges_spec sp ns).2 es hes
  have key := foldl_addEdge (fun u v => -((sp u v).getD 0)) (fun a b => by rw [hsym]) es (fun e he => by rw [(h2 e he).2.2.2]; simp) g
  intro u v
  constructor
  · rintro ⟨hu, hv, huv⟩
    obtain ⟨d, hd, hm⟩ := h1 u hu v hv huv
    refine ⟨d, hd, ?_⟩
    rw [(key u v).1 ⟨_, hm, Or.inl ⟨rfl, rfl⟩⟩, hd]
    rfl
  · intro hn
    rw [(key u v).2 ?_, hg u v hn]
    rintro ⟨e, he, ⟨rfl, rfl⟩ | ⟨rfl, rfl⟩⟩
    · obtain ⟨a, b, c, -⟩ := h2 e he
      exact hn ⟨a, b, c⟩
    · obtain ⟨a, b, c, -⟩ := h2 e he
      exact hn ⟨b, a, c.symm⟩

theorem weights_fold (sp : Tup → Tup → Option Int) (hsym : ∀ u v, sp u v = sp v u) (E : Dict Str (List Tup)) (names : List Str) (G : Dict Str (WGraph Tup))
    (hG : ∀ n g, G.get? n = some g → IsComplete sp ((E.get? n).getD []) g) :
    ((∀ n ∈ names, ∀ u ∈ (E.get? n).getD [], ∀ v ∈ (E.get? n).getD [], u ≠ v → (sp u v).isSome) →
      ∃ G', names.foldlM (fun (G : Dict Str (WGraph Tup)) n => do
        let es ← graphEdges sp ((E.get? n).getD [])
        some (G.set n (es.foldl addEdge ((G.get? n).getD fun _ _ => none)))) G = some G') ∧
    ∀ G', names.foldlM (fun (G : Dict Str (WGraph Tup)) n => do
        let es ← graphEdges sp ((E.get? n).getD [])
        some (G.set n (es.foldl addEdge ((G.get? n).getD fun _ _ => none)))) G = some G' →
      (∀ n, (G'.get? n).isSome ↔ n ∈ names ∨ (G.get? n).isSome) ∧ ∀ n g, G'.get? n = some g → IsComplete sp ((E.get? n).getD []) g := by
  induction names generalizing G with
  | nil => exact ⟨fun _ => ⟨G, rfl⟩, fun G' h => by injection h with h; subst h; exact ⟨by simp, hG⟩⟩
  | cons a l ih =>
    have step : ∀ es, graphEdges sp ((E.get? a).getD []) = some es → ∀ n g, (G.set a (es.foldl addEdge ((G.get? a).getD fun _ _ => none))).get? n = some g →
        IsComplete sp ((E.get? n).getD []) g := by
      intro es hes n g hg
      rw [Dict.get?_set] at hg
      by_cases e : a = n
      · subst e
        rw [if_pos rfl] at hg
        injection hg with hg
        subst hg
        refine complete_fold sp hsym _ es hes _ fun u v hn => ?_
        cases h : G.get? a with
        | none => rfl
        | some g => exact (hG a g h u v).2 hn
      · rw [if_neg e] at hg
        exact hG n g hg
    constructor
    · intro hall
      obtain ⟨es, hes⟩ := (graphEdges_spec sp _).1 (hall a List.mem_cons_self)
      obtain ⟨G', hG'⟩ := (ih _ (step es hes)).1 fun n hn => hall n (List.mem_cons_of_mem _ hn)
      refine ⟨G', ?_⟩
      rw [List.foldlM_cons, hes]
      exact hG'
    · intro G' hG'
      rw [List.foldlM_cons] at hG'
      cases hes : graphEdges sp ((E.get? a).getD []) with
      | none => rw [hes] at hG'; cases hG'
      | some es =>
        rw [hes] at hG'
        obtain ⟨h1, h2⟩ := (ih _ (step es hes)).2 G' hG'
        refine ⟨fun n => ?_, h2⟩
        rw [h1, Dict.get?_set, List.mem_cons]
        by_cases e : a = n
        · simp [e]
        · simp [e, Ne.symm (show a ≠ n from e)]

/-- C142: `make_error_graph` returns exactly the named graphs.  The nodes of a graph are the lit syndrome elements and the logical elements of the types that belong
to it, each once; every two different nodes are joined, with minus their distance in the syndrome graph as weight, and there are no other edges.  It raises an exception
exactly when a node's type has no entry in `subgraphs` or two nodes of a graph have no distance. -/
theorem C142_error_graph (sp : Tup → Tup → Option Int) (hsym : ∀ u v, sp u v = sp v u) (s : Str) (sub : List (List Str)) :
    ((makeErrorGraphs sp s (some sub)).isSome ↔ (∀ v, Lit s v → v.1 < sub.length) ∧
      ∀ n ∈ sub.flatten, ∀ u v, Lit s u → Lit s v → Belongs sub u n → Belongs sub v n → u ≠ v → (sp u v).isSome) ∧
    ∀ E G, makeErrorGraphs sp s (some sub) = some (E, G) →
      (∀ n, ((E.get? n).isSome ↔ n ∈ sub.flatten) ∧ ((G.get? n).isSome ↔ n ∈ sub.flatten)) ∧
      ∀ n ns g, E.get? n = some ns → G.get? n = some g → ns.Nodup ∧ (∀ v, v ∈ ns ↔ Lit s v ∧ Belongs sub v n) ∧
        ∀ u v, (u ∈ ns ∧ v ∈ ns ∧ u ≠ v → ∃ d, sp u v = some d ∧ g u v = some (-d)) ∧ (¬ (u ∈ ns ∧ v ∈ ns ∧ u ≠ v) → g u v = none) := by
  obtain ⟨n1, n2⟩ := graphNodes_spec s sub
  have hempty : ∀ E : Dict Str (List Tup), ∀ n g, Dict.get? ([] : Dict Str (WGraph Tup)) n = some g → IsComplete sp ((E.get? n).getD []) g := by
    intro E n g h
    cases h
  constructor
  · constructor
    · intro h
      obtain ⟨⟨E, G⟩, hEG⟩ := Option.isSome_iff_exists.1 h
      unfold makeErrorGraphs at hEG
      simp only [Option.getD_some] at hEG
      cases hE : graphNodes s sub with
      | none => rw [hE] at hEG; cases hEG
      | some E' =>
        rw [hE] at hEG
        obtain ⟨a1, a2, a3⟩ := n2 E' hE
        refine ⟨a1, fun n hn u v hu hv bu bv huv => ?_⟩
        obtain ⟨w1, w2⟩ := weights_fold sp hsym E' sub.flatten [] (hempty E')
        obtain ⟨ns, hns⟩ := Option.isSome_iff_exists.1 ((a2 n).2 hn)
        simp only [Option.bind_eq_bind, Option.bind_some] at hEG
        obtain ⟨G', hG', -⟩ := Option.bind_eq_some_iff.1 hEG
        obtain ⟨b1, b2⟩ := w2 G' hG'
        obtain ⟨g, hg⟩ := Option.isSome_iff_exists.1 ((b1 n).2 (Or.inl hn))
        have := b2 n g hg u v
        rw [hns, Option.getD_some] at this
        obtain ⟨d, hd, -⟩ := this.1 ⟨((a3 n ns hns).2 u).2 ⟨hu, bu⟩, ((a3 n ns hns).2 v).2 ⟨hv, bv⟩, huv⟩
        rw [hd]
        rfl
    · rintro ⟨h1, h2⟩
      obtain ⟨E, hE⟩ := n1 h1
      obtain ⟨-, a2, a3⟩ := n2 E hE
      obtain ⟨G, hG⟩ := (weights_fold sp hsym E sub.flatten [] (hempty E)).1 fun n hn u hu v hv huv => by
        obtain ⟨ns, hns⟩ := Option.isSome_iff_exists.1 ((a2 n).2 hn)
        rw [hns, Option.getD_some] at hu hv
        obtain ⟨u1, u2⟩ := ((a3 n ns hns).2 u).1 hu
        obtain ⟨v1, v2⟩ := ((a3 n ns hns).2 v).1 hv
        exact h2 n hn u v u1 v1 u2 v2 huv
      unfold makeErrorGraphs
      simp only [Option.getD_some]
      rw [hE]
      simp only [Option.bind_eq_bind, Option.bind_some] at hG ⊢
      rw [hG]
      rfl
  · intro E G hEG
    unfold makeErrorGraphs at hEG
    simp only [Option.getD_some] at hEG
    cases hE : graphNodes s sub with
    | none => rw [hE] at hEG; cases hEG
    | some E' =>
      rw [hE] at hEG
      obtain ⟨-, a2, a3⟩ := n2 E' hE
      obtain ⟨-, w2⟩ := weights_fold sp hsym E' sub.flatten [] (hempty E')
      simp only [Option.bind_eq_bind, Option.bind_some] at hEG
      obtain ⟨G', hG', e⟩ := Option.bind_eq_some_iff.1 hEG
      injection e with e
      injection e with e1 e2
      subst e1 e2
      obtain ⟨b1, b2⟩ := w2 _ hG'
      refine ⟨fun n => ⟨a2 n, by rw [b1]; simp [Dict.get?]⟩, fun n ns g hns hg => ?_⟩
      obtain ⟨c1, c2⟩ := a3 n ns hns
      have := b2 n g hg
      rw [hns, Option.getD_some] at this
      exact ⟨c1, c2, this⟩

theorem lit_type {s : Str} {v : Tup} (h : Lit s v) : v.1 < (splitDouble s).length := by
  obtain ⟨c, h, -⟩ := h
  unfold symbolAt at h
  obtain ⟨r, h, -⟩ := Option.bind_eq_some_iff.1 h
  obtain ⟨ty, h, -⟩ := Option.bind_eq_some_iff.1 h
  have := (List.getElem?_eq_some_iff.1 h).1
  simpa [separateString] using this

theorem default_belongs (s : Str) (v : Tup) (n : Str) (h : Lit s v) : Belongs ((splitDouble s).map fun _ => [['0']]) v n ↔ n = ['0'] := by
  have hl := lit_type h
  unfold Belongs
  rw [List.getElem?_map, List.getElem?_eq_getElem hl]
  simp

theorem splitDouble_ne_nil (s : Str) : splitDouble s ≠ [] := by
  fun_induction splitDouble s <;> simp_all

theorem default_names (s : Str) (n : Str) : n ∈ ((splitDouble s).map fun _ => [['0']]).flatten ↔ n = ['0'] := by
  rw [List.mem_flatten]
  constructor
  · rintro ⟨l, hl, hn⟩
    obtain ⟨x, -, rfl⟩ := List.mem_map.1 hl
    simpa using hn
  · rintro rfl
    obtain ⟨a, ha⟩ := List.exists_mem_of_ne_nil _ (splitDouble_ne_nil s)
    exact ⟨[['0']], List.mem_map.2 ⟨a, ha, rfl⟩, by simp⟩

/-- C142: without the argument `subgraphs` there is one graph, `'0'`, whose nodes are all the lit syndrome elements and all the logical elements, and an exception is
raised exactly when two of them have no distance. -/
theorem C142_default (sp : Tup → Tup → Option Int) (hsym : ∀ u v, sp u v = sp v u) (s : Str) :
    ((makeErrorGraphs sp s none).isSome ↔ ∀ u v, Lit s u → Lit s v → u ≠ v → (sp u v).isSome) ∧
    ∀ E G, makeErrorGraphs sp s none = some (E, G) → ∃ ns g, (∀ n, E.get? n = if n = ['0'] then some ns else none) ∧ (∀ n, G.get? n = if n = ['0'] then some g else none) ∧
      ns.Nodup ∧ (∀ v, v ∈ ns ↔ Lit s v) ∧
      ∀ u v, (u ∈ ns ∧ v ∈ ns ∧ u ≠ v → ∃ d, sp u v = some d ∧ g u v = some (-d)) ∧ (¬ (u ∈ ns ∧ v ∈ ns ∧ u ≠ v) → g u v = none) := by
  have hdef : makeErrorGraphs sp s none = makeErrorGraphs sp s (some ((splitDouble s).map fun _ => [['0']])) := rfl
  rw [hdef]
  obtain ⟨h1, h2⟩ := C142_error_graph sp hsym s ((splitDouble s).map fun _ => [['0']])
  constructor
  · rw [h1]
    constructor
    · rintro ⟨-, h⟩ u v hu hv huv
      exact h ['0'] ((default_names s _).2 rfl) u v hu hv ((default_belongs s u _ hu).2 rfl) ((default_belongs s v _ hv).2 rfl) huv
    · intro h
      exact ⟨fun v hv => by rw [List.length_map]; exact lit_type hv, fun n _ u v hu hv _ _ huv => h u v hu hv huv⟩
  · intro E G hEG
    obtain ⟨k, h⟩ := h2 E G hEG
    obtain ⟨ns, hns⟩ := Option.isSome_iff_exists.1 ((k ['0']).1.2 ((default_names s _).2 rfl))
    obtain ⟨g, hg⟩ := Option.isSome_iff_exists.1 ((k ['0']).2.2 ((default_names s _).2 rfl))
    obtain ⟨a, b, c⟩ := h ['0'] ns g hns hg
    refine ⟨ns, g, fun n => ?_, fun n => ?_, a, fun v => ?_, c⟩
    · by_cases e : n = ['0']
      · rw [if_pos e, e, hns]
      · rw [if_neg e, ← Option.not_isSome_iff_eq_none, (k n).1, default_names]
        exact e
    · by_cases e : n = ['0']
      · rw [if_pos e, e, hg]
      · rw [if_neg e, ← Option.not_isSome_iff_eq_none, (k n).2, default_names]
        exact e
    · rw [b]
      exact ⟨fun x => x.1, fun x => ⟨x, (default_belongs s v _ x).2 rfl⟩⟩

/-- `int(nx.shortest_path_length(self.S, u, v, weight='distance'))` for the graph as it is built, with all distances 1. -/
noncomputable def unitDistance (S : Graph) (u v : Tup) : Option Int := (shortestPathLength S u v).map fun n => (n : Int)

theorem unitDistance_comm (S : Graph) (u v : Tup) : unitDistance S u v = unitDistance S v u := by
  unfold unitDistance shortestPathLength
  by_cases h : u ∈ S.nodes ∧ v ∈ S.nodes ∧ S.simple.Reachable u v
  · rw [if_pos h, if_pos ⟨h.2.1, h.1, h.2.2.symm⟩, SimpleGraph.dist_comm]
  · rw [if_neg h, if_neg fun x => h ⟨x.2.1, x.1, x.2.2.symm⟩]

/-- C142: for every repetition code with at least two code qubits and a round, and whatever is read out, the decoder makes the error graph without an exception: its
nodes are the lit syndrome elements and the logical elements of the outcome, any two of them are joined, and the weight is minus the length of a shortest path in the
syndrome graph. -/
theorem C142_code (d T : Nat) (hd : 2 ≤ d) (hT : 1 ≤ T) (b : Bool) (m : Cl → Bool) :
    ∃ S s E G ns g, syndromeGraph (mkCode d T) = some S ∧ processString d T (countsKey ((mkCode d T).circ b).cregs m) = some s ∧
      makeErrorGraphs (unitDistance S) s none = some (E, G) ∧ E.get? ['0'] = some ns ∧ G.get? ['0'] = some g ∧
      ns.Nodup ∧ (∀ v, v ∈ ns ↔ Lit s v) ∧ (0, 0, 0) ∈ ns ∧ (0, 1, 0) ∈ ns ∧
      ∀ u ∈ ns, ∀ v ∈ ns, u ≠ v → S.simple.Reachable u v ∧ g u v = some (-(S.simple.dist u v : Int)) := by
  obtain ⟨S, hS, -, -⟩ := graph_spec d T hd hT
  have hok := graphOk d T hd hT S hS
  have hproc : processString d T (countsKey ((mkCode d T).circ b).cregs m) = some (processed d T m) := by
    rw [mkCode_circ d T hT]
    exact process_key d T hd hT m
  have hnode : ∀ v, Lit (processed d T m) v → ∃ n ∈ nodes d T, v = nt d n := by
    intro v hv
    rw [← mem_errorNodes, errorNodes_processed d T hd] at hv
    rcases List.mem_cons.1 hv with rfl | hv
    · exact ⟨.L, by simp [nodes], rfl⟩
    · rcases List.mem_cons.1 hv with rfl | hv
      · exact ⟨.R, by simp [nodes], rfl⟩
      · obtain ⟨t, j, h1, h2, h3⟩ := (mem_synList d T hd m v).1 hv
        exact ⟨_, h1, h3⟩
  have hsp : ∀ u v, Lit (processed d T m) u → Lit (processed d T m) v → S.simple.Reachable u v ∧ unitDistance S u v = some (S.simple.dist u v : Int) := by
    intro u v hu hv
    obtain ⟨n, hn, rfl⟩ := hnode u hu
    obtain ⟨n', hn', rfl⟩ := hnode v hv
    refine ⟨hok.reach n hn n' hn', ?_⟩
    unfold unitDistance shortestPathLength
    rw [if_pos ⟨hok.mem n hn, hok.mem n' hn', hok.reach n hn n' hn'⟩]
    rfl
  obtain ⟨h1, h2⟩ := C142_default (unitDistance S) (unitDistance_comm S) (processed d T m)
  obtain ⟨⟨E, G⟩, hEG⟩ := Option.isSome_iff_exists.1 (h1.2 fun u v hu hv _ => by rw [(hsp u v hu hv).2]; rfl)
  obtain ⟨ns, g, a1, a2, a3, a4, a5⟩ := h2 E G hEG
  refine ⟨S, _, E, G, ns, g, hS, hproc, hEG, by rw [a1, if_pos rfl], by rw [a2, if_pos rfl], a3, a4, ?_, ?_, fun u hu v hv huv => ?_⟩
  · rw [a4, ← mem_errorNodes, errorNodes_processed d T hd]
    simp
  · rw [a4, ← mem_errorNodes, errorNodes_processed d T hd]
    simp
  · obtain ⟨k, hk, e⟩ := (a5 u v).1 ⟨hu, hv, huv⟩
    obtain ⟨r1, r2⟩ := hsp u v ((a4 u).1 hu) ((a4 v).1 hv)
    rw [r2] at hk
    injection hk with hk
    subst hk
    exact ⟨r1, e⟩

/-- A run with two named graphs: the logical elements and the syndrome go to the first, the syndrome also to the second. -/
example : ((makeErrorGraphs (fun _ _ => some 1) "0 1  01 11".toList (some [["a".toList], ["a".toList, "b".toList]])).map fun r => r.1) =
    some [("a".toList, [(0, 0, 0), (0, 1, 0), (1, 0, 1), (1, 1, 0), (1, 1, 1)]), ("b".toList, [(1, 0, 1), (1, 1, 0), (1, 1, 1)])] := by decide +kernel

/-- The type of the syndrome has no entry. -/
example : (makeErrorGraphs (fun _ _ => some 1) "0 1  01 11".toList (some [["a".toList]])).isNone := by decide +kernel

end Verif.RepCode
