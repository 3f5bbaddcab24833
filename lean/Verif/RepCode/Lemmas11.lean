import Verif.RepCode.Lemmas10
set_option linter.unusedVariables false
/-
The graphs built by the decoder.
-/
namespace Verif.RepCode
open Verif

/-- A graph built from edges whose weights come from one symmetric function. -/
theorem foldl_addEdge {V : Type} [DecidableEq V] (W : V → V → Int) (hW : ∀ a b, W a b = W b a) (l : List (V × V × Int))
    (hl : ∀ e ∈ l, e.2.2 = W e.1 e.2.1) (G0 : WGraph V) (a b : V) :
    ((∃ e ∈ l, (a = e.1 ∧ b = e.2.1) ∨ (a = e.2.1 ∧ b = e.1)) → (l.foldl addEdge G0) a b = some (W a b)) ∧
    ((¬ ∃ e ∈ l, (a = e.1 ∧ b = e.2.1) ∨ (a = e.2.1 ∧ b = e.1)) → (l.foldl addEdge G0) a b = G0 a b) := by
  induction l generalizing G0 with
  | nil => simp
  | cons e l ih =>
    have ih := ih (fun x hx => hl x (by simp [hx])) (addEdge G0 e)
    rw [List.foldl_cons]
    by_cases h : ∃ e ∈ l, (a = e.1 ∧ b = e.2.1) ∨ (a = e.2.1 ∧ b = e.1)
    · refine ⟨fun _ => ih.1 h, fun hn => absurd ?_ hn⟩
      obtain ⟨x, hx, h⟩ := h
      exact ⟨x, by simp [hx], h⟩
    · rw [ih.2 h]
      constructor
      · rintro ⟨x, hx, hab⟩
        rcases List.mem_cons.1 hx with rfl | hx
        · unfold addEdge
          rw [if_pos hab, hl x (by simp)]
          rcases hab with ⟨rfl, rfl⟩ | ⟨rfl, rfl⟩
          · rfl
          · rw [hW]
        · exact absurd ⟨x, hx, hab⟩ h
      · intro hn
        unfold addEdge
        rw [if_neg fun hab => hn ⟨e, by simp, hab⟩]

/-- The syndrome nodes of a memory. -/
def synList (d T : Nat) (m : Cl → Bool) : List Tup :=
  (((List.range (T + 1)).map fun t => row d (chg T m t)).zipIdx).flatMap fun (elements, synRound) =>
    elements.zipIdx.filterMap fun (element, elemNum) => if element = '1' then some (1, synRound, elemNum) else none

theorem errorNodes_processed (d T : Nat) (hd : 2 ≤ d) (m : Cl → Bool) :
    errorNodes (processed d T m) = (0, 0, 0) :: (0, 1, 0) :: synList d T m := by
  unfold errorNodes
  rw [separate_processed d T hd]
  simp [List.zipIdx_cons, synList]

theorem mem_synList (d T : Nat) (hd : 2 ≤ d) (m : Cl → Bool) (x : Tup) :
    x ∈ synList d T m ↔ ∃ t j, Node.s t j ∈ nodes d T ∧ nodeVal d T m (.s t j) = true ∧ x = nt d (.s t j) := by
  have h1 := mem_flat_rows ((List.range (T + 1)).map fun t => row d (chg T m t)) 1 (fun c => decide (c = '1')) x
  simp only [decide_eq_true_eq] at h1
  unfold synList
  rw [h1]
  have h2 := mem_rows d T hd m x
  constructor
  · rintro ⟨t, r, e, c, a, b, rfl, h⟩
    obtain ⟨t, j, a1, a2, a3, a4⟩ := h2.1 ⟨t, r, e, a, b, h⟩
    exact ⟨t, j, (mem_nodes d T t j).2 ⟨a1, a2⟩, a3, a4⟩
  · rintro ⟨t, j, h, hv, hx⟩
    obtain ⟨a1, a2⟩ := (mem_nodes d T t j).1 h
    obtain ⟨t, r, e, a, b, h⟩ := h2.2 ⟨t, j, a1, a2, hv, hx⟩
    exact ⟨t, r, e, _, a, b, rfl, h⟩

theorem nodup_synList (d T : Nat) (m : Cl → Bool) : (synList d T m).Nodup := by
  unfold synList
  rw [List.nodup_flatMap]
  constructor
  · rintro ⟨r, t⟩ _
    apply List.Nodup.filterMap
    · rintro ⟨c, i⟩ ⟨c', i'⟩ x hx hx'
      simp only [Option.mem_def] at hx hx'
      split at hx
      · next h1 =>
        split at hx'
        · next h2 =>
          simp only [Option.some.injEq] at hx hx'
          rw [← hx'] at hx
          simp only [Prod.mk.injEq, true_and] at hx
          rw [h1, h2, hx]
        · simp at hx'
      · simp at hx
    · have := List.nodup_range' (s := 0) (n := r.length) (step := 1) (h := by omega)
      rw [← List.zipIdx_map_snd] at this
      exact List.Nodup.of_map _ this
  · have : ((((List.range (T + 1)).map fun t => row d (chg T m t)).zipIdx).map Prod.snd).Nodup := by
      rw [List.zipIdx_map_snd]
      exact List.nodup_range' (h := by omega)
    rw [List.Nodup, List.pairwise_map] at this
    refine this.imp ?_
    rintro ⟨r, t⟩ ⟨r', t'⟩ hne x hx hx'
    simp only [List.mem_filterMap] at hx hx'
    obtain ⟨⟨c, i⟩, -, h1⟩ := hx
    obtain ⟨⟨c', i'⟩, -, h2⟩ := hx'
    split at h1
    · split at h2
      · simp only [Option.some.injEq] at h1 h2
        rw [← h2] at h1
        simp only [Prod.mk.injEq] at h1
        exact hne h1.2.1
      · simp at h2
    · simp at h1

/-! ### the graph for the matching -/

/-- The nearest logical node. -/
noncomputable def nearOf (S : Graph) (u : Tup) : Tup :=
  if S.simple.dist u (0, 1, 0) < S.simple.dist u (0, 0, 0) then (0, 1, 0) else (0, 0, 0)

noncomputable def copyOf (S : Graph) (u : Tup) : List Nat := tup (nearOf S u) ++ tup u

/-- The first three entries. -/
def proj (a : List Nat) : Tup := (a.getD 0 0, a.getD 1 0, a.getD 2 0)

@[simp] theorem proj_tup (u : Tup) : proj (tup u) = u := rfl
@[simp] theorem proj_copy (S : Graph) (u : Tup) : proj (copyOf S u) = nearOf S u := rfl

theorem tup_inj {u v : Tup} (h : tup u = tup v) : u = v := by
  have := congrArg proj h
  simpa using this

theorem copy_inj {S : Graph} {u v : Tup} (h : copyOf S u = copyOf S v) : u = v := by
  unfold copyOf tup at h
  simp only [List.cons_append, List.nil_append, List.cons.injEq, and_true] at h
  obtain ⟨-, -, -, h1, h2, h3⟩ := h
  exact Prod.ext h1 (Prod.ext h2 h3)

theorem tup_ne_copy (S : Graph) (u v : Tup) : tup u ≠ copyOf S v := by
  intro h
  have := congrArg List.length h
  simp [tup, copyOf] at this

/-- The weights. -/
noncomputable def wt (S : Graph) (a b : List Nat) : Int :=
  if a.length = 6 ∧ b.length = 6 then 0 else -(S.simple.dist (proj a) (proj b) : Int)

theorem wt_comm (S : Graph) (a b : List Nat) : wt S a b = wt S b a := by
  unfold wt
  rw [SimpleGraph.dist_comm]
  by_cases h : a.length = 6 ∧ b.length = 6
  · rw [if_pos h, if_pos h.symm]
  · rw [if_neg h, if_neg fun h' => h h'.symm]

/-- The edges. -/
def Pres (S : Graph) (D : List Tup) (a b : List Nat) : Prop :=
  (∃ u ∈ D, ∃ v ∈ D, u ≠ v ∧ a = tup u ∧ b = tup v) ∨
  (∃ u ∈ D, (a = tup u ∧ b = copyOf S u) ∨ (a = copyOf S u ∧ b = tup u)) ∨
  (∃ u ∈ D, ∃ v ∈ D, u ≠ v ∧ a = copyOf S u ∧ b = copyOf S v)

theorem mapM_option {α β : Type} (f : α → Option β) (g : α → β) (l : List α) (h : ∀ a ∈ l, f a = some (g a)) :
    l.mapM f = some (l.map g) := by
  induction l with
  | nil => rfl
  | cons a l ih =>
    rw [List.mapM_cons, h a (by simp), ih fun b hb => h b (by simp [hb])]
    rfl

/-- The graph handed to the matching. -/
theorem graphs (d T : Nat) (hd : 2 ≤ d) (S : Graph) (hS : GraphOk d T S) (m : Cl → Bool) :
    ∃ E G, makeErrorGraph S (processed d T m) = some ((0, 0, 0) :: (0, 1, 0) :: synList d T m, E) ∧
      matchingGraph ((0, 0, 0) :: (0, 1, 0) :: synList d T m) E = some G ∧
      (∀ a b, Pres S (synList d T m) a b → G a b = some (wt S a b)) ∧
      (∀ a b, ¬ Pres S (synList d T m) a b → G a b = none) := by
  set D := synList d T m with hD
  have hsyn : ∀ x ∈ D, ∃ n ∈ nodes d T, x = nt d n ∧ x.1 = 1 := by
    intro x hx
    obtain ⟨t, j, h1, h2, h3⟩ := (mem_synList d T hd m x).1 hx
    exact ⟨_, h1, h3, by rw [h3]; rfl⟩
  set ns : List Tup := (0, 0, 0) :: (0, 1, 0) :: D with hns
  have hnode : ∀ x ∈ ns, ∃ n ∈ nodes d T, x = nt d n := by
    intro x hx
    simp only [hns, List.mem_cons] at hx
    rcases hx with rfl | rfl | hx
    · exact ⟨.L, by simp [nodes], rfl⟩
    · exact ⟨.R, by simp [nodes], rfl⟩
    · obtain ⟨n, hn, h, -⟩ := hsyn x hx
      exact ⟨n, hn, h⟩
  have hspl : ∀ u ∈ ns, ∀ v ∈ ns, shortestPathLength S u v = some (S.simple.dist u v) := by
    intro u hu v hv
    obtain ⟨n, hn, rfl⟩ := hnode u hu
    obtain ⟨n', hn', rfl⟩ := hnode v hv
    unfold shortestPathLength
    rw [if_pos ⟨hS.mem n hn, hS.mem n' hn', hS.reach n hn n' hn'⟩]
  -- the error graph
  have hrows : (ns.mapM fun u => (ns.filter fun v => v ≠ u).mapM fun v => do
      let n ← shortestPathLength S u v
      some (u, v, -(n : Int))) =
      some (ns.map fun u => (ns.filter fun v => v ≠ u).map fun v => (u, v, -(S.simple.dist u v : Int))) := by
    apply mapM_option
    intro u hu
    apply mapM_option
    intro v hv
    rw [hspl u hu v (List.mem_filter.1 hv).1]
    rfl
  set rows := (ns.map fun u => (ns.filter fun v => v ≠ u).map fun v => (u, v, -(S.simple.dist u v : Int))) with hrowsdef
  set E : WGraph Tup := rows.flatten.foldl addEdge fun _ _ => none with hE
  have hEval : ∀ u ∈ ns, ∀ v ∈ ns, v ≠ u → E u v = some (-(S.simple.dist u v : Int)) := by
    intro u hu v hv hne
    refine (foldl_addEdge (fun u v => -(S.simple.dist u v : Int)) (fun a b => by rw [SimpleGraph.dist_comm]) rows.flatten ?_ _ u v).1 ?_
    · intro e he
      simp only [hrowsdef, List.mem_flatten, List.mem_map] at he
      obtain ⟨_, ⟨a, ha, rfl⟩, he⟩ := he
      obtain ⟨b, hb, rfl⟩ := List.mem_map.1 he
      rfl
    · refine ⟨(u, v, -(S.simple.dist u v : Int)), ?_, Or.inl ⟨rfl, rfl⟩⟩
      simp only [hrowsdef, List.mem_flatten, List.mem_map]
      exact ⟨_, ⟨u, hu, rfl⟩, List.mem_map.2 ⟨v, List.mem_filter.2 ⟨hv, by simpa using hne⟩, rfl⟩⟩
  have hmake : makeErrorGraph S (processed d T m) = some (ns, E) := by
    unfold makeErrorGraph
    rw [errorNodes_processed d T hd]
    simp only []
    rw [hrows]
    rfl
  refine ⟨E, ?_⟩
  -- the matching graph
  have hlog : (ns.filter fun v => v.1 = 0) = [(0, 0, 0), (0, 1, 0)] := by
    have : (D.filter fun v => decide (v.1 = 0)) = [] := by
      rw [List.filter_eq_nil_iff]
      intro x hx
      obtain ⟨_, _, _, h⟩ := hsyn x hx
      simp [h]
    simp [hns, this]
  have hsy : (ns.filter fun v => v.1 ≠ 0) = D := by
    have : (D.filter fun v => decide (v.1 ≠ 0)) = D := by
      rw [List.filter_eq_self]
      intro x hx
      obtain ⟨_, _, _, h⟩ := hsyn x hx
      simp [h]
    simpa [hns] using this
  have hrow : ∀ u ∈ D, matchingRow E D [(0, 0, 0), (0, 1, 0)] u =
      some (((D.filter fun v => v ≠ u).map fun v => (tup u, tup v, wt S (tup u) (tup v))) ++
        [(tup u, copyOf S u, wt S (tup u) (copyOf S u))], copyOf S u) := by
    intro u hu
    have hu1 : u.1 = 1 := by
      obtain ⟨_, _, _, h⟩ := hsyn u hu
      exact h
    have huns : u ∈ ns := by simp [hns, hu]
    have hr : ((D.filter fun v => v ≠ u).mapM fun v => do
        let w ← E u v
        some (tup u, tup v, w)) = some ((D.filter fun v => v ≠ u).map fun v => (tup u, tup v, wt S (tup u) (tup v))) := by
      apply mapM_option
      intro v hv
      obtain ⟨hv1, hv2⟩ := List.mem_filter.1 hv
      rw [hEval u huns v (by simp [hns, hv1]) (by simpa using hv2)]
      rfl
    have hp : ([(0, 0, 0), (0, 1, 0)].mapM fun l => do
        let w ← E u l
        some (l, w)) = some [((0, 0, 0), -(S.simple.dist u (0, 0, 0) : Int)), ((0, 1, 0), -(S.simple.dist u (0, 1, 0) : Int))] := by
      have hne0 : ((0, 0, 0) : Tup) ≠ u := by intro h; rw [← h] at hu1; simp at hu1
      have hne1 : ((0, 1, 0) : Tup) ≠ u := by intro h; rw [← h] at hu1; simp at hu1
      have := mapM_option (fun l => (do let w ← E u l; some (l, w)) : Tup → Option (Tup × Int))
        (fun l => (l, -(S.simple.dist u l : Int))) [(0, 0, 0), (0, 1, 0)] (by
        intro l hl
        simp only [List.mem_cons, List.not_mem_nil, or_false] at hl
        rcases hl with rfl | rfl
        · rw [hEval u huns _ (by simp [hns]) hne0]; rfl
        · rw [hEval u huns _ (by simp [hns]) hne1]; rfl)
      exact this
    have hmax : maxKey [((0, 0, 0), -(S.simple.dist u (0, 0, 0) : Int)), ((0, 1, 0), -(S.simple.dist u (0, 1, 0) : Int))] =
        some (nearOf S u, -(S.simple.dist u (nearOf S u) : Int)) := by
      simp only [maxKey, nearOf]
      by_cases h : S.simple.dist u (0, 1, 0) < S.simple.dist u (0, 0, 0)
      · rw [if_pos (by omega), if_pos h]
      · rw [if_neg (by omega), if_neg h]
    unfold matchingRow
    rw [hr, hp]
    simp only [Option.bind_eq_bind, Option.bind_some]
    rw [hmax]
    rfl
  unfold matchingGraph
  simp only []
  rw [hlog, hsy, mapM_option _ _ D hrow]
  simp only [Option.bind_eq_bind, Option.bind_some]
  refine ⟨_, hmake, rfl, ?_⟩
  simp only [List.map_map]
  have hc : D.map ((fun r => r.2) ∘ fun u => (((D.filter fun v => v ≠ u).map fun v => (tup u, tup v, wt S (tup u) (tup v))) ++
        [(tup u, copyOf S u, wt S (tup u) (copyOf S u))], copyOf S u)) = D.map (copyOf S) := rfl
  have he : D.map ((fun r => r.1) ∘ fun u => (((D.filter fun v => v ≠ u).map fun v => (tup u, tup v, wt S (tup u) (tup v))) ++
        [(tup u, copyOf S u, wt S (tup u) (copyOf S u))], copyOf S u)) =
      D.map fun u => ((D.filter fun v => v ≠ u).map fun v => (tup u, tup v, wt S (tup u) (tup v))) ++
        [(tup u, copyOf S u, wt S (tup u) (copyOf S u))] := rfl
  rw [hc, he]
  set L := (D.map fun u => ((D.filter fun v => v ≠ u).map fun v => (tup u, tup v, wt S (tup u) (tup v))) ++
        [(tup u, copyOf S u, wt S (tup u) (copyOf S u))]).flatten ++
      (D.map (copyOf S)).flatMap fun a => ((D.map (copyOf S)).filter fun b => b ≠ a).map fun b => (a, b, (0 : Int)) with hL
  have hLmem : ∀ e, e ∈ L ↔ (∃ u ∈ D, ∃ v ∈ D, v ≠ u ∧ e = (tup u, tup v, wt S (tup u) (tup v))) ∨
      (∃ u ∈ D, e = (tup u, copyOf S u, wt S (tup u) (copyOf S u))) ∨
      (∃ u ∈ D, ∃ v ∈ D, v ≠ u ∧ e = (copyOf S u, copyOf S v, 0)) := by
    intro e
    constructor
    · intro h
      rcases List.mem_append.1 h with h | h
      · obtain ⟨_, h1, h2⟩ := List.mem_flatten.1 h
        obtain ⟨u, hu, rfl⟩ := List.mem_map.1 h1
        rcases List.mem_append.1 h2 with h2 | h2
        · obtain ⟨v, hv, rfl⟩ := List.mem_map.1 h2
          obtain ⟨hv1, hv2⟩ := List.mem_filter.1 hv
          exact Or.inl ⟨u, hu, v, hv1, by simpa using hv2, rfl⟩
        · exact Or.inr (Or.inl ⟨u, hu, by simpa using h2⟩)
      · obtain ⟨_, h1, h2⟩ := List.mem_flatMap.1 h
        obtain ⟨u, hu, rfl⟩ := List.mem_map.1 h1
        obtain ⟨_, hf, rfl⟩ := List.mem_map.1 h2
        obtain ⟨hv1, hv2⟩ := List.mem_filter.1 hf
        obtain ⟨v, hv, rfl⟩ := List.mem_map.1 hv1
        refine Or.inr (Or.inr ⟨u, hu, v, hv, ?_, rfl⟩)
        rintro rfl
        simp at hv2
    · rintro (⟨u, hu, v, hv, hne, rfl⟩ | ⟨u, hu, rfl⟩ | ⟨u, hu, v, hv, hne, rfl⟩)
      · refine List.mem_append.2 (Or.inl (List.mem_flatten.2 ⟨_, List.mem_map.2 ⟨u, hu, rfl⟩, List.mem_append.2 (Or.inl ?_)⟩))
        exact List.mem_map.2 ⟨v, List.mem_filter.2 ⟨hv, by simpa using hne⟩, rfl⟩
      · refine List.mem_append.2 (Or.inl (List.mem_flatten.2 ⟨_, List.mem_map.2 ⟨u, hu, rfl⟩, List.mem_append.2 (Or.inr ?_)⟩))
        simp
      · refine List.mem_append.2 (Or.inr (List.mem_flatMap.2 ⟨_, List.mem_map.2 ⟨u, hu, rfl⟩, List.mem_map.2 ⟨copyOf S v, ?_, rfl⟩⟩))
        refine List.mem_filter.2 ⟨List.mem_map.2 ⟨v, hv, rfl⟩, ?_⟩
        simpa using fun h => hne (copy_inj h)
  have hw : ∀ e ∈ L, e.2.2 = wt S e.1 e.2.1 := by
    intro e he
    rcases (hLmem e).1 he with ⟨u, hu, v, hv, hne, rfl⟩ | ⟨u, hu, rfl⟩ | ⟨u, hu, v, hv, hne, rfl⟩
    · rfl
    · rfl
    · simp [wt, copyOf, tup]
  have hpres : ∀ a b, (∃ e ∈ L, (a = e.1 ∧ b = e.2.1) ∨ (a = e.2.1 ∧ b = e.1)) ↔ Pres S D a b := by
    intro a b
    constructor
    · rintro ⟨e, he, h⟩
      rcases (hLmem e).1 he with ⟨u, hu, v, hv, hne, rfl⟩ | ⟨u, hu, rfl⟩ | ⟨u, hu, v, hv, hne, rfl⟩
      · rcases h with ⟨h1, h2⟩ | ⟨h1, h2⟩
        · exact Or.inl ⟨u, hu, v, hv, hne.symm, h1, h2⟩
        · exact Or.inl ⟨v, hv, u, hu, hne, h1, h2⟩
      · exact Or.inr (Or.inl ⟨u, hu, h⟩)
      · rcases h with ⟨h1, h2⟩ | ⟨h1, h2⟩
        · exact Or.inr (Or.inr ⟨u, hu, v, hv, hne.symm, h1, h2⟩)
        · exact Or.inr (Or.inr ⟨v, hv, u, hu, hne, h1, h2⟩)
    · rintro (⟨u, hu, v, hv, hne, rfl, rfl⟩ | ⟨u, hu, h⟩ | ⟨u, hu, v, hv, hne, rfl, rfl⟩)
      · exact ⟨_, (hLmem _).2 (Or.inl ⟨u, hu, v, hv, hne.symm, rfl⟩), Or.inl ⟨rfl, rfl⟩⟩
      · exact ⟨_, (hLmem _).2 (Or.inr (Or.inl ⟨u, hu, rfl⟩)), h⟩
      · exact ⟨_, (hLmem _).2 (Or.inr (Or.inr ⟨u, hu, v, hv, hne.symm, rfl⟩)), Or.inl ⟨rfl, rfl⟩⟩
  constructor
  · intro a b h
    exact (foldl_addEdge (wt S) (wt_comm S) L hw _ a b).1 ((hpres a b).2 h)
  · intro a b h
    exact (foldl_addEdge (wt S) (wt_comm S) L hw _ a b).2 fun h' => h ((hpres a b).1 h')

end Verif.RepCode
