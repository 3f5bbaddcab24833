import Verif.Ent.Graph
set_option linter.unusedSimpArgs false
set_option linter.unusedVariables false
/-
Invariant of the tier construction.
-/
namespace Verif.Ent
open Verif

/-- The invariant, with the list `E` of the pairs entered so far as (tier, control, target), in chronological order. -/
structure Inv (nodes : Dict ℕ (List ℕ)) (root : ℕ) (s : TierSt) (E : List (ℕ × ℕ × ℕ)) : Prop where
  trash : s.trash = root :: E.map (·.2.2)
  nd : s.trash.Nodup
  keys : ∀ x ∈ s.trash, x ∈ nodes.keys
  tierk : s.tier.keys = List.range nodes.length
  tierv : ∀ j, j < nodes.length → s.tier.get? j = some ((E.filter fun e => e.1 = j).map (·.2))
  dmr : s.dm.get? root = some 0
  dme : ∀ e ∈ E, s.dm.get? e.2.2 = some (e.1 + 1)
  hist : ∀ E1 e E2, E = E1 ++ e :: E2 → (e.2.1 = root ∨ ∃ e' ∈ E1, e'.2.2 = e.2.1 ∧ e'.1 < e.1) ∧ e.1 ≤ E1.length ∧
    ∃ l, nodes.get? e.2.1 = some l ∧ e.2.2 ∈ l
  ctrl : E.Pairwise fun e e' => e.2.1 = e'.2.1 → e.1 < e'.1

theorem keys_set_of_mem {κ υ : Type} [DecidableEq κ] (d : Dict κ υ) (k : κ) (v : υ) (h : k ∈ d.keys) : (d.set k v).keys = d.keys := by
  induction d with
  | nil => cases h
  | cons p d ih =>
    obtain ⟨a, b⟩ := p
    by_cases e : a = k
    · simp [Dict.set, e, Dict.keys]
    · simp only [Dict.set, e, if_false, Dict.keys, List.map_cons]
      congr 1
      exact ih (by simp only [Dict.keys, List.map_cons, List.mem_cons] at h; exact h.resolve_left fun h => e h.symm)

theorem length_le_of_nodup {l m : List ℕ} (hl : l.Nodup) (h : ∀ x ∈ l, x ∈ m) : l.length ≤ m.length :=
  (List.subperm_of_subset hl h).length_le

theorem childLoop_spec {nodes : Dict ℕ (List ℕ)} {root : ℕ} (g : Graph nodes) (parent : ℕ) (adj : List ℕ)
    (hadj : nodes.get? parent = some adj) (cs : List ℕ) (j : ℕ) (s : TierSt) (E : List (ℕ × ℕ × ℕ)) (inv : Inv nodes root s E)
    (hcs : cs.Nodup) (hnew : ∀ c ∈ cs, c ∉ s.trash) (hsub : ∀ c ∈ cs, c ∈ adj) (hp : parent ∈ s.trash)
    (hj0 : parent = root ∨ ∃ e' ∈ E, e'.2.2 = parent ∧ e'.1 < j) (hj1 : j ≤ E.length) (hj2 : ∀ e ∈ E, e.2.1 = parent → e.1 < j) :
    ∃ s' E', childLoop parent cs j s = some s' ∧ Inv nodes root s' (E ++ E') ∧ E'.map (·.2.2) = cs ∧ ∀ e ∈ E', e.2.1 = parent := by
  induction cs generalizing j s E with
  | nil => exact ⟨s, [], rfl, by simpa using inv, rfl, by simp⟩
  | cons c cs ih =>
    have hc : c ∉ s.trash := hnew c (by simp)
    have hck : c ∈ nodes.keys := g.closed parent adj hadj c (hsub c (by simp))
    have hlen : s.trash.length = E.length + 1 := by rw [inv.trash]; simp
    have hN : E.length + 2 ≤ nodes.length := by
      have h := length_le_of_nodup (l := c :: s.trash) (m := nodes.keys) (List.nodup_cons.2 ⟨hc, inv.nd⟩) (by
        intro x hx
        rcases List.mem_cons.1 hx with rfl | hx
        · exact hck
        · exact inv.keys x hx)
      simp only [List.length_cons, hlen, Dict.keys, List.length_map] at h
      omega
    have hjN : j < nodes.length := by omega
    have ht := inv.tierv j hjN
    have hcroot : c ≠ root := fun h => hc (by rw [inv.trash, h]; simp)
    have hcE : ∀ e ∈ E, e.2.2 ≠ c := fun e he h => hc (by rw [inv.trash, ← h]; exact List.mem_cons_of_mem _ (List.mem_map.2 ⟨e, he, rfl⟩))
    let s1 : TierSt := ⟨s.tier.set j ((E.filter fun e => e.1 = j).map (·.2) ++ [(parent, c)]), s.dm.set c (j + 1), s.trash ++ [c]⟩
    have inv1 : Inv nodes root s1 (E ++ [(j, parent, c)]) := by
      refine ⟨?_, ?_, ?_, ?_, ?_, ?_, ?_, ?_, ?_⟩
      · simp [s1, inv.trash]
      · simp only [s1]
        rw [List.nodup_append']
        exact ⟨inv.nd, by simp, by simpa using hc⟩
      · intro x hx
        simp only [s1, List.mem_append, List.mem_singleton] at hx
        rcases hx with hx | rfl
        · exact inv.keys x hx
        · exact hck
      · simp only [s1]
        rw [keys_set_of_mem _ _ _ (by rw [inv.tierk]; exact List.mem_range.2 hjN), inv.tierk]
      · intro i hi
        simp only [s1]
        rw [Dict.get?_set]
        by_cases e : j = i
        · subst e; simp
        · rw [if_neg e, inv.tierv i hi, List.filter_append, List.filter_cons_of_neg (by simpa using e)]
          simp
      · simp only [s1]
        rw [Dict.get?_set, if_neg hcroot]; exact inv.dmr
      · intro e he
        simp only [s1]
        rw [Dict.get?_set]
        rcases List.mem_append.1 he with he | he
        · rw [if_neg fun h => hcE e he h.symm]; exact inv.dme e he
        · simp only [List.mem_singleton] at he
          subst he; simp
      · intro E1 e E2 hE
        rcases List.eq_nil_or_concat E2 with rfl | ⟨E2', x, rfl⟩
        · obtain ⟨h1, h2⟩ := List.append_inj' hE (by simp)
          simp only [List.cons.injEq, and_true] at h2
          subst h1; subst h2
          exact ⟨hj0, hj1, adj, hadj, hsub c (by simp)⟩
        · have h3 : E ++ [(j, parent, c)] = (E1 ++ e :: E2') ++ [x] := by rw [hE]; simp
          obtain ⟨h1, h2⟩ := List.append_inj' h3 (by simp)
          exact inv.hist E1 e E2' h1
      · rw [List.pairwise_append]
        refine ⟨inv.ctrl, by simp, ?_⟩
        intro a ha b hb hab
        simp only [List.mem_singleton] at hb
        subst hb
        exact hj2 a ha hab
    obtain ⟨s', E', h1, h2, h3, h4⟩ := ih (j + 1) s1 (E ++ [(j, parent, c)]) inv1 (List.nodup_cons.1 hcs).2
      (by
        intro x hx
        simp only [s1, List.mem_append, List.mem_singleton, not_or]
        exact ⟨hnew x (by simp [hx]), fun h => (List.nodup_cons.1 hcs).1 (h ▸ hx)⟩)
      (fun x hx => hsub x (by simp [hx])) (by simp [s1, hp])
      (by
        rcases hj0 with h | ⟨e', he', h, hlt⟩
        · exact Or.inl h
        · exact Or.inr ⟨e', by simp [he'], h, by omega⟩)
      (by simp; omega)
      (by
        intro e he hpe
        rcases List.mem_append.1 he with he | he
        · have := hj2 e he hpe; omega
        · simp only [List.mem_singleton] at he
          rw [he]; simp)
    refine ⟨s', (j, parent, c) :: E', ?_, ?_, ?_, ?_⟩
    · rw [childLoop]
      simp only [ht, Option.bind_eq_bind, Option.bind_some]
      exact h1
    · rw [List.append_assoc] at h2; exact h2
    · simp [h3]
    · intro e he
      rcases List.mem_cons.1 he with rfl | he
      · rfl
      · exact h4 e he

theorem mem_sortChildren (err : Option (ℕ → ℕ → ℚ)) (p : ℕ) (l : List ℕ) (x : ℕ) : x ∈ sortChildren err p l ↔ x ∈ l := by
  cases err with
  | none => rfl
  | some e => exact (List.perm_insertionSort _ l).mem_iff

theorem nodup_sortChildren (err : Option (ℕ → ℕ → ℚ)) (p : ℕ) (l : List ℕ) : (sortChildren err p l).Nodup ↔ l.Nodup := by
  cases err with
  | none => rfl
  | some e => exact (List.perm_insertionSort _ l).nodup_iff

theorem length_sortChildren (err : Option (ℕ → ℕ → ℚ)) (p : ℕ) (l : List ℕ) : (sortChildren err p l).length = l.length := by
  cases err with
  | none => rfl
  | some e => exact (List.perm_insertionSort _ l).length_eq

/-- All neighbours of the controls have been reached. -/
def Done (nodes : Dict ℕ (List ℕ)) (s : TierSt) (E : List (ℕ × ℕ × ℕ)) : Prop :=
  ∀ e ∈ E, ∀ l, nodes.get? e.2.1 = some l → ∀ c ∈ l, c ∈ s.trash

theorem parentStep_spec {nodes : Dict ℕ (List ℕ)} {root : ℕ} (g : Graph nodes) (err : Option (ℕ → ℕ → ℚ)) (parent : ℕ)
    (s : TierSt) (tot : List ℕ) (E : List (ℕ × ℕ × ℕ)) (inv : Inv nodes root s E) (dn : Done nodes s E) (hp : parent ∈ s.trash) :
    ∃ s' E' adj, nodes.get? parent = some adj ∧ parentStep nodes err (s, tot) parent = some (s', tot ++ sortChildren err parent adj) ∧
      Inv nodes root s' E' ∧ Done nodes s' E' ∧ (∀ x ∈ s.trash, x ∈ s'.trash) ∧ (∀ x ∈ adj, x ∈ s'.trash) ∧
      ∀ x ∈ s'.trash, x ∈ s.trash ∨ x ∈ adj := by
  obtain ⟨adj, hadj⟩ := Option.isSome_iff_exists.1 ((Dict.mem_keys_iff nodes parent).1 (inv.keys parent hp))
  -- the tier of the parent
  obtain ⟨j, hj, hj0, hj1⟩ : ∃ j, s.dm.get? parent = some j ∧ (parent = root ∨ ∃ e' ∈ E, e'.2.2 = parent ∧ e'.1 < j) ∧ j ≤ E.length := by
    rw [inv.trash] at hp
    rcases List.mem_cons.1 hp with rfl | hp
    · exact ⟨0, inv.dmr, Or.inl rfl, by omega⟩
    · obtain ⟨e, he, rfl⟩ := List.mem_map.1 hp
      refine ⟨e.1 + 1, inv.dme e he, Or.inr ⟨e, he, rfl, by omega⟩, ?_⟩
      obtain ⟨E1, E2, h⟩ := List.append_of_mem he
      have := (inv.hist E1 e E2 h).2.1
      rw [h]; simp; omega
  let new := (sortChildren err parent adj).filter fun a => decide (a ∉ s.trash)
  have hnew : ∀ x, x ∈ new ↔ x ∈ adj ∧ x ∉ s.trash := by
    intro x
    simp only [new, List.mem_filter, mem_sortChildren, decide_eq_true_eq]
  have hstep : ∀ s', childLoop parent new j s = some s' →
      parentStep nodes err (s, tot) parent = some (s', tot ++ sortChildren err parent adj) := by
    intro s' h
    unfold parentStep
    simp only [hadj, hj, Option.bind_eq_bind, Option.bind_some]
    have : childLoop parent ((sortChildren err parent adj).filter fun a => decide (a ∉ s.trash)) j s = some s' := h
    rw [this]; rfl
  by_cases hE : ∃ e ∈ E, e.2.1 = parent
  · obtain ⟨e, he, rfl⟩ := hE
    have hnil : new = [] := by
      rw [List.eq_nil_iff_forall_not_mem]
      intro x hx
      exact ((hnew x).1 hx).2 (dn e he adj hadj x ((hnew x).1 hx).1)
    refine ⟨s, E, adj, hadj, hstep s (by rw [hnil]; rfl), inv, dn, fun x hx => hx, fun x hx => dn e he adj hadj x hx, fun x hx => Or.inl hx⟩
  · have hE' : ∀ e ∈ E, e.2.1 ≠ parent := fun e he h => hE ⟨e, he, h⟩
    obtain ⟨s', E', h1, h2, h3, h4⟩ := childLoop_spec g parent adj hadj new j s E inv
      (((nodup_sortChildren err parent adj).2 (g.nd parent adj hadj)).filter _) (fun c hc => ((hnew c).1 hc).2)
      (fun c hc => ((hnew c).1 hc).1) hp hj0 hj1 (fun e he h => absurd h (hE' e he))
    have htr : s'.trash = s.trash ++ new := by
      rw [h2.trash, inv.trash]
      simp [← h3]
    have hall : ∀ x ∈ adj, x ∈ s'.trash := by
      intro x hx
      rw [htr, List.mem_append]
      by_cases h : x ∈ s.trash
      · exact Or.inl h
      · exact Or.inr ((hnew x).2 ⟨hx, h⟩)
    refine ⟨s', E ++ E', adj, hadj, hstep s' h1, h2, ?_, ?_, hall, ?_⟩
    · intro e he l hl c hc
      rcases List.mem_append.1 he with he | he
      · rw [htr]; exact List.mem_append_left _ (dn e he l hl c hc)
      · rw [h4 e he, hadj] at hl
        cases hl
        exact hall c hc
    · intro x hx; rw [htr]; exact List.mem_append_left _ hx
    · intro x hx
      rw [htr, List.mem_append] at hx
      exact hx.imp id fun h => ((hnew x).1 h).1

theorem round_spec {nodes : Dict ℕ (List ℕ)} {root : ℕ} (g : Graph nodes) (err : Option (ℕ → ℕ → ℚ)) (parents : List ℕ)
    (s : TierSt) (tot : List ℕ) (E : List (ℕ × ℕ × ℕ)) (inv : Inv nodes root s E) (dn : Done nodes s E) (hp : ∀ p ∈ parents, p ∈ s.trash) :
    ∃ s' E' kids, parents.foldlM (parentStep nodes err) (s, tot) = some (s', tot ++ kids) ∧
      kids = parents.flatMap (fun p => sortChildren err p ((nodes.get? p).getD [])) ∧
      Inv nodes root s' E' ∧ Done nodes s' E' ∧ (∀ x ∈ s.trash, x ∈ s'.trash) ∧ (∀ x ∈ kids, x ∈ s'.trash) ∧
      ∀ x ∈ s'.trash, x ∈ s.trash ∨ x ∈ kids := by
  induction parents generalizing s tot E with
  | nil => exact ⟨s, E, [], by simp, rfl, inv, dn, fun x hx => hx, by simp, fun x hx => Or.inl hx⟩
  | cons p parents ih =>
    obtain ⟨s1, E1, adj, a0, a1, a2, a3, a4, a5, a6⟩ := parentStep_spec g err p s tot E inv dn (hp p (by simp))
    obtain ⟨s2, E2, kids, b1, b2, b3, b4, b5, b6, b7⟩ := ih s1 (tot ++ sortChildren err p adj) E1 a2 a3 fun x hx => a4 x (hp x (by simp [hx]))
    refine ⟨s2, E2, sortChildren err p adj ++ kids, ?_, ?_, b3, b4, fun x hx => b5 x (a4 x hx), ?_, ?_⟩
    · rw [List.foldlM_cons, a1]
      simp only [Option.bind_eq_bind, Option.bind_some]
      rw [b1, List.append_assoc]
    · rw [List.flatMap_cons, b2, a0]; rfl
    · intro x hx
      rcases List.mem_append.1 hx with hx | hx
      · exact b5 x (a5 x ((mem_sortChildren _ _ _ _).1 hx))
      · exact b6 x hx
    · intro x hx
      rw [List.mem_append, mem_sortChildren]
      rcases b7 x hx with h | h
      · rcases a6 x h with h | h
        · exact Or.inl h
        · exact Or.inr (Or.inl h)
      · exact Or.inr (Or.inr h)

/-- Walks in the node dictionary. -/
def WalkN (nodes : Dict ℕ (List ℕ)) : ℕ → ℕ → ℕ → Prop
  | 0, a, b => a = b
  | k + 1, a, b => ∃ c, c ∈ (nodes.get? a).getD [] ∧ WalkN nodes k c b

theorem tierLoop_spec {nodes : Dict ℕ (List ℕ)} {root : ℕ} (g : Graph nodes) (err : Option (ℕ → ℕ → ℚ)) (fuel : ℕ) (parents : List ℕ)
    (s : TierSt) (E : List (ℕ × ℕ × ℕ)) (inv : Inv nodes root s E) (dn : Done nodes s E) (hp : ∀ p ∈ parents, p ∈ s.trash) :
    ∃ s' E', tierLoop nodes err fuel parents s = some s' ∧ Inv nodes root s' E' ∧ (∀ x ∈ s.trash, x ∈ s'.trash) ∧
      (s'.trash.length = nodes.length ∨ ∀ p ∈ parents, ∀ k ≤ fuel, ∀ v, WalkN nodes k p v → v ∈ s'.trash) ∧
      ∀ (f : ℕ → ℕ) (B : ℕ), (∀ a l, nodes.get? a = some l → ∀ b ∈ l, f b ≤ f a + 1) → (∀ x ∈ s.trash, f x ≤ B) →
        ∀ x ∈ s'.trash, f x ≤ B + fuel := by
  induction fuel generalizing parents s E with
  | zero =>
    refine ⟨s, E, rfl, inv, fun x hx => hx, Or.inr ?_, fun f B _ h x hx => by have := h x hx; omega⟩
    intro p hp' k hk v hw
    obtain rfl : k = 0 := by omega
    obtain rfl : p = v := hw
    exact hp p hp'
  | succ fuel ih =>
    obtain ⟨s1, E1, kids, b1, b2, b3, b4, b5, b6, b7⟩ := round_spec g err parents s [] E inv dn hp
    rw [List.nil_append] at b1
    have hstep : ∀ (f : ℕ → ℕ) (B : ℕ), (∀ a l, nodes.get? a = some l → ∀ b ∈ l, f b ≤ f a + 1) → (∀ x ∈ s.trash, f x ≤ B) →
        ∀ x ∈ s1.trash, f x ≤ B + 1 := by
      intro f B hf hB x hx
      rcases b7 x hx with h | h
      · have := hB x h; omega
      · rw [b2] at h
        obtain ⟨p, hp', hx'⟩ := List.mem_flatMap.1 h
        rw [mem_sortChildren] at hx'
        cases hg : nodes.get? p with
        | none => rw [hg] at hx'; cases hx'
        | some l =>
          rw [hg] at hx'
          have := hf p l hg x hx'
          have := hB p (hp p hp')
          omega
    by_cases hfull : s1.trash.length = nodes.length
    · refine ⟨s1, E1, ?_, b3, b5, Or.inl hfull, ?_⟩
      · rw [tierLoop, b1]
        simp only [Option.bind_eq_bind, Option.bind_some, if_pos hfull]
      · intro f B hf hB x hx
        have := hstep f B hf hB x hx; omega
    · obtain ⟨s2, E2, c1, c2, c3, c4, c5⟩ := ih kids s1 E1 b3 b4 b6
      refine ⟨s2, E2, ?_, c2, fun x hx => c3 x (b5 x hx), ?_, ?_⟩
      · rw [tierLoop, b1]
        simp only [Option.bind_eq_bind, Option.bind_some, if_neg hfull]
        exact c1
      · rcases c4 with h | h
        · exact Or.inl h
        · right
          intro p hp' k hk v hw
          cases k with
          | zero => obtain rfl : p = v := hw; exact c3 p (b5 p (hp p hp'))
          | succ k =>
            obtain ⟨c, hc, hw⟩ := hw
            refine h c ?_ k (by omega) v hw
            rw [b2]
            exact List.mem_flatMap.2 ⟨p, hp', (mem_sortChildren _ _ _ _).2 hc⟩
      · intro f B hf hB x hx
        have := c5 f (B + 1) hf (hstep f B hf hB) x hx
        omega

theorem inv_init (nodes : Dict ℕ (List ℕ)) (root : ℕ) (h : root ∈ nodes.keys) : Inv nodes root (tierInit nodes root) [] := by
  refine ⟨rfl, by simp [tierInit], ?_, ?_, ?_, ?_, by simp, ?_, by simp⟩
  · intro x hx
    simp only [tierInit, List.mem_singleton] at hx
    rw [hx]; exact h
  · simp [tierInit, Dict.keys, Function.comp_def]
  · intro j hj
    simp only [tierInit, List.filter_nil, List.map_nil]
    apply Dict.get?_of_mem
    · simp only [Dict.WF, List.map_map, Function.comp_def, List.map_id']; exact List.nodup_range
    · exact List.mem_map.2 ⟨j, List.mem_range.2 hj, rfl⟩
  · simp [tierInit, Dict.get?]
  · intro E1 e E2 h
    simp at h

end Verif.Ent
