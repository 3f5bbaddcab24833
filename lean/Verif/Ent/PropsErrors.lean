import Verif.Ent.Errors
import Verif.Ent.PropsTier
import Mathlib.Data.List.Induction
set_option linter.unusedSimpArgs false
set_option linter.unusedVariables false
/-
C133: the tier dictionary sorted by the CNOT errors of the backend.
-/
namespace Verif.Ent
open Verif

/-! ### Specification -/

/-- The `k`-th values that the properties list for gates on the qubits `(a, b)`, in order. -/
def listed (k : ℕ) (gates : List PropGate) (a b : ℕ) : List ℚ :=
  (gates.filter fun g => g.qubits = [a, b]).filterMap fun g => g.values[k]?

/-- Every two-qubit gate has a `k`-th value. -/
def Complete (k : ℕ) (gates : List PropGate) : Prop := ∀ g ∈ gates, g.qubits.length = 2 → k < g.values.length

/-- The value the table should have for `(a, b)`: the last one listed for that direction; if there is none, the first one listed for the
reverse direction. -/
def tabled (k : ℕ) (gates : List PropGate) (a b : ℕ) : Option ℚ := (listed k gates a b).getLast?.or (listed k gates b a).head?

/-- Every coupled pair is listed in at least one direction. -/
def Calibrated (cmap : List (ℕ × ℕ)) (gates : List PropGate) : Prop :=
  ∀ a b, Coupled cmap a b → ∃ g ∈ gates, g.qubits = [a, b] ∨ g.qubits = [b, a]

/-- Every control makes its CNOTs in the order of `e control target`. -/
def InOrder (e : ℕ → ℕ → ℚ) (tier : Dict ℕ (List (ℕ × ℕ))) : Prop :=
  ∀ kv ∈ tier, ∀ kv' ∈ tier, kv.1 < kv'.1 → ∀ p ∈ kv.2, ∀ p' ∈ kv'.2, p.1 = p'.1 → e p.1 p.2 ≤ e p'.1 p'.2

/-! ### The table -/

theorem listed_append (k : ℕ) (gs hs : List PropGate) (a b : ℕ) : listed k (gs ++ hs) a b = listed k gs a b ++ listed k hs a b := by
  simp [listed]

theorem table_step (k : ℕ) (gs : List PropGate) (g : PropGate) (d : Dict (ℕ × ℕ) ℚ) (hg : g.qubits.length = 2 → k < g.values.length)
    (hd : ∀ a b, d.get? (a, b) = tabled k gs a b) :
    ∃ d', cxStep k d g = some d' ∧ ∀ a b, d'.get? (a, b) = tabled k (gs ++ [g]) a b := by
  obtain ⟨qs, vs⟩ := g
  by_cases h2 : ∃ a b, qs = [a, b]
  · obtain ⟨a, b, rfl⟩ := h2
    have hk : k < vs.length := hg rfl
    obtain ⟨v, hv⟩ : ∃ v, vs[k]? = some v := ⟨vs[k], List.getElem?_eq_getElem hk⟩
    have hl : ∀ x y, listed k [⟨[a, b], vs⟩] x y = if a = x ∧ b = y then [v] else [] := by
      intro x y
      by_cases e : a = x ∧ b = y
      · obtain ⟨rfl, rfl⟩ := e
        simp [listed, hv]
      · rw [if_neg e]
        have : ¬ ([a, b] = [x, y]) := by simpa using e
        simp [listed, this]
    simp only [cxStep, hv, Option.bind_eq_bind, Option.bind_some]
    by_cases hba : (d.set (a, b) v).has (b, a) = true
    · refine ⟨d.set (a, b) v, by rw [if_pos hba], ?_⟩
      intro x y
      rw [Dict.get?_set, hd]
      unfold tabled
      rw [listed_append, listed_append, hl, hl]
      by_cases e : a = x ∧ b = y
      · obtain ⟨rfl, rfl⟩ := e
        simp
      · have e' : ¬ ((a, b) = (x, y)) := by simpa using e
        rw [if_neg e', if_neg e, List.append_nil]
        by_cases e2 : a = y ∧ b = x
        · obtain ⟨rfl, rfl⟩ := e2
          rw [if_pos ⟨rfl, rfl⟩]
          have e3 : ¬ ((a, b) = (b, a)) := e'
          unfold Dict.has at hba
          rw [Dict.get?_set, if_neg e3, hd] at hba
          unfold tabled at hba
          cases h1 : (listed k gs b a).getLast? with
          | some w => simp
          | none =>
            rw [h1] at hba
            simp only [Option.none_or] at hba ⊢
            cases hc : listed k gs a b with
            | nil => rw [hc] at hba; simp at hba
            | cons w ws => simp
        · rw [if_neg e2, List.append_nil]
    · refine ⟨(d.set (a, b) v).set (b, a) v, by rw [if_neg hba], ?_⟩
      have e0 : ¬ ((a, b) = (b, a)) := by
        intro e
        apply hba
        unfold Dict.has
        rw [← e, Dict.get?_set_self]
        rfl
      have hnone : d.get? (b, a) = none := by
        unfold Dict.has at hba
        rw [Dict.get?_set, if_neg e0] at hba
        simpa using hba
      have hnone' := hnone
      rw [hd] at hnone'
      unfold tabled at hnone'
      rw [Option.or_eq_none_iff] at hnone'
      have n1 : listed k gs b a = [] := by simpa using hnone'.1
      have n2 : listed k gs a b = [] := by simpa using hnone'.2
      intro x y
      rw [Dict.get?_set, Dict.get?_set, hd]
      unfold tabled
      rw [listed_append, listed_append, hl, hl]
      by_cases e1 : (b, a) = (x, y)
      · obtain ⟨rfl, rfl⟩ := Prod.mk.inj e1
        have : ¬ (a = b ∧ b = a) := fun h => e0 (by rw [Prod.mk.injEq]; exact h)
        rw [if_pos rfl, if_neg this, if_pos ⟨rfl, rfl⟩, n1, n2]
        simp
      · rw [if_neg e1]
        by_cases e2 : (a, b) = (x, y)
        · obtain ⟨rfl, rfl⟩ := Prod.mk.inj e2
          simp
        · have e1' : ¬ (a = y ∧ b = x) := fun h => e1 (by rw [Prod.mk.injEq]; exact ⟨h.2, h.1⟩)
          have e2' : ¬ (a = x ∧ b = y) := fun h => e2 (by rw [Prod.mk.injEq]; exact h)
          rw [if_neg e2, if_neg e1', if_neg e2', List.append_nil, List.append_nil]
  · refine ⟨d, ?_, ?_⟩
    · unfold cxStep
      split
      · next a b e => exact absurd ⟨a, b, e⟩ h2
      · rfl
    · intro x y
      have hl : ∀ x y, listed k [⟨qs, vs⟩] x y = [] := by
        intro x y
        have : ¬ qs = [x, y] := fun e => h2 ⟨x, y, e⟩
        simp [listed, this]
      rw [hd]
      unfold tabled
      rw [listed_append, listed_append, hl, hl, List.append_nil, List.append_nil]

/-- **C133**, the table.  If every two-qubit gate has the value, the table exists, and holds for a pair of qubits the last value listed
for it or, if there is none, the first value listed for the reversed pair; no other pair has an entry. -/
theorem C133_table (k : ℕ) (gates : List PropGate) (hc : Complete k gates) :
    ∃ d, cxTable k gates = some d ∧ ∀ a b, d.get? (a, b) = tabled k gates a b := by
  unfold cxTable
  induction gates using List.reverseRecOn with
  | nil => exact ⟨[], rfl, fun a b => rfl⟩
  | append_singleton gs g ih =>
    obtain ⟨d, h1, h2⟩ := ih fun x hx => hc x (by simp [hx])
    obtain ⟨d', h3, h4⟩ := table_step k gs g d (hc g (by simp)) h2
    refine ⟨d', ?_, h4⟩
    rw [List.foldlM_append, h1]
    simp [h3]

/-! ### The order of the CNOTs -/

theorem childLoop_effect (parent : ℕ) (cs : List ℕ) (j : ℕ) (s s' : TierSt) (h : childLoop parent cs j s = some s') :
    s'.trash = s.trash ++ cs ∧ (s.tier.WF → s'.tier.WF) ∧
    ∀ k x, x ∈ (s'.tier.get? k).getD [] ↔ x ∈ (s.tier.get? k).getD [] ∨ ∃ i c, cs[i]? = some c ∧ k = j + i ∧ x = (parent, c) := by
  induction cs generalizing j s with
  | nil =>
    simp only [childLoop, Option.some.injEq] at h
    subst h
    simp
  | cons c cs ih =>
    rw [childLoop] at h
    cases ht : s.tier.get? j with
    | none => simp [ht] at h
    | some t =>
      simp only [ht, Option.bind_eq_bind, Option.bind_some] at h
      obtain ⟨h1, h2, h3⟩ := ih _ _ h
      refine ⟨by simp [h1], fun hw => h2 (Dict.wf_set _ hw _ _), ?_⟩
      intro k x
      rw [h3]
      simp only [Dict.get?_set]
      constructor
      · rintro (hx | ⟨i, c', hi, rfl, rfl⟩)
        · by_cases e : j = k
          · subst e
            rw [if_pos rfl] at hx
            simp only [Option.getD_some, List.mem_append, List.mem_singleton] at hx
            rcases hx with hx | rfl
            · left; rw [ht]; exact hx
            · right; exact ⟨0, c, rfl, rfl, rfl⟩
          · rw [if_neg e] at hx
            exact Or.inl hx
        · right
          exact ⟨i + 1, c', by simpa using hi, by omega, rfl⟩
      · rintro (hx | ⟨i, c', hi, rfl, rfl⟩)
        · left
          by_cases e : j = k
          · subst e
            rw [ht] at hx
            rw [if_pos rfl]
            simp only [Option.getD_some, List.mem_append] at hx ⊢
            exact Or.inl hx
          · rw [if_neg e]
            exact hx
        · cases i with
          | zero =>
            left
            simp only [List.getElem?_cons_zero, Option.some.injEq] at hi
            subst hi
            simp
          | succ i =>
            right
            exact ⟨i, c', by simpa using hi, by omega, rfl⟩

/-- What holds between the visits of parents. -/
structure OrdInv (nodes : Dict ℕ (List ℕ)) (e : ℕ → ℕ → ℚ) (s : TierSt) : Prop where
  wf : s.tier.WF
  done : ∀ k p, p ∈ (s.tier.get? k).getD [] → ∀ l, nodes.get? p.1 = some l → ∀ c ∈ l, c ∈ s.trash
  ord : ∀ k k', k < k' → ∀ p ∈ (s.tier.get? k).getD [], ∀ p' ∈ (s.tier.get? k').getD [], p.1 = p'.1 → e p.1 p.2 ≤ e p'.1 p'.2

theorem parentStep_ord (nodes : Dict ℕ (List ℕ)) (e : ℕ → ℕ → ℚ) (s s' : TierSt) (tot tot' : List ℕ) (parent : ℕ)
    (hi : OrdInv nodes e s) (h : parentStep nodes (some fun a b => e b a) (s, tot) parent = some (s', tot')) : OrdInv nodes e s' := by
  unfold parentStep at h
  cases hl : nodes.get? parent with
  | none => simp [hl] at h
  | some l =>
    cases hj : s.dm.get? parent with
    | none => simp [hl, hj] at h
    | some j =>
      simp only [hl, hj, Option.bind_eq_bind, Option.bind_some] at h
      obtain ⟨s1, h1, h2⟩ := Option.bind_eq_some_iff.1 h
      obtain ⟨rfl, -⟩ := Prod.mk.inj (Option.some.inj h2)
      obtain ⟨c1, c2, c3⟩ := childLoop_effect _ _ _ _ _ h1
      have hall : ∀ c ∈ l, c ∈ s1.trash := by
        intro c hc
        rw [c1, List.mem_append]
        by_cases hx : c ∈ s.trash
        · exact Or.inl hx
        · right
          rw [List.mem_filter]
          exact ⟨(mem_sortChildren _ _ _ _).2 hc, by simpa using hx⟩
      refine ⟨c2 hi.wf, ?_, ?_⟩
      · intro k p hp l' hl' c hc
        rcases (c3 k p).1 hp with hp | ⟨i, c', hi', rfl, rfl⟩
        · rw [c1]
          exact List.mem_append_left _ (hi.done k p hp l' hl' c hc)
        · rw [hl] at hl'
          obtain rfl := Option.some.inj hl'
          exact hall c hc
      · -- a second visit adds nothing
        by_cases hex : ∃ k p, p ∈ (s.tier.get? k).getD [] ∧ p.1 = parent
        · obtain ⟨k0, p0, hp0, rfl⟩ := hex
          have hnil : (sortChildren (some fun a b => e b a) p0.1 l).filter (fun a => decide (a ∉ s.trash)) = [] := by
            rw [List.filter_eq_nil_iff]
            intro a ha
            have := hi.done k0 p0 hp0 l hl a ((mem_sortChildren _ _ _ _).1 ha)
            simpa using this
          intro k k' hk p hp p' hp' hpp
          have red : ∀ k p, p ∈ (s1.tier.get? k).getD [] → p ∈ (s.tier.get? k).getD [] := by
            intro k p hp
            rcases (c3 k p).1 hp with hp | ⟨i, c', hi', -⟩
            · exact hp
            · have hi'' : ([] : List ℕ)[i]? = some c' := by rw [← hnil]; exact hi'
              simp at hi''
          exact hi.ord k k' hk p (red k p hp) p' (red k' p' hp') hpp
        · have hno : ∀ k p, p ∈ (s.tier.get? k).getD [] → p.1 ≠ parent := fun k p hp hh => hex ⟨k, p, hp, hh⟩
          have hsorted : ((sortChildren (some fun a b => e b a) parent l).filter fun a => decide (a ∉ s.trash)).Pairwise
              fun a b => e parent a ≤ e parent b := by
            apply List.Pairwise.filter
            have : Std.Total fun a b : ℕ => e parent a ≤ e parent b := ⟨fun a b => le_total _ _⟩
            have : IsTrans ℕ fun a b => e parent a ≤ e parent b := ⟨fun a b c => le_trans⟩
            exact List.pairwise_insertionSort (fun a b => e parent a ≤ e parent b) l
          generalize hcs : (sortChildren (some fun a b => e b a) parent l).filter (fun a => decide (a ∉ s.trash)) = cs at *
          intro k k' hk p hp p' hp' hpp
          rcases (c3 k p).1 hp with hp | ⟨i, c, hic, rfl, rfl⟩ <;> rcases (c3 k' p').1 hp' with hp' | ⟨i', c', hic', rfl, rfl⟩
          · exact hi.ord k k' hk p hp p' hp' hpp
          · exact absurd hpp (hno k p hp)
          · exact absurd hpp.symm (hno k' p' hp')
          · obtain ⟨a1, a2⟩ := List.getElem?_eq_some_iff.1 hic
            obtain ⟨b1, b2⟩ := List.getElem?_eq_some_iff.1 hic'
            have := List.pairwise_iff_getElem.1 hsorted i i' a1 b1 (by omega)
            rw [a2, b2] at this
            exact this

theorem round_ord (nodes : Dict ℕ (List ℕ)) (e : ℕ → ℕ → ℚ) (parents : List ℕ) (s : TierSt) (tot : List ℕ) (r : TierSt × List ℕ)
    (hi : OrdInv nodes e s) (h : parents.foldlM (parentStep nodes (some fun a b => e b a)) (s, tot) = some r) : OrdInv nodes e r.1 := by
  induction parents generalizing s tot with
  | nil =>
    simp only [List.foldlM_nil, Option.pure_def, Option.some.injEq] at h
    subst h
    exact hi
  | cons p ps ih =>
    rw [List.foldlM_cons] at h
    obtain ⟨⟨s1, t1⟩, h1, h2⟩ := Option.bind_eq_some_iff.1 h
    exact ih s1 t1 (parentStep_ord nodes e s s1 tot t1 p hi h1) h2

theorem loop_ord (nodes : Dict ℕ (List ℕ)) (e : ℕ → ℕ → ℚ) (fuel : ℕ) (parents : List ℕ) (s s' : TierSt)
    (hi : OrdInv nodes e s) (h : tierLoop nodes (some fun a b => e b a) fuel parents s = some s') : OrdInv nodes e s' := by
  induction fuel generalizing parents s with
  | zero =>
    simp only [tierLoop, Option.some.injEq] at h
    subst h
    exact hi
  | succ fuel ih =>
    rw [tierLoop] at h
    obtain ⟨r, h1, h2⟩ := Option.bind_eq_some_iff.1 h
    have hr := round_ord nodes e parents s [] r hi h1
    split at h2
    · obtain rfl := Option.some.inj h2
      exact hr
    · exact ih _ _ hr h2

theorem tierInit_ord (nodes : Dict ℕ (List ℕ)) (e : ℕ → ℕ → ℚ) (root : ℕ) : OrdInv nodes e (tierInit nodes root) := by
  have hwf : (tierInit nodes root).tier.WF := by
    unfold tierInit Dict.WF
    simp only [List.map_map]
    have : (fun x : ℕ × List (ℕ × ℕ) => x.1) ∘ (fun x : ℕ => (x, ([] : List (ℕ × ℕ)))) = id := rfl
    rw [this, List.map_id]
    exact List.nodup_range
  have hemp : ∀ k, ((tierInit nodes root).tier.get? k).getD [] = [] := by
    intro k
    cases hk : (tierInit nodes root).tier.get? k with
    | none => rfl
    | some t =>
      have := Dict.get?_mem _ _ _ hk
      simp only [tierInit, List.mem_map, List.mem_range] at this
      obtain ⟨x, -, hx⟩ := this
      rw [← (Prod.mk.inj hx).2]
      rfl
  refine ⟨hwf, ?_, ?_⟩
  · intro k p hp
    rw [hemp] at hp
    cases hp
  · intro k k' _ p hp
    rw [hemp] at hp
    cases hp

theorem tierDict_order (cmap : List (ℕ × ℕ)) (e : ℕ → ℕ → ℚ) (tier : Dict ℕ (List (ℕ × ℕ)))
    (h : getTierDict (initNodes cmap) (some fun a b => e b a) = some tier) : InOrder e tier := by
  unfold getTierDict at h
  obtain ⟨root, h1, h2⟩ := Option.bind_eq_some_iff.1 h
  obtain ⟨s, h3, h4⟩ := Option.bind_eq_some_iff.1 h2
  obtain rfl := Option.some.inj h4
  have hi := loop_ord _ e _ _ _ _ (tierInit_ord (initNodes cmap) e root) h3
  intro kv hkv kv' hkv' hk p hp p' hp' hpp
  have g1 := Dict.get?_of_mem _ hi.wf kv.1 kv.2 (List.mem_filter.1 hkv).1
  have g2 := Dict.get?_of_mem _ hi.wf kv'.1 kv'.2 (List.mem_filter.1 hkv').1
  exact hi.ord kv.1 kv'.1 hk p (by rw [g1]; exact hp) p' (by rw [g2]; exact hp') hpp

/-! ### The dictionary from the backend -/

theorem foldlM_ext {α β : Type} (f g : β → α → Option β) (l : List α) (b : β) (h : ∀ b, ∀ a ∈ l, f b a = g b a) : l.foldlM f b = l.foldlM g b := by
  induction l generalizing b with
  | nil => rfl
  | cons a l ih =>
    rw [List.foldlM_cons, List.foldlM_cons, h b a (by simp)]
    refine congrArg _ (funext fun b' => ih b' fun b a ha => h b a (by simp [ha]))

theorem parentStepP_eq (nodes : Dict ℕ (List ℕ)) (d : Dict (ℕ × ℕ) ℚ)
    (hd : ∀ p l, nodes.get? p = some l → ∀ c ∈ l, d.has (c, p) = true) (acc : TierSt × List ℕ) (p : ℕ) :
    parentStepP nodes (some d) acc p = parentStep nodes (some fun a b => d.getD (a, b) 0) acc p := by
  unfold parentStepP parentStep
  cases hl : nodes.get? p with
  | none => rfl
  | some l =>
    have : (l.all fun c => d.has (c, p)) = true := List.all_eq_true.2 (hd p l hl)
    simp only [Option.bind_eq_bind, Option.bind_some, sortChildrenP, sortChildren]
    rw [if_pos this]
    rfl

theorem parentStepP_none (nodes : Dict ℕ (List ℕ)) (acc : TierSt × List ℕ) (p : ℕ) :
    parentStepP nodes none acc p = parentStep nodes none acc p := rfl

theorem tierLoopP_eq (nodes : Dict ℕ (List ℕ)) (table : Option (Dict (ℕ × ℕ) ℚ)) (err : Option (ℕ → ℕ → ℚ))
    (h : ∀ acc p, parentStepP nodes table acc p = parentStep nodes err acc p) (fuel : ℕ) (parents : List ℕ) (s : TierSt) :
    tierLoopP nodes table fuel parents s = tierLoop nodes err fuel parents s := by
  induction fuel generalizing parents s with
  | zero => rfl
  | succ fuel ih =>
    rw [tierLoopP, tierLoop, foldlM_ext _ _ parents (s, []) fun b a _ => h b a]
    simp only [ih]

theorem has_tabled (k : ℕ) (gates : List PropGate) (hc : Complete k gates) (a b : ℕ)
    (h : ∃ g ∈ gates, g.qubits = [a, b] ∨ g.qubits = [b, a]) : (tabled k gates a b).isSome = true := by
  obtain ⟨g, hg, hq⟩ := h
  have key : ∀ x y, g.qubits = [x, y] → listed k gates x y ≠ [] := by
    intro x y hxy hnil
    have hk := hc g hg (by rw [hxy]; rfl)
    have : g.values[k] ∈ listed k gates x y :=
      List.mem_filterMap.2 ⟨g, List.mem_filter.2 ⟨hg, by simpa using hxy⟩, List.getElem?_eq_getElem hk⟩
    rw [hnil] at this
    cases this
  unfold tabled
  rcases hq with hq | hq
  · cases hl : (listed k gates a b).getLast? with
    | some v => rfl
    | none => exact absurd (by simpa using hl) (key a b hq)
  · cases hl : (listed k gates b a).head? with
    | some v => cases (listed k gates a b).getLast? <;> rfl
    | none => exact absurd (by simpa using hl) (key b a hq)

/-- **C133**.  For every coupling map without repeated pairs in which qubit 0 occurs, and every list of gate properties that has an error for
every coupled pair in at least one direction: with sorting on, `get_tier_dict` returns a parallel schedule along couplings, and every
control makes its CNOTs in the order of the tabled errors of the reversed CNOT (from the target to the control).  With sorting off it
returns what it would return without properties. -/
theorem C133_order (cmap : List (ℕ × ℕ)) (hn : cmap.Nodup) (h0 : 0 ∈ qubits cmap) (gates : List PropGate) (hc : Complete 0 gates)
    (hcal : Calibrated cmap gates) :
    (∃ root tier, tierDictOf cmap gates true = some tier ∧ Schedule cmap root tier ∧
      InOrder (fun control target => (tabled 0 gates target control).getD 0) tier) ∧
    ∃ root tier, tierDictOf cmap gates false = some tier ∧ tierDictOf cmap [] false = some tier ∧ Schedule cmap root tier := by
  obtain ⟨g, hkeys, hadj⟩ := initNodes_spec cmap hn
  obtain ⟨d, hd, hget⟩ := C133_table 0 gates hc
  have e1 : tierDictOf cmap gates true = getTierDict (initNodes cmap) (some fun a b => d.getD (a, b) 0) := by
    unfold tierDictOf getTierDict
    simp only [hd, if_true, Option.map_some, Option.bind_eq_bind, Option.bind_some]
    refine congrArg _ (funext fun root => ?_)
    rw [tierLoopP_eq _ _ _ (parentStepP_eq _ d ?_)]
    intro p l hl c hcl
    unfold Dict.has
    rw [hget]
    exact has_tabled 0 gates hc c p (hcal c p ((hadj p l hl c).1 hcl).symm)
  have e2 : ∀ gs, tierDictOf cmap gs false = getTierDict (initNodes cmap) none := by
    intro gs
    unfold tierDictOf getTierDict
    simp only [Bool.false_eq_true, if_false, Option.bind_eq_bind, Option.bind_some]
    refine congrArg _ (funext fun root => ?_)
    rw [tierLoopP_eq _ _ _ (parentStepP_none _)]
  refine ⟨?_, ?_⟩
  · obtain ⟨root, tier, h1, h2, h3, h4, -⟩ := C63_schedule cmap hn h0 (some fun a b => d.getD (a, b) 0)
    refine ⟨root, tier, by rw [e1, h1], h4, ?_⟩
    have hfun : (fun control target => (tabled 0 gates target control).getD 0) = fun control target => d.getD (target, control) 0 := by
      funext x y
      unfold Dict.getD
      rw [hget]
    rw [hfun]
    exact tierDict_order cmap _ tier h1
  · obtain ⟨root, tier, h1, h2, h3, h4, -⟩ := C63_schedule cmap hn h0 none
    exact ⟨root, tier, by rw [e2, h1], by rw [e2, h1], h4⟩

/-- **C133**, errors.  If the qubit with the most neighbours has a neighbour whose pair is listed in neither direction, sorting raises. -/
theorem C133_raises (cmap : List (ℕ × ℕ)) (hn : cmap.Nodup) (gates : List PropGate) (root c : ℕ)
    (hroot : bestNode (initNodes cmap) = some root) (hcp : Coupled cmap root c)
    (hno : ∀ g ∈ gates, g.qubits ≠ [c, root] ∧ g.qubits ≠ [root, c]) : tierDictOf cmap gates true = none := by
  obtain ⟨g, hkeys, hadj⟩ := initNodes_spec cmap hn
  unfold tierDictOf
  simp only [hroot, if_true, Option.bind_eq_bind, Option.bind_some]
  cases ht : cxTable 0 gates with
  | none => rfl
  | some d =>
    simp only [Option.map_some, Option.bind_some]
    have hk : root ∈ (initNodes cmap).keys := (hkeys root).2 (mem_qubits.2 ⟨c, hcp⟩)
    obtain ⟨l, hl⟩ := Option.isSome_iff_exists.1 ((Dict.mem_keys_iff _ _).1 hk)
    have hcl : c ∈ l := (hadj root l hl c).2 hcp
    have hnot : d.has (c, root) = false := by
      have key : ∀ (gs : List PropGate) (d0 d : Dict (ℕ × ℕ) ℚ), (∀ g ∈ gs, g.qubits ≠ [c, root] ∧ g.qubits ≠ [root, c]) →
          gs.foldlM (cxStep 0) d0 = some d → d0.get? (c, root) = none → d.get? (c, root) = none := by
        intro gs
        induction gs with
        | nil =>
          intro d0 d _ h h'
          simp only [List.foldlM_nil, Option.pure_def, Option.some.injEq] at h
          subst h
          exact h'
        | cons x gs ih =>
          intro d0 d hx h h'
          rw [List.foldlM_cons] at h
          obtain ⟨d1, h1, h2⟩ := Option.bind_eq_some_iff.1 h
          refine ih d1 d (fun y hy => hx y (by simp [hy])) h2 ?_
          obtain ⟨n1, n2⟩ := hx x (by simp)
          unfold cxStep at h1
          split at h1
          · next a b e =>
            have m1 : ¬ ((a, b) = (c, root)) := by
              intro hh
              obtain ⟨rfl, rfl⟩ := Prod.mk.inj hh
              exact n1 e
            have m2 : ¬ ((b, a) = (c, root)) := by
              intro hh
              obtain ⟨rfl, rfl⟩ := Prod.mk.inj hh
              exact n2 e
            obtain ⟨v, hv, h3⟩ := Option.bind_eq_some_iff.1 h1
            simp only at h3
            split at h3
            · obtain rfl := Option.some.inj h3
              rw [Dict.get?_set, if_neg m1]
              exact h'
            · obtain rfl := Option.some.inj h3
              rw [Dict.get?_set, if_neg m2, Dict.get?_set, if_neg m1]
              exact h'
          · obtain rfl := Option.some.inj h1
            exact h'
      have := key gates [] d hno ht rfl
      unfold Dict.has
      rw [this]
      rfl
    have hstep : parentStepP (initNodes cmap) (some d) (tierInit (initNodes cmap) root, []) root = none := by
      unfold parentStepP
      have : ¬ ((l.all fun c => d.has (c, root)) = true) := by
        intro h
        have := List.all_eq_true.1 h c hcl
        rw [hnot] at this
        cases this
      simp only [hl, Option.bind_eq_bind, Option.bind_some, sortChildrenP]
      rw [if_neg this]
      rfl
    rw [tierLoopP]
    simp only [List.foldlM_cons, hstep, Option.bind_eq_bind, Option.bind_none]

/-- Finding: the errors of the wrong direction decide.  Here the CNOT from qubit 0 to qubit 1 is the best of qubit 0 and the one to qubit 2 the
worst, but 0 → 2 is made first, because 2 → 0 is better than 1 → 0. -/
theorem C133_finding_direction :
    tierDictOf [(0, 1), (0, 2), (1, 0), (2, 0)]
      [⟨[0, 1], [1 / 100, 300]⟩, ⟨[1, 0], [4 / 100, 300]⟩, ⟨[0, 2], [9 / 100, 300]⟩, ⟨[2, 0], [2 / 100, 300]⟩] true =
      some [(0, [(0, 2)]), (1, [(0, 1)])] := by decide +kernel

/-- Finding: any two-qubit gate counts as a CNOT.  With a second two-qubit gate listed after the CNOTs, one direction gets the error of that gate
and the reversed direction keeps the error of the CNOT. -/
theorem C133_finding_gates :
    ∃ d, cxTable 0 [⟨[0, 1], [1 / 100, 300]⟩, ⟨[0, 1], [5 / 100, 900]⟩] = some d ∧ d.get? (0, 1) = some (5 / 100) ∧ d.get? (1, 0) = some (1 / 100) := by
  exact ⟨_, rfl, by decide +kernel, by decide +kernel⟩

/-! ### Non-vacuity -/

/-- Properties of the device `exMap`, with single-qubit gates in between; the pair (3, 4) is listed in one direction only. -/
def exProps : List PropGate :=
  [⟨[0], [1 / 1000]⟩, ⟨[0, 1], [2 / 100, 300]⟩, ⟨[1, 0], [3 / 100, 300]⟩, ⟨[1, 2], [1 / 100, 300]⟩, ⟨[3, 1], [1 / 200, 300]⟩, ⟨[3, 4], [5 / 100, 300]⟩]

/-- The hypotheses of `C133_order` hold of it, and the order depends on the errors. -/
theorem C133_experiment : exMap.Nodup ∧ 0 ∈ qubits exMap ∧ Complete 0 exProps ∧ Calibrated exMap exProps ∧
    tierDictOf exMap exProps true = some [(0, [(1, 3)]), (1, [(1, 2), (3, 4)]), (2, [(1, 0)])] ∧
    tierDictOf exMap exProps false = some [(0, [(1, 0)]), (1, [(1, 2)]), (2, [(1, 3)]), (3, [(3, 4)])] := by
  refine ⟨by decide, by decide, ?_, ?_, by decide +kernel, by decide +kernel⟩
  · intro g hg
    simp only [exProps, List.mem_cons, List.not_mem_nil, or_false] at hg
    rcases hg with rfl | rfl | rfl | rfl | rfl | rfl <;> simp
  · have h : ∀ a b, (a, b) ∈ exMap → ∃ g ∈ exProps, g.qubits = [a, b] ∨ g.qubits = [b, a] := by
      intro a b hab
      simp only [exMap, List.mem_cons, List.not_mem_nil, or_false, Prod.mk.injEq] at hab
      rcases hab with ⟨rfl, rfl⟩ | ⟨rfl, rfl⟩ | ⟨rfl, rfl⟩ | ⟨rfl, rfl⟩ | ⟨rfl, rfl⟩ <;> simp [exProps]
    rintro a b (hab | hab)
    · exact h a b hab
    · obtain ⟨g, hg, hq⟩ := h b a hab
      exact ⟨g, hg, hq.symm⟩

end Verif.Ent
