import Verif.Ent.TierLemmas
set_option linter.unusedSimpArgs false
set_option linter.unusedVariables false
/-
C63: the tier dictionary is a parallel schedule along a spanning tree.
-/
namespace Verif.Ent
open Verif

/-! ### Specification -/

/-- The coupling map connects any two of its qubits. -/
def Connected (cmap : List (ℕ × ℕ)) : Prop := ∀ u ∈ qubits cmap, ∀ v ∈ qubits cmap, Relation.ReflTransGen (Coupled cmap) u v

/-- All the targets, tier after tier. -/
def targets (tier : Dict ℕ (List (ℕ × ℕ))) : List ℕ := tier.flatMap fun kv => kv.2.map (·.2)

/-- A parallel schedule of CNOT gates that starts from the qubit `root`. -/
structure Schedule (cmap : List (ℕ × ℕ)) (root : ℕ) (tier : Dict ℕ (List (ℕ × ℕ))) : Prop where
  /-- the tiers are listed in the order of their numbers -/
  ordered : (tier.map (·.1)).Pairwise (· < ·)
  /-- every CNOT acts along a coupling -/
  coupled : ∀ kv ∈ tier, ∀ p ∈ kv.2, Coupled cmap p.1 p.2
  /-- no qubit is a target twice, and the root never is -/
  once : (root :: targets tier).Nodup
  /-- a control is the root or a target of an earlier tier -/
  earlier : ∀ kv ∈ tier, ∀ p ∈ kv.2, p.1 = root ∨ ∃ kv' ∈ tier, kv'.1 < kv.1 ∧ p.1 ∈ kv'.2.map (·.2)
  /-- the CNOTs of one tier can run at the same time -/
  parallel : ∀ kv ∈ tier, (kv.2.flatMap fun p => [p.1, p.2]).Nodup
  /-- there is no empty tier -/
  nonempty : ∀ kv ∈ tier, kv.2 ≠ []

/-- The schedule reaches all the qubits of the coupling map. -/
def Spanning (cmap : List (ℕ × ℕ)) (root : ℕ) (tier : Dict ℕ (List (ℕ × ℕ))) : Prop :=
  ∀ v, v ∈ root :: targets tier ↔ v ∈ qubits cmap

/-- Two qubits joined by a path of `k` couplings. -/
def Steps (cmap : List (ℕ × ℕ)) : ℕ → ℕ → ℕ → Prop
  | 0, a, b => a = b
  | k + 1, a, b => ∃ c, Coupled cmap a c ∧ Steps cmap k c b

/-! ### Lemmas -/

theorem walk_of_steps (cmap : List (ℕ × ℕ)) (hn : cmap.Nodup) (k a b : ℕ) (h : Steps cmap k a b) : WalkN (initNodes cmap) k a b := by
  obtain ⟨g, hkeys, hadj⟩ := initNodes_spec cmap hn
  induction k generalizing a with
  | zero => exact h
  | succ k ih =>
    obtain ⟨c, hc, hw⟩ := h
    refine ⟨c, ?_, ih c hw⟩
    obtain ⟨l, hl⟩ := Option.isSome_iff_exists.1 ((Dict.mem_keys_iff _ _).1 ((hkeys a).2 (mem_qubits.2 ⟨c, hc⟩)))
    rw [hl]
    exact (hadj a l hl c).2 hc


theorem walk_snoc {nodes : Dict ℕ (List ℕ)} (k a b : ℕ) :
    WalkN nodes (k + 1) a b ↔ ∃ c, WalkN nodes k a c ∧ b ∈ (nodes.get? c).getD [] := by
  induction k generalizing a with
  | zero =>
    constructor
    · rintro ⟨c, hc, rfl⟩; exact ⟨a, rfl, hc⟩
    · rintro ⟨c, rfl, hc⟩; exact ⟨b, hc, rfl⟩
  | succ k ih =>
    constructor
    · rintro ⟨c, hc, hw⟩
      obtain ⟨d, h1, h2⟩ := (ih c).1 hw
      exact ⟨d, ⟨c, hc, h1⟩, h2⟩
    · rintro ⟨d, ⟨c, hc, h1⟩, h2⟩
      exact ⟨c, hc, (ih c).2 ⟨d, h1, h2⟩⟩

theorem walk_keys {nodes : Dict ℕ (List ℕ)} (g : Graph nodes) (k a b : ℕ) (ha : a ∈ nodes.keys) (h : WalkN nodes k a b) : b ∈ nodes.keys := by
  induction k generalizing a with
  | zero => obtain rfl : a = b := h; exact ha
  | succ k ih =>
    obtain ⟨c, hc, hw⟩ := h
    refine ih c ?_ hw
    cases hg : nodes.get? a with
    | none => rw [hg] at hc; cases hc
    | some l => rw [hg] at hc; exact g.closed a l hg c hc

/-- A qubit that can be reached can be reached in fewer steps than there are qubits. -/
theorem walk_short {nodes : Dict ℕ (List ℕ)} (g : Graph nodes) (r v k : ℕ) (hr : r ∈ nodes.keys) (h : WalkN nodes k r v) :
    ∃ k' < nodes.length, WalkN nodes k' r v := by
  classical
  have hex : ∃ k, WalkN nodes k r v := ⟨k, h⟩
  let D : ℕ → ℕ → Prop := fun i u => WalkN nodes i r u ∧ ∀ i' < i, ¬ WalkN nodes i' r u
  have hD : D (Nat.find hex) v := ⟨Nat.find_spec hex, fun i' hi' => Nat.find_min hex hi'⟩
  have down : ∀ i u, D (i + 1) u → ∃ w, D i w := by
    intro i u hu
    obtain ⟨c, hc, hw⟩ := (walk_snoc i r u).1 hu.1
    exact ⟨c, hc, fun i' hi' hh => hu.2 (i' + 1) (by omega) ((walk_snoc i' r u).2 ⟨c, hh, hw⟩)⟩
  have all : ∀ d i u, D (i + d) u → ∃ w, D i w := by
    intro d
    induction d with
    | zero => intro i u h; exact ⟨u, h⟩
    | succ d ih =>
      intro i u h
      obtain ⟨w, hw⟩ := ih (i + 1) u (by rw [show i + 1 + d = i + (d + 1) by omega]; exact h)
      exact down i w hw
  have hall : ∀ i, ∃ w, i ≤ Nat.find hex → D i w := by
    intro i
    by_cases hi : i ≤ Nat.find hex
    · obtain ⟨w, hw⟩ := all (Nat.find hex - i) i v (by rw [show i + (Nat.find hex - i) = Nat.find hex by omega]; exact hD)
      exact ⟨w, fun _ => hw⟩
    · exact ⟨0, fun h => absurd h hi⟩
  choose u hu using hall
  have hlen := length_le_of_nodup (l := (List.range (Nat.find hex + 1)).map u) (m := nodes.keys) (by
    apply List.Nodup.map_on
    · intro a ha b hb hab
      simp only [List.mem_range] at ha hb
      have h1 := hu a (by omega)
      have h2 := hu b (by omega)
      rw [hab] at h1
      rcases Nat.lt_trichotomy a b with h | h | h
      · exact absurd h1.1 (h2.2 a h)
      · exact h
      · exact absurd h2.1 (h1.2 b h)
    · exact List.nodup_range) (by
    intro x hx
    obtain ⟨i, hi, rfl⟩ := List.mem_map.1 hx
    simp only [List.mem_range] at hi
    exact walk_keys g i r _ hr (hu i (by omega)).1)
  simp only [List.length_map, List.length_range, Dict.keys] at hlen
  exact ⟨Nat.find hex, by omega, Nat.find_spec hex⟩

theorem perm_tiers (E : List (ℕ × ℕ × ℕ)) (N : ℕ) (hE : ∀ e ∈ E, e.1 < N) (hnd : E.Nodup) :
    ((List.range N).flatMap fun j => E.filter fun e => e.1 = j).Perm E := by
  rw [List.perm_ext_iff_of_nodup _ hnd]
  · intro e
    rw [List.mem_flatMap]
    constructor
    · rintro ⟨j, -, h⟩; exact (List.mem_filter.1 h).1
    · intro h
      exact ⟨e.1, List.mem_range.2 (hE e h), List.mem_filter.2 ⟨h, by simp⟩⟩
  · rw [List.nodup_flatMap]
    refine ⟨fun j _ => hnd.filter _, ?_⟩
    refine List.Pairwise.imp ?_ List.nodup_range
    intro a b hab e h1 h2
    have e1 : e.1 = a := by simpa using (List.mem_filter.1 h1).2
    have e2 : e.1 = b := by simpa using (List.mem_filter.1 h2).2
    exact hab (e1.symm.trans e2)

/-- The dictionary returned for a state of the loop. -/
theorem tier_eq {nodes : Dict ℕ (List ℕ)} {root : ℕ} {s : TierSt} {E : List (ℕ × ℕ × ℕ)} (inv : Inv nodes root s E) :
    s.tier = (List.range nodes.length).map fun j => (j, (E.filter fun e => e.1 = j).map (·.2)) := by
  have hk := inv.tierk
  have hv := inv.tierv
  have hwf : Dict.WF s.tier := by
    unfold Dict.WF
    have : s.tier.map (·.1) = List.range nodes.length := hk
    rw [this]; exact List.nodup_range
  apply List.ext_getElem?
  intro i
  have hlen : s.tier.length = nodes.length := by
    have := congrArg List.length hk
    simpa [Dict.keys] using this
  by_cases hi : i < nodes.length
  · have hi' : i < s.tier.length := by omega
    rw [List.getElem?_eq_getElem hi', List.getElem?_map, List.getElem?_range hi]
    simp only [Option.map_some, Option.some.injEq]
    have h1 : (s.tier[i]).1 = i := by
      have := congrArg (fun l => l[i]?) hk
      simp only [Dict.keys, List.getElem?_map, List.getElem?_eq_getElem hi', List.getElem?_range hi, Option.map_some, Option.some.injEq] at this
      exact this
    have h2 := Dict.get?_of_mem s.tier hwf (s.tier[i]).1 (s.tier[i]).2 (List.getElem_mem hi')
    rw [h1, hv i hi] at h2
    exact Prod.ext h1 (Option.some.inj h2).symm
  · rw [List.getElem?_eq_none (by omega), List.getElem?_eq_none (by simp; omega)]

theorem schedule_of_inv (cmap : List (ℕ × ℕ)) (hn : cmap.Nodup) (root : ℕ) (s : TierSt) (E : List (ℕ × ℕ × ℕ))
    (inv : Inv (initNodes cmap) root s E) :
    Schedule cmap root (s.tier.filter fun kv => kv.2 ≠ []) ∧
      ∀ v, v ∈ root :: targets (s.tier.filter fun kv => kv.2 ≠ []) ↔ v ∈ s.trash := by
  obtain ⟨g, hkeys, hadj⟩ := initNodes_spec cmap hn
  have htier := tier_eq inv
  have hEnd : (E.map (·.2.2)).Nodup := by
    have := inv.nd
    rw [inv.trash] at this
    exact (List.nodup_cons.1 this).2
  have hrootE : root ∉ E.map (·.2.2) := by
    have := inv.nd
    rw [inv.trash] at this
    exact (List.nodup_cons.1 this).1
  have hE : E.Nodup := List.Nodup.of_map _ hEnd
  have cinj : ∀ e ∈ E, ∀ e' ∈ E, e.2.2 = e'.2.2 → e = e' := fun e he e' he' h => List.inj_on_of_nodup_map hEnd he he' h
  have hlt : ∀ e ∈ E, e.1 < (initNodes cmap).length := by
    intro e he
    obtain ⟨E1, E2, h⟩ := List.append_of_mem he
    have h1 := (inv.hist E1 e E2 h).2.1
    have h2 := length_le_of_nodup inv.nd inv.keys
    rw [inv.trash, h] at h2
    simp only [List.length_cons, List.length_map, List.length_append, Dict.keys] at h2
    omega
  have hmem : ∀ kv, kv ∈ (s.tier.filter fun kv => kv.2 ≠ []) ↔ kv.2 = (E.filter fun e => e.1 = kv.1).map (·.2) ∧ kv.2 ≠ [] := by
    intro kv
    rw [List.mem_filter, htier, List.mem_map]
    simp only [List.mem_range, ne_eq, decide_not, Bool.not_eq_true', decide_eq_false_iff_not]
    constructor
    · rintro ⟨⟨j, hj, rfl⟩, h⟩; exact ⟨rfl, h⟩
    · rintro ⟨h1, h2⟩
      refine ⟨⟨kv.1, ?_, Prod.ext rfl h1.symm⟩, h2⟩
      rw [h1] at h2
      obtain ⟨p, hp⟩ := List.exists_mem_of_ne_nil _ h2
      obtain ⟨e, he, -⟩ := List.mem_map.1 hp
      have := List.mem_filter.1 he
      have e1 : e.1 = kv.1 := by simpa using this.2
      rw [← e1]; exact hlt e this.1
  have hmem2 : ∀ kv ∈ (s.tier.filter fun kv => kv.2 ≠ []), ∀ p ∈ kv.2, (kv.1, p) ∈ E := by
    intro kv hkv p hp
    rw [((hmem kv).1 hkv).1] at hp
    obtain ⟨e, he, rfl⟩ := List.mem_map.1 hp
    have := List.mem_filter.1 he
    have e1 : e.1 = kv.1 := by simpa using this.2
    rw [← e1]; exact this.1
  have hmem3 : ∀ e ∈ E, ∃ kv ∈ (s.tier.filter fun kv => kv.2 ≠ []), kv.1 = e.1 ∧ e.2 ∈ kv.2 := by
    intro e he
    have hm : e.2 ∈ (E.filter fun x => x.1 = e.1).map (·.2) := List.mem_map.2 ⟨e, List.mem_filter.2 ⟨he, by simp⟩, rfl⟩
    exact ⟨(e.1, (E.filter fun x => x.1 = e.1).map (·.2)), (hmem _).2 ⟨rfl, fun h => by
      simp only at h; rw [h] at hm; cases hm⟩, rfl, hm⟩
  have hfilter : ∀ l : List (ℕ × List (ℕ × ℕ)), targets (l.filter fun kv => kv.2 ≠ []) = targets l := by
    intro l
    induction l with
    | nil => rfl
    | cons kv l ih =>
      unfold targets at ih ⊢
      by_cases h : kv.2 = []
      · rw [List.filter_cons_of_neg (by simpa using h), List.flatMap_cons, h, ih]; rfl
      · rw [List.filter_cons_of_pos (by simpa using h), List.flatMap_cons, List.flatMap_cons, ih]
  have htar : (targets (s.tier.filter fun kv => kv.2 ≠ [])).Perm (E.map (·.2.2)) := by
    rw [hfilter, htier]
    have := (perm_tiers E (initNodes cmap).length hlt hE).map fun e => e.2.2
    rw [List.map_flatMap] at this
    unfold targets
    rw [List.flatMap_map]
    simpa [Function.comp_def] using this
  have hhist : ∀ e ∈ E, (e.2.1 = root ∨ ∃ e' ∈ E, e'.2.2 = e.2.1 ∧ e'.1 < e.1) ∧ e.2.1 ≠ e.2.2 ∧
      ∃ l, (initNodes cmap).get? e.2.1 = some l ∧ e.2.2 ∈ l := by
    intro e he
    obtain ⟨E1, E2, h⟩ := List.append_of_mem he
    obtain ⟨h1, -, h3⟩ := inv.hist E1 e E2 h
    refine ⟨?_, ?_, h3⟩
    · rcases h1 with h1 | ⟨e', he', h1, h2⟩
      · exact Or.inl h1
      · exact Or.inr ⟨e', by rw [h]; simp [he'], h1, h2⟩
    · intro heq
      rcases h1 with h1 | ⟨e', he', h1, h2⟩
      · exact hrootE (List.mem_map.2 ⟨e, he, heq ▸ h1⟩)
      · have : e' = e := cinj e' (by rw [h]; simp [he']) e he (h1.trans heq)
        rw [this] at h2; omega
  refine ⟨⟨?_, ?_, ?_, ?_, ?_, ?_⟩, ?_⟩
  · have : ((s.tier.filter fun kv => kv.2 ≠ []).map (·.1)).Sublist (s.tier.map (·.1)) := List.filter_sublist.map _
    refine List.Pairwise.sublist this ?_
    have hk : s.tier.map (·.1) = List.range (initNodes cmap).length := inv.tierk
    rw [hk]; exact List.pairwise_lt_range
  · intro kv hkv p hp
    obtain ⟨l, h1, h2⟩ := (hhist _ (hmem2 kv hkv p hp)).2.2
    exact (hadj _ _ h1 _).1 h2
  · rw [(htar.cons root).nodup_iff, List.nodup_cons]
    exact ⟨hrootE, hEnd⟩
  · intro kv hkv p hp
    rcases (hhist _ (hmem2 kv hkv p hp)).1 with h | ⟨e', he', h1, h2⟩
    · exact Or.inl h
    · right
      obtain ⟨kv', hkv', h3, h4⟩ := hmem3 e' he'
      exact ⟨kv', hkv', by rw [h3]; exact h2, List.mem_map.2 ⟨e'.2, h4, h1⟩⟩
  · intro kv hkv
    rw [((hmem kv).1 hkv).1, List.flatMap_map, List.nodup_flatMap]
    constructor
    · intro e he
      have := (hhist e (List.mem_filter.1 he).1).2.1
      simpa using this
    · have hpw : (E.filter fun e => e.1 = kv.1).Pairwise fun e e' => e ≠ e' ∧ (e.2.1 = e'.2.1 → e.1 < e'.1) :=
        ((List.Pairwise.and hE inv.ctrl)).sublist List.filter_sublist
      refine List.Pairwise.imp_of_mem ?_ hpw
      intro e e' he he' hee
      have m1 := List.mem_filter.1 he
      have m2 := List.mem_filter.1 he'
      have t1 : e.1 = kv.1 := by simpa using m1.2
      have t2 : e'.1 = kv.1 := by simpa using m2.2
      have cross : ∀ a ∈ E, ∀ b ∈ E, a.1 = b.1 → a.2.1 ≠ b.2.2 := by
        intro a ha b hb hab h
        rcases (hhist a ha).1 with h1 | ⟨a', ha', h1, h2⟩
        · exact hrootE (List.mem_map.2 ⟨b, hb, h ▸ h1⟩)
        · have : a' = b := cinj a' ha' b hb (h1.trans h)
          rw [this] at h2; omega
      have n1 : e.2.1 ≠ e'.2.1 := fun h => by have := hee.2 h; omega
      have n2 : e.2.2 ≠ e'.2.2 := fun h => hee.1 (cinj e m1.1 e' m2.1 h)
      have n3 := cross e m1.1 e' m2.1 (t1.trans t2.symm)
      have n4 := cross e' m2.1 e m1.1 (t2.trans t1.symm)
      intro x hx hx'
      simp only [List.mem_cons, List.not_mem_nil, or_false] at hx hx'
      rcases hx with rfl | rfl <;> rcases hx' with h | h
      · exact n1 h
      · exact n3 h
      · exact n4 h.symm
      · exact n2 h
  · intro kv hkv
    exact ((hmem kv).1 hkv).2
  · intro v
    rw [inv.trash, List.mem_cons, List.mem_cons, htar.mem_iff]

/-! ### C63 -/

theorem length_nodes (cmap : List (ℕ × ℕ)) (hn : cmap.Nodup) : (initNodes cmap).length = (qubits cmap).length := by
  obtain ⟨g, hkeys, -⟩ := initNodes_spec cmap hn
  have h : (initNodes cmap).keys.Perm (qubits cmap) := (List.perm_ext_iff_of_nodup g.wf (List.nodup_dedup _)).2 hkeys
  have := h.length_eq
  simpa [Dict.keys] using this

/-- For every coupling map in which qubit 0 occurs, without an error and whatever the errors of the gates, the tier
dictionary is a parallel schedule along couplings that starts from a qubit with the most neighbours; every qubit that is
at most 51 couplings away from that qubit is reached. -/
theorem tierDict_spec (cmap : List (ℕ × ℕ)) (hn : cmap.Nodup) (h0 : 0 ∈ qubits cmap) (err : Option (ℕ → ℕ → ℚ)) :
    ∃ root tier, getTierDict (initNodes cmap) err = some tier ∧ bestNode (initNodes cmap) = some root ∧ root ∈ qubits cmap ∧
      Schedule cmap root tier ∧
      (∀ v ∈ root :: targets tier, v ∈ qubits cmap) ∧
      (∀ k ≤ 51, ∀ v, WalkN (initNodes cmap) k root v → v ∈ root :: targets tier) ∧
      ∀ f : ℕ → ℕ, (∀ a b, Coupled cmap a b → f b ≤ f a + 1) → ∀ v ∈ targets tier, f v ≤ f root + 51 := by
  obtain ⟨g, hkeys, hadj⟩ := initNodes_spec cmap hn
  obtain ⟨root, l, hb, hl, -⟩ := bestNode_spec (initNodes cmap) g.wf ((hkeys 0).2 h0)
  have hr : root ∈ (initNodes cmap).keys := (Dict.mem_keys_iff _ _).2 (by rw [hl]; rfl)
  obtain ⟨s, E, h1, h2, h3, h4, h5⟩ := tierLoop_spec g err 51 [root] (tierInit (initNodes cmap) root) [] (inv_init _ root hr)
    (by intro e he; cases he) (by intro p hp; simpa [tierInit] using hp)
  obtain ⟨k1, k2⟩ := schedule_of_inv cmap hn root s E h2
  refine ⟨root, _, ?_, hb, (hkeys root).1 hr, k1, ?_, ?_, ?_⟩
  · unfold getTierDict
    simp only [hb, h1, Option.bind_eq_bind, Option.bind_some]
  · intro v hv
    exact (hkeys v).1 (h2.keys v ((k2 v).1 hv))
  · intro k hk v hw
    rw [k2]
    rcases h4 with h | h
    · have hsub := List.subperm_of_subset h2.nd h2.keys
      have hperm := hsub.perm_of_length_le (by simp only [Dict.keys, List.length_map]; omega)
      exact hperm.mem_iff.2 (walk_keys g k root v hr hw)
    · exact h root (by simp) k hk v hw
  · intro f hf v hv
    refine h5 f (f root) ?_ (by simp [tierInit]) v ((k2 v).1 (List.mem_cons_of_mem _ hv))
    intro a l hl b hb
    exact hf a b ((hadj a l hl b).1 hb)

/-- For every coupling map in which qubit 0 occurs, without an error and whatever the errors of the gates, the tier
dictionary is a parallel schedule along couplings that starts from a qubit with the most neighbours and stays within the
coupling map; every qubit that is at most 51 couplings away from that qubit is reached. -/
theorem C63_schedule (cmap : List (ℕ × ℕ)) (hn : cmap.Nodup) (h0 : 0 ∈ qubits cmap) (err : Option (ℕ → ℕ → ℚ)) :
    ∃ root tier, getTierDict (initNodes cmap) err = some tier ∧ root ∈ qubits cmap ∧
      (∀ v, ((qubits cmap).filter fun b => Coupled cmap v b).length ≤ ((qubits cmap).filter fun b => Coupled cmap root b).length) ∧
      Schedule cmap root tier ∧
      (∀ v ∈ root :: targets tier, v ∈ qubits cmap) ∧
      (∀ k ≤ 51, ∀ v, Steps cmap k root v → v ∈ root :: targets tier) := by
  obtain ⟨root, tier, h1, h2, h3, h4, h5, h6, -⟩ := tierDict_spec cmap hn h0 err
  refine ⟨root, tier, h1, h3, ?_, h4, h5, fun k hk v hs => h6 k hk v (walk_of_steps cmap hn k root v hs)⟩
  obtain ⟨g, hkeys, hadj⟩ := initNodes_spec cmap hn
  obtain ⟨root', l, hb, hl, hmax⟩ := bestNode_spec (initNodes cmap) g.wf ((hkeys 0).2 h0)
  rw [h2] at hb
  obtain rfl : root = root' := Option.some.inj hb
  have hdeg : ∀ a l, (initNodes cmap).get? a = some l → ((qubits cmap).filter fun b => Coupled cmap a b).length = l.length := by
    intro a l hl
    apply List.Perm.length_eq
    have hq : (qubits cmap).Nodup := List.nodup_dedup _
    rw [List.perm_ext_iff_of_nodup (hq.filter _) (g.nd a l hl)]
    intro b
    rw [List.mem_filter, hadj a l hl b]
    simp only [decide_eq_true_eq, and_iff_right_iff_imp]
    intro h
    exact mem_qubits.2 ⟨a, h.symm⟩
  intro v
  rw [hdeg root l hl]
  by_cases hv : v ∈ (initNodes cmap).keys
  · obtain ⟨lv, hlv⟩ := Option.isSome_iff_exists.1 ((Dict.mem_keys_iff _ _).1 hv)
    rw [hdeg v lv hlv]
    exact hmax (v, lv) (Dict.get?_mem _ _ _ hlv)
  · have : ((qubits cmap).filter fun b => decide (Coupled cmap v b)) = [] := by
      rw [List.filter_eq_nil_iff]
      intro b _ hb
      exact hv ((hkeys v).2 (mem_qubits.2 ⟨b, by simpa using hb⟩))
    rw [this]; simp

/-- For every connected coupling map with at most 52 qubits the schedule entangles every qubit exactly once. -/
theorem C63_spanning (cmap : List (ℕ × ℕ)) (hn : cmap.Nodup) (h0 : 0 ∈ qubits cmap) (hc : Connected cmap)
    (hsize : (qubits cmap).length ≤ 52) (err : Option (ℕ → ℕ → ℚ)) :
    ∃ root tier, getTierDict (initNodes cmap) err = some tier ∧ Schedule cmap root tier ∧ Spanning cmap root tier := by
  obtain ⟨g, hkeys, hadj⟩ := initNodes_spec cmap hn
  obtain ⟨root, tier, h1, h2, h3, h4, h5, h6, -⟩ := tierDict_spec cmap hn h0 err
  refine ⟨root, tier, h1, h4, fun v => ⟨h5 v, ?_⟩⟩
  intro hv
  have hwalk : ∃ k, WalkN (initNodes cmap) k root v := by
    have hrt := hc root h3 v hv
    clear hv
    induction hrt with
    | refl => exact ⟨0, rfl⟩
    | tail _ hbc ih =>
      rename_i b c hab
      obtain ⟨k, hk⟩ := ih
      refine ⟨k + 1, (walk_snoc k root c).2 ⟨b, hk, ?_⟩⟩
      have hbk : b ∈ (initNodes cmap).keys := (hkeys b).2 (mem_qubits.2 ⟨c, hbc⟩)
      obtain ⟨l, hl⟩ := Option.isSome_iff_exists.1 ((Dict.mem_keys_iff _ _).1 hbk)
      rw [hl]
      exact (hadj b l hl c).2 hbc
  obtain ⟨k, hk⟩ := hwalk
  obtain ⟨k', hk', hw⟩ := walk_short g root v k ((hkeys root).2 h3) hk
  exact h6 k' (by rw [length_nodes cmap hn] at hk'; omega) v hw

/-- A device with five qubits: a T shape. -/
def exMap : List (ℕ × ℕ) := [(0, 1), (1, 0), (1, 2), (3, 1), (3, 4)]

example : exMap.Nodup ∧ 0 ∈ qubits exMap ∧ (qubits exMap).length ≤ 52 ∧
    getTierDict (initNodes exMap) none = some [(0, [(1, 0)]), (1, [(1, 2)]), (2, [(1, 3)]), (3, [(3, 4)])] ∧
    getTierDict (initNodes exMap) (some fun a b => if a = 3 then 0 else 1) = some [(0, [(1, 3)]), (1, [(1, 0), (3, 4)]), (2, [(1, 2)])] := by
  decide +kernel

example : Connected exMap := by
  intro u hu v hv
  have sym : ∀ a b, Relation.ReflTransGen (Coupled exMap) a b → Relation.ReflTransGen (Coupled exMap) b a := by
    intro a b h
    induction h with
    | refl => exact .refl
    | tail _ hbc ih => exact .head (Or.symm hbc) ih
  have h1 : ∀ x ∈ qubits exMap, Relation.ReflTransGen (Coupled exMap) 1 x := by
    intro x hx
    have hx' : x = 0 ∨ x = 1 ∨ x = 2 ∨ x = 3 ∨ x = 4 := by
      obtain ⟨b, h⟩ := mem_qubits.1 hx
      rcases h with h | h <;> simp [exMap] at h <;> omega
    have e3 : Relation.ReflTransGen (Coupled exMap) 1 3 := .single (by decide)
    rcases hx' with rfl | rfl | rfl | rfl | rfl
    · exact .single (by decide)
    · exact .refl
    · exact .single (by decide)
    · exact e3
    · exact e3.tail (by decide)
  exact (sym _ _ (h1 u hu)).trans (h1 v hv)

/-- A line of qubits. -/
def lineMap (n : ℕ) : List (ℕ × ℕ) := (List.range (n - 1)).map fun i => (i, i + 1)

theorem coupled_line (n a b : ℕ) (h : Coupled (lineMap n) a b) : b ≤ a + 1 := by
  unfold Coupled lineMap at h
  simp only [List.mem_map, List.mem_range, Prod.mk.injEq] at h
  rcases h with ⟨i, -, rfl, rfl⟩ | ⟨i, -, rfl, rfl⟩ <;> omega

theorem nodup_line (n : ℕ) : (lineMap n).Nodup := by
  unfold lineMap
  apply List.Nodup.map _ List.nodup_range
  intro a b h
  simp only [Prod.mk.injEq] at h
  exact h.1

/-- Finding: the loop stops after 51 rounds.  On a line of 60 qubits, which is connected, the schedule starts from qubit 1
and does not reach the last qubit. -/
theorem C63_finding_rounds (err : Option (ℕ → ℕ → ℚ)) : ∃ root tier, getTierDict (initNodes (lineMap 60)) err = some tier ∧
    Schedule (lineMap 60) root tier ∧ 59 ∈ qubits (lineMap 60) ∧ 59 ∉ root :: targets tier := by
  have h0 : 0 ∈ qubits (lineMap 60) := mem_qubits.2 ⟨1, Or.inl (by decide)⟩
  obtain ⟨root, tier, h1, h2, h3, h4, h5, h6, h7⟩ := tierDict_spec (lineMap 60) (nodup_line 60) h0 err
  have hroot : root = 1 := by
    have : bestNode (initNodes (lineMap 60)) = some 1 := by decide +kernel
    rw [this] at h2; exact (Option.some.inj h2).symm
  refine ⟨root, tier, h1, h4, mem_qubits.2 ⟨58, Or.inr (by decide)⟩, ?_⟩
  rw [List.mem_cons, not_or]
  refine ⟨by omega, fun h => ?_⟩
  have := h7 id (fun a b hab => coupled_line 60 a b hab) 59 h
  rw [hroot] at this
  simp at this

/-- Finding: the list of parents holds every walk.  If every qubit has at least two neighbours, each round at least
doubles it. -/
theorem C63_finding_exponential {nodes : Dict ℕ (List ℕ)} {root : ℕ} (g : Graph nodes) (err : Option (ℕ → ℕ → ℚ))
    (h2 : ∀ a l, nodes.get? a = some l → 2 ≤ l.length) (parents : List ℕ)
    (s : TierSt) (E : List (ℕ × ℕ × ℕ)) (inv : Inv nodes root s E) (dn : Done nodes s E) (hp : ∀ p ∈ parents, p ∈ s.trash) :
    ∃ s' kids, parents.foldlM (parentStep nodes err) (s, []) = some (s', kids) ∧ 2 * parents.length ≤ kids.length := by
  obtain ⟨s', E', kids, b1, b2, -⟩ := round_spec g err parents s [] E inv dn hp
  refine ⟨s', kids, by simpa using b1, ?_⟩
  rw [b2]
  clear b1 b2
  induction parents with
  | nil => simp
  | cons p parents ih =>
    rw [List.flatMap_cons, List.length_append, length_sortChildren, List.length_cons]
    have := ih fun x hx => hp x (by simp [hx])
    obtain ⟨l, hl⟩ := Option.isSome_iff_exists.1 ((Dict.mem_keys_iff nodes p).1 (inv.keys p (hp p (by simp))))
    have := h2 p l hl
    rw [hl]
    simp only [Option.getD_some]
    omega

/-- Finding: a coupling map without qubit 0 raises `KeyError`. -/
theorem C63_finding_no_zero : getTierDict (initNodes [(1, 2)]) none = none := by decide +kernel

/-- Finding: for a coupling map that lists a pair twice, already the first round entangles a qubit twice; the number of
reached qubits then exceeds the number of qubits and the loop is not left before round 51. -/
theorem C63_finding_duplicate :
    (tierLoop (initNodes [(0, 1), (1, 0), (0, 1)]) none 1 [0] (tierInit (initNodes [(0, 1), (1, 0), (0, 1)]) 0)).map (fun s => (s.tier, s.trash)) =
      some ([(0, [(0, 1)]), (1, [(0, 1)])], [0, 1, 1]) := by
  decide +kernel

end Verif.Ent
