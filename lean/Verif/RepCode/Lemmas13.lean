import Verif.RepCode.Lemmas12
set_option linter.unusedVariables false
/-
The decoder corrects.
-/
namespace Verif.RepCode
open Verif

theorem beq_tup : (instBEqOfDecidableEq : BEq Tup) = instBEqProd := by
  have : (instBEqOfDecidableEq : BEq Tup).beq = (instBEqProd : BEq Tup).beq := by
    funext a b
    rw [Bool.eq_iff_iff]
    exact (@beq_iff_eq Tup instBEqOfDecidableEq _ a b).trans (@beq_iff_eq Tup instBEqProd _ a b).symm
  exact congrArg BEq.mk this

theorem decode_core (d T : Nat) (hd : 2 ≤ d) (S : Graph) (hS : GraphOk d T S) (b : Bool) (m δ : Cl → Bool) (hrel : Rel d T b m δ)
    (E : List (Tup × Tup)) (hadj : ∀ e ∈ E, S.simple.Adj e.1 e.2)
    (hnode : ∀ x ∈ ends E, ∃ n ∈ nodes d T, x = nt d n)
    (hval : ∀ n ∈ nodes d T, nodeVal d T δ n = decide (Odd ((ends E).count (nt d n))))
    (mwm : WGraph (List Nat) → List (List Nat × List Nat)) (hmwm : ∀ G, FiniteGraph G → IsMaxWeight G (mwm G)) :
    ∃ W : List (Tup × Tup), (∀ x ∈ ends (E ++ W), ∃ n ∈ nodes d T, x = nt d n) ∧ (∀ x : Tup, x.1 ≠ 0 → Even ((ends (E ++ W)).count x)) ∧
      cost S.simple.dist E = E.length ∧ cost S.simple.dist W ≤ E.length ∧
      matching mwm S (processed d T m) = some [bitChar (b.xor (par ((ends (E ++ W)).count (0, 0, 0)))), ' ',
        bitChar (b.xor (par ((ends (E ++ W)).count (0, 1, 0))))] := by
  set D := synList d T m with hD
  have hD1 : ∀ u ∈ D, u.1 = 1 := by
    intro u hu
    obtain ⟨t, j, -, -, rfl⟩ := (mem_synList d T hd m u).1 hu
    rfl
  have hDn : ∀ u ∈ D, ∃ n ∈ nodes d T, u = nt d n := by
    intro u hu
    obtain ⟨t, j, h, -, rfl⟩ := (mem_synList d T hd m u).1 hu
    exact ⟨_, h, rfl⟩
  have hDnd : D.Nodup := nodup_synList d T m
  -- syndrome nodes are where the errors end
  have hodd : ∀ x : Tup, x.1 ≠ 0 → (Odd ((ends E).count x) ↔ x ∈ D) := by
    intro x hx
    by_cases hn : ∃ n ∈ nodes d T, x = nt d n
    · obtain ⟨n, hn, rfl⟩ := hn
      cases n with
      | L => exact absurd rfl hx
      | R => exact absurd rfl hx
      | s t j =>
        have hj := ((mem_nodes d T t j).1 hn).2
        have h1 := hval _ hn
        rw [hD, mem_synList d T hd]
        have h2 : nodeVal d T m (.s t j) = nodeVal d T δ (.s t j) := chg_rel hrel t j hj
        constructor
        · intro h
          exact ⟨t, j, hn, by rw [h2, h1]; simpa using h, rfl⟩
        · rintro ⟨t', j', h3, h4, h5⟩
          rw [← nt_inj hn h3 h5, h2, h1] at h4
          simpa using h4
    · have h0 : (ends E).count x = 0 := List.count_eq_zero.2 fun h => hn (hnode x h)
      rw [h0]
      exact ⟨fun h => by simp at h, fun h => absurd (hDn x h) hn⟩
  obtain ⟨EG, G, hEG, hG, hpres, habs⟩ := graphs d T hd S hS m
  rw [← hD] at hEG hG hpres habs
  set N := D.map tup ++ D.map (copyOf S) with hN
  have hNnd : N.Nodup := by
    rw [hN, List.nodup_append]
    refine ⟨hDnd.map fun a b h => tup_inj h, hDnd.map fun a b h => copy_inj h, ?_⟩
    intro a ha c hc hac
    obtain ⟨u, -, rfl⟩ := List.mem_map.1 ha
    obtain ⟨v, -, rfl⟩ := List.mem_map.1 hc
    exact tup_ne_copy S u v hac
  have hsome : ∀ a c, (G a c).isSome → Pres S D a c := by
    intro a c h
    by_contra hn
    rw [habs a c hn] at h
    simp at h
  have hfin : FiniteGraph G := ⟨N, fun a c h => pres_mem S D (hsome a c h)⟩
  obtain ⟨⟨hM1, hM2⟩, hM3, hM4⟩ := hmwm G hfin
  set M := mwm G with hM
  have hMp : ∀ p ∈ M, Pres S D p.1 p.2 := fun p hp => hsome _ _ (hM1 p hp)
  have hmw : ∀ M' : List (List Nat × List Nat), (∀ p ∈ M', Pres S D p.1 p.2) → mweight G M' = (M'.map fun p => wt S p.1 p.2).sum := by
    intro M' h
    unfold mweight
    congr 1
    apply List.map_congr_left
    intro p hp
    rw [hpres _ _ (h p hp)]
    rfl
  -- a good matching
  have hreach : ∀ u v, (∃ n ∈ nodes d T, u = nt d n) → (∃ n ∈ nodes d T, v = nt d n) → S.simple.Reachable u v := by
    rintro u v ⟨n, hn, rfl⟩ ⟨n', hn', rfl⟩
    exact hS.reach n hn n' hn'
  obtain ⟨P, hP1, hP2, hP3, hP4⟩ := shorten S.simple.dist (fun x => ∃ n ∈ nodes d T, x = nt d n) (fun x => x.1 ≠ 0)
    (fun a b => SimpleGraph.dist_comm) (fun a b c ha hb hc => (hreach a b ha hb).dist_triangle_left c) E hnode
  rw [beq_tup] at hP2 hP3
  have hcostE : cost S.simple.dist E = E.length := by
    unfold cost
    rw [List.map_congr_left (g := fun _ => 1)]
    · simp
    · intro e he
      exact SimpleGraph.dist_eq_one_iff_adj.2 (hadj e he)
  have hsynP : (synEnds P).Perm D := by
    rw [List.perm_ext_iff_of_nodup _ hDnd]
    · intro x
      unfold synEnds
      rw [List.mem_filter]
      constructor
      · rintro ⟨hx1, hx2⟩
        have hx2 : x.1 ≠ 0 := by simpa using hx2
        rw [← hodd x hx2, ← hP3 x]
        have := hP2 x hx2
        have h0 := List.count_pos_iff.2 hx1
        have : (ends P).count x = 1 := by omega
        rw [this]
        decide
      · intro hx
        have hx2 : x.1 ≠ 0 := by rw [hD1 x hx]; decide
        refine ⟨?_, by simpa using hx2⟩
        have := (hP3 x).2 ((hodd x hx2).2 hx)
        exact List.count_pos_iff.1 this.pos
    · rw [List.nodup_iff_count_le_one]
      intro x
      by_cases hx : x.1 ≠ 0
      · unfold synEnds
        rw [List.count_filter (by simpa using hx)]
        exact hP2 x hx
      · rw [List.count_eq_zero.2]
        · omega
        · intro h
          exact hx (by simpa using (List.mem_filter.1 h).2)
  set M' := P.flatMap (lift S) with hM'
  have hendsM' : (ends M').Perm N := by
    refine (ends_lift S P).trans ?_
    exact (hsynP.map _).append (hsynP.map _)
  have hM'p : ∀ p ∈ M', Pres S D p.1 p.2 := by
    intro p hp
    obtain ⟨q, hq, hp⟩ := List.mem_flatMap.1 hp
    have h1 : q.1.1 ≠ 0 → q.1 ∈ D := fun h => by
      refine hsynP.mem_iff.1 (List.mem_filter.2 ⟨mem_ends.2 ⟨q, hq, Or.inl rfl⟩, by simpa using h⟩)
    have h2 : q.2.1 ≠ 0 → q.2 ∈ D := fun h => by
      refine hsynP.mem_iff.1 (List.mem_filter.2 ⟨mem_ends.2 ⟨q, hq, Or.inr rfl⟩, by simpa using h⟩)
    have h3 : q.1.1 ≠ 0 → q.1 ≠ q.2 := by
      intro h he
      have := hP2 q.1 h
      obtain ⟨P1, P2, rfl⟩ := List.append_of_mem hq
      rw [ends_append, ends_cons, ← he] at this
      simp [List.count_append, List.count_cons] at this
      omega
    unfold lift at hp
    split at hp
    · next a1 =>
      split at hp
      · next a2 =>
        simp only [List.mem_cons, List.not_mem_nil, or_false] at hp
        rcases hp with rfl | rfl
        · exact Or.inl ⟨_, h1 a1, _, h2 a2, h3 a1, rfl, rfl⟩
        · exact Or.inr (Or.inr ⟨_, h1 a1, _, h2 a2, h3 a1, rfl, rfl⟩)
      · simp only [List.mem_cons, List.not_mem_nil, or_false] at hp
        subst hp
        exact Or.inr (Or.inl ⟨_, h1 a1, Or.inl ⟨rfl, rfl⟩⟩)
    · split at hp
      · next a2 =>
        simp only [List.mem_cons, List.not_mem_nil, or_false] at hp
        subst hp
        exact Or.inr (Or.inl ⟨_, h2 a2, Or.inl ⟨rfl, rfl⟩⟩)
      · simp at hp
  have hlends : ∀ Q : List (List Nat × List Nat), (ends Q).length = 2 * Q.length := by
    intro Q
    induction Q with
    | nil => rfl
    | cons q Q ih => rw [ends_cons, List.length_cons, List.length_cons, ih, List.length_cons]; ring
  have hM'is : IsMatching G M' :=
    ⟨fun p hp => by rw [hpres _ _ (hM'p p hp)]; rfl, hendsM'.nodup_iff.2 hNnd⟩
  have hsub : ends M ⊆ N := by
    intro x hx
    obtain ⟨p, hp, h⟩ := mem_ends.1 hx
    obtain ⟨a1, a2⟩ := pres_mem S D (hMp p hp)
    rcases h with rfl | rfl
    · exact a1
    · exact a2
  have hsubp : (ends M).Subperm N := List.subperm_of_subset hM2 hsub
  have hl1 := hsubp.length_le
  have hl2 := hM3 M' hM'is
  have hl3 := hendsM'.length_eq
  rw [hlends] at hl1 hl3
  have hperm : (ends M).Perm N := hsubp.perm_of_length_le (by rw [hlends]; omega)
  have hweight := hM4 M' hM'is (by omega)
  rw [hmw M hMp, hmw M' hM'p] at hweight
  have hlogical : ∀ x : Tup, (∃ n ∈ nodes d T, x = nt d n) → x.1 = 0 → x = (0, 0, 0) ∨ x = (0, 1, 0) := by
    rintro _ ⟨n, hn, rfl⟩ h
    cases n with
    | L => exact Or.inl rfl
    | R => exact Or.inr rfl
    | s t j => simp [nt] at h
  have hwl : _ ≤ (M'.map fun p => wt S p.1 p.2).sum := weight_lift S P fun x hx h => hlogical x (hP1 x hx) h
  have hcr := cost_real S M
  have hcostW : cost S.simple.dist (real M) ≤ E.length := by
    rw [← hcostE]
    omega
  -- every end of the real pairs is a node
  have hrealn : ∀ x ∈ ends (real M), ∃ n ∈ nodes d T, x = nt d n := by
    intro x hx
    obtain ⟨q, hq, hx⟩ := mem_ends.1 hx
    obtain ⟨p, hp, rfl⟩ := List.mem_map.1 hq
    obtain ⟨a1, a2⟩ := pres_mem S D (hMp p (List.mem_filter.1 hp).1)
    have key : ∀ a ∈ N, ∃ n ∈ nodes d T, proj a = nt d n := by
      intro a ha
      rcases List.mem_append.1 ha with ha | ha
      · obtain ⟨u, hu, rfl⟩ := List.mem_map.1 ha
        exact hDn u hu
      · obtain ⟨u, hu, rfl⟩ := List.mem_map.1 ha
        rw [proj_copy]
        rcases near_or S u with h | h
        · exact ⟨.L, by simp [nodes], h⟩
        · exact ⟨.R, by simp [nodes], h⟩
    rcases hx with rfl | rfl
    · exact key _ a1
    · exact key _ a2
  have hallnode : ∀ x ∈ ends (E ++ real M), ∃ n ∈ nodes d T, x = nt d n := by
    intro x hx
    rw [ends_append, List.mem_append] at hx
    exact hx.elim (hnode x) (hrealn x)
  have hsyncount : ∀ x : Tup, x.1 ≠ 0 → Even ((ends (E ++ real M)).count x) := by
    intro x hx
    rw [ends_append, List.count_append, count_real S D M hMp x hx, hperm.count_eq]
    by_cases h : x ∈ D
    · have h1 := (hodd x hx).2 h
      have h2 : N.count (tup x) = 1 := List.count_eq_one_of_mem hNnd (List.mem_append.2 (Or.inl (List.mem_map.2 ⟨x, h, rfl⟩)))
      rw [h2]
      exact h1.add_one
    · have h1 := mt (hodd x hx).1 h
      have h2 : N.count (tup x) = 0 := by
        refine List.count_eq_zero.2 fun h' => ?_
        rcases List.mem_append.1 h' with h' | h'
        · obtain ⟨u, hu, h'⟩ := List.mem_map.1 h'
          exact h (tup_inj h' ▸ hu)
        · obtain ⟨u, hu, h'⟩ := List.mem_map.1 h'
          exact tup_ne_copy S x u h'.symm
      rw [h2]
      exact Nat.not_odd_iff_even.1 h1
  have hL := hval .L (by simp [nodes])
  have hR := hval .R (by simp [nodes])
  have hL' : δ (Reg.code, d - 1) = par ((ends E).count (0, 0, 0)) := hL
  have hR' : δ (Reg.code, 0) = par ((ends E).count (0, 1, 0)) := hR
  have hxor : ∀ (x : Bool) (i j : Nat), (x.xor (par i)).xor (par j) = x.xor (par (i + j)) := by
    intro x i j
    induction j with
    | zero => simp [par]
    | succ j ih => rw [← xor_odd_succ, ← Nat.add_assoc, ← xor_odd_succ, Bool.not_xor, Bool.not_xor, ih]
  refine ⟨real M, hallnode, hsyncount, hcostE, hcostW, ?_⟩
  unfold matching
  rw [hEG]
  simp only [Option.bind_eq_bind, Option.bind_some]
  rw [hG]
  simp only [Option.bind_some]
  rw [← hM, separate_processed d T hd]
  simp only [List.headD_cons]
  rw [fold_correct S D hD1 M hMp, hrel.2 (d - 1) (by omega), hrel.2 0 (by omega), hL', hR', hxor, hxor, ends_append, List.count_append,
    List.count_append]
  rfl

theorem node_logical {d T : Nat} (x : Tup) (hx : ∃ n ∈ nodes d T, x = nt d n) (h : x.1 = 0) : x = (0, 0, 0) ∨ x = (0, 1, 0) := by
  obtain ⟨n, hn, rfl⟩ := hx
  cases n with
  | L => exact Or.inl rfl
  | R => exact Or.inr rfl
  | s t j => simp [nt] at h

theorem decode (d T : Nat) (hd : 2 ≤ d) (S : Graph) (hS : GraphOk d T S) (b : Bool) (m δ : Cl → Bool) (hrel : Rel d T b m δ)
    (E : List (Tup × Tup)) (hlen : 2 * E.length < d) (hadj : ∀ e ∈ E, S.simple.Adj e.1 e.2)
    (hnode : ∀ x ∈ ends E, ∃ n ∈ nodes d T, x = nt d n)
    (hval : ∀ n ∈ nodes d T, nodeVal d T δ n = decide (Odd ((ends E).count (nt d n))))
    (mwm : WGraph (List Nat) → List (List Nat × List Nat)) (hmwm : ∀ G, FiniteGraph G → IsMaxWeight G (mwm G)) :
    matching mwm S (processed d T m) = some [bitChar b, ' ', bitChar b] := by
  obtain ⟨W, hallnode, hsyncount, hcostE, hcostW, hmatch⟩ := decode_core d T hd S hS b m δ hrel E hadj hnode hval mwm hmwm
  have hreach : ∀ u v, (∃ n ∈ nodes d T, u = nt d n) → (∃ n ∈ nodes d T, v = nt d n) → S.simple.Reachable u v := by
    rintro u v ⟨n, hn, rfl⟩ ⟨n', hn', rfl⟩
    exact hS.reach n hn n' hn'
  have hcut : ((E ++ W).map fun e => (List.range d).countP fun k => side d k e.1 != side d k e.2).sum < d := by
    have : ((E ++ W).map fun e => cuts d e.1 e.2).sum ≤ cost S.simple.dist (E ++ W) := by
      unfold cost
      apply List.sum_le_sum
      intro e he
      refine hS.cut _ _ (hreach _ _ (hallnode _ (mem_ends.2 ⟨e, he, Or.inl rfl⟩)) (hallnode _ (mem_ends.2 ⟨e, he, Or.inr rfl⟩)))
    rw [cost_append, hcostE] at this
    refine lt_of_le_of_lt this ?_
    omega
  have hev : ∀ l s, l = ((0, 0, 0) : Tup) ∧ s = true ∨ l = ((0, 1, 0) : Tup) ∧ s = false → Even ((ends (E ++ W)).count l) := by
    intro l s hl
    rw [← beq_tup]
    rw [← beq_tup] at hsyncount
    refine logical_even d (side d) (E ++ W) (fun x => decide (x.1 ≠ 0)) l ?_ s ?_ ?_ hcut ?_
    · rcases hl with ⟨rfl, rfl⟩ | ⟨rfl, rfl⟩ <;> rfl
    · intro k hk
      rcases hl with ⟨rfl, rfl⟩ | ⟨rfl, rfl⟩ <;> rfl
    · intro x hx hsx hxl k hk
      have hx0 : x.1 = 0 := by simpa using hsx
      rcases node_logical x (hallnode x hx) hx0 with rfl | rfl <;> rcases hl with ⟨rfl, rfl⟩ | ⟨rfl, rfl⟩
      · exact absurd rfl hxl
      · rfl
      · rfl
      · exact absurd rfl hxl
    · intro x hx
      exact hsyncount x (by simpa using hx)
  have hz : ∀ l s, l = ((0, 0, 0) : Tup) ∧ s = true ∨ l = ((0, 1, 0) : Tup) ∧ s = false → par ((ends (E ++ W)).count l) = false := by
    intro l s hl
    unfold par
    simpa using hev l s hl
  rw [hmatch, hz _ true (Or.inl ⟨rfl, rfl⟩), hz _ false (Or.inr ⟨rfl, rfl⟩)]
  simp

/-- Whatever the faults, both boundaries are corrected to the same value. -/
theorem decode_some (d T : Nat) (hd : 2 ≤ d) (S : Graph) (hS : GraphOk d T S) (b : Bool) (m δ : Cl → Bool) (hrel : Rel d T b m δ)
    (E : List (Tup × Tup)) (hadj : ∀ e ∈ E, S.simple.Adj e.1 e.2)
    (hnode : ∀ x ∈ ends E, ∃ n ∈ nodes d T, x = nt d n)
    (hval : ∀ n ∈ nodes d T, nodeVal d T δ n = decide (Odd ((ends E).count (nt d n))))
    (mwm : WGraph (List Nat) → List (List Nat × List Nat)) (hmwm : ∀ G, FiniteGraph G → IsMaxWeight G (mwm G)) :
    ∃ c : Bool, matching mwm S (processed d T m) = some [bitChar c, ' ', bitChar c] := by
  obtain ⟨W, hallnode, hsyncount, -, -, hmatch⟩ := decode_core d T hd S hS b m δ hrel E hadj hnode hval mwm hmwm
  have hlen : ∀ Q : List (Tup × Tup), Even (ends Q).length := by
    intro Q
    induction Q with
    | nil => simp
    | cons q Q ih => rw [ends_cons, List.length_cons, List.length_cons]; rw [Nat.even_iff] at ih ⊢; omega
  have key : ∀ l : List Tup, (∀ x ∈ l, x.1 = 0 → x = (0, 0, 0) ∨ x = (0, 1, 0)) → (∀ x : Tup, x.1 ≠ 0 → Even (l.count x)) → Even l.length →
      Even (l.count (0, 0, 0) + l.count (0, 1, 0)) := by
    intro l h1 h2 h3
    have e1 : l.length = (l.filter fun x => x.1 ≠ 0).length + (l.count (0, 0, 0) + l.count (0, 1, 0)) := by
      clear h2 h3
      induction l with
      | nil => rfl
      | cons a l ih =>
        have ih := ih fun x hx => h1 x (by simp [hx])
        by_cases ha : a.1 = 0
        · rcases h1 a (by simp) ha with rfl | rfl <;> simp [List.count_cons] <;> simp at ih <;> omega
        · have n1 : a ≠ (0, 0, 0) := fun h => ha (by rw [h])
          have n2 : a ≠ (0, 1, 0) := fun h => ha (by rw [h])
          rw [List.count_cons_of_ne n1, List.count_cons_of_ne n2, List.filter_cons_of_pos (by simpa using ha), List.length_cons, List.length_cons]
          omega
    have e2 : Even (l.filter fun x => x.1 ≠ 0).length := by
      have : ∀ k : Nat, ∀ r : List Tup, r.length ≤ k → (∀ x, Even (r.count x)) → Even r.length := by
        intro k
        induction k with
        | zero => intro r hr _; rw [Nat.le_zero.1 hr]; exact Even.zero
        | succ k ih =>
          intro r hr hx
          cases r with
          | nil => exact Even.zero
          | cons a r =>
            have hc := List.length_eq_length_filter_add (l := a :: r) (fun x => decide (x = a))
            have h4 : ((a :: r).filter fun x => decide (x = a)).length = (a :: r).count a := by
              rw [List.count_eq_length_filter]
              congr 1
              refine List.filter_congr fun x _ => ?_
              rw [Bool.eq_iff_iff, decide_eq_true_eq, beq_iff_eq]
            have h5 := ih ((a :: r).filter fun x => !decide (x = a)) (by
              have : ((a :: r).filter fun x => !decide (x = a)).length ≤ r.length := by
                rw [List.filter_cons_of_neg (by simp)]
                exact List.length_filter_le _ _
              rw [List.length_cons] at hr
              omega) (by
              intro x
              by_cases hxa : x = a
              · rw [List.count_eq_zero.2]
                · exact Even.zero
                · intro h
                  have := (List.mem_filter.1 h).2
                  simp [hxa] at this
              · rw [List.count_filter (by simpa using hxa)]
                exact hx x)
            rw [hc, h4]
            exact (hx a).add h5
      refine this _ _ le_rfl fun x => ?_
      by_cases hx : x.1 = 0
      · rw [List.count_eq_zero.2]
        · exact Even.zero
        · intro h
          have := (List.mem_filter.1 h).2
          simp [hx] at this
      · rw [List.count_filter (by simpa using hx)]
        exact h2 x hx
    rw [Nat.even_iff] at h3 e2 ⊢
    omega
  have h := key _ (fun x hx h => node_logical x (hallnode x hx) h) hsyncount (hlen _)
  refine ⟨b.xor (par ((ends (E ++ W)).count (0, 0, 0))), hmatch.trans ?_⟩
  have : par ((ends (E ++ W)).count (0, 1, 0)) = par ((ends (E ++ W)).count (0, 0, 0)) := by
    unfold par
    rw [decide_eq_decide, Nat.odd_iff, Nat.odd_iff]
    rw [Nat.even_iff] at h
    omega
  rw [this]

end Verif.RepCode
