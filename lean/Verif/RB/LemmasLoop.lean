import Verif.RB.LemmasEmb
set_option linter.unusedSimpArgs false
set_option linter.unusedVariables false
/-
Invariants of the loops of randomized_benchmarking_seq.
-/
namespace Verif.RB
open Verif.Quantum
variable {E : Type} {G : Group E} {Mem : ℕ → E → Prop} {N : ℕ}

/-- The pattern: disjoint lists of distinct qubits of the register, of sizes for which the group has elements. -/
structure Pats (Mem : ℕ → E → Prop) (N : ℕ) (pats : List (List ℕ)) : Prop where
  disj : pats.Pairwise fun p q => ∀ x ∈ p, x ∉ q
  tgt : ∀ p ∈ pats, Tgt N p
  pos : ∀ p ∈ pats, ∃ e, Mem p.length e

theorem Pats.disj' {pats : List (List ℕ)} (h : Pats Mem N pats) {i j : ℕ} {p q : List ℕ} (hi : pats[i]? = some p) (hj : pats[j]? = some q)
    (hij : i ≠ j) : ∀ x ∈ p, x ∉ q := by
  obtain ⟨hi', ei⟩ := List.getElem?_eq_some_iff.1 hi
  obtain ⟨hj', ej⟩ := List.getElem?_eq_some_iff.1 hj
  have := List.pairwise_iff_getElem.1 h.disj
  rcases lt_or_gt_of_ne hij with h1 | h1
  · have := this i j hi' hj' h1; rw [ei, ej] at this; exact this
  · have := this j i hj' hi' h1; rw [ei, ej] at this
    intro x hx hx'; exact this x hx' hx

/-- The circuit so far, the running elements, and the elements applied so far on every subset. -/
structure Track (G : Group E) (Mem : ℕ → E → Prop) (N : ℕ) (pats : List (List ℕ)) (circ : List Ins) (elts : List E) (L : ℕ → List E) : Prop where
  len : elts.length = pats.length
  ok : ∀ j ∈ circ, Ok N j
  within : ∀ k qs, Ins.gate k qs ∈ circ → ∃ p ∈ pats, ∀ q ∈ qs, q ∈ p
  mem : ∀ i pat, pats[i]? = some pat → ∀ g ∈ L i, Mem pat.length g
  parts : ∀ i pat, pats[i]? = some pat → ∃ e0 e blocks, G.iden pat.length = some e0 ∧ elts[i]? = some e ∧
    prodFrom G e0 (L i) = some e ∧ (L i).mapM (embed G pat) = some blocks ∧ part pat circ = blocks.flatten

theorem embed_spec (hL : Lawful G Mem) {pat : List ℕ} (ht : Tgt N pat) {e : E} (he : Mem pat.length e) :
    ∃ c d, G.toCircuit e = some c ∧ embed G pat e = some d ∧ replaceQ c pat = some d ∧ (∀ i ∈ c, Ok pat.length i) ∧ (∀ j ∈ d, Ok N j) ∧
      (∀ j ∈ d, ∃ k qs, j = .gate k qs ∧ ∀ q ∈ qs, q ∈ pat) := by
  obtain ⟨c, h1, h2⟩ := hL.toCircuit _ e he
  obtain ⟨d, h3, h4, h5, h6, -⟩ := replaceQ_spec ht (fun i hi => (h2 i hi).1)
  refine ⟨c, d, h1, by unfold embed; rw [h1]; exact h3, h3, fun i hi => (h2 i hi).1, h4, fun j hj => ?_⟩
  obtain ⟨k, qs, rfl⟩ := h6 (fun i hi => (h2 i hi).2) j hj
  exact ⟨k, qs, rfl, h5 _ hj⟩

theorem part_self {pat : List ℕ} {d : List Ins} (h : ∀ j ∈ d, ∃ k qs, j = .gate k qs ∧ ∀ q ∈ qs, q ∈ pat) : part pat d = d := by
  rw [part_eq, List.filter_eq_self]
  intro j hj
  obtain ⟨k, qs, rfl, hq⟩ := h j hj
  simpa [onPat] using hq

theorem part_other {pat pat' : List ℕ} {d : List Ins} (hd : ∀ j ∈ d, Ok N j) (h : ∀ j ∈ d, ∃ k qs, j = .gate k qs ∧ ∀ q ∈ qs, q ∈ pat)
    (hdis : ∀ x ∈ pat', x ∉ pat) : part pat' d = [] := by
  rw [part_eq, List.filter_eq_nil_iff]
  intro j hj
  obtain ⟨k, qs, rfl, hq⟩ := h j hj
  obtain ⟨x, hx⟩ := List.exists_mem_of_ne_nil _ (ok_ne_nil (hd _ hj))
  simp only [onPat, List.all_eq_true, decide_eq_true_eq]
  intro hall
  exact hdis x (hall x hx) (hq x hx)

theorem part_barrier (pat qs : List ℕ) : part pat [.barrier qs] = [] := rfl

theorem mapM_append_some {α β : Type} {f : α → Option β} {l : List α} {bs : List β} {a : α} {b : β} (h : l.mapM f = some bs)
    (h' : f a = some b) : (l ++ [a]).mapM f = some (bs ++ [b]) := by
  rw [List.mapM_append, h, List.mapM_cons, h']; rfl

theorem prodFrom_mem (hL : Lawful G Mem) {n : ℕ} {e0 e : E} (h0 : Mem n e0) {gs : List E} (hg : ∀ g ∈ gs, Mem n g)
    (h : prodFrom G e0 gs = some e) : Mem n e := by
  induction gs generalizing e0 with
  | nil => cases h; exact h0
  | cons g gs ih =>
    obtain ⟨e1, h1, h2, -⟩ := hL.compose n e0 g h0 (hg g (by simp))
    unfold prodFrom at h
    rw [List.foldlM_cons, h1] at h
    exact ih h2 (fun g hg' => hg g (by simp [hg'])) h

theorem iden_mem (hL : Lawful G Mem) {n : ℕ} (hn : ∃ e, Mem n e) {e : E} (h : G.iden n = some e) :
    Mem n e ∧ ∃ c, G.toCircuit e = some c ∧ Same n c [] := by
  obtain ⟨e', h1, h2, h3⟩ := hL.iden n hn
  rw [h] at h1; cases h1
  exact ⟨h2, h3⟩

/-- Appending one element on subset `i`. -/
theorem Track.push (hL : Lawful G Mem) {pats : List (List ℕ)} (hp : Pats Mem N pats) {circ : List Ins} {elts : List E} {L : ℕ → List E}
    (h : Track G Mem N pats circ elts L) {i : ℕ} {pat : List ℕ} (hi : pats[i]? = some pat) {new : E} (hn : Mem pat.length new) :
    ∃ cur e c, elts[i]? = some cur ∧ G.compose cur new = some e ∧ embed G pat new = some c ∧
      Track G Mem N pats (circ ++ c ++ [.barrier pat]) (elts.set i e) (Function.update L i (L i ++ [new])) := by
  have hpm := List.mem_of_getElem? hi
  have ht := hp.tgt pat hpm
  obtain ⟨e0, cur, blocks, a1, a2, a3, a4, a5⟩ := h.parts i pat hi
  have hcur : Mem pat.length cur := prodFrom_mem hL (iden_mem hL (hp.pos pat hpm) a1).1 (h.mem i pat hi) a3
  obtain ⟨e, b1, b2, -⟩ := hL.compose _ cur new hcur hn
  obtain ⟨c0, c, c1, c2, -, -, c3, c4⟩ := embed_spec hL ht hn
  refine ⟨cur, e, c, a2, b1, c2, ?_, ?_, ?_, ?_, ?_⟩
  · rw [List.length_set]; exact h.len
  · intro j hj
    rcases List.mem_append.1 hj with hj | hj
    · rcases List.mem_append.1 hj with hj | hj
      · exact h.ok j hj
      · exact c3 j hj
    · rw [List.mem_singleton.1 hj]; exact ht.lt
  · intro k qs hj
    rcases List.mem_append.1 hj with hj | hj
    · rcases List.mem_append.1 hj with hj | hj
      · exact h.within k qs hj
      · obtain ⟨k', qs', e1, e2⟩ := c4 _ hj
        cases e1; exact ⟨pat, hpm, e2⟩
    · cases List.mem_singleton.1 hj
  · intro j p hj g hg
    by_cases hji : j = i
    · subst hji
      rw [hi] at hj; cases hj
      rw [Function.update_self] at hg
      rcases List.mem_append.1 hg with hg | hg
      · exact h.mem j pat hi g hg
      · rw [List.mem_singleton.1 hg]; exact hn
    · rw [Function.update_of_ne hji] at hg; exact h.mem j p hj g hg
  · intro j p hj
    by_cases hji : j = i
    · subst hji
      rw [hi] at hj; cases hj
      refine ⟨e0, e, blocks ++ [c], a1, ?_, ?_, ?_, ?_⟩
      · rw [List.getElem?_set_self]; exact (List.getElem?_eq_some_iff.1 a2).1
      · rw [Function.update_self]; unfold prodFrom at a3 ⊢
        rw [List.foldlM_append, a3]; simp [b1]
      · rw [Function.update_self]; exact mapM_append_some a4 c2
      · rw [part_append, part_append, a5, part_self c4, part_barrier]; simp
    · obtain ⟨f0, f, bl, d1, d2, d3, d4, d5⟩ := h.parts j p hj
      refine ⟨f0, f, bl, d1, ?_, ?_, ?_, ?_⟩
      · rw [List.getElem?_set_ne (Ne.symm hji)]; exact d2
      · rw [Function.update_of_ne hji]; exact d3
      · rw [Function.update_of_ne hji]; exact d4
      · rw [part_append, part_append, d5, part_other c3 c4 (hp.disj' hj hi hji), part_barrier]; simp

/-- A barrier changes nothing. -/
theorem Track.barrier {pats : List (List ℕ)} {circ : List Ins} {elts : List E} {L : ℕ → List E}
    (h : Track G Mem N pats circ elts L) {qs : List ℕ} (hq : ∀ q ∈ qs, q < N) : Track G Mem N pats (circ ++ [.barrier qs]) elts L := by
  refine ⟨h.len, ?_, ?_, h.mem, ?_⟩
  · intro j hj
    rcases List.mem_append.1 hj with hj | hj
    · exact h.ok j hj
    · rw [List.mem_singleton.1 hj]; exact hq
  · intro k qs hj
    rcases List.mem_append.1 hj with hj | hj
    · exact h.within k qs hj
    · cases List.mem_singleton.1 hj
  · intro i pat hi
    obtain ⟨e0, e, bl, d1, d2, d3, d4, d5⟩ := h.parts i pat hi
    exact ⟨e0, e, bl, d1, d2, d3, d4, by rw [part_append, d5, part_barrier, List.append_nil]⟩

/-! ### The closing inverses -/

/-- Product of the embedded blocks and the embedded product. -/
theorem blocks_same (hL : Lawful G Mem) {pat : List ℕ} (ht : Tgt N pat) {e0 : E} (h0 : Mem pat.length e0) {gs : List E} (hg : ∀ g ∈ gs, Mem pat.length g)
    {e : E} (h : prodFrom G e0 gs = some e) {blocks : List (List Ins)} (hb : gs.mapM (embed G pat) = some blocks) {d0 d : List Ins}
    (hd0 : embed G pat e0 = some d0) (hd : embed G pat e = some d) : Same N d (d0 ++ blocks.flatten) := by
  induction gs generalizing e0 d0 blocks with
  | nil =>
    cases h; cases hb
    rw [hd0] at hd; cases hd
    simpa using Same.refl N _
  | cons g gs ih =>
    have hgm := hg g (by simp)
    obtain ⟨e1, h1, h2, h3⟩ := hL.compose _ e0 g h0 hgm
    unfold prodFrom at h
    rw [List.foldlM_cons, h1] at h
    obtain ⟨cg, dg, g1, g2, g3, g4, g5, -⟩ := embed_spec (N := N) hL ht hgm
    obtain ⟨c0, d0', z1, z2, z3, z4, z5, -⟩ := embed_spec (N := N) hL ht h0
    rw [hd0] at z2; cases z2
    obtain ⟨c1, d1, y1, y2, y3, y4, y5, -⟩ := embed_spec (N := N) hL ht h2
    rw [List.mapM_cons, g2] at hb
    obtain ⟨bl, hbl, rfl⟩ : ∃ bl, gs.mapM (embed G pat) = some bl ∧ blocks = dg :: bl := by
      cases hm : gs.mapM (embed G pat) with
      | none => rw [hm] at hb; cases hb
      | some bl => rw [hm] at hb; cases hb; exact ⟨bl, rfl, rfl⟩
    have ih' := ih h2 (fun g hg' => hg g (by simp [hg'])) h hbl y2
    have hs : Same N d1 (d0 ++ dg) := by
      refine Same.embed ht y4 ?_ (h3 c0 cg c1 z1 g1 y1) y3 (replaceQ_append z3 g3)
      intro i hi
      rcases List.mem_append.1 hi with hi | hi
      · exact z4 i hi
      · exact g4 i hi
    have hbok : ∀ i ∈ bl.flatten, Ok N i := by
      have : ∀ (gs : List E) (bl : List (List Ins)), (∀ g ∈ gs, Mem pat.length g) → gs.mapM (embed G pat) = some bl → ∀ i ∈ bl.flatten, Ok N i := by
        intro gs
        induction gs with
        | nil => intro bl _ h; cases h; simp
        | cons g gs ih =>
          intro bl hm h
          obtain ⟨-, dg, -, g2, -, -, g5, -⟩ := embed_spec (N := N) hL ht (hm g (by simp))
          rw [List.mapM_cons, g2] at h
          cases hm' : gs.mapM (embed G pat) with
          | none => rw [hm'] at h; cases h
          | some bl' =>
            rw [hm'] at h; cases h
            intro i hi
            rw [List.flatten_cons] at hi
            rcases List.mem_append.1 hi with hi | hi
            · exact g5 i hi
            · exact ih bl' (fun g hg => hm g (by simp [hg])) hm' i hi
      exact this gs bl (fun g hg' => hg g (by simp [hg'])) hbl
    refine ih'.trans ?_
    rw [List.flatten_cons, ← List.append_assoc]
    exact Same.append hbok hs (Same.refl N _)

theorem inverse_spec (hL : Lawful G Mem) {pat : List ℕ} (ht : Tgt N pat) {e : E} (he : Mem pat.length e) {d : List Ins} (hd : embed G pat e = some d) :
    ∃ inv inv', G.inverse e = some inv ∧ replaceQ inv pat = some inv' ∧ (∀ j ∈ inv', Ok N j) ∧
      (∀ j ∈ inv', ∃ k qs, j = .gate k qs ∧ ∀ q ∈ qs, q ∈ pat) ∧ Same N (d ++ inv') [] := by
  obtain ⟨c, h1, h2⟩ := hL.toCircuit _ e he
  have h2' : ∀ i ∈ c, Ok pat.length i := fun i hi => (h2 i hi).1
  obtain ⟨inv, i1, i2, i3, i4⟩ := invCirc_spec h2'
  obtain ⟨inv', r1, r2, r3, r4, -⟩ := replaceQ_spec ht i2
  have hd' : replaceQ c pat = some d := by unfold embed at hd; rw [h1] at hd; exact hd
  refine ⟨inv, inv', by unfold Group.inverse; rw [h1]; exact i1, r1, r2, ?_, ?_⟩
  · intro j hj
    have hgate : ∀ i ∈ inv, ∃ k qs, i = .gate k qs := by
      intro i hi
      obtain ⟨j, hj, e⟩ := i3 i hi
      obtain ⟨k, qs, rfl⟩ := (h2 j hj).2
      cases e; exact ⟨_, _, rfl⟩
    obtain ⟨k, qs, rfl⟩ := r4 hgate j hj
    exact ⟨k, qs, rfl, r3 _ hj⟩
  · refine Same.embed ht (c := c ++ inv) (d := []) ?_ (by simp) (Same.of_eq i4) (replaceQ_append hd' r1) rfl
    intro i hi
    rcases List.mem_append.1 hi with hi | hi
    · exact h2' i hi
    · exact i2 i hi

theorem part_identity (hL : Lawful G Mem) {pat : List ℕ} (ht : Tgt N pat) (hpos : ∃ e, Mem pat.length e) {e0 : E} (h0 : G.iden pat.length = some e0) {gs : List E}
    (hg : ∀ g ∈ gs, Mem pat.length g)
    {e : E} (h : prodFrom G e0 gs = some e) {blocks : List (List Ins)} (hb : gs.mapM (embed G pat) = some blocks) :
    ∃ inv inv', G.inverse e = some inv ∧ replaceQ inv pat = some inv' ∧ (∀ j ∈ inv', Ok N j) ∧
      (∀ j ∈ inv', ∃ k qs, j = .gate k qs ∧ ∀ q ∈ qs, q ∈ pat) ∧ Same N (blocks.flatten ++ inv') [] := by
  obtain ⟨m0, c0, t0, s0⟩ := iden_mem hL hpos h0
  have he := prodFrom_mem hL m0 hg h
  obtain ⟨c, d, a1, a2, a3, a4, a5, -⟩ := embed_spec (N := N) hL ht he
  obtain ⟨c0', d0, b1, b2, b3, b4, b5, -⟩ := embed_spec (N := N) hL ht m0
  rw [t0] at b1; cases b1
  have hs := blocks_same hL ht m0 hg h hb b2 a2
  have hs0 : Same N d0 [] := Same.embed ht b4 (by simp) s0 b3 rfl
  obtain ⟨inv, inv', i1, i2, i3, i4, i5⟩ := inverse_spec hL ht he a2
  refine ⟨inv, inv', i1, i2, i3, i4, ?_⟩
  obtain ⟨z, hz, e1⟩ := hs
  obtain ⟨w, hw, e2⟩ := hs0
  obtain ⟨v, hv, e3⟩ := i5
  -- `blocks` acts on `ψ` as `d` acts, up to a phase
  have hb' : Same N blocks.flatten d := by
    have hbok : ∀ i ∈ blocks.flatten, Ok N i := by
      intro i hi
      obtain ⟨b, hb1, hb2⟩ := List.mem_flatten.1 hi
      obtain ⟨g, hg1, hg2⟩ : ∃ g ∈ gs, embed G pat g = some b := by
        have : ∀ (gs : List E) (bl : List (List Ins)), gs.mapM (embed G pat) = some bl → ∀ b ∈ bl, ∃ g ∈ gs, embed G pat g = some b := by
          intro gs
          induction gs with
          | nil => intro bl h; cases h; simp
          | cons g gs ih =>
            intro bl h b hb
            rw [List.mapM_cons] at h
            cases hx : embed G pat g with
            | none => rw [hx] at h; cases h
            | some x =>
              cases hm' : gs.mapM (embed G pat) with
              | none => rw [hx, hm'] at h; cases h
              | some bl' =>
                rw [hx, hm'] at h; cases h
                rcases List.mem_cons.1 hb with rfl | hb
                · exact ⟨g, by simp, hx⟩
                · obtain ⟨g', h1, h2⟩ := ih bl' hm' b hb; exact ⟨g', by simp [h1], h2⟩
        exact this gs blocks hb b hb1
      obtain ⟨-, d', -, q2, -, -, q5, -⟩ := embed_spec (N := N) hL ht (hg g hg1)
      rw [hg2] at q2; cases q2; exact q5 i hb2
    have := Same.append hbok (Same.symm ⟨w, hw, e2⟩) (Same.refl N blocks.flatten)
    rw [List.nil_append] at this
    exact this.trans (Same.symm ⟨z, hz, e1⟩)
  exact (Same.append i3 hb' (Same.refl N inv')).trans ⟨v, hv, e3⟩

end Verif.RB
