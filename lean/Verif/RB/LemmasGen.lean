import Verif.RB.LemmasLoop
set_option linter.unusedSimpArgs false
set_option linter.unusedVariables false
/-
The generator loops.
-/
namespace Verif.RB
open Verif.Quantum
variable {E : Type} {G : Group E} {Mem : ℕ → E → Prop} {N : ℕ}

theorem close_go {pats : List (List ℕ)} (hp : Pats Mem N pats) {elts : List E} (inv : ℕ → List Ins)
    (hinv : ∀ i pat, pats[i]? = some pat → (∃ e c, elts[i]? = some e ∧ G.inverse e = some c ∧ replaceQ c pat = some (inv i)) ∧
      (∀ j ∈ inv i, Ok N j) ∧ ∀ j ∈ inv i, ∃ k qs, j = .gate k qs ∧ ∀ q ∈ qs, q ∈ pat)
    (ps : List (List ℕ)) (k : ℕ) (hps : ∀ j p, ps[j]? = some p → pats[k + j]? = some p) (acc : List Ins)
    (hok : ∀ j ∈ acc, Ok N j) (hw : ∀ k qs, Ins.gate k qs ∈ acc → ∃ p ∈ pats, ∀ q ∈ qs, q ∈ p) :
    ∃ body, (ps.zipIdx k).foldlM (closeStep G elts) acc = some body ∧ acc <+: body ∧ (∀ j ∈ body, Ok N j) ∧
      (∀ k qs, Ins.gate k qs ∈ body → ∃ p ∈ pats, ∀ q ∈ qs, q ∈ p) ∧
      ∀ i pat, pats[i]? = some pat → part pat body = part pat acc ++ if k ≤ i ∧ i < k + ps.length then inv i else [] := by
  induction ps generalizing k acc with
  | nil =>
    refine ⟨acc, rfl, List.prefix_refl _, hok, hw, fun i pat _ => ?_⟩
    rw [if_neg (by simp), List.append_nil]
  | cons p ps ih =>
    have hpk : pats[k]? = some p := hps 0 p rfl
    obtain ⟨⟨e, c, h1, h2, h3⟩, h4, h5⟩ := hinv k p hpk
    have hpm := List.mem_of_getElem? hpk
    obtain ⟨body, b1, b2, b3, b4, b5⟩ := ih (k + 1) (fun j q hj => by
      have := hps (j + 1) q (by simpa using hj)
      rwa [show k + (j + 1) = k + 1 + j by omega] at this) (acc ++ inv k) (by
        intro j hj
        rcases List.mem_append.1 hj with hj | hj
        · exact hok j hj
        · exact h4 j hj) (by
        intro k' qs hj
        rcases List.mem_append.1 hj with hj | hj
        · exact hw k' qs hj
        · obtain ⟨_, _, e1, e2⟩ := h5 _ hj
          cases e1; exact ⟨p, hpm, e2⟩)
    refine ⟨body, ?_, (List.prefix_append _ _).trans b2, b3, b4, ?_⟩
    · rw [List.zipIdx_cons, List.foldlM_cons]
      have : closeStep G elts acc (p, k) = some (acc ++ inv k) := by
        unfold closeStep
        simp only [h1, h2, h3, Option.bind_eq_bind, Option.bind_some]
      rw [this]; exact b1
    · intro i pat hi
      rw [b5 i pat hi, part_append]
      by_cases hik : i = k
      · subst hik
        rw [hpk] at hi; cases hi
        rw [part_self h5, if_neg (by omega), if_pos (by simp), List.append_nil]
      · rw [part_other h4 h5 (hp.disj' hi hpk hik), List.append_nil]
        congr 1
        have : (k + 1 ≤ i ∧ i < k + 1 + ps.length) ↔ (k ≤ i ∧ i < k + (p :: ps).length) := by simp; omega
        simp only [this]

/-- Closing a sequence: the result is an RB sequence. -/
theorem Track.close (hL : Lawful G Mem) {pats : List (List ℕ)} (hp : Pats Mem N pats) {circ : List Ins} {elts : List E} {L : ℕ → List E}
    (h : Track G Mem N pats circ elts L) : ∃ body, closeSeq G pats elts circ = some body ∧ IsSeq G pats N L circ body := by
  have key : ∀ i, ∃ iv : List Ins, ∀ pat, pats[i]? = some pat → ∃ e0 e blocks c, G.iden pat.length = some e0 ∧ elts[i]? = some e ∧
      prodFrom G e0 (L i) = some e ∧ (L i).mapM (embed G pat) = some blocks ∧ part pat circ = blocks.flatten ∧
      G.inverse e = some c ∧ replaceQ c pat = some iv ∧ (∀ j ∈ iv, Ok N j) ∧
      (∀ j ∈ iv, ∃ k qs, j = .gate k qs ∧ ∀ q ∈ qs, q ∈ pat) ∧ Same N (blocks.flatten ++ iv) [] := by
    intro i
    cases hi : pats[i]? with
    | none => exact ⟨[], fun pat h => by cases h⟩
    | some pat =>
      have hpm := List.mem_of_getElem? hi
      obtain ⟨e0, e, blocks, a1, a2, a3, a4, a5⟩ := h.parts i pat hi
      obtain ⟨c, iv, b1, b2, b3, b4, b5⟩ := part_identity hL (hp.tgt pat hpm) (hp.pos pat hpm) a1 (h.mem i pat hi) a3 a4
      exact ⟨iv, fun pat' h' => by cases h'; exact ⟨e0, e, blocks, c, a1, a2, a3, a4, a5, b1, b2, b3, b4, b5⟩⟩
  choose inv hinv using key
  obtain ⟨body, b1, b2, b3, b4, b5⟩ := close_go (G := G) (elts := elts) hp inv (fun i pat hi => by
    obtain ⟨e0, e, blocks, c, a1, a2, a3, a4, a5, c1, c2, c3, c4, c5⟩ := hinv i pat hi
    exact ⟨⟨e, c, a2, c1, c2⟩, c3, c4⟩) pats 0 (fun j p hj => by rw [Nat.zero_add]; exact hj) circ h.ok h.within
  have hpart : ∀ i pat, pats[i]? = some pat → part pat body = part pat circ ++ inv i := by
    intro i pat hi
    have hlt := (List.getElem?_eq_some_iff.1 hi).1
    rw [b5 i pat hi, if_pos (by omega)]
  refine ⟨body, b1, ⟨b3, ?_⟩, b2, ?_⟩
  · refine same_of_parts pats hp.disj body b3 b4 fun p hpm => ?_
    obtain ⟨i, hi, hpe⟩ := List.getElem_of_mem hpm
    have hi' : pats[i]? = some p := by rw [List.getElem?_eq_getElem hi, hpe]
    obtain ⟨e0, e, blocks, c, a1, a2, a3, a4, a5, c1, c2, c3, c4, c5⟩ := hinv i p hi'
    rw [hpart i p hi', a5]; exact c5
  · intro i pat hi
    obtain ⟨e0, e, blocks, c, a1, a2, a3, a4, a5, c1, c2, c3, c4, c5⟩ := hinv i pat hi
    exact ⟨e0, e, blocks, c, inv i, a1, a3, a4, c1, c2, a5, by rw [hpart i pat hi, a5]⟩

/-! ### Generating -/

/-- State of the generator. -/
structure Inv (G : Group E) (Mem : ℕ → E → Prop) (N : ℕ) (cfg : Cfg E) (rand : Rand E) (st : St E) (L : ℕ → List E) : Prop where
  std : Track G Mem N cfg.pattern st.circ st.elts L
  int : ∀ l, cfg.inter = some l → Track G Mem N cfg.pattern st.icirc st.ielts (weave L l)
  seed : st.rseed ≠ .generator
  drawn : ∀ i pat, cfg.pattern[i]? = some pat → ∃ ks : List (RSeed × ℕ), ks.Pairwise (fun a b => a.2 < b.2) ∧ (∀ k ∈ ks, k.2 < st.draws) ∧
    L i = ks.map fun k => rand pat.length k.1 k.2

/-- What the loop needs to know about its arguments. -/
structure Good (G : Group E) (Mem : ℕ → E → Prop) (N : ℕ) (cfg : Cfg E) (rand : Rand E) : Prop where
  lawful : Lawful G Mem
  pats : Pats Mem N cfg.pattern
  rand : ∀ p ∈ cfg.pattern, ∀ rs k, Mem p.length (rand p.length rs k)
  int : ∀ l, cfg.inter = some l → ∀ (i : ℕ) (pat : List ℕ), cfg.pattern[i]? = some pat → ∃ e, l[i]? = some e ∧ Mem pat.length e
  mult : cfg.mult.length = cfg.pattern.length

theorem bumpSeed_some {rs : RSeed} (h : rs ≠ .generator) (seed : ℕ) : ∃ rs', bumpSeed rs seed = some rs' ∧ rs' ≠ .generator := by
  cases rs with
  | none => exact ⟨_, rfl, by simp⟩
  | int s =>
    unfold bumpSeed
    by_cases hs : s = 0
    · exact ⟨_, if_pos hs, by simp⟩
    · exact ⟨_, if_neg hs, by simp⟩
  | generator => exact absurd rfl h

theorem innerStep_spec {cfg : Cfg E} {rand : Rand E} (hG : Good G Mem N cfg rand) (seed : ℕ) {i : ℕ} {pat : List ℕ} (hi : cfg.pattern[i]? = some pat)
    {st : St E} {L : ℕ → List E} (h : Inv G Mem N cfg rand st L) :
    ∃ st' new, innerStep G cfg rand seed pat i st = some st' ∧ Inv G Mem N cfg rand st' (Function.update L i (L i ++ [new])) ∧
      st.circ <+: st'.circ ∧ st.icirc <+: st'.icirc := by
  have hpm := List.mem_of_getElem? hi
  have hpos := hG.pats.pos pat hpm
  obtain ⟨rs, r1, r2⟩ := bumpSeed_some h.seed seed
  let new := rand pat.length rs st.draws
  have hnew : Mem pat.length new := hG.rand pat hpm _ _
  obtain ⟨cur, e, c, a1, a2, a3, a4⟩ := h.std.push hG.lawful hG.pats hi hnew
  have hdrawn : ∀ j p, cfg.pattern[j]? = some p → ∃ ks : List (RSeed × ℕ), ks.Pairwise (fun a b => a.2 < b.2) ∧ (∀ k ∈ ks, k.2 < st.draws + 1) ∧
      (Function.update L i (L i ++ [new])) j = ks.map fun k => rand p.length k.1 k.2 := by
    intro j p hj
    obtain ⟨ks, k1, k2, k3⟩ := h.drawn j p hj
    by_cases hji : j = i
    · subst hji
      rw [hi] at hj; cases hj
      refine ⟨ks ++ [(rs, st.draws)], ?_, ?_, ?_⟩
      · rw [List.pairwise_append]
        refine ⟨k1, List.pairwise_singleton _ _, fun a ha b hb => ?_⟩
        rw [List.mem_singleton.1 hb]; exact k2 a ha
      · intro k hk
        rcases List.mem_append.1 hk with hk | hk
        · have := k2 k hk; omega
        · rw [List.mem_singleton.1 hk]; exact Nat.lt_succ_self _
      · rw [Function.update_self, k3, List.map_append]; rfl
    · refine ⟨ks, k1, fun k hk => by have := k2 k hk; omega, ?_⟩
      rw [Function.update_of_ne hji]; exact k3
  unfold embed at a3
  cases hint : cfg.inter with
  | none =>
    refine ⟨{ st with elts := st.elts.set i e, circ := st.circ ++ c ++ [.barrier pat], rseed := rs, draws := st.draws + 1 }, new, ?_, ⟨a4, ?_, r2, hdrawn⟩, ?_, ?_⟩
    · unfold innerStep
      simp only [r1, a1, Option.bind_eq_bind, Option.bind_some, hint]
      rw [a2, Option.bind_some, a3]; rfl
    · intro l hl; rw [hint] at hl; cases hl
    · rw [List.append_assoc]; exact List.prefix_append _ _
    · exact List.prefix_refl _
  | some l =>
    obtain ⟨el, l1, l2⟩ := hG.int l hint i pat hi
    obtain ⟨cur1, e1, c1, b1, b2, b3, b4⟩ := (h.int l hint).push hG.lawful hG.pats hi hnew
    obtain ⟨cur2, e2, c2, d1, d2, d3, d4⟩ := b4.push hG.lawful hG.pats hi l2
    have hlen : i < st.ielts.length := (List.getElem?_eq_some_iff.1 b1).1
    rw [List.getElem?_set_self hlen] at d1; cases d1
    refine ⟨{ st with elts := st.elts.set i e, circ := st.circ ++ c ++ [.barrier pat], rseed := rs, draws := st.draws + 1,
                      ielts := st.ielts.set i e2, icirc := st.icirc ++ c1 ++ [.barrier pat] ++ c2 ++ [.barrier pat] }, new, ?_, ⟨a4, ?_, r2, hdrawn⟩, ?_, ?_⟩
    · unfold embed at b3 d3
      unfold innerStep
      simp only [r1, a1, Option.bind_eq_bind, Option.bind_some, hint, l1]
      rw [a2, Option.bind_some, a3, Option.bind_some]
      unfold interStep
      simp only [b1, Option.bind_eq_bind, Option.bind_some]
      rw [b2, Option.bind_some, b3, Option.bind_some, d2, Option.bind_some, d3]; rfl
    · intro l' hl
      rw [hint] at hl; cases hl
      have : weave (Function.update L i (L i ++ [new])) l = Function.update (Function.update (weave L l) i (weave L l i ++ [new])) i
          ((Function.update (weave L l) i (weave L l i ++ [new])) i ++ [el]) := by
        funext j
        unfold weave
        by_cases hj : j = i
        · subst hj; simp [l1]
        · simp [Function.update_of_ne hj]
      rw [this]
      rwa [List.set_set] at d4
    · rw [List.append_assoc]; exact List.prefix_append _ _
    · simp only [List.append_assoc]; exact List.prefix_append _ _

/-- `L'` prolongs `L` by `m` elements on subset `i` and is unchanged elsewhere. -/
def Ext (L L' : ℕ → List E) (i m : ℕ) : Prop := (∃ new, L' i = L i ++ new ∧ new.length = m) ∧ ∀ j, j ≠ i → L' j = L j

theorem reps_spec {cfg : Cfg E} {rand : Rand E} (hG : Good G Mem N cfg rand) (seed : ℕ) {i : ℕ} {pat : List ℕ} (hi : cfg.pattern[i]? = some pat)
    (m : ℕ) {st : St E} {L : ℕ → List E} (h : Inv G Mem N cfg rand st L) :
    ∃ st' L', (List.range m).foldlM (fun st _ => innerStep G cfg rand seed pat i st) st = some st' ∧ Inv G Mem N cfg rand st' L' ∧ Ext L L' i m ∧
      st.circ <+: st'.circ ∧ st.icirc <+: st'.icirc := by
  induction m with
  | zero => exact ⟨st, L, rfl, h, ⟨⟨[], by simp, rfl⟩, fun _ _ => rfl⟩, List.prefix_refl _, List.prefix_refl _⟩
  | succ m ih =>
    obtain ⟨st1, L1, a1, a2, ⟨⟨new, a3, a4⟩, a5⟩, a6, a7⟩ := ih
    obtain ⟨st2, n2, b1, b2, b3, b4⟩ := innerStep_spec hG seed hi a2
    refine ⟨st2, _, ?_, b2, ⟨⟨new ++ [n2], ?_, by simp [a4]⟩, ?_⟩, a6.trans b3, a7.trans b4⟩
    · rw [List.range_succ, List.foldlM_append, a1]
      simp [b1]
    · rw [Function.update_self, a3, List.append_assoc]
    · intro j hj; rw [Function.update_of_ne hj]; exact a5 j hj

theorem pats_go {cfg : Cfg E} {rand : Rand E} (hG : Good G Mem N cfg rand) (seed : ℕ) (ps : List (List ℕ)) (k : ℕ)
    (hps : ∀ j p, ps[j]? = some p → cfg.pattern[k + j]? = some p) {st : St E} {L : ℕ → List E} (h : Inv G Mem N cfg rand st L) :
    ∃ st' L', (ps.zipIdx k).foldlM (patStep G cfg rand seed) st = some st' ∧ Inv G Mem N cfg rand st' L' ∧
      (∀ i m, cfg.mult[i]? = some m → k ≤ i → i < k + ps.length → ∃ new, L' i = L i ++ new ∧ new.length = m.toNat) ∧
      (∀ i, ¬ (k ≤ i ∧ i < k + ps.length) → L' i = L i) ∧ st.circ <+: st'.circ ∧ st.icirc <+: st'.icirc := by
  induction ps generalizing k st L with
  | nil => exact ⟨st, L, rfl, h, fun i m _ h1 h2 => absurd h2 (by simp; omega), fun _ _ => rfl, List.prefix_refl _, List.prefix_refl _⟩
  | cons p ps ih =>
    have hpk : cfg.pattern[k]? = some p := hps 0 p rfl
    have hk : k < cfg.mult.length := by rw [hG.mult]; exact (List.getElem?_eq_some_iff.1 hpk).1
    have hm : cfg.mult[k]? = some cfg.mult[k] := List.getElem?_eq_getElem hk
    obtain ⟨st1, L1, a1, a2, ⟨a3, a4⟩, a5, a6⟩ := reps_spec hG seed hpk cfg.mult[k].toNat h
    obtain ⟨st2, L2, b1, b2, b3, b4, b5, b6⟩ := ih (k + 1) (fun j q hj => by
      have := hps (j + 1) q (by simpa using hj)
      rwa [show k + (j + 1) = k + 1 + j by omega] at this) a2
    refine ⟨st2, L2, ?_, b2, ?_, ?_, a5.trans b5, a6.trans b6⟩
    · rw [List.zipIdx_cons, List.foldlM_cons]
      have : patStep G cfg rand seed st (p, k) = some st1 := by
        unfold patStep
        simp only [hm, Option.bind_eq_bind, Option.bind_some]
        exact a1
      rw [this]; exact b1
    · intro i m him h1 h2
      by_cases hik : i = k
      · subst hik
        rw [hm] at him; cases him
        rw [b4 i (by omega)]; exact a3
      · obtain ⟨new, e1, e2⟩ := b3 i m him (by omega) (by simp at h2; omega)
        rw [a4 i hik] at e1; exact ⟨new, e1, e2⟩
    · intro i hi
      simp at hi
      rw [b4 i (by omega), a4 i]
      rintro rfl
      exact absurd (hi (le_refl _)) (by omega)

theorem elmStep_spec {cfg : Cfg E} {rand : Rand E} (hG : Good G Mem N cfg rand) (seed : ℕ) {st : St E} {L : ℕ → List E} (h : Inv G Mem N cfg rand st L) :
    ∃ st' L', elmStep G cfg rand seed st = some st' ∧ Inv G Mem N cfg rand st' L' ∧
      (∀ i m, cfg.mult[i]? = some m → ∃ new, L' i = L i ++ new ∧ new.length = m.toNat) ∧ st.circ <+: st'.circ ∧ st.icirc <+: st'.icirc := by
  obtain ⟨st1, L1, a1, a2, a3, a4, a5, a6⟩ := pats_go hG seed cfg.pattern 0 (fun j p hj => by rw [Nat.zero_add]; exact hj) h
  have hflat : ∀ q ∈ cfg.pattern.flatten, q < N := by
    intro q hq
    obtain ⟨p, hp, hqp⟩ := List.mem_flatten.1 hq
    exact (hG.pats.tgt p hp).lt q hqp
  refine ⟨alignStep cfg st1, L1, ?_, ?_, ?_, ?_, ?_⟩
  · unfold elmStep; rw [a1]; rfl
  · unfold alignStep
    by_cases hal : cfg.align = true
    · rw [if_pos hal]
      refine ⟨a2.std.barrier hflat, ?_, a2.seed, a2.drawn⟩
      intro l hl
      have : (if cfg.inter.isSome = true then st1.icirc ++ [Ins.barrier cfg.pattern.flatten] else st1.icirc) = st1.icirc ++ [.barrier cfg.pattern.flatten] := by
        rw [hl]; rfl
      show Track G Mem N cfg.pattern (if cfg.inter.isSome = true then st1.icirc ++ [Ins.barrier cfg.pattern.flatten] else st1.icirc) _ _
      rw [this]
      exact (a2.int l hl).barrier hflat
    · rw [if_neg hal]; exact a2
  · intro i m him
    have : i < cfg.mult.length := (List.getElem?_eq_some_iff.1 him).1
    exact a3 i m him (by omega) (by rw [← hG.mult]; omega)
  · refine a5.trans ?_
    unfold alignStep
    by_cases hal : cfg.align = true
    · rw [if_pos hal]; exact List.prefix_append _ _
    · rw [if_neg hal]
  · refine a6.trans ?_
    unfold alignStep
    by_cases hal : cfg.align = true
    · rw [if_pos hal]
      show st1.icirc <+: if cfg.inter.isSome = true then st1.icirc ++ [Ins.barrier cfg.pattern.flatten] else st1.icirc
      split_ifs
      · exact List.prefix_append _ _
      · exact List.prefix_refl _
    · rw [if_neg hal]

end Verif.RB
