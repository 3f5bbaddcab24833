import Verif.RB.LemmasGen
import Verif.Py.SplitLemmas
set_option linter.unusedSimpArgs false
set_option linter.unusedVariables false
/-
Purity circuits and the loop over the sequence lengths.
-/
namespace Verif.RB
open Verif.Quantum
variable {E : Type} {G : Group E} {Mem : ℕ → E → Prop} {N : ℕ}

theorem purityDigits_small {d : ℕ} (h : d / 3 = 0) : purityDigits d = [d % 3] := by rw [purityDigits, dif_pos h]
theorem purityDigits_big {d : ℕ} (h : ¬ d / 3 = 0) : purityDigits d = d % 3 :: purityDigits (d / 3) := by
  rw [purityDigits, dif_neg h]

theorem purityDigits_pad (m d : ℕ) (hd : d < 3 ^ m) (hm : 0 < m) :
    (purityDigits d).length ≤ m ∧ purityDigits d ++ List.replicate (m - (purityDigits d).length) 0 = (List.range m).map (dig3 d) := by
  induction m generalizing d with
  | zero => omega
  | succ m ih =>
    have htail : (List.range (m + 1)).map (dig3 d) = d % 3 :: (List.range m).map (dig3 (d / 3)) := by
      rw [List.range_succ_eq_map, List.map_cons, List.map_map]
      congr 1
      · simp [dig3]
      · refine List.map_congr_left fun j _ => ?_
        simp only [Function.comp, dig3, Nat.pow_succ, Nat.succ_eq_add_one]
        rw [Nat.mul_comm, ← Nat.div_div_eq_div_mul]
    by_cases h : d / 3 = 0
    · rw [purityDigits_small h, htail, h]
      refine ⟨by simp, ?_⟩
      simp only [List.length_singleton, List.singleton_append, Nat.add_sub_cancel]
      congr 1
      symm
      refine List.eq_replicate_iff.2 ⟨by simp, fun b hb => ?_⟩
      obtain ⟨j, -, rfl⟩ := List.mem_map.1 hb
      simp [dig3]
    · have hm' : 0 < m := by
        rcases Nat.eq_zero_or_pos m with rfl | h'
        · exfalso; apply h; simp at hd; omega
        · exact h'
      obtain ⟨i1, i2⟩ := ih (d / 3) (by rw [Nat.pow_succ] at hd; omega) hm'
      rw [purityDigits_big h, htail]
      refine ⟨by simp; omega, ?_⟩
      rw [List.length_cons, List.cons_append, Nat.add_sub_add_right, i2]

theorem purityLetter_eq (r : ℕ) : purityLetter r = match r with | 0 => 'Z' | 1 => 'X' | _ => 'Y' := by
  unfold purityLetter
  match r with
  | 0 => rfl
  | 1 => rfl
  | n + 2 => simp

/-- Gates of one digit. -/
def rotGates (pats : List (List ℕ)) (rk : ℕ × ℕ) : List Ins :=
  match rk.1 with
  | 0 => []
  | 1 => pats.map fun p => .gate .rx90 [p.getD rk.2 0]
  | _ => pats.map fun p => .gate .ry90 [p.getD rk.2 0]

theorem purityRot_eq {pats : List (List ℕ)} {r k : ℕ} (h : ∀ p ∈ pats, k < p.length) : purityRot pats (r, k) = some (rotGates pats (r, k)) := by
  have hg : ∀ (kd : Kind), (pats.mapM fun pat => (pat[k]?).map fun q => Ins.gate kd [q]) = some (pats.map fun p => Ins.gate kd [p.getD k 0]) := by
    intro kd
    refine mapM_eq_some _ _ _ fun p hp => ?_
    rw [List.getD_eq_getElem?_getD, List.getElem?_eq_getElem (h p hp)]; rfl
  unfold purityRot rotGates
  match r with
  | 0 => rfl
  | 1 => simp only [one_ne_zero, if_false, if_true]; exact hg .rx90
  | n + 2 =>
    have e1 : ¬ n + 2 = 0 := by omega
    have e2 : ¬ n + 2 = 1 := by omega
    simp only [if_neg e1, if_neg e2]; exact hg .ry90

theorem zipIdx_map_range {β : Type} (f : ℕ → β) (m : ℕ) : ((List.range m).map f).zipIdx = (List.range m).map fun j => (f j, j) := by
  apply List.ext_getElem
  · simp
  · intro i h1 h2; simp

theorem purityCirc_eq (ty : Str) (pats : List (List ℕ)) (m : ℕ) (hm : 0 < m) (hp : ∀ p ∈ pats, p.length = m) (circ : List Ins) (suf : Str)
    (d : ℕ) (hd : d < 3 ^ m) :
    purityCirc ty pats m circ suf d =
      some ⟨ty ++ "_purity_".toList ++ purityLetters m d ++ suf, circ ++ purityGates pats m d ++ measures pats.flatten⟩ := by
  obtain ⟨h1, h2⟩ := purityDigits_pad m d hd hm
  have hrot : (purityDigits d).zipIdx.mapM (purityRot pats) = some ((purityDigits d).zipIdx.map (rotGates pats)) := by
    refine mapM_eq_some _ _ _ fun x hx => ?_
    obtain ⟨r, k⟩ := x
    have := List.mem_zipIdx hx
    exact purityRot_eq fun p hp' => by rw [hp p hp']; omega
  have hflat : ((purityDigits d).zipIdx.map (rotGates pats)).flatten = purityGates pats m d := by
    have e : purityGates pats m d = (((purityDigits d) ++ List.replicate (m - (purityDigits d).length) 0).zipIdx.map (rotGates pats)).flatten := by
      rw [h2, zipIdx_map_range, List.map_map]
      unfold purityGates
      rw [List.flatMap_def]; rfl
    rw [e, List.zipIdx_append, List.map_append, List.flatten_append]
    suffices h : ((List.replicate (m - (purityDigits d).length) 0).zipIdx (0 + (purityDigits d).length) |>.map (rotGates pats)).flatten = [] by
      rw [h, List.append_nil]
    rw [List.flatten_eq_nil_iff]
    intro l hl
    obtain ⟨⟨r, k⟩, hx, rfl⟩ := List.mem_map.1 hl
    have := (List.mem_zipIdx hx).2.2
    have hr : r = 0 := by rw [this]; simp
    subst hr; rfl
  have hlet : (purityDigits d).map purityLetter ++ List.replicate (m - (purityDigits d).length) 'Z' = purityLetters m d := by
    have : List.replicate (m - (purityDigits d).length) 'Z' = (List.replicate (m - (purityDigits d).length) 0).map purityLetter := by
      rw [List.map_replicate]; rfl
    rw [this, ← List.map_append, h2, List.map_map]
    unfold purityLetters
    exact List.map_congr_left fun j _ => purityLetter_eq _
  unfold purityCirc
  simp only [Option.bind_eq_bind]
  rw [hrot, Option.bind_some, hflat]
  congr 2
  rw [List.append_assoc (ty ++ _) _ _, hlet]

theorem xCirc_eq (flat : List ℕ) (c : List Ins) : xCirc flat c = hBefore flat ++ c ++ hAfter flat ++ measures flat := rfl

theorem finish_spec {cfg : Cfg E} {rand : Rand E} (hG : Good G Mem N cfg rand) (dihedral isPurity : Bool) (maxDim : ℕ)
    (hpur : isPurity = true → 0 < maxDim ∧ ∀ p ∈ cfg.pattern, p.length = maxDim) (li : ℕ) (sd : ℤ) {st : St E} {L : ℕ → List E}
    (h : Inv G Mem N cfg rand st L) :
    ∃ s, finish G cfg dihedral isPurity maxDim li sd st = some s ∧
      StepOk G cfg rand N dihedral isPurity maxDim L st.circ st.icirc (suffix li sd) s := by
  obtain ⟨body, b1, b2⟩ := h.std.close hG.lawful hG.pats
  have hint : ∃ ibody, (if cfg.inter.isSome = true then closeSeq G cfg.pattern st.ielts st.icirc else some st.icirc) = some ibody ∧
      ∀ l, cfg.inter = some l → IsSeq G cfg.pattern N (weave L l) st.icirc ibody := by
    cases hi : cfg.inter with
    | none => exact ⟨st.icirc, rfl, fun l h => by cases h⟩
    | some l =>
      obtain ⟨ib, c1, c2⟩ := (h.int l hi).close hG.lawful hG.pats
      exact ⟨ib, c1, fun l' h' => by cases h'; exact c2⟩
  obtain ⟨ibody, i1, i2⟩ := hint
  have hp : ∃ pl, (if isPurity = true then (List.range (3 ^ maxDim)).mapM (purityCirc (circType dihedral) cfg.pattern maxDim body (suffix li sd)) else some []) = some pl ∧
      (isPurity = true → pl = (List.range (3 ^ maxDim)).map fun d =>
        ⟨circType dihedral ++ "_purity_".toList ++ purityLetters maxDim d ++ suffix li sd,
        body ++ purityGates cfg.pattern maxDim d ++ measures cfg.pattern.flatten⟩) := by
    cases hq : isPurity with
    | false => exact ⟨[], rfl, fun h => by cases h⟩
    | true =>
      obtain ⟨q1, q2⟩ := hpur hq
      refine ⟨_, ?_, fun _ => rfl⟩
      rw [if_pos rfl]
      refine mapM_eq_some _ _ _ fun d hd => ?_
      exact purityCirc_eq _ _ _ q1 q2 _ _ d (List.mem_range.1 hd)
  obtain ⟨pl, p1, p2⟩ := hp
  have hfin : ∃ s : Step, finish G cfg dihedral isPurity maxDim li sd st = some s ∧
      s.std = ⟨circType dihedral ++ (if dihedral then "_Z".toList else []) ++ suffix li sd, body ++ measures cfg.pattern.flatten⟩ ∧
      (dihedral = true → s.dih = ⟨circType dihedral ++ "_X".toList ++ suffix li sd, xCirc cfg.pattern.flatten body⟩) ∧
      s.purity = pl ∧
      s.inter = ⟨circType dihedral ++ "_interleaved".toList ++ (if dihedral then "_Z".toList else []) ++ suffix li sd, ibody ++ measures cfg.pattern.flatten⟩ ∧
      (dihedral = true → s.dihInter = ⟨circType dihedral ++ "_interleaved_X".toList ++ suffix li sd, xCirc cfg.pattern.flatten ibody⟩) := by
    unfold finish
    simp only [Option.bind_eq_bind]
    rw [b1, Option.bind_some, i1, Option.bind_some, p1, Option.bind_some]
    refine ⟨_, rfl, ?_, ?_, ?_, ?_, ?_⟩
    all_goals first | rfl | (cases dihedral <;> simp)
  obtain ⟨s, f0, f1, f2, f3, f4, f5⟩ := hfin
  refine ⟨s, f0, ⟨body, b2, f1, fun hd => (f2 hd).trans rfl, fun hp => f3.trans (p2 hp)⟩, ?_, ?_⟩
  · intro l hl
    exact ⟨ibody, i2 l hl, f4, fun hd => (f5 hd).trans rfl⟩
  · intro i pat hi
    obtain ⟨ks, k1, -, k3⟩ := h.drawn i pat hi
    exact ⟨ks, k1, k3⟩

/-! ### The loop over the lengths -/

/-- Loop invariant after `idx` elements. -/
structure LInv (G : Group E) (Mem : ℕ → E → Prop) (N : ℕ) (cfg : Cfg E) (rand : Rand E) (dihedral isPurity : Bool) (maxDim : ℕ) (lv : List ℤ) (sd : ℤ)
    (idx : ℕ) (lp : Loop E) (L : ℕ → List E) (H : ℕ → Rec E) : Prop where
  inv : Inv G Mem N cfg rand lp.st L
  len : ∀ (i : ℕ) (m : ℤ), cfg.mult[i]? = some m → (L i).length = idx * m.toNat
  out : lp.out.length = lp.li
  split : ∀ (k : ℕ) (v : ℤ), lv[k]? = some v → (k < lp.li ↔ v ≤ idx)
  li : lp.li ≤ lv.length
  recs : ∀ (k : ℕ), k < lp.li → ∃ (s : Step) (v : ℤ), lp.out[k]? = some s ∧ lv[k]? = some v ∧
    StepOk G cfg rand N dihedral isPurity maxDim (H k).1 (H k).2.1 (H k).2.2 (suffix k sd) s ∧
    (∀ (i : ℕ) (m : ℤ), cfg.mult[i]? = some m → ((H k).1 i).length = v.toNat * m.toNat ∧ (H k).1 i <+: L i) ∧
    (H k).2.1 <+: lp.st.circ ∧ (H k).2.2 <+: lp.st.icirc
  chain : ∀ (k k' : ℕ), k ≤ k' → k' < lp.li → (H k).2.1 <+: (H k').2.1 ∧ (H k).2.2 <+: (H k').2.2 ∧
    ∀ (i : ℕ) (m : ℤ), cfg.mult[i]? = some m → (H k).1 i <+: (H k').1 i

theorem lengthStep_spec {cfg : Cfg E} {rand : Rand E} (hG : Good G Mem N cfg rand) (dihedral isPurity : Bool) (maxDim : ℕ)
    (hpur : isPurity = true → 0 < maxDim ∧ ∀ p ∈ cfg.pattern, p.length = maxDim) {lv : List ℤ} (hlv : lv.Pairwise (· < ·)) (hpos : ∀ v ∈ lv, 1 ≤ v)
    (off : ℤ) (seed : ℕ) {idx : ℕ} (hidx : ∃ v ∈ lv, (idx : ℤ) < v) {lp : Loop E} {L : ℕ → List E} {H : ℕ → Rec E}
    (h : LInv G Mem N cfg rand dihedral isPurity maxDim lv (seed + off) idx lp L H) :
    ∃ lp' L' H', lengthStep G cfg rand dihedral isPurity maxDim lv off seed lp idx = some lp' ∧
      LInv G Mem N cfg rand dihedral isPurity maxDim lv (seed + off) (idx + 1) lp' L' H' := by
  obtain ⟨st', L', a1, a2, a3, a4, a5⟩ := elmStep_spec hG seed h.inv
  have hlen' : ∀ i m, cfg.mult[i]? = some m → (L' i).length = (idx + 1) * m.toNat := by
    intro i m hi
    obtain ⟨new, e1, e2⟩ := a3 i m hi
    rw [e1, List.length_append, h.len i m hi, e2]; ring
  have hpre : ∀ i m, cfg.mult[i]? = some m → L i <+: L' i := by
    intro i m hi
    obtain ⟨new, e1, e2⟩ := a3 i m hi
    rw [e1]; exact List.prefix_append _ _
  have hli : lp.li < lv.length := by
    obtain ⟨v, hv, hlt⟩ := hidx
    obtain ⟨k, hk, hke⟩ := List.getElem_of_mem hv
    by_contra hcon
    have := (h.split k v (by rw [List.getElem?_eq_getElem hk, hke])).1 (by omega)
    omega
  have htgt : lv[lp.li]? = some lv[lp.li] := List.getElem?_eq_getElem hli
  have hgt : (idx : ℤ) < lv[lp.li] := by
    by_contra hcon
    exact absurd ((h.split lp.li _ htgt).2 (by omega)) (lt_irrefl _)
  have hmono : ∀ k v, lv[k]? = some v → lp.li < k → lv[lp.li] < v := by
    intro k v hk hlt
    obtain ⟨hk1, rfl⟩ := List.getElem?_eq_some_iff.1 hk
    exact List.pairwise_iff_getElem.1 hlv lp.li k hli hk1 hlt
  by_cases heq : (idx : ℤ) + 1 = lv[lp.li]
  · obtain ⟨s, s1, s2⟩ := finish_spec hG dihedral isPurity maxDim hpur lp.li (seed + off) a2
    refine ⟨{ st := st', li := lp.li + 1, out := lp.out ++ [s] }, L', Function.update H lp.li (L', st'.circ, st'.icirc), ?_, a2, hlen', ?_, ?_, ?_, ?_, ?_⟩
    · unfold lengthStep
      simp only [a1, htgt, Option.bind_eq_bind, Option.bind_some, if_pos heq]
      rw [s1]; rfl
    · simp [h.out]
    · intro k v hk
      show k < lp.li + 1 ↔ _
      rcases lt_trichotomy k lp.li with hlt | rfl | hlt
      · have := (h.split k v hk).1 hlt
        constructor
        · intro _; push_cast; omega
        · intro _; omega
      · rw [htgt] at hk; cases hk
        constructor
        · intro _; push_cast; omega
        · intro _; omega
      · have := hmono k v hk hlt
        constructor
        · intro _; omega
        · intro hv; push_cast at hv; omega
    · show lp.li + 1 ≤ _; omega
    · intro k hk
      have hk : k < lp.li + 1 := hk
      by_cases hkl : k = lp.li
      · subst hkl
        refine ⟨s, _, ?_, htgt, ?_, ?_, ?_, ?_⟩
        · show (lp.out ++ [s])[lp.li]? = some s
          rw [List.getElem?_append_right (by rw [h.out]), h.out]; simp
        · rw [Function.update_self]; exact s2
        · intro i m hi
          rw [Function.update_self]
          refine ⟨?_, List.prefix_refl _⟩
          rw [← heq]
          exact hlen' i m hi
        · rw [Function.update_self]
        · rw [Function.update_self]
      · obtain ⟨s', v, e1, e2, e3, e4, e5, e6⟩ := h.recs k (by omega)
        refine ⟨s', v, ?_, e2, ?_, ?_, ?_, ?_⟩
        · show (lp.out ++ [s])[k]? = some s'
          rw [List.getElem?_append_left (by rw [h.out]; omega)]; exact e1
        · rw [Function.update_of_ne hkl]; exact e3
        · intro i m hi
          rw [Function.update_of_ne hkl]
          exact ⟨(e4 i m hi).1, (e4 i m hi).2.trans (hpre i m hi)⟩
        · rw [Function.update_of_ne hkl]; exact e5.trans a4
        · rw [Function.update_of_ne hkl]; exact e6.trans a5
    · intro k k' hkk hk'
      have hk' : k' < lp.li + 1 := hk'
      by_cases hkl' : k' = lp.li
      · subst hkl'
        by_cases hkl : k = lp.li
        · subst hkl; exact ⟨List.prefix_refl _, List.prefix_refl _, fun _ _ _ => List.prefix_refl _⟩
        · obtain ⟨s', v, e1, e2, e3, e4, e5, e6⟩ := h.recs k (by omega)
          rw [Function.update_of_ne hkl, Function.update_self]
          exact ⟨e5.trans a4, e6.trans a5, fun i m hi => (e4 i m hi).2.trans (hpre i m hi)⟩
      · rw [Function.update_of_ne (by omega : k ≠ lp.li), Function.update_of_ne hkl']
        exact h.chain k k' hkk (by omega)
  · refine ⟨{ lp with st := st' }, L', H, ?_, a2, hlen', h.out, ?_, h.li, ?_, h.chain⟩
    · unfold lengthStep
      simp only [a1, htgt, Option.bind_eq_bind, Option.bind_some, if_neg heq]
    · intro k v hk
      show k < lp.li ↔ _
      rw [h.split k v hk]
      constructor
      · intro hv; push_cast; omega
      · intro hv
        push_cast at hv
        by_contra hcon
        have hge : ¬ k < lp.li := fun hlt => hcon ((h.split k v hk).1 hlt)
        rcases lt_or_eq_of_le (not_lt.1 hge) with hlt | heq'
        · have := hmono k v hk hlt; omega
        · subst heq'; rw [htgt] at hk; cases hk; omega
    · intro k hk
      obtain ⟨s', v, e1, e2, e3, e4, e5, e6⟩ := h.recs k hk
      exact ⟨s', v, e1, e2, e3, fun i m hi => ⟨(e4 i m hi).1, (e4 i m hi).2.trans (hpre i m hi)⟩, e5.trans a4, e6.trans a5⟩

/-- The whole loop: one entry per length. -/
theorem lengths_spec {cfg : Cfg E} {rand : Rand E} (hG : Good G Mem N cfg rand) (dihedral isPurity : Bool) (maxDim : ℕ)
    (hpur : isPurity = true → 0 < maxDim ∧ ∀ p ∈ cfg.pattern, p.length = maxDim) {lv : List ℤ} (hlv : lv.Pairwise (· < ·)) (hpos : ∀ v ∈ lv, 1 ≤ v)
    {last : ℤ} (hlast : lv.getLast? = some last) (off : ℤ) (seed : ℕ) {st : St E} (h : Inv G Mem N cfg rand st fun _ => []) :
    ∃ lp L H, (List.range last.toNat).foldlM (lengthStep G cfg rand dihedral isPurity maxDim lv off seed) { st := st, li := 0, out := [] } = some lp ∧
      LInv G Mem N cfg rand dihedral isPurity maxDim lv (seed + off) last.toNat lp L H ∧ lp.li = lv.length := by
  have hmem : last ∈ lv := List.mem_of_getLast? hlast
  have hl1 := hpos last hmem
  have key : ∀ n : ℕ, n ≤ last.toNat → ∃ lp L H, (List.range n).foldlM (lengthStep G cfg rand dihedral isPurity maxDim lv off seed) { st := st, li := 0, out := [] } = some lp ∧
      LInv G Mem N cfg rand dihedral isPurity maxDim lv (seed + off) n lp L H := by
    intro n
    induction n with
    | zero =>
      intro _
      refine ⟨_, fun _ => [], fun _ => (fun _ => [], [], []), rfl, h, fun i m _ => by simp, rfl, ?_, Nat.zero_le _, ?_, ?_⟩
      · intro k v hk
        have := hpos v (List.mem_of_getElem? hk)
        constructor
        · intro hk; cases hk
        · intro hv; push_cast at hv; omega
      · intro k hk; cases hk
      · intro k k' _ hk; cases hk
    | succ n ih =>
      intro hn
      obtain ⟨lp, L, H, e1, e2⟩ := ih (by omega)
      obtain ⟨lp', L', H', f1, f2⟩ := lengthStep_spec hG dihedral isPurity maxDim hpur hlv hpos off seed ⟨last, hmem, by omega⟩ e2
      refine ⟨lp', L', H', ?_, f2⟩
      rw [List.range_succ, List.foldlM_append, e1]
      simp [f1]
  obtain ⟨lp, L, H, e1, e2⟩ := key last.toNat (le_refl _)
  refine ⟨lp, L, H, e1, e2, ?_⟩
  have hne : lv ≠ [] := by rintro rfl; cases hlast
  have hlen : 0 < lv.length := List.length_pos_iff.2 hne
  have hk : lv[lv.length - 1]? = some last := by rw [← hlast, List.getLast?_eq_getElem?]
  have := (e2.split (lv.length - 1) last hk).2 (by omega)
  have := e2.li
  omega

/-! ### The loop over the seeds -/

theorem inv_start {cfg : Cfg E} {rand : Rand E} (hG : Good G Mem N cfg rand) {rs : RSeed} (hrs : rs ≠ .generator) (draws : ℕ) :
    ∃ ids, (cfg.pattern.mapM fun pat => G.iden pat.length) = some ids ∧
      Inv G Mem N cfg rand { circ := [], icirc := [], elts := ids, ielts := ids, rseed := rs, draws := draws } fun _ => [] := by
  have hid : ∀ p ∈ cfg.pattern, ∃ e, G.iden p.length = some e := fun p hp => by
    obtain ⟨e, h, -⟩ := hG.lawful.iden _ (hG.pats.pos p hp); exact ⟨e, h⟩
  classical
  let g : List ℕ → E := fun p => if h : ∃ e, G.iden p.length = some e then h.choose else (rand 0 .none 0)
  have hg : ∀ p ∈ cfg.pattern, G.iden p.length = some (g p) := fun p hp => by
    have := hid p hp
    simp only [g, dif_pos this]
    exact this.choose_spec
  refine ⟨cfg.pattern.map g, mapM_eq_some _ _ _ hg, ?_, ?_, hrs, ?_⟩
  · refine ⟨by simp, by simp, by simp, by simp, ?_⟩
    intro i pat hi
    refine ⟨g pat, g pat, [], hg _ (List.mem_of_getElem? hi), ?_, rfl, rfl, rfl⟩
    show (cfg.pattern.map g)[i]? = _
    rw [List.getElem?_map, hi]; rfl
  · intro l hl
    refine ⟨by simp, by simp, by simp, by simp [weave], ?_⟩
    intro i pat hi
    refine ⟨g pat, g pat, [], hg _ (List.mem_of_getElem? hi), ?_, rfl, rfl, rfl⟩
    show (cfg.pattern.map g)[i]? = _
    rw [List.getElem?_map, hi]; rfl
  · intro i pat hi
    exact ⟨[], by simp, by simp, rfl⟩

theorem seedStep_spec {cfg : Cfg E} {rand : Rand E} (hG : Good G Mem N cfg rand) (dihedral isPurity : Bool) (maxDim : ℕ)
    (hpur : isPurity = true → 0 < maxDim ∧ ∀ p ∈ cfg.pattern, p.length = maxDim) {lv : List ℤ} (hne : lv ≠ []) (hlv : lv.Pairwise (· < ·)) (hpos : ∀ v ∈ lv, 1 ≤ v)
    (hm : ∀ m ∈ cfg.mult, 1 ≤ m) (off : ℤ) (seed : ℕ) (acc : RSeed × ℕ × List (List Step)) (hrs : acc.1 ≠ .generator) :
    ∃ rs draws steps, seedStep G cfg rand dihedral isPurity maxDim lv off acc seed = some (rs, draws, acc.2.2 ++ [steps]) ∧
      rs ≠ .generator ∧ SeedOk G cfg rand N dihedral isPurity maxDim lv (seed + off) steps := by
  obtain ⟨ids, i1, i2⟩ := inv_start hG hrs acc.2.1
  have hlast : lv.getLast? = some (lv.getLast hne) := List.getLast?_eq_some_getLast hne
  obtain ⟨lp, L, H, l1, l2, l3⟩ := lengths_spec hG dihedral isPurity maxDim hpur hlv hpos hlast off seed i2
  refine ⟨lp.st.rseed, lp.st.draws, lp.out, ?_, l2.inv.seed, by rw [l2.out, l3], H, ?_, ?_⟩
  · unfold seedStep
    simp only [Option.bind_eq_bind]
    rw [i1, Option.bind_some, hlast, Option.bind_some, l1, Option.bind_some]
  · intro k s v hk hv
    have hlt : k < lp.li := by rw [l3]; exact (List.getElem?_eq_some_iff.1 hv).1
    obtain ⟨s', v', e1, e2, e3, e4, -⟩ := l2.recs k hlt
    rw [hk] at e1; cases e1
    rw [hv] at e2; cases e2
    refine ⟨e3, fun i m hi => ?_⟩
    rw [(e4 i m hi).1]
    have := hpos v (List.mem_of_getElem? hv)
    have := hm m (List.mem_of_getElem? hi)
    push_cast
    rw [Int.toNat_of_nonneg (by omega), Int.toNat_of_nonneg (by omega)]
  · intro k k' hk hk'
    obtain ⟨c1, c2, c3⟩ := l2.chain k k' hk (by rw [l3]; exact hk')
    refine ⟨c1, c2, fun i hi => ?_⟩
    have hi' : i < cfg.mult.length := by rw [hG.mult]; exact hi
    exact c3 i _ (List.getElem?_eq_getElem hi')

theorem seeds_spec {cfg : Cfg E} {rand : Rand E} (hG : Good G Mem N cfg rand) (dihedral isPurity : Bool) (maxDim : ℕ)
    (hpur : isPurity = true → 0 < maxDim ∧ ∀ p ∈ cfg.pattern, p.length = maxDim) {lv : List ℤ} (hne : lv ≠ []) (hlv : lv.Pairwise (· < ·)) (hpos : ∀ v ∈ lv, 1 ≤ v)
    (hm : ∀ m ∈ cfg.mult, 1 ≤ m) (off : ℤ) {rs : RSeed} (hrs : rs ≠ .generator) (n : ℕ) :
    ∃ rs' draws steps, (List.range n).foldlM (seedStep G cfg rand dihedral isPurity maxDim lv off) (rs, 0, []) = some (rs', draws, steps) ∧
      rs' ≠ .generator ∧ steps.length = n ∧ ∀ (j : ℕ) (l : List Step), steps[j]? = some l → SeedOk G cfg rand N dihedral isPurity maxDim lv (j + off) l := by
  induction n with
  | zero => exact ⟨rs, 0, [], rfl, hrs, rfl, by simp⟩
  | succ n ih =>
    obtain ⟨rs', draws, steps, e1, e2, e3, e4⟩ := ih
    obtain ⟨rs'', draws'', st, f1, f2, f3⟩ := seedStep_spec hG dihedral isPurity maxDim hpur hne hlv hpos hm off n (rs', draws, steps) e2
    refine ⟨rs'', draws'', steps ++ [st], ?_, f2, by simp [e3], ?_⟩
    · rw [List.range_succ, List.foldlM_append, e1]
      simp [f1]
    · intro j l hj
      by_cases h : j < n
      · rw [List.getElem?_append_left (by omega)] at hj; exact e4 j l hj
      · have hj2 : j = n := by
          have := (List.getElem?_eq_some_iff.1 hj).1
          rw [List.length_append, e3, List.length_singleton] at this; omega
        subst hj2
        rw [List.getElem?_append_right (by omega), e3] at hj
        simp at hj; subst hj; exact f3

/-! ### The whole function -/

theorem foldl_max_ge (l : List ℕ) (a : ℕ) : a ≤ l.foldl max a ∧ ∀ x ∈ l, x ≤ l.foldl max a := by
  induction l generalizing a with
  | nil => simp
  | cons b l ih =>
    obtain ⟨h1, h2⟩ := ih (max a b)
    refine ⟨le_trans (le_max_left a b) h1, fun x hx => ?_⟩
    rcases List.mem_cons.1 hx with rfl | hx
    · exact le_trans (le_max_right a x) h1
    · exact h2 x hx

theorem checkPattern_some (pats : List (List ℕ)) (isPurity : Bool) (inter : Option (List ℕ)) (hne : pats ≠ []) (hs : ∀ p ∈ pats, p ≠ [])
    (hd : pats.flatten.Nodup) (hp : isPurity = true → ∀ p ∈ pats, ∀ q ∈ pats, p.length = q.length)
    (hi : ∀ l, inter = some l → l = pats.map List.length) :
    ∃ mq, checkPattern pats isPurity inter = some (pats.flatten, mq, (pats.map List.length).foldl max 0) := by
  have c1 : ¬ (pats.flatten.any fun q => decide (pats.flatten.count q > 1)) = true := by
    intro h
    obtain ⟨q, hq, hc⟩ := List.any_eq_true.1 h
    have := List.nodup_iff_count_le_one.1 hd q
    simp at hc; omega
  have c2 : ¬ (isPurity && decide ((pats.map List.length).dedup.length > 1)) = true := by
    intro h
    rw [Bool.and_eq_true, decide_eq_true_eq] at h
    obtain ⟨h1, h2⟩ := h
    have heq := hp h1
    have hnd := List.nodup_dedup (pats.map List.length)
    match hdd : (pats.map List.length).dedup with
    | [] => rw [hdd] at h2; simp at h2
    | [a] => rw [hdd] at h2; simp at h2
    | a :: b :: t =>
      have ha : a ∈ pats.map List.length := List.mem_dedup.1 (by rw [hdd]; simp)
      have hb : b ∈ pats.map List.length := List.mem_dedup.1 (by rw [hdd]; simp)
      obtain ⟨p, hp1, rfl⟩ := List.mem_map.1 ha
      obtain ⟨q, hq1, rfl⟩ := List.mem_map.1 hb
      rw [hdd, heq p hp1 q hq1] at hnd
      simp at hnd
  have c3 : ¬ (inter.isSome && decide (some (pats.map List.length) ≠ inter)) = true := by
    intro h
    cases inter with
    | none => simp at h
    | some l => rw [hi l rfl] at h; simp at h
  have hfl : pats.flatten ≠ [] := by
    intro h
    obtain ⟨p, hp'⟩ := List.exists_mem_of_ne_nil _ hne
    exact hs p hp' (List.flatten_eq_nil_iff.1 h p hp')
  obtain ⟨mq, hmq⟩ : ∃ mq, pats.flatten.max? = some mq := by
    cases h : pats.flatten.max? with
    | none => exact absurd (List.max?_eq_none_iff.1 h) hfl
    | some m => exact ⟨m, rfl⟩
  have hmd : (pats.map List.length).max? = some ((pats.map List.length).foldl max 0) := by
    cases hm : pats.map List.length with
    | nil => exact absurd (List.map_eq_nil_iff.1 hm) hne
    | cons x t => simp [List.max?]
  refine ⟨mq, ?_⟩
  unfold checkPattern
  simp only [Option.bind_eq_bind]
  rw [if_neg c1, if_neg c2, if_neg c3, hmq, Option.bind_some, hmd, Option.bind_some]

theorem handleMult_some {a : Args E} {Mem : ℕ → E → Prop} (h : ValidArgs Mem a) : handleMult a.mult a.pats.length a.isPurity = some a.mults := by
  have hp := h.mult_pos
  rcases h.mult with ⟨l, h1, h2, h3⟩ | ⟨k, h1⟩
  · unfold Args.mults at hp ⊢
    rw [h1] at hp ⊢
    unfold handleMult
    rw [h3]
    have : ¬ (l.any fun k => decide (k < 1)) = true := by
      intro hh
      obtain ⟨k, hk, hk'⟩ := List.any_eq_true.1 hh
      have := hp k hk
      simp at hk'; omega
    simp only [Bool.false_eq_true, if_false, h2, ne_eq, not_true_eq_false, if_neg this]
  · unfold Args.mults; rw [h1]; rfl

theorem good_of_valid {a : Args E} (hL : Lawful G Mem) (h : ValidArgs Mem a) {rand : Rand E} (hr : ∀ p ∈ a.pats, ∀ rs k, Mem p.length (rand p.length rs k))
    (hN : ∀ q ∈ a.pats.flatten, q < N) : Good G Mem N a.cfg rand := by
  have hfd := List.nodup_flatten.1 h.distinct
  refine ⟨hL, ⟨?_, ?_, ?_⟩, hr, ?_, ?_⟩
  · refine hfd.2.imp ?_
    intro p q hpq x hx hx'
    exact hpq hx hx'
  · intro p hp
    exact ⟨hfd.1 p hp, fun q hq => hN q (List.mem_flatten.2 ⟨p, hp, hq⟩)⟩
  · intro p hp
    exact ⟨_, hr p hp .none 0⟩
  · intro l hl i pat hi
    show ∃ e, l[i]? = some e ∧ _
    have hl : a.inter.map (·.map (·.2)) = some l := hl
    obtain ⟨x, hx, rfl⟩ := Option.map_eq_some_iff.1 hl
    obtain ⟨h1, h2⟩ := h.inter x hx
    have hi : a.pats[i]? = some pat := hi
    have h3 : (x.map (·.1))[i]? = some pat.length := by rw [h1, List.getElem?_map, hi]; rfl
    rw [List.getElem?_map] at h3
    obtain ⟨y, hy, hy'⟩ := Option.map_eq_some_iff.1 h3
    refine ⟨y.2, by rw [List.getElem?_map, hy]; rfl, ?_⟩
    rw [← hy']
    exact h2 y (List.mem_of_getElem? hy)
  · show a.mults.length = a.pats.length
    unfold Args.mults
    rcases h.mult with ⟨l, h1, h2, h3⟩ | ⟨k, h1⟩
    · rw [h1]; exact h2
    · rw [h1]; simp

theorem rbSeq_spec {groups : Bool → Group E} {rand : Bool → Rand E} {a : Args E} {dihedral : Bool} (hg : groupOf a.groupGates = some dihedral)
    (hL : Lawful (groups dihedral) Mem) (hr : ∀ p ∈ a.pats, ∀ rs k, Mem p.length (rand dihedral p.length rs k)) (h : ValidArgs Mem a)
    (hN : ∀ q ∈ a.pats.flatten, q < N) :
    ∃ steps, rbSeq groups rand a = some (pack a dihedral a.dim (calcXdata a.lens a.mults) steps) ∧ steps.length = a.nseeds ∧
      ∀ (j : ℕ) (l : List Step), steps[j]? = some l →
        SeedOk (groups dihedral) a.cfg (rand dihedral) N dihedral a.isPurity a.dim a.lens (j + a.seedOffset) l := by
  have hG := good_of_valid hL h hr hN
  have hpur : a.isPurity = true → 0 < a.dim ∧ ∀ p ∈ a.cfg.pattern, p.length = a.dim := by
    intro hp
    have key : ∀ p ∈ a.pats, p.length = a.dim := by
      intro p hpp
      have hall : ∀ x ∈ a.pats.map List.length, x = p.length := by
        intro x hx
        obtain ⟨q, hq, rfl⟩ := List.mem_map.1 hx
        exact h.purity hp q hq p hpp
      have h1 := (foldl_max_ge (a.pats.map List.length) 0).2 _ (List.mem_map_of_mem hpp)
      have h2 : a.dim ≤ p.length := by
        unfold Args.dim
        rw [show a.pats.map List.length = List.replicate a.pats.length p.length from List.eq_replicate_iff.2 ⟨by simp, hall⟩]
        have : ∀ n b, (List.replicate n p.length).foldl max b ≤ max b p.length := by
          intro n
          induction n with
          | zero => intro b; exact le_max_left _ _
          | succ n ih => intro b; rw [List.replicate_succ, List.foldl_cons]; refine (ih _).trans ?_; simp
        simpa using this a.pats.length 0
      have h1 : p.length ≤ a.dim := h1
      omega
    obtain ⟨p, hp'⟩ := List.exists_mem_of_ne_nil _ h.pats_ne
    refine ⟨?_, key⟩
    rw [← key p hp']
    exact List.length_pos_iff.2 (h.subset_ne p hp')
  obtain ⟨mq, hc⟩ := checkPattern_some a.pats a.isPurity (a.inter.map (·.map (·.1))) h.pats_ne h.subset_ne h.distinct h.purity (by
    intro l hl
    obtain ⟨x, hx, rfl⟩ := Option.map_eq_some_iff.1 hl
    exact (h.inter x hx).1)
  obtain ⟨rs', draws, steps, s1, -, s3, s4⟩ := seeds_spec hG dihedral a.isPurity a.dim hpur h.lens_ne h.increasing h.lens_pos h.mult_pos a.seedOffset h.seed a.nseeds
  refine ⟨steps, ?_, s3, s4⟩
  unfold rbSeq
  simp only [Option.bind_eq_bind]
  rw [show a.pattern.getD [[0]] = a.pats from rfl, hc, Option.bind_some]
  simp only []
  rw [handleMult_some h, Option.bind_some, hg, Option.bind_some]
  refine (congrArg (Option.bind · _) s1).trans ?_
  rfl

end Verif.RB
