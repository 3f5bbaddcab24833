import Verif.Dihedral.LemmasTable2
set_option linter.unusedSimpArgs false
set_option linter.unusedVariables false
/-
C107: the tables of `make_dict_0` and `make_dict_next` hold the CNOT-dihedral elements by the least number of CNOT gates.
-/
namespace Verif.Dihedral
open Verif Verif.Quantum

/-! ### Specification -/

/-- The tables a user builds: `dicts = [make_dict_0(n)]`, then `m` times `dicts.append(make_dict_next(n, dicts))`. -/
def tables (n : ℕ) : ℕ → Option (List (Table n))
  | 0 => (makeDict0 n).map fun d => [d]
  | m + 1 => do
    let ds ← tables n m
    let d ← makeDictNext n ds
    pure (ds ++ [d])

/-- What an entry should be: filed under its element, the gates are X, u1 and CNOT gates on existing distinct qubits, they make the
element, and `k` of them are CNOT gates. -/
structure Entry (n k : ℕ) (p : Elem n × Elem n × List Gate) : Prop where
  key : p.1 = p.2.1
  gates : ∀ g ∈ p.2.2, GateOk n g ∧ Basic g
  makes : fromCircuit n p.2.2 = some p.2.1
  count : (p.2.2.countP fun g => match g with | .cx _ _ => true | _ => false) = k

/-! ### Lemmas -/

theorem cost_count {n : ℕ} {c : List Gate} (hc : OkB n c) :
    (c.countP fun g => match g with | .cx _ _ => true | _ => false) = cost c := by
  induction c with
  | nil => rfl
  | cons g c ih =>
    have h := hc g (by simp)
    rw [List.countP_cons, ih fun a ha => hc a (by simp [ha])]
    cases g <;> simp only [cost] <;> first | exact absurd h.2 id | simp

/-- The table of level `k`: its entries, and which elements it holds. -/
structure Lvl (n k : ℕ) (d : Table n) : Prop where
  wf : Dict.WF d
  key : ∀ p ∈ d, p.1 = p.2.1
  ok : ∀ p ∈ d, OkB n p.2.2
  makes : ∀ p ∈ d, fromCircuit n p.2.2 = some p.2.1
  cost : ∀ p ∈ d, cost p.2.2 = k
  least : ∀ p ∈ d, ∀ c, OkB n c → fromCircuit n c = some p.1 → k ≤ Dihedral.cost c
  all : ∀ c e, OkB n c → fromCircuit n c = some e → Dihedral.cost c = k → (∀ c', OkB n c' → fromCircuit n c' = some e → k ≤ Dihedral.cost c') →
    d.has e = true

theorem lvl_zero (n : ℕ) : ∃ d, makeDict0 n = some d ∧ Lvl n 0 d ∧ d.length = 16 ^ n := by
  obtain ⟨d, h1, h2, h3, h4, h5⟩ := makeDict0_spec n
  have key : ∀ p ∈ d, p.1 = p.2.1 ∧ OkB n p.2.2 ∧ fromCircuit n p.2.2 = some p.2.1 ∧ cost p.2.2 = 0 := by
    intro p hp
    obtain ⟨i, hi, hd, hk⟩ := h4 p hp
    obtain ⟨e, c, a1, a2, a3, a4, -⟩ := digitElem_spec n i
    rw [hd, Option.some.injEq] at a1
    rw [hk, a1]
    exact ⟨rfl, a2, a4, a3⟩
  refine ⟨d, h1, ⟨h2, fun p hp => (key p hp).1, fun p hp => (key p hp).2.1, fun p hp => (key p hp).2.2.1, fun p hp => (key p hp).2.2.2,
    fun _ _ _ _ _ => Nat.zero_le _, ?_⟩, h3⟩
  intro c e hc he h0 _
  obtain ⟨i, hi, dd, hd⟩ := digit_surj hc h0 he
  exact (has_iff _ _).2 ⟨_, h5 i hi _ hd⟩

/-- The invariant of the list of tables. -/
structure Inv (n m : ℕ) (ds : List (Table n)) : Prop where
  len : ds.length = m + 1
  lvl : ∀ k d, ds[k]? = some d → Lvl n k d

theorem Inv.covers {n m : ℕ} {ds : List (Table n)} (h : Inv n m ds) {c : List Gate} {e : Elem n} (hc : OkB n c)
    (he : fromCircuit n c = some e) (hm : cost c ≤ m) : ∃ k d, ds[k]? = some d ∧ k ≤ cost c ∧ d.has e = true := by
  classical
  have hex : ∃ k, ∃ c', OkB n c' ∧ fromCircuit n c' = some e ∧ cost c' = k := ⟨_, c, hc, he, rfl⟩
  obtain ⟨c', h1, h2, h3⟩ := Nat.find_spec hex
  have hle : Nat.find hex ≤ cost c := Nat.find_min' hex ⟨c, hc, he, rfl⟩
  have hlt : Nat.find hex < ds.length := by rw [h.len]; omega
  refine ⟨Nat.find hex, ds[Nat.find hex], List.getElem?_eq_getElem hlt, hle, ?_⟩
  exact (h.lvl _ _ (List.getElem?_eq_getElem hlt)).all c' e h1 h2 h3 fun c'' g1 g2 => Nat.find_min' hex ⟨c'', g1, g2, rfl⟩

theorem inv_next {n m : ℕ} {ds : List (Table n)} (h : Inv n m ds) : ∃ d last, makeDictNext n ds = some d ∧ Inv n (m + 1) (ds ++ [d]) ∧
    ds[m]? = some last ∧ d.length ≤ (nextCandidates last).length := by
  have hlt : m < ds.length := by rw [h.len]; omega
  obtain ⟨last, hlast⟩ : ∃ last, ds[m]? = some last := ⟨_, List.getElem?_eq_getElem hlt⟩
  have hgl : ds.getLast? = some last := by
    rw [List.getLast?_eq_getElem?, h.len]; exact hlast
  have L := h.lvl m last hlast
  have cand : ∀ a ∈ nextCandidates last, ∃ r d, nextElem a = some (r, d) ∧ OkB n d ∧ cost d = m + 1 ∧ fromCircuit n d = some r := by
    rintro ⟨v, i, j, t⟩ ha
    obtain ⟨⟨k, hk⟩, hi, hj, hij, ht⟩ := (mem_nextCandidates last v i j t).1 ha
    obtain ⟨r, d, h1, h2, h3, h4, -⟩ := nextElem_spec (L.ok _ hk) (L.makes _ hk) hi hj hij t
    exact ⟨r, d, h1, h2, by rw [h3, L.cost _ hk], h4⟩
  let g : ((Elem n × List Gate) × ℕ × ℕ × ℕ) → Elem n × List Gate := fun a => (nextElem a).getD (Elem.one n, [])
  have hg : ∀ a ∈ nextCandidates last, nextElem a = some (g a) := by
    intro a ha
    obtain ⟨r, d, h1, -⟩ := cand a ha
    simp only [g, h1, Option.getD_some]
  have hgs : ∀ a ∈ nextCandidates last, OkB n (g a).2 ∧ cost (g a).2 = m + 1 ∧ fromCircuit n (g a).2 = some (g a).1 := by
    intro a ha
    obtain ⟨r, d, h1, h2⟩ := cand a ha
    rw [hg a ha, Option.some.injEq] at h1
    rw [h1]; exact h2
  obtain ⟨s1, s2, s3, s4, s5⟩ := storeFold ds ((nextCandidates last).map g) [] Dict.wf_nil
  set d := ((nextCandidates last).map g).foldl (storeNew ds) [] with hd
  refine ⟨d, last, ?_, ⟨by rw [List.length_append, h.len]; rfl, ?_⟩, hlast, by simpa using s2⟩
  · unfold makeDictNext
    rw [hgl]
    simp only [Option.bind_eq_bind, Option.bind_some]
    rw [foldlM_map_some _ _ g hg (storeNew ds), hd, List.foldl_map]
  · have ent : ∀ p ∈ d, p.1 = p.2.1 ∧ OkB n p.2.2 ∧ fromCircuit n p.2.2 = some p.2.1 ∧ cost p.2.2 = m + 1 ∧ ∀ q ∈ ds, Dict.has q p.1 = false := by
      intro p hp
      rcases s3 p hp with hp | ⟨h1, h2, h3⟩
      · simp at hp
      · obtain ⟨a, ha, hga⟩ := List.mem_map.1 h1
        obtain ⟨b1, b2, b3⟩ := hgs a ha
        rw [hga] at b1 b2 b3
        exact ⟨h2, b1, b3, b2, h3⟩
    intro k q hk
    rcases Nat.lt_or_ge k ds.length with hkl | hkl
    · rw [List.getElem?_append_left hkl] at hk
      exact h.lvl k q hk
    · rw [List.getElem?_append_right hkl] at hk
      obtain ⟨hk0, rfl⟩ : k - ds.length = 0 ∧ d = q := by
        rcases Nat.eq_zero_or_pos (k - ds.length) with h0 | h0
        · rw [h0] at hk; exact ⟨h0, by simpa using hk⟩
        · rw [List.getElem?_eq_none (by simp only [List.length_singleton]; omega)] at hk; exact absurd hk (by simp)
      obtain rfl : k = m + 1 := by rw [h.len] at hkl hk0; omega
      refine ⟨s1, fun p hp => (ent p hp).1, fun p hp => (ent p hp).2.1, fun p hp => (ent p hp).2.2.1, fun p hp => (ent p hp).2.2.2.1, ?_, ?_⟩
      · intro p hp c hc he
        by_contra hlt'
        obtain ⟨k', q, hq, -, hq2⟩ := h.covers hc he (by omega)
        rw [(ent p hp).2.2.2.2 q (List.mem_of_getElem? hq)] at hq2
        exact absurd hq2 (by simp)
      · intro c e hc he hcost hmin
        obtain ⟨c', i, j, t, g1, g2, hi, hj, hij, ht, g3⟩ := last_cx' c hc (by omega)
        obtain ⟨e', he', -⟩ := from_spec c' (okB_ok g1)
        have hgates : OkB n [Gate.cx i j, Gate.u1 (t : ℕ) j] := by
          intro a ha
          simp only [List.mem_cons, List.not_mem_nil, or_false] at ha
          rcases ha with rfl | rfl
          · exact ⟨⟨⟨hi, hj⟩, hij⟩, trivial⟩
          · exact ⟨hj, trivial⟩
        have happ : ∀ b, OkB n b → fromCircuit n b = some e' → fromCircuit n (b ++ [Gate.cx i j, Gate.u1 (t : ℕ) j]) = some e := by
          intro b hb hbe
          rw [← he]
          refine (from_eq_iff _ _ (okB_ok (hb.append hgates)) (okB_ok hc)).2 (Eqv.symm (g3.trans ?_))
          exact ((from_eq_iff c' b (okB_ok g1) (okB_ok hb)).1 (he'.trans hbe.symm)).append (Eqv.refl _)
        have hmem : Dict.has last e' = true := by
          refine L.all c' e' g1 he' (by omega) fun b hb hbe => ?_
          have := hmin _ (hb.append hgates) (happ b hb hbe)
          rw [cost_append] at this
          simp [Dihedral.cost] at this
          omega
        obtain ⟨v, hv⟩ := (has_iff _ _).1 hmem
        have hvk := L.key _ hv
        obtain ⟨r, dd, n1, n2, n3, n4, n5⟩ := nextElem_spec (e := v.1) (c := v.2) (L.ok _ hv) (L.makes _ hv) hi hj hij t
        have hc' : (v, i, j, t) ∈ nextCandidates last := (mem_nextCandidates last v i j t).2 ⟨⟨e', hv⟩, hi, hj, hij, ht⟩
        have hr : r = e := by
          have hmk : fromCircuit n v.2 = some e' := by rw [L.makes _ hv, ← hvk]
          rw [happ v.2 (L.ok _ hv) hmk, Option.some.injEq] at n5
          exact n5.symm
        have hgv : (g (v, i, j, t)).1 = e := by
          have := hg _ hc'
          rw [show nextElem (v, i, j, t) = some (r, dd) from n1, Option.some.injEq] at this
          rw [← this]; exact hr
        rw [← hgv]
        refine s5 _ (List.mem_map.2 ⟨_, hc', rfl⟩) ?_
        intro q hq
        rw [hgv]
        by_contra hne
        rw [Bool.not_eq_false] at hne
        obtain ⟨k', hk'⟩ := List.getElem?_of_mem hq
        obtain ⟨w, hw⟩ := (has_iff _ _).1 hne
        have Lq := h.lvl k' q hk'
        have h5 := hmin w.2 (Lq.ok _ hw) (by rw [Lq.makes _ hw, ← Lq.key _ hw])
        rw [Lq.cost _ hw] at h5
        have : k' < ds.length := by
          by_contra hge
          rw [List.getElem?_eq_none (by omega)] at hk'
          exact absurd hk' (by simp)
        rw [h.len] at this
        omega

theorem tables_inv (n m : ℕ) : ∃ ds, tables n m = some ds ∧ Inv n m ds := by
  induction m with
  | zero =>
    obtain ⟨d, h1, h2, -⟩ := lvl_zero n
    refine ⟨[d], by simp [tables, h1], rfl, fun k q hk => ?_⟩
    cases k with
    | zero =>
      obtain rfl : d = q := by simpa using hk
      exact h2
    | succ k => simp at hk
  | succ m ih =>
    obtain ⟨ds, h1, h2⟩ := ih
    obtain ⟨d, last, h3, h4, -⟩ := inv_next h2
    exact ⟨ds ++ [d], by simp [tables, h1, h3], h4⟩

/-- Circuits that implement the same operator up to a global phase have the same element. -/
theorem same_elem {n : ℕ} {c d : List Gate} (hc : ∀ g ∈ c, GateOk n g) (hd : ∀ g ∈ d, GateOk n g) {U V : (Fin n → Bool) → State (Fin n) ℂ}
    (hU : ∀ x, applyCircuit c (ket x) = some (U x)) (hV : ∀ x, applyCircuit d (ket x) = some (V x)) (h : SameOp U V) :
    fromCircuit n c = fromCircuit n d := by
  obtain ⟨r, h1, v1, U', h2, h3⟩ := C37_circuit c hc
  obtain ⟨s, h4, v2, V', h5, h6⟩ := C37_circuit d hd
  have e1 : U = U' := funext fun x => by have := hU x; rw [h2 x, Option.some.injEq] at this; exact this.symm
  have e2 : V = V' := funext fun x => by have := hV x; rw [h5 x, Option.some.injEq] at this; exact this.symm
  subst e1 e2
  rw [h1, h4, eq_of_sameOp v1 v2 (h3.trans (h.trans h6.symm))]

/-! ### C107 -/

/-- C107: the tables can be built up to any number of CNOT gates; every entry of table `k` is filed under its own element, comes with a
circuit of X, u1 and exactly `k` CNOT gates that makes it, and is filed once. -/
theorem C107_entries (n m : ℕ) : ∃ ds, tables n m = some ds ∧ ds.length = m + 1 ∧
    ∀ k d, ds[k]? = some d → (d.map (·.1)).Nodup ∧ ∀ p ∈ d, Entry n k p := by
  obtain ⟨ds, h1, h2⟩ := tables_inv n m
  refine ⟨ds, h1, h2.len, fun k d hk => ?_⟩
  have L := h2.lvl k d hk
  exact ⟨L.wf, fun p hp => ⟨L.key p hp, L.ok p hp, L.makes p hp, by rw [cost_count (L.ok p hp), L.cost p hp]⟩⟩

/-- C107: the circuits in the tables use the least possible number of CNOT gates: any circuit of CNOT-dihedral gates that implements the
same operator up to a global phase has at least as many (a CZ gate counting as two). -/
theorem C107_optimal (n m : ℕ) (ds : List (Table n)) (hds : tables n m = some ds) (k : ℕ) (d : Table n) (hd : ds[k]? = some d)
    (p : Elem n × Elem n × List Gate) (hp : p ∈ d) (c : List Gate) (hc : ∀ g ∈ c, GateOk n g) (U V : (Fin n → Bool) → State (Fin n) ℂ)
    (hU : ∀ x, applyCircuit p.2.2 (ket x) = some (U x)) (hV : ∀ x, applyCircuit c (ket x) = some (V x)) (h : SameOp U V) :
    k ≤ cost c := by
  obtain ⟨ds', h1, h2⟩ := tables_inv n m
  obtain rfl : ds = ds' := by rw [hds, Option.some.injEq] at h1; exact h1
  have L := h2.lvl k d hd
  have he := same_elem (okB_ok (L.ok p hp)) hc hU hV h
  rw [L.makes p hp] at he
  have := L.least p hp _ (basic_ok c hc) (by
    unfold fromCircuit
    rw [append_basic]
    rw [L.key p hp]
    exact he.symm)
  rwa [cost_basic] at this

/-- C107: nothing is missing and nothing occurs twice: the element of every circuit with at most `m` CNOT gates (a CZ gate counting as
two) is in exactly one of the tables `0, …, m`, with a number of CNOT gates that is not larger. -/
theorem C107_complete (n m : ℕ) (ds : List (Table n)) (hds : tables n m = some ds) (c : List Gate) (hc : ∀ g ∈ c, GateOk n g)
    (hm : cost c ≤ m) : ∃ e, fromCircuit n c = some e ∧ ∃ k ≤ cost c,
      (∃ d, ds[k]? = some d ∧ ∃ circ, (e, e, circ) ∈ d) ∧
      ∀ k', (∃ d, ds[k']? = some d ∧ ∃ circ, (e, e, circ) ∈ d) → k' = k := by
  obtain ⟨ds', h1, h2⟩ := tables_inv n m
  obtain rfl : ds = ds' := by rw [hds, Option.some.injEq] at h1; exact h1
  have hb := basic_ok c hc
  have hf : fromCircuit n (c.flatMap basicGates) = fromCircuit n c := append_basic c _
  obtain ⟨e, he, -⟩ := from_spec c hc
  refine ⟨e, he, ?_⟩
  obtain ⟨k, d, g1, g2, g3⟩ := h2.covers hb (hf.trans he) (by rw [cost_basic]; exact hm)
  rw [cost_basic] at g2
  have ent : ∀ (k : ℕ) (d : Table n), ds[k]? = some d → Dict.has d e = true → ∃ circ, (e, e, circ) ∈ d := by
    intro k d hk hh
    obtain ⟨v, hv⟩ := (has_iff _ _).1 hh
    have hkey : e = v.1 := (h2.lvl k d hk).key _ hv
    exact ⟨v.2, by rw [show ((e, v.2) : Elem n × List Gate) = v from by rw [hkey]]; exact hv⟩
  refine ⟨k, g2, ⟨d, g1, ent k d g1 g3⟩, ?_⟩
  rintro k' ⟨d', f1, circ, f3⟩
  have L := h2.lvl k d g1
  have L' := h2.lvl k' d' f1
  obtain ⟨circ', f4⟩ := ent k d g1 g3
  have a1 := L.least _ f4 circ (L'.ok _ f3) (L'.makes _ f3)
  have a2 := L'.least _ f3 circ' (L.ok _ f4) (L.makes _ f4)
  rw [L'.cost _ f3] at a1
  rw [L.cost _ f4] at a2
  omega

/-- C107: every element of the group turns up once the tables go far enough. -/
theorem C107_every_element {n : ℕ} (hn : 0 < n) (e : Elem n) (he : isCnotDihedral e = true) :
    ∃ m ds, tables n m = some ds ∧ ∃ d ∈ ds, ∃ circ, (e, e, circ) ∈ d := by
  obtain ⟨c, h1, h2, h3, -⟩ := C39_round_trip hn e he
  obtain ⟨ds, h4, -⟩ := tables_inv n (cost c)
  obtain ⟨e', h5, k, -, ⟨d, h6, h7⟩, -⟩ := C107_complete n (cost c) ds h4 c h2 (le_refl _)
  rw [h3, Option.some.injEq] at h5
  subst h5
  exact ⟨_, ds, h4, d, List.mem_of_getElem? h6, h7⟩

/-- C107: the documented sizes: `16^n` elements without CNOT gates, and at most `4 (n² - n)` times as many in a table as in the one
before. -/
theorem C107_sizes (n m : ℕ) : ∃ ds, tables n m = some ds ∧ (∃ d, ds[0]? = some d ∧ d.length = 16 ^ n) ∧
    ∀ k d d', ds[k]? = some d → ds[k + 1]? = some d' → d'.length ≤ 4 * (n ^ 2 - n) * d.length := by
  have hcand : ∀ last : Table n, (nextCandidates last).length = 4 * (n ^ 2 - n) * last.length := by
    intro last
    unfold nextCandidates Dict.values
    have hin : ∀ i ∈ List.range n, ((List.range n).filter fun j => decide (i ≠ j)).length = n - 1 := by
      intro i hi
      have h1 : ((List.range n).filter fun j => decide (i ≠ j)) = (List.range n).erase i := by
        rw [List.Nodup.erase_eq_filter List.nodup_range]
        refine List.filter_congr fun j _ => ?_
        rw [bne]
        by_cases h : i = j
        · subst h; simp
        · simp [h, Ne.symm h]
      rw [h1, List.length_erase_of_mem hi, List.length_range]
    have hsum : ∀ v : Elem n × List Gate, ((List.range n).flatMap fun i => ((List.range n).filter fun j => decide (i ≠ j)).flatMap fun j =>
        (List.range 4).map fun t => (v, i, j, t)).length = 4 * (n ^ 2 - n) := by
      intro v
      rw [List.length_flatMap]
      have : ∀ i ∈ List.range n, (((List.range n).filter fun j => decide (i ≠ j)).flatMap fun j =>
          (List.range 4).map fun t => (v, i, j, t)).length = 4 * (n - 1) := by
        intro i hi
        rw [List.length_flatMap]
        simp only [List.length_map, List.length_range, List.map_const', List.sum_replicate, hin i hi, smul_eq_mul]
        ring
      rw [List.map_congr_left this]
      simp only [List.map_const', List.sum_replicate, List.length_range, smul_eq_mul]
      rw [show n ^ 2 - n = n * (n - 1) by rw [Nat.mul_sub, mul_one, sq]]
      ring
    rw [List.length_flatMap]
    simp only [hsum, List.map_const', List.sum_replicate, List.length_map, smul_eq_mul]
    ring
  induction m with
  | zero =>
    obtain ⟨d, h1, h2, h3⟩ := lvl_zero n
    refine ⟨[d], by simp [tables, h1], ⟨d, rfl, h3⟩, fun k a b hk hk' => by simp at hk'⟩
  | succ m ih =>
    obtain ⟨ds, h1, h2, h3⟩ := ih
    obtain ⟨ds', h4, h5⟩ := tables_inv n m
    obtain rfl : ds = ds' := by rw [h1, Option.some.injEq] at h4; exact h4
    obtain ⟨d, last, h6, h7, h8, h9⟩ := inv_next h5
    refine ⟨ds ++ [d], by simp [tables, h1, h6], ?_, fun k a b hk hk' => ?_⟩
    · obtain ⟨d0, g1, g2⟩ := h2
      exact ⟨d0, by rw [List.getElem?_append_left (by rw [h5.len]; omega)]; exact g1, g2⟩
    · rcases Nat.lt_or_ge (k + 1) ds.length with hl | hl
      · rw [List.getElem?_append_left hl] at hk'
        rw [List.getElem?_append_left (by omega)] at hk
        exact h3 k a b hk hk'
      · rw [List.getElem?_append_right hl] at hk'
        have hk1 : k + 1 = ds.length := by
          by_contra hne
          rw [List.getElem?_eq_none (by simp only [List.length_singleton]; omega)] at hk'
          exact absurd hk' (by simp)
        rw [hk1, Nat.sub_self] at hk'
        obtain rfl : d = b := by simpa using hk'
        rw [List.getElem?_append_left (by omega)] at hk
        obtain rfl : k = m := by rw [h5.len] at hk1; omega
        rw [h8, Option.some.injEq] at hk
        subst hk
        rw [hcand] at h9
        exact h9

/-- One qubit: 16 elements without CNOT gates and no further ones.  Two qubits: CZ, a circuit that C107 speaks about. -/
example : (∃ d, makeDict0 1 = some d ∧ d.length = 16) ∧ (∃ ds, tables 1 1 = some ds ∧ ds.map List.length = [16, 0]) := by
  constructor
  · exact ⟨_, rfl, by decide +kernel⟩
  · exact ⟨_, rfl, by decide +kernel⟩
example : (∀ g ∈ [Gate.cz 0 1, Gate.x 1], GateOk 2 g) ∧ cost [Gate.cz 0 1, Gate.x 1] = 2 := by
  refine ⟨?_, rfl⟩
  intro g hg
  simp only [List.mem_cons, List.not_mem_nil, or_false] at hg
  rcases hg with rfl | rfl
  · exact ⟨⟨by decide, by decide⟩, by decide⟩
  · exact (by decide : (1 : ℕ) < 2)

end Verif.Dihedral
