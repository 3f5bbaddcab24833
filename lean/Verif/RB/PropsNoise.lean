import Verif.RB.LemmasNoise3
set_option linter.unusedSimpArgs false
set_option linter.unusedVariables false
/-
C108: on a device with depolarising noise the RB circuits produce the decay curve that the fitters fit, and the numbers
the fitters compute from its parameters are the error rates of the device.
-/
namespace Verif.RB
open Verif.Quantum Complex
variable {E : Type} {Mem : ℕ → E → Prop} {N : ℕ}

theorem fitFun_int (m : ℕ) (x : ℤ) (hx : (m : ℤ) = x) (a α b : ℝ) : Fit.fitFun x a α b = a * α ^ m + b := by
  unfold Fit.fitFun
  rw [← hx, Int.cast_natCast, Real.rpow_natCast]

/-- The events exist: an event list with the given events on the subset. -/
theorem runs_self (pats : List (List ℕ)) (pat : List ℕ) (l : List (List Ins × ℝ)) : Runs N pats pat l (l.map fun cp => (pat, cp)) := by
  constructor
  · rw [List.filter_eq_self.2 ?_, List.map_map]
    · simp [Function.comp_def]
    · intro ev hev
      obtain ⟨cp, -, rfl⟩ := List.mem_map.1 hev
      simp
  · intro ev hev hne
    obtain ⟨cp, -, rfl⟩ := List.mem_map.1 hev
    exact absurd rfl hne

/-- C108: plain RB.  The circuit of any seed and length is, on any subset, the circuits of the random elements (as many as the returned
length says) and the circuit of the inverse; if the device depolarises the subset with strength `1 - p` after every element and with
strength `1 - q` after the inverse, then, whatever happens on the other subsets and in whatever order, the subset reads all zeros with the
probability `A p^x + B` of the fitting function, where `A = (1 - 2^-n) q` and `B = 2^-n`, the same for all lengths and seeds. -/
theorem C108_plain {groups : Bool → Group E} {rand : Bool → Rand E} {a : Args E} {dihedral : Bool} (hg : groupOf a.groupGates = some dihedral)
    (hL : Lawful (groups dihedral) Mem) (hr : ∀ p ∈ a.pats, ∀ rs k, Mem p.length (rand dihedral p.length rs k)) (h : ValidArgs Mem a)
    (hN : ∀ q ∈ a.pats.flatten, q < N) {ret : Ret} (hret : rbSeq groups rand a = some ret) {j k i : ℕ} {row : List Circ} {c : Circ} {pat : List ℕ}
    {xr : List ℤ} {x : ℤ} (hrow : ret.plain[j]? = some row) (hc : row[k]? = some c) (hi : a.pats[i]? = some pat) (hxr : ret.lengths[i]? = some xr)
    (hx : xr[k]? = some x) :
    ∃ gs body blocks inv, Drawn (rand dihedral) pat.length gs ∧ (gs.length : ℤ) = x ∧ gs.mapM (embed (groups dihedral) pat) = some blocks ∧
      c.ins = body ++ measures a.pats.flatten ∧ part pat body = blocks.flatten ++ inv ∧
      ∀ (p q : ℝ) (evs : List Event), Runs N a.pats pat (blocks.map (fun b => (b, p)) ++ [(inv, q)]) evs →
        outcome pat (fun _ => false) (noisy evs (start N)) = Fit.fitFun x ((1 - 1 / 2 ^ pat.length) * q) p (1 / 2 ^ pat.length) := by
  have hG := good_of_valid hL h hr hN
  obtain ⟨steps, s1, s2, s3, -⟩ := ret_steps hg hL hr h hN hret
  obtain ⟨s, L, pre, ipre, suf, rfl, hs, hlen⟩ := step_of s1 s3 hrow hc s2 hxr hx
  obtain ⟨body, b1, b2, -⟩ := hs.std
  have hd := hs.drawn i pat hi
  have hmem := List.mem_of_getElem? hi
  obtain ⟨blocks, inv, q1, q2, q3, q4, q5⟩ := seq_part hL hG.pats b1 hi (drawn_mem hd (hr pat hmem))
  refine ⟨L i, body, blocks, inv, hd, hlen, q1, by rw [b2]; rfl, q2, fun p q evs hev => ?_⟩
  have ht := hG.pats.tgt pat hmem
  rw [noisy_zero hG.pats.tgt ht (pats_dis hG.pats hi) evs _ ?_ hev, fitFun_int blocks.length x (by rw [mapM_length q1]; exact hlen)]
  · simp only [List.map_append, List.map_map, List.prod_append, List.map_cons, List.map_nil, List.prod_cons, List.prod_nil, mul_one]
    rw [show blocks.map (Prod.snd ∘ fun b => (b, p)) = List.replicate blocks.length p from List.eq_replicate_iff.2 ⟨by simp, by simp⟩, List.prod_replicate]
    ring
  · simp only [List.map_append, List.map_map, List.map_cons, List.map_nil, List.flatten_append, List.flatten_cons, List.flatten_nil, List.append_nil]
    rw [show blocks.map (Prod.fst ∘ fun b => (b, p)) = blocks by simp [Function.comp_def]]
    exact q5
  · intro cp hcp
    refine OnSub.of_gates ht ?_
    rcases List.mem_append.1 hcp with hcp | hcp
    · obtain ⟨b, hb, rfl⟩ := List.mem_map.1 hcp
      exact q3 b hb
    · rw [List.mem_singleton.1 hcp]; exact q4

/-- C108: RB in the X basis (CNOT-dihedral group): the same curve, with the strengths `1 - q₀`, `1 - q₁` of the noise of the Hadamard gates
in the amplitude. -/
theorem C108_xbasis {groups : Bool → Group E} {rand : Bool → Rand E} {a : Args E} {dihedral : Bool} (hg : groupOf a.groupGates = some dihedral)
    (hL : Lawful (groups dihedral) Mem) (hr : ∀ p ∈ a.pats, ∀ rs k, Mem p.length (rand dihedral p.length rs k)) (h : ValidArgs Mem a)
    (hN : ∀ q ∈ a.pats.flatten, q < N) {ret : Ret} (hret : rbSeq groups rand a = some ret) {j k i : ℕ} {row : List Circ} {c : Circ} {pat : List ℕ}
    {xr : List ℤ} {x : ℤ} (hrow : ret.xbasis[j]? = some row) (hc : row[k]? = some c) (hi : a.pats[i]? = some pat) (hxr : ret.lengths[i]? = some xr)
    (hx : xr[k]? = some x) :
    ∃ gs body blocks inv, Drawn (rand dihedral) pat.length gs ∧ (gs.length : ℤ) = x ∧ gs.mapM (embed (groups dihedral) pat) = some blocks ∧
      c.ins = hBefore a.pats.flatten ++ body ++ hAfter a.pats.flatten ++ measures a.pats.flatten ∧ part pat body = blocks.flatten ++ inv ∧
      ∀ (p q q₀ q₁ : ℝ) (evs : List Event), Runs N a.pats pat ((part pat (hBefore a.pats.flatten), q₀) :: blocks.map (fun b => (b, p)) ++
          [(inv, q), (part pat (hAfter a.pats.flatten), q₁)]) evs →
        outcome pat (fun _ => false) (noisy evs (start N)) = Fit.fitFun x ((1 - 1 / 2 ^ pat.length) * (q₀ * q * q₁)) p (1 / 2 ^ pat.length) := by
  have hG := good_of_valid hL h hr hN
  obtain ⟨steps, s1, s2, -, s3, -⟩ := ret_steps hg hL hr h hN hret
  have hdih : dihedral = true := by
    rcases s3 with s3 | s3
    · rw [s3] at hrow; simp at hrow
    · exact s3.1
  obtain ⟨s, L, pre, ipre, suf, rfl, hs, hlen⟩ := step_of s1 (s3.imp id And.right) hrow hc s2 hxr hx
  obtain ⟨body, b1, -, b2, -⟩ := hs.std
  have hd := hs.drawn i pat hi
  have hmem := List.mem_of_getElem? hi
  obtain ⟨blocks, inv, q1, q2, q3, q4, q5⟩ := seq_part hL hG.pats b1 hi (drawn_mem hd (hr pat hmem))
  refine ⟨L i, body, blocks, inv, hd, hlen, q1, by rw [b2 hdih]; rfl, q2, fun p q q₀ q₁ evs hev => ?_⟩
  have ht := hG.pats.tgt pat hmem
  obtain ⟨o1, o2⟩ := h_ok hN
  rw [noisy_zero hG.pats.tgt ht (pats_dis hG.pats hi) evs _ ?_ hev, fitFun_int blocks.length x (by rw [mapM_length q1]; exact hlen)]
  · simp only [List.cons_append, List.map_append, List.map_map, List.prod_append, List.map_cons, List.map_nil, List.prod_cons, List.prod_nil, mul_one]
    rw [show blocks.map (Prod.snd ∘ fun b => (b, p)) = List.replicate blocks.length p from List.eq_replicate_iff.2 ⟨by simp, by simp⟩, List.prod_replicate]
    ring
  · simp only [List.cons_append, List.map_append, List.map_map, List.map_cons, List.map_nil, List.flatten_append, List.flatten_cons, List.flatten_nil, List.append_nil]
    rw [show blocks.map (Prod.fst ∘ fun b => (b, p)) = blocks by simp [Function.comp_def]]
    have := h_same (pat := pat) hN h.distinct (c := blocks.flatten ++ inv) ?_ q5
    · simpa [List.append_assoc] using this
    · intro j hj
      rcases List.mem_append.1 hj with hj | hj
      · obtain ⟨b, hb, hj⟩ := List.mem_flatten.1 hj
        exact (q3 b hb j hj).1
      · exact (q4 j hj).1
  · intro cp hcp
    refine OnSub.of_gates ht ?_
    rw [List.cons_append, List.mem_cons, List.mem_append, List.mem_map, List.mem_cons, List.mem_singleton] at hcp
    rcases hcp with rfl | ⟨b, hb, rfl⟩ | rfl | rfl
    · exact part_gatesOn o1
    · exact q3 b hb
    · exact q4
    · exact part_gatesOn o2

theorem weave_mem {rand : Rand E} {L : ℕ → List E} {l : List E} {i n : ℕ} {e : E} (he : l[i]? = some e) (hm : Mem n e)
    (hL : ∀ g ∈ L i, Mem n g) : ∀ g ∈ weave L l i, Mem n g := by
  intro g hg
  unfold weave at hg
  rw [he] at hg
  obtain ⟨g', h1, h2⟩ := List.mem_flatMap.1 hg
  simp at h2
  rcases h2 with rfl | rfl
  · exact hL _ h1
  · exact hm

theorem prod_weave (bs : List (List Ins)) (g : List Ins) (p r : ℝ) :
    ((bs.flatMap fun b => [(b, p), (g, r)]).map (·.2)).prod = (p * r) ^ bs.length ∧
      (bs.flatMap fun b => [(b, p), (g, r)]).map (·.1) = bs.flatMap fun b => [b, g] := by
  induction bs with
  | nil => simp
  | cons b bs ih =>
    simp only [List.flatMap_cons, List.map_append, List.prod_append, ih.1, ih.2, List.map_cons, List.map_nil, List.prod_cons, List.prod_nil,
      List.length_cons]
    exact ⟨by ring, trivial⟩

theorem mem_weave {bs : List (List Ins)} {g : List Ins} {p r : ℝ} {cp : List Ins × ℝ} (h : cp ∈ bs.flatMap fun b => [(b, p), (g, r)]) :
    cp.1 ∈ bs ∧ cp.1 ∈ bs.flatMap (fun b => [b, g]) ∨ cp.1 = g ∧ cp.1 ∈ bs.flatMap (fun b => [b, g]) := by
  obtain ⟨b, hb, h⟩ := List.mem_flatMap.1 h
  simp at h
  rcases h with rfl | rfl
  · exact Or.inl ⟨hb, List.mem_flatMap.2 ⟨b, hb, by simp⟩⟩
  · exact Or.inr ⟨rfl, List.mem_flatMap.2 ⟨b, hb, by simp⟩⟩

/-- C108: interleaved RB.  With strength `1 - p` after the random elements and strength `1 - r` after the interleaved element the decay
parameter is `p r`; the lengths are those of the plain circuits. -/
theorem C108_interleaved {groups : Bool → Group E} {rand : Bool → Rand E} {a : Args E} {dihedral : Bool} (hg : groupOf a.groupGates = some dihedral)
    (hL : Lawful (groups dihedral) Mem) (hr : ∀ p ∈ a.pats, ∀ rs k, Mem p.length (rand dihedral p.length rs k)) (h : ValidArgs Mem a)
    (hN : ∀ q ∈ a.pats.flatten, q < N) {ret : Ret} (hret : rbSeq groups rand a = some ret) {j k i : ℕ} {row : List Circ} {c : Circ} {pat : List ℕ}
    {xr : List ℤ} {x : ℤ} (hrow : ret.inters[j]? = some row) (hc : row[k]? = some c) (hi : a.pats[i]? = some pat) (hxr : ret.lengths[i]? = some xr)
    (hx : xr[k]? = some x) :
    ∃ gs l e body blocks g inv, Drawn (rand dihedral) pat.length gs ∧ (gs.length : ℤ) = x ∧ gs.mapM (embed (groups dihedral) pat) = some blocks ∧
      a.inter = some l ∧ l[i]? = some (pat.length, e) ∧ embed (groups dihedral) pat e = some g ∧
      c.ins = body ++ measures a.pats.flatten ∧ part pat body = (blocks.flatMap fun b => [b, g]).flatten ++ inv ∧
      ∀ (p r q : ℝ) (evs : List Event), Runs N a.pats pat ((blocks.flatMap fun b => [(b, p), (g, r)]) ++ [(inv, q)]) evs →
        outcome pat (fun _ => false) (noisy evs (start N)) = Fit.fitFun x ((1 - 1 / 2 ^ pat.length) * q) (p * r) (1 / 2 ^ pat.length) := by
  have hG := good_of_valid hL h hr hN
  obtain ⟨steps, s1, s2, -, -, s3, -⟩ := ret_steps hg hL hr h hN hret
  have hint : a.inter.isSome = true := by
    rcases s3 with s3 | s3
    · rw [s3] at hrow; simp at hrow
    · exact s3.1
  obtain ⟨l, hl⟩ := Option.isSome_iff_exists.1 hint
  obtain ⟨s, L, pre, ipre, suf, rfl, hs, hlen⟩ := step_of s1 (s3.imp id And.right) hrow hc s2 hxr hx
  have hl' : a.cfg.inter = some (l.map (·.2)) := by unfold Args.cfg; rw [hl]; rfl
  obtain ⟨body, b1, b2, -⟩ := hs.int _ hl'
  have hd := hs.drawn i pat hi
  have hmem := List.mem_of_getElem? hi
  have ht := hG.pats.tgt pat hmem
  obtain ⟨e, he, hme⟩ := hG.int _ hl' i pat hi
  obtain ⟨blocks', inv, q1, q2, q3, q4, q5⟩ := seq_part hL hG.pats b1 hi (weave_mem (rand := rand dihedral) he hme (drawn_mem hd (hr pat hmem)))
  obtain ⟨-, g, -, hge, -⟩ := embed_spec (N := N) hL ht hme
  obtain ⟨blocks, hb, rfl⟩ := mapM_weave hge (by unfold weave at q1; rw [he] at q1; exact q1)
  have hle : l[i]? = some (pat.length, e) := by
    rw [List.getElem?_map, Option.map_eq_some_iff] at he
    obtain ⟨⟨n, e'⟩, h1, rfl⟩ := he
    have := congrArg (·[i]?) (h.inter l hl).1
    simp only [List.getElem?_map, h1, hi, Option.map_some, Option.some.injEq] at this
    subst this; exact h1
  refine ⟨L i, l, e, body, blocks, g, inv, hd, hlen, hb, hl, hle, hge, by rw [b2]; rfl, q2, fun p r q evs hev => ?_⟩
  obtain ⟨w1, w2⟩ := prod_weave blocks g p r
  rw [noisy_zero hG.pats.tgt ht (pats_dis hG.pats hi) evs _ ?_ hev, fitFun_int blocks.length x (by rw [mapM_length hb]; exact hlen)]
  · rw [List.map_append, List.prod_append, w1]
    simp only [List.map_cons, List.map_nil, List.prod_cons, List.prod_nil, mul_one]
    ring
  · rw [List.map_append, List.flatten_append, w2]
    simpa using q5
  · intro cp hcp
    refine OnSub.of_gates ht ?_
    rcases List.mem_append.1 hcp with hcp | hcp
    · rcases mem_weave hcp with ⟨-, hcp⟩ | ⟨-, hcp⟩ <;> exact q3 _ hcp
    · rw [List.mem_singleton.1 hcp]; exact q4

/-- C108: interleaved RB in the X basis. -/
theorem C108_interleaved_xbasis {groups : Bool → Group E} {rand : Bool → Rand E} {a : Args E} {dihedral : Bool} (hg : groupOf a.groupGates = some dihedral)
    (hL : Lawful (groups dihedral) Mem) (hr : ∀ p ∈ a.pats, ∀ rs k, Mem p.length (rand dihedral p.length rs k)) (h : ValidArgs Mem a)
    (hN : ∀ q ∈ a.pats.flatten, q < N) {ret : Ret} (hret : rbSeq groups rand a = some ret) {j k i : ℕ} {row : List Circ} {c : Circ} {pat : List ℕ}
    {xr : List ℤ} {x : ℤ} (hrow : ret.xinters[j]? = some row) (hc : row[k]? = some c) (hi : a.pats[i]? = some pat) (hxr : ret.lengths[i]? = some xr)
    (hx : xr[k]? = some x) :
    ∃ gs l e body blocks g inv, Drawn (rand dihedral) pat.length gs ∧ (gs.length : ℤ) = x ∧ gs.mapM (embed (groups dihedral) pat) = some blocks ∧
      a.inter = some l ∧ l[i]? = some (pat.length, e) ∧ embed (groups dihedral) pat e = some g ∧
      c.ins = hBefore a.pats.flatten ++ body ++ hAfter a.pats.flatten ++ measures a.pats.flatten ∧
      part pat body = (blocks.flatMap fun b => [b, g]).flatten ++ inv ∧
      ∀ (p r q q₀ q₁ : ℝ) (evs : List Event), Runs N a.pats pat ((part pat (hBefore a.pats.flatten), q₀) :: (blocks.flatMap fun b => [(b, p), (g, r)]) ++
          [(inv, q), (part pat (hAfter a.pats.flatten), q₁)]) evs →
        outcome pat (fun _ => false) (noisy evs (start N)) = Fit.fitFun x ((1 - 1 / 2 ^ pat.length) * (q₀ * q * q₁)) (p * r) (1 / 2 ^ pat.length) := by
  have hG := good_of_valid hL h hr hN
  obtain ⟨steps, s1, s2, -, -, -, s3, -⟩ := ret_steps hg hL hr h hN hret
  have hint : a.inter.isSome = true ∧ dihedral = true := by
    rcases s3 with s3 | s3
    · rw [s3] at hrow; simp at hrow
    · exact ⟨s3.1, s3.2.1⟩
  obtain ⟨l, hl⟩ := Option.isSome_iff_exists.1 hint.1
  obtain ⟨s, L, pre, ipre, suf, rfl, hs, hlen⟩ := step_of s1 (s3.imp id fun h => h.2.2) hrow hc s2 hxr hx
  have hl' : a.cfg.inter = some (l.map (·.2)) := by unfold Args.cfg; rw [hl]; rfl
  obtain ⟨body, b1, -, b2⟩ := hs.int _ hl'
  have hd := hs.drawn i pat hi
  have hmem := List.mem_of_getElem? hi
  have ht := hG.pats.tgt pat hmem
  obtain ⟨e, he, hme⟩ := hG.int _ hl' i pat hi
  obtain ⟨blocks', inv, q1, q2, q3, q4, q5⟩ := seq_part hL hG.pats b1 hi (weave_mem (rand := rand dihedral) he hme (drawn_mem hd (hr pat hmem)))
  obtain ⟨-, g, -, hge, -⟩ := embed_spec (N := N) hL ht hme
  obtain ⟨blocks, hb, rfl⟩ := mapM_weave hge (by unfold weave at q1; rw [he] at q1; exact q1)
  have hle : l[i]? = some (pat.length, e) := by
    rw [List.getElem?_map, Option.map_eq_some_iff] at he
    obtain ⟨⟨n, e'⟩, h1, rfl⟩ := he
    have := congrArg (·[i]?) (h.inter l hl).1
    simp only [List.getElem?_map, h1, hi, Option.map_some, Option.some.injEq] at this
    subst this; exact h1
  refine ⟨L i, l, e, body, blocks, g, inv, hd, hlen, hb, hl, hle, hge, by rw [b2 hint.2]; rfl, q2, fun p r q q₀ q₁ evs hev => ?_⟩
  obtain ⟨w1, w2⟩ := prod_weave blocks g p r
  obtain ⟨o1, o2⟩ := h_ok hN
  rw [noisy_zero hG.pats.tgt ht (pats_dis hG.pats hi) evs _ ?_ hev, fitFun_int blocks.length x (by rw [mapM_length hb]; exact hlen)]
  · rw [List.cons_append, List.map_cons, List.map_append, List.prod_cons, List.prod_append, w1]
    simp only [List.map_cons, List.map_nil, List.prod_cons, List.prod_nil, mul_one]
    ring
  · rw [List.cons_append, List.map_cons, List.map_append, List.flatten_cons, List.flatten_append, w2]
    have := h_same (pat := pat) hN h.distinct (c := (blocks.flatMap fun b => [b, g]).flatten ++ inv) ?_ q5
    · simpa only [List.map_cons, List.map_nil, List.flatten_cons, List.flatten_nil, List.append_nil, List.append_assoc] using this
    · intro j hj
      rcases List.mem_append.1 hj with hj | hj
      · obtain ⟨b, hb, hj⟩ := List.mem_flatten.1 hj
        exact (q3 b hb j hj).1
      · exact (q4 j hj).1
  · intro cp hcp
    refine OnSub.of_gates ht ?_
    rw [List.cons_append, List.mem_cons, List.mem_append, List.mem_cons, List.mem_singleton] at hcp
    rcases hcp with rfl | hcp | rfl | rfl
    · exact part_gatesOn o1
    · rcases mem_weave hcp with ⟨-, hcp⟩ | ⟨-, hcp⟩ <;> exact q3 _ hcp
    · exact q4
    · exact part_gatesOn o2

/-- Two subsets: the circuit of seed 0 and the first length has two elements on subset `[0]`; with strength 1/2 after each of them (and a
perfect inverse) qubit 0 reads zero with probability 1/2 · (1/2)² + 1/2. -/
example : ∃ ret row c, rbSeq (fun _ => freeGroup) (fun _ => exRand) exArgs = some ret ∧ ret.plain[0]? = some row ∧ row[0]? = some c ∧
    ∃ (body : List Ins) (blocks : List (List Ins)) (inv : List Ins), c.ins = body ++ measures [3, 1, 0] ∧ part [0] body = blocks.flatten ++ inv ∧ blocks.length = 2 ∧
      ∃ evs, Runs 4 [[3, 1], [0]] [0] (blocks.map (fun b => (b, 1 / 2)) ++ [(inv, 1)]) evs ∧
        outcome [0] (fun _ => false) (noisy evs (start 4)) = 5 / 8 := by
  have hr : ∀ p ∈ exArgs.pats, ∀ rs k, FreeMem p.length (exRand p.length rs k) := by
    intro p hp rs k
    have : p = [3, 1] ∨ p = [0] := by simpa [exArgs, Args.pats] using hp
    rcases this with rfl | rfl
    · exact exRand_mem 2 (Or.inr rfl) rs k
    · exact exRand_mem 1 (Or.inl rfl) rs k
  have hN : ∀ q ∈ exArgs.pats.flatten, q < 4 := by decide
  have hsome : ∃ ret row c xr, rbSeq (fun _ => freeGroup) (fun _ => exRand) exArgs = some ret ∧ ret.plain[0]? = some row ∧ row[0]? = some c ∧
      ret.lengths[1]? = some xr ∧ xr[0]? = some 2 := by
    obtain ⟨steps, h1, h2, h3⟩ := C42_family (groups := fun _ => freeGroup) (rand := fun _ => exRand) (dihedral := false) rfl free_lawful hr exArgs_valid hN
    have hlen : steps.length = 2 := h1
    obtain ⟨l, hl⟩ : ∃ l, steps[0]? = some l := ⟨steps[0], List.getElem?_eq_getElem (by omega)⟩
    have hl3 : l.length = 3 := (h2 0 l hl).1
    refine ⟨_, l.map Step.std, l[0].std, [2, 4, 8], h3, ?_, ?_, rfl, rfl⟩
    · show (steps.map (·.map Step.std))[0]? = _
      rw [List.getElem?_map, hl]; rfl
    · rw [List.getElem?_map, List.getElem?_eq_getElem (by omega)]; rfl
  obtain ⟨ret, row, c, xr, h1, h2, h3, h4, h5⟩ := hsome
  obtain ⟨gs, body, blocks, inv, -, g2, g3, g4, g5, g6⟩ := C108_plain (N := 4) (groups := fun _ => freeGroup) (rand := fun _ => exRand) (dihedral := false)
    rfl free_lawful hr exArgs_valid hN h1 h2 h3 (i := 1) rfl h4 h5
  refine ⟨ret, row, c, h1, h2, h3, body, blocks, inv, g4, g5, by rw [mapM_length g3]; exact_mod_cast g2, _, runs_self _ _ _, ?_⟩
  rw [g6 (1 / 2) 1 _ (runs_self _ _ _), fitFun_int 2 2 rfl]
  norm_num

/-! ### What the fitted parameters mean -/

theorem sum_overlap {n : ℕ} (ψ : State (Fin n) ℂ) :
    ∑ a : Basis (Fin n), ∑ b : Basis (Fin n), normSq (∑ x, (starRingEnd ℂ) (ψ x) * pauli a b ψ x) = 2 ^ n * nrm ψ ^ 2 := by
  rw [Finset.sum_comm]
  have : ∀ a b : Basis (Fin n), (∑ x, (starRingEnd ℂ) (ψ x) * pauli a b ψ x) = ∑ x, sgn a x * ((starRingEnd ℂ) (ψ x) * ψ (bxor x b)) := by
    intro a b
    refine Finset.sum_congr rfl fun x _ => ?_
    unfold pauli; ring
  simp only [this, normSq_sum_sgn, map_mul, normSq_conj]
  rw [← Finset.mul_sum, Finset.sum_comm]
  congr 1
  unfold nrm Quantum.prob
  rw [pow_two, Finset.sum_mul]
  refine Finset.sum_congr rfl fun x _ => ?_
  rw [← Finset.mul_sum]
  congr 1
  refine Fintype.sum_bijective (fun b => bxor x b) ?_ _ _ fun b => rfl
  refine Function.Involutive.bijective fun b => ?_
  rw [← bxor_assoc, bxor_self, bxor_comm, bxor_zero]

/-- C108: the number `epc` that the fitter computes from the decay parameter is the error per element: on a register of `n` qubits
that is depolarised with strength `1 - p` after an element, the fidelity with the state that the element should produce is `1 - epc`, for
every element and every input state. -/
theorem C108_epc (n : ℕ) (d : List Ins) (hd : ∀ i ∈ d, Ok n i) (p : ℝ) (ψ : State (Fin n) ℂ) (hψ : ∑ x, normSq (ψ x) = 1) :
    fidelity (run n d ψ) (noisy [(List.range n, d, p)] [(1, ψ)]) = 1 - Fit.epc n p := by
  have ht : Tgt n (List.range n) := ⟨List.nodup_range, by simp⟩
  have hn : nrm (run n d ψ) = 1 := by rw [nrm_run d hd]; exact hψ
  unfold noisy noisy fidelity
  rw [sum_depolarize p fun φ => normSq (∑ x, (starRingEnd ℂ) (run n d ψ x) * φ x)]
  simp only [List.map_cons, List.map_nil, List.sum_cons, List.sum_nil, add_zero, one_mul]
  generalize run n d ψ = φ at *
  have h1 : normSq (∑ x, (starRingEnd ℂ) (φ x) * φ x) = 1 := by
    have : (∑ x, (starRingEnd ℂ) (φ x) * φ x) = ((nrm φ : ℝ) : ℂ) := by rw [nrm_inner]; rfl
    rw [this, hn]; simp
  have h2 : ∑ ab ∈ paulisOn n (List.range n), normSq (∑ x, (starRingEnd ℂ) (φ x) * pauli ab.1 ab.2 φ x) = 2 ^ n := by
    rw [show paulisOn n (List.range n) = Finset.univ by
      unfold paulisOn
      refine Finset.filter_true_of_mem fun ab _ q hq => absurd (List.mem_range.2 q.2) hq]
    rw [← Finset.univ_product_univ, Finset.sum_product]
    rw [sum_overlap, hn]; ring
  rw [h1, h2, List.length_range]
  unfold Fit.epc
  have h4 : (4 : ℝ) ^ n = 2 ^ n * 2 ^ n := by rw [← mul_pow]; norm_num
  have h2 : (2 : ℝ) ^ n ≠ 0 := by positivity
  rw [h4]
  field_simp
  ring

/-- C108: the interleaved estimate is the error of the interleaved element, and the CNOT-dihedral estimate that of the random elements. -/
theorem C108_estimates (n : ℕ) (p r e₁ e₂ : ℝ) (hp : p ≠ 0) :
    (Fit.interleaved n p (p * r) e₁ e₂).epcEst = Fit.epc n r ∧ (Fit.dihedral n p p).1 = p ∧ (Fit.dihedral n p p).2 = Fit.epc n p := by
  have h2 : (2 : ℝ) ^ n ≠ 0 := by positivity
  have h3 : (2 : ℝ) ^ n + 1 ≠ 0 := by positivity
  refine ⟨?_, ?_, ?_⟩
  · simp only [Fit.interleaved, Fit.epc]
    rw [mul_div_assoc, mul_div_cancel_left₀ _ hp]
    field_simp
  · simp only [Fit.dihedral]
    field_simp
    ring
  · simp only [Fit.dihedral, Fit.epc]
    field_simp
    ring

end Verif.RB
