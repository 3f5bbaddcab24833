import Verif.RepCode.Lemmas5
/-
Properties C08–C11, C72: repetition code.
-/
namespace Verif.RepCode
open Verif

/-- **C08** A noiseless run of the circuit for logical value `b` has one outcome, and
`process_results` turns it into `b b` followed by `T+1` blocks of `d-1` zeros. -/
theorem C08_noiseless (d T : Nat) (hd : 2 ≤ d) (hT : 1 ≤ T) (b : Bool) :
    processString d T (outcome ((mkCode d T).circ b)) = some (cleanString d T b) := by
  rw [mkCode_circ d T hT, outcome, process_key d T hd hT]
  obtain ⟨h1, h2⟩ := noiseless d T hT b
  simp only [processed, cleanString, h2 (d - 1) (by omega), h2 0 (by omega)]
  congr 4
  have hrel : Rel d T b (run (codeOps d T b) Sim.zero).m zpat :=
    ⟨fun t ht j hj => by rw [h1 t ht j hj]; rfl, fun k hk => by rw [h2 k hk]; simp [zpat]⟩
  have hrow : ∀ t ∈ List.range (T + 1), row d (chg T (run (codeOps d T b) Sim.zero).m t)
      = List.replicate (d - 1) '0' := by
    intro t _
    rw [row_congr d _ (fun _ => false)]
    · apply List.ext_getElem?
      intro i
      by_cases hi : i < d - 1
      · rw [getElem?_row d _ i hi, List.getElem?_replicate, if_pos hi]; rfl
      · rw [List.getElem?_eq_none (by simp [length_row]; omega), List.getElem?_eq_none (by simp; omega)]
    · intro j hj
      rw [chg_rel hrel t j hj]
      simp [chg, syn, zpat]
  rw [List.map_congr_left hrow]
  simp

example : processString 3 2 (outcome ((mkCode 3 2).circ true)) = some "1 1  00 00 00".toList := by
  decide +kernel

/-- **C09** Whatever a backend can report for the classical registers of the code (`m`, `m'` are
arbitrary memory contents), two different raw strings are never processed to the same string. -/
theorem C09_process_injective (d T : Nat) (hd : 2 ≤ d) (hT : 1 ≤ T) (b : Bool) (m m' : Cl → Bool)
    (h : processString d T (countsKey ((mkCode d T).circ b).cregs m) =
      processString d T (countsKey ((mkCode d T).circ b).cregs m')) :
    (processString d T (countsKey ((mkCode d T).circ b).cregs m)).isSome ∧
    countsKey ((mkCode d T).circ b).cregs m = countsKey ((mkCode d T).circ b).cregs m' := by
  rw [mkCode_circ d T hT] at h ⊢
  rw [process_key d T hd hT] at h ⊢
  rw [process_key d T hd hT] at h
  refine ⟨rfl, ?_⟩
  have h := Option.some.inj h
  unfold processed at h
  simp only [List.cons_append, List.nil_append, List.cons.injEq, true_and] at h
  obtain ⟨hL, hR, hj⟩ := h
  have hrows := joinSep_inj ' ' (d - 1) _ _ (by simp) (by simp [length_row]) (by simp [length_row]) hj
  have hchg : ∀ t ≤ T, ∀ j < d - 1, chg T m t j = chg T m' t j := by
    intro t ht j hj
    have h1 := congrArg (fun l => l[t]?) hrows
    simp only [List.getElem?_map, List.getElem?_range (show t < T + 1 by omega), Option.map_some,
      Option.some.injEq] at h1
    have h2 := congrArg (fun l => l[d - 2 - j]?) h1
    rw [getElem?_row d _ _ (by omega), getElem?_row d _ _ (by omega)] at h2
    have h3 := bitChar_inj (Option.some.inj h2)
    rwa [show d - 2 - (d - 2 - j) = j by omega] at h3
  have hsyn : ∀ t ≤ T, ∀ j < d - 1, syn T m t j = syn T m' t j := by
    intro t
    induction t with
    | zero => intro ht j hj; simpa [chg] using hchg 0 ht j hj
    | succ t ih =>
      intro ht j hj
      have h1 := hchg (t + 1) ht j hj
      have h2 := ih (by omega) j hj
      simp only [chg, Nat.succ_ne_zero, if_false, Nat.add_sub_cancel, h2] at h1
      exact Bool.xor_left_inj.1 h1
  have hlink : ∀ t < T, ∀ j < d - 1, m (Reg.round t, j) = m' (Reg.round t, j) := by
    intro t ht j hj
    simpa [syn, ht] using hsyn t (by omega) j hj
  have hcode : ∀ k < d, m (Reg.code, k) = m' (Reg.code, k) := by
    intro k
    induction k with
    | zero => intro _; exact bitChar_inj hR
    | succ k ih =>
      intro hk
      have h1 := hsyn T (le_refl _) k (by omega)
      simp only [syn, Nat.lt_irrefl, if_false, ih (by omega)] at h1
      exact Bool.xor_right_inj.1 h1
  rw [key_eq, key_eq]
  congr 1
  congr 1
  · apply List.map_congr_left
    intro k hk
    rw [hcode k (List.mem_range.1 (List.mem_reverse.1 hk))]
  · apply List.map_congr_left
    intro t ht
    exact row_congr d _ _ (hlink t (List.mem_range.1 (List.mem_reverse.1 ht)))

/-- **C09** Consequently `process_results` keeps the number of entries and the total number of
counts, and stores under each processed string the counts of its raw string. -/
theorem C09_process_keeps_counts (d T : Nat) (hd : 2 ≤ d) (hT : 1 ≤ T) (b : Bool) (c : Dict Str Nat)
    (hwf : Dict.WF c) (hc : ∀ kv ∈ c, ∃ m, kv.1 = countsKey ((mkCode d T).circ b).cregs m) :
    ∃ r, processCounts d T c = some r ∧ Dict.WF r ∧ r.length = c.length ∧
      (r.map (·.2)).sum = (c.map (·.2)).sum ∧
      ∀ kv ∈ c, ∃ s, processString d T kv.1 = some s ∧ r.get? s = some kv.2 := by
  have hinj := fun m m' h => (C09_process_injective d T hd hT b m m' h).2
  have hsome := fun m => (C09_process_injective d T hd hT b m m rfl).1
  refine ⟨_, foldlM_process d T _ hinj hsome c hwf hc, ?_, by simp, ?_, ?_⟩
  · unfold Dict.WF
    rw [List.map_map]
    unfold Dict.WF at hwf
    rw [List.nodup_map_iff_inj_on (List.Nodup.of_map _ hwf)]
    intro kv hkv kv' hkv' h
    simp only [Function.comp] at h
    obtain ⟨m, hm⟩ := hc kv hkv
    obtain ⟨m', hm'⟩ := hc kv' hkv'
    have h1 : kv.1 = kv'.1 := by
      rw [hm, hm']
      apply hinj
      obtain ⟨s, hs⟩ := Option.isSome_iff_exists.1 (hsome m)
      obtain ⟨s', hs'⟩ := Option.isSome_iff_exists.1 (hsome m')
      rw [hm, hm', hs, hs'] at h
      rw [hs, hs']
      exact congrArg some h
    exact List.inj_on_of_nodup_map hwf hkv hkv' h1
  · rw [List.map_map]; rfl
  · intro kv hkv
    obtain ⟨m, hm⟩ := hc kv hkv
    obtain ⟨s, hs⟩ := Option.isSome_iff_exists.1 (hsome m)
    rw [← hm] at hs
    refine ⟨s, hs, ?_⟩
    apply Dict.get?_of_mem
    · -- well-formedness again
      unfold Dict.WF
      rw [List.map_map]
      unfold Dict.WF at hwf
      rw [List.nodup_map_iff_inj_on (List.Nodup.of_map _ hwf)]
      intro kv hkv kv' hkv' h
      simp only [Function.comp] at h
      obtain ⟨m, hm⟩ := hc kv hkv
      obtain ⟨m', hm'⟩ := hc kv' hkv'
      have h1 : kv.1 = kv'.1 := by
        rw [hm, hm']
        apply hinj
        obtain ⟨s, hs⟩ := Option.isSome_iff_exists.1 (hsome m)
        obtain ⟨s', hs'⟩ := Option.isSome_iff_exists.1 (hsome m')
        rw [hm, hm', hs, hs'] at h
        rw [hs, hs']
        exact congrArg some h
      exact List.inj_on_of_nodup_map hwf hkv hkv' h1
    · exact List.mem_map.2 ⟨kv, hkv, by rw [hs]; rfl⟩

example : processCounts 3 1 [("011 01".toList, 3), ("111 00".toList, 5)]
    = some [("0 1  01 11".toList, 3), ("1 1  00 00".toList, 5)] := by decide +kernel

/-- **C10** One X error on any qubit of the code, before any instruction of the circuit (this covers
"just before a round" and "just before readout" and everything in between), gives a processed
string with either no or exactly two non-trivial nodes; it is exactly two if the qubit is a code
qubit that has not been read out yet. -/
theorem C10_single_fault (d T : Nat) (hd : 2 ≤ d) (hT : 1 ≤ T) (b : Bool) (i : Nat) (q : Qb)
    (hq : q.Valid d) :
    ∃ s, processString d T (outcome (inject ((mkCode d T).circ b) i q)) = some s ∧
      (defects b s = 0 ∨ defects b s = 2) ∧
      (∀ k c, q = .code k → Op.measure (.code k) c ∈ ((mkCode d T).circ b).ops.drop i → defects b s = 2) := by
  rw [mkCode_circ d T hT]
  have hsplit : codeOps d T b = (codeOps d T b).take i ++ (codeOps d T b).drop i :=
    (List.take_append_drop i _).symm
  have hg := good_suffix d T hT b ((codeOps d T b).drop i) (List.drop_suffix i _)
  have hrel := rel_inject d T hT b _ _ q hsplit
  refine ⟨_, by rw [outcome, inject]; exact process_key d T hd hT _, ?_, ?_⟩
  · rw [defects_processed d T hd b _ _ hrel]
    cases q with
    | code k =>
      rcases hg.code k hq with ⟨a, c, ha, hc, h⟩ | ⟨h, _⟩
      · exact Or.inr (by rw [h]; exact countP_pat d T a c k hd hq ha hc)
      · exact Or.inl (by rw [h]; exact countP_zpat d T)
    | link j =>
      rcases hg.link j hq with h | ⟨t, ht, h⟩
      · exact Or.inl (by rw [h]; exact countP_zpat d T)
      · exact Or.inr (by rw [h]; exact countP_epat d T t j ht hq)
  · rintro k c rfl hm
    rw [defects_processed d T hd b _ _ hrel]
    rcases hg.code k hq with ⟨a, c, ha, hc, h⟩ | ⟨_, h⟩
    · rw [h]; exact countP_pat d T a c k hd hq ha hc
    · exact absurd hm (h c)

/-- **C10** Flipping exactly one recorded syndrome bit `(t, j)` of the error-free outcome gives
exactly two non-trivial nodes. -/
theorem C10_measurement_flip (d T : Nat) (hd : 2 ≤ d) (hT : 1 ≤ T) (b : Bool) (t j : Nat) (ht : t < T)
    (hj : j < d - 1) (m : Cl → Bool) (hm : m = (run ((mkCode d T).circ b).ops Sim.zero).m) :
    ∃ s, processString d T (countsKey ((mkCode d T).circ b).cregs
        (fun c => if c = (Reg.round t, j) then !m c else m c)) = some s ∧ defects b s = 2 := by
  rw [mkCode_circ d T hT] at hm ⊢
  obtain ⟨h1, h2⟩ := noiseless d T hT b
  refine ⟨_, process_key d T hd hT _, ?_⟩
  rw [defects_processed d T hd b _ (epat t j), countP_epat d T t j ht hj]
  refine ⟨fun t' ht' j' hj' => ?_, fun k hk => ?_⟩
  · rw [hm]
    by_cases h : (Reg.round t', j') = (Reg.round t, j)
    · simp only [h, if_true, h1 t ht j hj]; simp [epat]
    · simp only [h, if_false, h1 t' ht' j' hj']; simp [epat, h]
  · rw [hm]
    simp [h2 k hk, epat]

/-- **C10** The error-free outcome has no non-trivial node. -/
theorem C10_no_fault (d T : Nat) (hd : 2 ≤ d) (hT : 1 ≤ T) (b : Bool) :
    ∃ s, processString d T (outcome ((mkCode d T).circ b)) = some s ∧ defects b s = 0 := by
  rw [mkCode_circ d T hT]
  obtain ⟨h1, h2⟩ := noiseless d T hT b
  refine ⟨_, process_key d T hd hT _, ?_⟩
  rw [defects_processed d T hd b _ zpat, countP_zpat]
  exact ⟨fun t ht j hj => by rw [h1 t ht j hj]; rfl, fun k hk => by rw [h2 k hk]; simp [zpat]⟩

example : defects true "1 1  00 11 00".toList = 2 := by decide +kernel
example : (Qb.code 1).Valid 3 ∧ processString 3 2 (outcome (inject ((mkCode 3 2).circ true) 3 (.code 1)))
    = some "1 1  11 00 00".toList := by decide +kernel

/-- **C10** For logical value 0 the number of nodes is the number `GraphDecoder._string2nodes`
reports, on every processed string (this is the assertion of `_make_syndrome_graph`). -/
theorem C10_string2nodes (d T : Nat) (hd : 2 ≤ d) (hT : 1 ≤ T) (m : Cl → Bool) (s : Str)
    (hs : processString d T (countsKey ((mkCode d T).circ false).cregs m) = some s) :
    (string2nodes s).length = defects false s := by
  rw [mkCode_circ d T hT, process_key d T hd hT] at hs
  obtain rfl := Option.some.inj hs
  have hlen : ∀ (l : Str) (f : Nat → Nat × Nat × Nat) (k : Nat), ((l.zipIdx k).filterMap fun (e, i) =>
      if e = '1' then some (f i) else none).length = (l.filter (· = '1')).length := by
    intro l f
    induction l with
    | nil => intro k; rfl
    | cons a l ih =>
      intro k
      rw [List.zipIdx_cons, List.filterMap_cons]
      by_cases h : a = '1' <;> simp [h, ih (k + 1)]
  have hlen2 : ∀ (ty : List Str) (synType k : Nat), ((ty.zipIdx k).flatMap fun (elements, synRound) =>
      elements.zipIdx.filterMap fun (element, elemNum) =>
        if element = '1' then some (synType, synRound, elemNum) else none).length =
      (ty.map fun p => (p.filter (· = '1')).length).sum := by
    intro ty synType
    induction ty with
    | nil => intro k; rfl
    | cons p ty ih =>
      intro k
      rw [List.zipIdx_cons, List.flatMap_cons, List.length_append, ih (k + 1)]
      simp only [List.map_cons, List.sum_cons]
      congr 1
      exact hlen p (fun i => (synType, k, i)) 0
  unfold string2nodes separateString defects
  rw [splitDouble_processed d T hd]
  have hj : splitChar ' ' (joinSep [' '] ((List.range (T + 1)).map fun t => row d (chg T m t))) =
      (List.range (T + 1)).map fun t => row d (chg T m t) := by
    apply splitChar_join
    · intro h; have := congrArg List.length h; simp at this
    · intro p hp
      obtain ⟨t, _, rfl⟩ := List.mem_map.1 hp
      exact space_not_mem_row d _
  simp only [List.map_cons, List.map_nil, List.zipIdx_cons, List.zipIdx_nil, List.flatMap_cons,
    List.flatMap_nil, List.append_nil, List.length_append, hlen2, hj, List.flatten_cons,
    List.flatten_nil, filter_one_join]
  congr 1
  have hall : ∀ x y : Bool, ((splitChar ' ' [bitChar x, ' ', bitChar y]).map fun p =>
      (p.filter (· = '1')).length).sum = (([bitChar x, ' ', bitChar y].filter (· ≠ ' ')).filter
      (· ≠ bitChar false)).length := by decide
  exact hall _ _

/-- **C72** Whatever the raw outcome, the processed string has an even number of non-trivial nodes
(so that a perfect matching of them can exist). -/
theorem C72_even_defects (d T : Nat) (hd : 2 ≤ d) (hT : 1 ≤ T) (b : Bool) (m : Cl → Bool) :
    ∃ s, processString d T (countsKey ((mkCode d T).circ b).cregs m) = some s ∧ defects b s % 2 = 0 := by
  rw [mkCode_circ d T hT]
  refine ⟨_, process_key d T hd hT m, ?_⟩
  rw [defects_processed d T hd b m (fun c => match c with
    | (.code, k) => b.xor (m (Reg.code, k))
    | c => m c), countP_even]
  exact ⟨fun t ht j hj => rfl, fun k hk => by cases b <;> simp⟩

example : defects false "1 0  01 10".toList = 3 ∧
    processString 3 1 "101 01".toList = some "1 1  01 10".toList := by decide +kernel

/-! ### C11: decoding -/

/-- **C11** `postselection_decoding` returns exactly the share of shots with a wrong left-most
logical readout among the shots with trivial syndrome, which is a probability; it raises (division
by zero) exactly when no shot has trivial syndrome. -/
theorem C11_postselection (log : Str) (results : Dict Str Nat) (h : ∀ kv ∈ results, kv.1 ≠ []) :
    (countsWhere trivialSyndrome results = 0 → postselection log results = none) ∧
    (countsWhere trivialSyndrome results ≠ 0 → ∃ p, postselection log results = some p ∧ 0 ≤ p ∧ p ≤ 1 ∧
      p = (countsWhere (fun s => trivialSyndrome s && decide (s.take 1 ≠ log)) results : Rat) /
        countsWhere trivialSyndrome results) := by
  have e : postselection log results = pyDiv
      (countsWhere (fun s => trivialSyndrome s && decide (s.take 1 ≠ log)) results)
      (countsWhere trivialSyndrome results) := by
    unfold postselection
    have := foldlM_share log (results.filter fun kv => trivialSyndrome kv.1)
      (fun kv h' => h kv (List.mem_filter.1 h').1) 0 0
    simp only [Nat.zero_add, List.filter_filter] at this
    refine (congrArg (fun o => Option.bind o fun x : Nat × Nat => pyDiv x.2 x.1) this).trans ?_
    simp only [Option.bind_some, countsWhere]
    congr 3
    apply List.filter_congr
    intro kv _
    rw [Bool.and_comm]
  constructor
  · intro h0
    rw [e, h0]; rfl
  · intro h0
    obtain ⟨p, hp, h1, h2⟩ := pyDiv_prob _ _ h0 (countsWhere_le
      (fun s => trivialSyndrome s && decide (s.take 1 ≠ log)) trivialSyndrome (by simp +contextual) results)
    refine ⟨p, by rw [e, hp], h1, h2, ?_⟩
    simp only [pyDiv, if_neg h0, Option.some.injEq] at hp
    exact hp.symm

/-- **C11** On strings produced by `process_results`, a trivial syndrome forces the two logical
boundary readouts to agree, so the left-most one is *the* logical readout. -/
theorem C11_trivial_syndrome_boundaries_agree (d T : Nat) (hd : 2 ≤ d) (hT : 1 ≤ T) (b : Bool)
    (m : Cl → Bool) (s : Str) (hs : processString d T (countsKey ((mkCode d T).circ b).cregs m) = some s)
    (ht : trivialSyndrome s = true) : s[0]? = s[2]? := by
  rw [mkCode_circ d T hT, process_key d T hd hT] at hs
  obtain rfl := Option.some.inj hs
  have hz : (((List.range (T + 1)).map fun t => (List.range (d - 1)).countP fun j => chg T m t j)).sum = 0 := by
    unfold trivialSyndrome at ht
    rw [splitDouble_processed d T hd] at ht
    simp only [List.drop_succ_cons, List.drop_zero, joinSep] at ht
    have := filter_one_join ((List.range (T + 1)).map fun t => row d (chg T m t))
    rw [List.map_map] at this
    have e : ((List.range (T + 1)).map ((fun p : Str => (p.filter (· = '1')).length) ∘ fun t => row d (chg T m t)))
        = (List.range (T + 1)).map fun t => (List.range (d - 1)).countP fun j => chg T m t j := by
      apply List.map_congr_left
      intro t _
      simp only [Function.comp, filter_one_row]
    rw [e] at this
    rw [← this, List.length_eq_zero_iff, List.filter_eq_nil_iff]
    intro c hc
    have := List.all_eq_true.1 ht c hc
    simp only [Bool.or_eq_true, decide_eq_true_eq] at this
    rcases this with rfl | rfl <;> decide
  have h1 := countP_even d T m
  rw [countP_nodes] at h1
  simp only [nodeVal] at h1
  rw [hz] at h1
  have : m (Reg.code, d - 1) = m (Reg.code, 0) := by
    have hall : ∀ x y : Bool, ((if x = true then 1 else 0) + (if y = true then 1 else 0) + 0) % 2 = 0 → x = y := by
      decide
    exact hall _ _ h1
  simp [processed, this]

/-- **C11** `lookuptable_decoding` returns exactly the share of shots whose string was seen strictly
more often in the training data of the opposite logical value, a probability. -/
theorem C11_lookuptable (train : Bool → Dict Str Nat) (log : Bool) (real : Dict Str Nat)
    (h : (real.map (·.2)).sum ≠ 0) :
    ∃ p, lookuptable train log real = some p ∧ 0 ≤ p ∧ p ≤ 1 ∧
      p = (countsWhere (fun s => decide ((train log).getD s 0 < (train !log).getD s 0)) real : Rat) /
        (real.map (·.2)).sum := by
  have e : lookuptable train log real = pyDiv
      (countsWhere (fun s => decide ((train log).getD s 0 < (train !log).getD s 0)) real) (real.map (·.2)).sum := by
    unfold lookuptable
    have := lookup_fold (fun s => decide ((train log).getD s 0 < (train !log).getD s 0)) real 0 0
    simp only [decide_eq_true_eq, Nat.zero_add] at this
    simp only [gt_iff_lt, this]
  have hle : countsWhere (fun s => decide ((train log).getD s 0 < (train !log).getD s 0)) real
      ≤ (real.map (·.2)).sum := by
    have := countsWhere_le (fun s => decide ((train log).getD s 0 < (train !log).getD s 0)) (fun _ => true)
      (by simp) real
    simpa [countsWhere] using this
  obtain ⟨p, hp, h1, h2⟩ := pyDiv_prob _ _ h hle
  refine ⟨p, by rw [e, hp], h1, h2, ?_⟩
  simp only [pyDiv, if_neg h, Option.some.injEq] at hp
  exact hp.symm

/-- **C11** `get_logical_prob` returns exactly the share of shots whose corrected string does not
start with the encoded logical value, whatever the matching algorithm returns (as long as it
returns non-empty strings). -/
theorem C11_logical_prob (matching : Str → Str) (log : Str) (results : Dict Str Nat)
    (hm : ∀ kv ∈ results, matching kv.1 ≠ []) (h : (results.map (·.2)).sum ≠ 0) :
    ∃ p, logicalProb matching log results = some p ∧ 0 ≤ p ∧ p ≤ 1 ∧
      p = (countsWhere (fun s => decide ((matching s).take 1 ≠ log)) results : Rat) /
        (results.map (·.2)).sum := by
  obtain ⟨w1, s1, k1⟩ := merge_counts matching (fun s => decide (s.take 1 ≠ log)) results [] Dict.wf_nil
  obtain ⟨_, s2, _⟩ := merge_counts matching (fun _ => true) results [] Dict.wf_nil
  have e : logicalProb matching log results = pyDiv
      (countsWhere (fun s => decide ((matching s).take 1 ≠ log)) results) (results.map (·.2)).sum := by
    unfold logicalProb
    generalize results.foldl _ [] = r at *
    have hne : ∀ kv ∈ r, kv.1 ≠ [] := by
      intro kv hkv
      rcases k1 kv.1 (List.mem_map_of_mem hkv) with h | ⟨kv', h, h'⟩
      · simp [Dict.keys] at h
      · rw [h']; exact hm kv' h
    have := foldlM_share log r hne 0 0
    refine (congrArg (fun o => Option.bind o fun x : Nat × Nat => pyDiv x.2 x.1) this).trans ?_
    simp only [Option.bind_some, Nat.zero_add]
    congr 1
    · simpa [countsWhere] using s1
    · simpa [countsWhere] using s2
  have hle : countsWhere (fun s => decide ((matching s).take 1 ≠ log)) results ≤ (results.map (·.2)).sum := by
    have := countsWhere_le (fun s => decide ((matching s).take 1 ≠ log)) (fun _ => true) (by simp) results
    simpa [countsWhere] using this
  obtain ⟨p, hp, h1, h2⟩ := pyDiv_prob _ _ h hle
  refine ⟨p, by rw [e, hp], h1, h2, ?_⟩
  simp only [pyDiv, if_neg h, Option.some.injEq] at hp
  exact hp.symm

example : postselection ['0'] [("0 0  00 00".toList, 6), ("1 1  00 00".toList, 2), ("0 1  01 00".toList, 9)]
    = some (1 / 4) := by decide +kernel

end Verif.RepCode
