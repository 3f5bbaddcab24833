import Verif.RepCode.PropsRate
set_option linter.unusedVariables false
/-
Property C117: what postselection and lookup tables achieve.
-/
namespace Verif.RepCode
open Verif

variable {Ω : Type} [Fintype Ω]

theorem all_joinSep (P : Char → Bool) (hP : P ' ' = true) (rows : List Str) (h : ∀ r ∈ rows, r.all P = true) : (joinSep [' '] rows).all P = true := by
  induction rows with
  | nil => rfl
  | cons r rows ih =>
    cases rows with
    | nil => simpa [joinSep] using h r (by simp)
    | cons r' rows =>
      rw [joinSep, List.all_append, List.all_append, h r (by simp), ih fun x hx => h x (by simp [hx])]
      simp [hP]

theorem trivial_processed (d T : Nat) (hd : 2 ≤ d) (m : Cl → Bool) :
    trivialSyndrome (processed d T m) = true ↔ ∀ t ≤ T, ∀ j < d - 1, chg T m t j = false := by
  constructor
  · intro ht
    have hz : (((List.range (T + 1)).map fun t => (List.range (d - 1)).countP fun j => chg T m t j)).sum = 0 := by
      unfold trivialSyndrome at ht
      rw [splitDouble_processed d T hd] at ht
      simp only [List.drop_succ_cons, List.drop_zero, joinSep] at ht
      have := filter_one_join ((List.range (T + 1)).map fun t => row d (chg T m t))
      rw [List.map_map] at this
      have e : ((List.range (T + 1)).map ((fun p : Str => (p.filter (· = '1')).length) ∘ fun t => row d (chg T m t)))
          = (List.range (T + 1)).map fun t => (List.range (d - 1)).countP fun j => chg T m t j := by
        apply List.map_congr_left
        intro t _
        simp only [Function.comp, filter_one_row]
      rw [e] at this
      rw [← this, List.length_eq_zero_iff, List.filter_eq_nil_iff]
      intro c hc
      have := List.all_eq_true.1 ht c hc
      simp only [Bool.or_eq_true, decide_eq_true_eq] at this
      rcases this with rfl | rfl <;> decide
    intro t ht' j hj
    rw [List.sum_eq_zero_iff] at hz
    have := hz _ (List.mem_map.2 ⟨t, List.mem_range.2 (Nat.lt_succ_of_le ht'), rfl⟩)
    rw [List.countP_eq_zero] at this
    simpa using this j (List.mem_range.2 hj)
  · intro h
    unfold trivialSyndrome
    rw [splitDouble_processed d T hd]
    simp only [List.drop_succ_cons, List.drop_zero, joinSep]
    refine all_joinSep _ (by decide) _ fun r hr => ?_
    obtain ⟨t, ht, rfl⟩ := List.mem_map.1 hr
    rw [List.all_eq_true]
    intro c hc
    obtain ⟨j, hj, rfl⟩ := List.mem_map.1 hc
    rw [h t (Nat.le_of_lt_succ (List.mem_range.1 ht)) j (List.mem_range.1 (List.mem_reverse.1 hj))]
    rfl

theorem processed_clean (d T : Nat) (hd : 2 ≤ d) (c : Bool) (m : Cl → Bool) (h : ∀ t ≤ T, ∀ j < d - 1, chg T m t j = false)
    (h1 : m (Reg.code, d - 1) = c) (h2 : m (Reg.code, 0) = c) : processed d T m = cleanString d T c := by
  simp only [processed, cleanString, h1, h2]
  congr 4
  have hrow : ∀ t ∈ List.range (T + 1), row d (chg T m t) = List.replicate (d - 1) '0' := by
    intro t ht
    rw [row_congr d _ (fun _ => false) fun j hj => h t (Nat.le_of_lt_succ (List.mem_range.1 ht)) j hj]
    apply List.ext_getElem?
    intro i
    by_cases hi : i < d - 1
    · rw [getElem?_row d _ i hi, List.getElem?_replicate, if_pos hi]; rfl
    · rw [List.getElem?_eq_none (by simp [length_row]; omega), List.getElem?_eq_none (by simp; omega)]
  rw [List.map_congr_left hrow]
  simp

theorem trivial_clean (d T : Nat) (hd : 2 ≤ d) (hT : 1 ≤ T) (b : Bool) : trivialSyndrome (cleanString d T b) = true := by
  have hz : ∀ t ≤ T, ∀ j < d - 1, chg T (fun c : Cl => c.1 = Reg.code && b) t j = false := by
    intro t _ j _
    unfold chg syn
    split_ifs <;> simp
  rw [← processed_clean d T hd b (fun c => c.1 = Reg.code && b) hz (by simp) (by simp), trivial_processed d T hd]
  exact hz

/-- **C117** Fewer than `d` faults are detected: a run with fewer than `d` faults whose syndrome is trivial gives the string of a run without
faults. -/
theorem C117_detects (d T : Nat) (hd : 2 ≤ d) (hT : 1 ≤ T) (b : Bool) (f : Faults) (hf : ∀ x ∈ f.places, x.Valid d T) (hw : f.places.length < d) :
    ∃ s, processString d T (runKey d T b f) = some s ∧ (trivialSyndrome s = true → s = cleanString d T b) := by
  obtain ⟨S, hS, -, -⟩ := graph_spec d T hd hT
  have hok := graphOk d T hd hT S hS
  obtain ⟨E, h1, hadj, hnode, hval⟩ := noisy_edges d T hd hT S hok b f.errors f.flips
    (fun e he => hf (.inl (e.1, e.2.1)) (List.mem_append.2 (Or.inl (List.mem_map.2 ⟨e, he, rfl⟩))))
    (fun c hc => hf (.inr c) (List.mem_append.2 (Or.inr (List.mem_map.2 ⟨c, hc, rfl⟩))))
  have hrel := noisy_rel d T hT b f.errors f.flips
  set m := noisyMemory (codeOps d T b) f.errors f.flips with hm
  have hs : processString d T (runKey d T b f) = some (processed d T m) := by
    rw [runKey, mkCode_circ d T hT]
    exact process_key d T hd hT _
  refine ⟨_, hs, fun htriv => ?_⟩
  rw [trivial_processed d T hd] at htriv
  have hsyn : ∀ x : Tup, x.1 ≠ 0 → Even ((ends E).count x) := by
    intro x hx
    by_cases hn : ∃ n ∈ nodes d T, x = nt d n
    · obtain ⟨n, hn, rfl⟩ := hn
      cases n with
      | L => exact absurd rfl hx
      | R => exact absurd rfl hx
      | s t j =>
        obtain ⟨a1, a2⟩ := (mem_nodes d T t j).1 hn
        have := hval _ hn
        rw [show nodeVal d T (xs (flips d T b f.errors f.flips)) (Node.s t j) = chg T (xs (flips d T b f.errors f.flips)) t j from rfl,
          ← chg_rel hrel t j a2, htriv t a1 j a2] at this
        exact Nat.not_odd_iff_even.1 (of_decide_eq_false this.symm)
    · rw [List.count_eq_zero.2 fun h => hn (hnode x h)]
      exact Even.zero
  have hcut : (E.map fun e => (List.range d).countP fun k => side d k e.1 != side d k e.2).sum < d := by
    have h2 : (E.map fun e => cuts d e.1 e.2).sum ≤ (E.map fun _ => 1).sum := by
      apply List.sum_le_sum
      intro e he
      refine (hok.cut _ _ (hadj e he).reachable).trans ?_
      rw [SimpleGraph.dist_eq_one_iff_adj.2 (hadj e he)]
    have h3 : (E.map fun _ => 1).sum = E.length := by simp
    have h4 : f.places.length = f.errors.length + f.flips.length := by simp [Faults.places]
    refine lt_of_le_of_lt h2 ?_
    omega
  have hev : ∀ l s, l = ((0, 0, 0) : Tup) ∧ s = true ∨ l = ((0, 1, 0) : Tup) ∧ s = false → Even ((ends E).count l) := by
    intro l s hl
    rw [← beq_tup]
    rw [← beq_tup] at hsyn
    refine logical_even d (side d) E (fun x => decide (x.1 ≠ 0)) l ?_ s ?_ ?_ hcut ?_
    · rcases hl with ⟨rfl, rfl⟩ | ⟨rfl, rfl⟩ <;> rfl
    · intro k hk
      rcases hl with ⟨rfl, rfl⟩ | ⟨rfl, rfl⟩ <;> rfl
    · intro x hx hsx hxl k hk
      have hx0 : x.1 = 0 := by simpa using hsx
      rcases node_logical x (hnode x hx) hx0 with rfl | rfl <;> rcases hl with ⟨rfl, rfl⟩ | ⟨rfl, rfl⟩
      · exact absurd rfl hxl
      · rfl
      · rfl
      · exact absurd rfl hxl
    · intro x hx
      exact hsyn x (by simpa using hx)
  have e1 := hval Node.L (by simp [nodes])
  have e2 := hval Node.R (by simp [nodes])
  rw [show nt d Node.L = (0, 0, 0) from rfl, decide_eq_false (Nat.not_odd_iff_even.2 (hev _ true (Or.inl ⟨rfl, rfl⟩)))] at e1
  rw [show nt d Node.R = (0, 1, 0) from rfl, decide_eq_false (Nat.not_odd_iff_even.2 (hev _ false (Or.inr ⟨rfl, rfl⟩)))] at e2
  refine processed_clean d T hd b m htriv ?_ ?_
  · rw [hrel.2 (d - 1) (by omega), show xs (flips d T b f.errors f.flips) (Reg.code, d - 1) = false from e1, Bool.xor_false]
  · rw [hrel.2 0 (by omega), show xs (flips d T b f.errors f.flips) (Reg.code, 0) = false from e2, Bool.xor_false]

/-- **C117** `d` faults can go undetected: with every code qubit read out wrongly the string is that of the other logical value. -/
theorem C117_detects_sharp (d T : Nat) (hd : 2 ≤ d) (hT : 1 ≤ T) (b : Bool) :
    ∃ f : Faults, (∀ x ∈ f.places, x.Valid d T) ∧ f.places.length = d ∧ processString d T (runKey d T b f) = some (cleanString d T (!b)) := by
  refine ⟨⟨[], (List.range d).map fun k => (Reg.code, k)⟩, ?_, by simp [Faults.places], ?_⟩
  · intro x hx
    simp only [Faults.places, List.map_nil, List.nil_append, List.map_map, List.mem_map, List.mem_range] at hx
    obtain ⟨k, hk, rfl⟩ := hx
    exact hk
  · rw [runKey, mkCode_circ d T hT]
    obtain ⟨a1, a2⟩ := noiseless d T hT b
    set m := noisyMemory (codeOps d T b) [] ((List.range d).map fun k => (Reg.code, k)) with hm
    have hc : ∀ k < d, m (Reg.code, k) = !b := by
      intro k hk
      rw [hm]
      unfold noisyMemory
      rw [noisyOps_nil, a2 k hk, List.count_map_of_injective _ _ (fun a b h => by simpa using h),
        List.count_eq_one_of_mem List.nodup_range (List.mem_range.2 hk)]
      cases b <;> rfl
    have hr : ∀ t < T, ∀ j < d - 1, m (Reg.round t, j) = false := by
      intro t ht j hj
      rw [hm]
      unfold noisyMemory
      rw [noisyOps_nil, a1 t ht j hj, List.count_eq_zero.2 (by simp)]
      rfl
    refine (process_key d T hd hT m).trans (congrArg some (processed_clean d T hd (!b) m ?_ (hc _ (by omega)) (hc _ (by omega))))
    have hrel : Rel d T (!b) m zpat := ⟨fun t ht j hj => by rw [hr t ht j hj]; rfl, fun k hk => by rw [hc k hk]; simp [zpat]⟩
    intro t _ j hj
    rw [chg_rel hrel t j hj]
    simp [chg, syn, zpat]

/-- **C117** `postselection_decoding` of counts all of whose outcomes come from fewer than `d` faults: 0, if any outcome is accepted. -/
theorem C117_postselection_zero (d T : Nat) (hd : 2 ≤ d) (hT : 1 ≤ T) (b : Bool) (results : Dict Str Nat)
    (hacc : countsWhere trivialSyndrome results ≠ 0)
    (hres : ∀ kv ∈ results, ∃ f : Faults, (∀ x ∈ f.places, x.Valid d T) ∧ f.places.length < d ∧ processString d T (runKey d T b f) = some kv.1) :
    postselection [bitChar b] results = some 0 := by
  have hs : ∀ kv ∈ results, trivialSyndrome kv.1 = true → kv.1 = cleanString d T b := by
    intro kv hkv
    obtain ⟨f, h1, h2, h3⟩ := hres kv hkv
    obtain ⟨s, h4, h5⟩ := C117_detects d T hd hT b f h1 h2
    rw [h3] at h4
    obtain rfl := Option.some.inj h4
    exact h5
  obtain ⟨p, hp, -, -, hp2⟩ := (C11_postselection [bitChar b] results (by
    intro kv hkv h0
    obtain ⟨f, h1, h2, h3⟩ := hres kv hkv
    rw [runKey, mkCode_circ d T hT, process_key d T hd hT] at h3
    rw [h0] at h3
    simp [processed] at h3)).2 hacc
  have h0 : countsWhere (fun s => trivialSyndrome s && decide (s.take 1 ≠ [bitChar b])) results = 0 := by
    unfold countsWhere
    rw [List.filter_eq_nil_iff.2]
    · rfl
    · intro kv hkv h
      simp only [Bool.and_eq_true, decide_eq_true_eq] at h
      exact h.2 (by rw [hs kv hkv h.1]; rfl)
  rw [hp, hp2, h0]
  simp

/-- **C117** The probability of a wrong value that postselection keeps is at most `C(N, d) p ^ d`. -/
theorem C117_undetected (d T : Nat) (hd : 2 ≤ d) (hT : 1 ≤ T) (b : Bool) (N : Noise Ω) {L : Finset Place} (hL : ∀ x ∈ L, x.Valid d T) {p : ℝ}
    (hN : LocallyStochastic N L p) : keyRate d T b N (undetected d T b) ≤ (L.card.choose d) * p ^ d := by
  refine union_bound N hN d (fun ω => undetected d T b (runKey d T b (N.faults ω)) = true) fun ω h => ?_
  by_contra hlt
  obtain ⟨s, h1, h2⟩ := C117_detects d T hd hT b (N.faults ω) (fun x hx => hL x (hN.mem ω x hx)) (by omega)
  unfold undetected at h
  rw [h1] at h
  simp only [Option.any_some, Bool.and_eq_true, decide_eq_true_eq] at h
  exact h.2 (by rw [h2 h.1]; rfl)

/-- **C117** Postselection keeps a run with probability at least `1 - N p`. -/
theorem C117_accepted (d T : Nat) (hd : 2 ≤ d) (hT : 1 ≤ T) (b : Bool) (N : Noise Ω) {L : Finset Place} {p : ℝ} (hN : LocallyStochastic N L p) :
    1 - L.card * p ≤ keyRate d T b N (accepted d T) := by
  have h := union_bound N hN 1 (fun ω => ¬ accepted d T (runKey d T b (N.faults ω)) = true) (by
    intro ω h
    rw [Nat.one_le_iff_ne_zero]
    intro h0
    refine h ?_
    have he : N.faults ω = ⟨[], []⟩ := by
      have := List.length_eq_zero_iff.1 h0
      unfold Faults.places at this
      rw [List.append_eq_nil_iff, List.map_eq_nil_iff, List.map_eq_nil_iff] at this
      cases hf : N.faults ω with
      | mk a c => rw [hf] at this; simp only [Faults.mk.injEq]; exact this
    have hk : runKey d T b ⟨[], []⟩ = outcome ((mkCode d T).circ b) := by
      unfold runKey outcome
      congr 1
      funext c
      unfold noisyMemory
      rw [noisyOps_nil]
      simp
    unfold accepted
    rw [he, hk, C08_noiseless d T hd hT b]
    simpa using trivial_clean d T hd hT b)
  rw [Nat.choose_one_right, pow_one] at h
  have hsum : (∑ ω, if ¬ accepted d T (runKey d T b (N.faults ω)) = true then N.prob ω else 0) + keyRate d T b N (accepted d T) = 1 := by
    rw [← N.total]
    unfold keyRate
    rw [← Finset.sum_add_distrib]
    refine Finset.sum_congr rfl fun ω _ => ?_
    by_cases h : accepted d T (runKey d T b (N.faults ω)) = true <;> simp [h]
  linarith

/-- **C117** The probability that a kept run is wrong decreases with the distance twice as fast as for the matching decoder. -/
theorem C117_postselected (d T : Nat) (hd : 2 ≤ d) (hT : 1 ≤ T) (b : Bool) (N : Noise Ω) {L : Finset Place} (hL : ∀ x ∈ L, x.Valid d T) {p : ℝ}
    (hN : LocallyStochastic N L p) (hp : L.card * p < 1) :
    keyRate d T b N (undetected d T b) / keyRate d T b N (accepted d T) ≤ (L.card.choose d) * p ^ d / (1 - L.card * p) := by
  have h1 := C117_undetected d T hd hT b N hL hN
  have h2 := C117_accepted d T hd hT b N hN
  have h0 : 0 ≤ keyRate d T b N (undetected d T b) := by
    refine Finset.sum_nonneg fun ω _ => ?_
    split
    · exact N.nonneg ω
    · exact le_rfl
  exact div_le_div₀ (h0.trans h1) h1 (by linarith) h2

/-! ### Lookup tables -/

theorem getD_mem {l : Dict Str Nat} (hl : l.WF) {kv : Str × Nat} (h : kv ∈ l) : l.getD kv.1 0 = kv.2 := by
  unfold Dict.getD
  rw [Dict.get?_of_mem l hl kv.1 kv.2 h]
  rfl

theorem countsWhere_sum (p : Str → Bool) {l : Dict Str Nat} (hl : l.WF) (K : Finset Str) (hK : ∀ kv ∈ l, kv.1 ∈ K) :
    countsWhere p l = ∑ k ∈ K, if p k = true then l.getD k 0 else 0 := by
  have h1 : countsWhere p l = ((l.map (·.1)).map fun k => if p k = true then l.getD k 0 else 0).sum := by
    rw [List.map_map]
    have : ∀ r : Dict Str Nat, (∀ kv ∈ r, l.getD kv.1 0 = kv.2) →
        countsWhere p r = (r.map ((fun k => if p k = true then l.getD k 0 else 0) ∘ fun x => x.1)).sum := by
      intro r
      induction r with
      | nil => intro _; rfl
      | cons kv r ih =>
        intro h
        have ih := ih fun x hx => h x (by simp [hx])
        have h0 := h kv (by simp)
        unfold countsWhere at ih ⊢
        cases hp : p kv.1 <;> simp [hp, h0, ih]
    exact this l fun kv hkv => getD_mem hl hkv
  rw [h1, ← List.sum_toFinset _ hl]
  refine Finset.sum_subset ?_ ?_
  · intro k hk
    obtain ⟨kv, hkv, rfl⟩ := List.mem_map.1 (List.mem_toFinset.1 hk)
    exact hK kv hkv
  · intro k _ hk
    have : l.getD k 0 = 0 := by
      unfold Dict.getD
      rw [(Dict.get?_eq_none_iff l k).2 fun h => hk (List.mem_toFinset.2 h)]
      rfl
    rw [this]
    simp

/-- The share of shots that the decoder `D` decodes to the wrong value. -/
def shareWrong (D : Str → Bool) (log : Bool) (counts : Dict Str Nat) : Rat :=
  (countsWhere (fun s => decide (D s ≠ log)) counts : Rat) / (counts.map (·.2)).sum

/-- **C117** On its own training data, with equal numbers of shots, `lookuptable_decoding` reports no more errors in total than any decoder makes. -/
theorem C117_lookup_optimal (train : Bool → Dict Str Nat) (hwf : ∀ b, (train b).WF) (n : Nat) (hn : n ≠ 0) (hsum : ∀ b, ((train b).map (·.2)).sum = n)
    (D : Str → Bool) : ∃ p0 p1, lookuptable train false (train false) = some p0 ∧ lookuptable train true (train true) = some p1 ∧
      p0 + p1 ≤ shareWrong D false (train false) + shareWrong D true (train true) := by
  obtain ⟨p0, a1, -, -, a2⟩ := C11_lookuptable train false (train false) (by rw [hsum]; exact hn)
  obtain ⟨p1, b1, -, -, b2⟩ := C11_lookuptable train true (train true) (by rw [hsum]; exact hn)
  refine ⟨p0, p1, a1, b1, ?_⟩
  rw [a2, b2, shareWrong, shareWrong, hsum, hsum, ← add_div, ← add_div]
  refine div_le_div_of_nonneg_right ?_ (Nat.cast_nonneg _)
  rw [← Nat.cast_add, ← Nat.cast_add, Nat.cast_le]
  let K : Finset Str := ((train false).map (·.1)).toFinset ∪ ((train true).map (·.1)).toFinset
  have hK : ∀ b, ∀ kv ∈ train b, kv.1 ∈ K := by
    intro b kv hkv
    cases b
    · exact Finset.mem_union_left _ (List.mem_toFinset.2 (List.mem_map.2 ⟨kv, hkv, rfl⟩))
    · exact Finset.mem_union_right _ (List.mem_toFinset.2 (List.mem_map.2 ⟨kv, hkv, rfl⟩))
  rw [countsWhere_sum _ (hwf false) K (hK false), countsWhere_sum _ (hwf true) K (hK true), countsWhere_sum _ (hwf false) K (hK false),
    countsWhere_sum _ (hwf true) K (hK true), ← Finset.sum_add_distrib, ← Finset.sum_add_distrib]
  refine Finset.sum_le_sum fun k _ => ?_
  simp only [decide_eq_true_eq, Bool.not_false, Bool.not_true]
  cases D k <;> simp <;> split_ifs <;> omega

/-- **C117** In particular not more than `get_logical_prob` reports for the same data. -/
theorem C117_lookup_beats_matching (train : Bool → Dict Str Nat) (hwf : ∀ b, (train b).WF) (n : Nat) (hn : n ≠ 0)
    (hsum : ∀ b, ((train b).map (·.2)).sum = n) (matching : Str → Str) (hm : ∀ b, ∀ kv ∈ train b, matching kv.1 ≠ []) :
    ∃ p0 p1 q0 q1, lookuptable train false (train false) = some p0 ∧ lookuptable train true (train true) = some p1 ∧
      logicalProb matching ['0'] (train false) = some q0 ∧ logicalProb matching ['1'] (train true) = some q1 ∧ p0 + p1 ≤ q0 + q1 := by
  obtain ⟨p0, p1, h0, h1, h⟩ := C117_lookup_optimal train hwf n hn hsum fun s => decide ((matching s).take 1 = ['1'])
  obtain ⟨q0, c0, -, -, c1⟩ := C11_logical_prob matching ['0'] (train false) (hm false) (by rw [hsum]; exact hn)
  obtain ⟨q1, e0, -, -, e1⟩ := C11_logical_prob matching ['1'] (train true) (hm true) (by rw [hsum]; exact hn)
  refine ⟨p0, p1, q0, q1, h0, h1, c0, e0, h.trans (add_le_add ?_ ?_)⟩
  · rw [c1, shareWrong]
    refine div_le_div_of_nonneg_right ?_ (Nat.cast_nonneg _)
    rw [Nat.cast_le]
    refine countsWhere_le _ _ (fun s hs => ?_) _
    simp only [decide_eq_true_eq, ne_eq, Bool.not_eq_false] at hs ⊢
    rw [hs]
    decide
  · rw [e1, shareWrong]
    refine div_le_div_of_nonneg_right ?_ (Nat.cast_nonneg _)
    rw [Nat.cast_le]
    refine countsWhere_le _ _ (fun s hs => ?_) _
    simpa using hs

/-- **C117** If no string of the data was seen equally often for both logical values, what is reported is the share of wrong shots of one decoder,
which returns the value for which the string was seen more often. -/
theorem C117_lookup_decoder (train : Bool → Dict Str Nat) (real : Bool → Dict Str Nat) (hsum : ∀ b, ((real b).map (·.2)).sum ≠ 0)
    (hne : ∀ b, ∀ kv ∈ real b, (train false).getD kv.1 0 ≠ (train true).getD kv.1 0) (b : Bool) :
    lookuptable train b (real b) = some (shareWrong (fun s => decide ((train false).getD s 0 < (train true).getD s 0)) b (real b)) := by
  obtain ⟨p, a1, -, -, a2⟩ := C11_lookuptable train b (real b) (hsum b)
  rw [a1, a2, shareWrong]
  congr 3
  unfold countsWhere
  congr 2
  refine List.filter_congr fun kv hkv => ?_
  have := hne b kv hkv
  cases b
  · simp
  · simp only [ne_eq, decide_eq_true_eq, not_lt, Bool.not_true]
    rw [decide_eq_decide]
    omega

/-- **C117** Finding: a string that was seen equally often for both values, or never, counts as right for both.  With the same counts for both
values the reported probabilities are 0 and 0, although every decoder is wrong for half of the shots. -/
theorem C117_finding_ties (c : Dict Str Nat) (hwf : c.WF) (hsum : (c.map (·.2)).sum ≠ 0) :
    (∀ b, lookuptable (fun _ => c) b c = some 0) ∧ ∀ D, shareWrong D false c + shareWrong D true c = 1 := by
  constructor
  · intro b
    obtain ⟨p, a1, -, -, a2⟩ := C11_lookuptable (fun _ => c) b c hsum
    rw [a1, a2]
    simp [countsWhere]
  · intro D
    have h : countsWhere (fun s => decide (D s ≠ false)) c + countsWhere (fun s => decide (D s ≠ true)) c = (c.map (·.2)).sum := by
      clear hwf hsum
      induction c with
      | nil => rfl
      | cons kv c ih =>
        unfold countsWhere at ih ⊢
        cases h : D kv.1 <;> simp [h] at ih ⊢ <;> omega
    have hs : (((c.map (·.2)).sum : Nat) : Rat) ≠ 0 := Nat.cast_ne_zero.2 hsum
    rw [shareWrong, shareWrong, ← add_div, ← Nat.cast_add, h, div_self hs]

/-- **C117** Finding: strings that were never seen in training are reported without error whatever their value. -/
theorem C117_finding_unseen (train : Bool → Dict Str Nat) (real : Dict Str Nat) (hsum : (real.map (·.2)).sum ≠ 0)
    (hunseen : ∀ kv ∈ real, ∀ b, (train b).getD kv.1 0 = 0) (b : Bool) : lookuptable train b real = some 0 := by
  obtain ⟨p, a1, -, -, a2⟩ := C11_lookuptable train b real hsum
  rw [a1, a2]
  have : countsWhere (fun s => decide ((train b).getD s 0 < (train !b).getD s 0)) real = 0 := by
    unfold countsWhere
    rw [List.filter_eq_nil_iff.2]
    · rfl
    · intro kv hkv h
      beta_reduce at h
      rw [hunseen kv hkv, hunseen kv hkv] at h
      simp at h
  rw [this]
  simp

/-- Data of a code with distance 3: two faults are detected, three are not; the lookup table of two training dictionaries. -/
example : let f2 : Faults := ⟨[(0, .code 0, .x), (3, .code 1, .y)], []⟩
    let f3 : Faults := ⟨[(0, .code 0, .x), (0, .code 1, .y), (0, .code 2, .x)], []⟩
    f2.places.length < 3 ∧ processString 3 1 (runKey 3 1 false f2) = some "0 1  01 11".toList ∧
      processString 3 1 (runKey 3 1 false f3) = some (cleanString 3 1 true) := by
  refine ⟨by decide, by decide +kernel, by decide +kernel⟩

example : let train : Bool → Dict Str Nat := fun b => if b then [("0 0  00 00".toList, 1), ("1 1  00 00".toList, 9)] else
      [("0 0  00 00".toList, 8), ("1 1  00 00".toList, 2)]
    (∀ b, (train b).WF) ∧ (∀ b, ((train b).map (·.2)).sum = 10) ∧ lookuptable train false (train false) = some (1 / 5) ∧
      lookuptable train true (train true) = some (1 / 10) := by
  refine ⟨by intro b; cases b <;> decide +kernel, by intro b; cases b <;> rfl, by decide +kernel, by decide +kernel⟩

end Verif.RepCode
