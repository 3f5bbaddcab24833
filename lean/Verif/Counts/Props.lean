import Verif.Counts.Lemmas3
/-
Properties C01–C07: counts dictionaries.
-/
namespace Verif.Counts
open Verif

/-- A two-register, three-bit counts dictionary used as non-vacuity witness. -/
def exCounts : Counts :=
  [("01 1".toList, 5), ("00 0".toList, 3), ("11 0".toList, 2), ("10 1".toList, 7)]

example : IsCounts 3 exCounts := by decide
example : ProperSubset 3 [2, 0] := by decide

/-- **C01** Marginalising onto a proper subset of the qubits conserves the number of shots. -/
theorem C01_marginal_conserves_shots (n : Nat) (c : Counts) (hc : IsCounts n c) (S : List Nat)
    (hS : ProperSubset n S) (pad : Bool) :
    ∃ m, marginalCounts c (some S) pad = some m ∧ total m = total c := by
  refine ⟨_, marginalCounts_eq n c hc S hS pad, ?_⟩
  have h := sum_marginalCounts n c hc S hS pad _ (marginalCounts_eq n c hc S hS pad) (fun _ => 1)
  simpa only [Int.one_mul, total] using h

/-- The concrete marginal of the example on qubits 0 and 2, listed in any order. -/
example : marginalCounts exCounts (some [0, 2]) false
    = some [("00".toList, 3), ("01".toList, 5), ("10".toList, 2), ("11".toList, 7)] := by decide +kernel

/-- **C02** Every entry of the marginal is the number of shots that agree with it on the measured
qubits; impossible outcomes are absent, or present with 0 when `pad_zeros` is set; nothing else is
in the dictionary. (`agrees`, `marginalSpec` and the bit order are fixed in `Spec.lean`.) -/
theorem C02_marginal_entries (n : Nat) (c : Counts) (hc : IsCounts n c) (S : List Nat)
    (hS : ProperSubset n S) (hne : S ≠ []) (pad : Bool) :
    ∃ m, marginalCounts c (some S) pad = some m ∧ Dict.WF m ∧
      ∀ out : Str, m.get? out =
        if IsBits out ∧ out.length = S.length ∧ (pad = true ∨ marginalSpec c S out ≠ 0)
        then some (marginalSpec c S out) else none := by
  have hlen : 1 ≤ S.length := by
    rcases S with _ | ⟨a, S⟩
    · exact absurd rfl hne
    · simp
  have hkey : ∀ k ∈ countKeys S.length,
      matchSum c (mkRgx n (sortDesc S) k) = marginalSpec c S k := fun k hk =>
    matchSum_eq_spec n c hc S hS k (le_of_eq ((mem_countKeys _ hlen k).1 hk).2.symm)
  have hmap : ((countKeys S.length).map fun k => (k, matchSum c (mkRgx n (sortDesc S) k)))
      = (countKeys S.length).map fun k => (k, marginalSpec c S k) :=
    List.map_congr_left fun k hk => by rw [hkey k hk]
  have hnd : (((countKeys S.length).map fun k => (k, marginalSpec c S k)).map (·.1)).Nodup := by
    simpa [List.map_map, Function.comp_def] using nodup_countKeys S.length
  refine ⟨_, marginalCounts_eq n c hc S hS pad, ?_, ?_⟩
  · simp only [hmap]
    split
    · exact hnd
    · exact (List.Sublist.map _ List.filter_sublist).nodup hnd
  · intro out
    simp only [hmap]
    have hm := mem_countKeys _ hlen out
    cases pad with
    | true =>
      simp only [if_true, get?_map_pair, hm, true_or, and_true]
    | false =>
      simp only [Bool.false_eq_true, if_false, get?_filter_map_pair, hm, false_or, and_assoc]

/-- **C02** (no qubit measured) The marginal on no qubit at all is the single entry `'0'` with all
shots (absent when it is 0 and `pad_zeros` is off). -/
theorem C02_marginal_entries_empty (n : Nat) (hn : 0 < n) (c : Counts) (hc : IsCounts n c) (pad : Bool) :
    marginalCounts c (some []) pad = some
      (if pad = true ∨ total c ≠ 0 then [(['0'], total c)] else []) := by
  have hS : ProperSubset n [] := ⟨by simp, by simp, by simpa⟩
  rw [marginalCounts_eq n c hc [] hS pad]
  have hk : countKeys ([] : List Nat).length = [['0']] := by decide
  have h0 : matchSum c (mkRgx n (sortDesc []) ['0']) = total c := by
    rw [matchSum_eq_spec n c hc [] hS _ (by simp), marginalSpec, total]
    congr 2
    rw [List.filter_eq_self]
    simp [agrees]
  simp only [hk, List.map_cons, List.map_nil, h0]
  cases pad with
  | true => simp
  | false => by_cases h : total c = 0 <;> simp [h]

/-- **C02** (order of the list) Listing the measured qubits in another order changes nothing. -/
theorem C02_marginal_order_irrelevant (n : Nat) (c : Counts) (hc : IsCounts n c) (S T : List Nat)
    (hS : ProperSubset n S) (hp : S.Perm T) (pad : Bool) :
    marginalCounts c (some S) pad = marginalCounts c (some T) pad := by
  have hT : ProperSubset n T := ⟨hp.nodup_iff.1 hS.nodup,
    fun q hq => hS.range q (hp.mem_iff.2 hq), by rw [← hp.length_eq]; exact hS.proper⟩
  have hsort : sortDesc S = sortDesc T := by
    have p : (sortDesc S).Perm (sortDesc T) := ((sortDesc_perm S).trans hp).trans (sortDesc_perm T).symm
    exact p.eq_of_pairwise (fun a b _ _ h1 h2 => by omega) (sortDesc_pairwise S hS.nodup)
      (sortDesc_pairwise T hT.nodup)
  rw [marginalCounts_eq n c hc S hS, marginalCounts_eq n c hc T hT, hsort, hp.length_eq]

/-- **C03** Marginalising twice equals marginalising once.  `g i` is the qubit of `S` that has
exactly `i` smaller qubits in `S`, i.e. the qubit shown at position `i` (from the right) of the
first marginal's outcomes.  (An intermediate dictionary that is empty, which needs all marginal
counts to be zero and no padding, makes `marginal_counts` raise.) -/
theorem C03_marginal_tower (n : Nat) (c : Counts) (hc : IsCounts n c) (S : List Nat)
    (hS : ProperSubset n S) (S' : List Nat) (hS' : ProperSubset S.length S') (g : Nat → Nat)
    (hg : ∀ i ∈ S', g i ∈ S ∧ (S.filter (· < g i)).length = i)
    (pad pad' : Bool) (m : Counts) (hm : marginalCounts c (some S) pad = some m) (hne : m ≠ []) :
    marginalCounts m (some S') pad' = marginalCounts c (some (S'.map g)) pad' := by
  have hlen1 : 1 ≤ S.length := by have := hS'.proper; omega
  have hSne : S ≠ [] := by rintro rfl; simp at hlen1
  -- the intermediate dictionary is a counts dictionary over |S| bits
  obtain ⟨m', hm', hwf, hget⟩ := C02_marginal_entries n c hc S hS hSne pad
  rw [hm] at hm'
  obtain rfl : m = m' := Option.some.inj hm'
  have hkeys : ∀ kv ∈ m, IsBits kv.1 ∧ kv.1.length = S.length := by
    intro kv hkv
    have h1 := Dict.get?_of_mem m hwf kv.1 kv.2 hkv
    rw [hget] at h1
    split at h1
    · rename_i h; exact ⟨h.1, h.2.1⟩
    · simp at h1
  have hmc : IsCounts S.length m := by
    refine ⟨hne, hwf, ?_, ?_⟩
    · intro kv hkv; rw [trimSpaces_bits _ (hkeys kv hkv).1]; exact (hkeys kv hkv).1
    · intro kv hkv; rw [trimSpaces_bits _ (hkeys kv hkv).1]; exact (hkeys kv hkv).2
  -- `g` is strictly monotone on S'
  have hmono : ∀ i ∈ S', ∀ j ∈ S', i < j → g i < g j := by
    intro i hi j hj hij
    by_contra hcon
    have hsub : ∀ x, x < g j → x < g i := fun x hx => by omega
    have : (S.filter (· < g j)).length ≤ (S.filter (· < g i)).length := by
      apply List.Sublist.length_le
      have : S.filter (· < g j) = (S.filter (· < g i)).filter (· < g j) := by
        rw [List.filter_filter]
        apply List.filter_congr
        intro x _
        rw [Bool.eq_iff_iff]
        simp only [decide_eq_true_eq, Bool.and_eq_true]
        constructor
        · intro h; exact ⟨h, hsub x h⟩
        · exact fun h => h.1
      rw [this]; exact List.filter_sublist
    rw [(hg i hi).2, (hg j hj).2] at this
    omega
  have hinj : ∀ i ∈ S', ∀ j ∈ S', g i = g j → i = j := by
    intro i hi j hj h
    rw [← (hg i hi).2, ← (hg j hj).2, h]
  have hS2 : ProperSubset n (S'.map g) := by
    refine ⟨?_, ?_, ?_⟩
    · rw [List.nodup_map_iff_inj_on hS'.nodup]
      exact fun i hi j hj h => hinj i hi j hj h
    · intro q hq
      obtain ⟨i, hi, rfl⟩ := List.mem_map.1 hq
      exact hS.range _ (hg i hi).1
    · have := hS'.proper; have := hS.proper; simp; omega
  rw [marginalCounts_eq S.length m hmc S' hS' pad', marginalCounts_eq n c hc _ hS2 pad']
  have hlen2 : (S'.map g).length = S'.length := by simp
  have key : ∀ k ∈ countKeys S'.length, matchSum m (mkRgx S.length (sortDesc S') k)
      = matchSum c (mkRgx n (sortDesc (S'.map g)) k) := by
    intro k hk
    have hkl : S'.length ≤ k.length := by
      by_cases h0 : 1 ≤ S'.length
      · exact le_of_eq ((mem_countKeys _ h0 k).1 hk).2.symm
      · omega
    rw [matchSum_eq_spec S.length m hmc S' hS' k hkl,
      matchSum_eq_spec n c hc _ hS2 k (by simpa using hkl)]
    -- rewrite both sides as weighted sums
    have e1 : ∀ (T : List Nat) (d : Counts), marginalSpec d T k
        = (d.map fun kv => (if agrees T k (trimSpaces kv.1) then 1 else 0) * kv.2).sum := by
      intro T d
      induction d with
      | nil => rfl
      | cons a d ih =>
        rw [marginalSpec_cons, ih]
        by_cases h : agrees T k (trimSpaces a.1) <;> simp [h]
    rw [e1, e1]
    have e2 : (m.map fun kv => (if agrees S' k (trimSpaces kv.1) then (1 : Int) else 0) * kv.2)
        = m.map fun kv => (if agrees S' k kv.1 then (1 : Int) else 0) * kv.2 :=
      List.map_congr_left fun kv hkv => by rw [trimSpaces_bits _ (hkeys kv hkv).1]
    rw [e2, sum_marginalCounts n c hc S hS pad m hm (fun s => if agrees S' k s then 1 else 0)]
    congr 1
    apply List.map_congr_left
    intro kv hkv
    have hfull := hc.len kv hkv
    have hpl := ((mem_countKeys _ hlen1 _).1 (proj_mem n S hS.range _ (hc.bits kv hkv) hfull)).2
    have hag : agrees S (proj S (trimSpaces kv.1)) (trimSpaces kv.1) :=
      (agrees_iff_proj n S hS.nodup hS.range _ hfull _
        (proj_mem n S hS.range _ (hc.bits kv hkv) hfull)).2 rfl
    have : agrees S' k (proj S (trimSpaces kv.1)) ↔ agrees (S'.map g) k (trimSpaces kv.1) := by
      have hpt : ∀ i ∈ S', charAt (proj S (trimSpaces kv.1)) i = charAt (trimSpaces kv.1) (g i) := by
        intro i hi
        obtain ⟨hgS, hgi⟩ := hg i hi
        rw [← hag _ hgS, charAt, hpl]
        congr 1
        -- #greater + #smaller + 1 = |S|
        have hsplit : (S.filter (g i < ·)).length + (S.filter (· < g i)).length + 1 = S.length := by
          have h1 := List.length_eq_length_filter_add (l := S) (fun x => decide (g i < x))
          have h2 := List.length_eq_length_filter_add
            (l := S.filter (fun x => !decide (g i < x))) (fun x => decide (x < g i))
          rw [List.filter_filter, List.filter_filter] at h2
          have h3 : (S.filter fun x => decide (x < g i) && !decide (g i < x)) = S.filter (· < g i) := by
            apply List.filter_congr; intro x _; rw [Bool.eq_iff_iff]; simp; omega
          have h4 : (S.filter fun x => !decide (x < g i) && !decide (g i < x)).length = 1 := by
            have : (S.filter fun x => !decide (x < g i) && !decide (g i < x)) = S.filter (· == g i) := by
              apply List.filter_congr; intro x _; rw [Bool.eq_iff_iff]; simp; omega
            rw [this, ← List.countP_eq_length_filter, ← List.count_eq_countP]
            exact List.count_eq_one_of_mem hS.nodup hgS
          rw [h3, h4] at h2
          omega
        omega
      have hrank : ∀ i ∈ S', ((S'.map g).filter (g i < ·)).length = (S'.filter (i < ·)).length := by
        intro i hi
        rw [List.filter_map, List.length_map]
        congr 1
        apply List.filter_congr
        intro j hj
        rw [Bool.eq_iff_iff]
        simp only [Function.comp, decide_eq_true_eq]
        constructor
        · intro h
          by_contra hcon
          rcases Nat.lt_or_ge j i with h' | h'
          · have := hmono j hj i hi h'; omega
          · have : i = j := by omega
            subst this; omega
        · exact hmono i hi j hj
      unfold agrees
      constructor
      · intro h q hq
        obtain ⟨i, hi, rfl⟩ := List.mem_map.1 hq
        rw [hrank i hi, h i hi, hpt i hi]
      · intro h i hi
        rw [← hrank i hi, h (g i) (List.mem_map.2 ⟨i, hi, rfl⟩), hpt i hi]
    simp only [this]
  have hmap : ((countKeys S'.length).map fun k => (k, matchSum m (mkRgx S.length (sortDesc S') k)))
      = (countKeys (S'.map g).length).map fun k => (k, matchSum c (mkRgx n (sortDesc (S'.map g)) k)) := by
    rw [hlen2]
    exact List.map_congr_left fun k hk => by rw [key k hk]
  simp only [hmap]

/-- Non-vacuity of C03: qubits {0,2} of three, then position 1 of those, i.e. qubit 2. -/
example : marginalCounts exCounts (some [2, 0]) false >>= (marginalCounts · (some [1]) false)
    = marginalCounts exCounts (some [2]) false := by decide +kernel

/-- **C04** `combine_counts` adds key by key. -/
theorem C04_combine_is_pointwise_sum (c1 c2 : Counts) (h1 : Dict.WF c1) (h2 : Dict.WF c2) :
    Dict.WF (combineCounts c1 c2) ∧
    (∀ k, (combineCounts c1 c2).getD k 0 = c1.getD k 0 + c2.getD k 0) ∧
    (∀ k, (combineCounts c1 c2).has k = (c1.has k || c2.has k)) ∧
    total (combineCounts c1 c2) = total c1 + total c2 := by
  refine ⟨wf_combine c1 c2 h1, getD_combine c1 c2 h2, ?_, total_combine c1 c2 h1⟩
  intro k
  have h := mem_keys_combine c1 c2 k
  simp only [Dict.mem_keys_iff] at h
  rw [Bool.eq_iff_iff, Bool.or_eq_true]
  exact h

/-- **C04** Consequently it is commutative and associative as a map from keys to counts. -/
theorem C04_combine_comm_assoc (c1 c2 c3 : Counts) (h1 : Dict.WF c1) (h2 : Dict.WF c2)
    (h3 : Dict.WF c3) (k : Str) :
    (combineCounts c1 c2).get? k = (combineCounts c2 c1).get? k ∧
    (combineCounts (combineCounts c1 c2) c3).get? k
      = (combineCounts c1 (combineCounts c2 c3)).get? k := by
  have ext : ∀ (a b : Counts), a.has k = b.has k → a.getD k 0 = b.getD k 0 → a.get? k = b.get? k := by
    intro a b h1 h2
    unfold Dict.has at h1
    unfold Dict.getD at h2
    cases ha : a.get? k <;> cases hb : b.get? k <;> simp_all
  have w12 := wf_combine c1 c2 h1
  have w23 := wf_combine c2 c3 h2
  obtain ⟨_, a12, b12, _⟩ := C04_combine_is_pointwise_sum c1 c2 h1 h2
  obtain ⟨_, a21, b21, _⟩ := C04_combine_is_pointwise_sum c2 c1 h2 h1
  obtain ⟨_, a123, b123, _⟩ := C04_combine_is_pointwise_sum _ c3 w12 h3
  obtain ⟨_, a23, b23, _⟩ := C04_combine_is_pointwise_sum c2 c3 h2 h3
  obtain ⟨_, a1_23, b1_23, _⟩ := C04_combine_is_pointwise_sum c1 _ h1 w23
  constructor
  · apply ext
    · rw [b12, b21, Bool.or_comm]
    · rw [a12, a21, Int.add_comm]
  · apply ext
    · rw [b123, b12, b1_23, b23, Bool.or_assoc]
    · rw [a123, a12, a1_23, a23, Int.add_assoc]

example : combineCounts [("00".toList, 3), ("01".toList, 5)] [("00".toList, 4), ("10".toList, 7)]
    = [("00".toList, 7), ("01".toList, 5), ("10".toList, 7)] := by decide

/-- **C05** Pooling a list of counts dictionaries adds up each key over the whole list. -/
theorem C05_build_is_pointwise_sum (l : List Counts) (h : ∀ c ∈ l, Dict.WF c) (k : Str) :
    (buildCountsDictFromList l).getD k 0 = (l.map fun c => c.getD k 0).sum := by
  by_cases hl : l.length = 1
  · obtain ⟨c, rfl⟩ := List.length_eq_one_iff.1 hl
    simp [buildCountsDictFromList]
  · rw [build_eq l hl, getD_foldl_combine l [] h]
    simp [Dict.getD]

/-- **C05** The order of the list does not matter, nor how shots are split into dictionaries:
any two lists with the same per-key totals give the same pooled counts. -/
theorem C05_build_order_and_split (l l' : List Counts) (h : ∀ c ∈ l, Dict.WF c)
    (h' : ∀ c ∈ l', Dict.WF c) (k : Str) :
    (l.Perm l' → (buildCountsDictFromList l).getD k 0 = (buildCountsDictFromList l').getD k 0) ∧
    (∀ l2 : List Counts, (∀ c ∈ l2, Dict.WF c) →
      (buildCountsDictFromList (l ++ l2)).getD k 0
        = (buildCountsDictFromList l).getD k 0 + (buildCountsDictFromList l2).getD k 0) := by
  constructor
  · intro hp
    rw [C05_build_is_pointwise_sum l h, C05_build_is_pointwise_sum l' h']
    exact (hp.map _).sum_eq
  · intro l2 h2
    have hap : ∀ c ∈ l ++ l2, Dict.WF c := by
      intro c hc
      rcases List.mem_append.1 hc with hc | hc
      · exact h c hc
      · exact h2 c hc
    rw [C05_build_is_pointwise_sum l h, C05_build_is_pointwise_sum l2 h2,
      C05_build_is_pointwise_sum _ hap]
    simp

example : buildCountsDictFromList [[("0".toList, 3)], [("1".toList, 2)], [("0".toList, 4)]]
    = [("0".toList, 7), ("1".toList, 2)] := by decide

/-- **C06** `count_keys(n)` (n ≥ 1) is the list of all `n`-bit strings without repetition, the
`j`-th having numeric value `j`. -/
theorem C06_count_keys (n : Nat) (hn : 1 ≤ n) :
    (countKeys n).length = 2 ^ n ∧ (countKeys n).Nodup ∧
    (∀ s, s ∈ countKeys n ↔ IsBits s ∧ s.length = n) ∧
    (∀ j (h : j < (countKeys n).length), ofBin (countKeys n)[j] = j) := by
  refine ⟨length_countKeys n, nodup_countKeys n, mem_countKeys n hn, ?_⟩
  intro j h
  rw [getElem_countKeys, ofBin_zfill, ofBin_binDigits]

example : countKeys 2 = ["00".toList, "01".toList, "10".toList, "11".toList] := by decide

/-- What the documentation of `expectation_counts` promises for a key: outcomes and keys are both
written with qubit 0 right-most, so positions are compared one by one. -/
def expSpec (c : Counts) (key : Str) : Int :=
  (c.map fun kv => (-1) ^ ((key.zip kv.1).count ('1', '1')) * kv.2).sum

/-- **C07, violated by the code.** The documented key of `expectation_counts` does not carry the
documented value: for one shot with outcome `01` the entry `01` (Z on qubit 0) should be -1, the
code reports +1. -/
theorem C07_expectation_key_mirrored :
    ∃ (c : Counts) (key : Str) (m : Counts), IsCounts 2 c ∧ IsBits key ∧ key.length = 2 ∧
      expectationCounts c = some m ∧ m.get? key ≠ some (expSpec c key) :=
  ⟨[("01".toList, 1)], "01".toList, [("00".toList, 1), ("10".toList, -1), ("01".toList, 1), ("11".toList, -1)],
    by decide, by decide, rfl, by decide +kernel, by decide⟩

/-- **C07, violated by the code.** For one qubit the identity entry `0` is missing altogether. -/
theorem C07_identity_key_missing :
    ∃ (c : Counts) (m : Counts), IsCounts 1 c ∧ expectationCounts c = some m ∧
      m.get? ['0'] = none ∧ total c = 1 :=
  ⟨[("1".toList, 1)], _, by decide, rfl, by decide, by decide⟩

/-- **C07** What does hold for every `n`: the entry stored under the *mirrored* key is the
Pauli-Z expectation sum of the documentation, for every key other than the all-zero one.
(Missing from the full statement: the key is reversed, and the identity entry is right only for
two qubits, see the two theorems above.) -/
theorem C07_expectation_counts_partial (n : Nat) (c : Counts) (hc : IsCounts n c)
    (hb : ∀ kv ∈ c, IsBits kv.1) :
    ∃ m, expectationCounts c = some m ∧
      (∀ key : Str, IsBits key → key.length = n → '1' ∈ key →
        m.get? key.reverse = some (expSpec c key)) ∧
      (n = 2 → m.get? ['0', '0'] = some (total c)) := by
  have hlen : ∀ kv ∈ c, kv.1.length = n := by
    intro kv hkv
    have := hc.len kv hkv
    rwa [trimSpaces_bits _ (hb kv hkv)] at this
  -- value of one subset
  let f : List Nat → Counts := fun S => (marginalCounts c (some S) true).getD []
  let subsets := (List.range n).flatMap fun r => combinations (r + 1) (List.range n)
  have hmem : ∀ S, S ∈ subsets ↔ S.Sublist (List.range n) ∧ S ≠ [] := by
    intro S
    simp only [subsets, List.mem_flatMap, List.mem_range, mem_combinations]
    constructor
    · rintro ⟨r, _, h1, h2⟩
      exact ⟨h1, by rintro rfl; simp at h2⟩
    · rintro ⟨h1, h2⟩
      have h3 := h1.length_le
      have h4 := List.length_pos_iff.2 h2
      simp only [List.length_range] at h3
      exact ⟨S.length - 1, by omega, h1, by omega⟩
  have hval : ∀ S, S ∈ subsets → marginalCounts c (some S) true = some (f S) ∧
      expSum (f S) = (c.map fun kv =>
        (-1) ^ ((S.filter fun q => charAt kv.1 q = some '1').length) * kv.2).sum := by
    intro S hS
    obtain ⟨hsub, hne⟩ := (hmem S).1 hS
    have hr : ∀ q ∈ S, q < n := fun q hq => List.mem_range.1 (hsub.subset hq)
    have hnd : S.Nodup := hsub.nodup List.nodup_range
    have hle : S.length ≤ n := by simpa using hsub.length_le
    rcases Nat.lt_or_eq_of_le hle with hlt | heq
    · have hp : ProperSubset n S := ⟨hnd, hr, hlt⟩
      have hm := marginalCounts_eq n c hc S hp true
      have hfe : marginalCounts c (some S) true = some (f S) := by simp [f, hm]
      refine ⟨hfe, ?_⟩
      rw [expSum_eq]
      refine (sum_marginalCounts n c hc S hp true _ hfe (fun k => (-1) ^ List.count '1' k)).trans ?_
      congr 1
      apply List.map_congr_left
      intro kv hkv
      rw [trimSpaces_bits _ (hb kv hkv), count_proj n S hne kv.1 (hlen kv hkv) hr]
    · have hm := marginalCounts_full n c hc hb S heq true
      have hfc : f S = c := by simp [f, hm]
      refine ⟨by rw [hfc]; exact hm, ?_⟩
      have hS' : S = List.range n := hsub.eq_of_length (by simpa using heq)
      rw [hfc, expSum_eq, hS']
      congr 1
      apply List.map_congr_left
      intro kv hkv
      rw [proj_full n kv.1 (hlen kv hkv)]
  -- unfold the function
  have hfirst : expectationCounts c = subsets.foldlM (fun (acc : Counts) subset => do
      let m ← marginalCounts c (some subset) true
      pure (acc.set (expOp n subset) (expSum m))) [(['0', '0'], total c)] := by
    have hshots : c.foldl (fun a kv => a + kv.2) 0 = total c := by
      have : ∀ (c : Counts) (a : Int), c.foldl (fun a kv => a + kv.2) a = a + total c := by
        intro c
        induction c with
        | nil => simp [total]
        | cons kv c ih => intro a; simp [ih, total, add_assoc]
      simpa using this c 0
    unfold expectationCounts
    rw [hshots]
    cases c with
    | nil => exact absurd rfl hc.nonempty
    | cons first rest =>
      have hn : first.1.length = n := hlen first (by simp)
      simp only [hn]
      rfl
  obtain ⟨res, h1, h2, h3⟩ := foldlM_set_get subsets n (fun S hS => ((hmem S).1 hS).1) f
    [(['0', '0'], total c)] (fun S => marginalCounts c (some S) true) (fun S hS => (hval S hS).1)
  refine ⟨res, by rw [hfirst]; exact h1, ?_, ?_⟩
  · intro key hk hkl hone
    have hmk : marked key ∈ subsets := by
      rw [hmem]
      constructor
      · rw [← hkl]; exact List.filter_sublist
      · intro h0
        obtain ⟨i, hi, he⟩ := List.mem_iff_getElem.1 (List.mem_reverse.2 hone)
        have hi' : i < key.length := by simpa using hi
        have : i ∈ marked key := by
          simp [marked, hi', charAt_eq_reverse key i hi', he]
        rw [h0] at this
        simp at this
    have := h2 _ hmk
    rw [← hkl, expOp_marked key hk, (hval _ hmk).2] at this
    rw [this, expSpec]
    congr 2
    apply List.map_congr_left
    intro kv hkv
    rw [filter_marked key kv.1 (by rw [hkl, hlen kv hkv])]
  · rintro rfl
    rw [h3]
    · simp [Dict.get?_cons]
    · intro S hS he
      obtain ⟨hsub, hne⟩ := (hmem S).1 hS
      obtain ⟨q, hq⟩ := List.exists_mem_of_ne_nil S hne
      have hq2 : q < 2 := List.mem_range.1 (hsub.subset hq)
      have := getElem?_expOp 2 S q hq2
      rw [he] at this
      simp only [hq, if_true] at this
      have hq3 : q = 0 ∨ q = 1 := by omega
      rcases hq3 with rfl | rfl <;> simp at this

example : expectationCounts [("01".toList, 3), ("11".toList, 1)]
    = some [("00".toList, 4), ("10".toList, -4), ("01".toList, 2), ("11".toList, -2)] := by decide +kernel

end Verif.Counts
