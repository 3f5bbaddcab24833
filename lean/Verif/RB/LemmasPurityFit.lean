import Verif.RB.PurityClass
import Verif.RB.PropsFit
import Verif.RB.PropsPurity
import Verif.Tomo.LemmasData
set_option linter.unusedSimpArgs false
set_option linter.unusedVariables false
/-
Lemmas for C112: marginals of pooled counts, the table of purity circuits and the accumulation.
-/
namespace Verif.RB.Fit
open Verif Verif.Counts

/-! ### Marginals over consecutive bits -/

theorem proj_charAt (n lo len : ℕ) (s : Str) (hs : IsBits s) (hl : s.length = n) (hlen : 0 < len) (hn : lo + len ≤ n) (k : ℕ) (hk : k < len) :
    charAt (proj (List.range' lo len) s) k = charAt s (lo + k) ∧ IsBits (proj (List.range' lo len) s) ∧ (proj (List.range' lo len) s).length = len := by
  have hr : ∀ q ∈ List.range' lo len, q < n := fun q hq => by have := List.mem_range'_1.1 hq; omega
  have hmem := proj_mem n _ hr s hs hl
  have hag := (agrees_iff_proj n _ List.nodup_range' hr s hl _ hmem).2 rfl
  obtain ⟨hb, hl'⟩ := (mem_countKeys _ (by rw [List.length_range']; omega) _).1 hmem
  rw [List.length_range'] at hl'
  refine ⟨?_, hb, hl'⟩
  have h1 := hag (lo + k) (List.mem_range'_1.2 ⟨by omega, by omega⟩)
  rw [← h1]
  unfold charAt
  rw [hl']
  congr 1
  have : ∀ (len lo k : ℕ), k < len → ((List.range' lo len).filter fun x => decide (lo + k < x)).length = len - 1 - k := by
    intro len
    induction len with
    | zero => intro lo k hk; omega
    | succ m ih =>
      intro lo k hk
      rw [List.range'_succ, List.filter_cons, if_neg (by simp)]
      cases k with
      | zero =>
        rw [List.filter_eq_self.2]
        · simp
        · intro x hx
          have := List.mem_range'_1.1 hx
          simp; omega
      | succ k =>
        have := ih (lo + 1) k (by omega)
        rw [show lo + (k + 1) = lo + 1 + k by omega, this]
        omega
  rw [this len lo k hk]

theorem proj_full (n : ℕ) (hn : 0 < n) (s : Str) (hs : IsBits s) (hl : s.length = n) : proj (List.range' 0 n) s = s := by
  refine List.ext_getElem (by rw [(proj_charAt n 0 n s hs hl hn (by omega) 0 hn).2.2, hl]) ?_
  intro i h1 h2
  have hlen := (proj_charAt n 0 n s hs hl hn (by omega) 0 hn).2.2
  have := (proj_charAt n 0 n s hs hl hn (by omega) (n - 1 - i) (by omega)).1
  unfold charAt at this
  rw [hlen, hl, show n - 1 - (n - 1 - i) = i by omega, show n - 1 - (0 + (n - 1 - i)) = i by omega, List.getElem?_eq_getElem h1, List.getElem?_eq_getElem h2] at this
  exact Option.some.inj this

/-- The marginal over consecutive bits: every weighted sum is that of the projected outcomes. -/
theorem marginal_wsum (n : ℕ) (c : Counts) (hc : OneReg n c) (lo len : ℕ) (hlen : 0 < len) (hn : lo + len ≤ n) :
    ∃ m, marginalCounts c (some (List.range' lo len)) false = some m ∧ (∀ kv ∈ m, IsBits kv.1 ∧ kv.1.length = len) ∧
      ∀ w, wsum w m = wsum (fun s => w (proj (List.range' lo len) s)) c := by
  by_cases hfull : len = n
  · have hlo : lo = 0 := by omega
    subst hlo
    refine ⟨c, ?_, fun kv hkv => ⟨hc.bits kv hkv, by rw [hc.len kv hkv, hfull]⟩, ?_⟩
    · cases c with
      | nil => exact absurd rfl hc.nonempty
      | cons kv c =>
        unfold marginalCounts
        simp only []
        rw [if_pos (by rw [List.length_range', trim_bits (hc.bits kv (by simp)), hc.len kv (by simp), hfull])]
        rw [get?_noMarg _ hc.wf hc.bits]
    · intro w
      unfold wsum
      congr 1
      refine List.map_congr_left ?_
      intro kv hkv
      beta_reduce
      rw [hfull, proj_full n (by omega) kv.1 (hc.bits kv hkv) (hc.len kv hkv)]
  · have hS : ProperSubset n (List.range' lo len) := ⟨List.nodup_range', fun q hq => by
      have := List.mem_range'_1.1 hq; omega, by rw [List.length_range']; omega⟩
    obtain ⟨m, hm, hwf, hget⟩ := C02_marginal_entries n c hc.isCounts _ hS (by simp; omega) false
    refine ⟨m, hm, ?_, ?_⟩
    · intro kv hkv
      have h1 := Dict.get?_of_mem m hwf kv.1 kv.2 hkv
      rw [hget] at h1
      by_cases h2 : IsBits kv.1 ∧ kv.1.length = (List.range' lo len).length
      · rw [List.length_range'] at h2
        exact h2
      · rw [if_neg fun h => h2 ⟨h.1, h.2.1⟩] at h1
        exact absurd h1 (by simp)
    · intro w
      have := sum_marginalCounts n c hc.isCounts _ hS false m hm w
      unfold wsum
      rw [this]
      congr 1
      refine List.map_congr_left ?_
      intro kv hkv
      rw [trim_bits (hc.bits kv hkv)]

/-! ### Specification of the correlators -/

/-- The sign of an outcome for the qubits of the pattern at bits `lo, …, lo+n-1` whose number is in the set `ind`: minus one for an odd number of
ones. -/
def signOn (lo n ind : ℕ) (s : Str) : ℤ := (-1) ^ ((List.range n).filter fun i => ind.testBit i && decide (charAt s (lo + i) = some '1')).length

/-- The correlator of those qubits: the mean of the signs over all recorded shots of a circuit. -/
def corr (rs : List Result) (name : Str) (lo n ind : ℕ) : ℚ := (wsum (signOn lo n ind) (records rs name) : ℤ) / (shots rs name : ℤ)

theorem zsign_proj (n lo len ind : ℕ) (s : Str) (hs : IsBits s) (hl : s.length = n) (hlen : 0 < len) (hn : lo + len ≤ n) (hind : ind < 2 ^ len) :
    Purity.zsign ind (ofBin (proj (List.range' lo len) s)) = signOn lo len ind s := by
  rw [Purity.C80_sign len ind _ hind]
  unfold signOn
  congr 1
  have key : ∀ l : List ℕ, (∀ i ∈ l, i < len) → (l.map fun k => (ind / 2 ^ k % 2) * (ofBin (proj (List.range' lo len) s) / 2 ^ k % 2)).sum =
      (l.filter fun i => ind.testBit i && decide (charAt s (lo + i) = some '1')).length := by
    intro l hlt
    induction l with
    | nil => rfl
    | cons i l ih =>
      rw [List.map_cons, List.sum_cons, ih fun x hx => hlt x (by simp [hx]), List.filter_cons]
      obtain ⟨h1, h2, h3⟩ := proj_charAt n lo len s hs hl hlen hn i (hlt i (by simp))
      have h4 := Tomo.charAt_ofBin _ h2 i (by rw [h3]; exact hlt i (by simp))
      rw [h1] at h4
      have ht : ∀ x : ℕ, x / 2 ^ i % 2 = (x.testBit i).toNat := fun x => by rw [Nat.toNat_testBit]
      rw [ht, ht]
      by_cases hc : charAt s (lo + i) = some '1'
      · rw [h4.1 hc]
        cases ind.testBit i <;> simp [hc, Nat.add_comm]
      · have : (ofBin (proj (List.range' lo len) s)).testBit i = false := by
          rw [Bool.eq_false_iff]
          exact fun h => hc (h4.2 h)
        rw [this]
        cases ind.testBit i <;> simp [hc]
  exact key _ fun i hi => List.mem_range.1 hi

theorem wsum_congr {w w' : Str → ℤ} {c : Dict Str ℤ} (h : ∀ kv ∈ c, w kv.1 = w' kv.1) : wsum w c = wsum w' c := by
  unfold wsum
  congr 1
  exact List.map_congr_left fun kv hkv => by rw [h kv hkv]

/-- The average of line 1008 of the marginal of pooled counts. -/
theorem average_spec (n : ℕ) (c : Counts) (hc : OneReg n c) (lo len : ℕ) (hlen : 0 < len) (hn : lo + len ≤ n) (ind : ℕ) (hind : ind < 2 ^ len) (m : Counts)
    (hm : marginalCounts c (some (List.range' lo len)) false = some m) :
    Purity.averageData m (Purity.zdict len ind) = ((wsum (signOn lo len ind) c : ℤ) : ℚ) / (wsum (fun _ => 1) c : ℤ) := by
  obtain ⟨m', hm', hb, hw⟩ := marginal_wsum n c hc lo len hlen hn
  obtain rfl : m = m' := by rw [hm] at hm'; exact Option.some.inj hm'
  rw [Purity.C80_average len (by omega) ind hind m hb]
  have e1 : (m.map fun kv => (kv.2 : ℚ) * (Purity.zsign ind (ofBin kv.1) : ℤ)).sum = ((wsum (fun s => Purity.zsign ind (ofBin s)) m : ℤ) : ℚ) := by
    unfold wsum
    rw [Int.cast_list_sum, List.map_map]
    congr 1
    refine List.map_congr_left ?_
    intro kv _
    simp [mul_comm]
  have e2 : (m.map (·.2)).sum = wsum (fun _ => 1) m := by simp [wsum]
  rw [e1, e2, hw, hw]
  congr 2
  refine wsum_congr ?_
  intro kv hkv
  exact zsign_proj n lo len ind kv.1 (hc.bits kv hkv) (hc.len kv hkv) hlen hn hind

/-! ### The table -/

theorem foldl_pairs {υ : Type} (l : List (Str × υ)) (d : Dict Str υ) (k : Str) (v : υ) (h : ∀ p ∈ l, p.1 = k → p.2 = v)
    (hex : (∃ p ∈ l, p.1 = k) ∨ d.get? k = some v) : (l.foldl (fun d p => d.set p.1 p.2) d).get? k = some v := by
  induction l generalizing d with
  | nil => simpa using hex
  | cons p l ih =>
    rw [List.foldl_cons]
    refine ih _ (fun q hq => h q (by simp [hq])) ?_
    by_cases hp : p.1 = k
    · right
      rw [Dict.get?_set, if_pos hp, h p (by simp) hp]
    · rcases hex with ⟨q, hq, hk⟩ | hd
      · rcases List.mem_cons.1 hq with rfl | hq
        · exact absurd hk hp
        · exact Or.inl ⟨q, hq, hk⟩
      · right
        rw [Dict.get?_set, if_neg hp]
        exact hd

theorem purityKey_inj {pur pur' k k' : ℕ} {s s' : ℤ} (h : purityKey pur k s = purityKey pur' k' s') : pur = pur' ∧ k = k' ∧ s = s' := by
  unfold purityKey at h
  obtain ⟨h1, h2, h3⟩ := suffix_inj h
  exact ⟨by exact_mod_cast fmtD_inj (List.append_cancel_left h1), h2, h3⟩

theorem foldlM_steps (st : State) (nlen : ℕ) (ty : ℕ → Str) (xs : List (ℤ × ℕ × ℕ))
    (h : ∀ x ∈ xs, ∃ e r, st.results[x.2.1]? = some (e :: r) ∧ beforeSub "_length".toList e.1 = ty x.2.2) (d : Dict Str Counts) :
    xs.foldlM (purityStep st nlen) d =
      some ((xs.flatMap fun x => (List.range nlen).map fun k => (purityKey x.2.2 k x.1, pooled st (ty x.2.2 ++ suffix k x.1))).foldl (fun d p => d.set p.1 p.2) d) := by
  induction xs generalizing d with
  | nil => rfl
  | cons x xs ih =>
    obtain ⟨e, r, h1, h2⟩ := h x (by simp)
    rw [List.foldlM_cons]
    have hs : purityStep st nlen d x = some ((List.range nlen).foldl (fun d k => d.set (purityKey x.2.2 k x.1) (pooled st (ty x.2.2 ++ suffix k x.1))) d) := by
      unfold purityStep
      simp only [Option.bind_eq_bind]
      rw [h1, Option.bind_some, List.head?_cons, Option.bind_some, h2]
    rw [hs]
    show List.foldlM _ _ xs = _
    rw [ih (fun y hy => h y (by simp [hy])), List.flatMap_cons, List.foldl_append, List.foldl_map]

theorem purityTable_get (st : State) (npurity nlen : ℕ) (ty : ℕ → Str)
    (h : ∀ j < st.nseeds.length, ∀ d < npurity, ∃ e r, st.results[j * npurity + d]? = some (e :: r) ∧ beforeSub "_length".toList e.1 = ty d) :
    ∃ table, purityTable st npurity nlen = some table ∧ ∀ s ∈ st.nseeds, ∀ d < npurity, ∀ k < nlen,
      table.get? (purityKey d k s) = some (pooled st (ty d ++ suffix k s)) := by
  refine ⟨_, foldlM_steps st nlen ty _ ?_ [], ?_⟩
  · intro x hx
    obtain ⟨sj, hsj, hx⟩ := List.mem_flatMap.1 hx
    obtain ⟨d, hd, rfl⟩ := List.mem_map.1 hx
    have := List.mem_zipIdx hsj
    exact h sj.2 (by omega) d (List.mem_range.1 hd)
  · intro s hs d hd k hk
    obtain ⟨j, hj, hjs⟩ := List.getElem_of_mem hs
    refine foldl_pairs _ _ _ _ ?_ (Or.inl ⟨(purityKey d k s, pooled st (ty d ++ suffix k s)), ?_, rfl⟩)
    · intro p hp he
      obtain ⟨x, hx, hp⟩ := List.mem_flatMap.1 hp
      obtain ⟨k', hk', rfl⟩ := List.mem_map.1 hp
      obtain ⟨e1, e2, e3⟩ := purityKey_inj he
      simp only [e1, e2, e3]
    · refine List.mem_flatMap.2 ⟨(s, j * npurity + d, d), List.mem_flatMap.2 ⟨(s, j), ?_, List.mem_map.2 ⟨d, List.mem_range.2 hd, rfl⟩⟩, List.mem_map.2 ⟨k, List.mem_range.2 hk, rfl⟩⟩
      rw [List.mk_mem_zipIdx_iff_getElem?, List.getElem?_eq_getElem hj, hjs]

/-! ### Pooling over results of several types -/

theorem pooled_spec₂ {n : ℕ} (st : State) (hn : ∀ r ∈ st.results, (r.map (·.1)).Nodup) (hc : ∀ r ∈ st.results, ∀ e ∈ r, OneReg n e.2) (name : Str)
    (hex : shots st.results name ≠ 0) :
    OneReg n (pooled st name) ∧ ∀ w, wsum w (pooled st name) = wsum w (records st.results name) := by
  have hex' : ∃ r ∈ st.results, ∃ e ∈ r, e.1 = name := by
    by_contra hno
    push Not at hno
    have : records st.results name = [] := by
      unfold records
      rw [List.flatMap_eq_nil_iff]
      intro r hr
      have : (r.filter fun e => e.1 = name) = [] := by
        rw [List.filter_eq_nil_iff]
        intro e he
        simpa using hno r hr e he
      rw [this]; rfl
    simp [shots, this] at hex
  refine ⟨?_, fun w => ?_⟩
  · refine oneReg_build _ ?_ ?_
    · obtain ⟨r, hr, e, he, hn⟩ := hex'
      intro hnil
      have := List.filterMap_eq_nil_iff.1 hnil r hr
      unfold getCounts at this
      rw [Option.map_eq_none_iff, List.find?_eq_none] at this
      simpa [hn] using this e he
    · intro c hcm
      obtain ⟨r, hr, hcm⟩ := List.mem_filterMap.1 hcm
      unfold getCounts at hcm
      obtain ⟨e, he, rfl⟩ := Option.map_eq_some_iff.1 hcm
      exact hc r hr e (List.mem_of_find?_eq_some he)
  · unfold pooled
    rw [wsum_build, records_sum st.results hn name w]

/-! ### The accumulation -/

theorem acc_sum (N : ℕ) (l : List (ℕ × ℚ)) (hl : ∀ zv ∈ l, zv.1 < N) (st : List ℚ × List ℕ) (h1 : st.1.length = N) (h2 : st.2.length = N) :
    (l.foldl Purity.accStep st).1.length = N ∧ (l.foldl Purity.accStep st).2.length = N ∧
    ∀ z < N, (l.foldl Purity.accStep st).1.getD z 0 = st.1.getD z 0 + ((l.filter fun zv => zv.1 = z).map (·.2)).sum ∧
      (l.foldl Purity.accStep st).2.getD z 0 = st.2.getD z 0 + (l.filter fun zv => zv.1 = z).length := by
  induction l generalizing st with
  | nil => exact ⟨h1, h2, fun z _ => by simp⟩
  | cons a l ih =>
    rw [List.foldl_cons]
    obtain ⟨i1, i2, i3⟩ := ih (fun zv hzv => hl zv (by simp [hzv])) (Purity.accStep st a) (by simp [Purity.accStep, h1]) (by simp [Purity.accStep, h2])
    refine ⟨i1, i2, ?_⟩
    intro z hz
    obtain ⟨j1, j2⟩ := i3 z hz
    rw [j1, j2]
    have gq : (Purity.accStep st a).1.getD z 0 = st.1.getD z 0 + if a.1 = z then a.2 else 0 := by
      unfold Purity.accStep
      rw [List.getD_eq_getElem _ _ (by simp [h1, hz]), List.getD_eq_getElem _ _ (by rw [h1]; exact hz), List.getElem_modify]
      split_ifs <;> simp
    have gn : (Purity.accStep st a).2.getD z 0 = st.2.getD z 0 + if a.1 = z then 1 else 0 := by
      unfold Purity.accStep
      rw [List.getD_eq_getElem _ _ (by simp [h2, hz]), List.getD_eq_getElem _ _ (by rw [h2]; exact hz), List.getElem_modify]
      split_ifs <;> simp
    rw [gq, gn, List.filter_cons]
    by_cases ha : a.1 = z
    · simp only [ha, if_true, decide_true, List.map_cons, List.sum_cons, List.length_cons]
      exact ⟨by ring, by omega⟩
    · simp [ha]

end Verif.RB.Fit
