import Verif.Expval.LemmasCounts
/- The probability vector and its reordering by qubits. -/
namespace Verif.Expval
open Verif Verif.Counts

theorem sum_zipIdx {α M : Type} [AddCommMonoid M] (l : List α) (a : α) (f : α → ℕ → M) :
    (l.zipIdx.map fun p => f p.1 p.2).sum = ∑ t ∈ Finset.range l.length, f (l.getD t a) t := by
  have key : ∀ k, ((l.zipIdx k).map fun p => f p.1 p.2).sum = ∑ t ∈ Finset.range l.length, f (l.getD t a) (t + k) := by
    induction l with
    | nil => intro k; simp
    | cons b l ih =>
      intro k
      rw [List.zipIdx_cons, List.map_cons, List.sum_cons, ih, List.length_cons, Finset.sum_range_succ', add_comm]
      congr 1
      · refine Finset.sum_congr rfl fun t _ => ?_
        rw [List.getD_cons_succ]
        congr 1; omega
      · simp
  simpa using key 0

theorem filter_lt_sorted (L : List ℕ) (hL : L.Pairwise (· < ·)) (u : ℕ) (hu : u < L.length) :
    (L.filter (· < L[u])).length = u := by
  induction L generalizing u with
  | nil => simp at hu
  | cons a L ih =>
    rw [List.pairwise_cons] at hL
    cases u with
    | zero =>
      simp only [List.getElem_cons_zero]
      rw [List.filter_eq_nil_iff.2]
      · rfl
      · intro b hb
        rcases List.mem_cons.1 hb with rfl | hb
        · simp
        · have := hL.1 b hb; simp; omega
    | succ u =>
      have hu' : u < L.length := by simpa using hu
      simp only [List.getElem_cons_succ]
      rw [List.filter_cons_of_pos (by simpa using hL.1 _ (List.getElem_mem hu'))]
      simp [ih hL.2 u hu']

theorem argsort_perm (qs : List ℕ) : (argsort qs).Perm (List.range qs.length) := List.perm_insertionSort _ _

theorem argsort_length (qs : List ℕ) : (argsort qs).length = qs.length := by
  rw [(argsort_perm qs).length_eq, List.length_range]

theorem map_range_getD (qs : List ℕ) : (List.range qs.length).map (fun j => qs.getD j 0) = qs := by
  apply List.ext_getElem (by simp)
  intro i h1 h2
  simp [List.getD_eq_getElem?_getD, List.getElem?_eq_getElem h2]

theorem argsort_lt (qs : List ℕ) (u : ℕ) (hu : u < qs.length) : (argsort qs).getD u 0 < qs.length := by
  have h := getD_mem' (argsort qs) u (by rw [argsort_length]; exact hu)
  simpa using (argsort_perm qs).mem_iff.1 h

/-- The `u`-th entry of `argsort` points at the qubit of rank `u`. -/
theorem rank_argsort (qs : List ℕ) (hq : qs.Nodup) (u : ℕ) (hu : u < qs.length) :
    rank qs (qs.getD ((argsort qs).getD u 0) 0) = u := by
  have hp : ((argsort qs).map fun j => qs.getD j 0).Perm qs := by
    have := (argsort_perm qs).map fun j => qs.getD j 0
    rwa [map_range_getD] at this
  have hs : ((argsort qs).map fun j => qs.getD j 0).Pairwise (· < ·) := by
    have h1 : (argsort qs).Pairwise fun a b => qs.getD a 0 ≤ qs.getD b 0 := by
      unfold argsort
      have : Std.Total (fun a b : ℕ => qs.getD a 0 ≤ qs.getD b 0) := ⟨fun a b => le_total _ _⟩
      have : IsTrans ℕ (fun a b : ℕ => qs.getD a 0 ≤ qs.getD b 0) := ⟨fun a b c => le_trans⟩
      exact List.pairwise_insertionSort _ _
    have h2 : ((argsort qs).map fun j => qs.getD j 0).Pairwise (· ≤ ·) := List.pairwise_map.2 h1
    have h3 : ((argsort qs).map fun j => qs.getD j 0).Nodup := hp.nodup_iff.2 hq
    exact (h2.and h3).imp fun h => lt_of_le_of_ne h.1 h.2
  have hl : u < ((argsort qs).map fun j => qs.getD j 0).length := by simpa [argsort_length] using hu
  have h := filter_lt_sorted _ hs u hl
  have e : ((argsort qs).map fun j => qs.getD j 0)[u] = qs.getD ((argsort qs).getD u 0) 0 := by
    rw [List.getElem_map]
    congr 1
    rw [List.getD_eq_getElem?_getD, List.getElem?_eq_getElem (by rw [argsort_length]; exact hu)]
    rfl
  rw [e] at h
  unfold rank
  rw [← (hp.filter (· < qs.getD ((argsort qs).getD u 0) 0)).length_eq]
  exact h

theorem exists_argsort (qs : List ℕ) (j : ℕ) (hj : j < qs.length) : ∃ u < qs.length, (argsort qs).getD u 0 = j := by
  have : j ∈ argsort qs := (argsort_perm qs).mem_iff.2 (List.mem_range.2 hj)
  obtain ⟨u, hu, h⟩ := List.getElem_of_mem this
  refine ⟨u, by rwa [argsort_length] at hu, ?_⟩
  rw [List.getD_eq_getElem?_getD, List.getElem?_eq_getElem hu, Option.getD_some, h]

theorem rank_lt (qs : List ℕ) (hq : qs.Nodup) (j : ℕ) (hj : j < qs.length) : rank qs (qs.getD j 0) < qs.length := by
  obtain ⟨u, hu, rfl⟩ := exists_argsort qs j hj
  rw [rank_argsort qs hq u hu]; exact hu

theorem argsort_rank (qs : List ℕ) (hq : qs.Nodup) (j : ℕ) (hj : j < qs.length) :
    (argsort qs).getD (rank qs (qs.getD j 0)) 0 = j := by
  obtain ⟨u, hu, rfl⟩ := exists_argsort qs j hj
  rw [rank_argsort qs hq u hu]

/-- Reindex a sum over the qubits by their rank. -/
theorem sum_rank {M : Type} [AddCommMonoid M] (qs : List ℕ) (hq : qs.Nodup) (f : ℕ → ℕ → M) :
    ∑ u ∈ Finset.range qs.length, f u ((argsort qs).getD u 0) =
      ∑ j ∈ Finset.range qs.length, f (rank qs (qs.getD j 0)) j := by
  refine Finset.sum_nbij' (fun u => (argsort qs).getD u 0) (fun j => rank qs (qs.getD j 0)) ?_ ?_ ?_ ?_ ?_
  · intro u hu; exact Finset.mem_range.2 (argsort_lt qs u (Finset.mem_range.1 hu))
  · intro j hj; exact Finset.mem_range.2 (rank_lt qs hq j (Finset.mem_range.1 hj))
  · intro u hu; exact rank_argsort qs hq u (Finset.mem_range.1 hu)
  · intro j hj; exact argsort_rank qs hq j (Finset.mem_range.1 hj)
  · intro u hu; rw [rank_argsort qs hq u (Finset.mem_range.1 hu)]

theorem transposeIdx_eq (qs : List ℕ) (hq : qs.Nodup) (k : ℕ) :
    transposeIdx qs.length (remapAxes qs.length qs) k =
      ∑ j ∈ Finset.range qs.length, bit k (rank qs (qs.getD j 0)) * 2 ^ j := by
  rw [← sum_rank qs hq fun u j => bit k u * 2 ^ j]
  unfold transposeIdx
  rw [sum_zipIdx (remapAxes qs.length qs) 0 fun a t => bit k (qs.length - 1 - t) * 2 ^ (qs.length - 1 - a)]
  have hl : (remapAxes qs.length qs).length = qs.length := by simp [remapAxes, argsort_length]
  rw [hl, ← Finset.sum_range_reflect]
  refine Finset.sum_congr rfl fun t ht => ?_
  have ht := Finset.mem_range.1 ht
  have h1 : (remapAxes qs.length qs).getD (qs.length - 1 - t) 0 = qs.length - 1 - (argsort qs).getD t 0 := by
    unfold remapAxes
    have hlen := argsort_length qs
    rw [List.getD_eq_getElem?_getD, List.getElem?_map, List.getElem?_reverse (by omega), hlen,
      show qs.length - 1 - (qs.length - 1 - t) = t by omega, List.getElem?_eq_getElem (by omega),
      List.getD_eq_getElem?_getD, List.getElem?_eq_getElem (by omega)]
    rfl
  rw [h1, show qs.length - 1 - (qs.length - 1 - t) = t by omega]
  have := argsort_lt qs t ht
  rw [show qs.length - 1 - (qs.length - 1 - (argsort qs).getD t 0) = (argsort qs).getD t 0 by omega]

/-- Reading a reordered index. -/
theorem readBits_eq_transpose_iff (T qs : List ℕ) (hl : qs.length = T.length) (hq : qs.Nodup) (s : Str) (k : ℕ)
    (hk : k < 2 ^ T.length) :
    readBits T s = transposeIdx T.length (remapAxes T.length qs) k ↔ readQubits T qs s = k := by
  rw [← hl] at hk ⊢
  rw [transposeIdx_eq qs hq]
  have hb : ∀ t, clbit s (T.getD t 0) < 2 := fun t => by unfold clbit; split <;> omega
  have e2 : readQubits T qs s = ∑ u ∈ Finset.range qs.length, clbit s (T.getD ((argsort qs).getD u 0) 0) * 2 ^ u := by
    unfold readQubits
    rw [← hl, sum_rank qs hq fun u j => clbit s (T.getD j 0) * 2 ^ u]
  constructor
  · intro h
    rw [e2]
    refine eq_of_bits (sum_bits_lt _ _ fun u _ => hb _) hk ?_
    intro u hu
    rw [bit_sum _ _ (fun u _ => hb _) u hu]
    have hj := argsort_lt qs u hu
    have := congrArg (fun x => bit x ((argsort qs).getD u 0)) h
    rw [bit_readBits T s _ (by omega), bit_sum _ _ (fun j _ => bit_lt _ _) _ hj, rank_argsort qs hq u hu] at this
    exact this
  · rintro rfl
    refine eq_of_bits (readBits_lt T s) (by rw [← hl]; exact sum_bits_lt _ _ fun j _ => bit_lt _ _) ?_
    intro j hj
    rw [← hl] at hj
    rw [bit_readBits T s j (by omega), bit_sum _ _ (fun j _ => bit_lt _ _) _ hj, e2,
      bit_sum _ _ (fun u _ => hb _) _ (rank_lt qs hq j hj), argsort_rank qs hq j hj]

variable {K : Type} [Field K] [LinearOrder K]

theorem foldl_update (items : List (ℕ × ℤ)) (hn : (items.map (·.1)).Nodup) (v : ℕ → K) (k : ℕ) :
    items.foldl (fun (v : ℕ → K) kv => Function.update v kv.1 (kv.2 : K)) v k =
      if k ∈ items.map (·.1) then (items.map fun kv => (if kv.1 = k then 1 else 0) * (kv.2 : K)).sum else v k := by
  induction items generalizing v with
  | nil => simp
  | cons a l ih =>
    rw [List.map_cons, List.nodup_cons] at hn
    rw [List.foldl_cons, ih hn.2]
    by_cases h : a.1 = k
    · have h1 : k ∉ l.map (·.1) := h ▸ hn.1
      have h2 : (l.map fun kv => (if kv.1 = k then 1 else 0) * (kv.2 : K)).sum = 0 := by
        refine List.sum_eq_zero ?_
        intro x hx
        obtain ⟨kv, hkv, rfl⟩ := List.mem_map.1 hx
        rw [if_neg, zero_mul]
        rintro h; exact h1 (h ▸ List.mem_map_of_mem hkv)
      rw [if_neg h1, if_pos (by simp [h])]
      rw [List.map_cons, List.sum_cons, h2, if_pos h, one_mul, add_zero, ← h, Function.update_self]
    · have e : (k ∈ (a :: l).map (·.1)) ↔ k ∈ l.map (·.1) := by
        rw [List.map_cons, List.mem_cons]
        exact ⟨fun h' => h'.resolve_left fun e => h e.symm, Or.inr⟩
      by_cases h1 : k ∈ l.map (·.1)
      · rw [if_pos h1, if_pos (e.2 h1)]
        simp [h]
      · rw [if_neg h1, if_neg fun h' => h1 (e.1 h')]
        rw [Function.update_of_ne (fun e => h e.symm)]

theorem foldl_update_zero (items : List (ℕ × ℤ)) (hn : (items.map (·.1)).Nodup) (k : ℕ) :
    items.foldl (fun (v : ℕ → K) kv => Function.update v kv.1 (kv.2 : K)) (fun _ => 0) k =
      (items.map fun kv => (if kv.1 = k then 1 else 0) * (kv.2 : K)).sum := by
  rw [foldl_update items hn]
  by_cases h : k ∈ items.map (·.1)
  · rw [if_pos h]
  · rw [if_neg h]
    refine (List.sum_eq_zero ?_).symm
    intro x hx
    obtain ⟨kv, hkv, rfl⟩ := List.mem_map.1 hx
    rw [if_neg, zero_mul]
    rintro h'; exact h (h' ▸ List.mem_map_of_mem hkv)

/-- Closed form of the probability vector. -/
theorem probVec_eq (n : ℕ) (c : Counts) (hc : OneReg n c) (hnn : ∀ kv ∈ c, 0 ≤ kv.2) (hpos : 0 < total c)
    (clbits : Option (List ℕ)) (T : List ℕ) (hT : Selects n clbits T) (qubits : Option (List ℕ)) (nq : Option ℕ)
    (hnq : ∀ x, nq = some x → x = T.length) :
    ∃ vec : ℕ → K, (∀ k, vec k = share K c fun s => readBits T s = k) ∧
      countsProbabilityVector c qubits clbits nq = match qubits with
        | none => some (T.length, vec, total c)
        | some qs => if qs.length ≠ T.length then none
            else some (T.length, fun k => vec (transposeIdx T.length (remapAxes T.length qs) k), total c) := by
  obtain ⟨m, hm, hreg, -, hsum⟩ := marginalTo_spec n c hc hnn hpos clbits T hT
  have hshots : shotsOf m = total c := shotsOf_eq c m T hsum
  have hw : widthOf m nq = some T.length := by
    cases nq with
    | some x => simp [widthOf, hnq x rfl]
    | none =>
      cases hml : m with
      | nil => exact absurd hml hreg.nonempty
      | cons kv m' =>
        simp only [widthOf, List.head?_cons, Option.map_some]
        rw [hreg.len kv (by rw [hml]; simp)]
  have hTpos : 0 < T.length := List.length_pos_iff.2 hT.2.2.1
  have hitems : (m.mapM fun kv => (parseBin kv.1).bind fun k => if k < 2 ^ T.length then some (k, kv.2) else none) =
      some (m.map fun kv => (ofBin kv.1, kv.2)) := by
    refine mapM_eq_some m _ _ ?_
    intro kv hkv
    have hl := hreg.len kv hkv
    have hne : kv.1 ≠ [] := by intro h; rw [h] at hl; simp at hl; omega
    have := ofBin_lt kv.1
    rw [hl] at this
    unfold parseBin
    rw [if_pos ⟨hreg.bits kv hkv, hne⟩, Option.bind_some, if_pos this]
  have hnd : ((m.map fun kv => (ofBin kv.1, kv.2)).map (·.1)).Nodup := by
    rw [List.map_map]
    have := hreg.wf
    unfold Dict.WF at this
    have h2 : (m.map fun kv => kv.1).Nodup := this
    rw [show ((fun x : ℕ × ℤ => x.1) ∘ fun kv : Str × ℤ => (ofBin kv.1, kv.2)) = ofBin ∘ (fun kv : Str × ℤ => kv.1) from rfl,
      ← List.map_map]
    refine List.Nodup.map_on ?_ h2
    intro a ha b hb hab
    obtain ⟨x, hx, rfl⟩ := List.mem_map.1 ha
    obtain ⟨y, hy, rfl⟩ := List.mem_map.1 hb
    exact ofBin_inj _ _ (hreg.bits x hx) (hreg.bits y hy) (by rw [hreg.len x hx, hreg.len y hy]) hab
  refine ⟨fun k => (m.map fun kv => (ofBin kv.1, kv.2)).foldl
    (fun (v : ℕ → K) kv => Function.update v kv.1 (kv.2 : K)) (fun _ => 0) k / (total c : K), ?_, ?_⟩
  · intro k
    beta_reduce
    rw [foldl_update_zero _ hnd, List.map_map]
    unfold share mean
    congr 1
    simp only [Function.comp_def]
    rw [hsum K fun s => if ofBin s = k then 1 else 0]
    congr 1
    refine List.map_congr_left fun kv hkv => ?_
    rw [ofBin_readStr T kv.1 fun q hq => by rw [hc.len kv hkv]; exact hT.2.1 q hq]
  · unfold countsProbabilityVector
    rw [hm]
    simp only [Option.bind_eq_bind, Option.bind_some]
    rw [hw]
    simp only [Option.bind_some]
    rw [hitems]
    simp only [Option.bind_some, hshots]
    cases qubits with
    | none => rfl
    | some qs => rfl

end Verif.Expval
