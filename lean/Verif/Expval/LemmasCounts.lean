import Verif.Expval.LemmasBits
import Verif.Expval.Spec
import Verif.Counts.Weighted
import Verif.Py.SplitLemmas
import Mathlib.Algebra.Order.BigOperators.Group.List
/- Marginalised counts as averages over the full counts. -/
namespace Verif.Expval
open Verif Verif.Counts

/-- The outcome string on the bits `T` (in increasing order), first bit right-most. -/
def readStr (T : List ℕ) (s : Str) : Str := T.reverse.map fun q => s.getD (s.length - 1 - q) '?'

theorem sortDesc_eq (S T : List ℕ) (hT : T.Pairwise (· < ·)) (h : S.Perm T) : sortDesc S = T.reverse := by
  have hnd : S.Nodup := h.nodup_iff.2 (hT.imp fun h => by omega)
  refine ((sortDesc_perm S).trans (h.trans T.reverse_perm.symm)).eq_of_pairwise (fun a b _ _ h1 h2 => by omega)
    (sortDesc_pairwise S hnd) ?_
  rw [List.pairwise_reverse]
  exact hT.imp fun h => h

theorem proj_eq_readStr (S T : List ℕ) (hT : T.Pairwise (· < ·)) (h : S.Perm T) (hne : T ≠ []) (s : Str) :
    proj S s = readStr T s := by
  have : S ≠ [] := by rintro rfl; exact hne (List.nil_perm.1 h)
  rw [proj, if_neg this, sortDesc_eq S T hT h]
  rfl

theorem clbit_eq (s : Str) (q : ℕ) (hq : q < s.length) : clbit s q = bitVal (s.getD (s.length - 1 - q) '?') := by
  unfold clbit charAt bitVal
  rw [List.getD_eq_getElem?_getD, List.getElem?_eq_getElem (by omega)]
  simp

theorem readStr_length (T : List ℕ) (s : Str) : (readStr T s).length = T.length := by simp [readStr]

theorem readStr_bits (T : List ℕ) (s : Str) (hs : IsBits s) (h : ∀ q ∈ T, q < s.length) : IsBits (readStr T s) := by
  intro c hc
  obtain ⟨q, hq, rfl⟩ := List.mem_map.1 hc
  have := h q (List.mem_reverse.1 hq)
  rw [List.getD_eq_getElem?_getD, List.getElem?_eq_getElem (by omega), Option.getD_some]
  exact hs _ (List.getElem_mem _)

theorem readStr_reverse_getD (T : List ℕ) (s : Str) (j : ℕ) (hj : j < T.length) :
    (readStr T s).reverse.getD j '0' = s.getD (s.length - 1 - T.getD j 0) '?' := by
  unfold readStr
  rw [List.map_reverse, List.reverse_reverse, List.getD_eq_getElem?_getD, List.getElem?_map,
    List.getElem?_eq_getElem hj, List.getD_eq_getElem?_getD (l := T), List.getElem?_eq_getElem hj]
  rfl

theorem getD_mem' (T : List ℕ) (j : ℕ) (hj : j < T.length) : T.getD j 0 ∈ T := by
  rw [List.getD_eq_getElem?_getD, List.getElem?_eq_getElem hj]
  exact List.getElem_mem _

theorem ofBin_readStr (T : List ℕ) (s : Str) (h : ∀ q ∈ T, q < s.length) : ofBin (readStr T s) = readBits T s := by
  rw [ofBin_eq_sum, readStr_length]
  refine Finset.sum_congr rfl fun j hj => ?_
  have hj := Finset.mem_range.1 hj
  rw [readStr_reverse_getD T s j hj, clbit_eq s _ (h _ (getD_mem' T j hj))]

theorem count_eq_sum (l : Str) : l.count '1' = ∑ j ∈ Finset.range l.length, bitVal (l.getD j '0') := by
  induction l with
  | nil => rfl
  | cons a l ih =>
    rw [List.count_cons, ih, List.length_cons, Finset.sum_range_succ']
    simp [bitVal]

theorem count_readStr (T : List ℕ) (s : Str) (h : ∀ q ∈ T, q < s.length) : (readStr T s).count '1' = onesOn T s := by
  rw [← List.count_reverse, count_eq_sum, List.length_reverse, readStr_length]
  refine Finset.sum_congr rfl fun j hj => ?_
  have hj := Finset.mem_range.1 hj
  rw [readStr_reverse_getD T s j hj, clbit_eq s _ (h _ (getD_mem' T j hj))]

theorem readBits_lt (T : List ℕ) (s : Str) : readBits T s < 2 ^ T.length :=
  sum_bits_lt _ _ fun t _ => by unfold clbit; split <;> omega

theorem bit_readBits (T : List ℕ) (s : Str) (j : ℕ) (hj : j < T.length) : bit (readBits T s) j = clbit s (T.getD j 0) :=
  bit_sum _ _ (fun t _ => by unfold clbit; split <;> omega) j hj

/-- The full register read in order. -/
theorem readStr_range (s : Str) : readStr (List.range s.length) s = s := by
  unfold readStr
  apply List.ext_getElem (by simp)
  intro i h1 h2
  have hi : i < s.length := h2
  simp only [List.getElem_map, List.getElem_reverse, List.getElem_range, List.length_range]
  rw [List.getD_eq_getElem?_getD, List.getElem?_eq_getElem (by omega), Option.getD_some]
  congr 1
  omega

theorem selects_full (n : ℕ) (T : List ℕ) (hT : T.Pairwise (· < ·)) (hr : ∀ q ∈ T, q < n) (hl : T.length = n) :
    T = List.range n := by
  have hnd : T.Nodup := hT.imp fun h => by omega
  have hsub : T.Subperm (List.range n) := hnd.subperm fun q hq => List.mem_range.2 (hr q hq)
  have hp : T.Perm (List.range n) := hsub.perm_of_length_le (by simp [hl])
  exact hp.eq_of_pairwise (fun a b _ _ h1 h2 => by omega) hT List.pairwise_lt_range

variable {R : Type} [CommRing R]

/-- `sum_marginal` with weights in any commutative ring. -/
theorem sum_marginal' (n : ℕ) (S : List ℕ) (hnd : S.Nodup) (hr : ∀ q ∈ S, q < n) (w : Str → R)
    (c : Counts) (hb : ∀ kv ∈ c, IsBits (trimSpaces kv.1)) (hl : ∀ kv ∈ c, (trimSpaces kv.1).length = n) :
    ((countKeys S.length).map fun k => w k * (marginalSpec c S k : R)).sum
      = (c.map fun kv => w (proj S (trimSpaces kv.1)) * (kv.2 : R)).sum := by
  have sum_ite : ∀ (l : List Str), l.Nodup → ∀ k0 ∈ l, ∀ f : Str → R,
      (l.map fun k => if k = k0 then f k else 0).sum = f k0 := by
    intro l
    induction l with
    | nil => simp
    | cons a l ih =>
      intro hl k0 h0 f
      rw [List.nodup_cons] at hl
      rw [List.map_cons, List.sum_cons]
      rcases List.mem_cons.1 h0 with rfl | h
      · have : (l.map fun k => if k = k0 then f k else 0).sum = 0 := by
          refine List.sum_eq_zero ?_
          intro x hx
          obtain ⟨k, hk, rfl⟩ := List.mem_map.1 hx
          rw [if_neg]; rintro rfl; exact hl.1 hk
        rw [if_pos rfl, this, add_zero]
      · rw [ih hl.2 k0 h f, if_neg, zero_add]
        rintro rfl; exact hl.1 h
  induction c with
  | nil =>
    have : ∀ k, marginalSpec [] S k = 0 := fun _ => rfl
    simp [this]
  | cons kv c ih =>
    have ih := ih (fun x hx => hb x (by simp [hx])) (fun x hx => hl x (by simp [hx]))
    simp only [marginalSpec_cons, Int.cast_add, mul_add, List.sum_map_add, ih, List.map_cons, List.sum_cons]
    congr 1
    have hlen := hl kv (by simp)
    have hmem := proj_mem n S hr _ (hb kv (by simp)) hlen
    rw [← sum_ite (countKeys S.length) (nodup_countKeys _) _ hmem (fun k => w k * (kv.2 : R))]
    congr 1
    apply List.map_congr_left
    intro k hk
    have := agrees_iff_proj n S hnd hr _ hlen k hk
    by_cases h : agrees S k (trimSpaces kv.1)
    · simp [h, ← this.1 h]
    · have h' : ¬ k = proj S (trimSpaces kv.1) := fun e => h (this.2 e)
      simp [h, h']

/-- What the optional marginalisation yields. -/
theorem marginalTo_spec (n : ℕ) (c : Counts) (hc : OneReg n c) (hnn : ∀ kv ∈ c, 0 ≤ kv.2) (hpos : 0 < total c)
    (clbits : Option (List ℕ)) (T : List ℕ) (hT : Selects n clbits T) :
    ∃ m, marginalTo c clbits = some m ∧ OneReg T.length m ∧ (∀ kv ∈ m, 0 ≤ kv.2) ∧
      ∀ (R : Type) [CommRing R] (w : Str → R), (m.map fun kv => w kv.1 * (kv.2 : R)).sum =
        (c.map fun kv => w (readStr T kv.1) * (kv.2 : R)).sum := by
  obtain ⟨hsort, hr, hne, hcl⟩ := hT
  have hid : T = List.range n → ∀ (R : Type) [CommRing R] (w : Str → R), (c.map fun kv => w kv.1 * (kv.2 : R)).sum =
        (c.map fun kv => w (readStr T kv.1) * (kv.2 : R)).sum := by
    intro hT R _ w
    congr 1
    refine List.map_congr_left fun kv hkv => ?_
    have := hc.len kv hkv
    rw [hT, ← this, readStr_range]
  cases clbits with
  | none =>
    have hT : T = List.range n := hcl
    exact ⟨c, rfl, by rw [hT]; simpa using hc, hnn, hid hT⟩
  | some S =>
    have hp : S.Perm T := hcl
    have hSn : S.Nodup := hp.nodup_iff.2 (hsort.imp fun h => by omega)
    have hSr : ∀ q ∈ S, q < n := fun q hq => hr q (hp.mem_iff.1 hq)
    by_cases hfull : S.length = n
    · have hTl : T.length = n := by rw [← hp.length_eq, hfull]
      have hT := selects_full n T hsort hr hTl
      exact ⟨c, marginalCounts_full n c hc.isCounts hc.bits S hfull false, by rw [hTl]; exact hc, hnn, hid hT⟩
    · have hsub : S.length ≤ n := by
        have : S.Subperm (List.range n) := hSn.subperm fun q hq => List.mem_range.2 (hSr q hq)
        simpa using this.length_le
      have hS : ProperSubset n S := ⟨hSn, hSr, by omega⟩
      have hne' : S ≠ [] := by rintro rfl; exact hne (List.nil_perm.1 hp)
      have h1 : 1 ≤ S.length := List.length_pos_iff.2 hne'
      have hm := marginalCounts_eq n c hc.isCounts S hS false
      have hkey : ∀ k ∈ countKeys S.length, matchSum c (mkRgx n (sortDesc S) k) = marginalSpec c S k := by
        intro k hk
        exact matchSum_eq_spec n c hc.isCounts S hS k (le_of_eq ((mem_countKeys _ h1 k).1 hk).2.symm)
      have hmap : ((countKeys S.length).map fun k => (k, matchSum c (mkRgx n (sortDesc S) k)))
          = (countKeys S.length).map fun k => (k, marginalSpec c S k) :=
        List.map_congr_left fun k hk => by rw [hkey k hk]
      simp only [hmap, Bool.false_eq_true, if_false] at hm
      have hsum : ∀ (R : Type) [CommRing R] (w : Str → R),
          ((((countKeys S.length).map fun k => (k, marginalSpec c S k)).filter (fun kv => kv.2 ≠ 0)).map
            fun kv => w kv.1 * (kv.2 : R)).sum = (c.map fun kv => w (readStr T kv.1) * (kv.2 : R)).sum := by
        intro R _ w
        have e1 : ∀ l : List (Str × ℤ), ((l.filter (fun kv => kv.2 ≠ 0)).map fun kv => w kv.1 * (kv.2 : R)).sum
            = (l.map fun kv => w kv.1 * (kv.2 : R)).sum := by
          intro l
          induction l with
          | nil => rfl
          | cons a l ih =>
            rw [List.filter_cons]
            by_cases h : a.2 = 0
            · simpa [h] using ih
            · simpa [h] using ih
        rw [e1, List.map_map]
        have := sum_marginal' n S hSn hSr w c hc.isCounts.bits hc.isCounts.len
        simp only [Function.comp_def]
        rw [this]
        congr 1
        refine List.map_congr_left fun kv hkv => ?_
        rw [trim_bits (hc.bits kv hkv), proj_eq_readStr S T hsort hp hne]
      refine ⟨_, hm, ⟨?_, ?_, ?_, ?_⟩, ?_, hsum⟩
      · intro he
        have := hsum ℤ fun _ => 1
        rw [he] at this
        simp only [List.map_nil, List.sum_nil, one_mul, Int.cast_id] at this
        unfold total at hpos
        omega
      · unfold Dict.WF
        refine (List.Sublist.map _ List.filter_sublist).nodup ?_
        simpa [List.map_map, Function.comp_def] using nodup_countKeys S.length
      · intro kv hkv
        obtain ⟨k, hk, rfl⟩ := List.mem_map.1 (List.mem_filter.1 hkv).1
        exact ((mem_countKeys _ h1 k).1 hk).1
      · intro kv hkv
        obtain ⟨k, hk, rfl⟩ := List.mem_map.1 (List.mem_filter.1 hkv).1
        rw [← hp.length_eq]
        exact ((mem_countKeys _ h1 k).1 hk).2
      · intro kv hkv
        obtain ⟨k, hk, rfl⟩ := List.mem_map.1 (List.mem_filter.1 hkv).1
        refine List.sum_nonneg ?_
        intro v hv
        obtain ⟨kv, hkv, rfl⟩ := List.mem_map.1 hv
        exact hnn kv (List.mem_filter.1 hkv).1

theorem shotsOf_eq (c m : Counts) (T : List ℕ)
    (h : ∀ (R : Type) [CommRing R] (w : Str → R), (m.map fun kv => w kv.1 * (kv.2 : R)).sum =
        (c.map fun kv => w (readStr T kv.1) * (kv.2 : R)).sum) : shotsOf m = total c := by
  have := h ℤ fun _ => 1
  simpa [shotsOf, total] using this

end Verif.Expval
