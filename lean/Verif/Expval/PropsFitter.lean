import Verif.Expval.Fitter
import Verif.Expval.PropsAmat
import Verif.Expval.PropsMit
import Verif.Expval.PropsMore
import Verif.Expval.Props
/-
C122: the expectation value mitigator fitter as an object; exactness of the fits.
-/
set_option linter.unusedSectionVars false
namespace Verif.Expval
open Verif Verif.Counts Verif.Expval.Ctmp

variable {K : Type} [Field K] [LinearOrder K] [IsStrictOrderedRing K]

/-! ### Specification -/

/-- The calibration data have exactly the frequencies of the noise `R`: for each label `x` that was prepared (below `dim`), `y` was read in a share `R y x` of a
positive number of shots. -/
structure Exact (dim : ℕ) (R : ℕ → ℕ → K) (data : Dict ℕ IntCounts) : Prop where
  wf : Dict.WF data
  label : ∀ p ∈ data, p.1 < dim
  counts : ∀ p ∈ data, Dict.WF p.2 ∧ (∀ kv ∈ p.2, kv.1 < dim) ∧ ∃ shots : K, 0 < shots ∧ ∀ y < dim, (p.2.getD y 0 : K) = shots * R y p.1

/-- Every calibration experiment `i` of `metadata` has a label of `n` bits and counts with exactly the frequencies of the noise `R` for that label. -/
structure ExactRuns (n : ℕ) (R : ℕ → ℕ → K) (counts : ℕ → IntCounts) (metadata : List Meta) : Prop where
  wf : ∀ i, Dict.WF (counts i)
  runs : ∀ (i : ℕ) (h : i < metadata.length), IsCal metadata[i] → IsBits metadata[i].cal ∧ metadata[i].cal.length = n ∧ (∀ kv ∈ counts i, kv.1 < 2 ^ n) ∧
    ∃ shots : K, 0 < shots ∧ ∀ y < 2 ^ n, ((counts i).getD y 0 : K) = shots * R y (ofBin metadata[i].cal)

/-! ### Lemmas -/

/-- Sum over a counts dictionary of the entries with one key. -/
theorem sum_one_key (c : IntCounts) (hwf : Dict.WF c) (P : ℕ → Prop) [DecidablePred P] (b : ℕ) (hP : ∀ kv ∈ c, (P kv.1 ↔ kv.1 = b)) :
    (c.map fun kv => if P kv.1 then kv.2 else 0).sum = c.getD b 0 := by
  have e : (c.map fun kv => if P kv.1 then kv.2 else 0) = c.map fun kv => if kv.1 = b then kv.2 else 0 :=
    List.map_congr_left fun kv hkv => by
      by_cases h : kv.1 = b
      · rw [if_pos h, if_pos ((hP kv hkv).2 h)]
      · rw [if_neg h, if_neg fun h' => h ((hP kv hkv).1 h')]
  rw [e]
  clear e hP
  induction c with
  | nil => rfl
  | cons a c ih =>
    have hnd : (a :: c).map (·.1) |>.Nodup := hwf
    rw [List.map_cons, List.nodup_cons] at hnd
    rw [List.map_cons, List.sum_cons, ih hnd.2]
    obtain ⟨k, v⟩ := a
    simp only [Dict.getD, Dict.get?_cons]
    by_cases h : k = b
    · subst h
      have : Dict.get? c k = none := (Dict.get?_eq_none_iff c k).2 hnd.1
      simp [this]
    · simp [h]

/-- `C19` sums as sums of casts. -/
theorem cast_tally (data : Dict ℕ IntCounts) (P : ℕ → ℕ → Prop) [∀ a b, Decidable (P a b)] :
    (tally data P : K) = (data.map fun p => (((p.2.map fun kv => if P p.1 kv.1 then kv.2 else 0).sum : ℤ) : K)).sum := by
  unfold tally
  rw [Int.cast_list_sum, List.map_map]
  rfl

/-- The number that has the bits of `a` except that bit `q` is the bit 0 of `y`. -/
def withBit (n q a y : ℕ) : ℕ := ∑ t ∈ Finset.range n, bit (if t = q then y else a) (if t = q then 0 else t) * 2 ^ t

theorem withBit_lt (n q a y : ℕ) : withBit n q a y < 2 ^ n := sum_bits_lt _ _ fun t _ => bit_lt _ _

theorem testBit_withBit (n q a y t : ℕ) (ht : t < n) : (withBit n q a y).testBit t = if t = q then y.testBit 0 else a.testBit t := by
  have := bit_sum n (fun t => bit (if t = q then y else a) (if t = q then 0 else t)) (fun t _ => bit_lt _ _) t ht
  have h2 : bit (withBit n q a y) t = bit (if t = q then y else a) (if t = q then 0 else t) := this
  rw [bit_inj] at h2
  rw [h2]
  split <;> rfl

theorem withBit_iff (n q a y b : ℕ) (hq : q < n) (hb : b < 2 ^ n) : (AgreeOutside n [q] a b ∧ Spells [q] b y) ↔ b = withBit n q a y := by
  constructor
  · rintro ⟨h1, h2⟩
    refine eq_of_bits hb (withBit_lt n q a y) fun t ht => ?_
    rw [bit_inj, testBit_withBit n q a y t ht]
    by_cases htq : t = q
    · subst htq
      rw [if_pos rfl]
      have := h2 0 (by simp)
      simpa using this
    · rw [if_neg htq]
      exact (h1 t ht (by simpa using htq)).symm
  · rintro rfl
    refine ⟨fun t ht hq' => ?_, fun p hp => ?_⟩
    · rw [testBit_withBit n q a y t ht, if_neg (by simpa using hq')]
    · have : p = 0 := by simpa using hp
      subst this
      simp only [List.getD_cons_zero, List.length_singleton]
      rw [testBit_withBit n q a y q hq, if_pos rfl]

/-- Product noise of reading `a` with bit `q` replaced when `a` was prepared. -/
theorem prodNoise_withBit (as : List (Mat K)) (q a y : ℕ) (hq : q < as.length) :
    prodNoise as (withBit as.length q a y) a =
      as.getD q (fun _ _ => 0) (y.testBit 0).toNat (a.testBit q).toNat *
        ∏ t ∈ (Finset.range as.length).erase q, as.getD t (fun _ _ => 0) (a.testBit t).toNat (a.testBit t).toNat := by
  unfold prodNoise
  rw [← Finset.mul_prod_erase _ _ (Finset.mem_range.2 hq), testBit_withBit _ _ _ _ _ hq, if_pos rfl]
  congr 1
  refine Finset.prod_congr rfl fun t ht => ?_
  rw [testBit_withBit _ _ _ _ _ (Finset.mem_range.1 (Finset.mem_of_mem_erase ht)), if_neg (Finset.ne_of_mem_erase ht)]

theorem combineInt_wf (c1 c2 : IntCounts) (h1 : Dict.WF c1) : Dict.WF (combineInt c1 c2) := by
  unfold combineInt
  induction c2 generalizing c1 with
  | nil => exact h1
  | cons a c2 ih => exact ih _ (Dict.wf_set _ h1 _ _)

theorem combineInt_keys (c1 c2 : IntCounts) (dim : ℕ) (h1 : ∀ kv ∈ c1, kv.1 < dim) (h2 : ∀ kv ∈ c2, kv.1 < dim) : ∀ kv ∈ combineInt c1 c2, kv.1 < dim := by
  have key : ∀ (c2 c1 : IntCounts), (∀ k ∈ c1.map (·.1), k < dim) → (∀ kv ∈ c2, kv.1 < dim) → ∀ k ∈ (combineInt c1 c2).map (·.1), k < dim := by
    intro c2
    induction c2 with
    | nil => intro c1 h1 _; exact h1
    | cons a c2 ih =>
      intro c1 h1 h2
      refine ih _ (fun k hk => ?_) fun kv hkv => h2 kv (List.mem_cons_of_mem _ hkv)
      rcases (Dict.mem_keys_set c1 a.1 k _).1 hk with h | h
      · rw [h]; exact h2 a (by simp)
      · exact h1 k h
  intro kv hkv
  exact key c2 c1 (fun k hk => by obtain ⟨kv, h, rfl⟩ := List.mem_map.1 hk; exact h1 kv h) h2 kv.1 (List.mem_map_of_mem hkv)

/-- Storing exact counts keeps the data exact. -/
theorem Exact.set {dim : ℕ} {R : ℕ → ℕ → K} {data : Dict ℕ IntCounts} (h : Exact dim R data) (x : ℕ) (hx : x < dim) (c : IntCounts) (hc : Dict.WF c)
    (hk : ∀ kv ∈ c, kv.1 < dim) (hs : ∃ shots : K, 0 < shots ∧ ∀ y < dim, (c.getD y 0 : K) = shots * R y x) : Exact dim R (data.set x c) := by
  have hwf := Dict.wf_set data h.wf x c
  have hmem : ∀ p ∈ data.set x c, p ∈ data ∨ p = (x, c) := by
    intro p hp
    have h1 := Dict.get?_of_mem _ hwf p.1 p.2 hp
    rw [Dict.get?_set] at h1
    split at h1
    · rename_i e
      right
      injection h1 with h1
      exact Prod.ext (by simpa using e.symm) h1.symm
    · exact Or.inl (Dict.get?_mem _ _ _ h1)
  refine ⟨hwf, fun p hp => ?_, fun p hp => ?_⟩
  · rcases hmem p hp with h' | rfl
    · exact h.label p h'
    · exact hx
  · rcases hmem p hp with h' | rfl
    · exact h.counts p h'
    · exact ⟨hc, hk, hs⟩

/-- Calibration data of exact runs are exact. -/
theorem exact_data (n : ℕ) (hn : 1 ≤ n) (R : ℕ → ℕ → K) (counts : ℕ → IntCounts) (metadata : List Meta) (h : ExactRuns n R counts metadata) (st : CalState)
    (hst : calibrationData counts metadata = some st) : Exact (2 ^ n) R st.data := by
  induction metadata using List.reverseRecOn generalizing st with
  | nil =>
    have : st = ⟨[], none, none⟩ := by
      unfold calibrationData at hst
      simpa using hst.symm
    subst this
    exact ⟨Dict.wf_nil, by simp, by simp⟩
  | append_singleton l m ih =>
    have hl : ExactRuns n R counts l := ⟨h.wf, fun i hi hc => by
      have := h.runs i (by simp; omega)
      rw [List.getElem_append_left hi] at this
      exact this hc⟩
    have hmm := h.runs l.length (by simp)
    rw [List.getElem_append_right (le_refl _)] at hmm
    simp only [Nat.sub_self, List.getElem_cons_zero] at hmm
    obtain ⟨st', h1, -⟩ := C83_calibration_data counts h.wf l fun m' hm' hc => by
      obtain ⟨i, hi, rfl⟩ := List.getElem_of_mem hm'
      have := hl.runs i hi hc
      exact ⟨this.1, by intro e; have h2 := this.2.1; rw [e] at h2; simp at h2; omega⟩
    have hex := ih hl st' h1
    have hstep : calibrationData counts (l ++ [m]) = calStep counts st' (m, l.length) := by
      unfold calibrationData at h1 ⊢
      rw [List.zipIdx_append, List.foldlM_append, h1]
      simp [List.zipIdx_cons]
    rw [hstep] at hst
    unfold calStep at hst
    by_cases hc : m.experiment = some "meas_mit".toList
    · obtain ⟨hb, hlen, hk, hs⟩ := hmm hc
      have hx : ofBin m.cal < 2 ^ n := hlen ▸ ofBin_lt m.cal
      have hp : parseBin m.cal = some (ofBin m.cal) := by
        unfold parseBin
        rw [if_pos ⟨hb, by intro e; rw [e] at hlen; simp at hlen; omega⟩]
      simp only [hc, if_true, hp, Option.bind_eq_bind, Option.bind_some, Option.pure_def, Option.some.injEq] at hst
      subst hst
      simp only
      cases hg : Dict.get? st'.data (ofBin m.cal) with
      | none => exact hex.set _ hx _ (h.wf _) hk hs
      | some old =>
        obtain ⟨o1, o2, s1, o3, o4⟩ := hex.counts _ (Dict.get?_mem _ _ _ hg)
        obtain ⟨s2, p3, p4⟩ := hs
        refine hex.set _ hx _ (combineInt_wf _ _ o1) (combineInt_keys _ _ _ o2 hk) ⟨s1 + s2, by linarith, fun y hy => ?_⟩
        rw [getD_combineInt _ _ (h.wf _), Int.cast_add, o4 y hy, p4 y hy]
        ring
    · simp only [hc, if_false, Option.some.injEq] at hst
      subst hst
      exact hex

theorem sum_list_swap {α ι : Type} (t : Finset ι) (l : List α) (f : ι → α → ℤ) : ∑ y ∈ t, (l.map (f y)).sum = (l.map fun p => ∑ y ∈ t, f y p).sum := by
  induction l with
  | nil => simp
  | cons a l ih => simp [Finset.sum_add_distrib, ih]

theorem tally_split (data : Dict ℕ IntCounts) (P Q Q' : ℕ → ℕ → Prop) [∀ a b, Decidable (P a b)] [∀ a b, Decidable (Q a b)] [∀ a b, Decidable (Q' a b)]
    (h : ∀ a b, (¬ Q a b ↔ Q' a b)) : tally data P = tally data (fun a b => P a b ∧ Q a b) + tally data (fun a b => P a b ∧ Q' a b) := by
  unfold tally
  rw [← List.sum_map_add]
  congr 1
  refine List.map_congr_left fun p _ => ?_
  rw [← List.sum_map_add]
  congr 1
  refine List.map_congr_left fun kv _ => ?_
  have := h p.1 kv.1
  by_cases h1 : P p.1 kv.1 <;> by_cases h2 : Q p.1 kv.1
  · have h3 : ¬ Q' p.1 kv.1 := fun h' => (this.2 h') h2
    simp [h1, h2, h3]
  · have h3 : Q' p.1 kv.1 := this.1 h2
    simp [h1, h2, h3]
  · simp [h1]
  · simp [h1]

/-- Exact data: number of shots that prepared a label with bit `x` on qubit `q`, read `y` there and made no error elsewhere. -/
theorem Exact.local_tally {as : List (Mat K)} {data : Dict ℕ IntCounts} (h : Exact (2 ^ as.length) (prodNoise as) data) (hr : ∀ a ∈ as, ∃ e0 e1, Readout a e0 e1)
    (q : ℕ) (hq : q < as.length) (x : ℕ) (hx : x < 2) (hlab : ∃ p ∈ data, p.1.testBit q = x.testBit 0) :
    ∃ W : K, 0 < W ∧ ∀ y < 2, (tally data (fun a b => (Spells [q] a x ∧ AgreeOutside as.length [q] a b) ∧ Spells [q] b y) : K) =
      W * as.getD q (fun _ _ => 0) y x := by
  have hcnt := h.counts
  choose! s hs using fun p hp => (hcnt p hp).2.2
  have hdiag : ∀ t < as.length, ∀ b : Bool, 0 < as.getD t (fun _ _ => 0) b.toNat b.toNat := by
    intro t ht b
    have hm : as.getD t (fun _ _ => 0) ∈ as := by
      rw [List.getD_eq_getElem?_getD, List.getElem?_eq_getElem ht, Option.getD_some]; exact List.getElem_mem ht
    obtain ⟨e0, e1, hro⟩ := hr _ hm
    have := hro.lt
    have h0 := hro.pos0
    have h1 := hro.pos1
    cases b
    · show 0 < as.getD t (fun _ _ => 0) 0 0
      rw [hro.a00]; linarith
    · show 0 < as.getD t (fun _ _ => 0) 1 1
      rw [hro.a11]; linarith
  let V : ℕ × IntCounts → K := fun p => if p.1.testBit q = x.testBit 0 then
    s p * ∏ t ∈ (Finset.range as.length).erase q, as.getD t (fun _ _ => 0) (p.1.testBit t).toNat (p.1.testBit t).toNat else 0
  have hprodpos : ∀ p : ℕ × IntCounts, 0 < ∏ t ∈ (Finset.range as.length).erase q, as.getD t (fun _ _ => 0) (p.1.testBit t).toNat (p.1.testBit t).toNat :=
    fun p => Finset.prod_pos fun t ht => hdiag t (Finset.mem_range.1 (Finset.mem_of_mem_erase ht)) _
  have hbit : ∀ z < 2, (z.testBit 0).toNat = z := by
    intro z hz
    have : z = 0 ∨ z = 1 := by omega
    rcases this with rfl | rfl <;> rfl
  have hspell : ∀ a z, Spells [q] a z ↔ a.testBit q = z.testBit 0 := by
    intro a z
    unfold Spells
    simp
  refine ⟨(data.map V).sum, ?_, fun y hy => ?_⟩
  · obtain ⟨p, hp, hpx⟩ := hlab
    have hVp : 0 < V p := by
      simp only [V, hpx, if_true]
      exact mul_pos (hs p hp).1 (hprodpos p)
    have hV0 : ∀ p ∈ data, 0 ≤ V p := by
      intro p hp
      simp only [V]
      split
      · exact (mul_pos (hs p hp).1 (hprodpos p)).le
      · exact le_rfl
    refine lt_of_lt_of_le hVp (List.single_le_sum ?_ _ (List.mem_map_of_mem hp))
    intro v hv
    obtain ⟨p', hp', rfl⟩ := List.mem_map.1 hv
    exact hV0 p' hp'
  · rw [cast_tally, ← List.sum_map_mul_right]
    congr 1
    refine List.map_congr_left fun p hp => ?_
    by_cases hpx : p.1.testBit q = x.testBit 0
    · simp only [V, hpx, if_true]
      rw [sum_one_key p.2 (hcnt p hp).1 (fun b => (Spells [q] p.1 x ∧ AgreeOutside as.length [q] p.1 b) ∧ Spells [q] b y) (withBit as.length q p.1 y)
        (fun kv hkv => by
          rw [← withBit_iff as.length q p.1 y kv.1 hq ((hcnt p hp).2.1 kv hkv), hspell p.1 x]
          simp only [hpx, true_and]), (hs p hp).2 _ (withBit_lt _ _ _ _), prodNoise_withBit as q p.1 y hq, hpx, hbit y hy, hbit x hx]
      ring
    · simp only [V, hpx, if_false, zero_mul]
      have : ∀ kv : ℕ × ℤ, ¬ ((Spells [q] p.1 x ∧ AgreeOutside as.length [q] p.1 kv.1) ∧ Spells [q] kv.1 y) := by
        intro kv h'
        exact hpx ((hspell p.1 x).1 h'.1.1)
      simp [this]

theorem fitter_start (n : ℕ) (hn : 1 ≤ n) (R : ℕ → ℕ → K) (counts : ℕ → IntCounts) (metadata : List Meta) (h : ExactRuns n R counts metadata)
    (hex : ∃ m ∈ metadata, IsCal m) : ∃ st, calibrationData counts metadata = some st ∧ Exact (2 ^ n) R st.data ∧ st.numQubits = some n ∧
      ∀ x, (∃ m ∈ metadata, IsCal m ∧ ofBin m.cal = x) → ∃ c, (x, c) ∈ st.data := by
  have hlen : ∀ m ∈ metadata, IsCal m → IsBits m.cal ∧ m.cal.length = n := by
    intro m hm hc
    obtain ⟨i, hi, rfl⟩ := List.getElem_of_mem hm
    have := h.runs i hi hc
    exact ⟨this.1, this.2.1⟩
  obtain ⟨st, h1, h2, -, h4, -⟩ := C83_calibration_data counts h.wf metadata fun m hm hc => by
    have := hlen m hm hc
    exact ⟨this.1, by intro e; have h2 := this.2; rw [e] at h2; simp at h2; omega⟩
  refine ⟨st, h1, exact_data n hn R counts metadata h st h1, ?_, fun x hx => ?_⟩
  · rw [h4]
    obtain ⟨m, hm, hc⟩ := hex
    cases hf : metadata.find? fun m => decide (IsCal m) with
    | none =>
      have := List.find?_eq_none.1 hf m hm
      simp [hc] at this
    | some m' =>
      have hc' : IsCal m' := by simpa using List.find?_some hf
      rw [Option.map_some, (hlen m' (List.mem_of_find?_eq_some hf) hc').2]
  · obtain ⟨c, hc⟩ := Option.isSome_iff_exists.1 ((h2 x).2 hx)
    exact ⟨c, Dict.get?_mem _ _ _ hc⟩

/-! ### C122 -/

/-- **C122** (complete fit).  With exact calibration data for every label, fitting the complete mitigator returns the readout noise of the device. -/
theorem C122_complete (n : ℕ) (hn : 1 ≤ n) (R : ℕ → ℕ → K) (hR : ∀ x < 2 ^ n, ∑ y ∈ Finset.range (2 ^ n), R y x = 1) (counts : ℕ → IntCounts) (metadata : List Meta)
    (h : ExactRuns n R counts metadata) (hall : ∀ x < 2 ^ n, ∃ m ∈ metadata, IsCal m ∧ ofBin m.cal = x)
    (logm : Mat K → Option (Mat K)) (generators : Option (List Gen)) :
    ∃ (s s' : FitterState K) (A : Mat K), newFitter counts metadata = some s ∧
      fitterFit logm s (some "complete".toList) generators = some (s', .complete n A) ∧ ∀ y < 2 ^ n, ∀ x < 2 ^ n, A y x = R y x := by
  obtain ⟨m0, hm0, hc0, -⟩ := hall 0 (by positivity)
  obtain ⟨st, h1, hex, hnq, hin⟩ := fitter_start n hn R counts metadata h ⟨m0, hm0, hc0⟩
  have hcnt := hex.counts
  have hr : ∀ p ∈ st.data, p.1 < 2 ^ n ∧ ∀ kv ∈ p.2, kv.1 < 2 ^ n := fun p hp => ⟨hex.label p hp, (hcnt p hp).2.1⟩
  have hlab : ∀ x < 2 ^ n, ∃ shots : K, 0 < shots ∧ ∀ y < 2 ^ n, (tally st.data (fun a b => a = x ∧ b = y) : K) = shots * R y x := by
    intro x hx
    obtain ⟨c, hc⟩ := hin x (hall x hx)
    obtain ⟨w1, w2, s, w3, w4⟩ := hcnt _ hc
    refine ⟨s, w3, fun y hy => ?_⟩
    rw [← w4 y hy]
    congr 1
    unfold tally
    have e : (st.data.map fun p => (p.2.map fun kv => if p.1 = x ∧ kv.1 = y then kv.2 else 0).sum) = st.data.map fun p => if p.1 = x then c.getD y 0 else 0 := by
      refine List.map_congr_left fun p hp => ?_
      by_cases hpx : p.1 = x
      · have hpc : p.2 = c := by
          have e1 := Dict.get?_of_mem _ hex.wf p.1 p.2 hp
          have e2 := Dict.get?_of_mem _ hex.wf x c hc
          rw [hpx, e2] at e1
          injection e1 with e1
          exact e1.symm
        rw [if_pos hpx, hpc, sum_one_key c w1 (fun b => p.1 = x ∧ b = y) y fun kv _ => by simp [hpx]]
      · simp [hpx]
    rw [e]
    have hnd : (st.data.map (·.1)).Nodup := hex.wf
    have hxm : x ∈ st.data.map (·.1) := List.mem_map.2 ⟨_, hc, rfl⟩
    generalize c.getD y 0 = v
    generalize st.data = d at hnd hxm
    clear * - hnd hxm
    induction d with
    | nil => simp at hxm
    | cons a d ih =>
      rw [List.map_cons, List.nodup_cons] at hnd
      rw [List.map_cons, List.sum_cons]
      by_cases hax : a.1 = x
      · rw [if_pos hax]
        have : (d.map fun p => if p.1 = x then v else 0).sum = 0 := List.sum_eq_zero fun z hz => by
          obtain ⟨p, hp, rfl⟩ := List.mem_map.1 hz
          rw [if_neg]
          intro e
          exact hnd.1 (hax ▸ e ▸ List.mem_map_of_mem hp)
        rw [this, add_zero]
      · rw [if_neg hax, zero_add]
        refine ih hnd.2 ?_
        rw [List.map_cons, List.mem_cons] at hxm
        exact hxm.resolve_left fun e => hax e.symm
  have htot : ∀ x < 2 ^ n, (tally st.data (fun a _ => a = x) : K) = ∑ y ∈ Finset.range (2 ^ n), (tally st.data (fun a b => a = x ∧ b = y) : K) := by
    intro x _
    rw [← Int.cast_sum]
    congr 1
    unfold tally
    rw [sum_list_swap]
    congr 1
    refine List.map_congr_left fun p hp => ?_
    rw [sum_list_swap]
    congr 1
    refine List.map_congr_left fun kv hkv => ?_
    by_cases hpx : p.1 = x
    · simp only [hpx, true_and, if_true]
      rw [Finset.sum_ite_eq, if_pos (Finset.mem_range.2 ((hr p hp).2 kv hkv))]
    · simp [hpx]
  obtain ⟨hnone, hval⟩ := C19_full (K := K) st.data n hr
  have hpos : ∀ x (hx : x < 2 ^ n), (tally st.data (fun a _ => a = x) : K) = Classical.choose (hlab x hx) := by
    intro x hx
    have := Classical.choose_spec (hlab x hx)
    rw [htot x hx, Finset.sum_congr rfl fun y hy => this.2 y (Finset.mem_range.1 hy), ← Finset.mul_sum, hR x hx, mul_one]
  cases hA : assignmentMatrix (K := K) st.data n none with
  | none =>
    obtain ⟨x, hx, h0⟩ := hnone.1 hA
    have := hpos x hx
    rw [h0, Int.cast_zero] at this
    exact absurd this (Classical.choose_spec (hlab x hx)).1.ne
  | some r =>
    obtain ⟨dim, A⟩ := r
    obtain ⟨hd, hv⟩ := hval dim A hA
    refine ⟨⟨st, none⟩, ⟨st, some (.complete n A)⟩, A, by simp [newFitter, h1], ?_, fun y hy x hx => ?_⟩
    · unfold fitterFit fitComplete
      simp [hnq, hA]
    · have := Classical.choose_spec (hlab x hx)
      rw [hv y (by omega) x (by omega), hpos x hx, this.2 y hy, mul_div_cancel_left₀ _ this.1.ne']

/-- **C122** (tensored fit).  If the errors of the qubits are independent, fitting the tensored mitigator to exact calibration data returns the error matrices of
the qubits, for any set of labels in which every qubit is prepared in both states. -/
theorem C122_tensored (as : List (Mat K)) (hn : 1 ≤ as.length) (hr : ∀ a ∈ as, ∃ e0 e1, Readout a e0 e1) (counts : ℕ → IntCounts) (metadata : List Meta)
    (h : ExactRuns as.length (prodNoise as) counts metadata) (hall : ∀ q < as.length, ∀ b, ∃ m ∈ metadata, IsCal m ∧ (ofBin m.cal).testBit q = b)
    (logm : Mat K → Option (Mat K)) (generators : Option (List Gen)) :
    ∃ (s s' : FitterState K) (As : List (Mat K)), newFitter counts metadata = some s ∧
      fitterFit logm s (some "tensored".toList) generators = some (s', .tensored As) ∧ As.length = as.length ∧
      ∀ q < as.length, ∀ y < 2, ∀ x < 2, As.getD q (fun _ _ => 0) y x = as.getD q (fun _ _ => 0) y x := by
  obtain ⟨m0, hm0, hc0, -⟩ := hall 0 hn true
  obtain ⟨st, h1, hex, hnq, hin⟩ := fitter_start as.length hn (prodNoise as) counts metadata h ⟨m0, hm0, hc0⟩
  have hq1 : ∀ q < as.length, ∃ A : Mat K, (assignmentMatrix (K := K) st.data as.length (some [q])).map (·.2) = some A ∧
      ∀ y < 2, ∀ x < 2, A y x = as.getD q (fun _ _ => 0) y x := by
    intro q hq
    have hm : as.getD q (fun _ _ => 0) ∈ as := by
      rw [List.getD_eq_getElem?_getD, List.getElem?_eq_getElem hq, Option.getD_some]; exact List.getElem_mem hq
    obtain ⟨e0, e1, hro⟩ := hr _ hm
    have hcol : ∀ x < 2, as.getD q (fun _ _ => 0) 0 x + as.getD q (fun _ _ => 0) 1 x = 1 := by
      intro x hx
      have : x = 0 ∨ x = 1 := by omega
      rcases this with rfl | rfl
      · rw [hro.a00, hro.a10]; ring
      · rw [hro.a01, hro.a11]; ring
    have hloc : ∀ x < 2, ∃ W : K, 0 < W ∧ (∀ y < 2, (tally st.data (fun a b => (Spells [q] a x ∧ AgreeOutside as.length [q] a b) ∧ Spells [q] b y) : K) =
        W * as.getD q (fun _ _ => 0) y x) ∧ (tally st.data (fun a b => Spells [q] a x ∧ AgreeOutside as.length [q] a b) : K) = W := by
      intro x hx
      obtain ⟨m, hm, hc, hb⟩ := hall q hq (x.testBit 0)
      obtain ⟨c, hc⟩ := hin _ ⟨m, hm, hc, rfl⟩
      obtain ⟨W, hW, hy⟩ := hex.local_tally hr q hq x hx ⟨_, hc, hb⟩
      refine ⟨W, hW, hy, ?_⟩
      rw [tally_split st.data (fun a b => Spells [q] a x ∧ AgreeOutside as.length [q] a b) (fun _ b => Spells [q] b 0) (fun _ b => Spells [q] b 1)
        (fun a b => by simp [Spells]), Int.cast_add, hy 0 (by omega), hy 1 (by omega), ← mul_add, hcol x hx, mul_one]
    obtain ⟨hnone, hval⟩ := C19_subset (K := K) st.data as.length [q]
    cases hA : assignmentMatrix (K := K) st.data as.length (some [q]) with
    | none =>
      obtain ⟨x, hx, h0⟩ := hnone.1 hA
      obtain ⟨W, hW, -, hT⟩ := hloc x (by simpa using hx)
      rw [h0, Int.cast_zero] at hT
      exact absurd hT hW.ne
    | some r =>
      obtain ⟨dim, A⟩ := r
      obtain ⟨hd, hv⟩ := hval dim A hA
      have hd2 : dim = 2 := by simpa using hd
      refine ⟨A, rfl, fun y hy x hx => ?_⟩
      obtain ⟨W, hW, hN, hT⟩ := hloc x hx
      rw [hv y (by omega) x (by omega), hN y hy, hT, mul_div_cancel_left₀ _ hW.ne']
  choose! F hF using hq1
  have hfit : fitTensored (K := K) st = some ((List.range as.length).map F) := by
    unfold fitTensored
    rw [hnq]
    simp only [Option.bind_eq_bind, Option.bind_some]
    exact mapM_eq_some _ _ F fun q hq => (hF q (List.mem_range.1 hq)).1
  refine ⟨⟨st, none⟩, ⟨st, some (.tensored ((List.range as.length).map F))⟩, (List.range as.length).map F, by simp [newFitter, h1], ?_, by simp, fun q hq y hy x hx => ?_⟩
  · unfold fitterFit
    simp only [Option.some_or]
    rw [if_neg (by decide), if_pos trivial, hfit]
    rfl
  · rw [List.getD_eq_getElem?_getD, List.getElem?_map, List.getElem?_range hq, Option.map_some, Option.getD_some]
    exact (hF q hq).2 y hy x hx

/-- The object after some calls of `fit`; a call that raises leaves it as it is. -/
def runFits (logm : Mat K → Option (Mat K)) (s : FitterState K) (calls : List (Option Str × Option (List Gen))) : FitterState K :=
  calls.foldl (fun s c => ((fitterFit logm s c.1 c.2).map (·.1)).getD s) s

theorem calibrationData_method (counts : ℕ → IntCounts) (metadata : List Meta) (st : CalState) (h : calibrationData counts metadata = some st) :
    st.method = metadata.findSome? fun m => if IsCal m then m.method else none := by
  induction metadata using List.reverseRecOn generalizing st with
  | nil =>
    unfold calibrationData at h
    simp only [List.zipIdx_nil, List.foldlM_nil, Option.pure_def, Option.some.injEq] at h
    subst h
    rfl
  | append_singleton l m ih =>
    unfold calibrationData at h ih
    rw [List.zipIdx_append, List.foldlM_append] at h
    cases h1 : l.zipIdx.foldlM (calStep counts) ⟨[], none, none⟩ with
    | none => rw [h1] at h; cases h
    | some st' =>
      have := ih st' h1
      rw [h1] at h
      simp only [Option.bind_eq_bind, Option.bind_some, List.zipIdx_cons, List.zipIdx_nil, List.foldlM_cons, List.foldlM_nil] at h
      rw [List.findSome?_append, ← this]
      rw [Option.bind_eq_some_iff] at h
      obtain ⟨st2, h2, h3⟩ := h
      injection h3 with h3
      subst h3
      unfold calStep at h2
      by_cases hc : m.experiment = some "meas_mit".toList
      · have hc' : IsCal m := hc
        simp only [hc, if_true, Option.bind_eq_bind] at h2
        rw [Option.bind_eq_some_iff] at h2
        obtain ⟨k, -, h2⟩ := h2
        injection h2 with h2
        subst h2
        simp [hc']
      · have hc' : ¬ IsCal m := hc
        simp only [hc, if_false, Option.some.injEq] at h2
        subst h2
        simp [hc']

/-- What `fit` returns depends on the stored data; it stores what it returns. -/
theorem fitterFit_eq (logm : Mat K → Option (Mat K)) (s : FitterState K) (method : Option Str) (generators : Option (List Gen)) :
    fitterFit logm s method generators = ((fitterFit logm ⟨s.cal, none⟩ method generators).map (·.2)).map fun m => (⟨s.cal, some m⟩, m) := by
  unfold fitterFit
  simp only
  split_ifs
  · cases fitComplete (K := K) s.cal <;> rfl
  · cases fitTensored (K := K) s.cal <;> rfl
  · cases s.cal.numQubits with
    | none => rfl
    | some n =>
      simp only [Option.bind_eq_bind, Option.bind_some]
      cases fitCtmp logm s.cal.data n generators <;> rfl
  · rfl

theorem runFits_cal (logm : Mat K → Option (Mat K)) (s : FitterState K) (calls : List (Option Str × Option (List Gen))) : (runFits logm s calls).cal = s.cal := by
  induction calls using List.reverseRecOn with
  | nil => rfl
  | append_singleton l c ih =>
    unfold runFits at ih ⊢
    rw [List.foldl_append, List.foldl_cons, List.foldl_nil]
    generalize l.foldl _ s = s' at ih ⊢
    rw [fitterFit_eq, ← ih]
    cases (fitterFit logm ⟨s'.cal, none⟩ c.1 c.2).map (·.2) <;> rfl

theorem fit_same (logm : Mat K → Option (Mat K)) (s s' : FitterState K) (h : s.cal = s'.cal) (method : Option Str) (generators : Option (List Gen)) :
    (fitterFit logm s method generators).map (·.2) = (fitterFit logm s' method generators).map (·.2) := by
  rw [fitterFit_eq logm s, fitterFit_eq logm s', h]

/-- **C122** (the fitter object).  For any history of `fit` calls: what a call returns, or that it raises, depends on the calibration data and the arguments of that
call only; no method argument stands for the method of the first calibration circuit; any other method name raises; and `mitigator` is what the last successful
call returned, and raises before it. -/
theorem C122_object (logm : Mat K → Option (Mat K)) (counts : ℕ → IntCounts) (metadata : List Meta) (s : FitterState K) (hs : newFitter counts metadata = some s)
    (calls : List (Option Str × Option (List Gen))) :
    (∀ method generators, (fitterFit logm (runFits logm s calls) method generators).map (·.2) = (fitterFit logm s method generators).map (·.2)) ∧
    (∀ generators, (fitterFit logm s none generators).map (·.2) =
      (metadata.findSome? fun m => if IsCal m then m.method else none).bind fun m => (fitterFit logm s (some m) generators).map (·.2)) ∧
    (∀ method generators, method ∉ ["complete".toList, "tensored".toList, "CTMP".toList, "ctmp".toList] → fitterFit logm s (some method) generators = none) ∧
    fitterMitigator (runFits logm s calls) = (calls.reverse.findSome? fun c => (fitterFit logm s c.1 c.2).map (·.2)) := by
  have hmap : calibrationData counts metadata = some s.cal ∧ s.mitigator = none := by
    unfold newFitter at hs
    rw [Option.map_eq_some_iff] at hs
    obtain ⟨st, h1, rfl⟩ := hs
    exact ⟨h1, rfl⟩
  refine ⟨fun method generators => fit_same logm _ _ (runFits_cal logm s calls) _ _, fun generators => ?_, fun method generators hm => ?_, ?_⟩
  · have hmeth : s.cal.method = metadata.findSome? fun m => if IsCal m then m.method else none := calibrationData_method counts metadata s.cal hmap.1
    rw [← hmeth]
    cases hm : s.cal.method with
    | none =>
      have : fitterFit logm s none generators = none := by
        unfold fitterFit
        simp only [hm, Option.or_none]
        rw [if_neg (by simp), if_neg (by simp), if_neg (by simp)]
      rw [this]
      rfl
    | some m =>
      have : fitterFit logm s none generators = fitterFit logm s (some m) generators := by
        unfold fitterFit
        simp only [hm, Option.none_or, Option.some_or]
      rw [this]
      rfl
  · simp only [List.mem_cons, List.not_mem_nil, or_false, not_or] at hm
    unfold fitterFit
    simp only [Option.some_or, Option.some.injEq]
    rw [if_neg hm.1, if_neg hm.2.1, if_neg (by rintro (h | h); exacts [hm.2.2.1 h, hm.2.2.2 h])]
  · induction calls using List.reverseRecOn with
    | nil => exact hmap.2
    | append_singleton l c ih =>
      rw [List.reverse_append, List.reverse_singleton, List.singleton_append, List.findSome?_cons]
      have e : runFits logm s (l ++ [c]) = ((fitterFit logm (runFits logm s l) c.1 c.2).map (·.1)).getD (runFits logm s l) := by
        unfold runFits
        rw [List.foldl_append]
        rfl
      rw [e, fitterFit_eq, fit_same logm ⟨(runFits logm s l).cal, none⟩ s (runFits_cal logm s l)]
      cases hf : (fitterFit logm s c.1 c.2).map (·.2) with
      | none => simpa using ih
      | some m => rfl

/-- Non-vacuity: two qubits that are misread with probability 1/4 in state 0 and 1/2 in state 1, calibrated with the two circuits of the tensored method (16 shots each). -/
example :
    let a : Mat ℚ := fun y x => if x = 0 then (if y = 0 then 3 / 4 else 1 / 4) else 1 / 2
    let counts : ℕ → IntCounts := fun i => if i = 0 then [(0, 9), (1, 3), (2, 3), (3, 1)] else [(0, 4), (1, 4), (2, 4), (3, 4)]
    ∃ circs metas, mitigatorCircuits 2 "tensored".toList none = some (circs, metas) ∧ (∀ b ∈ [a, a], ∃ e0 e1, Readout b e0 e1) ∧
      ExactRuns 2 (prodNoise [a, a]) counts metas ∧ ∀ q < 2, ∀ b, ∃ m ∈ metas, IsCal m ∧ (ofBin m.cal).testBit q = b := by
  intro a counts
  refine ⟨_, _, rfl, ?_, ⟨?_, ?_⟩, ?_⟩
  · intro b hb
    have : b = a := by simpa using hb
    subst this
    exact ⟨1 / 4, 1 / 2, by constructor <;> norm_num [a]⟩
  · intro i
    simp only [counts]
    split <;> (unfold Dict.WF; decide)
  · intro i hi hc
    have h2 : i = 0 ∨ i = 1 := by have : i < 2 := hi; omega
    rcases h2 with rfl | rfl
    · change IsBits ['0', '0'] ∧ (['0', '0'] : Str).length = 2 ∧ (∀ kv ∈ counts 0, kv.1 < 2 ^ 2) ∧ ∃ shots : ℚ, 0 < shots ∧
        ∀ y < 2 ^ 2, ((counts 0).getD y 0 : ℚ) = shots * prodNoise [a, a] y (ofBin ['0', '0'])
      exact ⟨by decide, by decide, by decide, 16, by norm_num, by decide +kernel⟩
    · change IsBits ['1', '1'] ∧ (['1', '1'] : Str).length = 2 ∧ (∀ kv ∈ counts 1, kv.1 < 2 ^ 2) ∧ ∃ shots : ℚ, 0 < shots ∧
        ∀ y < 2 ^ 2, ((counts 1).getD y 0 : ℚ) = shots * prodNoise [a, a] y (ofBin ['1', '1'])
      exact ⟨by decide, by decide, by decide, 16, by norm_num, by decide +kernel⟩
  · intro q hq b
    have h2 : q = 0 ∨ q = 1 := by omega
    rcases h2 with rfl | rfl <;> cases b
    · exact ⟨⟨some "meas_mit".toList, ['0', '0'], some "tensored".toList⟩, by decide, by unfold IsCal; rfl, by decide⟩
    · exact ⟨⟨some "meas_mit".toList, ['1', '1'], some "tensored".toList⟩, by decide, by unfold IsCal; rfl, by decide⟩
    · exact ⟨⟨some "meas_mit".toList, ['0', '0'], some "tensored".toList⟩, by decide, by unfold IsCal; rfl, by decide⟩
    · exact ⟨⟨some "meas_mit".toList, ['1', '1'], some "tensored".toList⟩, by decide, by unfold IsCal; rfl, by decide⟩

/-- Non-vacuity of `C122_complete`: one qubit with these errors. -/
example :
    let R : ℕ → ℕ → ℚ := fun y x => if x = 0 then (if y = 0 then 3 / 4 else 1 / 4) else 1 / 2
    let counts : ℕ → IntCounts := fun i => if i = 0 then [(0, 3), (1, 1)] else [(0, 1), (1, 1)]
    ∃ circs metas, mitigatorCircuits 1 "complete".toList none = some (circs, metas) ∧ (∀ x < 2 ^ 1, ∑ y ∈ Finset.range (2 ^ 1), R y x = 1) ∧
      ExactRuns 1 R counts metas ∧ ∀ x < 2 ^ 1, ∃ m ∈ metas, IsCal m ∧ ofBin m.cal = x := by
  intro R counts
  refine ⟨_, _, rfl, by decide +kernel, ⟨?_, ?_⟩, ?_⟩
  · intro i
    simp only [counts]
    split <;> (unfold Dict.WF; decide)
  · intro i hi hc
    have h2 : i = 0 ∨ i = 1 := by have : i < 2 := hi; omega
    rcases h2 with rfl | rfl
    · change IsBits ['0'] ∧ (['0'] : Str).length = 1 ∧ (∀ kv ∈ counts 0, kv.1 < 2 ^ 1) ∧ ∃ shots : ℚ, 0 < shots ∧
        ∀ y < 2 ^ 1, ((counts 0).getD y 0 : ℚ) = shots * R y (ofBin ['0'])
      exact ⟨by decide, by decide, by decide, 4, by norm_num, by decide +kernel⟩
    · change IsBits ['1'] ∧ (['1'] : Str).length = 1 ∧ (∀ kv ∈ counts 1, kv.1 < 2 ^ 1) ∧ ∃ shots : ℚ, 0 < shots ∧
        ∀ y < 2 ^ 1, ((counts 1).getD y 0 : ℚ) = shots * R y (ofBin ['1'])
      exact ⟨by decide, by decide, by decide, 2, by norm_num, by decide +kernel⟩
  · intro x hx
    have h2 : x = 0 ∨ x = 1 := by omega
    rcases h2 with rfl | rfl
    · exact ⟨⟨some "meas_mit".toList, ['0'], some "complete".toList⟩, by decide, by unfold IsCal; rfl, by decide⟩
    · exact ⟨⟨some "meas_mit".toList, ['1'], some "complete".toList⟩, by decide, by unfold IsCal; rfl, by decide⟩

/-- C122 finding: the tensored fit drops every shot with an error on another qubit.  If the two qubits of a device always flip together, with probability 1/2, it
reports that neither qubit ever makes an error. -/
theorem C122_finding_correlated :
    let cal : Dict ℕ IntCounts := [(0, [(0, 1), (3, 1)]), (3, [(0, 1), (3, 1)])]
    (fitTensored (K := ℚ) ⟨cal, some 2, some "tensored".toList⟩).map (fun as => as.map fun a => [a 0 0, a 1 0, a 0 1, a 1 1]) =
      some [[1, 0, 0, 1], [1, 0, 0, 1]] ∧
    (fitComplete (K := ℚ) ⟨cal ++ [(1, [(1, 1), (2, 1)]), (2, [(1, 1), (2, 1)])], some 2, some "complete".toList⟩).map (fun r => [r.2 0 0, r.2 3 0, r.2 0 3, r.2 3 3]) =
      some [1 / 2, 1 / 2, 1 / 2, 1 / 2] := by
  decide +kernel

end Verif.Expval
