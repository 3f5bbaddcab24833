import Verif.Counts.Props
set_option linter.unusedSimpArgs false
/-
Weighted totals of counts dictionaries: every quantity `Σ w(outcome)·count` of pooled counts is the sum of
the same quantity over the parts.
-/
namespace Verif.Counts
open Verif

/-- `Σ w(outcome) · count`. -/
def wsum (w : Str → ℤ) (c : Dict Str ℤ) : ℤ := (c.map fun kv => w kv.1 * kv.2).sum

theorem wsum_cons (w : Str → ℤ) (p : Str × ℤ) (c : Dict Str ℤ) : wsum w (p :: c) = w p.1 * p.2 + wsum w c := by
  simp [wsum]

theorem wsum_one (c : Dict Str ℤ) : wsum (fun _ => 1) c = total c := by simp [wsum, total]

theorem wsum_set (w : Str → ℤ) (d : Counts) (hd : Dict.WF d) (k : Str) (v : ℤ) :
    wsum w (d.set k v) = wsum w d - w k * d.getD k 0 + w k * v := by
  induction d with
  | nil => simp [Dict.set, wsum, Dict.getD]
  | cons p d ih =>
    obtain ⟨k', v'⟩ := p
    have hd' : Dict.WF d ∧ k' ∉ d.map (·.1) := by
      unfold Dict.WF at *
      simp only [List.map_cons, List.nodup_cons] at hd
      exact ⟨hd.2, hd.1⟩
    by_cases h : k' = k
    · subst h
      have : Dict.getD ((k', v') :: d) k' 0 = v' := by simp [Dict.getD, Dict.get?_cons]
      rw [this]
      simp only [Dict.set, if_true, wsum_cons]
      ring
    · have : Dict.getD ((k', v') :: d) k 0 = Dict.getD d k 0 := by simp [Dict.getD, Dict.get?_cons, h]
      rw [this]
      simp only [Dict.set, if_neg h, wsum_cons]
      rw [ih hd'.1]
      ring

theorem wsum_combine (w : Str → ℤ) (c1 c2 : Counts) (h1 : Dict.WF c1) : wsum w (combineCounts c1 c2) = wsum w c1 + wsum w c2 := by
  rw [combineCounts_eq]
  induction c2 generalizing c1 with
  | nil => simp [wsum]
  | cons kv c2 ih =>
    rw [List.foldl_cons, ih _ (Dict.wf_set _ h1 _ _), wsum_set w c1 h1, wsum_cons]
    ring

theorem wsum_build (w : Str → ℤ) (l : List Counts) : wsum w (buildCountsDictFromList l) = (l.map (wsum w)).sum := by
  by_cases hl : l.length = 1
  · obtain ⟨c, rfl⟩ := List.length_eq_one_iff.1 hl
    simp [buildCountsDictFromList]
  · rw [build_eq l hl]
    have key : ∀ (l : List Counts) (acc : Counts), Dict.WF acc → wsum w (l.foldl combineCounts acc) = wsum w acc + (l.map (wsum w)).sum := by
      intro l
      induction l with
      | nil => simp
      | cons c l ih =>
        intro acc hacc
        rw [List.foldl_cons, ih _ (wf_combine acc c hacc), wsum_combine w acc c hacc]
        simp [add_assoc]
    rw [key l [] Dict.wf_nil]
    simp [wsum]

theorem mem_build (l : List Counts) (k : Str) : k ∈ (buildCountsDictFromList l).map (·.1) ↔ ∃ c ∈ l, k ∈ c.map (·.1) := by
  by_cases hl : l.length = 1
  · obtain ⟨c, rfl⟩ := List.length_eq_one_iff.1 hl
    simp [buildCountsDictFromList]
  · rw [build_eq l hl]
    have key : ∀ (l : List Counts) (acc : Counts), k ∈ (l.foldl combineCounts acc).map (·.1) ↔ k ∈ acc.map (·.1) ∨ ∃ c ∈ l, k ∈ c.map (·.1) := by
      intro l
      induction l with
      | nil => simp
      | cons c l ih =>
        intro acc
        rw [List.foldl_cons, ih, mem_keys_combine]
        simp [or_assoc]
    rw [key l []]
    simp

theorem wf_build (l : List Counts) (h : ∀ c ∈ l, Dict.WF c) : Dict.WF (buildCountsDictFromList l) := by
  by_cases hl : l.length = 1
  · obtain ⟨c, rfl⟩ := List.length_eq_one_iff.1 hl
    simpa [buildCountsDictFromList] using h
  · rw [build_eq l hl]
    have key : ∀ (l : List Counts) (acc : Counts), Dict.WF acc → Dict.WF (l.foldl combineCounts acc) := by
      intro l
      induction l with
      | nil => simp
      | cons c l ih => intro acc hacc; exact ih _ (wf_combine acc c hacc)
    exact key l [] Dict.wf_nil

/-- Counts of `n` bits held in a single classical register: no blanks in the keys. -/
structure OneReg (n : ℕ) (c : Dict Str ℤ) : Prop where
  nonempty : c ≠ []
  wf : Dict.WF c
  bits : ∀ kv ∈ c, IsBits kv.1
  len : ∀ kv ∈ c, kv.1.length = n

instance (n : ℕ) (c : Dict Str ℤ) : Decidable (OneReg n c) :=
  decidable_of_iff (c ≠ [] ∧ Dict.WF c ∧ (∀ kv ∈ c, IsBits kv.1) ∧ ∀ kv ∈ c, kv.1.length = n)
    ⟨fun ⟨a, b, c, d⟩ => ⟨a, b, c, d⟩, fun ⟨a, b, c, d⟩ => ⟨a, b, c, d⟩⟩

theorem trim_bits {s : Str} (h : IsBits s) : trimSpaces s = s := by
  unfold trimSpaces
  rw [List.filter_eq_self]
  intro c hc
  rcases h c hc with rfl | rfl <;> decide

theorem OneReg.isCounts {n : ℕ} {c : Counts} (h : OneReg n c) : IsCounts n c :=
  ⟨h.nonempty, h.wf, fun kv hkv => by rw [trim_bits (h.bits kv hkv)]; exact h.bits kv hkv,
    fun kv hkv => by rw [trim_bits (h.bits kv hkv)]; exact h.len kv hkv⟩

theorem oneReg_build {n : ℕ} (l : List Counts) (hl : l ≠ []) (h : ∀ c ∈ l, OneReg n c) : OneReg n (buildCountsDictFromList l) := by
  have hk : ∀ kv ∈ buildCountsDictFromList l, ∃ c ∈ l, ∃ kv' ∈ c, kv'.1 = kv.1 := by
    intro kv hkv
    obtain ⟨c, hc, hm⟩ := (mem_build l kv.1).1 (List.mem_map_of_mem hkv)
    obtain ⟨kv', h1, h2⟩ := List.mem_map.1 hm
    exact ⟨c, hc, kv', h1, h2⟩
  refine ⟨?_, wf_build l fun c hc => (h c hc).wf, ?_, ?_⟩
  · intro he
    obtain ⟨c, hc⟩ := List.exists_mem_of_ne_nil l hl
    obtain ⟨kv, hkv⟩ := List.exists_mem_of_ne_nil c (h c hc).nonempty
    have := (mem_build l kv.1).2 ⟨c, hc, List.mem_map_of_mem hkv⟩
    rw [he] at this
    simp at this
  · intro kv hkv
    obtain ⟨c, hc, kv', h1, h2⟩ := hk kv hkv
    rw [← h2]; exact (h c hc).bits kv' h1
  · intro kv hkv
    obtain ⟨c, hc, kv', h1, h2⟩ := hk kv hkv
    rw [← h2]; exact (h c hc).len kv' h1

/-- All classical bits `lo, …, lo+len-1` of an outcome are `0`; bit 0 is the right-most character. -/
def zeroOn (lo len : ℕ) (s : Str) : Prop := ∀ q, lo ≤ q → q < lo + len → charAt s q = some '0'

instance (lo len : ℕ) (s : Str) : Decidable (zeroOn lo len s) :=
  decidable_of_iff (∀ q < lo + len, lo ≤ q → charAt s q = some '0') ⟨fun h q h1 h2 => h q h2 h1, fun h q h1 h2 => h q h2 h1⟩

theorem get?_noMarg (c : Counts) (hwf : Dict.WF c) (hb : ∀ kv ∈ c, IsBits kv.1) :
    c.foldl (fun (ret : Counts) kv => ret.set (trimSpaces kv.1) kv.2) [] = c := by
  have e : c.foldl (fun (ret : Counts) kv => ret.set (trimSpaces kv.1) kv.2) [] = c.foldl (fun (ret : Counts) kv => ret.set kv.1 kv.2) [] := by
    refine List.foldl_ext _ _ _ ?_
    intro a kv hkv
    rw [trim_bits (hb kv hkv)]
  rw [e, Dict.foldl_set_fresh c (·.1) (·.2) [] (by simpa [Dict.WF] using hwf)]
  simp

theorem getD_eq_wsum (c : Counts) (hwf : Dict.WF c) (k : Str) : c.getD k 0 = wsum (fun s => if s = k then 1 else 0) c := by
  induction c with
  | nil => simp [wsum, Dict.getD]
  | cons p c ih =>
    obtain ⟨k', v⟩ := p
    have hd' : Dict.WF c ∧ k' ∉ c.map (·.1) := by
      unfold Dict.WF at *
      simp only [List.map_cons, List.nodup_cons] at hwf
      exact ⟨hwf.2, hwf.1⟩
    rw [wsum_cons, ← ih hd'.1]
    by_cases h : k' = k
    · subst h
      have : Dict.getD c k' 0 = 0 := by
        unfold Dict.getD
        rw [(Dict.get?_eq_none_iff c k').2 hd'.2]; rfl
      rw [this]
      simp [Dict.getD, Dict.get?_cons]
    · simp [Dict.getD, Dict.get?_cons, h]

/-- The all-zero entry of a marginal over consecutive bits. -/
theorem marginal_zero (n : ℕ) (c : Counts) (hc : OneReg n c) (lo len : ℕ) (hlen : 0 < len) (hn : lo + len ≤ n) :
    ∃ m, marginalCounts c (some (List.range' lo len)) false = some m ∧
      m.getD (List.replicate len '0') 0 = wsum (fun s => if zeroOn lo len s then 1 else 0) c := by
  by_cases hfull : len = n
  · have hlo : lo = 0 := by omega
    subst hlo
    refine ⟨c, ?_, ?_⟩
    · cases c with
      | nil => exact absurd rfl hc.nonempty
      | cons kv c =>
        unfold marginalCounts
        simp only []
        rw [if_pos (by rw [List.length_range', trim_bits (hc.bits kv (by simp)), hc.len kv (by simp), hfull])]
        rw [get?_noMarg _ hc.wf hc.bits]
    · rw [getD_eq_wsum c hc.wf]
      unfold wsum
      congr 1
      refine List.map_congr_left ?_
      intro kv hkv
      have hl := hc.len kv hkv
      have : (kv.1 = List.replicate len '0') ↔ zeroOn 0 len kv.1 := by
        constructor
        · rintro h q - hq
          unfold charAt
          rw [h, List.getElem?_replicate, if_pos (by simp; omega)]
        · intro h
          refine List.ext_getElem (by rw [hl, List.length_replicate, hfull]) ?_
          intro i h1 h2
          have := h (kv.1.length - 1 - i) (by omega) (by omega)
          unfold charAt at this
          rw [show kv.1.length - 1 - (kv.1.length - 1 - i) = i by omega, List.getElem?_eq_getElem h1] at this
          rw [List.getElem_replicate]
          exact Option.some.inj this
      beta_reduce
      by_cases hz : kv.1 = List.replicate len '0'
      · rw [if_pos hz, if_pos (this.1 hz)]
      · rw [if_neg hz, if_neg (fun h => hz (this.2 h))]
  · have hS : ProperSubset n (List.range' lo len) := ⟨List.nodup_range', fun q hq => by
      have := List.mem_range'_1.1 hq; omega, by rw [List.length_range']; omega⟩
    obtain ⟨m, hm, -, hget⟩ := C02_marginal_entries n c hc.isCounts _ hS (by simp; omega) false
    refine ⟨m, hm, ?_⟩
    have hb : IsBits (List.replicate len '0') := fun x hx => Or.inl (List.eq_of_mem_replicate hx)
    have hms : marginalSpec c (List.range' lo len) (List.replicate len '0') = wsum (fun s => if zeroOn lo len s then 1 else 0) c := by
      unfold marginalSpec wsum
      have hag : ∀ kv ∈ c, (agrees (List.range' lo len) (List.replicate len '0') (trimSpaces kv.1) ↔ zeroOn lo len kv.1) := by
        intro kv hkv
        rw [trim_bits (hc.bits kv hkv)]
        have hidx : ∀ q ∈ List.range' lo len, (List.replicate len '0')[((List.range' lo len).filter (q < ·)).length]? = some '0' := by
          intro q hq
          rw [List.getElem?_replicate, if_pos]
          have h1 : ((List.range' lo len).filter (q < ·)).length < (List.range' lo len).length := by
            rw [List.length_filter_lt_length_iff_exists]
            exact ⟨q, hq, by simp⟩
          simpa using h1
        constructor
        · intro h q h1 h2
          have hq : q ∈ List.range' lo len := List.mem_range'_1.2 ⟨h1, h2⟩
          rw [← h q hq, hidx q hq]
        · intro h q hq
          rw [hidx q hq]
          have := List.mem_range'_1.1 hq
          exact (h q this.1 this.2).symm
      clear hget hm hc
      induction c with
      | nil => rfl
      | cons kv c ih =>
        rw [List.filter_cons]
        have h1 := hag kv (by simp)
        have h2 := ih fun x hx => hag x (by simp [hx])
        by_cases hz : zeroOn lo len kv.1
        · rw [if_pos (by simpa using h1.2 hz)]
          simp [h2, hz]
        · rw [if_neg (by simpa using fun h => hz (h1.1 h))]
          simp [h2, hz]
    unfold Dict.getD
    rw [hget, hms]
    by_cases h0 : wsum (fun s => if zeroOn lo len s then 1 else 0) c = 0
    · rw [if_neg (by simp [h0])]; simp [h0]
    · rw [if_pos ⟨hb, by simp, Or.inr h0⟩]; rfl

end Verif.Counts
