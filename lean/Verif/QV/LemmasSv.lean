import Verif.QV.Lemmas
import Mathlib.Data.List.GetD
set_option linter.unusedSimpArgs false
set_option linter.unusedVariables false
namespace Verif.QV
open Verif Verif.Counts

/-! ### median -/

theorem median_isMedian (l : List ℝ) : IsMedian l (median l) := by
  refine ⟨l.insertionSort (· ≤ ·), List.perm_insertionSort _ _, List.pairwise_insertionSort _ _, ?_⟩
  unfold median
  simp only
  split
  · rename_i h
    have : (List.length (List.insertionSort (fun x1 x2 => x1 ≤ x2) l) - 1) / 2 = (List.length (List.insertionSort (fun x1 x2 => x1 ≤ x2) l)) / 2 := by omega
    rw [this]; ring
  · rename_i h
    have : (List.length (List.insertionSort (fun x1 x2 => x1 ≤ x2) l) - 1) / 2 = (List.length (List.insertionSort (fun x1 x2 => x1 ≤ x2) l)) / 2 - 1 := by omega
    rw [this]; ring

theorem isMedian_unique {l : List ℝ} {m m' : ℝ} (h : IsMedian l m) (h' : IsMedian l m') : m = m' := by
  obtain ⟨s, p, q, e⟩ := h
  obtain ⟨s', p', q', e'⟩ := h'
  have : s = s' := List.Perm.eq_of_pairwise (le := (· ≤ ·)) (fun a b _ _ h1 h2 => le_antisymm h1 h2) q q' (p.trans p'.symm)
  subst this
  linarith

open Classical in
theorem count_above_median (l : List ℝ) (m : ℝ) (h : IsMedian l m) : 2 * (l.filter fun x => decide (x > m)).length ≤ l.length := by
  obtain ⟨s, p, q, e⟩ := h
  rw [← (p.filter _).length_eq, ← p.length_eq]
  have hsorted : ∀ i j (hi : i < s.length) (hj : j < s.length), i ≤ j → s[i] ≤ s[j] := by
    intro i j hi hj hij
    rcases Nat.lt_or_eq_of_le hij with h | h
    · exact List.pairwise_iff_getElem.1 q i j hi hj h
    · subst h; exact le_refl _
  rcases Nat.eq_zero_or_pos s.length with h0 | h0
  · have : s = [] := List.length_eq_zero_iff.1 h0
    subst this; simp
  set k := (s.length - 1) / 2 with hk
  have hkm : s.getD k 0 ≤ m := by
    have h1 : s.getD k 0 ≤ s.getD (s.length / 2) 0 := by
      rw [List.getD_eq_getElem _ _ (by omega), List.getD_eq_getElem _ _ (by omega)]
      exact hsorted _ _ _ _ (by omega)
    linarith
  have hsplit : (s.filter fun x => decide (x > m)).length = ((s.drop (k + 1)).filter fun x => decide (x > m)).length := by
    conv_lhs => rw [← List.take_append_drop (k + 1) s, List.filter_append, List.length_append]
    have : ((s.take (k + 1)).filter fun x => decide (x > m)) = [] := by
      rw [List.filter_eq_nil_iff]
      intro x hx
      obtain ⟨i, hi, rfl⟩ := List.mem_iff_getElem.1 hx
      simp only [List.length_take] at hi
      rw [List.getElem_take]
      have := hsorted i k (by omega) (by omega) (by omega)
      rw [List.getD_eq_getElem _ _ (by omega)] at hkm
      simp only [gt_iff_lt, decide_eq_true_eq, not_lt]
      linarith
    rw [this]; simp
  rw [hsplit]
  have := List.length_filter_le (fun x => decide (x > m)) (s.drop (k + 1))
  rw [List.length_drop] at this
  omega

/-! ### the ideal distribution -/

theorem mapM_some_iff {α β : Type} (l : List α) (f : α → Option β) (l' : List β) :
    l.mapM f = some l' ↔ l.map f = l'.map some := by
  induction l generalizing l' with
  | nil => cases l' <;> simp
  | cons a l ih =>
    rw [List.mapM_cons]
    cases h : f a with
    | none => cases l' <;> simp [h]
    | some b =>
      cases h2 : l.mapM f with
      | none =>
        have : ∀ t : List β, ¬ l.map f = t.map some := fun t ht => by rw [(ih t).2 ht] at h2; cases h2
        cases l' with
        | nil => simp [h, h2]
        | cons b' t => simp [h, h2, this]
      | some t =>
        have e := (ih t).1 h2
        cases l' with
        | nil => simp [h, h2]
        | cons b' t' =>
          simp only [h, h2, Option.bind_eq_bind, Option.bind_some, Option.pure_def, Option.some.injEq, List.map_cons, List.cons.injEq]
          rw [← ih t', h2, Option.some.injEq]

theorem idealProb_eq {d : ℕ} {amps : List ℂ} {dist : Dict Str ℝ} (h : idealProb d amps = some dist) :
    dist = (List.range (2 ^ d)).map (fun b => (zfill d (binDigits b), Complex.normSq (amps.getD b 0))) ∧ 2 ^ d ≤ amps.length := by
  unfold idealProb at h
  rw [mapM_some_iff] at h
  have hlen : dist.length = 2 ^ d := by
    have := congrArg List.length h
    simpa using this.symm
  have hget : ∀ b, b < 2 ^ d → ∃ a, amps[b]? = some a ∧ dist[b]? = some (zfill d (binDigits b), Complex.normSq a) := by
    intro b hb
    have := congrArg (fun l => l[b]?) h
    simp only [List.getElem?_map, List.getElem?_range hb, Option.map_some] at this
    cases ha : amps[b]? with
    | none =>
      rw [ha] at this
      rw [List.getElem?_eq_getElem (by omega)] at this
      simp at this
    | some a =>
      rw [ha, List.getElem?_eq_getElem (by omega)] at this
      simp only [Option.map_some, Option.some.injEq] at this
      exact ⟨a, rfl, by rw [List.getElem?_eq_getElem (by omega), ← this]⟩
  constructor
  · apply List.ext_getElem?
    intro b
    by_cases hb : b < 2 ^ d
    · obtain ⟨a, h1, h2⟩ := hget b hb
      rw [h2]
      simp [List.getElem?_range hb, List.getD_eq_getElem?_getD, h1]
    · rw [List.getElem?_eq_none (by omega), List.getElem?_eq_none (by simpa using hb)]
  · by_contra hc
    obtain ⟨a, h1, -⟩ := hget amps.length (by omega)
    simp at h1

theorem dist_keys {d : ℕ} {amps : List ℂ} {dist : Dict Str ℝ} (h : idealProb d amps = some dist) : dist.keys = countKeys d := by
  rw [(idealProb_eq h).1]; simp [Dict.keys, countKeys]

theorem dist_values {d : ℕ} {amps : List ℂ} {dist : Dict Str ℝ} (h : idealProb d amps = some dist) :
    dist.values = (List.range (2 ^ d)).map (fun b => Complex.normSq (amps.getD b 0)) := by
  rw [(idealProb_eq h).1]; simp [Dict.values, Function.comp_def]

theorem dist_wf {d : ℕ} {amps : List ℂ} {dist : Dict Str ℝ} (h : idealProb d amps = some dist) : Dict.WF dist := by
  have := nodup_countKeys d
  rw [← dist_keys h] at this
  exact this

open Classical in
theorem heavy_eq {d : ℕ} {amps : List ℂ} {dist : Dict Str ℝ} (h : idealProb d amps = some dist) (m : ℝ) :
    heavyStrings dist m = ((List.range (2 ^ d)).filter fun b => decide (Complex.normSq (amps.getD b 0) > m)).map fun b => zfill d (binDigits b) := by
  unfold heavyStrings
  have e : dist.keys = (List.range (2 ^ d)).map fun b => zfill d (binDigits b) := dist_keys h
  rw [e, List.filter_map]
  congr 1
  apply List.filter_congr
  intro b hb
  have hm : (zfill d (binDigits b), Complex.normSq (amps.getD b 0)) ∈ dist := by
    rw [(idealProb_eq h).1]; exact List.mem_map.2 ⟨b, hb, rfl⟩
  simp only [Function.comp_def, Dict.getD, Dict.get?_of_mem dist (dist_wf h) _ _ hm, Option.getD_some]

theorem heavy_nodup (dist : Dict Str ℝ) (h : Dict.WF dist) (m : ℝ) : (heavyStrings dist m).Nodup := by
  unfold heavyStrings
  exact List.Nodup.filter _ h

open Classical in
theorem heavy_half {d : ℕ} {amps : List ℂ} {dist : Dict Str ℝ} (h : idealProb d amps = some dist) :
    2 * (heavyStrings dist (median dist.values)).length ≤ 2 ^ d := by
  have := count_above_median dist.values _ (median_isMedian _)
  rw [dist_values h] at this
  rw [heavy_eq h, List.length_map, dist_values h]
  rw [List.filter_map, List.length_map, List.length_map, List.length_range] at this
  exact this

/-! ### adding ideal results -/

/-- What is stored for one ideal experiment. -/
def IdealStored (s : St) (r : IdealRes) (name : Str) : Prop :=
  ∃ d amps dist, depthOfName name = some d ∧ r.get? name = some amps ∧ idealProb d amps = some dist ∧
    s.allProb.get? name = some dist ∧ s.heavyOutputs.get? name = some (heavyStrings dist (median dist.values)) ∧
    s.probIdeal.get? name = some (subsetProb (heavyStrings dist (median dist.values)) dist)

theorem addStatevector_spec (r : IdealRes) (s s' : St) (e : Str × List ℂ) (h : addStatevector r s e = some s') :
    IdealStored s' r e.1 ∧ s.heavyOutputs.get? e.1 = none ∧ s'.depths = s.depths ∧ s'.ntrials = s.ntrials ∧ s'.results = s.results ∧
      s'.circShots = s.circShots ∧ s'.circCounts = s.circCounts ∧ s'.heavyCounts = s.heavyCounts ∧ s'.probExp = s.probExp ∧ s'.ydata = s.ydata ∧
      (∀ n, n ≠ e.1 → s'.heavyOutputs.get? n = s.heavyOutputs.get? n ∧ s'.allProb.get? n = s.allProb.get? n ∧ s'.probIdeal.get? n = s.probIdeal.get? n) := by
  unfold addStatevector at h
  simp only [Option.bind_eq_bind] at h
  cases h1 : depthOfName e.1 with
  | none => simp [h1] at h
  | some d =>
    simp only [h1, Option.bind_some] at h
    split at h
    · cases h
    · rename_i hh
      cases h2 : r.get? e.1 with
      | none => simp [h2] at h
      | some amps =>
        simp only [h2, Option.bind_some] at h
        cases h3 : idealProb d amps with
        | none => simp [h3] at h
        | some dist =>
          simp only [h3, Option.bind_some, Option.some.injEq] at h
          subst h
          refine ⟨⟨d, amps, dist, h1, h2, h3, by simp, by simp, by simp⟩, ?_, rfl, rfl, rfl, rfl, rfl, rfl, rfl, rfl, ?_⟩
          · simpa [Dict.has] using hh
          · intro n hn
            simp only [Dict.get?_set, if_neg (Ne.symm hn), and_self]

/-- Relation between the states before and after adding the ideal experiments `l` (pairs of a result and a name). -/
structure Ext (s s' : St) (l : List (IdealRes × Str)) : Prop where
  same : s'.depths = s.depths ∧ s'.ntrials = s.ntrials ∧ s'.results = s.results ∧
      s'.circShots = s.circShots ∧ s'.circCounts = s.circCounts ∧ s'.heavyCounts = s.heavyCounts ∧ s'.probExp = s.probExp ∧ s'.ydata = s.ydata
  new : ∀ p ∈ l, IdealStored s' p.1 p.2
  keep : ∀ n, (∃ h, s.heavyOutputs.get? n = some h) → s'.heavyOutputs.get? n = s.heavyOutputs.get? n ∧ s'.allProb.get? n = s.allProb.get? n ∧ s'.probIdeal.get? n = s.probIdeal.get? n
  only : ∀ n, n ∉ l.map (·.2) → s'.heavyOutputs.get? n = s.heavyOutputs.get? n ∧ s'.allProb.get? n = s.allProb.get? n ∧ s'.probIdeal.get? n = s.probIdeal.get? n

theorem Ext.refl (s : St) : Ext s s [] :=
  ⟨⟨rfl, rfl, rfl, rfl, rfl, rfl, rfl, rfl⟩, by simp, fun _ _ => ⟨rfl, rfl, rfl⟩, fun _ _ => ⟨rfl, rfl, rfl⟩⟩

theorem IdealStored.heavy {s : St} {r : IdealRes} {n : Str} (h : IdealStored s r n) : ∃ v, s.heavyOutputs.get? n = some v := by
  obtain ⟨_, _, _, _, _, _, _, h, _⟩ := h
  exact ⟨_, h⟩

theorem IdealStored.congr {s s' : St} {r : IdealRes} {n : Str} (h : IdealStored s r n)
    (e : s'.heavyOutputs.get? n = s.heavyOutputs.get? n ∧ s'.allProb.get? n = s.allProb.get? n ∧ s'.probIdeal.get? n = s.probIdeal.get? n) :
    IdealStored s' r n := by
  obtain ⟨d, a, dist, h1, h2, h3, h4, h5, h6⟩ := h
  exact ⟨d, a, dist, h1, h2, h3, by rw [e.2.1]; exact h4, by rw [e.1]; exact h5, by rw [e.2.2]; exact h6⟩

theorem Ext.trans {a b c : St} {l l' : List (IdealRes × Str)} (h : Ext a b l) (h' : Ext b c l') : Ext a c (l ++ l') := by
  obtain ⟨a1, a2, a3, a4, a5, a6, a7, a8⟩ := h.same
  obtain ⟨b1, b2, b3, b4, b5, b6, b7, b8⟩ := h'.same
  refine ⟨⟨b1.trans a1, b2.trans a2, b3.trans a3, b4.trans a4, b5.trans a5, b6.trans a6, b7.trans a7, b8.trans a8⟩, ?_, ?_, ?_⟩
  · intro p hp
    rcases List.mem_append.1 hp with hp | hp
    · exact (h.new p hp).congr (h'.keep _ (h.new p hp).heavy)
    · exact h'.new p hp
  · intro n hn
    obtain ⟨v, hv⟩ := hn
    obtain ⟨k1, k2, k3⟩ := h.keep n ⟨v, hv⟩
    obtain ⟨j1, j2, j3⟩ := h'.keep n ⟨v, k1.trans hv⟩
    exact ⟨j1.trans k1, j2.trans k2, j3.trans k3⟩
  · intro n hn
    simp only [List.map_append, List.mem_append, not_or] at hn
    obtain ⟨k1, k2, k3⟩ := h.only n hn.1
    obtain ⟨j1, j2, j3⟩ := h'.only n hn.2
    exact ⟨j1.trans k1, j2.trans k2, j3.trans k3⟩

theorem addStatevector_ext (r : IdealRes) (s s' : St) (e : Str × List ℂ) (h : addStatevector r s e = some s') : Ext s s' [(r, e.1)] := by
  obtain ⟨h1, h2, h3, h4, h5, h6, h7, h8, h9, h10, h11⟩ := addStatevector_spec r s s' e h
  refine ⟨⟨h3, h4, h5, h6, h7, h8, h9, h10⟩, by simpa using h1, ?_, ?_⟩
  · rintro n ⟨v, hv⟩
    apply h11
    rintro rfl
    rw [h2] at hv; cases hv
  · intro n hn
    exact h11 n (by simpa using hn)

theorem foldlM_ext (r : IdealRes) (l : List (Str × List ℂ)) (s s' : St) (h : l.foldlM (addStatevector r) s = some s') :
    Ext s s' (l.map fun e => (r, e.1)) := by
  induction l generalizing s with
  | nil => simp at h; subst h; exact Ext.refl s
  | cons e l ih =>
    rw [List.foldlM_cons] at h
    cases h0 : addStatevector r s e with
    | none => simp [h0] at h
    | some s1 =>
      simp only [h0, Option.bind_eq_bind, Option.bind_some] at h
      exact (addStatevector_ext r s s1 e h0).trans (ih s1 h)

/-- All the (result, name) pairs of a list of ideal results. -/
def pairsOf (l : List IdealRes) : List (IdealRes × Str) := l.flatMap fun r => r.map fun e => (r, e.1)

theorem foldlM_ext2 (l : List IdealRes) (s s' : St) (h : l.foldlM (fun st r => r.foldlM (addStatevector r) st) s = some s') :
    Ext s s' (pairsOf l) := by
  induction l generalizing s with
  | nil => simp at h; subst h; exact Ext.refl s
  | cons r l ih =>
    rw [List.foldlM_cons] at h
    cases h0 : r.foldlM (addStatevector r) s with
    | none => simp [h0] at h
    | some s1 =>
      simp only [h0, Option.bind_eq_bind, Option.bind_some] at h
      exact (foldlM_ext r r s s1 h0).trans (ih s1 h)

end Verif.QV
