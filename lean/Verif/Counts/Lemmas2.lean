import Verif.Counts.Lemmas
import Mathlib.Algebra.BigOperators.Ring.List
import Mathlib.Algebra.Ring.Int.Defs
import Mathlib.Data.List.Sublists
import Mathlib.Tactic.Ring
/- Helper lemmas: the projection of a full outcome, push-forward of sums, folds. -/
namespace Verif.Counts
open Verif

/-- The outcome on `S` of a full outcome. -/
def proj (S : List Nat) (full : Str) : Str :=
  if S = [] then ['0'] else (sortDesc S).map fun q => full.getD (full.length - 1 - q) '?'

theorem proj_mem (n : Nat) (S : List Nat) (hr : ∀ q ∈ S, q < n) (full : Str) (hf : IsBits full)
    (hfl : full.length = n) : proj S full ∈ countKeys S.length := by
  unfold proj
  split
  · rename_i h; subst h; decide
  · rename_i h
    have hlen : 1 ≤ S.length := by
      rcases S with _ | ⟨a, S⟩
      · exact absurd rfl h
      · simp
    rw [mem_countKeys _ hlen]
    refine ⟨?_, by simp [(sortDesc_perm S).length_eq]⟩
    intro c hc
    obtain ⟨q, hq, rfl⟩ := List.mem_map.1 hc
    have hqS := (sortDesc_perm S).mem_iff.1 hq
    have := hr q hqS
    have hb : full.length - 1 - q < full.length := by omega
    rw [List.getD_eq_getElem?_getD, List.getElem?_eq_getElem hb, Option.getD_some]
    exact hf _ (List.getElem_mem _)

theorem agrees_iff_proj (n : Nat) (S : List Nat) (hnd : S.Nodup) (hr : ∀ q ∈ S, q < n) (full : Str)
    (hfl : full.length = n) (k : Str) (hk : k ∈ countKeys S.length) :
    agrees S k full ↔ k = proj S full := by
  by_cases hS0 : S = []
  · subst hS0
    have : k = ['0'] := by
      have h2 : countKeys 0 = [['0']] := by decide
      simpa [h2] using hk
    simp [agrees, proj, this]
  · have hlen : 1 ≤ S.length := by
      rcases S with _ | ⟨a, S⟩
      · exact absurd rfl hS0
      · simp
    have hkl := ((mem_countKeys _ hlen k).1 hk).2
    have hl2 : (sortDesc S).length = S.length := (sortDesc_perm S).length_eq
    simp only [proj, hS0, if_false]
    constructor
    · intro h
      apply List.ext_getElem
      · simp [hkl, hl2]
      · intro i h1 h2
        have hi : i < (sortDesc S).length := by omega
        have hq : (sortDesc S)[i] ∈ S := (sortDesc_perm S).mem_iff.1 (List.getElem_mem hi)
        have hidx : (S.filter ((sortDesc S)[i] < ·)).length = i := by
          rw [← idxOf_sortDesc S hnd _ hq]
          exact ((sortDesc_perm S).nodup_iff.2 hnd).idxOf_getElem i hi
        have h3 := h _ hq
        rw [hidx, List.getElem?_eq_getElem h1, charAt] at h3
        rw [List.getElem_map, List.getD_eq_getElem?_getD, ← h3]
        rfl
    · intro h q hq
      have hi := List.idxOf_lt_length_of_mem ((sortDesc_perm S).mem_iff.2 hq)
      have := hr q hq
      have hb : full.length - 1 - q < full.length := by omega
      rw [← idxOf_sortDesc S hnd q hq, h, List.getElem?_map, List.getElem?_eq_getElem hi,
        List.getElem_idxOf, charAt, Option.map_some, List.getD_eq_getElem?_getD,
        List.getElem?_eq_getElem hb, Option.getD_some]

theorem sum_ite_unique (l : List Str) (hl : l.Nodup) (k0 : Str) (h0 : k0 ∈ l) (f : Str → Int) :
    (l.map fun k => if k = k0 then f k else 0).sum = f k0 := by
  induction l with
  | nil => simp at h0
  | cons a l ih =>
    rw [List.nodup_cons] at hl
    simp only [List.map_cons, List.sum_cons]
    by_cases h : a = k0
    · subst h
      have : (l.map fun k => if k = a then f k else 0).sum = 0 := by
        apply List.sum_eq_zero
        intro x hx
        obtain ⟨k, hk, rfl⟩ := List.mem_map.1 hx
        have : k ≠ a := by rintro rfl; exact hl.1 hk
        simp [this]
      simp [this]
    · have : k0 ∈ l := by simpa [Ne.symm h] using h0
      simp [h, ih hl.2 this]

theorem marginalSpec_cons (kv : Str × Int) (c : Counts) (S : List Nat) (out : Str) :
    marginalSpec (kv :: c) S out
      = (if agrees S out (trimSpaces kv.1) then kv.2 else 0) + marginalSpec c S out := by
  unfold marginalSpec
  rw [List.filter_cons]
  by_cases h : agrees S out (trimSpaces kv.1) <;> simp [h]

/-- Push-forward: a weighted sum over the marginal is a weighted sum over the full counts. -/
theorem sum_marginal (n : Nat) (S : List Nat) (hnd : S.Nodup) (hr : ∀ q ∈ S, q < n) (w : Str → Int)
    (c : Counts) (hb : ∀ kv ∈ c, IsBits (trimSpaces kv.1))
    (hl : ∀ kv ∈ c, (trimSpaces kv.1).length = n) :
    ((countKeys S.length).map fun k => w k * marginalSpec c S k).sum
      = (c.map fun kv => w (proj S (trimSpaces kv.1)) * kv.2).sum := by
  induction c with
  | nil => 
    have : ∀ k, marginalSpec [] S k = 0 := fun _ => rfl
    simp [this]
  | cons kv c ih =>
    have ih := ih (fun x hx => hb x (by simp [hx])) (fun x hx => hl x (by simp [hx]))
    simp only [marginalSpec_cons, mul_add, List.sum_map_add, ih, List.map_cons, List.sum_cons]
    congr 1
    have hlen := hl kv (by simp)
    have hmem := proj_mem n S hr _ (hb kv (by simp)) hlen
    rw [← sum_ite_unique (countKeys S.length) (nodup_countKeys _) _ hmem (fun k => w k * kv.2)]
    congr 1
    apply List.map_congr_left
    intro k hk
    have := agrees_iff_proj n S hnd hr _ hlen k hk
    by_cases h : agrees S k (trimSpaces kv.1)
    · simp [h, ← this.1 h]
    · have h' : ¬ k = proj S (trimSpaces kv.1) := fun e => h (this.2 e)
      simp [h, h']

theorem sum_filter_ne_zero (l : List (Str × Int)) (w : Str → Int) :
    ((l.filter (fun kv => kv.2 ≠ 0)).map fun kv => w kv.1 * kv.2).sum
      = (l.map fun kv => w kv.1 * kv.2).sum := by
  induction l with
  | nil => rfl
  | cons a l ih =>
    rw [List.filter_cons]
    by_cases h : a.2 = 0
    · simpa [h] using ih
    · simpa [h] using ih

/-- Weighted sums over the result of `marginal_counts` on a proper subset. -/
theorem sum_marginalCounts (n : Nat) (c : Counts) (hc : IsCounts n c) (S : List Nat)
    (hS : ProperSubset n S) (pad : Bool) (m : Counts)
    (hm : marginalCounts c (some S) pad = some m) (w : Str → Int) :
    (m.map fun kv => w kv.1 * kv.2).sum
      = (c.map fun kv => w (proj S (trimSpaces kv.1)) * kv.2).sum := by
  rw [marginalCounts_eq n c hc S hS pad] at hm
  have hkey : ∀ k ∈ countKeys S.length,
      matchSum c (mkRgx n (sortDesc S) k) = marginalSpec c S k := by
    intro k hk
    apply matchSum_eq_spec n c hc S hS k
    by_cases h0 : 1 ≤ S.length
    · exact le_of_eq ((mem_countKeys _ h0 k).1 hk).2.symm
    · omega
  have hmap : ((countKeys S.length).map fun k => (k, matchSum c (mkRgx n (sortDesc S) k)))
      = (countKeys S.length).map fun k => (k, marginalSpec c S k) :=
    List.map_congr_left fun k hk => by rw [hkey k hk]
  simp only [hmap, Option.some.injEq] at hm
  rw [← sum_marginal n S hS.nodup hS.range w c hc.bits hc.len]
  subst hm
  have e : ∀ (l : List Str) (f : Str → Int),
      ((l.map fun k => (k, f k)).map fun kv => w kv.1 * kv.2) = l.map fun k => w k * f k := by
    intro l f; rw [List.map_map]; rfl
  split
  · rw [e]
  · rw [sum_filter_ne_zero, e]

/-! ### combine / build -/

theorem combineCounts_eq (c1 c2 : Counts) :
    combineCounts c1 c2 = c2.foldl (fun ret kv => ret.set kv.1 (ret.getD kv.1 0 + kv.2)) c1 := by
  unfold combineCounts
  congr 1
  funext ret kv
  cases h : ret.get? kv.1 <;> simp [Dict.getD, h]

theorem wf_combine (c1 c2 : Counts) (h1 : Dict.WF c1) : Dict.WF (combineCounts c1 c2) := by
  rw [combineCounts_eq]
  induction c2 generalizing c1 with
  | nil => exact h1
  | cons kv c2 ih =>
    simp only [List.foldl_cons]
    exact ih _ (Dict.wf_set _ h1 _ _)

theorem getD_combine (c1 c2 : Counts) (h2 : Dict.WF c2) (k : Str) :
    (combineCounts c1 c2).getD k 0 = c1.getD k 0 + c2.getD k 0 := by
  rw [combineCounts_eq]
  induction c2 generalizing c1 with
  | nil => simp [Dict.getD]
  | cons kv c2 ih =>
    obtain ⟨a, v⟩ := kv
    unfold Dict.WF at h2
    simp only [List.map_cons, List.nodup_cons] at h2
    simp only [List.foldl_cons]
    rw [ih _ h2.2, Dict.getD_set]
    simp only [Dict.getD, Dict.get?_cons]
    by_cases h : a = k
    · subst h
      have : Dict.get? c2 a = none := (Dict.get?_eq_none_iff _ _).2 h2.1
      simp [this]
    · simp [h]

theorem mem_keys_combine (c1 c2 : Counts) (k : Str) :
    k ∈ (combineCounts c1 c2).map (·.1) ↔ k ∈ c1.map (·.1) ∨ k ∈ c2.map (·.1) := by
  rw [combineCounts_eq]
  induction c2 generalizing c1 with
  | nil => simp
  | cons kv c2 ih =>
    simp only [List.foldl_cons]
    rw [ih, Dict.mem_keys_set]
    simp only [List.map_cons, List.mem_cons]
    tauto

theorem total_set (d : Counts) (hd : Dict.WF d) (k : Str) (v : Int) :
    total (d.set k v) = total d - d.getD k 0 + v := by
  induction d with
  | nil => simp [Dict.set, total, Dict.getD]
  | cons p d ih =>
    obtain ⟨a, b⟩ := p
    unfold Dict.WF at hd
    simp only [List.map_cons, List.nodup_cons] at hd
    by_cases h : a = k
    · simp [Dict.set, total, Dict.getD, Dict.get?_cons, h]; ring
    · have e : Dict.getD ((a, b) :: d) k 0 = Dict.getD d k 0 := by
        simp [Dict.getD, Dict.get?_cons, h]
      have e2 : total (Dict.set ((a, b) :: d) k v) = b + total (Dict.set d k v) := by
        simp [Dict.set, h, total]
      have e3 : total ((a, b) :: d) = b + total d := by simp [total]
      rw [e, e2, e3, ih hd.2]; ring

theorem total_combine (c1 c2 : Counts) (h1 : Dict.WF c1) :
    total (combineCounts c1 c2) = total c1 + total c2 := by
  rw [combineCounts_eq]
  induction c2 generalizing c1 with
  | nil => simp [total]
  | cons kv c2 ih =>
    simp only [List.foldl_cons]
    rw [ih _ (Dict.wf_set _ h1 _ _), total_set _ h1]
    simp [total]; ring

/-- One dictionary of the pooling loop is `combine_counts`. -/
theorem build_inner (acc c : Counts) :
    c.foldl (fun acc kv => acc.set kv.1 (kv.2 + acc.getD kv.1 0)) acc = combineCounts acc c := by
  rw [combineCounts_eq]
  induction c generalizing acc with
  | nil => rfl
  | cons kv c ih =>
    simp only [List.foldl_cons]
    rw [← ih, Int.add_comm]

theorem getD_foldl_combine (l : List Counts) (acc : Counts) (h : ∀ c ∈ l, Dict.WF c) (k : Str) :
    (l.foldl combineCounts acc).getD k 0 = acc.getD k 0 + (l.map fun c => c.getD k 0).sum := by
  induction l generalizing acc with
  | nil => simp
  | cons c l ih =>
    simp only [List.foldl_cons]
    rw [ih _ (fun x hx => h x (by simp [hx])), getD_combine _ _ (h c (by simp))]
    simp [add_assoc]

theorem build_eq (l : List Counts) (hl : l.length ≠ 1) :
    buildCountsDictFromList l = l.foldl combineCounts [] := by
  have : ∀ (l : List Counts) acc, l.foldl (fun acc c => c.foldl
      (fun acc kv => acc.set kv.1 (kv.2 + acc.getD kv.1 0)) acc) acc = l.foldl combineCounts acc := by
    intro l
    induction l with
    | nil => simp
    | cons c l ih => intro acc; simp only [List.foldl_cons]; rw [ih, build_inner]
  unfold buildCountsDictFromList
  split
  · simp at hl
  · exact this l []

end Verif.Counts
