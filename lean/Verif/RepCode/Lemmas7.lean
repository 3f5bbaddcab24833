import Verif.RepCode.Props
import Verif.RepCode.Decoder
import Verif.RepCode.Lemmas6
/-
The syndrome graph of the repetition code.
-/
namespace Verif.RepCode
open Verif

/-- A node as the decoder writes it. -/
def nt (d : Nat) : Node → Tup
  | .L => (0, 0, 0)
  | .R => (0, 1, 0)
  | .s t j => (1, t, d - 2 - j)

theorem nt_inj {d T : Nat} {m n : Node} (hm : m ∈ nodes d T) (hn : n ∈ nodes d T) (h : nt d m = nt d n) : m = n := by
  cases m <;> cases n <;> simp [nt] at h
  · rfl
  · rfl
  · rename_i t j t' j'
    obtain ⟨h1, h2⟩ := h
    have a := (mem_nodes d T t j).1 hm
    have b := (mem_nodes d T t' j').1 hn
    subst h1
    congr 1
    omega

/-! ### the strings -/

theorem separate_processed (d T : Nat) (hd : 2 ≤ d) (m : Cl → Bool) : separateString (processed d T m) =
    [[[bitChar (m (Reg.code, d - 1))], [bitChar (m (Reg.code, 0))]], (List.range (T + 1)).map fun t => row d (chg T m t)] := by
  unfold separateString
  rw [splitDouble_processed d T hd]
  have hj : splitChar ' ' (joinSep [' '] ((List.range (T + 1)).map fun t => row d (chg T m t))) =
      (List.range (T + 1)).map fun t => row d (chg T m t) := by
    apply splitChar_join
    · intro h; have := congrArg List.length h; simp at this
    · intro p hp
      obtain ⟨t, _, rfl⟩ := List.mem_map.1 hp
      exact space_not_mem_row d _
  have hall : ∀ x y : Bool, splitChar ' ' [bitChar x, ' ', bitChar y] = [[bitChar x], [bitChar y]] := by decide
  simp [hj, hall]

theorem bitChar_one (b : Bool) : bitChar b = '1' ↔ b = true := by cases b <;> simp [bitChar]

/-- The syndrome part of a processed string, as nodes. -/
theorem mem_rows (d T : Nat) (hd : 2 ≤ d) (m : Cl → Bool) (x : Tup) :
    (∃ t row' e, ((List.range (T + 1)).map fun t => row d (chg T m t))[t]? = some row' ∧ row'[e]? = some '1' ∧ x = (1, t, e)) ↔
      ∃ t j, t ≤ T ∧ j < d - 1 ∧ chg T m t j = true ∧ x = (1, t, d - 2 - j) := by
  constructor
  · rintro ⟨t, r, e, h1, h2, rfl⟩
    rw [List.getElem?_map] at h1
    by_cases ht : t < T + 1
    · rw [List.getElem?_range ht, Option.map_some, Option.some.injEq] at h1
      subst h1
      by_cases he : e < d - 1
      · rw [getElem?_row d _ e he, Option.some.injEq, bitChar_one] at h2
        exact ⟨t, d - 2 - e, by omega, by omega, h2, by simp; omega⟩
      · rw [List.getElem?_eq_none (by rw [length_row]; omega)] at h2
        simp at h2
    · rw [List.getElem?_eq_none (by simp; omega)] at h1
      simp at h1
  · rintro ⟨t, j, ht, hj, h, rfl⟩
    refine ⟨t, row d (chg T m t), d - 2 - j, ?_, ?_, rfl⟩
    · rw [List.getElem?_map, List.getElem?_range (by omega)]; rfl
    · rw [getElem?_row d _ _ (by omega), show d - 2 - (d - 2 - j) = j by omega, h]; rfl

theorem mem_flat_rows (rows : List Str) (k : Nat) (f : Char → Bool) (x : Tup) :
    x ∈ (rows.zipIdx.flatMap fun (elements, synRound) => elements.zipIdx.filterMap fun (element, elemNum) =>
      if f element then some (k, synRound, elemNum) else none) ↔
    ∃ t r e c, rows[t]? = some r ∧ r[e]? = some c ∧ f c = true ∧ x = (k, t, e) := by
  simp only [List.mem_flatMap, List.mem_filterMap, Prod.exists, List.mk_mem_zipIdx_iff_getElem?]
  constructor
  · rintro ⟨r, t, h1, c, e, h2, h3⟩
    split at h3
    · next hf => exact ⟨t, r, e, c, h1, h2, hf, by simpa using h3.symm⟩
    · simp at h3
  · rintro ⟨t, r, e, c, h1, h2, h3, rfl⟩
    exact ⟨r, t, h1, c, e, h2, by simp [h3]⟩

theorem mem_string2nodes (d T : Nat) (hd : 2 ≤ d) (m : Cl → Bool) (x : Tup) :
    x ∈ string2nodes (processed d T m) ↔ ∃ n ∈ nodes d T, nodeVal d T m n = true ∧ nt d n = x := by
  unfold string2nodes
  rw [separate_processed d T hd]
  simp only [List.zipIdx_cons, List.zipIdx_nil, List.flatMap_cons, List.flatMap_nil, List.append_nil, List.mem_append]
  have h1 := mem_flat_rows ((List.range (T + 1)).map fun t => row d (chg T m t)) 1 (fun c => decide (c = '1')) x
  simp only [decide_eq_true_eq] at h1
  simp only [Nat.zero_add] at h1 ⊢
  rw [h1]
  have h2 := mem_rows d T hd m x
  have h3 : (∃ t r e c, ((List.range (T + 1)).map fun t => row d (chg T m t))[t]? = some r ∧ r[e]? = some c ∧ c = '1' ∧ x = (1, t, e)) ↔
      ∃ t j, t ≤ T ∧ j < d - 1 ∧ chg T m t j = true ∧ x = (1, t, d - 2 - j) := by
    rw [← h2]
    constructor
    · rintro ⟨t, r, e, c, a, b, rfl, h⟩; exact ⟨t, r, e, a, b, h⟩
    · rintro ⟨t, r, e, a, b, h⟩; exact ⟨t, r, e, _, a, b, rfl, h⟩
  rw [h3]
  have h4 : (x ∈ (List.filterMap (fun x : Char × Nat => if x.1 = '1' then some ((0, 0, x.2) : Tup) else none) [(bitChar (m (Reg.code, d - 1)), 0)]) ∨
      x ∈ (List.filterMap (fun x : Char × Nat => if x.1 = '1' then some ((0, 1, x.2) : Tup) else none) [(bitChar (m (Reg.code, 0)), 0)])) ↔
      (m (Reg.code, d - 1) = true ∧ x = (0, 0, 0)) ∨ (m (Reg.code, 0) = true ∧ x = (0, 1, 0)) := by
    simp only [List.mem_filterMap, List.mem_singleton, exists_eq_left, bitChar_one]
    constructor
    · rintro (h | h)
      · split at h <;> simp at h; left; exact ⟨by assumption, h.symm⟩
      · split at h <;> simp at h; right; exact ⟨by assumption, h.symm⟩
    · rintro (⟨h, rfl⟩ | ⟨h, rfl⟩)
      · left; simp [h]
      · right; simp [h]
  rw [h4]
  constructor
  · rintro ((⟨h, rfl⟩ | ⟨h, rfl⟩) | ⟨t, j, a, b, c, rfl⟩)
    · exact ⟨.L, by simp [nodes], h, rfl⟩
    · exact ⟨.R, by simp [nodes], h, rfl⟩
    · exact ⟨.s t j, (mem_nodes d T t j).2 ⟨a, b⟩, c, rfl⟩
  · rintro ⟨n, hn, hv, rfl⟩
    cases n with
    | L => exact Or.inl (Or.inl ⟨hv, rfl⟩)
    | R => exact Or.inl (Or.inr ⟨hv, rfl⟩)
    | s t j =>
      obtain ⟨a, b⟩ := (mem_nodes d T t j).1 hn
      exact Or.inr ⟨t, j, a, b, hv, rfl⟩

end Verif.RepCode
