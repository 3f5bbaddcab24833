import Verif.Counts.Lemmas
/-
All bit strings of a given length, in increasing numerical order.
-/
namespace Verif
open Verif.Counts

/-- All strings of `n` characters `0`/`1`, in numerical order; for `n = 0` the empty string. -/
def bitStrings : Nat → List Str
  | 0 => [[]]
  | n + 1 => (bitStrings n).flatMap fun s => [s ++ ['0'], s ++ ['1']]

theorem mem_bitStrings (n : Nat) (s : Str) : s ∈ bitStrings n ↔ IsBits s ∧ s.length = n := by
  induction n generalizing s with
  | zero =>
    simp only [bitStrings, List.mem_singleton]
    constructor
    · rintro rfl; exact ⟨by simp [IsBits], rfl⟩
    · rintro ⟨_, h⟩; exact List.length_eq_zero_iff.1 h
  | succ n ih =>
    simp only [bitStrings, List.mem_flatMap, List.mem_cons, List.not_mem_nil, or_false]
    constructor
    · rintro ⟨t, ht, rfl | rfl⟩
      · obtain ⟨h1, h2⟩ := (ih t).1 ht
        refine ⟨?_, by simp [h2]⟩
        intro c hc
        rcases List.mem_append.1 hc with hc | hc
        · exact h1 c hc
        · left; simpa using hc
      · obtain ⟨h1, h2⟩ := (ih t).1 ht
        refine ⟨?_, by simp [h2]⟩
        intro c hc
        rcases List.mem_append.1 hc with hc | hc
        · exact h1 c hc
        · right; simpa using hc
    · rintro ⟨h1, h2⟩
      have hne : s ≠ [] := by rintro rfl; simp at h2
      refine ⟨s.dropLast, (ih _).2 ⟨fun c hc => h1 c (List.dropLast_subset s hc), by simp [h2]⟩, ?_⟩
      rcases h1 (s.getLast hne) (List.getLast_mem hne) with h | h
      · left; rw [← h, List.dropLast_concat_getLast]
      · right; rw [← h, List.dropLast_concat_getLast]

theorem map_ofBin_bitStrings (n : Nat) : (bitStrings n).map ofBin = List.range (2 ^ n) := by
  induction n with
  | zero => rfl
  | succ n ih =>
    rw [bitStrings, List.map_flatMap]
    have : ∀ s : Str, [s ++ ['0'], s ++ ['1']].map ofBin = [2 * ofBin s, 2 * ofBin s + 1] := by
      intro s; simp [ofBin_append, bitVal]
    simp only [this]
    have h2 : ∀ m, (List.range m).flatMap (fun j => [2 * j, 2 * j + 1]) = List.range (2 * m) := by
      intro m
      induction m with
      | zero => rfl
      | succ m ihm =>
        rw [List.range_succ, List.flatMap_append, ihm, Nat.mul_add, List.range_succ, List.range_succ]
        simp
    rw [Nat.pow_succ, Nat.mul_comm, ← h2, ← ih, List.flatMap_map]

theorem nodup_bitStrings (n : Nat) : (bitStrings n).Nodup := by
  apply List.Nodup.of_map ofBin
  rw [map_ofBin_bitStrings]
  exact List.nodup_range

theorem length_bitStrings (n : Nat) : (bitStrings n).length = 2 ^ n := by
  have := congrArg List.length (map_ofBin_bitStrings n)
  simpa using this

theorem countKeys_eq_bitStrings (n : Nat) (hn : 1 ≤ n) : countKeys n = bitStrings n := by
  rw [countKeys, ← map_ofBin_bitStrings, List.map_map]
  conv => rhs; rw [← List.map_id (bitStrings n)]
  apply List.map_congr_left
  intro s hs
  obtain ⟨h1, h2⟩ := (mem_bitStrings n s).1 hs
  simp only [Function.comp, id]
  rw [← h2, zfill_binDigits s h1 (by omega)]

theorem bitStrings_add (n k : Nat) :
    bitStrings (n + k) = (bitStrings n).flatMap fun a => (bitStrings k).map (a ++ ·) := by
  induction k with
  | zero => simp [bitStrings]
  | succ k ih =>
    rw [← Nat.add_assoc, bitStrings, ih, List.flatMap_assoc]
    congr 1
    funext a
    rw [bitStrings, List.map_flatMap, List.flatMap_map]
    congr 1
    funext b
    simp

end Verif
