import Verif.Counts.Props
/-
C01 and C02 for a list of all qubits.
-/
namespace Verif.Counts
open Verif

theorem set_new {d : Counts} {k : Str} (v : Int) (h : k ∉ d.map (·.1)) : d.set k v = d ++ [(k, v)] := by
  induction d with
  | nil => rfl
  | cons a d ih =>
    simp only [List.map_cons, List.mem_cons, not_or] at h
    rw [Dict.set, if_neg (fun e => h.1 e.symm), ih h.2]
    rfl

theorem fold_trim (c : Counts) (d : Counts) (hn : (d.map (·.1) ++ c.map fun kv => trimSpaces kv.1).Nodup) :
    c.foldl (fun (ret : Counts) kv => ret.set (trimSpaces kv.1) kv.2) d = d ++ c.map fun kv => (trimSpaces kv.1, kv.2) := by
  induction c generalizing d with
  | nil => simp
  | cons kv c ih =>
    rw [List.foldl_cons]
    have hk : trimSpaces kv.1 ∉ d.map (·.1) := by
      intro h
      exact (List.nodup_append.1 hn).2.2 _ h _ (by simp) rfl
    rw [set_new kv.2 hk, ih]
    · simp
    · simpa using hn

/-- **C01**, **C02** With all the qubits, named or by default, the outcomes keep their counts; only the blanks in the keys are gone. -/
theorem C02_full (n : Nat) (c : Counts) (hc : IsCounts n c) (hk : (c.map fun kv => trimSpaces kv.1).Nodup) (qubits : Option (List Nat))
    (hq : ∀ S, qubits = some S → S.length = n) (pad : Bool) :
    ∃ m, marginalCounts c qubits pad = some m ∧ total m = total c ∧ m.map (·.1) = c.map (fun kv => trimSpaces kv.1) ∧ m.map (·.2) = c.map (·.2) := by
  refine ⟨c.map fun kv => (trimSpaces kv.1, kv.2), ?_, by simp [total, Function.comp_def], by simp [Function.comp_def], by simp [Function.comp_def]⟩
  have hf := fold_trim c [] (by simpa using hk)
  cases c with
  | nil => exact absurd rfl hc.nonempty
  | cons kv c =>
    have hl := hc.len kv List.mem_cons_self
    unfold marginalCounts
    cases qubits with
    | none => simpa using hf
    | some S =>
      simp only [hl, hq S rfl, if_true]
      simpa using hf

example : ∃ m, marginalCounts exCounts (some [2, 0, 1]) false = some m ∧ total m = 17 := by
  obtain ⟨m, h1, h2, -⟩ := C02_full 3 exCounts (by decide) (by decide) (some [2, 0, 1]) (by rintro S ⟨⟩; rfl) false
  exact ⟨m, h1, h2⟩

/-- Finding: with all the qubits `pad_zeros` is ignored; the outcome `1` is missing. -/
theorem C02_finding_pad : marginalCounts [("0".toList, 5)] (some [0]) true = some [("0".toList, 5)] := by decide +kernel

/-- Finding: a list with a repeated qubit that is as long as the number of qubits is taken for all the qubits: the counts of qubit 0, asked for twice, are those of both qubits. -/
theorem C02_finding_repeated : marginalCounts [("01".toList, 5), ("11".toList, 2)] (some [0, 0]) false = some [("01".toList, 5), ("11".toList, 2)] ∧
    marginalCounts [("01".toList, 5), ("11".toList, 2)] (some [0]) false = some [("1".toList, 7)] := by decide +kernel

end Verif.Counts
