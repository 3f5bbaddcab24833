import Verif.Char.ZzList
import Mathlib.Algebra.CharZero.Defs
import Mathlib.Tactic.FieldSimp
import Mathlib.Tactic.Ring
/-
C93: `zz_circuits` called with a list.
-/
namespace Verif.Char
open Verif

variable {A : Type} [Field A] [DecidableEq A]

/-! ### Lemmas -/

theorem getLast?_replicate_flatten (num : List ℕ) (g : ℕ) (hg : 0 < g) : ((List.replicate g num).flatten).getLast? = num.getLast? := by
  obtain ⟨g, rfl⟩ : ∃ k, g = k + 1 := ⟨g - 1, by omega⟩
  rw [List.replicate_succ', List.flatten_append, List.flatten_singleton, List.getLast?_append]
  cases hn : num.getLast? with
  | some v => rfl
  | none =>
    have : num = [] := List.getLast?_eq_none_iff.1 hn
    subst this
    simp

omit [DecidableEq A] in
theorem zip_replicate (num : List ℕ) (g : ℕ) (hg : 0 < g) :
    num.zip (((List.replicate g num).flatten).map fun (n : ℕ) => (n : A)) = num.map fun (n : ℕ) => (n, (n : A)) := by
  obtain ⟨g, rfl⟩ : ∃ k, g = k + 1 := ⟨g - 1, by omega⟩
  rw [List.replicate_succ, List.flatten_cons, List.map_append]
  generalize (List.map (fun (n : ℕ) => (n : A)) (List.replicate g num).flatten) = r
  induction num with
  | nil => simp
  | cons a num ih => simp only [List.map_cons, List.cons_append, List.zip_cons_cons, ih]

/-! ### C93 -/

/-- **C93** (finding).  With a list of numbers of gates, as documented, and a float as gate time `zz_circuits` raises, whatever the other arguments. -/
theorem C93_finding_list_float (pi : A) (num : List ℕ) (gateTime : A) (qubits spectators : List ℕ) (nosc : ℕ) :
    zzCircuitsList pi num (.float gateTime) qubits spectators nosc = none := by
  unfold zzCircuitsList timesList
  split
  · rfl
  · split
    · rfl
    · rfl

/-- **C93** (finding).  With a list and a positive integer `g` as gate time `zz_circuits` returns the same circuits as with an array, but delay times that are the
`g`-fold repeated numbers of gates, and an oscillation frequency that is `g` times too large. -/
theorem C93_finding_list_int [CharZero A] (pi : A) (num : List ℕ) (g : ℕ) (hg : 0 < g) (qubits spectators : List ℕ) (nosc : ℕ) (circs : List (Circ A)) (xdata : List A) (f : A)
    (h : zzCircuits pi num (g : A) qubits spectators nosc = some (circs, xdata, f)) :
    ∃ xdata', zzCircuitsList pi num (.int g) qubits spectators nosc = some (circs, xdata', g * f) ∧
      xdata' = ((List.replicate g num).flatten).map (fun (n : ℕ) => (n : A)) ∧ xdata'.length = g * num.length ∧
      xdata = num.map fun (n : ℕ) => (g : A) * (n : A) := by
  have hg0 : (g : A) ≠ 0 := by exact_mod_cast hg.ne'
  unfold zzCircuits at h
  unfold zzCircuitsList timesList
  by_cases h1 : qubits.length ≠ spectators.length
  · rw [if_pos h1] at h
    cases h
  rw [if_neg h1] at h ⊢
  by_cases h2 : qubits.any (fun q => spectators.contains q)
  · rw [if_pos h2] at h
    cases h
  rw [if_neg h2] at h ⊢
  cases hq : regSize qubits with
  | none => rw [hq] at h; cases h
  | some n1 =>
  cases hs : regSize spectators with
  | none => rw [hq, hs] at h; cases h
  | some n2 =>
  rw [hq, hs] at h
  simp only [Option.bind_eq_bind, Option.bind_some, List.getLast?_map, Int.toNat_natCast, getLast?_replicate_flatten num g hg] at h ⊢
  cases hl : num.getLast? with
  | none => rw [hl] at h; cases h
  | some last =>
    rw [hl] at h
    simp only [Option.map_some, Option.bind_some] at h ⊢
    by_cases h0 : (last : A) = 0
    · rw [if_pos (by rw [h0, mul_zero])] at h
      cases h
    rw [if_neg (mul_ne_zero hg0 h0)] at h
    rw [if_neg h0]
    simp only [Option.pure_def, Option.some.injEq, Prod.mk.injEq] at h ⊢
    obtain ⟨hc, hx, hf⟩ := h
    refine ⟨_, ⟨?_, rfl, ?_⟩, rfl, ?_, hx.symm⟩
    · rw [← hc, zip_replicate num g hg]
      have hz : num.zip (num.map fun (n : ℕ) => (g : A) * (n : A)) = num.map fun (n : ℕ) => (n, (g : A) * (n : A)) := by
        clear * -
        induction num with
        | nil => rfl
        | cons a num ih => simp [ih]
      rw [hz, List.zipIdx_map, List.zipIdx_map]
      simp only [List.map_map, Function.comp_def, Prod.map_fst, Prod.map_snd, id_eq]
      have hph : ∀ n : ℕ, 2 * pi * ((nosc : A) / last) * (n : A) = 2 * pi * ((nosc : A) / (g * last)) * (g * n) := by
        intro n
        field_simp
      simp only [hph]
    · rw [← hf]
      field_simp
    · simp [List.length_flatten]

/-- Non-vacuity: gate time 2, numbers of gates 1 and 5: the delays are 2 and 10, and the frequency of one oscillation is 1/10; with a list the function says 1, 5, 1, 5
and 1/5. -/
example : ∃ circs, zzCircuits (3 : ℚ) [1, 5] 2 [0] [1] 1 = some (circs, [2, 10], 1 / 10) ∧
    zzCircuitsList (3 : ℚ) [1, 5] (.int 2) [0] [1] 1 = some (circs, [1, 5, 1, 5], 1 / 5) := by
  have hm : (zzCircuits (3 : ℚ) [1, 5] 2 [0] [1] 1).map (·.2) = some ([2, 10], 1 / 10) := by decide +kernel
  obtain ⟨⟨circs, p⟩, h, hp⟩ := Option.map_eq_some_iff.1 hm
  simp only at hp
  subst hp
  refine ⟨circs, h, ?_⟩
  obtain ⟨x', h1, h2, -⟩ := C93_finding_list_int (3 : ℚ) [1, 5] 2 (by decide) [0] [1] 1 circs _ _ (by exact_mod_cast h)
  have e1 : x' = [1, 5, 1, 5] := by rw [h2]; decide +kernel
  rw [e1] at h1
  have e2 : ((2 : ℕ) : ℚ) * (1 / 10) = 1 / 5 := by norm_num
  rw [e2] at h1
  exact_mod_cast h1

end Verif.Char
