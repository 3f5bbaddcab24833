import Verif.RB.CountGates
import Verif.RB.PropsUtils
/-
C76: `count_gates`.
-/
namespace Verif.RB.Utils
open Verif

/-- An entry of a table. -/
def cell (m : List (List ℕ)) (j k : ℕ) : Option ℕ := m[j]?.bind fun r => r[k]?

/-- `k` is the last position of `b`. -/
def LastAt (basis : List Str) (b : Str) (k : ℕ) : Prop := basis[k]? = some b ∧ ∀ k', k < k' → basis[k']? ≠ some b

theorem ind_fold (l : List Str) (n : ℕ) (d : Dict Str ℕ) (b : Str) (k : ℕ) (h : ((l.zipIdx n).foldl (fun d p => d.set p.1 p.2) d).get? b = some k) :
    (∃ k', k = n + k' ∧ LastAt l b k') ∨ (b ∉ l ∧ d.get? b = some k) := by
  induction l generalizing n d with
  | nil => exact Or.inr ⟨by simp, h⟩
  | cons a l ih =>
    rw [List.zipIdx_cons, List.foldl_cons] at h
    rcases ih (n + 1) _ h with ⟨k', rfl, h1, h2⟩ | ⟨h1, h2⟩
    · refine Or.inl ⟨k' + 1, by omega, by simpa using h1, fun k'' hk => ?_⟩
      obtain ⟨j, rfl⟩ : ∃ j, k'' = j + 1 := ⟨k'' - 1, by omega⟩
      simpa using h2 j (by omega)
    · rw [Dict.get?_set] at h2
      by_cases e : b = a
      · subst e
        simp at h2
        subst h2
        refine Or.inl ⟨0, rfl, by simp, fun k'' hk => ?_⟩
        obtain ⟨j, rfl⟩ : ∃ j, k'' = j + 1 := ⟨k'' - 1, by omega⟩
        intro hj
        exact h1 (List.mem_of_getElem? (by simpa using hj))
      · refine Or.inr ⟨by simp [e, h1], ?_⟩
        rwa [if_neg fun x => e x.symm] at h2

theorem ind_isSome (l : List Str) (n : ℕ) (d : Dict Str ℕ) (b : Str) (h : b ∈ l ∨ (d.get? b).isSome) : (((l.zipIdx n).foldl (fun d p => d.set p.1 p.2) d).get? b).isSome := by
  induction l generalizing n d with
  | nil => simpa using h
  | cons a l ih =>
    rw [List.zipIdx_cons, List.foldl_cons]
    refine ih _ _ ?_
    by_cases hb : b ∈ l
    · exact Or.inl hb
    · right
      rw [Dict.get?_set]
      by_cases e : b = a
      · simp [e]
      · rw [if_neg fun x => e x.symm]
        simpa [e, hb] using h

theorem basisInd_last (basis : List Str) (b : Str) (hb : b ∈ basis) : ∃ k, (basisInd basis).get? b = some k ∧ LastAt basis b k := by
  obtain ⟨k, hk⟩ := Option.isSome_iff_exists.1 (ind_isSome basis 0 [] b (Or.inl hb))
  refine ⟨k, hk, ?_⟩
  rcases ind_fold basis 0 [] b k hk with ⟨k', rfl, h⟩ | ⟨h, -⟩
  · simpa using h
  · exact absurd hb h

theorem last_unique {basis : List Str} {b : Str} {k k' : ℕ} (h : LastAt basis b k) (h' : LastAt basis b k') : k = k' := by
  by_contra hne
  rcases Nat.lt_or_gt_of_ne hne with hlt | hlt
  · exact h.2 k' hlt h'.1
  · exact h'.2 k hlt h.1

theorem cell_modify (m : List (List ℕ)) (q k j k' : ℕ) : cell (m.modify q (·.modify k (· + 1))) j k' = (cell m j k').map (· + if q = j ∧ k = k' then 1 else 0) := by
  unfold cell
  rw [List.getElem?_modify]
  by_cases hq : q = j
  · subst hq
    cases h : m[q]? with
    | none => simp
    | some r =>
      simp only [if_true, Option.map_eq_map, Option.map_some, Option.bind_some, true_and]
      rw [List.getElem?_modify]
      by_cases hk : k = k'
      · subst hk; simp
      · simp [hk]
  · simp [hq]

theorem cell_qubits (l : List ℕ) (n : ℕ) (used : List ℕ) (k : ℕ) (m : List (List ℕ)) (j k' : ℕ) :
    cell ((l.zipIdx n).foldl (fun m q => if q.1 ∈ used then m.modify q.2 (·.modify k (· + 1)) else m) m) j k' =
      (cell m j k').map (· + if k = k' ∧ n ≤ j ∧ ∃ q ∈ used, l[j - n]? = some q then 1 else 0) := by
  induction l generalizing n m with
  | nil => simp
  | cons a l ih =>
    rw [List.zipIdx_cons, List.foldl_cons, ih]
    by_cases ha : a ∈ used
    · simp only [if_pos ha]
      rw [cell_modify, Option.map_map]
      congr 1
      funext v
      simp only [Function.comp]
      rcases Nat.lt_trichotomy j n with h | h | h
      · rw [if_neg (by omega), if_neg (by omega), if_neg (by omega)]
      · subst h
        rw [if_neg (by omega : ¬ (k = k' ∧ j + 1 ≤ j ∧ _))]
        simp [ha]
      · obtain ⟨i, hi⟩ : ∃ i, j - n = i + 1 := ⟨j - n - 1, by omega⟩
        have hi' : j - (n + 1) = i := by omega
        rw [if_neg (by omega : ¬ (n = j ∧ k = k')), hi, hi', List.getElem?_cons_succ]
        have e : (n + 1 ≤ j) = True := eq_true (by omega)
        have e' : (n ≤ j) = True := eq_true (by omega)
        simp only [e, e', Nat.add_zero]
    · simp only [if_neg ha]
      congr 1
      funext v
      rcases Nat.lt_trichotomy j n with h | h | h
      · rw [if_neg (by omega), if_neg (by omega)]
      · subst h
        rw [if_neg (by omega : ¬ (k = k' ∧ j + 1 ≤ j ∧ _))]
        have : ¬ (k = k' ∧ j ≤ j ∧ ∃ q ∈ used, (a :: l)[j - j]? = some q) := by
          rintro ⟨-, -, q, hq, h⟩
          simp at h
          exact ha (h ▸ hq)
        rw [if_neg this]
      · obtain ⟨i, hi⟩ : ∃ i, j - n = i + 1 := ⟨j - n - 1, by omega⟩
        have hi' : j - (n + 1) = i := by omega
        rw [hi, hi', List.getElem?_cons_succ]
        have e : (n + 1 ≤ j) = True := eq_true (by omega)
        have e' : (n ≤ j) = True := eq_true (by omega)
        simp only [e, e']

theorem cell_instr (basis : List Str) (qubits : List ℕ) (m : List (List ℕ)) (i : TIns) (j k q : ℕ) (b : Str) (hq : qubits[j]? = some q) (hk : LastAt basis b k) :
    cell (countInstr basis qubits m i) j k = (cell m j k).map (· + if i.1 = b ∧ q ∈ i.2 then 1 else 0) := by
  unfold countInstr
  by_cases hi : i.1 ∈ basis
  · obtain ⟨k0, h0, hl⟩ := basisInd_last basis i.1 hi
    rw [if_pos hi, h0]
    simp only
    rw [cell_qubits]
    congr 1
    funext v
    have : (k0 = k ∧ 0 ≤ j ∧ ∃ q' ∈ i.2, qubits[j - 0]? = some q') ↔ (i.1 = b ∧ q ∈ i.2) := by
      constructor
      · rintro ⟨rfl, -, q', h1, h2⟩
        rw [Nat.sub_zero, hq] at h2
        injection h2 with h2
        refine ⟨?_, h2 ▸ h1⟩
        have := hl.1.symm.trans hk.1
        simpa using this
      · rintro ⟨rfl, h⟩
        exact ⟨last_unique hl hk, Nat.zero_le _, q, h, by simpa using hq⟩
    simp only [this]
  · rw [if_neg hi]
    have : ¬ i.1 = b := fun e => hi (e ▸ List.mem_of_getElem? hk.1)
    simp [this]

theorem cell_other (basis : List Str) (qubits : List ℕ) (m : List (List ℕ)) (i : TIns) (j k : ℕ) (hk : ∀ b, ¬ LastAt basis b k) :
    cell (countInstr basis qubits m i) j k = cell m j k := by
  unfold countInstr
  by_cases hi : i.1 ∈ basis
  · obtain ⟨k0, h0, hl⟩ := basisInd_last basis i.1 hi
    rw [if_pos hi, h0]
    simp only
    rw [cell_qubits]
    have : ¬ k0 = k := fun e => hk _ (e ▸ hl)
    simp [this]
  · rw [if_neg hi]

theorem later_iff (basis : List Str) (k : ℕ) (b : Str) : (∀ k', k < k' → basis[k']? ≠ some b) ↔ b ∉ basis.drop (k + 1) := by
  constructor
  · intro h hm
    obtain ⟨i, hi⟩ := List.mem_iff_getElem?.1 hm
    rw [List.getElem?_drop] at hi
    exact h (k + 1 + i) (by omega) hi
  · intro h k' hk hb
    refine h (List.mem_iff_getElem?.2 ⟨k' - (k + 1), ?_⟩)
    rw [List.getElem?_drop, ← hb]
    congr 1
    omega

/-- C76: `count_gates` gives, for every experiment, every qubit of the list and every gate of the basis, the number of instructions with the name of the gate that
act on the qubit; a gate that the basis lists again later has the count 0 at the earlier positions. -/
theorem C76_count_gates (experiments : List (List TIns)) (basis : List Str) (qubits : List ℕ) :
    (countGates experiments basis qubits).length = experiments.length ∧
    ∀ (e : ℕ) (instrs : List TIns), experiments[e]? = some instrs → ∃ t, (countGates experiments basis qubits)[e]? = some t ∧
      ∀ (j q k : ℕ) (b : Str), qubits[j]? = some q → basis[k]? = some b →
        cell t j k = some (if b ∉ basis.drop (k + 1) then (instrs.filter fun i => i.1 = b ∧ q ∈ i.2).length else 0) := by
  refine ⟨by simp [countGates], fun e instrs he => ?_⟩
  refine ⟨_, by rw [countGates, List.getElem?_map, he]; rfl, fun j q k b hq hb => ?_⟩
  have hjl : j < qubits.length := (List.getElem?_eq_some_iff.1 hq).1
  have hkl : k < basis.length := (List.getElem?_eq_some_iff.1 hb).1
  have h0 : cell (List.replicate qubits.length (List.replicate basis.length 0)) j k = some 0 := by
    simp [cell, hjl, hkl]
  by_cases hl : ∀ k', k < k' → basis[k']? ≠ some b
  · rw [if_pos ((later_iff basis k b).1 hl)]
    have key : ∀ (l : List TIns) (m : List (List ℕ)), cell (l.foldl (countInstr basis qubits) m) j k =
        (cell m j k).map (· + (l.filter fun i => i.1 = b ∧ q ∈ i.2).length) := by
      intro l
      induction l with
      | nil => intro m; simp
      | cons i l ih =>
        intro m
        rw [List.foldl_cons, ih, cell_instr basis qubits m i j k q b hq ⟨hb, hl⟩, Option.map_map]
        congr 1
        funext v
        simp only [Function.comp, List.filter_cons]
        by_cases h : i.1 = b ∧ q ∈ i.2
        · simp [h]; omega
        · simp [h]
    rw [key, h0]
    simp
  · rw [if_neg fun h => hl ((later_iff basis k b).2 h)]
    have hno : ∀ b', ¬ LastAt basis b' k := by
      rintro b' ⟨h1, h2⟩
      have : b' = b := by simpa using h1.symm.trans hb
      exact hl (this ▸ h2)
    have key : ∀ (l : List TIns) (m : List (List ℕ)), cell (l.foldl (countInstr basis qubits) m) j k = cell m j k := by
      intro l
      induction l with
      | nil => intro m; rfl
      | cons i l ih => intro m; rw [List.foldl_cons, ih, cell_other basis qubits m i j k hno]
    rw [key, h0]

/-- Two experiments, three instructions; one of the names is not in the basis. -/
example : countGates [[("cx".toList, [0, 1]), ("u2".toList, [0])], [("barrier".toList, [0, 1]), ("cx".toList, [1, 2])]] ["u2".toList, "cx".toList] [0, 1] =
    [[[1, 1], [0, 1]], [[0, 0], [0, 1]]] := by decide

/-- C76: the two functions agree: for circuits whose instructions do not act twice on a qubit, the gates per Clifford are the counts that `count_gates` gives for
all the circuits of all the seeds, added up and divided by the number of Cliffords. -/
theorem C76_agree (circuits : List (List (List TIns))) (hne : circuits ≠ []) (hi : ∀ e ∈ circuits.flatten, ∀ i ∈ e, i.2.Nodup) (lengths : List ℤ) (basis : List Str) (hb : basis.Nodup)
    (qubits : List ℕ) (hq : qubits.Nodup) (j q k : ℕ) (b : Str) (hj : qubits[j]? = some q) (hk : basis[k]? = some b) :
    ∃ r, gatesPerClifford circuits lengths basis qubits = some r ∧
      entry r q b = some ((((countGates circuits.flatten basis qubits).map fun t => (cell t j k).getD 0).sum : ℕ) / (circuits.length * ((lengths.map fun l => l + 1).sum : ℤ) : ℝ)) := by
  obtain ⟨r, h1, h2⟩ := C76_gates_per_clifford circuits hne lengths basis hb qubits hq
  refine ⟨r, h1, ?_⟩
  rw [h2, if_pos ⟨List.mem_of_getElem? hj, List.mem_of_getElem? hk⟩]
  have hlast : ∀ k', k < k' → basis[k']? ≠ some b := by
    intro k' hlt h
    obtain ⟨a1, a2⟩ := List.getElem?_eq_some_iff.1 hk
    obtain ⟨b1, b2⟩ := List.getElem?_eq_some_iff.1 h
    have := (hb.getElem_inj_iff (hi := a1) (hj := b1)).1 (a2.trans b2.symm)
    omega
  generalize circuits.flatten = experiments at hi ⊢
  have e : occ experiments q b = ((countGates experiments basis qubits).map fun t => (cell t j k).getD 0).sum := by
    unfold occ
    congr 1
    refine List.ext_getElem (by simp [countGates]) fun n h1' h2' => ?_
    rw [List.getElem_map, List.getElem_map]
    have hn : n < experiments.length := by simpa using h1'
    obtain ⟨t, ht, hc⟩ := (C76_count_gates experiments basis qubits).2 n _ (List.getElem?_eq_getElem hn)
    have : (countGates experiments basis qubits)[n]'(by simpa [countGates] using hn) = t := by
      rw [List.getElem?_eq_getElem (by simpa [countGates] using hn)] at ht
      simpa using ht
    rw [this, hc j q k b hj hk, if_pos ((later_iff basis k b).1 hlast), Option.getD_some]
    have hnd := hi _ (List.getElem_mem hn)
    generalize experiments[n] = l at hnd
    induction l with
    | nil => rfl
    | cons i l ih =>
      rw [List.map_cons, List.sum_cons, ih fun x hx => hnd x (List.mem_cons_of_mem _ hx), List.filter_cons]
      by_cases h : i.1 = b
      · by_cases hm : q ∈ i.2
        · simp [h, hm, List.count_eq_one_of_mem (hnd i List.mem_cons_self) hm]; omega
        · simp [h, hm, List.count_eq_zero_of_not_mem hm]
      · simp [h]
  rw [e]

/-- The hypotheses of `C76_agree` hold for two seeds with a circuit each. -/
example : ([[[("cx".toList, [0, 1]), ("u2".toList, [0])]], [[("cx".toList, [1, 2])]]] : List (List (List TIns))) ≠ [] ∧
    (∀ e ∈ ([[[("cx".toList, [0, 1]), ("u2".toList, [0])]], [[("cx".toList, [1, 2])]]] : List (List (List TIns))).flatten, ∀ i ∈ e, i.2.Nodup) := by decide

/-- Finding: with a basis that lists a gate twice the first of the two columns says that the gate does not occur. -/
theorem C76_finding_repeated_basis : countGates [[("cx".toList, [0, 1])]] ["cx".toList, "cx".toList] [0] = [[[0, 1]]] := by decide

end Verif.RB.Utils
