import Verif.QV.Props
set_option linter.unusedSimpArgs false
set_option linter.unusedVariables false
/-
C60: the quantum volume circuits.
-/
namespace Verif.QV
open Verif Verif.Counts

/-- A model circuit on `n` qubits as the library generator delivers it: gates only, on qubits below `n`, and every
qubit is acted on. -/
structure ModelCirc (n : ℕ) (qv : List Op) : Prop where
  gates : ∀ o ∈ qv, ∃ i qs, o = .gate i qs ∧ ∀ q ∈ qs, q < n
  all : ∀ q < n, ∃ o ∈ qv, q ∈ o.qubits

theorem onto_qubits (l : List ℕ) (o : Op) : (o.onto l).qubits = o.qubits.map fun q => l.getD q 0 := by
  cases o <;> simp [Op.onto, Op.qubits]

theorem active_onto (l : List ℕ) (qv : List Op) (hm : ModelCirc l.length qv) (q : ℕ) :
    ((qv.map (Op.onto l)).any fun o => o.qubits.contains q) = true ↔ q ∈ l := by
  rw [List.any_eq_true]
  constructor
  · rintro ⟨o, ho, hq⟩
    obtain ⟨o', ho', rfl⟩ := List.mem_map.1 ho
    rw [onto_qubits] at hq
    obtain ⟨i, hi, rfl⟩ := List.mem_map.1 (List.contains_iff_mem.1 hq)
    obtain ⟨k, qs, rfl, hlt⟩ := hm.gates o' ho'
    have : i < l.length := hlt i hi
    rw [List.getD_eq_getElem _ _ this]
    exact List.getElem_mem this
  · intro hq
    obtain ⟨i, hi, rfl⟩ := List.mem_iff_getElem.1 hq
    obtain ⟨o, ho, hio⟩ := hm.all i hi
    refine ⟨o.onto l, List.mem_map_of_mem ho, ?_⟩
    rw [onto_qubits]
    exact List.contains_iff_mem.2 (List.mem_map.2 ⟨i, hio, List.getD_eq_getElem _ _ hi⟩)

/-- The measured qubits of the circuit for the list `l`: the listed qubits in increasing order. -/
theorem measured (l : List ℕ) (qv : List Op) (hm : ModelCirc l.length qv) (hnd : l.Nodup) (m : ℕ) (hmax : ∀ q ∈ l, q < m) :
    (List.range m).filter (fun q => (qv.map (Op.onto l)).any fun o => o.qubits.contains q) = l.insertionSort (· ≤ ·) := by
  apply List.Perm.eq_of_pairwise (le := (· ≤ ·)) (fun a b _ _ h1 h2 => le_antisymm h1 h2)
  · exact (List.Pairwise.imp (fun h => le_of_lt h) List.pairwise_lt_range).filter _
  · exact List.pairwise_insertionSort _ _
  · refine List.Perm.trans ?_ (List.perm_insertionSort _ _).symm
    rw [List.perm_ext_iff_of_nodup (List.nodup_range.filter _) hnd]
    intro q
    rw [List.mem_filter, active_onto l qv hm, List.mem_range]
    exact ⟨fun h => h.2, fun h => ⟨hmax q h, h⟩⟩

theorem max?_spec (l : List ℕ) (m : ℕ) (h : l.max? = some m) : m ∈ l ∧ ∀ q ∈ l, q ≤ m := by
  have h' := List.max?_eq_some_iff.1 h
  exact h'

/-- The circuit for a list whose largest entry is not its length: gate for gate the model circuit with model qubit `i`
on the `i`-th listed qubit, followed by the measurements of the listed qubits in increasing order into classical bits
0, 1, ...; without measurements the model circuit itself; both carry the name that names width and trial. -/
theorem circuit_of (l : List ℕ) (trial : ℕ) (qv : List Op) (hne : l ≠ []) (hnd : l.Nodup) (hm : ModelCirc l.length qv)
    (hmax : l.max? ≠ some l.length) :
    ∃ n, l.max? = some n ∧ qvCircuit l trial qv =
      some (⟨circName l.length trial, n + 1, qv.map (Op.onto l) ++ (l.insertionSort (· ≤ ·)).zipIdx.map fun p => Op.measure p.1 p.2⟩,
        ⟨circName l.length trial, l.length, qv⟩) := by
  cases hx : l.max? with
  | none => exact absurd (List.max?_eq_none_iff.1 hx) hne
  | some n =>
    refine ⟨n, rfl, ?_⟩
    rw [hx] at hmax
    have hn : n ≠ l.length := fun h => hmax (by rw [h])
    unfold qvCircuit
    simp only [hx, if_pos hn, if_pos hnd, measureActive]
    rw [measured l qv hm hnd (n + 1) fun q hq => by have := (max?_spec l n hx).2 q hq; omega]

/-- For an increasing list of qubits whose largest entry is not its length, the returned circuit applies the model
circuit with model qubit `i` on the `i`-th listed qubit and measures that qubit into classical bit `i`; the circuit
without measurements is the model circuit on qubits 0, 1, ...; both have the same name, from which the fitter reads
width and trial. -/
theorem C60_circuit (l : List ℕ) (trial : ℕ) (qv : List Op) (hne : l ≠ []) (hinc : l.Pairwise (· < ·)) (hm : ModelCirc l.length qv)
    (hmax : l.max? ≠ some l.length) :
    ∃ c c', qvCircuit l trial qv = some (c, c') ∧
      c.ops = qv.map (Op.onto l) ++ l.zipIdx.map (fun p => Op.measure p.1 p.2) ∧ (∀ q ∈ l, q < c.nqubits) ∧
      c'.ops = qv ∧ c'.nqubits = l.length ∧ c'.name = c.name ∧
      depthOfName c.name = some l.length ∧ trialOfName c.name = some (trial : ℤ) := by
  obtain ⟨n, hn, h⟩ := circuit_of l trial qv hne (hinc.imp fun h => ne_of_lt h) hm hmax
  refine ⟨_, _, h, ?_, ?_, rfl, rfl, rfl, (name_read_back _ _).1, (name_read_back _ _).2⟩
  · have : l.insertionSort (· ≤ ·) = l := List.Pairwise.insertionSort_eq (hinc.imp fun h => le_of_lt h)
    simp only [this]
  · intro q hq
    have := (max?_spec l n hn).2 q hq
    simp only; omega

theorem mapM_pointwise {α β : Type} (l : List α) (f : α → Option β) (P : α → β → Prop) (h : ∀ x ∈ l, ∃ y, f x = some y ∧ P x y) :
    ∃ r, l.mapM f = some r ∧ r.length = l.length ∧ ∀ i (hi : i < l.length), ∃ y, r[i]? = some y ∧ P l[i] y := by
  induction l with
  | nil => exact ⟨[], rfl, rfl, by simp⟩
  | cons a l ih =>
    obtain ⟨y, h1, h2⟩ := h a (by simp)
    obtain ⟨r, r1, r2, r3⟩ := ih fun x hx => h x (by simp [hx])
    refine ⟨y :: r, by rw [List.mapM_cons, h1, r1]; rfl, by simp [r2], ?_⟩
    intro i hi
    cases i with
    | zero => exact ⟨y, rfl, h2⟩
    | succ i => simpa using r3 i (by simpa using hi)

/-- `qv_circuits` returns, for every trial and every list (each list increasing, with a largest entry different from
its length), a pair of circuits as in `C60_circuit`, in the order of the trials and of the lists. -/
theorem C60_all (ql : List (List ℕ)) (ntrials : ℕ) (qv : ℕ → ℕ → List Op)
    (hne : ∀ l ∈ ql, l ≠ []) (hinc : ∀ l ∈ ql, l.Pairwise (· < ·)) (hmax : ∀ l ∈ ql, l.max? ≠ some l.length)
    (hm : ∀ t i (hi : i < ql.length), ModelCirc ql[i].length (qv t i)) :
    ∃ res, qvCircuits ql ntrials qv = some res ∧ res.length = ntrials ∧
      ∀ t (ht : t < ntrials), ∃ row, res[t]? = some row ∧ row.length = ql.length ∧
        ∀ i (hi : i < ql.length), ∃ c c', row[i]? = some (c, c') ∧
          c.ops = (qv t i).map (Op.onto ql[i]) ++ ql[i].zipIdx.map (fun p => Op.measure p.1 p.2) ∧ c'.ops = qv t i ∧
          c'.name = c.name ∧ depthOfName c.name = some ql[i].length ∧ trialOfName c.name = some (t : ℤ) := by
  have h0 : (ql.any (· = [])) = false := by
    rw [Bool.eq_false_iff]
    intro h
    obtain ⟨l, hl, he⟩ := List.any_eq_true.1 h
    exact hne l hl (by simpa using he)
  unfold qvCircuits
  rw [h0]
  simp only [Bool.false_eq_true, if_false]
  obtain ⟨res, r1, r2, r3⟩ := mapM_pointwise (List.range ntrials)
    (fun t => ql.zipIdx.mapM fun p => qvCircuit p.1 t (qv t p.2))
    (fun t row => row.length = ql.length ∧ ∀ i (hi : i < ql.length), ∃ c c', row[i]? = some (c, c') ∧
      c.ops = (qv t i).map (Op.onto ql[i]) ++ ql[i].zipIdx.map (fun p => Op.measure p.1 p.2) ∧ c'.ops = qv t i ∧
      c'.name = c.name ∧ depthOfName c.name = some ql[i].length ∧ trialOfName c.name = some (t : ℤ))
    (by
      intro t _
      obtain ⟨row, w1, w2, w3⟩ := mapM_pointwise ql.zipIdx (fun p => qvCircuit p.1 t (qv t p.2))
        (fun p y => y.1.ops = (qv t p.2).map (Op.onto p.1) ++ p.1.zipIdx.map (fun p => Op.measure p.1 p.2) ∧ y.2.ops = qv t p.2 ∧
          y.2.name = y.1.name ∧ depthOfName y.1.name = some p.1.length ∧ trialOfName y.1.name = some (t : ℤ))
        (by
          rintro ⟨l, i⟩ hp
          have hp' := List.mem_zipIdx hp
          simp only [Nat.zero_add, Nat.zero_le, Nat.sub_zero, true_and] at hp'
          obtain ⟨hi, hli⟩ := hp'
          have hl : l ∈ ql := by rw [hli]; exact List.getElem_mem hi
          have hml : ModelCirc l.length (qv t i) := by rw [hli]; exact hm t i hi
          obtain ⟨c, c', e, a1, a2, a3, a4, a5, a6, a7⟩ := C60_circuit l t (qv t i) (hne _ hl) (hinc _ hl) hml (hmax _ hl)
          exact ⟨(c, c'), e, a1, a3, a5, a6, a7⟩)
      refine ⟨row, w1, by simpa using w2, ?_⟩
      intro i hi
      obtain ⟨⟨c, c'⟩, y1, y2⟩ := w3 i (by simpa using hi)
      simp only [List.getElem_zipIdx, Nat.zero_add] at y2
      exact ⟨c, c', y1, y2⟩)
  refine ⟨res, r1, by simpa using r2, ?_⟩
  intro t ht
  obtain ⟨row, y1, y2, y3⟩ := r3 t (by simpa using ht)
  simp only [List.getElem_range] at y3
  exact ⟨row, y1, y2, y3⟩

/-- Lists of different lengths and different trials give different circuit names; lists of the same length give the
same name in the same trial, so that the fitter refuses the second ideal result (`C58_ideal_twice`) and pools the
measured counts of both. -/
theorem C60_names (d t d' t' : ℕ) : circName d t = circName d' t' ↔ d = d' ∧ t = t' :=
  ⟨circName_inj, by rintro ⟨rfl, rfl⟩; rfl⟩

/-- Non-vacuity: two lists, a two-qubit gate. -/
example : ModelCirc 2 [.gate 0 [0, 1]] ∧
    qvCircuit [1, 3] 4 [.gate 0 [0, 1]] =
      some (⟨circName 2 4, 4, [.gate 0 [1, 3], .measure 1 0, .measure 3 1]⟩, ⟨circName 2 4, 2, [.gate 0 [0, 1]]⟩) := by
  refine ⟨⟨?_, ?_⟩, by decide⟩
  · intro o ho
    simp only [List.mem_singleton] at ho
    exact ⟨0, [0, 1], ho, by simp⟩
  · intro q hq
    exact ⟨_, List.mem_singleton.2 rfl, by simp [Op.qubits]; omega⟩

/-- Finding: a list that is not increasing.  Model qubit 0 is physical qubit 1, but classical bit 0 receives physical
qubit 0, so the measured outcomes are mirrored with respect to the ideal ones. -/
theorem C60_finding_order : qvCircuit [1, 0] 0 [.gate 0 [0, 1]] =
    some (⟨circName 2 0, 2, [.gate 0 [1, 0], .measure 0 0, .measure 1 1]⟩, ⟨circName 2 0, 2, [.gate 0 [0, 1]]⟩) := by decide

/-- Finding: a list whose largest entry equals its length.  The circuit for qubits 1 and 2 acts on qubits 0 and 1. -/
theorem C60_finding_mapping : qvCircuit [1, 2] 0 [.gate 0 [0, 1]] =
    some (⟨circName 2 0, 2, [.gate 0 [0, 1], .measure 0 0, .measure 1 1]⟩, ⟨circName 2 0, 2, [.gate 0 [0, 1]]⟩) := by decide

/-- Finding: a model circuit in which no operation acts on some qubit.  That qubit is not measured, and the outcomes
have fewer bits than the ideal ones. -/
theorem C60_finding_idle : qvCircuit [0] 0 [] = some (⟨circName 1 0, 1, []⟩, ⟨circName 1 0, 1, []⟩) ∧
    qvCircuit [0, 1, 2] 0 [.gate 0 [0, 2]] =
      some (⟨circName 3 0, 3, [.gate 0 [0, 2], .measure 0 0, .measure 2 1]⟩, ⟨circName 3 0, 3, [.gate 0 [0, 2]]⟩) := by decide

end Verif.QV
