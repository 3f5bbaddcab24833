import Verif.RepCode.Lemmas7
set_option linter.unusedVariables false
/-
The syndrome graph: edges, cuts, connectedness.
-/
namespace Verif.RepCode
open Verif

theorem mkCode_dT (d T : Nat) (hT : 1 ≤ T) : (mkCode d T).d = d ∧ (mkCode d T).T = T := by
  obtain ⟨n, rfl⟩ : ∃ n, T = n + 1 := ⟨T - 1, by omega⟩
  simp only [mkCode, prep_codeAfter, rounds_codeAfter, ne_eq, Nat.succ_ne_zero, not_false_eq_true,
    if_true, Nat.zero_add]
  rw [sm_codeAfter]
  simp [Code.readout]

theorem body_valid (d T : Nat) : ∀ o ∈ bodyOps d T, ∀ q ∈ o.qubits, q.Valid d := by
  have hr : ∀ t r, ∀ o ∈ roundOps d t r, ∀ q ∈ o.qubits, q.Valid d := by
    intro t r o ho q hq
    simp only [roundOps, List.mem_append, List.mem_map, List.mem_flatMap, List.mem_range] at ho
    rcases ho with ⟨j, hj, rfl⟩ | ⟨j, hj, rfl⟩ | ⟨j, hj, ho⟩
    · simp only [Op.qubits, List.mem_cons, List.not_mem_nil, or_false] at hq
      rcases hq with rfl | rfl <;> simp only [Qb.Valid] <;> omega
    · simp only [Op.qubits, List.mem_cons, List.not_mem_nil, or_false] at hq
      rcases hq with rfl | rfl <;> simp only [Qb.Valid] <;> omega
    · rcases ho with ho | ho
      · simp at ho; subst ho; simp [Op.qubits] at hq; subst hq; exact hj
      · cases r <;> simp at ho; subst ho; simp [Op.qubits] at hq; subst hq; exact hj
  intro o ho
  simp only [bodyOps, List.mem_append, List.mem_flatMap] at ho
  rcases ho with ⟨t, _, ho⟩ | ho | ho
  · exact hr _ _ _ ho
  · exact hr _ _ _ ho
  · simp only [readOps, List.mem_map, List.mem_range] at ho
    obtain ⟨k, hk, rfl⟩ := ho
    intro q hq
    simp [Op.qubits] at hq
    subst hq
    exact hk

theorem nodeVal_zpat (d T : Nat) (n : Node) : nodeVal d T zpat n = false := by
  cases n <;> simp [nodeVal, zpat, chg, syn]

theorem foldlM_graph {α : Type} (f : Graph → α → Option Graph) (N : α → List Tup) (E : α → List (Tup × Tup)) (l : List α)
    (h : ∀ a ∈ l, ∀ S, f S a = some ⟨S.nodes ++ N a, S.edges ++ E a⟩) (S0 : Graph) :
    l.foldlM f S0 = some ⟨S0.nodes ++ l.flatMap N, S0.edges ++ l.flatMap E⟩ := by
  induction l generalizing S0 with
  | nil => simp
  | cons a l ih =>
    rw [List.foldlM_cons, h a (by simp)]
    simp only [Option.bind_eq_bind, Option.bind_some]
    rw [ih (fun b hb => h b (by simp [hb]))]
    simp

def errFlip (d T j : Nat) (q : Qb) : Pauli → Cl → Bool
  | .x => flip ((bodyOps d T).drop j) q
  | .y => flip ((bodyOps d T).drop j) q
  | .z => zpat

def pairsOf (ns : List Tup) : List (Tup × Tup) := ns.flatMap fun u => (ns.filter fun v => u ≠ v).map fun v => (u, v)

theorem mem_pairsOf (ns : List Tup) (u v : Tup) : (u, v) ∈ pairsOf ns ↔ u ≠ v ∧ u ∈ ns ∧ v ∈ ns := by
  simp only [pairsOf, List.mem_flatMap, List.mem_map, List.mem_filter, Prod.mk.injEq, decide_eq_true_eq]
  constructor
  · rintro ⟨a, ha, b, ⟨hb, hne⟩, rfl, rfl⟩; exact ⟨hne, ha, hb⟩
  · rintro ⟨h, a, b⟩; exact ⟨u, a, v, ⟨b, h⟩, rfl, rfl⟩

theorem codeOps_false (d T : Nat) : codeOps d T false = bodyOps d T := by rw [codeOps_eq]; rfl

theorem addError_eq (d T : Nat) (hd : 2 ≤ d) (hT : 1 ≤ T) (j : Nat) (q : Qb) (hq : q.Valid d) (S : Graph) (e : Pauli) :
    addError (mkCode d T) j q S e = some ⟨S.nodes ++ string2nodes (processed d T (errFlip d T j q e)),
      S.edges ++ pairsOf (string2nodes (processed d T (errFlip d T j q e)))⟩ := by
  have hinj : outcome (inject ((mkCode d T).circ false) j q) = countsKey (regs d T) (flip ((bodyOps d T).drop j) q) := by
    rw [mkCode_circ d T hT, codeOps_false]
    simp only [inject, outcome]
    rw [run_inject, List.take_append_drop, run_body_zero]
    simp [Sim.zero]
  have hout : outcome (withError ((mkCode d T).circ false) j q e) = countsKey (regs d T) (errFlip d T j q e) := by
    cases e with
    | x => exact hinj
    | y => exact hinj
    | z =>
      rw [withError, mkCode_circ d T hT, codeOps_false]
      simp only [outcome, run_body_zero]
      rfl
  have hlen : (string2nodes (processed d T (errFlip d T j q e))).length = 0 ∨
      (string2nodes (processed d T (errFlip d T j q e))).length = 2 := by
    have h1 := C10_string2nodes d T hd hT (errFlip d T j q e) (processed d T (errFlip d T j q e))
      (by rw [mkCode_circ d T hT]; exact process_key d T hd hT _)
    rw [h1]
    have hx : ∀ e, e ≠ Pauli.z → defects false (processed d T (errFlip d T j q e)) = 0 ∨
        defects false (processed d T (errFlip d T j q e)) = 2 := by
      intro e he
      obtain ⟨s, hs, h2, -⟩ := C10_single_fault d T hd hT false j q hq
      rw [hinj, process_key d T hd hT] at hs
      obtain rfl := Option.some.inj hs
      cases e with
      | x => exact h2
      | y => exact h2
      | z => exact absurd rfl he
    by_cases he : e = .z
    · subst he
      left
      rw [defects_processed d T hd false _ zpat]
      · exact countP_zpat d T
      · exact ⟨fun _ _ _ _ => rfl, fun _ _ => by simp [errFlip, zpat]⟩
    · exact hx e he
  unfold addError
  rw [(mkCode_dT d T hT).1, (mkCode_dT d T hT).2, hout, process_key d T hd hT]
  simp only [Option.bind_eq_bind, Option.bind_some]
  rw [if_pos hlen]
  rfl

/-- The syndrome graph exists, and its nodes and edges are those of the single faults. -/
theorem graph_spec (d T : Nat) (hd : 2 ≤ d) (hT : 1 ≤ T) : ∃ S, syndromeGraph (mkCode d T) = some S ∧
    (∀ x, x ∈ S.nodes ↔ ∃ o l q, (o :: l) <:+ bodyOps d T ∧ q ∈ o.qubits ∧
      ∃ n ∈ nodes d T, nodeVal d T (flip (o :: l) q) n = true ∧ nt d n = x) ∧
    (∀ u v, (u, v) ∈ S.edges ↔ u ≠ v ∧ ∃ o l q, (o :: l) <:+ bodyOps d T ∧ q ∈ o.qubits ∧
      (∃ n ∈ nodes d T, nodeVal d T (flip (o :: l) q) n = true ∧ nt d n = u) ∧
      (∃ n ∈ nodes d T, nodeVal d T (flip (o :: l) q) n = true ∧ nt d n = v)) := by
  have h1 : ∀ (p : Op × Nat), p ∈ (bodyOps d T).zipIdx → ∀ q ∈ p.1.qubits, ∀ S,
      [Pauli.x, .y, .z].foldlM (addError (mkCode d T) p.2 q) S =
        some ⟨S.nodes ++ [Pauli.x, .y, .z].flatMap fun e => string2nodes (processed d T (errFlip d T p.2 q e)),
          S.edges ++ [Pauli.x, .y, .z].flatMap fun e => pairsOf (string2nodes (processed d T (errFlip d T p.2 q e)))⟩ := by
    intro p hp q hq S
    refine foldlM_graph _ _ _ _ ?_ S
    intro e _ S
    refine addError_eq d T hd hT p.2 q ?_ S e
    exact body_valid d T p.1 (List.fst_mem_of_mem_zipIdx hp) q hq
  have h2 := fun p hp S => foldlM_graph _ _ _ p.1.qubits (h1 p hp) S
  have h3 := foldlM_graph _ _ _ (bodyOps d T).zipIdx h2 ⟨[], []⟩
  unfold syndromeGraph
  rw [mkCode_circ d T hT, codeOps_false]
  refine ⟨_, h3, ?_, ?_⟩
  · intro x
    simp only [List.nil_append, List.mem_flatMap, Prod.exists, List.mk_mem_zipIdx_iff_getElem?, mem_string2nodes d T hd]
    constructor
    · rintro ⟨o, i, ho, q, hq, e, -, n, hn, hv, hx⟩
      obtain ⟨hi, ho⟩ := List.getElem?_eq_some_iff.1 ho
      have hdrop := List.drop_eq_getElem_cons hi
      refine ⟨o, (bodyOps d T).drop (i + 1), q, ?_, hq, n, hn, ?_, hx⟩
      · rw [← ho, ← hdrop]; exact List.drop_suffix _ _
      · rw [← ho, ← hdrop]
        cases e with
        | x => exact hv
        | y => exact hv
        | z => simp [errFlip, nodeVal_zpat] at hv
    · rintro ⟨o, l, q, hs, hq, n, hn, hv, hx⟩
      have he := List.suffix_iff_eq_drop.1 hs
      refine ⟨o, (bodyOps d T).length - (o :: l).length, ?_, q, hq, .x, by simp, n, hn, ?_, hx⟩
      · rw [← List.head?_drop, ← he]; rfl
      · rw [errFlip, ← he]; exact hv
  · intro u v
    simp only [List.nil_append, List.mem_flatMap, Prod.exists, List.mk_mem_zipIdx_iff_getElem?, mem_pairsOf, mem_string2nodes d T hd]
    constructor
    · rintro ⟨o, i, ho, q, hq, e, -, hne, ⟨n, hn, hv, hx⟩, ⟨n', hn', hv', hx'⟩⟩
      obtain ⟨hi, ho⟩ := List.getElem?_eq_some_iff.1 ho
      have hdrop := List.drop_eq_getElem_cons hi
      have he : ∀ n, nodeVal d T (errFlip d T i q e) n = true → nodeVal d T (flip (List.drop i (bodyOps d T)) q) n = true := by
        intro n hv
        cases e with
        | x => exact hv
        | y => exact hv
        | z => simp [errFlip, nodeVal_zpat] at hv
      refine ⟨hne, o, (bodyOps d T).drop (i + 1), q, ?_, hq, ⟨n, hn, ?_, hx⟩, ⟨n', hn', ?_, hx'⟩⟩
      · rw [← ho, ← hdrop]; exact List.drop_suffix _ _
      · rw [← ho, ← hdrop]; exact he n hv
      · rw [← ho, ← hdrop]; exact he n' hv'
    · rintro ⟨hne, o, l, q, hs, hq, ⟨n, hn, hv, hx⟩, ⟨n', hn', hv', hx'⟩⟩
      have he := List.suffix_iff_eq_drop.1 hs
      refine ⟨o, (bodyOps d T).length - (o :: l).length, ?_, q, hq, .x, by simp, hne, ⟨n, hn, ?_, hx⟩, ⟨n', hn', ?_, hx'⟩⟩
      · rw [← List.head?_drop, ← he]; rfl
      · rw [errFlip, ← he]; exact hv
      · rw [errFlip, ← he]; exact hv'

end Verif.RepCode
