import Verif.Ent.Model
import Mathlib.Logic.Relation
import Mathlib.Data.List.Dedup
set_option linter.unusedSimpArgs false
set_option linter.unusedVariables false
/-
The node dictionary of a coupling map.
-/
namespace Verif.Ent
open Verif

/-- Two qubits are coupled (specification). -/
def Coupled (cmap : List (ℕ × ℕ)) (a b : ℕ) : Prop := (a, b) ∈ cmap ∨ (b, a) ∈ cmap

instance (cmap : List (ℕ × ℕ)) (a b : ℕ) : Decidable (Coupled cmap a b) := inferInstanceAs (Decidable (_ ∨ _))

/-- The qubits of a coupling map (specification). -/
def qubits (cmap : List (ℕ × ℕ)) : List ℕ := (cmap.flatMap fun a => [a.1, a.2]).dedup

theorem mem_qubits {cmap : List (ℕ × ℕ)} {a : ℕ} : a ∈ qubits cmap ↔ ∃ b, Coupled cmap a b := by
  unfold qubits Coupled
  rw [List.mem_dedup, List.mem_flatMap]
  constructor
  · rintro ⟨⟨x, y⟩, h, ha⟩
    simp only [List.mem_cons, List.not_mem_nil, or_false] at ha
    rcases ha with rfl | rfl
    · exact ⟨y, Or.inl h⟩
    · exact ⟨x, Or.inr h⟩
  · rintro ⟨b, h | h⟩
    · exact ⟨_, h, by simp⟩
    · exact ⟨_, h, by simp⟩

theorem cal_perm (cmap : List (ℕ × ℕ)) :
    (cmapCalib cmap).Perm (cmap ++ (cmap.filter fun a => decide ((a.2, a.1) ∉ cmap)).map fun a => (a.2, a.1)) :=
  List.perm_insertionSort _ _

theorem mem_cal {cmap : List (ℕ × ℕ)} {a b : ℕ} : (a, b) ∈ cmapCalib cmap ↔ Coupled cmap a b := by
  rw [(cal_perm cmap).mem_iff, List.mem_append, List.mem_map]
  unfold Coupled
  constructor
  · rintro (h | ⟨x, hx, e⟩)
    · exact Or.inl h
    · right
      rw [List.mem_filter] at hx
      simp only [Prod.mk.injEq] at e
      rw [← e.1, ← e.2]; exact hx.1
  · rintro (h | h)
    · exact Or.inl h
    · by_cases h' : (a, b) ∈ cmap
      · exact Or.inl h'
      · right
        exact ⟨(b, a), List.mem_filter.2 ⟨h, by simpa using h'⟩, rfl⟩

theorem nodup_cal {cmap : List (ℕ × ℕ)} (h : cmap.Nodup) : (cmapCalib cmap).Nodup := by
  rw [(cal_perm cmap).nodup_iff, List.nodup_append']
  refine ⟨h, ?_, ?_⟩
  · apply List.Nodup.map
    · rintro ⟨a, b⟩ ⟨c, d⟩ h
      simp only [Prod.mk.injEq] at h
      rw [h.1, h.2]
    · exact h.filter _
  · intro x hx hx'
    obtain ⟨y, hy, rfl⟩ := List.mem_map.1 hx'
    rw [List.mem_filter] at hy
    have := hy.2
    simp only [decide_not, Bool.not_eq_true', decide_eq_false_iff_not] at this
    exact this hx

theorem fold_empty (l : List (ℕ × ℕ)) (d : Dict ℕ (List ℕ)) (hd : ∀ k v, d.get? k = some v → v = []) (hw : Dict.WF d) :
    Dict.WF (l.foldl (fun d a => Dict.set d a.1 []) d) ∧
    (∀ k v, Dict.get? (l.foldl (fun d a => Dict.set d a.1 []) d) k = some v → v = []) ∧
    ∀ k, k ∈ Dict.keys (l.foldl (fun d a => Dict.set d a.1 []) d) ↔ k ∈ d.keys ∨ ∃ a ∈ l, a.1 = k := by
  induction l generalizing d with
  | nil => exact ⟨hw, hd, by simp⟩
  | cons a l ih =>
    obtain ⟨h1, h2, h3⟩ := ih (d.set a.1 []) (by
      intro k v h
      rw [Dict.get?_set] at h
      split at h
      · exact (Option.some.inj h).symm
      · exact hd k v h) (Dict.wf_set _ hw _ _)
    refine ⟨h1, h2, ?_⟩
    intro k
    have := Dict.mem_keys_set d a.1 k []
    simp only [Dict.keys] at *
    rw [List.foldl_cons, h3 k, this]
    simp only [List.mem_cons, exists_eq_or_imp]
    tauto

theorem fold_append (l : List (ℕ × ℕ)) (d : Dict ℕ (List ℕ)) (hw : Dict.WF d) (hk : ∀ a ∈ l, a.1 ∈ d.keys) :
    Dict.WF (l.foldl (fun d a => Dict.set d a.1 (Dict.getD d a.1 [] ++ [a.2])) d) ∧
    (∀ k, k ∈ Dict.keys (l.foldl (fun d a => Dict.set d a.1 (Dict.getD d a.1 [] ++ [a.2])) d) ↔ k ∈ d.keys) ∧
    ∀ k, Dict.getD (l.foldl (fun d a => Dict.set d a.1 (Dict.getD d a.1 [] ++ [a.2])) d) k [] =
      Dict.getD d k [] ++ (l.filter fun a => a.1 = k).map (·.2) := by
  induction l generalizing d with
  | nil => exact ⟨hw, by simp, by simp⟩
  | cons a l ih =>
    have hkeys : ∀ k, k ∈ Dict.keys (d.set a.1 (Dict.getD d a.1 [] ++ [a.2])) ↔ k ∈ d.keys := by
      intro k
      have := Dict.mem_keys_set d a.1 k (Dict.getD d a.1 [] ++ [a.2])
      have ha := hk a (by simp)
      simp only [Dict.keys] at *
      rw [this]
      constructor
      · rintro (h | h)
        · exact h ▸ ha
        · exact h
      · exact Or.inr
    obtain ⟨h1, h2, h3⟩ := ih (d.set a.1 (Dict.getD d a.1 [] ++ [a.2])) (Dict.wf_set _ hw _ _)
      (fun b hb => (hkeys _).2 (hk b (by simp [hb])))
    refine ⟨h1, fun k => (h2 k).trans (hkeys k), ?_⟩
    intro k
    rw [List.foldl_cons, h3 k, Dict.getD_set]
    by_cases e : a.1 = k
    · subst e; simp
    · rw [if_neg e, List.filter_cons_of_neg (by simpa using e)]

/-- What the node dictionary of a coupling map looks like. -/
structure Graph (nodes : Dict ℕ (List ℕ)) : Prop where
  wf : Dict.WF nodes
  closed : ∀ a l, nodes.get? a = some l → ∀ b ∈ l, b ∈ nodes.keys
  nd : ∀ a l, nodes.get? a = some l → l.Nodup

theorem initNodes_spec (cmap : List (ℕ × ℕ)) (hn : cmap.Nodup) :
    Graph (initNodes cmap) ∧ (∀ a, a ∈ (initNodes cmap).keys ↔ a ∈ qubits cmap) ∧
    ∀ a l, (initNodes cmap).get? a = some l → ∀ b, b ∈ l ↔ Coupled cmap a b := by
  obtain ⟨a1, a2, a3⟩ := fold_empty (cmapCalib cmap) [] (by simp) Dict.wf_nil
  obtain ⟨b1, b2, b3⟩ := fold_append (cmapCalib cmap) _ a1 (fun a ha => (a3 _).2 (Or.inr ⟨a, ha, rfl⟩))
  have hkeys : ∀ a, a ∈ (initNodes cmap).keys ↔ a ∈ qubits cmap := by
    intro a
    unfold initNodes
    rw [b2, a3, mem_qubits]
    simp only [Dict.keys, List.map_nil, List.not_mem_nil, false_or]
    constructor
    · rintro ⟨⟨x, y⟩, h, rfl⟩; exact ⟨y, mem_cal.1 h⟩
    · rintro ⟨b, h⟩; exact ⟨(a, b), mem_cal.2 h, rfl⟩
  have hget : ∀ a l, (initNodes cmap).get? a = some l → l = ((cmapCalib cmap).filter fun x => x.1 = a).map (·.2) := by
    intro a l h
    have := b3 a
    have e : Dict.getD (initNodes cmap) a [] = l := by simp [Dict.getD, h]
    unfold initNodes at e
    rw [e] at this
    rw [this]
    cases h0 : Dict.get? ((cmapCalib cmap).foldl (fun d a => Dict.set d a.1 []) ([] : Dict ℕ (List ℕ))) a with
    | none => simp [Dict.getD, h0]
    | some v => rw [a2 a v h0] at h0; simp [Dict.getD, h0]
  have hadj : ∀ a l, (initNodes cmap).get? a = some l → ∀ b, b ∈ l ↔ Coupled cmap a b := by
    intro a l h b
    rw [hget a l h, List.mem_map, ← mem_cal]
    constructor
    · rintro ⟨⟨x, y⟩, hx, rfl⟩
      rw [List.mem_filter] at hx
      have : x = a := by simpa using hx.2
      rw [← this]; exact hx.1
    · intro hb
      exact ⟨(a, b), List.mem_filter.2 ⟨hb, by simp⟩, rfl⟩
  refine ⟨⟨b1, ?_, ?_⟩, hkeys, hadj⟩
  · intro a l h b hb
    rw [hkeys, mem_qubits]
    have := (hadj a l h b).1 hb
    exact ⟨a, this.symm⟩
  · intro a l h
    rw [hget a l h]
    apply List.Nodup.map_on
    · rintro ⟨x, y⟩ hx ⟨x', y'⟩ hx' e
      rw [List.mem_filter] at hx hx'
      have h1 : x = a := by simpa using hx.2
      have h2 : x' = a := by simpa using hx'.2
      simp only at e
      rw [h1, h2, e]
    · exact (nodup_cal hn).filter _

/-- The best node is a qubit with the most neighbours. -/
theorem bestNode_spec (nodes : Dict ℕ (List ℕ)) (hw : Dict.WF nodes) (h0 : 0 ∈ nodes.keys) :
    ∃ r l, bestNode nodes = some r ∧ nodes.get? r = some l ∧ ∀ kv ∈ nodes, kv.2.length ≤ l.length := by
  have key : ∀ (rest : List (ℕ × List ℕ)) (b : ℕ) (lb : List ℕ), nodes.get? b = some lb → (∀ kv ∈ rest, kv ∈ nodes) →
      ∃ r l, rest.foldlM (fun best kv => do
        let lb ← nodes.get? best
        if kv.2.length > lb.length then some kv.1 else some best) b = some r ∧ nodes.get? r = some l ∧
        lb.length ≤ l.length ∧ ∀ kv ∈ rest, kv.2.length ≤ l.length := by
    intro rest
    induction rest with
    | nil => intro b lb hb _; exact ⟨b, lb, rfl, hb, le_refl _, by simp⟩
    | cons kv rest ih =>
      intro b lb hb hm
      rw [List.foldlM_cons]
      simp only [hb, Option.bind_eq_bind, Option.bind_some]
      by_cases h : kv.2.length > lb.length
      · rw [if_pos h]
        obtain ⟨r, l, h1, h2, h3, h4⟩ := ih kv.1 kv.2 (Dict.get?_of_mem _ hw _ _ (hm kv (by simp))) fun x hx => hm x (by simp [hx])
        refine ⟨r, l, h1, h2, by omega, ?_⟩
        intro x hx
        rcases List.mem_cons.1 hx with rfl | hx
        · exact h3
        · exact h4 x hx
      · rw [if_neg h]
        obtain ⟨r, l, h1, h2, h3, h4⟩ := ih b lb hb fun x hx => hm x (by simp [hx])
        refine ⟨r, l, h1, h2, h3, ?_⟩
        intro x hx
        rcases List.mem_cons.1 hx with rfl | hx
        · omega
        · exact h4 x hx
  obtain ⟨l0, hl0⟩ := Option.isSome_iff_exists.1 ((Dict.mem_keys_iff nodes 0).1 h0)
  obtain ⟨r, l, h1, h2, -, h4⟩ := key nodes 0 l0 hl0 fun _ h => h
  exact ⟨r, l, h1, h2, h4⟩

end Verif.Ent
