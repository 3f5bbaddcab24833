import Verif.Py.Basic
/- Helper lemmas about the dictionary model. -/
namespace Verif.Dict
variable {κ υ : Type} [DecidableEq κ]

@[simp] theorem get?_nil (k : κ) : get? ([] : Dict κ υ) k = none := rfl

theorem get?_cons (k' : κ) (v : υ) (d : Dict κ υ) (k : κ) :
    get? ((k', v) :: d) k = if k' = k then some v else get? d k := rfl

theorem get?_set (d : Dict κ υ) (k k' : κ) (v : υ) :
    get? (set d k v) k' = if k = k' then some v else get? d k' := by
  induction d with
  | nil => simp [set, get?_cons]
  | cons p d ih =>
    obtain ⟨a, b⟩ := p
    simp only [set]
    split
    · subst_vars
      simp only [get?_cons]
      split <;> rfl
    · simp only [get?_cons, ih]
      split
      · split
        · subst_vars; contradiction
        · rfl
      · rfl

@[simp] theorem get?_set_self (d : Dict κ υ) (k : κ) (v : υ) : get? (set d k v) k = some v := by
  simp [get?_set]

theorem getD_set (d : Dict κ υ) (k k' : κ) (v w : υ) :
    getD (set d k v) k' w = if k = k' then v else getD d k' w := by
  simp only [getD, get?_set]; split <;> rfl

theorem mem_keys_iff (d : Dict κ υ) (k : κ) : k ∈ d.map (·.1) ↔ (get? d k).isSome = true := by
  induction d with
  | nil => simp
  | cons p d ih =>
    obtain ⟨a, b⟩ := p
    simp only [List.map_cons, List.mem_cons, get?_cons, ih]
    by_cases h : a = k
    · simp [h]
    · simp [h, Ne.symm h]

theorem get?_eq_none_iff (d : Dict κ υ) (k : κ) : get? d k = none ↔ k ∉ d.map (·.1) := by
  rw [mem_keys_iff]; cases get? d k <;> simp

theorem get?_mem (d : Dict κ υ) (k : κ) (v : υ) (h : get? d k = some v) : (k, v) ∈ d := by
  induction d with
  | nil => simp at h
  | cons p d ih =>
    obtain ⟨a, b⟩ := p
    rw [get?_cons] at h
    split at h
    · simp_all
    · exact List.mem_cons_of_mem _ (ih h)

theorem get?_of_mem (d : Dict κ υ) (hd : WF d) (k : κ) (v : υ) (h : (k, v) ∈ d) :
    get? d k = some v := by
  induction d with
  | nil => simp at h
  | cons p d ih =>
    obtain ⟨a, b⟩ := p
    simp only [WF, List.map_cons, List.nodup_cons] at hd
    rw [get?_cons]
    rcases List.mem_cons.1 h with h | h
    · simp_all
    · have : a ≠ k := by
        rintro rfl
        exact hd.1 (List.mem_map.2 ⟨_, h, rfl⟩)
      simp [this, ih hd.2 h]

theorem keys_set (d : Dict κ υ) (k : κ) (v : υ) :
    (set d k v).map (·.1) = if k ∈ d.map (·.1) then d.map (·.1) else d.map (·.1) ++ [k] := by
  induction d with
  | nil => simp [set]
  | cons p d ih =>
    obtain ⟨a, b⟩ := p
    simp only [set]
    by_cases h : a = k
    · simp [h]
    · simp only [h, if_false, List.map_cons, ih, List.mem_cons, Ne.symm h, false_or]
      split <;> simp

theorem wf_set (d : Dict κ υ) (hd : WF d) (k : κ) (v : υ) : WF (set d k v) := by
  unfold WF at *
  rw [keys_set]
  split
  · exact hd
  · rename_i h
    rw [List.nodup_append]
    refine ⟨hd, by simp, ?_⟩
    intro a ha b hb
    simp only [List.mem_singleton] at hb
    subst hb
    rintro rfl
    exact h ha

theorem wf_nil : WF ([] : Dict κ υ) := by simp [WF]

theorem mem_keys_set (d : Dict κ υ) (k k' : κ) (v : υ) :
    k' ∈ (set d k v).map (·.1) ↔ k' = k ∨ k' ∈ d.map (·.1) := by
  rw [keys_set]; split
  · constructor
    · exact Or.inr
    · rintro (rfl | h) <;> assumption
  · simp [or_comm]

/-- A fold of `set` with fresh, distinct keys lists the items in order. -/
theorem foldl_set_fresh {α : Type} (l : List α) (fk : α → κ) (fv : α → υ) (d : Dict κ υ)
    (hd : (d.map (·.1) ++ l.map fk).Nodup) :
    l.foldl (fun acc a => set acc (fk a) (fv a)) d = d ++ l.map (fun a => (fk a, fv a)) := by
  induction l generalizing d with
  | nil => simp
  | cons a l ih =>
    have hfresh : fk a ∉ d.map (·.1) := by
      intro h
      rw [List.nodup_append] at hd
      exact hd.2.2 _ h (fk a) (by simp) rfl
    have hset : set d (fk a) (fv a) = d ++ [(fk a, fv a)] := by
      clear ih hd
      induction d with
      | nil => rfl
      | cons p d ihd =>
        obtain ⟨x, y⟩ := p
        simp only [List.map_cons, List.mem_cons, not_or] at hfresh
        simp [set, Ne.symm hfresh.1, ihd hfresh.2]
    simp only [List.foldl_cons, hset]
    rw [ih]
    · simp
    · simpa using hd

end Verif.Dict
