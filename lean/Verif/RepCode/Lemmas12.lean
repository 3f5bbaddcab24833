import Verif.RepCode.Lemmas11
set_option linter.unusedVariables false
/-
The matching and the correction.
-/
namespace Verif.RepCode
open Verif

section
variable (S : Graph)

/-- The pairs of the matching graph made from pairs of nodes. -/
noncomputable def lift (p : Tup × Tup) : List (List Nat × List Nat) :=
  if p.1.1 ≠ 0 then
    if p.2.1 ≠ 0 then [(tup p.1, tup p.2), (copyOf S p.1, copyOf S p.2)] else [(tup p.1, copyOf S p.1)]
  else if p.2.1 ≠ 0 then [(tup p.2, copyOf S p.2)] else []

def synEnds (P : List (Tup × Tup)) : List Tup := (ends P).filter fun x => x.1 ≠ 0

theorem ends_lift (P : List (Tup × Tup)) :
    (ends (P.flatMap (lift S))).Perm ((synEnds P).map tup ++ (synEnds P).map (copyOf S)) := by
  induction P with
  | nil => simp [synEnds]
  | cons p P ih =>
    rw [List.flatMap_cons, ends_append]
    rw [List.perm_iff_count] at ih ⊢
    intro a
    have ih := ih a
    simp only [List.count_append] at ih ⊢
    rw [ih]
    unfold lift synEnds
    rw [ends_cons]
    by_cases h1 : p.1.1 = 0 <;> by_cases h2 : p.2.1 = 0 <;> simp [h1, h2, List.count_cons] <;> omega

theorem near_le (u l : Tup) (hl : l = (0, 0, 0) ∨ l = (0, 1, 0)) : S.simple.dist u (nearOf S u) ≤ S.simple.dist u l := by
  unfold nearOf
  rcases hl with rfl | rfl <;> split <;> omega

theorem weight_lift (P : List (Tup × Tup)) (hP : ∀ x ∈ ends P, x.1 = 0 → x = (0, 0, 0) ∨ x = (0, 1, 0)) :
    -(cost S.simple.dist P : Int) ≤ ((P.flatMap (lift S)).map fun p => wt S p.1 p.2).sum := by
  induction P with
  | nil => simp
  | cons p P ih =>
    have ih := ih fun x hx => hP x (by simp [hx])
    rw [List.flatMap_cons, List.map_append, List.sum_append, cost_cons]
    have : -(S.simple.dist p.1 p.2 : Int) ≤ ((lift S p).map fun p => wt S p.1 p.2).sum := by
      unfold lift
      have hc : ∀ u, wt S (tup u) (copyOf S u) = -(S.simple.dist u (nearOf S u) : Int) := fun u => rfl
      have hs : ∀ u v, wt S (tup u) (tup v) = -(S.simple.dist u v : Int) := fun u v => rfl
      have hcc : ∀ u v, wt S (copyOf S u) (copyOf S v) = 0 := fun u v => rfl
      split
      · split
        · simp [hs, hcc]
        · next h =>
          have := near_le S p.1 p.2 (hP p.2 (by simp) (by simpa using h))
          simp [hc]
          omega
      · next h1 =>
        split
        · have := near_le S p.2 p.1 (hP p.1 (by simp) (by simpa using h1))
          rw [SimpleGraph.dist_comm] at this
          simp [hc]
          rw [SimpleGraph.dist_comm] at this
          rw [SimpleGraph.dist_comm (u := p.1)]
          omega
        · simp
    push_cast
    omega

/-! ### the corrections of a matching -/

/-- The pairs that are not between two copies. -/
def real (M : List (List Nat × List Nat)) : List (Tup × Tup) :=
  (M.filter fun p => ¬ (p.1.length = 6 ∧ p.2.length = 6)).map fun p => (proj p.1, proj p.2)

theorem real_cons (p : List Nat × List Nat) (M : List (List Nat × List Nat)) :
    real (p :: M) = if p.1.length = 6 ∧ p.2.length = 6 then real M else (proj p.1, proj p.2) :: real M := by
  unfold real
  rw [List.filter_cons]
  by_cases h : p.1.length = 6 ∧ p.2.length = 6
  · rw [if_pos h, if_neg (by simpa using h)]
  · rw [if_neg h, if_pos (decide_eq_true h)]
    rfl

theorem cost_real (M : List (List Nat × List Nat)) :
    (cost S.simple.dist (real M) : Int) = -((M.map fun p => wt S p.1 p.2).sum) := by
  induction M with
  | nil => simp [real]
  | cons p M ih =>
    rw [real_cons, List.map_cons, List.sum_cons]
    by_cases h : p.1.length = 6 ∧ p.2.length = 6
    · rw [if_pos h, ih]
      simp only [wt, h]
      simp
    · rw [if_neg h, cost_cons]
      push_cast
      rw [ih]
      simp only [wt, h]
      simp
      ring

variable (D : List Tup) (hD : ∀ u ∈ D, u.1 = 1)

theorem pres_mem {a b : List Nat} (h : Pres S D a b) :
    a ∈ D.map tup ++ D.map (copyOf S) ∧ b ∈ D.map tup ++ D.map (copyOf S) := by
  have h1 : ∀ u ∈ D, tup u ∈ D.map tup ++ D.map (copyOf S) := fun u hu => by
    rw [List.mem_append]; exact Or.inl (List.mem_map.2 ⟨u, hu, rfl⟩)
  have h2 : ∀ u ∈ D, copyOf S u ∈ D.map tup ++ D.map (copyOf S) := fun u hu => by
    rw [List.mem_append]; exact Or.inr (List.mem_map.2 ⟨u, hu, rfl⟩)
  rcases h with ⟨u, hu, v, hv, hne, rfl, rfl⟩ | ⟨u, hu, ⟨rfl, rfl⟩ | ⟨rfl, rfl⟩⟩ | ⟨u, hu, v, hv, hne, rfl, rfl⟩
  · exact ⟨h1 u hu, h1 v hv⟩
  · exact ⟨h1 u hu, h2 u hu⟩
  · exact ⟨h2 u hu, h1 u hu⟩
  · exact ⟨h2 u hu, h2 v hv⟩

theorem near_or (u : Tup) : nearOf S u = (0, 0, 0) ∨ nearOf S u = (0, 1, 0) := by
  unfold nearOf
  split <;> simp

theorem count_real (M : List (List Nat × List Nat)) (hM : ∀ p ∈ M, Pres S D p.1 p.2) (x : Tup) (hx : x.1 ≠ 0) :
    (ends (real M)).count x = (ends M).count (tup x) := by
  induction M with
  | nil => simp [real]
  | cons p M ih =>
    have ih := ih fun q hq => hM q (by simp [hq])
    have key : ∀ a ∈ D.map tup ++ D.map (copyOf S), (proj a = x ↔ a = tup x) := by
      intro a ha
      rcases List.mem_append.1 ha with ha | ha
      · obtain ⟨u, hu, rfl⟩ := List.mem_map.1 ha
        rw [proj_tup]
        exact ⟨fun h => by rw [h], tup_inj⟩
      · obtain ⟨u, hu, rfl⟩ := List.mem_map.1 ha
        rw [proj_copy]
        constructor
        · intro h
          rcases near_or S u with h' | h' <;> (rw [h'] at h; rw [← h] at hx; simp at hx)
        · intro h
          exact absurd h.symm (tup_ne_copy S x u)
    obtain ⟨ka, kb⟩ := pres_mem S D (hM p (by simp))
    have ka := key _ ka
    have kb := key _ kb
    rw [real_cons]
    split
    · next h =>
      rw [ih, ends_cons, List.count_cons_of_ne, List.count_cons_of_ne]
      · intro h'
        rw [h'] at h
        simp [tup] at h
      · intro h'
        rw [h'] at h
        simp [tup] at h
    · rw [ends_cons, ends_cons, List.count_cons, List.count_cons, List.count_cons, List.count_cons, ih]
      simp only [beq_iff_eq, ka, kb]

theorem flipAt_zero (x y : Bool) : flipAt [[bitChar x], [bitChar y]] 0 = some [[bitChar (!x)], [bitChar y]] := by
  cases x <;> cases y <;> rfl
theorem flipAt_one (x y : Bool) : flipAt [[bitChar x], [bitChar y]] 1 = some [[bitChar x], [bitChar (!y)]] := by
  cases x <;> cases y <;> rfl

/-- Whether a number is odd. -/
def par (n : Nat) : Bool := decide (Odd n)

theorem xor_odd_succ (x : Bool) (n : Nat) : (!x).xor (par n) = x.xor (par (n + 1)) := by
  unfold par
  rcases Nat.even_or_odd n with h | h
  · have h2 : Odd (n + 1) := h.add_one
    have h1 : ¬ Odd n := Nat.not_odd_iff_even.2 h
    simp [h1, h2]
  · have h2 : ¬ Odd (n + 1) := Nat.not_odd_iff_even.2 h.add_one
    simp [h, h2]

include hD in
theorem fold_correct (M : List (List Nat × List Nat)) (hM : ∀ p ∈ M, Pres S D p.1 p.2) (x y : Bool) :
    M.foldlM correct [[bitChar x], [bitChar y]] =
      some [[bitChar (x.xor (par ((ends (real M)).count (0, 0, 0))))], [bitChar (y.xor (par ((ends (real M)).count (0, 1, 0))))]] := by
  induction M generalizing x y with
  | nil => simp [real, par]
  | cons p M ih =>
    have ih := ih fun q hq => hM q (by simp [hq])
    rw [List.foldlM_cons]
    have hp := hM p (by simp)
    obtain ⟨a, b⟩ := p
    rw [real_cons]
    have hne : ∀ u ∈ D, u ≠ (0, 0, 0) ∧ u ≠ (0, 1, 0) := fun u hu =>
      ⟨fun h => by have := hD u hu; rw [h] at this; simp at this, fun h => by have := hD u hu; rw [h] at this; simp at this⟩
    have hh : ∀ u ∈ D, (tup u).headD 0 = 1 := fun u hu => hD u hu
    have hc : ∀ u, (copyOf S u).headD 0 = 0 := fun u => by
      change (nearOf S u).1 = 0
      rcases near_or S u with h | h <;> rw [h]
    have hc1 : ∀ u, (copyOf S u).getD 1 0 = (nearOf S u).2.1 := fun u => rfl
    rcases hp with ⟨u, hu, v, hv, -, rfl, rfl⟩ | ⟨u, hu, ⟨rfl, rfl⟩ | ⟨rfl, rfl⟩⟩ | ⟨u, hu, v, hv, -, rfl, rfl⟩
    · have : correct [[bitChar x], [bitChar y]] (tup u, tup v) = some [[bitChar x], [bitChar y]] := by
        unfold correct
        simp [hh u hu, hh v hv, -List.headD_eq_head?_getD]
      rw [this]
      simp only [Option.bind_eq_bind, Option.bind_some]
      rw [ih, if_neg (by simp [tup]), ends_cons]
      simp only [proj_tup]
      rw [List.count_cons_of_ne (hne u hu).1, List.count_cons_of_ne (hne v hv).1, List.count_cons_of_ne (hne u hu).2,
        List.count_cons_of_ne (hne v hv).2]
    · rcases near_or S u with h | h
      · have : correct [[bitChar x], [bitChar y]] (tup u, copyOf S u) = some [[bitChar (!x)], [bitChar y]] := by
          unfold correct
          simp only [hh u hu, hc u, hc1, h]
          simp [flipAt_zero]
        rw [this]
        simp only [Option.bind_eq_bind, Option.bind_some]
        rw [ih, if_neg (by simp [tup]), ends_cons]
        simp only [proj_tup, proj_copy, h]
        rw [List.count_cons_of_ne (hne u hu).1, List.count_cons_self, List.count_cons_of_ne (hne u hu).2,
          List.count_cons_of_ne (by decide), xor_odd_succ]
      · have : correct [[bitChar x], [bitChar y]] (tup u, copyOf S u) = some [[bitChar x], [bitChar (!y)]] := by
          unfold correct
          simp only [hh u hu, hc u, hc1, h]
          simp [flipAt_one]
        rw [this]
        simp only [Option.bind_eq_bind, Option.bind_some]
        rw [ih, if_neg (by simp [tup]), ends_cons]
        simp only [proj_tup, proj_copy, h]
        rw [List.count_cons_of_ne (hne u hu).1, List.count_cons_of_ne (by decide), List.count_cons_of_ne (hne u hu).2,
          List.count_cons_self, xor_odd_succ]
    · rcases near_or S u with h | h
      · have : correct [[bitChar x], [bitChar y]] (copyOf S u, tup u) = some [[bitChar (!x)], [bitChar y]] := by
          unfold correct
          simp only [hh u hu, hc u, hc1, h]
          simp [flipAt_zero]
        rw [this]
        simp only [Option.bind_eq_bind, Option.bind_some]
        rw [ih, if_neg (by simp [tup]), ends_cons]
        simp only [proj_tup, proj_copy, h]
        rw [List.count_cons_self, List.count_cons_of_ne (hne u hu).1, List.count_cons_of_ne (by decide),
          List.count_cons_of_ne (hne u hu).2, xor_odd_succ]
      · have : correct [[bitChar x], [bitChar y]] (copyOf S u, tup u) = some [[bitChar x], [bitChar (!y)]] := by
          unfold correct
          simp only [hh u hu, hc u, hc1, h]
          simp [flipAt_one]
        rw [this]
        simp only [Option.bind_eq_bind, Option.bind_some]
        rw [ih, if_neg (by simp [tup]), ends_cons]
        simp only [proj_tup, proj_copy, h]
        rw [List.count_cons_of_ne (by decide), List.count_cons_of_ne (hne u hu).1, List.count_cons_self,
          List.count_cons_of_ne (hne u hu).2, xor_odd_succ]
    · have : correct [[bitChar x], [bitChar y]] (copyOf S u, copyOf S v) = some [[bitChar x], [bitChar y]] := by
        unfold correct
        simp [hc u, hc v, -List.headD_eq_head?_getD]
      rw [this]
      simp only [Option.bind_eq_bind, Option.bind_some]
      rw [ih, if_pos ⟨rfl, rfl⟩]

end

end Verif.RepCode
