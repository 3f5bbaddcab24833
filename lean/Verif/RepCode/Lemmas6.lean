import Mathlib.Algebra.BigOperators.Group.Finset.Basic
import Mathlib.Algebra.BigOperators.Ring.Finset
import Mathlib.Algebra.BigOperators.Group.List.Basic
import Mathlib.Algebra.Group.Nat.Even
import Mathlib.Data.Finset.Dedup
import Mathlib.Data.Multiset.Count
import Mathlib.Algebra.Order.BigOperators.Group.List
import Mathlib.Tactic.Linarith
import Mathlib.Tactic.Ring
import Mathlib.Data.List.Perm.Basic
/-
Pairs of vertices of a metric: shortening, cuts and parity.
-/
set_option linter.unusedSectionVars false
namespace Verif.RepCode

/-- The end points of a list of pairs. -/
def ends {V : Type} (P : List (V × V)) : List V := P.flatMap fun p => [p.1, p.2]

/-- The total length. -/
def cost {V : Type} (dist : V → V → Nat) (P : List (V × V)) : Nat := (P.map fun p => dist p.1 p.2).sum

section
variable {V : Type} [DecidableEq V]

@[simp] theorem ends_nil : ends ([] : List (V × V)) = [] := rfl
@[simp] theorem ends_cons (p : V × V) (P : List (V × V)) : ends (p :: P) = p.1 :: p.2 :: ends P := rfl
theorem ends_append (P Q : List (V × V)) : ends (P ++ Q) = ends P ++ ends Q := by simp [ends]
theorem ends_perm {P Q : List (V × V)} (h : P.Perm Q) : (ends P).Perm (ends Q) := h.flatMap_right _
theorem cost_perm (dist : V → V → Nat) {P Q : List (V × V)} (h : P.Perm Q) : cost dist P = cost dist Q :=
  (h.map _).sum_eq
@[simp] theorem cost_nil (dist : V → V → Nat) : cost dist ([] : List (V × V)) = 0 := rfl
@[simp] theorem cost_cons (dist : V → V → Nat) (p : V × V) (P : List (V × V)) :
    cost dist (p :: P) = dist p.1 p.2 + cost dist P := by simp [cost]
theorem cost_append (dist : V → V → Nat) (P Q : List (V × V)) : cost dist (P ++ Q) = cost dist P + cost dist Q := by
  simp [cost]

theorem mem_ends {P : List (V × V)} {x : V} : x ∈ ends P ↔ ∃ p ∈ P, x = p.1 ∨ x = p.2 := by
  simp [ends]

theorem odd_add_two (a b : Nat) (h : a = b + 2) : decide (Odd a) = decide (Odd b) := by
  subst h
  rw [decide_eq_decide]
  constructor
  · intro h; rw [Nat.odd_iff] at h ⊢; omega
  · intro h; rw [Nat.odd_iff] at h ⊢; omega

/-- Adding one pair to a list of disjoint pairs, joining it with the pairs it touches. -/
theorem insert_pair (dist : V → V → Nat) (ok syn : V → Prop) (hsymm : ∀ a b, dist a b = dist b a)
    (htri : ∀ a b c, ok a → ok b → ok c → dist a c ≤ dist a b + dist b c) (n : Nat) :
    ∀ (P : List (V × V)) (u v : V), P.length = n → ok u → ok v → (∀ x ∈ ends P, ok x) →
      (∀ x, syn x → (ends P).count x ≤ 1) →
      ∃ P', (∀ x ∈ ends P', ok x) ∧ (∀ x, syn x → (ends P').count x ≤ 1) ∧
        (∀ x, Odd ((ends P').count x) ↔ Odd ((u :: v :: ends P).count x)) ∧ cost dist P' ≤ dist u v + cost dist P := by
  induction n with
  | zero =>
    intro P u v hP hu hv _ _
    obtain rfl := List.length_eq_zero_iff.1 hP
    by_cases huv : u = v
    · subst huv
      refine ⟨[], by simp, by simp, ?_, by simp⟩
      intro x
      by_cases h : u = x
      · subst h; simp
      · simp [h]
    · refine ⟨[(u, v)], by simp [hu, hv], ?_, fun x => by simp, by simp⟩
      intro x _
      simp only [ends_cons, ends_nil, List.count_cons, List.count_nil]
      by_cases h1 : u = x
      · have : ¬ v = x := fun h => huv (h1.trans h.symm)
        simp [h1, this]
      · simp [h1]; split <;> omega
  | succ n ih =>
    -- one end point joined
    have join : ∀ (P : List (V × V)) (u v : V), P.length = n + 1 → ok u → ok v → (∀ x ∈ ends P, ok x) →
        (∀ x, syn x → (ends P).count x ≤ 1) → u ∈ ends P →
        ∃ P', (∀ x ∈ ends P', ok x) ∧ (∀ x, syn x → (ends P').count x ≤ 1) ∧
          (∀ x, Odd ((ends P').count x) ↔ Odd ((u :: v :: ends P).count x)) ∧ cost dist P' ≤ dist u v + cost dist P := by
      intro P u v hP hu hv hok h1 hmem
      obtain ⟨p, hp, hup⟩ := mem_ends.1 hmem
      have hperm := List.perm_cons_erase hp
      obtain ⟨w, hw⟩ : ∃ w, (p.1 = u ∧ p.2 = w) ∨ (p.1 = w ∧ p.2 = u) := by
        rcases hup with h | h
        · exact ⟨p.2, Or.inl ⟨h.symm, rfl⟩⟩
        · exact ⟨p.1, Or.inr ⟨rfl, h.symm⟩⟩
      have hcount : ∀ x, (ends P).count x = (u :: w :: ends (P.erase p)).count x := by
        intro x
        rw [(ends_perm hperm).count_eq]
        rcases hw with ⟨h2, h3⟩ | ⟨h2, h3⟩
        · rw [ends_cons, h2, h3]
        · rw [ends_cons, h2, h3]
          exact (List.Perm.swap _ _ _).count_eq x
      have hcost : cost dist P = dist u w + cost dist (P.erase p) := by
        rw [cost_perm dist hperm]
        rcases hw with ⟨h2, h3⟩ | ⟨h2, h3⟩
        · rw [cost_cons, h2, h3]
        · rw [cost_cons, h2, h3, hsymm]
      have hw_ok : ok w := hok w (mem_ends.2 ⟨p, hp, by rcases hw with ⟨_, h⟩ | ⟨h, _⟩ <;> simp [h]⟩)
      obtain ⟨P', a1, a2, a3, a4⟩ := ih (P.erase p) w v (by rw [List.length_erase_of_mem hp]; omega) hw_ok hv
        (fun x hx => hok x (by
          obtain ⟨q, hq, hx⟩ := mem_ends.1 hx
          exact mem_ends.2 ⟨q, List.mem_of_mem_erase hq, hx⟩))
        (fun x hx => by
          have := h1 x hx
          rw [hcount] at this
          simp only [List.count_cons] at this
          omega)
      refine ⟨P', a1, a2, ?_, ?_⟩
      · intro x
        rw [a3 x]
        have := hcount x
        simp only [List.count_cons] at this ⊢
        rw [this, Nat.odd_iff, Nat.odd_iff]
        omega
      · have := htri w u v hw_ok hu hv
        rw [hsymm w u] at this
        omega
    intro P u v hP hu hv hok h1
    by_cases hus : syn u ∧ u ∈ ends P
    · exact join P u v hP hu hv hok h1 hus.2
    · by_cases hvs : syn v ∧ v ∈ ends P
      · obtain ⟨P', a1, a2, a3, a4⟩ := join P v u hP hv hu hok h1 hvs.2
        refine ⟨P', a1, a2, ?_, by rw [hsymm u v]; exact a4⟩
        intro x
        rw [a3 x, (List.Perm.swap _ _ _).count_eq x]
      · by_cases huv : u = v
        · subst huv
          refine ⟨P, hok, h1, ?_, by omega⟩
          intro x
          simp only [List.count_cons]
          rw [Nat.odd_iff, Nat.odd_iff]
          split <;> omega
        · refine ⟨(u, v) :: P, ?_, ?_, fun x => by simp, by simp⟩
          · intro x hx
            simp only [ends_cons, List.mem_cons] at hx
            rcases hx with rfl | rfl | hx
            · exact hu
            · exact hv
            · exact hok x hx
          · intro x hx
            simp only [ends_cons, List.count_cons]
            have hx1 := h1 x hx
            by_cases e1 : u = x
            · subst e1
              have : u ∉ ends P := fun h => hus ⟨hx, h⟩
              have hvu : ¬ v = u := fun h => huv h.symm
              simp [List.count_eq_zero_of_not_mem this, hvu]
            · by_cases e2 : v = x
              · subst e2
                have : v ∉ ends P := fun h => hvs ⟨hx, h⟩
                simp [List.count_eq_zero_of_not_mem this, e1]
              · simp [e1, e2, hx1]

/-- Any list of pairs can be joined so that no vertex of the kind `syn` is used twice, without becoming longer. -/
theorem shorten (dist : V → V → Nat) (ok syn : V → Prop) (hsymm : ∀ a b, dist a b = dist b a)
    (htri : ∀ a b c, ok a → ok b → ok c → dist a c ≤ dist a b + dist b c) (F : List (V × V)) (hF : ∀ x ∈ ends F, ok x) :
    ∃ P, (∀ x ∈ ends P, ok x) ∧ (∀ x, syn x → (ends P).count x ≤ 1) ∧
      (∀ x, Odd ((ends P).count x) ↔ Odd ((ends F).count x)) ∧ cost dist P ≤ cost dist F := by
  induction F with
  | nil => exact ⟨[], by simp, by simp, by simp, by simp⟩
  | cons p F ih =>
    obtain ⟨P, a1, a2, a3, a4⟩ := ih (fun x hx => hF x (by simp [hx]))
    obtain ⟨P', b1, b2, b3, b4⟩ := insert_pair dist ok syn hsymm htri P.length P p.1 p.2 rfl (hF _ (by simp)) (hF _ (by simp)) a1 a2
    refine ⟨P', b1, b2, ?_, by rw [cost_cons]; omega⟩
    intro x
    have := a3 x
    rw [b3 x, ends_cons]
    simp only [List.count_cons]
    rw [Nat.odd_iff, Nat.odd_iff] at this ⊢
    omega

/-- If every vertex with `p` occurs an even number of times, so do all of them together. -/
theorem even_countP (p : V → Bool) (l : List V) (h : ∀ x, p x = true → Even (l.count x)) : Even (l.countP p) := by
  have h1 : l.countP p = ∑ x ∈ (l.filter p).toFinset, (l.filter p).count x := by
    rw [List.countP_eq_length_filter]
    exact (List.sum_toFinset_count_eq_length _).symm
  rw [h1, even_iff_two_dvd]
  apply Finset.dvd_sum
  intro x hx
  have hx' : p x = true := by simp at hx; exact hx.2
  rw [List.count_filter hx', ← even_iff_two_dvd]
  exact h x hx'

/-- Pairs on one side of a cut contribute an even number of end points to it. -/
theorem even_side (p : V → Bool) (W : List (V × V)) (h : ∀ e ∈ W, p e.1 = p e.2) : Even ((ends W).countP p) := by
  induction W with
  | nil => simp
  | cons e W ih =>
    have h1 := ih fun x hx => h x (by simp [hx])
    have h2 := h e (by simp)
    simp only [ends_cons, List.countP_cons, h2]
    rw [Nat.even_iff] at h1 ⊢
    split <;> omega

/-- If the pairs are together shorter than the number of cuts, some cut separates none of them. -/
theorem exists_cut (d : Nat) (side : Nat → V → Bool) (W : List (V × V))
    (h : (W.map fun e => (List.range d).countP fun k => side k e.1 != side k e.2).sum < d) :
    ∃ k < d, ∀ e ∈ W, side k e.1 = side k e.2 := by
  by_contra hcon
  have hno : ∀ k < d, ∃ e ∈ W, side k e.1 ≠ side k e.2 := by
    intro k hk
    by_contra hne
    refine hcon ⟨k, hk, fun e he => ?_⟩
    by_contra h2
    exact hne ⟨e, he, h2⟩
  have hswap : (W.map fun e => (List.range d).countP fun k => side k e.1 != side k e.2).sum =
      ((List.range d).map fun k => W.countP fun e => side k e.1 != side k e.2).sum := by
    clear h hcon hno
    induction W with
    | nil => simp
    | cons e W ih =>
      simp only [List.map_cons, List.sum_cons, ih, List.countP_cons]
      clear ih
      induction (List.range d) with
      | nil => simp
      | cons a l ih =>
        simp only [List.countP_cons, List.map_cons, List.sum_cons]
        omega
  rw [hswap] at h
  have : ((List.range d).map fun _ => 1).sum ≤ ((List.range d).map fun k => W.countP fun e => side k e.1 != side k e.2).sum := by
    apply List.sum_le_sum
    intro k hk
    obtain ⟨e, he, hne⟩ := hno k (List.mem_range.1 hk)
    exact List.countP_pos_iff.2 ⟨e, he, by simpa using hne⟩
  simp at this
  omega

/-- **Parity.** Two lists of pairs in which every `syn` vertex occurs an even number of times altogether, and whose total length is less
than the number of cuts: the logical vertex `l` on one side of all cuts also occurs an even number of times. -/
theorem logical_even (d : Nat) (side : Nat → V → Bool) (W : List (V × V)) (syn : V → Bool) (l : V) (hl : syn l = false) (s : Bool)
    (hside : ∀ k < d, side k l = s) (hother : ∀ x ∈ ends W, syn x = false → x ≠ l → ∀ k < d, side k x = !s)
    (h : (W.map fun e => (List.range d).countP fun k => side k e.1 != side k e.2).sum < d)
    (heven : ∀ x, syn x = true → Even ((ends W).count x)) : Even ((ends W).count l) := by
  obtain ⟨k, hk, hcut⟩ := exists_cut d side W h
  have h1 : Even ((ends W).countP fun x => side k x == s) := by
    apply even_side
    intro e he
    simp [hcut e he]
  have h2 : Even ((ends W).countP fun x => (side k x == s) && syn x) := by
    apply even_countP
    intro x hx
    simp only [Bool.and_eq_true] at hx
    exact heven x hx.2
  have h3 : (ends W).countP (fun x => side k x == s) =
      (ends W).countP (fun x => (side k x == s) && syn x) + (ends W).count l := by
    have key : ∀ L : List V, (∀ x ∈ L, syn x = false → x ≠ l → ∀ k < d, side k x = !s) →
        L.countP (fun x => side k x == s) = L.countP (fun x => (side k x == s) && syn x) + L.count l := by
      intro L
      induction L with
      | nil => simp
      | cons x L ih =>
        intro hL
        have := ih fun y hy => hL y (by simp [hy])
        simp only [List.countP_cons, List.count_cons, this]
        by_cases e : x = l
        · subst e
          simp [hside k hk, hl]
          omega
        · by_cases e2 : syn x = true
          · simp [e, e2]; omega
          · have e2' : syn x = false := by simpa using e2
            have := hL x (by simp) e2' e k hk
            simp [e, e2', this]
    exact key _ hother
  rw [Nat.even_iff] at h1 h2 ⊢
  omega

end
end Verif.RepCode
