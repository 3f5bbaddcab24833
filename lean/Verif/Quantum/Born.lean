import Verif.Quantum.Basic
import Mathlib.Algebra.BigOperators.Fin
import Mathlib.Data.Complex.BigOperators
import Mathlib.Algebra.BigOperators.Field
import Mathlib.Tactic.LinearCombination
/-
Inner products, adjoints and products of one-qubit operators on distinct qubits.
-/
set_option linter.unusedSectionVars false

namespace Verif.Quantum

variable {ι : Type} [DecidableEq ι] [Fintype ι]

/-- ⟨φ|χ⟩. -/
noncomputable def inner (φ χ : State ι ℂ) : ℂ := ∑ x, (starRingEnd ℂ) (φ x) * χ x

/-- Conjugate transpose. -/
noncomputable def adj (u : Mat2 ℂ) : Mat2 ℂ := fun r c => (starRingEnd ℂ) (u c r)

/-- A sum over all assignments, grouped by qubit `q`. -/
theorem sum_split {M : Type} [AddCommMonoid M] (q : ι) (f : Basis ι → M) :
    ∑ x, f x = ∑ x, if x q = true then 0 else f x + f (Function.update x q true) := by
  have h1 : ∑ x, f x = (∑ x, if x q = true then 0 else f x) + ∑ x, if x q = true then f x else 0 := by
    rw [← Finset.sum_add_distrib]
    refine Finset.sum_congr rfl fun x _ => ?_
    split <;> simp
  have h2 : (∑ x : Basis ι, if x q = true then f x else 0) =
      ∑ x : Basis ι, if x q = true then 0 else f (Function.update x q true) := by
    let e : Basis ι → Basis ι := fun x => Function.update x q (!x q)
    have he : Function.Involutive e := by
      intro x; funext p
      by_cases hp : p = q
      · subst hp; simp [e]
      · simp [e, hp]
    rw [← Equiv.sum_comp he.toPerm]
    refine Finset.sum_congr rfl fun x _ => ?_
    show (if e x q = true then f (e x) else 0) = _
    have : e x q = !x q := by simp [e]
    rw [this]
    cases h : x q
    · simp [e, h]
    · simp
  rw [h1, h2, ← Finset.sum_add_distrib]
  refine Finset.sum_congr rfl fun x _ => ?_
  split <;> simp

theorem inner_app1 (u : Mat2 ℂ) (q : ι) (φ χ : State ι ℂ) : inner (app1 u q φ) χ = inner φ (app1 (adj u) q χ) := by
  unfold inner
  rw [sum_split q, sum_split q (fun x => (starRingEnd ℂ) (φ x) * app1 (adj u) q χ x)]
  refine Finset.sum_congr rfl fun x _ => ?_
  split
  · rfl
  · rename_i h
    have h : x q = false := by simpa using h
    have hx : Function.update x q false = x := by rw [← h, Function.update_eq_self]
    simp only [app1, adj, Function.update_self, Function.update_idem, h, hx, map_add, map_mul]
    ring

/-- Apply one-qubit operators one after the other. -/
def appAll {K : Type} [CommRing K] (L : List (ι × Mat2 K)) (ψ : State ι K) : State ι K :=
  L.foldl (fun ψ p => app1 p.2 p.1 ψ) ψ

theorem appAll_app1 {K : Type} [CommRing K] (L : List (ι × Mat2 K)) (u : Mat2 K) (q : ι) (hq : ∀ p ∈ L, p.1 ≠ q) (ψ : State ι K) :
    appAll L (app1 u q ψ) = app1 u q (appAll L ψ) := by
  induction L generalizing ψ with
  | nil => rfl
  | cons p L ih =>
    show appAll L (app1 p.2 p.1 (app1 u q ψ)) = app1 u q (appAll L (app1 p.2 p.1 ψ))
    rw [app1_comm _ _ _ _ (hq p (by simp)), ih (fun p' hp' => hq p' (by simp [hp']))]

/-- ‖K₁⋯Kₙ ψ‖² = ⟨ψ| K₁†K₁ ⊗ ⋯ ⊗ Kₙ†Kₙ |ψ⟩ for operators on distinct qubits. -/
theorem inner_appAll (L : List (ι × Mat2 ℂ)) (hL : (L.map (·.1)).Nodup) (ψ : State ι ℂ) :
    inner (appAll L ψ) (appAll L ψ) = inner ψ (appAll (L.map fun p => (p.1, mmul (adj p.2) p.2)) ψ) := by
  induction L generalizing ψ with
  | nil => rfl
  | cons p L ih =>
    rw [List.map_cons, List.nodup_cons] at hL
    show inner (appAll L (app1 p.2 p.1 ψ)) (appAll L (app1 p.2 p.1 ψ)) =
      inner ψ (appAll (L.map fun p => (p.1, mmul (adj p.2) p.2)) (app1 (mmul (adj p.2) p.2) p.1 ψ))
    rw [ih hL.2, inner_app1, ← app1_mul]
    congr 1
    rw [appAll_app1 _ (adj p.2)]
    intro p' hp' e
    obtain ⟨p'', hp'', rfl⟩ := List.mem_map.1 hp'
    exact hL.1 (List.mem_map.2 ⟨p'', hp'', e⟩)

/-- Agreement outside a list of qubits. -/
def AgreeOff (qs : List ι) (x y : Basis ι) : Prop := ∀ q, q ∉ qs → x q = y q

instance (qs : List ι) (x y : Basis ι) : Decidable (AgreeOff qs x y) := inferInstanceAs (Decidable (∀ _, _))

theorem app1_eq_sum {K : Type} [CommRing K] (u : Mat2 K) (q : ι) (ψ : State ι K) (x : Basis ι) :
    app1 u q ψ x = ∑ y, if AgreeOff [q] x y then u (x q) (y q) * ψ y else 0 := by
  have : (fun y => if AgreeOff [q] x y then u (x q) (y q) * ψ y else 0) = fun y =>
      (if y = Function.update x q false then u (x q) false * ψ y else 0) +
      (if y = Function.update x q true then u (x q) true * ψ y else 0) := by
    funext y
    have key : AgreeOff [q] x y ↔ y = Function.update x q (y q) := by
      constructor
      · intro h; funext p
        by_cases hp : p = q
        · subst hp; simp
        · simp [hp, (h p (by simpa using hp)).symm]
      · intro h p hp
        rw [h, Function.update_of_ne (by simpa using hp)]
    by_cases h : AgreeOff [q] x y
    · rw [if_pos h]
      have h' := key.1 h
      cases hy : y q
      · rw [hy] at h'
        rw [if_pos h', if_neg, add_zero]
        intro e; rw [e] at hy; simp at hy
      · rw [hy] at h'
        rw [if_pos h', if_neg, zero_add]
        intro e; rw [e] at hy; simp at hy
    · rw [if_neg h, if_neg, if_neg, add_zero]
      · intro e; apply h; rw [key]; rw [e]; simp
      · intro e; apply h; rw [key]; rw [e]; simp
  rw [this, Finset.sum_add_distrib]
  simp [app1]

/-- The entries of a product of one-qubit operators on distinct qubits. -/
theorem appAll_eq_sum {K : Type} [CommRing K] (L : List (ι × Mat2 K)) (hL : (L.map (·.1)).Nodup) (ψ : State ι K) (x : Basis ι) :
    appAll L ψ x = ∑ y, if AgreeOff (L.map (·.1)) x y then (L.map fun p => p.2 (x p.1) (y p.1)).prod * ψ y else 0 := by
  induction L generalizing ψ with
  | nil =>
    have : ∀ y : Basis ι, AgreeOff ([] : List ι) x y ↔ y = x := by
      intro y
      constructor
      · intro h; funext q; exact (h q (by simp)).symm
      · rintro rfl q _; rfl
    simp [appAll, this]
  | cons p L ih =>
    rw [List.map_cons, List.nodup_cons] at hL
    show appAll L (app1 p.2 p.1 ψ) x = _
    rw [ih hL.2]
    have step : ∀ y, (if AgreeOff (L.map (·.1)) x y then (L.map fun p => p.2 (x p.1) (y p.1)).prod * app1 p.2 p.1 ψ y else 0) =
        ∑ z, if AgreeOff (L.map (·.1)) x y ∧ AgreeOff [p.1] y z then
          (L.map fun p => p.2 (x p.1) (y p.1)).prod * (p.2 (y p.1) (z p.1) * ψ z) else 0 := by
      intro y
      by_cases h : AgreeOff (L.map (·.1)) x y
      · rw [if_pos h, app1_eq_sum, Finset.mul_sum]
        refine Finset.sum_congr rfl fun z _ => ?_
        simp only [h, true_and]
        split <;> simp
      · simp [h]
    simp only [step]
    rw [Finset.sum_comm]
    refine Finset.sum_congr rfl fun z _ => ?_
    rw [Finset.sum_eq_single (Function.update z p.1 (x p.1))]
    · have key : (AgreeOff (L.map (·.1)) x (Function.update z p.1 (x p.1)) ∧ AgreeOff [p.1] (Function.update z p.1 (x p.1)) z) ↔
          AgreeOff (List.map (·.1) (p :: L)) x z := by
        constructor
        · rintro ⟨h1, _⟩ q hq
          simp only [List.map_cons, List.mem_cons, not_or] at hq
          have := h1 q hq.2
          rwa [Function.update_of_ne hq.1] at this
        · intro h
          refine ⟨?_, ?_⟩
          · intro q hq
            by_cases e : q = p.1
            · subst e; simp
            · rw [Function.update_of_ne e]
              exact h q (by simp only [List.map_cons, List.mem_cons, not_or]; exact ⟨e, hq⟩)
          · intro q hq
            rw [Function.update_of_ne (by simpa using hq)]
      by_cases h : AgreeOff (List.map (·.1) (p :: L)) x z
      · rw [if_pos (key.2 h), if_pos h, List.map_cons, List.prod_cons, Function.update_self]
        have : (L.map fun p' => p'.2 (x p'.1) (Function.update z p.1 (x p.1) p'.1)) = L.map fun p' => p'.2 (x p'.1) (z p'.1) := by
          refine List.map_congr_left fun p' hp' => ?_
          rw [Function.update_of_ne]
          intro e
          exact hL.1 (e ▸ List.mem_map_of_mem hp')
        rw [this]; ring
      · rw [if_neg (fun h' => h (key.1 h')), if_neg h]
    · intro y _ hy
      rw [if_neg]
      rintro ⟨h1, h2⟩
      apply hy
      funext q
      by_cases e : q = p.1
      · subst e
        rw [Function.update_self]
        exact (h1 p.1 hL.1).symm
      · rw [Function.update_of_ne e]
        exact h2 q (by simpa using e)
    · intro h; exact absurd (Finset.mem_univ _) h

end Verif.Quantum
