import Verif.Tomo.LemmasOps
/-
Running the tomography circuits: Born rule and prepared states.
-/
set_option linter.unusedSectionVars false
set_option linter.unusedSimpArgs false
set_option linter.unusedVariables false
namespace Verif.Tomo
open Verif Verif.Quantum

variable {ι : Type} [DecidableEq ι] [Fintype ι]

/-- The number whose digits are the values of the qubits. -/
def numOf (qs : List ι) (x : Basis ι) : ℕ := Nat.ofBits fun j : Fin qs.length => x qs[j]

theorem numOf_lt (qs : List ι) (x : Basis ι) : numOf qs x < 2 ^ qs.length := Nat.ofBits_lt_two_pow _

theorem testBit_numOf (qs : List ι) (x : Basis ι) (j : Fin qs.length) : (numOf qs x).testBit j = x qs[j] :=
  Nat.testBit_ofBits_lt _ _ j.2

theorem eq_numOf {qs : List ι} {x : Basis ι} {b : ℕ} (hb : b < 2 ^ qs.length) (h : ∀ j : Fin qs.length, x qs[j] = b.testBit j) :
    b = numOf qs x := by
  refine Nat.eq_of_testBit_eq fun i => ?_
  by_cases hi : i < qs.length
  · rw [testBit_numOf qs x ⟨i, hi⟩, h ⟨i, hi⟩]
  · have h2 : 2 ^ qs.length ≤ 2 ^ i := Nat.pow_le_pow_right (by decide) (by omega)
    rw [Nat.testBit_eq_false_of_lt (lt_of_lt_of_le hb h2), Nat.testBit_eq_false_of_lt (lt_of_lt_of_le (numOf_lt qs x) h2)]

/-- One-qubit operators on the qubits of a list. -/
def opsOn (qs : List ι) (K : ℕ → Mat2 ℂ) : List (ι × Mat2 ℂ) := List.ofFn fun j : Fin qs.length => (qs[j], K j)

theorem opsOn_fst (qs : List ι) (K : ℕ → Mat2 ℂ) : (opsOn qs K).map (·.1) = qs := by
  unfold opsOn
  rw [List.map_ofFn]
  exact List.ofFn_getElem

theorem opsOn_prod (qs : List ι) (K : ℕ → Mat2 ℂ) (x y : Basis ι) :
    ((opsOn qs K).map fun p => p.2 (x p.1) (y p.1)).prod = ∏ j : Fin qs.length, K j (x qs[j]) (y qs[j]) := by
  unfold opsOn
  rw [List.map_ofFn, List.prod_ofFn]; rfl

theorem opsOn_sq (qs : List ι) (K : ℕ → Mat2 ℂ) :
    ((opsOn qs K).map fun p => (p.1, mmul (adj p.2) p.2)) = opsOn qs fun j => mmul (adj (K j)) (K j) := by
  unfold opsOn
  rw [List.map_ofFn]; rfl

theorem sum_pick (n : ℕ) (M : ℕ → ℂ) (P : ℕ → Prop) [DecidablePred P] (t : ℕ) (ht : t < 2 ^ n) (hP : P t)
    (hu : ∀ b < 2 ^ n, P b → b = t) : ∑ b ∈ Finset.range (2 ^ n), (if P b then M b else 0) = M t := by
  rw [Finset.sum_eq_single t]
  · rw [if_pos hP]
  · intro b hb hne
    rw [if_neg fun h => hne (hu b (Finset.mem_range.1 hb) h)]
  · intro h; exact absurd (Finset.mem_range.2 ht) h

/-- A trace against the reduced density matrix, in terms of amplitudes. -/
theorem traceMul_reduced (qs : List ι) (M : ℕ → ℕ → ℂ) (ψ : State ι ℂ) :
    traceMul (2 ^ qs.length) M (reduced qs ψ) =
      ∑ x, ∑ y, if AgreeOff qs x y then M (numOf qs y) (numOf qs x) * (ψ x * (starRingEnd ℂ) (ψ y)) else 0 := by
  unfold traceMul reduced
  simp only [Finset.mul_sum]
  have e1 : ∀ a : ℕ, (∑ b ∈ Finset.range (2 ^ qs.length), ∑ x : Basis ι, ∑ y : Basis ι, M a b *
      (if AgreeOff qs x y ∧ (∀ j : Fin qs.length, x qs[j] = b.testBit j) ∧ (∀ j : Fin qs.length, y qs[j] = a.testBit j)
        then ψ x * (starRingEnd ℂ) (ψ y) else 0)) =
      ∑ x : Basis ι, ∑ y : Basis ι, if AgreeOff qs x y ∧ (∀ j : Fin qs.length, y qs[j] = a.testBit j)
        then M a (numOf qs x) * (ψ x * (starRingEnd ℂ) (ψ y)) else 0 := by
    intro a
    rw [Finset.sum_comm]
    refine Finset.sum_congr rfl fun x _ => ?_
    rw [Finset.sum_comm]
    refine Finset.sum_congr rfl fun y _ => ?_
    by_cases h : AgreeOff qs x y ∧ (∀ j : Fin qs.length, y qs[j] = a.testBit j)
    · rw [if_pos h]
      have := sum_pick qs.length (fun b => M a b * (ψ x * (starRingEnd ℂ) (ψ y)))
        (fun b => ∀ j : Fin qs.length, x qs[j] = b.testBit j) (numOf qs x) (numOf_lt _ _)
        (fun j => (testBit_numOf qs x j).symm) (fun b hb hP => eq_numOf hb hP)
      rw [← this]
      refine Finset.sum_congr rfl fun b _ => ?_
      by_cases hb : ∀ j : Fin qs.length, x qs[j] = b.testBit j
      · rw [if_pos ⟨h.1, hb, h.2⟩, if_pos hb]
      · rw [if_neg fun hh => hb hh.2.1, if_neg hb, mul_zero]
    · rw [if_neg h]
      refine Finset.sum_eq_zero fun b _ => ?_
      rw [if_neg, mul_zero]
      exact fun hh => h ⟨hh.1, hh.2.2⟩
  simp only [e1]
  rw [Finset.sum_comm]
  refine Finset.sum_congr rfl fun x _ => ?_
  rw [Finset.sum_comm]
  refine Finset.sum_congr rfl fun y _ => ?_
  by_cases h : AgreeOff qs x y
  · rw [if_pos h]
    have := sum_pick qs.length (fun a => M a (numOf qs x) * (ψ x * (starRingEnd ℂ) (ψ y)))
      (fun a => ∀ j : Fin qs.length, y qs[j] = a.testBit j) (numOf qs y) (numOf_lt _ _)
      (fun j => (testBit_numOf qs y j).symm) (fun b hb hP => eq_numOf hb hP)
    rw [← this]
    refine Finset.sum_congr rfl fun a _ => ?_
    simp only [h, true_and]
  · rw [if_neg h]
    exact Finset.sum_eq_zero fun a _ => if_neg fun hh => h hh.1

/-- Born rule for one-qubit operators on distinct qubits. -/
theorem born (qs : List ι) (hnd : qs.Nodup) (K : ℕ → Mat2 ℂ) (ψ : State ι ℂ) :
    ((∑ x, prob (appAll (opsOn qs K) ψ) x : ℝ) : ℂ) =
      traceMul (2 ^ qs.length) (fun a b => ∏ j ∈ Finset.range qs.length, mmul (adj (K j)) (K j) (a.testBit j) (b.testBit j))
        (reduced qs ψ) := by
  have h1 : ((∑ x, prob (appAll (opsOn qs K) ψ) x : ℝ) : ℂ) = inner (appAll (opsOn qs K) ψ) (appAll (opsOn qs K) ψ) := by
    rw [Complex.ofReal_sum]
    refine Finset.sum_congr rfl fun x _ => ?_
    unfold prob
    rw [Complex.normSq_eq_conj_mul_self]
  rw [h1, inner_appAll _ (by rw [opsOn_fst]; exact hnd), opsOn_sq, traceMul_reduced, Finset.sum_comm]
  unfold inner
  refine Finset.sum_congr rfl fun y _ => ?_
  rw [appAll_eq_sum _ (by rw [opsOn_fst]; exact hnd), Finset.mul_sum]
  refine Finset.sum_congr rfl fun x _ => ?_
  rw [opsOn_fst, opsOn_prod]
  have hsym : AgreeOff qs y x ↔ AgreeOff qs x y := ⟨fun h q hq => (h q hq).symm, fun h q hq => (h q hq).symm⟩
  by_cases h : AgreeOff qs x y
  · rw [if_pos h, if_pos (hsym.2 h),
      ← Fin.prod_univ_eq_prod_range (fun j => mmul (adj (K j)) (K j) ((numOf qs y).testBit j) ((numOf qs x).testBit j))]
    have : ∀ j : Fin qs.length, mmul (adj (K j)) (K j) ((numOf qs y).testBit j) ((numOf qs x).testBit j) =
        mmul (adj (K j)) (K j) (y qs[j]) (x qs[j]) := by
      intro j; rw [testBit_numOf, testBit_numOf]
    simp only [this]
    ring
  · rw [if_neg h, if_neg fun hh => h (hsym.1 hh), mul_zero]

/-- The prepared amplitudes. -/
theorem appAll_ket0 (qs : List ι) (hnd : qs.Nodup) (K : ℕ → Mat2 ℂ) (x : Basis ι) :
    appAll (opsOn qs K) ket0 x = if ∀ q, q ∉ qs → x q = false then ∏ j : Fin qs.length, K j (x qs[j]) false else 0 := by
  rw [appAll_eq_sum _ (by rw [opsOn_fst]; exact hnd)]
  rw [Finset.sum_eq_single (fun _ => false)]
  · rw [opsOn_fst, opsOn_prod qs K x (fun _ => false)]
    by_cases h : ∀ q, q ∉ qs → x q = false
    · rw [if_pos h, if_pos (show AgreeOff qs x (fun _ => false) from h)]; simp [ket0]
    · rw [if_neg h, if_neg (show ¬ AgreeOff qs x (fun _ => false) from h)]
  · intro y _ hy
    simp [ket0, hy]
  · intro h; exact absurd (Finset.mem_univ _) h

/-- The assignment with given digits on `qs` and zero elsewhere. -/
def spread (qs : List ι) (b : ℕ) : Basis ι := fun q => if q ∈ qs then b.testBit (qs.idxOf q) else false

theorem spread_get (qs : List ι) (hnd : qs.Nodup) (b : ℕ) (j : Fin qs.length) : spread qs b qs[j] = b.testBit j := by
  unfold spread
  rw [if_pos (show qs[j] ∈ qs from List.getElem_mem _)]
  congr 1
  exact hnd.idxOf_getElem j j.2

theorem eq_spread (qs : List ι) (hnd : qs.Nodup) (b : ℕ) (x : Basis ι) (h0 : ∀ q, q ∉ qs → x q = false)
    (h : ∀ j : Fin qs.length, x qs[j] = b.testBit j) : x = spread qs b := by
  funext q
  by_cases hq : q ∈ qs
  · obtain ⟨j, hj, rfl⟩ := List.mem_iff_getElem.1 hq
    exact (h ⟨j, hj⟩).trans (spread_get qs hnd b ⟨j, hj⟩).symm
  · rw [h0 q hq]; unfold spread; rw [if_neg hq]

/-- The density matrix of the prepared qubits. -/
theorem reduced_prepared (qs : List ι) (hnd : qs.Nodup) (K : ℕ → Mat2 ℂ) (b a : ℕ) :
    reduced qs (appAll (opsOn qs K) ket0) b a =
      ∏ j ∈ Finset.range qs.length, K j (b.testBit j) false * (starRingEnd ℂ) (K j (a.testBit j) false) := by
  unfold reduced
  have off : ∀ c, ∀ q, q ∉ qs → spread qs c q = false := fun c q hq => by unfold spread; rw [if_neg hq]
  rw [Finset.sum_eq_single (spread qs b)]
  · rw [Finset.sum_eq_single (spread qs a)]
    · rw [if_pos ⟨fun q hq => by rw [off _ q hq, off _ q hq], spread_get qs hnd b, spread_get qs hnd a⟩,
        appAll_ket0 _ hnd, appAll_ket0 _ hnd, if_pos (off b), if_pos (off a), map_prod, ← Finset.prod_mul_distrib]
      rw [← Fin.prod_univ_eq_prod_range (fun j => K j (b.testBit j) false * (starRingEnd ℂ) (K j (a.testBit j) false))]
      refine Finset.prod_congr rfl fun j _ => ?_
      rw [spread_get qs hnd, spread_get qs hnd]
    · intro y _ hy
      rw [appAll_ket0 _ hnd, appAll_ket0 _ hnd]
      by_cases h : ∀ q, q ∉ qs → y q = false
      · rw [if_neg fun hh => hy (eq_spread qs hnd a y h hh.2.2)]
      · rw [if_neg h]; simp
    · intro h; exact absurd (Finset.mem_univ _) h
  · intro x _ hx
    refine Finset.sum_eq_zero fun y _ => ?_
    rw [appAll_ket0 _ hnd]
    by_cases h : ∀ q, q ∉ qs → x q = false
    · rw [if_neg fun hh => hx (eq_spread qs hnd b x h hh.2.1)]
    · rw [if_neg h]; simp
  · intro h; exact absurd (Finset.mem_univ _) h

/-! Circuits. -/

variable (user : ℕ → State ι ℂ → State ι ℂ) (rec : Clbit → Bool)

theorem runRec_append (a b : List (Op ι)) (ψ : State ι ℂ) :
    runRec user rec (a ++ b) ψ = runRec user rec b (runRec user rec a ψ) := by
  unfold runRec; rw [List.foldl_append]

theorem runRec_cons (a : Op ι) (b : List (Op ι)) (ψ : State ι ℂ) :
    runRec user rec (a :: b) ψ = runRec user rec b (stepRec user rec ψ a) := rfl

theorem runRec_nil (ψ : State ι ℂ) : runRec user rec [] ψ = ψ := rfl

theorem measure_step (q : ι) (c : Clbit) (ψ : State ι ℂ) :
    stepRec user rec ψ (.measure q c) = app1 (projMat (rec c)) q ψ := by
  funext x
  simp only [stepRec, app1, projMat]
  by_cases h : x q = rec c
  · rw [if_pos h]
    have e : Function.update x q (rec c) = x := by rw [← h, Function.update_eq_self]
    cases hr : rec c <;> rw [hr] at h e <;> simp [h, e]
  · rw [if_neg h]; simp [h]

/-- If every slot acts as one operator on its qubit, the whole acts as the product. -/
theorem runRec_slots (f : ℕ → Str → ι → List (Op ι)) (l : List Str) (qs : List ι) (hl : l.length = qs.length) (K : ℕ → Mat2 ℂ)
    (hf : ∀ j (hj : j < qs.length), ∀ ψ, runRec user rec (f j (l.getD j []) qs[j]) ψ = app1 (K j) qs[j] ψ) (ψ : State ι ℂ) :
    runRec user rec ((List.range qs.length).flatMap (slot f l qs)) ψ = appAll (opsOn qs K) ψ := by
  have : ∀ m ≤ qs.length, runRec user rec ((List.range m).flatMap (slot f l qs)) ψ =
      appAll ((opsOn qs K).take m) ψ := by
    intro m hm
    induction m with
    | zero => rfl
    | succ m ih =>
      have hm' : m < qs.length := hm
      have hm2 : m < (opsOn qs K).length := by simp [opsOn]; exact hm
      rw [List.range_succ, List.flatMap_append, List.flatMap_singleton, runRec_append, ih (by omega),
        List.take_succ_eq_append_getElem hm2]
      have e : slot f l qs m = f m (l.getD m []) qs[m] := by
        unfold slot
        rw [List.getElem?_eq_getElem hm', List.getElem?_eq_getElem (by omega), List.getD_eq_getElem _ _ (by omega)]
      rw [e, hf m hm']
      unfold appAll
      rw [List.foldl_append]
      simp [opsOn]
  rw [this _ le_rfl, List.take_of_length_le (by simp [opsOn])]

end Verif.Tomo
