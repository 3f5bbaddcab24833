import Verif.RepCode.SpecRate
import Verif.RepCode.PropsDecoder
import Mathlib.Data.Nat.Choose.Bounds
import Mathlib.Analysis.Complex.Exponential
import Mathlib.Analysis.Complex.ExponentialBounds
import Mathlib.Algebra.Order.BigOperators.Ring.Finset
import Mathlib.Algebra.BigOperators.Fin
set_option linter.unusedSimpArgs false
set_option linter.unusedVariables false
/-
Property C116: the logical error rate of the repetition code under random faults.
-/
namespace Verif.RepCode
open Verif
variable {Ω : Type} [Fintype Ω] {mwm : WGraph (List Nat) → List (List Nat × List Nat)}

/-! ### The decoder on any run -/

/-- **C116** Whatever the faults, however many, the decoder does not fail and gives both boundaries the same value. -/
theorem C116_always (d T : Nat) (hd : 2 ≤ d) (hT : 1 ≤ T) (b : Bool) (f : Faults) (hf : ∀ x ∈ f.places, x.Valid d T)
    (hmwm : ∀ G, FiniteGraph G → IsMaxWeight G (mwm G)) :
    ∃ c : Bool, decodeKey mwm d T (runKey d T b f) = some [bitChar c, ' ', bitChar c] := by
  obtain ⟨S, hS, -, -⟩ := graph_spec d T hd hT
  have hok := graphOk d T hd hT S hS
  obtain ⟨E, h1, h2, h3, h4⟩ := noisy_edges d T hd hT S hok b f.errors f.flips
    (fun e he => hf (.inl (e.1, e.2.1)) (List.mem_append.2 (Or.inl (List.mem_map.2 ⟨e, he, rfl⟩))))
    (fun c hc => hf (.inr c) (List.mem_append.2 (Or.inr (List.mem_map.2 ⟨c, hc, rfl⟩))))
  obtain ⟨c, hc⟩ := decode_some d T hd S hok b _ _ (noisy_rel d T hT b f.errors f.flips) E h2 h3 h4 mwm hmwm
  have hs : processString d T (runKey d T b f) = some (processed d T (noisyMemory (codeOps d T b) f.errors f.flips)) := by
    rw [runKey, mkCode_circ d T hT]
    exact process_key d T hd hT _
  refine ⟨c, ?_⟩
  unfold decodeKey
  simp only [Option.bind_eq_bind, hS, hs, Option.bind_some, hc]

theorem decodeKey_ok (d T : Nat) (hd : 2 ≤ d) (hT : 1 ≤ T) (b : Bool) (f : Faults) (hf : ∀ x ∈ f.places, x.Valid d T)
    (hw : 2 * f.places.length < d) (hmwm : ∀ G, FiniteGraph G → IsMaxWeight G (mwm G)) :
    decodeKey mwm d T (runKey d T b f) = some [bitChar b, ' ', bitChar b] := by
  obtain ⟨S, s, h1, h2, h3⟩ := C104_decoder_corrects d T hd hT b f.errors f.flips
    (fun e he => hf (.inl (e.1, e.2.1)) (List.mem_append.2 (Or.inl (List.mem_map.2 ⟨e, he, rfl⟩))))
    (fun c hc => hf (.inr c) (List.mem_append.2 (Or.inr (List.mem_map.2 ⟨c, hc, rfl⟩))))
    (by simpa [Faults.places] using hw) mwm hmwm
  rw [decodeKey, h1]
  simp only [Option.bind_eq_bind, Option.bind_some]
  rw [runKey, h2]
  exact h3

/-! ### The rate -/

/-- An event that needs at least `m` faults has probability at most `C(N, m) p ^ m`. -/
theorem union_bound (N : Noise Ω) {L : Finset Place} {p : ℝ} (hN : LocallyStochastic N L p) (m : Nat) (W : Ω → Prop) [DecidablePred W]
    (hW : ∀ ω, W ω → m ≤ (N.faults ω).places.length) : (∑ ω, if W ω then N.prob ω else 0) ≤ (L.card.choose m) * p ^ m := by
  have h1 : ∀ ω, (if W ω then N.prob ω else 0) ≤
      ∑ A ∈ L.powersetCard m, if A ⊆ (N.faults ω).places.toFinset then N.prob ω else 0 := by
    intro ω
    have hnn : ∀ A ∈ L.powersetCard m, 0 ≤ if A ⊆ (N.faults ω).places.toFinset then N.prob ω else 0 := by
      intro A _
      split
      · exact N.nonneg ω
      · exact le_rfl
    split
    · next hne =>
      have hlen : m ≤ (N.faults ω).places.toFinset.card := by
        rw [List.toFinset_card_of_nodup (hN.nodup ω)]
        exact hW ω hne
      obtain ⟨A, hA1, hA2⟩ := Finset.exists_subset_card_eq hlen
      have hAL : A ∈ L.powersetCard m :=
        Finset.mem_powersetCard.2 ⟨fun x hx => hN.mem ω x (List.mem_toFinset.1 (hA1 hx)), hA2⟩
      have := Finset.single_le_sum hnn hAL
      rwa [if_pos hA1] at this
    · exact Finset.sum_nonneg hnn
  refine (Finset.sum_le_sum fun ω _ => h1 ω).trans ?_
  rw [Finset.sum_comm]
  have h2 : ∀ A ∈ L.powersetCard m, (∑ ω, if A ⊆ (N.faults ω).places.toFinset then N.prob ω else 0) ≤ p ^ m := by
    intro A hA
    obtain ⟨a1, a2⟩ := Finset.mem_powersetCard.1 hA
    rw [← a2]
    exact hN.bound A a1
  refine (Finset.sum_le_sum h2).trans ?_
  rw [Finset.sum_const, Finset.card_powersetCard, nsmul_eq_mul]

/-- **C116** The decoder fails with probability at most `C(N, m) p ^ m`, where `m` is half the distance, rounded up, and `N` the number of
places where faults can happen. -/
theorem C116_bound (d T : Nat) (hd : 2 ≤ d) (hT : 1 ≤ T) (b : Bool) (hmwm : ∀ G, FiniteGraph G → IsMaxWeight G (mwm G)) (N : Noise Ω)
    {L : Finset Place} (hL : ∀ x ∈ L, x.Valid d T) {p : ℝ} (hN : LocallyStochastic N L p) :
    logicalErrorRate mwm d T b N ≤ (L.card.choose ((d + 1) / 2)) * p ^ ((d + 1) / 2) := by
  have := union_bound N hN ((d + 1) / 2) (fun ω => decodeKey mwm d T (runKey d T b (N.faults ω)) ≠ some [bitChar b, ' ', bitChar b]) (by
    intro ω hne
    by_contra h
    exact hne (decodeKey_ok d T hd hT b _ (fun x hx => hL x (hN.mem ω x hx)) (by omega) hmwm))
  simp only [ne_eq, ite_not] at this
  exact this

/-- **C116** Below a threshold the rate decreases exponentially with the distance: if there are at most `K` places per code qubit, it is at most
`(2 e K p) ^ m`. -/
theorem C116_threshold (d T : Nat) (hd : 2 ≤ d) (hT : 1 ≤ T) (b : Bool) (hmwm : ∀ G, FiniteGraph G → IsMaxWeight G (mwm G)) (N : Noise Ω)
    {L : Finset Place} (hL : ∀ x ∈ L, x.Valid d T) {p : ℝ} (hp : 0 ≤ p) (hN : LocallyStochastic N L p) {K : ℝ} (hK : (L.card : ℝ) ≤ K * d) :
    logicalErrorRate mwm d T b N ≤ (2 * Real.exp 1 * K * p) ^ ((d + 1) / 2) := by
  refine (C116_bound d T hd hT b hmwm N hL hN).trans ?_
  set m := (d + 1) / 2 with hm
  have hm0 : 0 < m := by omega
  have hmR : (0 : ℝ) < m := by exact_mod_cast hm0
  have hdm : (d : ℝ) ≤ 2 * m := by
    have : d ≤ 2 * m := by omega
    exact_mod_cast this
  have h1 : ((L.card.choose m : ℕ) : ℝ) ≤ (L.card : ℝ) ^ m / (m.factorial : ℝ) := Nat.choose_le_pow_div m L.card
  have h2 : (m : ℝ) ^ m / m.factorial ≤ Real.exp 1 ^ m := by
    rw [← Real.exp_nat_mul, mul_one]
    exact Real.pow_div_factorial_le_exp _ hmR.le m
  have hf : (0 : ℝ) < m.factorial := by exact_mod_cast m.factorial_pos
  have hK0 : 0 ≤ K := by
    by_contra h
    have hd0 : (0 : ℝ) < d := by exact_mod_cast (by omega : 0 < d)
    have : K * d < 0 := mul_neg_of_neg_of_pos (not_le.1 h) hd0
    have : (0 : ℝ) ≤ L.card := Nat.cast_nonneg _
    linarith
  have h3 : (L.card : ℝ) ≤ 2 * K * m := by
    refine hK.trans ?_
    nlinarith
  have h4 : (L.card : ℝ) ^ m ≤ (2 * K) ^ m * (m : ℝ) ^ m := by
    rw [← mul_pow]
    exact pow_le_pow_left₀ (Nat.cast_nonneg _) h3 m
  calc ((L.card.choose m : ℕ) : ℝ) * p ^ m ≤ ((L.card : ℝ) ^ m / m.factorial) * p ^ m := mul_le_mul_of_nonneg_right h1 (pow_nonneg hp m)
    _ ≤ ((2 * K) ^ m * (m : ℝ) ^ m / m.factorial) * p ^ m := by
        refine mul_le_mul_of_nonneg_right ?_ (pow_nonneg hp m)
        exact (div_le_div_iff_of_pos_right hf).2 h4
    _ = (2 * K) ^ m * ((m : ℝ) ^ m / m.factorial) * p ^ m := by rw [mul_div_assoc]
    _ ≤ (2 * K) ^ m * Real.exp 1 ^ m * p ^ m := by
        refine mul_le_mul_of_nonneg_right ?_ (pow_nonneg hp m)
        exact mul_le_mul_of_nonneg_left h2 (by positivity)
    _ = (2 * Real.exp 1 * K * p) ^ m := by
        rw [← mul_pow, ← mul_pow]
        congr 1
        ring

/-! ### The places of the circuits -/

theorem ops_valid (d T : Nat) (hT : 1 ≤ T) (b : Bool) : ∀ o ∈ ((mkCode d T).circ b).ops, ∀ q ∈ o.qubits, q.Valid d := by
  rw [mkCode_circ d T hT]
  have hr : ∀ t r, ∀ o ∈ roundOps d t r, ∀ q ∈ o.qubits, q.Valid d := by
    intro t r o ho q hq
    simp only [roundOps, List.mem_append, List.mem_map, List.mem_flatMap, List.mem_range] at ho
    rcases ho with ⟨j, hj, rfl⟩ | ⟨j, hj, rfl⟩ | ⟨j, hj, ho⟩
    · simp only [Op.qubits, List.mem_cons, List.not_mem_nil, or_false] at hq
      rcases hq with rfl | rfl <;> simp [Qb.Valid] <;> omega
    · simp only [Op.qubits, List.mem_cons, List.not_mem_nil, or_false] at hq
      rcases hq with rfl | rfl <;> simp [Qb.Valid] <;> omega
    · rcases ho with ho | ho
      · simp at ho; subst ho; simp [Op.qubits] at hq; subst hq; exact hj
      · cases r <;> simp at ho; subst ho; simp [Op.qubits] at hq; subst hq; exact hj
  intro o ho q hq
  simp only [codeOps, List.mem_append, List.mem_flatMap] at ho
  rcases ho with ((ho | ⟨t, -, ho⟩) | ho) | ho
  · unfold prepOps at ho
    split at ho
    · obtain ⟨j, hj, rfl⟩ := List.mem_map.1 ho
      simp only [Op.qubits, List.mem_cons, List.not_mem_nil, or_false] at hq
      subst hq
      exact List.mem_range.1 hj
    · simp at ho
  · exact hr _ _ o ho q hq
  · exact hr _ _ o ho q hq
  · obtain ⟨j, hj, rfl⟩ := List.mem_map.1 ho
    simp only [Op.qubits, List.mem_cons, List.not_mem_nil, or_false] at hq
    subst hq
    exact List.mem_range.1 hj

theorem length_round (d t : Nat) (r : Bool) : ((roundOps d t r).map fun o => o.qubits.length).sum ≤ 6 * d := by
  have h : ∀ n, ((List.range n).flatMap fun j => ([Op.measure (Qb.link j) (Reg.round t, j)] ++ (if r then [Op.reset (Qb.link j)] else [])).map
      fun o => o.qubits.length).sum ≤ 2 * n := by
    intro n
    induction n with
    | zero => simp
    | succ n ih =>
      rw [List.range_succ, List.flatMap_append, List.sum_append]
      cases r <;> simp [Op.qubits] at ih ⊢ <;> omega
  have h' := h (d - 1)
  unfold roundOps
  rw [List.map_append, List.sum_append, List.map_append, List.sum_append, List.map_flatMap, List.map_map, List.map_map]
  have e1 : ((List.range (d - 1)).map ((fun o : Op => o.qubits.length) ∘ fun j => Op.cx (Qb.code j) (Qb.link j))).sum = 2 * (d - 1) := by
    rw [show ((fun o : Op => o.qubits.length) ∘ fun j => Op.cx (Qb.code j) (Qb.link j)) = fun _ => 2 from rfl]
    simp; omega
  have e2 : ((List.range (d - 1)).map ((fun o : Op => o.qubits.length) ∘ fun j => Op.cx (Qb.code (j + 1)) (Qb.link j))).sum = 2 * (d - 1) := by
    rw [show ((fun o : Op => o.qubits.length) ∘ fun j => Op.cx (Qb.code (j + 1)) (Qb.link j)) = fun _ => 2 from rfl]
    simp; omega
  rw [e1, e2]
  omega

/-- **C116** The circuit has at most `10 T` places per code qubit, so that the threshold is at least `1 / (20 e T)`. -/
theorem C116_places (d T : Nat) (hT : 1 ≤ T) (b : Bool) :
    (∀ x ∈ (allPlaces d T b).toFinset, x.Valid d T) ∧ ((allPlaces d T b).toFinset.card : ℝ) ≤ (10 * T : ℝ) * d := by
  constructor
  · intro x hx
    rw [List.mem_toFinset] at hx
    unfold allPlaces at hx
    simp only [List.mem_append, List.mem_flatMap, List.mem_map, List.mem_range] at hx
    rcases hx with (⟨oi, h1, q, h2, rfl⟩ | ⟨t, h1, j, h2, rfl⟩) | ⟨k, h1, rfl⟩
    · exact ops_valid d T hT b _ (List.fst_mem_of_mem_zipIdx h1) q h2
    · exact ⟨h1, h2⟩
    · exact h1
  · have h1 : (allPlaces d T b).length ≤ 10 * T * d := by
      unfold allPlaces
      rw [List.length_append, List.length_append, List.length_flatMap, List.length_flatMap, List.length_map, List.length_range]
      have e1 : (((mkCode d T).circ b).ops.zipIdx.map fun oi => (oi.1.qubits.map fun q => (Sum.inl (oi.2, q) : Place)).length).sum =
          (((mkCode d T).circ b).ops.map fun o => o.qubits.length).sum := by
        congr 1
        refine List.ext_getElem (by simp) fun i h1 h2 => ?_
        simp
      have e2 : ((List.range T).map fun t => ((List.range (d - 1)).map fun j => (Sum.inr (Reg.round t, j) : Place)).length).sum = T * (d - 1) := by
        simp
      rw [e1, e2, mkCode_circ d T hT]
      simp only [codeOps, List.map_append, List.sum_append, List.map_flatMap]
      have e3 : ((prepOps d b).map fun o => o.qubits.length).sum ≤ d := by
        unfold prepOps
        split
        · rw [List.map_map, show ((fun o : Op => o.qubits.length) ∘ fun j => Op.x (Qb.code j)) = fun _ => 1 from rfl]; simp
        · simp
      have e4 : ((readOps d).map fun o => o.qubits.length).sum = d := by
        unfold readOps
        rw [List.map_map, show ((fun o : Op => o.qubits.length) ∘ fun j => Op.measure (Qb.code j) (Reg.code, j)) = fun _ => 1 from rfl]; simp
      have e5 : ∀ n, ((List.range n).flatMap fun t => (roundOps d t true).map fun o => o.qubits.length).sum ≤ n * (6 * d) := by
        intro n
        induction n with
        | zero => simp
        | succ n ih =>
          rw [List.range_succ, List.flatMap_append, List.sum_append]
          have := length_round d n true
          simp only [List.flatMap_cons, List.flatMap_nil, List.append_nil]
          rw [Nat.succ_mul]
          omega
      have e6 := length_round d (T - 1) false
      have e7 := e5 (T - 1)
      rw [e4]
      obtain ⟨k, rfl⟩ : ∃ k, T = k + 1 := ⟨T - 1, by omega⟩
      have e8 : (k + 1) * (d - 1) ≤ (k + 1) * d := Nat.mul_le_mul_left _ (Nat.sub_le d 1)
      simp only [Nat.add_sub_cancel] at e6 e7 ⊢
      nlinarith
    have h2 : ((allPlaces d T b).toFinset.card) ≤ 10 * T * d := (List.toFinset_card_le _).trans h1
    exact_mod_cast h2

/-! ### Independent faults -/

theorem choice_places (l : List Place) (ω : Fin l.length → Option Pauli) (x : Place) :
    x ∈ (choiceFaults l ω).places ↔ ∃ i, l.get i = x ∧ (ω i).isSome := by
  unfold choiceFaults Faults.places
  simp only [List.mem_append, List.mem_map, List.mem_filterMap, List.mem_finRange, true_and]
  constructor
  · rintro (⟨e, ⟨i, h⟩, rfl⟩ | ⟨c, ⟨i, h⟩, rfl⟩)
    · refine ⟨i, ?_⟩
      split at h
      · next a P h1 h2 =>
        obtain rfl := Option.some.inj h
        exact ⟨h1, by rw [h2]; rfl⟩
      · simp at h
    · refine ⟨i, ?_⟩
      split at h
      · next a P h1 h2 =>
        obtain rfl := Option.some.inj h
        exact ⟨h1, by rw [h2]; rfl⟩
      · simp at h
  · rintro ⟨i, rfl, h⟩
    obtain ⟨P, hP⟩ := Option.isSome_iff_exists.1 h
    cases hx : l.get i with
    | inl a => exact Or.inl ⟨(a.1, a.2, P), ⟨i, by rw [hx, hP]⟩, rfl⟩
    | inr c => exact Or.inr ⟨c, ⟨i, by rw [hx, hP]⟩, rfl⟩

theorem choice_nodup (l : List Place) (hl : l.Nodup) (ω : Fin l.length → Option Pauli) : (choiceFaults l ω).places.Nodup := by
  unfold choiceFaults Faults.places
  rw [List.map_filterMap, List.map_filterMap, List.nodup_append]
  refine ⟨?_, ?_, ?_⟩
  · refine (List.nodup_finRange _).filterMap ?_
    intro i j x hi hj
    refine hl.injective_get ?_
    have key : ∀ k, x ∈ Option.map (fun e : Fault => (Sum.inl (e.1, e.2.1) : Place)) (match l.get k, ω k with
      | .inl a, some P => some (a.1, a.2, P)
      | _, _ => none) → l.get k = x := by
      intro k hk
      split at hk
      · next a P h1 h2 => rw [h1]; simpa using hk
      · simp at hk
    rw [key i hi, key j hj]
  · refine (List.nodup_finRange _).filterMap ?_
    intro i j x hi hj
    refine hl.injective_get ?_
    have key : ∀ k, x ∈ Option.map (fun c : Cl => (Sum.inr c : Place)) (match l.get k, ω k with
      | .inr c, some _ => some c
      | _, _ => none) → l.get k = x := by
      intro k hk
      split at hk
      · next a P h1 h2 => rw [h1]; simpa using hk
      · simp at hk
    rw [key i hi, key j hj]
  · intro x hx y hy hxy
    subst hxy
    simp only [List.mem_filterMap, Option.map_eq_some_iff] at hx hy
    obtain ⟨_, _, e, -, rfl⟩ := hx
    obtain ⟨_, _, c, -, h⟩ := hy
    simp at h

/-- The noise in which faults happen independently at the places of a list, of each kind with the given probability. -/
noncomputable def independent (l : List Place) (q : Place → Pauli → ℝ) (h0 : ∀ x P, 0 ≤ q x P) (h1 : ∀ x, ∑ P, q x P ≤ 1) :
    Noise (Fin l.length → Option Pauli) where
  prob ω := ∏ i, placeProb (q (l.get i)) (ω i)
  nonneg ω := Finset.prod_nonneg fun i _ => by
    cases ω i with
    | none => exact sub_nonneg.2 (h1 _)
    | some P => exact h0 _ P
  total := by
    have := Finset.prod_univ_sum (fun _ : Fin l.length => (Finset.univ : Finset (Option Pauli))) (fun i o => placeProb (q (l.get i)) o)
    rw [Fintype.piFinset_univ] at this
    rw [← this]
    refine Finset.prod_eq_one fun i _ => ?_
    rw [Fintype.sum_option]
    simp [placeProb]
  faults := choiceFaults l

/-- **C116** Independent faults are locally stochastic. -/
theorem C116_independent (l : List Place) (hl : l.Nodup) (q : Place → Pauli → ℝ) (h0 : ∀ x P, 0 ≤ q x P) (h1 : ∀ x, ∑ P, q x P ≤ 1) {p : ℝ}
    (hp : ∀ x ∈ l, ∑ P, q x P ≤ p) : LocallyStochastic (independent l q h0 h1) l.toFinset p where
  nodup := choice_nodup l hl
  mem ω x hx := by
    obtain ⟨i, rfl, -⟩ := (choice_places l ω x).1 hx
    exact List.mem_toFinset.2 (List.get_mem l i)
  bound A hA := by
    classical
    let t : Fin l.length → Finset (Option Pauli) := fun i => if l.get i ∈ A then Finset.univ.filter fun o => o.isSome else Finset.univ
    have hsub : ∀ ω : Fin l.length → Option Pauli, A ⊆ (choiceFaults l ω).places.toFinset ↔ ω ∈ Fintype.piFinset t := by
      intro ω
      rw [Fintype.mem_piFinset]
      constructor
      · intro h i
        by_cases hi : l.get i ∈ A
        · obtain ⟨j, hj, hs⟩ := (choice_places l ω _).1 (List.mem_toFinset.1 (h hi))
          obtain rfl := hl.injective_get hj
          show _ ∈ if l.get j ∈ A then _ else _
          rw [if_pos hi]
          simp [hs]
        · show _ ∈ if l.get i ∈ A then _ else _
          rw [if_neg hi]
          exact Finset.mem_univ _
      · intro h x hx
        obtain ⟨i, rfl⟩ := List.mem_iff_get.1 (List.mem_toFinset.1 (hA hx))
        rw [List.mem_toFinset, choice_places]
        refine ⟨i, rfl, ?_⟩
        have := h i
        simp only [t, hx, if_true, Finset.mem_filter] at this
        exact this.2
    have e : (∑ ω, if A ⊆ ((independent l q h0 h1).faults ω).places.toFinset then (independent l q h0 h1).prob ω else 0) =
        ∏ i, ∑ o ∈ t i, placeProb (q (l.get i)) o := by
      rw [Finset.prod_univ_sum, ← Finset.sum_filter]
      refine Finset.sum_congr ?_ fun ω _ => rfl
      ext ω
      rw [Finset.mem_filter, ← hsub]
      simp [independent]
    rw [e]
    have hle : ∀ i, (∑ o ∈ t i, placeProb (q (l.get i)) o) ≤ if l.get i ∈ A then p else 1 := by
      intro i
      by_cases hi : l.get i ∈ A
      · simp only [t, hi, if_true]
        rw [Finset.sum_filter, Fintype.sum_option]
        simpa [placeProb] using hp _ (List.get_mem l i)
      · simp only [t, hi, if_false]
        rw [Fintype.sum_option]
        simp [placeProb]
    have hge : ∀ i, 0 ≤ ∑ o ∈ t i, placeProb (q (l.get i)) o := by
      intro i
      refine Finset.sum_nonneg fun o _ => ?_
      cases o with
      | none => exact sub_nonneg.2 (h1 _)
      | some P => exact h0 _ P
    refine (Finset.prod_le_prod (fun i _ => hge i) fun i _ => hle i).trans ?_
    rw [Finset.prod_ite, Finset.prod_const, Finset.prod_const_one, mul_one]
    refine le_of_eq (congrArg (p ^ ·) ?_)
    refine Finset.card_bij (fun i _ => l.get i) (fun i hi => (Finset.mem_filter.1 hi).2) (fun i _ j _ h => hl.injective_get h) fun x hx => ?_
    obtain ⟨i, rfl⟩ := List.mem_iff_get.1 (List.mem_toFinset.1 (hA hx))
    exact ⟨i, by simpa using hx, rfl⟩

/-- **C116** Faults with total probability at most `p`, independently at each qubit of each instruction and at each classical bit: the decoder
fails with probability at most `(20 e T p) ^ m`. -/
theorem C116_circuit_noise (d T : Nat) (hd : 2 ≤ d) (hT : 1 ≤ T) (b : Bool) (hmwm : ∀ G, FiniteGraph G → IsMaxWeight G (mwm G))
    (q : Place → Pauli → ℝ) (h0 : ∀ x P, 0 ≤ q x P) (h1 : ∀ x, ∑ P, q x P ≤ 1) {p : ℝ} (hp : ∀ x, ∑ P, q x P ≤ p) :
    logicalErrorRate mwm d T b (independent (allPlaces d T b).dedup q h0 h1) ≤ (20 * Real.exp 1 * T * p) ^ ((d + 1) / 2) := by
  obtain ⟨c1, c2⟩ := C116_places d T hT b
  have hN := C116_independent (allPlaces d T b).dedup (List.nodup_dedup _) q h0 h1 (fun x _ => hp x)
  have hL : (allPlaces d T b).dedup.toFinset = (allPlaces d T b).toFinset := by
    ext x
    simp
  rw [hL] at hN
  have := C116_threshold d T hd hT b hmwm _ c1 ((Finset.sum_nonneg fun P _ => h0 (.inr (.code, 0)) P).trans (hp _)) hN c2
  refine this.trans (le_of_eq ?_)
  congr 1
  ring

/-- Depolarizing noise and readout errors of one in a thousand: four rounds of a code with distance 9. -/
example : ∃ q : Place → Pauli → ℝ, (∀ x P, 0 < q x P) ∧ (∀ x, ∑ P, q x P ≤ 1) ∧ (∀ x, ∑ P, q x P ≤ 1 / 1000) ∧
    (20 * Real.exp 1 * (4 : ℕ) * (1 / 1000)) ^ ((9 + 1) / 2) < (1 / 1000 : ℝ) := by
  have h3 : ∀ c : ℝ, ∑ _P : Pauli, c = 3 * c := by
    intro c
    rw [Finset.sum_const, nsmul_eq_mul]
    rfl
  refine ⟨fun _ _ => 1 / 3000, fun _ _ => by norm_num, fun _ => by rw [h3]; norm_num, fun _ => by rw [h3]; norm_num, ?_⟩
  have he : Real.exp 1 < 3 := lt_trans Real.exp_one_lt_d9 (by norm_num)
  have hp : 0 < Real.exp 1 := Real.exp_pos 1
  have h : 20 * Real.exp 1 * ((4 : ℕ) : ℝ) * (1 / 1000) ≤ 0.2400 := by
    norm_num
    linarith
  refine lt_of_le_of_lt (pow_le_pow_left₀ (by positivity) h _) ?_
  norm_num

/-! ### What `get_logical_prob` reports -/

theorem tally_spec (p : Str → Bool) (keys : List Str) :
    (tally keys).WF ∧ countsWhere p (tally keys) = keys.countP p ∧ ∀ kv ∈ tally keys, kv.1 ∈ keys := by
  have hfold : ∀ (keys : List Str) (acc : Dict Str Nat), keys.foldl (fun d k => d.set k (d.getD k 0 + 1)) acc =
      (keys.map fun k => (k, 1)).foldl (fun (acc : Dict Str Nat) kv =>
        match acc.get? (id kv.1) with
        | some v => acc.set (id kv.1) (v + kv.2)
        | none => acc.set (id kv.1) kv.2) acc := by
    intro keys
    induction keys with
    | nil => intro acc; rfl
    | cons k keys ih =>
      intro acc
      rw [List.foldl_cons, List.map_cons, List.foldl_cons, ih]
      congr 1
      unfold Dict.getD
      cases h : acc.get? k with
      | none => simp [h]
      | some v => simp [h]
  obtain ⟨h1, h2, h3⟩ := merge_counts id p (keys.map fun k => (k, 1)) [] Dict.wf_nil
  have e := hfold keys []
  replace h1 : (tally keys).WF := Eq.mpr (congrArg Dict.WF e) h1
  replace h2 : countsWhere p (tally keys) = _ := Eq.trans (congrArg (countsWhere p) e) h2
  replace h3 : ∀ k ∈ (tally keys).keys, k ∈ Dict.keys ([] : Dict Str Nat) ∨ ∃ kv ∈ keys.map fun k => (k, 1), k = id kv.1 :=
    fun k hk => h3 k (Eq.mp (congrArg (fun x : Dict Str Nat => k ∈ x.keys) e) hk)
  refine ⟨h1, ?_, ?_⟩
  · refine h2.trans ?_
    have : ∀ keys : List Str, countsWhere (fun s => p (id s)) (keys.map fun k => (k, 1)) = keys.countP p := by
      intro keys
      induction keys with
      | nil => rfl
      | cons k keys ih =>
        unfold countsWhere at ih ⊢
        rw [List.countP_cons, ← ih]
        cases h : p k <;> simp [h]; omega
    rw [this]
    simp [countsWhere]
  · intro kv hkv
    rcases h3 kv.1 (List.mem_map.2 ⟨kv, hkv, rfl⟩) with h | ⟨kv', h, h'⟩
    · simp [Dict.keys] at h
    · obtain ⟨k, hk, rfl⟩ := List.mem_map.1 h
      rw [h']
      exact hk

theorem countsWhere_map (p : Str → Bool) (g : Str → Str) (c : Dict Str Nat) :
    countsWhere p (c.map fun kv => (g kv.1, kv.2)) = countsWhere (fun s => p (g s)) c := by
  induction c with
  | nil => rfl
  | cons kv c ih =>
    unfold countsWhere at ih ⊢
    cases h : p (g kv.1) <;> simp [h, ih]

/-- **C116** What `get_logical_prob` reports for the counts of any list of noisy shots is the share of the shots the decoder fails on. -/
theorem C116_reported (d T : Nat) (hd : 2 ≤ d) (hT : 1 ≤ T) (b : Bool) (hmwm : ∀ G, FiniteGraph G → IsMaxWeight G (mwm G)) (fs : List Faults)
    (hfs : ∀ f ∈ fs, ∀ x ∈ f.places, x.Valid d T) (hne : fs ≠ []) :
    reported mwm d T b (tally (fs.map (runKey d T b))) =
      some ((fs.countP fun f => decide (decodeKey mwm d T (runKey d T b f) ≠ some [bitChar b, ' ', bitChar b]) : Nat) / (fs.length : Rat)) := by
  obtain ⟨S, hS, -, -⟩ := graph_spec d T hd hT
  set keys := fs.map (runKey d T b) with hkeys
  have hwf := (tally_spec (fun _ => true) keys).1
  have hmem := (tally_spec (fun _ => true) keys).2.2
  have hkey : ∀ kv ∈ tally keys, ∃ f ∈ fs, runKey d T b f = kv.1 := fun kv hkv => List.mem_map.1 (hmem kv hkv)
  have hproc := foldlM_process d T _ (fun m m' h => (C09_process_injective d T hd hT b m m' h).2)
    (fun m => (C09_process_injective d T hd hT b m m rfl).1) (tally keys) hwf (fun kv hkv => by
      obtain ⟨f, -, h⟩ := hkey kv hkv
      exact ⟨_, h.symm⟩)
  have hdec : ∀ f ∈ fs, ∃ c : Bool, matching mwm S ((processString d T (runKey d T b f)).getD []) = some [bitChar c, ' ', bitChar c] ∧
      decodeKey mwm d T (runKey d T b f) = some [bitChar c, ' ', bitChar c] := by
    intro f hf
    obtain ⟨c, hc⟩ := C116_always d T hd hT b f (hfs f hf) hmwm
    obtain ⟨s, hs⟩ := Option.isSome_iff_exists.1 (C09_process_injective d T hd hT b
      (noisyMemory ((mkCode d T).circ b).ops f.errors f.flips) _ rfl).1
    have hs' : processString d T (runKey d T b f) = some s := hs
    refine ⟨c, ?_, hc⟩
    unfold decodeKey at hc
    simp only [Option.bind_eq_bind, hS, hs', Option.bind_some] at hc
    rw [hs']
    exact hc
  have hsum : (((tally keys).map fun kv => ((processString d T kv.1).getD [], kv.2)).map (·.2)).sum = fs.length := by
    have h := (tally_spec (fun _ => true) keys).2.1
    have h2 : keys.countP (fun _ => true) = fs.length := by simp [hkeys]
    rw [h2] at h
    rw [← h, List.map_map]
    unfold countsWhere
    rw [List.filter_eq_self.2 (by simp)]
    rfl
  obtain ⟨p, hp1, -, -, hp2⟩ := C11_logical_prob (fun s => (matching mwm S s).getD []) [bitChar b]
    ((tally keys).map fun kv => ((processString d T kv.1).getD [], kv.2)) (by
      intro kv hkv
      obtain ⟨kv', hkv', rfl⟩ := List.mem_map.1 hkv
      obtain ⟨f, hf, h⟩ := hkey kv' hkv'
      obtain ⟨c, hc, -⟩ := hdec f hf
      dsimp only
      rw [← h, hc]
      simp) (by
      rw [hsum]
      exact List.length_pos_iff.2 hne |>.ne')
  have : reported mwm d T b (tally keys) = some p := by
    unfold reported
    simp only [Option.bind_eq_bind, hS, hproc, Option.bind_some]
    exact hp1
  rw [this, hp2, hsum, countsWhere_map _ (fun k => (processString d T k).getD []), (tally_spec _ keys).2.1, hkeys, List.countP_map]
  congr 3
  refine List.countP_congr fun f hf => ?_
  obtain ⟨c, hc1, hc2⟩ := hdec f hf
  simp only [Function.comp, hc1, hc2, Option.getD_some, decide_eq_true_eq]
  cases b <;> cases c <;> simp [bitChar]

theorem sum_shots (w : Ω → ℝ) (hw : ∑ ω, w ω = 1) (g : Ω → ℝ) (n : Nat) (i : Fin n) :
    ∑ sh : Fin n → Ω, (∏ j, w (sh j)) * g (sh i) = ∑ ω, w ω * g ω := by
  classical
  have h := Finset.prod_univ_sum (fun _ : Fin n => (Finset.univ : Finset Ω)) (fun j ω => w ω * if j = i then g ω else 1)
  rw [Fintype.piFinset_univ] at h
  have h1 : ∀ sh : Fin n → Ω, (∏ j, (w (sh j) * if j = i then g (sh j) else 1)) = (∏ j, w (sh j)) * g (sh i) := by
    intro sh
    rw [Finset.prod_mul_distrib]
    congr 1
    rw [Finset.prod_ite_eq' Finset.univ i (fun j => g (sh j))]
    simp
  simp only [h1] at h
  rw [← h, Finset.prod_eq_single i]
  · simp
  · intro j _ hj
    simp only [if_neg hj, mul_one, hw]
  · simp

/-- **C116** The expected value of what `get_logical_prob` reports for `n` independent shots is the logical error rate, for every number of shots. -/
theorem C116_expected (d T : Nat) (hd : 2 ≤ d) (hT : 1 ≤ T) (b : Bool) (hmwm : ∀ G, FiniteGraph G → IsMaxWeight G (mwm G)) (N : Noise Ω)
    {L : Finset Place} (hL : ∀ x ∈ L, x.Valid d T) {p : ℝ} (hN : LocallyStochastic N L p) {n : Nat} (hn : 1 ≤ n) :
    ∃ rep : (Fin n → Ω) → Rat,
      (∀ sh, reported mwm d T b (tally ((List.finRange n).map fun i => runKey d T b (N.faults (sh i)))) = some (rep sh)) ∧
      ∑ sh : Fin n → Ω, (∏ i, N.prob (sh i)) * (rep sh : ℝ) = logicalErrorRate mwm d T b N := by
  classical
  let wrong : Ω → ℝ := fun ω => if decodeKey mwm d T (runKey d T b (N.faults ω)) = some [bitChar b, ' ', bitChar b] then 0 else 1
  refine ⟨fun sh => (((List.finRange n).map fun i => N.faults (sh i)).countP
    fun f => decide (decodeKey mwm d T (runKey d T b f) ≠ some [bitChar b, ' ', bitChar b]) : Nat) / (n : Rat), fun sh => ?_, ?_⟩
  · have := C116_reported d T hd hT b hmwm ((List.finRange n).map fun i => N.faults (sh i)) (by
      intro f hf x hx
      obtain ⟨i, -, rfl⟩ := List.mem_map.1 hf
      exact hL x (hN.mem _ x hx)) (by
      intro h
      have := congrArg List.length h
      simp at this
      omega)
    rw [List.map_map] at this
    refine this.trans ?_
    simp
  · have hcount : ∀ sh : Fin n → Ω, ((((List.finRange n).map fun i => N.faults (sh i)).countP
        fun f => decide (decodeKey mwm d T (runKey d T b f) ≠ some [bitChar b, ' ', bitChar b]) : Nat) : ℝ) = ∑ i, wrong (sh i) := by
      intro sh
      have : ∀ l : List (Fin n), (((l.map fun i => N.faults (sh i)).countP
          fun f => decide (decodeKey mwm d T (runKey d T b f) ≠ some [bitChar b, ' ', bitChar b]) : Nat) : ℝ) = (l.map fun i => wrong (sh i)).sum := by
        intro l
        induction l with
        | nil => simp
        | cons a l ih =>
          rw [List.map_cons, List.countP_cons, List.map_cons, List.sum_cons, Nat.cast_add, ih, add_comm]
          congr 1
          simp only [wrong]
          by_cases h : decodeKey mwm d T (runKey d T b (N.faults (sh a))) = some [bitChar b, ' ', bitChar b] <;> simp [h]
      rw [this, ← List.ofFn_eq_map, List.sum_ofFn]
    have hnR : (n : ℝ) ≠ 0 := by
      have : (0 : ℝ) < n := by exact_mod_cast hn
      exact this.ne'
    have e : ∀ sh : Fin n → Ω, (∏ i, N.prob (sh i)) * (((((List.finRange n).map fun i => N.faults (sh i)).countP
        fun f => decide (decodeKey mwm d T (runKey d T b f) ≠ some [bitChar b, ' ', bitChar b]) : Nat) / (n : Rat) : Rat) : ℝ) =
        (∑ i, (∏ j, N.prob (sh j)) * wrong (sh i)) * (n : ℝ)⁻¹ := by
      intro sh
      rw [Rat.cast_div, Rat.cast_natCast, Rat.cast_natCast, hcount, ← Finset.mul_sum, mul_assoc, div_eq_mul_inv]
    rw [Finset.sum_congr rfl fun sh _ => e sh, ← Finset.sum_mul, Finset.sum_comm, Finset.sum_congr rfl fun i _ => sum_shots N.prob N.total wrong n i]
    rw [Finset.sum_const, Finset.card_univ, Fintype.card_fin, nsmul_eq_mul, mul_comm, ← mul_assoc, inv_mul_cancel₀ hnR, one_mul]
    unfold logicalErrorRate
    refine Finset.sum_congr rfl fun ω _ => ?_
    simp only [wrong]
    split <;> simp

/-- Three shots of a code with distance 3: no fault, one `X`, and two. -/
example : let fs : List Faults := [⟨[], []⟩, ⟨[(0, .code 1, .x)], []⟩, ⟨[(0, .code 0, .x), (0, .code 1, .x)], [(.round 0, 1)]⟩]
    (∀ f ∈ fs, ∀ x ∈ f.places, x.Valid 3 1) ∧ fs ≠ [] ∧
      tally (fs.map (runKey 3 1 false)) = [("000 00".toList, 1), ("010 11".toList, 1), ("011 00".toList, 1)] := by
  refine ⟨?_, by simp, by decide +kernel⟩
  intro f hf x hx
  simp only [List.mem_cons, List.not_mem_nil, or_false] at hf
  rcases hf with rfl | rfl | rfl <;> simp [Faults.places] at hx
  · subst hx; simp [Place.Valid, Qb.Valid]
  · rcases hx with rfl | rfl | rfl <;> simp [Place.Valid, Qb.Valid, ClValid]

end Verif.RepCode
