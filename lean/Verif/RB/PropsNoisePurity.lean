import Verif.RB.PropsNoise
import Verif.RB.PropsPurity
set_option linter.unusedSimpArgs false
set_option linter.unusedVariables false
/-
C108: purity RB on a device with depolarising noise.
-/
namespace Verif.RB
open Verif.Quantum Complex
variable {E : Type} {Mem : ℕ → E → Prop} {N : ℕ}

/-- Amplitudes of |0⟩ after the rotation of a digit. -/
noncomputable def amp0 (t : ℕ) (b : Bool) : ℂ :=
  if t = 0 then (if b then 0 else 1) else if t = 1 then (if b then -I * rt else rt) else rt

theorem normSq_rt : normSq (rt : ℂ) = 1 / 2 := by
  unfold rt
  rw [normSq_ofReal, div_mul_div_comm, Real.mul_self_sqrt (by norm_num), one_mul]

theorem normSq_amp0 (t : ℕ) (b : Bool) : normSq (amp0 t b) = if t = 0 then (if b then 0 else 1) else 1 / 2 := by
  unfold amp0
  split_ifs <;> simp [normSq_rt]

/-- The rotations on the own register of a subset. -/
def locRot (m d : ℕ) : List Ins :=
  (List.range m).flatMap fun j =>
    match dig3 d j with
    | 0 => []
    | 1 => [.gate .rx90 [j]]
    | _ => [.gate .ry90 [j]]

theorem app1_prod {n : ℕ} (u : Mat2 ℂ) (q : Fin n) (f : Fin n → Bool → ℂ) (hf : ∀ b, f q b = if b then 0 else 1) :
    app1 u q (fun x => ∏ k, f k (x k)) = fun x => ∏ k, if k = q then u (x k) false else f k (x k) := by
  funext x
  unfold app1
  beta_reduce
  have h : ∀ b, ∏ k, f k (Function.update x q b k) = f q b * ∏ k ∈ Finset.univ.erase q, f k (x k) := by
    intro b
    rw [← Finset.mul_prod_erase Finset.univ _ (Finset.mem_univ q), Function.update_self]
    congr 1
    refine Finset.prod_congr rfl fun k hk => ?_
    rw [Function.update_of_ne (Finset.ne_of_mem_erase hk)]
  rw [h, h, hf, hf, ← Finset.mul_prod_erase Finset.univ (fun k => if k = q then u (x k) false else f k (x k)) (Finset.mem_univ q), if_pos rfl]
  rw [Finset.prod_congr rfl fun k hk => if_neg (Finset.ne_of_mem_erase hk)]
  simp

theorem run_locRot (n d m : ℕ) (hm : m ≤ n) :
    run n (locRot m d) ket0 = fun x => ∏ k : Fin n, amp0 (if k.val < m then dig3 d k else 0) (x k) := by
  induction m with
  | zero =>
    show ket0 = _
    funext x
    unfold ket0
    simp only [Nat.not_lt_zero, if_false, amp0, if_true]
    by_cases hx : x = fun _ => false
    · subst hx; simp
    · rw [if_neg hx]
      obtain ⟨k, hk⟩ : ∃ k, x k = true := by
        by_contra hne
        push Not at hne
        exact hx (funext fun k => by simpa using hne k)
      rw [Finset.prod_eq_zero (Finset.mem_univ k)]
      rw [hk]; rfl
  | succ m ih =>
    have hq : m < n := hm
    have e : locRot (m + 1) d = locRot m d ++ (match dig3 d m with | 0 => [] | 1 => [.gate .rx90 [m]] | _ => [.gate .ry90 [m]]) := by
      unfold locRot
      rw [List.range_succ, List.flatMap_append]
      simp
    rw [e, run_append, ih (by omega)]
    have key : ∀ u : Mat2 ℂ, (∀ b, u b false = amp0 (dig3 d m) b) → app1 u ⟨m, hq⟩ (fun x => ∏ k : Fin n, amp0 (if k.val < m then dig3 d k else 0) (x k)) =
        fun x => ∏ k : Fin n, amp0 (if k.val < m + 1 then dig3 d k else 0) (x k) := by
      intro u hu
      rw [app1_prod u ⟨m, hq⟩ (fun k b => amp0 (if k.val < m then dig3 d k else 0) b) (by simp [amp0])]
      funext x
      refine Finset.prod_congr rfl fun k _ => ?_
      by_cases hk : k = ⟨m, hq⟩
      · subst hk
        rw [if_pos rfl, hu, if_pos (Nat.lt_succ_self m)]
      · have : k.val ≠ m := fun h => hk (Fin.ext h)
        rw [if_neg hk]
        congr 1
        have : (k.val < m + 1) ↔ k.val < m := by omega
        simp only [this]
    rcases ht : dig3 d m with _ | _ | t
    · show run n [] _ = _
      rw [run_nil]
      funext x
      refine Finset.prod_congr rfl fun k _ => ?_
      congr 1
      by_cases hk : k.val = m
      · rw [hk, ht]; simp
      · have : (k.val < m + 1) ↔ k.val < m := by omega
        simp only [this]
    · show run n [.gate .rx90 [m]] _ = _
      rw [run_cons, run_nil, act_one _ _ hq]
      exact key _ fun b => by rw [ht]; cases b <;> simp [Kind.mat, amp0]
    · show run n [.gate .ry90 [m]] _ = _
      rw [run_cons, run_nil, act_one _ _ hq]
      exact key _ fun b => by rw [ht]; cases b <;> simp [Kind.mat, amp0]

/-- The rotations of a purity circuit on one subset. -/
theorem part_purity {pats : List (List ℕ)} (hp : Pats Mem N pats) (hnd : pats.Nodup) {pat : List ℕ} (hmem : pat ∈ pats) {m : ℕ} (hlen : ∀ p ∈ pats, p.length = m) (d : ℕ) :
    replaceQ (locRot m d) pat = some (part pat (purityGates pats m d)) := by
  have main : ∀ m' ≤ m, replaceQ (locRot m' d) pat = some (part pat (purityGates pats m' d)) := by
    intro m' hm'
    induction m' with
    | zero => rfl
    | succ m' ih =>
      have e : locRot (m' + 1) d = locRot m' d ++ (match dig3 d m' with | 0 => [] | 1 => [.gate .rx90 [m']] | _ => [.gate .ry90 [m']]) := by
        unfold locRot
        rw [List.range_succ, List.flatMap_append]
        simp
      have e' : purityGates pats (m' + 1) d = purityGates pats m' d ++ (match dig3 d m' with
          | 0 => [] | 1 => pats.map fun p => .gate .rx90 [p.getD m' 0] | _ => pats.map fun p => .gate .ry90 [p.getD m' 0]) := by
        unfold purityGates
        rw [List.range_succ, List.flatMap_append, List.flatMap_cons, List.flatMap_nil, List.append_nil]
        rcases dig3 d m' with _ | _ | t <;> rfl
      rw [e, e', part_append]
      refine replaceQ_append (ih (by omega)) ?_
      have hl : m' < pat.length := by rw [hlen pat hmem]; omega
      have key : ∀ k : Kind, replaceQ [.gate k [m']] pat = some (part pat (pats.map fun p => .gate k [p.getD m' 0])) := by
        intro k
        have h1 : part pat (pats.map fun p => .gate k [p.getD m' 0]) = (pats.filter fun p => p = pat).map fun p => .gate k [p.getD m' 0] := by
          unfold part
          rw [List.filter_map]
          congr 1
          refine List.filter_congr fun p hpp => ?_
          simp only [Function.comp, List.all_cons, List.all_nil, Bool.and_true]
          have hl' : m' < p.length := by rw [hlen p hpp]; omega
          rw [List.getD_eq_getElem _ _ hl']
          by_cases he : p = pat
          · subst he; simp
          · have : p[m'] ∉ pat := by
              obtain ⟨i, hi⟩ := List.getElem?_of_mem hpp
              exact fun h => pats_dis hp hi pat hmem (fun h => he h.symm) _ (List.getElem_mem _) h
            simp [he, this]
        have h2 : (pats.filter fun p => p = pat) = [pat] := by
          rw [show (fun p => decide (p = pat)) = (fun p => p == pat) from funext fun p => by rw [beq_eq_decide], List.filter_beq]
          rw [List.count_eq_one_of_mem hnd hmem]; rfl
        rw [h1, h2]
        simp [replaceQ, replaceIns, hl, List.getD_eq_getElem]
      rcases ht : dig3 d m' with _ | _ | t
      · rfl
      · exact key _
      · exact key _
  exact main m (le_refl _)

theorem slice_ket0 {pat : List ℕ} (ht : Tgt N pat) {r : Basis (Fin N)} (hr : r ∈ rest ht) :
    slice ht.inj r (ket0 : State (Fin N) ℂ) = if r = (fun _ => false) then ket0 else fun _ => 0 := by
  simp only [rest, Finset.mem_filter, Finset.mem_univ, true_and] at hr
  funext x
  unfold slice
  by_cases h0 : r = fun _ => false
  · rw [if_pos h0]
    unfold ket0
    by_cases hx : x = fun _ => false
    · rw [if_pos hx, if_pos]
      rw [hx, ← hr, glue_self ht.injective, h0]
    · rw [if_neg hx, if_neg]
      intro h
      apply hx
      funext j
      have := congrFun h (ht.inj j)
      rwa [glue_at ht.injective] at this
  · rw [if_neg h0]
    unfold ket0
    rw [if_neg]
    intro h
    apply h0
    funext q
    by_cases hq : ∃ j, ht.inj j = q
    · obtain ⟨j, rfl⟩ := hq
      exact congrFun hr j
    · push Not at hq
      rw [← glue_off r x q hq, h]

theorem run_zero {n : ℕ} (c : List Ins) (hc : ∀ i ∈ c, Ok n i) : run n c (fun _ => 0) = fun _ => 0 := by
  have := run_smul c hc 0 (fun _ => 0)
  simpa using this

theorem locRot_ok (n m d : ℕ) (hm : m ≤ n) : ∀ i ∈ locRot m d, Ok n i := by
  intro i hi
  obtain ⟨j, hj, hi⟩ := List.mem_flatMap.1 hi
  have hj' := List.mem_range.1 hj
  rcases ht : dig3 d j with _ | _ | t <;> rw [ht] at hi <;> simp at hi <;> subst hi <;> exact ⟨rfl, by omega⟩

/-- Readings of the rotated ground state. -/
theorem mp_rot {pat : List ℕ} (ht : Tgt N pat) {d : ℕ} {c : List Ins} (hc : replaceQ (locRot pat.length d) pat = some c) (x : Fin pat.length → Bool) :
    mp pat x (run N c ket0) = ∏ k : Fin pat.length, if dig3 d k = 0 then (if x k then (0 : ℝ) else 1) else 1 / 2 := by
  have hok := locRot_ok pat.length pat.length d (le_refl _)
  obtain ⟨d', h3, -, -, -, h4⟩ := replaceQ_spec ht hok
  rw [hc, Option.some.injEq] at h3
  subst h3
  rw [mp_slice ht]
  simp only [h4]
  rw [Finset.sum_eq_single (fun _ => false)]
  · rw [slice_ket0 ht (by simp [rest]), if_pos rfl, run_locRot _ _ _ (le_refl _)]
    unfold Quantum.prob
    rw [map_prod]
    refine Finset.prod_congr rfl fun k _ => ?_
    rw [if_pos k.2, normSq_amp0]
  · intro r hr h0
    rw [slice_ket0 ht hr, if_neg h0, run_zero _ hok]
    simp [Quantum.prob]
  · intro h
    exact absurd (by simp [rest]) h

theorem sum_testBit (n : ℕ) (g : ℕ → Bool → ℝ) :
    ∑ y ∈ Finset.range (2 ^ n), ∏ k ∈ Finset.range n, g k (y.testBit k) = ∏ k ∈ Finset.range n, (g k false + g k true) := by
  induction n with
  | zero => simp
  | succ n ih =>
    rw [pow_succ, mul_two, Finset.sum_range_add, Finset.prod_range_succ, ← ih, mul_add, Finset.sum_mul, Finset.sum_mul]
    congr 1
    · refine Finset.sum_congr rfl fun y hy => ?_
      rw [Finset.prod_range_succ, Nat.testBit_lt_two_pow (Finset.mem_range.1 hy)]
    · refine Finset.sum_congr rfl fun y hy => ?_
      rw [Finset.prod_range_succ]
      congr 1
      · refine Finset.prod_congr rfl fun k hk => ?_
        rw [Nat.testBit_two_pow_add_gt (Finset.mem_range.1 hk)]
      · rw [Nat.testBit_two_pow_add_eq, Nat.testBit_lt_two_pow (Finset.mem_range.1 hy)]; rfl

theorem zsign_prod (n i j : ℕ) (hi : i < 2 ^ n) : ((Purity.zsign i j : ℤ) : ℝ) = ∏ k ∈ Finset.range n, if i.testBit k && j.testBit k then (-1 : ℝ) else 1 := by
  rw [Purity.C80_sign n i j hi]
  clear hi
  induction n with
  | zero => simp
  | succ n ih =>
    rw [Finset.prod_range_succ, ← ih, List.range_succ, List.map_append, List.sum_append, pow_add]
    push_cast
    congr 1
    simp only [List.map_cons, List.map_nil, List.sum_cons, List.sum_nil, add_zero, ← Nat.toNat_testBit]
    cases i.testBit n <;> cases j.testBit n <;> simp

/-- The correlators of the rotated, depolarised ground state. -/
theorem corr_rot (n d ind : ℕ) (hind : ind < 2 ^ n) (P : ℝ) :
    ∑ y ∈ Finset.range (2 ^ n), ((Purity.zsign ind y : ℤ) : ℝ) *
      (P * (∏ k : Fin n, if dig3 d k = 0 then (if y.testBit k then (0 : ℝ) else 1) else 1 / 2) + (1 - P) / 2 ^ n) =
    if ind = 0 then 1 else if ∀ k < n, ind.testBit k = true → dig3 d k = 0 then P else 0 := by
  have h0 : ∀ y : ℕ, (∏ k : Fin n, if dig3 d k = 0 then (if y.testBit k then (0 : ℝ) else 1) else 1 / 2) =
      ∏ k ∈ Finset.range n, if dig3 d k = 0 then (if y.testBit k then (0 : ℝ) else 1) else 1 / 2 := fun y =>
    (Finset.prod_range fun k => if dig3 d k = 0 then (if y.testBit k then (0 : ℝ) else 1) else 1 / 2).symm
  have h1 : ∀ y : ℕ, ((Purity.zsign ind y : ℤ) : ℝ) * (P * (∏ k : Fin n, if dig3 d k = 0 then (if y.testBit k then (0 : ℝ) else 1) else 1 / 2) + (1 - P) / 2 ^ n) =
      P * (∏ k ∈ Finset.range n, (if ind.testBit k && y.testBit k then (-1 : ℝ) else 1) * if dig3 d k = 0 then (if y.testBit k then (0 : ℝ) else 1) else 1 / 2) +
        (1 - P) / 2 ^ n * ∏ k ∈ Finset.range n, if ind.testBit k && y.testBit k then (-1 : ℝ) else 1 := by
    intro y
    rw [h0, zsign_prod n ind y hind, Finset.prod_mul_distrib]; ring
  simp only [h1]
  rw [Finset.sum_add_distrib, ← Finset.mul_sum, ← Finset.mul_sum,
    sum_testBit n fun k b => (if ind.testBit k && b then (-1 : ℝ) else 1) * if dig3 d k = 0 then (if b then (0 : ℝ) else 1) else 1 / 2,
    sum_testBit n fun k b => if ind.testBit k && b then (-1 : ℝ) else 1]
  have e1 : ∏ k ∈ Finset.range n, (((if ind.testBit k && false then (-1 : ℝ) else 1) * if dig3 d k = 0 then (if false then (0 : ℝ) else 1) else 1 / 2) +
      (if ind.testBit k && true then (-1 : ℝ) else 1) * if dig3 d k = 0 then (if true then (0 : ℝ) else 1) else 1 / 2) =
      if ∀ k < n, ind.testBit k = true → dig3 d k = 0 then 1 else 0 := by
    by_cases h : ∀ k < n, ind.testBit k = true → dig3 d k = 0
    · rw [if_pos h]
      refine Finset.prod_eq_one fun k hk => ?_
      have := h k (Finset.mem_range.1 hk)
      by_cases hd : dig3 d k = 0
      · simp [hd]
      · have hb : ind.testBit k = false := by
          cases hb : ind.testBit k
          · rfl
          · exact absurd (this hb) hd
        simp [hb, hd]; norm_num
    · rw [if_neg h]
      push Not at h
      obtain ⟨k, hk, hb, hd⟩ := h
      refine Finset.prod_eq_zero (Finset.mem_range.2 hk) ?_
      simp [hb, hd]
  have e2 : ∏ k ∈ Finset.range n, ((if ind.testBit k && false then (-1 : ℝ) else 1) + (if ind.testBit k && true then (-1 : ℝ) else 1)) =
      if ind = 0 then 2 ^ n else 0 := by
    by_cases h : ind = 0
    · subst h
      simp only [Nat.zero_testBit]
      norm_num
    · rw [if_neg h]
      obtain ⟨k, hk⟩ : ∃ k, ind.testBit k = true := by
        by_contra hne
        push Not at hne
        exact h (Nat.eq_of_testBit_eq fun k => by rw [Nat.zero_testBit]; simpa using hne k)
      have hkn : k < n := by
        by_contra hge
        rw [Nat.testBit_lt_two_pow (lt_of_lt_of_le hind (Nat.pow_le_pow_right (by norm_num) (by omega)))] at hk
        cases hk
      refine Finset.prod_eq_zero (Finset.mem_range.2 hkn) ?_
      simp [hk]
  rw [e1, e2]
  have h2 : (2 : ℝ) ^ n ≠ 0 := by positivity
  by_cases h : ind = 0
  · rw [if_pos h, if_pos h, if_pos (by intro k _ hk; rw [h] at hk; simp at hk)]
    field_simp
    ring
  · rw [if_neg h, if_neg h]
    split_ifs <;> ring

/-- Pauli strings of `I` and `Z`. -/
def IZ (n c : ℕ) : Prop := ∀ k < n, c / 4 ^ k % 4 = 0 ∨ c / 4 ^ k % 4 = 3

theorem sum_range_four (m : ℕ) (f : ℕ → ℚ) :
    ∑ c ∈ Finset.range (4 * m), f c = ∑ c ∈ Finset.range m, (f (4 * c) + f (4 * c + 1) + f (4 * c + 2) + f (4 * c + 3)) := by
  induction m with
  | zero => simp
  | succ m ih =>
    rw [Finset.sum_range_succ, ← ih, show 4 * (m + 1) = 4 * m + 1 + 1 + 1 + 1 by ring, Finset.sum_range_succ, Finset.sum_range_succ, Finset.sum_range_succ,
      Finset.sum_range_succ]
    ring

theorem IZ_succ (n c t : ℕ) (ht : t < 4) : IZ (n + 1) (4 * c + t) ↔ (t = 0 ∨ t = 3) ∧ IZ n c := by
  have h0 : ∀ k, (4 * c + t) / 4 ^ (k + 1) = c / 4 ^ k := by
    intro k
    rw [pow_succ, Nat.mul_comm (4 ^ k), ← Nat.div_div_eq_div_mul]
    congr 1; omega
  constructor
  · intro h
    refine ⟨?_, fun k hk => ?_⟩
    · have := h 0 (by omega)
      rw [pow_zero, Nat.div_one] at this
      omega
    · have := h (k + 1) (by omega)
      rwa [h0] at this
  · rintro ⟨h1, h2⟩ k hk
    cases k with
    | zero => rw [pow_zero, Nat.div_one]; omega
    | succ k => rw [h0]; exact h2 k (by omega)

open Classical in
theorem sum_IZ (n : ℕ) : ∑ c ∈ Finset.range (4 ^ n), (if IZ n c then (1 : ℚ) else 0) = 2 ^ n := by
  induction n with
  | zero => simp [IZ]
  | succ n ih =>
    rw [pow_succ, mul_comm, sum_range_four]
    have : ∀ c, ((if IZ (n + 1) (4 * c) then (1 : ℚ) else 0) + (if IZ (n + 1) (4 * c + 1) then 1 else 0) + (if IZ (n + 1) (4 * c + 2) then 1 else 0) +
        (if IZ (n + 1) (4 * c + 3) then 1 else 0)) = 2 * if IZ n c then 1 else 0 := by
      intro c
      have g0 := IZ_succ n c 0 (by norm_num)
      change IZ (n + 1) (4 * c) ↔ _ at g0
      simp only [g0, IZ_succ n c 1 (by norm_num), IZ_succ n c 2 (by norm_num), IZ_succ n c 3 (by norm_num)]
      by_cases h : IZ n c
      · simp [h]; norm_num
      · simp [h]
    simp only [this]
    rw [← Finset.mul_sum, ih]; ring

theorem digits_zero (n c : ℕ) (hc : c < 4 ^ n) (h : ∀ k < n, c / 4 ^ k % 4 = 0) : c = 0 := by
  induction n generalizing c with
  | zero => simpa using hc
  | succ n ih =>
    have h0 := h 0 (by omega)
    rw [pow_zero, Nat.div_one] at h0
    have := ih (c / 4) (by rw [pow_succ] at hc; omega) fun k hk => by
      have := h (k + 1) (by omega)
      rwa [pow_succ, Nat.mul_comm, ← Nat.div_div_eq_div_mul] at this
    omega

theorem testBit_div (c k : ℕ) : c / 2 ^ k % 2 = 0 ↔ c.testBit k = false := by
  rw [← Nat.toNat_testBit]
  cases c.testBit k <;> simp

/-- The purity computed from these correlators. -/
theorem purity_rot (n : ℕ) (hn : 0 < n) (P : ℝ) (zcorr : ℕ → ℕ → ℚ)
    (h : ∀ d < 3 ^ n, ∀ ind < 2 ^ n, (zcorr d ind : ℝ) = if ind = 0 then 1 else if ∀ k < n, ind.testBit k = true → dig3 d k = 0 then P else 0) :
    ∃ v, Purity.purityOf n (3 ^ n) zcorr = some v ∧ (v : ℝ) = (1 - 1 / 2 ^ n) * P ^ 2 + 1 / 2 ^ n := by
  classical
  have hP : (zcorr 0 1 : ℝ) = P := by
    rw [h 0 (by positivity) 1 (Nat.one_lt_two_pow (by omega)), if_neg one_ne_zero, if_pos (by intro k _ _; simp [dig3])]
  obtain ⟨R, hR⟩ : ∃ R, R = zcorr 0 1 := ⟨_, rfl⟩
  rw [← hR] at hP
  have key := Purity.C80_purity n (fun c => if c = 0 then 1 else if IZ n c then R else 0) zcorr (by
    intro d hd ind hind
    have hz : Purity.F234 n ind d = 0 ↔ ind = 0 := by
      constructor
      · intro he
        refine Nat.eq_of_testBit_eq fun k => ?_
        rw [Nat.zero_testBit]
        by_cases hk : k < n
        · have := Purity.C80_pauli_index n ind d k hk
          rw [he, Nat.zero_div, Nat.zero_mod] at this
          rw [← testBit_div]
          by_contra hne
          rw [if_neg hne] at this
          unfold Purity.letter at this
          split_ifs at this
        · exact Nat.testBit_lt_two_pow (lt_of_lt_of_le hind (Nat.pow_le_pow_right (by norm_num) (by omega)))
      · rintro rfl
        refine digits_zero n _ (Purity.F234_lt _ _ _) fun k hk => ?_
        rw [Purity.C80_pauli_index n 0 d k hk]; simp
    have hiz : IZ n (Purity.F234 n ind d) ↔ ∀ k < n, ind.testBit k = true → dig3 d k = 0 := by
      refine forall_congr' fun k => forall_congr' fun hk => ?_
      rw [Purity.C80_pauli_index n ind d k hk]
      by_cases hb : ind / 2 ^ k % 2 = 0
      · rw [if_pos hb]
        rw [testBit_div] at hb
        simp [hb]
      · rw [if_neg hb]
        rw [testBit_div] at hb
        simp only [Bool.not_eq_false] at hb
        unfold Purity.letter dig3
        have : d / 3 ^ k % 3 < 3 := Nat.mod_lt _ (by norm_num)
        rw [show (ind.testBit k = true → d / 3 ^ k % 3 = 0) ↔ d / 3 ^ k % 3 = 0 from ⟨fun h => h hb, fun h _ => h⟩]
        generalize d / 3 ^ k % 3 = t at this
        interval_cases t <;> simp
    have : ((zcorr d ind : ℚ) : ℝ) = ((if Purity.F234 n ind d = 0 then 1 else if IZ n (Purity.F234 n ind d) then R else 0 : ℚ) : ℝ) := by
      rw [h d hd ind hind, ← hP]
      simp only [hz, hiz]
      split_ifs <;> simp
    exact_mod_cast this)
  refine ⟨_, key, ?_⟩
  have hsum : ((List.range (4 ^ n)).map fun c => (if c = 0 then (1 : ℚ) else if IZ n c then R else 0) ^ 2).sum = 2 ^ n * R ^ 2 + (1 - R ^ 2) := by
    have e : ((List.range (4 ^ n)).map fun c => (if c = 0 then (1 : ℚ) else if IZ n c then R else 0) ^ 2).sum =
        ∑ c ∈ Finset.range (4 ^ n), (if c = 0 then (1 : ℚ) else if IZ n c then R else 0) ^ 2 := rfl
    rw [e]
    have hz : IZ n 0 := fun k _ => Or.inl (by simp)
    have e2 : ∀ c, (if c = 0 then (1 : ℚ) else if IZ n c then R else 0) ^ 2 = R ^ 2 * (if IZ n c then 1 else 0) + if c = 0 then 1 - R ^ 2 else 0 := by
      intro c
      by_cases hc : c = 0
      · subst hc; simp [hz]
      · by_cases hi : IZ n c <;> simp [hc, hi]
    simp only [e2]
    rw [Finset.sum_add_distrib, ← Finset.mul_sum, sum_IZ, Finset.sum_ite_eq' (Finset.range (4 ^ n)) 0, if_pos (Finset.mem_range.2 (by positivity))]
    ring
  rw [hsum, ← hP]
  push_cast
  have h2 : (2 : ℝ) ^ n ≠ 0 := by positivity
  field_simp
  ring

theorem filterMap_get {α β : Type} (f : α → Option β) (l : List α) (h : ∀ a ∈ l, ∃ b, f a = some b) (k : ℕ) : (l.filterMap f)[k]? = l[k]?.bind f := by
  induction l generalizing k with
  | nil => simp
  | cons a l ih =>
    obtain ⟨b, hb⟩ := h a (by simp)
    rw [List.filterMap_cons_some hb]
    cases k with
    | zero => simp [hb]
    | succ k => simpa using ih (fun a ha => h a (by simp [ha])) k

theorem dim_eq {a : Args E} (h : ValidArgs Mem a) (hpur : a.isPurity = true) : ∀ p ∈ a.pats, p.length = a.dim := by
  intro p hpp
  have hall : ∀ x ∈ a.pats.map List.length, x = p.length := by
    intro x hx
    obtain ⟨q, hq, rfl⟩ := List.mem_map.1 hx
    exact h.purity hpur q hq p hpp
  have h1 : p.length ≤ a.dim := (foldl_max_ge (a.pats.map List.length) 0).2 _ (List.mem_map_of_mem hpp)
  have h2 : a.dim ≤ p.length := by
    unfold Args.dim
    rw [show a.pats.map List.length = List.replicate a.pats.length p.length from List.eq_replicate_iff.2 ⟨by simp, hall⟩]
    have : ∀ n b, (List.replicate n p.length).foldl max b ≤ max b p.length := by
      intro n
      induction n with
      | zero => intro b; exact le_max_left _ _
      | succ n ih => intro b; rw [List.replicate_succ, List.foldl_cons]; refine (ih _).trans ?_; simp
    simpa using this a.pats.length 0
  omega

/-- C108: purity RB.  The `3^n` circuits of one seed and length share the sequence and differ in the rotations at its end; on a device that
depolarises the subset with strength `1 - p` after every element, `1 - q` after the inverse and `1 - q'` after the rotations, the purity
computed from the exact correlators (which are those of `Z` on the qubits whose rotation is trivial, times `q q' p^x`, and 0 if a rotated
qubit takes part) lies on the curve `A (p²)^x + 2^-n` with `A = (1 - 2^-n) (q q')²`. -/
theorem C108_purity {groups : Bool → Group E} {rand : Bool → Rand E} {a : Args E} {dihedral : Bool} (hg : groupOf a.groupGates = some dihedral)
    (hL : Lawful (groups dihedral) Mem) (hr : ∀ p ∈ a.pats, ∀ rs k, Mem p.length (rand dihedral p.length rs k)) (h : ValidArgs Mem a)
    (hN : ∀ q ∈ a.pats.flatten, q < N) {ret : Ret} (hret : rbSeq groups rand a = some ret) {j k i : ℕ} {rows : List (List Circ)} {pat : List ℕ}
    {xr : List ℤ} {x : ℤ} (hrow : ret.purities[j]? = some rows) (hi : a.pats[i]? = some pat) (hxr : ret.lengths[i]? = some xr)
    (hx : xr[k]? = some x) :
    ∃ gs body blocks inv, Drawn (rand dihedral) pat.length gs ∧ (gs.length : ℤ) = x ∧ gs.mapM (embed (groups dihedral) pat) = some blocks ∧
      (∀ d < 3 ^ pat.length, ∃ row c, rows[d]? = some row ∧ row[k]? = some c ∧
        c.ins = body ++ purityGates a.pats pat.length d ++ measures a.pats.flatten) ∧
      part pat body = blocks.flatten ++ inv ∧
      ∀ (p q q' : ℝ) (evs : ℕ → List Event), (∀ d < 3 ^ pat.length, Runs N a.pats pat (blocks.map (fun b => (b, p)) ++
          [(inv, q), (part pat (purityGates a.pats pat.length d), q')]) (evs d)) →
        (∀ d < 3 ^ pat.length, ∀ ind < 2 ^ pat.length,
          ∑ y ∈ Finset.range (2 ^ pat.length), ((Purity.zsign ind y : ℤ) : ℝ) * outcome pat (fun k => y.testBit k) (noisy (evs d) (start N)) =
            if ind = 0 then 1 else if ∀ k < pat.length, ind.testBit k = true → dig3 d k = 0 then p ^ gs.length * q * q' else 0) ∧
        ∀ zcorr : ℕ → ℕ → ℚ, (∀ d < 3 ^ pat.length, ∀ ind < 2 ^ pat.length, (zcorr d ind : ℝ) =
          ∑ y ∈ Finset.range (2 ^ pat.length), ((Purity.zsign ind y : ℤ) : ℝ) * outcome pat (fun k => y.testBit k) (noisy (evs d) (start N))) →
        ∃ v, Purity.purityOf pat.length (3 ^ pat.length) zcorr = some v ∧
          (v : ℝ) = Fit.fitFun x ((1 - 1 / 2 ^ pat.length) * (q * q') ^ 2) (p ^ 2) (1 / 2 ^ pat.length) := by
  have hG := good_of_valid hL h hr hN
  obtain ⟨steps, s1, s2, -, -, -, -, s3⟩ := ret_steps hg hL hr h hN hret
  have hpur : a.isPurity = true := by
    rcases s3 with s3 | s3
    · rw [s3] at hrow; simp at hrow
    · exact s3.1
  have s4 : ret.purities = steps.map fun l => (List.range (3 ^ a.dim)).map fun d => l.filterMap fun s => s.purity[d]? := by
    rcases s3 with s3 | s3
    · rw [s3] at hrow; simp at hrow
    · exact s3.2
  have hmem := List.mem_of_getElem? hi
  have hdim : ∀ p ∈ a.pats, p.length = a.dim := dim_eq h hpur
  have hpd := hdim pat hmem
  rw [s4, List.getElem?_map, Option.map_eq_some_iff] at hrow
  obtain ⟨l, hl, rfl⟩ := hrow
  rw [s2, List.getElem?_map, Option.map_eq_some_iff] at hxr
  obtain ⟨m, hm, rfl⟩ := hxr
  rw [List.getElem?_map, Option.map_eq_some_iff] at hx
  obtain ⟨v, hv, rfl⟩ := hx
  obtain ⟨hlen, H, h1, -⟩ := s1 j l hl
  have hkl : k < l.length := by
    rw [hlen]
    exact (List.getElem?_eq_some_iff.1 hv).1
  obtain ⟨hs, hgl⟩ := h1 k l[k] v (List.getElem?_eq_getElem hkl) hv
  obtain ⟨body, b1, -, -, b2⟩ := hs.std
  have hd := hs.drawn i pat hi
  obtain ⟨blocks, inv, q1, q2, q3, q4, q5⟩ := seq_part hL hG.pats b1 hi (drawn_mem hd (hr pat hmem))
  have hpl : ∀ s ∈ l, ∃ f : ℕ → Circ, s.purity = (List.range (3 ^ a.dim)).map f := by
    intro s hs
    obtain ⟨k', hk', rfl⟩ := List.getElem_of_mem hs
    obtain ⟨hs', -⟩ := h1 k' l[k'] (a.lens[k']'(by rw [← hlen]; exact hk')) (List.getElem?_eq_getElem hk') (List.getElem?_eq_getElem _)
    obtain ⟨body', -, -, -, b2'⟩ := hs'.std
    exact ⟨_, b2' hpur⟩
  refine ⟨_, body, blocks, inv, hd, hgl i m hm, q1, ?_, q2, ?_⟩
  · intro d hd
    rw [hpd] at hd ⊢
    refine ⟨l.filterMap fun s => s.purity[d]?, ⟨circType dihedral ++ "_purity_".toList ++ purityLetters a.dim d ++ suffix k (j + a.seedOffset),
      body ++ purityGates a.pats a.dim d ++ measures a.pats.flatten⟩, ?_, ?_, ?_⟩
    · rw [List.getElem?_map, List.getElem?_range hd]; rfl
    · rw [filterMap_get _ _ ?_, List.getElem?_eq_getElem hkl, Option.bind_some, b2 hpur, List.getElem?_map, List.getElem?_range hd]
      · rfl
      · intro s hs
        obtain ⟨f, hf⟩ := hpl s hs
        exact ⟨f d, by rw [hf, List.getElem?_map, List.getElem?_range hd]; rfl⟩
    · rfl
  · intro p q q' evs hev
    have ht := hG.pats.tgt pat hmem
    have hnd : a.pats.Nodup := by
      rw [List.nodup_iff_injective_getElem]
      intro i1 i2 he
      by_contra hne
      have hne' : i1.val ≠ i2.val := fun h => hne (Fin.ext h)
      have := hG.pats.disj' (List.getElem?_eq_getElem i1.2) (List.getElem?_eq_getElem i2.2) hne'
      have he' : a.pats[i1.val] = a.pats[i2.val] := he
      obtain ⟨q, hq⟩ := List.exists_mem_of_ne_nil _ (h.subset_ne _ (List.getElem_mem i1.2))
      exact this q hq (he' ▸ hq)
    have hlens : ∀ p ∈ a.pats, p.length = pat.length := fun p hp => by rw [hdim p hp, hpd]
    have hcorr : ∀ d < 3 ^ pat.length, ∀ ind < 2 ^ pat.length,
        ∑ y ∈ Finset.range (2 ^ pat.length), ((Purity.zsign ind y : ℤ) : ℝ) * outcome pat (fun k => y.testBit k) (noisy (evs d) (start N)) =
          if ind = 0 then 1 else if ∀ k < pat.length, ind.testBit k = true → dig3 d k = 0 then p ^ blocks.length * q * q' else 0 := by
      intro d hd ind hind
      rw [← corr_rot pat.length d ind hind]
      refine Finset.sum_congr rfl fun y _ => ?_
      have hrot : replaceQ (locRot pat.length d) pat = some (part pat (purityGates a.pats pat.length d)) := part_purity hG.pats hnd hmem hlens d
      rw [noisy_outcome hG.pats.tgt ht (pats_dis hG.pats hi) _ (evs d) _ ?_ (hev d hd)]
      · simp only [start, List.map_cons, List.map_nil, List.sum_cons, List.sum_nil, nrm_ket0, List.map_append, List.map_map, List.prod_append,
          List.prod_cons, List.prod_nil, mul_one, List.flatten_append, List.flatten_cons, List.flatten_nil, List.append_nil, one_mul, add_zero]
        rw [show blocks.map (Prod.snd ∘ fun b => (b, p)) = List.replicate blocks.length p from List.eq_replicate_iff.2 ⟨by simp, by simp⟩, List.prod_replicate,
          show blocks.map (Prod.fst ∘ fun b => (b, p)) = blocks by simp [Function.comp_def], ← List.append_assoc, run_append]
        have hsame : mp pat (fun k => y.testBit k) (run N (part pat (purityGates a.pats pat.length d)) (run N (blocks.flatten ++ inv) ket0)) =
            mp pat (fun k => y.testBit k) (run N (part pat (purityGates a.pats pat.length d)) ket0) := by
          obtain ⟨z, hz, hs⟩ := q5
          have hok : ∀ i ∈ part pat (purityGates a.pats pat.length d), Ok N i := (OnSub.ok ht ⟨_, locRot_ok _ _ _ (le_refl _), hrot⟩)
          rw [hs, run_nil, run_smul _ hok]
          unfold mp
          exact Finset.sum_congr rfl fun y _ => prob_smul z (by rw [Complex.normSq_eq_norm_sq, hz]; norm_num) _ _
        rw [hsame, mp_rot ht hrot]
        ring
      · intro cp hcp
        rw [List.mem_append, List.mem_map, List.mem_cons, List.mem_singleton] at hcp
        rcases hcp with ⟨b, hb, rfl⟩ | rfl | rfl
        · exact OnSub.of_gates ht (q3 b hb)
        · exact OnSub.of_gates ht q4
        · exact ⟨_, locRot_ok _ _ _ (le_refl _), hrot⟩
    refine ⟨by rw [← mapM_length q1]; exact hcorr, fun zcorr hz => ?_⟩
    obtain ⟨v', hv1, hv2⟩ := purity_rot pat.length (List.length_pos_iff.2 (h.subset_ne pat hmem)) (p ^ blocks.length * q * q') zcorr (by
      intro d hd ind hind
      rw [hz d hd ind hind, hcorr d hd ind hind])
    refine ⟨v', hv1, ?_⟩
    rw [hv2, fitFun_int blocks.length _ (by rw [mapM_length q1]; exact hgl i m hm)]
    ring

/-- Purity circuits on two subsets of two qubits: the shortest circuits have one random element; with strength 1/2 after it the purity is
(1 - 1/4) (1/2)² + 1/4 = 7/16. -/
example : ∃ ret rows, rbSeq (fun _ => freeGroup) (fun _ => exRand)
      { nseeds := 1, lengthVector := some [1, 3], pattern := some [[3, 1], [0, 2]], mult := .scalar 1, seedOffset := 0, align := false
        inter := none, isPurity := true, groupGates := none, randSeed := .none } = some ret ∧ ret.purities[0]? = some rows ∧
    ∃ (body : List Ins) (blocks : List (List Ins)) (inv : List Ins), (∀ d < 9, ∃ row c, rows[d]? = some row ∧ row[0]? = some c ∧
        c.ins = body ++ purityGates [[3, 1], [0, 2]] 2 d ++ measures [3, 1, 0, 2]) ∧ part [3, 1] body = blocks.flatten ++ inv ∧
      ∃ (evs : ℕ → List Event) (zcorr : ℕ → ℕ → ℚ), (∀ d < 9, Runs 4 [[3, 1], [0, 2]] [3, 1] (blocks.map (fun b => (b, 1 / 2)) ++
          [(inv, 1), (part [3, 1] (purityGates [[3, 1], [0, 2]] 2 d), 1)]) (evs d)) ∧
        (∀ d < 9, ∀ ind < 4, (zcorr d ind : ℝ) =
          ∑ y ∈ Finset.range 4, ((Purity.zsign ind y : ℤ) : ℝ) * outcome [3, 1] (fun k => y.testBit k) (noisy (evs d) (start 4))) ∧
        Purity.purityOf 2 9 zcorr = some (7 / 16) := by
  obtain ⟨a, ha⟩ : ∃ a : Args (List Ins), a = { nseeds := 1, lengthVector := some [1, 3], pattern := some [[3, 1], [0, 2]], mult := .scalar 1, seedOffset := 0, align := false
                                                inter := none, isPurity := true, groupGates := none, randSeed := .none } := ⟨_, rfl⟩
  have hpats : a.pats = [[3, 1], [0, 2]] := by rw [ha]; rfl
  have hr : ∀ p ∈ a.pats, ∀ rs k, FreeMem p.length (exRand p.length rs k) := by
    intro p hp rs k
    rw [hpats] at hp
    have : p = [3, 1] ∨ p = [0, 2] := by simpa using hp
    rcases this with rfl | rfl <;> exact exRand_mem 2 (Or.inr rfl) rs k
  have hN : ∀ q ∈ a.pats.flatten, q < 4 := by rw [hpats]; decide
  have hv : ValidArgs FreeMem a := by
    rw [ha]
    exact
      { pats_ne := by decide
        subset_ne := by decide
        distinct := by decide
        lens_ne := by decide
        increasing := by decide
        lens_pos := by decide
        mult := Or.inr ⟨_, rfl⟩
        mult_pos := by decide
        purity := by intro _; decide
        inter := by intro l hl; cases hl
        seed := by decide }
  have hg : groupOf a.groupGates = some false := by rw [ha]; rfl
  obtain ⟨steps, h1, h2, h3⟩ := C42_family (groups := fun _ => freeGroup) (rand := fun _ => exRand) (dihedral := false) hg free_lawful hr hv hN
  have hns : steps.length = 1 := by rw [h1, ha]
  obtain ⟨l, hl⟩ : ∃ l, steps[0]? = some l := ⟨steps[0], List.getElem?_eq_getElem (by omega)⟩
  have hip : a.isPurity = true := by rw [ha]
  simp only [hip] at h3
  have hlen : a.mults.map (fun m => a.lens.map fun l => l * m) = [[1, 3], [1, 3]] := by rw [ha]; decide
  rw [hlen] at h3
  rw [← ha]
  refine ⟨_, _, h3, by rw [show ∀ x y z, (Ret.purity x y z).purities = x from fun _ _ _ => rfl, List.getElem?_map, hl]; rfl, ?_⟩
  obtain ⟨gs, body, blocks, inv, -, g2, g3, g4, g5, g6⟩ := C108_purity (N := 4) (groups := fun _ => freeGroup) (rand := fun _ => exRand) (dihedral := false)
    hg free_lawful hr hv hN h3 (j := 0) (k := 0) (i := 0) (pat := [3, 1]) (xr := [1, 3]) (x := 1)
    (by rw [show ∀ x y z, (Ret.purity x y z).purities = x from fun _ _ _ => rfl, List.getElem?_map, hl]; rfl) (by rw [hpats]; rfl) rfl rfl
  rw [hpats] at g4 g6
  have hgs : gs.length = 1 := by exact_mod_cast g2
  refine ⟨body, blocks, inv, g4, g5, _, fun d ind => if ind = 0 then 1 else if ∀ k < 2, ind.testBit k = true → dig3 d k = 0 then 1 / 2 else 0,
    fun d _ => runs_self _ _ _, ?_, ?_⟩
  · intro d hd ind hind
    have := (g6 (1 / 2) 1 1 _ fun d _ => runs_self _ _ _).1 d hd ind hind
    rw [hgs] at this
    refine Eq.trans ?_ this.symm
    simp
    split_ifs <;> simp
  · obtain ⟨v, v1, v2⟩ := (g6 (1 / 2) 1 1 _ fun d _ => runs_self _ _ _).2
      (fun d ind => if ind = 0 then 1 else if ∀ k < 2, ind.testBit k = true → dig3 d k = 0 then 1 / 2 else 0) (by
        intro d hd ind hind
        have := (g6 (1 / 2) 1 1 _ fun d _ => runs_self _ _ _).1 d hd ind hind
        rw [hgs] at this
        refine Eq.trans ?_ this.symm
        simp
        split_ifs <;> simp)
    rw [show (9 : ℕ) = 3 ^ [3, 1].length from rfl, show (2 : ℕ) = [3, 1].length from rfl]
    refine v1.trans ?_
    rw [fitFun_int 1 1 rfl] at v2
    have : (v : ℝ) = ((7 / 16 : ℚ) : ℝ) := by rw [v2]; push_cast; norm_num
    congr 1
    exact_mod_cast this

/-- C108: the purity estimate: the decay parameter `p²` gives back `p`, and the error per element. -/
theorem C108_purity_estimate (n : ℕ) (p e : ℝ) (hp : 0 ≤ p) : (Fit.purity n (p ^ 2) e).1 = p ∧ (Fit.purity n (p ^ 2) e).2.2 = Fit.epc n p := by
  simp only [Fit.purity, Fit.epc]
  rw [Real.sqrt_sq hp]
  exact ⟨rfl, rfl⟩

end Verif.RB
