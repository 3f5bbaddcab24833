import Verif.Dihedral.LemmasTable
set_option linter.unusedSimpArgs false
set_option linter.unusedVariables false
/-
Lemmas for the tables of CNOT-dihedral elements: the table without CNOT gates, the next table.
-/
namespace Verif.Dihedral
open Verif Verif.Quantum

/-! ### Circuits without CNOT gates -/

/-- Effect of a local circuit: bit flips `B` and powers of T, up to a global phase. -/
def Sem {n : ℕ} (c : List Gate) (B : Fin n → Bool) (T : Fin n → ZMod 8) : Prop :=
  (∀ b q, circMap c b q = Bool.xor (b q) (B q)) ∧ ∃ z : ZMod 8, ∀ b, circPhase c b = (∑ q, if b q then T q else 0) + z

theorem Sem.nil {n : ℕ} : Sem [] (fun _ : Fin n => false) (fun _ => 0) :=
  ⟨fun b q => by simp [circMap], 0, fun b => by simp [circPhase]⟩

theorem Sem.x {n : ℕ} {c : List Gate} {B : Fin n → Bool} {T : Fin n → ZMod 8} (h : Sem c B T) {a : ℕ} (ha : a < n) :
    Sem (c ++ [.x a]) (Function.update B ⟨a, ha⟩ (!B ⟨a, ha⟩)) T := by
  obtain ⟨h1, z, h2⟩ := h
  refine ⟨fun b q => ?_, z, fun b => ?_⟩
  · rw [circMap_append]
    simp only [circMap, gateMap, ha, dif_pos]
    by_cases hq : q = ⟨a, ha⟩
    · subst hq
      rw [Function.update_self, Function.update_self, h1, Bool.xor_not]
    · rw [Function.update_of_ne hq, Function.update_of_ne hq, h1]
  · rw [circPhase_append, h2]
    simp [circPhase, gatePhase]

theorem Sem.u1 {n : ℕ} {c : List Gate} {B : Fin n → Bool} {T : Fin n → ZMod 8} (h : Sem c B T) {a : ℕ} (ha : a < n) (k : ℤ) :
    Sem (c ++ [.u1 k a]) B (Function.update T ⟨a, ha⟩ (T ⟨a, ha⟩ + if B ⟨a, ha⟩ then -(k : ZMod 8) else k)) := by
  obtain ⟨h1, z, h2⟩ := h
  refine ⟨fun b q => ?_, z + (if B ⟨a, ha⟩ then (k : ZMod 8) else 0), fun b => ?_⟩
  · rw [circMap_append]
    simp only [circMap, gateMap, h1]
  · rw [circPhase_append, h2]
    have hs : (∑ q, if b q = true then Function.update T ⟨a, ha⟩ (T ⟨a, ha⟩ + if B ⟨a, ha⟩ then -(k : ZMod 8) else k) q else 0) =
        (∑ q, if b q = true then T q else 0) + if b ⟨a, ha⟩ then (if B ⟨a, ha⟩ then -(k : ZMod 8) else k) else 0 := by
      rw [← sub_eq_iff_eq_add', ← Finset.sum_sub_distrib, Finset.sum_eq_single ⟨a, ha⟩]
      · rw [Function.update_self]
        split_ifs <;> simp
      · intro q _ hq
        rw [Function.update_of_ne hq, sub_self]
      · simp
    rw [hs]
    simp only [circPhase, gatePhase, ha, dif_pos, add_zero, h1]
    rcases Bool.eq_false_or_eq_true (b ⟨a, ha⟩) with e1 | e1 <;> rcases Bool.eq_false_or_eq_true (B ⟨a, ha⟩) with e2 | e2 <;> simp [e1, e2]
    all_goals ring

theorem local_sem {n : ℕ} (c : List Gate) (hc : OkB n c) (h0 : cost c = 0) : ∃ (B : Fin n → Bool) (T : Fin n → ZMod 8), Sem c B T := by
  induction c using List.reverseRecOn with
  | nil => exact ⟨_, _, Sem.nil⟩
  | append_singleton c g ih =>
    have hg := hc g (by simp)
    rw [cost_append] at h0
    obtain ⟨B, T, h⟩ := ih (fun a ha => hc a (by simp [ha])) (by omega)
    cases g with
    | x a => exact ⟨_, _, h.x (show a < n from hg.1)⟩
    | u1 k a => exact ⟨_, _, h.u1 (show a < n from hg.1) k⟩
    | cx i j => simp [cost] at h0
    | z q => exact absurd hg.2 id
    | y q => exact absurd hg.2 id
    | cz p q => exact absurd hg.2 id
    | id q => exact absurd hg.2 id
    | other q => exact absurd hg.2 id

theorem Sem.eqv {n : ℕ} {c d : List Gate} {B : Fin n → Bool} {T : Fin n → ZMod 8} (h : Sem c B T) (h' : Sem d B T) : Eqv n c d := by
  obtain ⟨h1, z, h2⟩ := h
  obtain ⟨h3, w, h4⟩ := h'
  refine ⟨fun b => funext fun q => by rw [h1, h3], z - w, fun b => ?_⟩
  rw [h2, h4]
  ring

theorem Sem.unique {n : ℕ} {c d : List Gate} {B B' : Fin n → Bool} {T T' : Fin n → ZMod 8} (h : Sem c B T) (h' : Sem d B' T')
    (he : Eqv n c d) : B = B' ∧ T = T' := by
  obtain ⟨h1, z, h2⟩ := h
  obtain ⟨h3, w, h4⟩ := h'
  obtain ⟨h5, y, h6⟩ := he
  constructor
  · funext q
    have := congrFun (h5 fun _ => false) q
    rw [h1, h3] at this
    simpa using this
  · have hz : z = w + y := by
      have := h6 fun _ => false
      rw [h2, h4] at this
      simpa using this
    funext q
    have := h6 fun p => decide (p = q)
    rw [h2, h4] at this
    simp only [decide_eq_true_eq, Finset.sum_ite_eq', Finset.mem_univ, if_true] at this
    rw [hz] at this
    linear_combination this

/-! ### The numbers below `16^n` -/

theorem digits_exist (f : ℕ → ℕ) (hf : ∀ q, f q < 16) (n : ℕ) : ∃ i < 16 ^ n, ∀ q < n, i / 16 ^ q % 16 = f q := by
  induction n with
  | zero => exact ⟨0, by simp, by simp⟩
  | succ n ih =>
    obtain ⟨i, hi, h⟩ := ih
    refine ⟨i + 16 ^ n * f n, ?_, fun q hq => ?_⟩
    · have := hf n
      rw [pow_succ]
      nlinarith
    · rcases Nat.lt_succ_iff_lt_or_eq.1 hq with hq | rfl
      · obtain ⟨m, rfl⟩ : ∃ m, n = q + 1 + m := ⟨n - (q + 1), by omega⟩
        have : 16 ^ (q + 1 + m) * f (q + 1 + m) = 16 ^ q * (16 * (16 ^ m * f (q + 1 + m))) := by ring
        rw [this, Nat.add_mul_div_left _ _ (by positivity), Nat.add_mul_mod_self_left]
        exact h q (by omega)
      · rw [Nat.add_mul_div_left _ _ (by positivity), Nat.div_eq_of_lt hi, zero_add, Nat.mod_eq_of_lt (hf q)]

theorem digits_unique (n i j : ℕ) (hi : i < 16 ^ n) (hj : j < 16 ^ n) (h : ∀ q < n, i / 16 ^ q % 16 = j / 16 ^ q % 16) : i = j := by
  induction n generalizing i j with
  | zero => simp at hi hj; omega
  | succ n ih =>
    have h0 := h 0 (by omega)
    simp only [pow_zero, Nat.div_one] at h0
    have := ih (i / 16) (j / 16) (by rw [pow_succ] at hi; omega) (by rw [pow_succ] at hj; omega) fun q hq => by
      have := h (q + 1) (by omega)
      rwa [pow_succ', ← Nat.div_div_eq_div_mul, ← Nat.div_div_eq_div_mul] at this
    omega

/-- Bit flips and powers of T of the number `i`, on the first `m` qubits. -/
def dB (n m i : ℕ) (q : Fin n) : Bool := decide (q.val < m) && decide (i / 16 ^ q.val % 2 = 1)
def dT (n m i : ℕ) (q : Fin n) : ZMod 8 := if q.val < m then ((i / 16 ^ q.val / 2 % 8 : ℕ) : ZMod 8) else 0

theorem digit_loop {n : ℕ} (i m : ℕ) (hm : m ≤ n) : ∃ e c, (List.range m).foldlM digitStep (i, Elem.one n, []) = some (i / 16 ^ m, e, c) ∧
    OkB n c ∧ cost c = 0 ∧ fromCircuit n c = some e ∧ Sem c (dB n m i) (dT n m i) := by
  induction m with
  | zero =>
    refine ⟨Elem.one n, [], by simp, by simp [OkB], rfl, rfl, ?_⟩
    have hB : dB n 0 i = fun _ => false := by funext q; simp [dB]
    have hT : dT n 0 i = fun _ => 0 := by funext q; simp [dT]
    rw [hB, hT]
    exact Sem.nil
  | succ m ih =>
    obtain ⟨e, c, h1, h2, h3, h4, h5⟩ := ih (by omega)
    have hmn : m < n := by omega
    have happ : ∀ (c : List Gate) (e : Elem n) (g : Gate), fromCircuit n c = some e → fromCircuit n (c ++ [g]) = appendGate e g := by
      intro c e g h
      unfold fromCircuit appendCircuit at *
      rw [List.foldlM_append, h]
      simp
    obtain ⟨num, hnum⟩ : ∃ num, num = i / 16 ^ m := ⟨_, rfl⟩
    rw [← hnum] at h1
    have ht : (num - num % 2) / 2 % 8 = num / 2 % 8 := by omega
    have hd : (num - num % 16) / 16 = i / 16 ^ (m + 1) := by
      rw [pow_succ, ← Nat.div_div_eq_div_mul, ← hnum]; omega
    -- the phase
    obtain ⟨e1, c1, g1, g2, g3, g4, g5⟩ : ∃ e1 c1, digitPhase ((num - num % 2) / 2 % 8) m (e, c) = some (e1, c1) ∧
        OkB n c1 ∧ cost c1 = 0 ∧ fromCircuit n c1 = some e1 ∧ Sem c1 (dB n m i) (dT n (m + 1) i) := by
      rw [ht]
      unfold digitPhase
      have hT : dT n (m + 1) i = Function.update (dT n m i) ⟨m, hmn⟩ (dT n m i ⟨m, hmn⟩ + if dB n m i ⟨m, hmn⟩ then
          -(((num / 2 % 8 : ℕ) : ℤ) : ZMod 8) else (((num / 2 % 8 : ℕ) : ℤ) : ZMod 8)) := by
        funext q
        by_cases hq : q = ⟨m, hmn⟩
        · subst hq
          rw [Function.update_self]
          unfold dT dB
          rw [← hnum]
          simp only [Nat.lt_succ_self, lt_irrefl, if_true, if_false, decide_false, Bool.false_and, Bool.false_eq_true, zero_add, Int.cast_natCast]
        · have : q.val ≠ m := fun h => hq (Fin.ext h)
          rw [Function.update_of_ne hq]
          unfold dT
          by_cases hlt : q.val < m
          · rw [if_pos hlt, if_pos (by omega)]
          · rw [if_neg hlt, if_neg (by omega)]
      by_cases hpos : num / 2 % 8 > 0
      · rw [if_pos hpos]
        obtain ⟨r, hr, s⟩ := from_spec (c ++ [Gate.u1 ((num / 2 % 8 : ℕ) : ℤ) m]) (by
          intro g hg
          rcases List.mem_append.1 hg with hg | hg
          · exact (h2 g hg).1
          · simp only [List.mem_singleton] at hg; subst hg; exact hmn)
        have hr2 := hr
        rw [happ c e _ h4] at hr2
        refine ⟨r, _, by rw [show phase e ((num / 2 % 8 : ℕ) : ℤ) m = some r from hr2]; rfl, ?_, by simp [cost_append, h3, cost], hr, ?_⟩
        · refine h2.append ?_
          intro g hg
          simp only [List.mem_singleton] at hg; subst hg; exact ⟨hmn, trivial⟩
        · rw [hT]
          exact h5.u1 hmn _
      · rw [if_neg hpos]
        refine ⟨e, c, rfl, h2, h3, h4, ?_⟩
        have h0 : num / 2 % 8 = 0 := by omega
        rw [hT, h0]
        simpa using h5
    obtain ⟨e2, c2, k1, k2, k3, k4, k5⟩ : ∃ e2 c2, digitFlip (num % 2) m (e1, c1) = some (e2, c2) ∧
        OkB n c2 ∧ cost c2 = 0 ∧ fromCircuit n c2 = some e2 ∧ Sem c2 (dB n (m + 1) i) (dT n (m + 1) i) := by
      unfold digitFlip
      have hB : dB n (m + 1) i = if num % 2 = 1 then Function.update (dB n m i) ⟨m, hmn⟩ (!dB n m i ⟨m, hmn⟩) else dB n m i := by
        funext q
        by_cases hq : q = ⟨m, hmn⟩
        · subst hq
          split_ifs with h
          · simp [dB, ← hnum, h]
          · simp [dB, ← hnum, h]
        · have : q.val ≠ m := fun h => hq (Fin.ext h)
          have he : dB n (m + 1) i q = dB n m i q := by
            unfold dB
            have : decide (q.val < m + 1) = decide (q.val < m) := by
              rw [decide_eq_decide]; omega
            rw [this]
          rw [he]
          split_ifs
          · rw [Function.update_of_ne hq]
          · rfl
      by_cases hx : num % 2 = 1
      · rw [if_pos hx]
        obtain ⟨r, hr, s⟩ := from_spec (c1 ++ [Gate.x m]) (by
          intro g hg
          rcases List.mem_append.1 hg with hg | hg
          · exact (g2 g hg).1
          · simp only [List.mem_singleton] at hg; subst hg; exact hmn)
        have hr2 := hr
        rw [happ c1 e1 _ g4] at hr2
        refine ⟨r, _, by rw [show flip e1 m = some r from hr2]; rfl, ?_, by simp [cost_append, g3, cost], hr, ?_⟩
        · refine g2.append ?_
          intro g hg
          simp only [List.mem_singleton] at hg; subst hg; exact ⟨hmn, trivial⟩
        · rw [hB, if_pos hx]
          exact g5.x hmn
      · rw [if_neg hx]
        refine ⟨e1, c1, rfl, g2, g3, g4, ?_⟩
        rw [hB, if_neg hx]
        exact g5
    refine ⟨e2, c2, ?_, k2, k3, k4, k5⟩
    rw [List.range_succ, List.foldlM_append, h1]
    simp only [List.foldlM_cons, List.foldlM_nil, Option.bind_eq_bind, Option.bind_some, Option.pure_def, Option.bind_fun_some]
    unfold digitStep
    simp only [g1, k1, Option.bind_eq_bind, Option.bind_some, Option.pure_def, hd]

theorem digitElem_spec (n i : ℕ) : ∃ e c, digitElem n i = some (e, c) ∧ OkB n c ∧ cost c = 0 ∧ fromCircuit n c = some e ∧
    Sem c (dB n n i) (dT n n i) := by
  obtain ⟨e, c, h1, h2⟩ := digit_loop (n := n) i n (le_refl n)
  exact ⟨e, c, by unfold digitElem; rw [h1]; rfl, h2⟩

theorem okB_ok {n : ℕ} {c : List Gate} (h : OkB n c) : ∀ g ∈ c, GateOk n g := fun g hg => (h g hg).1

theorem digit_inj {n i j : ℕ} (hi : i < 16 ^ n) (hj : j < 16 ^ n) {e : Elem n} {c d : List Gate} (h : digitElem n i = some (e, c))
    (h' : digitElem n j = some (e, d)) : i = j := by
  obtain ⟨e1, c1, a1, a2, a3, a4, a5⟩ := digitElem_spec n i
  obtain ⟨e2, c2, b1, b2, b3, b4, b5⟩ := digitElem_spec n j
  rw [h] at a1
  rw [h'] at b1
  simp only [Option.some.injEq, Prod.mk.injEq] at a1 b1
  obtain ⟨rfl, rfl⟩ := a1
  obtain ⟨rfl, rfl⟩ := b1
  obtain ⟨hB, hT⟩ := a5.unique b5 ((from_eq_iff c d (okB_ok a2) (okB_ok b2)).1 (a4.trans b4.symm))
  refine digits_unique n i j hi hj fun q hq => ?_
  have h1 := congrFun hB ⟨q, hq⟩
  have h2 := congrFun hT ⟨q, hq⟩
  simp only [dB, hq, decide_true, Bool.true_and, decide_eq_decide] at h1
  simp only [dT, hq, if_true] at h2
  have h3 : i / 16 ^ q / 2 % 8 = j / 16 ^ q / 2 % 8 := by
    have := congrArg ZMod.val h2
    rwa [ZMod.val_natCast_of_lt (Nat.mod_lt _ (by norm_num)), ZMod.val_natCast_of_lt (Nat.mod_lt _ (by norm_num))] at this
  omega

theorem digit_surj {n : ℕ} {e : Elem n} {c : List Gate} (hc : OkB n c) (h0 : cost c = 0) (he : fromCircuit n c = some e) :
    ∃ i < 16 ^ n, ∃ d, digitElem n i = some (e, d) := by
  obtain ⟨B, T, hs⟩ := local_sem c hc h0
  obtain ⟨i, hi, hd⟩ := digits_exist (fun q => if h : q < n then (if B ⟨q, h⟩ then 1 else 0) + 2 * (T ⟨q, h⟩).val else 0) (by
    intro q
    split_ifs with h h2
    · have := (T ⟨q, h⟩).val_lt; omega
    · have := (T ⟨q, h⟩).val_lt; omega
    · omega) n
  obtain ⟨e1, c1, a1, a2, a3, a4, a5⟩ := digitElem_spec n i
  have hB : dB n n i = B := by
    funext q
    have := hd q.val q.2
    simp only [q.2, dif_pos, Fin.eta] at this
    unfold dB
    simp only [q.2, decide_true, Bool.true_and]
    rcases Bool.eq_false_or_eq_true (B q) with e1 | e1 <;> simp only [e1, if_true, Bool.false_eq_true, if_false] at this ⊢
    · rw [decide_eq_true_eq]; omega
    · rw [decide_eq_false_iff_not]; omega
  have hT : dT n n i = T := by
    funext q
    have := hd q.val q.2
    simp only [q.2, dif_pos, Fin.eta] at this
    unfold dT
    simp only [q.2, if_true]
    have hv := (T q).val_lt
    have : i / 16 ^ q.val / 2 % 8 = (T q).val := by
      rcases Bool.eq_false_or_eq_true (B q) with e1 | e1 <;> simp only [e1, if_true, Bool.false_eq_true, if_false] at this <;> omega
    rw [this, ZMod.natCast_zmod_val]
  rw [hB, hT] at a5
  refine ⟨i, hi, c1, ?_⟩
  rw [(from_eq_iff c c1 (okB_ok hc) (okB_ok a2)).2 (hs.eqv a5), a4, Option.some.injEq] at he
  rw [a1, he]

/-! ### Loops -/

theorem foldlM_map_some {α β γ : Type} (l : List α) (f : α → Option β) (g : α → β) (hf : ∀ a ∈ l, f a = some (g a)) (h : γ → β → γ) (o : γ) :
    l.foldlM (fun o a => (f a).map (h o)) o = some (l.foldl (fun o a => h o (g a)) o) := by
  induction l generalizing o with
  | nil => rfl
  | cons a l ih =>
    rw [List.foldlM_cons, hf a (by simp)]
    exact ih (fun b hb => hf b (by simp [hb])) _

/-- `make_dict_0` lists the elements of the numbers below `16^n`. -/
theorem makeDict0_spec (n : ℕ) : ∃ d, makeDict0 n = some d ∧ Dict.WF d ∧ d.length = 16 ^ n ∧
    (∀ p ∈ d, ∃ i < 16 ^ n, digitElem n i = some p.2 ∧ p.1 = p.2.1) ∧ ∀ i < 16 ^ n, ∀ r, digitElem n i = some r → (r.1, r) ∈ d := by
  let g : ℕ → Elem n × List Gate := fun i => (digitElem n i).getD (Elem.one n, [])
  have hg : ∀ i, digitElem n i = some (g i) := by
    intro i
    obtain ⟨e, c, h, -⟩ := digitElem_spec n i
    simp only [g, h, Option.getD_some]
  have hnd : (([] : Table n).map (·.1) ++ (List.range (16 ^ n)).map fun i => (g i).1).Nodup := by
    rw [List.map_nil, List.nil_append]
    refine List.Nodup.map_on ?_ List.nodup_range
    intro i hi j hj h
    refine digit_inj (List.mem_range.1 hi) (List.mem_range.1 hj) (e := (g i).1) (c := (g i).2) (d := (g j).2) (hg i) ?_
    rw [hg j, h]
  have he := Dict.foldl_set_fresh (List.range (16 ^ n)) (fun i => (g i).1) g ([] : Table n) hnd
  refine ⟨(List.range (16 ^ n)).map fun i => ((g i).1, g i), ?_, ?_, by simp, ?_, ?_⟩
  · unfold makeDict0
    rw [foldlM_map_some _ _ g (fun i _ => hg i) (fun obj r => Dict.set obj r.1 r)]
    rw [he, List.nil_append]
  · unfold Dict.WF
    simpa [List.map_map, Function.comp_def] using hnd
  · intro p hp
    obtain ⟨i, hi, rfl⟩ := List.mem_map.1 hp
    exact ⟨i, List.mem_range.1 hi, hg i, rfl⟩
  · intro i hi r hr
    rw [hg i, Option.some.injEq] at hr
    subst hr
    exact List.mem_map.2 ⟨i, List.mem_range.2 hi, rfl⟩

theorem mem_set_cases {κ υ : Type} [DecidableEq κ] (d : Dict κ υ) (k : κ) (v : υ) (hk : d.has k = false) : Dict.set d k v = d ++ [(k, v)] := by
  induction d with
  | nil => rfl
  | cons p d ih =>
    obtain ⟨a, b⟩ := p
    unfold Dict.has at hk ih
    rw [Dict.get?_cons] at hk
    by_cases h : a = k
    · simp [h] at hk
    · rw [if_neg h] at hk
      simp only [Dict.set, h, if_false, ih hk, List.cons_append]

theorem has_iff {n : ℕ} (d : Table n) (e : Elem n) : d.has e = true ↔ ∃ v, (e, v) ∈ d := by
  unfold Dict.has
  rw [← Dict.mem_keys_iff]
  simp

/-- Storing a list of elements. -/
theorem storeFold {n : ℕ} (prior : List (Table n)) (R : List (Elem n × List Gate)) (obj : Table n) (hw : Dict.WF obj) :
    Dict.WF (R.foldl (storeNew prior) obj) ∧ (R.foldl (storeNew prior) obj).length ≤ obj.length + R.length ∧
    (∀ p ∈ R.foldl (storeNew prior) obj, p ∈ obj ∨ (p.2 ∈ R ∧ p.1 = p.2.1 ∧ ∀ d ∈ prior, d.has p.1 = false)) ∧
    (∀ p ∈ obj, p ∈ R.foldl (storeNew prior) obj) ∧
    ∀ r ∈ R, (∀ d ∈ prior, d.has r.1 = false) → (R.foldl (storeNew prior) obj).has r.1 = true := by
  induction R generalizing obj with
  | nil => simp [hw]
  | cons r R ih =>
    rw [List.foldl_cons]
    by_cases hnew : (!(prior.any fun d => d.has r.1) && !obj.has r.1) = true
    · have hs : storeNew prior obj r = obj ++ [(r.1, r)] := by
        unfold storeNew
        rw [if_pos hnew]
        simp only [Bool.and_eq_true, Bool.not_eq_true'] at hnew
        exact mem_set_cases _ _ _ hnew.2
      have hw' : Dict.WF (storeNew prior obj r) := by
        unfold storeNew
        rw [if_pos hnew]
        exact Dict.wf_set _ hw _ _
      simp only [Bool.and_eq_true, Bool.not_eq_true', List.any_eq_false, Bool.not_eq_true] at hnew
      obtain ⟨i1, i2, i3, i4, i5⟩ := ih _ hw'
      refine ⟨i1, ?_, ?_, ?_, ?_⟩
      · rw [hs] at i2 ⊢
        simp only [List.length_append, List.length_cons, List.length_nil] at i2 ⊢
        omega
      · intro p hp
        rcases i3 p hp with h | ⟨h1, h2, h3⟩
        · rw [hs] at h
          rcases List.mem_append.1 h with h | h
          · exact Or.inl h
          · simp only [List.mem_singleton] at h
            subst h
            exact Or.inr ⟨by simp, rfl, hnew.1⟩
        · exact Or.inr ⟨by simp [h1], h2, h3⟩
      · intro p hp
        exact i4 p (by rw [hs]; simp [hp])
      · intro a ha hp
        rcases List.mem_cons.1 ha with rfl | ha
        · exact (has_iff _ _).2 ⟨a, i4 _ (by rw [hs]; simp)⟩
        · exact i5 a ha hp
    · have hs : storeNew prior obj r = obj := by
        unfold storeNew
        rw [if_neg hnew]
      rw [hs]
      obtain ⟨i1, i2, i3, i4, i5⟩ := ih _ hw
      refine ⟨i1, by simp only [List.length_cons]; omega, ?_, i4, ?_⟩
      · intro p hp
        rcases i3 p hp with h | ⟨h1, h2, h3⟩
        · exact Or.inl h
        · exact Or.inr ⟨by simp [h1], h2, h3⟩
      · intro a ha hp
        rcases List.mem_cons.1 ha with rfl | ha
        · simp only [Bool.and_eq_true, Bool.not_eq_true', List.any_eq_false, Bool.not_eq_true, not_and, Bool.not_eq_false] at hnew
          obtain ⟨v, hv⟩ := (has_iff _ _).1 (hnew hp)
          exact (has_iff _ _).2 ⟨v, i4 _ hv⟩
        · exact i5 a ha hp

/-- The element and gates of a candidate. -/
theorem nextElem_spec {n : ℕ} {e : Elem n} {c : List Gate} (hc : OkB n c) (he : fromCircuit n c = some e) {i j : ℕ} (hi : i < n) (hj : j < n)
    (hij : i ≠ j) (t : ℕ) : ∃ r d, nextElem ((e, c), i, j, t) = some (r, d) ∧ OkB n d ∧ cost d = cost c + 1 ∧ fromCircuit n d = some r ∧
      fromCircuit n (c ++ [.cx i j, .u1 (t : ℕ) j]) = some r := by
  have hok1 : OkB n (c ++ [.cx i j]) := hc.append (by
    intro g hg
    simp only [List.mem_singleton] at hg; subst hg; exact ⟨⟨⟨hi, hj⟩, hij⟩, trivial⟩)
  have hok2 : OkB n (c ++ [.cx i j] ++ [.u1 (t : ℕ) j]) := hok1.append (by
    intro g hg
    simp only [List.mem_singleton] at hg; subst hg; exact ⟨hj, trivial⟩)
  have happ : ∀ (c : List Gate) (e : Elem n) (g : Gate), fromCircuit n c = some e → fromCircuit n (c ++ [g]) = appendGate e g := by
    intro c e g h
    unfold fromCircuit appendCircuit at *
    rw [List.foldlM_append, h]
    simp
  obtain ⟨r1, h1, -⟩ := from_spec _ (okB_ok hok1)
  obtain ⟨r2, h2, -⟩ := from_spec _ (okB_ok hok2)
  have k1 := h1
  rw [happ c e _ he] at k1
  have k2 := h2
  rw [happ _ r1 _ h1] at k2
  have k1' : cnot e i j = some r1 := k1
  have k2' : phase r1 (t : ℤ) j = some r2 := k2
  by_cases ht : t > 0
  · refine ⟨r2, c ++ [.cx i j] ++ [.u1 (t : ℕ) j], ?_, hok2, by simp [cost_append, cost], h2, by simpa using h2⟩
    simp [nextElem, k1', k2', ht]
  · obtain rfl : t = 0 := by omega
    refine ⟨r1, c ++ [.cx i j], by simp [nextElem, k1'], hok1, by simp [cost_append, cost], h1, ?_⟩
    rw [← h1]
    refine (from_eq_iff _ _ ?_ (okB_ok hok1)).2 ?_
    · simpa using okB_ok hok2
    · refine (Eqv.refl c).append ⟨fun b => rfl, 0, fun b => ?_⟩
      simp [circPhase, gatePhase, hj]

theorem mem_nextCandidates {n : ℕ} (last : Table n) (v : Elem n × List Gate) (i j t : ℕ) :
    (v, i, j, t) ∈ nextCandidates last ↔ (∃ k, (k, v) ∈ last) ∧ i < n ∧ j < n ∧ i ≠ j ∧ t < 4 := by
  unfold nextCandidates Dict.values
  simp only [List.mem_flatMap, List.mem_map, List.mem_range, List.mem_filter, decide_eq_true_eq, Prod.mk.injEq, Prod.exists]
  constructor
  · rintro ⟨a, b, ⟨k, c, d, h1, h2⟩, i', hi, j', ⟨hj, hij⟩, t', ht, h3, rfl, rfl, rfl⟩
    obtain ⟨rfl, rfl⟩ := h2
    subst h3
    exact ⟨⟨k, h1⟩, hi, hj, hij, ht⟩
  · rintro ⟨⟨k, hk⟩, hi, hj, hij, ht⟩
    exact ⟨v.1, v.2, ⟨k, v.1, v.2, hk, rfl, rfl⟩, i, hi, j, ⟨hj, hij⟩, t, ht, rfl, rfl, rfl, rfl⟩

end Verif.Dihedral
