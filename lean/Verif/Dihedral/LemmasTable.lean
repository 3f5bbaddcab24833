import Verif.Dihedral.Table
import Verif.Dihedral.PropsDecomp
import Verif.Py.DictLemmas
set_option linter.unusedSimpArgs false
set_option linter.unusedVariables false
/-
Lemmas for the tables of CNOT-dihedral elements: circuits up to a global phase, commuting local gates through a CNOT.
-/
namespace Verif.Dihedral
open Verif Verif.Quantum

/-- Basis map of a circuit. -/
def circMap {n : ℕ} : List Gate → Basis (Fin n) → Basis (Fin n)
  | [], b => b
  | g :: c, b => circMap c (gateMap g b)

/-- Phase of a circuit. -/
def circPhase {n : ℕ} : List Gate → Basis (Fin n) → ZMod 8
  | [], _ => 0
  | g :: c, b => gatePhase g b + circPhase c (gateMap g b)

theorem circMap_append {n : ℕ} (c d : List Gate) (b : Basis (Fin n)) : circMap (c ++ d) b = circMap d (circMap c b) := by
  induction c generalizing b with
  | nil => rfl
  | cons g c ih => exact ih _

theorem circPhase_append {n : ℕ} (c d : List Gate) (b : Basis (Fin n)) :
    circPhase (c ++ d) b = circPhase c b + circPhase d (circMap c b) := by
  induction c generalizing b with
  | nil => simp [circPhase, circMap]
  | cons g c ih =>
    show gatePhase g b + circPhase (c ++ d) (gateMap g b) = gatePhase g b + circPhase c (gateMap g b) + _
    rw [ih, add_assoc]
    rfl

/-- Circuits with the same effect up to a global phase. -/
def Eqv (n : ℕ) (c d : List Gate) : Prop :=
  (∀ b : Basis (Fin n), circMap c b = circMap d b) ∧ ∃ z : ZMod 8, ∀ b : Basis (Fin n), circPhase c b = circPhase d b + z

theorem Eqv.refl {n : ℕ} (c : List Gate) : Eqv n c c := ⟨fun _ => rfl, 0, fun _ => by rw [add_zero]⟩
theorem Eqv.symm {n : ℕ} {c d : List Gate} (h : Eqv n c d) : Eqv n d c := by
  obtain ⟨h1, z, h2⟩ := h
  exact ⟨fun b => (h1 b).symm, -z, fun b => by rw [h2]; ring⟩
theorem Eqv.trans {n : ℕ} {c d e : List Gate} (h : Eqv n c d) (h' : Eqv n d e) : Eqv n c e := by
  obtain ⟨h1, z, h2⟩ := h
  obtain ⟨h3, w, h4⟩ := h'
  exact ⟨fun b => (h1 b).trans (h3 b), w + z, fun b => by rw [h2, h4]; ring⟩
theorem Eqv.append {n : ℕ} {c d c' d' : List Gate} (h : Eqv n c d) (h' : Eqv n c' d') : Eqv n (c ++ c') (d ++ d') := by
  obtain ⟨h1, z, h2⟩ := h
  obtain ⟨h3, w, h4⟩ := h'
  refine ⟨fun b => by rw [circMap_append, circMap_append, h1, h3], z + w, fun b => ?_⟩
  rw [circPhase_append, circPhase_append, h2, h4, h1]
  ring

theorem step_circ {n : ℕ} (c : List Gate) (hc : ∀ g ∈ c, GateOk n g) {e : Elem n} (he : Good e) :
    ∃ r, appendCircuit e c = some r ∧ Step e r (circMap c) (circPhase c) := by
  induction c generalizing e with
  | nil => exact ⟨e, rfl, Step.refl he⟩
  | cons g c ih =>
    obtain ⟨r, h, s⟩ := step_gate he (hc g (by simp))
    obtain ⟨r', h', s'⟩ := ih (fun g hg => hc g (by simp [hg])) s.good
    refine ⟨r', ?_, s.trans s'⟩
    unfold appendCircuit at *
    rw [List.foldlM_cons, h]; exact h'

theorem eq_of_act {n : ℕ} {a b : Elem n} (ha : isCnotDihedral a = true) (hb : isCnotDihedral b = true)
    (haff : ∀ x, aff a x = aff b x) (z : ZMod 8) (hv : ∀ x : Fin n → Bool, value a.poly (ext x) = value b.poly (ext x) + z) : a = b := by
  obtain ⟨ga, ra, wa, da⟩ := (isCnot_iff a).1 ha
  obtain ⟨gb, rb, wb, db⟩ := (isCnot_iff b).1 hb
  have hz : z = 0 := by
    have := hv fun _ => false
    rw [value_at_zero, value_at_zero, wa, wb] at this
    simpa using this.symm
  have hp := Poly.ext_coef ga.wf gb.wf ra rb (coef_eq_of_value fun x => by rw [hv, hz, add_zero])
  obtain ⟨hl, hs⟩ := aff_inj ga gb haff
  cases a; cases b; simp_all

theorem Step.valid {n : ℕ} {e r : Elem n} {A k} (he : isCnotDihedral e = true) (s : Step e r A k) : isCnotDihedral r = true := by
  obtain ⟨ge, re, we, de⟩ := (isCnot_iff e).1 he
  exact (isCnot_iff r).2 ⟨s.good, s.rd re, s.w0.trans we, s.det de⟩

theorem aff_one {n : ℕ} (x : Fin n → Bool) : aff (Elem.one n) x = x := by
  funext i
  simp only [aff, Elem.one, ite_mul, one_mul, zero_mul, Finset.sum_ite_eq, Finset.mem_univ, if_true, add_zero]
  cases x i <;> simp [bit]

theorem value_one {n : ℕ} (x : ℕ → Bool) : value (Elem.one n).poly x = 0 := value_zero x

/-- The element of a circuit, with its action. -/
theorem from_spec {n : ℕ} (c : List Gate) (hc : ∀ g ∈ c, GateOk n g) :
    ∃ r, fromCircuit n c = some r ∧ isCnotDihedral r = true ∧ (∀ x, aff r x = circMap c x) ∧
      ∃ z : ZMod 8, ∀ x : Fin n → Bool, value r.poly (ext x) = circPhase c x + z := by
  obtain ⟨r, h, s⟩ := step_circ c hc (Good.one n)
  obtain ⟨z, hz⟩ := s.val
  refine ⟨r, h, s.valid (valid_one n), fun x => ?_, z, fun x => ?_⟩
  · rw [s.aff, aff_one]
  · rw [hz, value_one, aff_one]
    ring

/-- Circuits have the same element iff they have the same effect up to a global phase. -/
theorem from_eq_iff {n : ℕ} (c d : List Gate) (hc : ∀ g ∈ c, GateOk n g) (hd : ∀ g ∈ d, GateOk n g) :
    fromCircuit n c = fromCircuit n d ↔ Eqv n c d := by
  obtain ⟨r, h1, v1, a1, z1, p1⟩ := from_spec c hc
  obtain ⟨s, h2, v2, a2, z2, p2⟩ := from_spec d hd
  rw [h1, h2, Option.some.injEq]
  constructor
  · rintro rfl
    exact ⟨fun b => by rw [← a1, a2], z2 - z1, fun b => by linear_combination p2 b - p1 b⟩
  · rintro ⟨hm, z, hp⟩
    exact eq_of_act v1 v2 (fun x => by rw [a1, a2, hm]) (z + z1 - z2) fun x => by rw [p1, p2, hp]; ring

/-! ### Basic gates -/

/-- X, powers of T and CNOT. -/
def Basic : Gate → Prop
  | .x _ | .u1 _ _ | .cx _ _ => True
  | _ => False

/-- A gate in terms of X, T and CNOT. -/
def basicGates : Gate → List Gate
  | .z q => [.u1 4 q]
  | .y q => [.x q, .u1 4 q]
  | .id _ => []
  | .cz a b => [.u1 7 b, .u1 7 a, .cx b a, .u1 2 a, .cx b a, .u1 7 b, .u1 7 a]
  | g => [g]

/-- The number of CNOT gates of a circuit; CZ counts as the two CNOT gates `append_circuit` makes of it. -/
def cost : List Gate → ℕ
  | [] => 0
  | .cx _ _ :: c => cost c + 1
  | .cz _ _ :: c => cost c + 2
  | _ :: c => cost c

theorem cost_append (c d : List Gate) : cost (c ++ d) = cost c + cost d := by
  induction c with
  | nil => simp [cost]
  | cons g c ih => cases g <;> simp only [List.cons_append, cost, ih] <;> omega

theorem cost_basic (c : List Gate) : cost (c.flatMap basicGates) = cost c := by
  induction c with
  | nil => rfl
  | cons g c ih => rw [List.flatMap_cons, cost_append, ih]; cases g <;> simp [basicGates, cost] <;> omega

theorem append_basicGates {n : ℕ} (e : Elem n) (g : Gate) : appendCircuit e (basicGates g) = appendGate e g := by
  cases g <;> simp [appendCircuit, basicGates, appendGate, List.foldlM]

theorem append_basic {n : ℕ} (c : List Gate) (e : Elem n) : appendCircuit e (c.flatMap basicGates) = appendCircuit e c := by
  induction c generalizing e with
  | nil => rfl
  | cons g c ih =>
    have h : appendCircuit e (basicGates g ++ c.flatMap basicGates) =
        (appendCircuit e (basicGates g)).bind fun r => appendCircuit r (c.flatMap basicGates) := by
      unfold appendCircuit; rw [List.foldlM_append]; rfl
    rw [List.flatMap_cons, h, append_basicGates]
    unfold appendCircuit at *
    rw [List.foldlM_cons]
    simp only [ih]
    rfl

theorem basic_ok {n : ℕ} (c : List Gate) (hc : ∀ g ∈ c, GateOk n g) : ∀ g ∈ c.flatMap basicGates, GateOk n g ∧ Basic g := by
  intro g hg
  obtain ⟨a, ha, hg⟩ := List.mem_flatMap.1 hg
  have ho := hc a ha
  cases a <;> simp only [basicGates, List.mem_cons, List.not_mem_nil, or_false] at hg
  case cz p q =>
    obtain ⟨⟨h1, h2⟩, h3⟩ := ho
    rcases hg with rfl | rfl | rfl | rfl | rfl | rfl | rfl <;> refine ⟨?_, trivial⟩
    · exact h2
    · exact h1
    · exact ⟨⟨h2, h1⟩, Ne.symm h3⟩
    · exact h1
    · exact ⟨⟨h2, h1⟩, Ne.symm h3⟩
    · exact h2
    · exact h1
  case y q => rcases hg with rfl | rfl <;> exact ⟨ho, trivial⟩
  case other => exact absurd ho id
  all_goals subst hg; exact ⟨ho, trivial⟩

/-! ### Commuting local gates through a CNOT -/

theorem eqv_four {n : ℕ} {i j : ℕ} (hi : i < n) (hj : j < n) (hij : i ≠ j) (k : ℤ) :
    Eqv n [.cx i j, .u1 k j] ((if k / 4 % 2 = 1 then [.u1 4 i, .u1 4 j] else []) ++ [.cx i j, .u1 (k % 4) j]) := by
  have hij' : (⟨i, hi⟩ : Fin n) ≠ ⟨j, hj⟩ := by simpa using hij
  have hk : (k : ZMod 8) = ((k % 4 : ℤ) : ZMod 8) + (if k / 4 % 2 = 1 then 4 else 0) := by
    have h : k = k % 4 + (k / 4 % 2) * 4 + (k / 4 / 2) * 8 := by omega
    have h8 : ((8 : ℤ) : ZMod 8) = 0 := by decide
    conv_lhs => rw [h]
    push_cast at h8 ⊢
    rw [h8]
    rcases Int.emod_two_eq_zero_or_one (k / 4) with h2 | h2 <;> simp [h2]
  split_ifs at hk ⊢ with h2
  · refine ⟨fun b => by simp [circMap, gateMap, hi, hj], 0, fun b => ?_⟩
    simp only [circPhase, gatePhase, gateMap, hi, hj, and_self, dif_pos, List.cons_append, List.nil_append, Function.update_self, add_zero,
      zero_add, hk]
    rcases Bool.eq_false_or_eq_true (b ⟨i, hi⟩) with e1 | e1 <;> rcases Bool.eq_false_or_eq_true (b ⟨j, hj⟩) with e2 | e2 <;> simp [e1, e2]
    · have : (4 : ZMod 8) + 4 = 0 := by decide
      linear_combination -this
    · ring
    · ring
  · refine ⟨fun b => by simp [circMap, gateMap, hi, hj], 0, fun b => ?_⟩
    simp only [circPhase, gatePhase, gateMap, hi, hj, and_self, dif_pos, List.cons_append, List.nil_append, Function.update_self, add_zero,
      zero_add, hk]

theorem eqv_u1_same {n : ℕ} {j : ℕ} (hj : j < n) (k l : ℤ) : Eqv n [.u1 k j, .u1 l j] [.u1 (k + l) j] := by
  refine ⟨fun b => by simp [circMap, gateMap], 0, fun b => ?_⟩
  simp only [circPhase, gatePhase, gateMap, hj, dif_pos]
  rcases Bool.eq_false_or_eq_true (b ⟨j, hj⟩) with e1 | e1 <;> simp [e1]

theorem eqv_u1_other {n : ℕ} {i j a : ℕ} (hi : i < n) (hj : j < n) (ha : a < n) (haj : a ≠ j) (k l : ℤ) :
    Eqv n [.cx i j, .u1 k j, .u1 l a] [.u1 l a, .cx i j, .u1 k j] := by
  have haj' : (⟨a, ha⟩ : Fin n) ≠ ⟨j, hj⟩ := by simpa using haj
  refine ⟨fun b => by simp [circMap, gateMap], 0, fun b => ?_⟩
  simp only [circPhase, gatePhase, gateMap, hi, hj, ha, and_self, dif_pos, Function.update_self, Function.update_of_ne haj']
  ring

/-- X after `cx i j, u1 k j`. -/
theorem eqv_x {n : ℕ} {i j a : ℕ} (hi : i < n) (hj : j < n) (hij : i ≠ j) (ha : a < n) (k : ℤ) :
    Eqv n [.cx i j, .u1 k j, .x a] ((if a = i then [.x i, .x j] else [.x a]) ++ [.cx i j, .u1 (if a = j then -k else k) j]) := by
  have hij' : (⟨i, hi⟩ : Fin n) ≠ ⟨j, hj⟩ := by simpa using hij
  by_cases h1 : a = i
  · subst h1
    rw [if_pos rfl, if_neg hij]
    refine ⟨fun b => ?_, 0, fun b => ?_⟩
    · simp only [circMap, gateMap, hi, hj, and_self, dif_pos, List.cons_append, List.nil_append]
      funext q
      by_cases hq : q = ⟨a, hi⟩
      · subst hq; simp [hij', hij'.symm, Function.update_of_ne]
      · by_cases hq2 : q = ⟨j, hj⟩
        · subst hq2; simp [hij', hij'.symm, Function.update_of_ne]
        · simp [Function.update_of_ne, hq, hq2]
    · simp only [circPhase, circMap, gatePhase, gateMap, hi, hj, and_self, dif_pos, List.cons_append, List.nil_append, Function.update_self,
        Function.update_of_ne hij', Function.update_of_ne hij'.symm, add_zero, zero_add]
      rcases Bool.eq_false_or_eq_true (b ⟨a, hi⟩) with e1 | e1 <;> rcases Bool.eq_false_or_eq_true (b ⟨j, hj⟩) with e2 | e2 <;> simp [e1, e2]
  · rw [if_neg h1]
    have hai : (⟨a, ha⟩ : Fin n) ≠ ⟨i, hi⟩ := by simpa using h1
    by_cases h2 : a = j
    · subst h2
      rw [if_pos rfl]
      refine ⟨fun b => ?_, k, fun b => ?_⟩
      · simp only [circMap, gateMap, hi, hj, and_self, dif_pos, List.cons_append, List.nil_append]
        funext q
        by_cases hq : q = ⟨a, hj⟩
        · subst hq; simp [hij', hij'.symm, Function.update_of_ne]
        · simp [Function.update_of_ne, hq]
      · simp only [circPhase, circMap, gatePhase, gateMap, hi, hj, and_self, dif_pos, List.cons_append, List.nil_append,
          Function.update_self, Function.update_of_ne hij', Function.update_of_ne hij'.symm, add_zero, zero_add]
        rcases Bool.eq_false_or_eq_true (b ⟨i, hi⟩) with e1 | e1 <;> rcases Bool.eq_false_or_eq_true (b ⟨a, hj⟩) with e2 | e2 <;> simp [e1, e2]
    · have haj : (⟨a, ha⟩ : Fin n) ≠ ⟨j, hj⟩ := by simpa using h2
      rw [if_neg h2]
      refine ⟨fun b => ?_, 0, fun b => ?_⟩
      · simp only [circMap, gateMap, hi, hj, ha, and_self, dif_pos, List.cons_append, List.nil_append]
        funext q
        by_cases hq : q = ⟨j, hj⟩
        · subst hq; simp [hai.symm, haj.symm, Function.update_of_ne]
        · by_cases hq2 : q = ⟨a, ha⟩
          · subst hq2; simp [haj, Function.update_of_ne]
          · simp [Function.update_of_ne, hq, hq2]
      · simp only [circPhase, circMap, gatePhase, gateMap, hi, hj, ha, and_self, dif_pos, List.cons_append, List.nil_append,
          Function.update_self, Function.update_of_ne hai.symm, Function.update_of_ne haj.symm, add_zero, zero_add]

/-- Circuits of X, T and CNOT gates on existing qubits. -/
def OkB (n : ℕ) (c : List Gate) : Prop := ∀ g ∈ c, GateOk n g ∧ Basic g

theorem OkB.append {n : ℕ} {c d : List Gate} (h : OkB n c) (h' : OkB n d) : OkB n (c ++ d) := by
  intro g hg
  rcases List.mem_append.1 hg with hg | hg
  · exact h g hg
  · exact h' g hg

/-- The last CNOT of a circuit can be moved to the end, but for a power of T on its target. -/
theorem last_cx {n : ℕ} (c : List Gate) (hc : OkB n c) (hpos : 0 < cost c) :
    ∃ d i j, ∃ k : ℤ, OkB n d ∧ cost d + 1 = cost c ∧ i < n ∧ j < n ∧ i ≠ j ∧ Eqv n c (d ++ [.cx i j, .u1 k j]) := by
  induction c using List.reverseRecOn with
  | nil => simp [cost] at hpos
  | append_singleton c g ih =>
    have hc' : OkB n c := fun a ha => hc a (by simp [ha])
    have hg := hc g (by simp)
    rw [cost_append] at hpos ⊢
    cases g with
    | cx i j =>
      obtain ⟨⟨⟨hi, hj⟩, hij⟩, -⟩ := hg
      refine ⟨c, i, j, 0, hc', by simp [cost], hi, hj, hij, ?_⟩
      refine (Eqv.refl c).append ⟨fun b => rfl, 0, fun b => ?_⟩
      simp [circPhase, gatePhase, hj]
    | x a =>
      have ha : a < n := hg.1
      obtain ⟨d, i, j, k, hd, hcost, hi, hj, hij, he⟩ := ih hc' (by simpa [cost] using hpos)
      refine ⟨d ++ (if a = i then [.x i, .x j] else [.x a]), i, j, if a = j then -k else k, hd.append ?_, ?_, hi, hj, hij, ?_⟩
      · split_ifs
        · intro g hg
          simp only [List.mem_cons, List.not_mem_nil, or_false] at hg
          rcases hg with rfl | rfl
          · exact ⟨hi, trivial⟩
          · exact ⟨hj, trivial⟩
        · intro g hg
          simp only [List.mem_cons, List.not_mem_nil, or_false] at hg
          subst hg
          exact ⟨ha, trivial⟩
      · rw [cost_append]
        split_ifs <;> simp [cost, hcost]
      · have h := he.append (Eqv.refl [Gate.x a])
        rw [List.append_assoc] at h ⊢
        exact h.trans ((Eqv.refl d).append (eqv_x hi hj hij ha k))
    | u1 l a =>
      have ha : a < n := hg.1
      obtain ⟨d, i, j, k, hd, hcost, hi, hj, hij, he⟩ := ih hc' (by simpa [cost] using hpos)
      have h := he.append (Eqv.refl [Gate.u1 l a])
      rw [List.append_assoc] at h
      by_cases haj : a = j
      · subst haj
        refine ⟨d, i, a, k + l, hd, by simp [cost, hcost], hi, hj, hij, ?_⟩
        exact h.trans ((Eqv.refl d).append ((Eqv.refl [Gate.cx i a]).append (eqv_u1_same hj k l)))
      · refine ⟨d ++ [.u1 l a], i, j, k, hd.append ?_, by simp [cost_append, cost, hcost], hi, hj, hij, ?_⟩
        · intro g hg
          simp only [List.mem_cons, List.not_mem_nil, or_false] at hg
          subst hg
          exact ⟨ha, trivial⟩
        · rw [List.append_assoc]
          exact h.trans ((Eqv.refl d).append (eqv_u1_other hi hj ha haj k l))
    | z q => exact absurd hg.2 id
    | y q => exact absurd hg.2 id
    | cz p q => exact absurd hg.2 id
    | id q => exact absurd hg.2 id
    | other q => exact absurd hg.2 id

/-- ... and the power is 0, 1, 2 or 3. -/
theorem last_cx' {n : ℕ} (c : List Gate) (hc : OkB n c) (hpos : 0 < cost c) :
    ∃ d i j t, OkB n d ∧ cost d + 1 = cost c ∧ i < n ∧ j < n ∧ i ≠ j ∧ t < 4 ∧ Eqv n c (d ++ [.cx i j, .u1 (t : ℕ) j]) := by
  obtain ⟨d, i, j, k, hd, hcost, hi, hj, hij, he⟩ := last_cx c hc hpos
  refine ⟨d ++ (if k / 4 % 2 = 1 then [.u1 4 i, .u1 4 j] else []), i, j, (k % 4).toNat, hd.append ?_, ?_, hi, hj, hij, by omega, ?_⟩
  · split_ifs
    · intro g hg
      simp only [List.mem_cons, List.not_mem_nil, or_false] at hg
      rcases hg with rfl | rfl
      · exact ⟨hi, trivial⟩
      · exact ⟨hj, trivial⟩
    · simp [OkB]
  · rw [cost_append]
    split_ifs <;> simp [cost, hcost]
  · rw [Int.toNat_of_nonneg (by omega), List.append_assoc]
    exact he.trans ((Eqv.refl d).append (eqv_four hi hj hij k))

end Verif.Dihedral
