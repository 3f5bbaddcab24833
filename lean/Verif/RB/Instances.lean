import Verif.RB.LemmasMain
import Verif.Dihedral.PropsDecomp
set_option linter.unusedSimpArgs false
set_option linter.unusedVariables false
/-
The CNOT-dihedral group of the library (dihedral.py) is lawful in the sense the circuit generator needs;
so is the group of all circuits.
-/
namespace Verif.RB
open Verif.Quantum

/-! ### Operators are determined by the basis states -/

theorem app1_sum {n : ℕ} {β : Type} (u : Mat2 ℂ) (q : Fin n) (s : Finset β) (f : β → State (Fin n) ℂ) :
    app1 u q (fun x => ∑ b ∈ s, f b x) = fun x => ∑ b ∈ s, app1 u q (f b) x := by
  funext x
  simp only [app1, Finset.mul_sum, Finset.sum_add_distrib]

theorem act_sum {n : ℕ} {β : Type} {i : Ins} (h : Ok n i) (s : Finset β) (f : β → State (Fin n) ℂ) :
    act n i (fun x => ∑ b ∈ s, f b x) = fun x => ∑ b ∈ s, act n i (f b) x := by
  rcases ok_cases h with ⟨k, q, hq, rfl, -⟩ | ⟨k, a, b, ha, hb, rfl, -, -⟩ | ⟨qs, rfl, -⟩
  · rw [act_one k q hq, app1_sum]; simp only [act_one k q hq]
  · simp only [act_two k a b ha hb]
    cases k <;> try rfl
    · funext x
      simp only [act2, appCZ]
      split_ifs
      · rw [Finset.sum_neg_distrib]
      · rfl
  · rfl

theorem run_sum {n : ℕ} {β : Type} (c : List Ins) (h : ∀ i ∈ c, Ok n i) (s : Finset β) (f : β → State (Fin n) ℂ) :
    run n c (fun x => ∑ b ∈ s, f b x) = fun x => ∑ b ∈ s, run n c (f b) x := by
  induction c generalizing f with
  | nil => rfl
  | cons i c ih =>
    rw [run_cons, act_sum (h i (by simp)), ih (fun j hj => h j (by simp [hj]))]
    rfl

theorem run_ket {n : ℕ} (c : List Ins) (h : ∀ i ∈ c, Ok n i) (ψ : State (Fin n) ℂ) :
    run n c ψ = fun x => ∑ b, ψ b * run n c (ket b) x := by
  have hψ : ψ = fun x => ∑ b, ψ b * ket b x := by
    funext x
    rw [Finset.sum_eq_single x]
    · simp [ket]
    · intro b _ hb; simp [ket, Ne.symm hb]
    · intro hx; exact absurd (Finset.mem_univ _) hx
  conv_lhs => rw [hψ]
  rw [run_sum c h]
  funext x
  refine Finset.sum_congr rfl fun b _ => ?_
  rw [run_smul c h]

theorem same_of_kets {n : ℕ} {c d : List Ins} (hc : ∀ i ∈ c, Ok n i) (hd : ∀ i ∈ d, Ok n i) {z : ℂ} (hz : ‖z‖ = 1)
    (h : ∀ b : Basis (Fin n), run n c (ket b) = fun x => z * run n d (ket b) x) : Same n c d := by
  refine ⟨z, hz, fun ψ => ?_⟩
  rw [run_ket c hc, run_ket d hd]
  funext x
  rw [Finset.mul_sum]
  refine Finset.sum_congr rfl fun b _ => ?_
  rw [h]; ring

/-! ### The CNOT-dihedral group -/

/-- A gate of a CNOT-dihedral circuit as an instruction (`u1(k*pi/4)` is `T^k`). -/
def ofGate : Dihedral.Gate → Ins
  | .x q => .gate .x [q]
  | .y q => .gate .y [q]
  | .z q => .gate .z [q]
  | .u1 k q => .gate (.t k) [q]
  | .cx a b => .gate .cx [a, b]
  | .cz a b => .gate .cz [a, b]
  | .id q => .gate .id [q]
  | .other qs => .barrier qs

/-- rb_groups.py:40-45, 61-64, 77-80, 90-93 for `CNOTDihedral`: an element carries its number of qubits;
`compose` of different sizes raises. -/
def dihGroup (so : Dihedral.SetOrder) : Group (Σ n, Dihedral.Elem n) where
  iden n := some ⟨n, Dihedral.Elem.one n⟩
  compose a b := if h : b.1 = a.1 then (Dihedral.compose so a.2 (h ▸ b.2) false).map fun r => ⟨a.1, r⟩ else none
  toCircuit e := (Dihedral.toCircuit e.2).map fun c => c.map ofGate

/-- A valid element on `n` qubits, at most eight (see finding C38: with nine, `compose` may raise). -/
def DihMem (n : ℕ) (e : Σ n, Dihedral.Elem n) : Prop :=
  0 < n ∧ n ≤ 8 ∧ ∃ e' : Dihedral.Elem n, e = ⟨n, e'⟩ ∧ Dihedral.isCnotDihedral e' = true

theorem ofGate_ok {n : ℕ} {g : Dihedral.Gate} (h : Dihedral.GateOk n g) : Ok n (ofGate g) ∧ ∃ k qs, ofGate g = .gate k qs := by
  cases g <;> simp [Dihedral.GateOk, ofGate, Ok, Kind.arity] at h ⊢
  all_goals first | exact h | (obtain ⟨⟨a, b⟩, c⟩ := h; exact ⟨a, b, c⟩)

theorem ofGate_act {n : ℕ} {g : Dihedral.Gate} (h : Dihedral.GateOk n g) (ψ : State (Fin n) ℂ) :
    Dihedral.applyGate g ψ = some (act n (ofGate g) ψ) := by
  cases g with
  | x q => have h : q < n := h; simp [Dihedral.applyGate, ofGate, act, h, Kind.mat]
  | y q => have h : q < n := h; simp [Dihedral.applyGate, ofGate, act, h, Kind.mat]
  | z q => have h : q < n := h; simp [Dihedral.applyGate, ofGate, act, h, Kind.mat]
  | u1 k q => have h : q < n := h; simp [Dihedral.applyGate, ofGate, act, h, Kind.mat]
  | id q => have h : q < n := h; simp [Dihedral.applyGate, ofGate, act, h, Kind.mat, app1_one]
  | cx a b => have h : (a < n ∧ b < n) ∧ a ≠ b := h; simp [Dihedral.applyGate, ofGate, act, h]
  | cz a b => have h : (a < n ∧ b < n) ∧ a ≠ b := h; simp [Dihedral.applyGate, ofGate, act, h]
  | other q => exact absurd h (by simp [Dihedral.GateOk])

theorem ofGate_run {n : ℕ} {c : List Dihedral.Gate} (h : ∀ g ∈ c, Dihedral.GateOk n g) (ψ : State (Fin n) ℂ) :
    Dihedral.applyCircuit c ψ = some (run n (c.map ofGate) ψ) := by
  unfold Dihedral.applyCircuit
  induction c generalizing ψ with
  | nil => rfl
  | cons g c ih =>
    rw [List.foldlM_cons, ofGate_act (h g (by simp))]
    exact ih (fun g hg => h g (by simp [hg])) _

theorem dih_circuit {n : ℕ} (hn : 0 < n) {e : Dihedral.Elem n} (he : Dihedral.isCnotDihedral e = true) :
    ∃ c z, (dihGroup Dihedral.cpySetOrder).toCircuit ⟨n, e⟩ = some c ∧ (∀ i ∈ c, Ok n i ∧ ∃ k qs, i = .gate k qs) ∧ ‖z‖ = 1 ∧
      ∀ x : Basis (Fin n), run n c (ket x) = fun y => z * Dihedral.img e x y := by
  obtain ⟨c, h1, h2, h3⟩ := Dihedral.toCircuit_spec hn he
  obtain ⟨-, z, hz, h4⟩ := Dihedral.circuit_img h2 h3
  refine ⟨c.map ofGate, z, by show Option.map _ _ = _; rw [h1]; rfl, ?_, hz, fun x => ?_⟩
  · intro i hi
    obtain ⟨g, hg, rfl⟩ := List.mem_map.1 hi
    exact ofGate_ok (h2 g hg)
  · have := h4 x
    rw [ofGate_run h2] at this
    exact Option.some.inj this

/-- The library's CNOT-dihedral elements on at most eight qubits are lawful. -/
theorem dih_lawful : Lawful (dihGroup Dihedral.cpySetOrder) DihMem where
  iden := by
    rintro n ⟨e, hn, h8, -⟩
    have hv := Dihedral.valid_one n
    refine ⟨⟨n, Dihedral.Elem.one n⟩, rfl, ⟨hn, h8, _, rfl, hv⟩, ?_⟩
    obtain ⟨c, z, c1, c2, c3, c4⟩ := dih_circuit hn hv
    refine ⟨c, c1, same_of_kets (fun i hi => (c2 i hi).1) (by simp) c3 fun b => ?_⟩
    rw [c4 b, (Dihedral.C37_identity n).2 b]; rfl
  compose := by
    rintro n a b ⟨hn, h8, a, rfl, ha⟩ ⟨-, -, b, rfl, hb⟩
    obtain ⟨r, r1, r2, zr, r3, r4⟩ := Dihedral.C38_compose_cpython h8 a b ha hb false
    refine ⟨⟨n, r⟩, ?_, ⟨hn, h8, r, rfl, r2⟩, ?_⟩
    · show (if h : n = n then _ else _) = _
      rw [dif_pos rfl, r1]; rfl
    · intro ca cb cr hca hcb hcr
      obtain ⟨c, z, c1, c2, c3, c4⟩ := dih_circuit hn ha
      rw [hca] at c1; cases c1
      obtain ⟨d, w, d1, d2, d3, d4⟩ := dih_circuit hn hb
      rw [hcb] at d1; cases d1
      obtain ⟨e, v, e1, e2, e3, e4⟩ := dih_circuit hn r2
      rw [hcr] at e1; cases e1
      have hca' : ∀ i ∈ ca, Ok n i := fun i hi => (c2 i hi).1
      have hcb' : ∀ i ∈ cb, Ok n i := fun i hi => (d2 i hi).1
      have hz0 : z ≠ 0 := fun h => by rw [h, norm_zero] at c3; exact zero_ne_one c3
      have hw0 : w ≠ 0 := fun h => by rw [h, norm_zero] at d3; exact zero_ne_one d3
      refine same_of_kets (z := v * zr * z⁻¹ * w⁻¹) (fun i hi => (e2 i hi).1) (fun i hi => (List.mem_append.1 hi).elim (hca' i) (hcb' i)) ?_ fun x => ?_
      · rw [norm_mul, norm_mul, norm_mul, norm_inv, norm_inv, c3, d3, e3, r3]; norm_num
      · have h1 : run n (ca ++ cb) (ket x) = fun y => z * (w * Dihedral.opApply b (Dihedral.img a x) y) := by
          rw [run_append, c4 x, run_smul cb hcb', Dihedral.opApply_img, Dihedral.img_eq, run_smul cb hcb', d4]
          funext y; ring
        rw [h1, e4 x, r4 x]
        funext y
        simp only [Bool.false_eq_true, if_false]
        field_simp
  toCircuit := by
    rintro n e ⟨hn, h8, e, rfl, he⟩
    obtain ⟨c, z, c1, c2, -⟩ := dih_circuit hn he
    exact ⟨c, c1, c2⟩

/-! ### Circuits themselves -/

/-- The group of circuits of one- and two-qubit gates, multiplication is concatenation.  It stands in for
an arbitrary group of gates in examples. -/
def freeGroup : Group (List Ins) where
  iden _ := some []
  compose a b := some (a ++ b)
  toCircuit e := some e

/-- Gates on `n` qubits. -/
def FreeMem (n : ℕ) (e : List Ins) : Prop := ∀ i ∈ e, Ok n i ∧ ∃ k qs, i = .gate k qs

theorem free_lawful : Lawful freeGroup FreeMem where
  iden n _ := ⟨[], rfl, by simp [FreeMem], [], rfl, Same.refl _ _⟩
  compose n a b ha hb := by
    refine ⟨a ++ b, rfl, fun i hi => (List.mem_append.1 hi).elim (ha i) (hb i), fun ca cb ce h1 h2 h3 => ?_⟩
    cases h1; cases h2; cases h3
    exact Same.refl _ _
  toCircuit n e he := ⟨e, rfl, he⟩

end Verif.RB
