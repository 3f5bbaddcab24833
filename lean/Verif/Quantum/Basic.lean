import Mathlib.Data.Complex.Basic
import Mathlib.Algebra.BigOperators.Group.Finset.Basic
import Mathlib.Algebra.BigOperators.Ring.Finset
import Mathlib.Algebra.BigOperators.Group.Finset.Piecewise
import Mathlib.Data.Fintype.Pi
import Mathlib.Tactic.Ring
/-
State-vector semantics of quantum circuits, used as the meaning of the gate lists produced by the
models.  This is textbook quantum mechanics, not code of the repository: a state of the qubits `ι`
assigns an amplitude to every assignment of bits to the qubits.
-/
set_option linter.unusedSectionVars false

namespace Verif.Quantum

variable {ι : Type} [DecidableEq ι] {K : Type} [CommRing K]

/-- A computational basis state: one bit per qubit. -/
abbrev Basis (ι : Type) := ι → Bool

/-- A state vector. -/
abbrev State (ι K : Type) := Basis ι → K

/-- A 2×2 matrix, `u r c` is the entry in row `r` and column `c`. -/
abbrev Mat2 (K : Type) := Bool → Bool → K

/-- Apply a one-qubit operator to qubit `q`. -/
def app1 (u : Mat2 K) (q : ι) (ψ : State ι K) : State ι K := fun x =>
  u (x q) false * ψ (Function.update x q false) + u (x q) true * ψ (Function.update x q true)

/-- Controlled X. -/
def appCX (c t : ι) (ψ : State ι K) : State ι K := fun x =>
  ψ (Function.update x t (Bool.xor (x t) (x c)))

/-- Controlled Z. -/
def appCZ (a b : ι) (ψ : State ι K) : State ι K := fun x =>
  if x a && x b then -ψ x else ψ x

/-- The state |0…0⟩. -/
def ket0 [Fintype ι] : State ι K := fun x => if x = (fun _ => false) then 1 else 0

/-- The basis state |b⟩. -/
def ket [Fintype ι] (b : Basis ι) : State ι K := fun x => if x = b then 1 else 0

/-- Probability of the basis outcome `x` (Born rule). -/
noncomputable def prob (ψ : State ι ℂ) (x : Basis ι) : ℝ := Complex.normSq (ψ x)

/-- Pauli X. -/
def mX : Mat2 K := fun r c => if r = c then 0 else 1

/-- Pauli Z. -/
def mZ : Mat2 K := fun r c => if r = c then (if r then -1 else 1) else 0

/-- Product of 2×2 matrices. -/
def mmul (u v : Mat2 K) : Mat2 K := fun r c => u r false * v false c + u r true * v true c

/-- Identity matrix. -/
def mI : Mat2 K := fun r c => if r = c then 1 else 0

theorem app1_mul (u v : Mat2 K) (q : ι) (ψ : State ι K) :
    app1 u q (app1 v q ψ) = app1 (mmul u v) q ψ := by
  funext x
  simp only [app1, mmul, Function.update_self, Function.update_idem]
  ring

theorem app1_one (q : ι) (ψ : State ι K) : app1 mI q ψ = ψ := by
  funext x
  unfold app1 mI
  cases h : x q <;> simp [← h]

theorem app1_comm (u v : Mat2 K) (p q : ι) (hpq : p ≠ q) (ψ : State ι K) :
    app1 u p (app1 v q ψ) = app1 v q (app1 u p ψ) := by
  funext x
  simp only [app1]
  rw [Function.update_of_ne hpq.symm, Function.update_of_ne hpq.symm, Function.update_of_ne hpq,
    Function.update_of_ne hpq, Function.update_comm hpq, Function.update_comm hpq, Function.update_comm hpq,
    Function.update_comm hpq]
  ring

theorem app1_appCX (u : Mat2 K) (q c t : ι) (hc : q ≠ c) (ht : q ≠ t) (ψ : State ι K) :
    app1 u q (appCX c t ψ) = appCX c t (app1 u q ψ) := by
  funext x
  simp only [app1, appCX, Function.update_of_ne hc.symm, Function.update_of_ne ht.symm, Function.update_of_ne ht,
    Function.update_comm ht]

theorem app1_appCZ (u : Mat2 K) (q a b : ι) (ha : q ≠ a) (hb : q ≠ b) (ψ : State ι K) :
    app1 u q (appCZ a b ψ) = appCZ a b (app1 u q ψ) := by
  funext x
  simp only [app1, appCZ, Function.update_of_ne ha.symm, Function.update_of_ne hb.symm]
  split <;> ring

theorem app1_smul (u : Mat2 K) (q : ι) (k : K) (ψ : State ι K) :
    app1 u q (fun x => k * ψ x) = fun x => k * app1 u q ψ x := by
  funext x; simp only [app1]; ring

theorem appCX_smul (c t : ι) (k : K) (ψ : State ι K) :
    appCX c t (fun x => k * ψ x) = fun x => k * appCX c t ψ x := rfl

theorem appCZ_smul (a b : ι) (k : K) (ψ : State ι K) :
    appCZ a b (fun x => k * ψ x) = fun x => k * appCZ a b ψ x := by
  funext x; simp only [appCZ]; split <;> ring

/-! ### Pauli operators -/

variable [Fintype ι]

/-- `(-1)^(a·y)`. -/
def sgn (a y : Basis ι) : K := ∏ q, if a q && y q then -1 else 1

/-- Pointwise exclusive or. -/
def bxor (a b : Basis ι) : Basis ι := fun q => Bool.xor (a q) (b q)

/-- The Pauli operator `Z^a X^b`. -/
def pauli (a b : Basis ι) (ψ : State ι K) : State ι K := fun y => sgn a y * ψ (bxor y b)

/-- Equality of states up to a sign. -/
def EqSign (ψ φ : State ι K) : Prop := ψ = φ ∨ ψ = fun x => -1 * φ x

theorem EqSign.refl (ψ : State ι K) : EqSign ψ ψ := Or.inl rfl

theorem EqSign.of_eq {ψ φ : State ι K} (h : ψ = φ) : EqSign ψ φ := Or.inl h

theorem EqSign.symm {ψ φ : State ι K} (h : EqSign ψ φ) : EqSign φ ψ := by
  rcases h with h | h
  · exact Or.inl h.symm
  · right; rw [h]; funext x; ring

theorem EqSign.trans {ψ φ χ : State ι K} (h : EqSign ψ φ) (h' : EqSign φ χ) : EqSign ψ χ := by
  rcases h with rfl | rfl <;> rcases h' with rfl | rfl
  · exact .refl _
  · right; rfl
  · right; rfl
  · left; funext x; ring

/-- Maps that commute with a change of sign respect equality up to sign. -/
theorem EqSign.map {ψ φ : State ι K} (f : State ι K → State ι K)
    (hf : ∀ (k : K) ψ, f (fun x => k * ψ x) = fun x => k * f ψ x) (h : EqSign ψ φ) : EqSign (f ψ) (f φ) := by
  rcases h with rfl | rfl
  · exact .refl _
  · right; exact hf _ _

theorem EqSign.prob {ψ φ : State ι ℂ} (h : EqSign ψ φ) (x : Basis ι) : prob ψ x = prob φ x := by
  rcases h with rfl | rfl
  · rfl
  · simp [Quantum.prob]

theorem sgn_sq (a y : Basis ι) : (sgn a y : K) * sgn a y = 1 := by
  unfold sgn
  rw [← Finset.prod_mul_distrib]
  apply Finset.prod_eq_one
  intro q _
  split <;> ring

theorem sgn_pm (a y : Basis ι) : (sgn a y : K) = 1 ∨ (sgn a y : K) = -1 := by
  unfold sgn
  refine Finset.prod_induction _ (fun k : K => k = 1 ∨ k = -1) ?_ (Or.inl rfl) ?_
  · rintro _ _ (rfl | rfl) (rfl | rfl) <;> simp
  · intro q _; split <;> simp

theorem sgn_bxor_right (a y b : Basis ι) : (sgn a (bxor y b) : K) = sgn a y * sgn a b := by
  unfold sgn bxor
  rw [← Finset.prod_mul_distrib]
  refine Finset.prod_congr rfl fun q _ => ?_
  cases a q <;> cases y q <;> cases b q <;> simp

theorem sgn_bxor_left (a b y : Basis ι) : (sgn (bxor a b) y : K) = sgn a y * sgn b y := by
  unfold sgn bxor
  rw [← Finset.prod_mul_distrib]
  refine Finset.prod_congr rfl fun q _ => ?_
  cases a q <;> cases y q <;> cases b q <;> simp

theorem sgn_zero_right (a : Basis ι) : (sgn a (fun _ => false) : K) = 1 := by
  unfold sgn; simp

theorem sgn_zero_left (a : Basis ι) : (sgn (fun _ => false) a : K) = 1 := by
  unfold sgn; simp

/-- The assignment that is `b` at `q` and 0 elsewhere. -/
def unit (q : ι) (b : Bool) : Basis ι := fun p => b && decide (p = q)

theorem sgn_unit (q : ι) (b : Bool) (y : Basis ι) :
    (sgn (unit q b) y : K) = if b && y q then -1 else 1 := by
  unfold sgn unit
  rw [Finset.prod_eq_single q]
  · simp
  · intro p _ hp; simp [hp]
  · intro h; exact absurd (Finset.mem_univ q) h

theorem bxor_assoc (a b c : Basis ι) : bxor (bxor a b) c = bxor a (bxor b c) := by
  funext q; simp [bxor]

theorem bxor_comm (a b : Basis ι) : bxor a b = bxor b a := by
  funext q; simp [bxor, Bool.xor_comm]

theorem bxor_zero (a : Basis ι) : bxor a (fun _ => false) = a := by
  funext q; simp [bxor]

theorem bxor_self (a : Basis ι) : bxor a a = fun _ => false := by
  funext q; simp [bxor]

theorem bxor_unit (x : Basis ι) (q : ι) (b : Bool) :
    bxor x (unit q b) = Function.update x q (Bool.xor (x q) b) := by
  funext p
  by_cases h : p = q
  · subst h; simp [bxor, unit]
  · simp [bxor, unit, h]

theorem pauli_smul (a b : Basis ι) (k : K) (ψ : State ι K) :
    pauli a b (fun x => k * ψ x) = fun x => k * pauli a b ψ x := by
  funext x; simp only [pauli]; ring

/-- Composition of Pauli operators, up to sign. -/
theorem pauli_pauli (a b c d : Basis ι) (ψ : State ι K) :
    EqSign (pauli a b (pauli c d ψ)) (pauli (bxor a c) (bxor b d) ψ) := by
  have h : pauli a b (pauli c d ψ) = fun x => sgn c b * pauli (bxor a c) (bxor b d) ψ x := by
    funext x
    simp only [pauli, sgn_bxor_right, sgn_bxor_left, bxor_assoc]
    ring
  rcases sgn_pm (K := K) c b with h' | h'
  · left; rw [h, h']; funext x; ring
  · right; rw [h, h']

theorem pauli_zero (ψ : State ι K) : pauli (fun _ => false) (fun _ => false) ψ = ψ := by
  funext x; simp [pauli, sgn_zero_left, bxor_zero]

theorem app1_mZ (q : ι) (ψ : State ι K) : app1 mZ q ψ = pauli (unit q true) (fun _ => false) ψ := by
  funext x
  simp only [app1, mZ, pauli, sgn_unit, bxor_zero]
  cases h : x q <;> simp [← h]

theorem app1_mX (q : ι) (ψ : State ι K) : app1 mX q ψ = pauli (fun _ => false) (unit q true) ψ := by
  funext x
  simp only [app1, mX, pauli, sgn_zero_left, bxor_unit]
  cases h : x q <;> simp

theorem unit_false (q : ι) : unit q false = fun _ => false := by
  funext p; simp [unit]

/-- A CZ gate moves past a Pauli operator. -/
theorem appCZ_pauli (i j : ι) (a b : Basis ι) (ψ : State ι K) :
    EqSign (appCZ i j (pauli a b ψ))
      (pauli (bxor (bxor a (unit i (b j))) (unit j (b i))) b (appCZ i j ψ)) := by
  have h : appCZ i j (pauli a b ψ) = fun x => (if b i && b j then -1 else 1) *
      pauli (bxor (bxor a (unit i (b j))) (unit j (b i))) b (appCZ i j ψ) x := by
    funext x
    simp only [appCZ, pauli, sgn_bxor_left, sgn_unit]
    have hall : ∀ (p q r s : Bool) (A P : K), (if p && q then -(A * P) else A * P) =
        (if r && s then -1 else 1) * (((A * if s && p then -1 else 1) * if r && q then -1 else 1) *
          if (Bool.xor p r && Bool.xor q s) then -P else P) := by
      intro p q r s A P
      cases p <;> cases q <;> cases r <;> cases s <;> simp
    exact hall (x i) (x j) (b i) (b j) (sgn a x) (ψ (bxor x b))
  cases hb : (b i && b j)
  · left; rw [h, hb]; funext x; simp
  · right; rw [h, hb]; funext x; simp

/-- A CX gate moves past a Pauli operator. -/
theorem appCX_pauli (c t : ι) (hct : c ≠ t) (a b : Basis ι) (ψ : State ι K) :
    appCX c t (pauli a b ψ) =
      pauli (bxor a (unit c (a t))) (bxor b (unit t (b c))) (appCX c t ψ) := by
  funext x
  simp only [appCX, pauli, sgn_bxor_left, sgn_unit]
  have e1 : bxor (Function.update x t (Bool.xor (x t) (x c))) b =
      Function.update (bxor x (bxor b (unit t (b c)))) t
        (Bool.xor (bxor x (bxor b (unit t (b c))) t) (bxor x (bxor b (unit t (b c))) c)) := by
    funext p
    by_cases hp : p = t
    · subst hp
      simp only [bxor, Function.update_self, unit, hct, decide_true, decide_false, Bool.and_true, Bool.and_false,
        Bool.xor_false]
      have hall : ∀ u v w k : Bool, Bool.xor (Bool.xor u v) w =
          Bool.xor (Bool.xor u (Bool.xor w k)) (Bool.xor v k) := by decide
      exact hall _ _ _ _
    · simp [bxor, hp, unit]
  rw [e1, ← bxor_unit, sgn_bxor_right]
  congr 1
  congr 1
  have : ∀ (y : Basis ι) (q : ι) (v : Bool), (sgn y (unit q v) : K) = if v && y q then -1 else 1 := by
    intro y q v
    have hc : (sgn y (unit q v) : K) = sgn (unit q v) y := by
      unfold sgn; simp only [Bool.and_comm]
    rw [hc, sgn_unit]
  rw [this, Bool.and_comm]

end Verif.Quantum
