import Verif.Accred.LemmasPath
import Mathlib.Algebra.BigOperators.Fin
set_option linter.unusedSectionVars false
set_option linter.unusedSimpArgs false
/-
A run of padded circuits on a noisy device, averaged over the pads.
-/
namespace Verif.Accred
open Verif Verif.Quantum Finset

variable {n : ℕ} {κ : Type} [Fintype κ]

/-! ### Norms -/

theorem nrm2_inner (ψ : State (Fin n) ℂ) : ((nrm2 ψ : ℝ) : ℂ) = Quantum.inner ψ ψ := by
  unfold nrm2 Quantum.inner
  rw [Complex.ofReal_sum]
  refine sum_congr rfl fun x _ => ?_
  rw [mul_comm, Complex.mul_conj]

theorem nrm2_app1 (u : Mat2 ℂ) (hu : mmul (adj u) u = mI) (q : Fin n) (ψ : State (Fin n) ℂ) : nrm2 (app1 u q ψ) = nrm2 ψ := by
  have h := nrm2_inner (app1 u q ψ)
  rw [inner_app1, app1_mul, hu, app1_one, ← nrm2_inner] at h
  exact_mod_cast h

theorem unit_mX : mmul (adj mX) mX = (mI : Mat2 ℂ) := by
  funext r c; cases r <;> cases c <;> simp [mmul, adj, mX, mI]

theorem unit_mZ : mmul (adj mZ) mZ = (mI : Mat2 ℂ) := by
  funext r c; cases r <;> cases c <;> simp [mmul, adj, mZ, mI]

theorem unit_mS : mmul (adj mS) mS = (mI : Mat2 ℂ) := by
  funext r c; cases r <;> cases c <;> simp [mmul, adj, mS, mI]

theorem unit_mSdg : mmul (adj mSdg) mSdg = (mI : Mat2 ℂ) := by
  funext r c; cases r <;> cases c <;> simp [mmul, adj, mSdg, mI]

theorem unit_mH : mmul (adj mH) mH = (mI : Mat2 ℂ) := by
  have : adj mH = mH := by
    have hr : (starRingEnd ℂ) rt = rt := by unfold rt; exact Complex.conj_ofReal _
    funext r c; cases r <;> cases c <;> simp [adj, mH, hr]
  rw [this, mH_mH]

/-- Gates that preserve the norm. -/
def Gate.ok : Gate n → Prop
  | .u m _ => mmul (adj m) m = mI
  | .cx c t => c ≠ t
  | _ => True

theorem nrm2_perm (f : Basis (Fin n) → Basis (Fin n)) (hf : ∀ x, f (f x) = x) (ψ : State (Fin n) ℂ) :
    nrm2 (fun x => ψ (f x)) = nrm2 ψ :=
  Equiv.sum_comp (Function.Involutive.toPerm f hf) fun x => Complex.normSq (ψ x)

theorem nrm2_gate (g : Gate n) (hg : g.ok) (ψ : State (Fin n) ℂ) : nrm2 (applyGate g ψ) = nrm2 ψ := by
  cases g with
  | u m q => exact nrm2_app1 m hg q ψ
  | x q => exact nrm2_app1 _ unit_mX q ψ
  | z q => exact nrm2_app1 _ unit_mZ q ψ
  | h q => exact nrm2_app1 _ unit_mH q ψ
  | s q => exact nrm2_app1 _ unit_mS q ψ
  | sdg q => exact nrm2_app1 _ unit_mSdg q ψ
  | cx c t =>
    refine nrm2_perm (fun x => Function.update x t (Bool.xor (x t) (x c))) (fun x => ?_) ψ
    have h : c ≠ t := hg
    rw [Function.update_self, Function.update_of_ne h, Function.update_idem]
    simp
  | cz a b =>
    refine sum_congr rfl fun x _ => ?_
    simp only [applyGate, appCZ]
    split <;> simp
  | barrier => rfl

theorem nrm2_sem (l : List (Gate n)) (hl : ∀ g ∈ l, g.ok) (ψ : State (Fin n) ℂ) : nrm2 (sem l ψ) = nrm2 ψ := by
  induction l generalizing ψ with
  | nil => rfl
  | cons g l ih => rw [sem_cons, ih (fun g hg => hl g (List.mem_cons_of_mem _ hg)), nrm2_gate g (hl g List.mem_cons_self)]

theorem nrm2_pauli (p : PP n) (ψ : State (Fin n) ℂ) : nrm2 (pauliL p ψ) = nrm2 ψ := by
  rw [← nrm2_perm (fun y => bxor y p.2) (fun y => bxor_cancel y p.2) ψ]
  refine sum_congr rfl fun y _ => ?_
  show Complex.normSq (sgn p.1 y * ψ (bxor y p.2)) = _
  rcases sgn_pm (K := ℂ) p.1 y with h | h <;> simp [h]

theorem two_ok (g : TwoQ) (t : List (Fin n × Fin n)) (ht : ∀ p ∈ t, p.1 ≠ p.2) : ∀ a ∈ twoGates g t, a.ok := by
  intro a ha
  simp only [twoGates, List.mem_map] at ha
  obtain ⟨p, hp, rfl⟩ := ha
  split
  · exact ht p hp
  · trivial

theorem nrm2_sysPath (g : TwoQ) (T : List (List (Fin n × Fin n))) (hT : ∀ t ∈ T, ∀ p ∈ t, p.1 ≠ p.2) (S : List (List (Gate n)))
    (hS : ∀ s ∈ S, ∀ a ∈ s, a.ok) (ps : List (PP n)) (ψ : State (Fin n) ℂ) : nrm2 (sysPath g S T ps ψ) = nrm2 ψ := by
  induction T generalizing S ps ψ with
  | nil =>
    cases S with
    | nil => rfl
    | cons s S =>
      cases ps with
      | nil => rfl
      | cons p ps =>
        show nrm2 (pauliL p (sem s ψ)) = _
        rw [nrm2_pauli, nrm2_sem s (hS s List.mem_cons_self)]
  | cons t T ih =>
    cases S with
    | nil => rfl
    | cons s S =>
      cases ps with
      | nil => rfl
      | cons p ps =>
        show nrm2 (sysPath g S T ps (sem (twoGates g t) (pauliL p (sem s ψ)))) = _
        rw [ih (fun t ht => hT t (List.mem_cons_of_mem _ ht)) S (fun s hs => hS s (List.mem_cons_of_mem _ hs)),
          nrm2_sem _ (two_ok g t (hT t List.mem_cons_self)), nrm2_pauli, nrm2_sem s (hS s List.mem_cons_self)]

theorem nrm2_ket (b : Basis (Fin n)) : nrm2 (ket b : State (Fin n) ℂ) = 1 := by
  unfold nrm2
  rw [sum_eq_single b]
  · simp [ket]
  · intro x _ hx; simp [ket, hx]
  · simp

theorem weight_eq (Ψ : Joint κ n) : weight Ψ = ∑ k, nrm2 (Ψ k) := rfl

theorem weight_exec (noise : ℕ → Noise κ n) (k : ℕ) (l : List (Gate n)) (hl : ∀ g ∈ l, g.ok) (Ψ : Joint κ n) :
    weight (exec noise k l Ψ) = weight Ψ := by
  induction l generalizing k Ψ with
  | nil => rfl
  | cons g l ih =>
    have h : weight (fun e => applyGate g (Ψ e)) = weight Ψ := by
      rw [weight_eq, weight_eq]
      exact sum_congr rfl fun e _ => nrm2_gate g (hl g List.mem_cons_self) _
    rw [exec]
    split
    · rw [ih _ (fun g hg => hl g (List.mem_cons_of_mem _ hg)), (noise k).iso, h]
    · rw [ih _ (fun g hg => hl g (List.mem_cons_of_mem _ hg)), h]

/-- Outcomes of a circuit have total probability 1. -/
theorem sum_shot (D : Device κ n) (i : ℕ) (c : List (Gate n)) (hc : ∀ g ∈ c, g.ok) (e : κ → ℂ) :
    ∑ y, nrm2 (shot D i c y e) = nrm2 e := by
  have h1 : ∑ y, nrm2 (shot D i c y e) = weight ((D.meas i).op (exec (D.gate i) 0 c ((D.prep i).op fun k x => e k * ket0 x))) := by
    unfold nrm2 weight shot
    exact sum_comm
  rw [h1, (D.meas i).iso, weight_exec _ _ _ hc, (D.prep i).iso, weight_eq]
  refine sum_congr rfl fun k _ => ?_
  unfold nrm2
  rw [sum_eq_single (fun _ => false)]
  · simp [ket0]
  · intro x _ hx; simp [ket0, hx]
  · simp

/-! ### Shots as linear maps -/

/-- One shot as a linear map on the environment. -/
noncomputable def shotL (D : Device κ n) (i : ℕ) (c : List (Gate n)) (y : Basis (Fin n)) : (κ → ℂ) →ₗ[ℂ] κ → ℂ where
  toFun := shot D i c y
  map_add' v w := by
    have : (fun (k : κ) (x : Basis (Fin n)) => (v + w) k * (ket0 x : ℂ)) = (fun k x => v k * ket0 x) + fun k x => w k * ket0 x := by
      funext k x; simp [add_mul]
    unfold shot
    rw [this, map_add, exec_add, map_add]
    rfl
  map_smul' c' v := by
    have : (fun (k : κ) (x : Basis (Fin n)) => (c' • v) k * (ket0 x : ℂ)) = c' • fun (k : κ) (x : Basis (Fin n)) => v k * ket0 x := by
      funext k x; simp [mul_assoc]
    unfold shot
    rw [this, map_smul, exec_smul, map_smul]
    rfl

/-- Shots one after the other as a linear map. -/
noncomputable def shotsL (D : Device κ n) : ℕ → List (List (Gate n)) → List (Basis (Fin n)) → (κ → ℂ) →ₗ[ℂ] κ → ℂ
  | i, c :: cs, y :: ys => shotsL D (i + 1) cs ys ∘ₗ shotL D i c y
  | _, _, _ => LinearMap.id

theorem shotsL_eq (D : Device κ n) (i : ℕ) (cs : List (List (Gate n))) (ys : List (Basis (Fin n))) (e : κ → ℂ) :
    shotsL D i cs ys e = shots D i cs ys e := by
  induction cs generalizing i ys e with
  | nil => cases ys <;> rfl
  | cons c cs ih =>
    cases ys with
    | nil => rfl
    | cons y ys => exact ih (i + 1) ys _

/-! ### The pads of one circuit -/

/-- The arrays of the pad as a function. -/
def padFn {l : ℕ} (c : Fin (2 * l + 3) → Basis (Fin n)) (k : ℕ) : Basis (Fin n) := if h : k < 2 * l + 3 then c ⟨k, h⟩ else fun _ => false

/-- The arrays of a pad: one for the start, two for each layer and for the end. -/
def padEquiv (n l : ℕ) : (Fin (2 * l + 3) → Basis (Fin n)) ≃ Basis (Fin n) × (Fin (l + 1) → PP n) where
  toFun c := (c ⟨0, by omega⟩, fun j => (c ⟨2 * j + 1, by omega⟩, c ⟨2 * j + 2, by omega⟩))
  invFun p i := if i.val = 0 then p.1 else if i.val % 2 = 1 then (p.2 ⟨(i.val - 1) / 2, by omega⟩).1 else (p.2 ⟨(i.val - 1) / 2, by omega⟩).2
  left_inv c := by
    funext i
    obtain ⟨i, hi⟩ := i
    dsimp only
    split
    · next h => subst h; rfl
    · next h =>
      split
      · next h' => congr 2; omega
      · next h' => congr 2; omega
  right_inv p := by
    obtain ⟨z, f⟩ := p
    dsimp only
    refine Prod.ext ?_ ?_
    · simp
    · funext j
      obtain ⟨j, hj⟩ := j
      refine Prod.ext ?_ ?_
      · dsimp only
        rw [if_neg (by omega), if_pos (by omega)]
        congr 3
        omega
      · dsimp only
        rw [if_neg (by omega), if_neg (by omega)]
        congr 3
        omega

theorem padFn_list {l : ℕ} (c : Fin (2 * l + 3) → Basis (Fin n)) : padList (padFn c) 0 (l + 1) = List.ofFn (padEquiv n l c).2 := by
  apply List.ext_getElem
  · simp [padList]
  · intro i h1 h2
    simp only [padList, List.length_map, List.length_range'] at h1
    simp only [padList, List.getElem_map, List.getElem_range', List.getElem_ofFn, padEquiv, Equiv.coe_fn_mk, padFn, Nat.zero_add, Nat.one_mul]
    rw [dif_pos (by omega), dif_pos (by omega)]

/-- The errors of one circuit: flipped qubits at the preparation, and a Pauli error before every two-qubit layer and before the
measurement. -/
abbrev Path (n l : ℕ) := Basis (Fin n) × (Fin (l + 1) → PP n)

/-- What goes with the errors on the environment. -/
noncomputable def pathEnv (D : Device κ n) (g : TwoQ) (T : List (List (Fin n × Fin n))) (i : ℕ) (π : Path n T.length) : (κ → ℂ) →ₗ[ℂ] κ → ℂ :=
  envPath (D.gate i) (D.meas i).op g 0 T (List.ofFn π.2) ∘ₗ block (D.prep i).op π.1 (fun _ => false)

/-- The probability of the outcome `y` of the circuit with errors. -/
noncomputable def pathProb (g : TwoQ) (T : List (List (Fin n × Fin n))) (S : List (List (Gate n))) (π : Path n T.length) (y : Basis (Fin n)) : ℝ :=
  prob (sysPath g S T (List.ofFn π.2) (ket π.1)) y

theorem nrm2_sign {ι : Type} [Fintype ι] (s : ℂ) (hs : s = 1 ∨ s = -1) (v : ι → ℂ) : nrm2 (s • v) = nrm2 v := by
  unfold nrm2
  refine sum_congr rfl fun k _ => ?_
  rcases hs with rfl | rfl <;> simp

theorem nrm2_smul {ι : Type} [Fintype ι] (s : ℂ) (v : ι → ℂ) : nrm2 (s • v) = Complex.normSq s * nrm2 v := by
  unfold nrm2
  rw [mul_sum]
  exact sum_congr rfl fun k _ => by simp

/-- Evaluation at an outcome followed by an operation on the environment. -/
def evalAt {ι : Type} (B : (κ → ℂ) →ₗ[ℂ] ι → ℂ) (y : Basis (Fin n)) : Joint κ n →ₗ[ℂ] ι → ℂ where
  toFun Ψ := B fun k => Ψ k y
  map_add' Ψ Φ := B.map_add (fun k => Ψ k y) fun k => Φ k y
  map_smul' c Ψ := B.map_smul c fun k => Ψ k y

/-- A padded circuit on a noisy device. -/
theorem qotp_shot {m : ℕ} (L : Layers n m) (hg : L.gate ≠ .other) (hT : ∀ t ∈ L.two, ∀ p ∈ t, p.1 ≠ p.2)
    (hlen : L.single.length = L.two.length + 1) (h1 : ∀ s ∈ L.single, ∀ g ∈ s, g.isTwo = false)
    (c : Fin (2 * L.two.length + 3) → Basis (Fin n)) (circ : List (Gate n)) (ms : List (Fin n × Fin m)) (pp : List Bool)
    (hcirc : qotpFromLayers L (padFn c) = some (circ, ms, pp)) (D : Device κ n) (i : ℕ) (y : Basis (Fin n)) (e : κ → ℂ) :
    ∃ s : ℂ, (s = 1 ∨ s = -1) ∧
        shot D i circ (bxor y (padFn c (2 * L.two.length + 2))) e = s • fun k =>
          twRun (D.gate i) (D.meas i).op L.gate 0 L.single L.two (List.ofFn (padEquiv n L.two.length c).2)
            (onSys (pauliL ((padEquiv n L.two.length c).1, fun _ => false)) ((D.prep i).op fun k x => e k * ket0 x)) k y := by
  obtain ⟨Ψ0, hΨ0⟩ : ∃ Ψ0, Ψ0 = ((D.prep i).op fun k x => e k * ket0 x) := ⟨_, rfl⟩
  have hex : ∃ s₀ : ℂ, (s₀ = 1 ∨ s₀ = -1) ∧
      exec (D.gate i) 0 ([] ++ ((List.finRange n).flatMap fun q => if padFn c 0 q then [Gate.z q] else [])) Ψ0 =
        s₀ • onSys (pauliL (padFn c 0, fun _ => false)) Ψ0 := by
    obtain ⟨σ, hσ, h⟩ := uniform_sign (semL ((List.finRange n).flatMap fun q => if padFn c 0 q then [Gate.z q] else []))
      (pauliL (padFn c 0, fun _ => false)) fun ψ => sem_initZ_eq _ ψ
    exact ⟨σ, hσ, by rw [List.nil_append, exec_single _ _ _ (initZ_single _), onSys_sign _ _ σ h]⟩
  obtain ⟨s₀, hs, h⟩ := hex
  obtain ⟨circ', temp', last, s₁, hf, hl, hs₁, hq⟩ := qotp_exec L hg (padFn c) (D.gate i) (D.meas i).op L.two hT L.single [] rfl hlen h1 []
    _ (initZ_single (padFn c 0)) Ψ0 _ s₀ hs h
  simp only [List.length_nil, Nat.zero_add, List.countP_nil, padFn_list] at hf hq
  have hc : circ = circ' ++ (temp' ++ last ++ padZX (padFn c (2 * L.two.length + 1)) (padFn c (2 * L.two.length + 2))) := by
    simp only [qotpFromLayers, hf, hl] at hcirc
    exact (Prod.mk.inj (Option.some.inj hcirc)).1.symm
  have h0 : padFn c 0 = (padEquiv n L.two.length c).1 := by
    unfold padFn padEquiv
    rw [dif_pos (by omega)]
    rfl
  refine ⟨s₁ * sgn (padFn c (2 * L.two.length + 1)) (bxor y (padFn c (2 * L.two.length + 2))), smul_pm hs₁ (sgn_pm _ _), ?_⟩
  funext k
  unfold shot
  rw [← hΨ0, hc, hq, h0]
  show s₁ * (sgn _ _ * twRun _ _ _ _ _ _ _ _ k (bxor (bxor y _) _)) = _
  rw [bxor_cancel, ← mul_assoc]
  rfl

/-- One circuit averaged over its pads: a sum over errors. -/
theorem shot_sum {ι : Type} [Fintype ι] {m : ℕ} (L : Layers n m) (hg : L.gate ≠ .other) (hT : ∀ t ∈ L.two, ∀ p ∈ t, p.1 ≠ p.2)
    (hlen : L.single.length = L.two.length + 1) (h1 : ∀ s ∈ L.single, ∀ g ∈ s, g.isTwo = false)
    (circ : (Fin (2 * L.two.length + 3) → Basis (Fin n)) → List (Gate n)) (ms : List (Fin n × Fin m)) (pp : (Fin (2 * L.two.length + 3) → Basis (Fin n)) → List Bool)
    (hcirc : ∀ c, qotpFromLayers L (padFn c) = some (circ c, ms, pp c)) (D : Device κ n) (i : ℕ) (y : Basis (Fin n)) (e : κ → ℂ)
    (B : (κ → ℂ) →ₗ[ℂ] ι → ℂ) :
    ∑ c : Fin (2 * L.two.length + 3) → Basis (Fin n), nrm2 (B (shot D i (circ c) (bxor y (padFn c (2 * L.two.length + 2))) e)) =
      2 ^ n * (4 ^ n) ^ (L.two.length + 1) * ∑ π : Path n L.two.length, nrm2 (B (pathEnv D L.gate L.two i π e)) * pathProb L.gate L.two L.single π y := by
  have h : ∀ c : Fin (2 * L.two.length + 3) → Basis (Fin n), nrm2 (B (shot D i (circ c) (bxor y (padFn c (2 * L.two.length + 2))) e)) =
      (fun p : Basis (Fin n) × (Fin (L.two.length + 1) → PP n) => nrm2 (evalAt B y (twRun (D.gate i) (D.meas i).op L.gate 0 L.single L.two (List.ofFn p.2)
        (onSys (pauliL (p.1, fun _ => false)) ((D.prep i).op fun k x => e k * ket0 x))))) (padEquiv n L.two.length c) := by
    intro c
    obtain ⟨s, hs, hsh⟩ := qotp_shot L hg hT hlen h1 c (circ c) ms (pp c) (hcirc c) D i y e
    rw [hsh, map_smul, nrm2_sign s hs]
    rfl
  refine (sum_congr rfl fun c _ => h c).trans ((Equiv.sum_comp (padEquiv n L.two.length) fun p : Basis (Fin n) × (Fin (L.two.length + 1) → PP n) =>
    nrm2 (evalAt B y (twRun (D.gate i) (D.meas i).op L.gate 0 L.single L.two (List.ofFn p.2)
        (onSys (pauliL (p.1, fun _ => false)) ((D.prep i).op fun k x => e k * ket0 x))))).trans ?_)
  rw [Fintype.sum_prod_type, sum_comm]
  dsimp only
  have h2 : ∀ f : Fin (L.two.length + 1) → PP n,
      ∑ z : Basis (Fin n), nrm2 (evalAt B y (twRun (D.gate i) (D.meas i).op L.gate 0 L.single L.two (List.ofFn f)
        (onSys (pauliL (z, fun _ => false)) ((D.prep i).op fun k x => e k * ket0 x)))) =
      2 ^ n * ∑ a : Basis (Fin n), nrm2 (evalAt B y (twRun (D.gate i) (D.meas i).op L.gate 0 L.single L.two (List.ofFn f)
        (fun k x => block (D.prep i).op a (fun _ => false) e k * ket a x))) := by
    intro f
    refine (twirl_prep (evalAt B y ∘ₗ twRun (D.gate i) (D.meas i).op L.gate 0 L.single L.two (List.ofFn f)) _).trans ?_
    have hb : ∀ (a : Basis (Fin n)) (k : κ), (D.prep i).op (fun k x => e k * ket0 x) k a = block (D.prep i).op a (fun _ => false) e k := by
      intro a k
      refine congrFun (congrFun (congrArg (D.prep i).op ?_) k) a
      funext k' x
      simp [ket0]
    simp only [hb]
    rfl
  rw [sum_congr rfl fun f _ => h2 f, ← mul_sum, sum_comm, mul_assoc]
  refine congrArg (fun r : ℝ => 2 ^ n * r) ?_
  rw [Fintype.sum_prod_type, mul_sum]
  refine sum_congr rfl fun a _ => ?_
  refine (twRun_sum (D.gate i) (D.meas i).op L.gate L.two L.single hlen 0 (evalAt B y) (block (D.prep i).op a (fun _ => false) e) (ket a)).trans ?_
  congr 1
  refine sum_congr rfl fun f _ => ?_
  show nrm2 (B fun k' => envPath (D.gate i) (D.meas i).op L.gate 0 L.two (List.ofFn f) (block (D.prep i).op a (fun _ => false) e) k' *
    sysPath L.gate L.single L.two (List.ofFn f) (ket a) y) = _
  obtain ⟨σ, hσ⟩ : ∃ σ, σ = sysPath L.gate L.single L.two (List.ofFn f) (ket a) y := ⟨_, rfl⟩
  have : (fun k' => envPath (D.gate i) (D.meas i).op L.gate 0 L.two (List.ofFn f) (block (D.prep i).op a (fun _ => false) e) k' * σ) =
      σ • pathEnv D L.gate L.two i (a, f) e := by
    funext k'; exact mul_comm _ _
  rw [← hσ, this, map_smul, nrm2_smul, mul_comm, hσ]
  rfl

/-! ### The weights of the errors -/

theorem weight_onSys (f : State (Fin n) ℂ →ₗ[ℂ] State (Fin n) ℂ) (hf : ∀ ψ, nrm2 (f ψ) = nrm2 ψ) (Ψ : Joint κ n) : weight (onSys f Ψ) = weight Ψ := by
  rw [weight_eq, weight_eq]
  exact sum_congr rfl fun k _ => hf _

theorem weight_conj (q : PP n) (M : Joint κ n →ₗ[ℂ] Joint κ n) (hM : ∀ Ψ, weight (M Ψ) = weight Ψ) (Ψ : Joint κ n) :
    weight (conj q M Ψ) = weight Ψ := by
  have h : weight (conj q M Ψ) = weight (onSys (pauliL q) (M (onSys (pauliL q) Ψ))) := by
    show weight ((sgn q.1 q.2 : ℂ) • onSys (pauliL q) (M (onSys (pauliL q) Ψ))) = _
    rw [weight_eq, weight_eq]
    exact sum_congr rfl fun k _ => nrm2_sign _ (sgn_pm _ _) _
  rw [h, weight_onSys _ (nrm2_pauli q), hM, weight_onSys _ (nrm2_pauli q)]

theorem weight_layer (noise : ℕ → Noise κ n) (g : TwoQ) (k : ℕ) (t : List (Fin n × Fin n)) (ht : ∀ p ∈ t, p.1 ≠ p.2) (Ψ : Joint κ n) :
    weight (layerNoise noise g k t Ψ) = weight Ψ := by
  show weight (onSys (semL (twoGates g t).reverse) (exec noise k (twoGates g t) Ψ)) = _
  rw [weight_onSys _ (fun ψ => nrm2_sem _ (fun a ha => two_ok g t ht a (List.mem_reverse.1 ha)) ψ), weight_exec _ _ _ (two_ok g t ht)]

theorem weight_twRun (noise : ℕ → Noise κ n) (nm : Joint κ n →ₗ[ℂ] Joint κ n) (hnm : ∀ Ψ, weight (nm Ψ) = weight Ψ) (g : TwoQ) (k : ℕ)
    (T : List (List (Fin n × Fin n))) (hT : ∀ t ∈ T, ∀ p ∈ t, p.1 ≠ p.2) (S : List (List (Gate n))) (hS : ∀ s ∈ S, ∀ a ∈ s, a.ok) (qs : List (PP n))
    (Ψ : Joint κ n) : weight (twRun noise nm g k S T qs Ψ) = weight Ψ := by
  induction T generalizing S qs k Ψ with
  | nil =>
    cases S with
    | nil => rfl
    | cons s S =>
      cases qs with
      | nil => rfl
      | cons q qs =>
        show weight (conj q nm (onSys (semL s) Ψ)) = _
        rw [weight_conj q nm hnm, weight_onSys _ (fun ψ => nrm2_sem s (hS s List.mem_cons_self) ψ)]
  | cons t T ih =>
    cases S with
    | nil => rfl
    | cons s S =>
      cases qs with
      | nil => rfl
      | cons q qs =>
        show weight (twRun noise nm g (k + t.length) S T qs (onSys (semL (twoGates g t)) (conj q (layerNoise noise g k t) (onSys (semL s) Ψ)))) = _
        rw [ih (k + t.length) (fun t ht => hT t (List.mem_cons_of_mem _ ht)) S (fun s hs => hS s (List.mem_cons_of_mem _ hs)),
          weight_onSys _ (fun ψ => nrm2_sem _ (two_ok g t (hT t List.mem_cons_self)) ψ),
          weight_conj q _ (weight_layer noise g k t (hT t List.mem_cons_self)), weight_onSys _ (fun ψ => nrm2_sem s (hS s List.mem_cons_self) ψ)]

theorem nrm2_prod (e : κ → ℂ) (ψ : State (Fin n) ℂ) : ∑ y, nrm2 (fun k => e k * ψ y) = nrm2 e * nrm2 ψ := by
  unfold nrm2
  rw [sum_comm, sum_mul]
  refine sum_congr rfl fun k _ => ?_
  rw [mul_sum]
  exact sum_congr rfl fun y _ => by simp

theorem weight_eq' (Ψ : Joint κ n) : weight Ψ = ∑ y, nrm2 fun k => Ψ k y := sum_comm

theorem env_sum (noise : ℕ → Noise κ n) (nm : Joint κ n →ₗ[ℂ] Joint κ n) (hnm : ∀ Ψ, weight (nm Ψ) = weight Ψ) (g : TwoQ) (k : ℕ)
    (T : List (List (Fin n × Fin n))) (hT : ∀ t ∈ T, ∀ p ∈ t, p.1 ≠ p.2) (e : κ → ℂ) :
    ∑ f : Fin (T.length + 1) → PP n, nrm2 (envPath noise nm g k T (List.ofFn f) e) = nrm2 e := by
  obtain ⟨S, hS⟩ : ∃ S : List (List (Gate n)), S = List.replicate (T.length + 1) [] := ⟨_, rfl⟩
  have hS' : ∀ s ∈ S, ∀ a ∈ s, a.ok := by
    intro s hs a ha
    rw [hS, List.mem_replicate] at hs
    rw [hs.2] at ha
    cases ha
  have h := fun y : Basis (Fin n) => twRun_sum noise nm g T S (by simp [hS]) k (evalAt LinearMap.id y) e (ket fun _ => false)
  have h2 := sum_congr (rfl : (univ : Finset (Basis (Fin n))) = univ) fun y _ => h y
  have h5 := sum_comm.trans (h2.trans ((mul_sum _ _ _).symm.trans (congrArg _ sum_comm)))
  have h3 : ∀ f : Fin (T.length + 1) → PP n,
      ∑ y, nrm2 (evalAt LinearMap.id y (twRun noise nm g k S T (List.ofFn f) fun k x => e k * ket (fun _ => false) x)) = nrm2 e := by
    intro f
    refine (weight_eq' (twRun noise nm g k S T (List.ofFn f) fun k x => e k * ket (fun _ => false) x)).symm.trans ?_
    rw [weight_twRun noise nm hnm g k T hT S hS', weight_eq']
    exact (nrm2_prod e _).trans (by rw [nrm2_ket, mul_one])
  have h4 : ∀ f : Fin (T.length + 1) → PP n,
      ∑ y, nrm2 (evalAt LinearMap.id y fun k' x => envPath noise nm g k T (List.ofFn f) e k' * sysPath g S T (List.ofFn f) (ket fun _ => false) x) =
        nrm2 (envPath noise nm g k T (List.ofFn f) e) := by
    intro f
    refine (nrm2_prod (envPath noise nm g k T (List.ofFn f) e) (sysPath g S T (List.ofFn f) (ket fun _ => false))).trans ?_
    rw [nrm2_sysPath g T hT S hS', nrm2_ket, mul_one]
  rw [sum_congr rfl fun f _ => h3 f, sum_congr rfl fun f _ => h4 f, sum_const, card_univ, nsmul_eq_mul] at h5
  have hc : ((Fintype.card (Fin (T.length + 1) → PP n) : ℕ) : ℝ) = (4 ^ n) ^ (T.length + 1) := by
    simp only [Fintype.card_fun, Fintype.card_fin, Fintype.card_prod, Fintype.card_bool]
    push_cast
    rw [← mul_pow]
    norm_num
  rw [hc] at h5
  exact (mul_left_cancel₀ (by positivity) h5).symm

/-- The weights of the errors add up to the whole. -/
theorem path_sum (D : Device κ n) (g : TwoQ) (T : List (List (Fin n × Fin n))) (hT : ∀ t ∈ T, ∀ p ∈ t, p.1 ≠ p.2) (i : ℕ) (e : κ → ℂ) :
    ∑ π : Path n T.length, nrm2 (pathEnv D g T i π e) = nrm2 e := by
  rw [Fintype.sum_prod_type]
  have h := fun a : Basis (Fin n) => env_sum (D.gate i) (D.meas i).op (D.meas i).iso g 0 T hT (block (D.prep i).op a (fun _ => false) e)
  refine (sum_congr rfl fun a _ => h a).trans ?_
  refine (weight_eq' ((D.prep i).op fun k' x => if x = (fun _ => false) then e k' else 0)).symm.trans ?_
  rw [(D.prep i).iso, weight_eq]
  refine sum_congr rfl fun k _ => ?_
  unfold nrm2
  rw [sum_eq_single (fun _ => false)]
  · simp
  · intro x _ hx; simp [hx]
  · simp

/-! ### Runs -/

/-- The environment after the errors of all circuits. -/
noncomputable def runEnv (D : Device κ n) (g : TwoQ) (T : List (List (Fin n × Fin n))) : ℕ → List (Path n T.length) → (κ → ℂ) →ₗ[ℂ] κ → ℂ
  | _, [] => LinearMap.id
  | i, π :: Ps => runEnv D g T (i + 1) Ps ∘ₗ pathEnv D g T i π

theorem run_weights (D : Device κ n) (g : TwoQ) (T : List (List (Fin n × Fin n))) (hT : ∀ t ∈ T, ∀ p ∈ t, p.1 ≠ p.2) (m i : ℕ) (e : κ → ℂ) :
    ∑ Ps : Fin m → Path n T.length, nrm2 (runEnv D g T i (List.ofFn Ps) e) = nrm2 e := by
  induction m generalizing i e with
  | zero => simp [runEnv]
  | succ m ih =>
    rw [sum_ofFn_succ m fun l => nrm2 (runEnv D g T i l e)]
    refine (sum_congr rfl fun π _ => ih (i + 1) (pathEnv D g T i π e)).trans ?_
    exact path_sum D g T hT i e

theorem sum_cons {α M : Type} [Fintype α] [AddCommMonoid M] (m : ℕ) (F : (Fin (m + 1) → α) → M) :
    ∑ f : Fin (m + 1) → α, F f = ∑ a, ∑ f : Fin m → α, F (Fin.cons a f) := by
  rw [← Fintype.sum_prod_type', ← (Fin.consEquiv fun _ => α).sum_comp]
  rfl

/-- A run averaged over its pads: a sum over errors. -/
theorem run_sum (g : TwoQ) (T : List (List (Fin n × Fin n))) (hg : g ≠ .other) (hT : ∀ t ∈ T, ∀ p ∈ t, p.1 ≠ p.2) (ms : List (Fin n × Fin n))
    (D : Device κ n) (m : ℕ) (S : Fin m → List (List (Gate n))) (hlen : ∀ k, (S k).length = T.length + 1)
    (h1 : ∀ k, ∀ s ∈ S k, ∀ g ∈ s, g.isTwo = false)
    (circ : Fin m → (Fin (2 * T.length + 3) → Basis (Fin n)) → List (Gate n)) (pp : Fin m → (Fin (2 * T.length + 3) → Basis (Fin n)) → List Bool)
    (hcirc : ∀ k c, qotpFromLayers ⟨S k, T, ms, g⟩ (padFn c) = some (circ k c, ms, pp k c)) (y : Fin m → Basis (Fin n)) (i : ℕ) (e : κ → ℂ) :
    ∑ c : Fin m → Fin (2 * T.length + 3) → Basis (Fin n),
        nrm2 (shotsL D i (List.ofFn fun k => circ k (c k)) (List.ofFn fun k => bxor (y k) (padFn (c k) (2 * T.length + 2))) e) =
      (2 ^ n * (4 ^ n) ^ (T.length + 1)) ^ m *
        ∑ Ps : Fin m → Path n T.length, nrm2 (runEnv D g T i (List.ofFn Ps) e) * ∏ k, pathProb g T (S k) (Ps k) (y k) := by
  induction m generalizing i e with
  | zero => simp [runEnv, shotsL]
  | succ m ih =>
    rw [sum_cons (α := Fin (2 * T.length + 3) → Basis (Fin n)) m, sum_cons (α := Path n T.length) m]
    simp only [List.ofFn_succ, Fin.cons_zero, Fin.cons_succ, Fin.prod_univ_succ]
    rw [sum_comm]
    have h2 := fun c' : Fin m → Fin (2 * T.length + 3) → Basis (Fin n) =>
      shot_sum ⟨S 0, T, ms, g⟩ hg hT (hlen 0) (h1 0) (circ 0) ms (pp 0) (hcirc 0) D i (y 0) e
        (shotsL D (i + 1) (List.ofFn fun k => circ k.succ (c' k)) (List.ofFn fun k => bxor (y k.succ) (padFn (c' k) (2 * T.length + 2))))
    refine (sum_congr rfl fun c' _ => h2 c').trans ?_
    dsimp only
    rw [← mul_sum, sum_comm, pow_succ' _ m, mul_assoc (2 ^ n * (4 ^ n) ^ (T.length + 1) : ℝ)]
    congr 1
    rw [mul_sum]
    refine sum_congr rfl fun π _ => ?_
    rw [← sum_mul]
    have h3 := ih (fun k => S k.succ) (fun k => hlen k.succ) (fun k => h1 k.succ) (fun k => circ k.succ) (fun k => pp k.succ) (fun k => hcirc k.succ)
      (fun k => y k.succ) (i + 1) (pathEnv D g T i π e)
    refine (congrArg (· * pathProb g T (S 0) π (y 0)) h3).trans ?_
    rw [mul_assoc, sum_mul]
    congr 1
    refine sum_congr rfl fun Ps _ => ?_
    show nrm2 (runEnv D g T (i + 1) (List.ofFn Ps) (pathEnv D g T i π e)) * _ * _ = nrm2 (runEnv D g T (i + 1) (List.ofFn Ps) (pathEnv D g T i π e)) * _
    ring

end Verif.Accred
