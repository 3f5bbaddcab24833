import Verif.Accred.LemmasTwirl
set_option linter.unusedSectionVars false
/-
A padded circuit on a noisy device, averaged over the pads, is the circuit with random Pauli errors.
-/
namespace Verif.Accred
open Verif Verif.Quantum Finset

variable {n : ℕ} {κ : Type} [Fintype κ]

/-! ### Execution as a linear map -/

theorem exec_add (noise : ℕ → Noise κ n) (k : ℕ) (l : List (Gate n)) (Ψ Φ : Joint κ n) :
    exec noise k l (Ψ + Φ) = exec noise k l Ψ + exec noise k l Φ := by
  induction l generalizing k Ψ Φ with
  | nil => rfl
  | cons g l ih =>
    have : (fun e => applyGate g ((Ψ + Φ) e)) = (fun e => applyGate g (Ψ e)) + fun e => applyGate g (Φ e) := by
      funext e; exact applyGate_add g _ _
    simp only [exec, this]
    split
    · rw [map_add, ih]
    · rw [ih]

theorem exec_smul (noise : ℕ → Noise κ n) (k : ℕ) (l : List (Gate n)) (c : ℂ) (Ψ : Joint κ n) :
    exec noise k l (c • Ψ) = c • exec noise k l Ψ := by
  induction l generalizing k Ψ with
  | nil => rfl
  | cons g l ih =>
    have : (fun e => applyGate g ((c • Ψ) e)) = c • fun e => applyGate g (Ψ e) := by
      funext e; exact applyGate_smul' g c _
    simp only [exec, this]
    split
    · rw [map_smul, ih]
    · rw [ih]

/-- Execution as a linear map. -/
noncomputable def execL (noise : ℕ → Noise κ n) (k : ℕ) (l : List (Gate n)) : Joint κ n →ₗ[ℂ] Joint κ n where
  toFun := exec noise k l
  map_add' := exec_add noise k l
  map_smul' := exec_smul noise k l

theorem exec_append (noise : ℕ → Noise κ n) (k : ℕ) (l l' : List (Gate n)) (Ψ : Joint κ n) :
    exec noise k (l ++ l') Ψ = exec noise (k + l.countP Gate.isTwo) l' (exec noise k l Ψ) := by
  induction l generalizing k Ψ with
  | nil => rfl
  | cons g l ih =>
    rw [List.cons_append, exec, exec]
    cases hg : g.isTwo
    · simp only [Bool.false_eq_true, if_false, List.countP_cons, hg, Nat.add_zero, ih]
    · simp only [if_true, List.countP_cons, hg, ih]
      rw [show k + 1 + l.countP Gate.isTwo = k + (l.countP Gate.isTwo + 1) by omega]

/-- One-qubit gates have no noise. -/
theorem exec_single (noise : ℕ → Noise κ n) (k : ℕ) (l : List (Gate n)) (hl : ∀ g ∈ l, g.isTwo = false) (Ψ : Joint κ n) :
    exec noise k l Ψ = onSys (semL l) Ψ := by
  induction l generalizing Ψ with
  | nil => rfl
  | cons g l ih =>
    rw [exec, hl g List.mem_cons_self]
    simp only [Bool.false_eq_true, if_false]
    rw [ih (fun g hg => hl g (List.mem_cons_of_mem _ hg))]
    rfl

theorem countP_single (l : List (Gate n)) (hl : ∀ g ∈ l, g.isTwo = false) : l.countP Gate.isTwo = 0 := by
  rw [List.countP_eq_zero]
  intro g hg
  simp [hl g hg]

theorem countP_two (g : TwoQ) (t : List (Fin n × Fin n)) : (twoGates g t).countP Gate.isTwo = t.length := by
  unfold twoGates
  rw [List.countP_map, List.countP_eq_length.2]
  intro p _
  simp only [Function.comp]
  split <;> rfl

theorem padZX_single (z x : Basis (Fin n)) : ∀ g ∈ padZX z x, g.isTwo = false := by
  intro g hg
  simp only [padZX, List.mem_flatMap, List.mem_append] at hg
  obtain ⟨q, -, h | h⟩ := hg <;> split at h <;> simp at h <;> subst h <;> rfl

theorem padXZ_single (z x : Basis (Fin n)) : ∀ g ∈ padXZ z x, g.isTwo = false := by
  intro g hg
  simp only [padXZ, List.mem_flatMap, List.mem_append] at hg
  obtain ⟨q, -, h | h⟩ := hg <;> split at h <;> simp at h <;> subst h <;> rfl

theorem initZ_single (z : Basis (Fin n)) : ∀ g ∈ ((List.finRange n).flatMap fun q => if z q then [Gate.z q] else []), g.isTwo = false := by
  intro g hg
  simp only [List.mem_flatMap] at hg
  obtain ⟨q, -, h⟩ := hg
  split at h <;> simp at h
  subst h; rfl

theorem appCX_self (c t : Fin n) (h : c ≠ t) (ψ : State (Fin n) ℂ) : appCX c t (appCX c t ψ) = ψ := by
  funext x
  simp only [appCX, Function.update_self, Function.update_idem, Function.update_of_ne h]
  congr 1
  rw [Bool.xor_assoc, Bool.xor_self, Bool.xor_false, Function.update_eq_self]

theorem appCZ_self (a b : Fin n) (ψ : State (Fin n) ℂ) : appCZ a b (appCZ a b ψ) = ψ := by
  funext x
  simp only [appCZ]
  split <;> simp

theorem sem_two_reverse (g : TwoQ) (t : List (Fin n × Fin n)) (ht : ∀ p ∈ t, p.1 ≠ p.2) (ψ : State (Fin n) ℂ) :
    sem (twoGates g t) (sem (twoGates g t).reverse ψ) = ψ := by
  induction t generalizing ψ with
  | nil => rfl
  | cons p t ih =>
    have h1 : ∀ φ, sem (twoGates g [p]) (sem (twoGates g [p]) φ) = φ := by
      intro φ
      simp only [twoGates, List.map_cons, List.map_nil, sem_cons, sem_nil]
      split
      · exact appCX_self _ _ (ht p List.mem_cons_self) φ
      · exact appCZ_self _ _ φ
    rw [twoGates_cons, List.reverse_append, sem_append, sem_append]
    have h2 : (twoGates g [p]).reverse = twoGates g [p] := rfl
    rw [h2, h1, ih fun p hp => ht p (List.mem_cons_of_mem _ hp)]

/-- The noise of a two-qubit layer, moved in front of the layer. -/
noncomputable def layerNoise (noise : ℕ → Noise κ n) (g : TwoQ) (k : ℕ) (t : List (Fin n × Fin n)) : Joint κ n →ₗ[ℂ] Joint κ n :=
  onSys (semL (twoGates g t).reverse) ∘ₗ execL noise k (twoGates g t)

theorem exec_layer (noise : ℕ → Noise κ n) (g : TwoQ) (k : ℕ) (t : List (Fin n × Fin n)) (ht : ∀ p ∈ t, p.1 ≠ p.2) (Ψ : Joint κ n) :
    exec noise k (twoGates g t) Ψ = onSys (semL (twoGates g t)) (layerNoise noise g k t Ψ) := by
  funext e
  exact (sem_two_reverse g t ht _).symm

/-! ### Rounds -/

/-- The circuit with its pads, each noise between a pad and its removal. -/
noncomputable def twRun (noise : ℕ → Noise κ n) (nm : Joint κ n →ₗ[ℂ] Joint κ n) (g : TwoQ) :
    ℕ → List (List (Gate n)) → List (List (Fin n × Fin n)) → List (PP n) → Joint κ n →ₗ[ℂ] Joint κ n
  | k, s :: S, t :: T, q :: qs =>
    twRun noise nm g (k + t.length) S T qs ∘ₗ onSys (semL (twoGates g t)) ∘ₗ conj q (layerNoise noise g k t) ∘ₗ onSys (semL s)
  | _, s :: _, [], q :: _ => conj q nm ∘ₗ onSys (semL s)
  | _, _, _, _ => LinearMap.id

/-- The circuit with Pauli errors, on the qubits. -/
noncomputable def sysPath (g : TwoQ) :
    List (List (Gate n)) → List (List (Fin n × Fin n)) → List (PP n) → State (Fin n) ℂ →ₗ[ℂ] State (Fin n) ℂ
  | s :: S, t :: T, p :: ps => sysPath g S T ps ∘ₗ semL (twoGates g t) ∘ₗ pauliL p ∘ₗ semL s
  | s :: _, [], p :: _ => pauliL p ∘ₗ semL s
  | _, _, _ => LinearMap.id

/-- What goes with the Pauli errors on the environment; it does not depend on the one-qubit gates. -/
noncomputable def envPath (noise : ℕ → Noise κ n) (nm : Joint κ n →ₗ[ℂ] Joint κ n) (g : TwoQ) :
    ℕ → List (List (Fin n × Fin n)) → List (PP n) → (κ → ℂ) →ₗ[ℂ] κ → ℂ
  | k, t :: T, p :: ps => envPath noise nm g (k + t.length) T ps ∘ₗ coef (layerNoise noise g k t) p
  | _, [], p :: _ => coef nm p
  | _, _, _ => LinearMap.id

theorem onEnv_onSys (A : (κ → ℂ) →ₗ[ℂ] κ → ℂ) (e : κ → ℂ) (ψ : State (Fin n) ℂ) :
    onEnv A (fun k x => e k * ψ x) = fun k x => A e k * ψ x := by
  funext k x
  show A (fun k' => e k' * ψ x) k = _
  have : (fun k' => e k' * ψ x) = ψ x • e := by funext k'; simp [mul_comm]
  rw [this, map_smul]
  simp [mul_comm]

theorem onSys_prod (f : State (Fin n) ℂ →ₗ[ℂ] State (Fin n) ℂ) (e : κ → ℂ) (ψ : State (Fin n) ℂ) :
    onSys f (fun k x => e k * ψ x) = fun k x => e k * f ψ x := by
  funext k
  show f (fun x => e k * ψ x) = _
  have : (fun x => e k * ψ x) = e k • ψ := rfl
  rw [this, map_smul]
  rfl

theorem sum_ofFn_succ {α M : Type} [Fintype α] [AddCommMonoid M] (m : ℕ) (F : List α → M) :
    ∑ f : Fin (m + 1) → α, F (List.ofFn f) = ∑ a, ∑ f : Fin m → α, F (a :: List.ofFn f) := by
  rw [← Fintype.sum_prod_type', ← (Fin.consEquiv fun _ => α).sum_comp]
  refine sum_congr rfl fun p _ => ?_
  rw [List.ofFn_succ]
  simp [Fin.consEquiv]

theorem sum_ofFn_zero {α M : Type} [Fintype α] [AddCommMonoid M] (F : List α → M) :
    ∑ f : Fin 0 → α, F (List.ofFn f) = F [] := by
  simp

/-- The average over the pads is a sum over Pauli errors. -/
theorem twRun_sum {ι : Type} [Fintype ι] (noise : ℕ → Noise κ n) (nm : Joint κ n →ₗ[ℂ] Joint κ n) (g : TwoQ)
    (T : List (List (Fin n × Fin n))) (S : List (List (Gate n))) (hS : S.length = T.length + 1) (k : ℕ)
    (F : Joint κ n →ₗ[ℂ] ι → ℂ) (e : κ → ℂ) (ψ : State (Fin n) ℂ) :
    ∑ f : Fin (T.length + 1) → PP n, nrm2 (F (twRun noise nm g k S T (List.ofFn f) fun k x => e k * ψ x)) =
      (4 ^ n) ^ (T.length + 1) * ∑ f : Fin (T.length + 1) → PP n,
        nrm2 (F fun k' x => envPath noise nm g k T (List.ofFn f) e k' * sysPath g S T (List.ofFn f) ψ x) := by
  induction T generalizing S k e ψ with
  | nil =>
    obtain ⟨s, rfl⟩ : ∃ s, S = [s] := List.length_eq_one_iff.1 hS
    have h1 := sum_ofFn_succ (α := PP n) 0 fun l => nrm2 (F (twRun noise nm g k [s] [] l fun k x => e k * ψ x))
    have h2 := sum_ofFn_succ (α := PP n) 0 fun l => nrm2 (F fun k' x => envPath noise nm g k [] l e k' * sysPath g [s] [] l ψ x)
    refine h1.trans (Eq.trans ?_ (congrArg _ h2.symm))
    simp only [Fintype.sum_unique, List.ofFn_zero, List.length_nil, Nat.zero_add, pow_one]
    have := twirl nm F (onSys (semL s) fun k x => e k * ψ x)
    refine this.trans ?_
    congr 1
    refine sum_congr rfl fun p _ => ?_
    rw [onSys_prod, onEnv_onSys, onSys_prod]
    rfl
  | cons t T ih =>
    obtain ⟨s, S, rfl⟩ : ∃ s S', S = s :: S' := by
      cases S with
      | nil => simp at hS
      | cons s S' => exact ⟨s, S', rfl⟩
    have h1 := sum_ofFn_succ (α := PP n) (T.length + 1) fun l => nrm2 (F (twRun noise nm g k (s :: S) (t :: T) l fun k x => e k * ψ x))
    have h2 := sum_ofFn_succ (α := PP n) (T.length + 1) fun l =>
      nrm2 (F fun k' x => envPath noise nm g k (t :: T) l e k' * sysPath g (s :: S) (t :: T) l ψ x)
    refine h1.trans (Eq.trans ?_ (congrArg _ h2.symm))
    rw [sum_comm]
    have h3 : ∀ f : Fin (T.length + 1) → PP n,
        ∑ q, nrm2 (F (twRun noise nm g k (s :: S) (t :: T) (q :: List.ofFn f) fun k x => e k * ψ x)) =
        4 ^ n * ∑ p, nrm2 (F (twRun noise nm g (k + t.length) S T (List.ofFn f) fun k' x =>
          coef (layerNoise noise g k t) p e k' * semL (twoGates g t) (pauliL p (semL s ψ)) x)) := by
      intro f
      have := twirl (layerNoise noise g k t) (F ∘ₗ twRun noise nm g (k + t.length) S T (List.ofFn f) ∘ₗ onSys (semL (twoGates g t)))
        (onSys (semL s) fun k x => e k * ψ x)
      refine this.trans ?_
      congr 1
      refine sum_congr rfl fun p _ => ?_
      rw [onSys_prod, onEnv_onSys, onSys_prod, LinearMap.comp_apply, LinearMap.comp_apply, onSys_prod]
    simp only [h3]
    rw [← mul_sum, sum_comm]
    have h4 := fun p => ih S (by simpa using hS) (k + t.length) (coef (layerNoise noise g k t) p e) (semL (twoGates g t) (pauliL p (semL s ψ)))
    simp only [h4]
    rw [← mul_sum, ← mul_assoc, List.length_cons, pow_succ' _ (T.length + 1)]
    rfl

/-! ### The padded circuit -/

theorem uniform_sign (f g : State (Fin n) ℂ →ₗ[ℂ] State (Fin n) ℂ) (h : ∀ ψ, EqSign (f ψ) (g ψ)) :
    ∃ s : ℂ, (s = 1 ∨ s = -1) ∧ ∀ ψ, f ψ = s • g ψ := by
  by_cases h1 : ∀ ψ, f ψ = g ψ
  · exact ⟨1, Or.inl rfl, fun ψ => by rw [h1, one_smul]⟩
  · push Not at h1
    obtain ⟨a, ha⟩ := h1
    refine ⟨-1, Or.inr rfl, fun b => ?_⟩
    have ha' : f a = (-1 : ℂ) • g a := (h a).resolve_left ha
    rcases h b with hb | hb
    · have hab : f (a + b) = (-1 : ℂ) • g a + g b := by rw [map_add, ha', hb]
      rcases h (a + b) with hc | hc
      · rw [hab, map_add] at hc
        have : f a = g a := by
          rw [ha']
          exact add_right_cancel hc
        exact absurd this ha
      · have hc : f (a + b) = (-1 : ℂ) • g (a + b) := hc
        rw [hab, map_add, smul_add] at hc
        rw [hb]
        exact add_left_cancel hc
    · exact hb

theorem smul_pm {s s' : ℂ} (h : s = 1 ∨ s = -1) (h' : s' = 1 ∨ s' = -1) : s * s' = 1 ∨ s * s' = -1 := by
  rcases h with rfl | rfl <;> rcases h' with rfl | rfl <;> simp

theorem sem_initZ_eq (z : Basis (Fin n)) (ψ : State (Fin n) ℂ) :
    EqSign (sem ((List.finRange n).flatMap fun q => if z q then [Gate.z q] else []) ψ) (pauli z (fun _ => false) ψ) := by
  have := sem_flatMap_pauli (fun q => if z q then [Gate.z q] else []) z (fun _ => false)
    (fun q ψ => by rw [sem_optZ, unit_false]; exact .refl _) (List.finRange n) (List.nodup_finRange n) ψ
  rwa [mask_finRange, mask_finRange] at this

/-- A noise operation after a pad. -/
theorem noise_pad (q : PP n) (M : Joint κ n →ₗ[ℂ] Joint κ n) (Ψ : Joint κ n) :
    M (onSys (pauliL q) Ψ) = onSys (pauliL q) (conj q M Ψ) := by
  show _ = onSys (pauliL q) ((sgn q.1 q.2 : ℂ) • onSys (pauliL q) (M (onSys (pauliL q) Ψ)))
  rw [map_smul]
  funext k
  show _ = (sgn q.1 q.2 : ℂ) • pauliL q (pauliL q (M (onSys (pauliL q) Ψ) k))
  rw [pauliL_sq, smul_smul, sgn_sq, one_smul]

theorem onSys_sign (f g : State (Fin n) ℂ →ₗ[ℂ] State (Fin n) ℂ) (s : ℂ) (h : ∀ ψ, f ψ = s • g ψ) (Ψ : Joint κ n) :
    onSys f Ψ = s • onSys g Ψ := by
  funext k; exact h _

/-- The pads from number `j` on. -/
def padList (rng : ℕ → Basis (Fin n)) (j m : ℕ) : List (PP n) := (List.range' j m).map fun i => (rng (2 * i + 1), rng (2 * i + 2))

theorem qotp_exec {m : ℕ} (L : Layers n m) (hg : L.gate ≠ .other) (rng : ℕ → Basis (Fin n)) (noise : ℕ → Noise κ n)
    (nm : Joint κ n →ₗ[ℂ] Joint κ n) (T : List (List (Fin n × Fin n))) (hT : ∀ t ∈ T, ∀ p ∈ t, p.1 ≠ p.2) (S pre : List (List (Gate n)))
    (hS : L.single = pre ++ S) (hlen : S.length = T.length + 1) (h1 : ∀ s ∈ S, ∀ g ∈ s, g.isTwo = false) (circ temp : List (Gate n))
    (h2 : ∀ g ∈ temp, g.isTwo = false) (Ψ0 Φ : Joint κ n) (s₀ : ℂ) (hs : s₀ = 1 ∨ s₀ = -1)
    (hΦ : exec noise 0 (circ ++ temp) Ψ0 = s₀ • Φ) :
    ∃ circ' temp' last, ∃ s₁ : ℂ, (T.zipIdx pre.length).foldlM (qotpStep L rng) (circ, temp) = some (circ', temp') ∧
      L.single.getLast? = some last ∧ (s₁ = 1 ∨ s₁ = -1) ∧
      nm (exec noise 0 (circ' ++ (temp' ++ last ++ padZX (rng (2 * (pre.length + T.length) + 1)) (rng (2 * (pre.length + T.length) + 2)))) Ψ0) =
        s₁ • onSys (pauliL (rng (2 * (pre.length + T.length) + 1), rng (2 * (pre.length + T.length) + 2)))
          (twRun noise nm L.gate (circ.countP Gate.isTwo) S T (padList rng pre.length (T.length + 1)) Φ) := by
  induction T generalizing S pre circ temp Φ s₀ with
  | nil =>
    obtain ⟨s, rfl⟩ : ∃ s, S = [s] := List.length_eq_one_iff.1 hlen
    obtain ⟨σ, hσ, hpad⟩ := uniform_sign (semL (padZX (rng (2 * (pre.length + 0) + 1)) (rng (2 * (pre.length + 0) + 2))))
      (pauliL (rng (2 * (pre.length + 0) + 1), rng (2 * (pre.length + 0) + 2))) fun ψ => sem_padZX _ _ ψ
    refine ⟨circ, temp, s, σ * s₀, rfl, by rw [hS]; simp, smul_pm hσ hs, ?_⟩
    rw [List.append_assoc, ← List.append_assoc circ, exec_append, hΦ, exec_append, exec_single _ _ s (h1 s List.mem_cons_self),
      exec_single _ _ _ (padZX_single _ _)]
    simp only [List.length_nil]
    rw [onSys_sign _ _ σ hpad, map_smul (onSys (semL s)), map_smul (onSys _), map_smul, map_smul, noise_pad, smul_smul]
    rfl
  | cons t T ih =>
    obtain ⟨s, S', rfl⟩ : ∃ s S', S = s :: S' := by
      cases S with
      | nil => simp at hlen
      | cons s S' => exact ⟨s, S', rfl⟩
    obtain ⟨zs, hzs⟩ : ∃ zs, zs = rng (2 * pre.length + 1) := ⟨_, rfl⟩
    obtain ⟨xs, hxs⟩ : ∃ xs, xs = rng (2 * pre.length + 2) := ⟨_, rfl⟩
    have htn := hT t List.mem_cons_self
    obtain ⟨z', x', e, h⟩ := foldlM_updatePauli L.gate hg t htn zs xs
    have hstep : qotpStep L rng (circ, temp) (t, pre.length) = some
        (circ ++ (temp ++ s ++ padZX zs xs) ++ [Gate.barrier] ++ twoGates L.gate t ++ [Gate.barrier],
          padXZ z' x') := by
      unfold qotpStep
      have : L.single[pre.length]? = some s := by rw [hS]; simp
      simp only [this, ← hzs, ← hxs]
      show ((List.foldlM (updatePauli L.gate) (zs, xs) t).bind fun zx => some (_, padXZ zx.1 zx.2)) = _
      rw [e]; rfl
    obtain ⟨σ₁, hσ₁, hp₁⟩ := uniform_sign (semL (padZX zs xs)) (pauliL (zs, xs)) fun ψ => sem_padZX _ _ ψ
    obtain ⟨σ₂, hσ₂, hp₂⟩ := uniform_sign (semL (padXZ z' x')) (pauliL (z', x')) fun ψ => sem_padXZ _ _ ψ
    obtain ⟨σ₃, hσ₃, hp₃⟩ := uniform_sign (semL (twoGates L.gate t) ∘ₗ pauliL (zs, xs)) (pauliL (z', x') ∘ₗ semL (twoGates L.gate t)) h
    have hσ₄ : (sgn z' x' : ℂ) = 1 ∨ (sgn z' x' : ℂ) = -1 := sgn_pm _ _
    have hcount : (circ ++ (temp ++ s ++ padZX zs xs) ++ [Gate.barrier]).countP Gate.isTwo = circ.countP Gate.isTwo := by
      rw [List.countP_append, List.countP_append, List.countP_append, List.countP_append, countP_single temp h2,
        countP_single s (h1 s List.mem_cons_self), countP_single _ (padZX_single _ _)]
      rfl
    have hcount2 : (circ ++ (temp ++ s ++ padZX zs xs) ++ [Gate.barrier] ++ twoGates L.gate t ++ [Gate.barrier]).countP Gate.isTwo =
        circ.countP Gate.isTwo + t.length := by
      rw [List.countP_append, List.countP_append, hcount, countP_two]
      rfl
    have hb : ∀ k (Ψ : Joint κ n), exec noise k [Gate.barrier] Ψ = Ψ := fun _ _ => rfl
    have key : exec noise 0 ((circ ++ (temp ++ s ++ padZX zs xs) ++ [Gate.barrier] ++ twoGates L.gate t ++ [Gate.barrier]) ++ padXZ z' x') Ψ0 =
        (σ₂ * (sgn z' x' * (σ₃ * (σ₁ * s₀)))) • onSys (semL (twoGates L.gate t))
          (conj (zs, xs) (layerNoise noise L.gate (circ.countP Gate.isTwo) t) (onSys (semL s) Φ)) := by
      rw [exec_append _ _ _ (padXZ z' x'), exec_append _ _ _ [Gate.barrier], hb, exec_append _ _ _ (twoGates L.gate t), Nat.zero_add, hcount,
        exec_append _ _ _ [Gate.barrier], hb, ← List.append_assoc circ, ← List.append_assoc circ, exec_append _ _ _ (padZX zs xs),
        exec_append _ _ _ s, hΦ, exec_single _ _ s (h1 s List.mem_cons_self), exec_single _ _ _ (padZX_single _ _),
        exec_single _ _ _ (padXZ_single _ _), exec_layer _ _ _ _ htn, onSys_sign _ _ σ₂ hp₂, onSys_sign _ _ σ₁ hp₁]
      simp only [map_smul]
      rw [noise_pad]
      have e1 : ∀ Ψ : Joint κ n, onSys (semL (twoGates L.gate t)) (onSys (pauliL (zs, xs)) Ψ) =
          σ₃ • onSys (pauliL (z', x')) (onSys (semL (twoGates L.gate t)) Ψ) := fun Ψ => onSys_sign _ _ σ₃ hp₃ Ψ
      have e2 : ∀ Ψ : Joint κ n, onSys (pauliL (z', x')) (onSys (pauliL (z', x')) Ψ) = (sgn z' x' : ℂ) • Ψ := by
        intro Ψ; funext k; exact pauliL_sq _ _
      rw [e1]
      simp only [map_smul]
      rw [e2]
      simp only [smul_smul, Nat.zero_add]
      congr 1
      ring
    obtain ⟨c', t', last, s₁, hf, hlast, hs₁, hfin⟩ := ih (fun t ht => hT t (List.mem_cons_of_mem _ ht)) S' (pre ++ [s])
      (by rw [hS]; simp) (by simpa using hlen) (fun s hs => h1 s (List.mem_cons_of_mem _ hs)) _ _ (padXZ_single z' x') _ _
      (smul_pm hσ₂ (smul_pm hσ₄ (smul_pm hσ₃ (smul_pm hσ₁ hs)))) key
    refine ⟨c', t', last, s₁, ?_, hlast, hs₁, ?_⟩
    · rw [List.zipIdx_cons, List.foldlM_cons, hstep]
      simpa using hf
    · have hl : (pre ++ [s]).length + T.length = pre.length + (t :: T).length := by simp; omega
      rw [hl] at hfin
      rw [hfin, hcount2]
      congr 2
      have : padList rng pre.length ((t :: T).length + 1) = (zs, xs) :: padList rng (pre ++ [s]).length (T.length + 1) := by
        simp only [padList, List.length_cons, List.length_append, List.length_nil]
        rw [List.range'_succ, List.map_cons, ← hzs, ← hxs]
      rw [this]
      rfl

end Verif.Accred
