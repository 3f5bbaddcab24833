import Verif.Accred.PropsSound
import Mathlib.Analysis.SpecialFunctions.Exp
set_option linter.unusedSimpArgs false
set_option linter.unusedSectionVars false
/-
C109: devices with Pauli noise: a device without noise, and the device that defeats the traps.
-/
namespace Verif.Accred
open Verif Verif.Quantum Finset

variable {n : ℕ} {κ : Type} [Fintype κ]

/-! ### Pauli noise -/

/-- A fixed Pauli operator as noise. -/
noncomputable def Noise.pauli (q : PP n) : Noise κ n where
  op := onSys (pauliL q)
  iso Ψ := weight_onSys _ (nrm2_pauli q) Ψ

theorem block_pauli (q : PP n) (y y' : Basis (Fin n)) :
    block (onSys (pauliL q) : Joint κ n →ₗ[ℂ] Joint κ n) y y' = if bxor y q.2 = y' then (sgn q.1 y : ℂ) • LinearMap.id else 0 := by
  refine LinearMap.ext fun v => funext fun k => ?_
  show (sgn q.1 y : ℂ) * (if bxor y q.2 = y' then v k else 0) = _
  split <;> simp

theorem coef_pauli (q p : PP n) : coef (onSys (pauliL q) : Joint κ n →ₗ[ℂ] Joint κ n) p = if p = q then LinearMap.id else 0 := by
  unfold coef
  simp only [block_pauli]
  by_cases h : q.2 = p.2
  · have h1 : ∀ y : Basis (Fin n), bxor y q.2 = bxor y p.2 := fun y => by rw [h]
    simp only [h1, if_true, smul_smul]
    rw [← sum_smul, sum_sgn_sgn, smul_smul]
    by_cases h2 : p.1 = q.1
    · rw [if_pos h2, if_pos (Prod.ext h2 h.symm)]
      simp
    · rw [if_neg h2, if_neg fun e => h2 (congrArg Prod.fst e)]
      simp
  · have h1 : ∀ y : Basis (Fin n), bxor y q.2 ≠ bxor y p.2 := by
      intro y e
      apply h
      have := congrArg (bxor y) e
      rwa [← bxor_assoc, ← bxor_assoc, bxor_self, zero_bxor, zero_bxor] at this
    simp only [if_neg (h1 _), smul_zero, sum_const_zero]
    rw [if_neg fun e => h (congrArg Prod.snd e).symm]

theorem pauliL_p0 : (pauliL (p0 : PP n)) = LinearMap.id := LinearMap.ext fun ψ => pauli_zero ψ

theorem onSys_id : (onSys LinearMap.id : Joint κ n →ₗ[ℂ] Joint κ n) = LinearMap.id := rfl

/-- A device whose errors are always the same. -/
def Fixed (D : Device κ n) (g : TwoQ) (T : List (List (Fin n × Fin n))) (π : Path n T.length) : Prop :=
  ∀ i π', pathEnv D g T i π' = if π' = π then LinearMap.id else 0

theorem fixed_run (D : Device κ n) (g : TwoQ) (T : List (List (Fin n × Fin n))) (π : Path n T.length) (h : Fixed D g T π) (i : ℕ)
    (Ps : List (Path n T.length)) : runEnv D g T i Ps = if ∀ π' ∈ Ps, π' = π then LinearMap.id else 0 := by
  induction Ps generalizing i with
  | nil => simp [runEnv]
  | cons π' Ps ih =>
    show runEnv D g T (i + 1) Ps ∘ₗ pathEnv D g T i π' = _
    rw [ih, h i π']
    by_cases h1 : π' = π
    · simp only [h1, if_true, LinearMap.comp_id, List.mem_cons, forall_eq_or_imp, true_and]
    · simp [h1]

/-- A device with errors that no trap sees: every run is accepted, and the target has the errors. -/
theorem fixed_acc (D : Device κ n) (e : κ → ℂ) (he : nrm2 e = 1) (L : Layers n n) (h : GoodL L) (π : Path n L.two.length) (hD : Fixed D L.gate L.two π)
    (hE : ∀ b : Bits n L.two.length, Esc L.gate L.two π b.1 (bitFn b.2)) (v : ℕ) (s : Str) : accProb D e L v s = tgt L π s := by
  rw [acc_formula D e L h, sum_eq_single fun _ => π]
  · have hW : W D e L (fun _ : Fin (v + 1) => π) = 1 := by
      unfold W
      rw [fixed_run D L.gate L.two π hD, if_pos]
      · exact he
      · intro π' hπ
        obtain ⟨k, rfl⟩ := List.mem_ofFn.1 hπ
        rfl
    have hm : ∀ v0, miss L (fun _ : Fin (v + 1) => π) v0 = 1 := by
      intro v0
      refine prod_eq_one fun k _ => ?_
      have : escSum L.gate L.two π = Fintype.card (Bits n L.two.length) := by
        unfold escSum
        simp only [if_pos (hE _)]
        simp
      rw [this, div_self (bits_pos _ _).ne']
    simp only [hW, hm, one_mul]
    rw [sum_const, card_univ, Fintype.card_fin, nsmul_eq_mul]
    have hv : ((v : ℝ) + 1) ≠ 0 := by positivity
    push_cast
    field_simp
  · intro Ps _ hPs
    have : W D e L Ps = 0 := by
      unfold W
      rw [fixed_run D L.gate L.two π hD, if_neg]
      · simp [nrm2]
      · intro hall
        exact hPs (funext fun k => hall (Ps k) (List.mem_ofFn.2 ⟨k, rfl⟩))
    rw [this, zero_mul]
  · simp

/-! ### Without noise -/

/-- The device without noise. -/
def Device.noiseless : Device κ n := ⟨fun _ => .none, fun _ _ => .none, fun _ => .none⟩

theorem noiseless_layer (g : TwoQ) (k : ℕ) (t : List (Fin n × Fin n)) (ht : ∀ p ∈ t, p.1 ≠ p.2) :
    layerNoise (fun _ => (Noise.none : Noise κ n)) g k t = LinearMap.id := by
  refine LinearMap.ext fun Ψ => funext fun e => ?_
  have h1 : ∀ (l : List (Gate n)) (k : ℕ) (Ψ : Joint κ n), exec (fun _ => (Noise.none : Noise κ n)) k l Ψ = fun e => sem l (Ψ e) := by
    intro l
    induction l with
    | nil => intro k Ψ; rfl
    | cons a l ih =>
      intro k Ψ
      unfold exec
      split
      · rw [ih]; rfl
      · rw [ih]; rfl
  show sem (twoGates g t).reverse (exec _ k (twoGates g t) Ψ e) = _
  rw [h1]
  have := sem_two_reverse g t ht
  have hrev : ∀ ψ : State (Fin n) ℂ, sem (twoGates g t).reverse (sem (twoGates g t) ψ) = ψ := by
    intro ψ
    have h2 := sem_two_reverse g t.reverse (fun p hp => ht p (List.mem_reverse.1 hp)) ψ
    have h3 : twoGates g t.reverse = (twoGates g t).reverse := by simp [twoGates]
    rwa [h3, List.reverse_reverse] at h2
  exact hrev _

theorem noiseless_env (g : TwoQ) (k : ℕ) (T : List (List (Fin n × Fin n))) (hT : ∀ t ∈ T, ∀ p ∈ t, p.1 ≠ p.2) (ps : List (PP n))
    (hps : ps.length = T.length + 1) : envPath (fun _ => (Noise.none : Noise κ n)) LinearMap.id g k T ps =
      if ∀ p ∈ ps, p = p0 then LinearMap.id else 0 := by
  have hid : ∀ p : PP n, coef (LinearMap.id : Joint κ n →ₗ[ℂ] Joint κ n) p = if p = p0 then LinearMap.id else 0 := by
    intro p
    rw [← onSys_id, ← pauliL_p0]
    exact coef_pauli p0 p
  induction T generalizing k ps with
  | nil =>
    obtain ⟨p, rfl⟩ := List.length_eq_one_iff.1 hps
    show coef LinearMap.id p = _
    rw [hid]
    simp
  | cons t T ih =>
    obtain ⟨p, ps, rfl⟩ := List.exists_cons_of_length_eq_add_one hps
    show envPath _ _ g (k + t.length) T ps ∘ₗ coef (layerNoise _ g k t) p = _
    rw [ih _ (fun t ht => hT t (List.mem_cons_of_mem _ ht)) ps (by simpa using hps), noiseless_layer g k t (hT t List.mem_cons_self), hid]
    by_cases h1 : p = p0
    · simp only [h1, if_true, LinearMap.comp_id, List.mem_cons, forall_eq_or_imp, true_and]
    · simp [h1]

theorem noiseless_fixed (g : TwoQ) (T : List (List (Fin n × Fin n))) (hT : ∀ t ∈ T, ∀ p ∈ t, p.1 ≠ p.2) :
    Fixed (Device.noiseless : Device κ n) g T (fun _ => false, fun _ => p0) := by
  intro i π'
  show envPath (fun _ => (Noise.none : Noise κ n)) LinearMap.id g 0 T (List.ofFn π'.2) ∘ₗ block LinearMap.id π'.1 (fun _ => false) = _
  have hb : block (LinearMap.id : Joint κ n →ₗ[ℂ] Joint κ n) π'.1 (fun _ => false) = if π'.1 = fun _ => false then LinearMap.id else 0 := by
    rw [← onSys_id, ← pauliL_p0, block_pauli]
    show (if bxor π'.1 (fun _ => false) = _ then (sgn (fun _ => false) π'.1 : ℂ) • _ else _) = _
    rw [bxor_zero, sgn_zero_left, one_smul]
  rw [noiseless_env g 0 T hT _ (by simp), hb]
  by_cases h1 : π'.1 = fun _ => false
  · by_cases h2 : ∀ p ∈ List.ofFn π'.2, p = p0
    · rw [if_pos h1, if_pos h2, if_pos]
      · rfl
      · exact Prod.ext h1 (funext fun k => h2 _ (List.mem_ofFn.2 ⟨k, rfl⟩))
    · rw [if_neg h2, LinearMap.zero_comp, if_neg]
      · rintro rfl
        refine h2 fun p hp => ?_
        obtain ⟨k, rfl⟩ := List.mem_ofFn.1 hp
        rfl
  · rw [if_neg h1, if_neg fun e => h1 (congrArg Prod.fst e), LinearMap.comp_zero]

/-- **C109** Without noise every run is accepted and the recorded strings have exactly the probabilities of
the target. -/
theorem C109_complete (g : TwoQ) (hg : g ≠ .other) (body : List (InOp n n)) (hbody : ∀ op ∈ body, op.isBody) (hu : ∀ op ∈ body, op.unitary)
    (meas : List (Fin n × Fin n)) (hm : Straight meas) (e : κ → ℂ) (he : ∑ k, Complex.normSq (e k) = 1) (v : ℕ) :
    ∃ L, layerParser g (body ++ meas.map fun p => .measure p.1 p.2) = some L ∧ pAcc Device.noiseless e L v = 1 ∧
      ∀ s, accProb Device.noiseless e L v s = strProb (sem (body.flatMap InOp.gates) ket0) (keyOf meas) s := by
  obtain ⟨L, hL, hgood, hid⟩ := goodL g hg body hbody hu meas hm
  have h : ∀ s, accProb Device.noiseless e L v s = ideal L s := by
    intro s
    rw [fixed_acc Device.noiseless e he L hgood _ (noiseless_fixed L.gate L.two hgood.two)
      (fun b => esc_harmless L.gate L.two _ (harmless_zero L.two) b.1 (bitFn b.2)), tgt_harmless L hgood _ (harmless_zero L.two)]
  refine ⟨L, hL, ?_, fun s => (h s).trans (hid s)⟩
  unfold pAcc
  simp only [h]
  exact ideal_total L hgood

/-! ### Errors at both ends -/

/-- A target on two qubits: a Bell pair, then both qubits turned. -/
noncomputable def bellBody : List (InOp 2 2) := [.u mH 0, .cx 0 1, .u mSdg 0, .u mH 0, .u mSdg 1, .u mH 1]

/-- Straight measurements. -/
def bellMeas : List (Fin 2 × Fin 2) := [(0, 0), (1, 1)]

/-- The layers of the target. -/
noncomputable def bellL : Layers 2 2 := ⟨[[.u mH 0], [.u mSdg 0, .u mH 0, .u mSdg 1, .u mH 1]], [[(0, 1)]], bellMeas, .cx⟩

/-- Qubit `q` only. -/
def only (q : Fin 2) : Basis (Fin 2) := fun p => decide (p = q)

/-- A device that flips qubit 1 after every preparation and before every measurement, and applies Z to qubit 0
after every two-qubit gate. -/
noncomputable def flipper : Device Unit 2 where
  prep _ := .pauli (fun _ => false, only 1)
  gate _ _ := .pauli (only 0, fun _ => false)
  meas _ := .pauli (fun _ => false, only 1)

/-- Its errors. -/
def flipPath : Path 2 1 := (only 1, fun k => if k = 0 then (only 0, fun _ => false) else (fun _ => false, only 1))

theorem flipper_layer (i : ℕ) : layerNoise (flipper.gate i) .cx 0 [(0, 1)] = (onSys (pauliL (only 0, fun _ => false)) : Joint Unit 2 →ₗ[ℂ] Joint Unit 2) := by
  refine LinearMap.ext fun Ψ => funext fun e => funext fun x => ?_
  show appCX 0 1 (pauliL (only 0, fun _ => false) (appCX 0 1 (Ψ e))) x = pauliL (only 0, fun _ => false) (Ψ e) x
  simp only [appCX]
  show (sgn (only 0) (Function.update x 1 _) : ℂ) * Ψ e _ = (sgn (only 0) x : ℂ) * Ψ e _
  have h1 : (sgn (only 0) (Function.update x 1 (Bool.xor (x 1) (x 0))) : ℂ) = sgn (only 0) x := by
    simp [sgn, only, Fin.prod_univ_two]
  rw [h1]
  congr 2
  funext q
  fin_cases q <;> simp [bxor]

theorem flipper_fixed : Fixed flipper .cx [[(0, 1)]] flipPath := by
  intro i π'
  show envPath (flipper.gate i) (onSys (pauliL (fun _ => false, only 1))) .cx 0 [[(0, 1)]] (List.ofFn π'.2) ∘ₗ
    block (onSys (pauliL (fun _ => false, only 1))) π'.1 (fun _ => false) = _
  have h2 : List.ofFn π'.2 = [π'.2 0, π'.2 1] := rfl
  rw [h2]
  show (coef (onSys (pauliL (fun _ => false, only 1))) (π'.2 1) ∘ₗ coef (layerNoise (flipper.gate i) .cx 0 [(0, 1)]) (π'.2 0)) ∘ₗ _ = _
  rw [flipper_layer, coef_pauli, coef_pauli, block_pauli]
  have h3 : (bxor π'.1 (only 1) = fun _ => false) ↔ π'.1 = only 1 := bxor_eq_zero
  simp only [h3, sgn_zero_left, one_smul]
  by_cases ha : π'.1 = only 1
  · by_cases hb : π'.2 0 = (only 0, fun _ => false)
    · by_cases hc : π'.2 1 = (fun _ => false, only 1)
      · have : π' = flipPath := by
          refine Prod.ext ha (funext fun k => ?_)
          fin_cases k
          · exact hb
          · exact hc
        rw [if_pos ha, if_pos hb, if_pos hc, if_pos this]
        rfl
      · have : π' ≠ flipPath := by rintro rfl; exact hc rfl
        rw [if_neg hc, if_neg this, LinearMap.zero_comp, LinearMap.zero_comp]
    · have : π' ≠ flipPath := by rintro rfl; exact hb rfl
      rw [if_neg hb, if_neg this, LinearMap.comp_zero, LinearMap.zero_comp]
  · have : π' ≠ flipPath := by rintro rfl; exact ha rfl
    rw [if_neg ha, if_neg this, LinearMap.comp_zero]

/-- No trap sees them. -/
theorem flipper_escapes : ∀ b : Bits 2 1, Esc .cx [[(0, 1)]] flipPath b.1 (bitFn b.2) := by
  decide +kernel

theorem bell_parse : layerParser .cx (bellBody ++ bellMeas.map fun p => .measure p.1 p.2) = some bellL := by
  simp [layerParser, bellBody, bellMeas, bellL, parseStep, appendAt, newLayer]

theorem bell_unitary : ∀ op ∈ bellBody, op.unitary := by
  intro op hop
  simp only [bellBody, List.mem_cons, List.not_mem_nil, or_false] at hop
  rcases hop with rfl | rfl | rfl | rfl | rfl | rfl
  · exact unit_mH
  · trivial
  · exact unit_mSdg
  · exact unit_mH
  · exact unit_mSdg
  · exact unit_mH

theorem bell_body : ∀ op ∈ bellBody, op.isBody := by
  simp [bellBody, InOp.isBody]

theorem bell_straight : Straight bellMeas := by
  constructor
  · simp [bellMeas]
  · intro q; fin_cases q <;> simp [bellMeas]

theorem bell_ideal (y : Basis (Fin 2)) (h : y 0 = y 1) : sem (bellBody.flatMap InOp.gates) ket0 y = 0 := by
  obtain ⟨a, ha⟩ : ∃ a, a = y 0 := ⟨_, rfl⟩
  have hy : y = ![a, a] := by funext q; fin_cases q <;> simp [ha, h]
  subst hy
  simp only [bellBody, List.flatMap_cons, List.flatMap_nil, InOp.gates, sem, List.cons_append, List.nil_append, List.foldl_cons, List.foldl_nil, applyGate]
  cases a <;> simp [app1, appCX, mH, mSdg, ket0, funext_iff, Fin.forall_fin_two, Function.update]
  all_goals ring_nf
  all_goals simp

theorem bell_flipped (y : Basis (Fin 2)) (h : y 0 ≠ y 1) : sysPath .cx bellL.single bellL.two (List.ofFn flipPath.2) (ket flipPath.1) y = 0 := by
  obtain ⟨a, ha⟩ : ∃ a, a = y 0 := ⟨_, rfl⟩
  have hy : y = ![a, !a] := by
    funext q
    fin_cases q
    · simp [ha]
    · revert h; rw [ha]; show y 0 ≠ y 1 → y 1 = !y 0; cases y 0 <;> cases y 1 <;> simp
  subst hy
  show pauli (fun _ => false) (only 1) (sem [.u mSdg 0, .u mH 0, .u mSdg 1, .u mH 1] (appCX 0 1 (pauli (only 0) (fun _ => false)
    (app1 mH 0 (ket (only 1)))))) ![a, !a] = 0
  simp only [sem, List.foldl_cons, List.foldl_nil, applyGate]
  cases a <;> simp [pauli, sgn, bxor, app1, appCX, mH, mSdg, ket, only, funext_iff, Fin.forall_fin_two, Function.update, Fin.prod_univ_two]
  all_goals ring_nf

/-- The errors of the device in the target. -/
def bellPath : Path 2 bellL.two.length := flipPath

/-- **C109, finding** The bound does not hold for noise that flips qubits at the preparation and at the
measurement: there are a target on two qubits and a device — fixed Pauli errors, without memory — for which every
run with any number of traps is accepted and the recorded strings are never those of the target: their
distance is 1, while the reported bound tends to 0 as the number of traps grows. -/
theorem C109_finding_both_ends : ∃ (body : List (InOp 2 2)) (meas : List (Fin 2 × Fin 2)) (D : Device Unit 2) (e : Unit → ℂ) (L : Layers 2 2),
    (∀ op ∈ body, op.isBody) ∧ (∀ op ∈ body, op.unitary) ∧ Straight meas ∧ ∑ k, Complex.normSq (e k) = 1 ∧
    layerParser .cx (body ++ meas.map fun p => .measure p.1 p.2) = some L ∧
    ∀ v, pAcc D e L v = 1 ∧ variationDistance D e L v (strProb (sem (body.flatMap InOp.gates) ket0) (keyOf meas)) = 1 := by
  refine ⟨bellBody, bellMeas, flipper, fun _ => 1, bellL, bell_body, bell_unitary, bell_straight, by simp, bell_parse, fun v => ?_⟩
  obtain ⟨L, hL, hgood, hid⟩ := goodL .cx (by decide) bellBody bell_body bell_unitary bellMeas bell_straight
  obtain rfl : bellL = L := Option.some.inj (bell_parse.symm.trans hL)
  have hacc : ∀ s, accProb flipper (fun _ => 1) bellL v s = tgt bellL bellPath s :=
    fixed_acc flipper (fun _ => 1) (by simp [nrm2]) bellL hgood bellPath flipper_fixed flipper_escapes v
  have hp : pAcc flipper (fun _ => 1) bellL v = 1 := by
    unfold pAcc
    simp only [hacc]
    exact tgt_total bellL hgood bellPath
  refine ⟨hp, ?_⟩
  have h1 : ∀ s, ideal bellL s = ∑ y : Basis (Fin 2), (if str y = s then 1 else 0) * prob (sem (bellBody.flatMap InOp.gates) ket0) y := by
    intro s
    rw [hid]
    unfold strProb
    rw [sum_filter]
    refine sum_congr rfl fun y _ => ?_
    rw [keyOf_straight _ bell_straight]
    split <;> simp
  have h2 : ∀ s ∈ strings 2, |tgt bellL bellPath s - ideal bellL s| = tgt bellL bellPath s + ideal bellL s := by
    intro s hs
    unfold strings at hs
    obtain ⟨y, _, rfl⟩ := mem_image.1 hs
    by_cases hy : y 0 = y 1
    · have : ideal bellL (str y) = 0 := by
        rw [h1]
        refine sum_eq_zero fun y' _ => ?_
        split
        · next he => rw [str_inj he]; simp [prob, bell_ideal y hy]
        · simp
      rw [this, sub_zero, add_zero, abs_of_nonneg (tgt_nonneg _ _ _)]
    · have : tgt bellL bellPath (str y) = 0 := by
        unfold tgt
        refine sum_eq_zero fun y' _ => ?_
        split
        · next he =>
          rw [str_inj he]
          have := bell_flipped y hy
          unfold pathProb prob
          rw [one_mul]
          exact (congrArg Complex.normSq this).trans Complex.normSq_zero
        · simp
      rw [this, zero_sub, zero_add, abs_neg, abs_of_nonneg (ideal_nonneg _ hgood _)]
  unfold variationDistance
  rw [hp]
  simp only [hacc, div_one, ← hid]
  rw [sum_congr rfl h2, sum_add_distrib, tgt_total bellL hgood, ideal_total bellL hgood]
  norm_num

/-- **C109, finding** … and the fitter then reports a bound below the distance: 2 traps, 100 runs, all of them accepted,
`theta` 0.1 give 17/27. -/
theorem C109_finding_reported : boundVariationDistance ⟨1, 100, 100, true, 2⟩ (1 / 10) = some ⟨17 / 27, 100, 100, true, 2⟩ := by
  decide +kernel

/-! ### The confidence -/

/-- fitters.py:113, the reported confidence, with exact arithmetic. -/
noncomputable def confidence (theta : ℝ) (numRuns : ℕ) : ℝ := 1 - 2 * Real.exp (-2 * theta * numRuns * numRuns)

/-- The probability that the share of accepted runs among `N` independent runs, each accepted with probability
`p`, differs from `p` by at most `theta`. -/
noncomputable def within (p theta : ℝ) (N : ℕ) : ℝ :=
  ∑ k ∈ (range (N + 1)).filter (fun k : ℕ => |(k : ℝ) / N - p| ≤ theta), (N.choose k : ℝ) * p ^ k * (1 - p) ^ (N - k)

/-- **C109, finding** The reported confidence is larger than the probability that the share of accepted
runs is within `theta` of the probability of acceptance: `theta` is not squared in the exponent and the number of runs is. -/
theorem C109_finding_confidence : within (1 / 4) (7 / 10) 2 < confidence (7 / 10) 2 := by
  have h1 : within (1 / 4) (7 / 10) 2 ≤ 15 / 16 := by
    unfold within
    rw [sum_filter, sum_range_succ, sum_range_succ, sum_range_succ, sum_range_zero]
    have : ¬ |((2 : ℕ) : ℝ) / (2 : ℕ) - 1 / 4| ≤ 7 / 10 := by norm_num [abs_le]
    rw [if_neg this]
    split <;> split <;> norm_num
  have h2 : Real.exp (-2 * (7 / 10) * (2 : ℕ) * (2 : ℕ)) < 1 / 32 := by
    rw [show (-2 * (7 / 10) * (2 : ℕ) * (2 : ℕ) : ℝ) = -(28 / 5) by norm_num, Real.exp_neg, inv_eq_one_div]
    refine one_div_lt_one_div_of_lt (by norm_num) ?_
    have h3 : (1 + 1) ^ 5 ≤ Real.exp 1 ^ 5 := by
      refine pow_le_pow_left₀ (by norm_num) ?_ 5
      have := Real.add_one_le_exp 1
      linarith
    rw [← Real.exp_nat_mul] at h3
    have h4 : Real.exp ((5 : ℕ) * 1) < Real.exp (28 / 5) := Real.exp_lt_exp.2 (by norm_num)
    have h5 : (32 : ℝ) ≤ (1 + 1) ^ 5 := by norm_num
    exact h5.trans_lt (h3.trans_lt h4)
  unfold confidence
  linarith

/-! ### Non-vacuity -/

/-- Noise with memory: one bit of environment says whether qubit 1 is flipped, and changes every time. -/
noncomputable def everyOther : Noise Bool 2 where
  op := {
    toFun := fun Ψ k x => Ψ (!k) (bxor x (if k then only 1 else fun _ => false))
    map_add' := fun _ _ => rfl
    map_smul' := fun _ _ => rfl }
  iso Ψ := by
    have h : ∀ (ψ : State (Fin 2) ℂ) (c : Basis (Fin 2)), ∑ x, Complex.normSq (ψ (bxor x c)) = ∑ x, Complex.normSq (ψ x) := fun ψ c =>
      Equiv.sum_comp (Function.Involutive.toPerm (fun x => bxor x c) fun x => bxor_cancel x c) fun x => Complex.normSq (ψ x)
    show ∑ k : Bool, ∑ x, Complex.normSq (Ψ (!k) (bxor x _)) = ∑ k : Bool, ∑ x, Complex.normSq (Ψ k x)
    simp only [Fintype.sum_bool, h, Bool.not_true, Bool.not_false]
    ring

/-- A device with memory whose gates and measurements flip qubits satisfies the hypothesis of `C109_sound`. -/
example : ∃ D : Device Bool 2, (∀ i, (D.prep i).NoFlip ∨ (D.meas i).NoFlip) ∧ ¬ (D.meas 0).NoFlip ∧ ∀ i k, ¬ (D.gate i k).NoFlip := by
  have hn : ¬ everyOther.NoFlip := by
    intro h
    have := h (fun _ => ket (fun _ => false)) (only 1) (fun k => if_neg (by decide)) true
    have h2 : (ket (fun _ => false) : State (Fin 2) ℂ) (bxor (only 1) (only 1)) = 0 := this
    simp [ket, bxor_self] at h2
  exact ⟨⟨fun _ => .none, fun _ _ => everyOther, fun _ => everyOther⟩, fun i => .inl fun Ψ x h k => h k, hn, fun _ _ => hn⟩

/-- The target of the finding satisfies the other hypotheses. -/
example (D : Device Bool 2) (hD : ∀ i, (D.prep i).NoFlip ∨ (D.meas i).NoFlip) :
    ∃ L, layerParser .cx (bellBody ++ bellMeas.map fun p => .measure p.1 p.2) = some L ∧
      ∑ s ∈ strings 2, |accProb D (fun k => if k then 1 else 0) L 53 s -
        pAcc D (fun k => if k then 1 else 0) L 53 * strProb (sem (bellBody.flatMap InOp.gates) ket0) (keyOf bellMeas) s| ≤ 1 / 16 := by
  obtain ⟨L, hL, h⟩ := C109_sound .cx (by decide) bellBody bell_body bell_unitary bellMeas bell_straight D hD (fun k => if k then 1 else 0) (by simp) 53
  refine ⟨L, hL, h.trans ?_⟩
  norm_num

end Verif.Accred
