import Verif.Accred.LemmasEscape
set_option linter.unusedSectionVars false
set_option linter.unusedSimpArgs false
/-
Traps and target with errors: probabilities.
-/
namespace Verif.Accred
open Verif Verif.Quantum Finset

variable {n : ℕ} {κ : Type} [Fintype κ]

/-! ### Traps -/

theorem ket_eq (a : Basis (Fin n)) : (ket a : State (Fin n) ℂ) = pauliL (fun _ => false, a) ket0 := by
  funext y
  show _ = (sgn (fun _ => false) y : ℂ) * ket0 (bxor y a)
  rw [sgn_zero_left, one_mul]
  simp only [ket, ket0, bxor_eq_zero]

theorem prob_pauli_ket0 (w : PP n) : prob (pauliL w ket0) (fun _ => false) = if w.2 = fun _ => false then 1 else 0 := by
  show Complex.normSq ((sgn w.1 (fun _ => false) : ℂ) * ket0 (bxor (fun _ => false) w.2)) = _
  rw [sgn_zero_right, one_mul, zero_bxor]
  unfold ket0
  split <;> simp

/-- The one-qubit layers of the trap with the given random bits. -/
def trapS (g : TwoQ) (T : List (List (Fin n × Fin n))) (b : Bool) (rnd : ℕ → ℕ → Bool) : List (List (Gate n)) := trapSingles g rnd (hsG b) 0 T (hsG b)

/-- The errors of a path do not show in a trap. -/
def Esc (g : TwoQ) (T : List (List (Fin n × Fin n))) (π : Path n T.length) (b : Bool) (rnd : ℕ → ℕ → Bool) : Prop :=
  (fp g rnd (hsG b) 0 T (List.ofFn π.2) (cj (hsG b) (fun _ => false, π.1))).2 = fun _ => false

instance (g : TwoQ) (T : List (List (Fin n × Fin n))) (π : Path n T.length) (b : Bool) (rnd : ℕ → ℕ → Bool) : Decidable (Esc g T π b rnd) :=
  inferInstanceAs (Decidable (_ = _))

theorem trap_prob (g : TwoQ) (hg : g ≠ .other) (T : List (List (Fin n × Fin n))) (hT : ∀ t ∈ T, (regs t).Nodup) (π : Path n T.length) (b : Bool)
    (rnd : ℕ → ℕ → Bool) : pathProb g T (trapS g T b rnd) π (fun _ => false) = if Esc g T π b rnd then 1 else 0 := by
  have hT' : ∀ t ∈ T, ∀ p ∈ t, p.1 ≠ p.2 := fun t ht => regs_ne (hT t ht)
  obtain ⟨S, hS, hlen, hsem⟩ := routineTwo_spec (m := 0) ⟨[], T, [], g⟩ hg hT b rnd
  rw [routineTwo_eq _ hg] at hS
  have hS := Option.some.inj hS
  dsimp only at hS hsem
  subst hS
  have h := cjPath_spec g T hT' (trapS g T b rnd) (fun s hs a ha => (trapSingles_cliff g rnd _ (hsG_cliff b) 0 T _ (hsG_cliff b) s hs a ha).cliff)
    (trapSingles_length _ _ _ _ _ _) (List.ofFn π.2) (by simp) (fun _ => false, π.1) ket0
  unfold pathProb
  rw [ket_eq, h.prob]
  unfold trapS at *
  rw [hsem, prob_pauli_ket0, cjPath_trap _ _ _ _ _ _ (by simp)]
  rfl

/-- A path without consequences. -/
def Harmless (T : List (List (Fin n × Fin n))) (π : Path n T.length) : Prop :=
  π.1 = (fun _ => false) ∧ BandClean T (List.ofFn π.2) ∧ lastX T (List.ofFn π.2) = fun _ => false

/-- A path that flips no qubit at the start or none at the end. -/
def OneSided (T : List (List (Fin n × Fin n))) (π : Path n T.length) : Prop :=
  π.1 = (fun _ => false) ∨ lastX T (List.ofFn π.2) = fun _ => false

theorem esc_harmless (g : TwoQ) (T : List (List (Fin n × Fin n))) (π : Path n T.length) (h : Harmless T π) (b : Bool) (rnd : ℕ → ℕ → Bool) :
    Esc g T π b rnd := by
  obtain ⟨h1, h2, h3⟩ := h
  unfold Esc
  rw [h1]
  show (fp g rnd (hsG b) 0 T (List.ofFn π.2) (cj (hsG b) p0)).2 = _
  rw [cj_p0, fp_zero g rnd b 0 T _ (by simp) h2, h3]

theorem part_start (b : Bool) (a : Basis (Fin n)) : part b (cj (hsG b) (fun _ => false, a)) = a := by
  rw [cj_hsG]; cases b <;> rfl

/-- Every consequential path has a bit on which its detection depends, unless it is always detected. -/
theorem esc_bit (g : TwoQ) (hg : g ≠ .other) (T : List (List (Fin n × Fin n))) (hT : ∀ t ∈ T, (regs t).Nodup) (π : Path n T.length) (h1 : OneSided T π)
    (h2 : ¬ Harmless T π) :
    (∀ b rnd, ¬ Esc g T π b rnd) ∨ ∃ j i, j < T.length ∧ i < n ∧ ∀ rnd, ¬ ∀ b c, Esc g T π b (setBit rnd j i c) := by
  by_cases hb : BandClean T (List.ofFn π.2)
  · left
    intro b rnd he
    rcases h1 with h1 | h1
    · unfold Esc at he
      rw [h1] at he
      have he : (fp g rnd (hsG b) 0 T (List.ofFn π.2) (cj (hsG b) p0)).2 = fun _ => false := he
      rw [cj_p0, fp_zero g rnd b 0 T _ (by simp) hb] at he
      exact h2 ⟨h1, hb, he⟩
    · have := (fp_clean g hg rnd b 0 T hT _ (by simp) hb h1 _).1 he
      rw [part_start] at this
      exact h2 ⟨this, hb, h1⟩
  · right
    rcases h1 with h1 | h1
    · obtain ⟨j, i, hj, hi, h⟩ := first_error g hg 0 T hT (List.ofFn π.2) (by simp) hb
      refine ⟨j, i, hj, hi, fun rnd hall => h rnd fun b c => ?_⟩
      have := hall b c
      unfold Esc at this
      rw [h1] at this
      have this : (fp g (setBit rnd j i c) (hsG b) 0 T (List.ofFn π.2) (cj (hsG b) p0)).2 = fun _ => false := this
      rwa [cj_p0, ← Nat.zero_add j] at this
    · obtain ⟨j, i, hj, hi, h⟩ := last_error g hg 0 T hT (List.ofFn π.2) (by simp) hb h1
      refine ⟨j, i, hj, hi, fun rnd hall => h rnd (fun b => cj (hsG b) (fun _ => false, π.1)) fun b c => ?_⟩
      have := hall b c
      rw [Nat.zero_add]
      exact this

/-- The random bits of a trap. -/
abbrev Bits (n l : ℕ) := Bool × (Fin l → Fin n → Bool)

/-- The bits as a function. -/
def bitFn {l : ℕ} (r : Fin l → Fin n → Bool) (j i : ℕ) : Bool := if h : j < l ∧ i < n then r ⟨j, h.1⟩ ⟨i, h.2⟩ else false

/-- One bit flipped. -/
def flipBit {l : ℕ} (j : Fin l) (i : Fin n) (r : Fin l → Fin n → Bool) : Fin l → Fin n → Bool := Function.update r j (Function.update (r j) i (!r j i))

theorem flipBit_invol {l : ℕ} (j : Fin l) (i : Fin n) (r : Fin l → Fin n → Bool) : flipBit j i (flipBit j i r) = r := by
  unfold flipBit
  simp

theorem setBit_same {l : ℕ} (j : Fin l) (i : Fin n) (r : Fin l → Fin n → Bool) : setBit (bitFn r) j i (r j i) = bitFn r := by
  funext j' i'
  unfold setBit bitFn
  split
  · next h =>
    obtain ⟨rfl, rfl⟩ := h
    simp
  · rfl

theorem setBit_flip {l : ℕ} (j : Fin l) (i : Fin n) (r : Fin l → Fin n → Bool) : setBit (bitFn r) j i (!r j i) = bitFn (flipBit j i r) := by
  funext j' i'
  unfold setBit bitFn flipBit
  split
  · next h =>
    obtain ⟨rfl, rfl⟩ := h
    simp
  · next h =>
    by_cases h' : j' < l ∧ i' < n
    · rw [dif_pos h', dif_pos h']
      by_cases hj : j' = j
      · have hi : i' ≠ i := fun hi => h ⟨hj, hi⟩
        have hj' : (⟨j', h'.1⟩ : Fin l) = j := Fin.ext hj
        have hi' : (⟨i', h'.2⟩ : Fin n) ≠ i := fun h => hi (congrArg Fin.val h)
        rw [hj']
        simp [hi']
      · have hj' : (⟨j', h'.1⟩ : Fin l) ≠ j := fun h => hj (congrArg Fin.val h)
        simp [hj']
    · rw [dif_neg h', dif_neg h']

/-- The number of traps in which a path does not show. -/
noncomputable def escSum (g : TwoQ) (T : List (List (Fin n × Fin n))) (π : Path n T.length) : ℝ :=
  ∑ r : Bits n T.length, if Esc g T π r.1 (bitFn r.2) then 1 else 0

theorem escSum_nonneg (g : TwoQ) (T : List (List (Fin n × Fin n))) (π : Path n T.length) : 0 ≤ escSum g T π :=
  sum_nonneg fun r _ => by split <;> norm_num

theorem escSum_harmless (g : TwoQ) (T : List (List (Fin n × Fin n))) (π : Path n T.length) (h : Harmless T π) :
    escSum g T π = Fintype.card (Bits n T.length) := by
  unfold escSum
  rw [sum_congr rfl fun r _ => if_pos (esc_harmless g T π h r.1 (bitFn r.2))]
  simp

theorem escSum_le (g : TwoQ) (T : List (List (Fin n × Fin n))) (π : Path n T.length) : escSum g T π ≤ Fintype.card (Bits n T.length) := by
  have : escSum g T π ≤ ∑ r : Bits n T.length, (1 : ℝ) := sum_le_sum fun r _ => by split <;> norm_num
  simpa using this

/-- At most three quarters of the traps miss a consequential path. -/
theorem escSum_bound (g : TwoQ) (hg : g ≠ .other) (T : List (List (Fin n × Fin n))) (hT : ∀ t ∈ T, (regs t).Nodup) (π : Path n T.length)
    (h1 : OneSided T π) (h2 : ¬ Harmless T π) : escSum g T π ≤ 3 / 4 * Fintype.card (Bits n T.length) := by
  rcases esc_bit g hg T hT π h1 h2 with h | ⟨j, i, hj, hi, h⟩
  · have : escSum g T π = 0 := sum_eq_zero fun r _ => if_neg (h _ _)
    rw [this]
    positivity
  · obtain ⟨J, hJ⟩ : ∃ J : Fin T.length, J.val = j := ⟨⟨j, hj⟩, rfl⟩
    obtain ⟨I, hI⟩ : ∃ I : Fin n, I.val = i := ⟨⟨i, hi⟩, rfl⟩
    obtain ⟨f, hf⟩ : ∃ f : Bool → (Fin T.length → Fin n → Bool) → ℝ, f = fun b r => if Esc g T π b (bitFn r) then 1 else 0 := ⟨_, rfl⟩
    have hsum : escSum g T π = ∑ r, (f true r + f false r) := by
      unfold escSum
      rw [Fintype.sum_prod_type, Fintype.sum_bool, ← sum_add_distrib, hf]
    have hflip : ∑ r, (f true r + f false r) = ∑ r, (f true (flipBit J I r) + f false (flipBit J I r)) :=
      (Equiv.sum_comp (Function.Involutive.toPerm (flipBit J I) (flipBit_invol J I)) fun r => f true r + f false r).symm
    have hthree : ∀ r, (f true r + f false r) + (f true (flipBit J I r) + f false (flipBit J I r)) ≤ 3 := by
      intro r
      have hr := h (bitFn r)
      have hcase : ∃ b c, ¬ Esc g T π b (setBit (bitFn r) j i c) := by push Not at hr; exact hr
      obtain ⟨b, c, hbc⟩ := hcase
      rw [← hJ, ← hI] at hbc
      have hle : ∀ b r, f b r ≤ 1 := by intro b r; rw [hf]; dsimp only; split <;> norm_num
      have : f b r = 0 ∨ f b (flipBit J I r) = 0 := by
        by_cases hc : c = r J I
        · left
          rw [hc, setBit_same] at hbc
          rw [hf]; exact if_neg hbc
        · right
          have : c = !r J I := by revert hc; cases c <;> cases r J I <;> simp
          rw [this, setBit_flip] at hbc
          rw [hf]; exact if_neg hbc
      have h1 := hle true r
      have h2 := hle false r
      have h3 := hle true (flipBit J I r)
      have h4 := hle false (flipBit J I r)
      cases b <;> rcases this with h | h <;> linarith
    have htot : 2 * escSum g T π ≤ 3 * Fintype.card (Fin T.length → Fin n → Bool) := by
      rw [two_mul]
      nth_rewrite 2 [hsum]
      rw [hsum, hflip]
      nth_rewrite 2 [← hflip]
      rw [add_comm, ← sum_add_distrib]
      refine (sum_le_sum fun r _ => hthree r).trans ?_
      simp [mul_comm]
    have hcard : (Fintype.card (Bits n T.length) : ℝ) = 2 * Fintype.card (Fin T.length → Fin n → Bool) := by
      rw [Fintype.card_prod, Fintype.card_bool]; push_cast; ring
    rw [hcard]
    linarith

/-! ### The target -/

theorem prob_phase (z : Basis (Fin n)) (ψ : State (Fin n) ℂ) (y : Basis (Fin n)) : prob (pauliL (z, fun _ => false) ψ) y = prob ψ y := by
  show Complex.normSq ((sgn z y : ℂ) * ψ (bxor y fun _ => false)) = _
  rw [bxor_zero, Complex.normSq_mul]
  rcases sgn_pm (K := ℂ) z y with e | e <;> simp [e, prob]

theorem sysPath_clean (g : TwoQ) (T : List (List (Fin n × Fin n))) (S : List (List (Gate n))) (hS : S.length = T.length + 1) (ps : List (PP n))
    (hps : ps.length = T.length + 1) (hc : BandClean T ps) (hl : lastX T ps = fun _ => false) (ψ : State (Fin n) ℂ) (y : Basis (Fin n)) :
    prob (sysPath g S T ps ψ) y = prob (sem (interleave g S T) ψ) y := by
  induction T generalizing S ps ψ with
  | nil =>
    obtain ⟨s, rfl⟩ := List.length_eq_one_iff.1 hS
    obtain ⟨p, rfl⟩ := List.length_eq_one_iff.1 hps
    show prob (pauliL p (sem s ψ)) y = _
    obtain ⟨z, x⟩ := p
    obtain rfl : x = fun _ => false := hl
    rw [prob_phase]
    simp [interleave]
  | cons t T ih =>
    obtain ⟨s, S, rfl⟩ := List.exists_cons_of_length_eq_add_one hS
    obtain ⟨p, ps, rfl⟩ := List.exists_cons_of_length_eq_add_one hps
    obtain ⟨rfl, hc⟩ := hc
    show prob (sysPath g S T ps (sem (twoGates g t) (pauli (fun _ => false) (fun _ => false) (sem s ψ)))) y = _
    rw [pauli_zero, ih S (by simpa using hS) ps (by simpa using hps) hc hl]
    simp [interleave, sem_append]

theorem ket_zero : (ket (fun _ => false) : State (Fin n) ℂ) = ket0 := rfl

theorem target_harmless (g : TwoQ) (T : List (List (Fin n × Fin n))) (S : List (List (Gate n))) (hS : S.length = T.length + 1) (π : Path n T.length)
    (h : Harmless T π) (y : Basis (Fin n)) : pathProb g T S π y = prob (sem (interleave g S T) ket0) y := by
  obtain ⟨h1, h2, h3⟩ := h
  unfold pathProb
  rw [h1, ket_zero]
  exact sysPath_clean g T S hS _ (by simp) h2 h3 ket0 y

theorem target_total (g : TwoQ) (T : List (List (Fin n × Fin n))) (hT : ∀ t ∈ T, ∀ p ∈ t, p.1 ≠ p.2) (S : List (List (Gate n)))
    (hS : ∀ s ∈ S, ∀ a ∈ s, a.ok) (π : Path n T.length) : ∑ y, pathProb g T S π y = 1 := by
  have := nrm2_sysPath g T hT S hS (List.ofFn π.2) (ket π.1)
  rwa [nrm2_ket] at this

theorem pathProb_nonneg (g : TwoQ) (T : List (List (Fin n × Fin n))) (S : List (List (Gate n))) (π : Path n T.length) (y : Basis (Fin n)) :
    0 ≤ pathProb g T S π y := Complex.normSq_nonneg _

/-! ### Paths of one-sided devices -/

theorem block_noflip (N : Noise κ n) (hN : N.NoFlip) (y y' : Basis (Fin n)) (h : y ≠ y') : block N.op y y' = 0 := by
  ext v k
  show N.op (fun k' x => if x = y' then v k' else 0) k y = 0
  exact hN _ y (fun k' => if_neg h) k

theorem coef_noflip (N : Noise κ n) (hN : N.NoFlip) (p : PP n) (h : p.2 ≠ fun _ => false) : coef N.op p = 0 := by
  unfold coef
  rw [sum_eq_zero, smul_zero]
  intro y _
  rw [block_noflip N hN, smul_zero]
  intro e
  apply h
  have := congrArg (bxor y) e
  rwa [bxor_self, ← bxor_assoc, bxor_self, zero_bxor, eq_comm] at this

theorem envPath_noflip (noise : ℕ → Noise κ n) (N : Noise κ n) (hN : N.NoFlip) (g : TwoQ) (k : ℕ) (T : List (List (Fin n × Fin n)))
    (ps : List (PP n)) (hps : ps.length = T.length + 1) (h : lastX T ps ≠ fun _ => false) : envPath noise N.op g k T ps = 0 := by
  induction T generalizing k ps with
  | nil =>
    obtain ⟨p, rfl⟩ := List.length_eq_one_iff.1 hps
    exact coef_noflip N hN p h
  | cons t T ih =>
    obtain ⟨p, ps, rfl⟩ := List.exists_cons_of_length_eq_add_one hps
    show envPath noise N.op g (k + t.length) T ps ∘ₗ _ = 0
    rw [ih _ ps (by simpa using hps) h, LinearMap.zero_comp]

theorem pathEnv_onesided (D : Device κ n) (g : TwoQ) (T : List (List (Fin n × Fin n))) (i : ℕ) (hD : (D.prep i).NoFlip ∨ (D.meas i).NoFlip)
    (π : Path n T.length) (h : ¬ OneSided T π) : pathEnv D g T i π = 0 := by
  unfold OneSided at h
  push Not at h
  unfold pathEnv
  rcases hD with hD | hD
  · rw [block_noflip _ hD _ _ h.1, LinearMap.comp_zero]
  · rw [envPath_noflip _ _ hD g 0 T _ (by simp) h.2, LinearMap.zero_comp]

theorem runEnv_onesided (D : Device κ n) (g : TwoQ) (T : List (List (Fin n × Fin n))) (hD : ∀ i, (D.prep i).NoFlip ∨ (D.meas i).NoFlip) (i : ℕ)
    (Ps : List (Path n T.length)) (h : ∃ π ∈ Ps, ¬ OneSided T π) : runEnv D g T i Ps = 0 := by
  induction Ps generalizing i with
  | nil => simp at h
  | cons π Ps ih =>
    show runEnv D g T (i + 1) Ps ∘ₗ pathEnv D g T i π = 0
    by_cases hπ : OneSided T π
    · rw [ih (i + 1), LinearMap.zero_comp]
      obtain ⟨π', h', hn⟩ := h
      rcases List.mem_cons.1 h' with rfl | h'
      · exact absurd hπ hn
      · exact ⟨π', h', hn⟩
    · rw [pathEnv_onesided D g T i (hD i) π hπ, LinearMap.comp_zero]

/-! ### The layers of a target -/

/-- A one-qubit gate that is unitary. -/
def Gate.fine (a : Gate n) : Prop := a.isTwo = false ∧ a.ok

theorem appendAt_mem {α : Type} (l : List (List α)) (k : ℕ) (a : α) (s : List α) (hs : s ∈ appendAt l k a) (x : α) (hx : x ∈ s) :
    x = a ∨ ∃ s' ∈ l, x ∈ s' := by
  unfold appendAt at hs
  obtain ⟨i, hi, rfl⟩ := List.getElem_of_mem hs
  rw [List.getElem_modify] at hx
  split at hx
  · rcases List.mem_append.1 hx with hx | hx
    · exact .inr ⟨_, List.getElem_mem _, hx⟩
    · exact .inl (by simpa using hx)
  · exact .inr ⟨_, List.getElem_mem _, hx⟩

theorem parseStep_fine {m : ℕ} (g : TwoQ) (st st' : PState n m) (op : InOp n m) (hu : op.unitary) (h : parseStep g st op = some st')
    (hst : ∀ s ∈ st.single, ∀ a ∈ s, a.fine) : ∀ s ∈ st'.single, ∀ a ∈ s, a.fine := by
  have hnew : ∀ st : PState n m, (∀ s ∈ st.single, ∀ a ∈ s, a.fine) → ∀ s ∈ (newLayer st).single, ∀ a ∈ s, a.fine := by
    intro st hst s hs a ha
    rcases List.mem_append.1 hs with hs | hs
    · exact hst s hs a ha
    · simp at hs; subst hs; simp at ha
  have happ : ∀ (l : List (List (Gate n))) (k : ℕ) (x : Gate n), x.fine → (∀ s ∈ l, ∀ a ∈ s, a.fine) → ∀ s ∈ appendAt l k x, ∀ a ∈ s, a.fine := by
    intro l k x hx hl s hs a ha
    rcases appendAt_mem l k x s hs a ha with rfl | ⟨s', hs', ha'⟩
    · exact hx
    · exact hl s' hs' a ha'
  cases op with
  | barrier =>
    have hb : (Gate.barrier : Gate n).fine := ⟨rfl, trivial⟩
    simp only [parseStep, Option.some.injEq] at h
    subst h
    refine happ _ _ _ hb ?_
    split
    · exact hnew st hst
    · exact hst
  | u mat q =>
    have hb : (Gate.u mat q : Gate n).fine := ⟨rfl, hu⟩
    simp only [parseStep] at h
    split at h <;> (simp only [Option.some.injEq] at h; subst h; exact happ _ _ _ hb hst)
  | cx a b =>
    have hb : (Gate.h b : Gate n).fine := ⟨rfl, trivial⟩
    have h1 : ∀ s ∈ (if a ∈ st.current ∨ b ∈ st.current then newLayer st else st).single, ∀ a ∈ s, a.fine := by
      split
      · exact hnew st hst
      · exact hst
    cases g <;> simp only [parseStep, Option.some.injEq, reduceCtorEq] at h <;> subst h
    · exact h1
    · exact happ _ _ _ hb (happ _ _ _ hb h1)
  | measure q c =>
    simp only [parseStep, Option.some.injEq] at h
    subst h
    exact hst
  | other => simp [parseStep] at h

theorem layerParser_fine {m : ℕ} (g : TwoQ) (circ : List (InOp n m)) (hu : ∀ op ∈ circ, op.unitary) (L : Layers n m) (h : layerParser g circ = some L) :
    ∀ s ∈ L.single, ∀ a ∈ s, a.fine := by
  have key : ∀ (l : List (InOp n m)) (st st' : PState n m), (∀ op ∈ l, op.unitary) → l.foldlM (parseStep g) st = some st' →
      (∀ s ∈ st.single, ∀ a ∈ s, a.fine) → ∀ s ∈ st'.single, ∀ a ∈ s, a.fine := by
    intro l
    induction l with
    | nil => intro st st' _ h hst; simp only [List.foldlM_nil, Option.pure_def, Option.some.injEq] at h; subst h; exact hst
    | cons op l ih =>
      intro st st' hl h hst
      rw [List.foldlM_cons] at h
      obtain ⟨st1, e1, e2⟩ := Option.bind_eq_some_iff.1 h
      exact ih st1 st' (fun o ho => hl o (List.mem_cons_of_mem _ ho)) e2
        (parseStep_fine g st st1 op (hl op List.mem_cons_self) e1 hst)
  unfold layerParser at h
  obtain ⟨st, e1, e2⟩ := Option.bind_eq_some_iff.1 h
  have hst := key circ _ st hu e1 (by simp)
  split at e2 <;> simp only [Option.pure_def, Option.some.injEq] at e2 <;> subst e2
  · exact fun s hs => hst s (List.dropLast_subset _ hs)
  · exact hst

end Verif.Accred
