import Verif.Char.SemDecay
import Verif.Char.PropsCoherence
set_option linter.unusedSimpArgs false
set_option linter.unusedVariables false
/-
C106: on a device with relaxation and dephasing the coherence circuits produce exactly the curves the fitters fit.
-/
namespace Verif.Char
open Verif Verif.Quantum Complex
open Verif.Ent (mU1 mU2 mv dlt)

/-- A state with trace one and coherence `c`. -/
def Coh (c : ℂ) (ρ : Mat2 ℂ) : Prop :=
  ρ false false + ρ true true = 1 ∧ ρ false true = c ∧ ρ true false = starRingEnd ℂ c

theorem Coh.decay {c : ℂ} {ρ : Mat2 ℂ} (h : Coh c ρ) (t T1 T2 δ : ℝ) :
    Coh ((Real.exp (-t / T2) : ℂ) * exp (-(δ * I)) * c) (decay t T1 T2 δ ρ) := by
  obtain ⟨h1, h2, h3⟩ := h
  refine ⟨?_, ?_, ?_⟩
  · simp only [Char.decay]
    linear_combination h1
  · simp only [Char.decay, h2]
  · simp only [Char.decay, h3]
    rw [map_mul, map_mul, conj_ofReal, ← exp_conj]
    simp

theorem Coh.pad {c : ℂ} {ρ : Mat2 ℂ} (h : Coh c ρ) (R : Relax) (q len : ℕ) :
    Coh ((Real.exp (-(len * R.gateTime) / R.t2 q) : ℂ) * exp (-((len * R.phase q : ℝ) * I)) * c) (relaxBlock R q (padId q len) ρ) := by
  have key : ∀ n : ℕ, Coh ((Real.exp (-(n * R.gateTime) / R.t2 q) : ℂ) * exp (-((n * R.phase q : ℝ) * I)) * c)
      (relaxBlock R q ((List.range n).flatMap fun _ => [Instr.barrier [q], Instr.id q]) ρ) := by
    intro n
    induction n with
    | zero => simpa [relaxBlock] using h
    | succ n ih =>
      rw [List.range_succ, List.flatMap_append, relaxBlock_append]
      have := ih.decay R.gateTime (R.t1 q) (R.t2 q) (R.phase q)
      simp only [List.flatMap_cons, List.flatMap_nil, List.append_nil, relaxBlock_cons, relaxOp]
      refine (?_ : ∀ {a b : ℂ} {ρ}, Coh b ρ → a = b → Coh a ρ) this ?_
      · rintro a b ρ h rfl
        exact h
      have e1 : -(((n + 1 : ℕ) : ℝ) * R.gateTime) / R.t2 q = -R.gateTime / R.t2 q + -(n * R.gateTime) / R.t2 q := by push_cast; ring
      have e2 : -(((((n + 1 : ℕ) : ℝ) * R.phase q : ℝ)) * I : ℂ) = -(R.phase q * I) + -((n * R.phase q : ℝ) * I) := by push_cast; ring
      rw [e1, e2, Real.exp_add, exp_add]
      push_cast
      ring
  unfold padId
  rw [relaxBlock_append]
  exact key len

theorem Coh.x {c : ℂ} {ρ : Mat2 ℂ} (h : Coh c ρ) : Coh (starRingEnd ℂ c) (conjBy mX ρ) := by
  obtain ⟨h1, h2, h3⟩ := h
  refine ⟨?_, ?_, ?_⟩ <;> simp [conjBy, mX, h2, h3]
  rw [add_comm]; exact h1

theorem Coh.y {c : ℂ} {ρ : Mat2 ℂ} (h : Coh c ρ) : Coh (-starRingEnd ℂ c) (conjBy mY ρ) := by
  obtain ⟨h1, h2, h3⟩ := h
  refine ⟨?_, ?_, ?_⟩ <;> simp [conjBy, mY, h2, h3]
  · linear_combination h1 - (ρ true true + ρ false false) * I_mul_I
  · linear_combination (starRingEnd ℂ c) * I_mul_I
  · linear_combination c * I_mul_I

theorem conj_phase (φ : ℝ) : starRingEnd ℂ (exp (φ * I)) = exp (-(φ * I)) := by
  rw [← exp_conj]
  simp

theorem phase_conj (φ : ℝ) : exp (φ * I) * exp (-(φ * I)) = 1 := by
  rw [← exp_add]
  simp

theorem Coh.u1 {c : ℂ} {ρ : Mat2 ℂ} (h : Coh c ρ) (φ : ℝ) : Coh (exp (-(φ * I)) * c) (conjBy (mU1 φ) ρ) := by
  obtain ⟨h1, h2, h3⟩ := h
  refine ⟨?_, ?_, ?_⟩ <;> simp [conjBy, mU1, h2, h3]
  · rw [conj_phase]
    linear_combination h1 + ρ true true * phase_conj φ
  · rw [conj_phase]
    ring
  · left
    rw [← conj_phase, starRingEnd_self_apply]

theorem rt_conj : rt * starRingEnd ℂ rt = 1 / 2 := by
  rw [mul_conj, normSq_rt]
  norm_num

theorem coh_h : Coh (1 / 2) (conjBy mH rho0) := by
  refine ⟨?_, ?_, ?_⟩ <;> simp [conjBy, mH, rho0]
  · linear_combination 2 * rt_conj
  · linear_combination rt_conj
  · rw [show (starRingEnd ℂ) 2 = 2 from map_ofNat _ 2]
    linear_combination rt_conj

theorem coh_u2 : Coh (1 / 2) (conjBy (mU2 0 0) rho0) := by
  refine ⟨?_, ?_, ?_⟩ <;> simp [conjBy, mU2, rho0]
  · linear_combination 2 * rt_conj
  · linear_combination rt_conj
  · rw [show (starRingEnd ℂ) 2 = 2 from map_ofNat _ 2]
    linear_combination rt_conj

theorem Coh.final_h {c : ℂ} {ρ : Mat2 ℂ} (h : Coh c ρ) :
    conjBy mH ρ true true = (1 / 2 - c.re : ℝ) ∧ conjBy mH ρ false false = (1 / 2 + c.re : ℝ) := by
  obtain ⟨h1, h2, h3⟩ := h
  have hc := add_conj c
  push_cast at hc
  refine ⟨?_, ?_⟩ <;> simp [conjBy, mH, h2, h3]
  · linear_combination (ρ true true + ρ false false - c - starRingEnd ℂ c) * rt_conj + (1 / 2) * h1 - (1 / 2) * hc
  · linear_combination (ρ true true + ρ false false + c + starRingEnd ℂ c) * rt_conj + (1 / 2) * h1 + (1 / 2) * hc

theorem Coh.final_u2 {c : ℂ} {ρ : Mat2 ℂ} (h : Coh c ρ) :
    conjBy (mU2 0 0) ρ true true = (1 / 2 + c.re : ℝ) ∧ conjBy (mU2 0 0) ρ false false = (1 / 2 - c.re : ℝ) := by
  obtain ⟨h1, h2, h3⟩ := h
  have hc := add_conj c
  push_cast at hc
  refine ⟨?_, ?_⟩ <;> simp [conjBy, mU2, h2, h3]
  · linear_combination (ρ true true + ρ false false + c + starRingEnd ℂ c) * rt_conj + (1 / 2) * h1 + (1 / 2) * hc
  · linear_combination (ρ true true + ρ false false - c - starRingEnd ℂ c) * rt_conj + (1 / 2) * h1 - (1 / 2) * hc

/-! ### T1 -/

theorem decay_pad (R : Relax) (q len : ℕ) (ρ : Mat2 ℂ) (h : ρ false false + ρ true true = 1) :
    relaxBlock R q (padId q len) ρ true true = (Real.exp (-(len * R.gateTime) / R.t1 q) : ℂ) * ρ true true ∧
    relaxBlock R q (padId q len) ρ false false = 1 - (Real.exp (-(len * R.gateTime) / R.t1 q) : ℂ) * ρ true true := by
  have key : ∀ n : ℕ, relaxBlock R q ((List.range n).flatMap fun _ => [Instr.barrier [q], Instr.id q]) ρ true true =
        (Real.exp (-(n * R.gateTime) / R.t1 q) : ℂ) * ρ true true ∧
      relaxBlock R q ((List.range n).flatMap fun _ => [Instr.barrier [q], Instr.id q]) ρ false false =
        1 - (Real.exp (-(n * R.gateTime) / R.t1 q) : ℂ) * ρ true true := by
    intro n
    induction n with
    | zero =>
      simp [relaxBlock]
      linear_combination h
    | succ n ih =>
      rw [List.range_succ, List.flatMap_append, relaxBlock_append]
      simp only [List.flatMap_cons, List.flatMap_nil, List.append_nil, relaxBlock_cons, relaxOp]
      have e1 : -(((n + 1 : ℕ) : ℝ) * R.gateTime) / R.t1 q = -R.gateTime / R.t1 q + -(n * R.gateTime) / R.t1 q := by push_cast; ring
      rw [e1, Real.exp_add]
      push_cast
      obtain ⟨i1, i2⟩ := ih
      push_cast at i1 i2
      constructor
      · simp only [relaxBlock, List.foldl_nil, id, Char.decay]
        simp only [relaxBlock] at i1
        rw [i1]
        push_cast
        ring
      · simp only [relaxBlock, List.foldl_nil, id, Char.decay]
        simp only [relaxBlock] at i1 i2
        rw [i1, i2]
        push_cast
        ring
  unfold padId
  rw [relaxBlock_append]
  exact key len

/-- **C106** (T1) On a device whose qubits relax with the times `R.t1` the probability of reading 1 in each `t1_circuits` circuit is exactly
`exp(-t/T1)` at the returned delay `t`: the curve `T1Fitter` fits, with `A = 1` and `B = 0`. -/
theorem C106_t1 (R : Relax) (num : List ℕ) (qubits : List ℕ) (hne : qubits ≠ []) (hnd : qubits.Nodup) :
    ∃ circs xdata, t1Circuits num R.gateTime qubits = some (circs, xdata) ∧
      List.Forall₂ (fun C t => RelaxReads R C qubits fun q => expFit t 1 (R.t1 q) 0) circs xdata := by
  refine ⟨_, _, by unfold t1Circuits; rw [regSize_some hne]; rfl, ?_⟩
  refine forall₂_of_zipIdx num _ _ _ ?_
  intro len _ i
  have hlt := regSize_lt (regSize_some hne)
  refine relax_reads R _ qubits hnd (fun q => t1Block q len) _ rfl rfl hlt ?_ _ ?_
  · intro q _ g hg
    unfold t1Block at hg
    rcases List.mem_cons.1 hg with rfl | hg
    · rfl
    · exact onQ_padId [] q len g hg
  · intro q hq
    have h0 : conjBy mX rho0 false false + conjBy mX rho0 true true = 1 := by simp [conjBy, mX, rho0]
    have h1 : conjBy mX rho0 true true = 1 := by simp [conjBy, mX, rho0]
    obtain ⟨k1, k2⟩ := decay_pad R q len _ h0
    rw [t1Block, relaxBlock_cons]
    simp only [relaxOp]
    rw [k1, k2, h1]
    unfold expFit
    rw [show -(R.gateTime * (len : ℝ)) / R.t1 q = -(len * R.gateTime) / R.t1 q by ring]
    constructor
    · push_cast; ring
    · push_cast; ring

/-! ### T2* -/

/-- **C106** (T2*) On a device whose qubits dephase with the times `R.t2` and are detuned by `R.phase / (2π gate_time)` the probability of
reading 0 in each `t2star_circuits` circuit is exactly the decaying fringe `T2StarFitter` fits, at the returned delay, with frequency equal
to the returned frequency plus the detuning. -/
theorem C106_t2star (R : Relax) (hg : R.gateTime ≠ 0) (num : List ℕ) (qubits : List ℕ) (hne : qubits ≠ []) (hnd : qubits.Nodup)
    (nosc : ℕ) (last : ℕ) (hlast : num.getLast? = some last) (h0 : last ≠ 0) :
    ∃ circs xdata f, t2starCircuits Real.pi num R.gateTime qubits nosc = some (circs, xdata, f) ∧
      f = nosc / (R.gateTime * last) ∧
      List.Forall₂ (fun C t => RelaxReads R C qubits fun q =>
        1 - oscFit t (1 / 2) (R.t2 q) (f + R.phase q / (2 * Real.pi * R.gateTime)) 0 (1 / 2)) circs xdata := by
  have hl : (num.map fun (n : ℕ) => R.gateTime * (n : ℝ)).getLast? = some (R.gateTime * last) := by
    rw [List.getLast?_map, hlast]; rfl
  have hz : R.gateTime * (last : ℝ) ≠ 0 := mul_ne_zero hg (by exact_mod_cast h0)
  refine ⟨_, _, _, by
    unfold t2starCircuits
    simp only [regSize_some hne, hl, Option.bind_eq_bind, Option.bind_some, if_neg hz]
    rfl, rfl, ?_⟩
  rw [zip_map_self, zipIdx_map_fst, List.map_map]
  refine forall₂_of_zipIdx num _ _ _ ?_
  intro len _ i
  have hlt := regSize_lt (regSize_some hne)
  refine relax_reads R _ qubits hnd (fun q => ramseyBlock q len (2 * Real.pi * (nosc / (R.gateTime * last)) * (R.gateTime * len))) _ rfl rfl hlt
    (fun q _ => onQ_ramsey q len _) _ ?_
  intro q hq
  set φ := 2 * Real.pi * (nosc / (R.gateTime * last)) * (R.gateTime * len) with hφ
  obtain ⟨k1, k2⟩ := ((coh_h.pad R q len).u1 φ).final_h
  have hre : (exp (-(φ * I)) * ((Real.exp (-(len * R.gateTime) / R.t2 q) : ℂ) * exp (-((len * R.phase q : ℝ) * I)) * (1 / 2))).re =
      1 / 2 * Real.exp (-(R.gateTime * len) / R.t2 q) *
        Real.cos (2 * Real.pi * (nosc / (R.gateTime * last) + R.phase q / (2 * Real.pi * R.gateTime)) * (R.gateTime * len) + 0) := by
    have hα : 2 * Real.pi * (nosc / (R.gateTime * last) + R.phase q / (2 * Real.pi * R.gateTime)) * (R.gateTime * len) + 0
        = len * R.phase q + φ := by
      have := Real.pi_ne_zero
      rw [hφ]
      field_simp
      ring
    rw [hα]
    have : exp (-(φ * I)) * ((Real.exp (-(len * R.gateTime) / R.t2 q) : ℂ) * exp (-((len * R.phase q : ℝ) * I)) * (1 / 2)) =
        ((1 / 2 * Real.exp (-(R.gateTime * len) / R.t2 q) : ℝ) : ℂ) * exp ((-(len * R.phase q + φ) : ℝ) * I) := by
      rw [show ((-(len * R.phase q + φ) : ℝ) * I : ℂ) = -(φ * I) + -((len * R.phase q : ℝ) * I) by push_cast; ring, exp_add,
        show -((len : ℝ) * R.gateTime) / R.t2 q = -(R.gateTime * len) / R.t2 q by ring]
      push_cast
      ring
    rw [this, re_ofReal_mul, exp_ofReal_mul_I_re, Real.cos_neg]
  have hb : relaxBlock R q (ramseyBlock q len φ) rho0 = conjBy mH (conjBy (mU1 φ) (relaxBlock R q (padId q len) (conjBy mH rho0))) := by
    unfold ramseyBlock
    rw [List.cons_append, relaxBlock_cons, relaxBlock_append]
    rfl
  rw [hb, k1, k2, hre]
  unfold oscFit
  constructor <;> (congr 1; ring)

/-! ### T2 -/

/-- The echo sequence: half a delay before the end the coherence is `½ (-1)^numY` times the decay, up to the phase of the last half delay. -/
theorem echo_coh (R : Relax) (q len m : ℕ) (alt : Bool) :
    Coh (((-1) ^ numY alt (m + 1) * (1 / 2) * Real.exp (-((2 * m + 1) * len * R.gateTime) / R.t2 q) : ℝ) * exp ((len * R.phase q : ℝ) * I))
      (relaxBlock R q (Instr.u2 0 0 q :: padId q len ++ [Instr.y q] ++ echoes q len alt m) rho0) := by
  induction m with
  | zero =>
    simp only [echoes, List.range_zero, List.flatMap_nil, List.append_nil, List.cons_append, relaxBlock_cons, relaxBlock_append, relaxOp]
    have h := (coh_u2.pad R q len).y
    refine (?_ : ∀ {a b : ℂ} {ρ}, Coh b ρ → a = b → Coh a ρ) h ?_
    · rintro a b ρ h rfl
      exact h
    · rw [map_mul, map_mul, conj_ofReal, ← conj_phase, starRingEnd_self_apply]
      have : numY alt (0 + 1) = 1 := by cases alt <;> rfl
      rw [this]
      simp only [map_div₀, map_one, map_ofNat]
      push_cast
      rw [show -((2 * (0 : ℂ) + 1) * len * R.gateTime) / R.t2 q = -(len * R.gateTime) / R.t2 q by ring]
      ring
  | succ m ih =>
    have hsplit : Instr.u2 0 0 q :: padId q len ++ [Instr.y q] ++ echoes q len alt (m + 1) =
        (Instr.u2 0 0 q :: padId q len ++ [Instr.y q] ++ echoes q len alt m) ++
          (padId q (2 * len) ++ [if alt && (m % 2 == 0) then (Instr.x q : Instr ℝ) else Instr.y q]) := by
      unfold echoes
      rw [List.range_succ, List.flatMap_append]
      simp
    rw [hsplit, relaxBlock_append, relaxBlock_append]
    have h := ih.pad R q (2 * len)
    have hval : (Real.exp (-(((2 * len : ℕ) : ℝ) * R.gateTime) / R.t2 q) : ℂ) * exp (-(((((2 * len : ℕ) : ℝ) * R.phase q : ℝ)) * I)) *
        (((-1) ^ numY alt (m + 1) * (1 / 2) * Real.exp (-((2 * m + 1) * len * R.gateTime) / R.t2 q) : ℝ) * exp ((len * R.phase q : ℝ) * I)) =
        (((-1) ^ numY alt (m + 1) * (1 / 2) * Real.exp (-((2 * (m + 1 : ℕ) + 1) * len * R.gateTime) / R.t2 q) : ℝ) : ℂ) *
          exp (-((len * R.phase q : ℝ) * I)) := by
      rw [show -((2 * ((m + 1 : ℕ) : ℝ) + 1) * len * R.gateTime) / R.t2 q =
        -(((2 * len : ℕ) : ℝ) * R.gateTime) / R.t2 q + -((2 * m + 1) * len * R.gateTime) / R.t2 q by push_cast; ring, Real.exp_add,
        show -(((((2 * len : ℕ) : ℝ) * R.phase q : ℝ)) * I : ℂ) = -((len * R.phase q : ℝ) * I) + -((len * R.phase q : ℝ) * I) by push_cast; ring,
        exp_add]
      have := phase_conj (len * R.phase q)
      push_cast at this ⊢
      linear_combination (Complex.exp (-(2 * len * R.gateTime) / R.t2 q) * exp (-(len * R.phase q * I)) *
        ((-1) ^ numY alt (m + 1) * (1 / 2) * Complex.exp (-((2 * m + 1) * len * R.gateTime) / R.t2 q))) * this
    rw [hval] at h
    have hconj : starRingEnd ℂ ((((-1) ^ numY alt (m + 1) * (1 / 2) * Real.exp (-((2 * (m + 1 : ℕ) + 1) * len * R.gateTime) / R.t2 q) : ℝ) : ℂ) *
          exp (-((len * R.phase q : ℝ) * I))) = (((-1) ^ numY alt (m + 1) * (1 / 2) * Real.exp (-((2 * (m + 1 : ℕ) + 1) * len * R.gateTime) / R.t2 q) : ℝ) : ℂ) *
          exp ((len * R.phase q : ℝ) * I) := by
      rw [map_mul, conj_ofReal, ← conj_phase, starRingEnd_self_apply]
    by_cases hx : (alt && (m % 2 == 0)) = true
    · rw [if_pos hx]
      have h2 := h.x
      rw [hconj] at h2
      have hn : numY alt (m + 1 + 1) = numY alt (m + 1) := by
        simp only [Bool.and_eq_true, beq_iff_eq] at hx
        simp only [numY, hx.1, if_true]
        omega
      rw [hn]
      exact h2
    · rw [if_neg hx]
      have h2 := h.y
      rw [hconj] at h2
      have hn : numY alt (m + 1 + 1) = numY alt (m + 1) + 1 := by
        simp only [Bool.and_eq_true, beq_iff_eq, not_and] at hx
        cases alt with
        | false => simp [numY]
        | true =>
          have := hx rfl
          simp only [numY, if_true]
          omega
      rw [hn, pow_succ]
      refine (?_ : ∀ {a b : ℂ} {ρ}, Coh b ρ → a = b → Coh a ρ) h2 ?_
      · rintro a b ρ h rfl
        exact h
      · push_cast
        ring

/-- **C106** (T2) On a device whose qubits dephase with the times `R.t2`, whatever their detuning, the probability of reading 0 in each
`t2_circuits` circuit is exactly `B + A exp(-t/T2)` at the returned delay `t`: the curve `T2Fitter` fits, with `B = 1/2` and `A = 1/2` if the
number of Y pulses is odd, `A = -1/2` if it is even. -/
theorem C106_t2 (R : Relax) (num : List ℕ) (qubits : List ℕ) (hne : qubits ≠ []) (hnd : qubits.Nodup) (nEchos : ℕ)
    (hE : 1 ≤ nEchos) (alt : Bool) :
    ∃ circs xdata, t2Circuits num R.gateTime qubits nEchos alt = some (circs, xdata) ∧
      List.Forall₂ (fun C t => RelaxReads R C qubits fun q =>
        1 - expFit t (if Odd (numY alt nEchos) then 1 / 2 else -1 / 2) (R.t2 q) (1 / 2)) circs xdata := by
  refine ⟨_, _, by unfold t2Circuits; rw [if_neg (by omega), regSize_some hne]; rfl, ?_⟩
  refine forall₂_of_zipIdx num _ _ _ ?_
  intro len _ i
  have hlt := regSize_lt (regSize_some hne)
  refine relax_reads R _ qubits hnd (fun q => t2Block q len ((nEchos : ℤ).toNat) alt) _ rfl rfl hlt ?_ _ ?_
  · intro q _ g hg
    exact onQ_t2Block q len _ alt g hg
  · intro q hq
    obtain ⟨m, rfl⟩ : ∃ m, nEchos = m + 1 := ⟨nEchos - 1, by omega⟩
    have h := ((echo_coh R q len m alt).pad R q len).final_u2
    have hb : relaxBlock R q (t2Block q len ((((m + 1 : ℕ) : ℤ)).toNat) alt) rho0 =
        conjBy (mU2 0 0) (relaxBlock R q (padId q len) (relaxBlock R q (Instr.u2 0 0 q :: padId q len ++ [Instr.y q] ++ echoes q len alt m) rho0)) := by
      unfold t2Block
      rw [relaxBlock_append, relaxBlock_append]
      simp only [Int.toNat_natCast, Nat.add_sub_cancel]
      rfl
    have hval : (Real.exp (-(len * R.gateTime) / R.t2 q) : ℂ) * exp (-((len * R.phase q : ℝ) * I)) *
        (((-1) ^ numY alt (m + 1) * (1 / 2) * Real.exp (-((2 * m + 1) * len * R.gateTime) / R.t2 q) : ℝ) * exp ((len * R.phase q : ℝ) * I)) =
        (((-1) ^ numY alt (m + 1) * (1 / 2) * Real.exp (-(2 * R.gateTime * len * (m + 1)) / R.t2 q) : ℝ) : ℂ) := by
      rw [show -(2 * R.gateTime * len * ((m : ℝ) + 1)) / R.t2 q = -(len * R.gateTime) / R.t2 q + -((2 * m + 1) * len * R.gateTime) / R.t2 q by ring,
        Real.exp_add]
      have := phase_conj (len * R.phase q)
      push_cast at this ⊢
      linear_combination (Complex.exp (-(len * R.gateTime) / R.t2 q) *
        ((-1) ^ numY alt (m + 1) * (1 / 2) * Complex.exp (-((2 * m + 1) * len * R.gateTime) / R.t2 q))) * this
    rw [hval, ofReal_re] at h
    rw [hb, h.1, h.2]
    unfold expFit
    have hx : (2 * R.gateTime * (len : ℝ) * (((m + 1 : ℕ) : ℤ) : ℝ)) = 2 * R.gateTime * len * (m + 1) := by push_cast; ring
    rw [hx]
    by_cases ho : Odd (numY alt (m + 1))
    · rw [if_pos ho, ho.neg_one_pow]
      constructor <;> (congr 1; ring)
    · rw [if_neg ho, (Nat.not_odd_iff_even.1 ho).neg_one_pow]
      constructor <;> (congr 1; ring)

/-- Two qubits with different times and detunings: all hypotheses of C106 are met, and the probabilities are neither 0 nor 1. -/
noncomputable def exRelax : Relax := ⟨fun q => if q = 0 then 50 else 70, fun q => if q = 0 then 30 else 40, fun q => q / 10, 1 / 10⟩

example : ([2, 0] : List ℕ) ≠ [] ∧ ([2, 0] : List ℕ).Nodup ∧ ([10, 20, 30] : List ℕ).getLast? = some 30 ∧ exRelax.gateTime ≠ 0 := by
  refine ⟨by decide, by decide, by decide, ?_⟩
  norm_num [exRelax]

example : ∃ circs xdata, t2Circuits [10, 20, 30] exRelax.gateTime [2, 0] (3 : ℕ) true = some (circs, xdata) ∧
    List.Forall₂ (fun C t => RelaxReads exRelax C [2, 0] fun q => 1 - expFit t (-1 / 2) (exRelax.t2 q) (1 / 2)) circs xdata := by
  have h := C106_t2 exRelax [10, 20, 30] [2, 0] (by decide) (by decide) 3 (by decide) true
  rwa [if_neg (by decide)] at h

end Verif.Char
