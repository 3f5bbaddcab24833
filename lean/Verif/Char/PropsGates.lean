import Verif.Char.PropsDelay
set_option linter.unusedSimpArgs false
set_option linter.unusedVariables false
/-
C95, C96: the gate calibration circuits produce exactly the curves their fitters fit.
-/
namespace Verif.Char
open Verif Verif.Quantum Complex
open Verif.Ent (mU1 mU2 mv dlt)

/-! ### Devices -/

/-- The general one-qubit gate U3. -/
noncomputable def mU3 (θ p l : ℝ) : Mat2 ℂ := fun r c =>
  match r, c with
  | false, false => (Real.cos (θ / 2) : ℝ)
  | false, true => -(exp (l * I) * (Real.sin (θ / 2) : ℝ))
  | true, false => exp (p * I) * (Real.sin (θ / 2) : ℝ)
  | true, true => exp ((p + l) * I) * (Real.cos (θ / 2) : ℝ)

/-- A device whose U2 gates rotate by `π/2 + ε` instead of `π/2`. -/
noncomputable def ampDevice (ε : ℝ) : Device := ⟨fun _ _ => 0, fun p l => mU3 (Real.pi / 2 + ε) p l, mX⟩

/-- A device whose CX rotates the target by `π + η` instead of `π`. -/
noncomputable def ampCxDevice (η : ℝ) : Device :=
  ⟨fun _ _ => 0, mU2, fun r c => if r = c then -I * (Real.sin (η / 2) : ℝ) else (Real.cos (η / 2) : ℝ)⟩

open Classical in
/-- A device whose X pulse `U2(-π/2, π/2)` turns about an axis that is off by the angle `ζ`. -/
noncomputable def axisDevice (ζ : ℝ) : Device :=
  ⟨fun _ _ => 0, fun p l => if p = -Real.pi / 2 ∧ l = Real.pi / 2 then mU2 (p + ζ) (l - ζ) else mU2 p l, mX⟩

/-- A device whose CX turns the target about an axis that is off by the angle `ζ`. -/
noncomputable def axisCxDevice (ζ : ℝ) : Device :=
  ⟨fun _ _ => 0, mU2, fun r c => if r = c then 0 else if r then exp (ζ * I) else exp (-(ζ : ℂ) * I)⟩

/-- With zero error the devices are perfect. -/
theorem devices_ideal : ampCxDevice 0 = ideal ∧ axisCxDevice 0 = ideal ∧ axisDevice 0 = ideal ∧ ampDevice 0 = ideal := by
  refine ⟨?_, ?_, ?_, ?_⟩
  · unfold ampCxDevice ideal
    congr 1
    funext r c; simp [mX]
  · unfold axisCxDevice ideal
    congr 1
    funext r c; simp [mX]
  · unfold axisDevice ideal
    congr 1
    funext p l; simp
  · unfold ampDevice ideal
    congr 1
    funext p l r c
    have h1 : (Real.cos ((Real.pi / 2 + 0) / 2) : ℂ) = rt := by
      unfold rt
      rw [add_zero, div_div, show (2 : ℝ) * 2 = 4 by norm_num, Real.cos_pi_div_four, Real.sqrt_div_self']
    have h2 : (Real.sin ((Real.pi / 2 + 0) / 2) : ℂ) = rt := by
      unfold rt
      rw [add_zero, div_div, show (2 : ℝ) * 2 = 4 by norm_num, Real.sin_pi_div_four, Real.sqrt_div_self']
    cases r <;> cases c <;> simp only [mU3, mU2, h1, h2] <;> ring

/-! ### Amplitude, one qubit -/

/-- `cos β |0⟩ + sin β |1⟩`. -/
noncomputable def rot (β : ℝ) : Bool → ℂ := fun b => if b then (Real.sin β : ℝ) else (Real.cos β : ℝ)

theorem mv_u3_rot (θ β : ℝ) : mv (mU3 θ 0 0) (rot β) = rot (β + θ / 2) := by
  funext b
  cases b
  · simp only [mv, mU3, rot, Bool.false_eq_true, if_false, if_true, Real.cos_add, ofReal_zero, zero_mul, exp_zero]
    push_cast; ring
  · simp only [mv, mU3, rot, Bool.false_eq_true, if_false, if_true, Real.sin_add, ofReal_zero, zero_mul, exp_zero, add_zero]
    push_cast; ring

theorem dlt_rot : dlt false = rot 0 := by
  funext b; cases b <;> simp [dlt, rot]

theorem reads_blocks (D : Device) (nm : Str) (qubits : List ℕ) (hne : qubits ≠ []) (hnd : qubits.Nodup) (blk : ℕ → List (Instr ℝ))
    (hD : ∀ q x, D.phase q x = 0) (hl : ∀ q ∈ qubits, ∀ g ∈ blk q, OnQ [] q g) (p : ℝ)
    (hp : ∀ q ∈ qubits, normSq (blockVec D 0 (blk q) (dlt false) true) = p ∧ normSq (blockVec D 0 (blk q) (dlt false) false) = 1 - p) :
    Reads D ⟨nm, qubits.foldl max 0 + 1, qubits.length, qubits.flatMap blk ++ measureAll qubits⟩ qubits fun _ => p := by
  have hlt := regSize_lt (regSize_some hne)
  refine reads_of_run D _ qubits (qubits.flatMap blk) [] (by simp) (by simp) rfl hlt ?_ ?_ _ ?_ ?_
  · exact fun q => if q ∈ qubits then blockVec D 0 (blk q) (dlt false) else dlt false
  · rw [ket0_tens]
    exact run_blocks D [] (fun _ => 0) qubits hnd hlt (by simp) (by simp) _ hl _ (fun q _ x _ => hD q _)
  · intro q hq
    simp only [if_pos hq]
    exact hp q hq
  · intro q _ hq
    simp only [if_neg hq]
    exact dlt_norm false

/-- **C95** On a device whose U2 gates over-rotate by `ε`, the probability of reading 1 in every `ampcal_1Q_circuits` circuit is
exactly the curve `AmpCalFitter` fits, with parameters `thetaerr = ε` and `c = 1/2`; `angle_err` then is `ε/2`. -/
theorem C95_amp (maxReps : ℕ) (qubits : List ℕ) (hne : qubits ≠ []) (hnd : qubits.Nodup) (ε : ℝ) :
    ∃ circs xdata, ampcal1Q maxReps qubits = some (circs, xdata) ∧ xdata = (List.range maxReps).map (2 * ·) ∧
      List.Forall₂ (fun C (x : ℕ) => Reads (ampDevice ε) C qubits fun _ => ampCalFit x ε (1 / 2)) circs xdata := by
  refine ⟨_, _, by unfold ampcal1Q; rw [regSize_some hne]; rfl, List.map_congr_left fun a _ => mul_comm _ _, ?_⟩
  have key := forall₂_of_zipIdx ((List.range maxReps).map (· * 2)) (fun p : ℕ × ℕ =>
    (⟨circName "ampcal1Qcircuit_" p.2 "0", qubits.foldl max 0 + 1, qubits.length,
      qubits.flatMap (fun q => ampBlock q p.1) ++ measureAll qubits⟩ : Circ ℝ)) id
    (fun C (x : ℕ) => Reads (ampDevice ε) C qubits fun _ => ampCalFit x ε (1 / 2)) ?_
  · rw [List.map_id] at key
    exact key
  · intro x _ i
    refine reads_blocks (ampDevice ε) _ qubits hne hnd (fun q => ampBlock q x) (fun _ _ => rfl) ?_ _ ?_
    · intro q _ g hg
      simp only [ampBlock, List.mem_cons, List.mem_flatMap, List.not_mem_nil, or_false] at hg
      rcases hg with rfl | ⟨a, -, rfl | rfl⟩ <;> simp [OnQ]
    · intro q _
      have hb : blockVec (ampDevice ε) 0 (ampBlock q x) (dlt false) = rot ((x + 1) * ((Real.pi / 2 + ε) / 2)) := by
        unfold ampBlock
        rw [blockVec_cons, blockVec_repeat]
        have h1 : ∀ β, blockVec (ampDevice ε) 0 [Instr.barrier [q], Instr.u2 0 0 q] (rot β) = rot (β + (Real.pi / 2 + ε) / 2) := by
          intro β
          simp only [blockVec_cons, blockVec_nil, matOf, mv_mI]
          exact mv_u3_rot _ _
        have h2 : ∀ k β, (blockVec (ampDevice ε) 0 [Instr.barrier [q], Instr.u2 0 0 q])^[k] (rot β) = rot (β + k * ((Real.pi / 2 + ε) / 2)) := by
          intro k
          induction k with
          | zero => intro β; simp
          | succ k ih =>
            intro β
            rw [Function.iterate_succ_apply', ih, h1]
            congr 1
            push_cast; ring
        have h3 : mv (matOf (ampDevice ε) 0 (Instr.u2 0 0 q)) (dlt false) = rot ((Real.pi / 2 + ε) / 2) := by
          rw [dlt_rot]
          have := mv_u3_rot (Real.pi / 2 + ε) 0
          rw [zero_add] at this
          exact this
        rw [h3, h2]
        congr 1
        ring
      have hcos : ampCalFit x ε (1 / 2) = Real.sin ((x + 1) * ((Real.pi / 2 + ε) / 2)) ^ 2 := by
        rw [Real.sin_sq_eq_half_sub]
        unfold ampCalFit calFit
        rw [show 2 * ((x + 1) * ((Real.pi / 2 + ε) / 2)) = (Real.pi / 2 + ε) * x + Real.pi / 2 + ε by ring]
        ring
      rw [hb, id_eq, hcos]
      simp only [rot, if_true, Bool.false_eq_true, if_false, normSq_ofReal]
      refine ⟨by ring, ?_⟩
      have := Real.sin_sq_add_cos_sq ((x + 1) * ((Real.pi / 2 + ε) / 2))
      nlinarith

/-! ### X pulses about a tilted axis -/

theorem x90_entries (ζ : ℝ) (v : Bool → ℂ) :
    mv (mU2 (-Real.pi / 2 + ζ) (Real.pi / 2 - ζ)) v
      = fun b => if b then rt * (v true - I * exp (ζ * I) * v false) else rt * (v false - I * exp (-(ζ : ℂ) * I) * v true) := by
  have h1 : exp (((Real.pi / 2 - ζ : ℝ) : ℂ) * I) = I * exp (-(ζ : ℂ) * I) := by
    rw [show ((Real.pi / 2 - ζ : ℝ) : ℂ) * I = (Real.pi : ℂ) / 2 * I + -(ζ : ℂ) * I by push_cast; ring, exp_add, exp_pi_div_two_mul_I]
  have h2 : exp (((-Real.pi / 2 + ζ : ℝ) : ℂ) * I) = -I * exp ((ζ : ℂ) * I) := by
    rw [show ((-Real.pi / 2 + ζ : ℝ) : ℂ) * I = -(Real.pi : ℂ) / 2 * I + (ζ : ℂ) * I by push_cast; ring, exp_add, exp_neg_pi_div_two_mul_I]
  have h3 : exp ((((-Real.pi / 2 + ζ : ℝ) : ℂ) + ((Real.pi / 2 - ζ : ℝ) : ℂ)) * I) = 1 := by
    rw [show ((((-Real.pi / 2 + ζ : ℝ) : ℂ) + ((Real.pi / 2 - ζ : ℝ) : ℂ)) * I) = 0 by push_cast; ring, exp_zero]
  funext b
  cases b
  · simp only [mv, mU2, h1, Bool.false_eq_true, if_false]
    ring
  · simp only [mv, mU2, h2, h3, if_true]
    ring

theorem Eqv.x180 {α : ℝ} {v : Bool → ℂ} (h : Eqv α v) (ζ : ℝ) :
    Eqv (2 * ζ - α) (mv (mU2 (-Real.pi / 2 + ζ) (Real.pi / 2 - ζ)) (mv (mU2 (-Real.pi / 2 + ζ) (Real.pi / 2 - ζ)) v)) := by
  obtain ⟨c, hc, rfl⟩ := h
  refine ⟨-I * c * exp (α * I) * exp (-(ζ : ℂ) * I), ?_, ?_⟩
  · have : normSq (exp (-(ζ : ℂ) * I)) = 1 := by
      have := normSq_exp (-ζ)
      rwa [ofReal_neg] at this
    rw [normSq_mul, normSq_mul, normSq_mul, hc, normSq_exp, this]; simp
  · have hr := rt_sq
    have hz := exp_inv ζ
    have ha := exp_inv α
    have he : exp (((2 * ζ - α : ℝ) : ℂ) * I) = exp (ζ * I) * exp (ζ * I) * exp (-(α : ℂ) * I) := by
      rw [← exp_add, ← exp_add]
      congr 1
      push_cast; ring
    funext b
    simp only [x90_entries]
    cases b
    · simp only [Bool.false_eq_true, if_false, if_true]
      linear_combination (2 * (-I * exp (-(ζ : ℂ) * I) * c * rt * exp (α * I)) + c * rt * (1 + I ^ 2 * exp (ζ * I) * exp (-(ζ : ℂ) * I))) * hr
        + (1 / 2 * c * rt * (I ^ 2)) * hz + (1 / 2 * c * rt) * I_sq
    · simp only [Bool.false_eq_true, if_false, if_true, he]
      linear_combination (2 * (-I * exp (ζ * I) * c * rt) + c * rt * exp (α * I) * (1 + I ^ 2 * exp (ζ * I) * exp (-(ζ : ℂ) * I))) * hr
        + (1 / 2 * c * rt * (I ^ 2) * exp (α * I)) * hz + (1 / 2 * c * rt * exp (α * I)) * I_sq
        + (I * c * rt * exp (ζ * I) * (exp (α * I) * exp (-(α : ℂ) * I))) * hz + (I * c * rt * exp (ζ * I)) * ha

theorem Eqv.y180 {α : ℝ} {v : Bool → ℂ} (h : Eqv α v) : Eqv (Real.pi - α) (mv (mU2 0 0) (mv (mU2 0 0) v)) := by
  have hy : mv (mU2 0 0) (mv (mU2 0 0) v) = fun b => -I * mv mY v b := by
    have hr := rt_sq
    funext b
    cases b
    · simp [mv, mU2, mY]
      linear_combination (-2 * v true) * hr - (v true) * I_mul_I
    · simp [mv, mU2, mY]
      linear_combination (2 * v false) * hr + (v false) * I_mul_I
  obtain ⟨c, hc, hv⟩ := h.y
  rw [hy, hv]
  refine ⟨-I * c, by rw [normSq_mul, hc]; simp, ?_⟩
  funext b
  ring

theorem Eqv.final_x90 {α : ℝ} {v : Bool → ℂ} (h : Eqv α v) (ζ : ℝ) :
    normSq (mv (mU2 (-Real.pi / 2 + ζ) (Real.pi / 2 - ζ)) v true) = (1 - Real.sin (α - ζ)) / 2 ∧
    normSq (mv (mU2 (-Real.pi / 2 + ζ) (Real.pi / 2 - ζ)) v false) = (1 + Real.sin (α - ζ)) / 2 := by
  obtain ⟨c, hc, rfl⟩ := h
  have hz := exp_inv ζ
  have hs : Real.cos (α - ζ - Real.pi / 2) = Real.sin (α - ζ) := Real.cos_sub_pi_div_two _
  have he : exp (((α - ζ - Real.pi / 2 : ℝ) : ℂ) * I) = -I * (exp (α * I) * exp (-(ζ : ℂ) * I)) := by
    rw [show ((α - ζ - Real.pi / 2 : ℝ) : ℂ) * I = -(Real.pi : ℂ) / 2 * I + ((α : ℂ) * I + -(ζ : ℂ) * I) by push_cast; ring,
      exp_add, exp_neg_pi_div_two_mul_I, exp_add]
  have e1 : mv (mU2 (-Real.pi / 2 + ζ) (Real.pi / 2 - ζ)) (fun b => c * (rt * if b then exp (α * I) else 1)) true
      = -I * exp (ζ * I) * c * (rt * rt) * (1 - exp (((α - ζ - Real.pi / 2 : ℝ) : ℂ) * I)) := by
    rw [x90_entries, he]
    simp only [Bool.false_eq_true, if_false, if_true]
    linear_combination (c * rt * rt * exp (α * I)) * (I_sq * exp (ζ * I) * exp (-(ζ : ℂ) * I) - hz)
  have e2 : mv (mU2 (-Real.pi / 2 + ζ) (Real.pi / 2 - ζ)) (fun b => c * (rt * if b then exp (α * I) else 1)) false
      = c * (rt * rt) * (1 + exp (((α - ζ - Real.pi / 2 : ℝ) : ℂ) * I)) := by
    rw [x90_entries, he]
    simp only [Bool.false_eq_true, if_false, if_true]
    ring
  rw [e1, e2]
  simp only [normSq_mul, hc, normSq_rt, normSq_one_add, normSq_one_sub, hs, normSq_exp, normSq_neg, normSq_I]
  constructor <;> ring

theorem blockVec_errU1 (D : Device) (d err l : ℝ) (q : ℕ) (h : err = 0 → l = 0) (v : Bool → ℂ) :
    blockVec D d (errU1 err l q) v = mv (mU1 l) v := by
  unfold errU1
  by_cases he : err = 0
  · rw [if_neg (by simpa using he), h he, mv_u1_zero]; rfl
  · rw [if_pos he]; rfl

theorem Eqv.iterate {f : (Bool → ℂ) → Bool → ℂ} {s : ℝ} (hf : ∀ {α v}, Eqv α v → Eqv (α + s) (f v)) (k : ℕ) {α : ℝ} {v : Bool → ℂ}
    (h : Eqv α v) : Eqv (α + k * s) (f^[k] v) := by
  induction k with
  | zero => simpa using h
  | succ k ih =>
    rw [Function.iterate_succ_apply']
    have := hf ih
    rwa [show α + k * s + s = α + (k + 1 : ℕ) * s by push_cast; ring] at this

theorem axis_u2_x (ζ : ℝ) : (axisDevice ζ).u2 (-Real.pi / 2) (Real.pi / 2) = mU2 (-Real.pi / 2 + ζ) (Real.pi / 2 - ζ) := by
  simp [axisDevice]

theorem axis_u2_y (ζ : ℝ) : (axisDevice ζ).u2 0 0 = mU2 0 0 := by
  have : ¬ ((0 : ℝ) = -Real.pi / 2 ∧ (0 : ℝ) = Real.pi / 2) := by
    rintro ⟨-, h⟩
    have := Real.pi_pos
    linarith
  simp [axisDevice, this]

theorem sin_kpi_sub (k : ℕ) (y : ℝ) : Real.sin (k * Real.pi - y) = -((-1) ^ k * Real.sin y) := Real.sin_nat_mul_pi_sub y k

theorem sin_kpi_add (k : ℕ) (y : ℝ) : Real.sin (k * Real.pi + y) = (-1) ^ k * Real.sin y := by
  rw [add_comm]; exact Real.sin_add_nat_mul_pi y k

/-- The outcome of one `anglecal_1Q_circuits` block with artificial error `e` on a device with axis error `ζ`. -/
theorem angle_final (ζ e : ℝ) (q k : ℕ) :
    normSq (blockVec (axisDevice ζ) 0 (angleBlock Real.pi e q k) (dlt false) true) = (1 + (-1) ^ k * Real.sin ((2 * k + 1) * ζ + (4 * k + 1) * e)) / 2 ∧
    normSq (blockVec (axisDevice ζ) 0 (angleBlock Real.pi e q k) (dlt false) false) = 1 - (1 + (-1) ^ k * Real.sin ((2 * k + 1) * ζ + (4 * k + 1) * e)) / 2 := by
  have hrep : ∀ {α v}, Eqv α v → Eqv (α + (Real.pi - 2 * ζ - 4 * e)) (blockVec (axisDevice ζ) 0 (angleRep Real.pi e q) v) := by
    intro α v h
    unfold angleRep
    rw [blockVec_append, blockVec_append, blockVec_append, blockVec_errU1 _ _ _ _ _ (by intro h; rw [h]; ring),
      blockVec_errU1 _ _ _ _ _ (by intro h; rw [h]; ring)]
    simp only [blockVec_cons, blockVec_nil, matOf, mv_mI, axis_u2_x, axis_u2_y]
    have h4 := (((h.u1 (-2 * e)).x180 ζ).u1 (2 * e)).y180
    rwa [show Real.pi - (2 * ζ - (α + -2 * e) + 2 * e) = α + (Real.pi - 2 * ζ - 4 * e) by ring] at h4
  have hb : Eqv (k * (Real.pi - 2 * ζ - 4 * e) - e)
      (mv (mU1 (-e)) ((blockVec (axisDevice ζ) 0 (angleRep Real.pi e q))^[k] (mv (mU2 0 0) (dlt false)))) := by
    have h := ((Eqv.iterate hrep k eqv_y90).u1 (-e))
    rwa [show 0 + k * (Real.pi - 2 * ζ - 4 * e) + -e = k * (Real.pi - 2 * ζ - 4 * e) - e by ring] at h
  have hfin := hb.final_x90 ζ
  have e1 : blockVec (axisDevice ζ) 0 (angleBlock Real.pi e q k) (dlt false)
      = mv (mU2 (-Real.pi / 2 + ζ) (Real.pi / 2 - ζ)) (mv (mU1 (-e)) ((blockVec (axisDevice ζ) 0 (angleRep Real.pi e q))^[k] (mv (mU2 0 0) (dlt false)))) := by
    unfold angleBlock
    rw [List.cons_append, List.cons_append, blockVec_cons, blockVec_append, blockVec_append, blockVec_repeat,
      blockVec_errU1 _ _ _ _ _ (by intro h; rw [h]; ring)]
    simp only [blockVec_cons, blockVec_nil, matOf, axis_u2_x, axis_u2_y]
  rw [e1, hfin.1, hfin.2]
  rw [show k * (Real.pi - 2 * ζ - 4 * e) - e - ζ = k * Real.pi - ((2 * k + 1) * ζ + (4 * k + 1) * e) by ring, sin_kpi_sub]
  constructor <;> ring

theorem onQ_errU1 (C : List ℕ) (e l : ℝ) (q : ℕ) : ∀ g ∈ errU1 e l q, OnQ C q g := by
  intro g hg
  unfold errU1 at hg
  split at hg
  · simp only [List.mem_cons, List.not_mem_nil, or_false] at hg
    subst hg; rfl
  · simp at hg

theorem onQ_angleBlock (e : ℝ) (q k : ℕ) : ∀ g ∈ angleBlock Real.pi e q k, OnQ [] q g := by
  intro g hg
  simp only [angleBlock, angleRep, List.mem_append, List.mem_cons, List.mem_flatMap, List.not_mem_nil, or_false, List.cons_append] at hg
  rcases hg with rfl | (⟨a, -, ((hg | rfl | rfl | rfl | rfl) | hg) | rfl | rfl | rfl | rfl⟩ | hg) | rfl
  all_goals first | exact onQ_errU1 _ _ _ _ _ hg | simp [OnQ]

/-- The readings of `anglecal_1Q_circuits` with artificial error `e` on a device with axis error `ζ`. -/
theorem angle_reads (maxReps : ℕ) (qubits : List ℕ) (hne : qubits ≠ []) (hnd : qubits.Nodup) (ζ e : ℝ) :
    ∃ circs xdata, anglecal1Q Real.pi maxReps qubits e = some (circs, xdata) ∧ xdata = (List.range maxReps).map (2 * ·) ∧
      List.Forall₂ (fun C (k : ℕ) => Reads (axisDevice ζ) C qubits fun _ =>
        (1 + (-1) ^ k * Real.sin ((2 * k + 1) * ζ + (4 * k + 1) * e)) / 2) circs (List.range maxReps) := by
  refine ⟨_, _, by unfold anglecal1Q; rw [regSize_some hne]; rfl, List.map_congr_left fun a _ => mul_comm _ _, ?_⟩
  have key := forall₂_of_zipIdx (List.range maxReps) (fun p : ℕ × ℕ =>
    (⟨circName "anglecal1Qcircuit_" p.2 "0", qubits.foldl max 0 + 1, qubits.length,
      qubits.flatMap (fun q => angleBlock Real.pi e q p.1) ++ measureAll qubits⟩ : Circ ℝ)) id
    (fun C (k : ℕ) => Reads (axisDevice ζ) C qubits fun _ => (1 + (-1) ^ k * Real.sin ((2 * k + 1) * ζ + (4 * k + 1) * e)) / 2) ?_
  · rw [List.map_id] at key
    exact key
  · intro k _ i
    exact reads_blocks (axisDevice ζ) _ qubits hne hnd (fun q => angleBlock Real.pi e q k) (fun _ _ => rfl)
      (fun q _ => onQ_angleBlock e q k) _ (fun q _ => angle_final ζ e q k)

/-- **C96** On a device whose X pulse is tilted by `ζ` towards Y, the probability of reading 1 in every `anglecal_1Q_circuits`
circuit (no artificial error) is exactly the curve `AngleCalFitter` fits, with `thetaerr = ζ` and `c = 1/2`. -/
theorem C96_angle (maxReps : ℕ) (qubits : List ℕ) (hne : qubits ≠ []) (hnd : qubits.Nodup) (ζ : ℝ) :
    ∃ circs xdata, anglecal1Q Real.pi maxReps qubits 0 = some (circs, xdata) ∧ xdata = (List.range maxReps).map (2 * ·) ∧
      List.Forall₂ (fun C (x : ℕ) => Reads (axisDevice ζ) C qubits fun _ => angleCalFit x ζ (1 / 2)) circs xdata := by
  obtain ⟨circs, xdata, h1, h2, h3⟩ := angle_reads maxReps qubits hne hnd ζ 0
  refine ⟨circs, xdata, h1, h2, ?_⟩
  rw [h2, List.forall₂_map_right_iff]
  refine h3.imp ?_
  intro C k h
  convert h using 2
  unfold angleCalFit calFit
  rw [show (Real.pi / 2 + ζ) * ((2 * k : ℕ) : ℝ) + Real.pi / 2 + ζ = (k * Real.pi + ((2 * k + 1) * ζ)) + Real.pi / 2 by push_cast; ring,
    Real.cos_add_pi_div_two, sin_kpi_add]
  ring_nf

/-- **C96, violated by the code.** The artificial angle error is not put in the way a tilted X pulse would act: with
`angleerr = e` the first circuit reads 1 with probability `(1 + sin e)/2`, whereas the curve for the error it is meant to
simulate (`thetaerr = 2e`, reported as `angle_err = e`) has `(1 + sin 2e)/2`, for every `e` strictly between 0 and `π/3`. -/
theorem C96_finding_artificial (maxReps : ℕ) (qubits : List ℕ) (hne : qubits ≠ []) (hnd : qubits.Nodup) (e : ℝ) (h0 : 0 < e)
    (h1 : e < Real.pi / 3) :
    ∃ circs xdata, anglecal1Q Real.pi maxReps qubits e = some (circs, xdata) ∧
      List.Forall₂ (fun C (k : ℕ) => Reads ideal C qubits fun _ => (1 + (-1) ^ k * Real.sin ((4 * k + 1) * e)) / 2) circs (List.range maxReps) ∧
      (1 + (-1) ^ 0 * Real.sin ((4 * (0 : ℕ) + 1) * e)) / 2 ≠ angleCalFit 0 (2 * e) (1 / 2) ∧ angleErr (2 * e) = e := by
  obtain ⟨circs, xdata, h2, h3, h4⟩ := angle_reads maxReps qubits hne hnd 0 e
  refine ⟨circs, xdata, h2, ?_, ?_, by unfold angleErr; ring⟩
  · rw [devices_ideal.2.2.1] at h4
    simpa only [mul_zero, zero_add] using h4
  · unfold angleCalFit calFit
    intro hc
    have hs : Real.sin e = Real.sin (2 * e) := by
      have : Real.cos ((Real.pi / 2 + 2 * e) * 0 + Real.pi / 2 + 2 * e) = -Real.sin (2 * e) := by
        rw [show (Real.pi / 2 + 2 * e) * 0 + Real.pi / 2 + 2 * e = 2 * e + Real.pi / 2 by ring, Real.cos_add_pi_div_two]
      rw [this] at hc
      simp at hc
      linarith
    rw [Real.sin_two_mul] at hs
    have hpos : 0 < Real.sin e := Real.sin_pos_of_pos_of_lt_pi h0 (by have := Real.pi_pos; linarith)
    have hcos : Real.cos e = 1 / 2 := by
      have : Real.sin e * (2 * Real.cos e - 1) = 0 := by linarith
      rcases mul_eq_zero.1 this with h | h
      · exact absurd h hpos.ne'
      · linarith
    have hlt : Real.cos (Real.pi / 3) < Real.cos e :=
      Real.cos_lt_cos_of_nonneg_of_le_pi h0.le (by have := Real.pi_pos; linarith) h1
    rw [Real.cos_pi_div_three] at hlt
    linarith

/-! ### CX -/

theorem run_pairs (D : Device) {n : ℕ} (hD : ∀ q x, D.phase q x = 0) (pairs : List (ℕ × ℕ)) (hnd : (pairs.map (·.1) ++ pairs.map (·.2)).Nodup)
    (hn : ∀ p ∈ pairs, p.1 < n ∧ p.2 < n) (rest : ℕ → ℕ → List (Instr ℝ)) (hl : ∀ p ∈ pairs, ∀ g ∈ rest p.1 p.2, OnQ [p.2] p.1 g)
    (F : Bool → ℂ) (hF : ∀ p ∈ pairs, blockVec D 0 (rest p.1 p.2) (dlt false) = F) (w : ℕ → Bool → ℂ)
    (hw : ∀ p ∈ pairs, w p.1 = dlt false ∧ w p.2 = dlt false) :
    runGates D n (pairs.flatMap fun p => Instr.x p.2 :: rest p.1 p.2) (tens n w)
      = some (tens n fun q => if q ∈ pairs.map (·.1) then F else if q ∈ pairs.map (·.2) then dlt true else w q) := by
  induction pairs generalizing w with
  | nil => simp [runGates]
  | cons p l ih =>
    obtain ⟨q, c⟩ := p
    obtain ⟨hn1, hn2⟩ := hn (q, c) (by simp)
    obtain ⟨hw1, hw2⟩ := hw (q, c) (by simp)
    obtain ⟨hA, hB, hAB⟩ := List.nodup_append.1 hnd
    simp only [List.map_cons, List.nodup_cons] at hA hB
    have hqc : c ≠ q := fun h => hAB q (by simp) c (by simp) h.symm
    have hx : mv mX (dlt false) = dlt true := by funext b; cases b <;> simp [mv, mX, dlt]
    rw [List.flatMap_cons, runGates_append, runGates_cons]
    simp only [applyGate, on1, dif_pos hn2, app1_tens, Option.bind_some, hw2, hx]
    rw [run_block D [c] [] q hn1 (by simp) 0 (rest q c) (hl (q, c) (by simp)) (by simpa using ⟨hn2, hqc⟩) _ (by simp) (fun x _ => hD q _) (by simp),
      Option.bind_some, Function.update_of_ne (Ne.symm hqc), hw1, hF (q, c) (by simp)]
    have hne : ∀ p ∈ l, p.1 ≠ q ∧ p.1 ≠ c ∧ p.2 ≠ q ∧ p.2 ≠ c := by
      intro p hp
      have m1 : p.1 ∈ l.map (·.1) := List.mem_map_of_mem hp
      have m2 : p.2 ∈ l.map (·.2) := List.mem_map_of_mem hp
      refine ⟨fun h => hA.1 (h ▸ m1), fun h => hAB p.1 (List.mem_cons_of_mem _ m1) c (by simp) h,
        fun h => hAB q (by simp) p.2 (List.mem_cons_of_mem _ m2) h.symm, fun h => hB.1 (h ▸ m2)⟩
    rw [ih]
    · congr 2
      funext r
      simp only [List.map_cons, List.mem_cons]
      by_cases hrq : r = q
      · subst hrq
        rw [if_neg hA.1, if_neg (fun h => hAB r (by simp) r (List.mem_cons_of_mem _ h) rfl), Function.update_self, if_pos (Or.inl rfl)]
      · by_cases hrc : r = c
        · subst hrc
          have h1 : r ∉ l.map (·.1) := fun h => hAB r (List.mem_cons_of_mem _ h) r (by simp) rfl
          rw [if_neg h1, if_neg hB.1, Function.update_of_ne hrq, Function.update_self, if_neg (by simp [hrq]; simpa using h1), if_pos (Or.inl rfl)]
        · rw [Function.update_of_ne hrq, Function.update_of_ne hrc]
          simp only [hrq, hrc, false_or]
    · rw [List.nodup_append]
      exact ⟨hA.2, hB.2, fun a ha b hb => hAB a (List.mem_cons_of_mem _ ha) b (List.mem_cons_of_mem _ hb)⟩
    · exact fun p hp => hn p (by simp [hp])
    · exact fun p hp => hl p (by simp [hp])
    · exact fun p hp => hF p (by simp [hp])
    · intro p hp
      obtain ⟨h1, h2, h3, h4⟩ := hne p hp
      rw [Function.update_of_ne h1, Function.update_of_ne h2, Function.update_of_ne h3, Function.update_of_ne h4]
      exact hw p (by simp [hp])

theorem reads_pairs (D : Device) (hD : ∀ q x, D.phase q x = 0) (nm : Str) (qubits controls : List ℕ) (hne : qubits ≠ [])
    (hlen : controls.length = qubits.length) (hnd : (qubits ++ controls).Nodup) (rest : ℕ → ℕ → List (Instr ℝ))
    (hl : ∀ q c, ∀ g ∈ rest q c, OnQ [c] q g) (F : Bool → ℂ) (hF : ∀ q c, blockVec D 0 (rest q c) (dlt false) = F) (p : ℝ)
    (hp : normSq (F true) = p ∧ normSq (F false) = 1 - p) :
    Reads D ⟨nm, max (qubits.foldl max 0 + 1) (controls.foldl max 0 + 1), qubits.length,
      ((qubits.zip controls).flatMap fun qc => Instr.x qc.2 :: rest qc.1 qc.2) ++ measureAll qubits⟩ qubits fun _ => p := by
  have hcne : controls ≠ [] := by
    rw [← List.length_pos_iff] at hne ⊢
    omega
  have hltq := regSize_lt (regSize_some hne)
  have hltc := regSize_lt (regSize_some hcne)
  have m1 : (qubits.zip controls).map (·.1) = qubits := List.map_fst_zip (by omega)
  have m2 : (qubits.zip controls).map (·.2) = controls := List.map_snd_zip (by omega)
  refine reads_of_run D _ qubits _ [] (by simp; rfl) (by simp) rfl (fun q h => lt_of_lt_of_le (hltq q h) (le_max_left _ _)) ?_ ?_ _ ?_ ?_
  · exact fun q => if q ∈ qubits then F else if q ∈ controls then dlt true else dlt false
  · rw [ket0_tens]
    have := run_pairs D (n := max (qubits.foldl max 0 + 1) (controls.foldl max 0 + 1)) hD (qubits.zip controls) (by rw [m1, m2]; exact hnd) (by
        intro p hp
        obtain ⟨h1, h2⟩ := List.of_mem_zip hp
        exact ⟨lt_of_lt_of_le (hltq _ h1) (le_max_left _ _), lt_of_lt_of_le (hltc _ h2) (le_max_right _ _)⟩) rest
      (fun p _ => hl p.1 p.2) F (fun p _ => hF p.1 p.2) (fun _ => dlt false) (fun _ _ => ⟨rfl, rfl⟩)
    rw [m1, m2] at this
    exact this
  · intro q hq
    simp only [if_pos hq]
    exact hp
  · intro q _ hq
    simp only [if_neg hq]
    split <;> exact dlt_norm _

/-- `cos β |0⟩ - i sin β |1⟩`. -/
noncomputable def rotx (β : ℝ) : Bool → ℂ := fun b => if b then -I * (Real.sin β : ℝ) else (Real.cos β : ℝ)

/-- **C95** On a device whose CX over-rotates the target by `η`, the probability of reading 1 in every `ampcal_cx_circuits`
circuit is exactly the curve `AmpCalCXFitter` fits, with `thetaerr = η` and `c = 1/2`. -/
theorem C95_amp_cx (maxReps : ℕ) (qubits controls : List ℕ) (hne : qubits ≠ []) (hlen : controls.length = qubits.length)
    (hnd : (qubits ++ controls).Nodup) (η : ℝ) :
    ∃ circs xdata, ampcalCx Real.pi maxReps qubits controls = some (circs, xdata) ∧ xdata = List.range maxReps ∧
      List.Forall₂ (fun C (x : ℕ) => Reads (ampCxDevice η) C qubits fun _ => ampCalCxFit x η (1 / 2)) circs xdata := by
  have hcne : controls ≠ [] := by
    rw [← List.length_pos_iff] at hne ⊢
    omega
  refine ⟨_, _, by
    unfold ampcalCx
    simp only [regSize_some hne, regSize_some hcne, Option.bind_eq_bind, Option.bind_some]
    rw [if_neg (by omega)]
    rfl, rfl, ?_⟩
  have key := forall₂_of_zipIdx (List.range maxReps) (fun p : ℕ × ℕ =>
    (⟨circName "ampcalcxcircuit_" p.2 "0", max (qubits.foldl max 0 + 1) (controls.foldl max 0 + 1), qubits.length,
      (qubits.zip controls).flatMap (fun qc => ampCxBlock Real.pi qc.1 qc.2 p.1) ++ measureAll qubits⟩ : Circ ℝ)) id
    (fun C (x : ℕ) => Reads (ampCxDevice η) C qubits fun _ => ampCalCxFit x η (1 / 2)) ?_
  · rw [List.map_id] at key
    exact key
  · intro x _ i
    have hF : ∀ q c, ∃ z : ℂ, normSq z = 1 ∧ blockVec (ampCxDevice η) 0 (Instr.u2 (-Real.pi / 2) (Real.pi / 2) q ::
        (List.range x).flatMap fun _ => [Instr.barrier [c, q], Instr.cx c q]) (dlt false) = fun b => z * rotx (Real.pi / 4 + x * ((Real.pi + η) / 2)) b := by
      intro q c
      rw [blockVec_cons, blockVec_repeat]
      have h0 : mv (matOf (ampCxDevice η) 0 (Instr.u2 (-Real.pi / 2) (Real.pi / 2) q)) (dlt false) = rotx (Real.pi / 4) := by
        have := x90_entries 0 (dlt false)
        rw [add_zero, sub_zero] at this
        show mv (mU2 (-Real.pi / 2) (Real.pi / 2)) (dlt false) = _
        rw [this]
        have h1 : rt = ((Real.cos (Real.pi / 4) : ℝ) : ℂ) := by
          unfold rt; rw [Real.cos_pi_div_four, Real.sqrt_div_self']
        have h2 : rt = ((Real.sin (Real.pi / 4) : ℝ) : ℂ) := by
          unfold rt; rw [Real.sin_pi_div_four, Real.sqrt_div_self']
        funext b
        cases b
        · simp only [dlt, rotx, Bool.false_eq_true, if_false, if_true, ← h1]; simp
        · simp only [dlt, rotx, Bool.false_eq_true, if_false, if_true, ← h2]; simp
          ring
      rw [h0]
      have hs : ∀ β (z : ℂ), blockVec (ampCxDevice η) 0 [Instr.barrier [c, q], Instr.cx c q] (fun b => z * rotx β b)
          = fun b => (I * z) * rotx (β + (Real.pi + η) / 2) b := by
        intro β z
        simp only [blockVec_cons, blockVec_nil, matOf, mv_mI]
        have hc : Real.cos (β + (Real.pi + η) / 2) = -Real.sin (β + η / 2) := by
          rw [show β + (Real.pi + η) / 2 = (β + η / 2) + Real.pi / 2 by ring, Real.cos_add_pi_div_two]
        have hs : Real.sin (β + (Real.pi + η) / 2) = Real.cos (β + η / 2) := by
          rw [show β + (Real.pi + η) / 2 = (β + η / 2) + Real.pi / 2 by ring, Real.sin_add_pi_div_two]
        funext b
        cases b
        · simp only [mv, rotx, ampCxDevice, Bool.false_eq_true, if_false, if_true, hc, Real.sin_add]
          push_cast; ring
        · simp only [mv, rotx, ampCxDevice, Bool.false_eq_true, if_false, if_true, hs, Real.cos_add, Bool.true_eq_false]
          push_cast
          linear_combination (z * Complex.cos β * Complex.cos (η / 2)) * I_sq
      have hi : ∀ k β (z : ℂ), (blockVec (ampCxDevice η) 0 [Instr.barrier [c, q], Instr.cx c q])^[k] (fun b => z * rotx β b)
          = fun b => (I ^ k * z) * rotx (β + k * ((Real.pi + η) / 2)) b := by
        intro k
        induction k with
        | zero => intro β z; simp
        | succ k ih =>
          intro β z
          rw [Function.iterate_succ_apply', ih, hs]
          funext b
          rw [show β + k * ((Real.pi + η) / 2) + (Real.pi + η) / 2 = β + (k + 1 : ℕ) * ((Real.pi + η) / 2) by push_cast; ring]
          ring
      refine ⟨I ^ x, by rw [map_pow]; simp, ?_⟩
      have := hi x (Real.pi / 4) 1
      simpa using this
    have hsame : ∀ q c q' c', blockVec (ampCxDevice η) 0 (Instr.u2 (-Real.pi / 2) (Real.pi / 2) q ::
        (List.range x).flatMap fun _ => [Instr.barrier [c, q], Instr.cx c q]) (dlt false) = blockVec (ampCxDevice η) 0 (Instr.u2 (-Real.pi / 2) (Real.pi / 2) q' ::
        (List.range x).flatMap fun _ => [Instr.barrier [c', q'], Instr.cx c' q']) (dlt false) := by
      intro q c q' c'
      simp only [blockVec_cons, blockVec_repeat]
      rfl
    obtain ⟨z, hz, hv⟩ := hF 0 0
    refine reads_pairs (ampCxDevice η) (fun _ _ => rfl) _ qubits controls hne hlen hnd
      (fun q c => Instr.u2 (-Real.pi / 2) (Real.pi / 2) q :: (List.range x).flatMap fun _ => [Instr.barrier [c, q], Instr.cx c q]) ?_ _
      (fun q c => hsame q c 0 0) _ ?_
    · intro q c g hg
      simp only [List.mem_cons, List.mem_flatMap, List.not_mem_nil, or_false] at hg
      rcases hg with rfl | ⟨a, -, rfl | rfl⟩ <;> simp [OnQ]
    · rw [hv]
      have hcos : ampCalCxFit x η (1 / 2) = Real.sin (Real.pi / 4 + x * ((Real.pi + η) / 2)) ^ 2 := by
        rw [Real.sin_sq_eq_half_sub]
        unfold ampCalCxFit calFit
        rw [show 2 * (Real.pi / 4 + x * ((Real.pi + η) / 2)) = (Real.pi + η) * x + Real.pi / 2 + 0 by ring]
        ring
      rw [id_eq, hcos]
      simp only [rotx, if_true, Bool.false_eq_true, if_false, normSq_mul, hz, normSq_ofReal, normSq_neg, normSq_I, one_mul]
      refine ⟨by ring, ?_⟩
      have := Real.sin_sq_add_cos_sq (Real.pi / 4 + x * ((Real.pi + η) / 2))
      nlinarith

theorem Eqv.cxAxis {α : ℝ} {v : Bool → ℂ} (h : Eqv α v) (ζ : ℝ) : Eqv (2 * ζ - α) (mv (axisCxDevice ζ).cx v) := by
  obtain ⟨c, hc, rfl⟩ := h
  refine ⟨c * exp (α * I) * exp (-(ζ : ℂ) * I), ?_, ?_⟩
  · have : normSq (exp (-(ζ : ℂ) * I)) = 1 := by
      have := normSq_exp (-ζ)
      rwa [ofReal_neg] at this
    rw [normSq_mul, normSq_mul, hc, normSq_exp, this]; simp
  · have hz := exp_inv ζ
    have ha := exp_inv α
    have he : exp (((2 * ζ - α : ℝ) : ℂ) * I) = exp (ζ * I) * exp (ζ * I) * exp (-(α : ℂ) * I) := by
      rw [← exp_add, ← exp_add]
      congr 1
      push_cast; ring
    funext b
    cases b
    · simp [mv, axisCxDevice]; ring
    · simp only [mv, axisCxDevice, Bool.false_eq_true, Bool.true_eq_false, if_false, if_true, he]
      linear_combination (-(c * rt * exp (ζ * I) * (exp (α * I) * exp (-(α : ℂ) * I)))) * hz - (c * rt * exp (ζ * I)) * ha

/-- **C96** On a device whose CX turns the target about an axis tilted by `ζ`, and with artificial error `e`, the probability of
reading 1 in every `anglecal_cx_circuits` circuit is exactly the curve `AngleCalCXFitter` fits, with `thetaerr = 2 (ζ + e)` and
`c = 1/2`; the reported `angle_err` is then `ζ + e`. -/
theorem C96_angle_cx (maxReps : ℕ) (qubits controls : List ℕ) (hne : qubits ≠ []) (hlen : controls.length = qubits.length)
    (hnd : (qubits ++ controls).Nodup) (ζ e : ℝ) :
    ∃ circs xdata, anglecalCx Real.pi maxReps qubits controls e = some (circs, xdata) ∧ xdata = List.range maxReps ∧
      List.Forall₂ (fun C (x : ℕ) => Reads (axisCxDevice ζ) C qubits fun _ => angleCalCxFit x (2 * (ζ + e)) (1 / 2)) circs xdata ∧
      angleErr (2 * (ζ + e)) = ζ + e := by
  have hcne : controls ≠ [] := by
    rw [← List.length_pos_iff] at hne ⊢
    omega
  refine ⟨_, _, by
    unfold anglecalCx
    simp only [regSize_some hne, regSize_some hcne, Option.bind_eq_bind, Option.bind_some]
    rw [if_neg (by omega)]
    rfl, rfl, ?_, by unfold angleErr; ring⟩
  have key := forall₂_of_zipIdx (List.range maxReps) (fun p : ℕ × ℕ =>
    (⟨circName "anglecalcxcircuit_" p.2 "0", max (qubits.foldl max 0 + 1) (controls.foldl max 0 + 1), qubits.length,
      (qubits.zip controls).flatMap (fun qc => angleCxBlock Real.pi e qc.1 qc.2 p.1) ++ measureAll qubits⟩ : Circ ℝ)) id
    (fun C (x : ℕ) => Reads (axisCxDevice ζ) C qubits fun _ => angleCalCxFit x (2 * (ζ + e)) (1 / 2)) ?_
  · rw [List.map_id] at key
    exact key
  · intro x _ i
    let rest : ℕ → ℕ → List (Instr ℝ) := fun q c => Instr.u2 0 0 q ::
      ((List.range x).flatMap (fun _ => errU1 e (-e) q ++ [Instr.barrier [c, q], Instr.cx c q] ++ errU1 e e q ++ [Instr.y q])
        ++ [Instr.u2 (-Real.pi / 2) (Real.pi / 2) q])
    have hval : ∀ q c, blockVec (axisCxDevice ζ) 0 (rest q c) (dlt false)
        = mv (mU2 (-Real.pi / 2) (Real.pi / 2)) ((fun v => mv mY (mv (mU1 e) (mv (axisCxDevice ζ).cx (mv (mU1 (-e)) v))))^[x] (mv (mU2 0 0) (dlt false))) := by
      intro q c
      show blockVec _ 0 (_ :: (_ ++ _)) _ = _
      rw [blockVec_cons, blockVec_append, blockVec_repeat]
      have hr : blockVec (axisCxDevice ζ) 0 (errU1 e (-e) q ++ [Instr.barrier [c, q], Instr.cx c q] ++ errU1 e e q ++ [Instr.y q])
          = fun v => mv mY (mv (mU1 e) (mv (axisCxDevice ζ).cx (mv (mU1 (-e)) v))) := by
        funext v
        rw [blockVec_append, blockVec_append, blockVec_append, blockVec_errU1 _ _ _ _ _ (by intro h; simpa using h),
          blockVec_errU1 _ _ _ _ _ (by intro h; simpa using h)]
        simp only [blockVec_cons, blockVec_nil, matOf, mv_mI]
      rw [hr]
      rfl
    refine reads_pairs (axisCxDevice ζ) (fun _ _ => rfl) _ qubits controls hne hlen hnd rest ?_ _ hval _ ?_
    · intro q c g hg
      simp only [rest, List.mem_append, List.mem_cons, List.mem_flatMap, List.not_mem_nil, or_false] at hg
      rcases hg with rfl | ⟨a, -, ((hg | rfl | rfl) | hg) | rfl⟩ | rfl
      all_goals first | exact onQ_errU1 _ _ _ _ _ hg | simp [OnQ]
    · have hstep : ∀ {α v}, Eqv α v → Eqv (α + (Real.pi - 2 * (ζ + e))) (mv mY (mv (mU1 e) (mv (axisCxDevice ζ).cx (mv (mU1 (-e)) v)))) := by
        intro α v h
        have h4 := (((h.u1 (-e)).cxAxis ζ).u1 e).y
        rwa [show Real.pi - (2 * ζ - (α + -e) + e) = α + (Real.pi - 2 * (ζ + e)) by ring] at h4
      have hE := Eqv.iterate hstep x eqv_y90
      have hfin := hE.final_x90 0
      rw [add_zero, sub_zero] at hfin
      rw [hfin.1, hfin.2]
      rw [show 0 + x * (Real.pi - 2 * (ζ + e)) - 0 = x * Real.pi - x * (2 * (ζ + e)) by ring, sin_kpi_sub]
      have hfit : angleCalCxFit x (2 * (ζ + e)) (1 / 2) = (1 + (-1) ^ x * Real.sin (x * (2 * (ζ + e)))) / 2 := by
        unfold angleCalCxFit calFit
        rw [show (Real.pi + 2 * (ζ + e)) * x + Real.pi / 2 + 0 = (x * Real.pi + x * (2 * (ζ + e))) + Real.pi / 2 by ring,
          Real.cos_add_pi_div_two, sin_kpi_add]
        ring
      rw [id_eq, hfit]
      constructor <;> ring

example : (([0, 3] : List ℕ) ++ [1, 2]).Nodup ∧ ([1, 2] : List ℕ).length = ([0, 3] : List ℕ).length := by decide

end Verif.Char
