import Verif.Tomo.PropsGstCirc
import Mathlib.LinearAlgebra.Matrix.Notation
import Mathlib.Tactic.FinCases
/-
The default gate set: C55 and C87 apply to it; findings about the gauge start.
-/
namespace Verif.Tomo
open Verif Verif.Counts Matrix

theorem gate_id : defaultDevice.gate "Id".toList = 1 := by
  unfold defaultDevice; simp only; rw [if_neg (by decide), if_neg (by decide)]
theorem gate_x : defaultDevice.gate "X_Rot_90".toList = x90 := by
  unfold defaultDevice; simp only; rw [if_pos trivial]
theorem gate_y : defaultDevice.gate "Y_Rot_90".toList = y90 := by
  unfold defaultDevice; simp only; rw [if_neg (by decide), if_pos trivial]

theorem x90_sq : x90 * x90 = !![1, 0, 0, 0; 0, 1, 0, 0; 0, 0, -1, 0; 0, 0, 0, (-1:ℝ)] := by
  ext i j
  fin_cases i <;> fin_cases j <;> simp [x90, Matrix.mul_apply, Fin.sum_univ_four]

theorem seq0 : defaultDevice.seq (defaultSpec "F0".toList) = 1 := by
  rw [show defaultSpec "F0".toList = ["Id".toList] by decide, seq_single, gate_id]
theorem seq1 : defaultDevice.seq (defaultSpec "F1".toList) = x90 := by
  rw [show defaultSpec "F1".toList = ["X_Rot_90".toList] by decide, seq_single, gate_x]
theorem seq2 : defaultDevice.seq (defaultSpec "F2".toList) = y90 := by
  rw [show defaultSpec "F2".toList = ["Y_Rot_90".toList] by decide, seq_single, gate_y]
theorem seq3 : defaultDevice.seq (defaultSpec "F3".toList) = !![1, 0, 0, 0; 0, 1, 0, 0; 0, 0, -1, 0; 0, 0, 0, (-1:ℝ)] := by
  rw [show defaultSpec "F3".toList = ["X_Rot_90".toList] ++ ["X_Rot_90".toList] by decide, seq_append, seq_single, gate_x, x90_sq]

/-- The initial states of the default SPAM circuits. -/
noncomputable def cols4 : Matrix (Fin 4) (Fin 4) ℝ := √(1/2) • !![1, 1, 1, 1; 0, 0, 1, 0; 0, -1, 0, 0; (1:ℝ), 0, 0, -1]

/-- The effects of the default SPAM circuits. -/
noncomputable def rows4 : Matrix (Fin 4) (Fin 4) ℝ := √(1/2) • !![1, 0, 0, 1; 1, 0, 1, 0; 1, -1, 0, 0; (1:ℝ), 0, 0, -1]

theorem default_cols : prepCols defaultDevice defaultSpec defaultSpam = cols4 := by
  have h : ∀ j : Fin 4, (fun i => prepCols defaultDevice defaultSpec defaultSpam i j) = fun i => cols4 i j := by
    intro j
    have e0 : (fun i => prepCols defaultDevice defaultSpec defaultSpam i (0 : Fin 4)) =
      defaultDevice.seq (defaultSpec "F0".toList) *ᵥ ![√(1/2), 0, 0, √(1/2)] := rfl
    have e1 : (fun i => prepCols defaultDevice defaultSpec defaultSpam i (1 : Fin 4)) =
      defaultDevice.seq (defaultSpec "F1".toList) *ᵥ ![√(1/2), 0, 0, √(1/2)] := rfl
    have e2 : (fun i => prepCols defaultDevice defaultSpec defaultSpam i (2 : Fin 4)) =
      defaultDevice.seq (defaultSpec "F2".toList) *ᵥ ![√(1/2), 0, 0, √(1/2)] := rfl
    have e3 : (fun i => prepCols defaultDevice defaultSpec defaultSpam i (3 : Fin 4)) =
      defaultDevice.seq (defaultSpec "F3".toList) *ᵥ ![√(1/2), 0, 0, √(1/2)] := rfl
    fin_cases j
    · refine e0.trans ?_
      rw [seq0]; ext i; fin_cases i <;> simp [cols4]
    · refine e1.trans ?_
      rw [seq1]; ext i; fin_cases i <;> simp [cols4, x90]
    · refine e2.trans ?_
      rw [seq2]; ext i; fin_cases i <;> simp [cols4, y90]
    · refine e3.trans ?_
      rw [seq3]; ext i; fin_cases i <;> simp [cols4]
  ext i j
  exact congrFun (h j) i

theorem default_rows : measRows defaultDevice defaultSpec defaultSpam = rows4 := by
  have h : ∀ j : Fin 4, (measRows defaultDevice defaultSpec defaultSpam j) = rows4 j := by
    intro j
    have e0 : (measRows defaultDevice defaultSpec defaultSpam (0 : Fin 4)) =
      ![√(1/2), 0, 0, √(1/2)] ᵥ* defaultDevice.seq (defaultSpec "F0".toList) := rfl
    have e1 : (measRows defaultDevice defaultSpec defaultSpam (1 : Fin 4)) =
      ![√(1/2), 0, 0, √(1/2)] ᵥ* defaultDevice.seq (defaultSpec "F1".toList) := rfl
    have e2 : (measRows defaultDevice defaultSpec defaultSpam (2 : Fin 4)) =
      ![√(1/2), 0, 0, √(1/2)] ᵥ* defaultDevice.seq (defaultSpec "F2".toList) := rfl
    have e3 : (measRows defaultDevice defaultSpec defaultSpam (3 : Fin 4)) =
      ![√(1/2), 0, 0, √(1/2)] ᵥ* defaultDevice.seq (defaultSpec "F3".toList) := rfl
    fin_cases j
    · refine e0.trans ?_
      rw [seq0]; ext i; fin_cases i <;> simp [rows4]
    · refine e1.trans ?_
      rw [seq1]; ext i; fin_cases i <;> simp [rows4, x90, Matrix.vecMul, dotProduct, Fin.sum_univ_four]
    · refine e2.trans ?_
      rw [seq2]; ext i; fin_cases i <;> simp [rows4, y90, Matrix.vecMul, dotProduct, Fin.sum_univ_four]
    · refine e3.trans ?_
      rw [seq3]; ext i; fin_cases i <;> simp [rows4, Matrix.vecMul, dotProduct, Fin.sum_univ_four]
  ext i j
  exact congrFun (h i) j

theorem half_sq : √(1/2 : ℝ) * √(1/2) = 1/2 := Real.mul_self_sqrt (by norm_num)

/-- The default gate set is informationally complete. -/
theorem default_complete : InfoComplete defaultDevice defaultSpec defaultSpam := by
  unfold InfoComplete
  rw [gram_eq, default_cols, default_rows]
  have h : (rows4 * cols4).det ≠ 0 := by
   rw [Matrix.det_mul]
   refine mul_ne_zero ?_ ?_
   · rw [rows4, Matrix.det_smul]
     refine mul_ne_zero (pow_ne_zero _ (Real.sqrt_ne_zero'.2 (by norm_num))) ?_
     rw [Matrix.det_succ_row_zero]
     simp [Fin.sum_univ_four, Matrix.det_fin_three, Fin.succAbove, Matrix.submatrix]
     norm_num
   · rw [cols4, Matrix.det_smul]
     refine mul_ne_zero (pow_ne_zero _ (Real.sqrt_ne_zero'.2 (by norm_num))) ?_
     rw [Matrix.det_succ_row_zero]
     simp [Fin.sum_univ_four, Matrix.det_fin_three, Fin.succAbove, Matrix.submatrix]
     norm_num
  exact h

theorem default_names : "E".toList ∉ defaultGates ∧ "rho".toList ∉ defaultGates := by decide

/-- C55 applies to the default gate set: from its exact probabilities every gate sequence is predicted exactly. -/
example : ∃ res, linearInversion defaultSpam defaultGates (exactProbs defaultDevice defaultSpec defaultSpam defaultGates) = some res ∧
    (∃ D', Describes res defaultGates D') ∧
    ∀ D', Describes res defaultGates D' → ∀ w : List Str, (∀ g ∈ w, g ∈ defaultGates) → D'.run w = defaultDevice.run w :=
  C55_predicts defaultSpam defaultGates defaultDevice defaultSpec _ (exactProbs_exact _ _ _ _) default_complete default_names.1
    default_names.2

theorem cols_not_central : x90 * (cols4 * cols4) ≠ (cols4 * cols4) * x90 := by
  intro h
  have := congrFun (congrFun h 0) 3
  simp only [cols4, Matrix.smul_mul, Matrix.mul_smul, Matrix.smul_apply, smul_smul, half_sq] at this
  simp [x90, Matrix.mul_apply, Fin.sum_univ_four] at this

/-- Finding: on perfect data of the default gate set the start value of the gauge optimisation is not the gauge that gives back the ideal
gates (that is its inverse): `_x_to_gateset` applies the start value a second time instead of undoing it. -/
theorem C87_finding_start :
    ∃ initial res, linearInversion defaultSpam defaultGates (exactProbs defaultDevice defaultSpec defaultSpam defaultGates) = some initial ∧
      xToGateset defaultGates initial
        (gaugeStart (fun j : Fin defaultSpam.length => defaultDevice.seq (defaultSpec defaultSpam[j])) defaultDevice.rho) = some res ∧
      ¬ Describes res defaultGates defaultDevice := by
  obtain ⟨initial, res, h1, h2, h3⟩ := start_central defaultSpam defaultGates defaultDevice defaultSpec _ (exactProbs_exact _ _ _ _)
    default_complete default_names.1 default_names.2
  refine ⟨initial, res, h1, h2, fun hres => cols_not_central ?_⟩
  have := h3 hres "X_Rot_90".toList (by decide)
  rw [gate_x] at this
  have key : ∀ P : Matrix (Fin 4) (Fin 4) ℝ, P = cols4 → x90 * (P * P) = (P * P) * x90 → x90 * (cols4 * cols4) = (cols4 * cols4) * x90 := by
    rintro _ rfl h; exact h
  exact key _ default_cols this

/-- Finding: for gates that do not commute `spam_matrix` multiplies in the wrong order. -/
theorem C87_finding_spam_order :
    ∃ F, spamMatrix [("X_Rot_90".toList, x90), ("Y_Rot_90".toList, y90)] ["X_Rot_90".toList, "Y_Rot_90".toList] = some F ∧
      F ≠ defaultDevice.seq ["X_Rot_90".toList, "Y_Rot_90".toList] := by
  refine ⟨x90 * y90, rfl, ?_⟩
  rw [show ["X_Rot_90".toList, "Y_Rot_90".toList] = ["X_Rot_90".toList] ++ ["Y_Rot_90".toList] from rfl, seq_append, seq_single,
    seq_single, gate_x, gate_y]
  intro h
  have := congrFun (congrFun h 1) 3
  simp [x90, y90, Matrix.mul_apply, Fin.sum_univ_four] at this

/-! The end-to-end theorem applies to the default gate set. -/

/-- gatesetbasis.py:249-265, `default_gateset_basis`, with the two rotations as instructions 1 and 2. -/
def defaultGateSet : GateSet ℕ where
  gateLabels := defaultGates
  gates := [("Id".toList, fun _ => []), ("X_Rot_90".toList, fun _ => [.user 1]), ("Y_Rot_90".toList, fun _ => [.user 2])]
  spam := [("F0".toList, ["Id".toList]), ("F1".toList, ["X_Rot_90".toList]), ("F2".toList, ["Y_Rot_90".toList]),
    ("F3".toList, ["X_Rot_90".toList, "X_Rot_90".toList])]

theorem default_good : GoodGateSet defaultGateSet where
  spamNodup := by decide
  gatesNodup := by decide
  spamQuote := by unfold NoQuote; decide
  gateQuote := by unfold NoQuote; decide
  known := by decide
  spamKnown := by
    intro f gs h g hg
    have h1 := Dict.get?_mem _ _ _ h
    simp only [defaultGateSet, List.mem_cons, Prod.mk.injEq, List.not_mem_nil, or_false] at h1
    rcases h1 with ⟨_, rfl⟩ | ⟨_, rfl⟩ | ⟨_, rfl⟩ | ⟨_, rfl⟩ <;>
      (simp only [List.mem_cons, List.not_mem_nil, or_false, or_self] at hg; subst hg; decide)

/-- The ideal default device acting on instructions. -/
noncomputable def defaultOps : OpDevice ℕ 4 where
  E := ![√(1/2), 0, 0, √(1/2)]
  rho := ![√(1/2), 0, 0, √(1/2)]
  act := fun
    | .user 1 => x90
    | .user 2 => y90
    | _ => 1
  barrier := rfl
  measure := fun _ _ => rfl

/-- The same with integers. -/
def actZ : Op ℕ → Matrix (Fin 4) (Fin 4) ℤ
  | .user 1 => !![1, 0, 0, 0; 0, 1, 0, 0; 0, 0, 0, -1; 0, 0, 1, 0]
  | .user 2 => !![1, 0, 0, 0; 0, 0, 0, 1; 0, 0, 1, 0; 0, -1, 0, 0]
  | _ => 1

/-- Twice the probability of outcome 0. -/
def twiceProb (ops : List (Op ℕ)) : ℤ := ![1, 0, 0, 1] ⬝ᵥ ops.foldl (fun v o => actZ o *ᵥ v) ![1, 0, 0, 1]

theorem act_cast (o : Op ℕ) : defaultOps.act o = (actZ o).map (Int.cast : ℤ → ℝ) := by
  unfold defaultOps actZ
  split
  · ext i j; fin_cases i <;> fin_cases j <;> simp [x90]
  · ext i j; fin_cases i <;> fin_cases j <;> simp [y90]
  · simp

theorem prob_twice (ops : List (Op ℕ)) : defaultOps.prob ops = (twiceProb ops : ℝ) / 2 := by
  have gen : ∀ (ops : List (Op ℕ)) (v : Fin 4 → ℤ), ops.foldl (fun v o => defaultOps.act o *ᵥ v) (√(1/2) • fun i => (v i : ℝ)) =
      √(1/2) • fun i => ((ops.foldl (fun v o => actZ o *ᵥ v) v i : ℤ) : ℝ) := by
    intro ops
    induction ops with
    | nil => intro v; rfl
    | cons o ops ih =>
      intro v
      rw [List.foldl_cons, List.foldl_cons, Matrix.mulVec_smul]
      have : (defaultOps.act o *ᵥ fun i => (v i : ℝ)) = fun i => (((actZ o *ᵥ v) i : ℤ) : ℝ) := by
        rw [act_cast]
        ext i
        simp [Matrix.mulVec, dotProduct]
      rw [this]
      exact ih _
  have h0 : defaultOps.rho = √(1/2) • fun i => ((![1, 0, 0, 1] : Fin 4 → ℤ) i : ℝ) := by
    ext i
    fin_cases i <;> simp [defaultOps]
  unfold OpDevice.prob twiceProb
  rw [h0, gen]
  generalize ops.foldl (fun v o => actZ o *ᵥ v) ![1, 0, 0, 1] = v
  have hE : defaultOps.E = ![√(1/2), 0, 0, √(1/2)] := rfl
  rw [hE]
  simp only [dotProduct, Fin.sum_univ_four, Pi.smul_apply, smul_eq_mul]
  simp
  have := half_sq
  rw [Real.sqrt_div (by norm_num), Real.sqrt_one, one_div] at this
  linear_combination ((v 0 : ℝ) + v 3) * this

/-- Two shots of each circuit, as expected. -/
def defaultData : Dict Key Counts :=
  (gstKeys defaultGateSet).map fun k => (.state k,
    [("0".toList, twiceProb (gstOps defaultGateSet 0 k)), ("1".toList, 2 - twiceProb (gstOps defaultGateSet 0 k))])

theorem default_run (w : List Str) (hw : ∀ g ∈ w, g ∈ defaultGates) : (defaultOps.named defaultGateSet 0).run w = defaultDevice.run w := by
  refine run_congr _ _ _ rfl rfl ?_
  intro g hg
  have := hw g hg
  simp only [defaultGates, List.mem_cons, List.not_mem_nil, or_false] at this
  rcases this with rfl | rfl | rfl
  · rw [gate_id]; rfl
  · rw [gate_x]; exact Matrix.mul_one x90
  · rw [gate_y]; exact Matrix.mul_one y90

theorem default_spamLabels : defaultGateSet.spamLabels = defaultSpam := by decide +kernel

theorem default_spec (f : Str) (hf : f ∈ defaultSpam) : specOf defaultGateSet f = defaultSpec f ∧ ∀ g ∈ defaultSpec f, g ∈ defaultGates := by
  simp only [defaultSpam, List.mem_cons, List.not_mem_nil, or_false] at hf
  rcases hf with rfl | rfl | rfl | rfl <;> decide

theorem default_complete' : InfoComplete (defaultOps.named defaultGateSet 0) (specOf defaultGateSet) defaultGateSet.spamLabels := by
  rw [default_spamLabels]
  have := default_complete
  unfold InfoComplete at this ⊢
  refine fun h => this (Eq.trans (congrArg Matrix.det ?_) h)
  ext i j
  obtain ⟨a1, a2⟩ := default_spec defaultSpam[j] (List.getElem_mem _)
  obtain ⟨b1, b2⟩ := default_spec defaultSpam[i] (List.getElem_mem _)
  rw [Matrix.of_apply, Matrix.of_apply, a1, b1, default_run]
  intro g hg
  rcases List.mem_append.1 hg with hg | hg
  · exact a2 g hg
  · exact b2 g hg

/-- C55 from circuits to predictions applies to two shots of each circuit of the default gate set. -/
example : ∃ cs, gatesetTomographyCircuits defaultGateSet 0 = some cs ∧ ∃ probs res, gstProbs defaultData = some probs ∧
    linearInversion defaultGateSet.spamLabels defaultGateSet.gateLabels probs = some res ∧
      (∃ D', Describes res defaultGateSet.gateLabels D') ∧
      ∀ D', Describes res defaultGateSet.gateLabels D' → ∀ w, (∀ g ∈ w, g ∈ defaultGateSet.gateLabels) →
        D'.run w = defaultOps.prob (seqOps defaultGateSet 0 w) := by
  refine ⟨_, gst_eq defaultGateSet default_good 0, ?_⟩
  refine C55_circuits defaultGateSet default_good 0 defaultOps (by decide) (by decide) _ (gst_eq defaultGateSet default_good 0)
    defaultData ?_ ?_ default_complete'
  · intro kv hkv
    obtain ⟨k, _, rfl⟩ := List.mem_map.1 hkv
    simp [Dict.values]
  · intro c hc
    obtain ⟨k, hk, rfl⟩ := List.mem_map.1 hc
    obtain ⟨a1, a2⟩ := gstKey_noQuote defaultGateSet default_good k ((mem_gstKeys defaultGateSet k).1 hk)
    refine ⟨_, _, literalEval_reprLabel k a1 a2, Dict.get?_of_mem _ ?_ _
      [("0".toList, twiceProb (gstOps defaultGateSet 0 k)), ("1".toList, 2 - twiceProb (gstOps defaultGateSet 0 k))] (List.mem_map.2 ⟨k, hk, rfl⟩), ?_⟩
    · unfold defaultData Dict.WF
      rw [List.map_map]
      exact (nodup_gstKeys defaultGateSet default_good).map fun a c e => by simpa using e
    · refine Eq.trans ?_ (prob_twice _).symm
      simp [Dict.values, Dict.getD, Dict.get?]

end Verif.Tomo
