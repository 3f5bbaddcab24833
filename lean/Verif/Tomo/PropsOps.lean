import Verif.Tomo.LemmasBorn
/-
C49: the circuits agree with the matrices.  C50: order, completeness and tensor structure of the operators.
-/
set_option linter.unusedSectionVars false
set_option linter.unusedSimpArgs false
set_option linter.unusedVariables false
namespace Verif.Tomo
open Verif Verif.Quantum Verif.Counts

/-! ### C50 -/

theorem countKeys_bit (n k j : ℕ) (hn : 1 ≤ n) (hk : k < (countKeys n).length) (hj : j < n) :
    decide ((countKeys n)[k].getD (n - 1 - j) '0' = '1') = k.testBit j := by
  have hk' : k < 2 ^ n := by rwa [length_countKeys] at hk
  have hlen : (zfill n (binDigits k)).length = n := length_zfill _ _ (length_binDigits_le _ _ hn hk')
  have hb : ofBin (zfill n (binDigits k)) = k := by rw [ofBin_zfill, ofBin_binDigits]
  have h := Expval.bit_ofBin (zfill n (binDigits k)) j (by omega)
  rw [hb] at h
  have hbits : IsBits (zfill n (binDigits k)) := isBits_zfill _ _ (isBits_binDigits _)
  rw [getElem_countKeys]
  rw [List.getD_eq_getElem _ _ (by simpa [hlen] using hj), List.getElem_reverse] at h
  simp only [hlen] at h
  rw [List.getD_eq_getElem _ _ (by rw [hlen]; omega)]
  have hm := hbits _ (List.getElem_mem (l := zfill n (binDigits k)) (n := n - 1 - j) (by rw [hlen]; omega))
  unfold Expval.bit at h
  rcases hm with hm | hm <;> rw [hm] at h ⊢ <;> cases hkj : k.testBit j <;> rw [hkj] at h <;> simp_all [bitVal]

theorem pauliProjector_sum (a : Str) (x y : Bool) : pauliProjector a false x y + pauliProjector a true x y = if x = y then 1 else 0 := by
  unfold pauliProjector
  simp only [if_true, Bool.false_eq_true, if_false]
  split <;> ring

/-- The operators of a Pauli label in terms of the projectors of the specification. -/
theorem measurementOps_pauli (n : ℕ) (l : List Str) (hl : IsLabel xyz n l) :
    ∃ ops, measurementOps pauliMeas l = some ops ∧ ops.length = 2 ^ n ∧
      ∀ k (hk : k < ops.length), ops[k].dim = 2 ^ n ∧ ∀ a b, ops[k].e a b =
        ∏ j ∈ Finset.range n, pauliProjector (l.getD j []) (k.testBit j) (a.testBit j) (b.testBit j) := by
  obtain ⟨ops, h1, h2, h3⟩ := measurementOps_entries pauliMeas pauliMeasurementMatrix l
    (fun a ha o => pauliMeas_some a (hl.2 a ha) o) (fun a ha o => pauliMeasurementMatrix_dim a (hl.2 a ha) o)
  rw [hl.1] at h2 h3
  refine ⟨ops, h1, h2, fun k hk => ⟨(h3 k hk).1, fun a b => ?_⟩⟩
  rw [(h3 k hk).2]
  refine Finset.prod_congr rfl fun j hj => ?_
  rw [Finset.mem_range] at hj
  rw [List.getD_eq_getElem _ _ (by rw [hl.1]; exact hj), pauliMeasurementMatrix_eq _ (hl.2 _ (List.getElem_mem _))]

/-- **C50**: for every label of `n ≥ 1` Pauli operators `_measurement_ops` returns one operator per outcome string of
`count_keys(n)`, in that order; the operator of an outcome string is the tensor product of the one-qubit projectors,
qubit `j` taking label `j` and the character `j` from the right; and the operators add up to the identity. -/
theorem C50_povm (n : ℕ) (hn : 1 ≤ n) (l : List Str) (hl : IsLabel xyz n l) :
    ∃ ops, measurementOps pauliMeas l = some ops ∧ ops.length = (countKeys n).length ∧
      (∀ k (hk : k < ops.length) (hk' : k < (countKeys n).length), ops[k].dim = 2 ^ n ∧ ∀ a b, ops[k].e a b =
        ∏ j ∈ Finset.range n,
          pauliProjector (l.getD j []) (decide ((countKeys n)[k].getD (n - 1 - j) '0' = '1')) (a.testBit j) (b.testBit j)) ∧
      ∀ a b, a < 2 ^ n → b < 2 ^ n → (ops.map fun m => m.e a b).sum = if a = b then 1 else 0 := by
  obtain ⟨ops, h1, h2, h3⟩ := measurementOps_pauli n l hl
  refine ⟨ops, h1, by rw [h2, length_countKeys], ?_, ?_⟩
  · intro k hk hk'
    refine ⟨(h3 k hk).1, fun a b => ?_⟩
    rw [(h3 k hk).2]
    refine Finset.prod_congr rfl fun j hj => ?_
    rw [countKeys_bit n k j hn hk' (Finset.mem_range.1 hj)]
  · intro a b ha hb
    have e1 : (ops.map fun m => m.e a b).sum = ∑ k ∈ Finset.range (2 ^ n),
        ∏ j ∈ Finset.range n, pauliProjector (l.getD j []) (k.testBit j) (a.testBit j) (b.testBit j) := by
      rw [← Fin.sum_univ_getElem, ← h2, ← Fin.sum_univ_eq_sum_range (fun k => ∏ j ∈ Finset.range n,
        pauliProjector (l.getD j []) (k.testBit j) (a.testBit j) (b.testBit j))]
      have hlen : (ops.map fun m => m.e a b).length = ops.length := by simp
      refine Fintype.sum_equiv (finCongr hlen) _ _ fun k => ?_
      have hk : (k : ℕ) < ops.length := by have := k.2; omega
      simp [(h3 k hk).2]
    rw [e1]
    have e2 : ∀ k : ℕ, (∏ j ∈ Finset.range n, pauliProjector (l.getD j []) (k.testBit j) (a.testBit j) (b.testBit j)) =
        ∏ j ∈ Finset.range n, (fun j d => pauliProjector (l.getD j []) (decide (d = 1)) (a.testBit j) (b.testBit j)) j (Expval.bit k j) := by
      intro k
      refine Finset.prod_congr rfl fun j _ => ?_
      unfold Expval.bit
      cases k.testBit j <;> rfl
    rw [Finset.sum_congr rfl fun k _ => e2 k, Expval.sum_prod_bits n
      (fun j d => pauliProjector (l.getD j []) (decide (d = 1)) (a.testBit j) (b.testBit j))]
    rw [← Expval.prod_delta n a b ha hb]
    refine Finset.prod_congr rfl fun j _ => ?_
    show pauliProjector _ false _ _ + pauliProjector _ true _ _ = _
    rw [pauliProjector_sum]
    unfold Expval.bit
    cases a.testBit j <;> cases b.testBit j <;> rfl

/-- **C50**: a label outside the basis is an error. -/
theorem C50_rejects (l : List Str) (a : Str) (ha : a ∈ l) (hx : a ∉ xyz) : measurementOps pauliMeas l = none := by
  have hp : ∀ o, pauliMeas a o = none := fun o => if_neg hx
  have key : ∀ z : List (Str × Bool), (∃ o, (a, o) ∈ z) → ∀ op : SM,
      z.foldlM (fun op p => (pauliMeas p.1 p.2).map fun m => kron op m) op = none := by
    intro z
    induction z with
    | nil => rintro ⟨o, h⟩; simp at h
    | cons p z ih =>
      rintro ⟨o, h⟩ op
      rw [List.foldlM_cons]
      cases hq : pauliMeas p.1 p.2 with
      | none => rfl
      | some m =>
        rcases List.mem_cons.1 h with h | h
        · rw [← h, hp] at hq; cases hq
        · exact ih ⟨o, h⟩ _
  unfold measurementOps
  have h1 : ∃ o os, outcomes l.length = o :: os ∧ o.length = l.length := by
    have hlen := length_outcomes l.length
    cases ho : outcomes l.length with
    | nil => rw [ho] at hlen; have := Nat.two_pow_pos l.length; simp at hlen; omega
    | cons o os =>
      refine ⟨o, os, rfl, ?_⟩
      have : o = (outcomes l.length)[0]'(by rw [ho]; simp) := by simp [ho]
      rw [this, outcomes_getElem]; simp [bitsOf]
  obtain ⟨o, os, ho, hol⟩ := h1
  rw [ho, List.mapM_cons]
  have : outcomeOp pauliMeas l o = none := by
    refine key _ ?_ _
    obtain ⟨i, hi, he⟩ := List.mem_iff_getElem.1 (List.mem_reverse.2 ha)
    have hi2 : i < l.length := by simpa using hi
    refine ⟨o[i]'(by omega), ?_⟩
    refine List.mem_iff_getElem.2 ⟨i, by simp [hol]; omega, ?_⟩
    rw [List.getElem_zip, he]
  rw [this]; rfl

example : IsLabel xyz 2 ["Y".toList, "Z".toList] := ⟨rfl, by decide⟩

/-! ### C49 -/

variable {ι : Type} [DecidableEq ι] [Fintype ι]

/-- The rotation in front of the measurement. -/
noncomputable def rotMat (a : Str) : Mat2 ℂ :=
  if a = "X".toList then mH else if a = "Y".toList then mmul mH mSdg else mI

theorem runRec_meas (user : ℕ → State ι ℂ → State ι ℂ) (rec : Clbit → Bool) (a : Str) (ha : a ∈ xyz) (q : ι) (c : Clbit)
    (ψ : State ι ℂ) : runRec user rec (pauliMeasurementCircuit a q c) ψ = app1 (mmul (projMat (rec c)) (rotMat a)) q ψ := by
  rw [← app1_mul]
  simp only [xyz, List.mem_cons, List.not_mem_nil, or_false] at ha
  rcases ha with rfl | rfl | rfl
  · show runRec user rec [.gate .h q, .measure q c] ψ = _
    rw [runRec_cons, runRec_cons, runRec_nil, measure_step]; rfl
  · show runRec user rec [.gate .sdg q, .gate .h q, .measure q c] ψ = _
    rw [runRec_cons, runRec_cons, runRec_cons, runRec_nil, measure_step]
    have : rotMat "Y".toList = mmul mH mSdg := rfl
    rw [this, ← app1_mul]; rfl
  · show runRec user rec [.measure q c] ψ = _
    rw [runRec_cons, runRec_nil, measure_step]
    have : rotMat "Z".toList = mI := rfl
    rw [this, app1_one]

theorem conj_rt : (starRingEnd ℂ) rt = rt := by unfold rt; exact Complex.conj_ofReal _

theorem effect_eq (a : Str) (ha : a ∈ xyz) (o x y : Bool) :
    mmul (adj (mmul (projMat o) (rotMat a))) (mmul (projMat o) (rotMat a)) x y = pauliProjector a o x y := by
  have h := rt_sq
  have hI := Complex.I_mul_I
  simp only [xyz, List.mem_cons, List.not_mem_nil, or_false] at ha
  rcases ha with rfl | rfl | rfl <;> cases o <;> cases x <;> cases y <;>
    simp [mmul, adj, projMat, rotMat, mH, mSdg, mI, pauliProjector, conj_rt] <;>
    first
    | linear_combination h
    | linear_combination -h
    | linear_combination Complex.I * h
    | linear_combination -Complex.I * h
    | (linear_combination h - rt * rt * hI)

theorem recProb_meas (user : ℕ → State ι ℂ → State ι ℂ) (rec : Clbit → Bool) (k : ℕ) (hrec : ∀ j, rec (.tomo j) = k.testBit j)
    (qs : List ι) (hnd : qs.Nodup) (l : List Str) (hl : IsLabel xyz qs.length l) (M : SM)
    (hM : ∀ a b, M.e a b = ∏ j ∈ Finset.range qs.length, pauliProjector (l.getD j []) (k.testBit j) (a.testBit j) (b.testBit j))
    (ψ : State ι ℂ) :
    ((recProb user rec (measOpsOf qs l) ψ : ℝ) : ℂ) = traceMul (2 ^ qs.length) M.e (reduced qs ψ) := by
  unfold recProb measOpsOf
  rw [runRec_slots user rec _ l qs hl.1 (fun j => mmul (projMat (k.testBit j)) (rotMat (l.getD j [])))]
  · rw [born qs hnd]
    congr 1
    funext a b
    rw [hM]
    refine Finset.prod_congr rfl fun j hj => ?_
    rw [Finset.mem_range] at hj
    rw [List.getD_eq_getElem _ _ (by rw [hl.1]; exact hj), effect_eq _ (hl.2 _ (List.getElem_mem _))]
  · intro j hj φ
    rw [List.getD_eq_getElem _ _ (by rw [hl.1]; exact hj), runRec_meas user rec _ (hl.2 _ (List.getElem_mem _)), hrec]

/-- **C49** (measurement).  For every circuit, qubit list and input state: the probability that a state tomography circuit
returns outcome `k` (classical bit `j` = digit `j` of `k`) is `Tr[M_k ρ]`, where `M_k` is operator `k` the fitter assigns to the
label it reads from the circuit's name and `ρ` is the density matrix the given circuit leaves on the measured qubits. -/
theorem C49_measurement (circuit : List (Op ι)) (qs : List ι) (hne : qs ≠ []) (hnd : qs.Nodup) (cs : List (Circ ι))
    (hcs : stateTomographyCircuits circuit qs pauliLabels pauliArg = some cs) (c : Circ ι) (hc : c ∈ cs) :
    ∃ l ops, literalEval c.name = some (.state l) ∧ measurementOps pauliMeas l = some ops ∧ ops.length = 2 ^ qs.length ∧
      ∀ k (hk : k < ops.length), ∀ user rec ψ, (∀ j, rec (Clbit.tomo j) = k.testBit j) →
        ((recProb user rec c.ops ψ : ℝ) : ℂ) = traceMul (2 ^ qs.length) ops[k].e (reduced qs (runRec user rec circuit ψ)) := by
  rw [state_eq circuit qs hne hnd] at hcs
  obtain rfl := Option.some.inj hcs
  obtain ⟨l, hl, rfl⟩ := List.mem_map.1 hc
  have hl' := (mem_operatorTuples _ _ _).1 hl
  obtain ⟨ops, h1, h2, h3⟩ := measurementOps_pauli qs.length l hl'
  refine ⟨l, ops, literalEval_reprLabel l (ne_nil_of_len hl'.1 hne) (noQuote_of_alphabet (by unfold NoQuote; decide) hl'.2),
    h1, h2, ?_⟩
  intro k hk user rec ψ hrec
  rw [← recProb_meas user rec k hrec qs hnd l hl' ops[k] (h3 k hk).2]
  unfold recProb
  rw [runRec_append, runRec_cons]; rfl

/-- All six preparation labels. -/
def prep6 : List Str := ["Xp".toList, "Xm".toList, "Yp".toList, "Ym".toList, "Zp".toList, "Zm".toList]

/-- The SIC labels. -/
def sic4 : List Str := ["S0".toList, "S1".toList, "S2".toList, "S3".toList]

/-- The operator of a list of gates on one qubit. -/
noncomputable def gatesMat (gs : List G1) : Mat2 ℂ := gs.foldl (fun u g => mmul (gateMat g) u) mI

theorem runRec_gates (user : ℕ → State ι ℂ → State ι ℂ) (rec : Clbit → Bool) (gs : List G1) (q : ι) (ψ : State ι ℂ) :
    runRec user rec (gs.map fun g => Op.gate g q) ψ = app1 (gatesMat gs) q ψ := by
  have : ∀ u : Mat2 ℂ, runRec user rec (gs.map fun g => Op.gate g q) (app1 u q ψ) =
      app1 (gs.foldl (fun u g => mmul (gateMat g) u) u) q ψ := by
    induction gs with
    | nil => intro u; rfl
    | cons g gs ih =>
      intro u
      rw [List.map_cons, runRec_cons]
      show runRec user rec _ (app1 (gateMat g) q (app1 u q ψ)) = _
      rw [app1_mul, ih]; rfl
  have h := this mI
  rwa [app1_one] at h

/-- The gates of a Pauli preparation. -/
def prepGates (a : Str) : List G1 :=
  (if a = "Xp".toList then [.h] else []) ++ (if a = "Xm".toList then [.x, .h] else []) ++
  (if a = "Yp".toList then [.h, .s] else []) ++ (if a = "Ym".toList then [.x, .h, .s] else []) ++
  (if a = "Zm".toList then [.x] else [])

/-- The gates of a SIC preparation. -/
def sicGates (a : Str) : List G1 :=
  (if a = "S1".toList then [.sic1] else []) ++ (if a = "S2".toList then [.sic2] else []) ++
  (if a = "S3".toList then [.sic3] else [])

theorem prepGates_eq (a : Str) (ha : a ∈ prep6) (q : ι) :
    pauliPreparationCircuit a q = (prepGates a).map fun g => Op.gate g q := by
  simp only [prep6, List.mem_cons, List.not_mem_nil, or_false] at ha
  rcases ha with rfl | rfl | rfl | rfl | rfl | rfl <;> rfl

theorem sicGates_eq (a : Str) (ha : a ∈ sic4) (q : ι) :
    sicPreparationCircuit a q = (sicGates a).map fun g => Op.gate g q := by
  simp only [sic4, List.mem_cons, List.not_mem_nil, or_false] at ha
  rcases ha with rfl | rfl | rfl | rfl <;> rfl

theorem prepGates_matrix (a : Str) (ha : a ∈ prep6) (x y : Bool) :
    gatesMat (prepGates a) x false * (starRingEnd ℂ) (gatesMat (prepGates a) y false) =
      (pauliPreparationMatrix a).e x.toNat y.toNat := by
  have h := rt_sq
  have hI := Complex.I_mul_I
  simp only [prep6, List.mem_cons, List.not_mem_nil, or_false] at ha
  rcases ha with rfl | rfl | rfl | rfl | rfl | rfl <;> cases x <;> cases y <;>
    simp [mmul, gatesMat, gateMat, prepGates, mH, mS, mX, mI, pauliPreparationMatrix, m2, conj_rt] <;>
    first
    | linear_combination h
    | linear_combination -h
    | linear_combination Complex.I * h
    | linear_combination -Complex.I * h
    | (linear_combination h - rt * rt * hI)

theorem sic_cos : Real.cos (sicTheta / 2) * Real.cos (sicTheta / 2) = 1 / 3 := by
  have e : sicTheta / 2 = -Real.arctan (√2) := by unfold sicTheta; ring
  have h3 : √(1 + √2 ^ 2) * √(1 + √2 ^ 2) = 3 := by
    rw [Real.mul_self_sqrt (by positivity), Real.sq_sqrt (by norm_num)]; norm_num
  rw [e, Real.cos_neg, Real.cos_arctan, div_mul_div_comm, h3]; norm_num

theorem sic_cos_sin : Real.cos (sicTheta / 2) * Real.sin (sicTheta / 2) = -(√2 / 3) := by
  have e : sicTheta / 2 = -Real.arctan (√2) := by unfold sicTheta; ring
  have h3 : √(1 + √2 ^ 2) * √(1 + √2 ^ 2) = 3 := by
    rw [Real.mul_self_sqrt (by positivity), Real.sq_sqrt (by norm_num)]; norm_num
  rw [e, Real.cos_neg, Real.sin_neg, Real.cos_arctan, Real.sin_arctan, mul_neg, div_mul_div_comm, h3, one_mul]

theorem sic_sin : Real.sin (sicTheta / 2) * Real.sin (sicTheta / 2) = 2 / 3 := by
  have h := Real.sin_sq_add_cos_sq (sicTheta / 2)
  have h' := sic_cos
  nlinarith

/-- The state of a U3 gate, for an angle φ and a phase with `-exp(-iφ) = w`. -/
theorem sic_entry (φ : ℝ) (w v : ℂ) (hw : -Complex.exp (-(Complex.I * φ)) = w) (hv : -Complex.exp (Complex.I * φ) = v) (x y : Bool) :
    u3 sicTheta φ 0 x false * (starRingEnd ℂ) (u3 sicTheta φ 0 y false) =
      (m2 (1/3) (w * (√2 : ℝ) / 3) (v * (√2 : ℝ) / 3) (2/3)).e x.toNat y.toNat := by
  have h1 : (Real.cos (sicTheta / 2) : ℂ) * Real.cos (sicTheta / 2) = 1 / 3 := by
    rw [← Complex.ofReal_mul, sic_cos]; norm_num
  have h2 : (Real.cos (sicTheta / 2) : ℂ) * Real.sin (sicTheta / 2) = -((√2 : ℝ) / 3) := by
    rw [← Complex.ofReal_mul, sic_cos_sin]; push_cast; ring
  have h3 : (Real.sin (sicTheta / 2) : ℂ) * Real.sin (sicTheta / 2) = 2 / 3 := by
    rw [← Complex.ofReal_mul, sic_sin]; norm_num
  have hc : (starRingEnd ℂ) (Complex.exp (Complex.I * φ)) = Complex.exp (-(Complex.I * φ)) := by
    rw [← Complex.exp_conj]; congr 1; simp
  have hm : Complex.exp (Complex.I * φ) * Complex.exp (-(Complex.I * φ)) = 1 := by
    rw [← Complex.exp_add]; simp
  subst hw hv
  generalize hC : (Real.cos (sicTheta / 2) : ℂ) = C at h1 h2
  generalize hS : (Real.sin (sicTheta / 2) : ℂ) = S at h2 h3
  have hCc : (starRingEnd ℂ) C = C := by rw [← hC]; exact Complex.conj_ofReal _
  have hSc : (starRingEnd ℂ) S = S := by rw [← hS]; exact Complex.conj_ofReal _
  cases x <;> cases y <;> simp only [u3, hC, hS, map_mul, hCc, hSc, hc, m2, Bool.toNat_false, Bool.toNat_true, if_true, if_false,
    one_ne_zero]
  · exact h1
  · linear_combination Complex.exp (-(Complex.I * φ)) * h2
  · linear_combination Complex.exp (Complex.I * φ) * h2
  · linear_combination (S * S) * hm + h3

theorem sicGates_matrix (a : Str) (ha : a ∈ sic4) (x y : Bool) :
    gatesMat (sicGates a) x false * (starRingEnd ℂ) (gatesMat (sicGates a) y false) =
      (sicPreparationMatrix a).e x.toNat y.toNat := by
  have one : ∀ u : Mat2 ℂ, mmul u mI = u := by
    intro u; funext r c; cases c <;> simp [mmul, mI]
  simp only [sic4, List.mem_cons, List.not_mem_nil, or_false] at ha
  have e2 : -Complex.exp (-(Complex.I * ((Real.pi / 3 : ℝ) : ℂ))) = Complex.exp (Real.pi * (2 * Complex.I) / 3) := by
    have : (Real.pi * (2 * Complex.I) / 3 : ℂ) = Real.pi * Complex.I + -(Complex.I * ((Real.pi / 3 : ℝ) : ℂ)) := by
      push_cast; ring
    rw [this, Complex.exp_add, Complex.exp_pi_mul_I]; ring
  have e3 : -Complex.exp (Complex.I * ((Real.pi / 3 : ℝ) : ℂ)) = Complex.exp (-Real.pi * (2 * Complex.I) / 3) := by
    have : (-Real.pi * (2 * Complex.I) / 3 : ℂ) = -(Real.pi * Complex.I) + Complex.I * ((Real.pi / 3 : ℝ) : ℂ) := by
      push_cast; ring
    rw [this, Complex.exp_add, Complex.exp_neg, Complex.exp_pi_mul_I]; norm_num
  rcases ha with rfl | rfl | rfl | rfl
  · cases x <;> cases y <;> simp [gatesMat, sicGates, mI, sicPreparationMatrix, m2]
  · have h1 : -Complex.exp (-(Complex.I * (Real.pi : ℂ))) = 1 := by
      rw [Complex.exp_neg, mul_comm, Complex.exp_pi_mul_I]; norm_num
    have h2 : -Complex.exp (Complex.I * (Real.pi : ℂ)) = 1 := by
      rw [mul_comm, Complex.exp_pi_mul_I]; norm_num
    have h := sic_entry Real.pi 1 1 h1 h2 x y
    rw [one_mul] at h
    show mmul (u3 sicTheta Real.pi 0) mI x false * (starRingEnd ℂ) (mmul (u3 sicTheta Real.pi 0) mI y false) = _
    rw [one, h]; rfl
  · have h := sic_entry (Real.pi / 3) _ _ e2 e3 x y
    show mmul (u3 sicTheta (Real.pi / 3) 0) mI x false * (starRingEnd ℂ) (mmul (u3 sicTheta (Real.pi / 3) 0) mI y false) = _
    rw [one, h]; rfl
  · have en : ((-Real.pi / 3 : ℝ) : ℂ) = -((Real.pi / 3 : ℝ) : ℂ) := by push_cast; ring
    have h := sic_entry (-Real.pi / 3) (Complex.exp (-Real.pi * (2 * Complex.I) / 3)) (Complex.exp (Real.pi * (2 * Complex.I) / 3))
      (by rw [en, mul_neg, neg_neg]; exact e3) (by rw [en, mul_neg]; exact e2) x y
    show mmul (u3 sicTheta (-Real.pi / 3) 0) mI x false * (starRingEnd ℂ) (mmul (u3 sicTheta (-Real.pi / 3) 0) mI y false) = _
    rw [one, h]; rfl

/-- The instructions that prepare a label, slot by slot, with the gates of each label. -/
theorem prepared_state (user : ℕ → State ι ℂ → State ι ℂ) (rec : Clbit → Bool) (circ : Str → ι → List (Op ι)) (gates : Str → List G1)
    (matrix : Str → SM) (alph : List Str) (hcirc : ∀ a ∈ alph, ∀ q, circ a q = (gates a).map fun g => Op.gate g q)
    (hmat : ∀ a ∈ alph, ∀ x y, gatesMat (gates a) x false * (starRingEnd ℂ) (gatesMat (gates a) y false) = (matrix a).e x.toNat y.toNat)
    (hdim : ∀ a ∈ alph, (matrix a).dim = 2)
    (qs : List ι) (hnd : qs.Nodup) (l : List Str) (hl : IsLabel alph qs.length l) :
    ∃ op, preparationOp (checkedPrep alph matrix) (some l) = some op ∧ op.dim = 2 ^ qs.length ∧
      (∀ b a, b < 2 ^ qs.length → a < 2 ^ qs.length →
        reduced qs (runRec user rec ((List.range qs.length).flatMap (slot (fun _ a q => circ a q) l qs)) ket0) b a = op.e b a) ∧
      ∀ x, (∃ q, q ∉ qs ∧ x q = true) →
        runRec user rec ((List.range qs.length).flatMap (slot (fun _ a q => circ a q) l qs)) ket0 x = 0 := by
  have hrun : runRec user rec ((List.range qs.length).flatMap (slot (fun _ a q => circ a q) l qs)) ket0 =
      appAll (opsOn qs fun j => gatesMat (gates (l.getD j []))) ket0 := by
    refine runRec_slots user rec _ l qs hl.1 _ ?_ _
    intro j hj ψ
    rw [List.getD_eq_getElem _ _ (by rw [hl.1]; exact hj), hcirc _ (hl.2 _ (List.getElem_mem _)), runRec_gates]
  obtain ⟨op, h1, h2, h3⟩ := preparationOp_entries (checkedPrep alph matrix) matrix l
    (fun a ha => if_pos (hl.2 a ha)) (fun a ha => hdim a (hl.2 a ha))
  rw [hl.1] at h2 h3
  rw [hrun]
  refine ⟨op, h1, h2, ?_, ?_⟩
  · intro b a hb ha
    rw [h3 b a hb ha, reduced_prepared qs hnd]
    refine Finset.prod_congr rfl fun j hj => ?_
    rw [Finset.mem_range] at hj
    rw [List.getD_eq_getElem _ _ (by rw [hl.1]; exact hj), hmat _ (hl.2 _ (List.getElem_mem _))]
  · rintro x ⟨q, hq, hx⟩
    rw [appAll_ket0 qs hnd, if_neg]
    intro h
    rw [h q hq] at hx
    cases hx

theorem pauliPreparationMatrix_dim (a : Str) (ha : a ∈ prep6) : (pauliPreparationMatrix a).dim = 2 := by
  simp only [prep6, List.mem_cons, List.not_mem_nil, or_false] at ha
  rcases ha with rfl | rfl | rfl | rfl | rfl | rfl <;> simp [pauliPreparationMatrix, dim_m2]

theorem sicPreparationMatrix_dim (a : Str) (ha : a ∈ sic4) : (sicPreparationMatrix a).dim = 2 := by
  simp only [sic4, List.mem_cons, List.not_mem_nil, or_false] at ha
  rcases ha with rfl | rfl | rfl | rfl <;> simp [sicPreparationMatrix, dim_m2]

theorem prepPart_of (basis : CBasis ι) (alph : List Str) (circ : Str → ι → List (Op ι))
    (hb : basis.prep = some (alph, fun a q => some (circ a q))) (qs : List ι) (l : List Str) (hl : IsLabel alph qs.length l) :
    prepPart (some basis.preparationCircuit) qs (some l) =
      some ((List.range qs.length).flatMap (slot (fun _ a q => circ a q) l qs) ++ [.barrier]) := by
  simp only [prepPart]
  rw [labelledOps_eq _ (fun _ a q => circ a q) l qs hl.1]
  · rfl
  · intro j a ha q
    simp only [CBasis.preparationCircuit, hb]
    rw [if_pos (hl.2 a ha)]

/-- **C49** (preparation).  For both bases, every label over the basis' alphabet and every list of distinct qubits: the
preparation instructions, started on all qubits in 0, leave the listed qubits in exactly the state whose density matrix
`_preparation_op` gives (row and column digit `j` belong to qubit `j`), and all other qubits in 0. -/
theorem C49_preparation (user : ℕ → State ι ℂ → State ι ℂ) (rec : Clbit → Bool) (qs : List ι) (hnd : qs.Nodup) (l : List Str)
    (basis : CBasis ι) (prep : Str → Option SM)
    (h : (basis = pauliBasis ∧ prep = pauliPrep ∧ IsLabel prep6 qs.length l) ∨
      (basis = sicBasis ∧ prep = sicPrep ∧ IsLabel sic4 qs.length l)) :
    ∃ ops op, prepPart (some basis.preparationCircuit) qs (some l) = some ops ∧ preparationOp prep (some l) = some op ∧
      op.dim = 2 ^ qs.length ∧
      (∀ b a, b < 2 ^ qs.length → a < 2 ^ qs.length → reduced qs (runRec user rec ops ket0) b a = op.e b a) ∧
      ∀ x, (∃ q, q ∉ qs ∧ x q = true) → runRec user rec ops ket0 x = 0 := by
  have hbar : ∀ ops : List (Op ι), runRec user rec (ops ++ [.barrier]) ket0 = runRec user rec ops ket0 := by
    intro ops; rw [runRec_append]; rfl
  rcases h with ⟨rfl, rfl, hl⟩ | ⟨rfl, rfl, hl⟩
  · obtain ⟨op, h1, h2, h3, h4⟩ := prepared_state user rec pauliPreparationCircuit prepGates pauliPreparationMatrix prep6
      (fun a ha q => prepGates_eq a ha q) prepGates_matrix pauliPreparationMatrix_dim qs hnd l hl
    refine ⟨_, op, prepPart_of pauliBasis prep6 _ rfl qs l hl, h1, h2, ?_, ?_⟩
    · rw [hbar]; exact h3
    · rw [hbar]; exact h4
  · obtain ⟨op, h1, h2, h3, h4⟩ := prepared_state user rec sicPreparationCircuit sicGates sicPreparationMatrix sic4
      (fun a ha q => sicGates_eq a ha q) sicGates_matrix sicPreparationMatrix_dim qs hnd l hl
    refine ⟨_, op, prepPart_of sicBasis sic4 _ rfl qs l hl, h1, h2, ?_, ?_⟩
    · rw [hbar]; exact h3
    · rw [hbar]; exact h4

/-- **C49** (process tomography).  The probability that a process tomography circuit returns outcome `k` is `Tr[M_k ρ']`,
where `ρ'` is what the given circuit makes of a state `ψ` that is exactly the fitter's preparation matrix of the circuit's
label on the prepared qubits, with all other qubits in 0. -/
theorem C49_process (circuit : List (Op ι)) (mq pq : List ι) (prepared : Option (List ι))
    (hpq : prepared.getD mq = pq) (hne : mq ≠ []) (hnd : mq.Nodup) (hpnd : pq.Nodup) (hlen : pq.length = mq.length)
    (cs : List (Circ ι))
    (hcs : processTomographyCircuits circuit mq prepared pauliLabels pauliArg pauliLabels pauliArg = some cs)
    (c : Circ ι) (hc : c ∈ cs) (user : ℕ → State ι ℂ → State ι ℂ) (rec : Clbit → Bool) :
    ∃ p l op ops ψ, literalEval c.name = some (.process p l) ∧ preparationOp pauliPrep (some p) = some op ∧
      measurementOps pauliMeas l = some ops ∧ ops.length = 2 ^ mq.length ∧
      (∀ b a, b < 2 ^ pq.length → a < 2 ^ pq.length → reduced pq ψ b a = op.e b a) ∧
      (∀ x, (∃ q, q ∉ pq ∧ x q = true) → ψ x = 0) ∧
      ∀ k (hk : k < ops.length), (∀ j, rec (Clbit.tomo j) = k.testBit j) →
        ((recProb user rec c.ops ket0 : ℝ) : ℂ) = traceMul (2 ^ mq.length) ops[k].e (reduced mq (runRec user rec circuit ψ)) := by
  rw [process_eq circuit mq pq prepared hpq hne hnd hpnd hlen] at hcs
  obtain rfl := Option.some.inj hcs
  obtain ⟨p, hp, hc⟩ := List.mem_flatMap.1 hc
  obtain ⟨l, hl, rfl⟩ := List.mem_map.1 hc
  have hp' := (mem_operatorTuples _ _ _).1 hp
  have hl' := (mem_operatorTuples _ _ _).1 hl
  have hp6 : IsLabel prep6 pq.length p := by
    refine ⟨hp'.1.trans hlen.symm, fun a ha => ?_⟩
    have := hp'.2 a ha
    simp only [prep4, List.mem_cons, List.not_mem_nil, or_false] at this
    simp only [prep6, List.mem_cons, List.not_mem_nil, or_false]
    tauto
  obtain ⟨ops, h1, h2, h3⟩ := measurementOps_pauli mq.length l hl'
  obtain ⟨op, g1, g2, g3, g4⟩ := prepared_state user rec pauliPreparationCircuit prepGates pauliPreparationMatrix prep6
      (fun a ha q => prepGates_eq a ha q) prepGates_matrix pauliPreparationMatrix_dim pq hpnd p hp6
  refine ⟨p, l, op, ops, _, literalEval_pair p l (ne_nil_of_len hp'.1 hne) (ne_nil_of_len hl'.1 hne)
    (noQuote_of_alphabet (by unfold NoQuote; decide) hp'.2) (noQuote_of_alphabet (by unfold NoQuote; decide) hl'.2),
    g1, h1, h2, g3, g4, ?_⟩
  intro k hk hrec
  rw [← recProb_meas user rec k hrec mq hnd l hl' ops[k] (h3 k hk).2]
  unfold recProb
  rw [runRec_append, runRec_append, runRec_append, runRec_cons]; rfl

example : IsLabel sic4 2 ["S1".toList, "S3".toList] := ⟨rfl, by decide⟩

/-- The hypotheses are met: two qubits out of three, out of order. -/
example : ∃ cs, stateTomographyCircuits [Op.user 7] [(2 : Fin 3), 0] pauliLabels pauliArg = some cs ∧ cs.length = 9 :=
  ⟨_, rfl, rfl⟩

end Verif.Tomo
