import Verif.Tomo.SpecGstFit
import Verif.Tomo.PropsMleCon
import Verif.Tomo.PropsMleEx
/-
C123: gate set tomography as a whole.
-/
set_option linter.unusedSimpArgs false
set_option linter.unusedVariables false
namespace Verif.Tomo
open Verif Verif.Counts Matrix
open scoped ComplexOrder

/-! Pauli coefficients. -/

theorem npauli_apply (k : Fin 4) (i j : Fin 2) : npauli k i j = ((√(1/2) : ℝ) : ℂ) * pauli1 k i j := by
  fin_cases k <;> fin_cases i <;> fin_cases j <;> simp [npauli, pauli1]

theorem npauli_orth (a b : Fin 4) : (npauli a * npauli b).trace = if a = b then 1 else 0 := by
  have h := sqrt_half_mul
  have hI := Complex.I_mul_I
  rw [Matrix.trace, Fin.sum_univ_two]
  simp only [Matrix.diag, Matrix.mul_apply, Fin.sum_univ_two, npauli_apply]
  generalize ((√(1/2) : ℝ) : ℂ) = s at h
  fin_cases a <;> fin_cases b <;> simp [pauli1] <;>
    first
    | linear_combination 2 * h
    | linear_combination 2 * h - 2 * s * s * hI

theorem operatorOf_sum (v : ℕ → ℂ) : operatorOf v = ∑ k : Fin 4, v k • npauli k := by
  ext i j
  rw [Matrix.sum_apply]
  simp only [operatorOf, convertFromPtm, Matrix.of_apply, Matrix.smul_apply, smul_eq_mul, npauli_apply]
  rw [Finset.sum_range fun k => v k * (((√(1/2) : ℝ) : ℂ) * pauli1 k i j)]

theorem coef_operatorOf (v : ℕ → ℂ) (k : Fin 4) : (npauli k * operatorOf v).trace = v k := by
  rw [operatorOf_sum, Matrix.mul_sum, Matrix.trace_sum]
  simp only [Matrix.mul_smul, Matrix.trace_smul, npauli_orth, smul_eq_mul, mul_ite, mul_one, mul_zero]
  simp

theorem expand (A : Matrix (Fin 2) (Fin 2) ℂ) : A = ∑ k : Fin 4, (npauli k * A).trace • npauli k := by
  have h := sqrt_half_mul
  have hI := Complex.I_mul_I
  ext i j
  rw [Matrix.sum_apply, Fin.sum_univ_four]
  simp only [Matrix.smul_apply, smul_eq_mul, Matrix.trace, Fin.sum_univ_two, Matrix.diag, Matrix.mul_apply, npauli_apply]
  generalize ((√(1/2) : ℝ) : ℂ) = s at h
  fin_cases i <;> fin_cases j <;> simp [pauli1] <;>
    first
    | linear_combination (-2 * A 0 0) * h
    | linear_combination (-2 * A 1 1) * h
    | linear_combination (-2 * A 0 1) * h - s * s * (A 0 1 - A 1 0) * hI
    | linear_combination (-2 * A 1 0) * h - s * s * (A 1 0 - A 0 1) * hI
    | linear_combination (-2 * A 0 1) * h + s * s * (A 0 1 - A 1 0) * hI
    | linear_combination (-2 * A 1 0) * h + s * s * (A 1 0 - A 0 1) * hI

theorem trace_operatorOf (v : ℕ → ℂ) (A : Matrix (Fin 2) (Fin 2) ℂ) : (operatorOf v * A).trace = ∑ k : Fin 4, v k * (npauli k * A).trace := by
  rw [operatorOf_sum, Matrix.sum_mul, Matrix.trace_sum]
  simp only [Matrix.smul_mul, Matrix.trace_smul, smul_eq_mul]

theorem apply_operatorOf (g : ℕ → ℕ → ℂ) (v : ℕ → ℂ) :
    applyPtm (Matrix.of fun a b => g a b) (operatorOf v) = operatorOf fun i => ∑ j ∈ Finset.range 4, g i j * v j := by
  rw [operatorOf_sum fun i => ∑ j ∈ Finset.range 4, g i j * v j]
  unfold applyPtm
  refine Finset.sum_congr rfl fun a _ => ?_
  rw [← Finset.sum_smul]
  congr 1
  rw [Finset.sum_range fun j => g a j * v j]
  exact Finset.sum_congr rfl fun b _ => by rw [coef_operatorOf]; rfl

theorem prob_crun (e r : ℕ → ℂ) (G : Str → ℕ → ℕ → ℂ) (w : List Str) :
    (⟨operatorOf e, operatorOf r, fun g => Matrix.of fun a b => G g a b⟩ : Reported).prob w = (crun e r G w).re := by
  unfold Reported.prob crun
  have gen : ∀ (w : List Str) (v : ℕ → ℂ), w.foldl (fun A g => applyPtm (Matrix.of fun a b : Fin 4 => G g a b) A) (operatorOf v) =
      operatorOf (w.foldl (fun v g => fun i => ∑ j ∈ Finset.range 4, G g i j * v j) v) := by
    intro w
    induction w with
    | nil => intro v; rfl
    | cons g w ih => intro v; rw [List.foldl_cons, List.foldl_cons, apply_operatorOf, ih]
  simp only
  rw [gen, trace_operatorOf]
  rw [Finset.sum_range fun i => e i * (w.foldl (fun v g => fun i => ∑ j ∈ Finset.range 4, G g i j * v j) r) i]
  congr 1
  exact Finset.sum_congr rfl fun k _ => by rw [coef_operatorOf]

/-! Channels. -/

theorem trace_single (b : Fin 4) (i j : Fin 2) : (npauli b * Matrix.single i j (1:ℂ)).trace = npauli b j i := by
  fin_cases i <;> fin_cases j <;> simp [Matrix.trace, Fin.sum_univ_two, Matrix.mul_apply, Matrix.single_apply]

/-- The pair of digits of an index below four. -/
def digits : Fin 4 ≃ Fin 2 × Fin 2 where
  toFun x := (⟨x / 2, by omega⟩, ⟨x % 2, by omega⟩)
  invFun p := ⟨2 * p.1 + p.2, by omega⟩
  left_inv x := by ext; simp; omega
  right_inv p := by ext <;> simp <;> omega

theorem choiMat_digits (g : ℕ → ℕ → ℂ) : (choiMat (Matrix.of fun a b => g a b)).submatrix digits digits = choiOf g := by
  ext x y
  simp only [Matrix.submatrix_apply, choiMat, Matrix.of_apply, choiOf, applyPtm, ptmToChoi, Matrix.sum_apply, Matrix.smul_apply, smul_eq_mul,
    trace_single, npauli_apply]
  rw [Finset.sum_range fun a => ∑ b ∈ Finset.range 4, g a b * (pauli1 b (y / 2) (x / 2) * pauli1 a (x % 2) (y % 2)), Finset.mul_sum]
  refine Finset.sum_congr rfl fun a _ => ?_
  rw [Finset.sum_range fun b => g a b * (pauli1 b (y / 2) (x / 2) * pauli1 a (x % 2) (y % 2)), Finset.mul_sum]
  refine Finset.sum_congr rfl fun b _ => ?_
  have h := sqrt_half_mul
  simp only [digits, Equiv.coe_fn_mk]
  linear_combination (g a b * (pauli1 b (y / 2) (x / 2) * pauli1 a (x % 2) (y % 2))) * h

theorem cp_iff (g : ℕ → ℕ → ℂ) : (choiMat (Matrix.of fun a b => g a b)).PosSemidef ↔ (choiOf g).PosSemidef := by
  rw [← choiMat_digits]
  constructor
  · intro h; exact h.submatrix digits
  · intro h
    have := h.submatrix digits.symm
    simpa [Matrix.submatrix_submatrix] using this

theorem trace_npauli (k : Fin 4) : (npauli k).trace = if k = 0 then ((√(1/2) : ℝ) : ℂ) * 2 else 0 := by
  rw [Matrix.trace, Fin.sum_univ_two]
  simp only [Matrix.diag, npauli_apply]
  fin_cases k <;> simp [pauli1]
  ring

theorem trace_apply (G : Matrix (Fin 4) (Fin 4) ℂ) (A : Matrix (Fin 2) (Fin 2) ℂ) :
    (applyPtm G A).trace = ((√(1/2) : ℝ) : ℂ) * 2 * ∑ b, G 0 b * (npauli b * A).trace := by
  unfold applyPtm
  simp only [Matrix.trace_sum, Matrix.trace_smul, trace_npauli, smul_eq_mul]
  rw [Finset.sum_eq_single_of_mem (0 : Fin 4) (Finset.mem_univ _) (fun a _ ha => by simp [ha])]
  simp only [if_true, Finset.mul_sum]
  exact Finset.sum_congr rfl fun b _ => by ring

theorem trace_coef (A : Matrix (Fin 2) (Fin 2) ℂ) : A.trace = ((√(1/2) : ℝ) : ℂ) * 2 * (npauli 0 * A).trace := by
  conv_lhs => rw [expand A]
  simp only [Matrix.trace_sum, Matrix.trace_smul, trace_npauli, smul_eq_mul]
  rw [Finset.sum_eq_single_of_mem (0 : Fin 4) (Finset.mem_univ _) (fun a _ ha => by simp [ha])]
  simp only [if_true]
  ring

theorem sqrt_half_ne : ((√(1/2) : ℝ) : ℂ) * 2 ≠ 0 := by
  intro h
  have := sqrt_half_mul
  rcases mul_eq_zero.1 h with h | h
  · rw [h] at this; norm_num at this
  · norm_num at h

theorem tp_channel (g : ℕ → ℕ → ℂ) : (∀ A, (applyPtm (Matrix.of fun a b => g a b) A).trace = A.trace) ↔ TracePreserving (choiOf g) := by
  rw [tp_iff]
  constructor
  · intro h
    have key : ∀ b : Fin 4, g 0 b = if b = 0 then 1 else 0 := by
      intro b
      have := h (npauli b)
      rw [trace_apply, trace_coef] at this
      have := mul_left_cancel₀ sqrt_half_ne this
      simp only [npauli_orth, Matrix.of_apply] at this
      rw [Finset.sum_eq_single_of_mem b (Finset.mem_univ _) (fun a _ ha => by simp [ha])] at this
      simp only [if_true, mul_one] at this
      rw [show ((0 : Fin 4) : ℕ) = 0 from rfl] at this
      rw [this]
      exact if_congr ⟨Eq.symm, Eq.symm⟩ rfl rfl
    exact ⟨key 0, key 1, key 2, key 3⟩
  · rintro ⟨a, b, c, d⟩ A
    rw [trace_apply, trace_coef A, Fin.sum_univ_four]
    simp only [Matrix.of_apply]
    rw [show ((0 : Fin 4) : ℕ) = 0 from rfl, show ((1 : Fin 4) : ℕ) = 1 from rfl, show ((2 : Fin 4) : ℕ) = 2 from rfl,
      show ((3 : Fin 4) : ℕ) = 3 from rfl, a, b, c, d]
    ring

/-! Reading the result. -/

/-- The gate set of a vector. -/
noncomputable def reportOf (gates : List Str) (e r : ℕ → ℂ) (gm : List (ℕ → ℕ → ℂ)) : Reported :=
  ⟨operatorOf e, operatorOf r, fun g => Matrix.of fun a b => gm.getD (gates.idxOf g) (fun _ _ => 0) a b⟩

theorem process_spec (gates : List Str) (hn : gates.Nodup) (hE : "E".toList ∉ gates) (hr : "rho".toList ∉ gates) (x : List ℝ)
    (res : Dict Str FitVal) (h : processResult gates x = some res) :
    ∃ e r gm, splitInputVector gates.length x = some (e, r, gm) ∧ Reads res gates (reportOf gates e r gm) := by
  unfold processResult at h
  cases hx : splitInputVector gates.length x with
  | none => rw [hx] at h; cases h
  | some s =>
    obtain ⟨e, r, gm⟩ := s
    refine ⟨e, r, gm, rfl, ?_⟩
    rw [hx] at h
    simp only [Option.bind_eq_bind, Option.bind_some] at h
    have h := (Option.some.inj h).symm
    have hfold : ∀ (d : Dict Str FitVal), (List.range gates.length).foldl
        (fun d i => d.set (gates.getD i []) (.ptm (Matrix.of fun a b : Fin 4 => gm.getD i (fun _ _ => 0) a b))) d =
        gates.foldl (fun d g => d.set g (.ptm ((reportOf gates e r gm).gate g))) d := by
      intro d
      have := map_range_getElem gates gates.length rfl
        (fun i => (gates.getD i [], FitVal.ptm (Matrix.of fun a b : Fin 4 => gm.getD i (fun _ _ => 0) a b)))
        (fun g => (g, FitVal.ptm ((reportOf gates e r gm).gate g))) (by
          intro i hi
          rw [List.getD_eq_getElem _ _ hi]
          unfold reportOf
          simp only
          rw [hn.idxOf_getElem])
      have h2 := congrArg (List.foldl (fun (d : Dict Str FitVal) p => d.set p.1 p.2) d) this
      rw [List.foldl_map, List.foldl_map] at h2
      exact h2
    rw [hfold] at h
    subst h
    refine ⟨?_, ?_, ?_, ?_⟩
    · rw [get?_foldl_set, if_neg hE, Dict.get?_set, if_neg (by decide), Dict.get?_set, if_pos rfl]; rfl
    · rw [get?_foldl_set, if_neg hr, Dict.get?_set, if_pos rfl]; rfl
    · intro g hg
      rw [get?_foldl_set, if_pos hg]
    · intro k hk
      rw [Dict.has, get?_foldl_set] at hk
      by_cases hg : k ∈ gates
      · exact Or.inr (Or.inr hg)
      · rw [if_neg hg, Dict.get?_set] at hk
        by_cases h1 : "rho".toList = k
        · exact Or.inr (Or.inl h1.symm)
        · rw [if_neg h1, Dict.get?_set] at hk
          by_cases h2 : "E".toList = k
          · exact Or.inl h2.symm
          · rw [if_neg h2] at hk; cases hk

theorem fit_spec (o : Numerics) (spam gates : List Str) (spec : Dict Str (List Str))
    (mats : Dict Str (Matrix (Fin spam.length) (Fin spam.length) ℝ)) (probs : Dict Key ℝ) (res : Dict Str FitVal)
    (h : gstFit o spam gates spec mats probs = some res) :
    ∃ guess data start x, gstFirstGuess o spam gates spec mats probs = some guess ∧ objFnData gates spam spec probs = some data ∧
      setInitialValue o.schur gates guess = some start ∧
      o.slsqp (mleObjective data gates.length) start (mleConstraints gates.length) = some x ∧ processResult gates x = some res := by
  unfold gstFit at h
  obtain ⟨guess, h1, h⟩ := Option.bind_eq_some_iff.1 h
  obtain ⟨data, h2, h⟩ := Option.bind_eq_some_iff.1 h
  obtain ⟨start, h3, h⟩ := Option.bind_eq_some_iff.1 h
  obtain ⟨x, h4, h⟩ := Option.bind_eq_some_iff.1 h
  exact ⟨guess, data, start, x, h1, h2, h3, h4, h⟩

theorem report_channel (n : ℕ) (gates : List Str) (hlen : gates.length = n) (x : List ℝ) (e r : ℕ → ℂ) (gm : List (ℕ → ℕ → ℂ))
    (h : splitInputVector n x = some (e, r, gm)) :
    (∀ g ∈ gates, (choiMat ((reportOf gates e r gm).gate g)).PosSemidef) ∧
    (Feasible (mleConstraints n) x ↔ (∀ g ∈ gm, TracePreserving (choiOf g)) ∧ (operatorOf r).trace = 1) := by
  obtain ⟨hl, hcp⟩ := C89_completely_positive n x e r gm h
  constructor
  · intro g hg
    have hlt : gates.idxOf g < gm.length := by rw [hl, ← hlen]; exact List.idxOf_lt_length_of_mem hg
    refine (cp_iff _).2 ?_
    rw [List.getD_eq_getElem _ _ hlt]
    exact hcp _ (List.getElem_mem hlt)
  · obtain ⟨veq, a1, a2⟩ := C89_equalities n x e r gm h
    obtain ⟨vin, b1, b2⟩ := C89_inequalities n x e r gm h
    obtain ⟨vtr, c1, c2⟩ := C89_trace n x e r gm h
    unfold Feasible mleConstraints
    simp only [List.forall_mem_cons, List.not_mem_nil, false_imp_iff, implies_true, and_true, a1, b1, c1, Option.some.injEq, exists_eq_left',
      if_true, Bool.false_eq_true, if_false, a2, c2, b2]
    constructor
    · rintro ⟨p, q, -⟩; exact ⟨q, p⟩
    · rintro ⟨q, p⟩
      refine ⟨p, q, ?_⟩
      intro g hg
      have B := fun (a b : ℕ) (ha : a < 4) (hb : b < 4) => C89_bounded g (hcp g hg) (q g hg) a b ha hb
      and_intros <;> exact B _ _ (by omega) (by omega)

/-- **C123** (what is returned).  Whatever the data, if `fit` returns, the dictionary has an effect, a state and one transfer matrix for each
gate and nothing else, and every gate is completely positive; if the optimiser respects the constraints every gate is a quantum channel and
the state has trace one. -/
theorem C123_physical (o : Numerics) (spam gates : List Str) (spec : Dict Str (List Str))
    (mats : Dict Str (Matrix (Fin spam.length) (Fin spam.length) ℝ)) (probs : Dict Key ℝ) (res : Dict Str FitVal)
    (hn : gates.Nodup) (hE : "E".toList ∉ gates) (hr : "rho".toList ∉ gates)
    (h : gstFit o spam gates spec mats probs = some res) :
    ∃ R, Reads res gates R ∧ (∀ g ∈ gates, (choiMat (R.gate g)).PosSemidef) ∧
      (Respects o → (∀ g ∈ gates, IsPtmChannel (R.gate g)) ∧ R.rho.trace = 1) := by
  obtain ⟨guess, data, start, x, h1, h2, h3, h4, h5⟩ := fit_spec o spam gates spec mats probs res h
  obtain ⟨e, r, gm, hs, hR⟩ := process_spec gates hn hE hr x res h5
  obtain ⟨hcp, hf⟩ := report_channel _ gates rfl x e r gm hs
  refine ⟨_, hR, hcp, ?_⟩
  intro ho
  obtain ⟨htp, htr⟩ := hf.1 (ho _ _ _ _ h4)
  refine ⟨fun g hg => ⟨hcp g hg, ?_⟩, htr⟩
  have hl := (C89_completely_positive _ x e r gm hs).1
  have hlt : gates.idxOf g < gm.length := by rw [hl]; exact List.idxOf_lt_length_of_mem hg
  refine (tp_channel _).2 ?_
  rw [List.getD_eq_getElem _ _ hlt]
  exact htp _ (List.getElem_mem hlt)

/-! Candidates and their vectors. -/

/-- The coefficients of a matrix. -/
noncomputable def coefs (A : Matrix (Fin 2) (Fin 2) ℂ) : ℕ → ℂ := fun k => if h : k < 4 then (npauli ⟨k, h⟩ * A).trace else 0

theorem operatorOf_coefs (A : Matrix (Fin 2) (Fin 2) ℂ) : operatorOf (coefs A) = A := by
  rw [operatorOf_sum]
  conv_rhs => rw [expand A]
  refine Finset.sum_congr rfl fun k _ => ?_
  unfold coefs
  rw [dif_pos k.2]

theorem reshape_coefs (A : Matrix (Fin 2) (Fin 2) ℂ) (h : Representable A) : (reshape2 (coefs A)).PosSemidef := h

/-- A transfer matrix as the model's matrices. -/
def ofPtm (G : Matrix (Fin 4) (Fin 4) ℂ) : ℕ → ℕ → ℂ := fun a b => if h : a < 4 ∧ b < 4 then G ⟨a, h.1⟩ ⟨b, h.2⟩ else 0

theorem of_ofPtm (G : Matrix (Fin 4) (Fin 4) ℂ) : (Matrix.of fun a b : Fin 4 => ofPtm G a b) = G := by
  ext a b
  simp [ofPtm]

theorem operatorOf_congr (v v' : ℕ → ℂ) (h : ∀ k < 4, v k = v' k) : operatorOf v = operatorOf v' := by
  rw [operatorOf_sum, operatorOf_sum]
  exact Finset.sum_congr rfl fun k _ => by rw [h k k.2]

theorem prob_congr (R R' : Reported) (gates : List Str) (hE : R.E = R'.E) (hr : R.rho = R'.rho) (hg : ∀ g ∈ gates, R.gate g = R'.gate g)
    (w : List Str) (hw : ∀ g ∈ w, g ∈ gates) : R.prob w = R'.prob w := by
  unfold Reported.prob
  rw [hE, hr]
  have : ∀ (w : List Str) (A : Matrix (Fin 2) (Fin 2) ℂ), (∀ g ∈ w, g ∈ gates) →
      w.foldl (fun A g => applyPtm (R.gate g) A) A = w.foldl (fun A g => applyPtm (R'.gate g) A) A := by
    intro w
    induction w with
    | nil => intro _ _; rfl
    | cons g w ih =>
      intro A hw
      rw [List.foldl_cons, List.foldl_cons, hg g (hw g (by simp)), ih _ fun g' hg' => hw g' (by simp [hg'])]
  rw [this w _ hw]

/-- The vector of a candidate is admissible and stands for the candidate. -/
theorem candidate_vector (schur : CM → CM × CM) (hs : ∀ m : CM, (m.mat m.n).IsHermitian → IsSchur m (schur m).1 (schur m).2)
    (gates : List Str) (e r : ℕ → ℂ) (G : Str → ℕ → ℕ → ℂ)
    (hc : Candidate ⟨operatorOf e, operatorOf r, fun g => Matrix.of fun a b => G g a b⟩ gates) :
    ∃ e' r' gm, splitInputVector gates.length (joinInputVector schur e r (gates.map G)) = some (e', r', gm) ∧
      Feasible (mleConstraints gates.length) (joinInputVector schur e r (gates.map G)) ∧
      (reportOf gates e' r' gm).E = operatorOf e ∧ (reportOf gates e' r' gm).rho = operatorOf r ∧
      ∀ g ∈ gates, (reportOf gates e' r' gm).gate g = Matrix.of fun a b : Fin 4 => G g a b := by
  have hre : ∀ v : ℕ → ℂ, Representable (operatorOf v) → (reshape2 v).PosSemidef := by
    intro v h
    unfold Representable at h
    simp only [coef_operatorOf] at h
    exact h
  obtain ⟨e', r', gm, h1, h2, h3, h4, h5⟩ := C56_round_trip schur hs e r (gates.map G) (hre _ hc.meas) (hre _ hc.prep) (by
    intro g hg
    obtain ⟨g', hg', rfl⟩ := List.mem_map.1 hg
    exact (cp_iff _).1 (hc.channel g' hg').cp)
  rw [List.length_map] at h1 h4 h5
  refine ⟨e', r', gm, h1, ?_, operatorOf_congr _ _ h2, operatorOf_congr _ _ h3, ?_⟩
  · refine (report_channel _ gates rfl _ e' r' gm h1).2.2 ⟨?_, ?_⟩
    · intro g hg
      obtain ⟨i, hi, rfl⟩ := List.mem_iff_getElem.1 hg
      have hi' : i < gates.length := h4 ▸ hi
      have := (tp_channel _).1 (hc.channel gates[i] (List.getElem_mem hi')).tp
      rw [tp_iff] at this ⊢
      have e5 : ∀ b < 4, gm[i] 0 b = G gates[i] 0 b := by
        intro b hb
        have := h5 i hi' 0 (by omega) b hb
        rw [List.getD_eq_getElem _ _ hi, List.getD_eq_getElem _ _ (by simpa using hi')] at this
        simpa using this
      rw [e5 0 (by omega), e5 1 (by omega), e5 2 (by omega), e5 3 (by omega)]
      exact this
    · rw [operatorOf_congr _ _ h3]; exact hc.trace
  · intro g hg
    have hlt := List.idxOf_lt_length_of_mem hg
    unfold reportOf
    ext a b
    simp only [Matrix.of_apply]
    rw [h5 _ hlt a a.2 b b.2, List.getD_eq_getElem _ _ (by simpa using hlt)]
    simp

/-- The objective at a vector, in terms of the gate set it stands for. -/
theorem objective_report (gates spam : List Str) (spec : Dict Str (List Str)) (sp : Str → List Str) (probs : Dict Key ℝ)
    (h : MleInput gates spam spec sp probs) :
    ∃ data, objFnData gates spam spec probs = some data ∧ ∀ x e r gm, splitInputVector gates.length x = some (e, r, gm) →
      mleObjective data gates.length x = some (residuals spam gates sp probs (reportOf gates e r gm).prob) := by
  obtain ⟨data, h1, h2⟩ := C88_objective gates spam spec sp probs h
  refine ⟨data, h1, ?_⟩
  intro x e r gm hx
  rw [h2 x e r gm hx]
  congr 1
  congr 1
  funext w
  exact (prob_crun e r (fun g => gm.getD (gates.idxOf g) fun _ _ => 0) w).symm

theorem residuals_congr (spam gates : List Str) (sp : Str → List Str) (probs : Dict Key ℝ) (p p' : List Str → ℝ)
    (hk : ∀ f ∈ spam, ∀ g ∈ sp f, g ∈ gates) (h : ∀ w, (∀ g ∈ w, g ∈ gates) → p w = p' w) :
    residuals spam gates sp probs p = residuals spam gates sp probs p' := by
  unfold residuals
  refine congrArg List.sum (List.map_congr_left fun fi hi => congrArg List.sum (List.map_congr_left fun fj hj =>
    congrArg List.sum (List.map_congr_left fun g hg => ?_)))
  rw [h]
  intro g' hg'
  simp only [List.mem_append, List.mem_singleton] at hg'
  rcases hg' with (hg' | rfl) | hg'
  · exact hk fj hj g' hg'
  · exact hg
  · exact hk fi hi g' hg'

/-- **C123** (best fit).  If the optimiser finds the best admissible point, then no representable gate set of quantum channels with a state of
trace one is closer to the measured probabilities, in the sum of squares, than the one `fit` returns. -/
theorem C123_best (o : Numerics) (spam gates : List Str) (spec : Dict Str (List Str)) (sp : Str → List Str)
    (mats : Dict Str (Matrix (Fin spam.length) (Fin spam.length) ℝ)) (probs : Dict Key ℝ) (res : Dict Str FitVal)
    (hin : MleInput gates spam spec sp probs) (hE : "E".toList ∉ gates) (hr : "rho".toList ∉ gates) (ho : FindsBest o)
    (h : gstFit o spam gates spec mats probs = some res) :
    ∃ R, Reads res gates R ∧ ∀ R', Candidate R' gates →
      residuals spam gates sp probs R.prob ≤ residuals spam gates sp probs R'.prob := by
  obtain ⟨guess, data, start, x, h1, h2, h3, h4, h5⟩ := fit_spec o spam gates spec mats probs res h
  obtain ⟨e, r, gm, hs, hR⟩ := process_spec gates hin.nodup hE hr x res h5
  obtain ⟨data', h2', hobj⟩ := objective_report gates spam spec sp probs hin
  obtain rfl : data = data' := Option.some.inj (h2.symm.trans h2')
  refine ⟨_, hR, ?_⟩
  intro R' hc
  obtain ⟨schur, hsch⟩ := exists_schur_fun
  have hR' : (⟨operatorOf (coefs R'.E), operatorOf (coefs R'.rho), fun g => Matrix.of fun a b => ofPtm (R'.gate g) a b⟩ : Reported) = R' := by
    cases R'
    simp only [operatorOf_coefs, of_ofPtm]
  obtain ⟨e', r', gm', k1, k2, k3, k4, k5⟩ := candidate_vector schur hsch gates (coefs R'.E) (coefs R'.rho) (fun g => ofPtm (R'.gate g))
    (by rw [hR']; exact hc)
  obtain ⟨v, hv, hle⟩ := ho _ _ _ _ _ _ h4 k2 (hobj _ _ _ _ k1)
  rw [hobj _ _ _ _ hs] at hv
  obtain rfl := Option.some.inj hv
  refine hle.trans (le_of_eq (residuals_congr spam gates sp probs _ _ hin.known ?_))
  intro w hw
  refine prob_congr _ _ gates (k3.trans (operatorOf_coefs _)) (k4.trans (operatorOf_coefs _)) ?_ w hw
  intro g hg
  rw [k5 g hg, of_ofPtm]

/-! Exact data. -/

/-- Specification: a one-qubit device in the coordinates of the normalised Pauli matrices, as a gate set. -/
noncomputable def Device.report (D : Device 4) : Reported :=
  ⟨∑ k, ((D.E k : ℝ) : ℂ) • npauli k, ∑ k, ((D.rho k : ℝ) : ℂ) • npauli k, fun g => (D.gate g).map Complex.ofReal⟩

theorem report_eq (D : Device 4) :
    D.report = ⟨operatorOf (vecOf D.E), operatorOf (vecOf D.rho), fun g => Matrix.of fun a b => matOf (D.gate g) a b⟩ := by
  unfold Device.report
  congr 1
  · rw [operatorOf_sum]
    exact Finset.sum_congr rfl fun k _ => by simp [vecOf]
  · rw [operatorOf_sum]
    exact Finset.sum_congr rfl fun k _ => by simp [vecOf]
  · funext g
    ext a b
    simp [matOf]

/-- **C123** (meaning).  The probabilities of a device are those of its report. -/
theorem report_prob (D : Device 4) (w : List Str) : D.report.prob w = D.run w := by
  rw [report_eq, prob_crun, crun_eq D _ _ _ w (fun _ _ => rfl) (fun _ _ => rfl) (fun _ _ _ _ _ _ => rfl), Complex.ofReal_re]

theorem setInitial_spec (schur : CM → CM × CM) (gates : List Str) (guess : Dict Str (GstVal 4)) (D : Device 4) (h : Describes guess gates D) :
    setInitialValue schur gates guess = some (joinInputVector schur (vecOf D.E) (vecOf D.rho) (gates.map fun g => matOf (D.gate g))) := by
  unfold setInitialValue
  rw [h.meas, h.prep]
  have : (gates.mapM fun g => do asGate (← guess.get? g)) = some (gates.map fun g => matOf (D.gate g)) := by
    refine mapM_eq_some gates _ _ fun g hg => ?_
    rw [h.gate g hg]
    rfl
  simp only [Option.bind_eq_bind, Option.bind_some] at this ⊢
  rw [this]
  rfl

theorem start_zero (schur : CM → CM × CM) (hs : ∀ m : CM, (m.mat m.n).IsHermitian → IsSchur m (schur m).1 (schur m).2)
    (spam gates : List Str) (spec : Dict Str (List Str)) (sp : Str → List Str) (probs : Dict Key ℝ)
    (hin : MleInput gates spam spec sp probs) (D : Device 4) (hc : Candidate D.report gates)
    (hex : ∀ f ∈ spam, ∀ g ∈ gates, ∀ f' ∈ spam, probs.get? (.state [f, g, f']) = some (D.run (sp f ++ [g] ++ sp f'))) :
    ∃ data e r gm, objFnData gates spam spec probs = some data ∧
      splitInputVector gates.length (joinInputVector schur (vecOf D.E) (vecOf D.rho) (gates.map fun g => matOf (D.gate g))) =
        some (e, r, gm) ∧
      Feasible (mleConstraints gates.length) (joinInputVector schur (vecOf D.E) (vecOf D.rho) (gates.map fun g => matOf (D.gate g))) ∧
      mleObjective data gates.length (joinInputVector schur (vecOf D.E) (vecOf D.rho) (gates.map fun g => matOf (D.gate g))) = some 0 ∧
      (∀ x v, mleObjective data gates.length x = some v → 0 ≤ v) ∧
      (reportOf gates e r gm).E = D.report.E ∧ (reportOf gates e r gm).rho = D.report.rho ∧
      ∀ g ∈ gates, (reportOf gates e r gm).gate g = D.report.gate g := by
  obtain ⟨data, h1, hobj⟩ := objective_report gates spam spec sp probs hin
  rw [report_eq] at hc
  obtain ⟨e, r, gm, k1, k2, k3, k4, k5⟩ := candidate_vector schur hs gates (vecOf D.E) (vecOf D.rho) (fun g => matOf (D.gate g)) hc
  have q1 : (reportOf gates e r gm).E = D.report.E := by rw [k3, report_eq]
  have q2 : (reportOf gates e r gm).rho = D.report.rho := by rw [k4, report_eq]
  have q3 : ∀ g ∈ gates, (reportOf gates e r gm).gate g = D.report.gate g := by
    intro g hg; rw [k5 g hg, report_eq]
  refine ⟨data, e, r, gm, h1, k1, k2, ?_, ?_, q1, q2, q3⟩
  · rw [hobj _ _ _ _ k1]
    congr 1
    rw [(C88_zero _ _ _ _ _).2]
    intro fi hi fj hj g hg
    rw [Dict.getD, hex fj hj g hg fi hi, Option.getD_some, ← report_prob D]
    refine prob_congr _ _ gates q1 q2 q3 _ ?_
    intro g' hg'
    simp only [List.mem_append, List.mem_singleton] at hg'
    rcases hg' with (hg' | rfl) | hg'
    · exact hin.known fj hj g' hg'
    · exact hg
    · exact hin.known fi hi g' hg'
  · intro x v hv
    cases hx : splitInputVector gates.length x with
    | none => unfold mleObjective at hv; rw [hx] at hv; cases hv
    | some s =>
      obtain ⟨e, r, gm⟩ := s
      rw [hobj x e r gm hx] at hv
      obtain rfl := Option.some.inj hv
      exact (C88_zero _ _ _ _ _).1

theorem guess_run (o : Numerics) (spam gates : List Str) (spec : Dict Str (List Str)) (sp : Str → List Str)
    (mats : Dict Str (Matrix (Fin spam.length) (Fin spam.length) ℝ)) (probs : Dict Key ℝ) (D D' : Device spam.length)
    (hex : ExactProbs D sp spam gates probs) (hic : InfoComplete D sp spam) (hE : "E".toList ∉ gates) (hr : "rho".toList ∉ gates)
    (guess : Dict Str (GstVal spam.length)) (h : gstFirstGuess o spam gates spec mats probs = some guess) (hD : Describes guess gates D')
    (w : List Str) (hw : ∀ g ∈ w, g ∈ gates) : D'.run w = D.run w := by
  obtain ⟨lin, h1, h⟩ := Option.bind_eq_some_iff.1 h
  obtain ⟨ideal, h2, h⟩ := Option.bind_eq_some_iff.1 h
  obtain ⟨fs, h3, h⟩ := Option.bind_eq_some_iff.1 h
  split at h
  · obtain ⟨B, h4, h5⟩ := Option.bind_eq_some_iff.1 h
    obtain ⟨res, h6, ⟨L, hL⟩, h7⟩ := C55_predicts spam gates D sp probs hex hic hE hr
    obtain rfl : lin = res := Option.some.inj (h1.symm.trans h6)
    have hB : B.det ≠ 0 := by
      intro hB
      rw [(C87_singular gates lin ideal B hB).1] at h5; cases h5
    obtain ⟨res', D'', h8, h9, h10⟩ := C87_gauge gates lin L hL hE hr B (isUnit_iff_ne_zero.2 hB)
    obtain rfl : guess = res' := Option.some.inj (h5.symm.trans h8)
    rw [← h7 L hL w hw, ← h10 w]
    refine run_congr _ _ _ ?_ ?_ ?_
    · have := hD.meas.symm.trans h9.meas
      injection this with this; injection this
    · have := hD.prep.symm.trans h9.prep
      injection this with this; injection this
    · intro g hg
      have := (hD.gate g (hw g hg)).symm.trans (h9.gate g (hw g hg))
      injection this with this; injection this
  · cases h

/-- **C123** (exact data).  On exact data of any one-qubit device with four informationally complete SPAM circuits: if the gate set found by
linear inversion and gauge optimisation can be represented and consists of channels, and the optimiser never ends worse than it starts, then
the gate set returned gives every measured circuit `F_j, G, F_i` exactly the probability of the device. -/
theorem C123_exact (o : Numerics) (hs : ∀ m : CM, (m.mat m.n).IsHermitian → IsSchur m (o.schur m).1 (o.schur m).2) (ho : NoWorse o)
    (f0 f1 f2 f3 : Str) (gates : List Str) (spec : Dict Str (List Str)) (sp : Str → List Str)
    (mats : Dict Str (Matrix (Fin 4) (Fin 4) ℝ)) (probs : Dict Key ℝ) (D D' : Device 4)
    (hin : MleInput gates [f0, f1, f2, f3] spec sp probs) (hE : "E".toList ∉ gates) (hr : "rho".toList ∉ gates)
    (hex : ExactProbs D sp [f0, f1, f2, f3] gates probs) (hic : InfoComplete D sp [f0, f1, f2, f3])
    (guess : Dict Str (GstVal 4)) (hg : gstFirstGuess o [f0, f1, f2, f3] gates spec mats probs = some guess) (hD : Describes guess gates D')
    (hc : Candidate D'.report gates) (res : Dict Str FitVal) (h : gstFit o [f0, f1, f2, f3] gates spec mats probs = some res) :
    ∃ R, Reads res gates R ∧ ∀ fi ∈ [f0, f1, f2, f3], ∀ fj ∈ [f0, f1, f2, f3], ∀ g ∈ gates,
      R.prob (sp fj ++ [g] ++ sp fi) = D.run (sp fj ++ [g] ++ sp fi) := by
  obtain ⟨guess', data, start, x, h1, h2, h3, h4, h5⟩ := fit_spec o [f0, f1, f2, f3] gates spec mats probs res h
  obtain rfl : guess' = guess := Option.some.inj (h1.symm.trans hg)
  have h3' := h3.symm.trans (setInitial_spec o.schur gates guess' D' hD)
  obtain rfl := Option.some.inj h3'
  have hrun : ∀ f ∈ [f0, f1, f2, f3], ∀ g ∈ gates, ∀ f' ∈ [f0, f1, f2, f3],
      probs.get? (.state [f, g, f']) = some (D'.run (sp f ++ [g] ++ sp f')) := by
    intro f hf g hgm f' hf'
    rw [hex.three f hf g hgm f' hf']
    refine congrArg some (guess_run o [f0, f1, f2, f3] gates spec sp mats probs D D' hex hic hE hr guess' h1 hD _ ?_).symm
    intro g' hg'
    simp only [List.mem_append, List.mem_singleton] at hg'
    rcases hg' with (hg' | rfl) | hg'
    · exact hin.known f hf g' hg'
    · exact hgm
    · exact hin.known f' hf' g' hg'
  obtain ⟨data', e0, r0, gm0, k1, k2, k3, k4, k5, -⟩ := start_zero o.schur hs _ gates spec sp probs hin D' hc hrun
  obtain rfl : data = data' := Option.some.inj (h2.symm.trans k1)
  obtain ⟨e, r, gm, hsx, hR⟩ := process_spec gates hin.nodup hE hr x res h5
  obtain ⟨data', h2', hobj⟩ := objective_report gates _ spec sp probs hin
  obtain rfl : data = data' := Option.some.inj (h2.symm.trans h2')
  obtain ⟨v, hv, hle⟩ := ho _ _ _ _ _ h4 k3 k4
  refine ⟨_, hR, ?_⟩
  have hv0 := k5 x v hv
  rw [hobj x e r gm hsx] at hv
  have hz := (Option.some.inj hv).trans (le_antisymm hle hv0)
  intro fi hi fj hj g hgm
  rw [((C88_zero _ _ _ _ _).2.1 hz) fi hi fj hj g hgm, Dict.getD, hex.three fj hj g hgm fi hi, Option.getD_some]

/-- Specification: the state and the effect that the code takes for ideal. -/
noncomputable def ground : Fin 4 → ℝ := ![√(1/2), 0, 0, √(1/2)]

theorem ideal_spec (gates : List Str) (mats : Dict Str (Matrix (Fin 4) (Fin 4) ℝ)) (D : Device 4) (hDE : D.E = ground) (hDr : D.rho = ground)
    (hE : "E".toList ∉ gates) (hr : "rho".toList ∉ gates) (hm : ∀ g ∈ gates, mats.get? g = some (D.gate g)) :
    ∃ ideal, idealGateset gates mats = some ideal ∧ Describes ideal gates D := by
  have h1 : (gates.mapM fun g => do some (g, ← mats.get? g)) = some (gates.map fun g => (g, D.gate g)) := by
    refine mapM_eq_some gates _ _ fun g hg => ?_
    rw [hm g hg]; rfl
  have h2 : defaultGround 4 = some ground := by
    unfold defaultGround ground
    rw [if_pos rfl]
    congr 1
    funext i
    fin_cases i <;> simp
  unfold idealGateset
  rw [h1, h2]
  refine ⟨_, rfl, ?_, ?_, ?_⟩
  · intro g hg
    rw [Dict.get?_set, if_neg (ne_of_notMem hr hg), Dict.get?_set, if_neg (ne_of_notMem hE hg), List.foldl_map, get?_foldl_set, if_pos hg]
  · rw [Dict.get?_set, if_neg (by decide), Dict.get?_set, if_pos rfl, hDE]
  · rw [Dict.get?_set, if_pos rfl, hDr]

/-- **C123** (ideal device).  On exact data of an ideal device (the gates are the ones of the basis, the state and the effect the default
ones) that can be represented, with a gauge optimiser that finds the optimum and an optimiser that keeps an optimal start, `fit` succeeds and
returns exactly the device. -/
theorem C123_ideal (o : Numerics) (hs : ∀ m : CM, (m.mat m.n).IsHermitian → IsSchur m (o.schur m).1 (o.schur m).2) (hz : FindsZero o)
    (ho : Stays o) (f0 f1 f2 f3 : Str) (gates : List Str) (spec : Dict Str (List Str)) (sp : Str → List Str)
    (mats : Dict Str (Matrix (Fin 4) (Fin 4) ℝ)) (probs : Dict Key ℝ) (D : Device 4) (hDE : D.E = ground) (hDr : D.rho = ground)
    (hin : MleInput gates [f0, f1, f2, f3] spec sp probs) (hne : ∀ f ∈ [f0, f1, f2, f3], sp f ≠ [])
    (hE : "E".toList ∉ gates) (hr : "rho".toList ∉ gates) (hm : ∀ g ∈ gates, mats.get? g = some (D.gate g))
    (hex : ExactProbs D sp [f0, f1, f2, f3] gates probs) (hic : InfoComplete D sp [f0, f1, f2, f3])
    (hc : Candidate D.report gates) :
    ∃ res R, gstFit o [f0, f1, f2, f3] gates spec mats probs = some res ∧ Reads res gates R ∧ R.E = D.report.E ∧ R.rho = D.report.rho ∧
      ∀ g ∈ gates, R.gate g = D.report.gate g := by
  obtain ⟨ideal, hid, hidD⟩ := ideal_spec gates mats D hDE hDr hE hr hm
  obtain ⟨lin, B₀, hlin, hB₀, hpos, -⟩ := C87_optimum [f0, f1, f2, f3] gates D sp probs hex hic hE hr ideal hidD
  have hfs : ∃ fs, ([f0, f1, f2, f3].mapM fun f => do spamMatrix mats (← spec.get? f)) = some fs := by
    have : ∀ f ∈ [f0, f1, f2, f3], ∃ F, spamMatrix mats (sp f) = some F := by
      intro f hf
      have hmm : ((sp f).mapM fun g => mats.get? g) = some ((sp f).map D.gate) :=
        mapM_eq_some _ _ _ fun g hg => hm g (hin.known f hf g hg)
      unfold spamMatrix
      rw [hmm]
      cases hsp : sp f with
      | nil => exact absurd hsp (hne f hf)
      | cons a l => exact ⟨_, rfl⟩
    choose! F hF using this
    refine ⟨_, mapM_eq_some _ _ F fun f hf => ?_⟩
    rw [hin.specs f hf]
    exact hF f hf
  obtain ⟨fs, hfs⟩ := hfs
  obtain ⟨B, hB, hB0⟩ := hz (gaugeObjective gates ideal lin) (gaugeStart (fun j => fs.getD j.val 0) D.rho) ⟨B₀, hB₀⟩ hpos
  obtain ⟨L, hL⟩ : ∃ L, Describes lin gates L := by
    obtain ⟨lin', h6, hL, -⟩ := C55_predicts [f0, f1, f2, f3] gates D sp probs hex hic hE hr
    obtain rfl : lin = lin' := Option.some.inj (hlin.symm.trans h6)
    exact hL
  obtain ⟨guess, hg, hgD⟩ := C87_zero gates lin ideal L D hL hidD hE hr B hB0
  have hfirst : gstFirstGuess o [f0, f1, f2, f3] gates spec mats probs = some guess := by
    unfold gstFirstGuess gaugeOptimize
    rw [hlin]
    simp only [Option.bind_eq_bind, Option.bind_some]
    rw [show idealGateset gates mats = some ideal from hid]
    simp only [Option.bind_eq_bind, Option.bind_some] at hfs ⊢
    rw [hfs]
    simp only [Option.bind_some]
    rw [hidD.prep]
    simp only
    exact (congrArg (fun z => Option.bind z fun B => xToGateset gates lin B) hB).trans hg
  obtain ⟨data, e, r, gm, k1, k2, k3, k4, k5, k6, k7, k8⟩ := start_zero o.schur hs _ gates spec sp probs hin D hc
    (fun f hf g hg f' hf' => hex.three f hf g hg f' hf')
  have hproc : ∃ res, processResult gates (joinInputVector o.schur (vecOf D.E) (vecOf D.rho) (gates.map fun g => matOf (D.gate g))) = some res := by
    unfold processResult
    rw [k2]
    exact ⟨_, rfl⟩
  obtain ⟨res, hres⟩ := hproc
  obtain ⟨e', r', gm', hsx, hR⟩ := process_spec gates hin.nodup hE hr _ res hres
  have heq := Option.some.inj (hsx.symm.trans k2)
  simp only [Prod.mk.injEq] at heq
  obtain ⟨rfl, rfl, rfl⟩ := heq
  refine ⟨res, _, ?_, hR, k6, k7, k8⟩
  unfold gstFit mleOptimize
  rw [hfirst]
  simp only [Option.bind_eq_bind, Option.bind_some, k1]
  rw [show setInitialValue o.schur gates guess = _ from setInitial_spec o.schur gates guess D hgD]
  simp only [Option.bind_eq_bind, Option.bind_some]
  rw [ho _ _ _ k3 k4 k5]
  exact hres

end Verif.Tomo
