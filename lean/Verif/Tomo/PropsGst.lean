import Verif.Tomo.Gst
import Verif.Tomo.PropsCirc
import Verif.Tomo.PropsAdd
import Mathlib.Tactic.NoncommRing
import Mathlib.Tactic.Abel
/-
C55, C86, C87: gate set tomography circuits, linear inversion and gauge.
-/
set_option linter.unusedSectionVars false
set_option linter.unusedSimpArgs false
set_option linter.unusedVariables false
namespace Verif.Tomo
open Verif Verif.Counts Matrix

/-- Specification: a device described by an initial state, a measurement and one matrix for each gate name. -/
structure Device (d : ℕ) where
  E : Fin d → ℝ
  rho : Fin d → ℝ
  gate : Str → Matrix (Fin d) (Fin d) ℝ

/-- Specification: the probability of outcome 0 after running the gates `w` in order on the initial state. -/
noncomputable def Device.run {d : ℕ} (D : Device d) (w : List Str) : ℝ := D.E ⬝ᵥ w.foldl (fun v g => D.gate g *ᵥ v) D.rho

/-- Specification: the probabilities are those of the device, for every SPAM circuit, pair of SPAM circuits, and gate between a pair. -/
structure ExactProbs {d : ℕ} (D : Device d) (spec : Str → List Str) (spam gates : List Str) (probs : Dict Key ℝ) : Prop where
  one : ∀ f ∈ spam, probs.get? (.state [f]) = some (D.run (spec f))
  two : ∀ f ∈ spam, ∀ f' ∈ spam, probs.get? (.state [f, f']) = some (D.run (spec f ++ spec f'))
  three : ∀ f ∈ spam, ∀ g ∈ gates, ∀ f' ∈ spam, probs.get? (.state [f, g, f']) = some (D.run (spec f ++ [g] ++ spec f'))

/-- Specification: the SPAM circuits distinguish all states: the matrix of the probabilities of pairs is invertible. -/
def InfoComplete {d : ℕ} (D : Device d) (spec : Str → List Str) (spam : List Str) : Prop :=
  (Matrix.of fun i j : Fin spam.length => D.run (spec spam[j] ++ spec spam[i])).det ≠ 0

/-- Specification: a reconstructed gate set read as a device. -/
structure Describes {n : ℕ} (res : Dict Str (GstVal n)) (gates : List Str) (D : Device n) : Prop where
  gate : ∀ g ∈ gates, res.get? g = some (.gate (D.gate g))
  meas : res.get? "E".toList = some (.meas D.E)
  prep : res.get? "rho".toList = some (.prep D.rho)

/-! Helpers. -/

/-- The matrix of a sequence of gates. -/
noncomputable def Device.seq {d : ℕ} (D : Device d) (w : List Str) : Matrix (Fin d) (Fin d) ℝ :=
  w.foldl (fun M g => D.gate g * M) 1

theorem foldl_mulVec {d : ℕ} (G : Str → Matrix (Fin d) (Fin d) ℝ) (w : List Str) (M : Matrix (Fin d) (Fin d) ℝ) (v : Fin d → ℝ) :
    w.foldl (fun v g => G g *ᵥ v) (M *ᵥ v) = (w.foldl (fun M g => G g * M) M) *ᵥ v := by
  induction w generalizing M with
  | nil => rfl
  | cons g w ih => rw [List.foldl_cons, List.foldl_cons, Matrix.mulVec_mulVec, ih]

theorem foldl_mul {d : ℕ} (G : Str → Matrix (Fin d) (Fin d) ℝ) (w : List Str) (M : Matrix (Fin d) (Fin d) ℝ) :
    w.foldl (fun M g => G g * M) M = (w.foldl (fun M g => G g * M) 1) * M := by
  induction w generalizing M with
  | nil => simp
  | cons g w ih =>
    rw [List.foldl_cons, List.foldl_cons, ih (G g * M), ih (G g * 1)]
    rw [Matrix.mul_one, Matrix.mul_assoc]

theorem run_eq {d : ℕ} (D : Device d) (w : List Str) : D.run w = D.E ⬝ᵥ (D.seq w *ᵥ D.rho) := by
  unfold Device.run Device.seq
  rw [← foldl_mulVec, Matrix.one_mulVec]

theorem seq_append {d : ℕ} (D : Device d) (w w' : List Str) : D.seq (w ++ w') = D.seq w' * D.seq w := by
  unfold Device.seq
  rw [List.foldl_append, foldl_mul]

theorem seq_single {d : ℕ} (D : Device d) (g : Str) : D.seq [g] = D.gate g := by
  simp [Device.seq]

theorem get?_foldl_set {υ : Type} (f : Str → υ) (l : List Str) (d : Dict Str υ) (k : Str) :
    (l.foldl (fun d g => d.set g (f g)) d).get? k = if k ∈ l then some (f k) else d.get? k := by
  induction l generalizing d with
  | nil => simp
  | cons g l ih =>
    rw [List.foldl_cons, ih, Dict.get?_set]
    by_cases h : k ∈ l
    · simp [h]
    · by_cases e : k = g
      · subst e; simp [h]
      · simp [h, e, Ne.symm e]

theorem ne_of_notMem {a b : Str} {l : List Str} (ha : a ∉ l) (hb : b ∈ l) : ¬ a = b := fun e => ha (e ▸ hb)

/-- The states the SPAM circuits prepare, as columns. -/
noncomputable def prepCols {d : ℕ} (D : Device d) (spec : Str → List Str) (spam : List Str) : Matrix (Fin d) (Fin spam.length) ℝ :=
  fun i j => (D.seq (spec spam[j]) *ᵥ D.rho) i

/-- The effects the SPAM circuits measure, as rows. -/
noncomputable def measRows {d : ℕ} (D : Device d) (spec : Str → List Str) (spam : List Str) : Matrix (Fin spam.length) (Fin d) ℝ :=
  fun i j => (D.E ᵥ* D.seq (spec spam[i])) j

theorem measRows_mulVec {d : ℕ} (D : Device d) (spec : Str → List Str) (spam : List Str) (v : Fin d → ℝ) (i : Fin spam.length) :
    (measRows D spec spam *ᵥ v) i = D.E ⬝ᵥ (D.seq (spec spam[i]) *ᵥ v) := by
  rw [Matrix.dotProduct_mulVec]; rfl

theorem mul_prepCols {d : ℕ} (D : Device d) (spec : Str → List Str) (spam : List Str) (M : Matrix (Fin spam.length) (Fin d) ℝ)
    (i j : Fin spam.length) : (M * prepCols D spec spam) i j = (M *ᵥ (D.seq (spec spam[j]) *ᵥ D.rho)) i := rfl

theorem gram_eq {d : ℕ} (D : Device d) (spec : Str → List Str) (spam : List Str) :
    (Matrix.of fun i j : Fin spam.length => D.run (spec spam[j] ++ spec spam[i])) = measRows D spec spam * prepCols D spec spam := by
  ext i j
  rw [mul_prepCols, measRows_mulVec, Matrix.of_apply, run_eq, seq_append, Matrix.mulVec_mulVec]

theorem getD_of_get? {υ : Type} (d : Dict Key υ) (k : Key) (v z : υ) (h : d.get? k = some v) : d.getD k z = v := by
  rw [Dict.getD, h]; rfl

theorem gramMatrix_eq {d : ℕ} (D : Device d) (spec : Str → List Str) (spam gates : List Str) (probs : Dict Key ℝ)
    (h : ExactProbs D spec spam gates probs) : gramMatrix spam probs = measRows D spec spam * prepCols D spec spam := by
  rw [← gram_eq]
  ext i j
  exact getD_of_get? _ _ _ _ (h.two _ (List.getElem_mem _) _ (List.getElem_mem _))

theorem gateData_eq {d : ℕ} (D : Device d) (spec : Str → List Str) (spam gates : List Str) (probs : Dict Key ℝ)
    (h : ExactProbs D spec spam gates probs) (g : Str) (hg : g ∈ gates) :
    gateData spam probs g = measRows D spec spam * D.gate g * prepCols D spec spam := by
  ext i j
  rw [mul_prepCols, ← Matrix.mulVec_mulVec, measRows_mulVec]
  refine (getD_of_get? _ _ _ _ (h.three _ (List.getElem_mem _) g hg _ (List.getElem_mem _))).trans ?_
  rw [run_eq, seq_append, seq_append, seq_single, ← Matrix.mulVec_mulVec, ← Matrix.mulVec_mulVec]
  rfl

theorem gstVector_rows {d : ℕ} (D : Device d) (spec : Str → List Str) (spam gates : List Str) (probs : Dict Key ℝ)
    (h : ExactProbs D spec spam gates probs) : gstVector spam probs = measRows D spec spam *ᵥ D.rho := by
  ext i
  rw [measRows_mulVec, ← run_eq]
  exact getD_of_get? _ _ _ _ (h.one _ (List.getElem_mem _))

theorem gstVector_cols {d : ℕ} (D : Device d) (spec : Str → List Str) (spam gates : List Str) (probs : Dict Key ℝ)
    (h : ExactProbs D spec spam gates probs) : gstVector spam probs = D.E ᵥ* prepCols D spec spam := by
  ext i
  have : (D.E ᵥ* prepCols D spec spam) i = D.E ⬝ᵥ (D.seq (spec spam[i]) *ᵥ D.rho) := rfl
  rw [this, ← run_eq]
  exact getD_of_get? _ _ _ _ (h.one _ (List.getElem_mem _))

theorem needed_all {d : ℕ} (D : Device d) (spec : Str → List Str) (spam gates : List Str) (probs : Dict Key ℝ)
    (h : ExactProbs D spec spam gates probs) : ((gstNeeded spam gates).all fun k => probs.has k) = true := by
  rw [List.all_eq_true]
  intro k hk
  simp only [gstNeeded, List.mem_flatMap, List.mem_cons, List.mem_map] at hk
  obtain ⟨f, hf, rfl | ⟨f', hf', rfl | ⟨g, hg, rfl⟩⟩⟩ := hk
  · rw [Dict.has, h.one f hf]; rfl
  · rw [Dict.has, h.two f' hf' f hf]; rfl
  · rw [Dict.has, h.three f' hf' g hg f hf]; rfl

theorem inversion_cols (spam gates : List Str) (D : Device spam.length) (spec : Str → List Str) (probs : Dict Key ℝ)
    (h : ExactProbs D spec spam gates probs) (hic : InfoComplete D spec spam)
    (hE : "E".toList ∉ gates) (hr : "rho".toList ∉ gates) :
    ∃ res, linearInversion spam gates probs = some res ∧ IsUnit (prepCols D spec spam).det ∧
      Describes res gates ⟨D.E ᵥ* prepCols D spec spam, (prepCols D spec spam)⁻¹ *ᵥ D.rho,
        fun g => (prepCols D spec spam)⁻¹ * D.gate g * prepCols D spec spam⟩ := by
  have hg := gramMatrix_eq D spec spam gates probs h
  unfold InfoComplete at hic
  rw [gram_eq, Matrix.det_mul] at hic
  have hA : IsUnit (measRows D spec spam).det := isUnit_iff_ne_zero.2 (left_ne_zero_of_mul hic)
  have hB : IsUnit (prepCols D spec spam).det := isUnit_iff_ne_zero.2 (right_ne_zero_of_mul hic)
  have hdet : (gramMatrix spam probs).det ≠ 0 := by rw [hg, Matrix.det_mul]; exact hic
  obtain ⟨res, hlin⟩ : ∃ res, linearInversion spam gates probs = some res := by
    unfold linearInversion
    rw [if_pos (needed_all D spec spam gates probs h), if_neg hdet]
    exact ⟨_, rfl⟩
  refine ⟨res, hlin, hB, ?_⟩
  · unfold linearInversion at hlin
    rw [if_pos (needed_all D spec spam gates probs h), if_neg hdet] at hlin
    obtain rfl := Option.some.inj hlin
    refine ⟨?_, ?_, ?_⟩
    · intro g hgm
      rw [Dict.get?_set, if_neg (ne_of_notMem hr hgm), Dict.get?_set, if_neg (ne_of_notMem hE hgm), get?_foldl_set, if_pos hgm,
        gateData_eq D spec spam gates probs h g hgm, hg, Matrix.mul_inv_rev]
      congr 2
      rw [Matrix.mul_assoc, ← Matrix.mul_assoc (measRows D spec spam)⁻¹, ← Matrix.mul_assoc (measRows D spec spam)⁻¹,
        Matrix.nonsing_inv_mul _ hA, Matrix.one_mul]
      exact (Matrix.mul_assoc _ _ _).symm
    · rw [Dict.get?_set, if_neg (by decide), Dict.get?_set_self, gstVector_cols D spec spam gates probs h]
    · rw [Dict.get?_set_self, gstVector_rows D spec spam gates probs h, hg, Matrix.mul_inv_rev, Matrix.mulVec_mulVec,
        Matrix.mul_assoc, Matrix.nonsing_inv_mul _ hA, Matrix.mul_one]

/-- **C55** (exact inversion).  From the exact probabilities of an informationally complete device linear inversion returns every gate, the
state and the measurement, all in the same (invertible) gauge `B`. -/
theorem C55_inversion (spam gates : List Str) (D : Device spam.length) (spec : Str → List Str) (probs : Dict Key ℝ)
    (h : ExactProbs D spec spam gates probs) (hic : InfoComplete D spec spam)
    (hE : "E".toList ∉ gates) (hr : "rho".toList ∉ gates) :
    ∃ res B, linearInversion spam gates probs = some res ∧ IsUnit B.det ∧
      Describes res gates ⟨D.E ᵥ* B, B⁻¹ *ᵥ D.rho, fun g => B⁻¹ * D.gate g * B⟩ := by
  obtain ⟨res, h1, h2, h3⟩ := inversion_cols spam gates D spec probs h hic hE hr
  exact ⟨res, _, h1, h2, h3⟩

/-- A change of gauge leaves every prediction alone. -/
theorem run_gauge {d : ℕ} (D : Device d) (B : Matrix (Fin d) (Fin d) ℝ) (hB : IsUnit B.det) (w : List Str) :
    (⟨D.E ᵥ* B, B⁻¹ *ᵥ D.rho, fun g => B⁻¹ * D.gate g * B⟩ : Device d).run w = D.run w := by
  have hs : (⟨D.E ᵥ* B, B⁻¹ *ᵥ D.rho, fun g => B⁻¹ * D.gate g * B⟩ : Device d).seq w = B⁻¹ * D.seq w * B := by
    induction w using List.reverseRecOn with
    | nil => simp [Device.seq, Matrix.nonsing_inv_mul _ hB]
    | append_singleton w g ih =>
      rw [seq_append, seq_append, ih, seq_single, seq_single]
      calc B⁻¹ * D.gate g * B * (B⁻¹ * D.seq w * B) = B⁻¹ * D.gate g * (B * B⁻¹) * D.seq w * B := by simp only [Matrix.mul_assoc]
        _ = _ := by rw [Matrix.mul_nonsing_inv _ hB]; simp only [Matrix.mul_assoc, Matrix.one_mul, Matrix.mul_one]
  rw [run_eq, run_eq, hs]
  simp only
  rw [Matrix.mulVec_mulVec, ← Matrix.dotProduct_mulVec, Matrix.mulVec_mulVec]
  congr 2
  calc B * (B⁻¹ * D.seq w * B * B⁻¹) = (B * B⁻¹) * D.seq w * (B * B⁻¹) := by simp only [Matrix.mul_assoc]
    _ = _ := by rw [Matrix.mul_nonsing_inv _ hB, Matrix.one_mul, Matrix.mul_one]

theorem run_congr {d : ℕ} (D D' : Device d) (w : List Str) (hE : D.E = D'.E) (hr : D.rho = D'.rho) (hg : ∀ g ∈ w, D.gate g = D'.gate g) :
    D.run w = D'.run w := by
  unfold Device.run
  rw [hE, hr]
  congr 1
  generalize D'.rho = v
  induction w generalizing v with
  | nil => rfl
  | cons g w ih =>
    rw [List.foldl_cons, List.foldl_cons, hg g (by simp)]
    exact ih (fun g hg' => hg g (by simp [hg'])) _

/-- **C55** (predictions).  The reconstructed gate set predicts, for every sequence of gates of any length, exactly the probability of the
device. -/
theorem C55_predicts (spam gates : List Str) (D : Device spam.length) (spec : Str → List Str) (probs : Dict Key ℝ)
    (h : ExactProbs D spec spam gates probs) (hic : InfoComplete D spec spam)
    (hE : "E".toList ∉ gates) (hr : "rho".toList ∉ gates) :
    ∃ res, linearInversion spam gates probs = some res ∧ (∃ D', Describes res gates D') ∧
      ∀ D', Describes res gates D' → ∀ w : List Str, (∀ g ∈ w, g ∈ gates) → D'.run w = D.run w := by
  obtain ⟨res, B, h1, hB, hD⟩ := C55_inversion spam gates D spec probs h hic hE hr
  refine ⟨res, h1, ⟨_, hD⟩, ?_⟩
  intro D' hD' w hw
  rw [← run_gauge D B hB w]
  refine run_congr _ _ _ ?_ ?_ ?_
  · have := hD'.meas.symm.trans hD.meas
    injection this with this; injection this
  · have := hD'.prep.symm.trans hD.prep
    injection this with this; injection this
  · intro g hg
    have := (hD'.gate g (hw g hg)).symm.trans (hD.gate g (hw g hg))
    injection this with this; injection this

/-- **C55** (rejection): a missing label, or SPAM circuits that do not distinguish all states. -/
theorem C55_rejects (spam gates : List Str) (probs : Dict Key ℝ)
    (h : (∃ k ∈ gstNeeded spam gates, probs.get? k = none) ∨ (gramMatrix spam probs).det = 0) :
    linearInversion spam gates probs = none := by
  unfold linearInversion
  rcases h with ⟨k, hk, h⟩ | h
  · rw [if_neg]
    rw [List.all_eq_true]
    intro h2
    have := h2 k hk
    rw [Dict.has, h] at this; cases this
  · rw [if_pos h, ite_self]

/-- Finding: a gate named `E` or `rho` is lost: its entry is overwritten by the measurement or the state. -/
theorem C55_finding_names (spam gates : List Str) (probs : Dict Key ℝ) (res : Dict Str (GstVal spam.length))
    (h : linearInversion spam gates probs = some res) :
    (∃ e, res.get? "E".toList = some (.meas e)) ∧ ∃ r, res.get? "rho".toList = some (.prep r) := by
  unfold linearInversion at h
  split at h
  · split at h
    · cases h
    · obtain rfl := Option.some.inj h
      exact ⟨⟨_, by rw [Dict.get?_set, if_neg (by decide), Dict.get?_set_self]⟩, ⟨_, Dict.get?_set_self _ _ _⟩⟩
  · cases h

/-! Gauge optimisation. -/

/-- **C87** (gauge).  Whatever invertible gauge the optimiser tries or returns, the gate set it stands for predicts the same
probabilities as the one it was given, for every sequence of gates. -/
theorem C87_gauge {n : ℕ} (gates : List Str) (initial : Dict Str (GstVal n)) (D : Device n) (hD : Describes initial gates D)
    (hE : "E".toList ∉ gates) (hr : "rho".toList ∉ gates) (B : Matrix (Fin n) (Fin n) ℝ) (hB : IsUnit B.det) :
    ∃ res D', xToGateset gates initial B = some res ∧ Describes res gates D' ∧ ∀ w, D'.run w = D.run w := by
  obtain ⟨res, hx⟩ : ∃ res, xToGateset gates initial B = some res := by
    unfold xToGateset
    rw [if_neg (isUnit_iff_ne_zero.1 hB)]
    exact ⟨_, rfl⟩
  refine ⟨res, ⟨D.E ᵥ* B, B⁻¹ *ᵥ D.rho, fun g => B⁻¹ * D.gate g * B⟩, hx, ?_, run_gauge D B hB⟩
  · unfold xToGateset at hx
    rw [if_neg (isUnit_iff_ne_zero.1 hB)] at hx
    obtain rfl := Option.some.inj hx
    refine ⟨?_, ?_, ?_⟩
    · intro g hg
      rw [Dict.get?_set, if_neg (ne_of_notMem hr hg), Dict.get?_set, if_neg (ne_of_notMem hE hg), get?_foldl_set, if_pos hg,
        Dict.getD, hD.gate g hg]
      rfl
    · rw [Dict.get?_set, if_neg (by decide), Dict.get?_set_self, Dict.getD, hD.meas]; rfl
    · rw [Dict.get?_set_self, Dict.getD, hD.prep]; rfl

theorem C87_singular {n : ℕ} (gates : List Str) (initial ideal : Dict Str (GstVal n)) (B : Matrix (Fin n) (Fin n) ℝ) (hB : B.det = 0) :
    xToGateset gates initial B = none ∧ gaugeObjective gates ideal initial B = none := by
  have : xToGateset gates initial B = none := by unfold xToGateset; rw [if_pos hB]
  exact ⟨this, by unfold gaugeObjective; rw [this]; rfl⟩

theorem gstDist_nonneg {n : ℕ} (a b : GstVal n) : 0 ≤ gstDist a b := by
  unfold gstDist
  split <;> first | exact Real.sqrt_nonneg _ | exact le_refl _

theorem gstDist_self {n : ℕ} (a : GstVal n) : gstDist a a = 0 := by
  cases a <;> simp [gstDist]

theorem gaugeObjective_nonneg {n : ℕ} (gates : List Str) (ideal initial : Dict Str (GstVal n)) (B : Matrix (Fin n) (Fin n) ℝ) (v : ℝ)
    (h : gaugeObjective gates ideal initial B = some v) : 0 ≤ v := by
  unfold gaugeObjective at h
  cases hx : xToGateset gates initial B with
  | none => rw [hx] at h; cases h
  | some gs =>
    rw [hx] at h
    obtain rfl := Option.some.inj h
    have h1 : 0 ≤ (gates.map fun g => gstDist (gs.getD g (.gate 0)) (ideal.getD g (.gate 0))).sum := by
      refine List.sum_nonneg ?_
      intro x hx
      obtain ⟨g, _, rfl⟩ := List.mem_map.1 hx
      exact gstDist_nonneg _ _
    have h2 := gstDist_nonneg (gs.getD "E".toList (.meas 0)) (ideal.getD "E".toList (.meas 0))
    have h3 := gstDist_nonneg (gs.getD "rho".toList (.prep 0)) (ideal.getD "rho".toList (.prep 0))
    linarith

/-- **C87** (optimum).  On exact data of a device that is the ideal one, the gauge objective has its least value 0 at a gauge that
returns the ideal gate set itself. -/
theorem C87_optimum (spam gates : List Str) (D : Device spam.length) (spec : Str → List Str) (probs : Dict Key ℝ)
    (h : ExactProbs D spec spam gates probs) (hic : InfoComplete D spec spam)
    (hE : "E".toList ∉ gates) (hr : "rho".toList ∉ gates) (ideal : Dict Str (GstVal spam.length)) (hid : Describes ideal gates D) :
    ∃ initial B, linearInversion spam gates probs = some initial ∧ gaugeObjective gates ideal initial B = some 0 ∧
      (∀ B' v, gaugeObjective gates ideal initial B' = some v → 0 ≤ v) ∧
      ∃ res, xToGateset gates initial B = some res ∧ Describes res gates D := by
  obtain ⟨initial, B, h1, hB, hD⟩ := C55_inversion spam gates D spec probs h hic hE hr
  have hB' : IsUnit (B⁻¹).det := (Matrix.isUnit_nonsing_inv_det_iff).2 hB
  obtain ⟨res, hx, hres⟩ : ∃ res, xToGateset gates initial B⁻¹ = some res ∧ Describes res gates D := by
    obtain ⟨res, hx⟩ : ∃ res, xToGateset gates initial B⁻¹ = some res := by
      unfold xToGateset
      rw [if_neg (isUnit_iff_ne_zero.1 hB')]
      exact ⟨_, rfl⟩
    refine ⟨res, hx, ?_⟩
    unfold xToGateset at hx
    rw [if_neg (isUnit_iff_ne_zero.1 hB')] at hx
    obtain rfl := Option.some.inj hx
    refine ⟨?_, ?_, ?_⟩
    · intro g hg
      rw [Dict.get?_set, if_neg (ne_of_notMem hr hg), Dict.get?_set, if_neg (ne_of_notMem hE hg), get?_foldl_set, if_pos hg,
        Dict.getD, hD.gate g hg]
      simp only [Option.getD_some]
      congr 2
      rw [Matrix.nonsing_inv_nonsing_inv _ hB]
      calc B * (B⁻¹ * D.gate g * B) * B⁻¹ = (B * B⁻¹) * D.gate g * (B * B⁻¹) := by simp only [Matrix.mul_assoc]
        _ = _ := by rw [Matrix.mul_nonsing_inv _ hB, Matrix.one_mul, Matrix.mul_one]
    · rw [Dict.get?_set, if_neg (by decide), Dict.get?_set_self, Dict.getD, hD.meas]
      simp only [Option.getD_some]
      rw [Matrix.vecMul_vecMul, Matrix.mul_nonsing_inv _ hB, Matrix.vecMul_one]
    · rw [Dict.get?_set_self, Dict.getD, hD.prep]
      simp only [Option.getD_some]
      rw [Matrix.nonsing_inv_nonsing_inv _ hB, Matrix.mulVec_mulVec, Matrix.mul_nonsing_inv _ hB, Matrix.one_mulVec]
  refine ⟨initial, B⁻¹, h1, ?_, fun B' v => gaugeObjective_nonneg _ _ _ _ _, res, hx, hres⟩
  unfold gaugeObjective
  rw [hx]
  simp only [Option.bind_eq_bind, Option.bind_some]
  congr 1
  have hz : (gates.map fun g => gstDist (res.getD g (.gate 0)) (ideal.getD g (.gate 0))).sum = 0 := by
    refine List.sum_eq_zero ?_
    intro x hx
    obtain ⟨g, hg, rfl⟩ := List.mem_map.1 hx
    rw [Dict.getD, Dict.getD, hres.gate g hg, hid.gate g hg]
    exact gstDist_self _
  rw [hz, Dict.getD, Dict.getD, Dict.getD, Dict.getD, hres.meas, hid.meas, hres.prep, hid.prep]
  simp [gstDist_self]

/-- **C87** (zero).  A gauge at which the objective is zero stands for the ideal gate set itself. -/
theorem C87_zero {n : ℕ} (gates : List Str) (initial ideal : Dict Str (GstVal n)) (D₀ D : Device n) (h₀ : Describes initial gates D₀)
    (hid : Describes ideal gates D) (hE : "E".toList ∉ gates) (hr : "rho".toList ∉ gates) (B : Matrix (Fin n) (Fin n) ℝ)
    (hz : gaugeObjective gates ideal initial B = some 0) : ∃ res, xToGateset gates initial B = some res ∧ Describes res gates D := by
  by_cases hB : B.det = 0
  · rw [(C87_singular gates initial ideal B hB).2] at hz; cases hz
  obtain ⟨res, D', hx, hres, -⟩ := C87_gauge gates initial D₀ h₀ hE hr B (isUnit_iff_ne_zero.2 hB)
  refine ⟨res, hx, ?_⟩
  unfold gaugeObjective at hz
  rw [hx] at hz
  simp only [Option.bind_eq_bind, Option.bind_some] at hz
  have hz := Option.some.inj hz
  have h1 : ∀ x ∈ gates.map fun g => gstDist (res.getD g (.gate 0)) (ideal.getD g (.gate 0)), 0 ≤ x := by
    intro x hx
    obtain ⟨g, _, rfl⟩ := List.mem_map.1 hx
    exact gstDist_nonneg _ _
  have h2 := gstDist_nonneg (res.getD "E".toList (.meas 0)) (ideal.getD "E".toList (.meas 0))
  have h3 := gstDist_nonneg (res.getD "rho".toList (.prep 0)) (ideal.getD "rho".toList (.prep 0))
  have h4 := List.sum_nonneg h1
  have hvec : ∀ a b : Fin n → ℝ, √(∑ i, (a i - b i) ^ 2) = 0 → a = b := by
    intro a b h
    have := (Real.sqrt_eq_zero (Finset.sum_nonneg fun i _ => sq_nonneg _)).1 h
    rw [Finset.sum_eq_zero_iff_of_nonneg fun i _ => sq_nonneg _] at this
    ext i
    exact sub_eq_zero.1 (pow_eq_zero_iff (two_ne_zero) |>.1 (this i (Finset.mem_univ i)))
  refine ⟨?_, ?_, ?_⟩
  · intro g hg
    have h0 : gstDist (res.getD g (.gate 0)) (ideal.getD g (.gate 0)) = 0 := by
      have : gstDist (res.getD g (.gate 0)) (ideal.getD g (.gate 0)) ≤ _ := List.single_le_sum h1 _ (List.mem_map.2 ⟨g, hg, rfl⟩)
      exact le_antisymm (by linarith) (gstDist_nonneg _ _)
    rw [Dict.getD, Dict.getD, hres.gate g hg, hid.gate g hg] at h0
    rw [hres.gate g hg]
    have := (Real.sqrt_eq_zero (Finset.sum_nonneg fun i _ => Finset.sum_nonneg fun j _ => sq_nonneg _)).1 h0
    rw [Finset.sum_eq_zero_iff_of_nonneg fun i _ => Finset.sum_nonneg fun j _ => sq_nonneg _] at this
    congr 2
    ext i j
    have := this i (Finset.mem_univ i)
    rw [Finset.sum_eq_zero_iff_of_nonneg fun i _ => sq_nonneg _] at this
    exact sub_eq_zero.1 (pow_eq_zero_iff (two_ne_zero) |>.1 (this j (Finset.mem_univ j)))
  · have h0 : gstDist (res.getD "E".toList (.meas 0)) (ideal.getD "E".toList (.meas 0)) = 0 := by linarith
    rw [Dict.getD, Dict.getD, hres.meas, hid.meas] at h0
    rw [hres.meas, hvec _ _ h0]
  · have h0 : gstDist (res.getD "rho".toList (.prep 0)) (ideal.getD "rho".toList (.prep 0)) = 0 := by linarith
    rw [Dict.getD, Dict.getD, hres.prep, hid.prep] at h0
    rw [hres.prep, hvec _ _ h0]

/-- What it means that the start value of the gauge optimisation gives back the device. -/
theorem start_central (spam gates : List Str) (D : Device spam.length) (spec : Str → List Str) (probs : Dict Key ℝ)
    (h : ExactProbs D spec spam gates probs) (hic : InfoComplete D spec spam)
    (hE : "E".toList ∉ gates) (hr : "rho".toList ∉ gates) :
    ∃ initial res, linearInversion spam gates probs = some initial ∧
      xToGateset gates initial (gaugeStart (fun j : Fin spam.length => D.seq (spec spam[j])) D.rho) = some res ∧
      (Describes res gates D → ∀ g ∈ gates, D.gate g * (prepCols D spec spam * prepCols D spec spam) =
        (prepCols D spec spam * prepCols D spec spam) * D.gate g) := by
  obtain ⟨initial, h1, hB, hD⟩ := inversion_cols spam gates D spec probs h hic hE hr
  have hst : gaugeStart (fun j : Fin spam.length => D.seq (spec spam[j])) D.rho = prepCols D spec spam := rfl
  rw [hst]
  generalize prepCols D spec spam = B at *
  obtain ⟨res, hx⟩ : ∃ res, xToGateset gates initial B = some res := by
    unfold xToGateset
    rw [if_neg (isUnit_iff_ne_zero.1 hB)]
    exact ⟨_, rfl⟩
  refine ⟨initial, res, h1, hx, ?_⟩
  unfold xToGateset at hx
  rw [if_neg (isUnit_iff_ne_zero.1 hB)] at hx
  obtain rfl := Option.some.inj hx
  intro hres g hg
  have h2 := hres.gate g hg
  rw [Dict.get?_set, if_neg (ne_of_notMem hr hg), Dict.get?_set, if_neg (ne_of_notMem hE hg), get?_foldl_set, if_pos hg, Dict.getD,
    hD.gate g hg] at h2
  simp only [Option.getD_some] at h2
  injection h2 with h2
  injection h2 with h2
  have h3 := congrArg (fun M => B * (B * M)) h2
  have e : B * (B * (B⁻¹ * (B⁻¹ * D.gate g * B) * B)) = D.gate g * (B * B) := by
    calc _ = B * (B * B⁻¹) * B⁻¹ * D.gate g * B * B := by simp only [Matrix.mul_assoc]
      _ = (B * B⁻¹) * D.gate g * B * B := by rw [Matrix.mul_nonsing_inv _ hB, Matrix.mul_one, Matrix.mul_nonsing_inv _ hB]
      _ = _ := by rw [Matrix.mul_nonsing_inv _ hB, Matrix.one_mul, Matrix.mul_assoc]
  rw [← e, Matrix.mul_assoc B B]
  exact h3

theorem foldl_mul_right {d : ℕ} (l : List (Matrix (Fin d) (Fin d) ℝ)) (m : Matrix (Fin d) (Fin d) ℝ) :
    l.foldl (· * ·) m = m * l.foldl (· * ·) 1 := by
  induction l generalizing m with
  | nil => simp
  | cons a l ih => rw [List.foldl_cons, List.foldl_cons, ih (m * a), ih (1 * a), Matrix.one_mul, Matrix.mul_assoc]

theorem foldl_comm {d : ℕ} (l : List (Matrix (Fin d) (Fin d) ℝ)) (m : Matrix (Fin d) (Fin d) ℝ) (h : ∀ a ∈ l, a * m = m * a) :
    l.foldl (· * ·) 1 * m = m * l.foldl (· * ·) 1 := by
  induction l with
  | nil => simp
  | cons a l ih =>
    rw [List.foldl_cons, Matrix.one_mul, foldl_mul_right, Matrix.mul_assoc, ih fun b hb => h b (by simp [hb]), ← Matrix.mul_assoc,
      h a (by simp), Matrix.mul_assoc]

/-- **C87** (SPAM matrices).  For a SPAM circuit whose gates commute, `spam_matrix` is the matrix of running its gates in order. -/
theorem C87_spam_matrix {d : ℕ} (D : Device d) (mats : Dict Str (Matrix (Fin d) (Fin d) ℝ)) (spec : List Str) (hne : spec ≠ [])
    (hm : ∀ g ∈ spec, mats.get? g = some (D.gate g)) (hc : ∀ g ∈ spec, ∀ g' ∈ spec, D.gate g * D.gate g' = D.gate g' * D.gate g) :
    ∃ F, spamMatrix mats spec = some F ∧ ∀ v, F *ᵥ v = spec.foldl (fun v g => D.gate g *ᵥ v) v := by
  have hmap : (spec.mapM fun g => mats.get? g) = some (spec.map D.gate) := mapM_eq_some spec _ _ hm
  have hrev : ∀ w : List Str, (∀ g ∈ w, g ∈ spec) → (w.map D.gate).foldl (· * ·) 1 = D.seq w := by
    intro w hw
    induction w with
    | nil => rfl
    | cons g w ih =>
      rw [List.map_cons, List.foldl_cons, Matrix.one_mul, foldl_mul_right, ← foldl_comm, ih fun g' hg' => hw g' (by simp [hg'])]
      · rw [show g :: w = [g] ++ w from rfl, seq_append, seq_single]
      · intro a ha
        obtain ⟨g', hg', rfl⟩ := List.mem_map.1 ha
        exact hc _ (hw g' (by simp [hg'])) _ (hw g (by simp))
  refine ⟨D.seq spec, ?_, ?_⟩
  · unfold spamMatrix
    rw [hmap]
    simp only [Option.bind_eq_bind, Option.bind_some]
    cases spec with
    | nil => exact absurd rfl hne
    | cons g w =>
      rw [List.map_cons]
      simp only
      rw [← hrev (g :: w) (fun _ h => h), List.map_cons, List.foldl_cons, Matrix.one_mul]
  · intro v
    have := foldl_mulVec D.gate spec 1 v
    rw [Matrix.one_mulVec] at this
    exact this.symm

/-! The default gate set. -/

/-- The labels of gatesetbasis.py:254-264. -/
def defaultGates : List Str := ["Id".toList, "X_Rot_90".toList, "Y_Rot_90".toList]

/-- The labels of gatesetbasis.py:259-264. -/
def defaultSpam : List Str := ["F0".toList, "F1".toList, "F2".toList, "F3".toList]

/-- gatesetbasis.py:259-264. -/
def defaultSpec (f : Str) : List Str :=
  if f = "F0".toList then ["Id".toList] else if f = "F1".toList then ["X_Rot_90".toList]
  else if f = "F2".toList then ["Y_Rot_90".toList] else ["X_Rot_90".toList, "X_Rot_90".toList]

/-- The Pauli transfer matrix of a quarter turn about x. -/
def x90 : Matrix (Fin 4) (Fin 4) ℝ := !![1, 0, 0, 0; 0, 1, 0, 0; 0, 0, 0, -1; 0, 0, 1, 0]

/-- The Pauli transfer matrix of a quarter turn about y. -/
def y90 : Matrix (Fin 4) (Fin 4) ℝ := !![1, 0, 0, 0; 0, 0, 0, 1; 0, 0, 1, 0; 0, -1, 0, 0]

/-- The ideal device of the default gate set (gateset_fitter.py:149-166). -/
noncomputable def defaultDevice : Device 4 where
  E := ![√(1/2), 0, 0, √(1/2)]
  rho := ![√(1/2), 0, 0, √(1/2)]
  gate g := if g = "X_Rot_90".toList then x90 else if g = "Y_Rot_90".toList then y90 else 1

/-- The exact probabilities of a device. -/
noncomputable def exactProbs {d : ℕ} (D : Device d) (spec : Str → List Str) (spam gates : List Str) : Dict Key ℝ :=
  (gstNeeded spam gates).map fun k => (k, match k with
    | .state l => D.run (match l with
      | [f] => spec f
      | [f, f'] => spec f ++ spec f'
      | [f, g, f'] => spec f ++ [g] ++ spec f'
      | _ => [])
    | _ => 0)

theorem get?_map_key {υ : Type} (l : List Key) (f : Key → υ) (k : Key) (h : k ∈ l) :
    Dict.get? (l.map fun k => (k, f k)) k = some (f k) := by
  induction l with
  | nil => cases h
  | cons a l ih =>
    rw [List.map_cons, Dict.get?_cons]
    by_cases e : a = k
    · subst e; simp
    · rw [if_neg e]
      exact ih (by rcases List.mem_cons.1 h with h | h; exact absurd h.symm e; exact h)

theorem exactProbs_exact {d : ℕ} (D : Device d) (spec : Str → List Str) (spam gates : List Str) :
    ExactProbs D spec spam gates (exactProbs D spec spam gates) := by
  refine ⟨?_, ?_, ?_⟩
  · intro f hf
    exact get?_map_key _ _ _ (List.mem_flatMap.2 ⟨f, hf, by simp⟩)
  · intro f hf f' hf'
    exact get?_map_key _ _ _ (List.mem_flatMap.2 ⟨f', hf', List.mem_cons_of_mem _ (List.mem_flatMap.2 ⟨f, hf, by simp⟩)⟩)
  · intro f hf g hg f' hf'
    exact get?_map_key _ _ _ (List.mem_flatMap.2 ⟨f', hf', List.mem_cons_of_mem _ (List.mem_flatMap.2 ⟨f, hf,
      List.mem_cons_of_mem _ (List.mem_map.2 ⟨g, hg, rfl⟩)⟩)⟩)

end Verif.Tomo
