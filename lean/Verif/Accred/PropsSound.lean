import Verif.Accred.LemmasBound
set_option linter.unusedSimpArgs false
/-
C109: soundness of accreditation. The bound reported by the fitter holds for noise with memory that
flips no qubit at the preparation or none at the measurement; it fails for noise that flips qubits at both.
-/
namespace Verif.Accred
open Verif Verif.Quantum Finset

variable {n : ℕ} {κ : Type} [Fintype κ]

/-- Distance between the strings recorded by accepted runs and a distribution: half the sum of the
differences of probabilities. -/
noncomputable def variationDistance (D : Device κ n) (e : κ → ℂ) (L : Layers n n) (v : ℕ) (ref : Str → ℝ) : ℝ :=
  1 / 2 * ∑ s ∈ strings n, |accProb D e L v s / pAcc D e L v - ref s|

theorem goodL (g : TwoQ) (hg : g ≠ .other) (body : List (InOp n n)) (hbody : ∀ op ∈ body, op.isBody) (hu : ∀ op ∈ body, op.unitary)
    (meas : List (Fin n × Fin n)) (hm : Straight meas) :
    ∃ L, layerParser g (body ++ meas.map fun p => .measure p.1 p.2) = some L ∧ GoodL L ∧
      ∀ s, ideal L s = strProb (sem (body.flatMap InOp.gates) ket0) (keyOf meas) s := by
  obtain ⟨L, hL, hLg, hLm, hlen, hnd, hsem⟩ := layerParser_spec g hg body hbody meas
  refine ⟨L, hL, ⟨hLg ▸ hg, hnd, hlen, layerParser_fine g _ ?_ L hL, hLm ▸ hm⟩, ?_⟩
  · intro op hop
    rcases List.mem_append.1 hop with h | h
    · exact hu op h
    · obtain ⟨p, _, rfl⟩ := List.mem_map.1 h
      trivial
  · intro s
    unfold ideal
    rw [hLg, hsem, hLm]

theorem accProb_nonneg (D : Device κ n) (e : κ → ℂ) (L : Layers n n) (h : GoodL L) (v : ℕ) (s : Str) : 0 ≤ accProb D e L v s := by
  rw [acc_formula D e L h]
  refine div_nonneg (sum_nonneg fun Ps _ => mul_nonneg (W_nonneg D e L Ps) (sum_nonneg fun v0 _ => mul_nonneg (miss_nonneg L Ps v0) (tgt_nonneg _ _ _))) ?_
  positivity

/-- **C109** For every target circuit of unitary one-qubit gates, CX gates and barriers with straight
measurements, every number `v` of traps, and every device whose noise — arbitrary, with memory of everything
that happened before — flips no qubit at the preparation or none at the measurement: summed over all
strings, the probability that a run is accepted with that string recorded differs from the probability of
acceptance times the probability of the string in the noiseless target by at most `2 * 1.6875 / (v + 1)`. -/
theorem C109_sound (g : TwoQ) (hg : g ≠ .other) (body : List (InOp n n)) (hbody : ∀ op ∈ body, op.isBody) (hu : ∀ op ∈ body, op.unitary)
    (meas : List (Fin n × Fin n)) (hm : Straight meas) (D : Device κ n) (hD : ∀ i, (D.prep i).NoFlip ∨ (D.meas i).NoFlip)
    (e : κ → ℂ) (he : ∑ k, Complex.normSq (e k) = 1) (v : ℕ) :
    ∃ L, layerParser g (body ++ meas.map fun p => .measure p.1 p.2) = some L ∧
      ∑ s ∈ strings n, |accProb D e L v s - pAcc D e L v * strProb (sem (body.flatMap InOp.gates) ket0) (keyOf meas) s| ≤ 2 * (27 / 16) / (v + 1) := by
  obtain ⟨L, hL, hgood, hid⟩ := goodL g hg body hbody hu meas hm
  refine ⟨L, hL, ?_⟩
  have := sound_core D e he hD L hgood v
  simp only [hid] at this
  norm_num at this ⊢
  exact this

/-- **C109** The distance of the strings of accepted runs from those of the noiseless target is at most
`1.6875 / (v + 1)` divided by the probability of acceptance. -/
theorem C109_distance (g : TwoQ) (hg : g ≠ .other) (body : List (InOp n n)) (hbody : ∀ op ∈ body, op.isBody) (hu : ∀ op ∈ body, op.unitary)
    (meas : List (Fin n × Fin n)) (hm : Straight meas) (D : Device κ n) (hD : ∀ i, (D.prep i).NoFlip ∨ (D.meas i).NoFlip)
    (e : κ → ℂ) (he : ∑ k, Complex.normSq (e k) = 1) (v : ℕ) :
    ∃ L, layerParser g (body ++ meas.map fun p => .measure p.1 p.2) = some L ∧ (0 < pAcc D e L v →
      variationDistance D e L v (strProb (sem (body.flatMap InOp.gates) ket0) (keyOf meas)) ≤ 27 / 16 / (v + 1) / pAcc D e L v) := by
  obtain ⟨L, hL, h⟩ := C109_sound g hg body hbody hu meas hm D hD e he v
  refine ⟨L, hL, fun hp => ?_⟩
  unfold variationDistance
  have h1 : ∀ s, |accProb D e L v s / pAcc D e L v - strProb (sem (body.flatMap InOp.gates) ket0) (keyOf meas) s| =
      |accProb D e L v s - pAcc D e L v * strProb (sem (body.flatMap InOp.gates) ket0) (keyOf meas) s| / pAcc D e L v := by
    intro s
    rw [← abs_of_pos hp, ← abs_div, abs_of_pos hp]
    congr 1
    field_simp
  simp only [h1]
  rw [← sum_div, le_div_iff₀ hp, mul_assoc, div_mul_cancel₀ _ hp.ne']
  have hv : (0 : ℝ) < (v : ℝ) + 1 := by positivity
  have : 2 * (27 / 16) / ((v : ℝ) + 1) = 2 * (27 / 16 / (v + 1)) := by ring
  rw [this] at h
  linarith

/-- The distance of two distributions is at most 1. -/
theorem distance_le_one (D : Device κ n) (e : κ → ℂ) (L : Layers n n) (h : GoodL L) (v : ℕ) (hp : 0 < pAcc D e L v) :
    variationDistance D e L v (ideal L) ≤ 1 := by
  unfold variationDistance
  have h1 : ∑ s ∈ strings n, |accProb D e L v s / pAcc D e L v - ideal L s| ≤ ∑ s ∈ strings n, (accProb D e L v s / pAcc D e L v + ideal L s) := by
    refine sum_le_sum fun s _ => ?_
    have h2 : 0 ≤ accProb D e L v s / pAcc D e L v := div_nonneg (accProb_nonneg D e L h v s) hp.le
    have h3 := ideal_nonneg L h s
    rw [abs_le]
    constructor <;> linarith
  rw [sum_add_distrib, ← sum_div, ideal_total L h] at h1
  have : (∑ s ∈ strings n, accProb D e L v s) / pAcc D e L v = 1 := div_self hp.ne'
  rw [this] at h1
  linarith

/-- **C109** The bound reported by `bound_variation_distance` is a bound on that distance, for every
fitter that has seen runs with `v` traps and whose share of accepted runs exceeds the probability of
acceptance by at most `theta`. -/
theorem C109_bound (g : TwoQ) (hg : g ≠ .other) (body : List (InOp n n)) (hbody : ∀ op ∈ body, op.isBody) (hu : ∀ op ∈ body, op.unitary)
    (meas : List (Fin n × Fin n)) (hm : Straight meas) (D : Device κ n) (hD : ∀ i, (D.prep i).NoFlip ∨ (D.meas i).NoFlip)
    (e : κ → ℂ) (he : ∑ k, Complex.normSq (e k) = 1) (v : ℕ) :
    ∃ L, layerParser g (body ++ meas.map fun p => .measure p.1 p.2) = some L ∧ (0 < pAcc D e L v →
      ∀ (f f' : Fitter) (theta : ℚ), boundVariationDistance f theta = some f' → f.numTraps = v → f.bound = 1 →
        ((f.nAcc : ℝ) / f.numRuns - theta ≤ pAcc D e L v) →
        variationDistance D e L v (strProb (sem (body.flatMap InOp.gates) ket0) (keyOf meas)) ≤ f'.bound) := by
  obtain ⟨L, hL, hd⟩ := C109_distance g hg body hbody hu meas hm D hD e he v
  obtain ⟨L', hL', hgood, hid⟩ := goodL g hg body hbody hu meas hm
  obtain rfl : L = L' := Option.some.inj (hL.symm.trans hL')
  refine ⟨L, hL, fun hp f f' theta hb ht hf hs => ?_⟩
  have h1 : variationDistance D e L v (strProb (sem (body.flatMap InOp.gates) ket0) (keyOf meas)) ≤ 1 := by
    rw [← funext hid]; exact distance_le_one D e L hgood v hp
  by_cases hsh : (f.nAcc : ℚ) / f.numRuns > theta
  · rw [(C34_bound f theta f' hb).2 hsh]
    push_cast
    refine le_min h1 ((hd hp).trans ?_)
    rw [ht]
    have hpos : (0 : ℝ) < (f.nAcc : ℝ) / f.numRuns - theta := by
      have : (theta : ℝ) < ((f.nAcc : ℚ) / f.numRuns : ℚ) := by exact_mod_cast hsh
      push_cast at this
      linarith
    have hv : (0 : ℝ) < (v : ℝ) + 1 := by positivity
    push_cast
    refine (div_le_div_of_nonneg_left (by positivity) hpos hs).trans ?_
    refine div_le_div_of_nonneg_right (div_le_div_of_nonneg_right (by norm_num) hv.le) hpos.le
  · have : f'.bound = 1 := by
      unfold boundVariationDistance at hb
      split at hb
      · simp at hb
      · simp only [Option.some.injEq] at hb
        subst hb
        simp [hsh, hf]
    rw [this]
    exact_mod_cast h1

end Verif.Accred
