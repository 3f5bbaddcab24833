import Verif.MeasMit.SpecShots
import Verif.MeasMit.PropsLsq
import Verif.Expval.LemmasShots
import Verif.Expval.PropsCalShots
import Verif.MeasMit.PropsFit
import Mathlib.Algebra.Order.Chebyshev
/-
C126 corrected counts from finitely many shots.
-/
namespace Verif.MeasMit
open Verif Verif.Expval

variable {O : Type} [Fintype O] {N : ℕ} {states : List Str}

theorem lsum (h : states.Nodup) (f : Str → ℝ) : (states.map f).sum = ∑ s ∈ states.toFinset, f s := (List.sum_toFinset f h).symm

omit [Fintype O] in
/-- A frequency is a mean over the shots. -/
theorem Tally.freq {out : O → Str} {ω : Fin N → O} {raw : Dict Str ℝ} (h : Tally states out ω raw) (s : Str) :
    val raw s / N = QV.avg (fun o => if out o = s then 1 else 0) ω := by
  unfold QV.avg
  rw [h.tally, Finset.sum_boole]

omit [Fintype O] in
theorem Tally.total {out : O → Str} {ω : Fin N → O} {raw : Dict Str ℝ} (h : Tally states out ω raw) (hn : states.Nodup) (hr : ∀ o, out o ∈ states) :
    (states.map (val raw)).sum = N := by
  rw [lsum hn]
  simp only [h.tally]
  rw [← Nat.cast_sum, ← Finset.card_eq_sum_card_fiberwise (f := fun k => out (ω k)) (s := Finset.univ) fun k _ => by
    simpa using hr (ω k)]
  simp

omit [Fintype O] in
/-- A linear function of the frequencies is a mean over the shots. -/
theorem Tally.linear {out : O → Str} {ω : Fin N → O} {raw : Dict Str ℝ} (h : Tally states out ω raw) (hr : ∀ o, out o ∈ states) (x : Str → ℝ) :
    ∑ t ∈ states.toFinset, x t * (val raw t / N) = QV.avg (fun o => x (out o)) ω := by
  have e : ∀ t, x t * (val raw t / N) = (∑ k, if out (ω k) = t then x t else 0) / N := by
    intro t
    rw [h.freq]
    unfold QV.avg
    rw [← mul_div_assoc, Finset.mul_sum]
    congr 1
    exact Finset.sum_congr rfl fun k _ => by by_cases hk : out (ω k) = t <;> simp [hk]
  simp only [e]
  rw [← Finset.sum_div, Finset.sum_comm]
  unfold QV.avg
  congr 1
  refine Finset.sum_congr rfl fun k _ => ?_
  rw [Finset.sum_eq_single (out (ω k))]
  · rw [if_pos rfl]
  · intro t _ ht; rw [if_neg (Ne.symm ht)]
  · intro h'; exact absurd (by simpa using hr (ω k)) h'

/-- The average of a function of what is read. -/
theorem reads_sum (w : O → ℝ) (out : O → Str) (hr : ∀ o, out o ∈ states) (x : Str → ℝ) :
    ∑ o, w o * x (out o) = ∑ t ∈ states.toFinset, x t * ∑ o, if out o = t then w o else 0 := by
  simp only [Finset.mul_sum]
  rw [Finset.sum_comm]
  refine Finset.sum_congr rfl fun o _ => ?_
  rw [Finset.sum_eq_single (out o)]
  · rw [if_pos rfl, mul_comm]
  · intro t _ ht; rw [if_neg (Ne.symm ht), mul_zero]
  · intro h; exact absurd (by simpa using hr o) h

/-- `X` undoes `A`. -/
def Undoes (S : Finset Str) (X A : Str → Str → ℝ) : Prop := ∀ s ∈ S, ∀ u ∈ S, ∑ t ∈ S, X s t * A t u = if s = u then 1 else 0

theorem undoes_apply {S : Finset Str} {X A : Str → Str → ℝ} (h : Undoes S X A) (p : Str → ℝ) {s : Str} (hs : s ∈ S) :
    ∑ t ∈ S, X s t * ∑ u ∈ S, A t u * p u = p s := by
  have : ∑ t ∈ S, X s t * ∑ u ∈ S, A t u * p u = ∑ u ∈ S, (∑ t ∈ S, X s t * A t u) * p u := by
    simp only [Finset.mul_sum, Finset.sum_mul]
    rw [Finset.sum_comm]
    exact Finset.sum_congr rfl fun u _ => Finset.sum_congr rfl fun t _ => by ring
  rw [this, Finset.sum_congr rfl fun u hu => by rw [h s hs u hu]]
  simp [hs]

/-- The 1-norm of a matrix times a vector. -/
theorem col_norm {S : Finset Str} {X : Str → Str → ℝ} {g : ℝ} (hg : ∀ t ∈ S, ∑ s ∈ S, |X s t| ≤ g) (v : Str → ℝ) :
    ∑ s ∈ S, |∑ t ∈ S, X s t * v t| ≤ g * ∑ t ∈ S, |v t| := by
  calc ∑ s ∈ S, |∑ t ∈ S, X s t * v t| ≤ ∑ s ∈ S, ∑ t ∈ S, |X s t| * |v t| := Finset.sum_le_sum fun s _ =>
        (Finset.abs_sum_le_sum_abs _ _).trans (le_of_eq (Finset.sum_congr rfl fun t _ => abs_mul _ _))
    _ = ∑ t ∈ S, (∑ s ∈ S, |X s t|) * |v t| := by
        rw [Finset.sum_comm]
        exact Finset.sum_congr rfl fun t _ => by rw [Finset.sum_mul]
    _ ≤ ∑ t ∈ S, g * |v t| := Finset.sum_le_sum fun t ht => mul_le_mul_of_nonneg_right (hg t ht) (abs_nonneg _)
    _ = g * ∑ t ∈ S, |v t| := by rw [Finset.mul_sum]

/-- What is read differs from what the calibration predicts by at most the calibration error. -/
theorem NoisyDevice.calibration {w : O → ℝ} {out : O → Str} {R A : Str → Str → ℝ} {p : Str → ℝ} {η : ℝ} (h : NoisyDevice w out states R A p η) (hn : states.Nodup) :
    ∑ s ∈ states.toFinset, |(∑ o, if out o = s then w o else 0) - ∑ u ∈ states.toFinset, A s u * p u| ≤ η := by
  have e : ∀ s ∈ states.toFinset, (∑ o, if out o = s then w o else 0) - ∑ u ∈ states.toFinset, A s u * p u =
      ∑ u ∈ states.toFinset, (R s u - A s u) * p u := by
    intro s hs
    rw [h.device s (by simpa using hs)]
    unfold noisyCounts
    rw [lsum hn, ← Finset.sum_sub_distrib]
    exact Finset.sum_congr rfl fun u _ => by ring
  rw [Finset.sum_congr rfl fun s hs => by rw [e s hs]]
  refine (col_norm (g := η) (fun t ht => ?_) p).trans (le_of_eq ?_)
  · have := h.calibrated t (by simpa using ht)
    rwa [lsum hn] at this
  · have h1 := h.total
    rw [lsum hn] at h1
    rw [Finset.sum_congr rfl fun t ht => abs_of_nonneg (h.nonneg t (by simpa using ht)), h1, mul_one]

/-- Expected squared distance of the frequencies from the probabilities. -/
theorem freq_scatter (hN : 0 < N) (w : O → ℝ) (hw : IsDistr w) (out : O → Str) (S : Finset Str) :
    ∑ ω : Fin N → O, shotsProb w ω * ∑ s ∈ S, (QV.avg (fun o => if out o = s then 1 else 0) ω - ∑ o, if out o = s then w o else 0) ^ 2 ≤ 1 / N := by
  have hN' : (0 : ℝ) < N := by exact_mod_cast hN
  simp only [Finset.mul_sum]
  rw [Finset.sum_comm]
  have e : ∀ s ∈ S, ∑ ω : Fin N → O, shotsProb w ω * (QV.avg (fun o => if out o = s then 1 else 0) ω - ∑ o, if out o = s then w o else 0) ^ 2 ≤
      (∑ o, if out o = s then w o else 0) / N := by
    intro s _
    have h := QV.avg_variance N hN w hw.2 (fun o => if out o = s then 1 else 0) (∑ o, if out o = s then w o else 0)
      (Finset.sum_congr rfl fun o _ => by split <;> simp)
    unfold shotsProb
    rw [h]
    refine div_le_div_of_nonneg_right ?_ hN'.le
    have : ∑ o, w o * (if out o = s then (1 : ℝ) else 0) ^ 2 = ∑ o, if out o = s then w o else 0 := Finset.sum_congr rfl fun o _ => by split <;> simp
    rw [this]
    nlinarith [sq_nonneg (∑ o, if out o = s then w o else 0)]
  refine (Finset.sum_le_sum e).trans ?_
  rw [← Finset.sum_div]
  refine div_le_div_of_nonneg_right ?_ hN'.le
  rw [Finset.sum_comm, ← hw.2]
  refine Finset.sum_le_sum fun o _ => ?_
  by_cases h : out o ∈ S
  · rw [Finset.sum_eq_single (out o)]
    · rw [if_pos rfl]
    · intro t _ ht; rw [if_neg (Ne.symm ht)]
    · intro h'; exact absurd h h'
  · rw [Finset.sum_eq_zero]
    · exact hw.1 o
    · intro t ht; rw [if_neg]; rintro rfl; exact h ht

open Classical in
/-- The frequencies are far from the probabilities with small probability, in the Euclidean distance. -/
theorem freq_far (hN : 0 < N) (w : O → ℝ) (hw : IsDistr w) (out : O → Str) (S : Finset Str) (ε : ℝ) (hε : 0 < ε) (B : (Fin N → O) → Prop)
    (hB : ∀ ω, B ω → ε ^ 2 ≤ ∑ s ∈ S, (QV.avg (fun o => if out o = s then 1 else 0) ω - ∑ o, if out o = s then w o else 0) ^ 2) :
    (∑ ω, if B ω then shotsProb w ω else 0) ≤ 1 / (N * ε ^ 2) := by
  have h := markov (fun ω : Fin N → O => shotsProb w ω) (fun ω => Finset.prod_nonneg fun _ _ => hw.1 _) B
    (fun ω => (∑ s ∈ S, (QV.avg (fun o => if out o = s then 1 else 0) ω - ∑ o, if out o = s then w o else 0) ^ 2) / ε ^ 2)
    (fun ω => div_nonneg (Finset.sum_nonneg fun _ _ => sq_nonneg _) (sq_nonneg _)) fun ω h => by
      rw [le_div_iff₀ (by positivity), one_mul]; exact hB ω h
  refine h.trans ?_
  simp only [← mul_div_assoc]
  rw [← Finset.sum_div, ← div_div]
  exact div_le_div_of_nonneg_right (freq_scatter hN w hw out S) (by positivity)

/-- A filter that multiplies the counts with a matrix `X` that undoes the calibrated noise. -/
theorem linear_accurate (hN : 0 < N) (hn : states.Nodup) (w : O → ℝ) (hw : IsDistr w) (out : O → Str) (R A X : Str → Str → ℝ) (p : Str → ℝ) (g η : ℝ) (hg0 : 0 < g)
    (hX : Undoes states.toFinset X A) (hA : ∀ u ∈ states.toFinset, ∑ t ∈ states.toFinset, A t u = 1) (hAX : Undoes states.toFinset A X)
    (hg : ColBound states X g) (hdev : NoisyDevice w out states R A p η)
    (raw cor : (Fin N → O) → Dict Str ℝ) (hraw : ∀ ω, Tally states out ω (raw ω))
    (hcor : ∀ ω, ∀ s ∈ states, val (cor ω) s = ∑ t ∈ states.toFinset, X s t * val (raw ω) t) : FilterAccurate states w p g η cor := by
  classical
  have hN' : (0 : ℝ) < N := by exact_mod_cast hN
  have hr := hdev.reads
  set S := states.toFinset with hS
  have hg' : ∀ t ∈ S, ∑ s ∈ S, |X s t| ≤ g := fun t ht => by
    have := hg t (by simpa [hS] using ht)
    rwa [lsum hn] at this
  set q : Str → ℝ := fun s => ∑ o, if out o = s then w o else 0 with hq
  have hf : ∀ ω, ∀ s ∈ S, freq N (cor ω) s = ∑ t ∈ S, X s t * (val (raw ω) t / N) := by
    intro ω s hs
    unfold MeasMit.freq
    rw [hcor ω s (by simpa [hS] using hs), Finset.sum_div]
    exact Finset.sum_congr rfl fun t _ => by ring
  have hcal := hdev.calibration hn
  rw [← hS] at hcal
  have hmean : ∀ s ∈ S, ∑ ω, shotsProb w ω * freq N (cor ω) s = ∑ t ∈ S, X s t * q t := by
    intro s hs
    have e : ∀ ω, freq N (cor ω) s = QV.avg (fun o => X s (out o)) ω := fun ω => (hf ω s hs).trans ((hraw ω).linear hr fun t => X s t)
    simp only [e]
    have := QV.avg_mean N hN w hw.2 fun o => X s (out o)
    unfold shotsProb
    rw [this, reads_sum w out hr fun t => X s t]
  have hdiff : ∀ s ∈ S, ∑ t ∈ S, X s t * q t - p s = ∑ t ∈ S, X s t * (q t - ∑ u ∈ S, A t u * p u) := by
    intro s hs
    simp only [mul_sub, Finset.sum_sub_distrib, undoes_apply hX p hs]
  have hbias : ∑ s ∈ S, |∑ t ∈ S, X s t * q t - p s| ≤ g * η := by
    rw [Finset.sum_congr rfl fun s hs => by rw [hdiff s hs]]
    exact (col_norm hg' _).trans (mul_le_mul_of_nonneg_left hcal hg0.le)
  have hcolX : ∀ t ∈ S, ∑ s ∈ S, X s t = 1 := by
    intro t ht
    have h1 : ∑ s ∈ S, (∑ v ∈ S, A v s) * X s t = ∑ s ∈ S, X s t := Finset.sum_congr rfl fun s hs => by rw [hA s hs, one_mul]
    rw [← h1]
    simp only [Finset.sum_mul]
    rw [Finset.sum_comm, Finset.sum_congr rfl fun v hv => hAX v hv t ht]
    simp [ht]
  refine ⟨fun ω => ?_, ?_, fun ε hε => ?_, fun d hd ε hε => ?_⟩
  · have h1 := (hraw ω).total hn hr
    rw [lsum hn] at h1 ⊢
    rw [← hS] at h1 ⊢
    rw [Finset.sum_congr rfl fun s hs => hcor ω s (by simpa [hS] using hs), Finset.sum_comm, ← h1]
    refine Finset.sum_congr rfl fun t ht => ?_
    rw [← Finset.sum_mul, hcolX t ht, one_mul]
  · unfold off
    rw [lsum hn, ← hS]
    refine le_trans (le_of_eq (Finset.sum_congr rfl fun s hs => ?_)) hbias
    simp only [hmean s hs]
  · have hlen : (states.length : ℝ) = S.card := by rw [hS, List.toFinset_card_of_nodup hn]
    rcases Nat.eq_zero_or_pos S.card with h0 | hpos
    · have hz : ∀ ω, ¬ g * (η + ε) ≤ off states (freq N (cor ω)) p := by
        intro ω h
        have hη : 0 ≤ η := (Finset.sum_nonneg fun _ _ => abs_nonneg _).trans hcal
        unfold off at h
        rw [lsum hn, ← hS, Finset.card_eq_zero.1 h0, Finset.sum_empty] at h
        have : 0 < g * (η + ε) := by positivity
        linarith
      rw [Finset.sum_eq_zero fun ω _ => if_neg (hz ω)]
      positivity
    · have hc : (0 : ℝ) < S.card := by exact_mod_cast hpos
      rw [hlen, show (S.card : ℝ) / (N * ε ^ 2) = 1 / (N * (ε / √S.card) ^ 2) by
        rw [div_pow, Real.sq_sqrt hc.le]; field_simp]
      refine freq_far hN w hw out S (ε / √S.card) (by positivity) _ fun ω h => ?_
      rw [div_pow, Real.sq_sqrt hc.le, div_le_iff₀ hc]
      have h1 : ε ≤ ∑ s ∈ S, |QV.avg (fun o => if out o = s then 1 else 0) ω - q s| := by
        have h2 : off states (freq N (cor ω)) p ≤ g * (∑ s ∈ S, |QV.avg (fun o => if out o = s then 1 else 0) ω - q s|) + g * η := by
          unfold off
          rw [lsum hn, ← hS]
          have e : ∀ s ∈ S, |freq N (cor ω) s - p s| ≤ |∑ t ∈ S, X s t * (QV.avg (fun o => if out o = t then 1 else 0) ω - q t)| +
              |∑ t ∈ S, X s t * q t - p s| := by
            intro s hs
            refine le_trans (le_of_eq ?_) (abs_add_le _ _)
            rw [hf ω s hs]
            simp only [(hraw ω).freq, mul_sub, Finset.sum_sub_distrib]
            congr 1
            ring
          refine (Finset.sum_le_sum e).trans ?_
          rw [Finset.sum_add_distrib]
          exact add_le_add (col_norm hg' _) hbias
        have h3 := h.trans h2
        rw [← mul_add] at h3
        have := le_of_mul_le_mul_left h3 hg0
        linarith
      calc ε ^ 2 ≤ (∑ s ∈ S, |QV.avg (fun o => if out o = s then 1 else 0) ω - q s|) ^ 2 := pow_le_pow_left₀ hε.le h1 2
        _ ≤ S.card * ∑ s ∈ S, |QV.avg (fun o => if out o = s then 1 else 0) ω - q s| ^ 2 := sq_sum_le_card_mul_sum_sq
        _ = (∑ s ∈ S, (QV.avg (fun o => if out o = s then 1 else 0) ω - q s) ^ 2) * S.card := by
            rw [mul_comm]; congr 1; exact Finset.sum_congr rfl fun s _ => sq_abs _
  · have hd' : ∀ s ∈ S, |d s| ≤ 1 := fun s hs => hd s (by simpa [hS] using hs)
    set co : Str → ℝ := fun t => ∑ s ∈ S, d s * X s t with hco
    have hcob : ∀ t ∈ S, |co t| ≤ g := by
      intro t ht
      refine (Finset.abs_sum_le_sum_abs _ _).trans ((Finset.sum_le_sum fun s hs => ?_).trans (hg' t ht))
      rw [abs_mul]
      exact mul_le_of_le_one_left (abs_nonneg _) (hd' s hs)
    have hval : ∀ ω, (states.map fun s => d s * freq N (cor ω) s).sum = QV.avg (fun o => co (out o)) ω := by
      intro ω
      rw [lsum hn, ← hS, ← (hraw ω).linear hr co, Finset.sum_congr rfl fun s hs => by rw [hf ω s hs]]
      simp only [hco, Finset.mul_sum, Finset.sum_mul]
      rw [Finset.sum_comm]
      exact Finset.sum_congr rfl fun t _ => Finset.sum_congr rfl fun s _ => by ring
    have hm : ∑ o, w o * co (out o) = ∑ s ∈ S, d s * ∑ t ∈ S, X s t * q t := by
      have h1 : ∑ o, w o * co (out o) = ∑ t ∈ S, co t * q t := reads_sum w out hr co
      rw [h1]
      simp only [hco, Finset.sum_mul]
      rw [Finset.sum_comm]
      exact Finset.sum_congr rfl fun s _ => by
        rw [Finset.mul_sum]
        exact Finset.sum_congr rfl fun t _ => by ring
    have hb : |∑ o, w o * co (out o) - ∑ s ∈ S, d s * p s| ≤ g * η := by
      rw [hm, ← Finset.sum_sub_distrib]
      refine (Finset.abs_sum_le_sum_abs _ _).trans ((Finset.sum_le_sum fun s hs => ?_).trans hbias)
      rw [← mul_sub, abs_mul]
      exact mul_le_of_le_one_left (abs_nonneg _) (hd' s hs)
    refine hoeffding N hN w hw.1 hw.2 (fun o => co (out o)) g hg0 (fun o => hcob _ (by simpa [hS] using hr o)) _ rfl ε hε.le _ fun ω h => ?_
    rw [hval, lsum hn, ← hS] at h
    have := abs_add_le (QV.avg (fun o => co (out o)) ω - ∑ o, w o * co (out o)) (∑ o, w o * co (out o) - ∑ s ∈ S, d s * p s)
    rw [sub_add_sub_cancel] at this
    linarith

/-- Euclidean distances. -/
theorem l2_triangle (S : Finset Str) (a b : Str → ℝ) : √(∑ s ∈ S, (a s + b s) ^ 2) ≤ √(∑ s ∈ S, a s ^ 2) + √(∑ s ∈ S, b s ^ 2) := by
  have ha : 0 ≤ ∑ s ∈ S, a s ^ 2 := Finset.sum_nonneg fun _ _ => sq_nonneg _
  have hb : 0 ≤ ∑ s ∈ S, b s ^ 2 := Finset.sum_nonneg fun _ _ => sq_nonneg _
  refine Real.sqrt_le_iff.2 ⟨by positivity, ?_⟩
  have hcs : ∑ s ∈ S, a s * b s ≤ √(∑ s ∈ S, a s ^ 2) * √(∑ s ∈ S, b s ^ 2) := by
    rw [← Real.sqrt_mul ha]
    exact Real.le_sqrt_of_sq_le (Finset.sum_mul_sq_le_sq_mul_sq S a b)
  have e : ∑ s ∈ S, (a s + b s) ^ 2 = ∑ s ∈ S, a s ^ 2 + 2 * ∑ s ∈ S, a s * b s + ∑ s ∈ S, b s ^ 2 := by
    rw [Finset.mul_sum, ← Finset.sum_add_distrib, ← Finset.sum_add_distrib]
    exact Finset.sum_congr rfl fun s _ => by ring
  rw [e, add_sq, Real.sq_sqrt ha, Real.sq_sqrt hb]
  linarith

theorem l2_le_l1 (S : Finset Str) (a : Str → ℝ) : √(∑ s ∈ S, a s ^ 2) ≤ ∑ s ∈ S, |a s| := by
  have h0 : 0 ≤ ∑ s ∈ S, |a s| := Finset.sum_nonneg fun _ _ => abs_nonneg _
  refine Real.sqrt_le_iff.2 ⟨h0, ?_⟩
  have := Finset.sum_sq_le_sq_sum_of_nonneg (s := S) (f := fun s => |a s|) fun _ _ => abs_nonneg _
  simpa [sq_abs] using this

/-- A filter that returns the best physical counts. -/
theorem lsq_accurate (hN : 0 < N) (hn : states.Nodup) (w : O → ℝ) (hw : IsDistr w) (out : O → Str) (R A X : Str → Str → ℝ) (p : Str → ℝ) (g η : ℝ) (hg0 : 0 < g)
    (hX : Undoes states.toFinset X A) (hg : ColBound states X g) (hdev : NoisyDevice w out states R A p η)
    (raw cor : (Fin N → O) → Dict Str ℝ) (hraw : ∀ ω, Tally states out ω (raw ω))
    (hcor : ∀ ω, IsBest states A (val (raw ω)) 0 (val (cor ω))) : LsqAccurate states w p g η cor := by
  classical
  have hN' : (0 : ℝ) < N := by exact_mod_cast hN
  have hr := hdev.reads
  refine ⟨fun ω => (hraw ω).total hn hr ▸ (hcor ω).1, fun ε hε => ?_⟩
  set S := states.toFinset with hS
  have hg' : ∀ t ∈ S, ∑ s ∈ S, |X s t| ≤ g := fun t ht => by
    have := hg t (by simpa [hS] using ht)
    rwa [lsum hn] at this
  have hcal := hdev.calibration hn
  rw [← hS] at hcal
  set q : Str → ℝ := fun s => ∑ o, if out o = s then w o else 0 with hq
  have hSpos : 0 < S.card := by
    rcases Nat.eq_zero_or_pos S.card with h0 | h0
    · have h1 := hdev.total
      rw [lsum hn, ← hS, Finset.card_eq_zero.1 h0, Finset.sum_empty] at h1
      exact absurd h1 (by norm_num)
    · exact h0
  have hc : (0 : ℝ) < √S.card := Real.sqrt_pos.2 (by exact_mod_cast hSpos)
  refine freq_far hN w hw out S ε hε _ fun ω h => ?_
  rw [show (states.length : ℝ) = S.card by rw [hS, List.toFinset_card_of_nodup hn]] at h
  set f := freq N (cor ω) with hf
  have hphys : Physical states (states.map (val (raw ω))).sum fun t => N * p t := by
    refine ⟨fun t ht => mul_nonneg hN'.le (hdev.nonneg t ht), ?_⟩
    rw [(hraw ω).total hn hr, List.sum_map_mul_left, hdev.total, mul_one]
  have hclose := C115_closer (hcor ω) hphys
  have e1 : ∑ s ∈ S, (∑ u ∈ S, A s u * f u - ∑ u ∈ S, A s u * p u) ^ 2 ≤
      ∑ s ∈ S, (QV.avg (fun o => if out o = s then 1 else 0) ω - ∑ u ∈ S, A s u * p u) ^ 2 := by
    have hN2 : (0 : ℝ) < N ^ 2 := by positivity
    refine le_of_mul_le_mul_left ?_ hN2
    unfold dist2 noisyCounts at hclose
    simp only [lsum hn, ← hS] at hclose
    refine le_trans (le_of_eq ?_) (hclose.trans (le_of_eq ?_))
    · rw [Finset.mul_sum]
      refine Finset.sum_congr rfl fun s _ => ?_
      rw [← mul_pow, mul_sub, Finset.mul_sum, Finset.mul_sum]
      congr 2
      · refine Finset.sum_congr rfl fun u _ => ?_
        rw [hf]; unfold MeasMit.freq; field_simp
      · exact Finset.sum_congr rfl fun u _ => by ring
    · rw [Finset.mul_sum]
      refine Finset.sum_congr rfl fun s _ => ?_
      rw [← (hraw ω).freq, ← mul_pow, mul_sub, mul_div_cancel₀ _ hN'.ne', Finset.mul_sum]
      congr 2
      exact Finset.sum_congr rfl fun u _ => by ring
  have e2 : off states f p ≤ g * ∑ s ∈ S, |∑ u ∈ S, A s u * f u - ∑ u ∈ S, A s u * p u| := by
    unfold off
    rw [lsum hn, ← hS]
    refine le_trans (le_of_eq (Finset.sum_congr rfl fun s hs => ?_)) (col_norm hg' fun t => ∑ u ∈ S, A t u * f u - ∑ u ∈ S, A t u * p u)
    simp only [mul_sub, Finset.sum_sub_distrib, undoes_apply hX _ hs]
  have e3 : ∑ s ∈ S, |∑ u ∈ S, A s u * f u - ∑ u ∈ S, A s u * p u| ≤ √S.card * √(∑ s ∈ S, (∑ u ∈ S, A s u * f u - ∑ u ∈ S, A s u * p u) ^ 2) := by
    rw [← Real.sqrt_mul (Nat.cast_nonneg _)]
    refine Real.le_sqrt_of_sq_le ?_
    refine (sq_sum_le_card_mul_sum_sq (s := S)).trans (le_of_eq ?_)
    simp only [sq_abs]
  have e4 : √(∑ s ∈ S, (QV.avg (fun o => if out o = s then 1 else 0) ω - ∑ u ∈ S, A s u * p u) ^ 2) ≤
      √(∑ s ∈ S, (QV.avg (fun o => if out o = s then 1 else 0) ω - q s) ^ 2) + η := by
    have h1 := l2_triangle S (fun s => QV.avg (fun o => if out o = s then 1 else 0) ω - q s) fun s => q s - ∑ u ∈ S, A s u * p u
    simp only [sub_add_sub_cancel] at h1
    exact h1.trans (add_le_add_right ((l2_le_l1 S _).trans hcal) _)
  have h1 : g * √S.card * (η + ε) ≤ g * √S.card * (√(∑ s ∈ S, (QV.avg (fun o => if out o = s then 1 else 0) ω - q s) ^ 2) + η) := by
    refine h.trans (e2.trans ?_)
    rw [mul_assoc]
    exact mul_le_mul_of_nonneg_left (e3.trans (mul_le_mul_of_nonneg_left ((Real.sqrt_le_sqrt e1).trans e4) hc.le)) hg0.le
  have h2 := le_of_mul_le_mul_left h1 (by positivity)
  have h3 : ε ≤ √(∑ s ∈ S, (QV.avg (fun o => if out o = s then 1 else 0) ω - q s) ^ 2) := by linarith
  exact (Real.le_sqrt hε.le (Finset.sum_nonneg fun _ _ => sq_nonneg _)).1 h3

/-! ### The filter of one calibration matrix -/

/-- Sums over labels and over positions. -/
theorem label_sum {labels : List Str} (f : Str → ℝ) : (labels.map f).sum = ((List.range labels.length).map fun i => f (labels.getD i [])).sum := by
  conv_lhs => rw [labels_range labels, List.map_map]
  rfl

theorem entry_undoes {labels : List Str} (hl : labels.Nodup) {x a : Mat ℝ} (h : toMatrix labels.length x * toMatrix labels.length a = 1) :
    Undoes labels.toFinset (entry labels x) (entry labels a) := by
  intro s hs u hu
  obtain ⟨i, hi, rfl⟩ := List.getElem_of_mem (List.mem_toFinset.1 hs)
  obtain ⟨k, hk, rfl⟩ := List.getElem_of_mem (List.mem_toFinset.1 hu)
  have g : ∀ j, ∀ hj : j < labels.length, labels[j] = labels.getD j [] := fun j hj => by simp [List.getD_eq_getElem?_getD, hj]
  rw [← lsum hl, label_sum, g i hi, g k hk]
  have e : ((List.range labels.length).map fun j => entry labels x (labels.getD i []) (labels.getD j []) * entry labels a (labels.getD j []) (labels.getD k [])) =
      (List.range labels.length).map fun j => x i j * a j k :=
    List.map_congr_left fun j hj => by rw [entry_getD hl x hi (List.mem_range.1 hj), entry_getD hl a (List.mem_range.1 hj) hk]
  rw [e, entry_mul _ x a h i k hi hk, ← g i hi, ← g k hk]
  by_cases hik : i = k
  · subst hik; simp
  · rw [if_neg hik, if_neg]
    rwa [hl.getElem_inj_iff]

theorem entry_stochastic {labels : List Str} (hl : labels.Nodup) {a : Mat ℝ} (h : ColumnStochastic labels.length a) {u : Str} (hu : u ∈ labels.toFinset) :
    ∑ t ∈ labels.toFinset, entry labels a t u = 1 := by
  obtain ⟨k, hk, rfl⟩ := List.getElem_of_mem (List.mem_toFinset.1 hu)
  rw [← lsum hl, label_sum, ← h k hk]
  congr 1
  refine List.map_congr_left fun j hj => ?_
  rw [show labels[k] = labels.getD k [] by simp [List.getD_eq_getElem?_getD, hk], entry_getD hl a (List.mem_range.1 hj) hk]

/-- C126: `MeasurementFilter.apply(counts, method='pseudo_inverse')` on the counts of finitely many shots. -/
theorem C126_pinv {labels : List Str} (hN : 0 < N) (hl : labels.Nodup) {cal pinv : Mat ℝ} (hx : IsPinv labels.length cal pinv)
    (ha : Invertible labels.length cal) (hc : ColumnStochastic labels.length cal) (solve : Solver) (rand : (Fin N → O) → Nat → ℝ)
    (w : O → ℝ) (hw : IsDistr w) (out : O → Str) (R : Str → Str → ℝ) (p : Str → ℝ) (g η : ℝ) (hg0 : 0 < g) (hg : ColBound labels (entry labels pinv) g)
    (hdev : NoisyDevice w out labels R (entry labels cal) p η) (raw : (Fin N → O) → Dict Str ℝ) (hraw : ∀ ω, Tally labels out ω (raw ω)) :
    ∃ cor : (Fin N → O) → Dict Str ℝ, (∀ ω, filterDict labels cal pinv solve (some "pseudo_inverse".toList) (rand ω) (raw ω) = some (cor ω)) ∧
      FilterAccurate labels w p g η cor := by
  obtain ⟨p1, p2⟩ := pinv_inverse _ cal pinv hx ha
  refine ⟨fun ω => labels.zipIdx.foldl (fun (d : Dict Str ℝ) q => if dot labels.length pinv (fun j => (raw ω).getD (labels.getD j []) 0) q.2 ≠ 0 then
    d.set q.1 (dot labels.length pinv (fun j => (raw ω).getD (labels.getD j []) 0) q.2) else d) [], fun ω => ?_, ?_⟩
  · have hall : ((raw ω).all fun p => decide (p.1 ∈ labels)) = true := by simpa [List.all_eq_true] using (hraw ω).keys
    rw [filterDict, if_pos hall, correct, if_pos rfl]
    rfl
  · refine linear_accurate hN hl w hw out R (entry labels cal) (entry labels pinv) p g η hg0 (entry_undoes hl p1) (fun u hu => entry_stochastic hl hc hu)
      (entry_undoes hl p2) hg hdev raw _ hraw fun ω s hs => ?_
    obtain ⟨i, hi, rfl⟩ := List.getElem_of_mem hs
    rw [show labels[i] = labels.getD i [] by simp [List.getD_eq_getElem?_getD, hi], (vec_dict hl _).2.2 i hi, ← lsum hl, label_sum]
    unfold dot
    congr 1
    refine List.map_congr_left fun j hj => ?_
    rw [entry_getD hl pinv hi (List.mem_range.1 hj), val]

/-- C126: `MeasurementFilter.apply(counts)` (default method) on the counts of finitely many shots, for an exact solver. -/
theorem C126_lsq {labels : List Str} (hN : 0 < N) (hl : labels.Nodup) {cal pinv : Mat ℝ} (hx : IsPinv labels.length cal pinv)
    (ha : Invertible labels.length cal) {solve : Solver} (hs : Solves solve 0) (rand : (Fin N → O) → Nat → ℝ)
    (w : O → ℝ) (hw : IsDistr w) (out : O → Str) (R : Str → Str → ℝ) (p : Str → ℝ) (g η : ℝ) (hg0 : 0 < g) (hg : ColBound labels (entry labels pinv) g)
    (hdev : NoisyDevice w out labels R (entry labels cal) p η) (raw : (Fin N → O) → Dict Str ℝ) (hraw : ∀ ω, Tally labels out ω (raw ω)) :
    ∃ cor : (Fin N → O) → Dict Str ℝ, (∀ ω, filterDict labels cal pinv solve (some "least_squares".toList) (rand ω) (raw ω) = some (cor ω)) ∧
      LsqAccurate labels w p g η cor := by
  have hne : labels ≠ [] := by
    rintro rfl
    have := hdev.total
    simp at this
  have h0 : ∀ ω, (raw ω).values.sum = N := fun ω => by
    rw [values_sum _ (hraw ω).wf labels hl (hraw ω).keys]
    exact (hraw ω).total hl hdev.reads
  choose cor h1 _ _ _ h5 using fun ω => C115_dict hl hne cal pinv hs (rand ω) (hraw ω).wf (hraw ω).keys ((h0 ω).symm ▸ Nat.cast_nonneg N)
  exact ⟨cor, h1, lsq_accurate hN hl w hw out R _ (entry labels pinv) p g η hg0 (entry_undoes hl (pinv_inverse _ cal pinv hx ha).1) hg hdev raw cor hraw h5⟩

/-! ### Tensor products of calibration matrices -/

theorem bits_sum (N k : ℕ) (f : Str → ℝ) :
    ((bitStrings (N + k)).map f).sum = ((bitStrings N).map fun a => ((bitStrings k).map fun b => f (a ++ b)).sum).sum := by
  rw [bitStrings_add, List.map_flatMap]
  induction bitStrings N with
  | nil => rfl
  | cons c l ih =>
    rw [List.flatMap_cons, List.sum_append, ih, List.map_cons, List.sum_cons, List.map_map]
    rfl

theorem bits_split {N k : ℕ} {s : Str} (hs : s ∈ bitStrings (N + k)) : ∃ a ∈ bitStrings N, ∃ b ∈ bitStrings k, s = a ++ b := by
  rw [bitStrings_add, List.mem_flatMap] at hs
  obtain ⟨a, ha, hs⟩ := hs
  obtain ⟨b, hb, rfl⟩ := List.mem_map.1 hs
  exact ⟨a, ha, b, hb, rfl⟩

theorem bits_length {k : ℕ} {s : Str} (hs : s ∈ bitStrings k) : s.length = k := ((mem_bitStrings k s).1 hs).2

/-- Column sums of a tensor product. -/
theorem kron_col_one (gs : List (Group ℝ)) (hl : ∀ g ∈ gs, g.1.Perm (bitStrings g.2.1))
    (h1 : ∀ g ∈ gs, ∀ t ∈ g.1, (g.1.map fun s => entry g.1 g.2.2 s t).sum = 1) (n : ℕ) (hn : groupSize gs = n) (t : Str) (ht : t ∈ bitStrings n) :
    ((bitStrings n).map fun s => kron gs s t).sum = 1 := by
  induction gs generalizing n t with
  | nil =>
    have h0 : n = 0 := by rw [← hn]; rfl
    subst h0
    simp [kron, bitStrings]
  | cons g gs ih =>
    have hn' : groupSize gs + g.2.1 = n := by rw [← hn]; simp [groupSize, Nat.add_comm]
    subst hn'
    obtain ⟨a', ha', b', hb', rfl⟩ := bits_split ht
    rw [bits_sum]
    have e : ((bitStrings (groupSize gs)).map fun a => ((bitStrings g.2.1).map fun b => kron (g :: gs) (a ++ b) (a' ++ b')).sum) =
        (bitStrings (groupSize gs)).map fun a => kron gs a a' := by
      refine List.map_congr_left fun a _ => ?_
      rw [List.map_congr_left fun b hb => kron_append g gs a a' b b' (bits_length hb) (bits_length hb'), List.sum_map_mul_left,
        ← ((hl g (by simp)).map _).sum_eq, h1 g (by simp) b' ((hl g (by simp)).mem_iff.2 hb'), mul_one]
    rw [e]
    exact ih (fun g hg => hl g (by simp [hg])) (fun g hg => h1 g (by simp [hg])) _ rfl a' ha'

/-- Absolute column sums of a tensor product. -/
theorem kron_col_bound (gs : List (Group ℝ)) (hl : ∀ g ∈ gs, g.1.Perm (bitStrings g.2.1)) (b : Group ℝ → ℝ) (hb0 : ∀ g ∈ gs, 0 ≤ b g)
    (hb : ∀ g ∈ gs, ColBound g.1 (entry g.1 g.2.2) (b g)) (n : ℕ) (hn : groupSize gs = n) : ColBound (bitStrings n) (kron gs) (gs.map b).prod := by
  intro t ht
  induction gs generalizing n t with
  | nil =>
    have h0 : n = 0 := by rw [← hn]; rfl
    subst h0
    simp [kron, bitStrings]
  | cons g gs ih =>
    have hn' : groupSize gs + g.2.1 = n := by rw [← hn]; simp [groupSize, Nat.add_comm]
    subst hn'
    obtain ⟨a', ha', b', hb', rfl⟩ := bits_split ht
    rw [bits_sum, List.map_cons, List.prod_cons]
    have e : ((bitStrings (groupSize gs)).map fun a => ((bitStrings g.2.1).map fun b => |kron (g :: gs) (a ++ b) (a' ++ b')|).sum) =
        (bitStrings (groupSize gs)).map fun a => |kron gs a a'| * (g.1.map fun s => |entry g.1 g.2.2 s b'|).sum := by
      refine List.map_congr_left fun a _ => ?_
      rw [List.map_congr_left fun c hc => by rw [kron_append g gs a a' c b' (bits_length hc) (bits_length hb'), abs_mul], List.sum_map_mul_left,
        ((hl g (by simp)).map _).sum_eq]
    rw [e, List.sum_map_mul_right, mul_comm]
    exact mul_le_mul (hb g (by simp) b' ((hl g (by simp)).mem_iff.2 hb'))
      (ih (fun g hg => hl g (by simp [hg])) (fun g hg => hb0 g (by simp [hg])) (fun g hg => hb g (by simp [hg])) _ rfl a' ha')
      (List.sum_nonneg (by simp)) (hb0 g (by simp))

/-- C126: the calibration errors of the groups add up when the noise acts on every group by itself. -/
theorem C126_tensored_calibration (gs : List (List Str × Nat × Mat ℝ × Mat ℝ)) (hl : ∀ g ∈ gs, g.1.Perm (bitStrings g.2.1))
    (hR : ∀ g ∈ gs, IsTransition g.1 g.2.2.1) (hA : ∀ g ∈ gs, IsTransition g.1 g.2.2.2) (e : List Str × Nat × Mat ℝ × Mat ℝ → ℝ)
    (he : ∀ g ∈ gs, ∀ t ∈ g.1, (g.1.map fun s => |entry g.1 g.2.2.1 s t - entry g.1 g.2.2.2 s t|).sum ≤ e g) (n : ℕ) (hn : (gs.map fun g => g.2.1).sum = n) :
    ∀ t ∈ bitStrings n, ((bitStrings n).map fun s => |kron (gs.map fun g => (g.1, g.2.1, g.2.2.1)) s t - kron (gs.map fun g => (g.1, g.2.1, g.2.2.2)) s t|).sum ≤
      (gs.map e).sum := by
  intro t ht
  induction gs generalizing n t with
  | nil =>
    have h0 : n = 0 := by rw [← hn]; rfl
    subst h0
    simp [kron, bitStrings]
  | cons g gs ih =>
    set N := (gs.map fun g => g.2.1).sum with hN
    have hn' : N + g.2.1 = n := by rw [← hn]; simp [Nat.add_comm, hN]
    subst hn'
    obtain ⟨a', ha', b', hb', rfl⟩ := bits_split ht
    have hb'' := (hl g (by simp)).mem_iff.2 hb'
    rw [bits_sum, List.map_cons (f := e), List.sum_cons]
    have ih' := ih (fun g hg => hl g (by simp [hg])) (fun g hg => hR g (by simp [hg])) (fun g hg => hA g (by simp [hg])) (fun g hg => he g (by simp [hg])) N rfl a' ha'
    set KR := kron (gs.map fun g => (g.1, g.2.1, g.2.2.1)) with hKR
    set KA := kron (gs.map fun g => (g.1, g.2.1, g.2.2.2)) with hKA
    have hcolR : (g.1.map fun s => |entry g.1 g.2.2.1 s b'|).sum = 1 := by
      rw [← (hR g (by simp)).2 b' hb'', List.map_congr_left fun s hs => abs_of_nonneg ((hR g (by simp)).1 s hs b' hb'')]
    have hcolA : ((bitStrings N).map fun a => |KA a a'|).sum ≤ 1 := by
      have := kron_col_bound (gs.map fun g => (g.1, g.2.1, g.2.2.2)) (by
        intro g' hg'
        obtain ⟨g, hg, rfl⟩ := List.mem_map.1 hg'
        exact hl g (by simp [hg])) (fun _ => 1) (fun _ _ => zero_le_one) (by
        intro g' hg' t ht
        obtain ⟨g, hg, rfl⟩ := List.mem_map.1 hg'
        have h := hA g (by simp [hg])
        rw [List.map_congr_left fun s hs => abs_of_nonneg (h.1 s hs t ht)]
        exact (h.2 t ht).le) N (by rw [groupSize, List.map_map]; rfl) a' ha'
      refine this.trans (le_of_eq (List.prod_eq_one fun x hx => ?_))
      obtain ⟨_, _, rfl⟩ := List.mem_map.1 hx
      rfl
    have hterm : ∀ a ∈ bitStrings N, ((bitStrings g.2.1).map fun b => |kron ((g :: gs).map fun g => (g.1, g.2.1, g.2.2.1)) (a ++ b) (a' ++ b') -
        kron ((g :: gs).map fun g => (g.1, g.2.1, g.2.2.2)) (a ++ b) (a' ++ b')|).sum ≤ |KR a a' - KA a a'| + |KA a a'| * e g := by
      intro a _
      have h1 : ∀ b ∈ bitStrings g.2.1, |kron ((g :: gs).map fun g => (g.1, g.2.1, g.2.2.1)) (a ++ b) (a' ++ b') -
          kron ((g :: gs).map fun g => (g.1, g.2.1, g.2.2.2)) (a ++ b) (a' ++ b')| ≤
          |KR a a' - KA a a'| * |entry g.1 g.2.2.1 b b'| + |KA a a'| * |entry g.1 g.2.2.1 b b' - entry g.1 g.2.2.2 b b'| := by
        intro b hb
        rw [List.map_cons, List.map_cons, kron_append _ _ _ _ _ _ (bits_length hb) (bits_length hb'), kron_append _ _ _ _ _ _ (bits_length hb) (bits_length hb'),
          ← hKR, ← hKA, ← abs_mul, ← abs_mul]
        refine le_trans (le_of_eq ?_) (abs_add_le _ _)
        congr 1
        ring
      refine (List.sum_le_sum h1).trans ?_
      rw [List.sum_map_add, List.sum_map_mul_left, List.sum_map_mul_left, ← ((hl g (by simp)).map _).sum_eq, ← ((hl g (by simp)).map _).sum_eq, hcolR, mul_one]
      exact add_le_add_right (mul_le_mul_of_nonneg_left (he g (by simp) b' hb'') (abs_nonneg _)) _
    refine (List.sum_le_sum hterm).trans ?_
    rw [List.sum_map_add, List.sum_map_mul_right]
    have h0 : 0 ≤ e g := (List.sum_nonneg (by simp)).trans (he g (by simp) b' hb'')
    nlinarith

theorem kron_undoes (gs : List (List Str × Nat × Mat ℝ × Mat ℝ)) (hl : ∀ g ∈ gs, g.1.Perm (bitStrings g.2.1))
    (hinv : ∀ g ∈ gs, toMatrix (2 ^ g.2.1) g.2.2.1 * toMatrix (2 ^ g.2.1) g.2.2.2 = 1) (n : Nat) (hn : (gs.map fun g => g.2.1).sum = n) :
    Undoes (bitStrings n).toFinset (kron (gs.map fun g => (g.1, g.2.1, g.2.2.1))) (kron (gs.map fun g => (g.1, g.2.1, g.2.2.2))) := by
  intro s hs u hu
  rw [← lsum (nodup_bitStrings n)]
  exact kron_inverse gs hl hinv n hn s u (List.mem_toFinset.1 hs) (List.mem_toFinset.1 hu)

/-- C126: `TensoredFilter.apply(counts, method='pseudo_inverse')` on the counts of finitely many shots; a group is given by its labels, its size, the
pseudo-inverse and the calibration matrix; the noise `R` of the device may act on all groups together. -/
theorem C126_tensored {n : ℕ} (hN : 0 < N) (gs : List (List Str × Nat × Mat ℝ × Mat ℝ)) (hl : ∀ g ∈ gs, g.1.Perm (bitStrings g.2.1))
    (hp : ∀ g ∈ gs, IsPinv (2 ^ g.2.1) g.2.2.2 g.2.2.1 ∧ Invertible (2 ^ g.2.1) g.2.2.2 ∧ ColumnStochastic (2 ^ g.2.1) g.2.2.2)
    (hn : (gs.map fun g => g.2.1).sum = n) (hn1 : 1 ≤ n) (solve : Solver) (rand : (Fin N → O) → Nat → ℝ)
    (w : O → ℝ) (hw : IsDistr w) (out : O → Str) (R : Str → Str → ℝ) (p : Str → ℝ) (η : ℝ) (b : Group ℝ → ℝ)
    (hb : ∀ g ∈ gs, 0 < b (g.1, g.2.1, g.2.2.1) ∧ ColBound g.1 (entry g.1 g.2.2.1) (b (g.1, g.2.1, g.2.2.1)))
    (hdev : NoisyDevice w out (bitStrings n) R (kron (gs.map fun g => (g.1, g.2.1, g.2.2.2))) p η)
    (raw : (Fin N → O) → Dict Str ℝ) (hraw : ∀ ω, Tally (bitStrings n) out ω (raw ω)) :
    ∃ cor : (Fin N → O) → Dict Str ℝ,
      (∀ ω, tensoredFilter (gs.map (·.1)) (gs.map fun g => g.2.2.2) (gs.map fun g => g.2.2.1) solve (some "pseudo_inverse".toList) (rand ω) (raw ω) = some (cor ω)) ∧
      FilterAccurate (bitStrings n) w p (gs.map fun g => b (g.1, g.2.1, g.2.2.1)).prod η cor := by
  have hmk : mkGroups (gs.map (·.1)) (gs.map fun g => g.2.2.1) = gs.map fun g => (g.1, g.2.1, g.2.2.1) := by
    rw [mkGroups]
    apply List.ext_getElem
    · simp
    · intro i h1 h2
      simp only [List.length_map] at h2
      have h3 := hl gs[i] (List.getElem_mem h2)
      have : Nat.log2 (gs[i].1).length = gs[i].2.1 := by
        rw [h3.length_eq, length_bitStrings]; exact Nat.log2_two_pow
      simp [this]
  have hsize : groupSize (mkGroups (gs.map (·.1)) (gs.map fun g => g.2.2.1)) = n := by
    rw [hmk, groupSize, List.map_map, ← hn]; rfl
  choose cor h1 _ h3 using fun ω => C16_kronecker (gs.map (·.1)) (gs.map fun g => g.2.2.1) (by simp) (by
      intro l hl'
      obtain ⟨g, hg, rfl⟩ := List.mem_map.1 hl'
      exact ⟨g.2.1, hl g hg⟩) (by rw [hsize]; exact hn1) (raw ω) (hraw ω).wf (by rw [hsize]; exact (hraw ω).keys)
  rw [hsize, hmk] at h3
  refine ⟨cor, fun ω => by rw [tensoredFilter, if_pos rfl]; exact h1 ω, ?_⟩
  have hprod : 0 < (gs.map fun g => b (g.1, g.2.1, g.2.2.1)).prod := by
    refine List.prod_pos fun x hx => ?_
    obtain ⟨g, hg, rfl⟩ := List.mem_map.1 hx
    exact (hb g hg).1
  have hcol : ColBound (bitStrings n) (kron (gs.map fun g => (g.1, g.2.1, g.2.2.1))) (gs.map fun g => b (g.1, g.2.1, g.2.2.1)).prod := by
    have := kron_col_bound (gs.map fun g => (g.1, g.2.1, g.2.2.1)) (by
      intro g' hg'
      obtain ⟨g, hg, rfl⟩ := List.mem_map.1 hg'
      exact hl g hg) b (by
      intro g' hg'
      obtain ⟨g, hg, rfl⟩ := List.mem_map.1 hg'
      exact (hb g hg).1.le) (by
      intro g' hg'
      obtain ⟨g, hg, rfl⟩ := List.mem_map.1 hg'
      exact (hb g hg).2) n (by rw [groupSize, List.map_map, ← hn]; rfl)
    rwa [List.map_map] at this
  have hinv := fun g hg => pinv_inverse _ _ _ (hp g hg).1 (hp g hg).2.1
  refine linear_accurate hN (nodup_bitStrings n) w hw out R (kron (gs.map fun g => (g.1, g.2.1, g.2.2.2))) _ p _ η hprod (kron_undoes gs hl (fun g hg => (hinv g hg).1) n hn) ?_ ?_
    hcol hdev raw cor hraw fun ω s hs => ?_
  · intro u hu
    rw [← lsum (nodup_bitStrings n)]
    refine kron_col_one _ ?_ ?_ n (by rw [groupSize, List.map_map, ← hn]; rfl) u (List.mem_toFinset.1 hu)
    · intro g' hg'
      obtain ⟨g, hg, rfl⟩ := List.mem_map.1 hg'
      exact hl g hg
    · intro g' hg' t ht
      obtain ⟨g, hg, rfl⟩ := List.mem_map.1 hg'
      have hnd : g.1.Nodup := (hl g hg).nodup_iff.2 (nodup_bitStrings _)
      have hlen : g.1.length = 2 ^ g.2.1 := by rw [(hl g hg).length_eq, length_bitStrings]
      have := entry_stochastic hnd (by rw [hlen]; exact (hp g hg).2.2) (List.mem_toFinset.2 ht)
      rwa [← lsum hnd] at this
  · have := kron_undoes (gs.map fun g => (g.1, g.2.1, g.2.2.2, g.2.2.1)) (by
      intro g' hg'
      obtain ⟨g, hg, rfl⟩ := List.mem_map.1 hg'
      exact hl g hg) (by
      intro g' hg'
      obtain ⟨g, hg, rfl⟩ := List.mem_map.1 hg'
      exact (hinv g hg).2) n (by rw [List.map_map, ← hn]; rfl)
    rwa [List.map_map, List.map_map] at this
  · rw [h3 ω s hs, lsum (nodup_bitStrings n)]

/-- C126: `TensoredFilter.apply(counts)` (default method) on the counts of finitely many shots, for an exact solver. -/
theorem C126_tensored_lsq {n : ℕ} (hN : 0 < N) (gs : List (List Str × Nat × Mat ℝ × Mat ℝ)) (hl : ∀ g ∈ gs, g.1.Perm (bitStrings g.2.1))
    (hp : ∀ g ∈ gs, IsPinv (2 ^ g.2.1) g.2.2.2 g.2.2.1 ∧ Invertible (2 ^ g.2.1) g.2.2.2)
    (hn : (gs.map fun g => g.2.1).sum = n) (hn1 : 1 ≤ n) {solve : Solver} (hs : Solves solve 0) (rand : (Fin N → O) → Nat → ℝ)
    (w : O → ℝ) (hw : IsDistr w) (out : O → Str) (R : Str → Str → ℝ) (p : Str → ℝ) (η : ℝ) (b : Group ℝ → ℝ)
    (hb : ∀ g ∈ gs, 0 < b (g.1, g.2.1, g.2.2.1) ∧ ColBound g.1 (entry g.1 g.2.2.1) (b (g.1, g.2.1, g.2.2.1)))
    (hdev : NoisyDevice w out (bitStrings n) R (kron (gs.map fun g => (g.1, g.2.1, g.2.2.2))) p η)
    (raw : (Fin N → O) → Dict Str ℝ) (hraw : ∀ ω, Tally (bitStrings n) out ω (raw ω)) :
    ∃ cor : (Fin N → O) → Dict Str ℝ,
      (∀ ω, tensoredFilter (gs.map (·.1)) (gs.map fun g => g.2.2.2) (gs.map fun g => g.2.2.1) solve (some "least_squares".toList) (rand ω) (raw ω) = some (cor ω)) ∧
      LsqAccurate (bitStrings n) w p (gs.map fun g => b (g.1, g.2.1, g.2.2.1)).prod η cor := by
  have h0 : ∀ ω, (raw ω).values.sum = N := fun ω => by
    rw [values_sum _ (hraw ω).wf _ (nodup_bitStrings n) (hraw ω).keys]
    exact (hraw ω).total (nodup_bitStrings n) hdev.reads
  have h := fun ω => C115_tensored (n := n) (gs.map fun g => (g.1, g.2.1, g.2.2.2)) (by
      intro g' hg'
      obtain ⟨g, hg, rfl⟩ := List.mem_map.1 hg'
      exact hl g hg) (by rw [List.map_map, ← hn]; rfl) hn1 (gs.map fun g => g.2.2.1) hs (rand ω) (hraw ω).wf (hraw ω).keys ((h0 ω).symm ▸ Nat.cast_nonneg N)
  simp only [List.map_map, Function.comp_def] at h
  choose cor h1 _ _ _ h5 using h
  have hprod : 0 < (gs.map fun g => b (g.1, g.2.1, g.2.2.1)).prod := by
    refine List.prod_pos fun x hx => ?_
    obtain ⟨g, hg, rfl⟩ := List.mem_map.1 hx
    exact (hb g hg).1
  have hcol : ColBound (bitStrings n) (kron (gs.map fun g => (g.1, g.2.1, g.2.2.1))) (gs.map fun g => b (g.1, g.2.1, g.2.2.1)).prod := by
    have := kron_col_bound (gs.map fun g => (g.1, g.2.1, g.2.2.1)) (by
      intro g' hg'
      obtain ⟨g, hg, rfl⟩ := List.mem_map.1 hg'
      exact hl g hg) b (by
      intro g' hg'
      obtain ⟨g, hg, rfl⟩ := List.mem_map.1 hg'
      exact (hb g hg).1.le) (by
      intro g' hg'
      obtain ⟨g, hg, rfl⟩ := List.mem_map.1 hg'
      exact (hb g hg).2) n (by rw [groupSize, List.map_map, ← hn]; rfl)
    rwa [List.map_map] at this
  exact ⟨cor, h1, lsq_accurate hN (nodup_bitStrings n) w hw out R _ _ p _ η hprod
    (kron_undoes gs hl (fun g hg => (pinv_inverse _ _ _ (hp g hg).1 (hp g hg).2).1) n hn) hcol hdev raw cor hraw h5⟩

/-! ### Calibration from finitely many shots -/

/-- C126: the fitted matrix of a group is the matrix of the shares of the calibration shots. -/
theorem C126_calibration {K : ℕ} (hK : 0 < K) (circlabel : Str) (sizes : List Nat) (labels : List (List Str)) (results : List Result) (mats : List (Mat ℚ))
    (hl : labels.length = sizes.length) (hnd : ∀ g, g < sizes.length → (labels.getD g []).Nodup)
    (hlen : ∀ s ∈ shots circlabel results, s.prepared.length = sizes.sum ∧ s.measured.length = sizes.sum)
    (h : buildMatrices circlabel sizes (labels.map indices) results = some mats) (g : ℕ) (hg : g < sizes.length)
    (κ : Fin (labels.getD g []).length → Fin K → Fin (labels.getD g []).length) (hκ : CalTally circlabel sizes g (labels.getD g []) results κ) (x y : Fin (labels.getD g []).length) :
    groupMat mats g y x = ((Finset.univ.filter fun k => κ x k = y).card : ℝ) / K := by
  have h1 := (C13_entries circlabel sizes labels results mats hl hnd hlen h).2 g hg y x _ _ (List.getElem?_eq_getElem y.2) (List.getElem?_eq_getElem x.2)
  have h2 := hκ.prepared x
  have h3 := hκ.both x y
  simp only [List.get_eq_getElem] at h2 h3
  unfold groupMat
  simp only at h1
  rw [h1, h2, h3, if_pos (by exact_mod_cast hK.ne')]
  push_cast
  rfl

open Classical in
/-- C126: with `K` calibration shots for every label of a group, its fitted matrix differs from the noise of the device by `η` or more in some column with
probability at most `d² / (K η²)`, `d` being the number of labels. -/
theorem C126_calibration_error {K : ℕ} (hK : 0 < K) (circlabel : Str) (sizes : List Nat) (labels : List (List Str)) (hl : labels.length = sizes.length)
    (hnd : ∀ g, g < sizes.length → (labels.getD g []).Nodup) (g : ℕ) (hg : g < sizes.length)
    (results : (Fin (labels.getD g []).length → Fin K → Fin (labels.getD g []).length) → List Result)
    (mats : (Fin (labels.getD g []).length → Fin K → Fin (labels.getD g []).length) → List (Mat ℚ))
    (hlen : ∀ κ, ∀ s ∈ shots circlabel (results κ), s.prepared.length = sizes.sum ∧ s.measured.length = sizes.sum)
    (h : ∀ κ, buildMatrices circlabel sizes (labels.map indices) (results κ) = some (mats κ))
    (hκ : ∀ κ, CalTally circlabel sizes g (labels.getD g []) (results κ) κ)
    (R : ℕ → ℕ → ℝ) (hR : IsNoise (labels.getD g []).length R) (η : ℝ) (hη : 0 < η) :
    (∑ κ, if ∃ x < (labels.getD g []).length, η ≤ ((List.range (labels.getD g []).length).map fun y => |R y x - groupMat (mats κ) g y x|).sum then calProb R κ else 0) ≤
      (labels.getD g []).length ^ 2 / (K * η ^ 2) := by
  refine le_trans (le_of_eq ?_) (calibration_error hK R hR η hη)
  refine Finset.sum_congr rfl fun κ _ => ?_
  have e : (∃ x < (labels.getD g []).length, η ≤ ((List.range (labels.getD g []).length).map fun y => |R y x - groupMat (mats κ) g y x|).sum) ↔
      ∃ x : Fin (labels.getD g []).length, η ≤ ∑ y ∈ Finset.range (labels.getD g []).length, |R y x - calShare (κ x) y| := by
    have e2 : ∀ x : Fin (labels.getD g []).length, ((List.range (labels.getD g []).length).map fun y => |R y x - groupMat (mats κ) g y x|).sum =
        ∑ y ∈ Finset.range (labels.getD g []).length, |R y x - calShare (κ x) y| := by
      intro x
      rw [sum_map_range]
      refine Finset.sum_congr rfl fun y hy => ?_
      have := C126_calibration hK circlabel sizes labels (results κ) (mats κ) hl hnd (hlen κ) (h κ) g hg κ (hκ κ) x ⟨y, Finset.mem_range.1 hy⟩
      rw [this]
      unfold calShare
      simp only [Fin.ext_iff]
    constructor
    · rintro ⟨x, hx, h⟩
      exact ⟨⟨x, hx⟩, (e2 ⟨x, hx⟩) ▸ h⟩
    · rintro ⟨x, h⟩
      exact ⟨x, x.2, (e2 x).symm ▸ h⟩
  simp only [e]

/-! ### An experiment -/

/-- The two readings of a qubit. -/
def bitOut (b : Bool) : Str := if b then "1".toList else "0".toList

/-- A qubit in state 0, read with errors of probability 1/10. -/
noncomputable def bitW (b : Bool) : ℝ := if b then 1 / 10 else 9 / 10

noncomputable def zeroP (s : Str) : ℝ := if s = "0".toList then 1 else 0

/-- The counts of such shots. -/
noncomputable def bitRaw (ω : Fin N → Bool) : Dict Str ℝ :=
  [("0".toList, ((Finset.univ.filter fun k => ω k = false).card : ℝ)), ("1".toList, ((Finset.univ.filter fun k => ω k = true).card : ℝ))]

theorem bit_tally (ω : Fin N → Bool) : Tally ["0".toList, "1".toList] bitOut ω (bitRaw ω) := by
  refine ⟨show ["0".toList, "1".toList].Nodup by decide, by simp [bitRaw], fun s => ?_⟩
  by_cases h0 : s = "0".toList
  · subst h0
    have : ∀ k, bitOut (ω k) = "0".toList ↔ ω k = false := fun k => by cases ω k <;> simp [bitOut]
    simp only [this]
    simp [val, Dict.getD, Dict.get?, bitRaw]
  · by_cases h1 : s = "1".toList
    · subst h1
      have : ∀ k, bitOut (ω k) = "1".toList ↔ ω k = true := fun k => by cases ω k <;> simp [bitOut]
      simp only [this]
      simp [val, Dict.getD, Dict.get?, bitRaw]
    · have : ∀ k, ¬ bitOut (ω k) = s := fun k => by
        unfold bitOut
        split
        · exact fun h => h1 h.symm
        · exact fun h => h0 h.symm
      simp only [this, Finset.filter_false, Finset.card_empty, Nat.cast_zero]
      simp only [val, Dict.getD, Dict.get?, bitRaw]
      rw [if_neg (Ne.symm h0), if_neg (Ne.symm h1)]
      rfl

theorem bit_device : NoisyDevice bitW bitOut ["0".toList, "1".toList] (entry ["0".toList, "1".toList] flip10) (entry ["0".toList, "1".toList] flip10) zeroP 0 := by
  refine ⟨fun o => by cases o <;> simp [bitOut], fun t _ => by unfold zeroP; split <;> norm_num, by simp [zeroP], ?_, by simp⟩
  intro s hs
  simp only [List.mem_cons, List.not_mem_nil, or_false] at hs
  rcases hs with rfl | rfl <;> simp [bitOut, bitW, noisyCounts, entry, flip10, zeroP, List.idxOf, List.findIdx_cons]

theorem bit_bound : ColBound ["0".toList, "1".toList] (entry ["0".toList, "1".toList] flip10Inv) (5 / 4) := by
  intro t ht
  simp only [List.mem_cons, List.not_mem_nil, or_false] at ht
  rcases ht with rfl | rfl <;> simp [entry, flip10Inv, List.idxOf, List.findIdx_cons] <;> norm_num [abs_of_pos, abs_of_neg]

open Classical in
/-- C126 on 10000 shots of a qubit in state 0 that is read with errors of probability 1/10: the corrected share of 1 is 1/10 or more off with probability at most
`2 exp(-32)`; with the default method the corrected shares are `√2 / 4` or more off with probability at most 1/400. -/
theorem C126_experiment (solve : Solver) (hs : Solves solve 0) (rand : Nat → ℝ) :
    (∃ cor : (Fin 10000 → Bool) → Dict Str ℝ,
      (∀ ω, filterDict ["0".toList, "1".toList] flip10 flip10Inv solve (some "pseudo_inverse".toList) rand (bitRaw ω) = some (cor ω)) ∧
      (∑ ω, if 1 / 10 ≤ |val (cor ω) "1".toList / 10000| then shotsProb bitW ω else 0) ≤ 2 * Real.exp (-32)) ∧
    ∃ cor : (Fin 10000 → Bool) → Dict Str ℝ,
      (∀ ω, filterDict ["0".toList, "1".toList] flip10 flip10Inv solve (some "least_squares".toList) rand (bitRaw ω) = some (cor ω)) ∧
      (∑ ω, if √2 / 4 ≤ |val (cor ω) "0".toList / 10000 - 1| + |val (cor ω) "1".toList / 10000| then shotsProb bitW ω else 0) ≤ 1 / 400 := by
  have hw : IsDistr bitW := ⟨fun b => by unfold bitW; split <;> norm_num, by simp [bitW]; norm_num⟩
  obtain ⟨f1, f2, f3⟩ := flip10_pinv
  constructor
  · obtain ⟨cor, h1, h2⟩ := C126_pinv (N := 10000) (labels := ["0".toList, "1".toList]) (by norm_num) (by decide) f1 f2 f3 solve (fun _ => rand) bitW hw bitOut
      _ zeroP (5 / 4) 0 (by norm_num) bit_bound bit_device bitRaw bit_tally
    refine ⟨cor, h1, ?_⟩
    have h := h2.observable (fun s => if s = "1".toList then 1 else 0) (fun s _ => by split <;> norm_num) (1 / 10) (by norm_num)
    simp [freq, zeroP] at h
    norm_num at h ⊢
    exact h
  · obtain ⟨cor, h1, h2⟩ := C126_lsq (N := 10000) (labels := ["0".toList, "1".toList]) (by norm_num) (by decide) f1 f2 hs (fun _ => rand) bitW hw bitOut
      _ zeroP (5 / 4) 0 (by norm_num) bit_bound bit_device bitRaw bit_tally
    refine ⟨cor, h1, ?_⟩
    have h := h2.distance (1 / 5) (by norm_num)
    have e : (5 / 4 : ℝ) * √(["0".toList, "1".toList].length : ℝ) * (0 + 1 / 5) = √2 / 4 := by
      simp only [List.length_cons, List.length_nil]
      norm_num
      ring
    rw [e] at h
    simp only [off, freq, zeroP, List.map_cons, List.map_nil, List.sum_cons, List.sum_nil] at h
    norm_num at h ⊢
    simpa using h

/-- The hypotheses of C126_calibration are met: two shots for each label of one qubit. -/
example : ∃ κ : Fin 2 → Fin 2 → Fin 2, ∃ results mats,
    buildMatrices [] [1] ([["0".toList, "1".toList]].map indices) results = some mats ∧
    (∀ s ∈ shots [] results, s.prepared.length = 1 ∧ s.measured.length = 1) ∧
    CalTally (K := 2) [] [1] 0 ["0".toList, "1".toList] results κ := by
  refine ⟨fun x k => if x = 0 then k else 1, [[("cal_0".toList, [("0".toList, 1), ("1".toList, 1)]), ("cal_1".toList, [("1".toList, 2)])]], _, rfl, ?_, ?_, ?_⟩
  · decide +kernel
  · decide +kernel
  · decide +kernel

/-- The hypotheses of C126_tensored are met by two groups of one qubit. -/
example : let gs : List (List Str × Nat × Mat ℝ × Mat ℝ) := [(["0".toList, "1".toList], 1, flip10Inv, flip10), (["0".toList, "1".toList], 1, flip10Inv, flip10)]
    (∀ g ∈ gs, g.1.Perm (bitStrings g.2.1)) ∧ (gs.map fun g => g.2.1).sum = 2 ∧
    (∀ g ∈ gs, IsPinv (2 ^ g.2.1) g.2.2.2 g.2.2.1 ∧ Invertible (2 ^ g.2.1) g.2.2.2 ∧ ColumnStochastic (2 ^ g.2.1) g.2.2.2) ∧
    ∀ g ∈ gs, ColBound g.1 (entry g.1 g.2.2.1) (5 / 4) := by
  refine ⟨?_, rfl, ?_, ?_⟩ <;> intro g hg <;> simp only [List.mem_cons, List.not_mem_nil, or_false, or_self] at hg <;> subst hg
  · exact .refl _
  · exact flip10_pinv
  · exact bit_bound

end Verif.MeasMit
