import Verif.Ent.LemmasGhzShots
set_option linter.unusedSimpArgs false
set_option linter.unusedVariables false
/-
C131: GHZ fidelities computed from finitely many shots.
-/
namespace Verif.Ent
open Verif Verif.Quantum Complex Verif.Expval

variable {n N S S₀ : ℕ}

/-! ### Counts -/

theorem read_bits (x : Basis (Fin n)) : IsBits (read x) ∧ (read x).length = n := by
  constructor
  · intro c hc
    unfold read at hc
    obtain ⟨b, -, rfl⟩ := List.mem_map.1 hc
    cases b <;> simp
  · simp [read]

theorem read_inj {x y : Basis (Fin n)} (h : read x = read y) : x = y := by
  unfold read at h
  have hb : Function.Injective fun b : Bool => if b then '1' else '0' := by
    intro a b h
    cases a <;> cases b <;> simp_all
  have h1 := List.reverse_injective (hb.list_map h)
  exact List.ofFn_injective h1

/-- The sign of an outcome. -/
noncomputable def sgnOf (x : Basis (Fin n)) : ℝ := (-1) ^ wt x

theorem count_read (x : Basis (Fin n)) : (read x).count '1' = wt x := by
  unfold read
  rw [List.map_reverse, List.count_reverse, List.map_ofFn]
  unfold wt
  induction n with
  | zero => simp
  | succ n ih =>
    rw [List.ofFn_succ, List.count_cons]
    have := ih (fun q => x q.succ)
    simp only [Function.comp_def] at this ⊢
    rw [this]
    have hc : (Finset.univ.filter fun q : Fin (n + 1) => x q = true) =
        (if x 0 = true then {0} else ∅) ∪ (Finset.univ.filter fun q : Fin n => x q.succ = true).map ⟨Fin.succ, Fin.succ_injective n⟩ := by
      ext q
      refine Fin.cases ?_ (fun q => ?_) q
      · by_cases h : x 0 = true <;> simp [h]
      · by_cases h : x 0 = true <;> simp [h, Fin.succ_ne_zero]
    rw [hc, Finset.card_union_of_disjoint, Finset.card_map]
    · by_cases h : x 0 = true <;> simp [h, add_comm]
    · rw [Finset.disjoint_left]
      intro q hq hq'
      split at hq
      · simp only [Finset.mem_singleton] at hq
        subst hq
        obtain ⟨r, -, hr⟩ := Finset.mem_map.1 hq'
        exact Fin.succ_ne_zero r hr
      · simp at hq

theorem sign_read (x : Basis (Fin n)) : (sign (read x) : ℝ) = sgnOf x := by
  unfold sign sgnOf
  rw [count_read]

theorem z_value (counts : Dict Str ℝ) (hn : 1 ≤ n) :
    zExpvalue counts n = some ((bitStrings n).map fun s => counts.getD s 0 * sign s).sum := by
  unfold zExpvalue orderedList
  rw [max_eq_left hn]
  simp only [List.length_map, if_true, Option.some.injEq]
  rw [List.zipWith_map, List.zipWith_self]
  have h2 : (List.map (fun a => counts.getD (zfill n (binDigits a)) 0 * compositeZ n a a) (List.range (2 ^ n))) =
      (bitStrings n).map fun s => counts.getD s 0 * sign s := by
    rw [← map_ofBin_bitStrings, List.map_map]
    apply List.map_congr_left
    intro s hs
    obtain ⟨h1, h2⟩ := (mem_bitStrings n s).1 hs
    simp only [Function.comp]
    rw [← h2, zfill_binDigits s h1 (by omega), compositeZ_diag s h1 (by omega)]
  rw [h2]

theorem z_counts (hn : 1 ≤ n) {counts : Dict Str ℝ} {ω : Fin S → Basis (Fin n)} (h : CountsOf counts ω) :
    zExpvalue counts n = some (∑ j, sgnOf (ω j)) := by
  rw [z_value counts hn]
  congr 1
  have e : ∀ s, counts.getD s 0 * sign s = ∑ j, if read (ω j) = s then sgnOf (ω j) else 0 := by
    intro s
    rw [h.2 s, Finset.card_filter, Nat.cast_sum, Finset.sum_mul]
    refine Finset.sum_congr rfl fun j _ => ?_
    split
    · next hs => rw [← hs, sign_read]; simp
    · simp
  simp only [e]
  rw [← List.sum_toFinset _ (nodup_bitStrings n), Finset.sum_comm]
  refine Finset.sum_congr rfl fun j _ => ?_
  rw [Finset.sum_ite_eq, if_pos]
  rw [List.mem_toFinset, mem_bitStrings]
  exact read_bits _

/-- 1 for the outcome `a`, 0 for the others. -/
noncomputable def ind (a : Basis (Fin n)) (x : Basis (Fin n)) : ℝ := if x = a then 1 else 0

theorem share_counts {counts : Dict Str ℝ} {ω : Fin S → Basis (Fin n)} (h : CountsOf counts ω) (a : Basis (Fin n)) :
    counts.getD (read a) 0 / S = QV.avg (ind a) ω := by
  unfold QV.avg ind
  rw [h.2, Finset.card_filter, Nat.cast_sum]
  congr 1
  refine Finset.sum_congr rfl fun j _ => ?_
  by_cases hx : ω j = a
  · rw [if_pos hx, if_pos (by rw [hx])]; simp
  · rw [if_neg hx, if_neg fun h => hx (read_inj h)]; simp

theorem counts_exist (ω : Fin S → Basis (Fin n)) : ∃ counts : Dict Str ℝ, CountsOf counts ω := by
  classical
  refine ⟨(bitStrings n).map fun s => (s, ((Finset.univ.filter fun j => read (ω j) = s).card : ℝ)), ?_, ?_⟩
  · unfold Dict.WF
    simp only [Dict.keys, List.map_map]
    have : ((fun kv : Str × ℝ => kv.1) ∘ fun s => (s, ((Finset.univ.filter fun j => read (ω j) = s).card : ℝ))) = id := rfl
    rw [this, List.map_id]
    exact nodup_bitStrings n
  · intro s
    have key : ∀ l : List Str, Dict.getD (l.map fun s => (s, ((Finset.univ.filter fun j => read (ω j) = s).card : ℝ))) s 0 =
        if s ∈ l then ((Finset.univ.filter fun j => read (ω j) = s).card : ℝ) else 0 := by
      intro l
      induction l with
      | nil => rfl
      | cons t l ih =>
        rw [List.map_cons]
        by_cases hts : t = s
        · subst hts
          simp [Dict.getD, Dict.get?]
        · have h2 : (s ∈ t :: l) ↔ s ∈ l := by simp [Ne.symm hts]
          simp only [h2]
          rw [← ih]
          simp [Dict.getD, Dict.get?, hts]
    rw [key]
    split
    · rfl
    · next hs =>
      rw [Finset.card_eq_zero.2]
      · simp
      · apply Finset.filter_eq_empty_iff.2
        intro j _ hj
        exact hs (hj ▸ (mem_bitStrings n _).2 (read_bits _))

/-! ### Estimates -/

/-- Half the share of 0…0 and 1…1. -/
noncomputable def popEst (ν : Fin S₀ → Basis (Fin n)) : ℝ := (1 / 2) * (QV.avg (ind (zeros n)) ν + QV.avg (ind (ones n)) ν)

noncomputable def poEst (ω : (Fin N → Fin S → Basis (Fin n)) × (Fin S₀ → Basis (Fin n))) : ℝ :=
  popEst ω.2 + ‖fft N (fun k => (means sgnOf ω.1 k : ℂ)) n‖

noncomputable def mqcEst (ω : (Fin N → Fin S → Basis (Fin n)) × (Fin S₀ → Basis (Fin n))) : ℝ :=
  popEst ω.2 + Real.sqrt ‖fft N (fun k => (means (ind (zeros n)) ω.1 k : ℂ)) n‖

theorem fft_congr (m : ℕ) {y z : ℕ → ℂ} (h : ∀ k < N, y k = z k) : fft N y m = fft N z m := by
  unfold fft
  congr 1
  refine Finset.sum_congr rfl fun k hk => ?_
  rw [h k (Finset.mem_range.1 hk)]

theorem po_reports (hn : 1 ≤ n) (hN : 2 * n < N) (ω : (Fin N → Fin S → Basis (Fin n)) × (Fin S₀ → Basis (Fin n))) : PoReports ω (poEst ω) := by
  intro counts counts₀ hc hc0
  refine ⟨onRange fun k => ∑ j, sgnOf (ω.1 k j), ?_, ?_⟩
  · intro k hk
    rw [z_counts hn (hc ⟨k, hk⟩)]
    simp [onRange, hk]
  · intro ym p h0 h1
    unfold infoPo
    rw [if_pos (by omega)]
    refine ⟨(1 / 2) * (p.P0m + p.P1m + 2 * ‖fft N ym n‖), ?_⟩
    have hx : ∀ a b c : ℝ, a = b → some (a, c) = some (b, c) := fun a b c h => by rw [h]
    refine hx _ _ _ ?_
    rw [h0, h1, share_counts hc0, share_counts hc0]
    rw [fft_congr n (z := fun k => (means sgnOf ω.1 k : ℂ)) fun k hk => by simp [means, onRange, hk, QV.avg]]
    unfold poEst popEst
    ring

theorem mqc_reports (hn : 1 ≤ n) (hN : 2 * n < N) (ω : (Fin N → Fin S → Basis (Fin n)) × (Fin S₀ → Basis (Fin n))) : MqcReports ω (mqcEst ω) := by
  intro counts counts₀ hc hc0 ym p h0 h1
  unfold infoMqc
  rw [if_pos (by omega)]
  refine ⟨_, rfl, ?_⟩
  simp only
  rw [h0, h1, share_counts hc0, share_counts hc0]
  rw [fft_congr n (z := fun k => (means (ind (zeros n)) ω.1 k : ℂ)) fun k hk => by
    simp only [means, onRange, hk, dif_pos]
    rw [share_counts (hc ⟨k, hk⟩)]]
  rfl

theorem avg_add {T : Type} (f g : T → ℝ) (ν : Fin S₀ → T) : QV.avg f ν + QV.avg g ν = QV.avg (fun x => f x + g x) ν := by
  unfold QV.avg
  rw [← add_div, ← Finset.sum_add_distrib]

/-- Half the probability of 0…0 and 1…1. -/
noncomputable def popTrue (w₀ : Basis (Fin n) → ℝ) : ℝ := (w₀ (zeros n) + w₀ (ones n)) / 2

theorem sum_ind (w₀ : Basis (Fin n) → ℝ) (a : Basis (Fin n)) : ∑ x, w₀ x * ind a x = w₀ a := by
  unfold ind
  simp

theorem pop_mean (hS : 0 < S₀) {w₀ : Basis (Fin n) → ℝ} (h : IsDistr w₀) : ∑ ν : Fin S₀ → Basis (Fin n), shotsProb w₀ ν * popEst ν = popTrue w₀ := by
  have e : ∀ ν : Fin S₀ → Basis (Fin n), shotsProb w₀ ν * popEst ν =
      (1 / 2) * (shotsProb w₀ ν * QV.avg (ind (zeros n)) ν) + (1 / 2) * (shotsProb w₀ ν * QV.avg (ind (ones n)) ν) := fun ν => by
    unfold popEst; ring
  simp only [e]
  rw [Finset.sum_add_distrib, ← Finset.mul_sum, ← Finset.mul_sum, one_mean hS h, one_mean hS h, sum_ind, sum_ind]
  unfold popTrue
  ring

theorem pop_scatter (hn : 1 ≤ n) (hS : 0 < S₀) {w₀ : Basis (Fin n) → ℝ} (h : IsDistr w₀) :
    ∑ ν : Fin S₀ → Basis (Fin n), shotsProb w₀ ν * (popEst ν - popTrue w₀) ^ 2 ≤ 1 / (16 * S₀) := by
  have hS' : (0 : ℝ) < S₀ := by exact_mod_cast hS
  let X : Basis (Fin n) → ℝ := fun x => ind (zeros n) x + ind (ones n) x
  have hm : ∑ x, w₀ x * X x = w₀ (zeros n) + w₀ (ones n) := by
    simp only [X, mul_add]
    rw [Finset.sum_add_distrib, sum_ind, sum_ind]
  have h01 : ∀ x, 0 ≤ X x ∧ X x ≤ 1 := by
    intro x
    simp only [X, ind]
    by_cases h0 : x = zeros n
    · have h1 : x ≠ ones n := by rw [h0]; exact zeros_ne_ones hn
      rw [if_pos h0, if_neg h1]; norm_num
    · rw [if_neg h0]; split <;> norm_num
  have hv := QV.avg_variance S₀ hS w₀ h.2 X _ hm
  have hle := QV.variance_le w₀ h.1 X (fun x => (h01 x).1) (fun x => (h01 x).2) _ hm
  have e : ∀ ν : Fin S₀ → Basis (Fin n), shotsProb w₀ ν * (popEst ν - popTrue w₀) ^ 2 =
      (1 / 4) * ((∏ t, w₀ (ν t)) * (QV.avg X ν - (w₀ (zeros n) + w₀ (ones n))) ^ 2) := by
    intro ν
    unfold popEst popTrue shotsProb
    rw [avg_add]
    ring
  simp only [e]
  rw [← Finset.mul_sum, hv]
  have h4 : ∑ x, w₀ x * X x ^ 2 - (w₀ (zeros n) + w₀ (ones n)) ^ 2 ≤ 1 / 4 := by
    nlinarith [sq_nonneg (w₀ (zeros n) + w₀ (ones n) - 1 / 2)]
  calc (1 / 4 : ℝ) * (_ / S₀) ≤ (1 / 4) * ((1 / 4) / S₀) :=
        mul_le_mul_of_nonneg_left (div_le_div_of_nonneg_right h4 hS'.le) (by norm_num)
    _ = 1 / (16 * S₀) := by field_simp; norm_num

theorem ghz_nonneg {w : Fin N → Basis (Fin n) → ℝ} {w₀ : Basis (Fin n) → ℝ} (hw : ∀ k, IsDistr (w k)) (h0 : IsDistr w₀)
    (ω : (Fin N → Fin S → Basis (Fin n)) × (Fin S₀ → Basis (Fin n))) : 0 ≤ ghzProb w w₀ ω :=
  mul_nonneg (Finset.prod_nonneg fun k _ => shots_nonneg (hw k) _) (shots_nonneg h0 _)

open Classical in
/-- An estimate made of two parts is far from the truth only if one of the parts is. -/
theorem far_two {w : Fin N → Basis (Fin n) → ℝ} {w₀ : Basis (Fin n) → ℝ} (hn : 1 ≤ n) (hw : ∀ k, IsDistr (w k)) (h0 : IsDistr w₀) (hS0 : 0 < S₀)
    (c : (Fin N → Fin S → Basis (Fin n)) → ℝ) (C : ℝ) (f : (Fin N → Fin S → Basis (Fin n)) → ℝ) (hf : ∀ ω, 0 ≤ f ω) (ε : ℝ) (hε : 0 < ε)
    (hc : ∀ ω, ε / 2 ≤ |c ω - C| → 1 ≤ f ω) :
    (∑ ω : (Fin N → Fin S → Basis (Fin n)) × (Fin S₀ → Basis (Fin n)), if ε ≤ |popEst ω.2 + c ω.1 - (popTrue w₀ + C)| then ghzProb w w₀ ω else 0) ≤
      (∑ ω, (∏ k, shotsProb (w k) (ω k)) * f ω) + 1 / (4 * S₀ * ε ^ 2) := by
  have hm := markov (fun ω : (Fin N → Fin S → Basis (Fin n)) × (Fin S₀ → Basis (Fin n)) => ghzProb w w₀ ω) (ghz_nonneg hw h0)
    (fun ω => ε ≤ |popEst ω.2 + c ω.1 - (popTrue w₀ + C)|) (fun ω => f ω.1 + (4 / ε ^ 2) * (popEst ω.2 - popTrue w₀) ^ 2)
    (fun ω => add_nonneg (hf _) (by positivity)) (fun ω h => by
      by_cases h1 : ε / 2 ≤ |c ω.1 - C|
      · have := hc _ h1
        have h2 : 0 ≤ (4 / ε ^ 2) * (popEst ω.2 - popTrue w₀) ^ 2 := by positivity
        linarith
      · have h2 : ε / 2 ≤ |popEst ω.2 - popTrue w₀| := by
          have := abs_add_le (popEst ω.2 - popTrue w₀) (c ω.1 - C)
          rw [show popEst ω.2 - popTrue w₀ + (c ω.1 - C) = popEst ω.2 + c ω.1 - (popTrue w₀ + C) by ring] at this
          linarith [not_le.1 h1]
        have h3 : (ε / 2) ^ 2 ≤ (popEst ω.2 - popTrue w₀) ^ 2 := by
          rw [← sq_abs (popEst ω.2 - popTrue w₀)]
          exact pow_le_pow_left₀ (by positivity) h2 2
        have h4 : 1 = (4 / ε ^ 2) * (ε / 2) ^ 2 := by field_simp; norm_num
        have h5 := mul_le_mul_of_nonneg_left h3 (show 0 ≤ 4 / ε ^ 2 by positivity)
        linarith [hf ω.1])
  refine hm.trans ?_
  simp only [mul_add]
  rw [Finset.sum_add_distrib]
  have e1 := exp_fst (fun ω : Fin N → Fin S → Basis (Fin n) => ∏ k, shotsProb (w k) (ω k)) (fun ν : Fin S₀ → Basis (Fin n) => shotsProb w₀ ν)
    (shots_total S₀ h0) f
  have e2 := exp_snd (fun ω : Fin N → Fin S → Basis (Fin n) => ∏ k, shotsProb (w k) (ω k)) (fun ν : Fin S₀ → Basis (Fin n) => shotsProb w₀ ν)
    (runs_total hw) fun ν => (4 / ε ^ 2) * (popEst ν - popTrue w₀) ^ 2
  unfold ghzProb
  rw [e1, e2]
  have e3 : ∑ ν : Fin S₀ → Basis (Fin n), shotsProb w₀ ν * ((4 / ε ^ 2) * (popEst ν - popTrue w₀) ^ 2) ≤ 1 / (4 * S₀ * ε ^ 2) := by
    have hp := pop_scatter hn hS0 h0
    have : ∀ ν : Fin S₀ → Basis (Fin n), shotsProb w₀ ν * ((4 / ε ^ 2) * (popEst ν - popTrue w₀) ^ 2) =
        (4 / ε ^ 2) * (shotsProb w₀ ν * (popEst ν - popTrue w₀) ^ 2) := fun ν => by ring
    simp only [this]
    rw [← Finset.mul_sum]
    have hS' : (0 : ℝ) < S₀ := by exact_mod_cast hS0
    calc (4 / ε ^ 2) * _ ≤ (4 / ε ^ 2) * (1 / (16 * S₀)) := mul_le_mul_of_nonneg_left hp (by positivity)
      _ = 1 / (4 * S₀ * ε ^ 2) := by field_simp; norm_num
  linarith

theorem sgnOf_sq (x : Basis (Fin n)) : sgnOf x ^ 2 = 1 := by
  unfold sgnOf
  rw [← pow_mul, mul_comm, pow_mul]
  norm_num

/-- The distribution of the parity oscillation estimate. -/
theorem po_estimate (hn : 1 ≤ n) (hN : 0 < N) (hS : 0 < S) (hS0 : 0 < S₀) {w : Fin N → Basis (Fin n) → ℝ} {w₀ : Basis (Fin n) → ℝ}
    (hw : ∀ k, IsDistr (w k)) (h0 : IsDistr w₀) (e : Mixture n)
    (hb : BestFidelity e (popTrue w₀ + ‖fft N (fun k => (expected w sgnOf k : ℂ)) n‖)) :
    PoAccurate (S := S) (S₀ := S₀) e w w₀ poEst (popTrue w₀ + ‖fft N (fun k => (expected w sgnOf k : ℂ)) n‖) := by
  have hN' : (0 : ℝ) < N := by exact_mod_cast hN
  have hS' : (0 : ℝ) < S := by exact_mod_cast hS
  have hsc := fft_scatter (S := S) hN hS hw sgnOf 1 (fun k => by
    simp only [sgnOf_sq, mul_one]
    rw [(hw k).2]
    nlinarith [sq_nonneg (∑ o, w k o * sgnOf o)]) n
  set P : (Fin N → Fin S → Basis (Fin n)) → ℝ := fun ω => ∏ k, shotsProb (w k) (ω k) with hP
  have hP0 : ∀ ω, 0 ≤ P ω := fun ω => Finset.prod_nonneg fun k _ => shots_nonneg (hw k) _
  have hP1 : ∑ ω, P ω = 1 := runs_total hw
  set C : ℂ := fft N (fun k => (expected w sgnOf k : ℂ)) n
  set X : (Fin N → Fin S → Basis (Fin n)) → ℂ := fun ω => fft N (fun k => (means sgnOf ω k : ℂ)) n
  have hmean : ∑ ω, ((P ω : ℝ) : ℂ) * (X ω - C) = 0 := fft_mean hS hw sgnOf n
  have hsplit : ∑ ω : (Fin N → Fin S → Basis (Fin n)) × (Fin S₀ → Basis (Fin n)), ghzProb w w₀ ω * poEst ω = popTrue w₀ + ∑ ω, P ω * ‖X ω‖ := by
    have e1 := exp_fst P (fun ν : Fin S₀ → Basis (Fin n) => shotsProb w₀ ν) (shots_total S₀ h0) fun ω => ‖X ω‖
    have e2 := exp_snd P (fun ν : Fin S₀ → Basis (Fin n) => shotsProb w₀ ν) hP1 popEst
    rw [pop_mean hS0 h0] at e2
    unfold poEst ghzProb
    simp only [mul_add]
    rw [Finset.sum_add_distrib, ← e1, ← e2]
  refine ⟨hb, ?_, ?_, ?_⟩
  · rw [hsplit]
    have h1 : C = ∑ ω, ((P ω : ℝ) : ℂ) * X ω := by
      simp only [mul_sub] at hmean
      rw [Finset.sum_sub_distrib, ← Finset.sum_mul, ← Complex.ofReal_sum, hP1] at hmean
      have := sub_eq_zero.1 hmean
      rw [this]
      simp
    have h2 : ‖C‖ ≤ ∑ ω, P ω * ‖X ω‖ := by
      rw [h1]
      refine (norm_sum_le _ _).trans (le_of_eq ?_)
      refine Finset.sum_congr rfl fun ω _ => ?_
      rw [norm_mul, Complex.norm_real, Real.norm_of_nonneg (hP0 ω)]
    linarith
  · rw [hsplit]
    have h1 : ∑ ω, P ω * ‖X ω‖ ≤ ‖C‖ + ∑ ω, P ω * ‖X ω - C‖ := by
      have : ‖C‖ = ∑ ω, P ω * ‖C‖ := by rw [← Finset.sum_mul, hP1, one_mul]
      rw [this, ← Finset.sum_add_distrib]
      refine Finset.sum_le_sum fun ω _ => ?_
      rw [← mul_add]
      refine mul_le_mul_of_nonneg_left ?_ (hP0 ω)
      have := norm_add_le C (X ω - C)
      rwa [add_sub_cancel] at this
    have h2 := mean_le_root P hP0 hP1 fun ω => ‖X ω - C‖
    have h3 : Real.sqrt (∑ ω, P ω * ‖X ω - C‖ ^ 2) ≤ 1 / Real.sqrt (N * S) := by
      have h4 : 1 / Real.sqrt (N * S) = Real.sqrt (1 / (N * S)) := by rw [Real.sqrt_div (by norm_num), Real.sqrt_one]
      rw [h4]
      exact Real.sqrt_le_sqrt hsc
    linarith
  · intro ε hε
    have := far_two (S := S) (S₀ := S₀) hn hw h0 hS0 (fun ω => ‖X ω‖) ‖C‖ (fun ω => (4 / ε ^ 2) * ‖X ω - C‖ ^ 2) (fun ω => by positivity) ε hε (fun ω h => by
      have h1 : ε / 2 ≤ ‖X ω - C‖ := h.trans (abs_norm_sub_norm_le _ _)
      have h2 : (ε / 2) ^ 2 ≤ ‖X ω - C‖ ^ 2 := pow_le_pow_left₀ (by positivity) h1 2
      have h4 : 1 = (4 / ε ^ 2) * (ε / 2) ^ 2 := by field_simp; norm_num
      rw [h4]
      exact mul_le_mul_of_nonneg_left h2 (by positivity))
    refine this.trans (add_le_add ?_ le_rfl)
    have e3 : ∀ ω, P ω * ((4 / ε ^ 2) * ‖X ω - C‖ ^ 2) = (4 / ε ^ 2) * (P ω * ‖X ω - C‖ ^ 2) := fun ω => by ring
    show ∑ ω, P ω * ((4 / ε ^ 2) * ‖X ω - C‖ ^ 2) ≤ _
    simp only [e3]
    rw [← Finset.mul_sum]
    calc (4 / ε ^ 2) * _ ≤ (4 / ε ^ 2) * (1 / (N * S)) := mul_le_mul_of_nonneg_left hsc (by positivity)
      _ = 4 / (N * S * ε ^ 2) := by field_simp

theorem ind_sq (a x : Basis (Fin n)) : ind a x ^ 2 = ind a x := by unfold ind; split <;> norm_num

/-- The distribution of the coherence estimate. -/
theorem mqc_estimate (hn : 1 ≤ n) (hN : 0 < N) (hS : 0 < S) (hS0 : 0 < S₀) {w : Fin N → Basis (Fin n) → ℝ} {w₀ : Basis (Fin n) → ℝ}
    (hw : ∀ k, IsDistr (w k)) (h0 : IsDistr w₀) (e : Mixture n)
    (hb : BestFidelity e (popTrue w₀ + Real.sqrt ‖fft N (fun k => (expected w (ind (zeros n)) k : ℂ)) n‖)) :
    MqcAccurate (S := S) (S₀ := S₀) e w w₀ mqcEst (popTrue w₀ + Real.sqrt ‖fft N (fun k => (expected w (ind (zeros n)) k : ℂ)) n‖) := by
  have hN' : (0 : ℝ) < N := by exact_mod_cast hN
  have hS' : (0 : ℝ) < S := by exact_mod_cast hS
  have hsc := fft_scatter (S := S) hN hS hw (ind (zeros n)) (1 / 4) (fun k => by
    simp only [ind_sq]
    nlinarith [sq_nonneg ((∑ o, w k o * ind (zeros n) o) - 1 / 2)]) n
  set P : (Fin N → Fin S → Basis (Fin n)) → ℝ := fun ω => ∏ k, shotsProb (w k) (ω k) with hP
  set C : ℂ := fft N (fun k => (expected w (ind (zeros n)) k : ℂ)) n
  set X : (Fin N → Fin S → Basis (Fin n)) → ℂ := fun ω => fft N (fun k => (means (ind (zeros n)) ω k : ℂ)) n
  refine ⟨hb, fun ε hε => ?_⟩
  have := far_two (S := S) (S₀ := S₀) hn hw h0 hS0 (fun ω => Real.sqrt ‖X ω‖) (Real.sqrt ‖C‖) (fun ω => (16 / ε ^ 4) * ‖X ω - C‖ ^ 2)
    (fun ω => by positivity) ε hε (fun ω h => by
      have h0 : (ε / 2) ^ 2 ≤ (Real.sqrt ‖X ω‖ - Real.sqrt ‖C‖) ^ 2 := by
        rw [← sq_abs (Real.sqrt ‖X ω‖ - Real.sqrt ‖C‖)]
        exact pow_le_pow_left₀ (by positivity) h 2
      have h1 : (ε / 2) ^ 2 ≤ ‖X ω - C‖ :=
        h0.trans ((sqrt_sub_le _ _ (norm_nonneg _) (norm_nonneg _)).trans (abs_norm_sub_norm_le _ _))
      have h2 : ((ε / 2) ^ 2) ^ 2 ≤ ‖X ω - C‖ ^ 2 := pow_le_pow_left₀ (by positivity) h1 2
      have h4 : 1 = (16 / ε ^ 4) * ((ε / 2) ^ 2) ^ 2 := by field_simp; norm_num
      rw [h4]
      exact mul_le_mul_of_nonneg_left h2 (by positivity))
  refine this.trans (add_le_add ?_ le_rfl)
  have e3 : ∀ ω, P ω * ((16 / ε ^ 4) * ‖X ω - C‖ ^ 2) = (16 / ε ^ 4) * (P ω * ‖X ω - C‖ ^ 2) := fun ω => by ring
  show ∑ ω, P ω * ((16 / ε ^ 4) * ‖X ω - C‖ ^ 2) ≤ _
  simp only [e3]
  rw [← Finset.mul_sum]
  calc (16 / ε ^ 4) * _ ≤ (16 / ε ^ 4) * ((1 / 4) / (N * S)) := mul_le_mul_of_nonneg_left hsc (by positivity)
    _ = 4 / (N * S * ε ^ 4) := by field_simp; norm_num

/-! ### The laws of the circuits -/

theorem po_law_shows {e : Mixture n} {prep circ : List (Instr ℝ)} {w : Basis (Fin n) → ℝ} (h : PoLaw e prep circ w) :
    PoShows e prep circ (∑ x, w x * sgnOf x) := by
  obtain ⟨-, rest, out, h1, h2, h3, h4⟩ := h
  refine ⟨rest, out, h1, h2, h3, ?_⟩
  simp only [h4]
  clear h2 h3 h4
  induction out with
  | nil => simp
  | cons o out ih =>
    simp only [List.map_cons, List.sum_cons, add_mul]
    rw [Finset.sum_add_distrib, ih]
    congr 1
    unfold parity
    refine Finset.sum_congr rfl fun x _ => ?_
    rw [mul_comm]
    rfl

theorem mqc_law_shows {e : Mixture n} {Bs : List (Kraus n)} {prep inv circ : List (Instr ℝ)} {w : Basis (Fin n) → ℝ} (h : MqcLaw e Bs prep inv circ w) :
    MqcShows e Bs prep inv circ (∑ x, w x * ind (zeros n) x) := by
  obtain ⟨-, mid, es, out, h1, h2, h3, h4, h5⟩ := h
  refine ⟨mid, es, out, h1, h2, h3, h4, ?_⟩
  rw [sum_ind, h5]

theorem total_pop (e : Mixture n) : ∑ x, pop e x = (e.map nrm).sum := by
  unfold pop nrm
  induction e with
  | nil => simp
  | cons ψ e ih => simp only [List.map_cons, List.sum_cons, Finset.sum_add_distrib, ih]

theorem law_distr (out : List (State (Fin n) ℂ × List (ℕ × ℕ))) (h : (out.map fun o => nrm o.1).sum = 1) :
    IsDistr fun x => (out.map fun o => outcome o.1 x).sum := by
  constructor
  · intro x
    exact List.sum_nonneg fun r hr => by
      obtain ⟨o, -, rfl⟩ := List.mem_map.1 hr
      exact normSq_nonneg _
  · have : ∀ l : List (State (Fin n) ℂ × List (ℕ × ℕ)), ∑ x, (l.map fun o => outcome o.1 x).sum = (l.map fun o => nrm o.1).sum := by
      intro l
      induction l with
      | nil => simp
      | cons o l ih => simp only [List.map_cons, List.sum_cons, Finset.sum_add_distrib, ih]; rfl
    rw [this, h]

theorem mapM_nrm {f : State (Fin n) ℂ → Option (State (Fin n) ℂ × List (ℕ × ℕ))} (hf : ∀ ψ o, f ψ = some o → nrm o.1 = nrm ψ)
    (e : Mixture n) (out : List (State (Fin n) ℂ × List (ℕ × ℕ))) (h : e.mapM f = some out) : (out.map fun o => nrm o.1).sum = (e.map nrm).sum := by
  induction e generalizing out with
  | nil => cases h; rfl
  | cons ψ e ih =>
    rw [List.mapM_cons] at h
    simp only [Option.bind_eq_bind, Option.bind_eq_some_iff, Option.pure_def, Option.some.injEq] at h
    obtain ⟨o, h1, os, h2, rfl⟩ := h
    simp only [List.map_cons, List.sum_cons]
    rw [ih os h2, hf ψ o h1]

theorem po_law (hn : 1 ≤ n) (prep : List (Instr ℝ)) (d : ℝ) (e : Mixture n) (he : ∑ x, pop e x = 1) :
    ∃ w, PoLaw e prep (poWith n prep d) w := by
  obtain ⟨y, rest, out, h1, h2, h3, -⟩ := po_shows hn prep d e
  refine ⟨_, law_distr out ?_, rest, out, h1, h2, h3, fun x => rfl⟩
  rw [mapM_nrm (fun ψ o h => nrm_exec rest (ψ, []) o h) e out h2, ← total_pop, he]

theorem po_circuits (hn : 1 ≤ n) (hN : 2 * n < N) (hS : 0 < S) (hS0 : 0 < S₀) (prep : List (Instr ℝ)) (e : Mixture n)
    (w : Fin N → Basis (Fin n) → ℝ) (w₀ : Basis (Fin n) → ℝ) (hw : ∀ k : Fin N, PoLaw e prep (poWith n prep (phase N k)) (w k))
    (h0 : IsDistr w₀) (h0' : ∀ x, w₀ x = pop e x) :
    ∃ est F, (∀ ω, PoReports ω (est ω)) ∧ PoAccurate (S := S) (S₀ := S₀) e w w₀ est F := by
  refine ⟨poEst, _, fun ω => po_reports hn hN ω, po_estimate hn (by omega) hS hS0 (fun k => (hw k).1) h0 e ?_⟩
  choose y hy using fun d => po_shows hn prep d e
  have h1 := po_fidelity hn N hN prep e (fun k => if h : k < N then ∑ x, w ⟨k, h⟩ x * sgnOf x else y (phase N k)) (fun k => by
    split
    · next h => exact po_law_shows (hw ⟨k, h⟩)
    · exact hy _)
  rw [fft_congr n (z := fun k => (expected w sgnOf k : ℂ)) fun k hk => by simp [expected, onRange, hk]] at h1
  rw [h1]
  unfold popTrue
  rw [h0', h0']
  exact best_fidelity hn e

theorem kraus_nrm (Bs : List (Kraus n)) (hB : ∀ x y, (Bs.map fun B => ∑ z, (starRingEnd ℂ) (B z x) * B z y).sum = if x = y then 1 else 0)
    (ψ : State (Fin n) ℂ) : (Bs.map fun B => nrm (B.app ψ)).sum = nrm ψ := by
  have h1 : ∀ B : Kraus n, ((nrm (B.app ψ) : ℝ) : ℂ) = ∑ x, ∑ y, (∑ z, (starRingEnd ℂ) (B z x) * B z y) * ((starRingEnd ℂ) (ψ x) * ψ y) := by
    intro B
    rw [nrm_inner]
    unfold Quantum.inner Kraus.app
    simp only [map_sum, Finset.sum_mul_sum, map_mul]
    rw [Finset.sum_comm]
    refine Finset.sum_congr rfl fun x _ => ?_
    rw [Finset.sum_comm]
    refine Finset.sum_congr rfl fun y _ => ?_
    rw [Finset.sum_mul]
    refine Finset.sum_congr rfl fun z _ => ?_
    ring
  have h2 : (((Bs.map fun B => nrm (B.app ψ)).sum : ℝ) : ℂ) = nrm ψ := by
    rw [cast_list_sum, List.map_map]
    simp only [Function.comp_def, h1]
    rw [list_sum_comm]
    simp only [list_sum_comm, List.sum_map_mul_right, hB]
    rw [nrm_inner]
    unfold Quantum.inner
    simp
  exact_mod_cast h2

theorem mapM_run (l : List (Instr ℝ)) (e es : Mixture n) (h : e.mapM (runGates n l) = some es) : (es.map nrm).sum = (e.map nrm).sum := by
  induction e generalizing es with
  | nil => cases h; rfl
  | cons ψ e ih =>
    rw [List.mapM_cons] at h
    simp only [Option.bind_eq_bind, Option.bind_eq_some_iff, Option.pure_def, Option.some.injEq] at h
    obtain ⟨o, h1, os, h2, rfl⟩ := h
    simp only [List.map_cons, List.sum_cons]
    rw [ih os h2, nrm_run l ψ o h1]

theorem mqc_law (hn : 1 ≤ n) {prep : List (Instr ℝ)} (h : IsPrep n prep) (mid : List (Instr ℝ)) (hmid : ∀ g ∈ mid, g = .barrier) (d : ℝ)
    (e : Mixture n) (Bs : List (Kraus n)) (he : ∑ x, pop e x = 1) (hB : TracePreserving Bs) :
    ∃ w, MqcLaw e Bs prep prep.reverse (prep ++ mqcMid n mid d ++ (prep.reverse ++ measurementCirc n true)) w := by
  obtain ⟨y, mid', es, out, h1, h2, h3, h4, -⟩ := mqc_shows hn h mid hmid d e Bs
  refine ⟨_, law_distr out ?_, mid', es, out, h1, h2, h3, h4, fun x => rfl⟩
  rw [mapM_nrm (fun ψ o h => nrm_exec _ (ψ, []) o h) _ out h3]
  have : ∀ l : Mixture n, ((l.flatMap fun ψ => Bs.map fun B => B.app ψ).map nrm).sum = (l.map nrm).sum := by
    intro l
    induction l with
    | nil => rfl
    | cons ψ l ih =>
      rw [List.flatMap_cons, List.map_append, List.sum_append, ih, List.map_map]
      simp only [List.map_cons, List.sum_cons, Function.comp_def]
      rw [kraus_nrm Bs hB]
  rw [this, mapM_run _ e es h2, ← total_pop, he]

theorem mqc_circuits (hn : 1 ≤ n) (hN : 2 * n < N) (hS : 0 < S) (hS0 : 0 < S₀) {prep : List (Instr ℝ)} (h : IsPrep n prep) (mid : List (Instr ℝ))
    (hmid : ∀ g ∈ mid, g = .barrier) (e : Mixture n) (Bs : List (Kraus n)) (hm : Mirrors e Bs)
    (w : Fin N → Basis (Fin n) → ℝ) (w₀ : Basis (Fin n) → ℝ)
    (hw : ∀ k : Fin N, MqcLaw e Bs prep prep.reverse (prep ++ mqcMid n mid (phase N k) ++ (prep.reverse ++ measurementCirc n true)) (w k))
    (h0 : IsDistr w₀) (h0' : ∀ x, w₀ x = pop e x) :
    ∃ est F, (∀ ω, MqcReports ω (est ω)) ∧ MqcAccurate (S := S) (S₀ := S₀) e w w₀ est F := by
  refine ⟨mqcEst, _, fun ω => mqc_reports hn hN ω, mqc_estimate hn (by omega) hS hS0 (fun k => (hw k).1) h0 e ?_⟩
  choose y hy using fun d => mqc_shows hn h mid hmid d e Bs
  have h1 := (mqc_mirror hn N hN h mid hmid e Bs hm (fun k => if h : k < N then ∑ x, w ⟨k, h⟩ x * ind (zeros n) x else y (phase N k)) (fun k => by
    split
    · next h => exact mqc_law_shows (hw ⟨k, h⟩)
    · exact hy _)).1
  rw [fft_congr n (z := fun k => (expected w (ind (zeros n)) k : ℂ)) fun k hk => by simp [expected, onRange, hk]] at h1
  rw [h1]
  unfold popTrue
  rw [h0', h0']
  exact best_fidelity hn e

/-! ### The property -/

/-- **C131** (the shots): every list of shots has counts, and the circuits of a normalised state have outcome probabilities. -/
theorem C131_total (n : ℕ) (hn : 1 ≤ n) : (∀ (S : ℕ) (ω : Fin S → Basis (Fin n)), ∃ counts : Dict Str ℝ, CountsOf counts ω) ∧
    ∀ (e : Mixture n), ∑ x, pop e x = 1 → IsDistr (pop e) ∧ (∀ δ, ∃ w, PoLaw e (ghzSimple n false true) (ghzPo n δ) w) ∧
      ∀ Bs : List (Kraus n), TracePreserving Bs → ∀ inv circ δ, inverse Real.pi (ghzSimple n false true) = some inv →
        ghzMqc Real.pi n δ true = some circ → ∃ w, MqcLaw e Bs (ghzSimple n false true) inv circ w := by
  refine ⟨fun S ω => counts_exist ω, fun e he => ⟨⟨pop_nonneg e, he⟩, fun δ => po_law hn _ δ e he, ?_⟩⟩
  intro Bs hB inv circ δ h1 h2
  rw [prep_inverse (prep_line n hn) _] at h1
  have h3 := mqcWith_eq (prep_line n hn) [] Real.pi δ
  unfold ghzMqc at h2
  rw [h3] at h2
  cases h1; cases h2
  exact mqc_law hn (prep_line n hn) [] (by simp) δ e Bs he hB

/-- **C131** (parity oscillations, linear): the fidelity reported from `S` shots of each of `N` circuits and `S₀` shots of the preparation is never too small on
average, too large by at most 1/√(N S) on average, and rarely far from the fidelity of the prepared state with the best GHZ state. -/
theorem C131_po_linear (n : ℕ) (hn : 1 ≤ n) (N : ℕ) (hN : 2 * n < N) (S S₀ : ℕ) (hS : 0 < S) (hS0 : 0 < S₀) (e : Mixture n)
    (w : Fin N → Basis (Fin n) → ℝ) (w₀ : Basis (Fin n) → ℝ)
    (hw : ∀ k : Fin N, PoLaw e (ghzSimple n false true) (ghzPo n (phase N k)) (w k)) (h0 : IsDistr w₀) (h0' : ∀ x, w₀ x = pop e x) :
    ∃ est F, (∀ ω, PoReports ω (est ω)) ∧ PoAccurate (S := S) (S₀ := S₀) e w w₀ est F :=
  po_circuits hn hN hS hS0 _ e w w₀ hw h0 h0'

/-- **C131** (parity oscillations, tiers): the same for the circuits along the tiers of a device. -/
theorem C131_po_layout (cmap : List (ℕ × ℕ)) (root : ℕ) (tier : Dict ℕ (List (ℕ × ℕ))) (h : Schedule cmap root tier) (n : ℕ)
    (hn : 2 ≤ n) (hmax : n ≤ (root :: targets tier).length) (N : ℕ) (hN : 2 * n < N) (S S₀ : ℕ) (hS : 0 < S) (hS0 : 0 < S₀) (e : Mixture n) :
    ∃ prep layout, ghzLayout tier n true = some (prep, layout) ∧ ∃ circ : ℝ → List (Instr ℝ),
      (∀ δ, layoutPo tier n δ = some (circ δ, layout)) ∧ (∑ x, pop e x = 1 → ∀ δ, ∃ w, PoLaw e prep (circ δ) w) ∧
      ∀ (w : Fin N → Basis (Fin n) → ℝ) (w₀ : Basis (Fin n) → ℝ), (∀ k : Fin N, PoLaw e prep (circ (phase N k)) (w k)) →
        IsDistr w₀ → (∀ x, w₀ x = pop e x) → ∃ est F, (∀ ω, PoReports ω (est ω)) ∧ PoAccurate (S := S) (S₀ := S₀) e w w₀ est F := by
  obtain ⟨prep, layout, h1, h2⟩ := prep_layout h n hn hmax true
  refine ⟨prep, layout, h1, fun δ => poWith n prep δ, ?_, fun he δ => po_law (by omega) _ δ e he,
    fun w w₀ hw h0 h0' => po_circuits (by omega) hN hS hS0 _ e w w₀ hw h0 h0'⟩
  intro δ
  unfold layoutPo
  simp only [h1, Option.bind_eq_bind, Option.bind_some]

/-- **C131** (coherences, linear): when the inverse is as imperfect as the preparation, the fidelity reported from finitely many shots is rarely far from
the fidelity of the prepared state with the best GHZ state. -/
theorem C131_mqc_linear (n : ℕ) (hn : 1 ≤ n) (N : ℕ) (hN : 2 * n < N) (S S₀ : ℕ) (hS : 0 < S) (hS0 : 0 < S₀) (e : Mixture n) (Bs : List (Kraus n))
    (hm : Mirrors e Bs) :
    ∃ (inv : List (Instr ℝ)) (circ : ℝ → List (Instr ℝ)), inverse Real.pi (ghzSimple n false true) = some inv ∧
      (∀ δ, ghzMqc Real.pi n δ true = some (circ δ)) ∧
      ∀ (w : Fin N → Basis (Fin n) → ℝ) (w₀ : Basis (Fin n) → ℝ), (∀ k : Fin N, MqcLaw e Bs (ghzSimple n false true) inv (circ (phase N k)) (w k)) →
        IsDistr w₀ → (∀ x, w₀ x = pop e x) → ∃ est F, (∀ ω, MqcReports ω (est ω)) ∧ MqcAccurate (S := S) (S₀ := S₀) e w w₀ est F :=
  ⟨_, fun δ => _, prep_inverse (prep_line n hn) _, fun δ => mqcWith_eq (prep_line n hn) [] _ δ,
    fun w w₀ hw h0 h0' => mqc_circuits hn hN hS hS0 (prep_line n hn) [] (by simp) e Bs hm w w₀ hw h0 h0'⟩

/-- **C131** (coherences, tiers): the same for the circuits along the tiers of a device. -/
theorem C131_mqc_layout (cmap : List (ℕ × ℕ)) (root : ℕ) (tier : Dict ℕ (List (ℕ × ℕ))) (h : Schedule cmap root tier) (n : ℕ)
    (hn : 2 ≤ n) (hmax : n ≤ (root :: targets tier).length) (N : ℕ) (hN : 2 * n < N) (S S₀ : ℕ) (hS : 0 < S) (hS0 : 0 < S₀) (e : Mixture n)
    (Bs : List (Kraus n)) (hm : Mirrors e Bs) :
    ∃ (prep inv : List (Instr ℝ)) (layout : Dict ℕ ℕ) (circ : ℝ → List (Instr ℝ)), ghzLayout tier n true = some (prep, layout) ∧
      inverse Real.pi prep = some inv ∧ (∀ δ, layoutMqc Real.pi tier n δ true = some (circ δ, layout)) ∧
      (∑ x, pop e x = 1 → TracePreserving Bs → ∀ δ, ∃ w, MqcLaw e Bs prep inv (circ δ) w) ∧
      ∀ (w : Fin N → Basis (Fin n) → ℝ) (w₀ : Basis (Fin n) → ℝ), (∀ k : Fin N, MqcLaw e Bs prep inv (circ (phase N k)) (w k)) →
        IsDistr w₀ → (∀ x, w₀ x = pop e x) → ∃ est F, (∀ ω, MqcReports ω (est ω)) ∧ MqcAccurate (S := S) (S₀ := S₀) e w w₀ est F := by
  obtain ⟨prep, layout, h1, h2⟩ := prep_layout h n hn hmax true
  refine ⟨prep, _, layout, fun δ => _, h1, prep_inverse h2 _, ?_, fun he hB δ => mqc_law (by omega) h2 [.barrier] (by simp) δ e Bs he hB,
    fun w w₀ hw h0 h0' => mqc_circuits (by omega) hN hS hS0 h2 [.barrier] (by simp) e Bs hm w w₀ hw h0 h0'⟩
  intro δ
  unfold layoutMqc
  simp only [h1, mqcWith_eq h2 [.barrier] Real.pi δ, Option.bind_eq_bind, Option.bind_some]

/-! ### The bias -/

/-- 0…0 with probability 1/2, otherwise 1…1. -/
noncomputable def dephased (n : ℕ) : Mixture n := [fun x => if x = zeros n then rt else 0, fun x => if x = ones n then rt else 0]

theorem dephased_dens (x y : Basis (Fin n)) (h : x ≠ y) : dens (dephased n) x y = 0 := by
  unfold dens dephased
  simp only [List.map_cons, List.map_nil, List.sum_cons, List.sum_nil]
  have : ∀ a : Basis (Fin n), (if x = a then rt else 0) * (starRingEnd ℂ) (if y = a then rt else 0) = 0 := by
    intro a
    by_cases hx : x = a
    · rw [if_neg (fun hy => h (hx.trans hy.symm) : ¬ y = a)]; simp
    · rw [if_neg hx]; simp
  rw [this, this]
  simp

theorem dephased_pop (hn : 1 ≤ n) (x : Basis (Fin n)) : pop (dephased n) x = (1 / 2) * ind (zeros n) x + (1 / 2) * ind (ones n) x := by
  unfold pop dephased outcome ind
  simp only [List.map_cons, List.map_nil, List.sum_cons, List.sum_nil]
  by_cases h0 : x = zeros n <;> by_cases h1 : x = ones n <;> simp [h0, h1, normSq_rt, zeros_ne_ones hn, (zeros_ne_ones hn).symm]

theorem dephased_total (hn : 1 ≤ n) : ∑ x, pop (dephased n) x = 1 := by
  simp only [dephased_pop hn]
  rw [Finset.sum_add_distrib, ← Finset.mul_sum, ← Finset.mul_sum]
  unfold ind
  simp
  norm_num

theorem flip_ne (hn : 1 ≤ n) (x : Basis (Fin n)) : x ≠ flip x := fun h => by
  have := congrFun h ⟨0, by omega⟩
  simp [flip] at this

/-- **C131** (finding): the reported fidelity is too large on average.  For a state without any coherence between 0…0 and 1…1, of fidelity 1/2, the average
exceeds 1/2 by at least 1/(N S): noise never cancels in the absolute value of the Fourier coefficient. -/
theorem C131_finding_bias (n : ℕ) (hn : 1 ≤ n) (N : ℕ) (hN : 2 * n < N) (S S₀ : ℕ) (hS : 0 < S) (hS0 : 0 < S₀)
    (w : Fin N → Basis (Fin n) → ℝ) (w₀ : Basis (Fin n) → ℝ)
    (hw : ∀ k : Fin N, PoLaw (dephased n) (ghzSimple n false true) (ghzPo n (phase N k)) (w k)) (h0 : IsDistr w₀)
    (h0' : ∀ x, w₀ x = pop (dephased n) x) :
    BestFidelity (dephased n) (1 / 2) ∧
      ∃ est : (Fin N → Fin S → Basis (Fin n)) × (Fin S₀ → Basis (Fin n)) → ℝ, (∀ ω, PoReports ω (est ω)) ∧
        1 / 2 + 1 / (N * S) ≤ ∑ ω, ghzProb w w₀ ω * est ω := by
  have hN' : (0 : ℝ) < N := by exact_mod_cast (by omega : 0 < N)
  have hS' : (0 : ℝ) < S := by exact_mod_cast hS
  constructor
  · have := best_fidelity hn (dephased n)
    rw [dephased_dens _ _ (zeros_ne_ones hn), dephased_pop hn, dephased_pop hn] at this
    convert this using 1
    simp [ind, zeros_ne_ones hn, (zeros_ne_ones hn).symm]
  refine ⟨poEst, fun ω => po_reports hn hN ω, ?_⟩
  have hd : ∀ k, IsDistr (w k) := fun k => (hw k).1
  have hz : ∀ k, ∑ x, w k x * sgnOf x = 0 := by
    intro k
    have h1 := po_value hn _ _ _ _ (po_law_shows (hw k))
    have h2 : (fun z x : Basis (Fin n) => if z = flip x then (-1 : ℂ) ^ n * dens (dephased n) x z else 0) = fun _ _ => 0 := by
      funext z x
      split
      · next h => rw [h, dephased_dens _ _ (flip_ne hn x), mul_zero]
      · rfl
    rw [h2] at h1
    unfold sig at h1
    simp only [zero_mul, Finset.sum_const_zero] at h1
    exact_mod_cast h1
  set P : (Fin N → Fin S → Basis (Fin n)) → ℝ := fun ω => ∏ k, shotsProb (w k) (ω k) with hP
  have hP0 : ∀ ω, 0 ≤ P ω := fun ω => Finset.prod_nonneg fun k _ => shots_nonneg (hd k) _
  have hP1 : ∑ ω, P ω = 1 := runs_total hd
  have e1 := exp_fst P (fun ν : Fin S₀ → Basis (Fin n) => shotsProb w₀ ν) (shots_total S₀ h0) fun ω => ‖fft N (fun k => (means sgnOf ω k : ℂ)) n‖
  have e2 := exp_snd P (fun ν : Fin S₀ → Basis (Fin n) => shotsProb w₀ ν) hP1 popEst
  rw [pop_mean hS0 h0] at e2
  have hpop : popTrue w₀ = 1 / 2 := by
    unfold popTrue
    rw [h0', h0', dephased_pop hn, dephased_pop hn]
    simp [ind, zeros_ne_ones hn, (zeros_ne_ones hn).symm]
  have hsum : ∑ ω : (Fin N → Fin S → Basis (Fin n)) × (Fin S₀ → Basis (Fin n)), ghzProb w w₀ ω * poEst ω =
      1 / 2 + ∑ ω, P ω * ‖fft N (fun k => (means sgnOf ω k : ℂ)) n‖ := by
    unfold poEst ghzProb
    simp only [mul_add]
    rw [Finset.sum_add_distrib, ← e1, ← hpop, ← e2]
  rw [hsum]
  have hX : ∀ ω : Fin N → Fin S → Basis (Fin n), fft N (fun k => (means sgnOf ω k : ℂ)) n =
      (1 / N) * ∑ k : Fin N, ((QV.avg sgnOf (ω k) : ℝ) : ℂ) * twiddle N n k := by
    intro ω
    rw [fft_fin]
    congr 1
    refine Finset.sum_congr rfl fun k _ => ?_
    simp only [means, onRange, k.2, dif_pos]
  have hle : ∀ ω : Fin N → Fin S → Basis (Fin n), ‖fft N (fun k => (means sgnOf ω k : ℂ)) n‖ ≤ 1 := by
    intro ω
    rw [hX, norm_mul]
    have h1 : ‖∑ k : Fin N, ((QV.avg sgnOf (ω k) : ℝ) : ℂ) * twiddle N n k‖ ≤ N := by
      refine (norm_sum_le _ _).trans ?_
      have h2 : ∀ k : Fin N, ‖((QV.avg sgnOf (ω k) : ℝ) : ℂ) * twiddle N n k‖ ≤ 1 := by
        intro k
        rw [norm_mul, twiddle_norm, mul_one, Complex.norm_real, Real.norm_eq_abs]
        unfold QV.avg
        rw [abs_div, abs_of_pos hS', div_le_one hS']
        refine (Finset.abs_sum_le_sum_abs _ _).trans ?_
        have h3 : ∀ j, |sgnOf (ω k j)| = 1 := fun j => by unfold sgnOf; simp
        simp [h3]
      refine (Finset.sum_le_sum fun k _ => h2 k).trans ?_
      simp
    have h4 : ‖(1 / (N : ℂ))‖ = 1 / N := by simp
    rw [h4]
    calc 1 / (N : ℝ) * _ ≤ 1 / (N : ℝ) * N := mul_le_mul_of_nonneg_left h1 (by positivity)
      _ = 1 := by field_simp
  have hsq : ∑ ω, P ω * ‖fft N (fun k => (means sgnOf ω k : ℂ)) n‖ ^ 2 = 1 / (N * S) := by
    have hc := complex_scatter (fun k u => shotsProb (w k) u) (fun k => shots_total S (hd k)) (twiddle N n) (fun k u => QV.avg sgnOf u)
      (fun k => by rw [one_mean hS (hd k), hz])
    have h1 : ∀ ω : Fin N → Fin S → Basis (Fin n), P ω * ‖fft N (fun k => (means sgnOf ω k : ℂ)) n‖ ^ 2 =
        (1 / N ^ 2) * ((∏ k, shotsProb (w k) (ω k)) * ‖∑ k : Fin N, ((QV.avg sgnOf (ω k) : ℝ) : ℂ) * twiddle N n k‖ ^ 2) := by
      intro ω
      rw [hX, norm_mul, mul_pow]
      have h4 : ‖(1 / (N : ℂ))‖ = 1 / N := by simp
      rw [h4]
      simp only [hP]
      ring
    simp only [h1]
    rw [← Finset.mul_sum, hc]
    have h2 : ∀ k : Fin N, ‖twiddle N n k‖ ^ 2 * ∑ u : Fin S → Basis (Fin n), shotsProb (w k) u * QV.avg sgnOf u ^ 2 = 1 / S := by
      intro k
      have hv := QV.avg_variance S hS (w k) (hd k).2 sgnOf 0 (hz k)
      simp only [sub_zero, sgnOf_sq, mul_one] at hv
      rw [twiddle_norm, one_pow, one_mul]
      unfold shotsProb
      rw [hv, (hd k).2]
      norm_num
    rw [Finset.sum_congr rfl fun k _ => h2 k, Finset.sum_const, Finset.card_univ, Fintype.card_fin, nsmul_eq_mul]
    field_simp
  have : ∑ ω, P ω * ‖fft N (fun k => (means sgnOf ω k : ℂ)) n‖ ^ 2 ≤ ∑ ω, P ω * ‖fft N (fun k => (means sgnOf ω k : ℂ)) n‖ := by
    refine Finset.sum_le_sum fun ω _ => mul_le_mul_of_nonneg_left ?_ (hP0 ω)
    rw [sq]
    exact mul_le_of_le_one_left (norm_nonneg _) (hle ω)
  linarith

/-! ### Concrete experiments -/

theorem ghz_nrm (hn : 1 ≤ n) : nrm (ghz n) = 1 := by
  unfold nrm outcome
  have : ∀ x : Basis (Fin n), normSq (ghz n x) = (1 / 2) * ind (zeros n) x + (1 / 2) * ind (ones n) x := by
    intro x
    rw [ghz_eq]
    unfold ind
    by_cases h0 : x = zeros n <;> by_cases h1 : x = ones n <;> simp [h0, h1, normSq_rt, zeros_ne_ones hn, (zeros_ne_ones hn).symm]
  simp only [this]
  rw [Finset.sum_add_distrib, ← Finset.mul_sum, ← Finset.mul_sum]
  unfold ind
  simp
  norm_num

/-- **C131** (Pauli noise): Pauli errors whose probabilities add up to 1 form a channel. -/
theorem C131_pauli_channel (n : ℕ) (hn : 1 ≤ n) (L : List (ℝ × Basis (Fin n) × Basis (Fin n))) (h0 : ∀ p ∈ L, 0 ≤ p.1) (h1 : (L.map (·.1)).sum = 1) :
    TracePreserving (L.map fun p => pauliKraus p.1 p.2.1 p.2.2) ∧ ∑ x, pop (L.map fun p => (pauliKraus p.1 p.2.1 p.2.2).app (ghz n)) x = 1 := by
  have hT : TracePreserving (L.map fun p => pauliKraus p.1 p.2.1 p.2.2) := by
    intro x y
    have key : ∀ l : List (ℝ × Basis (Fin n) × Basis (Fin n)), (∀ p ∈ l, 0 ≤ p.1) →
        ((l.map fun p => pauliKraus p.1 p.2.1 p.2.2).map fun B => ∑ z, (starRingEnd ℂ) (B z x) * B z y).sum =
          if x = y then (((l.map (·.1)).sum : ℝ) : ℂ) else 0 := by
      intro l hl
      induction l with
      | nil => simp
      | cons p l ih =>
        simp only [List.map_cons, List.sum_cons]
        rw [ih fun p hp => hl p (by simp [hp])]
        obtain ⟨w, a, b⟩ := p
        have hw : 0 ≤ w := hl _ List.mem_cons_self
        have hs : (Real.sqrt w : ℂ) * Real.sqrt w = (w : ℂ) := by rw [← Complex.ofReal_mul, Real.mul_self_sqrt hw]
        have hsum : ∑ z, (starRingEnd ℂ) (pauliKraus w a b z x) * pauliKraus w a b z y = if x = y then (w : ℂ) else 0 := by
          rw [Finset.sum_eq_single (bxor x b)]
          · unfold pauliKraus
            rw [bxor_bxor, if_pos rfl]
            by_cases hxy : x = y
            · rw [if_pos hxy.symm, if_pos hxy, map_mul, Complex.conj_ofReal, sgn_conj]
              have h2 := sgn_sq (K := ℂ) a (bxor x b)
              linear_combination (sgn a (bxor x b) * sgn a (bxor x b)) * hs + (w : ℂ) * h2
            · rw [if_neg (Ne.symm hxy), if_neg hxy, mul_zero]
          · intro z _ hz
            unfold pauliKraus
            rw [if_neg (fun h => hz (by rw [h, bxor_bxor]) : ¬ x = bxor z b)]
            simp
          · intro h; exact absurd (Finset.mem_univ _) h
        rw [hsum]
        by_cases hxy : x = y
        · simp [hxy]
        · simp [hxy]
    rw [key L h0, h1]
    simp
  refine ⟨hT, ?_⟩
  rw [total_pop, List.map_map]
  have := kraus_nrm _ hT (ghz n)
  rw [List.map_map, ghz_nrm hn] at this
  exact this

open Classical in
/-- Not vacuous: three qubits, a bit flip of qubit 0 with probability 1/10 after the preparation and before the inverse, eight circuits of 1000 shots each and
1000 shots of the preparation.  With both methods there are outcome probabilities, and with probability at least 37/40 (parity oscillations) the
fidelity reported is within 1/10 of 9/10; with coherences it is within 1/2 with probability at least 99/100. -/
theorem C131_experiment : ∃ (w v : Fin 8 → Basis (Fin 3) → ℝ)
    (est est' : (Fin 8 → Fin 1000 → Basis (Fin 3)) × (Fin 1000 → Basis (Fin 3)) → ℝ) (inv : List (Instr ℝ)) (circ : ℝ → List (Instr ℝ)),
    (∀ δ, ghzMqc Real.pi 3 δ true = some (circ δ)) ∧
    (∀ k : Fin 8, PoLaw (flips.map fun p => (pauliKraus p.1 p.2.1 p.2.2).app (ghz 3)) (ghzSimple 3 false true) (ghzPo 3 (phase 8 k)) (w k)) ∧
    (∀ k : Fin 8, MqcLaw (flips.map fun p => (pauliKraus p.1 p.2.1 p.2.2).app (ghz 3)) (flips.map fun p => pauliKraus p.1 p.2.1 p.2.2)
      (ghzSimple 3 false true) inv (circ (phase 8 k)) (v k)) ∧
    (∀ ω, PoReports ω (est ω)) ∧ (∀ ω, MqcReports ω (est' ω)) ∧
    (∑ ω, if 1 / 10 ≤ |est ω - 9 / 10| then ghzProb w (pop (flips.map fun p => (pauliKraus p.1 p.2.1 p.2.2).app (ghz 3))) ω else 0) ≤ 3 / 40 ∧
    (∑ ω, if 1 / 2 ≤ |est' ω - 9 / 10| then ghzProb v (pop (flips.map fun p => (pauliKraus p.1 p.2.1 p.2.2).app (ghz 3))) ω else 0) ≤ 1 / 100 := by
  have hL := C131_pauli_channel 3 (by norm_num) flips (by intro p hp; simp [flips] at hp; rcases hp with rfl | rfl <;> norm_num) (by simp [flips]; norm_num)
  have htot := (C131_total 3 (by norm_num)).2 _ hL.2
  choose wf hwf using htot.2.1
  obtain ⟨inv, circ, i1, i2, i3⟩ := C131_mqc_linear 3 (by norm_num) 8 (by norm_num) 1000 1000 (by norm_num) (by norm_num) _ _ (C130_pauli 3 flips)
  choose vf hvf using fun δ => htot.2.2 _ hL.1 inv (circ δ) δ i1 (i2 δ)
  obtain ⟨est, F, h1, h2⟩ := C131_po_linear 3 (by norm_num) 8 (by norm_num) 1000 1000 (by norm_num) (by norm_num) _ (fun k => wf (phase 8 k)) _
    (fun k => hwf _) htot.1 (fun x => rfl)
  obtain ⟨est', F', h3, h4⟩ := i3 (fun k => vf (phase 8 k)) _ (fun k => hvf _) htot.1 (fun x => rfl)
  have hp : ∀ x, x = zeros 3 ∨ x = ones 3 → pop (flips.map fun p => (pauliKraus p.1 p.2.1 p.2.2).app (ghz 3)) x = 9 / 20 := by
    intro x hx
    have := dens_diag (flips.map fun p => (pauliKraus p.1 p.2.1 p.2.2).app (ghz 3)) x
    rw [flips_dens x x hx hx] at this
    exact_mod_cast this.symm
  have hb := best_fidelity (by norm_num) (flips.map fun p => (pauliKraus p.1 p.2.1 p.2.2).app (ghz 3))
  rw [hp _ (Or.inl rfl), hp _ (Or.inr rfl), flips_dens _ _ (Or.inl rfl) (Or.inr rfl), Complex.norm_real, Real.norm_of_nonneg (by norm_num)] at hb
  have hF : F = 9 / 10 := by rw [h2.best.unique hb]; norm_num
  have hF' : F' = 9 / 10 := by rw [h4.best.unique hb]; norm_num
  subst hF
  subst hF'
  refine ⟨_, _, est, est', inv, circ, i2, fun k => hwf _, fun k => hvf _, h1, h3, ?_, ?_⟩
  · refine (h2.far (1 / 10) (by norm_num)).trans ?_
    norm_num
  · refine (h4.far (1 / 2) (by norm_num)).trans ?_
    norm_num

end Verif.Ent
