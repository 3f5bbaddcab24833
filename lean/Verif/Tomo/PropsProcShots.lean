import Verif.Tomo.LemmasProcShots
/-
C119: process tomography from finitely many shots.
-/
set_option linter.unusedSimpArgs false
set_option linter.unusedVariables false
namespace Verif.Tomo
open Verif Verif.Quantum Verif.Counts

/-! ### Helpers -/

theorem reshapeF_square (D : ℕ) (x : ℕ → ℂ) : reshapeF (D * D) x = some (D, fun i j => x (j * D + i)) := by
  have hs : Nat.sqrt (D * D) = D := Nat.sqrt_eq _
  unfold reshapeF
  rw [hs, if_neg (by simp)]

theorem processDim_eq (n : ℕ) : processDim (2 ^ (n + n) * 2 ^ (n + n)) = some (2 ^ n) := by
  unfold processDim
  rw [Nat.pow_add, Nat.sqrt_eq, Nat.sqrt_eq, if_neg (by rw [not_not]; ring)]

/-- A Hermitian matrix of positive trace after the last two steps of `lstsq_fit`. -/
theorem lstsqPost_trace (d : ℕ) (T : ℕ) (hT : 0 < T) (eigh : ℕ → (ℕ → ℕ → ℂ) → (ℕ → ℝ) × (ℕ → ℕ → ℂ)) (he : GoodEigh d eigh) (x : ℕ → ℂ) (m : ℕ → ℕ → ℂ) (size : ℕ)
    (e1 : reshapeF size x = some (d, m)) (hh : ∀ a b, a < d → b < d → (starRingEnd ℂ) (m a b) = m b a) (ht : tr d m = (T : ℂ)) :
    ∃ p, lstsqPost eigh size x true (some (T : ℂ)) = some p ∧ (PSD d p ∧ tr d p = (T : ℂ)) ∧ (∀ W, PSD d W → tr d W = (T : ℂ) → dist2 d p m ≤ dist2 d W m) ∧
      ∀ W, PSD d W → tr d W = (T : ℂ) → dist2 d p W ≤ dist2 d m W := by
  obtain ⟨p, h1, h2, h3, h4⟩ := C52_matrix d m _ _ (he m fun r c hr hc => hh c r hc hr) (by rw [ht]; simp)
  have hpt : ∑ k ∈ Finset.range d, p k k = (T : ℂ) := by rw [← ht, ← h3]; rfl
  have hT' : (T : ℂ) ≠ 0 := by exact_mod_cast hT.ne'
  have hr : rescaleTrace d (some (T : ℂ)) p = p := by
    funext a b
    simp only [rescaleTrace]
    rw [hpt, div_self hT', mul_one]
  refine ⟨p, ?_, ⟨h2, hpt⟩, fun W hW htW => h4 W hW (htW.trans ht.symm), fun W hW htW =>
    closest_contracts d m p W h2 h3 hW (htW.trans ht.symm) h4⟩
  unfold lstsqPost
  rw [e1]
  simp [h1, hr]

/-- The linear estimate has the closed form. -/
theorem procEstimate_eq (B : PrepBasis) (n : ℕ) (hn : 0 < n) (data : Dict Key Counts) (h : ProcData B n data) (L : ℕ → ℕ → ℂ)
    (hL : IsProcEstimate B n data L) (a b : ℕ) (ha : a < 2 ^ (n + n)) (hb : b < 2 ^ (n + n)) : L a b = procEstimate B (n := n) (pfreq B data) a b := by
  obtain ⟨freqs, rows, x, h1, hx, e1⟩ := hL
  rw [← plstsq_closed_form B n hn data h _ _ h1 x hx a b ha hb]
  rw [reshapeF_square] at e1
  rw [← (Prod.mk.inj (Option.some.inj e1)).2]

theorem data_ne_nil {B : PrepBasis} {n : ℕ} {data : Dict Key Counts} (h : ProcData B n data) : data ≠ [] := by
  have := pcnt_mem h (fun _ : Fin n => 0, fun _ : Fin n => 0)
  rintro rfl; simp at this

theorem noWeights {data : Dict Key Counts} (hne : data ≠ []) (beta : ℝ) : fitterWeights false beta data = some none := by
  cases data with
  | nil => exact absurd rfl hne
  | cons kv rest => rfl

/-! ### C119 -/

/-- **C119** (linear estimate).  For any counts of the `12^n` pairs of a preparation and a measurement label, with Pauli or SIC preparations, the least
squares problem `fit` sets up without weights has exactly one solution.  It is Hermitian and trace preserving: its partial trace over the output is the
identity. -/
theorem C119_estimate (B : PrepBasis) (n : ℕ) (hn : 0 < n) (data : Dict Key Counts) (h : ProcData B n data) :
    ∃ freqs rows, fitterData pauliMeas B.prep data = some (freqs, rows) ∧ (∀ beta, fitterWeights false beta data = some none) ∧
      (∃ x, IsLstsq rows freqs none x) ∧
      (∀ x y, IsLstsq rows freqs none x → IsLstsq rows freqs none y → ∀ k, k < 2 ^ (n + n) * 2 ^ (n + n) → x k = y k) ∧
      ∀ x, IsLstsq rows freqs none x → ∃ m, reshapeF (2 ^ (n + n) * 2 ^ (n + n)) x = some (2 ^ (n + n), m) ∧
        (∀ a b, a < 2 ^ (n + n) → b < 2 ^ (n + n) → (starRingEnd ℂ) (m a b) = m b a) ∧
        ∀ i j, i < 2 ^ n → j < 2 ^ n → ∑ r ∈ Finset.range (2 ^ n), m (i * 2 ^ n + r) (j * 2 ^ n + r) = if i = j then 1 else 0 := by
  obtain ⟨freqs, rows, h1, _, _, _, _, _⟩ := pfitterData_sum B n hn data h
  have hpos := Nat.two_pow_pos (n + n)
  refine ⟨freqs, rows, h1, noWeights (data_ne_nil h), exists_lstsq _ _ _, fun x y hx hy k hk => ?_, fun x hx => ?_⟩
  · have e1 := plstsq_closed_form B n hn data h freqs rows h1 x hx (k % 2 ^ (n + n)) (k / 2 ^ (n + n)) (Nat.mod_lt _ hpos) (Nat.div_lt_of_lt_mul hk)
    have e2 := plstsq_closed_form B n hn data h freqs rows h1 y hy (k % 2 ^ (n + n)) (k / 2 ^ (n + n)) (Nat.mod_lt _ hpos) (Nat.div_lt_of_lt_mul hk)
    rw [Nat.div_add_mod'] at e1 e2
    rw [e1, e2]
  have hcf := plstsq_closed_form B n hn data h freqs rows h1 x hx
  refine ⟨_, reshapeF_square _ x, fun a b ha hb => ?_, fun i j hi hj => ?_⟩
  · rw [hcf a b ha hb, hcf b a hb ha, procEstimate_conj]
  · rw [← procEstimate_ptrace B (pfreq B data) (pfreq_sum h) i j hi hj]
    refine Finset.sum_congr rfl fun r hr => ?_
    have hr' := Finset.mem_range.1 hr
    have hlt : ∀ i, i < 2 ^ n → i * 2 ^ n + r < 2 ^ (n + n) := by
      intro i hi
      rw [Nat.pow_add]
      calc i * 2 ^ n + r < i * 2 ^ n + 2 ^ n := by omega
        _ = (i + 1) * 2 ^ n := by ring
        _ ≤ 2 ^ n * 2 ^ n := Nat.mul_le_mul_right _ hi
    exact hcf _ _ (hlt i hi) (hlt j hj)

theorem pfit_closed (B : PrepBasis) (n : ℕ) (hn : 0 < n) (data : Dict Key Counts) (h : ProcData B n data)
    (eigh : ℕ → (ℕ → ℕ → ℂ) → (ℕ → ℝ) × (ℕ → ℕ → ℂ)) (he : GoodEigh (2 ^ (n + n)) eigh) (beta : ℝ) :
    (∃ m, ProcFitReturns false beta eigh B data m) ∧
    ∀ m, ProcFitReturns false beta eigh B data m → (PSD (2 ^ (n + n)) m ∧ tr (2 ^ (n + n)) m = ((2 ^ n : ℕ) : ℂ)) ∧
      (∀ W, PSD (2 ^ (n + n)) W → tr (2 ^ (n + n)) W = ((2 ^ n : ℕ) : ℂ) →
        dist2 (2 ^ (n + n)) m (procEstimate B (n := n) (pfreq B data)) ≤ dist2 (2 ^ (n + n)) W (procEstimate B (n := n) (pfreq B data))) ∧
      ∀ W, PSD (2 ^ (n + n)) W → tr (2 ^ (n + n)) W = ((2 ^ n : ℕ) : ℂ) →
        dist2 (2 ^ (n + n)) m W ≤ dist2 (2 ^ (n + n)) (procEstimate B (n := n) (pfreq B data)) W := by
  obtain ⟨freqs, rows, h1, h2, ⟨x0, hx0⟩, _, h4⟩ := C119_estimate B n hn data h
  obtain ⟨freqs', rows', h1', _, _, hrne, hdim, _⟩ := pfitterData_sum B n hn data h
  obtain ⟨rfl, rfl⟩ : freqs' = freqs ∧ rows' = rows := by
    rw [h1] at h1'; exact (Prod.mk.inj (Option.some.inj h1')).imp Eq.symm Eq.symm
  obtain ⟨op, rest, rfl⟩ : ∃ op rest, rows' = op :: rest := by
    cases rows' with
    | nil => exact absurd rfl hrne
    | cons op rest => exact ⟨op, rest, rfl⟩
  have hop : op.dim = 2 ^ (n + n) := hdim op (by simp)
  refine ⟨?_, ?_⟩
  · obtain ⟨m, e1, hh, ht⟩ := h4 x0 hx0
    obtain ⟨p, hp, _⟩ := lstsqPost_trace (2 ^ (n + n)) (2 ^ n) (Nat.two_pow_pos n) eigh he x0 m _ e1 hh
      (tr_of_ptrace n m fun i hi => by rw [ht i i hi hi, if_pos rfl])
    exact ⟨p, freqs', op, rest, none, x0, 2 ^ n, h1, h2 beta, by rw [hop]; exact processDim_eq n, hx0, by rw [hop]; exact hp⟩
  · rintro p ⟨freqs', op', rest', weights', x, dim, g1, g2, g3, hx, hp⟩
    rw [h1] at g1
    obtain ⟨rfl, g4⟩ := Prod.mk.inj (Option.some.inj g1)
    obtain ⟨rfl, rfl⟩ := List.cons.inj g4
    obtain rfl : none = weights' := by rw [h2] at g2; exact Option.some.inj g2
    rw [hop, processDim_eq] at g3
    obtain rfl := Option.some.inj g3
    rw [hop] at hp
    obtain ⟨m, e1, hh, ht⟩ := h4 x hx
    obtain ⟨p', hp', h5, h6, h7⟩ := lstsqPost_trace (2 ^ (n + n)) (2 ^ n) (Nat.two_pow_pos n) eigh he x m _ e1 hh
      (tr_of_ptrace n m fun i hi => by rw [ht i i hi hi, if_pos rfl])
    obtain rfl : p' = p := by rw [hp'] at hp; exact Option.some.inj hp
    have hcf := procEstimate_eq B n hn data h m ⟨_, _, x, h1, hx, e1⟩
    refine ⟨h5, fun W hW htW => ?_, fun W hW htW => ?_⟩
    · have := h6 W hW htW
      rwa [dist2_congr _ p' p' m _ (fun _ _ _ _ => rfl) hcf, dist2_congr _ W W m _ (fun _ _ _ _ => rfl) hcf] at this
    · have := h7 W hW htW
      rwa [dist2_congr _ m _ W W hcf (fun _ _ _ _ => rfl)] at this

/-- The Choi matrix of a channel has trace `2^n`. -/
theorem choi_tr {n : ℕ} {S : ℕ → ℕ → ℕ → ℕ → ℂ} (hS : IsChannel n S) : tr (2 ^ (n + n)) (choi (2 ^ n) S) = ((2 ^ n : ℕ) : ℂ) := by
  refine tr_of_ptrace n _ fun i hi => ?_
  rw [← if_pos (c := i = i) (t := (1 : ℂ)) (e := 0) rfl, ← hS.tp i i hi hi]
  refine Finset.sum_congr rfl fun r hr => ?_
  have h1 := index_div i r (Finset.mem_range.1 hr)
  simp only [choi, h1.1, h1.2]

/-- **C119** (fit).  Whatever the counts, the fit without weights returns a positive semidefinite matrix of trace `2^n`.  Among these it is the one
closest to the linear estimate in the Frobenius norm, and it is at least as close to the Choi matrix of *every* channel as the linear estimate is. -/
theorem C119_fit (B : PrepBasis) (n : ℕ) (hn : 0 < n) (data : Dict Key Counts) (h : ProcData B n data)
    (eigh : ℕ → (ℕ → ℕ → ℂ) → (ℕ → ℝ) × (ℕ → ℕ → ℂ)) (he : GoodEigh (2 ^ (n + n)) eigh) (beta : ℝ) :
    (∃ m, ProcFitReturns false beta eigh B data m) ∧
    ∀ m L, ProcFitReturns false beta eigh B data m → IsProcEstimate B n data L → PSD (2 ^ (n + n)) m ∧ tr (2 ^ (n + n)) m = ((2 ^ n : ℕ) : ℂ) ∧
      (∀ W, PSD (2 ^ (n + n)) W → tr (2 ^ (n + n)) W = ((2 ^ n : ℕ) : ℂ) → dist2 (2 ^ (n + n)) m L ≤ dist2 (2 ^ (n + n)) W L) ∧
      ∀ S, IsChannel n S → dist2 (2 ^ (n + n)) m (choi (2 ^ n) S) ≤ dist2 (2 ^ (n + n)) L (choi (2 ^ n) S) := by
  obtain ⟨h1, h2⟩ := pfit_closed B n hn data h eigh he beta
  refine ⟨h1, fun m L hm hL => ?_⟩
  obtain ⟨h3, h4, h5⟩ := h2 m hm
  have hcf := procEstimate_eq B n hn data h L hL
  refine ⟨h3.1, h3.2, fun W hW htW => ?_, fun S hS => ?_⟩
  · rw [dist2_congr _ m m L _ (fun _ _ _ _ => rfl) hcf, dist2_congr _ W W L _ (fun _ _ _ _ => rfl) hcf]
    exact h4 W hW htW
  · rw [dist2_congr _ L _ _ _ hcf (fun _ _ _ _ => rfl)]
    exact h5 _ hS.cp (choi_tr hS)

/-! ### Random outcomes -/

theorem procProb_sum (B : PrepBasis) {n : ℕ} (S : ℕ → ℕ → ℕ → ℕ → ℂ) (hS : IsChannel n S) (i : (Fin n → Fin 4) × (Fin n → Fin 3)) :
    ∑ s, outcomeProb n (output B S i.1) i.2 s = 1 := by
  rw [output_eq]
  exact outcomeProb_sum _ (output_density B S hS i.1) i.2

/-- The shots have a probability distribution. -/
theorem C119_distribution (B : PrepBasis) {n N : ℕ} (S : ℕ → ℕ → ℕ → ℕ → ℂ) (hS : IsChannel n S) :
    (∀ ω : ProcShots n N, 0 ≤ procProb B S ω) ∧ ∑ ω : ProcShots n N, procProb B S ω = 1 :=
  ⟨fun ω => Finset.prod_nonneg fun i _ => by rw [output_eq]; exact (outcomeProb_eq _ (output_density B S hS i.1.1).1 _ _).2,
    indep_sum_one (fun (i : ((Fin n → Fin 4) × (Fin n → Fin 3)) × Fin N) s => outcomeProb n (output B S i.1.1) i.1.2 s) fun i => procProb_sum B S hS i.1⟩

theorem pfreq_sampled {B : PrepBasis} {n N : ℕ} {data : Dict Key Counts} {ω : ProcShots n N} (h : ProcSampled B data ω) (i : (Fin n → Fin 4) × (Fin n → Fin 3)) :
    ∀ s, pfreq B data i s = ((Finset.univ.filter fun k => ω (i, k) = s).card : ℝ) / N := by
  have hm := pcnt_mem h.toProcData i
  have hc := h.tally i.1 i.2 _ hm
  have hsum := pfreq_sum h.toProcData i
  have hpos := (h.counts _ hm).2.2
  have htot : total (pcnt B data i) = (N : ℤ) := by
    unfold pfreq at hsum
    rw [← Finset.sum_div, div_eq_one_iff_eq (by exact_mod_cast hpos.ne')] at hsum
    simp only [hc] at hsum
    have h2 : ∑ s : Fin n → Bool, (Finset.univ.filter fun k : Fin N => ω (i, k) = s).card = N := by
      rw [← Finset.card_eq_sum_card_fiberwise (f := fun k : Fin N => ω (i, k)) (s := Finset.univ) (t := Finset.univ) (fun _ _ => Finset.mem_univ _)]
      simp
    have h3 : ((total (pcnt B data i) : ℤ) : ℝ) = ((N : ℤ) : ℝ) := by
      rw [← hsum]
      push_cast
      exact_mod_cast h2
    exact_mod_cast h3
  intro s
  unfold pfreq
  rw [hc s, htot]
  push_cast
  rfl

/-- The linear estimate is a sum over the shots. -/
theorem pestimate_sampled {B : PrepBasis} {n N : ℕ} {data : Dict Key Counts} {ω : ProcShots n N} (h : ProcSampled B data ω) (a b : ℕ) :
    procEstimate B (n := n) (pfreq B data) a b = ∑ i : ((Fin n → Fin 4) × (Fin n → Fin 3)) × Fin N, dualP B i.1.1 i.1.2 (ω i) a b / N := by
  unfold procEstimate
  rw [Fintype.sum_prod_type (f := fun i : ((Fin n → Fin 4) × (Fin n → Fin 3)) × Fin N => dualP B i.1.1 i.1.2 (ω i) a b / N)]
  refine Finset.sum_congr rfl fun i _ => ?_
  simp only [pfreq_sampled h i]
  have e : ∀ s : Fin n → Bool, ((((Finset.univ.filter fun k => ω (i, k) = s).card : ℝ) / N : ℝ) : ℂ) * dualP B i.1 i.2 s a b =
      ∑ k : Fin N, if ω (i, k) = s then dualP B i.1 i.2 s a b / N else 0 := by
    intro s
    rw [← Finset.sum_filter, Finset.sum_const, nsmul_eq_mul]
    push_cast
    ring
  simp only [e]
  rw [Finset.sum_comm]
  refine Finset.sum_congr rfl fun k _ => ?_
  simp

theorem proc_errors (B : PrepBasis) (n N : ℕ) (hN : 0 < N) (S : ℕ → ℕ → ℕ → ℕ → ℂ) (hS : IsChannel n S) :
    (∀ a b, a < 2 ^ (n + n) → b < 2 ^ (n + n) → ∑ ω : ProcShots n N, (procProb B S ω : ℂ) * ∑ i, dualP B i.1.1 i.1.2 (ω i) a b / N = choi (2 ^ n) S a b) ∧
    ∑ ω : ProcShots n N, procProb B S ω * dist2 (2 ^ (n + n)) (fun a b => ∑ i, dualP B i.1.1 i.1.2 (ω i) a b / N) (choi (2 ^ n) S) ≤ B.base ^ n / N := by
  have h := frame_error (2 ^ (n + n)) N hN (fun (i : (Fin n → Fin 4) × (Fin n → Fin 3)) s => outcomeProb n (output B S i.1) i.2 s) (procProb_sum B S hS)
    (fun i s => dualP B i.1 i.2 s) (choi (2 ^ n) S) (fun a b ha hb => by
      rw [← dualP_recon B n S a b ha hb, Fintype.sum_prod_type]
      refine Finset.sum_congr rfl fun p _ => Finset.sum_congr rfl fun t _ => Finset.sum_congr rfl fun s _ => ?_
      rw [output_eq, (outcomeProb_eq _ (output_density B S hS p).1 t s).1, mul_comm]) _ (fun i s => dualP_norm B i.1 i.2 s)
  refine ⟨h.1, h.2.trans (le_of_eq ?_)⟩
  have e : (Fintype.card ((Fin n → Fin 4) × (Fin n → Fin 3)) : ℝ) * (B.kappa * (5 / 9)) ^ n = B.base ^ n := by
    rw [Fintype.card_prod, Fintype.card_fun, Fintype.card_fun]
    simp only [Fintype.card_fin]
    push_cast
    rw [← mul_pow, ← mul_pow]
    congr 1
    cases B <;> simp only [PrepBasis.kappa, PrepBasis.base] <;> norm_num
  rw [e]

/-- **C119** (unbiased).  For `N` shots of each label on uses of the channel `S`, the expected value of the linear estimate is the Choi matrix of `S`. -/
theorem C119_unbiased (B : PrepBasis) (n N : ℕ) (hn : 0 < n) (hN : 0 < N) (S : ℕ → ℕ → ℕ → ℕ → ℂ) (hS : IsChannel n S) (exp : ProcShots n N → Dict Key Counts)
    (hexp : ∀ ω, ProcSampled B (exp ω) ω) (est : ProcShots n N → ℕ → ℕ → ℂ) (hest : ∀ ω, IsProcEstimate B n (exp ω) (est ω)) (a b : ℕ)
    (ha : a < 2 ^ (n + n)) (hb : b < 2 ^ (n + n)) : ∑ ω, (procProb B S ω : ℂ) * est ω a b = choi (2 ^ n) S a b := by
  rw [← (proc_errors B n N hN S hS).1 a b ha hb]
  refine Finset.sum_congr rfl fun ω _ => ?_
  rw [← pestimate_sampled (hexp ω), procEstimate_eq B n hn _ (hexp ω).toProcData _ (hest ω) a b ha hb]

/-- **C119** (accuracy).  Run every one of the `12^n` circuits `N` times on any `n`-qubit channel `S`.  The expected squared Frobenius distance from the
Choi matrix of `S` to the matrix `fit(method='lstsq', standard_weights=False)` returns is at most `(40/3)^n / N` with Pauli preparations and
`(25/3)^n / N` with SIC preparations. -/
theorem C119_accuracy (B : PrepBasis) (n N : ℕ) (hn : 0 < n) (hN : 0 < N) (S : ℕ → ℕ → ℕ → ℕ → ℂ) (hS : IsChannel n S) (exp : ProcShots n N → Dict Key Counts)
    (hexp : ∀ ω, ProcSampled B (exp ω) ω) (eigh : ℕ → (ℕ → ℕ → ℂ) → (ℕ → ℝ) × (ℕ → ℕ → ℂ)) (he : GoodEigh (2 ^ (n + n)) eigh) (beta : ℝ)
    (fit : ProcShots n N → ℕ → ℕ → ℂ) (hfit : ∀ ω, ProcFitReturns false beta eigh B (exp ω) (fit ω)) :
    ∑ ω, procProb B S ω * dist2 (2 ^ (n + n)) (fit ω) (choi (2 ^ n) S) ≤ B.base ^ n / N := by
  refine le_trans (Finset.sum_le_sum fun ω _ => ?_) (proc_errors B n N hN S hS).2
  refine mul_le_mul_of_nonneg_left ?_ ((C119_distribution B S hS).1 ω)
  have := ((pfit_closed B n hn (exp ω) (hexp ω).toProcData eigh he beta).2 _ (hfit ω)).2.2 _ hS.cp (choi_tr hS)
  rwa [dist2_congr _ (procEstimate B (n := n) (pfreq B (exp ω))) _ _ _ (fun a b _ _ => pestimate_sampled (hexp ω) a b) (fun _ _ _ _ => rfl)] at this

/-- **C119** (confidence).  So the probability that the result is further than `ε` from the true Choi matrix is at most that bound divided by `ε²`. -/
theorem C119_confidence (B : PrepBasis) (n N : ℕ) (hn : 0 < n) (hN : 0 < N) (S : ℕ → ℕ → ℕ → ℕ → ℂ) (hS : IsChannel n S) (exp : ProcShots n N → Dict Key Counts)
    (hexp : ∀ ω, ProcSampled B (exp ω) ω) (eigh : ℕ → (ℕ → ℕ → ℂ) → (ℕ → ℝ) × (ℕ → ℕ → ℂ)) (he : GoodEigh (2 ^ (n + n)) eigh) (beta : ℝ)
    (fit : ProcShots n N → ℕ → ℕ → ℂ) (hfit : ∀ ω, ProcFitReturns false beta eigh B (exp ω) (fit ω)) (ε : ℝ) (hε : 0 < ε) :
    (∑ ω, if ε ^ 2 ≤ dist2 (2 ^ (n + n)) (fit ω) (choi (2 ^ n) S) then procProb B S ω else 0) ≤ B.base ^ n / (N * ε ^ 2) := by
  have h := C119_accuracy B n N hn hN S hS exp hexp eigh he beta fit hfit
  have hNpos : (0 : ℝ) < N := by exact_mod_cast hN
  rw [← div_div, le_div_iff₀ (by positivity), Finset.sum_mul]
  refine le_trans (Finset.sum_le_sum fun ω _ => ?_) h
  have h0 := (C119_distribution B S hS).1 ω
  split
  · rename_i h1
    exact mul_le_mul_of_nonneg_left h1 h0
  · rw [zero_mul]
    exact mul_nonneg h0 (Finset.sum_nonneg fun r _ => Finset.sum_nonneg fun c _ => Complex.normSq_nonneg _)

/-! ### One qubit -/

theorem traceMul_opP_dualP (B : PrepBasis) {n : ℕ} (p k : Fin n → Fin 4) (t t' : Fin n → Fin 3) (s s' : Fin n → Bool) :
    traceMul (2 ^ (n + n)) (opP B p t s).e (dualP B k t' s') = if p = k then traceMul (2 ^ n) (projN t s) (dualN t' s') else 0 := by
  have e : dualP B k t' s' = choi (2 ^ n) fun i j r q => edualN B k j i * dualN t' s' r q := rfl
  rw [e, traceMul_opP]
  have e2 : applyMap (2 ^ n) (fun i j r q => edualN B k j i * dualN t' s' r q) (prepN B p) = fun r q => (if p = k then 1 else 0) * dualN t' s' r q := by
    funext r q
    rw [← edualN_dual B p k]
    unfold applyMap traceMul
    simp only [Finset.sum_mul]
    exact Finset.sum_congr rfl fun i _ => Finset.sum_congr rfl fun j _ => by ring
  rw [e2]
  by_cases h : p = k <;> simp [h, traceMul]

/-- The closed form for one qubit fits the data exactly. -/
theorem one_qubit_proc (B : PrepBasis) {data : Dict Key Counts} (h : ProcData B 1 data) (p : Fin 1 → Fin 4) (t : Fin 1 → Fin 3) (s : Fin 1 → Bool) :
    traceMul (2 ^ (1 + 1)) (opP B p t s).e (procEstimate B (n := 1) (pfreq B data)) = (pfreq B data (p, t) s : ℂ) := by
  have hlin : traceMul (2 ^ (1 + 1)) (opP B p t s).e (procEstimate B (n := 1) (pfreq B data)) =
      ∑ i : (Fin 1 → Fin 4) × (Fin 1 → Fin 3), ∑ s' : Fin 1 → Bool, (pfreq B data i s' : ℂ) * traceMul (2 ^ (1 + 1)) (opP B p t s).e (dualP B i.1 i.2 s') := by
    unfold traceMul procEstimate
    simp only [Finset.mul_sum]
    have e1 : ∀ a ∈ Finset.range (2 ^ (1 + 1)), ∑ b ∈ Finset.range (2 ^ (1 + 1)), ∑ i : (Fin 1 → Fin 4) × (Fin 1 → Fin 3), ∑ s' : Fin 1 → Bool,
          (opP B p t s).e a b * ((pfreq B data i s' : ℂ) * dualP B i.1 i.2 s' b a) =
        ∑ i : (Fin 1 → Fin 4) × (Fin 1 → Fin 3), ∑ s' : Fin 1 → Bool, ∑ b ∈ Finset.range (2 ^ (1 + 1)),
          (opP B p t s).e a b * ((pfreq B data i s' : ℂ) * dualP B i.1 i.2 s' b a) := by
      intro a _
      rw [Finset.sum_comm]
      refine Finset.sum_congr rfl fun t' _ => ?_
      rw [Finset.sum_comm]
    rw [Finset.sum_congr rfl e1, Finset.sum_comm]
    refine Finset.sum_congr rfl fun t' _ => ?_
    rw [Finset.sum_comm]
    exact Finset.sum_congr rfl fun s' _ => Finset.sum_congr rfl fun a _ => Finset.sum_congr rfl fun b _ => by ring
  rw [hlin]
  simp only [traceMul_opP_dualP]
  rw [Fintype.sum_prod_type, Finset.sum_eq_single p]
  · have hten : ∀ t' : Fin 1 → Fin 3, ∀ s' : Fin 1 → Bool, traceMul (2 ^ 1) (projN t s) (dualN t' s') =
        ∑ c, ∑ d, pauliProjector (axisLabel (t 0)) (s 0) c d * dual1 (t' 0) (s' 0) d c := by
      intro t' s'
      have := traceMul_tensor 1 (fun j => pauliProjector (axisLabel (t j)) (s j)) fun j => dual1 (t' j) (s' j)
      refine this.trans ?_
      simp
    simp only [if_true, hten]
    have hone := one_qubit_exact (fun t s => pfreq B data (p, fun _ : Fin 1 => t) fun _ => s) (fun t => by
      have := pfreq_sum h (p, fun _ : Fin 1 => t)
      rw [← this, ← (Equiv.funUnique (Fin 1) Bool).symm.sum_comp, Fintype.sum_bool, add_comm]
      rfl) (t 0) (s 0)
    have et : ∀ t : Fin 1 → Fin 3, (fun _ : Fin 1 => t 0) = t := fun t => funext fun i => by rw [Subsingleton.elim i 0]
    have es : ∀ s : Fin 1 → Bool, (fun _ : Fin 1 => s 0) = s := fun s => funext fun i => by rw [Subsingleton.elim i 0]
    rw [et t, es s] at hone
    rw [← hone, ← (Equiv.funUnique (Fin 1) (Fin 3)).symm.sum_comp]
    refine Finset.sum_congr rfl fun t' _ => ?_
    rw [← (Equiv.funUnique (Fin 1) Bool).symm.sum_comp]
    rfl
  · intro k _ hk
    refine Finset.sum_eq_zero fun t' _ => Finset.sum_eq_zero fun s' _ => ?_
    rw [if_neg (fun h => hk h.symm), mul_zero]
  · intro h; exact absurd (Finset.mem_univ _) h

/-- **C119** (one qubit).  For one qubit the weights do not matter: the default weighted fit returns what the fit without weights returns, so all of the
above, with `n = 1`, holds for it. -/
theorem C119_one_qubit (B : PrepBasis) (data : Dict Key Counts) (h : ProcData B 1 data) (eigh : ℕ → (ℕ → ℕ → ℂ) → (ℕ → ℝ) × (ℕ → ℕ → ℂ))
    (standard : Bool) (beta : ℝ) (hb : 0 ≤ beta) (m : ℕ → ℕ → ℂ) (hm : ProcFitReturns standard beta eigh B data m) : ProcFitReturns false beta eigh B data m := by
  obtain ⟨freqs, op, rest, weights, x, dim, h1, h2, hdim, hx, hp⟩ := hm
  obtain ⟨freqs', rows', h1', hfl, hrl, hrne, hrows, hsum⟩ := pfitterData_sum B 1 Nat.one_pos data h
  obtain ⟨rfl, rfl⟩ : freqs' = freqs ∧ rows' = op :: rest := by
    rw [h1'] at h1; exact Prod.mk.inj (Option.some.inj h1)
  have hkl : ∀ kv ∈ data, keyLen kv.1 = 1 := fun kv hkv => by
    obtain ⟨p, l, e, _, hl⟩ := h.only kv hkv
    rw [e]; exact hl.1
  obtain ⟨ws, w1, w2, w3⟩ := C53_fitter standard beta hb data 1 Nat.one_pos (data_ne_nil h) hkl h.counts
  obtain rfl : ws = weights := by rw [w1] at h2; exact Option.some.inj h2
  have hw : PosWeights (op :: rest) ws := by
    intro l hl
    cases standard
    · rw [w2 rfl] at hl; cases hl
    · obtain ⟨l', e, hlen, hpos⟩ := w3 rfl
      rw [e] at hl
      obtain rfl := Option.some.inj hl
      refine ⟨?_, hpos⟩
      rw [hlen, hrl]
  have hnone : PosWeights (op :: rest) none := fun ws h => by cases h
  have hex : residual (op :: rest) freqs' none (vecF (2 ^ (1 + 1)) (procEstimate B (n := 1) (pfreq B data))) = 0 := by
    unfold residual
    simp only [weightAt, Complex.ofReal_one, one_mul]
    rw [hsum ℝ (fun op f => Complex.normSq (rowDot op (vecF (2 ^ (1 + 1)) (procEstimate B (n := 1) (pfreq B data))) - (f : ℂ))) fun op op' f e1 e2 e3 => by
      rw [rowDot_congr_op op op' _ e1 e2 (Nat.two_pow_pos _) e3]]
    refine Finset.sum_eq_zero fun i _ => Finset.sum_eq_zero fun s _ => ?_
    rw [Complex.normSq_eq_zero, sub_eq_zero, rowDot_opP,
      traceMul_congr (2 ^ (1 + 1)) (fun _ _ _ _ => rfl) (fun a' b' ha' _ => vecF_get (2 ^ (1 + 1)) (procEstimate B (n := 1) (pfreq B data)) a' b' ha')]
    exact one_qubit_proc B h i.1 i.2 s
  have hall := (residual_zero (op :: rest) freqs' none hnone _).1 hex
  have hwz := (residual_zero (op :: rest) freqs' ws hw _).2 hall
  have hxz : residual (op :: rest) freqs' ws x = 0 := by
    refine le_antisymm ?_ (Finset.sum_nonneg fun i _ => Complex.normSq_nonneg _)
    rw [← hwz]; exact hx _
  have hx0 := (residual_zero (op :: rest) freqs' none hnone x).2 ((residual_zero (op :: rest) freqs' ws hw x).1 hxz)
  refine ⟨freqs', op, rest, none, x, dim, h1', noWeights (data_ne_nil h) beta, hdim, fun y => ?_, hp⟩
  rw [hx0]
  exact Finset.sum_nonneg fun i _ => Complex.normSq_nonneg _

/-! ### The hypotheses are met -/

/-- The counts of runs. -/
theorem shotCounts_good {n N : ℕ} (hN : 0 < N) (f : Fin N → Fin n → Bool) :
    GoodCounts n (shotCounts ((List.finRange N).map fun i => outcomeStr (f i))) ∧
    ∀ s, (shotCounts ((List.finRange N).map fun i => outcomeStr (f i))).getD (outcomeStr s) 0 = ((Finset.univ.filter fun i => f i = s).card : ℤ) := by
  obtain ⟨h1, h2, h3⟩ := shotCounts_spec ((List.finRange N).map fun i => outcomeStr (f i))
  set c := shotCounts ((List.finRange N).map fun i => outcomeStr (f i)) with hc
  have hkey : ∀ kv ∈ c, ∃ i, kv.1 = outcomeStr (f i) := by
    intro kv hkv
    have := (h3 kv.1).1 (List.mem_map.2 ⟨kv, hkv, rfl⟩)
    obtain ⟨i, _, e⟩ := List.mem_map.1 this
    exact ⟨i, e.symm⟩
  have hval : ∀ kv ∈ c, 0 < kv.2 := by
    intro kv hkv
    have e1 := h2 kv.1
    unfold Dict.getD at e1
    rw [Dict.get?_of_mem c h1 kv.1 kv.2 hkv] at e1
    have e2 : kv.2 = (((List.finRange N).map fun i => outcomeStr (f i)).count kv.1 : ℤ) := e1
    rw [e2]
    exact_mod_cast List.count_pos_iff.2 ((h3 kv.1).1 (List.mem_map.2 ⟨kv, hkv, rfl⟩))
  have hne : c ≠ [] := by
    intro h0
    have := (h3 (outcomeStr (f ⟨0, hN⟩))).2 (List.mem_map.2 ⟨⟨0, hN⟩, List.mem_finRange _, rfl⟩)
    rw [h0] at this
    simp at this
  refine ⟨⟨⟨hne, h1, ?_, ?_⟩, fun kv hkv => (hval kv hkv).le, ?_⟩, fun s => ?_⟩
  · intro kv hkv
    obtain ⟨i, e⟩ := hkey kv hkv
    rw [e]; exact (outcomeStr_bits _).1
  · intro kv hkv
    obtain ⟨i, e⟩ := hkey kv hkv
    rw [e]; exact (outcomeStr_bits _).2
  · unfold total
    exact List.sum_pos _ (fun x hx => by obtain ⟨kv, hkv, rfl⟩ := List.mem_map.1 hx; exact hval kv hkv) (by simpa using hne)
  · rw [h2, Nat.cast_inj, List.count, List.countP_map, List.countP_eq_length_filter]
    have e : ∀ i : Fin N, ((fun x => x == outcomeStr s) ∘ fun i => outcomeStr (f i)) i = decide (f i = s) := by
      intro i
      rw [Bool.eq_iff_iff]
      simp only [Function.comp, beq_iff_eq, decide_eq_true_eq]
      exact outcomeStr_inj.eq_iff
    rw [show ((fun x => x == outcomeStr s) ∘ fun i => outcomeStr (f i)) = fun i => decide (f i = s) from funext e, Fin.univ_def]
    rfl

/-- The data of an experiment with the given shots. -/
noncomputable def procExperiment (B : PrepBasis) {n N : ℕ} (ω : ProcShots n N) : Dict Key Counts :=
  (Finset.univ : Finset ((Fin n → Fin 4) × (Fin n → Fin 3))).toList.map fun i =>
    (Key.process (prepLabel B i.1) (settingLabel i.2), shotCounts ((List.finRange N).map fun k => outcomeStr (ω (i, k))))

/-- Every list of shots, at least one per label, gives tomography data. -/
theorem C119_experiment (B : PrepBasis) (n N : ℕ) (hN : 0 < N) (ω : ProcShots n N) : ProcSampled B (procExperiment B ω) ω := by
  have hmem : ∀ i : (Fin n → Fin 4) × (Fin n → Fin 3), ∀ c, (Key.process (prepLabel B i.1) (settingLabel i.2), c) ∈ procExperiment B ω ↔
      c = shotCounts ((List.finRange N).map fun k => outcomeStr (ω (i, k))) := by
    intro i c
    unfold procExperiment
    rw [List.mem_map]
    constructor
    · rintro ⟨i', _, e⟩
      obtain ⟨e1, e2⟩ := Prod.mk.inj e
      obtain rfl := pkey_inj B e1
      exact e2.symm
    · rintro rfl
      exact ⟨i, by simp, rfl⟩
  refine ⟨⟨?_, ?_, ?_, ?_⟩, ?_⟩
  · show (List.map (·.1) (procExperiment B ω)).Nodup
    unfold procExperiment
    rw [List.map_map]
    refine (Finset.nodup_toList _).map ?_
    intro i i' e
    exact pkey_inj B e
  · intro kv hkv
    obtain ⟨i, _, rfl⟩ := List.mem_map.1 hkv
    exact ⟨_, _, rfl, prepLabel_isLabel B i.1, settingLabel_isLabel i.2⟩
  · intro p l hp hl
    obtain ⟨t, rfl⟩ := exists_setting l hl
    obtain ⟨p, rfl⟩ := exists_prep B p hp
    exact ⟨_, (hmem (p, t) _).2 rfl⟩
  · intro kv hkv
    obtain ⟨i, _, rfl⟩ := List.mem_map.1 hkv
    exact (shotCounts_good hN fun k => ω (i, k)).1
  · intro p t c hc s
    rw [(hmem (p, t) c).1 hc]
    exact (shotCounts_good hN fun k => ω ((p, t), k)).2 s

/-- The identity is a channel. -/
theorem idMap_channel (n : ℕ) : IsChannel n idMap := by
  refine ⟨fun u => ?_, fun i j hi hj => ?_⟩
  · refine ⟨Complex.normSq (∑ j ∈ Finset.range (2 ^ n), u (j * 2 ^ n + j)), Complex.normSq_nonneg _, ?_⟩
    rw [Complex.normSq_eq_conj_mul_self, map_sum, Finset.sum_mul_sum, sum_tensor]
    refine Finset.sum_congr rfl fun i hi => ?_
    have hrow : ∀ r ∈ Finset.range (2 ^ n), ∑ c ∈ Finset.range (2 ^ (n + n)), (starRingEnd ℂ) (u (i * 2 ^ n + r)) * choi (2 ^ n) idMap (i * 2 ^ n + r) c * u c =
        if r = i then ∑ j ∈ Finset.range (2 ^ n), (starRingEnd ℂ) (u (i * 2 ^ n + i)) * u (j * 2 ^ n + j) else 0 := by
      intro r hr
      have h1 := index_div i r (Finset.mem_range.1 hr)
      rw [sum_tensor]
      by_cases hri : r = i
      · subst hri
        rw [if_pos rfl]
        refine Finset.sum_congr rfl fun j hj => ?_
        rw [Finset.sum_eq_single j]
        · have h2 := index_div j j (Finset.mem_range.1 hj)
          simp [choi, idMap, h1.1, h1.2, h2.1, h2.2]
        · intro s hs hne
          have h2 := index_div j s (Finset.mem_range.1 hs)
          simp [choi, idMap, h1.1, h1.2, h2.1, h2.2, hne]
        · intro h; exact absurd hj h
      · rw [if_neg hri]
        refine Finset.sum_eq_zero fun j _ => Finset.sum_eq_zero fun s hs => ?_
        have h2 := index_div j s (Finset.mem_range.1 hs)
        simp [choi, idMap, h1.1, h1.2, h2.1, h2.2, hri]
    rw [Finset.sum_congr rfl hrow, Finset.sum_ite_eq' (Finset.range (2 ^ n)) i, if_pos hi]
  · unfold tr idMap
    by_cases h : i = j
    · subst h; simp [hi]
    · rw [if_neg h]
      exact Finset.sum_eq_zero fun r _ => if_neg fun hr => h (hr.1.symm.trans hr.2)

/-- For every number of qubits, channel and number of shots the experiment and the fit exist, and the bound holds of them. -/
example (B : PrepBasis) (n N : ℕ) (hn : 0 < n) (hN : 0 < N) (S : ℕ → ℕ → ℕ → ℕ → ℂ) (hS : IsChannel n S) :
    ∃ eigh, ∃ fit : ProcShots n N → ℕ → ℕ → ℂ, (∀ ω, ProcFitReturns false (1/2) eigh B (procExperiment B ω) (fit ω)) ∧
      ∑ ω, procProb B S ω * dist2 (2 ^ (n + n)) (fit ω) (choi (2 ^ n) S) ≤ B.base ^ n / N := by
  obtain ⟨eigh, he⟩ := exists_goodEigh (2 ^ (n + n))
  choose fit hfit using fun ω : ProcShots n N => (C119_fit B n hn _ (C119_experiment B n N hN ω).toProcData eigh he (1/2)).1
  exact ⟨eigh, fit, hfit, C119_accuracy B n N hn hN S hS (procExperiment B) (C119_experiment B n N hN) eigh he _ fit hfit⟩

/-! ### Not trace preserving -/

/-- Counts of one qubit, eight shots per label: the linear estimate is not completely positive. -/
def exBad : Dict Key Counts :=
  [(.process ["Zp".toList] ["Z".toList], cz), (.process ["Zp".toList] ["X".toList], ch), (.process ["Zp".toList] ["Y".toList], ch),
   (.process ["Zm".toList] ["Z".toList], cz), (.process ["Zm".toList] ["X".toList], ch), (.process ["Zm".toList] ["Y".toList], ch),
   (.process ["Xp".toList] ["Z".toList], co), (.process ["Xp".toList] ["X".toList], ch), (.process ["Xp".toList] ["Y".toList], ch),
   (.process ["Yp".toList] ["Z".toList], cz), (.process ["Yp".toList] ["X".toList], ch), (.process ["Yp".toList] ["Y".toList], ch)]

/-- The map the linear estimate is the Choi matrix of. -/
def badMap : ℕ → ℕ → ℕ → ℕ → ℂ := fun i j r s =>
  if i = j then (if r = 0 ∧ s = 0 then 1 else 0) else if r = 0 ∧ s = 0 then -1 else if r = 1 ∧ s = 1 then 1 else 0

theorem exBad_exact : ExactProcessData 1 prep4 pauliPreparationMatrix exBad badMap := by
  have hall : ∀ p ∈ prep4, ∀ l ∈ xyz, ∃ c, (Key.process [p] [l], c) ∈ exBad := by
    intro p hp l hl
    have : ((exBad.map (·.1)).contains (Key.process [p] [l])) = true := by
      revert p l; decide +kernel
    rw [List.contains_iff_mem] at this
    obtain ⟨kv, hkv, e⟩ := List.mem_map.1 this
    exact ⟨kv.2, by rw [← e]; exact hkv⟩
  refine ⟨?_, ?_, by decide +kernel, ?_⟩
  · intro kv hkv
    simp only [exBad, List.mem_cons, List.not_mem_nil, or_false] at hkv
    rcases hkv with rfl | rfl | rfl | rfl | rfl | rfl | rfl | rfl | rfl | rfl | rfl | rfl <;>
      exact ⟨_, _, rfl, ⟨rfl, by decide⟩, rfl, by decide⟩
  · rintro p l ⟨hp, hpa⟩ ⟨hl, hla⟩
    match p, l, hp, hl with
    | [a], [b], _, _ => exact hall a (hpa a (by simp)) b (hla b (by simp))
  · intro p l c hplc s hs hsl
    have hlab : ∃ a b, p = [a] ∧ l = [b] ∧ a ∈ prep4 ∧ b ∈ xyz := by
      simp only [exBad, List.mem_cons, List.not_mem_nil, or_false, Prod.mk.injEq, Key.process.injEq] at hplc
      rcases hplc with ⟨⟨rfl, rfl⟩, _⟩ | ⟨⟨rfl, rfl⟩, _⟩ | ⟨⟨rfl, rfl⟩, _⟩ | ⟨⟨rfl, rfl⟩, _⟩ | ⟨⟨rfl, rfl⟩, _⟩ | ⟨⟨rfl, rfl⟩, _⟩ |
        ⟨⟨rfl, rfl⟩, _⟩ | ⟨⟨rfl, rfl⟩, _⟩ | ⟨⟨rfl, rfl⟩, _⟩ | ⟨⟨rfl, rfl⟩, _⟩ | ⟨⟨rfl, rfl⟩, _⟩ | ⟨⟨rfl, rfl⟩, _⟩ <;>
      exact ⟨_, _, rfl, rfl, by decide, by decide⟩
    obtain ⟨a, b, rfl, rfl, ha, hb⟩ := hlab
    have e : traceMul (2 ^ 1) (outcomeProj 1 [b] s) (applyMap (2 ^ 1) badMap (prepared 1 pauliPreparationMatrix [a])) =
        pauliProjector b (charAt s 0 = some '1') false false * ((pauliPreparationMatrix a).e 0 0 + (pauliPreparationMatrix a).e 1 1 -
          (pauliPreparationMatrix a).e 0 1 - (pauliPreparationMatrix a).e 1 0) +
        pauliProjector b (charAt s 0 = some '1') true true * ((pauliPreparationMatrix a).e 0 1 + (pauliPreparationMatrix a).e 1 0) := by
      unfold traceMul applyMap
      rw [show (2 : ℕ) ^ 1 = 2 from rfl]
      simp [badMap, Finset.sum_range_succ, outcomeProj, prepared]
      ring_nf
      simp
    beta_reduce
    rw [e]
    match s, hsl with
    | [t], _ =>
      have ht : t = '0' ∨ t = '1' := hs t (by simp)
      simp only [exBad, List.mem_cons, List.not_mem_nil, or_false, Prod.mk.injEq, Key.process.injEq, List.cons.injEq, and_true] at hplc
      rcases hplc with ⟨⟨rfl, rfl⟩, rfl⟩ | ⟨⟨rfl, rfl⟩, rfl⟩ | ⟨⟨rfl, rfl⟩, rfl⟩ | ⟨⟨rfl, rfl⟩, rfl⟩ | ⟨⟨rfl, rfl⟩, rfl⟩ |
        ⟨⟨rfl, rfl⟩, rfl⟩ | ⟨⟨rfl, rfl⟩, rfl⟩ | ⟨⟨rfl, rfl⟩, rfl⟩ | ⟨⟨rfl, rfl⟩, rfl⟩ | ⟨⟨rfl, rfl⟩, rfl⟩ | ⟨⟨rfl, rfl⟩, rfl⟩ |
        ⟨⟨rfl, rfl⟩, rfl⟩ <;> rcases ht with rfl | rfl <;>
        simp [cz, co, ch, Dict.getD, Dict.get?, total, charAt, pauliProjector, pauliPreparationMatrix, m2] <;> ring_nf

theorem exBad_data : ProcData .pauli 1 exBad :=
  ⟨by decide +kernel, exBad_exact.only, exBad_exact.all, by decide +kernel⟩

/-- The positive semidefinite matrix closest to the linear estimate. -/
noncomputable def badFit : ℕ → ℕ → ℂ := fun a b =>
  if a % 2 ≠ b % 2 then 0 else if a % 2 = 1 then 1 / 4 else if a = b then 3 / 4 else -3 / 4

theorem badFit_psd : PSD (2 ^ (1 + 1)) badFit ∧ tr (2 ^ (1 + 1)) badFit = ((2 ^ 1 : ℕ) : ℂ) := by
  rw [show (2 : ℕ) ^ (1 + 1) = 4 from rfl]
  refine ⟨fun u => ⟨3 / 4 * Complex.normSq (u 0 - u 2) + 1 / 4 * Complex.normSq (u 1 + u 3), by
    have h1 := Complex.normSq_nonneg (u 0 - u 2)
    have h2 := Complex.normSq_nonneg (u 1 + u 3)
    linarith, ?_⟩, ?_⟩
  · push_cast
    rw [Complex.normSq_eq_conj_mul_self, Complex.normSq_eq_conj_mul_self, map_sub, map_add]
    simp [badFit, Finset.sum_range_succ]
    ring
  · simp [badFit, tr, Finset.sum_range_succ]
    norm_num

/-- It is the only one. -/
theorem badFit_unique (m : ℕ → ℕ → ℂ) (hm : PSD (2 ^ (1 + 1)) m) (ht : tr (2 ^ (1 + 1)) m = ((2 ^ 1 : ℕ) : ℂ))
    (hc : dist2 (2 ^ (1 + 1)) m (choi (2 ^ 1) badMap) ≤ dist2 (2 ^ (1 + 1)) badFit (choi (2 ^ 1) badMap)) (a b : ℕ) (ha : a < 4) (hb : b < 4) : m a b = badFit a b := by
  rw [show (2 : ℕ) ^ (1 + 1) = 4 from rfl] at *
  obtain ⟨x, hx, ex⟩ := hm fun k => if k % 2 = 0 then 1 else 0
  obtain ⟨y, hy, ey⟩ := hm fun k => if k = 1 then 1 else if k = 3 then -1 else 0
  simp [Finset.sum_range_succ] at ex ey
  have ex' := congrArg Complex.re ex
  have ey' := congrArg Complex.re ey
  have ht' := congrArg Complex.re ht
  simp [tr, Finset.sum_range_succ] at ex' ey' ht'
  have key : dist2 4 m badFit = dist2 4 m (choi (2 ^ 1) badMap) - dist2 4 badFit (choi (2 ^ 1) badMap) - (x / 2 + 3 * y / 2) := by
    rw [← ex', ← ey']
    simp only [dist2, Finset.sum_range_succ, Finset.range_zero, Finset.sum_empty, Complex.normSq_apply, Complex.sub_re, Complex.sub_im]
    simp [badFit, choi, badMap]
    norm_num
    linarith [ht']
  have h0 : dist2 4 m badFit ≤ 0 := by
    rw [key]
    exact le_trans (sub_le_self _ (by positivity)) (sub_nonpos.2 hc)
  have hn : ∀ r c, 0 ≤ Complex.normSq (m r c - badFit r c) := fun r c => Complex.normSq_nonneg _
  have h1 : dist2 4 m badFit = 0 := le_antisymm h0 (Finset.sum_nonneg fun r _ => Finset.sum_nonneg fun c _ => hn r c)
  unfold dist2 at h1
  rw [Finset.sum_eq_zero_iff_of_nonneg fun r _ => Finset.sum_nonneg fun c _ => hn r c] at h1
  have h2 := h1 a (Finset.mem_range.2 ha)
  rw [Finset.sum_eq_zero_iff_of_nonneg fun c _ => hn a c] at h2
  have h3 := h2 b (Finset.mem_range.2 hb)
  rw [Complex.normSq_eq_zero] at h3
  exact sub_eq_zero.1 h3

/-- **C119** (finding).  The matrix returned need not be the Choi matrix of a channel: although the linear estimate is always trace preserving, making it
positive semidefinite destroys this.  For these counts of one qubit, with or without the default weights, the fit has an off-diagonal entry `-1/2` in the
partial trace over the output, which is the identity for every channel.  The documentation of `fit` lists this among the constraints of the fit (a later
remark says that only the CVX method can use it). -/
theorem C119_finding_trace_preserving (standard : Bool) (beta : ℝ) (hb : 0 ≤ beta) (eigh : ℕ → (ℕ → ℕ → ℂ) → (ℕ → ℝ) × (ℕ → ℕ → ℂ)) (he : GoodEigh (2 ^ (1 + 1)) eigh) :
    ProcData .pauli 1 exBad ∧ (∃ m, ProcFitReturns standard beta eigh .pauli exBad m) ∧
    ∀ m, ProcFitReturns standard beta eigh .pauli exBad m → (∑ r ∈ Finset.range 2, m (0 * 2 + r) (1 * 2 + r) = -1 / 2) ∧
      ∀ S, IsChannel 1 S → ¬ ∀ a b, a < 4 → b < 4 → m a b = choi 2 S a b := by
  obtain ⟨freqs, rows, h1, _, hrl, hdim, _, h4⟩ := C84_inversion 1 Nat.one_pos prep4 pauliPrep pauliPreparationMatrix complete_pauli "Zp".toList (by decide) exBad badMap exBad_exact
  have hkl : ∀ kv ∈ exBad, keyLen kv.1 = 1 := by decide +kernel
  obtain ⟨ws, w1, w2, w3⟩ := C53_fitter standard beta hb exBad 1 Nat.one_pos (by simp [exBad]) hkl exBad_data.counts
  have hw : PosWeights rows ws := by
    intro l hl
    cases standard
    · rw [w2 rfl] at hl; cases hl
    · obtain ⟨l', e, hlen, hpos⟩ := w3 rfl
      rw [e] at hl
      obtain rfl := Option.some.inj hl
      exact ⟨by rw [hlen, hrl], hpos⟩
  obtain ⟨op, rest, rfl⟩ : ∃ op rest, rows = op :: rest := by
    cases rows with
    | nil => simp [exBad] at hrl
    | cons op rest => exact ⟨op, rest, rfl⟩
  have hop : op.dim = 2 ^ (1 + 1) := (hdim op (by simp)).1
  have hpost : ∀ x, IsLstsq (op :: rest) freqs ws x → ∃ p, lstsqPost eigh (2 ^ (1 + 1) * 2 ^ (1 + 1)) x true (some ((2 ^ 1 : ℕ) : ℂ)) = some p ∧
      ∀ a b, a < 4 → b < 4 → p a b = badFit a b := by
    intro x hx
    obtain ⟨m, e1, e2⟩ := h4 ws x hw hx
    have hsym : ∀ a b, a < 2 ^ (1 + 1) → b < 2 ^ (1 + 1) → (starRingEnd ℂ) (choi (2 ^ 1) badMap a b) = choi (2 ^ 1) badMap b a := by
      intro a b ha hb
      rw [show (2 : ℕ) ^ (1 + 1) = 4 from rfl] at ha hb
      interval_cases a <;> interval_cases b <;> simp [choi, badMap]
    obtain ⟨p, p1, p2, p3, p4⟩ := lstsqPost_trace (2 ^ (1 + 1)) (2 ^ 1) (by norm_num) eigh he x m _ e1
      (fun a b ha hb => by rw [e2 a b ha hb, e2 b a hb ha, hsym a b ha hb]) (by
        have : tr (2 ^ (1 + 1)) m = tr (2 ^ (1 + 1)) (choi (2 ^ 1) badMap) :=
          Finset.sum_congr rfl fun k hk => e2 k k (Finset.mem_range.1 hk) (Finset.mem_range.1 hk)
        rw [this, show (2 : ℕ) ^ (1 + 1) = 4 from rfl]
        simp only [tr, Finset.sum_range_succ, Finset.range_zero, Finset.sum_empty]
        simp [choi, badMap]
        norm_num)
    refine ⟨p, p1, badFit_unique p p2.1 p2.2 ?_⟩
    have := p3 badFit badFit_psd.1 badFit_psd.2
    rwa [dist2_congr _ p p m _ (fun _ _ _ _ => rfl) e2, dist2_congr _ badFit badFit m _ (fun _ _ _ _ => rfl) e2] at this
  refine ⟨exBad_data, ?_, ?_⟩
  · obtain ⟨x, hx⟩ := exists_lstsq (op :: rest) freqs ws
    obtain ⟨p, p1, _⟩ := hpost x hx
    exact ⟨p, freqs, op, rest, ws, x, 2 ^ 1, h1, w1, by rw [hop]; exact processDim_eq 1, hx, by rw [hop]; exact p1⟩
  · rintro m ⟨freqs', op', rest', ws', x, dim, g1, g2, g3, hx, hp⟩
    have g1' : fitterData pauliMeas pauliPrep exBad = some (freqs', op' :: rest') := g1
    rw [h1] at g1'
    obtain ⟨rfl, g4⟩ := Prod.mk.inj (Option.some.inj g1')
    obtain ⟨rfl, rfl⟩ := List.cons.inj g4
    obtain rfl : ws = ws' := by rw [w1] at g2; exact Option.some.inj g2
    rw [hop, processDim_eq] at g3
    obtain rfl := Option.some.inj g3
    rw [hop] at hp
    obtain ⟨p, p1, p2⟩ := hpost x hx
    obtain rfl : p = m := by rw [p1] at hp; exact Option.some.inj hp
    have hval : ∑ r ∈ Finset.range 2, p (0 * 2 + r) (1 * 2 + r) = -1 / 2 := by
      simp only [Finset.sum_range_succ, Finset.range_zero, Finset.sum_empty]
      rw [p2 _ _ (by norm_num) (by norm_num), p2 _ _ (by norm_num) (by norm_num)]
      simp [badFit]
      norm_num
    refine ⟨hval, fun S hS h => ?_⟩
    have e := hS.tp 0 1 (by norm_num) (by norm_num)
    rw [if_neg (by norm_num)] at e
    have e2 : ∑ r ∈ Finset.range 2, p (0 * 2 + r) (1 * 2 + r) = tr (2 ^ 1) (S 0 1) := by
      unfold tr
      refine Finset.sum_congr rfl fun r hr => ?_
      have hr' := Finset.mem_range.1 hr
      rw [h _ _ (by omega) (by omega)]
      have h01 : r = 0 ∨ r = 1 := by omega
      rcases h01 with rfl | rfl <;> rfl
    rw [e2, e] at hval
    norm_num at hval

end Verif.Tomo
