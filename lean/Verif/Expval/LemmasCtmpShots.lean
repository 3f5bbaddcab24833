import Verif.Expval.CtmpExpval
import Verif.Expval.SpecCtmpShots
import Verif.Expval.PropsWalk
import Mathlib.Logic.Equiv.Fin.Basic
import Mathlib.Data.Set.Finite.List
/-
Lemmas for C125: the law of the samples of the CTMP method.
-/
namespace Verif.Expval.Ctmp
open Verif Verif.Counts Verif.Expval MeasureTheory

/-! ### Uniform numbers -/

theorem unif_congr (k : ℕ) (f g : List ℝ → ℝ) (h : ∀ rs, rs.length = k → f rs = g rs) : unifMean k f = unifMean k g := by
  induction k generalizing f g with
  | zero => exact h [] rfl
  | succ k ih =>
    unfold unifMean
    congr 1
    funext r
    exact ih _ _ fun rs hrs => h _ (by simp [hrs])

theorem unif_add (a b : ℕ) (f : List ℝ → ℝ) : unifMean (a + b) f = unifMean a fun r => unifMean b fun r' => f (r ++ r') := by
  induction a generalizing f with
  | zero => rw [Nat.zero_add]; rfl
  | succ a ih =>
    rw [show a + 1 + b = (a + b) + 1 by omega]
    unfold unifMean
    congr 1
    funext r
    exact ih _

/-- One step with a uniform number. -/
theorem unif_step (dim : ℕ) (B : Mat ℝ) (hB : IsStochastic dim B) (c : ℕ) (hc : c < dim) (Φ : Option ℕ → ℝ) :
    ∫ r in (0 : ℝ)..1, Φ (chainStep (toCsc dim B) c r) = ∑ y ∈ Finset.range dim, B y c * Φ (some y) := by
  rw [intervalIntegral.integral_of_le zero_le_one, ← integral_Ico_eq_integral_Ioc]
  have hsub : ∀ y < dim, 0 ≤ before B c y ∧ before B c y + B y c ≤ 1 := by
    intro y hy
    refine ⟨Finset.sum_nonneg fun r hr => hB.nonneg r (by have := Finset.mem_range.1 hr; omega) c hc, ?_⟩
    rw [← hB.col c hc]
    unfold before
    rw [← Finset.sum_range_succ (fun r => B r c)]
    exact Finset.sum_le_sum_of_subset_of_nonneg (by
      intro r hr; exact Finset.mem_range.2 (by have := Finset.mem_range.1 hr; omega))
      fun r hr _ => hB.nonneg r (Finset.mem_range.1 hr) c hc
  have h1 : ∀ r ∈ Set.Ico (0 : ℝ) 1, Φ (chainStep (toCsc dim B) c r) =
      ∑ y ∈ Finset.range dim, (Set.Ico (before B c y) (before B c y + B y c)).indicator (fun _ => Φ (some y)) r := by
    intro r hr
    obtain ⟨y, hy, hyd, -⟩ := C28_support dim B c hc (by
      by_contra hn
      push Not at hn
      have := hB.col c hc
      rw [Finset.sum_eq_zero fun r hr => hn r (Finset.mem_range.1 hr)] at this
      exact zero_ne_one this) r
    rw [hy, Finset.sum_eq_single y]
    · rw [Set.indicator_of_mem]
      exact ((C28_step dim B hB c hc r hr.1 hr.2 y).1 hy).2
    · intro z hz hzy
      rw [Set.indicator_of_notMem]
      intro hm
      have := (C28_step dim B hB c hc r hr.1 hr.2 z).2 ⟨Finset.mem_range.1 hz, hm.1, hm.2⟩
      rw [hy, Option.some.injEq] at this
      exact hzy this.symm
    · intro h; exact absurd (Finset.mem_range.2 hyd) h
  rw [setIntegral_congr_fun measurableSet_Ico h1, integral_finsetSum]
  · refine Finset.sum_congr rfl fun y hy => ?_
    obtain ⟨h2, h3⟩ := hsub y (Finset.mem_range.1 hy)
    rw [setIntegral_indicator measurableSet_Ico, Set.inter_eq_right.2 (Set.Ico_subset_Ico h2 h3), setIntegral_const, measureReal_def,
      Real.volume_Ico, add_sub_cancel_left, ENNReal.toReal_ofReal (hB.nonneg y (Finset.mem_range.1 hy) c hc), smul_eq_mul]
  · intro y _
    exact (integrable_const _).indicator measurableSet_Ico

/-- `a` steps with uniform numbers. -/
theorem unif_walk (dim : ℕ) (B : Mat ℝ) (hB : IsStochastic dim B) (a : ℕ) (x : Fin dim) (Φ : Option ℕ → ℝ) :
    unifMean a (fun rs => Φ (walk (toCsc dim B) x rs)) = ∑ y : Fin dim, ((asMatrix dim B) ^ a) y x * Φ (some y) := by
  induction a generalizing x with
  | zero =>
    unfold unifMean
    rw [pow_zero, Finset.sum_eq_single x]
    · rw [Matrix.one_apply_eq, one_mul]; rfl
    · intro y _ hy; rw [Matrix.one_apply_ne hy, zero_mul]
    · simp
  | succ a ih =>
    unfold unifMean
    have h1 : (fun r => unifMean a fun rs => Φ (walk (toCsc dim B) x (r :: rs))) =
        fun r => (fun o : Option ℕ => unifMean a fun rs => Φ (o.bind fun z => walk (toCsc dim B) z rs)) (chainStep (toCsc dim B) x r) := by
      funext r
      rfl
    rw [h1]
    refine (unif_step dim B hB x x.2 fun o : Option ℕ => unifMean a fun rs => Φ (o.bind fun z => walk (toCsc dim B) z rs)).trans ?_
    simp only [Option.bind_some]
    rw [Finset.sum_range fun z => B z x * unifMean a fun rs => Φ (walk (toCsc dim B) z rs)]
    simp only [ih]
    rw [pow_succ]
    simp only [Matrix.mul_apply, Finset.sum_mul, Finset.mul_sum]
    rw [Finset.sum_comm]
    refine Finset.sum_congr rfl fun y _ => Finset.sum_congr rfl fun z _ => ?_
    show B z x * _ = _
    unfold asMatrix
    ring

/-! ### All samples of a batch -/

/-- The samples one after another. -/
noncomputable def runs (csc : Csc ℝ) : List (ℕ × ℕ) → List ℝ → Option (List ℕ)
  | [], _ => some []
  | (x, a) :: s, rs => (walk csc x (rs.take a)).bind fun y => (runs csc s (rs.drop a)).map fun ys => y :: ys

theorem markovChain_eq_runs (csc : Csc ℝ) (rs : List ℝ) (s : List (ℕ × ℕ)) (h : (s.map (·.2)).sum ≤ rs.length) :
    (markovChain csc rs s).map (·.1) = runs csc s rs := by
  unfold markovChain
  have key : ∀ (s : List (ℕ × ℕ)) (acc : List ℕ) (pos : ℕ), pos + (s.map (·.2)).sum ≤ rs.length →
      (s.foldlM (fun st s => (chainWalk csc rs s.2 (s.1, st.2)).map fun w => (st.1 ++ [w.1], w.2)) (acc, pos)).map (·.1) =
        (runs csc s (rs.drop pos)).map fun ys => acc ++ ys := by
    intro s
    induction s with
    | nil => intro acc pos _; simp [runs]
    | cons e s ih =>
      intro acc pos hp
      obtain ⟨x, a⟩ := e
      rw [List.map_cons, List.sum_cons] at hp
      simp only at hp
      rw [List.foldlM_cons]
      simp only
      rw [chainWalk_eq csc rs a x pos (by omega)]
      unfold runs
      cases hw : walk csc x ((rs.drop pos).take a) with
      | none => rfl
      | some y =>
        simp only [Option.map_some, Option.bind_eq_bind, Option.bind_some]
        rw [ih (acc ++ [y]) (pos + a) (by omega), List.drop_drop]
        cases runs csc s (rs.drop (pos + a)) with
        | none => rfl
        | some ys => simp
  have := key s [] 0 (by omega)
  simpa using this

/-! ### Starting points -/

theorem pick_congr (dim : ℕ) (p : ℕ → ℝ) (n : ℕ) (f g : List ℕ → ℝ) (h : ∀ xs, xs.length = n → (∀ x ∈ xs, x < dim) → f xs = g xs) :
    pickMean dim p n f = pickMean dim p n g := by
  induction n generalizing f g with
  | zero => exact h [] rfl (by simp)
  | succ n ih =>
    unfold pickMean
    refine Finset.sum_congr rfl fun x hx => ?_
    congr 1
    refine ih _ _ fun xs h1 h2 => h _ (by simp [h1]) ?_
    intro z hz
    rcases List.mem_cons.1 hz with rfl | hz
    · exact Finset.mem_range.1 hx
    · exact h2 z hz

theorem pick_sum (dim : ℕ) (p : ℕ → ℝ) (n : ℕ) {ι : Type} (s : Finset ι) (c : ι → ℝ) (f : ι → List ℕ → ℝ) :
    pickMean dim p n (fun xs => ∑ i ∈ s, c i * f i xs) = ∑ i ∈ s, c i * pickMean dim p n (f i) := by
  induction n generalizing f with
  | zero => rfl
  | succ n ih =>
    unfold pickMean
    simp only [ih, Finset.mul_sum]
    rw [Finset.sum_comm]
    exact Finset.sum_congr rfl fun i _ => Finset.sum_congr rfl fun x _ => by ring

/-- Parity and end of one sample. -/
abbrev Sgn (dim : ℕ) : Type := Fin 2 × Fin dim

/-- The parity. -/
def par (a : ℕ) : Fin 2 := ⟨a % 2, Nat.mod_lt _ (by omega)⟩

/-- Law of the end after `a` steps from a random starting point. -/
noncomputable def endLaw (dim : ℕ) (B : Mat ℝ) (p : ℕ → ℝ) (a : ℕ) (y : Fin dim) : ℝ := ∑ x : Fin dim, p x * ((asMatrix dim B) ^ a) y x

/-- Average over ends, for given numbers of steps. -/
noncomputable def stepsMean (dim : ℕ) (B : Mat ℝ) (p : ℕ → ℝ) : List ℕ → (List (Sgn dim) → ℝ) → ℝ
  | [], F => F []
  | a :: as, F => ∑ y : Fin dim, endLaw dim B p a y * stepsMean dim B p as fun ts => F ((par a, y) :: ts)

theorem pick_unif (dim : ℕ) (B : Mat ℝ) (hB : IsStochastic dim B) (p : ℕ → ℝ) (as : List ℕ) (Φ : Option (List ℕ) → ℝ) :
    pickMean dim p as.length (fun xs => unifMean as.sum fun rs => Φ (runs (toCsc dim B) (xs.zip as) rs)) =
      stepsMean dim B p as fun ts => Φ (some (ts.map (·.2.val))) := by
  induction as generalizing Φ with
  | nil => rfl
  | cons a as ih =>
    rw [List.length_cons]
    unfold pickMean
    have h1 : ∀ x ∈ Finset.range dim, pickMean dim p as.length (fun xs => unifMean (a :: as).sum fun rs =>
          Φ (runs (toCsc dim B) ((x :: xs).zip (a :: as)) rs)) =
        ∑ y : Fin dim, (if h : x < dim then ((asMatrix dim B) ^ a) y ⟨x, h⟩ else 0) * pickMean dim p as.length (fun xs => unifMean as.sum fun rs =>
          Φ ((runs (toCsc dim B) (xs.zip as) rs).map fun ys => y.val :: ys)) := by
      intro x hx
      have hx' := Finset.mem_range.1 hx
      rw [← pick_sum]
      refine pick_congr _ _ _ _ _ fun xs h1 h2 => ?_
      rw [List.sum_cons, unif_add]
      have h3 : unifMean a (fun r => unifMean as.sum fun r' => Φ (runs (toCsc dim B) ((x :: xs).zip (a :: as)) (r ++ r'))) =
          unifMean a (fun r => (fun o : Option ℕ => unifMean as.sum fun r' =>
            Φ (o.bind fun y => (runs (toCsc dim B) (xs.zip as) r').map fun ys => y :: ys)) (walk (toCsc dim B) (⟨x, hx'⟩ : Fin dim) r)) := by
        refine unif_congr a _ _ fun r hr => ?_
        congr 1
        funext r'
        rw [List.zip_cons_cons, runs, List.take_left' hr, List.drop_left' hr]
      refine (h3.trans (unif_walk dim B hB a ⟨x, hx'⟩ fun o : Option ℕ => unifMean as.sum fun r' =>
        Φ (o.bind fun y => (runs (toCsc dim B) (xs.zip as) r').map fun ys => y :: ys))).trans ?_
      refine Finset.sum_congr rfl fun y _ => ?_
      rw [dif_pos hx']
      rfl
    rw [Finset.sum_congr rfl fun x hx => by rw [h1 x hx]]
    unfold stepsMean
    have h2 : ∀ y : Fin dim, pickMean dim p as.length (fun xs => unifMean as.sum fun rs =>
          Φ ((runs (toCsc dim B) (xs.zip as) rs).map fun ys => y.val :: ys)) =
        stepsMean dim B p as fun ts => Φ (some (((par a, y) :: ts).map (·.2.val))) :=
      fun y => ih fun o => Φ (o.map fun ys => y.val :: ys)
    simp only [h2, Finset.mul_sum]
    rw [Finset.sum_comm]
    refine Finset.sum_congr rfl fun y _ => ?_
    unfold endLaw
    rw [Finset.sum_mul, Finset.sum_range fun x => p x * ((if h : x < dim then ((asMatrix dim B) ^ a) y ⟨x, h⟩ else 0) *
      stepsMean dim B p as fun ts => Φ (some (((par a, y) :: ts).map (·.2.val))))]
    refine Finset.sum_congr rfl fun x _ => ?_
    rw [dif_pos x.2]
    ring

/-! ### Poisson numbers -/

theorem pois_nonneg (γ : ℝ) (hγ : 0 ≤ γ) (a : ℕ) : 0 ≤ pois γ a := by unfold pois; positivity

theorem pois_hasSum (γ : ℝ) : HasSum (pois γ) 1 := by
  have h := (NormedSpace.expSeries_div_hasSum_exp γ).mul_left (Real.exp (-γ))
  rw [← Real.exp_eq_exp_ℝ, ← Real.exp_add, neg_add_cancel, Real.exp_zero] at h
  refine h.congr_fun ?_ |> fun h => h
  intro a
  unfold pois
  ring


theorem pois_bound (γ : ℝ) (hγ : 0 ≤ γ) (n : ℕ) (f : List ℕ → ℝ) (C : ℝ) (hf : ∀ as, as.length = n → |f as| ≤ C) : |poisMean γ n f| ≤ C := by
  induction n generalizing f with
  | zero => exact hf [] rfl
  | succ n ih =>
    unfold poisMean
    have h1 : ∀ a, ‖pois γ a * poisMean γ n fun as => f (a :: as)‖ ≤ pois γ a * C := by
      intro a
      rw [Real.norm_eq_abs, abs_mul, abs_of_nonneg (pois_nonneg γ hγ a)]
      exact mul_le_mul_of_nonneg_left (ih _ fun as has => hf _ (by simp [has])) (pois_nonneg γ hγ a)
    have h2 := tsum_of_norm_bounded ((pois_hasSum γ).mul_right C) h1
    rw [one_mul] at h2
    exact h2

theorem pois_sum (γ : ℝ) (hγ : 0 ≤ γ) (n : ℕ) {ι : Type} (s : Finset ι) (c : ι → ℝ) (f : ι → List ℕ → ℝ)
    (C : ℝ) (hf : ∀ i ∈ s, ∀ as, as.length = n → |f i as| ≤ C) :
    poisMean γ n (fun as => ∑ i ∈ s, c i * f i as) = ∑ i ∈ s, c i * poisMean γ n (f i) := by
  induction n generalizing f with
  | zero => rfl
  | succ n ih =>
    unfold poisMean
    have h1 : ∀ a : ℕ, pois γ a * poisMean γ n (fun as => ∑ i ∈ s, c i * f i (a :: as)) =
        ∑ i ∈ s, c i * (pois γ a * poisMean γ n fun as => f i (a :: as)) := by
      intro a
      rw [ih (fun i as => f i (a :: as)) fun i hi as has => hf i hi _ (by simp [has]), Finset.mul_sum]
      exact Finset.sum_congr rfl fun i _ => by ring
    simp only [h1]
    rw [Summable.tsum_finsetSum]
    · exact Finset.sum_congr rfl fun i _ => by rw [tsum_mul_left]
    · intro i hi
      refine Summable.mul_left _ (Summable.of_norm_bounded ((pois_hasSum γ).summable.mul_right C) fun a => ?_)
      rw [Real.norm_eq_abs, abs_mul, abs_of_nonneg (pois_nonneg γ hγ a)]
      exact mul_le_mul_of_nonneg_left (pois_bound γ hγ n _ C fun as has => hf i hi _ (by simp [has])) (pois_nonneg γ hγ a)

theorem pois_congr (γ : ℝ) (n : ℕ) (f g : List ℕ → ℝ) (h : ∀ as, as.length = n → f as = g as) : poisMean γ n f = poisMean γ n g := by
  induction n generalizing f g with
  | zero => exact h [] rfl
  | succ n ih =>
    unfold poisMean
    congr 1
    funext a
    congr 1
    exact ih _ _ fun as has => h _ (by simp [has])

/-! ### The law of one sample -/

theorem pow_stochastic (dim : ℕ) (B : Mat ℝ) (hB : IsStochastic dim B) (a : ℕ) :
    (∀ y x, 0 ≤ ((asMatrix dim B) ^ a) y x) ∧ ∀ x, ∑ y, ((asMatrix dim B) ^ a) y x = 1 := by
  induction a with
  | zero =>
    refine ⟨fun y x => ?_, fun x => ?_⟩
    · rw [pow_zero, Matrix.one_apply]; split <;> norm_num
    · simp [Matrix.one_apply]
  | succ a ih =>
    constructor
    · intro y x
      rw [pow_succ, Matrix.mul_apply]
      exact Finset.sum_nonneg fun z _ => mul_nonneg (ih.1 y z) (hB.nonneg z z.2 x x.2)
    · intro x
      simp only [pow_succ, Matrix.mul_apply]
      rw [Finset.sum_comm]
      simp only [← Finset.sum_mul, ih.2, one_mul]
      have := hB.col x x.2
      rw [Finset.sum_range fun r => B r x] at this
      exact this

theorem endLaw_distr (dim : ℕ) (B : Mat ℝ) (hB : IsStochastic dim B) (p : ℕ → ℝ) (hp : ∀ x < dim, 0 ≤ p x) (hp1 : ∑ x ∈ Finset.range dim, p x = 1)
    (a : ℕ) : (∀ y, 0 ≤ endLaw dim B p a y) ∧ ∑ y, endLaw dim B p a y = 1 := by
  obtain ⟨h1, h2⟩ := pow_stochastic dim B hB a
  refine ⟨fun y => Finset.sum_nonneg fun x _ => mul_nonneg (hp x x.2) (h1 y x), ?_⟩
  unfold endLaw
  rw [Finset.sum_comm]
  simp only [← Finset.mul_sum, h2, mul_one]
  rw [← hp1, Finset.sum_range]

theorem steps_bound (dim : ℕ) (B : Mat ℝ) (hB : IsStochastic dim B) (p : ℕ → ℝ) (hp : ∀ x < dim, 0 ≤ p x) (hp1 : ∑ x ∈ Finset.range dim, p x = 1)
    (as : List ℕ) (F : List (Sgn dim) → ℝ) (C : ℝ) (hF : ∀ ts, ts.length = as.length → |F ts| ≤ C) : |stepsMean dim B p as F| ≤ C := by
  induction as generalizing F with
  | nil => exact hF [] rfl
  | cons a as ih =>
    unfold stepsMean
    obtain ⟨h1, h2⟩ := endLaw_distr dim B hB p hp hp1 a
    calc |∑ y, endLaw dim B p a y * stepsMean dim B p as fun ts => F ((par a, y) :: ts)|
        ≤ ∑ y, |endLaw dim B p a y * stepsMean dim B p as fun ts => F ((par a, y) :: ts)| := Finset.abs_sum_le_sum_abs _ _
      _ ≤ ∑ y, endLaw dim B p a y * C := Finset.sum_le_sum fun y _ => by
          rw [abs_mul, abs_of_nonneg (h1 y)]
          exact mul_le_mul_of_nonneg_left (ih _ fun ts hts => hF _ (by simp [hts])) (h1 y)
      _ = C := by rw [← Finset.sum_mul, h2, one_mul]

/-- Law of one sample: parity of the number of steps, and end. -/
noncomputable def sgnLaw (γ : ℝ) (dim : ℕ) (B : Mat ℝ) (p : ℕ → ℝ) (t : Sgn dim) : ℝ :=
  ∑' a : ℕ, pois γ a * if par a = t.1 then endLaw dim B p a t.2 else 0

theorem sgnLaw_summable (γ : ℝ) (hγ : 0 ≤ γ) (dim : ℕ) (B : Mat ℝ) (hB : IsStochastic dim B) (p : ℕ → ℝ) (hp : ∀ x < dim, 0 ≤ p x)
    (hp1 : ∑ x ∈ Finset.range dim, p x = 1) (t : Sgn dim) : Summable fun a : ℕ => pois γ a * if par a = t.1 then endLaw dim B p a t.2 else 0 := by
  refine Summable.of_norm_bounded (pois_hasSum γ).summable fun a => ?_
  obtain ⟨h1, h2⟩ := endLaw_distr dim B hB p hp hp1 a
  have h3 : endLaw dim B p a t.2 ≤ 1 := by
    rw [← h2]; exact Finset.single_le_sum (fun y _ => h1 y) (Finset.mem_univ _)
  rw [Real.norm_eq_abs, abs_mul, abs_of_nonneg (pois_nonneg γ hγ a)]
  refine mul_le_of_le_one_right (pois_nonneg γ hγ a) ?_
  split
  · rw [abs_of_nonneg (h1 _)]; exact h3
  · simp

theorem sgnLaw_nonneg (γ : ℝ) (hγ : 0 ≤ γ) (dim : ℕ) (B : Mat ℝ) (hB : IsStochastic dim B) (p : ℕ → ℝ) (hp : ∀ x < dim, 0 ≤ p x)
    (hp1 : ∑ x ∈ Finset.range dim, p x = 1) (t : Sgn dim) : 0 ≤ sgnLaw γ dim B p t := by
  refine tsum_nonneg fun a => mul_nonneg (pois_nonneg γ hγ a) ?_
  split
  · exact (endLaw_distr dim B hB p hp hp1 a).1 _
  · exact le_rfl

/-- Averages over one sample. -/
theorem sgnLaw_mean (γ : ℝ) (hγ : 0 ≤ γ) (dim : ℕ) (B : Mat ℝ) (hB : IsStochastic dim B) (p : ℕ → ℝ) (hp : ∀ x < dim, 0 ≤ p x)
    (hp1 : ∑ x ∈ Finset.range dim, p x = 1) (H : Sgn dim → ℝ) :
    ∑' a : ℕ, pois γ a * ∑ y, endLaw dim B p a y * H (par a, y) = ∑ t, sgnLaw γ dim B p t * H t := by
  have h1 : ∀ a : ℕ, pois γ a * ∑ y, endLaw dim B p a y * H (par a, y) =
      ∑ t : Sgn dim, (pois γ a * if par a = t.1 then endLaw dim B p a t.2 else 0) * H t := by
    intro a
    rw [Fintype.sum_prod_type, Finset.sum_eq_single (par a), Finset.mul_sum]
    · refine Finset.sum_congr rfl fun y _ => ?_
      rw [if_pos rfl]; ring
    · intro b _ hb
      exact Finset.sum_eq_zero fun y _ => by rw [if_neg (Ne.symm hb)]; simp
    · simp
  simp only [h1]
  rw [Summable.tsum_finsetSum fun t _ => (sgnLaw_summable γ hγ dim B hB p hp hp1 t).mul_right _]
  exact Finset.sum_congr rfl fun t _ => tsum_mul_right

/-! ### The law of a batch -/

/-- Average over `n` independent samples. -/
noncomputable def listMean {T : Type} [Fintype T] (q : T → ℝ) : ℕ → (List T → ℝ) → ℝ
  | 0, F => F []
  | n + 1, F => ∑ t, q t * listMean q n fun ts => F (t :: ts)

theorem list_add {T : Type} [Fintype T] (q : T → ℝ) (a b : ℕ) (F : List T → ℝ) :
    listMean q (a + b) F = listMean q a fun l => listMean q b fun l' => F (l ++ l') := by
  induction a generalizing F with
  | zero => rw [Nat.zero_add]; rfl
  | succ a ih =>
    rw [show a + 1 + b = (a + b) + 1 by omega]
    unfold listMean
    exact Finset.sum_congr rfl fun t _ => by rw [ih]; rfl

theorem list_eq_sum {T : Type} [Fintype T] (q : T → ℝ) (n : ℕ) (F : List T → ℝ) :
    listMean q n F = ∑ ω : Fin n → T, (∏ i, q (ω i)) * F (List.ofFn ω) := by
  induction n generalizing F with
  | zero => simp [listMean]
  | succ n ih =>
    unfold listMean
    simp only [ih, Finset.mul_sum]
    rw [← Fintype.sum_prod_type' fun (t : T) (ω : Fin n → T) => q t * ((∏ i, q (ω i)) * F (t :: List.ofFn ω))]
    refine Fintype.sum_equiv (Fin.consEquiv fun _ => T) _ _ fun x => ?_
    obtain ⟨t, ω⟩ := x
    simp [Fin.consEquiv, Fin.prod_univ_succ, List.ofFn_succ, mul_assoc]

theorem finite_bound (dim n : ℕ) (F : List (Sgn dim) → ℝ) : ∃ C, ∀ ts, ts.length = n → |F ts| ≤ C := by
  have hfin : {l : List (Sgn dim) | l.length = n}.Finite := List.finite_length_eq _ n
  obtain ⟨C, hC⟩ := (hfin.image fun ts => |F ts|).bddAbove
  exact ⟨C, fun ts hts => hC ⟨ts, hts, rfl⟩⟩

theorem pois_steps (γ : ℝ) (hγ : 0 ≤ γ) (dim : ℕ) (B : Mat ℝ) (hB : IsStochastic dim B) (p : ℕ → ℝ) (hp : ∀ x < dim, 0 ≤ p x)
    (hp1 : ∑ x ∈ Finset.range dim, p x = 1) (n : ℕ) (F : List (Sgn dim) → ℝ) :
    poisMean γ n (fun as => stepsMean dim B p as F) = listMean (sgnLaw γ dim B p) n F := by
  induction n generalizing F with
  | zero => rfl
  | succ n ih =>
    unfold poisMean listMean
    obtain ⟨C, hC⟩ := finite_bound dim (n + 1) F
    have h1 : ∀ a : ℕ, poisMean γ n (fun as => stepsMean dim B p (a :: as) F) =
        ∑ y, endLaw dim B p a y * listMean (sgnLaw γ dim B p) n fun ts => F ((par a, y) :: ts) := by
      intro a
      simp only [stepsMean]
      rw [pois_sum γ hγ n Finset.univ (endLaw dim B p a) (fun y as => stepsMean dim B p as fun ts => F ((par a, y) :: ts)) C
        fun y _ as has => steps_bound dim B hB p hp hp1 as _ C fun ts hts => hC _ (by simp [hts, has])]
      simp only [ih]
    simp only [h1]
    exact sgnLaw_mean γ hγ dim B hB p hp hp1 fun t => listMean (sgnLaw γ dim B p) n fun ts => F (t :: ts)

/-- The batch: whatever is computed from the ends and the parities. -/
theorem draw_law (γ : ℝ) (hγ : 0 ≤ γ) (dim : ℕ) (B : Mat ℝ) (hB : IsStochastic dim B) (p : ℕ → ℝ) (hp : ∀ x < dim, 0 ≤ p x)
    (hp1 : ∑ x ∈ Finset.range dim, p x = 1) (n : ℕ) (Φ : Option (List ℕ × List ℕ) → ℝ) :
    drawMean γ dim p n (fun d => Φ (ctmpInverse (toCsc dim B) d)) =
      listMean (sgnLaw γ dim B p) n fun ts => Φ (some (ts.map (·.2.val), ts.map (·.1.val))) := by
  unfold drawMean
  rw [← pois_steps γ hγ dim B hB p hp hp1]
  refine pois_congr γ n _ _ fun as has => ?_
  subst has
  have h1 : pickMean dim p as.length (fun xs => unifMean as.sum fun rs => Φ (ctmpInverse (toCsc dim B) ⟨as, xs, rs⟩)) =
      pickMean dim p as.length (fun xs => unifMean as.sum fun rs =>
        (fun o : Option (List ℕ) => Φ (o.map fun ys => (ys, as.map (· % 2)))) (runs (toCsc dim B) (xs.zip as) rs)) := by
    refine pick_congr _ _ _ _ _ fun xs hxs _ => unif_congr _ _ _ fun rs hrs => ?_
    have hz : (xs.zip as).map (·.2) = as := List.map_snd_zip (by omega)
    rw [← markovChain_eq_runs (toCsc dim B) rs (xs.zip as) (by rw [hz, hrs])]
    unfold ctmpInverse
    simp only [Option.map_map]
    rfl
  rw [h1]
  refine (pick_unif dim B hB p as fun o => Φ (o.map fun ys => (ys, as.map (· % 2)))).trans ?_
  have key : ∀ (as : List ℕ) (G : List ℕ → List (Sgn dim) → ℝ), stepsMean dim B p as (fun ts => G (as.map (· % 2)) ts) =
      stepsMean dim B p as fun ts => G (ts.map (·.1.val)) ts := by
    intro as
    induction as with
    | nil => intro G; rfl
    | cons a as ih =>
      intro G
      unfold stepsMean
      refine Finset.sum_congr rfl fun y _ => ?_
      congr 1
      exact ih fun bs ts => G (a % 2 :: bs) ((par a, y) :: ts)
  exact key as fun bs ts => Φ (some (ts.map (·.2.val), bs))

/-! ### The estimate -/

/-- What one sample contributes. -/
def sgnVal {dim : ℕ} (d : ℕ → ℝ) (t : Sgn dim) : ℝ := (-1) ^ t.1.val * d t.2

theorem signedSum_eq {dim : ℕ} (d : ℕ → ℝ) (ts : List (Sgn dim)) :
    signedSum d (ts.map (·.2.val)) (ts.map (·.1.val)) = (ts.map (sgnVal d)).sum := by
  have h : ts.map (·.1.val) = (ts.map (·.1.val)).map (· % 2) := by
    rw [List.map_map]
    exact List.map_congr_left fun t _ => (Nat.mod_eq_of_lt t.1.2).symm
  rw [h, C28_signed_sum]
  congr 1
  clear h
  induction ts with
  | nil => rfl
  | cons t ts ih => rw [List.map_cons, List.map_cons, List.map_cons, List.zip_cons_cons, List.map_cons, ih]; rfl

theorem rng_parts (γ : ℝ) (hγ : 0 ≤ γ) (dim : ℕ) (B : Mat ℝ) (hB : IsStochastic dim B) (p : ℕ → ℝ) (hp : ∀ x < dim, 0 ≤ p x)
    (hp1 : ∑ x ∈ Finset.range dim, p x = 1) (d : ℕ → ℝ) (sizes : List ℕ) (Ψ : Option (List ℝ) → ℝ) (G : ℝ → ℝ) (hΨ : ∀ l, Ψ (some l) = G l.sum) :
    rngMean γ dim p sizes (fun ds => Ψ (ds.mapM fun x => (ctmpInverse (toCsc dim B) x).map fun w => signedSum d w.1 w.2)) =
      listMean (sgnLaw γ dim B p) sizes.sum fun ts => G (ts.map (sgnVal d)).sum := by
  induction sizes generalizing Ψ G with
  | nil =>
    unfold rngMean
    exact (congrArg Ψ (List.mapM_nil)).trans (hΨ [])
  | cons b bs ih =>
    unfold rngMean
    rw [List.sum_cons, list_add]
    have h1 : (fun x : Draws ℝ => rngMean γ dim p bs fun ds => Ψ ((x :: ds).mapM fun x => (ctmpInverse (toCsc dim B) x).map fun w => signedSum d w.1 w.2)) =
        fun x => (fun o : Option (List ℕ × List ℕ) => rngMean γ dim p bs fun ds =>
          Ψ ((o.map fun w => signedSum d w.1 w.2).bind fun v => (ds.mapM fun x => (ctmpInverse (toCsc dim B) x).map fun w => signedSum d w.1 w.2).map
            fun vs => v :: vs)) (ctmpInverse (toCsc dim B) x) := by
      funext x
      congr 1
      funext ds
      rw [List.mapM_cons]
      congr 1
      cases ctmpInverse (toCsc dim B) x with
      | none => rfl
      | some w =>
        simp only [Option.map_some, Option.bind_eq_bind, Option.bind_some]
        rw [Option.map_eq_bind]
        rfl
    rw [h1]
    refine (draw_law γ hγ dim B hB p hp hp1 b (fun o : Option (List ℕ × List ℕ) => rngMean γ dim p bs fun ds =>
          Ψ ((o.map fun w => signedSum d w.1 w.2).bind fun v => (ds.mapM fun x => (ctmpInverse (toCsc dim B) x).map fun w => signedSum d w.1 w.2).map
            fun vs => v :: vs))).trans ?_
    congr 1
    funext ts
    simp only [Option.map_some, Option.bind_some]
    rw [signedSum_eq]
    have := ih (fun o => Ψ (o.map fun vs => (ts.map (sgnVal d)).sum :: vs)) (fun v => G ((ts.map (sgnVal d)).sum + v))
      fun l => by rw [Option.map_some, hΨ, List.sum_cons]
    rw [this]
    congr 1
    funext ts'
    rw [List.map_append, List.sum_append]

/-- The law of the estimate: the mean of independent samples. -/
theorem estimate_law (γ : ℝ) (hγ : 0 ≤ γ) (dim : ℕ) (B : Mat ℝ) (hB : IsStochastic dim B) (p : ℕ → ℝ) (hp : ∀ x < dim, 0 ≤ p x)
    (hp1 : ∑ x ∈ Finset.range dim, p x = 1) (d : ℕ → ℝ) (scale : ℝ) (n : ℕ) (F : Option ℝ → ℝ) :
    rngMean γ dim p (batches n) (fun ds => F (ctmpEstimate (toCsc dim B) d scale n ds)) =
      ∑ ω : Fin n → Sgn dim, (∏ i, sgnLaw γ dim B p (ω i)) * F (some (scale * ((∑ i, sgnVal d (ω i)) / n))) := by
  unfold ctmpEstimate
  have h := rng_parts γ hγ dim B hB p hp hp1 d (batches n) (fun o => F (o.map fun parts => scale / (n : ℝ) * parts.sum))
    (fun v => F (some (scale / (n : ℝ) * v))) fun l => rfl
  rw [(C28_batches n).1, list_eq_sum] at h
  have h2 : (fun ds : List (Draws ℝ) => F (do
        let parts ← ds.mapM fun x => (ctmpInverse (toCsc dim B) x).map fun w => signedSum d w.1 w.2
        pure (scale / (n : ℝ) * parts.sum))) =
      fun ds => F ((ds.mapM fun x => (ctmpInverse (toCsc dim B) x).map fun w => signedSum d w.1 w.2).map fun parts => scale / (n : ℝ) * parts.sum) := by
    funext ds
    congr 1
    rw [Option.map_eq_bind]
    rfl
  rw [h2, h]
  refine Finset.sum_congr rfl fun ω _ => ?_
  rw [List.map_ofFn, List.sum_ofFn]
  congr 3
  simp only [Function.comp]
  ring

/-- Every possible answer of the generator gives an estimate. -/
theorem estimate_some (dim : ℕ) (B : Mat ℝ) (hB : IsStochastic dim B) (d : ℕ → ℝ) (scale : ℝ) (n : ℕ) (sizes : List ℕ) (draws : List (Draws ℝ))
    (h : Possible dim sizes draws) : ∃ e, ctmpEstimate (toCsc dim B) d scale n draws = some e := by
  have hne : ∀ c < dim, ∃ y < dim, B y c ≠ 0 := by
    intro c hc
    by_contra hn
    push Not at hn
    have := hB.col c hc
    rw [Finset.sum_eq_zero fun r hr => hn r (Finset.mem_range.1 hr)] at this
    exact zero_ne_one this
  have hparts : ∃ l, (draws.mapM fun x => (ctmpInverse (toCsc dim B) x).map fun w => signedSum d w.1 w.2) = some l := by
    unfold Possible at h
    induction h with
    | nil => exact ⟨[], rfl⟩
    | cons h1 _ ih =>
      obtain ⟨l, hl⟩ := ih
      obtain ⟨ha, hx, hxd, hr⟩ := h1
      rename_i b x _ _ _
      obtain ⟨ys, hys, -⟩ := C28_chain dim B hne x.alphas x.xs hxd (by omega) x.rs hr
      refine ⟨signedSum d ys (x.alphas.map (· % 2)) :: l, ?_⟩
      rw [List.mapM_cons]
      unfold ctmpInverse at hl ⊢
      rw [hys, hl]
      rfl
  obtain ⟨l, hl⟩ := hparts
  unfold ctmpEstimate
  rw [hl]
  exact ⟨_, rfl⟩

/-! ### The average of one sample -/

/-- Multiplied by `e^{2γ}`, the average of a sample is the observable in the distribution `exp(-G) p`. -/
theorem sgn_average (dim : ℕ) (G : Mat ℝ) (hG : IsGenerator dim G) (p d : ℕ → ℝ) (hp : ∀ x < dim, 0 ≤ p x) (hp1 : ∑ x ∈ Finset.range dim, p x = 1) :
    Real.exp (2 * noiseStrength dim G) * ∑ t, sgnLaw (noiseStrength dim G) dim (samplingMatrix dim G) p t * sgnVal d t =
      ∑ x : Fin dim, p x * ∑ y : Fin dim, (NormedSpace.exp (-(asMatrix dim G))) y x * d y := by
  set γ := noiseStrength dim G with hγd
  have hγ : 0 ≤ γ := (noiseStrength_max dim G).1
  have hB := C26_sampling dim G hG
  rw [← sgnLaw_mean γ hγ dim (samplingMatrix dim G) hB p hp hp1 (sgnVal d)]
  have h := C27_series dim G hG
  simp only at h
  rw [← hγd] at h
  have hent : ∀ y x : Fin dim, HasSum (fun a : ℕ => (Real.exp (2 * γ) * (Real.exp (-γ) * γ ^ a / a.factorial) * (-1) ^ a) *
      ((asMatrix dim (samplingMatrix dim G)) ^ a) y x) ((NormedSpace.exp (-(asMatrix dim G))) y x) := by
    intro y x
    exact (Pi.hasSum.1 (Pi.hasSum.1 h y)) x
  have htot : HasSum (fun a : ℕ => ∑ x : Fin dim, p x * ∑ y : Fin dim, ((Real.exp (2 * γ) * (Real.exp (-γ) * γ ^ a / a.factorial) * (-1) ^ a) *
      ((asMatrix dim (samplingMatrix dim G)) ^ a) y x) * d y)
      (∑ x : Fin dim, p x * ∑ y : Fin dim, (NormedSpace.exp (-(asMatrix dim G))) y x * d y) :=
    hasSum_sum fun x _ => (hasSum_sum fun y _ => (hent y x).mul_right _).mul_left _
  rw [← htot.tsum_eq, ← tsum_mul_left]
  refine tsum_congr fun a => ?_
  unfold endLaw pois sgnVal
  simp only [Finset.mul_sum, Finset.sum_mul]
  rw [Finset.sum_comm]
  refine Finset.sum_congr rfl fun x _ => Finset.sum_congr rfl fun y _ => ?_
  have hpar : ((-1 : ℝ)) ^ (par a).val = (-1) ^ a := by
    show (-1 : ℝ) ^ (a % 2) = (-1) ^ a
    exact (neg_one_pow_eq_pow_mod_two a).symm
  rw [hpar]
  ring

theorem sgnLaw_total (γ : ℝ) (hγ : 0 ≤ γ) (dim : ℕ) (B : Mat ℝ) (hB : IsStochastic dim B) (p : ℕ → ℝ) (hp : ∀ x < dim, 0 ≤ p x)
    (hp1 : ∑ x ∈ Finset.range dim, p x = 1) : ∑ t, sgnLaw γ dim B p t = 1 := by
  have h := sgnLaw_mean γ hγ dim B hB p hp hp1 fun _ => 1
  simp only [mul_one] at h
  rw [← h]
  have : ∀ a, pois γ a * ∑ y, endLaw dim B p a y = pois γ a := fun a => by rw [(endLaw_distr dim B hB p hp hp1 a).2, mul_one]
  simp only [this]
  exact (pois_hasSum γ).tsum_eq

end Verif.Expval.Ctmp
