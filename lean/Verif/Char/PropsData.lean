import Verif.Char.ModelReal
import Verif.Counts.Weighted
set_option linter.unusedSimpArgs false
set_option linter.unusedVariables false
/-
C67: the data points of a characterization fitter.
-/
namespace Verif.Char
open Verif Verif.Counts

/-! ### Specification -/

/-- The counts that the jobs recorded for one circuit. -/
def recorded (results : List JobResult) (name : Str) : List Counts := results.filterMap fun r => Dict.get? r name

/-- Shots taken of one circuit, over all jobs. -/
def shotsOf (results : List JobResult) (name : Str) : ℤ := ((recorded results name).map total).sum

/-- Shots in which classical bit `q` of the circuit read `e`, over all jobs. -/
def hitsOf (results : List JobResult) (name : Str) (q : ℕ) (e : Char) : ℤ :=
  ((recorded results name).map fun c => ((c.filter fun kv => decide (charAt kv.1 q = some e)).map (·.2)).sum).sum

/-- The counts recorded for the circuits of a fitter are those of `n` measured bits, never negative, and every circuit has
been run. -/
structure GoodData (F : Fitter) (results : List JobResult) (nx n : ℕ) : Prop where
  counts : ∀ s ∈ F.series, ∀ i < nx, ∀ c ∈ recorded results (circName F.base i s), OneReg n c ∧ ∀ kv ∈ c, 0 ≤ kv.2
  run : ∀ s ∈ F.series, ∀ i < nx, 0 < shotsOf results (circName F.base i s)

/-! ### Lemmas -/

theorem wsum_bool (w : Str → Prop) [DecidablePred w] (c : Counts) :
    wsum (fun s => if w s then 1 else 0) c = ((c.filter fun kv => decide (w kv.1)).map (·.2)).sum := by
  induction c with
  | nil => rfl
  | cons p c ih =>
    rw [wsum_cons, ih, List.filter_cons]
    by_cases h : w p.1 <;> simp [h]

/-- The entry of a one-bit marginal. -/
theorem marginal_bit (n : ℕ) (c : Counts) (hc : OneReg n c) (q : ℕ) (hq : q < n) (e : Char) (he : e = '0' ∨ e = '1') :
    ∃ m, marginalCounts c (some [q]) false = some m ∧
      Dict.getD m [e] 0 = wsum (fun s => if charAt s q = some e then 1 else 0) c := by
  by_cases hfull : n = 1
  · subst hfull
    obtain rfl : q = 0 := by omega
    refine ⟨c, ?_, ?_⟩
    · cases c with
      | nil => exact absurd rfl hc.nonempty
      | cons kv c =>
        unfold marginalCounts
        simp only []
        rw [if_pos (by rw [trim_bits (hc.bits kv (by simp)), hc.len kv (by simp)]; rfl)]
        rw [get?_noMarg _ hc.wf hc.bits]
    · rw [getD_eq_wsum c hc.wf]
      unfold wsum
      congr 1
      refine List.map_congr_left ?_
      intro kv hkv
      obtain ⟨a, ha⟩ := List.length_eq_one_iff.1 (hc.len kv hkv)
      simp [ha, charAt]
  · have hS : ProperSubset n [q] := ⟨by simp, by simpa using hq, by simp; omega⟩
    obtain ⟨m, hm, -, hget⟩ := C02_marginal_entries n c hc.isCounts [q] hS (by simp) false
    refine ⟨m, hm, ?_⟩
    have hms : marginalSpec c [q] [e] = wsum (fun s => if charAt s q = some e then 1 else 0) c := by
      rw [wsum_bool, marginalSpec]
      congr 2
      refine List.filter_congr ?_
      intro kv hkv
      rw [trim_bits (hc.bits kv hkv)]
      simp [agrees, eq_comm]
    unfold Dict.getD
    rw [hget, ← hms]
    have hb : IsBits [e] := by intro x hx; simp at hx; rw [hx]; exact he
    by_cases hz : marginalSpec c [q] [e] = 0
    · simp [hz]
    · simp [hz, hb]

theorem total_nonneg (c : Counts) (h : ∀ kv ∈ c, 0 ≤ kv.2) : 0 ≤ total c := by
  unfold total
  refine List.sum_nonneg ?_
  intro x hx
  obtain ⟨kv, hkv, rfl⟩ := List.mem_map.1 hx
  exact h kv hkv

theorem filter_le_total (p : Str × ℤ → Bool) (c : Counts) (h : ∀ kv ∈ c, 0 ≤ kv.2) :
    0 ≤ ((c.filter p).map (·.2)).sum ∧ ((c.filter p).map (·.2)).sum ≤ total c := by
  induction c with
  | nil => simp [total]
  | cons kv c ih =>
    obtain ⟨h1, h2⟩ := ih fun x hx => h x (by simp [hx])
    have h0 := h kv (by simp)
    rw [List.filter_cons]
    simp only [total, List.map_cons, List.sum_cons] at *
    by_cases hp : p kv <;> simp [hp] <;> constructor <;> omega

theorem sum_map_bounds {l : List Counts} (f g : Counts → ℤ) (h : ∀ c ∈ l, 0 ≤ f c ∧ f c ≤ g c) :
    0 ≤ (l.map f).sum ∧ (l.map f).sum ≤ (l.map g).sum := by
  induction l with
  | nil => simp
  | cons c l ih =>
    obtain ⟨h1, h2⟩ := ih fun x hx => h x (by simp [hx])
    obtain ⟨h3, h4⟩ := h c (by simp)
    simp only [List.map_cons, List.sum_cons]
    constructor <;> omega

theorem point_value (n : ℕ) (results : List JobResult) (name : Str) (q : ℕ) (hq : q < n) (e : Char) (he : e = '0' ∨ e = '1')
    (hc : ∀ c ∈ recorded results name, OneReg n c) (hs : shotsOf results name ≠ 0) :
    point (pooled results name) q e = some ((hitsOf results name q e : ℚ) / (shotsOf results name : ℚ), shotsOf results name) := by
  have hne : recorded results name ≠ [] := by
    intro h
    unfold shotsOf at hs
    rw [h] at hs
    simp at hs
  have hreg : OneReg n (pooled results name) := oneReg_build _ hne hc
  have htot : (pooled results name).values.sum = shotsOf results name := by
    have := wsum_build (fun _ => 1) (recorded results name)
    rw [wsum_one] at this
    unfold shotsOf
    rw [show ((recorded results name).map total) = (recorded results name).map (wsum fun _ => 1) from
      List.map_congr_left fun c _ => (wsum_one c).symm]
    exact this
  obtain ⟨m, hm, hg⟩ := marginal_bit n _ hreg q hq e he
  have hhit : wsum (fun s => if charAt s q = some e then 1 else 0) (pooled results name) = hitsOf results name q e := by
    unfold pooled
    rw [wsum_build]
    unfold hitsOf recorded
    congr 1
    refine List.map_congr_left ?_
    intro c _
    exact wsum_bool (fun s => charAt s q = some e) c
  unfold point
  simp only [hm, htot, Option.bind_eq_bind, Option.bind_some]
  rw [if_neg hs, hg, hhit]
  rfl

theorem mapM_some {α β : Type} (l : List α) (f : α → Option β) (g : α → β) (h : ∀ a ∈ l, f a = some (g a)) :
    l.mapM f = some (l.map g) := by
  induction l with
  | nil => rfl
  | cons a l ih =>
    rw [List.mapM_cons, h a (by simp), ih fun x hx => h x (by simp [hx])]
    rfl

theorem circName_eq (base : String) (i : ℕ) (s : String) : base.toList ++ fmtD i ++ ['_'] ++ s.toList = circName base i s := by
  simp [circName]

/-! ### C67 -/

/-- **C67** Every data point is the number of shots, over all jobs, in which the qubit's own bit showed the state the
experiment expects, divided by the number of shots over all jobs.  `F` is any fitter expecting `0` or `1`. -/
theorem C67_value (F : Fitter) (hF : F.expected = '0' ∨ F.expected = '1') (results : List JobResult) (nx n : ℕ)
    (h : GoodData F results nx n) :
    calcData F results nx n = some (F.series.map fun s => (s.toList, (List.range n).map fun q => (List.range nx).map fun i =>
      ((hitsOf results (circName F.base i s) q F.expected : ℚ) / (shotsOf results (circName F.base i s) : ℚ),
        shotsOf results (circName F.base i s)))) := by
  unfold calcData
  refine mapM_some _ _ _ ?_
  intro s hs
  have hrow : (List.range n).mapM (fun qind => (F.circuitNames nx).mapM fun name =>
      point (pooled results (name ++ s.toList)) qind F.expected) = some ((List.range n).map fun q => (List.range nx).map fun i =>
      ((hitsOf results (circName F.base i s) q F.expected : ℚ) / (shotsOf results (circName F.base i s) : ℚ),
        shotsOf results (circName F.base i s))) := by
    refine mapM_some _ _ _ ?_
    intro q hq
    unfold Fitter.circuitNames
    rw [List.mapM_map]
    refine mapM_some _ _ _ ?_
    intro i hi
    have hi' : i < nx := by simpa using hi
    simp only [Function.comp, circName_eq]
    exact point_value n results _ q (by simpa using hq) _ hF (fun c hc => (h.counts s hs i hi' c hc).1)
      (ne_of_gt (h.run s hs i hi'))
  rw [hrow]
  rfl

/-- **C67** The data points are probabilities, and the error bars are positive. -/
theorem C67_range (F : Fitter) (results : List JobResult) (nx n : ℕ) (h : GoodData F results nx n) (s : String)
    (hs : s ∈ F.series) (i : ℕ) (hi : i < nx) (q : ℕ) (e : Char) :
    let p : ℚ := (hitsOf results (circName F.base i s) q e : ℚ) / (shotsOf results (circName F.base i s) : ℚ)
    0 ≤ p ∧ p ≤ 1 ∧ 0 < pointStd (p, shotsOf results (circName F.base i s)) := by
  intro p
  have hb := sum_map_bounds (l := recorded results (circName F.base i s))
    (fun c => ((c.filter fun kv => decide (charAt kv.1 q = some e)).map (·.2)).sum) total fun c hc =>
      filter_le_total _ c (h.counts s hs i hi c hc).2
  have hpos : (0 : ℚ) < (shotsOf results (circName F.base i s) : ℚ) := by exact_mod_cast h.run s hs i hi
  refine ⟨div_nonneg (by exact_mod_cast hb.1) hpos.le, (div_le_one hpos).2 (by exact_mod_cast hb.2), ?_⟩
  unfold pointStd
  simp only []
  split
  · norm_num
  · rename_i h0
    exact lt_of_le_of_ne (Real.sqrt_nonneg _) (Ne.symm h0)

/-- **C67** The error bar of a data point is the standard error of a share of shots: its square is `p (1 - p) / shots`, unless the expected
state was read in no shot or in every shot, when it is `1e-4`. -/
theorem C67_std (F : Fitter) (results : List JobResult) (nx n : ℕ) (h : GoodData F results nx n) (s : String)
    (hs : s ∈ F.series) (i : ℕ) (hi : i < nx) (q : ℕ) (e : Char) :
    let hits : ℤ := hitsOf results (circName F.base i s) q e
    let shots : ℤ := shotsOf results (circName F.base i s)
    let σ := pointStd ((hits : ℚ) / (shots : ℚ), shots)
    (0 < hits ∧ hits < shots → σ ^ 2 = ((hits : ℝ) / shots) * (1 - (hits : ℝ) / shots) / shots) ∧
    (hits = 0 ∨ hits = shots → σ = 1 / 10000) := by
  intro hits shots σ
  have hpos : (0 : ℝ) < (shots : ℝ) := by exact_mod_cast h.run s hs i hi
  have hσ : σ = if Real.sqrt ((hits : ℝ) / shots * (1 - (hits : ℝ) / shots) / shots) = 0 then 1 / 10000
      else Real.sqrt ((hits : ℝ) / shots * (1 - (hits : ℝ) / shots) / shots) := by
    show pointStd _ = _
    unfold pointStd
    push_cast
    rfl
  constructor
  · rintro ⟨h1, h2⟩
    have h1' : (0 : ℝ) < hits := by exact_mod_cast h1
    have h2' : (hits : ℝ) < shots := by exact_mod_cast h2
    have hv : 0 < (hits : ℝ) / shots * (1 - (hits : ℝ) / shots) / shots := by
      have : (hits : ℝ) / shots < 1 := (div_lt_one hpos).2 h2'
      have h3 : 0 < 1 - (hits : ℝ) / shots := by linarith
      positivity
    rw [hσ, if_neg (Real.sqrt_pos.2 hv).ne', Real.sq_sqrt hv.le]
  · rintro (h0 | h0)
    · rw [hσ, h0]
      simp
    · rw [hσ, h0, div_self hpos.ne']
      simp

/-- **C67** How the shots are distributed over jobs, and the order of the jobs, does not matter: only the totals per
circuit and outcome do. -/
theorem C67_batching (F : Fitter) (hF : F.expected = '0' ∨ F.expected = '1') (results results' : List JobResult) (nx n : ℕ)
    (h : GoodData F results nx n) (h' : GoodData F results' nx n)
    (heq : ∀ s ∈ F.series, ∀ i < nx, ∀ k : Str,
      ((recorded results (circName F.base i s)).map fun c => Dict.getD c k 0).sum
        = ((recorded results' (circName F.base i s)).map fun c => Dict.getD c k 0).sum) :
    calcData F results nx n = calcData F results' nx n := by
  -- a weighted sum over bit strings is determined by the entries
  have key : ∀ (w : Str → ℤ) (l l' : List Counts), (∀ c ∈ l, OneReg n c) → (∀ c ∈ l', OneReg n c) →
      (∀ k, (l.map fun c => Dict.getD c k 0).sum = (l'.map fun c => Dict.getD c k 0).sum) →
      (l.map (wsum w)).sum = (l'.map (wsum w)).sum := by
    intro w l l' hl hl' hk
    -- finite support: all keys
    let keys : List Str := ((l ++ l').flatMap fun c => c.map (·.1)).dedup
    have hw : ∀ c : Counts, Dict.WF c → (∀ k ∈ c.map (·.1), k ∈ keys) →
        wsum w c = (keys.map fun k => w k * Dict.getD c k 0).sum := by
      intro c
      induction c with
      | nil => intro _ _; simp [wsum, Dict.getD, Dict.get?]
      | cons p c ih =>
        intro hwf hsub
        have hwf' : Dict.WF c ∧ p.1 ∉ c.map (·.1) := by
          unfold Dict.WF at *
          simp only [List.map_cons, List.nodup_cons] at hwf
          exact ⟨hwf.2, hwf.1⟩
        rw [wsum_cons, ih hwf'.1 fun k hk => hsub k (by simp at hk ⊢; exact Or.inr hk)]
        have hnd : keys.Nodup := List.nodup_dedup _
        have hp : p.1 ∈ keys := hsub p.1 (by simp)
        have e1 : ∀ k, Dict.getD (p :: c) k 0 = (if k = p.1 then p.2 else 0) + Dict.getD c k 0 := by
          intro k
          by_cases hkp : k = p.1
          · subst hkp
            have : Dict.getD c p.1 0 = 0 := by
              unfold Dict.getD
              rw [(Dict.get?_eq_none_iff c p.1).2 hwf'.2]; rfl
            rw [this]
            obtain ⟨a, b⟩ := p
            simp [Dict.getD, Dict.get?_cons]
          · obtain ⟨a, b⟩ := p
            simp [Dict.getD, Dict.get?_cons, hkp, show ¬ a = k from fun h => hkp h.symm]
        simp only [e1, mul_add, List.sum_map_add]
        congr 1
        have : ∀ (ks : List Str), ks.Nodup → p.1 ∈ ks → (ks.map fun k => w k * if k = p.1 then p.2 else 0).sum = w p.1 * p.2 := by
          intro ks
          induction ks with
          | nil => intro _ hm; simp at hm
          | cons k ks ih2 =>
            intro hnd hm
            rw [List.nodup_cons] at hnd
            rw [List.map_cons, List.sum_cons]
            rcases List.mem_cons.1 hm with rfl | hm
            · rw [if_pos rfl]
              have : (ks.map fun k => w k * if k = p.1 then p.2 else 0).sum = 0 := by
                refine List.sum_eq_zero ?_
                intro x hx
                obtain ⟨k, hk, rfl⟩ := List.mem_map.1 hx
                rw [if_neg (show ¬ k = p.1 from fun h => hnd.1 (h ▸ hk)), mul_zero]
              rw [this, add_zero]
            · rw [if_neg (show ¬ k = p.1 from fun h => hnd.1 (h ▸ hm)), ih2 hnd.2 hm]
              ring
        exact (this keys hnd hp).symm
    have swap : ∀ l0 : List Counts, (∀ c ∈ l0, OneReg n c) → (∀ c ∈ l0, ∀ k ∈ c.map (·.1), k ∈ keys) →
        (l0.map (wsum w)).sum = (keys.map fun k => w k * (l0.map fun c => Dict.getD c k 0).sum).sum := by
      intro l0
      induction l0 with
      | nil => intro _ _; simp
      | cons c l0 ih =>
        intro h1 h2
        rw [List.map_cons, List.sum_cons, ih (fun x hx => h1 x (by simp [hx])) (fun x hx => h2 x (by simp [hx])),
          hw c (h1 c (by simp)).wf (h2 c (by simp)), ← List.sum_map_add]
        congr 1
        refine List.map_congr_left ?_
        intro k _
        rw [List.map_cons, List.sum_cons]
        ring
    rw [swap l hl fun c hc k hk => List.mem_dedup.2 (List.mem_flatMap.2 ⟨c, by simp [hc], hk⟩),
      swap l' hl' fun c hc k hk => List.mem_dedup.2 (List.mem_flatMap.2 ⟨c, by simp [hc], hk⟩)]
    congr 1
    refine List.map_congr_left ?_
    intro k _
    rw [hk k]
  rw [C67_value F hF results nx n h, C67_value F hF results' nx n h']
  congr 1
  refine List.map_congr_left ?_
  intro s hs
  congr 1
  refine List.map_congr_left ?_
  intro q _
  refine List.map_congr_left ?_
  intro i hi
  have hi' : i < nx := by simpa using hi
  have hl := fun c hc => (h.counts s hs i hi' c hc).1
  have hl' := fun c hc => (h'.counts s hs i hi' c hc).1
  have e1 : shotsOf results (circName F.base i s) = shotsOf results' (circName F.base i s) := by
    have := key (fun _ => 1) _ _ hl hl' (heq s hs i hi')
    unfold shotsOf
    simpa only [funext fun c => wsum_one c] using this
  have e2 : hitsOf results (circName F.base i s) q F.expected = hitsOf results' (circName F.base i s) q F.expected := by
    have := key (fun s => if charAt s q = some F.expected then 1 else 0) _ _ hl hl' (heq s hs i hi')
    unfold hitsOf
    simpa only [funext fun c => wsum_bool (fun s => charAt s q = some F.expected) c] using this
  rw [e1, e2]

/-- **C67** In particular jobs may be added in one go or one after the other, and in any order. -/
theorem C67_add_data (F : Fitter) (hF : F.expected = '0' ∨ F.expected = '1') (a b : List JobResult) (nx n : ℕ)
    (h : GoodData F (addData a b) nx n) :
    calcData F (addData a b) nx n = calcData F (addData b a) nx n := by
  have hp : ∀ name, (recorded (addData a b) name).Perm (recorded (addData b a) name) := by
    intro name
    unfold recorded addData
    exact (List.perm_append_comm (l₁ := a) (l₂ := b)).filterMap _
  refine C67_batching F hF _ _ nx n h ⟨?_, ?_⟩ ?_
  · intro s hs i hi c hc
    exact h.counts s hs i hi c ((hp _).mem_iff.2 hc)
  · intro s hs i hi
    have := h.run s hs i hi
    unfold shotsOf at this ⊢
    rwa [((hp _).map total).sum_eq] at this
  · intro s hs i hi k
    exact ((hp _).map _).sum_eq

/-- Two jobs of a T1 experiment on two qubits with two delays; the second job repeats the first circuit only. -/
def exResults : List JobResult :=
  [[("t1circuit_0_0".toList, [("11".toList, 90), ("01".toList, 10)]), ("t1circuit_1_0".toList, [("00".toList, 30), ("10".toList, 70)])],
   [("t1circuit_0_0".toList, [("10".toList, 40), ("11".toList, 60)])]]

example : GoodData t1Fitter exResults 2 2 := ⟨by decide +kernel, by decide +kernel⟩

/-- Qubit 0 (right-most character) is excited in 160 of 200 shots, then in none of 100; qubit 1 in 190 of 200, then in 70 of 100. -/
example : calcData t1Fitter exResults 2 2
    = some [("0".toList, [[(160 / 200, 200), (0, 100)], [(190 / 200, 200), (70 / 100, 100)]])] := by decide +kernel

end Verif.Char
