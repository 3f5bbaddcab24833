import Verif.RB.SpecRBShots
import Verif.RB.PropsPurityShots
set_option linter.unusedSimpArgs false
set_option linter.unusedVariables false
set_option linter.unusedSectionVars false
/-
C128: benchmarking data from finitely many random sequences and shots.
-/
namespace Verif.RB
open Verif Verif.Counts Verif.Expval

variable {O S E : Type} [Fintype O] [Fintype S] {N nlen : ℕ} {els : Finset E} {q : S → ℝ} {lens : Fin nlen → ℕ} {gs : Fin nlen → S → List E}
  {w : Fin nlen → S → O → ℝ} {out : O → Str} {lo len : ℕ} {F : List E → ℝ}

/-- Share of the shots that read zeros. -/
noncomputable def zeroShare (lo len : ℕ) (out : O → Str) (u : Fin N → O) : ℝ := QV.avg (fun o => if zeroOn lo len (out o) then (1 : ℝ) else 0) u

theorem zeroShare_range (hN : 0 < N) (u : Fin N → O) : 0 ≤ zeroShare lo len out u ∧ zeroShare lo len out u ≤ 1 := by
  have hN' : (0 : ℝ) < N := by exact_mod_cast hN
  unfold zeroShare QV.avg
  constructor
  · exact div_nonneg (Finset.sum_nonneg fun k _ => by dsimp only; split <;> norm_num) hN'.le
  · rw [div_le_one hN']
    refine (Finset.sum_le_sum (g := fun _ => (1 : ℝ)) fun k _ => by dsimp only; split <;> norm_num).trans ?_
    simp

theorem zeroShare_mean (hN : 0 < N) (h : Session els q lens gs w out lo len F) (k : Fin nlen) (s : S) :
    ∑ u : Fin N → O, shotsProb (w k s) u * zeroShare lo len out u = F (gs k s) := by
  refine (QV.avg_mean N hN _ (h.distr k s).2 _).trans ?_
  rw [← h.reads k s]
  exact Finset.sum_congr rfl fun o _ => by split <;> simp

theorem seedProb_nonneg (h : Session els q lens gs w out lo len F) (x : S × (Fin nlen → Fin N → O)) : 0 ≤ seedProb q w x :=
  mul_nonneg (h.draws.1 _) (Finset.prod_nonneg fun k _ => Finset.prod_nonneg fun i _ => (h.distr k x.1).1 _)

theorem circuits_one (h : Session els q lens gs w out lo len F) (s : S) : ∑ u : Fin nlen → Fin N → O, ∏ k, shotsProb (w k s) (u k) = 1 :=
  product_one (fun k (u : Fin N → O) => shotsProb (w k s) u) fun k => QV.draws_sum_one N _ (h.distr k s).2

theorem seedProb_one (h : Session els q lens gs w out lo len F) : ∑ x : S × (Fin nlen → Fin N → O), seedProb q w x = 1 := by
  rw [Fintype.sum_prod_type]
  unfold seedProb
  simp only [← Finset.mul_sum]
  rw [Finset.sum_congr rfl fun s _ => by rw [circuits_one h s, mul_one]]
  exact h.draws.2

theorem seed_mean (hN : 0 < N) (h : Session els q lens gs w out lo len F) (k : Fin nlen) :
    ∑ x : S × (Fin nlen → Fin N → O), seedProb q w x * zeroShare lo len out (x.2 k) = expect els (lens k) F := by
  rw [Fintype.sum_prod_type, ← h.uniform k F]
  refine Finset.sum_congr rfl fun s _ => ?_
  unfold seedProb
  have := marginal_one (fun k (u : Fin N → O) => shotsProb (w k s) u) (fun k => QV.draws_sum_one N _ (h.distr k s).2) k fun u => zeroShare lo len out u
  rw [zeroShare_mean hN h] at this
  rw [← this, Finset.mul_sum]
  exact Finset.sum_congr rfl fun u _ => mul_assoc _ _ _

theorem shotsOf_rate {rs : List Fit.Result} {name : Str} {u : Fin N → O} (h : ShotsOf rs name out u) (lo len : ℕ) : (Fit.rate rs name lo len : ℝ) = zeroShare lo len out u := by
  have h1 : Fit.shots rs name = N := by
    have := shotsOf_wsum h fun _ => 1
    simpa [wsum, Fit.shots] using this
  have h2 : Fit.zeroShots rs name lo len = wsum (fun s => if zeroOn lo len s then 1 else 0) (Fit.records rs name) := by
    unfold Fit.zeroShots wsum
    generalize Fit.records rs name = l
    induction l with
    | nil => rfl
    | cons p l ih =>
      rw [List.filter_cons, List.map_cons, List.sum_cons, ← ih]
      by_cases hp : zeroOn lo len p.1 <;> simp [hp]
  unfold Fit.rate zeroShare QV.avg
  rw [h2, shotsOf_wsum h, h1]
  push_cast
  congr 1
  exact Finset.sum_congr rfl fun k _ => by split <;> simp

/-- The statistics of `K` independent seeds. -/
theorem means_accurate (hN : 0 < N) {K : ℕ} (hK : 0 < K) (h : Session els q lens gs w out lo len F)
    (mean var : (Fin K → S × (Fin nlen → Fin N → O)) → Fin nlen → ℚ)
    (hm : ∀ ω k, (mean ω k : ℝ) = QV.avg (fun x : S × (Fin nlen → Fin N → O) => zeroShare lo len out (x.2 k)) ω)
    (hv : ∀ ω k, (var ω k : ℝ) = QV.avg (fun x : S × (Fin nlen → Fin N → O) => zeroShare lo len out (x.2 k) ^ 2) ω -
      QV.avg (fun x : S × (Fin nlen → Fin N → O) => zeroShare lo len out (x.2 k)) ω ^ 2) :
    RBAccurate q w (fun k => expect els (lens k) F) mean var := by
  have hK' : (0 : ℝ) < K := by exact_mod_cast hK
  have h1 := seedProb_one (N := N) h
  refine ⟨fun k => ?_, fun k => ?_, fun k => ?_, fun ε hε => ?_⟩
  · simp only [hm]
    exact (QV.avg_mean K hK _ h1 _).trans (seed_mean hN h k)
  · simp only [hm]
    refine (QV.avg_variance K hK _ h1 _ _ (seed_mean hN h k)).le.trans ?_
    rw [← div_div]
    refine div_le_div_of_nonneg_right ?_ hK'.le
    have h2 : ∑ x : S × (Fin nlen → Fin N → O), seedProb q w x * zeroShare lo len out (x.2 k) ^ 2 ≤ expect els (lens k) F := by
      rw [← seed_mean hN h k]
      refine Finset.sum_le_sum fun x _ => mul_le_mul_of_nonneg_left ?_ (seedProb_nonneg h x)
      have := zeroShare_range (lo := lo) (len := len) (out := out) hN (x.2 k)
      nlinarith
    nlinarith [sq_nonneg (expect els (lens k) F - 1 / 2)]
  · have := sample_variance K hK _ h1 _ _ (seed_mean hN h k)
    simp only [hm, hv]
    have e : ∀ ω : Fin K → S × (Fin nlen → Fin N → O), (∏ t, seedProb q w (ω t)) * ((QV.avg (fun x : S × (Fin nlen → Fin N → O) => zeroShare lo len out (x.2 k) ^ 2) ω -
        QV.avg (fun x : S × (Fin nlen → Fin N → O) => zeroShare lo len out (x.2 k)) ω ^ 2) / K) =
        sessionProb q w ω * (QV.avg (fun x : S × (Fin nlen → Fin N → O) => zeroShare lo len out (x.2 k) ^ 2) ω -
        QV.avg (fun x : S × (Fin nlen → Fin N → O) => zeroShare lo len out (x.2 k)) ω ^ 2) / K := fun ω => (mul_div_assoc _ _ _).symm
    simp only [e] at this
    rw [← Finset.sum_div, div_eq_iff hK'.ne'] at this
    rw [this]
    unfold sessionProb
    field_simp
  · classical
    have key : ∀ k, (∑ ω : Fin K → S × (Fin nlen → Fin N → O), if ε ≤ |(mean ω k : ℝ) - expect els (lens k) F| then sessionProb q w ω else 0) ≤ 2 * Real.exp (-(2 * K * ε ^ 2)) := by
      intro k
      have := hoeffding K hK _ (seedProb_nonneg h) h1 (fun x : S × (Fin nlen → Fin N → O) => zeroShare lo len out (x.2 k) - 1 / 2) (1 / 2) (by norm_num)
        (fun x => by
          have := zeroShare_range (lo := lo) (len := len) (out := out) hN (x.2 k)
          rw [abs_le]; constructor <;> linarith)
        (expect els (lens k) F - 1 / 2)
        (by simp only [mul_sub, Finset.sum_sub_distrib]; rw [seed_mean hN h k, ← Finset.sum_mul, h1, one_mul]) ε hε.le
        (fun ω => ε ≤ |(mean ω k : ℝ) - expect els (lens k) F|)
        (fun ω hω => by
          have e : QV.avg (fun x : S × (Fin nlen → Fin N → O) => zeroShare lo len out (x.2 k) - 1 / 2) ω =
              QV.avg (fun x : S × (Fin nlen → Fin N → O) => zeroShare lo len out (x.2 k)) ω - 1 / 2 := by
            unfold QV.avg
            rw [Finset.sum_sub_distrib, sub_div]
            congr 1
            simp
            field_simp
          rw [e, ← hm, sub_sub_sub_cancel_right]
          exact hω)
      refine this.trans (le_of_eq ?_)
      congr 3
      ring
    calc (∑ ω : Fin K → S × (Fin nlen → Fin N → O), if ∃ k, ε ≤ |(mean ω k : ℝ) - expect els (lens k) F| then sessionProb q w ω else 0)
        ≤ ∑ ω : Fin K → S × (Fin nlen → Fin N → O), ∑ k, if ε ≤ |(mean ω k : ℝ) - expect els (lens k) F| then sessionProb q w ω else 0 := by
          refine Finset.sum_le_sum fun ω _ => ?_
          have hp : 0 ≤ sessionProb q w ω := Finset.prod_nonneg fun j _ => seedProb_nonneg h _
          have hn : ∀ k ∈ (Finset.univ : Finset (Fin nlen)), 0 ≤ if ε ≤ |(mean ω k : ℝ) - expect els (lens k) F| then sessionProb q w ω else 0 := fun k _ => by
            split
            · exact hp
            · exact le_refl _
          split
          · next hk =>
            obtain ⟨k, hk⟩ := hk
            refine le_trans (le_of_eq ?_) (Finset.single_le_sum hn (Finset.mem_univ k))
            rw [if_pos hk]
          · exact Finset.sum_nonneg hn
      _ = ∑ k, ∑ ω : Fin K → S × (Fin nlen → Fin N → O), if ε ≤ |(mean ω k : ℝ) - expect els (lens k) F| then sessionProb q w ω else 0 := Finset.sum_comm
      _ ≤ ∑ k : Fin nlen, 2 * Real.exp (-(2 * K * ε ^ 2)) := Finset.sum_le_sum fun k _ => key k
      _ = _ := by simp

theorem list_sum_fin {α : Type} (l : List α) (f : α → ℚ) : (l.map f).sum = ∑ j : Fin l.length, f (l.get j) := by
  rw [← List.sum_ofFn]
  congr 1
  conv_lhs => rw [← List.ofFn_get l]
  rw [List.map_ofFn]
  rfl

/-- C128: the statistics of an `RBFitter` for a pattern, when every seed is an independent draw of sequences of the given lengths and every circuit is run with
`N` independent shots: the means over the seeds are on average the success probabilities averaged over all sequences, their variance is at most `1/(4K)` for
`K` seeds, however few the shots; all means are within `ε` except with probability `2 nlen exp (-2Kε²)`; and the squares of the reported standard
deviations are on average `K - 1` times the variance of the means. -/
theorem C128_data (hN : 0 < N) (curve : Fit.CurveFit) (t : Str) (n : ℕ) (seeds : List ℤ) (hK : seeds ≠ [])
    (rs : (Fin seeds.length → S × (Fin nlen → Fin N → O)) → List Fit.Result)
    (hseeds : ∀ ω, (Fit.addData Fit.State.init (rs ω)).map Fit.State.nseeds = some seeds) (h : ∀ ω, Fit.GoodData t n nlen (rs ω))
    (hs : ∀ ω (j : Fin seeds.length) (k : Fin nlen), ShotsOf (rs ω) (t ++ suffix k (seeds.get j)) out ((ω j).2 k))
    (pattern : List (List ℕ)) (hp : ∀ p ∈ pattern, p ≠ []) (hn : (pattern.map List.length).sum ≤ n)
    (lengths : List (List ℤ)) (hl : ∀ l ∈ lengths, l.length = nlen) (hpl : pattern.length ≤ lengths.length) (hl0 : lengths ≠ [])
    (i : ℕ) (hi : i < pattern.length) (hx : Session els q lens gs w out (Fit.offset pattern i) (pattern.getD i []).length F) :
    ∃ mean var : (Fin seeds.length → S × (Fin nlen → Fin N → O)) → Fin nlen → ℚ, RBAccurate q w (fun k => expect els (lens k) F) mean var ∧
      ∀ ω f, Fit.Fitter.new curve (some (rs ω)) lengths (some pattern) = some f →
        ∃ y, f.ydata[i]? = some y ∧ y.mean = List.ofFn (mean ω) ∧ y.var = if seeds.length = 1 then none else some (List.ofFn (var ω)) := by
  have hKn : 0 < seeds.length := List.length_pos_iff.2 hK
  have hKr : (0 : ℝ) < seeds.length := by exact_mod_cast hKn
  set r : (Fin seeds.length → S × (Fin nlen → Fin N → O)) → Fin nlen → Fin seeds.length → ℚ := fun ω k j =>
    Fit.rate (rs ω) (t ++ suffix k (seeds.get j)) (Fit.offset pattern i) (pattern.getD i []).length with hr
  have hrr : ∀ ω k j, (r ω k j : ℝ) = zeroShare (Fit.offset pattern i) (pattern.getD i []).length out ((ω j).2 k) := fun ω k j => shotsOf_rate (hs ω j k) _ _
  have hmean : ∀ ω k, (((∑ j, r ω k j) / (seeds.length : ℚ) : ℚ) : ℝ) =
      QV.avg (fun x : S × (Fin nlen → Fin N → O) => zeroShare (Fit.offset pattern i) (pattern.getD i []).length out (x.2 k)) ω := fun ω k => by
    unfold QV.avg
    push_cast
    simp only [hrr]
  refine ⟨fun ω k => (∑ j, r ω k j) / (seeds.length : ℚ), fun ω k => (∑ j, (r ω k j - (∑ j, r ω k j) / (seeds.length : ℚ)) ^ 2) / (seeds.length : ℚ),
    means_accurate hN hKn hx _ _ hmean ?_, ?_⟩
  · intro ω k
    rw [← hmean, Rat.cast_div, Rat.cast_sum, Rat.cast_natCast]
    simp only [Rat.cast_pow, Rat.cast_sub]
    rw [hmean]
    simp only [hrr]
    set a := QV.avg (fun x : S × (Fin nlen → Fin N → O) => zeroShare (Fit.offset pattern i) (pattern.getD i []).length out (x.2 k)) ω with ha
    have ha' : ∑ j, zeroShare (Fit.offset pattern i) (pattern.getD i []).length out ((ω j).2 k) = a * seeds.length := by
      rw [ha]; unfold QV.avg; field_simp
    have e : ∀ j, (zeroShare (Fit.offset pattern i) (pattern.getD i []).length out ((ω j).2 k) - a) ^ 2 =
        zeroShare (Fit.offset pattern i) (pattern.getD i []).length out ((ω j).2 k) ^ 2 - 2 * a * zeroShare (Fit.offset pattern i) (pattern.getD i []).length out ((ω j).2 k) + a ^ 2 :=
      fun j => by ring
    simp only [e, Finset.sum_add_distrib, Finset.sum_sub_distrib, ← Finset.mul_sum, ha']
    unfold QV.avg
    rw [Finset.sum_const, Finset.card_univ, Fintype.card_fin, nsmul_eq_mul]
    field_simp
    ring
  · intro ω f hf
    unfold Fit.Fitter.new at hf
    obtain ⟨g1, g2, g3, g4⟩ := Fit.addData_true hf
    simp only [Option.getD_some] at g1 g2 g3
    have hst : f.st.nseeds = seeds := by
      have := hseeds ω
      rw [g1] at this
      exact Option.some.inj this
    obtain ⟨hraw, -⟩ := Fit.fresh_spec g4 (h ω) g1 (by rw [g3]; exact hp) (by rw [g3]; exact hn) (by rw [g2]; exact hl) (by rw [g2, g3]; exact hpl) (by rw [g2]; exact hl0)
    have hy := g4.ydata
    rw [g3] at hy
    rw [hst, g3] at hraw
    refine ⟨_, by rw [hy, List.getElem?_map, List.getElem?_range hi]; rfl, ?_, ?_⟩
    all_goals
      have hrow : f.raw.getD i [] = seeds.map fun s => (List.range nlen).map fun k => Fit.rate (rs ω) (t ++ suffix k s) (Fit.offset pattern i) (pattern.getD i []).length := by
        rw [hraw]
        unfold Fit.rates
        rw [List.getD_eq_getElem?_getD, List.getElem?_map, List.getElem?_range hi]
        rfl
      have hm : ((f.raw.getD i []).head?.map List.length).getD 0 = nlen := by
        rw [hrow]
        obtain ⟨s, ss, hss⟩ := List.exists_cons_of_ne_nil hK
        rw [hss]; simp
      have hlen : (f.raw.getD i []).length = seeds.length := by rw [hrow, List.length_map]
      have hcol : ∀ k : Fin nlen, ∀ G : ℚ → ℚ, ((f.raw.getD i []).map fun r => G (r.getD k 0)).sum = ∑ j, G (r ω k j) := by
        intro k G
        rw [hrow, List.map_map, list_sum_fin]
        refine Finset.sum_congr rfl fun j _ => ?_
        simp only [Function.comp]
        congr 1
        rw [List.getD_eq_getElem?_getD, List.getElem?_map, List.getElem?_range k.2]
        rfl
      have hmc : ∀ k : Fin nlen, Fit.meanCol (f.raw.getD i []) k = (∑ j, r ω k j) / (seeds.length : ℚ) := by
        intro k
        unfold Fit.meanCol
        have := hcol k fun x => x
        rw [this, hlen]
    · change (List.range _).map (Fit.meanCol (f.raw.getD i [])) = _
      rw [hm]
      refine List.ext_getElem (by simp) fun k hk1 hk2 => ?_
      rw [List.getElem_map, List.getElem_range, List.getElem_ofFn]
      exact hmc ⟨k, by simpa using hk2⟩
    · change (if (f.raw.getD i []).length = 1 then none else some ((List.range _).filterMap (Fit.varCol (f.raw.getD i [])))) = _
      rw [hlen, hm]
      by_cases h1 : seeds.length = 1
      · rw [if_pos h1, if_pos h1]
      · rw [if_neg h1, if_neg h1]
        have hvc : ∀ k : Fin nlen, Fit.varCol (f.raw.getD i []) k = some ((∑ j, (r ω k j - (∑ j, r ω k j) / (seeds.length : ℚ)) ^ 2) / (seeds.length : ℚ)) := by
          intro k
          unfold Fit.varCol
          rw [hlen, if_neg h1, hmc k, hcol k fun x => (x - (∑ j, r ω k j) / (seeds.length : ℚ)) ^ 2]
        congr 1
        have hfm : (List.range nlen).filterMap (Fit.varCol (f.raw.getD i [])) = (List.range nlen).map fun k => (Fit.varCol (f.raw.getD i []) k).getD 0 := by
          rw [← List.filterMap_eq_map]
          refine List.filterMap_congr fun k hk => ?_
          change Fit.varCol (f.raw.getD i []) k = some ((Fit.varCol (f.raw.getD i []) k).getD 0)
          rw [hvc ⟨k, List.mem_range.1 hk⟩]
          rfl
        rw [hfm]
        refine List.ext_getElem (by simp) fun k hk1 hk2 => ?_
        rw [List.getElem_map, List.getElem_range, List.getElem_ofFn, hvc ⟨k, by simpa using hk2⟩]
        rfl

/-! ### The decay curves -/

open Verif.Quantum

/-- C128 with C113: for Clifford benchmarking with any gate-independent noise the means scatter around the curve that is fitted, with the decay of the noise. -/
theorem C128_clifford {G : Group E} {Mem : ℕ → E → Prop} {NQ : ℕ} {pat : List ℕ} (hL : Lawful G Mem) (hd : pat.Nodup) (hlt : ∀ q ∈ pat, q < NQ) (hn : pat ≠ [])
    (hm : ∀ g ∈ els, Mem pat.length g) (hC : IsClifford G pat.length els) {Ks : List (Op pat.length)} (hK : IsChannel Ks) (Js : List (Op pat.length))
    (pre post : List (List Ins × List (Op pat.length))) (hpost : ∀ cK ∈ post, GatesOn NQ pat cK.1) (e : Ens NQ) :
    ∃ A B : ℝ, ∀ {K : ℕ} (mean var : (Fin K → S × (Fin nlen → Fin N → O)) → Fin nlen → ℚ),
      RBAccurate q w (fun k => expect els (lens k) (success G pat pre Ks Js post e)) mean var → RBAccurate q w (fun k => Fit.fitFun (lens k) A (decay Ks) B) mean var := by
  obtain ⟨A, B, h⟩ := C113_clifford hL hd hlt hn hm hC hK Js pre post hpost e
  exact ⟨A, B, fun mean var hr => by simpa only [h] using hr⟩

/-- The same for interleaved benchmarking. -/
theorem C128_interleaved {G : Group E} {Mem : ℕ → E → Prop} {NQ : ℕ} {pat : List ℕ} (hL : Lawful G Mem) (hd : pat.Nodup) (hlt : ∀ q ∈ pat, q < NQ) (hn : pat ≠ [])
    (hm : ∀ g ∈ els, Mem pat.length g) (hC : IsClifford G pat.length els) {g : E} (hg : g ∈ els) {c : List Ins} (hc : G.toCircuit g = some c)
    {Ks Rs : List (Op pat.length)} (hK : IsChannel Ks) (hR : IsChannel Rs) (Js : List (Op pat.length))
    (pre post : List (List Ins × List (Op pat.length))) (hpost : ∀ cK ∈ post, GatesOn NQ pat cK.1) (e : Ens NQ) :
    ∃ A B : ℝ, ∀ {K : ℕ} (mean var : (Fin K → S × (Fin nlen → Fin N → O)) → Fin nlen → ℚ),
      RBAccurate q w (fun k => expect els (lens k) (successI G pat g pre Ks Rs Js post e)) mean var →
        RBAccurate q w (fun k => Fit.fitFun (lens k) A (decay (composite (opMat pat.length c) Ks Rs)) B) mean var := by
  obtain ⟨A, B, h⟩ := C113_interleaved_clifford hL hd hlt hn hm hC hg hc hK hR Js pre post hpost e
  exact ⟨A, B, fun mean var hr => by simpa only [h] using hr⟩

/-! ### A concrete experiment -/

/-- Each of the two elements, of which the second is faulty half of the time. -/
noncomputable def toyF (gs : List Bool) : ℝ := (gs.map fun g => if g then (1 / 2 : ℝ) else 1).prod

/-- Sequences of one and two elements, the first being the beginning of the second. -/
def toyGs (k : Fin 2) (s : Bool × Bool) : List Bool := if k = 0 then [s.1] else [s.1, s.2]

noncomputable def toyW (k : Fin 2) (s : Bool × Bool) (o : Bool) : ℝ := if o then 1 - toyF (toyGs k s) else toyF (toyGs k s)

theorem toyF_range (gs : List Bool) : 0 ≤ toyF gs ∧ toyF gs ≤ 1 := by
  induction gs with
  | nil => simp [toyF]
  | cons g gs ih =>
    unfold toyF at ih ⊢
    rw [List.map_cons, List.prod_cons]
    split <;> constructor <;> linarith

theorem toy_session : Session (Finset.univ : Finset Bool) (fun _ : Bool × Bool => (1 / 4 : ℝ)) ![1, 2] toyGs toyW coinOut 0 1 toyF := by
  refine ⟨⟨fun _ => by norm_num, by norm_num⟩, ?_, ?_, ?_⟩
  · intro k H
    have h2 : ∀ k : Fin 2, k = 0 ∨ k = 1 := by decide
    rcases h2 k with rfl | rfl
    · simp [toyGs, expect, Fintype.sum_prod_type]; ring
    · simp [toyGs, expect, Fintype.sum_prod_type]; ring
  · intro k s
    have := toyF_range (toyGs k s)
    refine ⟨fun o => ?_, by simp [toyW]⟩
    unfold toyW
    split <;> linarith
  · intro k s
    have h1 : ¬ zeroOn 0 1 (coinOut true) := by decide
    have h0 : zeroOn 0 1 (coinOut false) := by decide
    rw [Fintype.sum_bool, if_neg h1, if_pos h0, zero_add]
    simp [toyW]

def toyRs (ω : Fin 2 → (Bool × Bool) × (Fin 2 → Fin N → Bool)) : List Fit.Result :=
  [[("rb_length_0_seed_0".toList, coinCounts ((ω 0).2 0)), ("rb_length_1_seed_0".toList, coinCounts ((ω 0).2 1))],
   [("rb_length_0_seed_1".toList, coinCounts ((ω 1).2 0)), ("rb_length_1_seed_1".toList, coinCounts ((ω 1).2 1))]]

theorem toy_mem {ω : Fin 2 → (Bool × Bool) × (Fin 2 → Fin N → Bool)} {r : Fit.Result} (hr : r ∈ toyRs ω) : ∃ s : ℤ, (s = 0 ∨ s = 1) ∧ ∃ u v : Fin N → Bool,
    r = [("rb".toList ++ suffix 0 s, coinCounts u), ("rb".toList ++ suffix 1 s, coinCounts v)] := by
  unfold toyRs at hr
  rcases List.mem_cons.1 hr with rfl | hr
  · exact ⟨0, Or.inl rfl, _, _, rfl⟩
  · obtain rfl := List.mem_singleton.1 hr
    exact ⟨1, Or.inr rfl, _, _, rfl⟩

theorem coin_tally (u : Fin N → Bool) (s : Str) :
    (((coinCounts u).filter fun kv => kv.1 = s).map (·.2)).sum = ((Finset.univ.filter fun k => coinOut (u k) = s).card : ℤ) := by
  unfold coinCounts
  by_cases h0 : s = "0".toList
  · subst h0
    simp [List.filter_cons]
  · by_cases h1 : s = "1".toList
    · subst h1
      simp [List.filter_cons]
    · have : (Finset.univ.filter fun k => coinOut (u k) = s) = ∅ := by
        refine Finset.filter_eq_empty_iff.2 fun k _ => ?_
        unfold coinOut
        split
        · exact fun h => h1 h.symm
        · exact fun h => h0 h.symm
      rw [this]
      have e0 : decide ("0".toList = s) = false := decide_eq_false (Ne.symm h0)
      have e1 : decide ("1".toList = s) = false := decide_eq_false (Ne.symm h1)
      rw [List.filter_cons, e0, List.filter_cons, e1]
      simp

theorem toy_records (ω : Fin 2 → (Bool × Bool) × (Fin 2 → Fin N → Bool)) (j k : Fin 2) :
    Fit.records (toyRs ω) ("rb".toList ++ suffix k (([0, 1] : List ℤ).get j)) = coinCounts ((ω j).2 k) := by
  have h2 : ∀ k : Fin 2, k = 0 ∨ k = 1 := by decide
  rcases h2 j with rfl | rfl <;> rcases h2 k with rfl | rfl <;> simp [Fit.records, toyRs] <;> rfl

theorem toy_shots (ω : Fin 2 → (Bool × Bool) × (Fin 2 → Fin N → Bool)) (j k : Fin 2) :
    ShotsOf (toyRs ω) ("rb".toList ++ suffix k (([0, 1] : List ℤ).get j)) coinOut ((ω j).2 k) := by
  intro s
  rw [toy_records, coin_tally]

/-- C128 on two seeds, two lengths and two elements: the hypotheses hold, and the means scatter around 3/4 and 9/16. -/
theorem C128_experiment (hN : 0 < N) (curve : Fit.CurveFit) :
    ∃ mean var : (Fin 2 → (Bool × Bool) × (Fin 2 → Fin N → Bool)) → Fin 2 → ℚ, RBAccurate (fun _ => 1 / 4) toyW ![3 / 4, 9 / 16] mean var ∧
      ∀ ω f, Fit.Fitter.new curve (some (toyRs ω)) [[1, 2]] (some [[0]]) = some f →
        ∃ y, f.ydata[0]? = some y ∧ y.mean = List.ofFn (mean ω) ∧ y.var = some (List.ofFn (var ω)) := by
  have hgood : ∀ ω : Fin 2 → (Bool × Bool) × (Fin 2 → Fin N → Bool), Fit.GoodData "rb".toList 1 2 (toyRs ω) := by
    intro ω
    refine ⟨by decide, ⟨_, _, _, rfl⟩, ?_, ?_⟩
    · intro r hr
      obtain ⟨s, hs, u, v, rfl⟩ := toy_mem hr
      refine ⟨?_, ?_, ?_⟩
      · change ["rb".toList ++ suffix 0 s, "rb".toList ++ suffix 1 s].Nodup
        rcases hs with rfl | rfl <;> decide
      · intro e he
        rcases List.mem_cons.1 he with rfl | he
        · exact ⟨0, s, rfl⟩
        · obtain rfl := List.mem_singleton.1 he
          exact ⟨1, s, rfl⟩
      · have hc : ∀ u : Fin N → Bool, ∀ kv ∈ coinCounts u, 0 ≤ kv.2 := by
          intro u kv hkv
          unfold coinCounts at hkv
          rcases List.mem_cons.1 hkv with rfl | hkv
          · positivity
          · obtain rfl := List.mem_singleton.1 hkv; positivity
        intro e he
        rcases List.mem_cons.1 he with rfl | he
        · exact ⟨coin_oneReg u, hc u⟩
        · obtain rfl := List.mem_singleton.1 he
          exact ⟨coin_oneReg v, hc v⟩
    · intro r hr e he k s hks k' hk'
      have hs : s = 0 ∨ s = 1 := by
        obtain ⟨s', hs', u, v, rfl⟩ := toy_mem hr
        have : ∃ k'', e.1 = "rb".toList ++ suffix k'' s' := by
          rcases List.mem_cons.1 he with rfl | he
          · exact ⟨0, rfl⟩
          · obtain rfl := List.mem_singleton.1 he
            exact ⟨1, rfl⟩
        obtain ⟨k'', h''⟩ := this
        rw [h''] at hks
        have := (suffix_inj hks).2.2
        rw [← this]; exact hs'
      have key : ∀ j : Fin 2, Fit.shots (toyRs ω) ("rb".toList ++ suffix k' (([0, 1] : List ℤ).get j)) = N := by
        intro j
        have := shotsOf_wsum (toy_shots ω j ⟨k', hk'⟩) fun _ => 1
        simpa [wsum, Fit.shots] using this
      rcases hs with rfl | rfl
      · have := key 0
        rw [show (([0, 1] : List ℤ).get (0 : Fin 2)) = 0 from rfl] at this
        rw [this]; exact_mod_cast hN
      · have := key 1
        rw [show (([0, 1] : List ℤ).get (1 : Fin 2)) = 1 from rfl] at this
        rw [this]; exact_mod_cast hN
  obtain ⟨mean, var, h1, h2⟩ := C128_data hN curve "rb".toList 1 [0, 1] (by simp) toyRs (fun ω => rfl) hgood toy_shots
    [[0]] (by decide) (by decide) [[1, 2]] (by decide) (by decide) (by simp) 0 (by decide) toy_session
  refine ⟨mean, var, ?_, h2⟩
  have e : (fun k : Fin 2 => expect (Finset.univ : Finset Bool) ((![1, 2] : Fin 2 → ℕ) k) toyF) = ![3 / 4, 9 / 16] := by
    funext k
    have h2 : ∀ k : Fin 2, k = 0 ∨ k = 1 := by decide
    rcases h2 k with rfl | rfl
    · simp [expect, toyF]; norm_num
    · simp [expect, toyF]; norm_num
  rw [← e]
  exact h1

end Verif.RB
