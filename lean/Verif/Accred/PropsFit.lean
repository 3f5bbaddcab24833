import Verif.Accred.Model
import Mathlib.Algebra.Order.Field.Rat
import Mathlib.Algebra.Order.Field.Basic
import Mathlib.Data.Rat.Cast.Order
import Mathlib.Tactic.Linarith
import Mathlib.Tactic.Positivity
import Mathlib.Tactic.NormNum
set_option linter.unusedSimpArgs false
/-
C34: the accreditation fitter.
-/
namespace Verif.Accred
open Verif

/-- One protocol run: the counts of its circuits, their pads, and the position of the target. -/
structure Run where
  results : List (Dict Str Nat)
  postps : List (List Bool)
  vZero : Nat

/-- Calls of `single_protocol_run` one after the other on one instance. -/
def history (outputs : List Str) (f : Fitter) (runs : List Run) : Option (List Str × Fitter) :=
  runs.foldlM (fun st r => singleProtocolRun st.1 st.2 r.results r.postps r.vZero) (outputs, f)

/-- Single-shot results: circuit `k` returned the string `keys[k]`. -/
def Run.single (r : Run) (keys : List Str) : Prop :=
  r.results = keys.map (fun k => [(k, 1)]) ∧ keys.length = r.postps.length

/-- The corrected string of circuit `k`. -/
def corrected (r : Run) (keys : List Str) (k : Nat) : Str :=
  correctString (keys.getD k []) (r.postps.getD k [])

/-- All traps returned zeros. -/
def TrapsClean (r : Run) (keys : List Str) : Prop :=
  ∀ k < r.postps.length, k ≠ r.vZero → ∀ c ∈ corrected r keys k, c = '0'

theorem all_strings (r : Run) (keys : List Str) (h : r.single keys) :
    (r.postps.zipIdx.mapM fun p => do
      let c ← r.results[p.2]?
      extract c p.1) = some ((List.range r.postps.length).map (corrected r keys)) := by
  obtain ⟨h1, h2⟩ := h
  have key : ∀ (l : List (List Bool)) (k : Nat), (∀ i, l[i]? = r.postps[k + i]?) →
      k + l.length = r.postps.length →
      ((l.zipIdx k).mapM fun p => do
        let c ← r.results[p.2]?
        extract c p.1) = some ((List.range' k l.length).map (corrected r keys)) := by
    intro l
    induction l with
    | nil => intro k _ _; rfl
    | cons p l ih =>
      intro k hl hlen
      simp only [List.length_cons] at hlen
      have hk : k < keys.length := by omega
      have hp : r.postps[k]? = some p := by rw [← Nat.add_zero k, ← hl 0]; rfl
      have e1 : r.results[k]? = some [(keys[k], 1)] := by rw [h1]; simp [hk]
      rw [List.zipIdx_cons, List.mapM_cons]
      simp only [e1]
      have e2 : extract [(keys[k], 1)] p = some (corrected r keys k) := by
        simp only [extract, correctCounts, List.foldl_cons, List.foldl_nil, Dict.set, List.getLast?_singleton,
          Option.map_some, corrected]
        simp [hp, hk]
      show (extract [(keys[k], 1)] p).bind _ = _
      rw [e2, Option.bind_some, ih (k + 1) (fun i => by rw [show k + 1 + i = k + (i + 1) by omega, ← hl (i + 1)]; rfl)
        (by omega)]
      rfl
  have := key r.postps 0 (fun i => by rw [Nat.zero_add]) (by omega)
  rw [this, List.range_eq_range']

theorem all_zero_iff (s : Str) : s = List.replicate s.length '0' ↔ ∀ c ∈ s, c = '0' := by
  rw [List.eq_replicate_iff]; simp

/-- **C34** A run of single-shot results whose target position is in range is accepted iff every trap,
corrected with its own pad, is all zeros; the corrected target string is recorded, and the number of
accepted runs goes up by one, exactly when the run is accepted. -/
theorem C34_accept_iff (outputs : List Str) (f : Fitter) (r : Run) (keys : List Str) (h : r.single keys)
    (hv : r.vZero < r.postps.length) :
    ∃ outputs' f', singleProtocolRun outputs f r.results r.postps r.vZero = some (outputs', f') ∧
      (f'.accepted = true ↔ TrapsClean r keys) ∧
      (TrapsClean r keys → outputs' = outputs ++ [corrected r keys r.vZero] ∧ f'.nAcc = f.nAcc + 1) ∧
      (¬ TrapsClean r keys → outputs' = outputs ∧ f'.nAcc = f.nAcc) ∧
      f'.numRuns = f.numRuns + 1 ∧ f'.bound = f.bound ∧
      f'.numTraps = (if f.numRuns = 0 then (r.postps.length : Int) - 1 else f.numTraps) := by
  have hall := all_strings r keys h
  unfold singleProtocolRun
  simp only [hall]
  set all := (List.range r.postps.length).map (corrected r keys) with hdef
  have hbad : (all.zipIdx.any fun p => p.2 ≠ r.vZero ∧ p.1 ≠ List.replicate p.1.length '0') = true ↔ ¬ TrapsClean r keys := by
    rw [List.any_eq_true]
    unfold TrapsClean
    push Not
    constructor
    · rintro ⟨⟨s, k⟩, hm, hc⟩
      rw [List.mk_mem_zipIdx_iff_getElem?, hdef, List.getElem?_map] at hm
      obtain ⟨i, hi, rfl⟩ := Option.map_eq_some_iff.1 hm
      obtain ⟨hlt, hi⟩ := List.getElem?_eq_some_iff.1 hi
      rw [List.getElem_range] at hi
      subst hi
      simp only [List.length_range] at hlt
      simp only [decide_eq_true_eq] at hc
      refine ⟨k, hlt, hc.1, ?_⟩
      have := hc.2
      rw [Ne, all_zero_iff] at this
      push Not at this
      exact this
    · rintro ⟨k, hk, hkv, c, hc⟩
      refine ⟨(corrected r keys k, k), ?_, ?_⟩
      · rw [List.mk_mem_zipIdx_iff_getElem?, hdef]; simp [hk]
      · simp only [decide_eq_true_eq]
        refine ⟨hkv, ?_⟩
        rw [Ne, all_zero_iff]
        push Not
        exact ⟨c, hc⟩
  have htarget : all[r.vZero]? = some (corrected r keys r.vZero) := by rw [hdef]; simp [hv]
  have hf : ∀ g : Fitter, g = (if (f.numRuns + 1 = 1) then { f with numRuns := f.numRuns + 1, accepted := true, numTraps := (r.postps.length : Int) - 1 }
      else { f with numRuns := f.numRuns + 1, accepted := true } : Fitter) →
      g.accepted = true ∧ g.nAcc = f.nAcc ∧ g.numRuns = f.numRuns + 1 ∧ g.bound = f.bound ∧
      g.numTraps = (if f.numRuns = 0 then (r.postps.length : Int) - 1 else f.numTraps) := by
    rintro g rfl; split <;> simp_all
  by_cases hc : TrapsClean r keys
  · have hb : ¬ ((all.zipIdx.any fun p => p.2 ≠ r.vZero ∧ p.1 ≠ List.replicate p.1.length '0') = true) := fun h' => hbad.1 h' hc
    refine ⟨_, _, by rw [Option.bind_eq_bind, Option.bind_some, if_neg hb, htarget]; rfl, ?_⟩
    obtain ⟨a1, a2, a3, a4⟩ := hf _ rfl
    exact ⟨⟨fun _ => hc, fun _ => a1⟩, fun _ => ⟨rfl, congrArg (· + 1) a2⟩, fun h' => absurd hc h', a3, a4⟩
  · have hb := hbad.2 hc
    refine ⟨_, _, by rw [Option.bind_eq_bind, Option.bind_some, if_pos hb]; rfl, ?_⟩
    obtain ⟨a1, a2, a3, a4⟩ := hf _ rfl
    exact ⟨⟨fun h' => by simp at h', fun h' => absurd h' hc⟩, fun h' => absurd h' hc, fun _ => ⟨rfl, a2⟩, a3, a4⟩

example : (⟨[[("01".toList, 1)], [("11".toList, 1)]], [[false, true], [true, true]], 1⟩ : Run).single ["01".toList, "11".toList] ∧
    TrapsClean ⟨[[("01".toList, 1)], [("11".toList, 1)]], [[false, true], [true, true]], 1⟩ ["01".toList, "11".toList] := by
  refine ⟨⟨rfl, rfl⟩, ?_⟩
  intro k hk hv
  have : k = 0 := by simp at hk hv; omega
  subst this
  decide

/-- **C34** Over every history of single-shot runs of the only fitter of a process: the number of
accepted runs equals the number of recorded outputs, which are exactly the corrected target strings of
the runs whose traps are clean, in order; all runs are counted. -/
theorem C34_history (runs : List (Run × List Str)) (h : ∀ r ∈ runs, r.1.single r.2)
    (hv : ∀ r ∈ runs, r.1.vZero < r.1.postps.length) [DecidablePred fun r : Run × List Str => TrapsClean r.1 r.2] :
    ∃ outputs f, history [] Fitter.new (runs.map (·.1)) = some (outputs, f) ∧ f.nAcc = outputs.length ∧
      f.numRuns = runs.length ∧
      outputs = (runs.filter fun r => TrapsClean r.1 r.2).map fun r => corrected r.1 r.2 r.1.vZero := by
  have key : ∀ (l : List (Run × List Str)) (_ : ∀ r ∈ l, r.1.single r.2)
      (_ : ∀ r ∈ l, r.1.vZero < r.1.postps.length) (out : List Str) (f : Fitter),
      ∃ outputs f', history out f (l.map (·.1)) = some (outputs, f') ∧ f'.nAcc + out.length = f.nAcc + outputs.length ∧
        f'.numRuns = f.numRuns + l.length ∧
        outputs = out ++ (l.filter fun r => TrapsClean r.1 r.2).map fun r => corrected r.1 r.2 r.1.vZero := by
    intro l
    induction l with
    | nil => intro _ _ out f; exact ⟨out, f, rfl, rfl, rfl, by simp⟩
    | cons r l ih =>
      intro h hv out f
      obtain ⟨o1, f1, e1, _, hc, hn, hr, _⟩ := C34_accept_iff out f r.1 r.2 (h r List.mem_cons_self) (hv r List.mem_cons_self)
      obtain ⟨o2, f2, e2, ha2, hr2, ho2⟩ := ih (fun r hr => h r (List.mem_cons_of_mem _ hr))
        (fun r hr => hv r (List.mem_cons_of_mem _ hr)) o1 f1
      refine ⟨o2, f2, ?_, ?_, ?_, ?_⟩
      · unfold history at e2 ⊢
        rw [List.map_cons, List.foldlM_cons]
        simp only [e1]
        exact e2
      · by_cases ht : TrapsClean r.1 r.2
        · obtain ⟨q1, q2⟩ := hc ht
          subst q1
          simp at ha2
          omega
        · obtain ⟨q1, q2⟩ := hn ht
          subst q1; omega
      · rw [hr2, hr]; simp; omega
      · by_cases ht : TrapsClean r.1 r.2
        · rw [ho2, (hc ht).1]; simp [ht]
        · rw [ho2, (hn ht).1]; simp [ht]
  obtain ⟨o, f, e, ha, hr, ho⟩ := key runs h hv [] Fitter.new
  exact ⟨o, f, e, by simpa [Fitter.new] using ha, by simpa [Fitter.new] using hr, by simpa using ho⟩

/-- **C34, finding** `outputs` belongs to the class: a second fitter in the same process starts with the
outputs of the first, so its number of accepted runs is not the number of its recorded outputs. -/
theorem C34_finding_outputs_shared :
    ∃ r : Run, ∃ out1 f1 out2 f2, history [] Fitter.new [r] = some (out1, f1) ∧
      history out1 Fitter.new [r] = some (out2, f2) ∧ f2.nAcc = 1 ∧ out2.length = 2 :=
  ⟨⟨[[("1".toList, 1)]], [[false]], 0⟩, _, _, _, _, rfl, rfl, rfl, rfl⟩

/-- **C34, finding** The checks of `single_protocol_run` build an error but do not raise it: a run
without any trap is accepted, and so is a later run with another number of traps. -/
theorem C34_finding_checks_not_raised :
    ∃ r1 r2 : Run, r1.postps.length = 1 ∧ r2.postps.length = 2 ∧
      ∃ out f, history [] Fitter.new [r1, r2] = some (out, f) ∧ f.nAcc = 2 :=
  ⟨⟨[[("1".toList, 1)]], [[false]], 0⟩, ⟨[[("1".toList, 1)], [("0".toList, 1)]], [[false], [false]], 0⟩, rfl, rfl,
    _, _, rfl, rfl⟩

/-- **C34** The bound never exceeds 1; when the share of accepted runs exceeds `theta` it is
`1.7 / (traps + 1) / (share - theta)` capped at 1. -/
theorem C34_bound (f : Fitter) (theta : Rat) (f' : Fitter) (h : boundVariationDistance f theta = some f') :
    f'.bound ≤ 1 ∧ ((f.nAcc : Rat) / f.numRuns > theta →
      f'.bound = min 1 (17 / 10 / ((f.numTraps : Rat) + 1) / ((f.nAcc : Rat) / f.numRuns - theta))) := by
  unfold boundVariationDistance at h
  split at h
  · simp at h
  · simp only [Option.some.injEq] at h
    subst h
    constructor
    · have hcap : ∀ b : Rat, (if b > 1 then 1 else b) ≤ 1 := by
        intro b; split
        · exact le_refl _
        · next h => exact not_lt.1 h
      exact hcap _
    · intro hs
      simp only [if_pos hs, one_mul, add_sub_cancel_right]
      split
      · next h => rw [min_eq_left (le_of_lt h)]
      · next h => rw [min_eq_right (not_lt.1 h)]

/-- **C34** With the same number of traps and the same `theta`, a fitter with a larger share of accepted
runs gets a bound that is not larger, provided the first fitter's bound was not computed before. -/
theorem C34_bound_antitone (f g f' g' : Fitter) (theta : Rat) (hf : boundVariationDistance f theta = some f')
    (hg : boundVariationDistance g theta = some g') (ht : f.numTraps = g.numTraps) (ht0 : 0 ≤ f.numTraps)
    (hb : f.bound = 1) (hs : (f.nAcc : Rat) / f.numRuns ≤ (g.nAcc : Rat) / g.numRuns)
    (hgs : (g.nAcc : Rat) / g.numRuns > theta) : g'.bound ≤ f'.bound := by
  by_cases hfs : (f.nAcc : Rat) / f.numRuns > theta
  · rw [(C34_bound f theta f' hf).2 hfs, (C34_bound g theta g' hg).2 hgs, ht]
    refine min_le_min (le_refl _) ?_
    have h0 : (0 : Rat) ≤ g.numTraps := by rw [← ht]; exact_mod_cast ht0
    apply div_le_div_of_nonneg_left
    · positivity
    · linarith
    · linarith
  · have : f'.bound = 1 := by
      unfold boundVariationDistance at hf
      split at hf
      · simp at hf
      · simp only [Option.some.injEq] at hf
        subst hf
        simp [hfs, hb]
    rw [this]
    exact (C34_bound g theta g' hg).1

/-- **C34, finding** A bound computed earlier is kept when the share of accepted runs has dropped to
`theta` or below: the same history without the earlier call gives the bound 1. -/
theorem C34_finding_stale_bound :
    ∃ (r1 r2 : Run) (o1 : List Str) (f1 f1' : Fitter) (o2 : List Str) (f2 f2' g2 g2' : Fitter),
      history [] Fitter.new [r1] = some (o1, f1) ∧
      boundVariationDistance f1 0 = some f1' ∧ history o1 f1' [r2] = some (o2, f2) ∧
      boundVariationDistance f2 (1 / 2) = some f2' ∧ f2'.bound = 17 / 20 ∧
      history [] Fitter.new [r1, r2] = some (o2, g2) ∧
      boundVariationDistance g2 (1 / 2) = some g2' ∧ g2'.bound = 1 := by
  refine ⟨⟨[[("1".toList, 1)], [("0".toList, 1)]], [[false], [false]], 0⟩,
    ⟨[[("1".toList, 1)], [("1".toList, 1)]], [[false], [false]], 0⟩, ["1".toList], ⟨1, 1, 1, true, 1⟩,
    ⟨17 / 20, 1, 1, true, 1⟩, ["1".toList], ⟨17 / 20, 1, 2, false, 1⟩, ⟨17 / 20, 1, 2, false, 1⟩,
    ⟨1, 1, 2, false, 1⟩, ⟨1, 1, 2, false, 1⟩, by decide +kernel, ?_, by decide +kernel, ?_, rfl, by decide +kernel, ?_, rfl⟩
  all_goals norm_num [boundVariationDistance]

example : boundVariationDistance ⟨1, 3, 4, true, 9⟩ (1 / 4) = some ⟨17 / 50, 3, 4, true, 9⟩ := by
  norm_num [boundVariationDistance]

end Verif.Accred
