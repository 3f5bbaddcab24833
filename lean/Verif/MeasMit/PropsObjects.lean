import Verif.MeasMit.Objects
import Verif.MeasMit.PropsFit
import Verif.MeasMit.Spec
/-
C134: a measurement calibration fitter and its filters after any history.
-/
set_option linter.unusedSimpArgs false
set_option linter.unusedVariables false
namespace Verif.MeasMit
open Verif Verif.Counts

/-! ### Specification -/

/-- The results a call passes. -/
def MOp.passes : MOp → List Result
  | .addData (some rs) _ => rs
  | _ => []

/-- All results a program has passed. -/
def allPassed (ops : List MOp) : List Result := ops.flatMap MOp.passes

/-- A call that sets the matrix of the fitter or builds it again. -/
def MOp.TouchesCal : MOp → Prop
  | .addData (some _) true => True
  | .setCal _ => True
  | _ => False

/-- A call that sets the labels of the fitter. -/
def MOp.TouchesLabels : MOp → Prop
  | .setLabels _ => True
  | _ => False

/-- A call that changes the `i`-th filter. -/
def MOp.TouchesFilter (i : Nat) : MOp → Prop
  | .fSetCal j _ => j = i
  | .fSetLabels j _ => j = i
  | _ => False

/-- What one would get from all these results at once: the matrix of a new fitter with the original labels, or nothing if they cannot be used. -/
def fresh (size : Nat) (labels : List Str) (circlabel : Str) (results : List Result) : Option (Mat ℚ) :=
  ((mkTensored (some results) [List.replicate size 0] (some [labels]) circlabel).bind (·.mats)).bind (·[0]?)

/-! ### Lemmas -/

theorem fresh_eq (size : Nat) (labels : List Str) (circlabel : Str) (results : List Result) (f : CFitter)
    (h1 : f.circlabel = circlabel) (h2 : f.size = size) (h3 : f.inds = indices labels) : f.build results = fresh size labels circlabel results := by
  subst h1 h2
  unfold CFitter.build fresh mkTensored
  simp only [List.map_cons, List.map_nil, List.length_replicate, List.length_singleton, ne_eq, not_true_eq_false, if_false,
    Option.bind_eq_bind, Option.bind_some, Fitter.addData, if_true, List.nil_append, h3]
  cases buildMatrices f.circlabel [f.size] [indices labels] results <;> rfl

theorem mRun_append (w : MWorld) (a b : List MOp) : mRun w (a ++ b) = mRun (mRun w a) b := by
  simp [mRun, List.foldl_append]

theorem mRun_cons (w : MWorld) (o : MOp) (b : List MOp) : mRun w (o :: b) = mRun (mStep w o).1 b := rfl

/-- What no call changes. -/
theorem step_fixed (w : MWorld) (o : MOp) : (mStep w o).1.fitter.circlabel = w.fitter.circlabel ∧ (mStep w o).1.fitter.size = w.fitter.size ∧
    (mStep w o).1.fitter.inds = w.fitter.inds ∧ (mStep w o).1.fitter.results = w.fitter.results ++ o.passes ∧
    (¬ o.TouchesCal → (mStep w o).1.fitter.cal = w.fitter.cal) ∧ (¬ o.TouchesLabels → (mStep w o).1.fitter.labels = w.fitter.labels) := by
  cases o with
  | addData new rebuild =>
    cases new with
    | none => simp [mStep, MOp.passes]
    | some rs =>
      cases rebuild with
      | false => simp [mStep, MOp.passes]
      | true =>
        simp only [mStep, if_true]
        split <;> simp [MOp.passes, MOp.TouchesCal]
  | setCal m => simp [mStep, MOp.passes, MOp.TouchesCal]
  | setLabels ls => simp [mStep, MOp.passes, MOp.TouchesLabels]
  | filter =>
    simp only [mStep]
    split <;> simp [MOp.passes]
  | fSetCal i m => simp [mStep, MOp.passes]
  | fSetLabels i ls => simp [mStep, MOp.passes]

theorem run_fixed (w : MWorld) (ops : List MOp) : (mRun w ops).fitter.circlabel = w.fitter.circlabel ∧ (mRun w ops).fitter.size = w.fitter.size ∧
    (mRun w ops).fitter.inds = w.fitter.inds ∧ (mRun w ops).fitter.results = w.fitter.results ++ allPassed ops ∧
    ((∀ o ∈ ops, ¬ o.TouchesCal) → (mRun w ops).fitter.cal = w.fitter.cal) ∧
    ((∀ o ∈ ops, ¬ o.TouchesLabels) → (mRun w ops).fitter.labels = w.fitter.labels) := by
  induction ops generalizing w with
  | nil => simp [mRun, allPassed]
  | cons o ops ih =>
    obtain ⟨a1, a2, a3, a4, a5, a6⟩ := step_fixed w o
    obtain ⟨b1, b2, b3, b4, b5, b6⟩ := ih (mStep w o).1
    rw [mRun_cons]
    refine ⟨b1.trans a1, b2.trans a2, b3.trans a3, ?_, ?_, ?_⟩
    · rw [b4, a4, List.append_assoc]
      rfl
    · intro h
      rw [b5 fun o' ho' => h o' (List.mem_cons_of_mem _ ho'), a5 (h o List.mem_cons_self)]
    · intro h
      rw [b6 fun o' ho' => h o' (List.mem_cons_of_mem _ ho'), a6 (h o List.mem_cons_self)]

theorem step_filter (w : MWorld) (o : MOp) (i : Nat) (f : MFilter) (hf : w.filters[i]? = some f) (ho : ¬ o.TouchesFilter i) :
    (mStep w o).1.filters[i]? = some f := by
  cases o with
  | addData new rebuild =>
    cases new with
    | none => exact hf
    | some rs =>
      cases rebuild with
      | false => exact hf
      | true =>
        simp only [mStep, if_true]
        split <;> exact hf
  | setCal m => exact hf
  | setLabels ls => exact hf
  | filter =>
    simp only [mStep]
    split
    · exact hf
    · rw [List.getElem?_append_left (List.getElem?_eq_some_iff.1 hf).1]
      exact hf
  | fSetCal j m =>
    simp only [mStep, List.getElem?_modify]
    simp only [MOp.TouchesFilter] at ho
    rw [hf]
    simp [ho]
  | fSetLabels j ls =>
    simp only [mStep, List.getElem?_modify]
    simp only [MOp.TouchesFilter] at ho
    rw [hf]
    simp [ho]

theorem run_filter (w : MWorld) (ops : List MOp) (i : Nat) (f : MFilter) (hf : w.filters[i]? = some f) (ho : ∀ o ∈ ops, ¬ o.TouchesFilter i) :
    (mRun w ops).filters[i]? = some f := by
  induction ops generalizing w with
  | nil => exact hf
  | cons o ops ih =>
    rw [mRun_cons]
    exact ih _ (step_filter w o i f hf (ho o List.mem_cons_self)) fun o' ho' => ho o' (List.mem_cons_of_mem _ ho')

/-! ### Theorems -/

/-- **C134**, the matrix.  After any program on a new fitter: if its last call that sets or builds the matrix was an `add_data` with rebuild,
that call returned normally exactly if all results passed up to then could be used at once, and then the matrix is the one a new fitter,
with the original labels, would compute from all of them at once.  If it was an assignment the matrix is the one assigned.  If there was
none there is no matrix. -/
theorem C134_matrix (size : Nat) (labels : List Str) (circlabel : Str) (pre post : List MOp) (hpost : ∀ o ∈ post, ¬ o.TouchesCal) :
    (∀ rs m, fresh size labels circlabel (allPassed pre ++ rs) = some m →
      (mStep (mRun (mkComplete size labels circlabel) pre) (.addData (some rs) true)).2 = true ∧
      (mRun (mkComplete size labels circlabel) (pre ++ .addData (some rs) true :: post)).fitter.cal = .clean m) ∧
    (∀ rs, fresh size labels circlabel (allPassed pre ++ rs) = none →
      (mStep (mRun (mkComplete size labels circlabel) pre) (.addData (some rs) true)).2 = false ∧
      (mRun (mkComplete size labels circlabel) (pre ++ .addData (some rs) true :: post)).fitter.cal = .dirty) ∧
    (∀ m, (mRun (mkComplete size labels circlabel) (pre ++ .setCal m :: post)).fitter.cal = .clean m) ∧
    (mRun (mkComplete size labels circlabel) post).fitter.cal = .unset := by
  obtain ⟨a1, a2, a3, a4, -, -⟩ := run_fixed (mkComplete size labels circlabel) pre
  have a4' : (mRun (mkComplete size labels circlabel) pre).fitter.results = allPassed pre := by rw [a4]; rfl
  generalize hw : mRun (mkComplete size labels circlabel) pre = w at a1 a2 a3 a4'
  have hb : ∀ rs, ({ w.fitter with results := w.fitter.results ++ rs } : CFitter).build (w.fitter.results ++ rs) =
      fresh size labels circlabel (allPassed pre ++ rs) := by
    intro rs
    rw [a4']
    exact fresh_eq size labels circlabel _ _ a1 a2 a3
  refine ⟨?_, ?_, ?_, ?_⟩
  · intro rs m hm
    have hs : mStep w (.addData (some rs) true) =
        ({ w with fitter := { w.fitter with results := w.fitter.results ++ rs, cal := .clean m } }, true) := by
      simp only [mStep, if_true]
      rw [hb rs, hm]
    refine ⟨by rw [hs], ?_⟩
    rw [mRun_append, hw, mRun_cons, (run_fixed _ post).2.2.2.2.1 hpost, hs]
  · intro rs hm
    have hs : mStep w (.addData (some rs) true) =
        ({ w with fitter := { w.fitter with results := w.fitter.results ++ rs, cal := .dirty } }, false) := by
      simp only [mStep, if_true]
      rw [hb rs, hm]
    refine ⟨by rw [hs], ?_⟩
    rw [mRun_append, hw, mRun_cons, (run_fixed _ post).2.2.2.2.1 hpost, hs]
  · intro m
    rw [mRun_append, hw, mRun_cons, (run_fixed _ post).2.2.2.2.1 hpost]
    rfl
  · rw [(run_fixed _ post).2.2.2.2.1 hpost]
    rfl

/-- **C134**, the labels: the last ones assigned, or the original ones. -/
theorem C134_labels (size : Nat) (labels : List Str) (circlabel : Str) (pre post : List MOp) (hpost : ∀ o ∈ post, ¬ o.TouchesLabels) :
    (∀ ls, (mRun (mkComplete size labels circlabel) (pre ++ .setLabels ls :: post)).fitter.labels = ls) ∧
    (mRun (mkComplete size labels circlabel) post).fitter.labels = labels := by
  refine ⟨?_, ?_⟩
  · intro ls
    rw [mRun_append, mRun_cons, (run_fixed _ post).2.2.2.2.2 hpost]
    rfl
  · rw [(run_fixed _ post).2.2.2.2.2 hpost]
    rfl

/-- **C134**, filters are snapshots.  A filter can be taken exactly if the fitter has a matrix.  It holds the matrix and the labels that the
fitter has at that moment, and whatever happens later to the fitter or to other filters, it keeps them until its own setters are used. -/
theorem C134_filter (w : MWorld) (post : List MOp) (hpost : ∀ o ∈ post, ¬ o.TouchesFilter w.filters.length) :
    ((mStep w .filter).2 = true ↔ w.fitter.cal ≠ .unset) ∧
    (w.fitter.cal ≠ .unset → (mRun w (.filter :: post)).filters[w.filters.length]? = some ⟨w.fitter.cal, w.fitter.labels⟩) := by
  have hs : w.fitter.cal ≠ .unset → mStep w .filter = ({ w with filters := w.filters ++ [⟨w.fitter.cal, w.fitter.labels⟩] }, true) := by
    intro h
    unfold mStep
    cases hc : w.fitter.cal with
    | unset => exact absurd hc h
    | clean m => rfl
    | dirty => rfl
  refine ⟨⟨?_, fun h => by rw [hs h]⟩, ?_⟩
  · intro h e
    simp only [mStep, e] at h
    cases h
  · intro h
    rw [mRun_cons]
    refine run_filter _ post _ _ ?_ hpost
    rw [hs h]
    simp

/-- **C134**, together.  As long as the labels are not assigned, a filter taken after calibration data were added in any number of calls is the
filter of a new fitter that was given all of them at once. -/
theorem C134_same (size : Nat) (labels : List Str) (circlabel : Str) (pre mid post : List MOp) (rs : List Result) (m : Mat ℚ)
    (hl : ∀ o ∈ pre ++ mid, ¬ o.TouchesLabels) (hmid : ∀ o ∈ mid, ¬ o.TouchesCal)
    (hm : fresh size labels circlabel (allPassed pre ++ rs) = some m)
    (hpost : ∀ o ∈ post, ¬ o.TouchesFilter (mRun (mkComplete size labels circlabel) (pre ++ .addData (some rs) true :: mid)).filters.length) :
    (mRun (mkComplete size labels circlabel) ((pre ++ .addData (some rs) true :: mid) ++ .filter :: post)).filters[
      (mRun (mkComplete size labels circlabel) (pre ++ .addData (some rs) true :: mid)).filters.length]? = some ⟨.clean m, labels⟩ := by
  have hcal := ((C134_matrix size labels circlabel pre mid hmid).1 rs m hm).2
  have hlab := (C134_labels size labels circlabel [] (pre ++ .addData (some rs) true :: mid) (by
    intro o ho
    rcases List.mem_append.1 ho with ho | ho
    · exact hl o (List.mem_append_left _ ho)
    · rcases List.mem_cons.1 ho with rfl | ho
      · simp [MOp.TouchesLabels]
      · exact hl o (List.mem_append_right _ ho))).2
  generalize hw : mRun (mkComplete size labels circlabel) (pre ++ .addData (some rs) true :: mid) = w at hcal hlab hpost ⊢
  rw [mRun_append, hw, (C134_filter w post hpost).2 (by rw [hcal]; exact fun h => by cases h), hcal, hlab]

/-- Finding: one result that cannot be used (such as one with an unknown label) spoils the fitter for good: the call raises, but the result has
been recorded, so every later call that builds the matrix raises too. -/
theorem C134_finding_poisoned (size : Nat) (labels : List Str) (circlabel : Str) (pre mid : List MOp) (rs rs' : List Result)
    (hbad : fresh size labels circlabel (allPassed pre ++ rs) = none) :
    (mStep (mRun (mkComplete size labels circlabel) (pre ++ .addData (some rs) true :: mid)) (.addData (some rs') true)).2 = false := by
  refine ((C134_matrix size labels circlabel (pre ++ .addData (some rs) true :: mid) [] (by simp)).2.1 rs' ?_).1
  have e : allPassed (pre ++ .addData (some rs) true :: mid) ++ rs' = (allPassed pre ++ rs) ++ (allPassed mid ++ rs') := by
    simp [allPassed, MOp.passes]
  rw [e, ← fresh_eq size labels circlabel _ ⟨circlabel, size, indices labels, labels, [], .unset⟩ rfl rfl rfl]
  rw [← fresh_eq size labels circlabel _ ⟨circlabel, size, indices labels, labels, [], .unset⟩ rfl rfl rfl] at hbad
  unfold CFitter.build at hbad ⊢
  have hb : buildMatrices circlabel [size] [indices labels] (allPassed pre ++ rs) = none := by
    cases hx : buildMatrices circlabel [size] [indices labels] (allPassed pre ++ rs) with
    | none => rfl
    | some ms =>
      exfalso
      have hlen : ms.length = 1 := by
        exact ((build_iff circlabel [size] [indices labels] rfl _ ms).1 hx).2.1
      have hbad' : (some ms).bind (·[0]?) = none := by rw [← hx]; exact hbad
      rw [Option.bind_some, List.getElem?_eq_none_iff] at hbad'
      omega
  show (buildMatrices circlabel [size] [indices labels] (allPassed pre ++ rs ++ (allPassed mid ++ rs'))).bind (·[0]?) = none
  rw [build_none_of_prefix circlabel [size] [indices labels] rfl _ _ hb]
  rfl

/-- Calibration data of one qubit with unequal readout errors. -/
def oneQubit : List Result := [[("cal_0".toList, [("0".toList, 90), ("1".toList, 10)]), ("cal_1".toList, [("0".toList, 20), ("1".toList, 80)])]]

/-- Finding: assigning the labels renames rows and columns without moving them, and building the matrix again keeps the original order.  Here the
probability of reading 0 correctly is 9/10, but a filter taken after the labels were assigned in the other order has 8/10, even when all
data were added afterwards. -/
theorem C134_finding_labels :
    ∃ m, (mRun (mkComplete 1 ["0".toList, "1".toList] []) [.setLabels ["1".toList, "0".toList], .addData (some oneQubit) true, .filter]).filters =
        [⟨.clean m, ["1".toList, "0".toList]⟩] ∧
      entry ["1".toList, "0".toList] m "0".toList "0".toList = 8 / 10 ∧
      ∃ m', (mRun (mkComplete 1 ["1".toList, "0".toList] []) [.addData (some oneQubit) true, .filter]).filters =
        [⟨.clean m', ["1".toList, "0".toList]⟩] ∧ entry ["1".toList, "0".toList] m' "0".toList "0".toList = 9 / 10 := by
  refine ⟨_, rfl, by decide +kernel, _, rfl, by decide +kernel⟩

/-- The hypotheses hold of a program: data in two parts, an assignment in between and a filter taken early; and of data that cannot be used. -/
theorem C134_experiment :
    (∃ m, fresh 1 ["0".toList, "1".toList] [] (allPassed [.addData (some [[("cal_0".toList, [("0".toList, 90), ("1".toList, 10)])]]) true, .filter,
        .setCal fun _ _ => 0] ++ [[("cal_1".toList, [("0".toList, 20), ("1".toList, 80)])]]) = some m ∧ m 0 0 = 9 / 10 ∧ m 1 1 = 8 / 10) ∧
      fresh 1 ["0".toList, "1".toList] [] [[("cal_0".toList, [("2".toList, 90)])]] = none := by
  refine ⟨⟨_, rfl, by decide +kernel, by decide +kernel⟩, rfl⟩

end Verif.MeasMit
