import Verif.RB.FitClass
import Verif.RB.PropsFit
import Mathlib.Tactic.FieldSimp
import Mathlib.Tactic.LinearCombination
set_option linter.unusedSimpArgs false
set_option linter.unusedVariables false
/-
C111: data and fits of `InterleavedRBFitter` and `CNOTDihedralRBFitter` after any history of calls.
-/
namespace Verif.RB.Fit
open Verif Verif.Counts

/-! ### One RBFitter -/

/-- The statistics and fits of a fitter are those of the results it holds. -/
structure Fresh (curve : CurveFit) (f : Fitter) : Prop where
  raw : Fit.calcData f.st f.lengths f.pattern = some f.raw
  ydata : f.ydata = (List.range f.pattern.length).map fun i => statsOf (f.raw.getD i [])
  fit : (List.range f.pattern.length).mapM (fun i => fitOne curve (f.lengths.getD i []) (f.pattern.getD i []) (f.ydata.getD i ⟨[], none⟩)) =
    some (f.fit.filterMap id)
  full : ∀ d ∈ f.fit, d.isSome

theorem filterMap_some {α : Type} (l : List α) : (l.map some).filterMap id = l := by
  induction l with
  | nil => rfl
  | cons a l ih => simp

theorem map_filterMap {α : Type} (l : List (Option α)) (h : ∀ d ∈ l, d.isSome) : (l.filterMap id).map some = l := by
  induction l with
  | nil => rfl
  | cons a l ih =>
    have ha := h a (by simp)
    obtain ⟨x, rfl⟩ := Option.isSome_iff_exists.1 ha
    show some x :: (l.filterMap id).map some = _
    rw [ih fun d hd => h d (by simp [hd])]

theorem fitData_fresh {curve : CurveFit} {f : Fitter} (h : Fresh curve f) : f.fitData curve = some f := by
  unfold Fitter.fitData
  simp only [Option.bind_eq_bind]
  rw [h.fit, Option.bind_some, map_filterMap _ h.full]

theorem addData_true {curve : CurveFit} {f g : Fitter} {rs : List Result} (h : f.addData curve (some rs) true = some g) :
    Fit.addData f.st rs = some g.st ∧ g.lengths = f.lengths ∧ g.pattern = f.pattern ∧ Fresh curve g := by
  unfold Fitter.addData at h
  simp only [Option.bind_eq_bind, if_true] at h
  obtain ⟨st, h1, h⟩ := Option.bind_eq_some_iff.1 h
  obtain ⟨f2, h2, h⟩ := Option.bind_eq_some_iff.1 h
  unfold Fitter.calcData at h2
  obtain ⟨raw, h2', rfl⟩ := Option.map_eq_some_iff.1 h2
  unfold Fitter.fitData at h
  simp only [Option.bind_eq_bind] at h
  obtain ⟨fs, h3, h⟩ := Option.bind_eq_some_iff.1 h
  obtain rfl := Option.some.inj h
  refine ⟨h1, rfl, rfl, h2', rfl, ?_, ?_⟩
  · show _ = some ((fs.map some).filterMap id)
    rw [filterMap_some]
    exact h3
  · intro d hd
    obtain ⟨x, -, rfl⟩ := List.mem_map.1 (show d ∈ fs.map some from hd)
    rfl

theorem addData_false {curve : CurveFit} {f g : Fitter} {rs : List Result} (h : f.addData curve (some rs) false = some g) :
    Fit.addData f.st rs = some g.st ∧ g.lengths = f.lengths ∧ g.pattern = f.pattern := by
  unfold Fitter.addData at h
  simp only [Option.bind_eq_bind, Bool.false_eq_true, if_false] at h
  obtain ⟨st, h1, h⟩ := Option.bind_eq_some_iff.1 h
  obtain rfl := Option.some.inj h
  exact ⟨h1, rfl, rfl⟩

theorem addData_any {curve : CurveFit} {f g : Fitter} {rs : List Result} {b : Bool} (h : f.addData curve (some rs) b = some g) :
    Fit.addData f.st rs = some g.st ∧ g.lengths = f.lengths ∧ g.pattern = f.pattern := by
  cases b with
  | false => exact addData_false h
  | true => exact ⟨(addData_true h).1, (addData_true h).2.1, (addData_true h).2.2.1⟩

/-! ### Pairs of fitters -/

/-- One later call of `add_data`: results for both fitters and `rerun_fit`. -/
structure Call where
  one : List Result
  two : List Result
  rerun : Bool

/-- Construction with results, followed by calls of `add_data`. -/
noncomputable def runPair {F : Type} (curve : CurveFit) (comb : ℕ → FitDict → FitDict → F) (a b : List Result) (lengths : List (List ℤ))
    (pattern : List (List ℕ)) (calls : List Call) : Option (Pair F) := do
  let p ← Pair.new curve comb (some a) (some b) lengths (some pattern)
  calls.foldlM (fun p c => p.addData curve comb (some c.one) (some c.two) c.rerun) p

/-- The combined fits belong to the fits of the two fitters. -/
def Combined {F : Type} (comb : ℕ → FitDict → FitDict → F) (p : Pair F) (pattern : List (List ℕ)) : Prop :=
  ((p.lengths.zip pattern).zipIdx).mapM (fun x => do
    let fa ← (p.one.fit[x.2]?).join
    let fb ← (p.two.fit[x.2]?).join
    some (comb x.1.2.length fa fb)) = some p.comb

theorem pairFit {F : Type} {curve : CurveFit} {comb : ℕ → FitDict → FitDict → F} {p q : Pair F} {pattern : List (List ℕ)} (hp : p.pattern = some pattern)
    (h1 : Fresh curve p.one) (h2 : Fresh curve p.two) (h : p.fitData curve comb = some q) :
    q.lengths = p.lengths ∧ q.pattern = p.pattern ∧ q.one = p.one ∧ q.two = p.two ∧ Combined comb q pattern := by
  unfold Pair.fitData at h
  rw [fitData_fresh h1, fitData_fresh h2, hp] at h
  simp only [Option.bind_eq_bind, Option.bind_some] at h
  obtain ⟨fs, h3, h⟩ := Option.bind_eq_some_iff.1 h
  obtain rfl := Option.some.inj h
  exact ⟨rfl, hp.symm, rfl, rfl, h3⟩

/-- What is known of a pair: its parameters and the results it holds. -/
structure Holds {F : Type} (p : Pair F) (lengths : List (List ℤ)) (pattern : List (List ℕ)) (x y : List Result) : Prop where
  len0 : p.lengths = lengths
  pat0 : p.pattern = some pattern
  len1 : p.one.lengths = lengths
  len2 : p.two.lengths = lengths
  pat1 : p.one.pattern = pattern
  pat2 : p.two.pattern = pattern
  st1 : Fit.addData State.init x = some p.one.st
  st2 : Fit.addData State.init y = some p.two.st

/-- Everything is up to date. -/
structure UpToDate {F : Type} (curve : CurveFit) (comb : ℕ → FitDict → FitDict → F) (p : Pair F) (pattern : List (List ℕ)) : Prop where
  one : Fresh curve p.one
  two : Fresh curve p.two
  comb : Combined comb p pattern

theorem pair_new {F : Type} {curve : CurveFit} {comb : ℕ → FitDict → FitDict → F} {a b : List Result} {lengths : List (List ℤ)} {pattern : List (List ℕ)} {p : Pair F}
    (h : Pair.new curve comb (some a) (some b) lengths (some pattern) = some p) :
    Holds p lengths pattern (a ++ a) (b ++ b) ∧ UpToDate curve comb p pattern := by
  unfold Pair.new at h
  simp only [Option.bind_eq_bind, Option.isNone_some, Bool.false_and, Bool.false_eq_true, if_false] at h
  obtain ⟨f1, h1, h⟩ := Option.bind_eq_some_iff.1 h
  obtain ⟨f2, h2, h⟩ := Option.bind_eq_some_iff.1 h
  obtain ⟨g1, h3, h⟩ := Option.bind_eq_some_iff.1 h
  obtain ⟨g2, h4, h⟩ := Option.bind_eq_some_iff.1 h
  have k1 := addData_true h1
  have k2 := addData_true h2
  have k3 := addData_true h3
  have k4 := addData_true h4
  obtain ⟨q1, q2, q3, q4, q5⟩ := pairFit (pattern := pattern) rfl k3.2.2.2 k4.2.2.2 h
  simp only at q1 q2 q3 q4
  refine ⟨⟨q1, q2, ?_, ?_, ?_, ?_, ?_, ?_⟩, ?_, ?_, q5⟩
  · rw [q3, k3.2.1, k1.2.1]
  · rw [q4, k4.2.1, k2.2.1]
  · rw [q3, k3.2.2.1, k1.2.2.1]; rfl
  · rw [q4, k4.2.2.1, k2.2.2.1]; rfl
  · rw [C46_batching, show Fit.addData State.init a = some f1.st from k1.1, q3]; exact k3.1
  · rw [C46_batching, show Fit.addData State.init b = some f2.st from k2.1, q4]; exact k4.1
  · rw [q3]; exact k3.2.2.2
  · rw [q4]; exact k4.2.2.2

theorem pair_add {F : Type} {curve : CurveFit} {comb : ℕ → FitDict → FitDict → F} {lengths : List (List ℤ)} {pattern : List (List ℕ)} {p q : Pair F} {x y u v : List Result} {r : Bool}
    (hp : Holds p lengths pattern x y) (h : p.addData curve comb (some u) (some v) r = some q) :
    Holds q lengths pattern (x ++ u) (y ++ v) ∧ (r = true → UpToDate curve comb q pattern) := by
  unfold Pair.addData at h
  simp only [Option.bind_eq_bind] at h
  obtain ⟨f1, h1, h⟩ := Option.bind_eq_some_iff.1 h
  obtain ⟨f2, h2, h⟩ := Option.bind_eq_some_iff.1 h
  have k1 := addData_any h1
  have k2 := addData_any h2
  have s1 : Fit.addData State.init (x ++ u) = some f1.st := by rw [C46_batching, hp.st1]; exact k1.1
  have s2 : Fit.addData State.init (y ++ v) = some f2.st := by rw [C46_batching, hp.st2]; exact k2.1
  cases r with
  | false =>
    simp only [Bool.false_eq_true, if_false] at h
    obtain rfl := Option.some.inj h
    exact ⟨⟨hp.len0, hp.pat0, k1.2.1.trans hp.len1, k2.2.1.trans hp.len2, k1.2.2.trans hp.pat1, k2.2.2.trans hp.pat2, s1, s2⟩, by simp⟩
  | true =>
    simp only [if_true] at h
    obtain ⟨q1, q2, q3, q4, q5⟩ := pairFit (p := { p with one := f1, two := f2 }) (pattern := pattern) hp.pat0 (addData_true h1).2.2.2 (addData_true h2).2.2.2 h
    simp only at q1 q2 q3 q4
    refine ⟨⟨q1.trans hp.len0, q2.trans hp.pat0, ?_, ?_, ?_, ?_, by rw [q3]; exact s1, by rw [q4]; exact s2⟩, fun _ => ⟨by rw [q3]; exact (addData_true h1).2.2.2, by rw [q4]; exact (addData_true h2).2.2.2, q5⟩⟩
    · rw [q3, k1.2.1, hp.len1]
    · rw [q4, k2.2.1, hp.len2]
    · rw [q3, k1.2.2, hp.pat1]
    · rw [q4, k2.2.2, hp.pat2]

theorem foldCalls {F : Type} {curve : CurveFit} {comb : ℕ → FitDict → FitDict → F} {lengths : List (List ℤ)} {pattern : List (List ℕ)} (calls : List Call) {p q : Pair F} {x y : List Result}
    (hp : Holds p lengths pattern x y) (hup : calls = [] → UpToDate curve comb p pattern) (hlast : ∀ c, calls.getLast? = some c → c.rerun = true)
    (h : calls.foldlM (fun p c => p.addData curve comb (some c.one) (some c.two) c.rerun) p = some q) :
    Holds q lengths pattern (x ++ calls.flatMap Call.one) (y ++ calls.flatMap Call.two) ∧ UpToDate curve comb q pattern := by
  induction calls generalizing p x y with
  | nil =>
    obtain rfl := Option.some.inj (show some p = some q from h)
    simpa using ⟨hp, hup rfl⟩
  | cons c cs ih =>
    rw [List.foldlM_cons] at h
    obtain ⟨p', h1, h⟩ := Option.bind_eq_some_iff.1 h
    obtain ⟨k1, k2⟩ := pair_add hp h1
    have := ih k1 (fun hcs => k2 (hlast c (by rw [hcs]; rfl))) (fun d hd => hlast d (by rw [List.getLast?_cons, hd]; rfl)) h
    simpa [List.append_assoc] using this

/-! ### The property -/

/-- The mean over the seeds of the success probabilities of pattern `i` at each length, computed from the results `rs`. -/
def means (rs : List Result) (t : Str) (seeds : List ℤ) (pattern : List (List ℕ)) (nlen i : ℕ) : List ℚ :=
  (List.range nlen).map fun k => (seeds.map fun s => rate rs (t ++ suffix k s) (offset pattern i) (pattern.getD i []).length).sum / seeds.length

/-- The success probabilities: pattern, seed, length. -/
def rates (rs : List Result) (t : Str) (seeds : List ℤ) (pattern : List (List ℕ)) (nlen : ℕ) : List (List (List ℚ)) :=
  (List.range pattern.length).map fun i => seeds.map fun s => (List.range nlen).map fun k => rate rs (t ++ suffix k s) (offset pattern i) (pattern.getD i []).length

/-- A set of results of one kind of RB circuits that has every length for every seed. -/
structure GoodData (t : Str) (n nlen : ℕ) (rs : List Result) : Prop where
  name : ¬ "_length".toList <:+: t
  first : ∃ e r rs', rs = (e :: r) :: rs'
  good : ∀ r ∈ rs, GoodResult t n r
  all : ∀ r ∈ rs, ∀ e ∈ r, ∀ (k : ℕ) (s : ℤ), e.1 = t ++ suffix k s → ∀ k' < nlen, 0 < shots rs (t ++ suffix k' s)

/-- `d` is the dictionary of a curve fit to the means. -/
def FitOf (curve : CurveFit) (lens : List ℤ) (means : List ℚ) (n : ℕ) (d : FitDict) : Prop :=
  ∃ sigma guess, curve lens means sigma guess = some (d.params, d.paramsErr) ∧ d.epc = Fit.epc n d.params.2.1 ∧ d.epcErr = Fit.epcErr n d.params.2.1 d.paramsErr.2.1

theorem fitOne_spec {curve : CurveFit} {lens : List ℤ} {q : List ℕ} {y : YData} {d : FitDict} (h : fitOne curve lens q y = some d) :
    FitOf curve lens y.mean q.length d := by
  unfold fitOne at h
  split at h
  · unfold fitPattern at h
    obtain ⟨pe, h1, rfl⟩ := Option.map_eq_some_iff.1 h
    exact ⟨_, _, h1, rfl, rfl⟩
  · exact absurd h (by simp)

theorem seeds_pos {t : Str} {n nlen : ℕ} {rs : List Result} (h : GoodData t n nlen rs) {st : State} (hst : Fit.addData State.init rs = some st) :
    st.nseeds ≠ [] ∧ ∀ s ∈ st.nseeds, ∀ k < nlen, 0 < shots rs (t ++ suffix k s) := by
  obtain ⟨st', g1, g2, g3, -, g4⟩ := C46_add t n State.init (by simp [State.init]) rs h.good
  obtain rfl : st' = st := by rw [g1] at hst; exact Option.some.inj hst
  constructor
  · obtain ⟨e, r, rs', he⟩ := h.first
    obtain ⟨k, s, hks⟩ := (h.good (e :: r) (by rw [he]; simp)).form e (by simp)
    exact List.ne_nil_of_mem ((g4 s).2 (Or.inr ⟨e :: r, by rw [he]; simp, e, by simp, k, hks⟩))
  · intro s hs k hk
    rcases (g4 s).1 hs with h' | ⟨r, hr, e, he, k', hk'⟩
    · simp [State.init] at h'
    · exact h.all r hr e he k' s hk' k hk

theorem fresh_spec {curve : CurveFit} {f : Fitter} {t : Str} {n nlen : ℕ} {rs : List Result} (hf : Fresh curve f) (h : GoodData t n nlen rs)
    (hst : Fit.addData State.init rs = some f.st) (hp : ∀ p ∈ f.pattern, p ≠ []) (hn : (f.pattern.map List.length).sum ≤ n)
    (hl : ∀ l ∈ f.lengths, l.length = nlen) (hpl : f.pattern.length ≤ f.lengths.length) (hl0 : f.lengths ≠ []) :
    f.raw = rates rs t f.st.nseeds f.pattern nlen ∧ ∀ i < f.pattern.length, ∃ d, f.fit[i]? = some (some d) ∧
      FitOf curve (f.lengths.getD i []) (means rs t f.st.nseeds f.pattern nlen i) (f.pattern.getD i []).length d := by
  obtain ⟨hs0, hs⟩ := seeds_pos h hst
  have hraw : f.raw = rates rs t f.st.nseeds f.pattern nlen := by
    have := C46_value t h.name n rs h.first h.good f.pattern hp hn f.lengths nlen hl hpl hl0 f.st hst hs
    rw [hf.raw] at this
    exact Option.some.inj this
  refine ⟨hraw, ?_⟩
  intro i hi
  have hfit := hf.fit
  have hi' : i < (List.range f.pattern.length).length := by simpa using hi
  obtain ⟨d, hd1, hd2⟩ : ∃ d, (f.fit.filterMap id)[i]? = some d ∧ fitOne curve (f.lengths.getD i []) (f.pattern.getD i []) (f.ydata.getD i ⟨[], none⟩) = some d := by
    have key : ∀ (l : List ℕ) (g : ℕ → Option FitDict) (out : List FitDict), l.mapM g = some out → ∀ j (hj : j < l.length), ∃ d, out[j]? = some d ∧ g l[j] = some d := by
      intro l g
      induction l with
      | nil => intro out _ j hj; simp at hj
      | cons x l ih =>
        intro out ho j hj
        rw [List.mapM_cons] at ho
        obtain ⟨y, hy, ho⟩ := Option.bind_eq_some_iff.1 ho
        obtain ⟨ys, hys, ho⟩ := Option.bind_eq_some_iff.1 ho
        obtain rfl := Option.some.inj ho
        cases j with
        | zero => exact ⟨y, rfl, hy⟩
        | succ j => simpa using ih ys hys j (by simpa using hj)
    obtain ⟨d, h1, h2⟩ := key _ _ _ hfit i hi'
    exact ⟨d, h1, by simpa using h2⟩
  refine ⟨d, ?_, ?_⟩
  · rw [← map_filterMap _ hf.full, List.getElem?_map, hd1]
    rfl
  · have := fitOne_spec hd2
    convert this using 1
    rw [hf.ydata, hraw]
    have hr : (rates rs t f.st.nseeds f.pattern nlen).getD i [] = f.st.nseeds.map fun s => (List.range nlen).map fun k => rate rs (t ++ suffix k s) (offset f.pattern i) (f.pattern.getD i []).length := by
      unfold rates
      rw [List.getD_eq_getElem?_getD, List.getElem?_map, List.getElem?_range hi]
      rfl
    rw [List.getD_eq_getElem?_getD, List.getElem?_map, List.getElem?_range hi]
    simp only [Option.map_some, Option.getD_some]
    rw [hr]
    unfold statsOf means
    dsimp only
    obtain ⟨s, ss, hss⟩ : ∃ s ss, f.st.nseeds = s :: ss := List.exists_cons_of_ne_nil hs0
    have hm : ((f.st.nseeds.map fun s => (List.range nlen).map fun k => rate rs (t ++ suffix k s) (offset f.pattern i) (f.pattern.getD i []).length).head?.map List.length).getD 0 = nlen := by
      rw [hss]
      simp
    rw [hm]
    refine List.map_congr_left ?_
    intro k hk
    have hk := List.mem_range.1 hk
    unfold meanCol
    rw [List.map_map, List.length_map]
    congr 2
    refine List.map_congr_left ?_
    intro s _
    simp only [Function.comp]
    rw [List.getD_eq_getElem?_getD (i := k), List.getElem?_map, List.getElem?_range hk]
    rfl

/-- C111: after the construction and any calls of `add_data` (the last with `rerun_fit`), the raw data of each of the two fitters are the
success probabilities of all results given to it, those of the construction counted twice; there is one combined fit per pattern, made from the
curve fits of the two fitters to the means over the seeds for that pattern. -/
theorem C111_value {F : Type} (curve : CurveFit) (comb : ℕ → FitDict → FitDict → F) (a b : List Result) (lengths : List (List ℤ)) (pattern : List (List ℕ))
    (calls : List Call) (p : Pair F) (h : runPair curve comb a b lengths pattern calls = some p) (hlast : ∀ c, calls.getLast? = some c → c.rerun = true)
    (t₁ t₂ : Str) (n nlen : ℕ) (h₁ : GoodData t₁ n nlen (a ++ a ++ calls.flatMap Call.one)) (h₂ : GoodData t₂ n nlen (b ++ b ++ calls.flatMap Call.two))
    (hp : ∀ q ∈ pattern, q ≠ []) (hn : (pattern.map List.length).sum ≤ n) (hl : ∀ l ∈ lengths, l.length = nlen) (hpl : pattern.length ≤ lengths.length) (hl0 : lengths ≠ []) :
    p.one.st.results = a ++ a ++ calls.flatMap Call.one ∧ p.two.st.results = b ++ b ++ calls.flatMap Call.two ∧
    p.one.raw = rates (a ++ a ++ calls.flatMap Call.one) t₁ p.one.st.nseeds pattern nlen ∧
    p.two.raw = rates (b ++ b ++ calls.flatMap Call.two) t₂ p.two.st.nseeds pattern nlen ∧
    p.comb.length = pattern.length ∧
    ∀ i < pattern.length, ∃ d₁ d₂, p.one.fit[i]? = some (some d₁) ∧ p.two.fit[i]? = some (some d₂) ∧
      FitOf curve (lengths.getD i []) (means (a ++ a ++ calls.flatMap Call.one) t₁ p.one.st.nseeds pattern nlen i) (pattern.getD i []).length d₁ ∧
      FitOf curve (lengths.getD i []) (means (b ++ b ++ calls.flatMap Call.two) t₂ p.two.st.nseeds pattern nlen i) (pattern.getD i []).length d₂ ∧
      p.comb[i]? = some (comb (pattern.getD i []).length d₁ d₂) := by
  unfold runPair at h
  obtain ⟨p0, h0, h⟩ := Option.bind_eq_some_iff.1 h
  obtain ⟨k1, k2⟩ := pair_new h0
  obtain ⟨hh, hu⟩ := foldCalls calls k1 (fun _ => k2) hlast h
  obtain ⟨r1, f1⟩ := fresh_spec hu.one h₁ hh.st1 (by rw [hh.pat1]; exact hp) (by rw [hh.pat1]; exact hn) (by rw [hh.len1]; exact hl) (by rw [hh.pat1, hh.len1]; exact hpl) (by rw [hh.len1]; exact hl0)
  obtain ⟨r2, f2⟩ := fresh_spec hu.two h₂ hh.st2 (by rw [hh.pat2]; exact hp) (by rw [hh.pat2]; exact hn) (by rw [hh.len2]; exact hl) (by rw [hh.pat2, hh.len2]; exact hpl) (by rw [hh.len2]; exact hl0)
  rw [hh.pat1] at r1 f1
  rw [hh.pat2] at r2 f2
  rw [hh.len1] at f1
  rw [hh.len2] at f2
  have hc := hu.comb
  unfold Combined at hc
  rw [hh.len0] at hc
  have key : ∀ (l : List ((List ℤ × List ℕ) × ℕ)) (g : (List ℤ × List ℕ) × ℕ → Option F) (out : List F), l.mapM g = some out → out.length = l.length ∧ ∀ (j : ℕ) (x : (List ℤ × List ℕ) × ℕ), l[j]? = some x → ∃ d, out[j]? = some d ∧ g x = some d := by
    intro l g
    induction l with
    | nil =>
      intro out ho
      obtain rfl := Option.some.inj (show some [] = some out from ho)
      simp
    | cons x l ih =>
      intro out ho
      rw [List.mapM_cons] at ho
      obtain ⟨y, hy, ho⟩ := Option.bind_eq_some_iff.1 ho
      obtain ⟨ys, hys, ho⟩ := Option.bind_eq_some_iff.1 ho
      obtain rfl := Option.some.inj ho
      obtain ⟨i1, i2⟩ := ih ys hys
      refine ⟨by simp [i1], ?_⟩
      intro j z hz
      cases j with
      | zero =>
        obtain rfl : x = z := by simpa using hz
        exact ⟨y, rfl, hy⟩
      | succ j => exact i2 j z (by simpa using hz)
  obtain ⟨c1, c2⟩ := key _ _ _ hc
  have hres : ∀ (t : Str) (x : List Result) (st : State), (∀ r ∈ x, GoodResult t n r) → Fit.addData State.init x = some st → st.results = x := by
    intro t x st hx hst
    obtain ⟨st', g1, g2, -⟩ := C46_add t n State.init (by simp [State.init]) x hx
    obtain rfl : st' = st := by rw [g1] at hst; exact Option.some.inj hst
    rw [g2]; rfl
  refine ⟨hres t₁ _ _ h₁.good hh.st1, hres t₂ _ _ h₂.good hh.st2, r1, r2, ?_, ?_⟩
  · rw [c1]
    simp [hpl]
  · intro i hi
    obtain ⟨d1, e1, e2⟩ := f1 i hi
    obtain ⟨d2, e3, e4⟩ := f2 i hi
    refine ⟨d1, d2, e1, e3, e2, e4, ?_⟩
    have hi' : i < lengths.length := by omega
    have hx : ((lengths.zip pattern).zipIdx)[i]? = some ((lengths[i], pattern[i]), i) := by
      have hz : (lengths.zip pattern)[i]? = some (lengths[i], pattern[i]) :=
        List.getElem?_zip_eq_some.2 ⟨List.getElem?_eq_getElem hi', List.getElem?_eq_getElem hi⟩
      rw [List.getElem?_zipIdx, hz]
      simp
    obtain ⟨d, hd, hg⟩ := c2 i _ hx
    rw [hd]
    simp only [e1, e3, Option.join, Option.bind_eq_bind, Option.bind_some] at hg
    rw [List.getD_eq_getElem?_getD, List.getElem?_eq_getElem hi, Option.getD_some]
    exact hg.symm

/-- C111 for `InterleavedRBFitter` (first fitter: original circuits, second: interleaved): every entry of `fit_int` holds the decays of the curve
fits to the means of the two kinds of circuits, their errors, and the error of the interleaved element estimated from their quotient. -/
theorem C111_interleaved (curve : CurveFit) (a b : List Result) (lengths : List (List ℤ)) (pattern : List (List ℕ))
    (calls : List Call) (p : Pair IntDict) (h : runPair curve intComb a b lengths pattern calls = some p) (hlast : ∀ c, calls.getLast? = some c → c.rerun = true)
    (t₁ t₂ : Str) (n nlen : ℕ) (h₁ : GoodData t₁ n nlen (a ++ a ++ calls.flatMap Call.one)) (h₂ : GoodData t₂ n nlen (b ++ b ++ calls.flatMap Call.two))
    (hp : ∀ q ∈ pattern, q ≠ []) (hn : (pattern.map List.length).sum ≤ n) (hl : ∀ l ∈ lengths, l.length = nlen) (hpl : pattern.length ≤ lengths.length) (hl0 : lengths ≠ [])
    (i : ℕ) (hi : i < pattern.length) :
    ∃ x, p.comb[i]? = some x ∧
      (∃ sigma guess A B Ae Be, curve (lengths.getD i []) (means (a ++ a ++ calls.flatMap Call.one) t₁ p.one.st.nseeds pattern nlen i) sigma guess =
        some ((A, x.alpha, B), (Ae, x.alphaErr, Be))) ∧
      (∃ sigma guess A B Ae Be, curve (lengths.getD i []) (means (b ++ b ++ calls.flatMap Call.two) t₂ p.two.st.nseeds pattern nlen i) sigma guess =
        some ((A, x.alphaC, B), (Ae, x.alphaCErr, Be))) ∧
      x.est.epcEst = (2 ^ (pattern.getD i []).length - 1) * (1 - x.alphaC / x.alpha) / 2 ^ (pattern.getD i []).length := by
  obtain ⟨-, -, -, -, -, hh⟩ := C111_value curve intComb a b lengths pattern calls p h hlast t₁ t₂ n nlen h₁ h₂ hp hn hl hpl hl0
  obtain ⟨d₁, d₂, -, -, ⟨s1, g1, e1, -⟩, ⟨s2, g2, e2, -⟩, hx⟩ := hh i hi
  exact ⟨_, hx, ⟨s1, g1, _, _, _, _, e1⟩, ⟨s2, g2, _, _, _, _, e2⟩, rfl⟩

/-- C111 for `CNOTDihedralRBFitter` (first fitter: circuits in the Z basis, second: in the X basis): every entry of `fit_cnotdihedral` holds the
weighted mean of the decays of the curve fits to the means of the two kinds of circuits and the error per element of that decay. -/
theorem C111_dihedral (curve : CurveFit) (a b : List Result) (lengths : List (List ℤ)) (pattern : List (List ℕ))
    (calls : List Call) (p : Pair DihDict) (h : runPair curve dihComb a b lengths pattern calls = some p) (hlast : ∀ c, calls.getLast? = some c → c.rerun = true)
    (t₁ t₂ : Str) (n nlen : ℕ) (h₁ : GoodData t₁ n nlen (a ++ a ++ calls.flatMap Call.one)) (h₂ : GoodData t₂ n nlen (b ++ b ++ calls.flatMap Call.two))
    (hp : ∀ q ∈ pattern, q ≠ []) (hn : (pattern.map List.length).sum ≤ n) (hl : ∀ l ∈ lengths, l.length = nlen) (hpl : pattern.length ≤ lengths.length) (hl0 : lengths ≠ [])
    (i : ℕ) (hi : i < pattern.length) :
    ∃ x z r, p.comb[i]? = some x ∧
      (∃ sigma guess A B errs, curve (lengths.getD i []) (means (a ++ a ++ calls.flatMap Call.one) t₁ p.one.st.nseeds pattern nlen i) sigma guess =
        some ((A, z, B), errs)) ∧
      (∃ sigma guess A B errs, curve (lengths.getD i []) (means (b ++ b ++ calls.flatMap Call.two) t₂ p.two.st.nseeds pattern nlen i) sigma guess =
        some ((A, r, B), errs)) ∧
      x.alpha = (z + 2 ^ (pattern.getD i []).length * r) / (2 ^ (pattern.getD i []).length + 1) ∧
      x.epg = (2 ^ (pattern.getD i []).length - 1) * (1 - x.alpha) / 2 ^ (pattern.getD i []).length := by
  obtain ⟨-, -, -, -, -, hh⟩ := C111_value curve dihComb a b lengths pattern calls p h hlast t₁ t₂ n nlen h₁ h₂ hp hn hl hpl hl0
  obtain ⟨d₁, d₂, -, -, ⟨s1, g1, e1, -⟩, ⟨s2, g2, e2, -⟩, hx⟩ := hh i hi
  exact ⟨_, _, _, hx, ⟨s1, g1, _, _, _, e1⟩, ⟨s2, g2, _, _, _, e2⟩, rfl, rfl⟩

/-- C111: counting the results of the construction twice does not matter for a circuit that is not in both the results of the construction and
later ones. -/
theorem C111_rate (a rest : List Result) (name : Str) (lo len : ℕ) (h : records a name = [] ∨ records rest name = []) :
    rate (a ++ a ++ rest) name lo len = rate (a ++ rest) name lo len := by
  have hr : records (a ++ a ++ rest) name = records a name ++ records a name ++ records rest name := by simp [records]
  have hr' : records (a ++ rest) name = records a name ++ records rest name := by simp [records]
  rcases h with h | h
  · unfold rate zeroShots shots
    rw [hr, hr', h]
    rfl
  · have := rate_twice a name lo len
    unfold rate zeroShots shots at this ⊢
    rw [show records (a ++ a) name = records a name ++ records a name by simp [records]] at this
    rw [hr, hr', h, List.append_nil, List.append_nil]
    exact this

/-- C111: for a circuit in both, the probability is right exactly if both parts of the data have the same success probability. -/
theorem C111_rate_iff (a rest : List Result) (name : Str) (lo len : ℕ) (ha : 0 < shots a name) (hr : 0 < shots rest name) :
    rate (a ++ a ++ rest) name lo len = rate (a ++ rest) name lo len ↔ rate a name lo len = rate rest name lo len := by
  have e1 : ∀ x y : List Result, shots (x ++ y) name = shots x name + shots y name := by
    intro x y; unfold shots; rw [show records (x ++ y) name = records x name ++ records y name by simp [records]]; simp
  have e2 : ∀ x y : List Result, zeroShots (x ++ y) name lo len = zeroShots x name lo len + zeroShots y name lo len := by
    intro x y; unfold zeroShots; rw [show records (x ++ y) name = records x name ++ records y name by simp [records]]; simp
  unfold rate
  simp only [e1, e2]
  push_cast
  have ha' : (0 : ℚ) < shots a name := by exact_mod_cast ha
  have hr' : (0 : ℚ) < shots rest name := by exact_mod_cast hr
  rw [div_eq_div_iff (by positivity) (by positivity), div_eq_div_iff (by positivity) (by positivity)]
  constructor <;> intro h <;> linear_combination h

/-- C111: without a pattern the construction with data always raises. -/
theorem C111_no_pattern {F : Type} (curve : CurveFit) (comb : ℕ → FitDict → FitDict → F) (a b : Option (List Result)) (lengths : List (List ℤ))
    (h : a.isSome ∨ b.isSome) : Pair.new curve comb a b lengths none = none := by
  unfold Pair.new
  simp only [Option.bind_eq_bind]
  have hif : (a.isNone && b.isNone) = false := by
    rcases h with h | h <;> obtain ⟨x, rfl⟩ := Option.isSome_iff_exists.1 h <;> simp
  cases Fitter.new curve a lengths none with
  | none => rfl
  | some f1 =>
    cases Fitter.new curve b lengths none with
    | none => rfl
    | some f2 =>
      simp only [Option.bind_some]
      cases f1.addData curve a with
      | none => rfl
      | some g1 =>
        cases f2.addData curve b with
        | none => rfl
        | some g2 =>
          simp only [Option.bind_some, hif, Bool.false_eq_true, if_false]
          unfold Pair.fitData
          simp only [Option.bind_eq_bind]
          cases g1.fitData curve with
          | none => rfl
          | some x =>
            cases g2.fitData curve with
            | none => rfl
            | some y => rfl

/-! ### A concrete history, and what the double counting does -/

/-- A curve fit that always succeeds. -/
noncomputable def someCurve : CurveFit := fun _ _ _ _ => some ((1 / 2, 9 / 10, 1 / 2), (0, 1 / 100, 0))

def exA : Result := [("rb_length_0_seed_0".toList, [("0".toList, 10)]), ("rb_length_1_seed_0".toList, [("0".toList, 10)])]
def exB : Result := [("rb_length_0_seed_0".toList, [("1".toList, 10)]), ("rb_length_1_seed_0".toList, [("1".toList, 10)])]
def exC : Result := [("rb_length_0_seed_1".toList, [("1".toList, 10)]), ("rb_length_1_seed_1".toList, [("0".toList, 5), ("1".toList, 5)])]
def exI : Result := [("rb_interleaved_length_0_seed_0".toList, [("0".toList, 10)]), ("rb_interleaved_length_1_seed_0".toList, [("0".toList, 10)])]

theorem exData : GoodData "rb".toList 1 2 ([exA] ++ [exA] ++ [exC]) := by
  refine ⟨by decide, ⟨_, _, _, rfl⟩, ?_, ?_⟩
  · intro r hr
    simp only [List.cons_append, List.nil_append, List.mem_cons, List.not_mem_nil, or_false] at hr
    rcases hr with rfl | rfl | rfl
    all_goals
      refine ⟨by decide, ?_, by decide⟩
      simp only [exA, exC, List.forall_mem_cons]
    · exact ⟨⟨0, 0, by decide⟩, ⟨1, 0, by decide⟩, by simp⟩
    · exact ⟨⟨0, 0, by decide⟩, ⟨1, 0, by decide⟩, by simp⟩
    · exact ⟨⟨0, 1, by decide⟩, ⟨1, 1, by decide⟩, by simp⟩
  · have hs : ∀ (e : Str × Counts) (k0 : ℕ) (s0 : ℤ), e.1 = "rb".toList ++ suffix k0 s0 → ∀ (k : ℕ) (s : ℤ), e.1 = "rb".toList ++ suffix k s → s = s0 := by
      intro e k0 s0 h0 k s h
      exact (suffix_inj (h.symm.trans h0)).2.2
    intro r hr e he k s hk k' hk'
    have h01 : s = 0 ∨ s = 1 := by
      simp only [List.cons_append, List.nil_append, List.mem_cons, List.not_mem_nil, or_false] at hr
      rcases hr with rfl | rfl | rfl <;> simp only [exA, exC, List.mem_cons, List.not_mem_nil, or_false] at he <;> rcases he with rfl | rfl
      · exact Or.inl (hs _ 0 0 (by decide) k s hk)
      · exact Or.inl (hs _ 1 0 (by decide) k s hk)
      · exact Or.inl (hs _ 0 0 (by decide) k s hk)
      · exact Or.inl (hs _ 1 0 (by decide) k s hk)
      · exact Or.inr (hs _ 0 1 (by decide) k s hk)
      · exact Or.inr (hs _ 1 1 (by decide) k s hk)
    have hk2 : k' = 0 ∨ k' = 1 := by omega
    rcases h01 with rfl | rfl <;> rcases hk2 with rfl | rfl <;> decide +kernel

/-- The history of `C111_value` exists: seed 0 at the construction, seed 1 added later. -/
example : (runPair someCurve dihComb [exA] [exA] [[1, 2]] [[0]] [⟨[exC], [exC], true⟩]).map (fun p => (p.one.raw, p.two.st.nseeds, p.comb.length)) =
    some ([[[1, 1], [0, 1/2]]], [0, 1], 1) := by decide +kernel

/-- Finding: more shots for the same circuits, added with `add_data`, are pooled with the first results counted twice: ten shots `0` at the
construction and ten shots `1` later give 2/3, while all of them at the construction give 1/2. -/
theorem C111_finding_weights :
    (runPair someCurve intComb [exA] [exI] [[1, 2]] [[0]] [⟨[exB], [exI], true⟩]).map (fun p => p.one.raw) = some [[[2/3, 2/3]]] ∧
    (runPair someCurve intComb [exA, exB] [exI] [[1, 2]] [[0]] []).map (fun p => p.one.raw) = some [[[1/2, 1/2]]] := by
  decide +kernel

end Verif.RB.Fit
