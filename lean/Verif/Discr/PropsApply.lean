import Verif.Discr.Props
set_option linter.unusedSimpArgs false
set_option linter.unusedVariables false
/-
C61 (continued): `apply` gives every experiment the predictions of its own shots.
C62: rows and labels of the training data are aligned.
-/
namespace Verif.Discr
open Verif

variable {K : Type}

/-- The feature row of one shot: the I values then the Q values of the qubits of the mask (specification). -/
def feature (mask : List ℕ) (row : List (K × K)) : List K :=
  (mask.filterMap fun q => row[q]?).map (·.1) ++ (mask.filterMap fun q => row[q]?).map (·.2)

/-- The recorded shots of an experiment with single-shot data. -/
def rowsOf : Mem K → List (List (K × K))
  | .single rows => rows
  | .avg _ => []

/-- Single-shot data with as many rows as shots, every row covering the qubits of the mask. -/
def Recorded (mask : List ℕ) (e : Exp K) : Prop :=
  (∃ rows, e.mem = .single rows) ∧ (rowsOf e.mem).length = e.shots ∧ ∀ row ∈ rowsOf e.mem, ∀ q ∈ mask, q < row.length

theorem formatRow_eq (mask : List ℕ) (row : List (K × K)) (h : ∀ q ∈ mask, q < row.length) :
    formatRow mask row = some (feature mask row) := by
  have e : mask.mapM (fun q => row[q]?) = some (mask.filterMap fun q => row[q]?) := by
    induction mask with
    | nil => rfl
    | cons q mask ih =>
      have hq := h q (by simp)
      rw [List.mapM_cons, List.getElem?_eq_getElem hq, ih fun x hx => h x (by simp [hx])]
      simp [List.getElem?_eq_getElem hq]
  simp only [formatRow, e, feature, Option.bind_eq_bind, Option.bind_some]

theorem mapM_some_of {α β : Type*} (f : α → Option β) (g : α → β) (l : List α) (h : ∀ x ∈ l, f x = some (g x)) :
    l.mapM f = some (l.map g) := by
  induction l with
  | nil => rfl
  | cons a l ih =>
    rw [List.mapM_cons, h a (by simp), ih fun x hx => h x (by simp [hx])]
    rfl

theorem formatIq_eq (mask : List ℕ) (m : Mem K) (hs : ∃ rows, m = .single rows) (h : ∀ row ∈ rowsOf m, ∀ q ∈ mask, q < row.length) :
    formatIq mask m = some ((rowsOf m).map (feature mask)) := by
  obtain ⟨rows, rfl⟩ := hs
  exact mapM_some_of _ _ _ fun row hr => formatRow_eq mask row (h row hr)

theorem getMemory_of_nodup {r : Res K} (hn : (r.map (·.name)).Nodup) {e : Exp K} (he : e ∈ r) : getMemory r e.name = some e.mem := by
  unfold getMemory
  induction r with
  | nil => cases he
  | cons a r ih =>
    simp only [List.map_cons, List.nodup_cons] at hn
    by_cases h : a.name = e.name
    · rcases List.mem_cons.1 he with rfl | he
      · simp
      · exact absurd (List.mem_map.2 ⟨e, he, rfl⟩) (h ▸ hn.1)
    · rcases List.mem_cons.1 he with rfl | he
      · exact absurd rfl h
      · rw [List.find?_cons_of_neg (by simpa using h)]
        exact ih hn.2 he

theorem getMemory_none {r : Res K} {s : Str} (h : s ∉ r.map (·.name)) : getMemory r s = none := by
  unfold getMemory
  rw [Option.map_eq_none_iff, List.find?_eq_none]
  intro e he
  simp only [decide_eq_true_eq]
  exact fun hh => h (List.mem_map.2 ⟨e, he, hh⟩)

theorem slice_eq (base : ℕ) (cls : Exp K → List Str) (es : List (Exp K)) (pre : List Str)
    (hlen : ∀ e ∈ es, (cls e).length = e.shots) :
    sliceLoop base (pre ++ es.flatMap cls) pre.length es =
      es.mapM fun e => (count base (cls e)).map fun c => { name := e.name, memory := cls e, counts := c } := by
  induction es generalizing pre with
  | nil => rfl
  | cons e es ih =>
    have he := hlen e (by simp)
    have h1 : ((pre ++ (e :: es).flatMap cls).drop pre.length).take e.shots = cls e := by
      rw [List.drop_left, List.flatMap_cons, ← he, List.take_left]
    have h2 := ih (pre ++ cls e) fun x hx => hlen x (by simp [hx])
    rw [List.append_assoc, ← List.flatMap_cons, List.length_append, he] at h2
    rw [sliceLoop, List.mapM_cons]
    simp only [h1, h2, Option.bind_eq_bind]
    cases count base (cls e) with
    | none => rfl
    | some c => rfl

/-- `apply` with a classifier that looks at one shot at a time: every level 1 experiment is returned under its name, in
order, with the predicted states of its own shots, and counts that add up to its number of shots and give every state
the number of its shots. -/
theorem C61_apply (base n : ℕ) (hb : 2 ≤ base) (hb' : base ≤ 36) (hn : 0 < n) (mask : List ℕ) (classify : List K → Str)
    (hcls : ∀ x, IsState base n (classify x)) (raw : Res K)
    (hnames : ((raw.filter fun e => e.measLevel = 1).map (·.name)).Nodup)
    (hrec : ∀ e ∈ raw, e.measLevel = 1 → Recorded mask e) :
    ∃ out, apply base mask (List.map classify) raw = some out ∧
      List.Forall₂ (fun (e : Exp K) (o : NewExp) => o.name = e.name ∧
        o.memory = (rowsOf e.mem).map (fun row => classify (feature mask row)) ∧
        o.counts.values.sum = e.shots ∧
        ∀ s, IsState base n s → o.counts.getD (key base s) 0 = o.memory.count s)
        (raw.filter fun e => e.measLevel = 1) out := by
  unfold apply
  generalize hk : (raw.filter fun e => e.measLevel = 1) = keep at *
  have hrec' : ∀ e ∈ keep, Recorded mask e := by
    intro e he
    rw [← hk, List.mem_filter] at he
    exact hrec e he.1 (by simpa using he.2)
  have hx : getXdata mask [keep] (keep.map (·.name)) = some (keep.flatMap fun e => (rowsOf e.mem).map (feature mask)) := by
    unfold getXdata
    have e : (keep.map (·.name)).mapM (fun s => (findIq [keep] s).bind fun iq => formatIq mask iq) =
        some (keep.map fun e => (rowsOf e.mem).map (feature mask)) := by
      rw [List.mapM_map]
      apply mapM_some_of
      intro e he
      obtain ⟨h1, h2, h3⟩ := hrec' e he
      simp only [Function.comp, findIq, List.foldl_cons, List.foldl_nil, getMemory_of_nodup hnames he, Option.bind_some]
      exact formatIq_eq mask e.mem h1 h3
    simp only [Option.bind_eq_bind, e, Option.bind_some, List.flatMap_def]
  let cls : Exp K → List Str := fun e => (rowsOf e.mem).map (fun row => classify (feature mask row))
  have hl : ∀ e ∈ keep, (cls e).length = e.shots := fun e he => by simp [cls, (hrec' e he).2.1]
  have hd : (keep.flatMap fun e => (rowsOf e.mem).map (feature mask)).map classify = keep.flatMap cls := by
    rw [List.map_flatMap]
    simp [cls, Function.comp_def]
  simp only [Option.bind_eq_bind, hx, Option.bind_some, hd]
  have hs := slice_eq base cls keep [] hl
  simp only [List.nil_append, List.length_nil] at hs
  rw [hs]
  clear hs hd hx hk hnames
  induction keep with
  | nil => exact ⟨[], rfl, List.Forall₂.nil⟩
  | cons e keep ih =>
    obtain ⟨out, o1, o2⟩ := ih (fun x hx => hrec' x (by simp [hx])) fun x hx => hl x (by simp [hx])
    obtain ⟨c, c1, -, c2, c3, -⟩ := C61_count base n hb hb' hn (cls e) (by
      intro s hs
      obtain ⟨row, -, rfl⟩ := List.mem_map.1 hs
      exact hcls _)
    refine ⟨{ name := e.name, memory := cls e, counts := c } :: out, ?_, List.Forall₂.cons ⟨rfl, rfl, ?_, c3⟩ o2⟩
    · rw [List.mapM_cons, c1, o1]; rfl
    · rw [← hl e (by simp)]; exact c2

/-- Two experiments of level 1 and one of level 2; a threshold classifier. -/
def exRaw : Res ℤ :=
  [⟨['a'], 1, 2, .single [[(1, 5), (-1, 3)], [(-2, 0), (4, 4)]]⟩, ⟨['b'], 2, 3, .single []⟩,
   ⟨['c'], 1, 1, .single [[(7, 7), (8, 8)]]⟩]

def exCls (x : List ℤ) : Str := [if 0 < x.headD 0 then '1' else '0', if 0 < (x.drop 1).headD 0 then '1' else '0']

example : (∀ x, IsState 2 2 (exCls x)) ∧ ((exRaw.filter fun e => e.measLevel = 1).map (·.name)).Nodup ∧
    (∀ e ∈ exRaw, e.measLevel = 1 → Recorded [0, 1] e) ∧
    apply 2 [0, 1] (List.map exCls) exRaw =
      some [⟨['a'], [['1', '0'], ['0', '1']], [(['0', 'x', '2'], 1), (['0', 'x', '1'], 1)]⟩, ⟨['c'], [['1', '1']], [(['0', 'x', '3'], 1)]⟩] := by
  refine ⟨?_, by decide, ?_, by decide⟩
  · intro x
    unfold exCls
    split <;> split <;> decide
  · intro e he h
    simp only [exRaw, List.mem_cons, List.not_mem_nil, or_false] at he
    rcases he with rfl | rfl | rfl
    · exact ⟨⟨_, rfl⟩, rfl, by decide⟩
    · cases h
    · exact ⟨⟨_, rfl⟩, rfl, by decide⟩

/-- Finding: with averaged data, where there is one row per experiment but the shot number of the header is used for
slicing, the second experiment gets no prediction and the first one gets both. -/
theorem C61_finding_averaged :
    apply 2 [0] (List.map fun x : List ℤ => if 0 < x.headD 0 then ['1'] else ['0'])
      [⟨['a'], 1, 2, .avg [(-1, 0)]⟩, ⟨['b'], 1, 2, .avg [(1, 0)]⟩] =
      some [⟨['a'], [['0'], ['1']], [(['0', 'x', '0'], 1), (['0', 'x', '1'], 1)]⟩, ⟨['b'], [], []⟩] := by decide

/-! ## C62 -/

/-- The calibration schedules are those called `cal_` followed by at least one digit. -/
theorem C62_calibration (name : Str) : isCalibration name = true ↔ ∃ ds, ds ≠ [] ∧ (∀ c ∈ ds, c.isDigit = true) ∧ name = ['c', 'a', 'l', '_'] ++ ds := by
  unfold isCalibration
  split
  · rename_i rest
    simp only [Bool.and_eq_true, Bool.not_eq_true', List.isEmpty_eq_false_iff, List.all_eq_true, List.cons_append, List.nil_append,
      List.cons.injEq, true_and]
    constructor
    · rintro ⟨h1, h2⟩; exact ⟨rest, h1, h2, rfl⟩
    · rintro ⟨ds, h1, h2, rfl⟩; exact ⟨h1, h2⟩
  · rename_i h
    simp only [Bool.false_eq_true, false_iff, not_exists, not_and]
    rintro ds - - rfl
    exact h ds rfl

/-- The state of a calibration schedule is the digits of its name. -/
theorem C62_state (ds : Str) (h : ∀ c ∈ ds, c.isDigit = true) : removeCal (['c', 'a', 'l', '_'] ++ ds) = ds := by
  have key : ∀ ds : Str, (∀ c ∈ ds, c.isDigit = true) → removeCal ds = ds := by
    intro ds
    induction ds with
    | nil => intro _; rfl
    | cons c ds ih =>
      intro h
      rw [removeCal, ih fun x hx => h x (by simp [hx])]
      rintro rest rfl rfl
      have := h 'c' (by simp)
      cases this
  exact key ds h

/-- A call of `add_data`. -/
structure Call (K : Type) where
  result : Res K
  states : List Str
  scheds : Option (List Str)

/-- The object after the constructor and a sequence of `add_data` calls. -/
def run (mask : List ℕ) (cal : List (Res K)) (states scheds : Option (List Str)) (calls : List (Call K)) : Option (St K) := do
  let st ← mk mask cal states scheds
  calls.foldlM (fun st c => addData st c.result c.states c.scheds) st

/-- The experiments called `s` in all the results. -/
def named (results : List (Res K)) (s : Str) : List (Exp K) := results.flatten.filter fun e => e.name = s

theorem foldl_set_lookup (l : List (Str × Str)) (d : Dict Str Str) (s t : Str) (hn : (l.map (·.1)).Nodup) (h : (s, t) ∈ l) :
    Dict.get? (l.foldl (fun d p => d.set p.1 p.2) d) s = some t := by
  have other : ∀ (l : List (Str × Str)) (d : Dict Str Str), s ∉ l.map (·.1) →
      Dict.get? (l.foldl (fun d p => d.set p.1 p.2) d) s = d.get? s := by
    intro l
    induction l with
    | nil => intro d _; rfl
    | cons p l ih =>
      intro d hs
      simp only [List.map_cons, List.mem_cons, not_or] at hs
      rw [List.foldl_cons, ih _ hs.2, Dict.get?_set, if_neg (fun h => hs.1 h.symm)]
  induction l generalizing d with
  | nil => cases h
  | cons p l ih =>
    simp only [List.map_cons, List.nodup_cons] at hn
    rw [List.foldl_cons]
    rcases List.mem_cons.1 h with rfl | h
    · rw [other _ _ hn.1, Dict.get?_set_self]
    · exact ih _ hn.2 h

theorem named_single {results : List (Res K)} {s : Str} {e : Exp K} (h : named results s = [e]) :
    ∃ pre r post, results = pre ++ r :: post ∧ (∀ x ∈ pre, getMemory x s = none) ∧ (∀ x ∈ post, getMemory x s = none) ∧
      getMemory r s = some e.mem := by
  induction results with
  | nil => simp [named] at h
  | cons r results ih =>
    have hsplit : named (r :: results) s = r.filter (fun e => e.name = s) ++ named results s := by simp [named]
    rw [hsplit] at h
    by_cases hr : r.filter (fun e => e.name = s) = []
    · rw [hr, List.nil_append] at h
      obtain ⟨pre, r', post, h1, h2, h3, h4⟩ := ih h
      refine ⟨r :: pre, r', post, by rw [h1]; rfl, ?_, h3, h4⟩
      intro x hx
      rcases List.mem_cons.1 hx with rfl | hx
      · apply getMemory_none
        intro hm
        obtain ⟨e', he', hn⟩ := List.mem_map.1 hm
        have : e' ∈ x.filter (fun e => e.name = s) := List.mem_filter.2 ⟨he', by simpa using hn⟩
        rw [hr] at this; cases this
      · exact h2 x hx
    · have hone : r.filter (fun e => e.name = s) = [e] ∧ named results s = [] := by
        cases hf : r.filter (fun e => e.name = s) with
        | nil => exact absurd hf hr
        | cons a l =>
          rw [hf, List.cons_append] at h
          simp only [List.cons.injEq, List.append_eq_nil_iff] at h
          exact ⟨by rw [h.1, h.2.1], h.2.2⟩
      refine ⟨[], r, results, rfl, by simp, ?_, ?_⟩
      · intro x hx
        apply getMemory_none
        intro hm
        obtain ⟨e', he', hn⟩ := List.mem_map.1 hm
        have : e' ∈ named results s := List.mem_filter.2 ⟨List.mem_flatten.2 ⟨x, hx, he'⟩, by simpa using hn⟩
        rw [hone.2] at this; cases this
      · unfold getMemory
        rw [← List.head?_filter, hone.1]; rfl

theorem findIq_single {results : List (Res K)} {s : Str} {e : Exp K} (h : named results s = [e]) : findIq results s = some e.mem := by
  obtain ⟨pre, r, post, rfl, h1, h2, h3⟩ := named_single h
  unfold findIq
  have keep : ∀ (l : List (Res K)) (a : Option (Mem K)), (∀ x ∈ l, getMemory x s = none) →
      l.foldl (fun iq r => (getMemory r s).or iq) a = a := by
    intro l
    induction l with
    | nil => intro a _; rfl
    | cons x l ih =>
      intro a hx
      rw [List.foldl_cons, hx x (by simp)]
      exact ih a fun y hy => hx y (by simp [hy])
  rw [List.foldl_append, keep pre none h1, List.foldl_cons, h3]
  exact keep post _ h2

theorem labels_single {results : List (Res K)} {s t : Str} {e : Exp K} {expected : Dict Str Str} (h : named results s = [e])
    (ht : expected.get? s = some t) :
    (results.mapM (labels expected s)).map List.flatten = some (List.replicate e.mem.shape0 t) := by
  obtain ⟨pre, r, post, rfl, h1, h2, h3⟩ := named_single h
  have e0 : (pre ++ r :: post).mapM (labels expected s) =
      some (pre.map (fun _ => []) ++ List.replicate e.mem.shape0 t :: post.map fun _ => []) := by
    have hp : ∀ l : List (Res K), (∀ x ∈ l, getMemory x s = none) → l.mapM (labels expected s) = some (l.map fun _ => []) := by
      intro l hl
      apply mapM_some_of
      intro x hx
      simp only [labels, hl x hx]
    have hr : labels expected s r = some (List.replicate e.mem.shape0 t) := by simp only [labels, h3, ht]; rfl
    rw [List.mapM_append, hp pre h1, List.mapM_cons, hp post h2, hr]
    rfl
  have hz : ∀ l : List (Res K), (l.map fun _ => ([] : List Str)).flatten = [] := by
    intro l; induction l with
    | nil => rfl
    | cons a l ih => simp
  rw [e0]
  simp [hz]

/-- What one schedule contributes: its shots, each with the state. -/
def contribution (mask : List ℕ) (results : List (Res K)) (p : Str × Str) : List (List K × Str) :=
  (named results p.1).flatMap fun e => (rowsOf e.mem).map fun row => (feature mask row, p.2)

theorem data_aligned (mask : List ℕ) (results : List (Res K)) (pairs : List (Str × Str)) (expected : Dict Str Str)
    (hexp : ∀ p ∈ pairs, expected.get? p.1 = some p.2)
    (hone : ∀ p ∈ pairs, ∃ e, named results p.1 = [e] ∧ (∃ rows, e.mem = .single rows) ∧
      ∀ row ∈ rowsOf e.mem, ∀ q ∈ mask, q < row.length) :
    getXdata mask results (pairs.map (·.1)) = some ((pairs.flatMap (contribution mask results)).map (·.1)) ∧
    getYdata expected results (pairs.map (·.1)) = some ((pairs.flatMap (contribution mask results)).map (·.2)) := by
  constructor
  · unfold getXdata
    have e : (pairs.map (·.1)).mapM (fun s => (findIq results s).bind fun iq => formatIq mask iq) =
        some (pairs.map fun p => (contribution mask results p).map (·.1)) := by
      rw [List.mapM_map]
      apply mapM_some_of
      intro p hp
      obtain ⟨e, h1, h2, h3⟩ := hone p hp
      simp only [Function.comp, findIq_single h1, Option.bind_some, formatIq_eq mask e.mem h2 h3, contribution, h1]
      simp [Function.comp_def]
    simp only [Option.bind_eq_bind, e, Option.bind_some, List.map_flatMap]
    rw [List.flatMap_def]
  · unfold getYdata
    have e : (pairs.map (·.1)).mapM (fun s => (results.mapM (labels expected s)).bind fun ps => some ps.flatten) =
        some (pairs.map fun p => (contribution mask results p).map (·.2)) := by
      rw [List.mapM_map]
      apply mapM_some_of
      intro p hp
      obtain ⟨e, h1, ⟨rows, h2⟩, h3⟩ := hone p hp
      have := labels_single h1 (hexp p hp)
      rw [Option.map_eq_bind] at this
      simp only [Function.comp]
      refine this.trans ?_
      simp only [contribution, h1, h2, Mem.shape0, rowsOf, List.flatMap_cons, List.flatMap_nil, List.append_nil, List.map_map,
        Function.comp_def]
      rw [List.map_const']
    simp only [Option.bind_eq_bind, e, Option.bind_some, List.map_flatMap]
    rw [List.flatMap_def]

theorem zip_proj {α β : Type*} (l : List (α × β)) : (l.map (·.1)).zip (l.map (·.2)) = l := by
  induction l with
  | nil => rfl
  | cons a l ih => simp only [List.map_cons, List.zip_cons_cons, ih]

/-- The results an object holds. -/
def allResults (cal : List (Res K)) (calls : List (Call K)) : List (Res K) := cal ++ calls.map (·.result)

theorem run_results {mask : List ℕ} {cal : List (Res K)} {states scheds : Option (List Str)} {calls : List (Call K)} {st : St K}
    (h : run mask cal states scheds calls = some st) : st.results = allResults cal calls ∧ st.mask = mask := by
  unfold run at h
  simp only [Option.bind_eq_bind, Option.bind_eq_some_iff] at h
  obtain ⟨s0, h0, h⟩ := h
  have hm : s0.results = cal ∧ s0.mask = mask := by
    unfold mk at h0
    simp only [Option.bind_eq_bind, Option.bind_eq_some_iff, Option.some.injEq] at h0
    obtain ⟨_, -, _, -, _, -, _, -, rfl⟩ := h0
    exact ⟨rfl, rfl⟩
  unfold allResults
  clear h0
  rw [← hm.1]
  have hmask := hm.2
  clear hm
  induction calls generalizing s0 with
  | nil => cases h; simp [hmask]
  | cons c calls ih =>
    rw [List.foldlM_cons] at h
    simp only [Option.bind_eq_bind, Option.bind_eq_some_iff] at h
    obtain ⟨s1, h1, h⟩ := h
    have hs1 : s1.results = s0.results ++ [c.result] ∧ s1.mask = s0.mask := by
      unfold addData at h1
      simp only [Option.bind_eq_bind, Option.bind_eq_some_iff, Option.some.injEq] at h1
      obtain ⟨_, -, _, -, _, -, _, -, rfl⟩ := h1
      exact ⟨rfl, rfl⟩
    have := ih s1 h (by rw [hs1.2, hmask])
    rw [this.1, hs1.1]
    simp [this.2]

/-- The constructor: `scheds` are the given schedules or the calibration schedules of the results, `states` the given
states or those in the names.  Every shot of every schedule is in the data once, with the state of that schedule. -/
theorem C62_init (mask : List ℕ) (cal : List (Res K)) (states scheds : Option (List Str)) (names sts : List Str)
    (hnames : names = scheds.getD ((cal.flatMap fun r => r.map (·.name)).filter isCalibration))
    (hsts : sts = states.getD (names.map removeCal))
    (hlen : sts.length = names.length) (hnd : names.Nodup)
    (hone : ∀ s ∈ names, ∃ e, named cal s = [e] ∧ (∃ rows, e.mem = .single rows) ∧ ∀ row ∈ rowsOf e.mem, ∀ q ∈ mask, q < row.length) :
    ∃ st, mk mask cal states scheds = some st ∧ st.xdata.length = st.ydata.length ∧
      st.xdata.zip st.ydata = (names.zip sts).flatMap (contribution mask cal) := by
  have hfst : (names.zip sts).map (·.1) = names := List.map_fst_zip (by omega)
  have hd := data_aligned mask cal (names.zip sts) ((names.zip sts).foldl (fun d p => d.set p.1 p.2) [])
    (fun p hp => foldl_set_lookup _ [] p.1 p.2 (by rw [hfst]; exact hnd) hp)
    (fun p hp => hone p.1 (by rw [← hfst]; exact List.mem_map.2 ⟨p, hp, rfl⟩))
  rw [hfst] at hd
  have h1 : pick scheds cal = some names := by
    rw [hnames]; cases scheds <;> rfl
  have hmk : mk mask cal states scheds = some ⟨mask, (names.zip sts).foldl (fun d p => d.set p.1 p.2) [],
      names, cal, ((names.zip sts).flatMap (contribution mask cal)).map (·.1),
      ((names.zip sts).flatMap (contribution mask cal)).map (·.2)⟩ := by
    unfold mk
    simp only [h1, Option.bind_eq_bind, Option.bind_some, ← hsts, addExpected, hlen, ne_eq, not_true_eq_false, if_false, hd.1, hd.2]
  refine ⟨_, hmk, by simp, zip_proj _⟩

/-- `add_data` after any history: the data of the object are those of the schedules of that call, every shot once, with
the state given for its schedule. -/
theorem C62_add_data (mask : List ℕ) (cal : List (Res K)) (states scheds : Option (List Str)) (calls : List (Call K)) (st : St K)
    (hst : run mask cal states scheds calls = some st) (c : Call K) (names : List Str)
    (hnames : names = c.scheds.getD ((c.result.map (·.name)).filter isCalibration))
    (hlen : c.states.length = names.length) (hnd : names.Nodup)
    (hone : ∀ s ∈ names, ∃ e, named (allResults cal (calls ++ [c])) s = [e] ∧ (∃ rows, e.mem = .single rows) ∧
      ∀ row ∈ rowsOf e.mem, ∀ q ∈ mask, q < row.length) :
    ∃ st', run mask cal states scheds (calls ++ [c]) = some st' ∧ st'.xdata.length = st'.ydata.length ∧
      st'.xdata.zip st'.ydata = (names.zip c.states).flatMap (contribution mask (allResults cal (calls ++ [c]))) := by
  have hfst : (names.zip c.states).map (·.1) = names := List.map_fst_zip (by omega)
  have hd := data_aligned mask (allResults cal (calls ++ [c])) (names.zip c.states)
    ((names.zip c.states).foldl (fun d p => d.set p.1 p.2) st.expected)
    (fun p hp => foldl_set_lookup _ _ p.1 p.2 (by rw [hfst]; exact hnd) hp)
    (fun p hp => hone p.1 (by rw [← hfst]; exact List.mem_map.2 ⟨p, hp, rfl⟩))
  rw [hfst] at hd
  obtain ⟨hr, hm⟩ := run_results hst
  have hr' : st.results ++ [c.result] = allResults cal (calls ++ [c]) := by rw [hr]; simp [allResults]
  have h1 : pick c.scheds [c.result] = some names := by
    rw [hnames]; cases c.scheds <;> simp [pick, getSchedules]
  have hrun : run mask cal states scheds (calls ++ [c]) = addData st c.result c.states c.scheds := by
    unfold run at hst ⊢
    simp only [Option.bind_eq_bind, Option.bind_eq_some_iff] at hst
    obtain ⟨s0, h0, h⟩ := hst
    simp only [h0, Option.bind_eq_bind, Option.bind_some, List.foldlM_append, h, List.foldlM_cons, List.foldlM_nil]
    cases addData st c.result c.states c.scheds <;> rfl
  rw [hrun]
  have hadd : addData st c.result c.states c.scheds = some ⟨mask,
      (names.zip c.states).foldl (fun d p => d.set p.1 p.2) st.expected,
      st.schedules ++ names, allResults cal (calls ++ [c]),
      ((names.zip c.states).flatMap (contribution mask (allResults cal (calls ++ [c])))).map (·.1),
      ((names.zip c.states).flatMap (contribution mask (allResults cal (calls ++ [c])))).map (·.2)⟩ := by
    unfold addData
    simp only [h1, Option.bind_eq_bind, Option.bind_some, addExpected, hlen, ne_eq, not_true_eq_false, if_false, hr', hm, hd.1, hd.2]
  exact ⟨_, hadd, by simp, zip_proj _⟩

def c0 : Str := ['c', 'a', 'l', '_', '0']
def c1 : Str := ['c', 'a', 'l', '_', '1']
def c2 : Str := ['c', 'a', 'l', '_', '2']

/-- Two calibration schedules, then a third one added. -/
def exCal : List (Res ℤ) := [[⟨c0, 1, 2, .single [[(1, 2)], [(3, 4)]]⟩, ⟨c1, 1, 1, .single [[(5, 6)]]⟩, ⟨['x'], 1, 1, .avg []⟩]]
def exCall : Call ℤ := ⟨[⟨c2, 1, 2, .single [[(7, 8)], [(9, 10)]]⟩], [['2']], none⟩

example : (∃ st, mk [0] exCal none none = some st ∧ st.xdata = [[1, 2], [3, 4], [5, 6]] ∧ st.ydata = [['0'], ['0'], ['1']]) ∧
    (∃ st, run [0] exCal none none [exCall] = some st ∧ st.xdata = [[7, 8], [9, 10]] ∧ st.ydata = [['2'], ['2']]) :=
  ⟨⟨_, rfl, by decide, by decide⟩, ⟨_, rfl, by decide, by decide⟩⟩

example : ([c0, c1] : List Str) = (none : Option (List Str)).getD ((exCal.flatMap fun r => r.map (·.name)).filter isCalibration) ∧
    ([['0'], ['1']] : List Str) = (none : Option (List Str)).getD ([c0, c1].map removeCal) ∧
    [c0, c1].Nodup ∧
    ∀ s ∈ [c0, c1], ∃ e, named exCal s = [e] ∧ (∃ rows, e.mem = .single rows) ∧ ∀ row ∈ rowsOf e.mem, ∀ q ∈ [0], q < row.length := by
  refine ⟨by decide, by decide, by decide, ?_⟩
  intro s hs
  simp only [List.mem_cons, List.not_mem_nil, or_false] at hs
  rcases hs with rfl | rfl
  · exact ⟨_, rfl, ⟨_, rfl⟩, by decide⟩
  · exact ⟨_, rfl, ⟨_, rfl⟩, by decide⟩

example : (∃ st, run [0] exCal none none [] = some st) ∧
    ([c2] : List Str) = exCall.scheds.getD ((exCall.result.map (·.name)).filter isCalibration) ∧ exCall.states.length = [c2].length ∧
    ∀ s ∈ [c2], ∃ e, named (allResults exCal ([] ++ [exCall])) s = [e] ∧ (∃ rows, e.mem = .single rows) ∧
      ∀ row ∈ rowsOf e.mem, ∀ q ∈ [0], q < row.length := by
  refine ⟨⟨_, rfl⟩, by decide, rfl, ?_⟩
  intro s hs
  simp only [List.mem_cons, List.not_mem_nil, or_false] at hs
  rw [hs]
  exact ⟨_, rfl, ⟨_, rfl⟩, by decide⟩

/-- Finding: `add_data` replaces the data; after it, the shots of the earlier schedules are gone although the object
still lists those schedules. -/
theorem C62_finding_replaced : ∃ st, run [0] exCal none none [exCall] = some st ∧ c0 ∈ st.schedules ∧
    (∃ row ∈ [[(1, 2)], [(3, 4)]], feature [0] row ∉ st.xdata) ∧ ['0'] ∉ st.ydata :=
  ⟨_, rfl, by decide, ⟨_, List.mem_cons_self, by decide⟩, by decide⟩

/-- Finding: a schedule measured again in a later result contributes the rows of the last result only, but the labels of
both, so rows and labels differ in number. -/
theorem C62_finding_twice : ∃ st, run [0] exCal none none [⟨[⟨c0, 1, 1, .single [[(7, 8)]]⟩], [['0']], none⟩] = some st ∧
    st.xdata.length = 1 ∧ st.ydata.length = 3 :=
  ⟨_, rfl, by decide, by decide⟩

/-- Finding: averaged data of two qubits is one row with two labels. -/
theorem C62_finding_averaged : ∃ st, mk [0, 1] [[⟨c0, 1, 5, .avg [((1 : ℤ), 2), (3, 4)]⟩]] none none = some st ∧
    st.xdata.length = 1 ∧ st.ydata.length = 2 :=
  ⟨_, rfl, by decide, by decide⟩

end Verif.Discr
