import Verif.Tomo.Fit
import Verif.Tomo.PropsCirc
import Verif.Counts.Lemmas3
/-
C57: repeated experiments are pooled.
-/
set_option linter.unusedSectionVars false
set_option linter.unusedSimpArgs false
set_option linter.unusedVariables false
namespace Verif.Tomo
open Verif Verif.Counts

/-- One call of `add_data`: its results and its circuits. -/
structure Call where
  results : List (Str → Option Counts)
  circuits : List CircRef

/-- The history of calls, on an initially empty fitter. -/
def runCalls (calls : List Call) : Option (Dict Key Counts) := calls.foldlM (fun d c => addData d c.results c.circuits) []

/-- Specification: the counts of outcome `o` that one call has for label `k`: the sum over the circuits named `k`. -/
def callTotal (call : Call) (k : Key) (o : Str) : ℤ :=
  ((call.circuits.filter fun c => literalEval c.name = some k).map fun c =>
    ((lookupCounts call.results c.name).getD []).getD o 0).sum

/-- Specification: one classical register (or circuit names). -/
def SingleRegister (call : Call) : Prop := ∀ c ∈ call.circuits.head?, needsMarginal c = false

/-- Specification: dictionaries have distinct keys. -/
def GoodResults (call : Call) : Prop := ∀ r ∈ call.results, ∀ name c, r name = some c → Dict.WF c

/-- The counts found are those of the last result that knows the circuit. -/
theorem lookupCounts_append (rs : List (Str → Option Counts)) (r : Str → Option Counts) (name : Str) :
    lookupCounts (rs ++ [r]) name = (r name).or (lookupCounts rs name) := by
  simp [lookupCounts]

theorem lookupCounts_mem (rs : List (Str → Option Counts)) (name : Str) (c : Counts) (h : lookupCounts rs name = some c) :
    ∃ r ∈ rs, r name = some c := by
  induction rs using List.reverseRecOn with
  | nil => simp [lookupCounts] at h
  | append_singleton rs r ih =>
    rw [lookupCounts_append] at h
    cases hr : r name with
    | some c' => rw [hr] at h; exact ⟨r, by simp, by rw [hr]; simpa using h⟩
    | none =>
      rw [hr, Option.none_or] at h
      obtain ⟨r', h1, h2⟩ := ih h
      exact ⟨r', by simp [h1], h2⟩

theorem addOne_single (results : List (Str → Option Counts)) (data : Dict Key Counts) (c : CircRef) :
    addOne results false data c =
      (lookupCounts results c.name).bind fun counts => (literalEval c.name).map fun k => poolInto data k counts := by
  unfold addOne
  cases lookupCounts results c.name with
  | none => rfl
  | some v => cases literalEval c.name <;> rfl

theorem getD_poolInto (data : Dict Key Counts) (k k' : Key) (c : Counts) (hc : Dict.WF c) (o : Str) :
    ((poolInto data k c).getD k' []).getD o 0 = (data.getD k' []).getD o 0 + (if k' = k then c.getD o 0 else 0) := by
  unfold poolInto
  cases h : data.get? k with
  | none =>
    rw [Dict.getD_set]
    by_cases e : k' = k
    · subst e; simp [Dict.getD, h]
    · simp [e, Ne.symm e]
  | some d =>
    rw [Dict.getD_set]
    by_cases e : k' = k
    · subst e
      rw [if_pos rfl, if_pos rfl, getD_combine _ _ hc]
      simp [Dict.getD, h]
    · simp [e, Ne.symm e]

theorem keys_poolInto (data : Dict Key Counts) (k k' : Key) (c : Counts) :
    (poolInto data k c).has k' = true ↔ data.has k' = true ∨ k' = k := by
  unfold poolInto Dict.has
  cases h : data.get? k with
  | none =>
    rw [Dict.get?_set]
    by_cases e : k' = k
    · simp [e]
    · simp [e, Ne.symm e]
  | some d =>
    rw [Dict.get?_set]
    by_cases e : k' = k
    · simp [e]
    · simp [e, Ne.symm e]

theorem wf_poolInto (data : Dict Key Counts) (hd : Dict.WF data) (k : Key) (c : Counts) : Dict.WF (poolInto data k c) := by
  unfold poolInto
  split <;> exact Dict.wf_set _ hd _ _

/-- One pass over circuits. -/
theorem fold_addOne (results : List (Str → Option Counts)) (hgood : ∀ r ∈ results, ∀ name c, r name = some c → Dict.WF c)
    (circuits : List CircRef) (data data' : Dict Key Counts)
    (h : circuits.foldlM (addOne results false) data = some data') (hwf : Dict.WF data) :
    Dict.WF data' ∧ (∀ k, data'.has k = true ↔ data.has k = true ∨ ∃ c ∈ circuits, literalEval c.name = some k) ∧
    ∀ k o, (data'.getD k []).getD o 0 = (data.getD k []).getD o 0 +
      ((circuits.filter fun c => literalEval c.name = some k).map fun c => ((lookupCounts results c.name).getD []).getD o 0).sum := by
  induction circuits generalizing data with
  | nil =>
    obtain rfl := Option.some.inj h
    simp [hwf]
  | cons c cs ih =>
    rw [List.foldlM_cons, addOne_single] at h
    cases hl : lookupCounts results c.name with
    | none => rw [hl] at h; cases h
    | some v =>
      cases hk : literalEval c.name with
      | none => rw [hl, hk] at h; cases h
      | some k0 =>
        rw [hl, hk] at h
        obtain ⟨r, hr, hv⟩ := lookupCounts_mem _ _ _ hl
        have hvw := hgood r hr _ _ hv
        obtain ⟨i1, i2, i3⟩ := ih (poolInto data k0 v) h (wf_poolInto _ hwf _ _)
        refine ⟨i1, ?_, ?_⟩
        · intro k
          rw [i2 k, keys_poolInto]
          constructor
          · rintro ((h | h) | ⟨c', h1, h2⟩)
            · exact .inl h
            · exact .inr ⟨c, by simp, by rw [hk, h]⟩
            · exact .inr ⟨c', by simp [h1], h2⟩
          · rintro (h | ⟨c', h1, h2⟩)
            · exact .inl (.inl h)
            · rcases List.mem_cons.1 h1 with rfl | h1
              · rw [hk] at h2; exact .inl (.inr (Option.some.inj h2).symm)
              · exact .inr ⟨c', h1, h2⟩
        · intro k o
          rw [i3 k o, getD_poolInto data k0 k v hvw o]
          by_cases e : k = k0
          · subst e
            rw [if_pos rfl, List.filter_cons, if_pos (by simp [hk]), List.map_cons, List.sum_cons, hl]
            simp only [Option.getD_some]
            ring
          · rw [if_neg e, List.filter_cons, if_neg (by simp [hk, Ne.symm e]), add_zero]

/-- Whether a call succeeds does not depend on the data already held. -/
theorem fold_addOne_ok (results : List (Str → Option Counts)) (circuits : List CircRef) (data : Dict Key Counts) :
    (circuits.foldlM (addOne results false) data).isSome = true ↔
      ∀ c ∈ circuits, (lookupCounts results c.name).isSome = true ∧ (literalEval c.name).isSome = true := by
  induction circuits generalizing data with
  | nil => simp
  | cons c cs ih =>
    rw [List.foldlM_cons, addOne_single]
    cases hl : lookupCounts results c.name with
    | none => simp [hl]
    | some v =>
      cases hk : literalEval c.name with
      | none => simp [hl, hk]
      | some k0 =>
        simp only [Option.bind_some, Option.map_some, Option.bind_eq_bind, List.forall_mem_cons, hl, hk, Option.isSome_some, true_and,
          and_self]
        exact ih _

theorem addData_single (data : Dict Key Counts) (call : Call) (hs : SingleRegister call) :
    addData data call.results call.circuits =
      if call.circuits = [] then none else call.circuits.foldlM (addOne call.results false) data := by
  unfold addData
  cases hc : call.circuits with
  | nil => rfl
  | cons c cs =>
    have := hs c (by rw [hc]; rfl)
    simp only [this]
    rw [if_neg (by simp)]

/-- **C57** (pooling).  After any history of successful `add_data` calls the fitter holds exactly the labels of the circuits given, and
for each label and outcome the sum over all calls and circuits of that label of their counts. -/
theorem C57_pools (calls : List Call) (hs : ∀ c ∈ calls, SingleRegister c) (hg : ∀ c ∈ calls, GoodResults c) (data : Dict Key Counts)
    (h : runCalls calls = some data) :
    Dict.WF data ∧ (∀ k, data.has k = true ↔ ∃ call ∈ calls, ∃ c ∈ call.circuits, literalEval c.name = some k) ∧
    ∀ k o, (data.getD k []).getD o 0 = (calls.map fun call => callTotal call k o).sum := by
  have gen : ∀ (calls : List Call) (d d' : Dict Key Counts), (∀ c ∈ calls, SingleRegister c) → (∀ c ∈ calls, GoodResults c) →
      Dict.WF d → calls.foldlM (fun d c => addData d c.results c.circuits) d = some d' →
      Dict.WF d' ∧ (∀ k, d'.has k = true ↔ d.has k = true ∨ ∃ call ∈ calls, ∃ c ∈ call.circuits, literalEval c.name = some k) ∧
      ∀ k o, (d'.getD k []).getD o 0 = (d.getD k []).getD o 0 + (calls.map fun call => callTotal call k o).sum := by
    intro calls
    induction calls with
    | nil =>
      intro d d' _ _ hwf h
      obtain rfl := Option.some.inj h
      simp [hwf]
    | cons call calls ih =>
      intro d d' hs hg hwf h
      rw [List.foldlM_cons, addData_single d call (hs call (by simp))] at h
      by_cases hne : call.circuits = []
      · rw [if_pos hne] at h; cases h
      · rw [if_neg hne] at h
        cases h1 : call.circuits.foldlM (addOne call.results false) d with
        | none => rw [h1] at h; cases h
        | some d1 =>
          rw [h1] at h
          obtain ⟨a1, a2, a3⟩ := fold_addOne call.results (hg call (by simp)) call.circuits d d1 h1 hwf
          obtain ⟨b1, b2, b3⟩ := ih d1 d' (fun c hc => hs c (by simp [hc])) (fun c hc => hg c (by simp [hc])) a1 h
          refine ⟨b1, ?_, ?_⟩
          · intro k
            rw [b2 k, a2 k]
            simp only [List.mem_cons, exists_eq_or_imp, or_assoc]
          · intro k o
            rw [b3 k o, a3 k o, List.map_cons, List.sum_cons]
            unfold callTotal
            ring
  obtain ⟨a, b, c⟩ := gen calls [] data hs hg Dict.wf_nil h
  refine ⟨a, fun k => ?_, fun k o => ?_⟩
  · rw [b k]; simp [Dict.has]
  · rw [c k o]; simp [Dict.getD]

/-- **C57** (order).  The calls may be made in any order: if one order succeeds so does every other, with the same labels and the same
counts. -/
theorem C57_order (calls calls' : List Call) (hp : calls.Perm calls') (hs : ∀ c ∈ calls, SingleRegister c)
    (hg : ∀ c ∈ calls, GoodResults c) (data : Dict Key Counts) (h : runCalls calls = some data) :
    ∃ data', runCalls calls' = some data' ∧ (∀ k, data'.has k = data.has k) ∧
      ∀ k o, (data'.getD k []).getD o 0 = (data.getD k []).getD o 0 := by
  have hs' : ∀ c ∈ calls', SingleRegister c := fun c hc => hs c (hp.mem_iff.2 hc)
  have hg' : ∀ c ∈ calls', GoodResults c := fun c hc => hg c (hp.mem_iff.2 hc)
  have ok : ∀ (calls : List Call) (d : Dict Key Counts), (∀ c ∈ calls, SingleRegister c) →
      ((calls.foldlM (fun d c => addData d c.results c.circuits) d).isSome = true ↔
        ∀ call ∈ calls, call.circuits ≠ [] ∧
          ∀ c ∈ call.circuits, (lookupCounts call.results c.name).isSome = true ∧ (literalEval c.name).isSome = true) := by
    intro calls
    induction calls with
    | nil => intro d _; simp
    | cons call calls ih =>
      intro d hs
      rw [List.foldlM_cons, addData_single d call (hs call (by simp)), List.forall_mem_cons]
      by_cases hne : call.circuits = []
      · simp [hne]
      · rw [if_neg hne]
        have h1 := fold_addOne_ok call.results call.circuits d
        cases h2 : call.circuits.foldlM (addOne call.results false) d with
        | none =>
          rw [h2] at h1
          simp only [Option.bind_eq_bind, Option.bind_none, Option.isSome_none, Bool.false_eq_true, false_iff] at h1 ⊢
          exact fun h => h1 h.1.2
        | some d1 =>
          rw [h2] at h1
          simp only [Option.bind_eq_bind, Option.bind_some]
          rw [ih d1 fun c hc => hs c (by simp [hc])]
          simp only [Option.isSome_some, true_iff] at h1
          exact ⟨fun h => ⟨⟨hne, h1⟩, h⟩, fun h => h.2⟩
  have hok : (runCalls calls').isSome = true := by
    unfold runCalls
    rw [ok calls' [] hs']
    have : (runCalls calls).isSome = true := by rw [h]; rfl
    unfold runCalls at this
    rw [ok calls [] hs] at this
    exact fun c hc => this c (hp.mem_iff.2 hc)
  obtain ⟨data', h'⟩ := Option.isSome_iff_exists.1 hok
  obtain ⟨_, a2, a3⟩ := C57_pools calls hs hg data h
  obtain ⟨_, b2, b3⟩ := C57_pools calls' hs' hg' data' h'
  refine ⟨data', h', fun k => ?_, fun k o => ?_⟩
  · rw [Bool.eq_iff_iff, a2 k, b2 k]
    constructor
    · rintro ⟨c, hc, r⟩; exact ⟨c, hp.mem_iff.2 hc, r⟩
    · rintro ⟨c, hc, r⟩; exact ⟨c, hp.mem_iff.1 hc, r⟩
  · rw [a3 k o, b3 k o]
    exact ((hp.map _).sum_eq).symm

/-- **C57** (rejection): no circuits, or a circuit none of the results know. -/
theorem C57_rejects (data : Dict Key Counts) (call : Call) (hs : SingleRegister call)
    (h : call.circuits = [] ∨ ∃ c ∈ call.circuits, lookupCounts call.results c.name = none) :
    addData data call.results call.circuits = none := by
  rw [addData_single data call hs]
  rcases h with h | ⟨c, hc, h⟩
  · rw [if_pos h]
  · split
    · rfl
    · have := fold_addOne_ok call.results call.circuits data
      rw [← Option.not_isSome_iff_eq_none, this]
      intro h2
      have := (h2 c hc).1
      rw [h] at this; cases this

/-- A result that knows one circuit name. -/
def oneResult (name : Str) (c : Counts) : Str → Option Counts := fun s => if s = name then some c else none

/-- Finding: results given in one call are not pooled: only the last one that has the circuit counts. -/
theorem C57_finding_last_result :
    addData [] [oneResult "('X',)".toList [("0".toList, 5)], oneResult "('X',)".toList [("0".toList, 7)]] [.str "('X',)".toList] =
      some [(.state ["X".toList], [("0".toList, 7)])] := by decide +kernel

/-- Finding: with several classical registers the number of bits kept for a state label is the length of its first letter, that is 1:
two-qubit data is reduced to one qubit. -/
theorem C57_finding_registers :
    addData [] [oneResult "('X', 'Z')".toList [("10".toList, 5), ("00".toList, 2)]] [.circ "('X', 'Z')".toList 2] =
      some [(.state ["X".toList, "Z".toList], [("0".toList, 7)])] := by decide +kernel

example : runCalls [⟨[oneResult "('X',)".toList [("0".toList, 5)]], [.str "('X',)".toList]⟩,
    ⟨[oneResult "('X',)".toList [("1".toList, 1), ("0".toList, 2)]], [.str "('X',)".toList]⟩] =
    some [(.state ["X".toList], [("0".toList, 7), ("1".toList, 1)])] := by decide +kernel

end Verif.Tomo
