import Verif.Calib.Iq
import Verif.Py.DictLemmas
import Verif.Py.SplitLemmas
set_option linter.unusedSimpArgs false
set_option linter.unusedVariables false
/-
C99, C100: the IQ data a calibration fitter fits.
-/
namespace Verif.Calib
open Verif

/-! ### C99: pooling -/

/-- The averaged value of a memory slot over everything measured under a name, every shot counting once. -/
noncomputable def poolMean (es : List Exp) (name : Str) (slot : ℕ) : Option ℂ :=
  let l := es.filter fun e => e.name = name
  let n := (l.map (·.shots)).sum
  if n = 0 ∨ ∃ e ∈ l, e.memory.length ≤ slot then none else
  some ((l.map fun e => (e.shots : ℂ) * e.memory.getD slot 0).sum / n)

/-- Averaged level-1 data: memories of one name are equally long. -/
def GoodData (len : Str → ℕ) (es : List Exp) : Prop := ∀ e ∈ es, e.level = 1 ∧ e.avg = true ∧ e.memory.length = len e.name

/-- The sum of one slot. -/
noncomputable def slotSum (L : List Exp) (name : Str) (slot : ℕ) : ℂ :=
  ((L.filter fun e => e.name = name).map fun e => (e.shots : ℂ) * e.memory.getD slot 0).sum

theorem slotSum_append (L : List Exp) (e : Exp) (name : Str) (slot : ℕ) :
    slotSum (L ++ [e]) name slot = slotSum L name slot + if e.name = name then (e.shots : ℂ) * e.memory.getD slot 0 else 0 := by
  unfold slotSum
  by_cases h : e.name = name <;> simp [h]

structure AccInv (len : Str → ℕ) (L : List Exp) (a : Acc) : Prop where
  ret : a.ret = if L = [] then none else some true
  shots : ∀ name, a.shots.getD name 0 = ((L.filter fun e => e.name = name).map (·.shots)).sum
  sums : ∀ name, a.sums.get? name = if (L.filter fun e => e.name = name) = [] then none else
    some (some ((List.range (len name)).map (slotSum L name)))

theorem addExp_inv (len : Str → ℕ) (L : List Exp) (a : Acc) (h : AccInv len L a) (r : JobRes) (e : Exp) (he : e.level = 1 ∧ e.avg = true ∧ e.memory.length = len e.name)
    (hm : getMemory r e.name = e.memory) : ∃ a', addExp r a e = some a' ∧ AccInv len (L ++ [e]) a' := by
  obtain ⟨h1, h2, h3⟩ := he
  have hret : a.ret.getD e.avg = true := by
    rw [h.ret, h2]; split <;> rfl
  have hold : a.sums.getD e.name (some (List.replicate (getMemory r e.name).length 0)) = some ((List.range (len e.name)).map (slotSum L e.name)) := by
    rw [Dict.getD, h.sums, hm, h3]
    split
    · rename_i hf
      rw [Option.getD_none]
      congr 1
      apply List.ext_getElem (by simp)
      intro i _ _
      simp [slotSum, hf]
    · rfl
  have hadd : vecAdd ((getMemory r e.name).map ((e.shots : ℂ) * ·)) ((List.range (len e.name)).map (slotSum L e.name))
      = some ((List.range (len e.name)).map (slotSum (L ++ [e]) e.name)) := by
    unfold vecAdd
    rw [hm, if_pos (by simp [h3])]
    congr 1
    apply List.ext_getElem (by simp [h3])
    intro i hi1 hi2
    have hi : i < len e.name := by simpa using hi2
    simp only [List.getElem_zipWith, List.getElem_map, List.getElem_range, slotSum_append, if_true]
    have hg : e.memory.getD i 0 = e.memory[i]'(by omega) := by
      rw [List.getD_eq_getElem?_getD, List.getElem?_eq_getElem (by omega)]; rfl
    rw [hg]
    ring
  refine ⟨⟨some true, a.shots.set e.name (e.shots + a.shots.getD e.name 0),
    a.sums.set e.name (some ((List.range (len e.name)).map (slotSum (L ++ [e]) e.name)))⟩, ?_, ?_, ?_, ?_⟩
  · unfold addExp
    dsimp only
    rw [hret, h2, if_neg (by simp [h1]), if_neg (by simp), if_pos rfl, hold]
    dsimp only
    rw [hadd]
  · simp
  · intro name
    rw [Dict.getD_set]
    by_cases hn : name = e.name
    · rw [hn, if_pos rfl, h.shots]; simp; omega
    · rw [if_neg (Ne.symm hn), h.shots]; simp [Ne.symm hn]
  · intro name
    rw [Dict.get?_set]
    by_cases hn : name = e.name
    · subst hn; simp
    · have hf : ((L ++ [e]).filter fun e => e.name = name) = L.filter fun e => e.name = name := by simp [Ne.symm hn]
      have hs : slotSum (L ++ [e]) name = slotSum L name := by funext s; rw [slotSum_append, if_neg (Ne.symm hn), add_zero]
      rw [if_neg (Ne.symm hn), h.sums, hf, hs]

theorem getMemory_nodup (r : JobRes) (hr : (r.map (·.name)).Nodup) (e : Exp) (he : e ∈ r) : getMemory r e.name = e.memory := by
  unfold getMemory
  induction r with
  | nil => simp at he
  | cons x r ih =>
    rw [List.map_cons, List.nodup_cons] at hr
    rw [List.find?_cons]
    by_cases hx : x.name = e.name
    · have : e = x := by
        rcases List.mem_cons.1 he with h | h
        · exact h
        · exact absurd (List.mem_map.2 ⟨e, h, rfl⟩) (hx ▸ hr.1)
      rw [this]; simp
    · rw [decide_eq_false hx]
      rcases List.mem_cons.1 he with h | h
      · exact absurd (by rw [h]) hx
      · exact ih hr.2 h

theorem foldExp_inv (len : Str → ℕ) (r : JobRes) (es : List Exp) (hes : ∀ e ∈ es, getMemory r e.name = e.memory) (hg : GoodData len es) :
    ∀ L a, AccInv len L a → ∃ a', es.foldlM (addExp r) a = some a' ∧ AccInv len (L ++ es) a' := by
  induction es with
  | nil => intro L a h; exact ⟨a, rfl, by simpa using h⟩
  | cons e es ih =>
    intro L a h
    obtain ⟨a1, h1, h2⟩ := addExp_inv len L a h r e (hg e (by simp)) (hes e (by simp))
    obtain ⟨a2, h3, h4⟩ := ih (fun x hx => hes x (by simp [hx])) (fun x hx => hg x (by simp [hx])) _ _ h2
    refine ⟨a2, ?_, by simpa using h4⟩
    rw [List.foldlM_cons, h1]
    exact h3

theorem buildIq_inv (len : Str → ℕ) (results : List JobRes) (hn : ∀ r ∈ results, (r.map (·.name)).Nodup) (hg : GoodData len results.flatten) :
    ∃ a, buildIq results = some a ∧ AccInv len results.flatten a := by
  have key : ∀ (rs : List JobRes), (∀ r ∈ rs, (r.map (·.name)).Nodup) → GoodData len rs.flatten → ∀ L a, AccInv len L a →
      ∃ a', rs.foldlM (fun a r => r.foldlM (addExp r) a) a = some a' ∧ AccInv len (L ++ rs.flatten) a' := by
    intro rs
    induction rs with
    | nil => intro _ _ L a h; exact ⟨a, rfl, by simpa using h⟩
    | cons r rs ih =>
      intro hn hg L a h
      obtain ⟨a1, h1, h2⟩ := foldExp_inv len r r (fun e he => getMemory_nodup r (hn r (by simp)) e he)
        (fun e he => hg e (by simp [he])) L a h
      obtain ⟨a2, h3, h4⟩ := ih (fun r' hr' => hn r' (by simp [hr'])) (fun e he => hg e (by
        rw [List.flatten_cons]; exact List.mem_append_right _ he)) _ _ h2
      refine ⟨a2, ?_, by simpa using h4⟩
      rw [List.foldlM_cons, h1]
      exact h3
  have := key results hn hg [] {} ⟨by simp, by intro name; rfl, by intro name; rfl⟩
  simpa [buildIq] using this

/-- **C99** Averaged data from any number of jobs: the value used for a schedule and a memory slot is the average over all shots
measured under that name. -/
theorem C99_pooled (len : Str → ℕ) (results : List JobRes) (hn : ∀ r ∈ results, (r.map (·.name)).Nodup) (hg : GoodData len results.flatten) :
    ∃ a, buildIq results = some a ∧ ∀ name slot, meanAt a name slot = poolMean results.flatten name slot := by
  obtain ⟨a, h1, h2⟩ := buildIq_inv len results hn hg
  refine ⟨a, h1, fun name slot => ?_⟩
  unfold meanAt poolMean
  rw [h2.sums, h2.shots]
  have hlen : ∀ e ∈ results.flatten.filter (fun e => e.name = name), e.memory.length = len name := by
    intro e he
    obtain ⟨h3, h4⟩ := List.mem_filter.1 he
    rw [(hg e h3).2.2, of_decide_eq_true h4]
  dsimp only
  by_cases hnil : (results.flatten.filter fun e => e.name = name) = []
  · rw [if_pos hnil, hnil]; simp
  · rw [if_neg hnil]
    obtain ⟨e0, he0⟩ := List.exists_mem_of_ne_nil _ hnil
    by_cases hs : slot < len name
    · have hex : ¬ ∃ e ∈ results.flatten.filter (fun e => e.name = name), e.memory.length ≤ slot := by
        rintro ⟨e, he, hle⟩
        rw [hlen e he] at hle
        omega
      simp only [hex, or_false]
      simp only [Option.bind_eq_bind, Option.bind_some]
      rw [List.getElem?_eq_getElem (by simpa using hs)]
      simp only [Option.bind_some, List.getElem_map, List.getElem_range, slotSum]
    · have hex : ∃ e ∈ results.flatten.filter (fun e => e.name = name), e.memory.length ≤ slot := ⟨e0, he0, by rw [hlen e0 he0]; omega⟩
      simp only [hex, or_true, if_true]
      simp only [Option.bind_eq_bind, Option.bind_some]
      rw [List.getElem?_eq_none (by simpa using hs)]
      rfl

theorem poolMean_perm {l l' : List Exp} (h : l.Perm l') (name : Str) (slot : ℕ) : poolMean l name slot = poolMean l' name slot := by
  unfold poolMean
  have hf := h.filter fun e => e.name = name
  have h1 := (hf.map (·.shots)).sum_eq
  have h2 := (hf.map fun e => (e.shots : ℂ) * e.memory.getD slot 0).sum_eq
  have h3 : (∃ e ∈ l.filter (fun e => e.name = name), e.memory.length ≤ slot) ↔ ∃ e ∈ l'.filter (fun e => e.name = name), e.memory.length ≤ slot := by
    simp only [hf.mem_iff]
  dsimp only
  rw [h1, h2]
  simp only [h3]

/-- **C99** How the schedules are spread over jobs, and their order, does not matter. -/
theorem C99_batching (len : Str → ℕ) (results results' : List JobRes) (hn : ∀ r ∈ results, (r.map (·.name)).Nodup)
    (hn' : ∀ r ∈ results', (r.map (·.name)).Nodup) (hg : GoodData len results.flatten) (hp : results.flatten.Perm results'.flatten)
    (names : List Str) (nq : ℕ) : calcIq results names nq = calcIq results' names nq := by
  obtain ⟨a, h1, h2⟩ := C99_pooled len results hn hg
  obtain ⟨a', h1', h2'⟩ := C99_pooled len results' hn' (fun e he => hg e (hp.mem_iff.2 he))
  unfold calcIq
  rw [h1, h1']
  simp only [Option.bind_eq_bind, Option.bind_some, h2, h2', poolMean_perm hp]

/-- Data of another level. -/
theorem addExp_level (r : JobRes) (a : Acc) (e : Exp) (h : e.level ≠ 1) : addExp r a e = none := by
  unfold addExp; rw [if_pos h]

theorem foldlM_none_mem {α β : Type} (f : β → α → Option β) (l : List α) (x : α) (hx : x ∈ l) (h : ∀ b, f b x = none) (b : β) : l.foldlM f b = none := by
  induction l generalizing b with
  | nil => simp at hx
  | cons y l ih =>
    rw [List.foldlM_cons]
    rcases List.mem_cons.1 hx with rfl | hm
    · rw [h]; rfl
    · cases f b y with
      | none => rfl
      | some b' => exact ih hm b'

/-- **C99** Data of another measurement level are refused. -/
theorem C99_level (results : List JobRes) (r : JobRes) (e : Exp) (hr : r ∈ results) (he : e ∈ r) (hl : e.level ≠ 1) (names : List Str) (nq : ℕ) :
    calcIq results names nq = none := by
  have h1 : ∀ b : Acc, r.foldlM (addExp r) b = none := fun b => foldlM_none_mem (addExp r) r e he (fun b' => addExp_level r b' e hl) b
  have : buildIq results = none := by
    unfold buildIq
    exact foldlM_none_mem (fun (b : Acc) (r' : JobRes) => List.foldlM (addExp r') b r') results r hr h1 {}
  unfold calcIq
  rw [this]
  rfl

/-- Two jobs, the first with twice the shots. -/
noncomputable def sampleJobs : List JobRes :=
  [[⟨['a'], 200, 1, true, [1, 2]⟩, ⟨['b'], 200, 1, true, [0, 3]⟩], [⟨['a'], 100, 1, true, [4, 2]⟩]]

example : (∀ r ∈ sampleJobs, (r.map (·.name)).Nodup) ∧ GoodData (fun _ => 2) sampleJobs.flatten ∧ poolMean sampleJobs.flatten ['a'] 0 = some 2 := by
  refine ⟨by decide, by simp [GoodData, sampleJobs], ?_⟩
  simp [poolMean, sampleJobs]
  norm_num

/-- Single-shot mode once, single-shot sums for ever. -/
theorem addExp_single (r : JobRes) (a a' : Acc) (e : Exp) (h : addExp r a e = some a')
    (ha : ∀ n v, a.sums.get? n = some v → v = none) (hr : a.ret ≠ some true) (he : e.avg = false) :
    (∀ n v, a'.sums.get? n = some v → v = none) ∧ a'.ret ≠ some true := by
  unfold addExp at h
  have hret : a.ret.getD e.avg = false := by
    cases hx : a.ret with
    | none => simpa using he
    | some b =>
      cases b with
      | false => rfl
      | true => exact absurd hx hr
  dsimp only at h
  rw [hret, he] at h
  split at h
  · cases h
  · rw [if_neg (by simp), if_neg (by simp)] at h
    cases h
    refine ⟨fun n v hv => ?_, by simp⟩
    rw [Dict.get?_set] at hv
    split at hv
    · exact (Option.some.inj hv).symm
    · exact ha n v hv

theorem addExp_mixed (r : JobRes) (a : Acc) (e : Exp) (hr : ∃ b, a.ret = some b ∧ b ≠ e.avg) : addExp r a e = none := by
  obtain ⟨b, h1, h2⟩ := hr
  unfold addExp
  dsimp only
  rw [h1, Option.getD_some]
  split
  · rfl
  · rfl

theorem addExp_ret (r : JobRes) (a a' : Acc) (e : Exp) (h : addExp r a e = some a') : a'.ret = some e.avg := by
  unfold addExp at h
  dsimp only at h
  split at h
  · cases h
  · rename_i h1
    split at h
    · cases h
    · rename_i h2
      have h2 : a.ret.getD e.avg = e.avg := not_not.1 h2
      rw [h2] at h
      split at h
      · split at h
        · cases h
        · split at h
          · cases h
          · cases h; rfl
      · cases h; rfl

/-- All experiments folded in agree with the mode. -/
theorem fold_ret (r : JobRes) (es : List Exp) : ∀ a a', es.foldlM (addExp r) a = some a' →
    (∀ e ∈ es, a'.ret = some e.avg) ∧ (a.ret = none ∨ a'.ret = a.ret) := by
  induction es with
  | nil =>
    intro a a' h
    have : a = a' := by simpa using h
    subst this
    exact ⟨by simp, .inr rfl⟩
  | cons e es ih =>
    intro a a' h
    rw [List.foldlM_cons] at h
    cases h1 : addExp r a e with
    | none => rw [h1] at h; cases h
    | some a1 =>
      rw [h1] at h
      obtain ⟨h2, h3⟩ := ih a1 a' h
      have h4 := addExp_ret r a a1 e h1
      have h5 : a'.ret = some e.avg := by
        rcases h3 with h3 | h3
        · rw [h4] at h3; cases h3
        · rw [h3, h4]
      refine ⟨fun x hx => ?_, ?_⟩
      · rcases List.mem_cons.1 hx with rfl | hm
        · exact h5
        · exact h2 x hm
      · cases hx : a.ret with
        | none => exact .inl rfl
        | some c =>
          right
          rw [h5]
          by_contra hne
          have : addExp r a e = none := addExp_mixed r a e ⟨c, hx, fun hc => hne (by rw [hc])⟩
          rw [this] at h1; cases h1

theorem buildIq_ret (rs : List JobRes) : ∀ a a', rs.foldlM (fun a r => r.foldlM (addExp r) a) a = some a' →
    (∀ e ∈ rs.flatten, a'.ret = some e.avg) ∧ (a.ret = none ∨ a'.ret = a.ret) := by
  induction rs with
  | nil =>
    intro a a' h
    have : a = a' := by simpa using h
    subst this
    exact ⟨by simp, .inr rfl⟩
  | cons r rs ih =>
    intro a a' h
    rw [List.foldlM_cons] at h
    cases h1 : r.foldlM (addExp r) a with
    | none => rw [h1] at h; cases h
    | some a1 =>
      rw [h1] at h
      obtain ⟨h2, h3⟩ := ih a1 a' h
      obtain ⟨h4, h5⟩ := fold_ret r r a a1 h1
      refine ⟨fun e he => ?_, ?_⟩
      · rw [List.flatten_cons] at he
        rcases List.mem_append.1 he with hm | hm
        · rcases h3 with h3 | h3
          · rw [h4 e hm] at h3; cases h3
          · rw [h3, h4 e hm]
        · exact h2 e hm
      · rcases h5 with h5 | h5
        · exact .inl h5
        · rcases h3 with h3 | h3
          · rw [h5] at h3; exact .inl h3
          · right; rw [h3, h5]

/-- **C99** Averaged and single-shot data are not mixed. -/
theorem C99_mixed (results : List JobRes) (e e' : Exp) (he : e ∈ results.flatten) (he' : e' ∈ results.flatten) (h : e.avg ≠ e'.avg)
    (names : List Str) (nq : ℕ) : calcIq results names nq = none := by
  unfold calcIq
  cases hb : buildIq results with
  | none => rfl
  | some a =>
    obtain ⟨h1, _⟩ := buildIq_ret results {} a hb
    have := (h1 e he).symm.trans (h1 e' he')
    exact absurd (Option.some.inj this) h

/-- **C99 (finding)** Single-shot data never work: although the fitter accepts and sums them, it then always fails, whenever there is
something to fit. -/
theorem C99_finding_single (results : List JobRes) (hs : ∀ r ∈ results, ∀ e ∈ r, e.avg = false) (names : List Str) (hne : names ≠ []) (nq : ℕ) (hq : 0 < nq) :
    calcIq results names nq = none := by
  have inner : ∀ (r : JobRes) (es : List Exp), (∀ e ∈ es, e.avg = false) → ∀ a a', es.foldlM (addExp r) a = some a' →
      (∀ n v, a.sums.get? n = some v → v = none) → a.ret ≠ some true → (∀ n v, a'.sums.get? n = some v → v = none) ∧ a'.ret ≠ some true := by
    intro r es
    induction es with
    | nil => intro _ a a' h h1 h2; have : a = a' := by simpa using h
             subst this; exact ⟨h1, h2⟩
    | cons e es ih =>
      intro he a a' h h1 h2
      rw [List.foldlM_cons] at h
      cases h3 : addExp r a e with
      | none => rw [h3] at h; cases h
      | some a1 =>
        rw [h3] at h
        obtain ⟨h4, h5⟩ := addExp_single r a a1 e h3 h1 h2 (he e (by simp))
        exact ih (fun x hx => he x (by simp [hx])) a1 a' h h4 h5
  have outer : ∀ (rs : List JobRes), (∀ r ∈ rs, ∀ e ∈ r, e.avg = false) → ∀ a a', rs.foldlM (fun a r => r.foldlM (addExp r) a) a = some a' →
      (∀ n v, a.sums.get? n = some v → v = none) → a.ret ≠ some true → (∀ n v, a'.sums.get? n = some v → v = none) ∧ a'.ret ≠ some true := by
    intro rs
    induction rs with
    | nil => intro _ a a' h h1 h2; have : a = a' := by simpa using h
             subst this; exact ⟨h1, h2⟩
    | cons r rs ih =>
      intro he a a' h h1 h2
      rw [List.foldlM_cons] at h
      cases h3 : r.foldlM (addExp r) a with
      | none => rw [h3] at h; cases h
      | some a1 =>
        rw [h3] at h
        obtain ⟨h4, h5⟩ := inner r r (he r (by simp)) a a1 h3 h1 h2
        exact ih (fun x hx => he x (by simp [hx])) a1 a' h h4 h5
  unfold calcIq
  cases hb : buildIq results with
  | none => rfl
  | some a =>
    obtain ⟨h1, _⟩ := outer results hs {} a hb (by intro n v hv; cases hv) (by simp)
    obtain ⟨n0, ns, rfl⟩ := List.exists_cons_of_ne_nil hne
    have hm : ∀ q, meanAt a n0 q = none := by
      intro q
      unfold meanAt
      cases hg : a.sums.get? n0 with
      | none => rfl
      | some v => rw [h1 n0 v hg]; rfl
    obtain ⟨k, rfl⟩ : ∃ k, nq = k + 1 := ⟨nq - 1, by omega⟩
    simp only [Option.bind_eq_bind, Option.bind_some, List.range_succ_eq_map, List.mapM_cons, hm]
    rfl

/-- **C99 (finding)** A name occurring twice in one job: the memory of the first occurrence is used for both. -/
theorem C99_finding_duplicate : ∃ a, buildIq [[⟨['a'], 100, 1, true, [1]⟩, ⟨['a'], 100, 1, true, [3]⟩]] = some a ∧ meanAt a ['a'] 0 = some 1
    ∧ poolMean [⟨['a'], 100, 1, true, [1]⟩, ⟨['a'], 100, 1, true, [3]⟩] ['a'] 0 = some 2 := by
  refine ⟨⟨some true, [(['a'], 200)], [(['a'], some [200])]⟩, ?_, ?_, ?_⟩
  · simp [buildIq, addExp, getMemory, vecAdd, Dict.getD, Dict.get?, Dict.set]
    norm_num
  · simp [meanAt, Dict.getD, Dict.get?]
  · simp [poolMean]; norm_num

/-! ### C100: projection -/

/-- The mean of real numbers. -/
noncomputable def rmean (ss : List ℝ) : ℝ := ss.sum / ss.length

theorem sum_map_line (ss : List ℝ) (z0 w : ℂ) : (ss.map fun s : ℝ => z0 + s * w).sum = ss.length * z0 + (ss.sum : ℝ) * w := by
  induction ss with
  | nil => simp
  | cons s ss ih =>
    rw [List.map_cons, List.sum_cons, ih, List.sum_cons, List.length_cons]
    push_cast
    ring

theorem mean_line (ss : List ℝ) (hne : ss ≠ []) (z0 w : ℂ) : mean (ss.map fun s : ℝ => z0 + s * w) = z0 + (rmean ss : ℂ) * w := by
  unfold mean rmean
  have : (ss.length : ℂ) ≠ 0 := by
    rw [Nat.cast_ne_zero]; exact fun h => hne (List.length_eq_zero_iff.1 h)
  rw [sum_map_line, List.length_map]
  push_cast
  field_simp

theorem ext_scale (l : List ℝ) (c : ℝ) : ext (l.map (· * c)) = |c| * ext l := by
  unfold ext
  have : ∀ l : List ℝ, ((l.map (· * c)).map abs).sum = |c| * (l.map abs).sum := by
    intro l
    induction l with
    | nil => simp
    | cons a l ih => simp only [List.map_cons, List.sum_cons, ih, abs_mul]; ring
  rw [this, List.length_map]
  ring

theorem ext_nonneg (l : List ℝ) : 0 ≤ ext l := by
  unfold ext
  refine div_nonneg (List.sum_nonneg fun x hx => ?_) (Nat.cast_nonneg _)
  obtain ⟨y, _, rfl⟩ := List.mem_map.1 hx
  exact abs_nonneg y

theorem ext_eq_zero (l : List ℝ) : ext l = 0 ↔ ∀ x ∈ l, x = 0 := by
  constructor
  · intro h x hx
    unfold ext at h
    have hl : (l.length : ℝ) ≠ 0 := by
      rw [Nat.cast_ne_zero]; exact fun h => (List.ne_nil_of_mem hx) (List.length_eq_zero_iff.1 h)
    rw [div_eq_zero_iff, or_iff_left hl] at h
    have hle : |x| ≤ (l.map abs).sum := List.single_le_sum (fun y hy => by
      obtain ⟨z, _, rfl⟩ := List.mem_map.1 hy; exact abs_nonneg z) _ (List.mem_map_of_mem hx)
    rw [h] at hle
    exact abs_nonpos_iff.1 hle
  · intro h
    have : l.map abs = l.map fun _ => 0 := List.map_congr_left fun x hx => by rw [h x hx, abs_zero]
    unfold ext
    rw [this]
    simp

/-- **C100** For readout values on a line in the IQ plane, at any angle: the fitter's signal is the position along the line relative
to the mean, times a factor that depends on the angle only. -/
theorem C100_line (ss : List ℝ) (z0 : ℂ) (θ : ℝ) (hne : ∃ s ∈ ss, s ≠ rmean ss) :
    project (ss.map fun s : ℝ => z0 + s * ⟨Real.cos θ, Real.sin θ⟩)
      = some (ss.map fun s => (|Real.cos θ| * Real.cos θ + |Real.sin θ| * Real.sin θ) * (s - rmean ss)) := by
  obtain ⟨s0, hs0, hs1⟩ := hne
  have hss : ss ≠ [] := List.ne_nil_of_mem hs0
  unfold project
  rw [if_neg (by simpa using hss), mean_line ss hss]
  dsimp only
  have hd : ((ss.map fun s : ℝ => z0 + s * ⟨Real.cos θ, Real.sin θ⟩).map fun x => x - (z0 + (rmean ss : ℂ) * ⟨Real.cos θ, Real.sin θ⟩))
      = ss.map fun s : ℝ => (⟨(s - rmean ss) * Real.cos θ, (s - rmean ss) * Real.sin θ⟩ : ℂ) := by
    rw [List.map_map]
    refine List.map_congr_left fun s _ => ?_
    apply Complex.ext
    · simp; ring
    · simp; ring
  rw [hd]
  have hre : ext ((ss.map fun s : ℝ => (⟨(s - rmean ss) * Real.cos θ, (s - rmean ss) * Real.sin θ⟩ : ℂ)).map Complex.re)
      = |Real.cos θ| * ext (ss.map (· - rmean ss)) := by
    rw [← ext_scale, List.map_map, List.map_map]; rfl
  have him : ext ((ss.map fun s : ℝ => (⟨(s - rmean ss) * Real.cos θ, (s - rmean ss) * Real.sin θ⟩ : ℂ)).map Complex.im)
      = |Real.sin θ| * ext (ss.map (· - rmean ss)) := by
    rw [← ext_scale, List.map_map, List.map_map]; rfl
  rw [hre, him]
  set E := ext (ss.map (· - rmean ss)) with hE
  have hE0 : 0 ≤ E := ext_nonneg _
  have hE1 : E ≠ 0 := by
    rw [hE, Ne, ext_eq_zero]
    intro h
    exact hs1 (sub_eq_zero.1 (h _ (List.mem_map_of_mem hs0)))
  have hn : Real.sqrt ((|Real.cos θ| * E) ^ 2 + (|Real.sin θ| * E) ^ 2) = E := by
    have : (|Real.cos θ| * E) ^ 2 + (|Real.sin θ| * E) ^ 2 = E ^ 2 := by
      rw [mul_pow, mul_pow, sq_abs, sq_abs, ← add_mul, Real.cos_sq_add_sin_sq, one_mul]
    rw [this, Real.sqrt_sq hE0]
  rw [hn, if_neg hE1, List.map_map]
  congr 1
  refine List.map_congr_left fun s _ => ?_
  simp only [Function.comp_apply]
  field_simp

/-- **C100** For a line along which both components grow together (or fall together), the signal is the position along the line, up to
an overall sign. -/
theorem C100_signal (ss : List ℝ) (z0 : ℂ) (θ : ℝ) (hne : ∃ s ∈ ss, s ≠ rmean ss) (hθ : 0 ≤ Real.cos θ * Real.sin θ) :
    ∃ σ : ℝ, (σ = 1 ∨ σ = -1) ∧ project (ss.map fun s : ℝ => z0 + s * ⟨Real.cos θ, Real.sin θ⟩) = some (ss.map fun s => σ * (s - rmean ss)) := by
  refine ⟨|Real.cos θ| * Real.cos θ + |Real.sin θ| * Real.sin θ, ?_, C100_line ss z0 θ hne⟩
  have h1 := Real.cos_sq_add_sin_sq θ
  rcases le_total 0 (Real.cos θ) with hc | hc <;> rcases le_total 0 (Real.sin θ) with hs | hs
  · left; rw [abs_of_nonneg hc, abs_of_nonneg hs]; nlinarith
  · have h0 : Real.cos θ * Real.sin θ = 0 := le_antisymm (mul_nonpos_of_nonneg_of_nonpos hc hs) hθ
    rcases mul_eq_zero.1 h0 with h | h
    · right; rw [h, abs_of_nonpos hs]; rw [h] at h1; nlinarith
    · left; rw [h, abs_of_nonneg hc]; rw [h] at h1; nlinarith
  · have h0 : Real.cos θ * Real.sin θ = 0 := le_antisymm (mul_nonpos_of_nonpos_of_nonneg hc hs) hθ
    rcases mul_eq_zero.1 h0 with h | h
    · left; rw [h, abs_of_nonneg hs]; rw [h] at h1; nlinarith
    · right; rw [h, abs_of_nonpos hc]; rw [h] at h1; nlinarith
  · right; rw [abs_of_nonpos hc, abs_of_nonpos hs]; nlinarith

/-- **C100** Data that are all equal give no signal (the projection divides zero by zero). -/
theorem C100_constant (zs : List ℂ) (z0 : ℂ) (h : ∀ z ∈ zs, z = z0) : project zs = none := by
  unfold project
  by_cases hne : zs = []
  · rw [if_pos hne]
  rw [if_neg hne]
  have hz : zs = List.replicate zs.length z0 := List.eq_replicate_iff.2 ⟨rfl, h⟩
  have hm : mean zs = z0 := by
    have hl : (zs.length : ℂ) ≠ 0 := by
      rw [Nat.cast_ne_zero]; exact fun h => hne (List.length_eq_zero_iff.1 h)
    unfold mean
    rw [hz, List.sum_replicate, List.length_replicate, nsmul_eq_mul]
    field_simp
  rw [hm]
  have hd : zs.map (· - z0) = zs.map fun _ => 0 := List.map_congr_left fun z hz => by rw [h z hz, sub_self]
  have hre : ext ((zs.map fun _ => (0 : ℂ)).map Complex.re) = 0 := (ext_eq_zero _).2 (by simp)
  have him : ext ((zs.map fun _ => (0 : ℂ)).map Complex.im) = 0 := (ext_eq_zero _).2 (by simp)
  dsimp only
  rw [hd, hre, him, if_pos (by simp)]

/-- **C100 (finding)** For readout values spread along the other diagonal of the IQ plane the signal is zero for every point: the two
components cancel. -/
theorem C100_finding_cancel (ss : List ℝ) (z0 : ℂ) (hne : ∃ s ∈ ss, s ≠ rmean ss) :
    project (ss.map fun s : ℝ => z0 + s * ⟨Real.cos (-(Real.pi / 4)), Real.sin (-(Real.pi / 4))⟩) = some (ss.map fun _ => 0) := by
  rw [C100_line ss z0 _ hne]
  congr 1
  refine List.map_congr_left fun s _ => ?_
  rw [Real.cos_neg, Real.sin_neg, Real.cos_pi_div_four, Real.sin_pi_div_four, abs_neg]
  ring

example : ∃ s ∈ [(0 : ℝ), 1, 2], s ≠ rmean [(0 : ℝ), 1, 2] := ⟨0, by simp, by norm_num [rmean]⟩
example : 0 ≤ Real.cos (Real.pi / 4) * Real.sin (Real.pi / 4) := by
  rw [Real.cos_pi_div_four, Real.sin_pi_div_four]; positivity

end Verif.Calib
