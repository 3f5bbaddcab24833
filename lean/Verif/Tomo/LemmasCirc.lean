import Verif.Tomo.Names
import Mathlib.Data.List.Nodup
/-
Lemmas about `_tomography_circuits`.
-/
namespace Verif.Tomo
open Verif

variable {ι : Type} [DecidableEq ι]

/-- Does the instruction act on this qubit? -/
def Op.on (q : ι) : Op ι → Bool
  | .gate _ q' => decide (q' = q)
  | .measure q' _ => decide (q' = q)
  | .barrier => false
  | .user _ => false

theorem mem_operatorTuples (ls : List Str) (n : ℕ) (l : List Str) :
    l ∈ operatorTuples ls n ↔ l.length = n ∧ ∀ a ∈ l, a ∈ ls := by
  induction n generalizing l with
  | zero =>
    simp only [operatorTuples, List.mem_singleton]
    constructor
    · rintro rfl; simp
    · rintro ⟨h, _⟩; exact List.length_eq_zero_iff.1 h
  | succ n ih =>
    simp only [operatorTuples, List.mem_flatMap, List.mem_map]
    constructor
    · rintro ⟨a, ha, t, ht, rfl⟩
      obtain ⟨h1, h2⟩ := (ih t).1 ht
      refine ⟨by simp [h1], ?_⟩
      intro b hb
      rcases List.mem_cons.1 hb with rfl | hb
      · exact ha
      · exact h2 b hb
    · rintro ⟨h1, h2⟩
      cases l with
      | nil => simp at h1
      | cons a t =>
        exact ⟨a, h2 a (by simp), t, (ih t).2 ⟨by simpa using h1, fun b hb => h2 b (by simp [hb])⟩, rfl⟩

theorem length_operatorTuples (ls : List Str) (n : ℕ) : (operatorTuples ls n).length = ls.length ^ n := by
  induction n with
  | zero => rfl
  | succ n ih =>
    simp only [operatorTuples, List.length_flatMap, List.length_map, ih]
    rw [List.map_const', List.sum_replicate, smul_eq_mul, pow_succ, mul_comm]

theorem nodup_operatorTuples (ls : List Str) (hls : ls.Nodup) (n : ℕ) : (operatorTuples ls n).Nodup := by
  induction n with
  | zero => simp [operatorTuples]
  | succ n ih =>
    simp only [operatorTuples]
    rw [List.nodup_flatMap]
    refine ⟨fun a _ => ih.map (fun x y h => by simpa using h), ?_⟩
    refine List.Pairwise.imp ?_ hls
    intro a b hab
    simp only [Function.onFun, List.disjoint_left, List.mem_map]
    rintro x ⟨t, _, rfl⟩ ⟨t', _, h⟩
    injection h with h1 h2
    exact hab h1.symm

theorem formatRegisters_eq (qs : List ι) (hne : qs ≠ []) (hnd : qs.Nodup) : formatRegisters qs = some qs := by
  unfold formatRegisters
  rw [if_neg hne, hnd.dedup]; simp

/-- The instructions of slot `j`. -/
def slot (g : ℕ → Str → ι → List (Op ι)) (l : List Str) (qs : List ι) (j : ℕ) : List (Op ι) :=
  match l[j]?, qs[j]? with
  | some a, some q => g j a q
  | _, _ => []

omit [DecidableEq ι] in
theorem labelledOps_eq (f : ℕ → Str → ι → Option (List (Op ι))) (g : ℕ → Str → ι → List (Op ι)) (l : List Str)
    (qs : List ι) (hl : l.length = qs.length) (hf : ∀ j, ∀ a ∈ l, ∀ q, f j a q = some (g j a q)) :
    labelledOps f l qs = some ((List.range qs.length).flatMap (slot g l qs)) := by
  unfold labelledOps
  rw [mapM_eq_some _ _ (slot g l qs)]
  · simp [List.flatMap_def]
  · intro j hj
    rw [List.mem_range] at hj
    have h1 : l[j]? = some l[j] := List.getElem?_eq_getElem (by omega)
    have h2 : qs[j]? = some qs[j] := List.getElem?_eq_getElem hj
    simp only [h1, h2, Option.bind_eq_bind, Option.bind_some, slot]
    exact hf j _ (List.getElem_mem _) _

theorem tomographyCircuits_eq (circuit : List (Op ι)) (mq pq : List ι) (prepared : Option (List ι))
    (measLabels prepLabels : Labels) (measBasis prepBasis : BasisArg ι)
    (meas : Option (Str → ι → Clbit → Option (List (Op ι)))) (prep : Option (Str → ι → Option (List (Op ι))))
    (mls pls : List (Option (List Str))) (P M : Option (List Str) → List (Op ι))
    (hmne : mq ≠ []) (hmnd : mq.Nodup) (hpq : prepared.getD mq = pq) (hpne : pq ≠ []) (hpnd : pq.Nodup)
    (hlen : pq.length = mq.length)
    (hmeas : measurementFn measBasis = some meas) (hprep : preparationFn prepBasis = some prep)
    (hm1 : meas.isSome ∨ measLabels = .none) (hp1 : prep.isSome ∨ prepLabels = .none)
    (hmls : generateLabels defaultMeasurementLabels measLabels mq.length = some mls)
    (hpls : generateLabels defaultPreparationLabels prepLabels mq.length = some pls)
    (hP : ∀ pl ∈ pls, prepPart prep pq pl = some (P pl)) (hM : ∀ ml ∈ mls, measPart meas mq ml = some (M ml)) :
    tomographyCircuits circuit mq prepared measLabels measBasis prepLabels prepBasis =
      some (pls.flatMap fun pl => mls.map fun ml => ⟨circName pl ml, P pl ++ circuit ++ M ml⟩) := by
  unfold tomographyCircuits
  have hc1 : ¬ ((meas.isNone && !measLabels.isNone) = true) := by
    rcases hm1 with h | h
    · cases meas <;> simp_all
    · subst h; simp [Labels.isNone]
  have hc2 : ¬ ((prep.isNone && !prepLabels.isNone) = true) := by
    rcases hp1 with h | h
    · cases prep <;> simp_all
    · subst h; simp [Labels.isNone]
  have hin : ∀ pl ∈ pls, (do
      let p ← prepPart prep pq pl
      mls.mapM fun ml => do
        let m ← measPart meas mq ml
        some (Circ.mk (circName pl ml) (p ++ circuit ++ m))) =
      some (mls.map fun ml => (⟨circName pl ml, P pl ++ circuit ++ M ml⟩ : Circ ι)) := by
    intro pl hpl
    rw [hP pl hpl]
    simp only [Option.bind_eq_bind, Option.bind_some]
    refine mapM_eq_some _ _ _ ?_
    intro ml hml
    rw [hM ml hml]; rfl
  simp only [formatRegisters_eq mq hmne hmnd, hpq, formatRegisters_eq pq hpne hpnd, Option.bind_eq_bind, Option.bind_some,
    hlen, ne_eq, not_true_eq_false, if_false, hmeas, hprep, hmls, hpls]
  rw [if_neg hc1, if_neg hc2]
  have := mapM_eq_some pls _ _ hin
  simp only [Option.bind_eq_bind] at this
  rw [this]
  simp [List.flatMap_def]

/-- A flatMap over a range in which only one index contributes. -/
theorem flatMap_range_single {α : Type} (n j : ℕ) (hj : j < n) (h : ℕ → List α) (h0 : ∀ i < n, i ≠ j → h i = []) :
    (List.range n).flatMap h = h j := by
  induction n with
  | zero => omega
  | succ n ih =>
    rw [List.range_succ, List.flatMap_append]
    by_cases e : j = n
    · subst e
      have : (List.range j).flatMap h = [] := by
        rw [List.flatMap_eq_nil_iff]
        intro i hi
        rw [List.mem_range] at hi
        exact h0 i (by omega) (by omega)
      simp [this]
    · rw [ih (by omega) (fun i hi hne => h0 i (by omega) hne)]
      simp [h0 n (by omega) (by omega)]

/-- The instructions of a labelled circuit on qubit `j` are those of slot `j`. -/
theorem filter_slots (g : ℕ → Str → ι → List (Op ι)) (l : List Str) (qs : List ι) (hl : l.length = qs.length)
    (hnd : qs.Nodup) (hg : ∀ j, ∀ a q, ∀ op ∈ g j a q, op.on q = true) (hg' : ∀ j, ∀ a q q', q ≠ q' → ∀ op ∈ g j a q, op.on q' = false)
    (j : ℕ) (hj : j < qs.length) :
    ((List.range qs.length).flatMap (slot g l qs)).filter (Op.on (qs[j])) = g j (l[j]'(by omega)) (qs[j]) := by
  rw [List.filter_flatMap, flatMap_range_single qs.length j hj]
  · simp only [slot, List.getElem?_eq_getElem hj, List.getElem?_eq_getElem (show j < l.length by omega)]
    rw [List.filter_eq_self]
    exact hg j _ _
  · intro i hi hne
    simp only [slot, List.getElem?_eq_getElem hi, List.getElem?_eq_getElem (show i < l.length by omega)]
    rw [List.filter_eq_nil_iff]
    intro op hop
    rw [hg' i _ _ (qs[j]) ?_ op hop]
    · simp
    · intro h
      exact hne ((List.Nodup.getElem_inj_iff hnd).1 h)

theorem mem_slots (g : ℕ → Str → ι → List (Op ι)) (l : List Str) (qs : List ι)
    (hg : ∀ j, ∀ a q, ∀ op ∈ g j a q, op.on q = true) (op : Op ι)
    (h : op ∈ (List.range qs.length).flatMap (slot g l qs)) : ∃ q ∈ qs, op.on q = true := by
  rw [List.mem_flatMap] at h
  obtain ⟨j, hj, h⟩ := h
  unfold slot at h
  split at h
  · rename_i a q _ hq
    exact ⟨q, List.mem_of_getElem? hq, hg j a q op h⟩
  · simp at h

end Verif.Tomo
