import Verif.Expval.SpecObjects
import Verif.Py.DictLemmas
import Mathlib.Data.List.Forall2
/-
The invariant of mitigator objects.
-/
namespace Verif.Expval.Obj
open Verif Verif.Counts Verif.Expval Verif.Expval.Ctmp

/-- A reference kept in an object: it denotes `M`, and a program that has it knows that it is shared. -/
def Held (known shared : List ℕ) (heap : List (Mat ℝ)) (r : ℕ) (M : Mat ℝ) : Prop :=
  heap[r]? = some M ∧ (r ∈ known → r ∈ shared)

theorem Held.arr {k s : List ℕ} {heap : List (Mat ℝ)} {r : ℕ} {M : Mat ℝ} (h : Held k s heap r M) : arr heap r = M := by
  simp [Obj.arr, h.1]

theorem Held.lt {k s : List ℕ} {heap : List (Mat ℝ)} {r : ℕ} {M : Mat ℝ} (h : Held k s heap r M) : r < heap.length :=
  (List.getElem?_eq_some_iff.1 h.1).1

theorem Held.append {k s : List ℕ} {heap : List (Mat ℝ)} {r : ℕ} {M : Mat ℝ} (h : Held k s heap r M) (new : List (Mat ℝ)) :
    Held k s (heap ++ new) r M := ⟨by rw [List.getElem?_append_left h.lt]; exact h.1, h.2⟩

theorem Held.new {k s : List ℕ} {heap : List (Mat ℝ)} (hk : ∀ r ∈ k, r < heap.length) (M : Mat ℝ) : Held k s (heap ++ [M]) heap.length M :=
  ⟨by simp, fun h => absurd (hk _ h) (lt_irrefl _)⟩

/-- An object is what it would be without caches, its references satisfying `P`. -/
def Rel (inv : ℕ → Mat ℝ → Mat ℝ) (P : ℕ → Mat ℝ → Prop) : MObj → Mitigator ℝ → Prop
  | .complete n amat cache, .complete n' A => n' = n ∧ P amat A ∧
      ∀ k r, cache.get? k = some r → ∃ m, completeAmat A n k = some m ∧ P r (inv (2 ^ k.length) m)
  | .tensored rs ms gs, .tensored As => List.Forall₂ P rs As ∧ List.Forall₂ P ms (As.map (inv 2)) ∧ gs = As.map tensoredGamma1
  | .ctmp n gens gm st bm, .ctmp n' gens' => n' = n ∧ gens' = gens ∧
      (∀ k r, gm.get? k = some r → ∃ g, generatorMatrix gens k = some g ∧ P r g) ∧
      (∀ k x, st.get? k = some x → ∃ g, generatorMatrix gens k = some g ∧ x = noiseStrength (2 ^ k.length) g) ∧
      (∀ k b, bm.get? k = some b → ∃ g, generatorMatrix gens k = some g ∧ b = samplingMatrix (2 ^ k.length) g)
  | _, _ => False

theorem Rel.mono {inv : ℕ → Mat ℝ → Mat ℝ} {P Q : ℕ → Mat ℝ → Prop} (hPQ : ∀ r M, P r M → Q r M) {o : MObj} {m : Mitigator ℝ} (h : Rel inv P o m) :
    Rel inv Q o m := by
  cases o <;> cases m <;> simp only [Rel] at h ⊢
  · obtain ⟨h1, h2, h3⟩ := h
    refine ⟨h1, hPQ _ _ h2, fun k r hk => ?_⟩
    obtain ⟨m, hm, hp⟩ := h3 k r hk
    exact ⟨m, hm, hPQ _ _ hp⟩
  · obtain ⟨h1, h2, h3⟩ := h
    exact ⟨h1.imp (hPQ · ·), h2.imp (hPQ · ·), h3⟩
  · obtain ⟨h1, h2, h3, h4, h5⟩ := h
    refine ⟨h1, h2, fun k r hk => ?_, h4, h5⟩
    obtain ⟨m, hm, hp⟩ := h3 k r hk
    exact ⟨m, hm, hPQ _ _ hp⟩

/-- What a call must satisfy. -/
structure AskOk (inv expm : ℕ → Mat ℝ → Mat ℝ) (k s : List ℕ) (heap : List (Mat ℝ)) (m : Mitigator ℝ) (q : MQuery) (obj' : MObj) (heap' : List (Mat ℝ))
    (ans : MAns) : Prop where
  grow : ∃ new, heap' = heap ++ new
  rel : Rel inv (Held k s heap') obj' m
  value : ans.value heap' = expected inv expm m q
  bound : ∀ r, ans = .array r → r < heap'.length
  fresh : ∀ r, ans = .array r → shares m q = false → heap.length ≤ r ∧ Rel inv (fun r' M => Held k s heap' r' M ∧ r' ≠ r) obj' m

theorem rel_append {inv : ℕ → Mat ℝ → Mat ℝ} {k s : List ℕ} {heap : List (Mat ℝ)} {o : MObj} {m : Mitigator ℝ} (h : Rel inv (Held k s heap) o m)
    (new : List (Mat ℝ)) : Rel inv (Held k s (heap ++ new)) o m := h.mono fun _ _ hr => hr.append new

theorem rel_fresh {inv : ℕ → Mat ℝ → Mat ℝ} {k s : List ℕ} {heap : List (Mat ℝ)} {o : MObj} {m : Mitigator ℝ} (h : Rel inv (Held k s heap) o m)
    (new : List (Mat ℝ)) : Rel inv (fun r' M => Held k s (heap ++ new) r' M ∧ r' ≠ heap.length) o m :=
  h.mono fun _ _ hr => ⟨hr.append new, fun e => absurd hr.lt (by omega)⟩

/-! ### Complete -/

theorem completeMitC_ok {inv : ℕ → Mat ℝ → Mat ℝ} {k s : List ℕ} {heap : List (Mat ℝ)} (hk : ∀ r ∈ k, r < heap.length) {n amat : ℕ}
    {cache : Dict (List ℕ) ℕ} {A : Mat ℝ} (h : Rel inv (Held k s heap) (.complete n amat cache) (.complete n A)) (qs : Option (List ℕ)) :
    (completeMitC inv n amat cache heap qs = none ∧ completeMit inv A n (qs.getD (List.range n)) = none) ∨
    ∃ r cache' heap' M, completeMitC inv n amat cache heap qs = some (r, cache', heap') ∧ completeMit inv A n (qs.getD (List.range n)) = some M ∧
      (∃ new, heap' = heap ++ new) ∧ heap'[r]? = some M ∧ Rel inv (Held k s heap') (.complete n amat cache') (.complete n A) := by
  have hrel := h
  obtain ⟨-, hA, hc⟩ := h
  unfold completeMitC completeMit
  generalize hkey : (qs.getD (List.range n)).insertionSort (· ≤ ·) = key
  have hlen : (qs.getD (List.range n)).length = key.length := by rw [← hkey, List.length_insertionSort]
  simp only [hlen, hA.arr]
  cases hg : cache.get? key with
  | some r =>
    obtain ⟨m, hm, hr⟩ := hc key r hg
    right
    refine ⟨r, cache, heap, inv (2 ^ key.length) m, ?_, ?_, ⟨[], by simp⟩, hr.1, hrel⟩
    · rfl
    · rw [hm]; rfl
  | none =>
    cases hm : completeAmat A n key with
    | none => left; exact ⟨rfl, rfl⟩
    | some m =>
      right
      refine ⟨heap.length, cache.set key heap.length, heap ++ [inv (2 ^ key.length) m], inv (2 ^ key.length) m, rfl, rfl, ⟨_, rfl⟩, by simp, rfl,
        hA.append _, fun k' r' hk' => ?_⟩
      rw [Dict.get?_set] at hk'
      by_cases he : k' = key
      · subst he
        simp at hk'
        subst hk'
        exact ⟨m, hm, Held.new hk _⟩
      · have : cache.get? k' = some r' := by
          simpa [he, Ne.symm he] using hk'
        obtain ⟨m', hm', hr'⟩ := hc k' r' this
        exact ⟨m', hm', hr'.append _⟩

theorem askComplete_ok {inv : ℕ → Mat ℝ → Mat ℝ} (expm : ℕ → Mat ℝ → Mat ℝ) {k s : List ℕ} {heap : List (Mat ℝ)} (hk : ∀ r ∈ k, r < heap.length) {n amat : ℕ}
    {cache : Dict (List ℕ) ℕ} {A : Mat ℝ} (h : Rel inv (Held k s heap) (.complete n amat cache) (.complete n A)) (q : MQuery) :
    AskOk inv expm k s heap (.complete n A) q (askComplete inv n amat cache heap q).1 (askComplete inv n amat cache heap q).2.1
      (askComplete inv n amat cache heap q).2.2 := by
  have hA := h.2.1
  cases q with
  | mit qs =>
    rcases completeMitC_ok hk h qs with ⟨h1, h2⟩ | ⟨r, c', heap', M, h1, h2, h3, h4, h5⟩
    · simp only [askComplete, h1]
      exact ⟨⟨[], by simp⟩, h, by simp [expected, h2, PAns.of, MAns.value], by simp, by simp⟩
    · simp only [askComplete, h1]
      refine ⟨h3, h5, by simp [expected, h2, PAns.of, MAns.value, arr, h4], fun r' hr' => ?_, fun r' _ hs => by simp [shares] at hs⟩
      cases hr'
      exact (List.getElem?_eq_some_iff.1 h4).1
  | amat qs =>
    cases qs with
    | none =>
      simp only [askComplete]
      refine ⟨⟨[], by simp⟩, h, by simp [expected, MAns.value, hA.arr], fun r' hr' => ?_, fun r' _ hs => by simp [shares] at hs⟩
      cases hr'
      exact hA.lt
    | some qs =>
      simp only [askComplete, hA.arr]
      cases hm : completeAmat A n qs with
      | none => exact ⟨⟨[], by simp⟩, h, by simp [expected, hm, PAns.of, MAns.value], by simp, by simp⟩
      | some m =>
        refine ⟨⟨_, rfl⟩, rel_append h _, by simp [expected, hm, PAns.of, MAns.value, arr], fun r' hr' => ?_, fun r' hr' _ => ?_⟩
        · cases hr'; simp
        · cases hr'; exact ⟨le_refl _, rel_fresh h _⟩
  | gamma qs =>
    rcases completeMitC_ok hk h qs with ⟨h1, h2⟩ | ⟨r, c', heap', M, h1, h2, h3, h4, h5⟩
    · simp only [askComplete, h1]
      exact ⟨⟨[], by simp⟩, h, by simp [expected, h2, PAns.of, MAns.value], by simp, by simp⟩
    · simp only [askComplete, h1]
      exact ⟨h3, h5, by simp [expected, h2, PAns.of, MAns.value, arr, h4], by simp, by simp⟩
  | expval counts diag qs clbits =>
    simp only [askComplete]
    cases hv : countsProbabilityVector (K := ℝ) counts qs clbits none with
    | none => exact ⟨⟨[], by simp⟩, h, by simp [expected, completeExpval, hv, PAns.of, MAns.value], by simp, by simp⟩
    | some v =>
      obtain ⟨w, probs, shots⟩ := v
      simp only
      rcases completeMitC_ok hk h (some (qs.getD (List.range w))) with ⟨h1, h2⟩ | ⟨r, c', heap', M, h1, h2, h3, h4, h5⟩
      · simp only [h1]
        simp only [Option.getD_some] at h2
        exact ⟨⟨[], by simp⟩, h, by simp [expected, completeExpval, hv, h2, PAns.of, MAns.value], by simp, by simp⟩
      · simp only [h1]
        simp only [Option.getD_some] at h2
        cases hd : diagOr w diag with
        | none => exact ⟨h3, h5, by simp [expected, completeExpval, hv, h2, hd, PAns.of, MAns.value], by simp, by simp⟩
        | some d => exact ⟨h3, h5, by simp [expected, completeExpval, hv, h2, hd, PAns.of, MAns.value, arr, h4], by simp, by simp⟩
  | gen qs => exact ⟨⟨[], by simp [askComplete]⟩, h, rfl, by simp [askComplete], by simp [askComplete]⟩
  | strength qs => exact ⟨⟨[], by simp [askComplete]⟩, h, rfl, by simp [askComplete], by simp [askComplete]⟩

/-! ### Tensored -/

theorem map_arr {k s : List ℕ} {heap : List (Mat ℝ)} {rs : List ℕ} {Ms : List (Mat ℝ)} (h : List.Forall₂ (Held k s heap) rs Ms) : rs.map (arr heap) = Ms := by
  induction h with
  | nil => rfl
  | cons hr _ ih => rw [List.map_cons, ih, hr.arr]

theorem forall2_getElem {k s : List ℕ} {heap : List (Mat ℝ)} {rs : List ℕ} {Ms : List (Mat ℝ)} (h : List.Forall₂ (Held k s heap) rs Ms) (q : ℕ) :
    (rs[q]? = none ∧ Ms[q]? = none) ∨ ∃ r M, rs[q]? = some r ∧ Ms[q]? = some M ∧ Held k s heap r M := by
  induction h generalizing q with
  | nil => left; simp
  | cons hr _ ih =>
    cases q with
    | zero => right; exact ⟨_, _, rfl, rfl, hr⟩
    | succ q => simpa using ih q

theorem tensoredMatC_ok {k s : List ℕ} {heap : List (Mat ℝ)} {rs : List ℕ} {Ms : List (Mat ℝ)} (h : List.Forall₂ (Held k s heap) rs Ms)
    (qs : Option (List ℕ)) :
    (tensoredMatC rs heap qs = none ∧ tensoredMatrix Ms qs = none) ∨
    ∃ r heap' M, tensoredMatC rs heap qs = some (r, heap') ∧ tensoredMatrix Ms qs = some M ∧ (∃ new, heap' = heap ++ new) ∧ heap'[r]? = some M.2 ∧
      (((qs.getD (List.range Ms.length)).length == 1) = false → r = heap.length) := by
  have hl : rs.length = Ms.length := h.length_eq
  have hq : tensoredMatrix Ms qs = tensoredMatrix Ms (some (qs.getD (List.range Ms.length))) := by simp [tensoredMatrix]
  rw [hq]
  unfold tensoredMatC
  rw [hl, map_arr h]
  have gen : ∀ l : List ℕ, (l.length == 1) = false →
      ((tensoredMatrix Ms (some l)).map (fun m => (heap.length, heap ++ [m.2])) = none ∧ tensoredMatrix Ms (some l) = none) ∨
      ∃ r heap' M, (tensoredMatrix Ms (some l)).map (fun m => (heap.length, heap ++ [m.2])) = some (r, heap') ∧ tensoredMatrix Ms (some l) = some M ∧
        (∃ new, heap' = heap ++ new) ∧ heap'[r]? = some M.2 ∧ ((l.length == 1) = false → r = heap.length) := by
    intro l _
    cases hm : tensoredMatrix Ms (some l) with
    | none => left; exact ⟨rfl, rfl⟩
    | some M => right; exact ⟨_, _, M, rfl, rfl, ⟨_, rfl⟩, by simp, fun _ => rfl⟩
  match qs.getD (List.range Ms.length) with
  | [] => exact gen [] rfl
  | [q] =>
    rcases forall2_getElem h q with ⟨h1, h2⟩ | ⟨r, M, h1, h2, h3⟩
    · left; simp [h1, tensoredMatrix, h2]
    · right
      refine ⟨r, heap, (2, M), by simp [h1], by simp [tensoredMatrix, h2], ⟨[], by simp⟩, h3.1, by simp⟩
  | a :: b :: l => exact gen (a :: b :: l) (by simp)

theorem mapM_map_get {α β : Type} (f : α → β) (l : List α) (qs : List ℕ) :
    (qs.mapM fun q => (l.map f)[q]?) = (qs.mapM fun q => l[q]?).map (List.map f) := by
  induction qs with
  | nil => rfl
  | cons q qs ih =>
    rw [List.mapM_cons, List.mapM_cons, ih, List.getElem?_map]
    cases l[q]? with
    | none => rfl
    | some x => cases (qs.mapM fun q => l[q]?) <;> rfl

theorem tensoredExpval_inv (inv : ℕ → Mat ℝ → Mat ℝ) (As : List (Mat ℝ)) (counts : Counts) (diag : Option (List ℝ)) (qs clbits : Option (List ℕ)) :
    tensoredExpval (fun _ M => M) (As.map (inv 2)) counts diag qs clbits = tensoredExpval inv As counts diag qs clbits := by
  have : listedInverses (fun _ M => M) (As.map (inv 2)) qs = listedInverses inv As qs := by
    cases qs with
    | none => simp [listedInverses]
    | some qs =>
      simp only [listedInverses, List.getElem?_map, Option.map_map]
      rfl
  unfold tensoredExpval
  rw [this]

theorem askTensored_ok {inv : ℕ → Mat ℝ → Mat ℝ} (expm : ℕ → Mat ℝ → Mat ℝ) {k s : List ℕ} {heap : List (Mat ℝ)} {rs ms : List ℕ} {gs : List ℝ}
    {As : List (Mat ℝ)} (h : Rel inv (Held k s heap) (.tensored rs ms gs) (.tensored As)) (q : MQuery) :
    AskOk inv expm k s heap (.tensored As) q (.tensored rs ms gs) (askTensored rs ms gs heap q).1 (askTensored rs ms gs heap q).2 := by
  have hrel := h
  obtain ⟨h1, h2, h3⟩ := h
  cases q with
  | mit qs =>
    rcases tensoredMatC_ok h2 qs with ⟨e1, e2⟩ | ⟨r, heap', M, e1, e2, ⟨new, e3⟩, e4, e5⟩
    · simp only [askTensored, e1]
      exact ⟨⟨[], by simp⟩, hrel, by simp [expected, tensoredMit, e2, PAns.of, MAns.value], by simp, by simp⟩
    · subst e3
      simp only [askTensored, e1]
      refine ⟨⟨_, rfl⟩, rel_append hrel _, by simp [expected, tensoredMit, e2, PAns.of, MAns.value, arr, e4], fun r' hr' => ?_, fun r' hr' hs => ?_⟩
      · cases hr'; exact (List.getElem?_eq_some_iff.1 e4).1
      · cases hr'
        have := e5 (by simpa [shares] using hs)
        subst this
        exact ⟨le_refl _, rel_fresh hrel _⟩
  | amat qs =>
    rcases tensoredMatC_ok h1 qs with ⟨e1, e2⟩ | ⟨r, heap', M, e1, e2, ⟨new, e3⟩, e4, e5⟩
    · simp only [askTensored, e1]
      exact ⟨⟨[], by simp⟩, hrel, by simp [expected, e2, PAns.of, MAns.value], by simp, by simp⟩
    · subst e3
      simp only [askTensored, e1]
      refine ⟨⟨_, rfl⟩, rel_append hrel _, by simp [expected, e2, PAns.of, MAns.value, arr, e4], fun r' hr' => ?_, fun r' hr' hs => ?_⟩
      · cases hr'; exact (List.getElem?_eq_some_iff.1 e4).1
      · cases hr'
        have := e5 (by simpa [shares] using hs)
        subst this
        exact ⟨le_refl _, rel_fresh hrel _⟩
  | gamma qs =>
    cases qs with
    | none => exact ⟨⟨[], by simp [askTensored]⟩, hrel, by simp [askTensored, expected, tensoredGamma, PAns.of, MAns.value, h3], by simp [askTensored], by simp [askTensored]⟩
    | some qs =>
      have hm := mapM_map_get tensoredGamma1 As qs
      simp only [askTensored, h3, hm]
      cases hx : (qs.mapM fun q => As[q]?) with
      | none => exact ⟨⟨[], by simp⟩, h3 ▸ hrel, by simp [expected, tensoredGamma, hx, PAns.of, MAns.value], by simp, by simp⟩
      | some l => exact ⟨⟨[], by simp⟩, h3 ▸ hrel, by simp [expected, tensoredGamma, hx, PAns.of, MAns.value], by simp, by simp⟩
  | expval counts diag qs clbits =>
    simp only [askTensored, map_arr h2, tensoredExpval_inv]
    cases hx : tensoredExpval inv As counts diag qs clbits with
    | none => exact ⟨⟨[], by simp⟩, hrel, by simp [expected, hx, PAns.of, MAns.value], by simp, by simp⟩
    | some l => exact ⟨⟨[], by simp⟩, hrel, by simp [expected, hx, PAns.of, MAns.value], by simp, by simp⟩
  | gen qs => exact ⟨⟨[], by simp [askTensored]⟩, hrel, rfl, by simp [askTensored], by simp [askTensored]⟩
  | strength qs => exact ⟨⟨[], by simp [askTensored]⟩, hrel, rfl, by simp [askTensored], by simp [askTensored]⟩

/-! ### CTMP -/

def CtmpCache.obj (c : CtmpCache) (n : ℕ) (gens : List (Gen × ℝ)) : MObj := .ctmp n gens c.gmats c.strengths c.bmats

variable {inv : ℕ → Mat ℝ → Mat ℝ} {k s : List ℕ} {n : ℕ} {gens : List (Gen × ℝ)}

theorem genMatC_ok {heap : List (Mat ℝ)} (hk : ∀ r ∈ k, r < heap.length) {c : CtmpCache} (h : Rel inv (Held k s heap) (c.obj n gens) (.ctmp n gens))
    (key : List ℕ) :
    (genMatC gens c heap key = none ∧ generatorMatrix gens key = none) ∨
    ∃ r c' heap' g, genMatC gens c heap key = some (r, c', heap') ∧ generatorMatrix gens key = some g ∧
      (∃ new, heap' = heap ++ new) ∧ heap'[r]? = some g ∧ Rel inv (Held k s heap') (c'.obj n gens) (.ctmp n gens) := by
  have hrel := h
  obtain ⟨-, -, hg, hst, hb⟩ := h
  unfold genMatC
  cases hx : c.gmats.get? key with
  | some r =>
    obtain ⟨g, hm, hr⟩ := hg key r hx
    right
    exact ⟨r, c, heap, g, rfl, hm, ⟨[], by simp⟩, hr.1, hrel⟩
  | none =>
    cases hm : generatorMatrix gens key with
    | none => left; exact ⟨rfl, rfl⟩
    | some g =>
      right
      refine ⟨_, _, _, g, rfl, rfl, ⟨_, rfl⟩, by simp, rfl, rfl, fun k' r' hk' => ?_, hst, hb⟩
      simp only [Dict.get?_set] at hk'
      by_cases he : k' = key
      · subst he
        simp at hk'
        subst hk'
        exact ⟨g, hm, Held.new hk _⟩
      · have : c.gmats.get? k' = some r' := by simpa [he, Ne.symm he] using hk'
        obtain ⟨m', hm', hr'⟩ := hg k' r' this
        exact ⟨m', hm', hr'.append _⟩

theorem bounded_append {heap heap' : List (Mat ℝ)} (hk : ∀ r ∈ k, r < heap.length) (h : ∃ new, heap' = heap ++ new) : ∀ r ∈ k, r < heap'.length := by
  obtain ⟨new, rfl⟩ := h
  intro r hr
  have := hk r hr
  simp only [List.length_append]; omega

theorem strengthC_ok {heap : List (Mat ℝ)} (hk : ∀ r ∈ k, r < heap.length) {c : CtmpCache} (h : Rel inv (Held k s heap) (c.obj n gens) (.ctmp n gens))
    (key : List ℕ) :
    (strengthC gens c heap key = none ∧ generatorMatrix gens key = none) ∨
    ∃ c' heap' g, strengthC gens c heap key = some (noiseStrength (2 ^ key.length) g, c', heap') ∧ generatorMatrix gens key = some g ∧
      (∃ new, heap' = heap ++ new) ∧ Rel inv (Held k s heap') (c'.obj n gens) (.ctmp n gens) := by
  unfold strengthC
  cases hx : c.strengths.get? key with
  | some x =>
    obtain ⟨g, hm, rfl⟩ := h.2.2.2.1 key x hx
    right
    exact ⟨c, heap, g, rfl, hm, ⟨[], by simp⟩, h⟩
  | none =>
    rcases genMatC_ok hk h key with ⟨h1, h2⟩ | ⟨r, c', heap', g, h1, h2, h3, h4, h5⟩
    · left; simp [h1, h2]
    · right
      have ha : arr heap' r = g := by simp [arr, h4]
      refine ⟨{ c' with strengths := c'.strengths.set key (noiseStrength (2 ^ key.length) g) }, heap', g, by simp only [h1, ha], h2, h3, ?_⟩
      obtain ⟨-, -, hg, hst, hb⟩ := h5
      refine ⟨rfl, rfl, hg, fun k' x' hk' => ?_, hb⟩
      simp only [Dict.get?_set] at hk'
      by_cases he : k' = key
      · subst he
        simp at hk'
        exact ⟨g, h2, hk'.symm⟩
      · exact hst k' x' (by simpa [he, Ne.symm he] using hk')

theorem samplingC_ok {heap : List (Mat ℝ)} (hk : ∀ r ∈ k, r < heap.length) {c : CtmpCache} (h : Rel inv (Held k s heap) (c.obj n gens) (.ctmp n gens))
    (key : List ℕ) :
    (samplingC gens c heap key = none ∧ generatorMatrix gens key = none) ∨
    ∃ c' heap' g, samplingC gens c heap key = some (samplingMatrix (2 ^ key.length) g, c', heap') ∧ generatorMatrix gens key = some g ∧
      (∃ new, heap' = heap ++ new) ∧ Rel inv (Held k s heap') (c'.obj n gens) (.ctmp n gens) := by
  unfold samplingC
  cases hx : c.bmats.get? key with
  | some x =>
    obtain ⟨g, hm, rfl⟩ := h.2.2.2.2 key x hx
    right
    exact ⟨c, heap, g, rfl, hm, ⟨[], by simp⟩, h⟩
  | none =>
    rcases genMatC_ok hk h key with ⟨h1, h2⟩ | ⟨r, c', heap', g, h1, h2, h3, h4, h5⟩
    · left; simp [h1, h2]
    · right
      rcases strengthC_ok (bounded_append hk h3) h5 key with ⟨e1, e2⟩ | ⟨c2, heap2, g2, e1, e2, e3, e4⟩
      · rw [h2] at e2; cases e2
      · rw [h2] at e2; cases e2
        obtain ⟨new, rfl⟩ := e3
        have ha : arr (heap' ++ new) r = g := by
          simp [arr, List.getElem?_append_left (List.getElem?_eq_some_iff.1 h4).1, h4]
        refine ⟨{ c2 with bmats := c2.bmats.set key (samplingMatrix (2 ^ key.length) g) }, heap' ++ new, g, ?_, h2, ?_, ?_⟩
        · simp only [h1, e1, ha]
          rfl
        · obtain ⟨new', rfl⟩ := h3
          exact ⟨new' ++ new, by simp⟩
        · obtain ⟨-, -, hg, hst, hb⟩ := e4
          refine ⟨rfl, rfl, hg, hst, fun k' x' hk' => ?_⟩
          simp only [Dict.get?_set] at hk'
          by_cases he : k' = key
          · subst he
            simp at hk'
            exact ⟨g, h2, hk'.symm⟩
          · exact hb k' x' (by simpa [he, Ne.symm he] using hk')

theorem generatorMatrix_key (n : ℕ) (qs : Option (List ℕ)) : generatorMatrix gens (ctmpKey n qs) = generatorMatrix gens (qs.getD (List.range n)) := by
  unfold generatorMatrix ctmpKey
  rw [List.Pairwise.insertionSort_eq (List.pairwise_insertionSort (· ≤ ·) _)]

theorem length_key (n : ℕ) (qs : Option (List ℕ)) : (ctmpKey n qs).length = (qs.getD (List.range n)).length := List.length_insertionSort ..

theorem width_listed (counts : Counts) (l : List ℕ) (clbits : Option (List ℕ)) (m : Option ℕ) {w : ℕ} {probs : ℕ → ℝ} {shots : ℤ}
    (h : countsProbabilityVector (K := ℝ) counts (some l) clbits m = some (w, probs, shots)) : w = l.length := by
  unfold countsProbabilityVector at h
  simp only [Option.bind_eq_bind, Option.bind_eq_some_iff] at h
  obtain ⟨_, _, w', _, _, _, h⟩ := h
  split_ifs at h with hl
  · simp only [Option.pure_def, Option.some.injEq, Prod.mk.injEq] at h
    push Not at hl
    omega

theorem askCtmp_ok (expm : ℕ → Mat ℝ → Mat ℝ) {heap : List (Mat ℝ)} (hk : ∀ r ∈ k, r < heap.length) {c : CtmpCache}
    (h : Rel inv (Held k s heap) (c.obj n gens) (.ctmp n gens)) (q : MQuery) :
    AskOk inv expm k s heap (.ctmp n gens) q ((askCtmp expm n gens c heap q).1.obj n gens) (askCtmp expm n gens c heap q).2.1
      (askCtmp expm n gens c heap q).2.2 := by
  cases q with
  | gen qs =>
    have hgk := generatorMatrix_key (gens := gens) n qs
    rcases genMatC_ok hk h (ctmpKey n qs) with ⟨h1, h2⟩ | ⟨r, c', heap', g, h1, h2, h3, h4, h5⟩
    · simp only [askCtmp, h1]
      exact ⟨⟨[], by simp⟩, h, by simp [expected, ← hgk, h2, PAns.of, MAns.value], by simp, by simp⟩
    · simp only [askCtmp, h1]
      refine ⟨h3, h5, by simp [expected, ← hgk, h2, PAns.of, MAns.value, arr, h4], fun r' hr' => ?_, fun r' _ hs => by simp [shares] at hs⟩
      cases hr'
      exact (List.getElem?_eq_some_iff.1 h4).1
  | mit qs =>
    have hgk := generatorMatrix_key (gens := gens) n qs
    have hlk := length_key n qs
    rcases genMatC_ok hk h (ctmpKey n qs) with ⟨h1, h2⟩ | ⟨r, c', heap', g, h1, h2, ⟨new, h3⟩, h4, h5⟩
    · simp only [askCtmp, h1]
      exact ⟨⟨[], by simp⟩, h, by simp [expected, ← hgk, h2, PAns.of, MAns.value], by simp, by simp⟩
    · have ha : arr heap' r = g := by simp [arr, h4]
      simp only [askCtmp, h1, ha]
      refine ⟨⟨new ++ _, by rw [h3, List.append_assoc]⟩, rel_append h5 _, by simp [expected, ← hgk, ← hlk, h2, PAns.of, MAns.value, arr], fun r' hr' => ?_, fun r' hr' hs => ?_⟩
      · cases hr'; simp
      · cases hr'
        exact ⟨by rw [h3]; simp, rel_fresh h5 _⟩
  | amat qs =>
    have hgk := generatorMatrix_key (gens := gens) n qs
    have hlk := length_key n qs
    rcases genMatC_ok hk h (ctmpKey n qs) with ⟨h1, h2⟩ | ⟨r, c', heap', g, h1, h2, ⟨new, h3⟩, h4, h5⟩
    · simp only [askCtmp, h1]
      exact ⟨⟨[], by simp⟩, h, by simp [expected, ← hgk, h2, PAns.of, MAns.value], by simp, by simp⟩
    · have ha : arr heap' r = g := by simp [arr, h4]
      simp only [askCtmp, h1, ha]
      refine ⟨⟨new ++ _, by rw [h3, List.append_assoc]⟩, rel_append h5 _, by simp [expected, ← hgk, ← hlk, h2, PAns.of, MAns.value, arr], fun r' hr' => ?_, fun r' hr' hs => ?_⟩
      · cases hr'; simp
      · cases hr'
        exact ⟨by rw [h3]; simp, rel_fresh h5 _⟩
  | strength qs =>
    have hgk := generatorMatrix_key (gens := gens) n qs
    have hlk := length_key n qs
    rcases strengthC_ok hk h (ctmpKey n qs) with ⟨h1, h2⟩ | ⟨c', heap', g, h1, h2, h3, h5⟩
    · simp only [askCtmp, h1]
      exact ⟨⟨[], by simp⟩, h, by simp [expected, ← hgk, h2, PAns.of, MAns.value], by simp, by simp⟩
    · simp only [askCtmp, h1]
      exact ⟨h3, h5, by simp [expected, ← hgk, ← hlk, h2, PAns.of, MAns.value], by simp, by simp⟩
  | gamma qs =>
    cases qs with
    | some qs => exact ⟨⟨[], by simp [askCtmp]⟩, h, rfl, by simp [askCtmp], by simp [askCtmp]⟩
    | none =>
      have hgk := generatorMatrix_key (gens := gens) n none
      have hlk := length_key n none
      simp only [Option.getD_none, List.length_range] at hgk hlk
      rcases strengthC_ok hk h (ctmpKey n none) with ⟨h1, h2⟩ | ⟨c', heap', g, h1, h2, h3, h5⟩
      · simp only [askCtmp, h1]
        exact ⟨⟨[], by simp⟩, h, by simp [expected, ← hgk, h2, PAns.of, MAns.value], by simp, by simp⟩
      · simp only [askCtmp, h1]
        exact ⟨h3, h5, by simp [expected, ← hgk, hlk, h2, PAns.of, MAns.value], by simp, by simp⟩
  | expval counts diag qs clbits =>
    have hgk := generatorMatrix_key (gens := gens) n qs
    have hlk := length_key n qs
    simp only [askCtmp]
    cases hv : countsProbabilityVector (K := ℝ) counts (some (qs.getD (List.range n))) clbits (some (qs.getD (List.range n)).length) with
    | none => exact ⟨⟨[], by simp⟩, h, by simp [expected, ctmpCall, hv, PAns.of, MAns.value], by simp, by simp⟩
    | some v =>
      obtain ⟨w, probs, shots⟩ := v
      have hw := width_listed _ _ _ _ hv
      simp only
      cases hd : diagOr w diag with
      | none => exact ⟨⟨[], by simp⟩, h, by simp [expected, ctmpCall, hv, hd, PAns.of, MAns.value], by simp, by simp⟩
      | some d =>
        simp only
        rcases strengthC_ok hk h (ctmpKey n qs) with ⟨h1, h2⟩ | ⟨c1, heap1, g, h1, h2, h3, h5⟩
        · simp only [h1]
          exact ⟨⟨[], by simp⟩, h, by simp [expected, ctmpCall, hv, ← hgk, h2, PAns.of, MAns.value], by simp, by simp⟩
        · simp only [h1]
          rcases samplingC_ok (bounded_append hk h3) h5 (ctmpKey n qs) with ⟨e1, e2⟩ | ⟨c2, heap2, g2, e1, e2, ⟨new2, e3⟩, e4⟩
          · rw [h2] at e2; cases e2
          · rw [h2] at e2; cases e2
            simp only [e1]
            obtain ⟨new, h3⟩ := h3
            refine ⟨⟨new ++ new2, by rw [e3, h3, List.append_assoc]⟩, e4, ?_, by simp, by simp⟩
            simp [hlk, ← hw]
            simp [expected, ctmpCall, hv, hd, ← hgk, h2, PAns.of, MAns.value]

end Verif.Expval.Obj
