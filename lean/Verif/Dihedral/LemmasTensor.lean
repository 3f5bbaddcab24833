import Verif.Dihedral.LemmasEq
import Mathlib.LinearAlgebra.Matrix.Block
/-
The tensor product of elements.
-/
set_option linter.unusedSimpArgs false
set_option linter.unusedVariables false
namespace Verif.Dihedral
open Verif.Quantum

theorem foldlM_flatMap {α β γ : Type} (F : β → List γ) (step : α → γ → Option α) (L : List β) (a : α) :
    L.foldlM (fun a b => (F b).foldlM step a) a = (L.flatMap F).foldlM step a := by
  induction L generalizing a with
  | nil => rfl
  | cons b L ih =>
    rw [List.foldlM_cons, List.flatMap_cons, List.foldlM_append]
    cases (F b).foldlM step a with
    | none => rfl
    | some a' => exact ih a'

/-- The order in which the loops of `_tensor` visit the terms. -/
def visits (m : ℕ) : List (List ℕ) :=
  (List.range m).flatMap fun i => [i] :: (List.range i).flatMap fun j => [j, i] :: (List.range j).map fun k => [k, j, i]

/-- One copy. -/
def copyStep {m n : ℕ} (src : Poly m) (s : ℕ) (d : Poly n) (t : List ℕ) : Option (Poly n) := do
  let v ← getTerm src t
  setTerm d (t.map (· + s)) v

theorem copyTerms_eq {m n : ℕ} (src : Poly m) (s : ℕ) (dst : Poly n) :
    copyTerms src s dst = (visits m).foldlM (copyStep src s) dst := by
  unfold copyTerms visits
  rw [← foldlM_flatMap]
  congr 1
  funext d i
  rw [List.foldlM_cons]
  unfold copyStep
  simp only [Option.bind_eq_bind, List.map_cons, List.map_nil, Option.bind_assoc]
  congr 1; funext v
  congr 1; funext d
  rw [← foldlM_flatMap]
  congr 1
  funext d j
  rw [List.foldlM_cons]
  simp only [Option.bind_eq_bind, List.map_cons, List.map_nil, Option.bind_assoc]
  congr 1; funext v
  congr 1; funext d
  rw [List.foldlM_map]
  rfl

theorem mem_visits {m : ℕ} {t : List ℕ} : t ∈ visits m ↔ Valid m t ∧ t ≠ [] := by
  unfold visits
  simp only [List.mem_flatMap, List.mem_range, List.mem_cons, List.mem_map]
  constructor
  · rintro ⟨i, hi, rfl | ⟨j, hj, rfl | ⟨k, hk, rfl⟩⟩⟩ <;> refine ⟨?_, by simp⟩ <;> unfold Valid <;> simp <;> omega
  · rintro ⟨h, hne⟩
    rcases valid_cases h with rfl | ⟨i, rfl, hi⟩ | ⟨i, j, rfl, hij, hj⟩ | ⟨i, j, k, rfl, hij, hjk, hk⟩
    · exact absurd rfl hne
    · exact ⟨i, hi, Or.inl rfl⟩
    · exact ⟨j, hj, Or.inr ⟨i, hij, Or.inl rfl⟩⟩
    · exact ⟨k, hk, Or.inr ⟨j, hjk, Or.inr ⟨i, hij, rfl⟩⟩⟩

theorem nodup_visits (m : ℕ) : (visits m).Nodup := by
  unfold visits
  rw [List.nodup_flatMap]
  constructor
  · intro i hi
    rw [List.nodup_cons]
    constructor
    · simp
    · rw [List.nodup_flatMap]
      constructor
      · intro j hj
        rw [List.nodup_cons]
        refine ⟨by simp, ?_⟩
        refine List.Nodup.map (fun a b h => by simpa using h) List.nodup_range
      · refine List.Pairwise.imp_of_mem (fun {a b} ha hb hab => ?_) List.nodup_range
        intro t h1 h2
        simp only [List.mem_cons, List.mem_map] at h1 h2
        rcases h1 with rfl | ⟨k, -, rfl⟩ <;> rcases h2 with h2 | ⟨l, -, h2⟩ <;> simp at h2 <;> omega
  · refine List.Pairwise.imp_of_mem (fun {a b} ha hb hab => ?_) List.nodup_range
    intro t h1 h2
    simp only [List.mem_cons, List.mem_flatMap, List.mem_map] at h1 h2
    rcases h1 with rfl | ⟨j, -, rfl | ⟨k, -, rfl⟩⟩ <;> rcases h2 with h2 | ⟨j', -, h2 | ⟨l, -, h2⟩⟩ <;> simp at h2 <;> omega

theorem valid_shift {m n s : ℕ} (h : m + s ≤ n) {t : List ℕ} (ht : Valid m t) : Valid n (t.map (· + s)) := by
  refine ⟨List.Pairwise.map _ (fun a b h => by omega) ht.1, ?_, by simpa using ht.2.2⟩
  intro i hi
  obtain ⟨j, hj, rfl⟩ := List.mem_map.1 hi
  have := ht.2.1 j hj
  omega

/-- Coefficients after copying. -/
theorem copy_spec {m n s : ℕ} (h : m + s ≤ n) (src : Poly m) (hsrc : WF src) (L : List (List ℕ)) (hL : ∀ t ∈ L, Valid m t)
    (dst : Poly n) (hd : WF dst) :
    ∃ r, L.foldlM (copyStep src s) dst = some r ∧ WF r ∧ ∀ u, Valid n u →
      (∀ t ∈ L, u = t.map (· + s) → ∃ v, getTerm src t = some v ∧ getTerm r u = some (v % 8)) ∧
      ((∀ t ∈ L, u ≠ t.map (· + s)) → getTerm r u = getTerm dst u) := by
  induction L generalizing dst with
  | nil => exact ⟨dst, rfl, hd, fun u hu => ⟨by simp, fun _ => rfl⟩⟩
  | cons t L ih =>
    obtain ⟨v, hv⟩ := getTerm_isSome src hsrc (hL t (by simp))
    have hval := valid_shift h (hL t (by simp))
    obtain ⟨d, h1, h2⟩ := setTerm_isSome dst hd hval v
    obtain ⟨r, h3, h4, h5⟩ := ih (fun t ht => hL t (by simp [ht])) d h2
    have hs : copyStep src s dst t = some d := by unfold copyStep; rw [hv]; exact h1
    refine ⟨r, by rw [List.foldlM_cons, hs]; exact h3, h4, fun u hu => ⟨fun t' ht' he => ?_, fun hn => ?_⟩⟩
    · by_cases hin : ∃ t'' ∈ L, u = t''.map (· + s)
      · obtain ⟨t'', h6, h7⟩ := hin
        have hinj : t' = t'' := by
          have hi : Function.Injective (List.map (· + s)) := List.map_injective_iff.2 fun a b h => by simpa using h
          exact hi (he.symm.trans h7)
        rw [hinj]
        exact (h5 u hu).1 t'' h6 h7
      · have hn : ∀ t ∈ L, u ≠ t.map (· + s) := fun t ht hc => hin ⟨t, ht, hc⟩
        rcases List.mem_cons.1 ht' with rfl | hm
        · refine ⟨v, hv, ?_⟩
          rw [(h5 u hu).2 hn, getTerm_setTerm dst d hd hval hu v h1, if_pos he]
        · exact absurd he (hn t' hm)
    · rw [(h5 u hu).2 fun t ht => hn t (by simp [ht]), getTerm_setTerm dst d hd hval hu v h1, if_neg (hn t (by simp))]

/-- The two copies of `_tensor`: existence, shape and terms of the result. -/
theorem copy2 {m n : ℕ} (p : Poly m) (q : Poly n) (hp : WF p) (hq : WF q) :
    ∃ r1 r, copyTerms p 0 (Poly.zero (m + n)) = some r1 ∧ copyTerms q m r1 = some r ∧ WF r ∧
      (∀ t, Valid m t → t ≠ [] → ∃ v, getTerm p t = some v ∧ getTerm r t = some (v % 8)) ∧
      (∀ t, Valid n t → t ≠ [] → ∃ v, getTerm q t = some v ∧ getTerm r (t.map (· + m)) = some (v % 8)) ∧
      (∀ u, Valid (m + n) u → (∀ t, Valid m t → t ≠ [] → u ≠ t) → (∀ t, Valid n t → t ≠ [] → u ≠ t.map (· + m)) →
        getTerm r u = some 0) := by
  obtain ⟨r1, h1, h2, h3⟩ := copy_spec (n := m + n) (s := 0) (by omega) p hp (visits m) (fun t ht => (mem_visits.1 ht).1)
    (Poly.zero (m + n)) (WF.zero _)
  obtain ⟨r, h4, h5, h6⟩ := copy_spec (n := m + n) (s := m) (by omega) q hq (visits n) (fun t ht => (mem_visits.1 ht).1) r1 h2
  refine ⟨r1, r, by rw [copyTerms_eq]; exact h1, by rw [copyTerms_eq]; exact h4, h5, ?_, ?_, ?_⟩
  · intro t ht hne
    have hv : Valid (m + n) t := by simpa using valid_shift (s := 0) (n := m + n) (by omega) ht
    obtain ⟨v, h7, h8⟩ := (h3 t hv).1 t (mem_visits.2 ⟨ht, hne⟩) (by simp)
    refine ⟨v, h7, ?_⟩
    rw [(h6 t hv).2 ?_, h8]
    intro u hu he
    obtain ⟨hu1, hu2⟩ := mem_visits.1 hu
    obtain ⟨a, t', rfl⟩ := List.exists_cons_of_ne_nil hu2
    have := ht.2.1 (a + m) (by rw [he]; simp)
    omega
  · intro t ht hne
    exact (h6 _ (valid_shift (by omega) ht)).1 t (mem_visits.2 ⟨ht, hne⟩) rfl
  · intro u hu hu1 hu2
    rw [(h6 u hu).2 fun t ht => hu2 t (mem_visits.1 ht).1 (mem_visits.1 ht).2,
      (h3 u hu).2 fun t ht => by simpa using hu1 t (mem_visits.1 ht).1 (mem_visits.1 ht).2]
    obtain ⟨v, hv⟩ := getTerm_isSome _ (WF.zero (m + n)) hu
    rw [hv]
    have := coef_zero (n := m + n)
    have hz : ∀ w, getTerm (Poly.zero (m + n)) u = some w → w = 0 := by
      intro w hw
      rcases valid_cases hu with rfl | ⟨i, rfl, hi⟩ | ⟨i, j, rfl, hij, hj⟩ | ⟨i, j, k, rfl, hij, hjk, hk⟩
      · rw [getTerm_nil] at hw; exact (Option.some.inj hw).symm
      · rw [getTerm_one _ (WF.zero _) hi] at hw
        obtain ⟨_, h⟩ := List.getElem?_eq_some_iff.1 hw
        rw [← h]; simp [Poly.zero]
      · rw [getTerm_two _ (WF.zero _) hij hj] at hw
        obtain ⟨_, h⟩ := List.getElem?_eq_some_iff.1 hw
        rw [← h]; simp [Poly.zero]
      · rw [getTerm_three _ (WF.zero _) hij hjk hk] at hw
        obtain ⟨_, h⟩ := List.getElem?_eq_some_iff.1 hw
        rw [← h]; simp [Poly.zero]
    rw [hz v hv]

theorem Rd.copy {m n s : ℕ} (src : Poly m) (L : List (List ℕ)) (d r : Poly n) (hd : Rd d)
    (h : L.foldlM (copyStep src s) d = some r) : Rd r := by
  induction L generalizing d with
  | nil => cases h; exact hd
  | cons t L ih =>
    rw [List.foldlM_cons] at h
    obtain ⟨d', h1, h2⟩ := Option.bind_eq_some_iff.1 h
    unfold copyStep at h1
    obtain ⟨v, -, h3⟩ := Option.bind_eq_some_iff.1 h1
    exact ih d' (Rd.setTerm hd h3) h2

/-- Moving a set of variables up. -/
def up (m : ℕ) (S : Finset ℕ) : Finset ℕ := S.map (addRightEmbedding m)

theorem up_injective (m : ℕ) : Function.Injective (up m) := Finset.map_injective _

theorem toFinset_shift (m : ℕ) (t : List ℕ) : (t.map (· + m)).toFinset = up m t.toFinset := by
  ext i; simp [up, addRightEmbedding]

/-- Coefficients of the two copies. -/
theorem copy2_coef {m n : ℕ} (p : Poly m) (q : Poly n) (hp : WF p) (hq : WF q) :
    ∃ r1 r, copyTerms p 0 (Poly.zero (m + n)) = some r1 ∧ copyTerms q m r1 = some r ∧ WF r ∧ Rd r ∧ r.w0 = 0 ∧
      ∀ S ∈ Terms (m + n), S ≠ ∅ → coef r S =
        (∑ T ∈ Terms m, if T = S then coef p T else 0) + ∑ T ∈ Terms n, if up m T = S then coef q T else 0 := by
  obtain ⟨r1, r, h1, h2, hw, ha, hb, hc⟩ := copy2 p q hp hq
  refine ⟨r1, r, h1, h2, hw, ?_, ?_, ?_⟩
  · rw [copyTerms_eq] at h1 h2
    exact Rd.copy q _ r1 r (Rd.copy p _ _ r1 (Rd.zero _) h1) h2
  · have := hc [] ⟨by simp, by simp, by simp⟩ (fun t _ h => fun h' => h h'.symm) (fun t _ h h' => h (by simpa using h'.symm))
    rw [getTerm_nil] at this
    exact Option.some.inj this
  · intro S hS hne
    have hv := valid_sort hS
    have hSe : S.sort.toFinset = S := Finset.sort_toFinset _ _
    have hsne : S.sort ≠ [] := fun h => hne (by rw [← hSe, h]; rfl)
    by_cases c1 : S ∈ Terms m
    · have hv1 := valid_sort c1
      obtain ⟨v, h3, h4⟩ := ha _ hv1 hsne
      have e1 : coef r S = coef p S := by
        rw [← hSe, coef_of_getTerm hv h4, coef_of_getTerm hv1 h3, emod8]
      rw [Finset.sum_ite_eq' (Terms m) S, if_pos c1, e1, Finset.sum_eq_zero, add_zero]
      intro T hT
      rw [if_neg]
      intro h
      obtain ⟨i, hi⟩ := Finset.nonempty_iff_ne_empty.2 hne
      have hlt := hv1.2.1 i (by simpa using hi)
      rw [← h] at hi
      simp only [up, Finset.mem_map, addRightEmbedding, Function.Embedding.coeFn_mk] at hi
      obtain ⟨j, -, hj⟩ := hi
      omega
    · rw [Finset.sum_ite_eq' (Terms m) S, if_neg c1, zero_add]
      by_cases c2 : ∃ T ∈ Terms n, up m T = S
      · obtain ⟨T, hT, rfl⟩ := c2
        have hvT := valid_sort hT
        have hTe : T.sort.toFinset = T := Finset.sort_toFinset _ _
        obtain ⟨v, h3, h4⟩ := hb _ hvT (fun h => hne (by rw [← hTe, h]; rfl))
        have e1 : coef r (up m T) = coef q T := by
          conv_lhs => rw [← hTe, ← toFinset_shift]
          rw [coef_of_getTerm (valid_shift (by omega) hvT) h4]
          conv_rhs => rw [← hTe]
          rw [coef_of_getTerm hvT h3, emod8]
        rw [e1, Finset.sum_eq_single T]
        · simp
        · intro T' _ hT'; rw [if_neg fun h => hT' (up_injective m h)]
        · intro h; exact absurd hT h
      · rw [Finset.sum_eq_zero fun T hT => by rw [if_neg fun h => c2 ⟨T, hT, h⟩]]
        have h3 := hc S.sort hv (fun t ht _ he => c1 (by rw [← hSe, he]; exact ht.mem_Terms))
          (fun t ht _ he => c2 ⟨t.toFinset, ht.mem_Terms, by rw [← toFinset_shift, ← he, hSe]⟩)
        rw [← hSe, coef_of_getTerm hv h3]; simp

theorem up_mem {m n : ℕ} {T : Finset ℕ} (hT : T ∈ Terms n) : up m T ∈ Terms (m + n) := by
  simp only [Terms, Finset.mem_filter, Finset.mem_powerset, up, Finset.card_map] at *
  refine ⟨fun i hi => ?_, hT.2⟩
  simp only [Finset.mem_map, addRightEmbedding, Function.Embedding.coeFn_mk] at hi
  obtain ⟨j, hj, rfl⟩ := hi
  have := Finset.mem_range.1 (hT.1 hj)
  simp; omega

theorem Terms_mono {m n : ℕ} (h : m ≤ n) {T : Finset ℕ} (hT : T ∈ Terms m) : T ∈ Terms n := by
  simp only [Terms, Finset.mem_filter, Finset.mem_powerset] at *
  exact ⟨hT.1.trans (Finset.range_mono h), hT.2⟩

theorem mono_up (m : ℕ) (x : ℕ → Bool) (T : Finset ℕ) : mono x (up m T) = mono (fun i => x (i + m)) T := by
  unfold mono up; simp [addRightEmbedding]

theorem coef_empty {n : ℕ} (p : Poly n) : coef p ∅ = p.w0 := by
  unfold coef
  rw [Finset.sort_empty, getTerm_nil]; rfl

theorem copy2_value {m n : ℕ} {p : Poly m} {q : Poly n} (hp0 : p.w0 = 0) (hq0 : q.w0 = 0) {r : Poly (m + n)} (hr0 : r.w0 = 0)
    (h : ∀ S ∈ Terms (m + n), S ≠ ∅ → coef r S =
        (∑ T ∈ Terms m, if T = S then coef p T else 0) + ∑ T ∈ Terms n, if up m T = S then coef q T else 0) (x : ℕ → Bool) :
    value r x = value p x + value q (fun i => x (i + m)) := by
  have h' : ∀ S ∈ Terms (m + n), coef r S =
        (∑ T ∈ Terms m, if T = S then coef p T else 0) + ∑ T ∈ Terms n, if up m T = S then coef q T else 0 := by
    intro S hS
    by_cases hne : S = ∅
    · subst hne
      rw [coef_empty, hr0, Finset.sum_eq_zero, Finset.sum_eq_zero]
      · simp
      · intro T _
        split_ifs with h1
        · have : T = ∅ := by simpa [up] using h1
          rw [this, coef_empty, hq0]; simp
        · rfl
      · intro T _
        split_ifs with h1
        · rw [h1, coef_empty, hp0]; simp
        · rfl
    · exact h S hS hne
  unfold value
  rw [Finset.sum_congr rfl fun S hS => by rw [h' S hS, add_mul], Finset.sum_add_distrib]
  congr 1
  · rw [Finset.sum_congr rfl fun S _ => Finset.sum_mul _ _ _, Finset.sum_comm]
    refine Finset.sum_congr rfl fun T hT => ?_
    simp only [ite_mul, zero_mul]
    rw [Finset.sum_ite_eq (Terms (m + n)) T, if_pos (Terms_mono (by omega) hT)]
  · rw [Finset.sum_congr rfl fun S _ => Finset.sum_mul _ _ _, Finset.sum_comm]
    refine Finset.sum_congr rfl fun T hT => ?_
    simp only [ite_mul, zero_mul]
    rw [Finset.sum_ite_eq (Terms (m + n)) (up m T), if_pos (up_mem hT), mono_up]

theorem ite_mul_ite_one (p q : Prop) [Decidable p] [Decidable q] :
    (if p then (1 : ℂ) else 0) * (if q then 1 else 0) = if p ∧ q then 1 else 0 := by
  by_cases hp : p <;> by_cases hq : q <;> simp [hp, hq]

/-- The element of a tensor product. -/
theorem tensor_spec {m n : ℕ} {a : Elem m} {b : Elem n} (ha : isCnotDihedral a = true) (hb : isCnotDihedral b = true) :
    ∃ r, tensorCore a b = some r ∧ isCnotDihedral r = true ∧ ∀ x y : Fin (m + n) → Bool,
      img r x y = img a (fun i => x (Fin.castAdd n i)) (fun i => y (Fin.castAdd n i)) *
        img b (fun i => x (Fin.natAdd m i)) (fun i => y (Fin.natAdd m i)) := by
  obtain ⟨ga, ra, wa, da⟩ := (isCnot_iff a).1 ha
  obtain ⟨gb, rb, wb, db⟩ := (isCnot_iff b).1 hb
  obtain ⟨r1, r, h1, h2, hw, hrd, hr0, hc⟩ := copy2_coef a.poly b.poly ga.wf gb.wf
  refine ⟨_, by unfold tensorCore; rw [h1]; simp only [Option.bind_eq_bind, Option.bind_some, h2]; rfl, ?_, ?_⟩
  · rw [isCnot_iff]
    refine ⟨⟨hw, ?_, ?_, ?_⟩, hrd, hr0, ?_⟩
    · intro S hS
      by_cases hne : S = ∅
      · subst hne; rw [coef_empty, hr0]; simp
      rw [hc S hS hne]
      refine dvd_add (Finset.dvd_sum fun T hT => ?_) (Finset.dvd_sum fun T hT => ?_)
      · split_ifs with h
        · rw [← h]; exact ga.gr T hT
        · exact dvd_zero _
      · split_ifs with h
        · rw [← h, up, Finset.card_map]; exact gb.gr T hT
        · exact dvd_zero _
    · intro i j
      refine Fin.addCases (fun i => ?_) (fun i => ?_) i <;> refine Fin.addCases (fun j => ?_) (fun j => ?_) j <;> simp
      · exact ga.lin i j
      · exact gb.lin i j
    · intro i
      refine Fin.addCases (fun i => ?_) (fun i => ?_) i <;> simp
      · exact ga.sh i
      · exact gb.sh i
    · rw [detOdd_iff] at da db ⊢
      rw [← Matrix.det_submatrix_equiv_self finSumFinEquiv]
      have : (mat2 fun i j : Fin (m + n) => (Fin.addCases (fun i => Fin.addCases (fun j => a.linear i j) (fun _ => 0) j)
          (fun i => Fin.addCases (fun _ => 0) (fun j => b.linear i j) j) i : ℤ)).submatrix finSumFinEquiv finSumFinEquiv =
          Matrix.fromBlocks (mat2 a.linear) 0 0 (mat2 b.linear) := by
        ext i j
        rcases i with i | i <;> rcases j with j | j <;> simp [mat2]
      rw [this, Matrix.det_fromBlocks_zero₂₁, da, db, one_mul]
  · intro x y
    rw [img_eq, img_eq, img_eq]
    simp only
    rw [copy2_value wa wb hr0 hc, W_add]
    have e1 : value a.poly (ext x) = value a.poly (ext fun i => x (Fin.castAdd n i)) := by
      unfold value
      refine Finset.sum_congr rfl fun S hS => ?_
      congr 1
      unfold mono
      congr 1
      refine eq_iff_iff.2 (forall₂_congr fun i hi => ?_)
      have : i < m := by
        simp only [Terms, Finset.mem_filter, Finset.mem_powerset] at hS
        exact Finset.mem_range.1 (hS.1 hi)
      unfold ext
      rw [dif_pos this, dif_pos (by omega)]; rfl
    have e2 : value b.poly (fun i => ext x (i + m)) = value b.poly (ext fun i => x (Fin.natAdd m i)) := by
      unfold value
      refine Finset.sum_congr rfl fun S hS => ?_
      congr 1
      unfold mono
      congr 1
      refine eq_iff_iff.2 (forall₂_congr fun i hi => ?_)
      have : i < n := by
        simp only [Terms, Finset.mem_filter, Finset.mem_powerset] at hS
        exact Finset.mem_range.1 (hS.1 hi)
      unfold ext
      simp only
      rw [dif_pos this, dif_pos (by omega)]
      have : (⟨i + m, by omega⟩ : Fin (m + n)) = Fin.natAdd m ⟨i, this⟩ := Fin.ext (by simp [add_comm])
      rw [this]
    rw [e1, e2]
    have e3 : ∀ r : Poly (m + n), (ket (aff (⟨r, fun i j => Fin.addCases (fun i => Fin.addCases (fun j => a.linear i j) (fun _ => 0) j)
          (fun i => Fin.addCases (fun _ => 0) (fun j => b.linear i j) j) i, fun i => Fin.addCases a.shift b.shift i⟩ : Elem (m + n)) x) y : ℂ) =
        ket (aff a fun i => x (Fin.castAdd n i)) (fun i => y (Fin.castAdd n i)) *
          ket (aff b fun i => x (Fin.natAdd m i)) (fun i => y (Fin.natAdd m i)) := by
      intro r
      have hl : ∀ i : Fin m, aff (⟨r, fun i j => Fin.addCases (fun i => Fin.addCases (fun j => a.linear i j) (fun _ => 0) j)
          (fun i => Fin.addCases (fun _ => 0) (fun j => b.linear i j) j) i, fun i => Fin.addCases a.shift b.shift i⟩ : Elem (m + n)) x
          (Fin.castAdd n i) = aff a (fun i => x (Fin.castAdd n i)) i := by
        intro i; simp [aff, Fin.sum_univ_add]
      have hr : ∀ i : Fin n, aff (⟨r, fun i j => Fin.addCases (fun i => Fin.addCases (fun j => a.linear i j) (fun _ => 0) j)
          (fun i => Fin.addCases (fun _ => 0) (fun j => b.linear i j) j) i, fun i => Fin.addCases a.shift b.shift i⟩ : Elem (m + n)) x
          (Fin.natAdd m i) = aff b (fun i => x (Fin.natAdd m i)) i := by
        intro i; simp [aff, Fin.sum_univ_add]
      unfold ket
      rw [ite_mul_ite_one]
      congr 1
      refine eq_iff_iff.2 ⟨?_, ?_⟩
      · rintro rfl
        exact ⟨funext hl, funext hr⟩
      · rintro ⟨h1, h2⟩
        funext i
        refine Fin.addCases (fun i => ?_) (fun i => ?_) i
        · rw [hl]; exact congrFun h1 i
        · rw [hr]; exact congrFun h2 i
    rw [e3]; ring

end Verif.Dihedral
