import Verif.Dihedral.LemmasTerm
import Verif.Dihedral.Spec
import Mathlib.Data.List.Sort
/-
Coefficients and values of phase polynomials under the elementary operations.
-/
set_option linter.unusedSimpArgs false
set_option linter.unusedVariables false
namespace Verif.Dihedral

theorem mem_combs {l : List ℕ} {r : ℕ} {t : List ℕ} : t ∈ combs l r ↔ t.Sublist l ∧ t.length = r := by
  induction l generalizing r t with
  | nil =>
    cases r with
    | zero => simp [combs]
    | succ r =>
      simp [combs]
      rintro rfl; simp
  | cons a l ih =>
    cases r with
    | zero =>
      simp only [combs, List.mem_singleton, List.length_eq_zero_iff]
      exact ⟨fun h => ⟨h ▸ List.nil_sublist _, h⟩, fun h => h.2⟩
    | succ r =>
      simp only [combs, List.mem_append, List.mem_map, ih]
      constructor
      · rintro (⟨u, ⟨h1, h2⟩, rfl⟩ | ⟨h1, h2⟩)
        · exact ⟨h1.cons_cons a, by simp [h2]⟩
        · exact ⟨h1.cons a, h2⟩
      · rintro ⟨h1, h2⟩
        cases h1 with
        | cons _ h => exact Or.inr ⟨h, h2⟩
        | cons_cons _ h => exact Or.inl ⟨_, ⟨h, by simpa using h2⟩, rfl⟩

theorem nodup_combs {l : List ℕ} (hl : l.Nodup) (r : ℕ) : (combs l r).Nodup := by
  induction l generalizing r with
  | nil => cases r <;> simp [combs]
  | cons a l ih =>
    cases r with
    | zero => simp [combs]
    | succ r =>
      simp only [combs]
      rw [List.nodup_cons] at hl
      refine List.Nodup.append ((ih hl.2 r).map (fun _ _ h => by simpa using h)) (ih hl.2 (r + 1)) ?_
      intro t h1 h2
      obtain ⟨u, hu, rfl⟩ := List.mem_map.1 h1
      exact hl.1 ((mem_combs.1 h2).1.subset (by simp))

theorem sublist_range_iff {n : ℕ} {t : List ℕ} :
    t.Sublist (List.range n) ↔ t.Pairwise (· < ·) ∧ ∀ i ∈ t, i < n := by
  constructor
  · intro h
    exact ⟨List.Pairwise.sublist h List.pairwise_lt_range, fun i hi => List.mem_range.1 (h.subset hi)⟩
  · rintro ⟨h1, h2⟩
    refine List.sublist_of_subperm_of_sortedLE ?_ ?_ ?_
    · exact List.subperm_of_subset (h1.imp fun h => Nat.ne_of_lt h) fun i hi => List.mem_range.2 (h2 i hi)
    · exact List.Pairwise.sortedLE (h1.imp fun h => Nat.le_of_lt h)
    · exact List.Pairwise.sortedLE (List.pairwise_lt_range.imp fun h => Nat.le_of_lt h)

theorem mem_terms {n : ℕ} {t : List ℕ} : t ∈ terms n ↔ Valid n t := by
  simp only [terms, List.mem_append, mem_combs, sublist_range_iff, List.mem_singleton, Valid]
  constructor
  · rintro (((rfl | h) | h) | h)
    · simp
    · exact ⟨h.1.1, h.1.2, by omega⟩
    · exact ⟨h.1.1, h.1.2, by omega⟩
    · exact ⟨h.1.1, h.1.2, by omega⟩
  · rintro ⟨h1, h2, h3⟩
    have : t.length = 0 ∨ t.length = 1 ∨ t.length = 2 ∨ t.length = 3 := by omega
    rcases this with h | h | h | h
    · exact Or.inl (Or.inl (Or.inl (List.length_eq_zero_iff.1 h)))
    · exact Or.inl (Or.inl (Or.inr ⟨⟨h1, h2⟩, h⟩))
    · exact Or.inl (Or.inr ⟨⟨h1, h2⟩, h⟩)
    · exact Or.inr ⟨⟨h1, h2⟩, h⟩

theorem nodup_terms (n : ℕ) : (terms n).Nodup := by
  unfold terms
  have hr : (List.range n).Nodup := List.nodup_range
  refine List.Nodup.append (List.Nodup.append (List.Nodup.append (by simp) (nodup_combs hr 1) ?_)
    (nodup_combs hr 2) ?_) (nodup_combs hr 3) ?_
  · intro t h1 h2
    simp at h1; subst h1
    simpa using (mem_combs.1 h2).2
  · intro t h1 h2
    have := (mem_combs.1 h2).2
    simp only [List.mem_append, List.mem_singleton, mem_combs] at h1
    rcases h1 with rfl | h1
    · simp at this
    · omega
  · intro t h1 h2
    have := (mem_combs.1 h2).2
    simp only [List.mem_append, List.mem_singleton, mem_combs] at h1
    rcases h1 with (rfl | h1) | h1
    · simp at this
    · omega
    · omega

theorem sort_toFinset_of_valid {t : List ℕ} (h : t.Pairwise (· < ·)) : t.toFinset.sort = t :=
  (List.toFinset_sort (r := (· ≤ ·)) (h.imp fun h => Nat.ne_of_lt h)).2 (h.imp fun h => Nat.le_of_lt h)

theorem valid_sort {n : ℕ} {S : Finset ℕ} (hS : S ∈ Terms n) : Valid n S.sort := by
  simp only [Terms, Finset.mem_filter, Finset.mem_powerset] at hS
  refine ⟨?_, ?_, ?_⟩
  · have h1 := Finset.pairwise_sort S (· ≤ ·)
    have h2 : S.sort.Nodup := Finset.sort_nodup S _
    exact (h1.and h2).imp fun h => lt_of_le_of_ne h.1 h.2
  · intro i hi
    exact Finset.mem_range.1 (hS.1 ((Finset.mem_sort _).1 hi))
  · rw [Finset.length_sort]; exact hS.2

theorem Valid.card {n : ℕ} {t : List ℕ} (h : Valid n t) : t.toFinset.card = t.length :=
  List.toFinset_card_of_nodup (h.1.imp fun h => Nat.ne_of_lt h)

theorem Valid.mem_Terms {n : ℕ} {t : List ℕ} (h : Valid n t) : t.toFinset ∈ Terms n := by
  simp only [Terms, Finset.mem_filter, Finset.mem_powerset]
  refine ⟨fun i hi => Finset.mem_range.2 (h.2.1 i (List.mem_toFinset.1 hi)), ?_⟩
  rw [h.card]; exact h.2.2

theorem sort_eq_iff {n : ℕ} {S : Finset ℕ} {t : List ℕ} (h : Valid n t) :
    S.sort = t ↔ S = t.toFinset := by
  constructor
  · intro e; rw [← e, Finset.sort_toFinset]
  · rintro rfl; exact sort_toFinset_of_valid h.1

/-- A sum over the list of terms is a sum over the sets of at most three variables. -/
theorem sum_terms {n : ℕ} (f : Finset ℕ → ZMod 8) :
    ((terms n).map fun t => f t.toFinset).sum = ∑ S ∈ Terms n, f S := by
  have himg : Terms n = (terms n).toFinset.image List.toFinset := by
    ext S
    simp only [Finset.mem_image, List.mem_toFinset, mem_terms]
    constructor
    · intro h; exact ⟨S.sort, valid_sort h, Finset.sort_toFinset _ _⟩
    · rintro ⟨t, ht, rfl⟩; exact ht.mem_Terms
  rw [himg, Finset.sum_image, ← List.sum_toFinset _ (nodup_terms n)]
  intro a ha b hb hab
  have h1 := sort_toFinset_of_valid (mem_terms.1 (List.mem_toFinset.1 ha)).1
  have h2 := sort_toFinset_of_valid (mem_terms.1 (List.mem_toFinset.1 hb)).1
  have hab : a.toFinset = b.toFinset := hab
  rw [← h1, ← h2, hab]

theorem coef_of_getTerm {n : ℕ} {p : Poly n} {t : List ℕ} {v : ℤ} (ht : Valid n t)
    (h : getTerm p t = some v) : coef p t.toFinset = v := by
  unfold coef
  rw [sort_toFinset_of_valid ht.1, h]; rfl

theorem coef_setTerm {n : ℕ} {p q : Poly n} (hp : WF p) {t : List ℕ} (ht : Valid n t) {v : ℤ}
    (h : setTerm p t v = some q) {S : Finset ℕ} (hS : S ∈ Terms n) :
    coef q S = if S = t.toFinset then (v : ZMod 8) else coef p S := by
  unfold coef
  rw [getTerm_setTerm p q hp ht (valid_sort hS) v h]
  by_cases e : S = t.toFinset
  · rw [if_pos e, if_pos ((sort_eq_iff ht).2 e)]
    simp only [Option.getD_some]
    have : ((v % (8 : ℤ) : ℤ) : ZMod 8) = (v : ZMod 8) := by
      exact ZMod.intCast_mod v 8
    exact this
  · rw [if_neg e, if_neg fun h => e ((sort_eq_iff ht).1 h)]

theorem emod8 (v : ℤ) : ((v % 8 : ℤ) : ZMod 8) = (v : ZMod 8) := ZMod.intCast_mod v 8

/-- The pattern `p.set_term(t, (p.get_term(t) + v) % 8)`. -/
def addT {n : ℕ} (p : Poly n) (t : List ℕ) (v : ℤ) : Option (Poly n) :=
  (getTerm p t).bind fun value => setTerm p t ((value + v) % 8)

theorem addT_spec {n : ℕ} {p : Poly n} (hp : WF p) {t : List ℕ} (ht : Valid n t) (v : ℤ) :
    ∃ q, addT p t v = some q ∧ WF q ∧
      ∀ S ∈ Terms n, coef q S = coef p S + if S = t.toFinset then (v : ZMod 8) else 0 := by
  obtain ⟨w, hw⟩ := getTerm_isSome p hp ht
  obtain ⟨q, hq, hq'⟩ := setTerm_isSome p hp ht ((w + v) % 8)
  refine ⟨q, by rw [addT, hw]; exact hq, hq', ?_⟩
  intro S hS
  rw [coef_setTerm hp ht hq hS]
  by_cases e : S = t.toFinset
  · rw [if_pos e, if_pos e, e, coef_of_getTerm ht hw, emod8]; push_cast; rfl
  · rw [if_neg e, if_neg e, add_zero]

theorem value_add_single {n : ℕ} {p q : Poly n} {T : Finset ℕ} (hT : T ∈ Terms n) (v : ZMod 8)
    (h : ∀ S ∈ Terms n, coef q S = coef p S + if S = T then v else 0) (x : ℕ → Bool) :
    value q x = value p x + v * mono x T := by
  unfold value
  rw [Finset.sum_congr rfl fun S hS => by rw [h S hS, add_mul, ite_mul, zero_mul],
    Finset.sum_add_distrib, Finset.sum_ite_eq' (Terms n) T fun S => v * mono x S, if_pos hT]

theorem getTerm_add {n : ℕ} {p q : Poly n} (hp : WF p) (hq : WF q) {t : List ℕ} (ht : Valid n t)
    {a b : ℤ} (ha : getTerm p t = some a) (hb : getTerm q t = some b) :
    getTerm (add p q) t = some ((a + b) % 8) := by
  have hr : WF (add p q) := by
    obtain ⟨h1, h2, h3⟩ := hp; obtain ⟨h4, h5, h6⟩ := hq
    simp [WF, add, *]
  rcases valid_cases ht with rfl | ⟨i, rfl, hi⟩ | ⟨i, j, rfl, hij, hj⟩ | ⟨i, j, k, rfl, hij, hjk, hk⟩
  · rw [getTerm_nil] at *; cases ha; cases hb; rfl
  · rw [getTerm_one _ hp hi] at ha; rw [getTerm_one _ hq hi] at hb; rw [getTerm_one _ hr hi]
    simp [add, List.getElem?_zipWith, ha, hb]
  · rw [getTerm_two _ hp hij hj] at ha; rw [getTerm_two _ hq hij hj] at hb; rw [getTerm_two _ hr hij hj]
    simp [add, List.getElem?_zipWith, ha, hb]
  · rw [getTerm_three _ hp hij hjk hk] at ha; rw [getTerm_three _ hq hij hjk hk] at hb
    rw [getTerm_three _ hr hij hjk hk]
    simp [add, List.getElem?_zipWith, ha, hb]

theorem WF.add {n : ℕ} {p q : Poly n} (hp : WF p) (hq : WF q) : WF (add p q) := by
  obtain ⟨h1, h2, h3⟩ := hp; obtain ⟨h4, h5, h6⟩ := hq
  simp [WF, Dihedral.add, *]

theorem WF.smul {n : ℕ} {p : Poly n} (hp : WF p) (k : ℤ) : WF (smul p k) := by
  obtain ⟨h1, h2, h3⟩ := hp
  simp [WF, Dihedral.smul, *]

theorem getTerm_smul {n : ℕ} {p : Poly n} (hp : WF p) {t : List ℕ} (ht : Valid n t)
    {a : ℤ} (k : ℤ) (ha : getTerm p t = some a) :
    getTerm (smul p k) t = some ((a * k) % 8) := by
  have hr := hp.smul k
  rcases valid_cases ht with rfl | ⟨i, rfl, hi⟩ | ⟨i, j, rfl, hij, hj⟩ | ⟨i, j, k, rfl, hij, hjk, hk⟩
  · rw [getTerm_nil] at *; cases ha; rfl
  · rw [getTerm_one _ hp hi] at ha; rw [getTerm_one _ hr hi]
    simp [smul, ha]
  · rw [getTerm_two _ hp hij hj] at ha; rw [getTerm_two _ hr hij hj]
    simp [smul, ha]
  · rw [getTerm_three _ hp hij hjk hk] at ha
    rw [getTerm_three _ hr hij hjk hk]
    simp [smul, ha]

theorem coef_add {n : ℕ} {p q : Poly n} (hp : WF p) (hq : WF q) {S : Finset ℕ} (hS : S ∈ Terms n) :
    coef (add p q) S = coef p S + coef q S := by
  have hv := valid_sort hS
  obtain ⟨a, ha⟩ := getTerm_isSome p hp hv
  obtain ⟨b, hb⟩ := getTerm_isSome q hq hv
  unfold coef
  rw [getTerm_add hp hq hv ha hb, ha, hb]
  simp only [Option.getD_some, emod8]; push_cast; rfl

theorem coef_smul {n : ℕ} {p : Poly n} (hp : WF p) (k : ℤ) {S : Finset ℕ} (hS : S ∈ Terms n) :
    coef (smul p k) S = coef p S * k := by
  have hv := valid_sort hS
  obtain ⟨a, ha⟩ := getTerm_isSome p hp hv
  unfold coef
  rw [getTerm_smul hp hv k ha, ha]
  simp only [Option.getD_some, emod8]; push_cast; rfl

theorem value_add {n : ℕ} {p q : Poly n} (hp : WF p) (hq : WF q) (x : ℕ → Bool) :
    value (add p q) x = value p x + value q x := by
  unfold value
  rw [← Finset.sum_add_distrib]
  exact Finset.sum_congr rfl fun S hS => by rw [coef_add hp hq hS]; ring

theorem value_smul {n : ℕ} {p : Poly n} (hp : WF p) (k : ℤ) (x : ℕ → Bool) :
    value (smul p k) x = value p x * k := by
  unfold value
  rw [Finset.sum_mul]
  exact Finset.sum_congr rfl fun S hS => by rw [coef_smul hp k hS]; ring

theorem coef_zero {n : ℕ} (S : Finset ℕ) : coef (Poly.zero n) S = 0 := by
  unfold coef
  suffices h : (getTerm (Poly.zero n) S.sort).getD 0 = 0 by rw [h]; rfl
  by_cases hv : Valid n S.sort
  · rcases valid_cases hv with h | ⟨i, h, hi⟩ | ⟨i, j, h, hij, hj⟩ | ⟨i, j, k, h, hij, hjk, hk⟩
    · rw [h, getTerm_nil]; rfl
    · rw [h, getTerm_one _ (WF.zero n) hi]
      simp only [Poly.zero, List.getElem?_replicate]; split <;> rfl
    · rw [h, getTerm_two _ (WF.zero n) hij hj]
      simp only [Poly.zero, List.getElem?_replicate]; split <;> rfl
    · rw [h, getTerm_three _ (WF.zero n) hij hjk hk]
      simp only [Poly.zero, List.getElem?_replicate]; split <;> rfl
  · unfold getTerm
    by_cases h4 : 4 ≤ S.sort.length
    · rw [if_pos h4]; rfl
    · rw [if_neg h4]
      have : ¬ okIdx n S.sort = true := fun h => hv ((okIdx_iff (by omega)).1 h)
      simp [this]

theorem value_zero {n : ℕ} (x : ℕ → Bool) : value (Poly.zero n) x = 0 := by
  unfold value
  exact Finset.sum_eq_zero fun S _ => by rw [coef_zero, zero_mul]

theorem mono_union (x : ℕ → Bool) (S T : Finset ℕ) : mono x (S ∪ T) = mono x S * mono x T := by
  unfold mono
  by_cases h1 : ∀ i ∈ S, x i = true <;> by_cases h2 : ∀ i ∈ T, x i = true
  · rw [if_pos h1, if_pos h2, if_pos, one_mul]
    intro i hi
    rcases Finset.mem_union.1 hi with h | h
    · exact h1 i h
    · exact h2 i h
  · rw [if_neg h2, mul_zero, if_neg]
    exact fun h => h2 fun i hi => h i (Finset.mem_union_right _ hi)
  · rw [if_neg h1, zero_mul, if_neg]
    exact fun h => h1 fun i hi => h i (Finset.mem_union_left _ hi)
  · rw [if_neg h1, zero_mul, if_neg]
    exact fun h => h1 fun i hi => h i (Finset.mem_union_left _ hi)

theorem mono_empty (x : ℕ → Bool) : mono x ∅ = 1 := by simp [mono]

end Verif.Dihedral
