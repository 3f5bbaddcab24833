import Verif.Dihedral.LemmasValue
/-
Products and evaluation of phase polynomials.  Terms with more than three variables are silently
dropped by the code; the grading `Gr` keeps track of how much that can matter.
-/
set_option linter.unusedSimpArgs false
set_option linter.unusedVariables false
namespace Verif.Dihedral

theorem any_diff_iff {t : List ℕ} (h : t.length ≤ 3) :
    ((t.zip t.tail).any fun ab => decide (ab.2 ≤ ab.1)) = false ↔ t.Pairwise (· < ·) := by
  match t, h with
  | [], _ => simp
  | [i], _ => simp
  | [i, j], _ => simp
  | [i, j, k], _ => simp; omega

theorem okIdx_of_getTerm {n : ℕ} {p : Poly n} {t : List ℕ} (h : t.length ≤ 3) {v : ℤ}
    (hv : getTerm p t = some v) : Valid n t := by
  unfold getTerm at hv
  rw [if_neg (by omega)] at hv
  by_cases ho : okIdx n t = true
  · exact (okIdx_iff h).1 ho
  · simp [ho] at hv

theorem toFinset_so {so : SetOrder} (hso : IsSetOrder so) {a b : List ℕ} (ha : a.Pairwise (· < ·))
    (ha3 : a.length ≤ 3) (hb : b.Pairwise (· < ·)) (hb3 : b.length ≤ 3) :
    (so a b).toFinset = a.toFinset ∪ b.toFinset := by
  ext i
  simp only [List.mem_toFinset, Finset.mem_union]
  exact (hso a b ha ha3 hb hb3).2 i

theorem mulMonomialStep_spec {n : ℕ} {so : SetOrder} (hso : IsSetOrder so) {p r q : Poly n}
    (hp : WF p) (hr : WF r) {idx t : List ℕ} (hidx : idx.Pairwise (· < ·)) (hidx3 : idx.length ≤ 3)
    (ht : Valid n t) (h : mulMonomialStep so p idx r t = some q) :
    WF q ∧ ∀ S ∈ Terms n, coef q S = coef r S +
      if t.toFinset ∪ idx.toFinset = S then coef p t.toFinset else 0 := by
  obtain ⟨v, hv⟩ := getTerm_isSome p hp ht
  have hU := toFinset_so hso ht.1 ht.2.2 hidx hidx3
  have hn := (hso t idx ht.1 ht.2.2 hidx hidx3).1
  have hc := coef_of_getTerm ht hv
  simp only [mulMonomialStep, hv] at h
  by_cases h4 : 4 ≤ (so t idx).length
  · have e1 : getTerm r (so t idx) = some 0 := by simp [getTerm, h4]
    have e2 : ∀ w, setTerm r (so t idx) w = some r := by intro w; simp [setTerm, h4]
    have h' : some r = some q := by rw [← h, e1]; exact (e2 _).symm
    cases h'
    refine ⟨hr, fun S hS => ?_⟩
    rw [if_neg, add_zero]
    rintro rfl
    simp only [Terms, Finset.mem_filter] at hS
    rw [← hU, List.toFinset_card_of_nodup hn] at hS
    omega
  · cases hw : getTerm r (so t idx) with
    | none => rw [hw] at h; exact absurd h (by simp)
    | some w =>
      have hval := okIdx_of_getTerm (by omega) hw
      obtain ⟨q', h1, h2, h3⟩ := addT_spec hr hval v
      have h' : addT r (so t idx) v = some q := by
        rw [addT, hw]; rw [hw] at h; exact h
      rw [h1] at h'; cases h'
      refine ⟨h2, fun S hS => ?_⟩
      rw [h3 S hS, hU, ← hc]
      by_cases e : S = t.toFinset ∪ idx.toFinset
      · rw [if_pos e, if_pos e.symm]
      · rw [if_neg e, if_neg fun h => e h.symm]

theorem mulMonomial_fold {n : ℕ} {so : SetOrder} (hso : IsSetOrder so) {p : Poly n}
    (hp : WF p) {idx : List ℕ} (hidx : idx.Pairwise (· < ·)) (hidx3 : idx.length ≤ 3)
    (L : List (List ℕ)) (hL : ∀ t ∈ L, Valid n t) (r q : Poly n) (hr : WF r)
    (h : L.foldlM (mulMonomialStep so p idx) r = some q) :
    WF q ∧ ∀ S ∈ Terms n, coef q S = coef r S + (L.map fun t =>
      if t.toFinset ∪ idx.toFinset = S then coef p t.toFinset else 0).sum := by
  induction L generalizing r with
  | nil => cases h; simp [hr]
  | cons t L ih =>
    rw [List.foldlM_cons] at h
    cases hs : mulMonomialStep so p idx r t with
    | none => rw [hs] at h; exact absurd h (by simp)
    | some r' =>
      rw [hs] at h
      obtain ⟨h1, h2⟩ := mulMonomialStep_spec hso hp hr hidx hidx3 (hL t (by simp)) hs
      obtain ⟨h3, h4⟩ := ih (fun t ht => hL t (by simp [ht])) r' h1 h
      refine ⟨h3, fun S hS => ?_⟩
      rw [h4 S hS, h2 S hS, List.map_cons, List.sum_cons]; ring

theorem mulMonomial_idx {n : ℕ} {so : SetOrder} {p q : Poly n} {idx : List ℕ}
    (h : mulMonomial so p idx = some q) : idx.Pairwise (· < ·) ∧ idx.length ≤ 3 := by
  unfold mulMonomial at h
  by_cases h4 : 4 ≤ idx.length
  · rw [if_pos h4] at h; cases h
  · rw [if_neg h4] at h
    by_cases h5 : ((idx.zip idx.tail).any fun ab => decide (ab.2 ≤ ab.1)) = true
    · rw [if_pos h5] at h; cases h
    · exact ⟨(any_diff_iff (by omega)).1 (by simpa using h5), by omega⟩

/-- Coefficients of the (truncated) product with a monomial. -/
theorem coef_mulMonomial {n : ℕ} {so : SetOrder} (hso : IsSetOrder so) {p q : Poly n}
    (hp : WF p) {idx : List ℕ} (h : mulMonomial so p idx = some q) :
    WF q ∧ ∀ S ∈ Terms n, coef q S =
      ∑ T ∈ Terms n, if T ∪ idx.toFinset = S then coef p T else 0 := by
  obtain ⟨h1, h2⟩ := mulMonomial_idx h
  unfold mulMonomial at h
  rw [if_neg (by omega), if_neg (by simpa using (any_diff_iff h2).2 h1)] at h
  by_cases h0 : idx.length = 0
  · rw [if_pos h0] at h; cases h
    refine ⟨hp, fun S hS => ?_⟩
    have : idx = [] := List.length_eq_zero_iff.1 h0
    subst this
    simp only [List.toFinset_nil, Finset.union_empty]
    rw [Finset.sum_ite_eq' (Terms n) S, if_pos hS]
  · rw [if_neg h0] at h
    obtain ⟨h3, h4⟩ := mulMonomial_fold hso hp h1 h2 (terms n) (fun t ht => mem_terms.1 ht) _ _ (WF.zero n) h
    refine ⟨h3, fun S hS => ?_⟩
    rw [h4 S hS, coef_zero, zero_add]
    exact sum_terms fun T => if T ∪ idx.toFinset = S then coef p T else 0

theorem value_eq_of_conv {n : ℕ} {q : Poly n} {ι : Type} (s : Finset ι) (f : ι → ZMod 8)
    (U : ι → Finset ℕ) (h : ∀ S ∈ Terms n, coef q S = ∑ i ∈ s, if U i = S then f i else 0)
    (x : ℕ → Bool) : value q x = ∑ i ∈ s, if U i ∈ Terms n then f i * mono x (U i) else 0 := by
  unfold value
  rw [Finset.sum_congr rfl fun S hS => by rw [h S hS, Finset.sum_mul]]
  rw [Finset.sum_comm]
  refine Finset.sum_congr rfl fun i _ => ?_
  rw [Finset.sum_congr rfl fun S _ => by rw [ite_mul, zero_mul]]
  exact Finset.sum_ite_eq (Terms n) (U i) fun S => f i * mono x S

/-- `2^(|S|-k)` divides every coefficient. -/
def Gr {n : ℕ} (k : ℕ) (p : Poly n) : Prop := ∀ S ∈ Terms n, (2 : ZMod 8) ^ (S.card - k) ∣ coef p S

theorem union_mem_Terms {n : ℕ} {S T : Finset ℕ} (hS : S ∈ Terms n) (hT : T ∈ Terms n)
    (h : S ∪ T ∉ Terms n) : 4 ≤ (S ∪ T).card := by
  simp only [Terms, Finset.mem_filter, Finset.mem_powerset] at *
  by_contra hc
  exact h ⟨Finset.union_subset hS.1 hT.1, by omega⟩

theorem mulStep_spec {n : ℕ} {so : SetOrder} (hso : IsSetOrder so) {p q r r' : Poly n}
    (hp : WF p) (hq : WF q) (hr : WF r) {t : List ℕ} (ht : Valid n t)
    (h : mulStep so p q r t = some r') :
    WF r' ∧ ∀ S ∈ Terms n, coef r' S = coef r S + coef q t.toFinset *
      ∑ T ∈ Terms n, if T ∪ t.toFinset = S then coef p T else 0 := by
  obtain ⟨v, hv⟩ := getTerm_isSome q hq ht
  have hc := coef_of_getTerm ht hv
  simp only [mulStep, hv] at h
  by_cases h0 : v ≠ 0
  · simp only [Option.bind_eq_bind, Option.bind_some, if_pos h0] at h
    cases hm : mulMonomial so p t with
    | none => rw [hm] at h; exact absurd h (by simp)
    | some m =>
      rw [hm] at h
      have h' : add r (smul m v) = r' := by simpa using h
      subst h'
      obtain ⟨h1, h2⟩ := coef_mulMonomial hso hp hm
      refine ⟨hr.add (h1.smul v), fun S hS => ?_⟩
      rw [coef_add hr (h1.smul v) hS, coef_smul h1 v hS, h2 S hS, hc, mul_comm]
  · simp only [Option.bind_eq_bind, Option.bind_some, if_neg h0] at h
    cases h
    refine ⟨hr, fun S hS => ?_⟩
    have : v = 0 := by simpa using h0
    subst this
    simp [hc]

theorem mul_fold {n : ℕ} {so : SetOrder} (hso : IsSetOrder so) {p q : Poly n}
    (hp : WF p) (hq : WF q) (L : List (List ℕ)) (hL : ∀ t ∈ L, Valid n t) (r r' : Poly n) (hr : WF r)
    (h : L.foldlM (mulStep so p q) r = some r') :
    WF r' ∧ ∀ S ∈ Terms n, coef r' S = coef r S + (L.map fun t => coef q t.toFinset *
      ∑ T ∈ Terms n, if T ∪ t.toFinset = S then coef p T else 0).sum := by
  induction L generalizing r with
  | nil => cases h; simp [hr]
  | cons t L ih =>
    rw [List.foldlM_cons] at h
    cases hs : mulStep so p q r t with
    | none => rw [hs] at h; exact absurd h (by simp)
    | some r₁ =>
      rw [hs] at h
      obtain ⟨h1, h2⟩ := mulStep_spec hso hp hq hr (hL t (by simp)) hs
      obtain ⟨h3, h4⟩ := ih (fun t ht => hL t (by simp [ht])) r₁ h1 h
      refine ⟨h3, fun S hS => ?_⟩
      rw [h4 S hS, h2 S hS, List.map_cons, List.sum_cons]; ring

theorem coef_mul {n : ℕ} {so : SetOrder} (hso : IsSetOrder so) {p q r : Poly n}
    (hp : WF p) (hq : WF q) (h : mul so p q = some r) :
    WF r ∧ ∀ S ∈ Terms n, coef r S = ∑ i ∈ Terms n ×ˢ Terms n,
      if i.2 ∪ i.1 = S then coef q i.1 * coef p i.2 else 0 := by
  obtain ⟨h3, h4⟩ := mul_fold hso hp hq (terms n) (fun t ht => mem_terms.1 ht) _ _ (WF.zero n) h
  refine ⟨h3, fun S hS => ?_⟩
  rw [h4 S hS, coef_zero, zero_add,
    sum_terms fun M => coef q M * ∑ T ∈ Terms n, if T ∪ M = S then coef p T else 0, Finset.sum_product]
  refine Finset.sum_congr rfl fun M _ => ?_
  rw [Finset.mul_sum]
  refine Finset.sum_congr rfl fun T _ => ?_
  simp only [mul_ite, mul_zero]

/-- Multiplication respects the grading, and its value is right up to what the dropped terms are worth. -/
theorem mul_graded {n : ℕ} {so : SetOrder} (hso : IsSetOrder so) {p q r : Poly n} {k l : ℕ}
    (hp : WF p) (hq : WF q) (gp : Gr k p) (gq : Gr l q) (h : mul so p q = some r) :
    WF r ∧ Gr (k + l) r ∧ ∀ x, (2 : ZMod 8) ^ (4 - (k + l)) ∣ value p x * value q x - value r x := by
  obtain ⟨h1, h2⟩ := coef_mul hso hp hq h
  refine ⟨h1, ?_, ?_⟩
  · intro S hS
    rw [h2 S hS]
    refine Finset.dvd_sum fun i hi => ?_
    obtain ⟨hi1, hi2⟩ := Finset.mem_product.1 hi
    split_ifs with hu
    · have d := mul_dvd_mul (gq _ hi1) (gp _ hi2)
      rw [← pow_add] at d
      refine dvd_trans (pow_dvd_pow 2 ?_) d
      have := Finset.card_union_le i.2 i.1
      rw [hu] at this
      omega
    · exact dvd_zero _
  · intro x
    rw [value_eq_of_conv (Terms n ×ˢ Terms n) (fun i => coef q i.1 * coef p i.2) (fun i => i.2 ∪ i.1) h2 x]
    have : value p x * value q x = ∑ i ∈ Terms n ×ˢ Terms n, coef q i.1 * coef p i.2 * mono x (i.2 ∪ i.1) := by
      unfold value
      rw [mul_comm, Finset.sum_mul_sum, ← Finset.sum_product']
      refine Finset.sum_congr rfl fun i _ => ?_
      rw [mono_union]; ring
    rw [this, ← Finset.sum_sub_distrib]
    refine Finset.dvd_sum fun i hi => ?_
    obtain ⟨hi1, hi2⟩ := Finset.mem_product.1 hi
    split_ifs with hu
    · rw [sub_self]; exact dvd_zero _
    · rw [sub_zero]
      refine Dvd.dvd.mul_right ?_ _
      have d := mul_dvd_mul (gq _ hi1) (gp _ hi2)
      rw [← pow_add] at d
      refine dvd_trans (pow_dvd_pow 2 ?_) d
      have h4 := union_mem_Terms hi2 hi1 hu
      have := Finset.card_union_le i.2 i.1
      omega

theorem coef_onePoly {n : ℕ} {S : Finset ℕ} (hS : S ∈ Terms n) :
    coef (onePoly n) S = if S = ∅ then 1 else 0 := by
  have h : setTerm (Poly.zero n) [] 1 = some (onePoly n) := by rw [setTerm_nil]; rfl
  have hv : Valid n [] := ⟨by simp, by simp, by simp⟩
  rw [coef_setTerm (WF.zero n) hv h hS, coef_zero]
  simp

theorem WF.one (n : ℕ) : WF (onePoly n) := by simp [WF, onePoly, Poly.zero]

theorem empty_mem_Terms (n : ℕ) : (∅ : Finset ℕ) ∈ Terms n := by simp [Terms]

theorem value_onePoly {n : ℕ} (x : ℕ → Bool) : value (onePoly n) x = 1 := by
  unfold value
  rw [Finset.sum_congr rfl fun S hS => by rw [coef_onePoly hS, ite_mul, zero_mul, one_mul],
    Finset.sum_ite_eq' (Terms n) ∅, if_pos (empty_mem_Terms n), mono_empty]

theorem Gr_onePoly (n : ℕ) : Gr 0 (onePoly n) := by
  intro S hS
  rw [coef_onePoly hS]
  split_ifs with h
  · subst h; simp
  · exact dvd_zero _

/-- A polynomial standing for one output bit: graded, with the bit as value. -/
def IsBit {n : ℕ} (p : Poly n) (x : ℕ → Bool) (b : Bool) : Prop :=
  WF p ∧ Gr 1 p ∧ value p x = if b then 1 else 0

theorem product_spec {n : ℕ} {so : SetOrder} (hso : IsSetOrder so) (x : ℕ → Bool)
    (fs : List (Poly n)) (bs : List Bool) (hlen : fs.length = bs.length)
    (hb : ∀ i (h : i < fs.length), IsBit fs[i] x (bs[i]'(by omega)))
    (k : ℕ) (acc r : Poly n) (a : ZMod 8) (hacc : WF acc) (gacc : Gr k acc)
    (hv : (2 : ZMod 8) ^ (4 - k) ∣ a - value acc x)
    (h : fs.foldlM (mul so) acc = some r) :
    WF r ∧ Gr (k + fs.length) r ∧
      (2 : ZMod 8) ^ (4 - (k + fs.length)) ∣ a * (bs.map fun b => if b then (1 : ZMod 8) else 0).prod - value r x := by
  induction fs generalizing bs k acc a with
  | nil =>
    cases bs with
    | nil => cases h; simpa using ⟨hacc, gacc, hv⟩
    | cons => simp at hlen
  | cons f fs ih =>
    cases bs with
    | nil => simp at hlen
    | cons b bs =>
      rw [List.foldlM_cons] at h
      cases hm : mul so acc f with
      | none => rw [hm] at h; exact absurd h (by simp)
      | some m =>
        rw [hm] at h
        obtain ⟨f1, f2, f3⟩ := hb 0 (by simp)
        obtain ⟨m1, m2, m3⟩ := mul_graded hso hacc f1 gacc f2 hm
        have f3 : value f x = if b then 1 else 0 := f3
        have := ih bs (by simpa using hlen) (fun i hi => hb (i + 1) (by simpa using hi)) (k + 1) m
          (a * if b then 1 else 0) m1 m2 (by
            have e : (a * if b then 1 else 0) - value m x =
                (a - value acc x) * (if b then 1 else 0) + (value acc x * value f x - value m x) := by
              rw [f3]; ring
            rw [e]
            refine dvd_add (Dvd.dvd.mul_right (dvd_trans (pow_dvd_pow 2 (by omega)) hv) _) (m3 x)) h
        refine ⟨this.1, ?_, ?_⟩
        · rw [List.length_cons, Nat.add_comm fs.length, ← Nat.add_assoc]; exact this.2.1
        · rw [List.length_cons, Nat.add_comm fs.length, ← Nat.add_assoc, List.map_cons, List.prod_cons, ← mul_assoc]
          exact this.2.2

theorem mono_toFinset (x : ℕ → Bool) (t : List ℕ) :
    mono x t.toFinset = (t.map fun i => if x i then (1 : ZMod 8) else 0).prod := by
  induction t with
  | nil => simp [mono]
  | cons i t ih =>
    rw [List.toFinset_cons, Finset.insert_eq, mono_union, ih, List.map_cons, List.prod_cons]
    congr 1
    simp [mono]

theorem mapM_getElem {α : Type} (xs : List α) (t : List ℕ) (fs : List α)
    (h : (t.mapM fun j => xs[j]?) = some fs) :
    fs.length = t.length ∧ ∀ i (hi : i < fs.length) (hi' : i < t.length), xs[t[i]]? = some fs[i] := by
  induction t generalizing fs with
  | nil => cases h; simp
  | cons j t ih =>
    rw [List.mapM_cons] at h
    cases h1 : xs[j]? with
    | none => rw [h1] at h; exact absurd h (by simp)
    | some a =>
      cases h2 : (t.mapM fun j => xs[j]?) with
      | none => rw [h1, h2] at h; exact absurd h (by simp)
      | some as =>
        rw [h1, h2] at h
        have h' : a :: as = fs := by simpa using h
        subst h'
        obtain ⟨i1, i2⟩ := ih as h2
        refine ⟨by simp [i1], ?_⟩
        intro i hi hi'
        cases i with
        | zero => simpa using h1
        | succ i => simpa using i2 i (by simpa using hi) (by simpa using hi')

theorem eight_zero : (2 : ZMod 8) ^ 3 = 0 := by decide

theorem evaluateStep_spec {n : ℕ} {so : SetOrder} (hso : IsSetOrder so) {p r q : Poly n}
    {xs : List (Poly n)} (hxs : xs.length = n) (x y : ℕ → Bool)
    (hbits : ∀ i (h : i < xs.length), IsBit xs[i] x (y i))
    (hp : WF p) (gp : Gr 1 p) (hr : WF r) {t : List ℕ} (ht : Valid n t)
    (h : evaluateStep so p xs r t = some q) :
    WF q ∧ (Gr 1 r → Gr 1 q) ∧ value q x = value r x + coef p t.toFinset * mono y t.toFinset := by
  obtain ⟨v, hv⟩ := getTerm_isSome p hp ht
  have hc := coef_of_getTerm ht hv
  simp only [evaluateStep, hv] at h
  by_cases h0 : v ≠ 0
  · simp only [Option.bind_eq_bind, Option.bind_some, if_pos h0] at h
    cases hm : termProduct so xs t with
    | none => rw [hm] at h; exact absurd h (by simp)
    | some m =>
      rw [hm] at h
      have h' : add r (smul m v) = q := by simpa using h
      subst h'
      unfold termProduct at hm
      cases hf : (t.mapM fun j => xs[j]?) with
      | none => rw [hf] at hm; exact absurd hm (by simp)
      | some fs =>
        rw [hf] at hm
        have hm' : fs.foldlM (mul so) (onePoly n) = some m := hm
        obtain ⟨hl, hget⟩ := mapM_getElem xs t fs hf
        have := product_spec hso x fs (t.map y) (by simp [hl]) (by
          intro i hi
          have hg := hget i hi (by omega)
          obtain ⟨hlt, he⟩ := List.getElem?_eq_some_iff.1 hg
          rw [← he, List.getElem_map]
          exact hbits _ hlt) 0 (onePoly n) m 1 (WF.one n) (Gr_onePoly n) (by rw [value_onePoly]; simp) hm'
        obtain ⟨m1, m2, m3⟩ := this
        have hd : (2 : ZMod 8) ^ (t.length - 1) ∣ (v : ZMod 8) := by
          have := gp _ ht.mem_Terms
          rwa [ht.card, hc] at this
        refine ⟨hr.add (m1.smul v), fun gr S hS => ?_, ?_⟩
        · rw [coef_add hr (m1.smul v) hS, coef_smul m1 v hS]
          refine dvd_add (gr S hS) ?_
          have d := mul_dvd_mul (m2 S hS) hd
          rw [← pow_add] at d
          exact dvd_trans (pow_dvd_pow 2 (by rw [hl]; omega)) d
        rw [value_add hr (m1.smul v), value_smul m1 v, hc]
        congr 1
        rw [one_mul, List.map_map, zero_add, hl] at m3
        rw [mono_toFinset]
        obtain ⟨c, hcc⟩ := hd
        obtain ⟨d, hdd⟩ := m3
        have e : value m x = ((t.map ((fun b => if b then (1 : ZMod 8) else 0) ∘ y)).prod) - 2 ^ (4 - t.length) * d := by
          rw [← hdd]; ring
        rw [e]
        have e8 : (2 : ZMod 8) ^ (4 - t.length) * d * v = 0 := by
          rw [hcc]
          have h3 := ht.2.2
          have : (2 : ZMod 8) ^ (4 - t.length) * d * (2 ^ (t.length - 1) * c) =
              2 ^ (4 - t.length + (t.length - 1)) * (d * c) := by rw [pow_add]; ring
          rw [this]
          have h4 : 3 ≤ 4 - t.length + (t.length - 1) := by omega
          obtain ⟨z, hz⟩ := Nat.exists_eq_add_of_le h4
          rw [hz, pow_add, eight_zero]; ring
        rw [sub_mul, e8, sub_zero, mul_comm]
        rfl
  · simp only [Option.bind_eq_bind, Option.bind_some, if_neg h0] at h
    cases h
    have : v = 0 := by simpa using h0
    subst this
    exact ⟨hr, id, by rw [hc]; simp⟩

/-- Evaluation at polynomials that stand for bits: the value is the value at those bits. -/
theorem evaluate_spec {n : ℕ} {so : SetOrder} (hso : IsSetOrder so) {p q : Poly n}
    {xs : List (Poly n)} (x y : ℕ → Bool)
    (hbits : ∀ i (h : i < xs.length), IsBit xs[i] x (y i))
    (hp : WF p) (gp : Gr 1 p) (h : evaluate so p xs = some q) :
    WF q ∧ Gr 1 q ∧ value q x = value p y := by
  unfold evaluate at h
  by_cases hl : xs.length = n
  · rw [if_neg (by simpa using hl)] at h
    have key : ∀ (L : List (List ℕ)), (∀ t ∈ L, Valid n t) → ∀ r q : Poly n, WF r →
        L.foldlM (evaluateStep so p xs) r = some q →
        WF q ∧ (Gr 1 r → Gr 1 q) ∧ value q x = value r x + (L.map fun t => coef p t.toFinset * mono y t.toFinset).sum := by
      intro L hL
      induction L with
      | nil => intro r q hr h; cases h; simp [hr]
      | cons t L ih =>
        intro r q hr h
        rw [List.foldlM_cons] at h
        cases hs : evaluateStep so p xs r t with
        | none => rw [hs] at h; exact absurd h (by simp)
        | some r₁ =>
          rw [hs] at h
          obtain ⟨h1, g1, h2⟩ := evaluateStep_spec hso hl x y hbits hp gp hr (hL t (by simp)) hs
          obtain ⟨h3, g3, h4⟩ := ih (fun t ht => hL t (by simp [ht])) r₁ q h1 h
          refine ⟨h3, g3 ∘ g1, ?_⟩
          rw [h4, h2, List.map_cons, List.sum_cons]; ring
    obtain ⟨h1, g1, h2⟩ := key (terms n) (fun t ht => mem_terms.1 ht) _ _ (WF.zero n) h
    refine ⟨h1, g1 (fun S _ => by rw [coef_zero]; exact dvd_zero _), ?_⟩
    rw [h2, value_zero, zero_add, sum_terms fun S => coef p S * mono y S]; rfl
  · rw [if_pos (by simpa using hl)] at h; cases h

/-! ### The operations succeed when the set order is ascending -/

theorem mulMonomial_some {n : ℕ} {so : SetOrder} (hso : IsSetOrder so) (has : AscendingBelow so n)
    {p : Poly n} (hp : WF p) {idx : List ℕ} (hidx : Valid n idx) : ∃ q, mulMonomial so p idx = some q := by
  unfold mulMonomial
  rw [if_neg (by have := hidx.2.2; omega), if_neg (by simpa using (any_diff_iff hidx.2.2).2 hidx.1)]
  by_cases h0 : idx.length = 0
  · rw [if_pos h0]; exact ⟨_, rfl⟩
  rw [if_neg h0]
  have key : ∀ (L : List (List ℕ)), (∀ t ∈ L, Valid n t) → ∀ r : Poly n, WF r →
      ∃ q, L.foldlM (mulMonomialStep so p idx) r = some q := by
    intro L hL
    induction L with
    | nil => intro r _; exact ⟨r, rfl⟩
    | cons t L ih =>
      intro r hr
      have ht := hL t (by simp)
      have hstep : ∃ r', mulMonomialStep so p idx r t = some r' := by
        obtain ⟨v, hv⟩ := getTerm_isSome p hp ht
        simp only [mulMonomialStep, hv, Option.bind_eq_bind, Option.bind_some]
        by_cases h4 : 4 ≤ (so t idx).length
        · exact ⟨r, by simp [getTerm, setTerm, h4]⟩
        · have hval : Valid n (so t idx) := by
            refine ⟨has t idx ht hidx, fun i hi => ?_, by omega⟩
            rcases ((hso t idx ht.1 ht.2.2 hidx.1 hidx.2.2).2 i).1 hi with h | h
            · exact ht.2.1 i h
            · exact hidx.2.1 i h
          obtain ⟨q, hq, -⟩ := addT_spec hr hval v
          exact ⟨q, hq⟩
      obtain ⟨r', hr'⟩ := hstep
      obtain ⟨w, -⟩ := mulMonomialStep_spec hso hp hr hidx.1 hidx.2.2 ht hr'
      obtain ⟨q, hq⟩ := ih (fun t ht => hL t (by simp [ht])) r' w
      exact ⟨q, by rw [List.foldlM_cons, hr']; exact hq⟩
  exact key (terms n) (fun t ht => mem_terms.1 ht) _ (WF.zero n)

theorem mul_some {n : ℕ} {so : SetOrder} (hso : IsSetOrder so) (has : AscendingBelow so n)
    {p q : Poly n} (hp : WF p) (hq : WF q) : ∃ r, mul so p q = some r := by
  have key : ∀ (L : List (List ℕ)), (∀ t ∈ L, Valid n t) → ∀ r : Poly n, WF r →
      ∃ r', L.foldlM (mulStep so p q) r = some r' := by
    intro L hL
    induction L with
    | nil => intro r _; exact ⟨r, rfl⟩
    | cons t L ih =>
      intro r hr
      have ht := hL t (by simp)
      have hstep : ∃ r', mulStep so p q r t = some r' := by
        obtain ⟨v, hv⟩ := getTerm_isSome q hq ht
        obtain ⟨m, hm⟩ := mulMonomial_some hso has hp ht
        simp only [mulStep, hv, Option.bind_eq_bind, Option.bind_some, hm]
        split_ifs
        · exact ⟨_, rfl⟩
        · exact ⟨_, rfl⟩
      obtain ⟨r', hr'⟩ := hstep
      obtain ⟨w, -⟩ := mulStep_spec hso hp hq hr ht hr'
      obtain ⟨q', hq'⟩ := ih (fun t ht => hL t (by simp [ht])) r' w
      exact ⟨q', by rw [List.foldlM_cons, hr']; exact hq'⟩
  exact key (terms n) (fun t ht => mem_terms.1 ht) _ (WF.zero n)

theorem product_some {n : ℕ} {so : SetOrder} (hso : IsSetOrder so) (has : AscendingBelow so n)
    (fs : List (Poly n)) (hfs : ∀ f ∈ fs, WF f) (acc : Poly n) (hacc : WF acc) :
    ∃ r, fs.foldlM (mul so) acc = some r ∧ WF r := by
  induction fs generalizing acc with
  | nil => exact ⟨acc, rfl, hacc⟩
  | cons f fs ih =>
    obtain ⟨m, hm⟩ := mul_some hso has hacc (hfs f (by simp))
    obtain ⟨w, -⟩ := coef_mul hso hacc (hfs f (by simp)) hm
    obtain ⟨r, hr, hr'⟩ := ih (fun f hf => hfs f (by simp [hf])) m w
    exact ⟨r, by rw [List.foldlM_cons, hm]; exact hr, hr'⟩

theorem mapM_getElem_some {α : Type} (xs : List α) (t : List ℕ) (h : ∀ i ∈ t, i < xs.length) :
    ∃ fs, (t.mapM fun j => xs[j]?) = some fs ∧ ∀ f ∈ fs, f ∈ xs := by
  induction t with
  | nil => exact ⟨[], rfl, by simp⟩
  | cons j t ih =>
    obtain ⟨fs, h1, h2⟩ := ih fun i hi => h i (by simp [hi])
    have hj := h j (by simp)
    refine ⟨xs[j] :: fs, ?_, ?_⟩
    · rw [List.mapM_cons, h1, List.getElem?_eq_getElem hj]; rfl
    · intro f hf
      rcases List.mem_cons.1 hf with rfl | hf
      · exact List.getElem_mem hj
      · exact h2 f hf

theorem evaluate_some {n : ℕ} {so : SetOrder} (hso : IsSetOrder so) (has : AscendingBelow so n)
    {p : Poly n} (hp : WF p) {xs : List (Poly n)} (hl : xs.length = n) (hxs : ∀ q ∈ xs, WF q) :
    ∃ r, evaluate so p xs = some r := by
  unfold evaluate
  rw [if_neg (by simpa using hl)]
  have key : ∀ (L : List (List ℕ)), (∀ t ∈ L, Valid n t) → ∀ r : Poly n, WF r →
      ∃ r', L.foldlM (evaluateStep so p xs) r = some r' := by
    intro L hL
    induction L with
    | nil => intro r _; exact ⟨r, rfl⟩
    | cons t L ih =>
      intro r hr
      have ht := hL t (by simp)
      have hstep : ∃ r', evaluateStep so p xs r t = some r' ∧ WF r' := by
        obtain ⟨v, hv⟩ := getTerm_isSome p hp ht
        obtain ⟨fs, hf1, hf2⟩ := mapM_getElem_some xs t fun i hi => by rw [hl]; exact ht.2.1 i hi
        obtain ⟨m, hm, hmw⟩ := product_some hso has fs (fun f hf => hxs f (hf2 f hf)) (onePoly n) (WF.one n)
        have hm' : termProduct so xs t = some m := by unfold termProduct; rw [hf1]; exact hm
        simp only [evaluateStep, hv, Option.bind_eq_bind, Option.bind_some, hm']
        split_ifs
        · exact ⟨_, rfl, hr.add (hmw.smul v)⟩
        · exact ⟨_, rfl, hr⟩
      obtain ⟨r', hr', w⟩ := hstep
      obtain ⟨q', hq'⟩ := ih (fun t ht => hL t (by simp [ht])) r' w
      exact ⟨q', by rw [List.foldlM_cons, hr']; exact hq'⟩
  exact key (terms n) (fun t ht => mem_terms.1 ht) _ (WF.zero n)

end Verif.Dihedral
