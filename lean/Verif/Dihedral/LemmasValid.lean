import Verif.Dihedral.LemmasElem
import Mathlib.Data.Finset.Powerset
import Mathlib.Data.Int.ModEq
/-
Validity (`is_cnotdihedral`): every table position is addressed by a term, and the operations keep
elements valid.
-/
set_option linter.unusedSimpArgs false
set_option linter.unusedVariables false
namespace Verif.Dihedral

theorem off2_surj {n o : ℕ} (ho : o < nc2 n) : ∃ i j, i < j ∧ j < n ∧ off2 n i j = o := by
  classical
  let P : Finset (ℕ × ℕ) := (Finset.range n ×ˢ Finset.range n).filter fun p => p.1 < p.2
  have hcard : P.card = n.choose 2 := by
    have hc : (Finset.powersetCard 2 (Finset.range n)).card = n.choose 2 := by
      rw [Finset.card_powersetCard, Finset.card_range]
    rw [← hc]
    refine Finset.card_bij (fun p _ => ({p.1, p.2} : Finset ℕ)) ?_ ?_ ?_
    · intro p hp
      simp only [P, Finset.mem_filter, Finset.mem_product, Finset.mem_range] at hp
      rw [Finset.mem_powersetCard]
      refine ⟨?_, Finset.card_pair (by omega)⟩
      intro a ha
      simp only [Finset.mem_insert, Finset.mem_singleton] at ha
      rw [Finset.mem_range]; omega
    · intro p hp q hq h
      simp only [P, Finset.mem_filter, Finset.mem_product, Finset.mem_range] at hp hq
      have h1 : p.1 ∈ ({q.1, q.2} : Finset ℕ) := by rw [← h]; simp
      have h2 : p.2 ∈ ({q.1, q.2} : Finset ℕ) := by rw [← h]; simp
      have h3 : q.1 ∈ ({p.1, p.2} : Finset ℕ) := by rw [h]; simp
      simp only [Finset.mem_insert, Finset.mem_singleton] at h1 h2 h3
      ext <;> omega
    · intro S hS
      rw [Finset.mem_powersetCard] at hS
      obtain ⟨a, b, hab, rfl⟩ := Finset.card_eq_two.1 hS.2
      have ha : a < n := Finset.mem_range.1 (hS.1 (by simp))
      have hb : b < n := Finset.mem_range.1 (hS.1 (by simp))
      rcases Nat.lt_or_gt_of_ne hab with h | h
      · exact ⟨(a, b), by simp [P, *], rfl⟩
      · exact ⟨(b, a), by simp [P, *], Finset.pair_comm b a⟩
  have hsurj := Finset.surj_on_of_inj_on_of_card_le (s := P) (t := Finset.range (nc2 n))
    (fun p _ => (off2 n p.1 p.2).toNat) (by
      intro p hp
      simp only [P, Finset.mem_filter, Finset.mem_product, Finset.mem_range] at hp
      have := off2_range hp.2 hp.1.2
      rw [Finset.mem_range]; omega) (by
      intro p q hp hq h
      simp only [P, Finset.mem_filter, Finset.mem_product, Finset.mem_range] at hp hq
      have r1 := off2_range hp.2 hp.1.2
      have r2 := off2_range hq.2 hq.1.2
      have := off2_inj hp.2 hp.1.2 hq.2 hq.1.2 (by omega)
      exact Prod.ext this.1 this.2) (by rw [hcard, Finset.card_range, nc2_eq])
  obtain ⟨p, hp, he⟩ := hsurj o (Finset.mem_range.2 ho)
  simp only [P, Finset.mem_filter, Finset.mem_product, Finset.mem_range] at hp
  have r1 := off2_range hp.2 hp.1.2
  exact ⟨p.1, p.2, hp.2, hp.1.2, by omega⟩

theorem off3_surj {n o : ℕ} (ho : o < nc3 n) : ∃ i j k, i < j ∧ j < k ∧ k < n ∧ off3 n i j k = o := by
  classical
  let pos : Finset ℕ → ℕ := fun S => match S.sort with
    | [i, j, k] => (off3 n i j k).toNat
    | _ => 0
  have hform : ∀ S ∈ Finset.powersetCard 3 (Finset.range n), ∃ i j k, S.sort = [i, j, k] ∧ i < j ∧ j < k ∧ k < n := by
    intro S hS
    rw [Finset.mem_powersetCard] at hS
    have hT : S ∈ Terms n := by
      simp only [Terms, Finset.mem_filter, Finset.mem_powerset]; exact ⟨hS.1, by omega⟩
    have hl : S.sort.length = 3 := by rw [Finset.length_sort]; exact hS.2
    rcases valid_cases (valid_sort hT) with h | ⟨i, h, hi⟩ | ⟨i, j, h, hij, hj⟩ | h
    · rw [h] at hl; simp at hl
    · rw [h] at hl; simp at hl
    · rw [h] at hl; simp at hl
    · exact h
  have hsurj := Finset.surj_on_of_inj_on_of_card_le (s := Finset.powersetCard 3 (Finset.range n))
    (t := Finset.range (nc3 n)) (fun S _ => pos S) (by
      intro S hS
      obtain ⟨i, j, k, h, h1, h2, h3⟩ := hform S hS
      have := off3_range h1 h2 h3
      simp only [pos, h]
      rw [Finset.mem_range]; omega) (by
      intro S T hS hT he
      obtain ⟨i, j, k, h, h1, h2, h3⟩ := hform S hS
      obtain ⟨i', j', k', h', h1', h2', h3'⟩ := hform T hT
      simp only [pos, h, h'] at he
      have r1 := off3_range h1 h2 h3
      have r2 := off3_range h1' h2' h3'
      have := off3_inj h1 h2 h3 h1' h2' h3' (by omega)
      have e : S.sort = T.sort := by rw [h, h', this.1, this.2.1, this.2.2]
      rw [← Finset.sort_toFinset S (· ≤ ·), ← Finset.sort_toFinset T (· ≤ ·), e])
    (by rw [Finset.card_powersetCard, Finset.card_range, Finset.card_range, nc3_eq])
  obtain ⟨S, hS, he⟩ := hsurj o (Finset.mem_range.2 ho)
  obtain ⟨i, j, k, h, h1, h2, h3⟩ := hform S hS
  simp only [pos, h] at he
  have r1 := off3_range h1 h2 h3
  exact ⟨i, j, k, h1, h2, h3, by omega⟩

/-- A polynomial is determined by its terms. -/
theorem Poly.ext_terms {n : ℕ} {p q : Poly n} (hp : WF p) (hq : WF q)
    (h : ∀ t, Valid n t → getTerm p t = getTerm q t) : p = q := by
  have h0 := h [] ⟨by simp, by simp, by simp⟩
  rw [getTerm_nil, getTerm_nil] at h0
  have h1 : p.w1 = q.w1 := by
    apply List.ext_getElem? ; intro i
    by_cases hi : i < n
    · have := h [i] ⟨by simp, by simpa using hi, by simp⟩
      rwa [getTerm_one p hp hi, getTerm_one q hq hi] at this
    · rw [List.getElem?_eq_none (by rw [hp.1]; omega), List.getElem?_eq_none (by rw [hq.1]; omega)]
  have h2 : p.w2 = q.w2 := by
    apply List.ext_getElem? ; intro o
    by_cases ho : o < nc2 n
    · obtain ⟨i, j, hij, hj, e⟩ := off2_surj ho
      have := h [i, j] ⟨by simpa using hij, by simp; omega, by simp⟩
      rw [getTerm_two p hp hij hj, getTerm_two q hq hij hj, e] at this
      simpa using this
    · rw [List.getElem?_eq_none (by rw [hp.2.1]; omega), List.getElem?_eq_none (by rw [hq.2.1]; omega)]
  have h3 : p.w3 = q.w3 := by
    apply List.ext_getElem? ; intro o
    by_cases ho : o < nc3 n
    · obtain ⟨i, j, k, hij, hjk, hk, e⟩ := off3_surj ho
      have := h [i, j, k] ⟨by simp; omega, by simp; omega, by simp⟩
      rw [getTerm_three p hp hij hjk hk, getTerm_three q hq hij hjk hk, e] at this
      simpa using this
    · rw [List.getElem?_eq_none (by rw [hp.2.2]; omega), List.getElem?_eq_none (by rw [hq.2.2]; omega)]
  cases p; cases q; simp_all

theorem getTerm_range {n : ℕ} {p : Poly n} (hp : WF p) (hr : Rd p) {t : List ℕ} (ht : Valid n t) {v : ℤ}
    (h : getTerm p t = some v) : 0 ≤ v ∧ v < 8 := by
  rcases valid_cases ht with rfl | ⟨i, rfl, hi⟩ | ⟨i, j, rfl, hij, hj⟩ | ⟨i, j, k, rfl, hij, hjk, hk⟩
  · rw [getTerm_nil] at h; cases h; exact hr.1
  · rw [getTerm_one p hp hi] at h; exact hr.2.1 v (List.mem_of_getElem? h)
  · rw [getTerm_two p hp hij hj] at h; exact hr.2.2.1 v (List.mem_of_getElem? h)
  · rw [getTerm_three p hp hij hjk hk] at h; exact hr.2.2.2 v (List.mem_of_getElem? h)

theorem eq_of_cast8 {a b : ℤ} (ha : 0 ≤ a ∧ a < 8) (hb : 0 ≤ b ∧ b < 8) (h : (a : ZMod 8) = b) : a = b := by
  have := (ZMod.intCast_eq_intCast_iff a b 8).1 h
  have h' : a % 8 = b % 8 := this
  omega

/-- Reduced polynomials with the same coefficients are equal. -/
theorem Poly.ext_coef {n : ℕ} {p q : Poly n} (hp : WF p) (hq : WF q) (rp : Rd p) (rq : Rd q)
    (h : ∀ S ∈ Terms n, coef p S = coef q S) : p = q := by
  refine Poly.ext_terms hp hq fun t ht => ?_
  obtain ⟨a, ha⟩ := getTerm_isSome p hp ht
  obtain ⟨b, hb⟩ := getTerm_isSome q hq ht
  have := h _ ht.mem_Terms
  rw [coef_of_getTerm ht ha, coef_of_getTerm ht hb] at this
  rw [ha, hb, eq_of_cast8 (getTerm_range hp rp ht ha) (getTerm_range hq rq ht hb) this]

theorem dvd_cast8 {a : ℤ} {m : ℕ} (hm : (m : ℤ) ∣ 8) (h : (m : ZMod 8) ∣ (a : ZMod 8)) : (m : ℤ) ∣ a := by
  obtain ⟨c, hc⟩ := h
  obtain ⟨c', rfl⟩ := ZMod.intCast_surjective c
  have : ((a : ℤ) : ZMod 8) = ((m * c' : ℤ) : ZMod 8) := by push_cast; exact hc
  have h2 := ((ZMod.intCast_eq_intCast_iff a (m * c') 8).1 this).dvd
  have h3 : (m : ℤ) ∣ m * c' - a := dvd_trans hm (by exact_mod_cast h2)
  have h4 : (m : ℤ) ∣ (m * c' - (m * c' - a)) := dvd_sub (dvd_mul_right _ _) h3
  simpa using h4

theorem isCnot_iff {n : ℕ} (e : Elem n) : isCnotDihedral e = true ↔
    Good e ∧ Rd e.poly ∧ e.poly.w0 = 0 ∧ detOdd e.linear = true := by
  unfold isCnotDihedral
  constructor
  · intro h
    split_ifs at h with h1 h2 h3 h4
    push Not at h1 h3 h4
    have hwf : WF e.poly := ⟨h1.2.1, h1.2.2.1, h1.2.2.2⟩
    have hgr : Gr 1 e.poly := by
      intro S hS
      have hv := valid_sort hS
      have hc : S.card = S.sort.length := (Finset.length_sort _).symm
      unfold coef
      rw [hc]
      rcases valid_cases hv with h | ⟨i, h, hi⟩ | ⟨i, j, h, hij, hj⟩ | ⟨i, j, k, h, hij, hjk, hk⟩
      · rw [h]; simp
      · rw [h]; simp
      · rw [h]
        obtain ⟨v, hv'⟩ := getTerm_isSome e.poly hwf (h ▸ hv)
        rw [hv']
        rw [getTerm_two _ hwf hij hj] at hv'
        have := h3.2.1 v (List.mem_of_getElem? hv')
        simp only [List.mem_cons, List.not_mem_nil, or_false] at this
        rcases this with rfl | rfl | rfl | rfl
        · exact ⟨0, by simp only [List.length_cons, List.length_nil, Option.getD_some]; decide⟩
        · exact ⟨1, by simp only [List.length_cons, List.length_nil, Option.getD_some]; decide⟩
        · exact ⟨2, by simp only [List.length_cons, List.length_nil, Option.getD_some]; decide⟩
        · exact ⟨3, by simp only [List.length_cons, List.length_nil, Option.getD_some]; decide⟩
      · rw [h]
        obtain ⟨v, hv'⟩ := getTerm_isSome e.poly hwf (h ▸ hv)
        rw [hv']
        rw [getTerm_three _ hwf hij hjk hk] at hv'
        have := h3.2.2 v (List.mem_of_getElem? hv')
        simp only [List.mem_cons, List.not_mem_nil, or_false] at this
        rcases this with rfl | rfl
        · exact ⟨0, by simp only [List.length_cons, List.length_nil, Option.getD_some]; decide⟩
        · exact ⟨1, by simp only [List.length_cons, List.length_nil, Option.getD_some]; decide⟩
    refine ⟨⟨hwf, hgr, ?_, ?_⟩, ⟨by omega, ?_, ?_, ?_⟩, h1.1, by simpa using h2⟩
    · intro i j; simpa using h4.2 i j
    · intro i; simpa using h4.1 i
    · intro a ha
      have := h3.1 a ha
      simp only [List.mem_cons, List.not_mem_nil, or_false] at this
      omega
    · intro a ha
      have := h3.2.1 a ha
      simp only [List.mem_cons, List.not_mem_nil, or_false] at this
      omega
    · intro a ha
      have := h3.2.2 a ha
      simp only [List.mem_cons, List.not_mem_nil, or_false] at this
      omega
  · rintro ⟨⟨hwf, hgr, hl, hs⟩, hr, h0, hd⟩
    have hw2 : ∀ a ∈ e.poly.w2, a ∈ ([0, 2, 4, 6] : List ℤ) := by
      intro a ha
      have hra := hr.2.2.1 a ha
      obtain ⟨o, ho, hoe⟩ := List.mem_iff_getElem.1 ha
      have ho' : o < nc2 n := by rw [← hwf.2.1]; exact ho
      obtain ⟨i, j, hij, hj, he⟩ := off2_surj ho'
      have hv : Valid n [i, j] := ⟨by simpa using hij, by simp; omega, by simp⟩
      have hg : getTerm e.poly [i, j] = some a := by
        rw [getTerm_two _ hwf hij hj, he, Int.toNat_natCast, List.getElem?_eq_getElem ho, hoe]
      have := hgr _ hv.mem_Terms
      rw [hv.card, coef_of_getTerm hv hg] at this
      have h2 : (2 : ℤ) ∣ a := dvd_cast8 (m := 2) (by norm_num) (by simpa using this)
      simp only [List.mem_cons, List.not_mem_nil, or_false]
      omega
    have hw3 : ∀ a ∈ e.poly.w3, a ∈ ([0, 4] : List ℤ) := by
      intro a ha
      have hra := hr.2.2.2 a ha
      obtain ⟨o, ho, hoe⟩ := List.mem_iff_getElem.1 ha
      have ho' : o < nc3 n := by rw [← hwf.2.2]; exact ho
      obtain ⟨i, j, k, hij, hjk, hk, he⟩ := off3_surj ho'
      have hv : Valid n [i, j, k] := ⟨by simp; omega, by simp; omega, by simp⟩
      have hg : getTerm e.poly [i, j, k] = some a := by
        rw [getTerm_three _ hwf hij hjk hk, he, Int.toNat_natCast, List.getElem?_eq_getElem ho, hoe]
      have := hgr _ hv.mem_Terms
      rw [hv.card, coef_of_getTerm hv hg] at this
      have h2 : ((4 : ℕ) : ℤ) ∣ a := dvd_cast8 (m := 4) (by norm_num) (by
        have e4 : (2 : ZMod 8) ^ ([i, j, k].length - 1) = ((4 : ℕ) : ZMod 8) := by
          simp only [List.length_cons, List.length_nil]; decide
        rwa [e4] at this)
      simp only [List.mem_cons, List.not_mem_nil, or_false]
      omega
    have hw1 : ∀ a ∈ e.poly.w1, a ∈ ([0, 1, 2, 3, 4, 5, 6, 7] : List ℤ) := by
      intro a ha
      have hra := hr.2.1 a ha
      simp only [List.mem_cons, List.not_mem_nil, or_false]
      omega
    rw [if_neg (by push Not; exact ⟨h0, hwf⟩), if_neg (by simpa using hd), if_neg (by push Not; exact ⟨hw1, hw2, hw3⟩),
      if_neg]
    push Not
    exact ⟨fun i => by simpa using hs i, fun i j => by simpa using hl i j⟩

/-- The matrix over ZMod 2. -/
def mat2 {n : ℕ} (m : Fin n → Fin n → ℤ) : Matrix (Fin n) (Fin n) (ZMod 2) := fun i j => (m i j : ZMod 2)

theorem detOdd_iff {n : ℕ} (m : Fin n → Fin n → ℤ) : detOdd m = true ↔ (mat2 m).det = 1 := by
  have h : (mat2 m).det = (((Matrix.of m).det : ℤ) : ZMod 2) := by
    have := (Int.castRingHom (ZMod 2)).map_det (Matrix.of m)
    exact this.symm
  rw [h, detOdd, decide_eq_true_iff]
  constructor
  · intro h1
    have : (((Matrix.of m).det : ℤ) : ZMod 2) = ((1 : ℤ) : ZMod 2) := (ZMod.intCast_eq_intCast_iff _ _ 2).2 (by
      show _ % _ = _ % _; norm_num; omega)
    rw [this]; simp
  · intro h1
    have h2 : (((Matrix.of m).det : ℤ) : ZMod 2) = ((1 : ℤ) : ZMod 2) := by rw [h1]; simp
    have h3 : (Matrix.of m).det % 2 = 1 % 2 := (ZMod.intCast_eq_intCast_iff _ _ 2).1 h2
    omega

theorem emod2 (v : ℤ) : ((v % 2 : ℤ) : ZMod 2) = (v : ZMod 2) := ZMod.intCast_mod v 2

theorem mat2_mul {n : ℕ} (a b : Fin n → Fin n → ℤ) : mat2 (z2matmul a b) = mat2 a * mat2 b := by
  ext i j
  simp only [mat2, z2matmul, emod2, Matrix.mul_apply]
  push_cast; rfl

theorem cnot_some {n : ℕ} (e : Elem n) {i j : ℕ} (hi : i < n) (hj : j < n) :
    ∃ r, cnot e i j = some r ∧ r.poly = e.poly ∧
      r.linear = Function.update e.linear ⟨j, hj⟩ (fun c => (e.linear ⟨i, hi⟩ c + e.linear ⟨j, hj⟩ c) % 2) ∧
      r.shift = Function.update e.shift ⟨j, hj⟩ ((e.shift ⟨i, hi⟩ + e.shift ⟨j, hj⟩) % 2) := by
  unfold cnot
  rw [dif_pos ⟨hi, hj⟩]
  exact ⟨_, rfl, rfl, rfl, rfl⟩

theorem mat2_cnot {n : ℕ} (m : Fin n → Fin n → ℤ) (i j : Fin n) :
    mat2 (Function.update m j (fun c => (m i c + m j c) % 2)) = (mat2 m).updateRow j (mat2 m j + mat2 m i) := by
  ext r c
  by_cases h : r = j
  · subst h; simp [mat2, emod2, Matrix.updateRow_self, add_comm]
  · simp [mat2, h, Matrix.updateRow_ne h]

theorem detOdd_cnot {n : ℕ} {m : Fin n → Fin n → ℤ} {i j : Fin n} (hij : i ≠ j) (h : detOdd m = true) :
    detOdd (Function.update m j (fun c => (m i c + m j c) % 2)) = true := by
  rw [detOdd_iff] at *
  rw [mat2_cnot, Matrix.det_updateRow_add_self _ (Ne.symm hij), h]

/-- `cnot`: affine part. -/
theorem aff_cnot {n : ℕ} {e r : Elem n} {i j : Fin n} (hij : i ≠ j)
    (hl : r.linear = Function.update e.linear j (fun c => (e.linear i c + e.linear j c) % 2))
    (hs : r.shift = Function.update e.shift j ((e.shift i + e.shift j) % 2)) (x : Fin n → Bool) :
    aff r x = Function.update (aff e x) j (Bool.xor (aff e x j) (aff e x i)) := by
  funext k
  by_cases hk : k = j
  · subst hk
    rw [Function.update_self]
    unfold aff
    rw [hl, hs]
    simp only [Function.update_self]
    have : (∑ c, (e.linear i c + e.linear k c) % 2 * bit (x c) + (e.shift i + e.shift k) % 2) ≡
        (∑ c, e.linear k c * bit (x c) + e.shift k) + (∑ c, e.linear i c * bit (x c) + e.shift i) [ZMOD 2] := by
      have h1 : (∑ c, (e.linear i c + e.linear k c) % 2 * bit (x c)) ≡
          ∑ c, (e.linear i c + e.linear k c) * bit (x c) [ZMOD 2] :=
        emod2_sum_congr fun c => (Int.mod_modEq _ 2).mul_right _
      refine (h1.add (Int.mod_modEq _ 2)).trans ?_
      have h2 : ∑ c, (e.linear i c + e.linear k c) * bit (x c) =
          ∑ c, e.linear i c * bit (x c) + ∑ c, e.linear k c * bit (x c) := by
        rw [← Finset.sum_add_distrib]; exact Finset.sum_congr rfl fun c _ => by ring
      rw [h2]
      exact congrArg (· % 2) (by ring)
    have h3 : ∀ u v : ℤ, decide ((u + v) % 2 = 1) = Bool.xor (decide (u % 2 = 1)) (decide (v % 2 = 1)) := by
      intro u v
      rcases emod2_bits u with hu | hu <;> rcases emod2_bits v with hv | hv <;>
        · have : (u + v) % 2 = 0 ∨ (u + v) % 2 = 1 := emod2_bits _
          rcases this with h | h
          · simp [hu, hv, h] <;> omega
          · simp [hu, hv, h] <;> omega
    rw [← h3]
    have h4 := this
    unfold Int.ModEq at h4
    rw [h4]
  · rw [Function.update_of_ne hk]
    unfold aff
    rw [hl, hs]
    simp only [Function.update_of_ne hk]

theorem Good.cnot {n : ℕ} {e r : Elem n} (he : Good e) {i j : Fin n} (hp : r.poly = e.poly)
    (hl : r.linear = Function.update e.linear j (fun c => (e.linear i c + e.linear j c) % 2))
    (hs : r.shift = Function.update e.shift j ((e.shift i + e.shift j) % 2)) : Good r := by
  refine ⟨by rw [hp]; exact he.wf, by rw [hp]; exact he.gr, ?_, ?_⟩
  · intro k c
    rw [hl]
    by_cases hk : k = j
    · subst hk; rw [Function.update_self]; exact emod2_bits _
    · rw [Function.update_of_ne hk]; exact he.lin k c
  · intro k
    rw [hs]
    by_cases hk : k = j
    · subst hk; rw [Function.update_self]; exact emod2_bits _
    · rw [Function.update_of_ne hk]; exact he.sh k

theorem flip_some {n : ℕ} (e : Elem n) {i : ℕ} (hi : i < n) :
    flip e i = some { e with shift := Function.update e.shift ⟨i, hi⟩ ((e.shift ⟨i, hi⟩ + 1) % 2) } := by
  unfold flip; rw [dif_pos hi]

theorem aff_flip {n : ℕ} {e : Elem n} (i : Fin n) (x : Fin n → Bool) :
    aff { e with shift := Function.update e.shift i ((e.shift i + 1) % 2) } x =
      Function.update (aff e x) i (!aff e x i) := by
  funext k
  by_cases hk : k = i
  · subst hk
    rw [Function.update_self]
    unfold aff
    simp only [Function.update_self]
    generalize ∑ j, e.linear k j * bit (x j) = s
    by_cases h : (s + e.shift k) % 2 = 1
    · rw [decide_eq_true h, decide_eq_false (by omega)]; rfl
    · rw [decide_eq_false h, decide_eq_true (by omega)]; rfl
  · rw [Function.update_of_ne hk]
    unfold aff
    simp only [Function.update_of_ne hk]

theorem Good.flip {n : ℕ} {e : Elem n} (he : Good e) (i : Fin n) :
    Good { e with shift := Function.update e.shift i ((e.shift i + 1) % 2) } := by
  refine ⟨he.wf, he.gr, he.lin, ?_⟩
  intro k
  by_cases hk : k = i
  · subst hk; simp only [Function.update_self]; exact emod2_bits _
  · simp only [Function.update_of_ne hk]; exact he.sh k

end Verif.Dihedral
