import Verif.Dihedral.LemmasDecomp
/-
The second half of the general decomposition: rebuilding the phase polynomial.
-/
set_option linter.unusedSimpArgs false
set_option linter.unusedVariables false
namespace Verif.Dihedral
open Verif.Quantum

theorem sort_mem_combs {J : List ℕ} (hJ : J.Pairwise (· < ·)) (S : Finset ℕ) (r : ℕ) :
    S.sort ∈ combs J r ↔ S ⊆ J.toFinset ∧ S.card = r := by
  rw [mem_combs, Finset.length_sort]
  refine and_congr_left fun _ => ?_
  constructor
  · intro h i hi
    rw [List.mem_toFinset]
    exact h.subset ((Finset.mem_sort (· ≤ ·)).2 hi)
  · intro h
    refine List.sublist_of_subperm_of_sortedLE ?_ ?_ ?_
    · refine List.subperm_of_subset (Finset.sort_nodup _ _) fun i hi => ?_
      exact List.mem_toFinset.1 (h ((Finset.mem_sort (· ≤ ·)).1 hi))
    · exact List.Pairwise.sortedLE (Finset.pairwise_sort S (· ≤ ·))
    · exact List.Pairwise.sortedLE (hJ.imp fun h => Nat.le_of_lt h)

theorem count_combs {J : List ℕ} (hJ : J.Pairwise (· < ·)) (S : Finset ℕ) (r : ℕ) :
    ((combs J r).filter fun t => decide (S = t.toFinset)).length = if S ⊆ J.toFinset ∧ S.card = r then 1 else 0 := by
  have hnd : J.Nodup := hJ.imp fun h => Nat.ne_of_lt h
  have h1 : ((combs J r).filter fun t => decide (S = t.toFinset)) = (combs J r).filter fun t => t == S.sort := by
    refine List.filter_congr fun t ht => ?_
    have hs : t.Pairwise (· < ·) := List.Pairwise.sublist (mem_combs.1 ht).1 hJ
    have : (S = t.toFinset) ↔ t = S.sort := by
      constructor
      · rintro rfl; exact (sort_toFinset_of_valid hs).symm
      · rintro rfl; exact (Finset.sort_toFinset _ _).symm
    by_cases h : t = S.sort
    · rw [decide_eq_true (this.2 h)]; simp [h]
    · rw [decide_eq_false (fun h' => h (this.1 h'))]; simp [h]
  rw [h1, ← List.countP_eq_length_filter]
  show List.count S.sort (combs J r) = _
  by_cases h : S.sort ∈ combs J r
  · rw [List.count_eq_one_of_mem (nodup_combs hnd r) h, if_pos ((sort_mem_combs hJ S r).1 h)]
  · rw [List.count_eq_zero_of_not_mem h, if_neg (fun h' => h ((sort_mem_combs hJ S r).2 h'))]

/-- Coefficients of the parity of the variables of `J` (times `k`). -/
def parCoef (J : Finset ℕ) (S : Finset ℕ) : ZMod 8 :=
  if S ⊆ J then (if S.card = 1 then 1 else if S.card = 2 then -2 else if S.card = 3 then 4 else 0) else 0

theorem phase_coef {n : ℕ} {e : Elem n} (he : Good e) (k : ℤ) {i : ℕ} (hi : i < n) (hs : e.shift ⟨i, hi⟩ = 0) :
    ∃ p : Poly n, phase e k i = some { e with poly := p } ∧ Good { e with poly := p } ∧ p.w0 = e.poly.w0 ∧
      (Rd e.poly → Rd p) ∧ ∀ S ∈ Terms n, coef p S = coef e.poly S + k * parCoef (support (e.linear ⟨i, hi⟩)).toFinset S := by
  obtain ⟨r, h1, h2, h3, h4, h5, h6, -⟩ := phase_spec he k hi
  have hr : r = { e with poly := r.poly } := by cases r; cases e; simp_all
  refine ⟨r.poly, by rw [← hr]; exact h1, by rw [← hr]; exact h2, h5, h6, ?_⟩
  have hJ := support_sorted (e.linear ⟨i, hi⟩)
  have hn : ∀ j ∈ support (e.linear ⟨i, hi⟩), j < n := fun j hj => mem_support _ hj
  set J := support (e.linear ⟨i, hi⟩) with hJdef
  have hv : ∀ r ≤ 3, ∀ t ∈ combs J r, Valid n t := fun r hr t ht => valid_of_combs hJ hn hr ht
  obtain ⟨p1, a1, a2, -, a4⟩ := addTerms_spec k (fun _ => false) _ (hv 1 (by omega)) e.poly he.wf
  obtain ⟨p2, b1, b2, -, b4⟩ := addTerms_spec (-2 * k) (fun _ => false) _ (hv 2 (by omega)) p1 a2
  obtain ⟨p3, c1, c2, -, c4⟩ := addTerms_spec (4 * k) (fun _ => false) _ (hv 3 (by omega)) p2 b2
  have hp : r.poly = p3 := by
    unfold phase at h1
    rw [dif_pos hi] at h1
    simp only [← hJdef, hs, map_singleton_eq_combs, a1, Option.bind_eq_bind, Option.bind_some, b1, c1,
      show ((0 : ℤ) = 1) = False by simp, if_false, Option.pure_def, Option.some.injEq] at h1
    rw [← h1]
  intro S hS
  rw [hp, c4 S hS, b4 S hS, a4 S hS, count_combs hJ, count_combs hJ, count_combs hJ]
  unfold parCoef
  by_cases hsub : S ⊆ J.toFinset
  · simp only [hsub, true_and, if_true]
    by_cases c1 : S.card = 1
    · simp [c1]
    · by_cases c2 : S.card = 2
      · simp [c2]; ring
      · by_cases c3 : S.card = 3
        · simp [c3]; ring
        · simp [c1, c2, c3]
  · simp [hsub]

/-- A diagonal element under construction. -/
structure Diag {n : ℕ} (b : Elem n) : Prop where
  good : Good b
  rd : Rd b.poly
  w0 : b.poly.w0 = 0
  lin : ∀ i j, b.linear i j = if i = j then 1 else 0
  sh : ∀ i, b.shift i = 0

theorem Diag.one (n : ℕ) : Diag (Elem.one n) := ⟨Good.one n, Rd.zero n, rfl, fun i j => rfl, fun i => rfl⟩

theorem Diag.ext {n : ℕ} {a b : Elem n} (ha : Diag a) (hb : Diag b) (h : a.poly = b.poly) : a = b := by
  have h1 : a.linear = b.linear := by funext i j; rw [ha.lin, hb.lin]
  have h2 : a.shift = b.shift := by funext i; rw [ha.sh, hb.sh]
  cases a; cases b; simp_all

theorem support_toFinset {n : ℕ} (row : Fin n → ℤ) (J : Finset ℕ)
    (h : ∀ c : Fin n, row c ≠ 0 ↔ (c : ℕ) ∈ J) (hJ : ∀ j ∈ J, j < n) : (support row).toFinset = J := by
  ext j
  simp only [support, List.mem_toFinset, List.mem_map, List.mem_filter, List.mem_finRange, true_and, decide_eq_true_eq]
  constructor
  · rintro ⟨c, hc, rfl⟩; exact (h c).1 hc
  · intro hj; exact ⟨⟨j, hJ j hj⟩, (h _).2 hj, rfl⟩

/-- `u1 k` on one variable. -/
theorem gadget1 {n : ℕ} {b : Elem n} (hb : Diag b) (t : ℤ) {i : ℕ} (hi : i < n) :
    ∃ r, appendCircuit b [.u1 t i] = some r ∧ Diag r ∧
      ∀ S ∈ Terms n, coef r.poly S = coef b.poly S + t * parCoef {i} S := by
  obtain ⟨p, h1, h2, h3, h4, h5⟩ := phase_coef hb.good t hi (hb.sh _)
  refine ⟨{ b with poly := p }, by simp [appendCircuit, appendGate, h1], ⟨h2, h4 hb.rd, by simp [h3, hb.w0], hb.lin, hb.sh⟩, ?_⟩
  intro S hS
  rw [h5 S hS, support_toFinset _ {i} ?_ (by simpa using hi)]
  intro c
  rw [hb.lin]
  by_cases hc : (c : ℕ) = i
  · simp [hc, Fin.ext_iff]
  · simp [hc, Fin.ext_iff, Ne.symm hc]

theorem gadget2 {n : ℕ} {b : Elem n} (hb : Diag b) (t : ℤ) {i j : ℕ} (hij : i < j) (hj : j < n) :
    ∃ r, appendCircuit b [.cx i j, .u1 t j, .cx i j] = some r ∧ Diag r ∧
      ∀ S ∈ Terms n, coef r.poly S = coef b.poly S + t * parCoef {i, j} S := by
  have hi : i < n := by omega
  have hne : (⟨i, hi⟩ : Fin n) ≠ ⟨j, hj⟩ := by simp; omega
  obtain ⟨b1, a1, a2, a3, a4⟩ := cnot_some b hi hj
  have g1 := hb.good.cnot a2 a3 a4
  have hs1 : ∀ c, b1.shift c = 0 := by
    intro c; rw [a4, hb.sh, hb.sh]
    by_cases hc : c = ⟨j, hj⟩
    · subst hc; simp
    · rw [Function.update_of_ne hc, hb.sh]
  obtain ⟨p, h1, h2, h3, h4, h5⟩ := phase_coef g1 t hj (hs1 _)
  obtain ⟨r, c1, c2, c3, c4⟩ := cnot_some ({ b1 with poly := p } : Elem n) hi hj
  have g3 := h2.cnot c2 c3 c4
  refine ⟨r, by simp [appendCircuit, appendGate, a1, h1, c1],
    ⟨g3, by rw [c2]; exact h4 (by rw [a2]; exact hb.rd), by rw [c2]; show p.w0 = 0; rw [h3, a2, hb.w0], ?_, ?_⟩, ?_⟩
  · intro u v
    rw [c3]
    simp only [a3, Function.update_self, Function.update_of_ne hne, Function.update_idem]
    by_cases hu : u = ⟨j, hj⟩
    · subst hu
      rw [Function.update_self, hb.lin, hb.lin]
      split_ifs <;> rfl
    · rw [Function.update_of_ne hu, hb.lin]
  · intro u
    rw [c4]
    by_cases hu : u = ⟨j, hj⟩
    · subst hu; simp only [Function.update_self, hs1]; rfl
    · simp only [Function.update_of_ne hu]; exact hs1 u
  · intro S hS
    rw [c2]
    show coef p S = _
    rw [h5 S hS, a2, support_toFinset _ {i, j} ?_ (by simp; omega)]
    intro c
    rw [a3, Function.update_self, hb.lin, hb.lin]
    simp only [Fin.ext_iff, Finset.mem_insert, Finset.mem_singleton]
    by_cases h1 : (c : ℕ) = i
    · simp [h1]; omega
    · by_cases h2 : (c : ℕ) = j
      · simp [h2]; omega
      · simp [h1, h2, Ne.symm h1, Ne.symm h2]

theorem gadget3 {n : ℕ} {b : Elem n} (hb : Diag b) (t : ℤ) {i j k : ℕ} (hij : i < j) (hjk : j < k) (hk : k < n) :
    ∃ r, appendCircuit b [.cx i k, .cx j k, .u1 t k, .cx i k, .cx j k] = some r ∧ Diag r ∧
      ∀ S ∈ Terms n, coef r.poly S = coef b.poly S + t * parCoef {i, j, k} S := by
  have hi : i < n := by omega
  have hj : j < n := by omega
  have hne : (⟨i, hi⟩ : Fin n) ≠ ⟨k, hk⟩ := by simp; omega
  have hne' : (⟨j, hj⟩ : Fin n) ≠ ⟨k, hk⟩ := by simp; omega
  obtain ⟨b1, a1, a2, a3, a4⟩ := cnot_some b hi hk
  have g1 := hb.good.cnot a2 a3 a4
  have hs1 : ∀ c, b1.shift c = 0 := by
    intro c; rw [a4, hb.sh, hb.sh]
    by_cases hc : c = ⟨k, hk⟩
    · subst hc; simp
    · rw [Function.update_of_ne hc, hb.sh]
  obtain ⟨b2, d1, d2, d3, d4⟩ := cnot_some b1 hj hk
  have g2 := g1.cnot d2 d3 d4
  have hs2 : ∀ c, b2.shift c = 0 := by
    intro c; rw [d4, hs1, hs1]
    by_cases hc : c = ⟨k, hk⟩
    · subst hc; simp
    · rw [Function.update_of_ne hc, hs1]
  obtain ⟨p, h1, h2, h3, h4, h5⟩ := phase_coef g2 t hk (hs2 _)
  obtain ⟨b3, e1, e2, e3, e4⟩ := cnot_some ({ b2 with poly := p } : Elem n) hi hk
  have g3 := h2.cnot e2 e3 e4
  obtain ⟨r, c1, c2, c3, c4⟩ := cnot_some b3 hj hk
  have g4 := g3.cnot c2 c3 c4
  have hrow : b2.linear ⟨k, hk⟩ = fun c => (b.linear ⟨j, hj⟩ c + (b.linear ⟨i, hi⟩ c + b.linear ⟨k, hk⟩ c) % 2) % 2 := by
    rw [d3, a3]; simp only [Function.update_self, Function.update_of_ne hne']
  refine ⟨r, by simp [appendCircuit, appendGate, a1, d1, h1, e1, c1],
    ⟨g4, by rw [c2, e2]; exact h4 (by rw [d2, a2]; exact hb.rd),
      by rw [c2, e2]; show p.w0 = 0; rw [h3, d2, a2, hb.w0], ?_, ?_⟩, ?_⟩
  · intro u v
    rw [c3, e3]
    simp only [d3, a3, Function.update_self, Function.update_of_ne hne, Function.update_of_ne hne', Function.update_idem]
    by_cases hu : u = ⟨k, hk⟩
    · subst hu
      rw [Function.update_self, hb.lin, hb.lin, hb.lin]
      split_ifs <;> rfl
    · rw [Function.update_of_ne hu, hb.lin]
  · intro u
    rw [c4, e4]
    simp only [Function.update_self, Function.update_of_ne hne, Function.update_of_ne hne', hs2]
    by_cases hu : u = ⟨k, hk⟩
    · subst hu; simp
    · rw [Function.update_of_ne hu, Function.update_of_ne hu]; exact hs2 u
  · intro S hS
    rw [c2, e2]
    show coef p S = _
    rw [h5 S hS, d2, a2, support_toFinset _ {i, j, k} ?_ (by simp; omega)]
    intro c
    rw [hrow]
    simp only [hb.lin, Fin.ext_iff, Finset.mem_insert, Finset.mem_singleton]
    by_cases h1 : (c : ℕ) = i
    · have h2 : ¬ j = i := by omega
      have h3 : ¬ k = i := by omega
      simp [h1, h2, h3]
    · by_cases h2 : (c : ℕ) = j
      · have h1' : ¬ i = j := by omega
        have h3 : ¬ k = j := by omega
        simp [h2, h1', h3]
      · by_cases h3 : (c : ℕ) = k
        · have h1' : ¬ i = k := by omega
          have h2' : ¬ j = k := by omega
          simp [h3, h1', h2']
        · simp [h1, h2, h3, Ne.symm h1, Ne.symm h2, Ne.symm h3]

theorem parCoef_self {J : Finset ℕ} : parCoef J J = if J.card = 1 then 1 else if J.card = 2 then -2 else if J.card = 3 then 4 else 0 := by
  rw [parCoef, if_pos (Finset.Subset.refl J)]

/-- Sets at least as large as `J`, other than `J`, are not affected. -/
theorem parCoef_other {J S : Finset ℕ} (hc : J.card ≤ S.card) (hne : S ≠ J) : parCoef J S = 0 := by
  rw [parCoef, if_neg]
  intro h
  exact hne (Finset.eq_of_subset_of_card_le h hc)

/-- What holds of the circuit being built. -/
structure Bld {n : ℕ} (s : Red n) : Prop where
  run : fromCircuit n s.2 = some s.1
  gates : ∀ g ∈ s.2, GateOk n g
  diag : Diag s.1

theorem Bld.push {n : ℕ} {s : Red n} (h : Bld s) {gs : List Gate} (hg : ∀ g ∈ gs, GateOk n g) {r : Elem n}
    (hr : appendCircuit s.1 gs = some r) (hd : Diag r) : build gs s = some (r, s.2 ++ gs) ∧ Bld (r, s.2 ++ gs) := by
  refine ⟨by simp [build, hr], ?_, ?_, hd⟩
  · show fromCircuit n (s.2 ++ gs) = some r
    have := h.run
    unfold fromCircuit at *
    rw [appendCircuit_append, this, Option.bind_some, hr]
  · intro g hg'
    rcases List.mem_append.1 hg' with h' | h'
    · exact h.gates g h'
    · exact hg g h'

theorem dvd_even8 {v : ZMod 8} (h : (2 : ZMod 8) ^ 2 ∣ v) (hv : v ≠ 0) : v = 4 := by
  obtain ⟨c, rfl⟩ := h
  revert c; decide

theorem cast8_zero {a : ℤ} (ha : 0 ≤ a ∧ a < 8) : (a : ZMod 8) = 0 ↔ a = 0 :=
  ⟨fun h => eq_of_cast8 ha (by omega) (by simpa using h), fun h => by simp [h]⟩

/-- Stage 3. -/
theorem stage3 {n : ℕ} {p : Poly n} (hp : WF p) (hr : Rd p) (hg : Gr 1 p) (L : List (List ℕ))
    (hL : ∀ t ∈ L, Valid n t ∧ t.length = 3) (hnd : L.Nodup) {s : Red n} (hs : Bld s)
    (h0 : ∀ t ∈ L, coef s.1.poly t.toFinset = 0)
    (h1 : ∀ S ∈ Terms n, S.card = 3 → (∀ t ∈ L, S ≠ t.toFinset) → coef s.1.poly S = coef p S) :
    ∃ s', L.foldlM (step3 p) s = some s' ∧ Bld s' ∧ ∀ S ∈ Terms n, S.card = 3 → coef s'.1.poly S = coef p S := by
  induction L generalizing s with
  | nil => exact ⟨s, rfl, hs, fun S hS hc => h1 S hS hc (by simp)⟩
  | cons t L ih =>
    rw [List.nodup_cons] at hnd
    obtain ⟨hvt, hlt⟩ := hL t (by simp)
    obtain ⟨c, hc⟩ := getTerm_isSome p hp hvt
    have hcc := coef_of_getTerm hvt hc
    have htoS : ∀ u ∈ L, u.toFinset ≠ t.toFinset := by
      intro u hu e
      have := sort_toFinset_of_valid (hL u (by simp [hu])).1.1
      rw [e, sort_toFinset_of_valid hvt.1] at this
      exact hnd.1 (this ▸ hu)
    rw [List.foldlM_cons]
    rcases valid_cases hvt with h | ⟨i, h, hi⟩ | ⟨i, j, h, hij, hj⟩ | ⟨i, j, k, h, hij, hjk, hk⟩
    · rw [h] at hlt; simp at hlt
    · rw [h] at hlt; simp at hlt
    · rw [h] at hlt; simp at hlt
    · subst h
      by_cases hz : c = 0
      · have : step3 p s [i, j, k] = some s := by simp [step3, hc, hz]
        rw [this]
        refine ih (fun u hu => hL u (by simp [hu])) hnd.2 hs (fun u hu => h0 u (by simp [hu])) ?_
        intro S hS hc3 hnot
        by_cases hSt : S = [i, j, k].toFinset
        · rw [hSt, h0 _ (by simp), hcc, hz]; simp
        · exact h1 S hS hc3 fun u hu => by
            rcases List.mem_cons.1 hu with rfl | hu
            · exact hSt
            · exact hnot u hu
      · obtain ⟨r, b1, b2, b3⟩ := gadget3 hs.diag 1 hij hjk hk
        obtain ⟨b4, b5⟩ := hs.push (gs := [.cx i k, .cx j k, .u1 1 k, .cx i k, .cx j k]) (by
          intro g hg
          simp only [List.mem_cons, List.not_mem_nil, or_false] at hg
          rcases hg with rfl | rfl | rfl | rfl | rfl <;> simp [GateOk] <;> omega) b1 b2
        have : step3 p s [i, j, k] = some (r, s.2 ++ [.cx i k, .cx j k, .u1 1 k, .cx i k, .cx j k]) := by
          simp only [step3, hc, Option.bind_eq_bind, Option.bind_some, if_pos hz, b4, ne_eq, not_false_eq_true, if_true]
        rw [this]
        have hTf : [i, j, k].toFinset = {i, j, k} := by simp
        have hcard : ({i, j, k} : Finset ℕ).card = 3 := by rw [← hTf, hvt.card]; rfl
        refine ih (fun u hu => hL u (by simp [hu])) hnd.2 b5 ?_ ?_
        · intro u hu
          show coef r.poly _ = 0
          rw [b3 _ (hL u (by simp [hu])).1.mem_Terms, h0 u (by simp [hu]), parCoef_other]
          · simp
          · rw [hcard, (hL u (by simp [hu])).1.card, (hL u (by simp [hu])).2]
          · rw [← hTf]; exact htoS u hu
        · intro S hS hc3 hnot
          show coef r.poly S = _
          rw [b3 S hS]
          by_cases hSt : S = [i, j, k].toFinset
          · rw [hSt, h0 _ (by simp), hTf, parCoef_self, hcard, ← hTf]
            have h4 : coef p [i, j, k].toFinset = 4 := by
              apply dvd_even8
              · have := hg _ hvt.mem_Terms
                rw [hvt.card] at this; exact this
              · rw [hcc]; intro h; exact hz ((cast8_zero (getTerm_range hp hr hvt hc)).1 h)
            rw [h4]; simp
          · rw [parCoef_other (by rw [hcard, hc3]) (by rw [← hTf]; exact hSt), h1 S hS hc3]
            · simp
            · intro u hu
              rcases List.mem_cons.1 hu with rfl | hu
              · exact hSt
              · exact hnot u hu

theorem two_dvd_of_gr {n : ℕ} {p : Poly n} (hg : Gr 1 p) {t : List ℕ} (ht : Valid n t) (hl : t.length = 2) {v : ℤ}
    (hv : getTerm p t = some v) : (2 : ℤ) ∣ v := by
  have := hg _ ht.mem_Terms
  rw [ht.card, hl, coef_of_getTerm ht hv] at this
  exact dvd_cast8 (m := 2) (by norm_num) (by simpa using this)

/-- Stage 2. -/
theorem stage2 {n : ℕ} {p : Poly n} (hp : WF p) (hr : Rd p) (hg : Gr 1 p) (L : List (List ℕ))
    (hL : ∀ t ∈ L, Valid n t ∧ t.length = 2) (hnd : L.Nodup) {s : Red n} (hs : Bld s)
    (h3 : ∀ S ∈ Terms n, S.card = 3 → coef s.1.poly S = coef p S)
    (h1 : ∀ S ∈ Terms n, S.card = 2 → (∀ t ∈ L, S ≠ t.toFinset) → coef s.1.poly S = coef p S) :
    ∃ s', L.foldlM (step2 p) s = some s' ∧ Bld s' ∧ ∀ S ∈ Terms n, 2 ≤ S.card → coef s'.1.poly S = coef p S := by
  induction L generalizing s with
  | nil =>
    refine ⟨s, rfl, hs, fun S hS hc => ?_⟩
    have : S.card ≤ 3 := by simp only [Terms, Finset.mem_filter] at hS; exact hS.2
    rcases Nat.lt_or_ge S.card 3 with h | h
    · exact h1 S hS (by omega) (by simp)
    · exact h3 S hS (by omega)
  | cons t L ih =>
    rw [List.nodup_cons] at hnd
    obtain ⟨hvt, hlt⟩ := hL t (by simp)
    obtain ⟨c, hc⟩ := getTerm_isSome p hp hvt
    obtain ⟨d, hd⟩ := getTerm_isSome s.1.poly hs.diag.good.wf hvt
    have hcc := coef_of_getTerm hvt hc
    have hdd := coef_of_getTerm hvt hd
    obtain ⟨c', rfl⟩ := two_dvd_of_gr hg hvt hlt hc
    obtain ⟨d', rfl⟩ := two_dvd_of_gr hs.diag.good.gr hvt hlt hd
    have htp : ((2 * d' - 2 * c') / 2) % 4 = (d' - c') % 4 := by
      have : 2 * d' - 2 * c' = (d' - c') * 2 := by ring
      rw [this, Int.mul_ediv_cancel _ (by norm_num)]
    rw [List.foldlM_cons]
    rcases valid_cases hvt with h | ⟨i, h, hi⟩ | ⟨i, j, h, hij, hj⟩ | ⟨i, j, k, h, hij, hjk, hk⟩
    · rw [h] at hlt; simp at hlt
    · rw [h] at hlt; simp at hlt
    · subst h
      have hnew : coef s.1.poly [i, j].toFinset + (((d' - c') % 4 : ℤ) : ZMod 8) * (-2) = coef p [i, j].toFinset := by
        rw [hcc, hdd]
        have h8 : (8 : ZMod 8) = 0 := by decide
        have : (d' - c') % 4 = (d' - c') - 4 * ((d' - c') / 4) := by
          have := Int.emod_add_mul_ediv (d' - c') 4; omega
        rw [this]; push_cast
        linear_combination ((((d' - c') / 4 : ℤ)) : ZMod 8) * h8
      by_cases hz : (d' - c') % 4 = 0
      · have : step2 p s [i, j] = some s := by
          simp only [step2, hc, hd, Option.bind_eq_bind, Option.bind_some, htp, hz, ne_eq, not_true_eq_false, if_false]; rfl
        rw [this]
        refine ih (fun u hu => hL u (by simp [hu])) hnd.2 hs h3 ?_
        intro S hS hc2 hnot
        by_cases hSt : S = [i, j].toFinset
        · rw [hz] at hnew; rw [hSt, ← hnew]; simp
        · exact h1 S hS hc2 fun u hu => by
            rcases List.mem_cons.1 hu with rfl | hu
            · exact hSt
            · exact hnot u hu
      · obtain ⟨r, b1, b2, b3⟩ := gadget2 hs.diag ((d' - c') % 4) hij hj
        obtain ⟨b4, b5⟩ := hs.push (gs := [.cx i j, .u1 ((d' - c') % 4) j, .cx i j]) (by
          intro g hg
          simp only [List.mem_cons, List.not_mem_nil, or_false] at hg
          rcases hg with rfl | rfl | rfl <;> simp [GateOk] <;> omega) b1 b2
        have : step2 p s [i, j] = some (r, s.2 ++ [.cx i j, .u1 ((d' - c') % 4) j, .cx i j]) := by
          simp only [step2, hc, hd, Option.bind_eq_bind, Option.bind_some, htp, if_pos hz, b4, ne_eq, not_false_eq_true, if_true, hz]
        rw [this]
        have hTf : [i, j].toFinset = {i, j} := by simp
        have hcard : ({i, j} : Finset ℕ).card = 2 := by rw [← hTf, hvt.card]; rfl
        refine ih (fun u hu => hL u (by simp [hu])) hnd.2 b5 ?_ ?_
        · intro S hS hc3
          show coef r.poly S = _
          rw [b3 S hS, parCoef_other (by rw [hcard, hc3]; omega), h3 S hS hc3]
          · simp
          · intro e; rw [e, hcard] at hc3; omega
        · intro S hS hc2 hnot
          show coef r.poly S = _
          rw [b3 S hS]
          by_cases hSt : S = [i, j].toFinset
          · rw [hSt, ← hnew, hTf, parCoef_self, hcard]; simp
          · rw [parCoef_other (by rw [hcard, hc2]) (by rw [← hTf]; exact hSt), h1 S hS hc2]
            · simp
            · intro u hu
              rcases List.mem_cons.1 hu with rfl | hu
              · exact hSt
              · exact hnot u hu
    · rw [h] at hlt; simp at hlt

/-- Stage 1. -/
theorem stage1 {n : ℕ} {p : Poly n} (hp : WF p) (hr : Rd p) (hg : Gr 1 p) (L : List (List ℕ))
    (hL : ∀ t ∈ L, Valid n t ∧ t.length = 1) (hnd : L.Nodup) {s : Red n} (hs : Bld s)
    (h3 : ∀ S ∈ Terms n, 2 ≤ S.card → coef s.1.poly S = coef p S)
    (h1 : ∀ S ∈ Terms n, S.card = 1 → (∀ t ∈ L, S ≠ t.toFinset) → coef s.1.poly S = coef p S) :
    ∃ s', L.foldlM (step1 p) s = some s' ∧ Bld s' ∧ ∀ S ∈ Terms n, 1 ≤ S.card → coef s'.1.poly S = coef p S := by
  induction L generalizing s with
  | nil =>
    refine ⟨s, rfl, hs, fun S hS hc => ?_⟩
    rcases Nat.lt_or_ge S.card 2 with h | h
    · exact h1 S hS (by omega) (by simp)
    · exact h3 S hS (by omega)
  | cons t L ih =>
    rw [List.nodup_cons] at hnd
    obtain ⟨hvt, hlt⟩ := hL t (by simp)
    obtain ⟨c, hc⟩ := getTerm_isSome p hp hvt
    obtain ⟨d, hd⟩ := getTerm_isSome s.1.poly hs.diag.good.wf hvt
    have hcc := coef_of_getTerm hvt hc
    have hdd := coef_of_getTerm hvt hd
    rw [List.foldlM_cons]
    rcases valid_cases hvt with h | ⟨i, h, hi⟩ | ⟨i, j, h, hij, hj⟩ | ⟨i, j, k, h, hij, hjk, hk⟩
    · rw [h] at hlt; simp at hlt
    · subst h
      have hnew : coef s.1.poly [i].toFinset + (((c - d) % 8 : ℤ) : ZMod 8) = coef p [i].toFinset := by
        rw [hcc, hdd, emod8]; push_cast; ring
      by_cases hz : (c - d) % 8 = 0
      · have : step1 p s [i] = some s := by
          simp only [step1, hc, hd, Option.bind_eq_bind, Option.bind_some, hz, ne_eq, not_true_eq_false, if_false]; rfl
        rw [this]
        refine ih (fun u hu => hL u (by simp [hu])) hnd.2 hs h3 ?_
        intro S hS hc2 hnot
        by_cases hSt : S = [i].toFinset
        · rw [hz] at hnew; rw [hSt, ← hnew]; simp
        · exact h1 S hS hc2 fun u hu => by
            rcases List.mem_cons.1 hu with rfl | hu
            · exact hSt
            · exact hnot u hu
      · obtain ⟨r, b1, b2, b3⟩ := gadget1 hs.diag ((c - d) % 8) hi
        obtain ⟨b4, b5⟩ := hs.push (gs := [.u1 ((c - d) % 8) i]) (by
          intro g hg
          simp only [List.mem_cons, List.not_mem_nil, or_false] at hg
          subst hg; exact hi) b1 b2
        have : step1 p s [i] = some (r, s.2 ++ [.u1 ((c - d) % 8) i]) := by
          simp only [step1, hc, hd, Option.bind_eq_bind, Option.bind_some, b4, ne_eq, not_false_eq_true, if_true, hz]
        rw [this]
        have hTf : [i].toFinset = {i} := by simp
        have hcard : ({i} : Finset ℕ).card = 1 := by simp
        refine ih (fun u hu => hL u (by simp [hu])) hnd.2 b5 ?_ ?_
        · intro S hS hc3
          show coef r.poly S = _
          rw [b3 S hS, parCoef_other (by rw [hcard]; omega), h3 S hS hc3]
          · simp
          · intro e; rw [e, hcard] at hc3; omega
        · intro S hS hc2 hnot
          show coef r.poly S = _
          rw [b3 S hS]
          by_cases hSt : S = [i].toFinset
          · rw [hSt, ← hnew, hTf, parCoef_self, hcard]; simp
          · rw [parCoef_other (by rw [hcard, hc2]) (by rw [← hTf]; exact hSt), h1 S hS hc2]
            · simp
            · intro u hu
              rcases List.mem_cons.1 hu with rfl | hu
              · exact hSt
              · exact hnot u hu
    · rw [h] at hlt; simp at hlt
    · rw [h] at hlt; simp at hlt

theorem valid_combs_range {n r : ℕ} (hr : r ≤ 3) {t : List ℕ} (ht : t ∈ combs (List.range n) r) : Valid n t ∧ t.length = r := by
  obtain ⟨h1, h2⟩ := mem_combs.1 ht
  obtain ⟨h3, h4⟩ := sublist_range_iff.1 h1
  exact ⟨⟨h3, h4, by omega⟩, h2⟩

theorem not_covered {n : ℕ} {S : Finset ℕ} (hS : S ∈ Terms n) : S.sort ∈ combs (List.range n) S.card := by
  rw [sort_mem_combs List.pairwise_lt_range]
  refine ⟨?_, rfl⟩
  simp only [Terms, Finset.mem_filter, Finset.mem_powerset] at hS
  intro i hi
  rw [List.mem_toFinset, List.mem_range]
  exact Finset.mem_range.1 (hS.1 hi)

/-- The general decomposition succeeds on every valid element and rebuilds it exactly. -/
theorem decomposeGeneral_spec {n : ℕ} {e : Elem n} (h : isCnotDihedral e = true) :
    ∃ c, decomposeGeneral e = some c ∧ (∀ g ∈ c, GateOk n g) ∧ fromCircuit n c = some e := by
  obtain ⟨ge, re, we, de⟩ := (isCnot_iff e).1 h
  obtain ⟨s0, s, r1, r2, hrec, hsh, hlin⟩ := elimination_spec ge de
  have hp := hrec.poly
  have hself : ∀ S ∈ Terms n, ∀ L : List (List ℕ), S.sort ∈ L → ¬ ∀ t ∈ L, S ≠ t.toFinset := by
    intro S hS L hL hall
    exact hall _ hL (Finset.sort_toFinset _ _).symm
  obtain ⟨b3, t1, t2, t3⟩ := stage3 (p := s.1.poly) hrec.good.wf (by rw [hp]; exact re) hrec.good.gr (combs (List.range n) 3)
    (fun t ht => valid_combs_range (by omega) ht) (nodup_combs List.nodup_range 3)
    (s := ((Elem.one n, []) : Red n)) ⟨rfl, by simp, Diag.one n⟩
    (fun t ht => coef_zero _) (fun S hS hc hnot => absurd hnot (hself S hS _ (by rw [← hc]; exact not_covered hS)))
  obtain ⟨b2, u1, u2, u3⟩ := stage2 (p := s.1.poly) hrec.good.wf (by rw [hp]; exact re) hrec.good.gr (combs (List.range n) 2)
    (fun t ht => valid_combs_range (by omega) ht) (nodup_combs List.nodup_range 2) t2 t3
    (fun S hS hc hnot => absurd hnot (hself S hS _ (by rw [← hc]; exact not_covered hS)))
  obtain ⟨b1, v1, v2, v3⟩ := stage1 (p := s.1.poly) hrec.good.wf (by rw [hp]; exact re) hrec.good.gr (combs (List.range n) 1)
    (fun t ht => valid_combs_range (by omega) ht) (nodup_combs List.nodup_range 1) u2 u3
    (fun S hS hc hnot => absurd hnot (hself S hS _ (by rw [← hc]; exact not_covered hS)))
  have hpoly : e.poly = b1.1.poly := by
    refine Poly.ext_coef ge.wf v2.diag.good.wf re v2.diag.rd fun S hS => ?_
    rcases Nat.eq_zero_or_pos S.card with h0 | h0
    · rw [Finset.card_eq_zero.1 h0]
      simp [coef, getTerm_nil, we, v2.diag.w0]
    · rw [v3 S hS h0, hp]
  have hdiag : Diag s.1 := ⟨hrec.good, by rw [hp]; exact re, by rw [hp]; exact we, hlin, hsh⟩
  have hb : b1.1 = s.1 := Diag.ext v2.diag hdiag (by rw [hp, hpoly])
  refine ⟨b1.2 ++ invCircuit s.2, ?_, ?_, ?_⟩
  · unfold decomposeGeneral
    have hn : ¬ (¬ (∀ i, s.1.shift i = 0) ∨ ¬ ∀ i j, s.1.linear i j = if i = j then 1 else 0) := by
      push Not; exact ⟨hsh, hlin⟩
    simp only [de, Bool.not_true, Bool.false_eq_true, if_false, r1, Option.bind_eq_bind, Option.bind_some, r2, if_neg hn, t1, u1, v1,
      hpoly, ne_eq, not_true_eq_false]
    rfl
  · intro g hg
    rcases List.mem_append.1 hg with h' | h'
    · exact v2.gates g h'
    · simp only [invCircuit, List.mem_reverse, List.mem_map] at h'
      obtain ⟨g', hg', rfl⟩ := h'
      have := (hrec.gates g' hg').ok
      cases g' <;> exact this
  · have hrun := v2.run
    unfold fromCircuit at *
    rw [appendCircuit_append, hrun, Option.bind_some, hb, hrec.back]

end Verif.Dihedral
