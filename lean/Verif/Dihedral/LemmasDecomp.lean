import Verif.Dihedral.LemmasEq
import Mathlib.LinearAlgebra.Matrix.ToLinearEquiv
import Mathlib.Data.List.FinRange
/-
The general decomposition rebuilds the element.
-/
set_option linter.unusedSimpArgs false
set_option linter.unusedVariables false
namespace Verif.Dihedral
open Verif.Quantum

/-! ### Undoing x and cx gates -/

/-- The gates of the elimination circuit. -/
def IsXCx (n : ℕ) : Gate → Prop
  | .x q => q < n
  | .cx a b => (a < n ∧ b < n) ∧ a ≠ b
  | _ => False

theorem IsXCx.ok {n : ℕ} {g : Gate} (h : IsXCx n g) : GateOk n g := by
  cases g <;> first | exact h | exact absurd h (by simp [IsXCx])

theorem undo_gate {n : ℕ} {e r : Elem n} (he : Good e) {g : Gate} (hg : IsXCx n g) (h : appendGate e g = some r) :
    appendGate r g.inv = some e ∧ r.poly = e.poly := by
  cases g with
  | x q =>
    have hq : q < n := hg
    simp only [appendGate, flip_some e hq, Option.some.injEq] at h
    subst h
    refine ⟨?_, rfl⟩
    simp only [Gate.inv, appendGate, flip_some _ hq, Function.update_self, Function.update_idem, Option.some.injEq]
    have : ((e.shift ⟨q, hq⟩ + 1) % 2 + 1) % 2 = e.shift ⟨q, hq⟩ := by
      rcases he.sh ⟨q, hq⟩ with h | h <;> rw [h] <;> rfl
    rw [this, Function.update_eq_self]
  | cx a b =>
    have hq : (a < n ∧ b < n) ∧ a ≠ b := hg
    have hab : (⟨a, hq.1.1⟩ : Fin n) ≠ ⟨b, hq.1.2⟩ := by simpa using hq.2
    obtain ⟨r', h1, h2, h3, h4⟩ := cnot_some e hq.1.1 hq.1.2
    obtain ⟨r'', k1, k2, k3, k4⟩ := cnot_some r' hq.1.1 hq.1.2
    simp only [appendGate] at h
    rw [h1] at h; cases h
    refine ⟨?_, h2⟩
    simp only [Gate.inv, appendGate, k1, Option.some.injEq]
    have hl : r''.linear = e.linear := by
      rw [k3, h3]
      simp only [Function.update_self, Function.update_of_ne hab, Function.update_idem]
      conv_rhs => rw [← Function.update_eq_self ⟨b, hq.1.2⟩ e.linear]
      congr 1; funext c
      rcases he.lin ⟨a, hq.1.1⟩ c with h | h <;> rcases he.lin ⟨b, hq.1.2⟩ c with h' | h' <;> rw [h, h'] <;> rfl
    have hs : r''.shift = e.shift := by
      rw [k4, h4]
      simp only [Function.update_self, Function.update_of_ne hab, Function.update_idem]
      conv_rhs => rw [← Function.update_eq_self ⟨b, hq.1.2⟩ e.shift]
      congr 1
      rcases he.sh ⟨a, hq.1.1⟩ with h | h <;> rcases he.sh ⟨b, hq.1.2⟩ with h' | h' <;> rw [h, h'] <;> rfl
    have hp : r''.poly = e.poly := by rw [k2, h2]
    cases r''; cases e; simp_all
  | z q => exact absurd hg (by simp [IsXCx])
  | y q => exact absurd hg (by simp [IsXCx])
  | u1 k q => exact absurd hg (by simp [IsXCx])
  | cz a b => exact absurd hg (by simp [IsXCx])
  | id q => exact absurd hg (by simp [IsXCx])
  | other q => exact absurd hg (by simp [IsXCx])

theorem appendCircuit_append {n : ℕ} (e : Elem n) (c d : List Gate) :
    appendCircuit e (c ++ d) = (appendCircuit e c).bind fun r => appendCircuit r d := by
  unfold appendCircuit; rw [List.foldlM_append]; rfl

theorem appendCircuit_single {n : ℕ} (e : Elem n) (g : Gate) : appendCircuit e [g] = appendGate e g := by
  simp [appendCircuit]

/-- What the elimination keeps: the recorded circuit leads from `e` to the current element. -/
structure Rec {n : ℕ} (e : Elem n) (s : Red n) : Prop where
  run : appendCircuit e s.2 = some s.1
  gates : ∀ g ∈ s.2, IsXCx n g
  good : Good s.1
  poly : s.1.poly = e.poly
  det : detOdd s.1.linear = true
  back : appendCircuit s.1 (invCircuit s.2) = some e

theorem Rec.push {n : ℕ} {e : Elem n} {s : Red n} (h : Rec e s) {g : Gate} (hg : IsXCx n g) {r : Elem n}
    (hr : appendGate s.1 g = some r) : Rec e (r, s.2 ++ [g]) := by
  obtain ⟨r', h1, st⟩ := step_gate h.good hg.ok
  rw [hr] at h1; cases h1
  obtain ⟨u1, u2⟩ := undo_gate h.good hg hr
  refine ⟨?_, ?_, st.good, u2.trans h.poly, st.det h.det, ?_⟩
  · rw [appendCircuit_append, h.run]; simp [appendCircuit_single, hr]
  · intro g' hg'
    rcases List.mem_append.1 hg' with h' | h'
    · exact h.gates g' h'
    · rw [List.mem_singleton.1 h']; exact hg
  · have : invCircuit (s.2 ++ [g]) = g.inv :: invCircuit s.2 := by simp [invCircuit]
    show appendCircuit r _ = _
    rw [this]
    have : appendCircuit r (g.inv :: invCircuit s.2) = (appendGate r g.inv).bind fun r => appendCircuit r (invCircuit s.2) := by
      unfold appendCircuit; rw [List.foldlM_cons]; rfl
    rw [this, u1, Option.bind_some, h.back]

theorem redCx_spec {n : ℕ} {e : Elem n} {s : Red n} (h : Rec e s) {a b : Fin n} (hab : a ≠ b) :
    ∃ s', redCx a b s = some s' ∧ Rec e s' ∧ s'.1.shift = Function.update s.1.shift b ((s.1.shift a + s.1.shift b) % 2) ∧
      s'.1.linear = Function.update s.1.linear b (fun c => (s.1.linear a c + s.1.linear b c) % 2) := by
  obtain ⟨r, h1, h2, h3, h4⟩ := cnot_some s.1 a.2 b.2
  have hg : IsXCx n (.cx a b) := ⟨⟨a.2, b.2⟩, fun h => hab (Fin.ext h)⟩
  refine ⟨(r, s.2 ++ [.cx a b]), by simp [redCx, h1], h.push hg (by simpa [appendGate] using h1), ?_, ?_⟩
  · exact h4
  · exact h3

/-! ### The x gates -/

theorem redFlips_spec {n : ℕ} {e : Elem n} (he : Good e) (hd : detOdd e.linear = true) :
    ∃ s, redFlips e = some s ∧ Rec e s ∧ ∀ i, s.1.shift i = 0 := by
  have key : ∀ (L : List (Fin n)) (s : Red n), L.Nodup → Rec e s → (∀ i ∈ L, s.1.shift i = e.shift i) →
      (∀ i ∉ L, s.1.shift i = 0) → ∃ s', L.foldlM (fun (s : Red n) i =>
        if e.shift i ≠ 0 then do
          let e' ← flip s.1 i
          pure (e', s.2 ++ [.x i])
        else pure s) s = some s' ∧ Rec e s' ∧ ∀ i, s'.1.shift i = 0 := by
    intro L
    induction L with
    | nil => intro s _ h1 _ h3; exact ⟨s, rfl, h1, fun i => h3 i (by simp)⟩
    | cons i L ih =>
      intro s hnd h1 h2 h3
      rw [List.nodup_cons] at hnd
      rw [List.foldlM_cons]
      by_cases hi : e.shift i = 0
      · rw [if_neg (by simpa using hi)]
        exact ih s hnd.2 h1 (fun j hj => h2 j (by simp [hj])) fun j hj => by
          by_cases hji : j = i
          · subst hji; rw [h2 j (by simp), hi]
          · exact h3 j (by simp [hji, hj])
      · rw [if_pos hi, flip_some s.1 i.2]
        simp only [Option.bind_eq_bind, Option.bind_some, Option.pure_def]
        have hp := h1.push (g := .x i) (show IsXCx n (.x i) from i.2) (flip_some s.1 i.2)
        refine ih _ hnd.2 hp ?_ ?_
        · intro j hj
          have hji : j ≠ i := fun h => hnd.1 (h ▸ hj)
          have : j ≠ (⟨i.1, i.2⟩ : Fin n) := hji
          simp only [Function.update_of_ne this]
          exact h2 j (by simp [hj])
        · intro j hj
          by_cases hji : j = i
          · subst hji
            have : e.shift j = 1 := (he.sh j).resolve_left hi
            simp only [Fin.eta, Function.update_self, h2 j (by simp), this]; rfl
          · have : j ≠ (⟨i.1, i.2⟩ : Fin n) := hji
            simp only [Function.update_of_ne this]
            exact h3 j (by simp [hji, hj])
  refine key (List.finRange n) (e, []) (List.nodup_finRange n) ?_ (fun i _ => rfl) ?_
  · exact ⟨rfl, by simp, he, rfl, hd, rfl⟩
  · intro i hi; exact absurd (List.mem_finRange i) hi

/-! ### Gauss elimination -/

/-- The columns left of `i` are unit columns. -/
def Unit {n : ℕ} (m : Fin n → Fin n → ℤ) (i : ℕ) : Prop :=
  ∀ c : Fin n, (c : ℕ) < i → ∀ r, m r c = if r = c then 1 else 0

/-- With odd determinant there is a nonzero entry on or below the diagonal. -/
theorem pivot_exists {n : ℕ} {m : Fin n → Fin n → ℤ} (hb : Bits2 m) (hd : detOdd m = true) (i : Fin n)
    (hu : Unit m i) : ∃ j : Fin n, i ≤ j ∧ m j i ≠ 0 := by
  by_contra hno
  push Not at hno
  rw [detOdd_iff] at hd
  have h0 : (mat2 m).det = 0 := by
    rw [← Matrix.exists_mulVec_eq_zero_iff]
    refine ⟨fun c => if c < i then (m c i : ZMod 2) else if c = i then 1 else 0, ?_, ?_⟩
    · intro h
      have := congrFun h i
      simp at this
    · funext r
      simp only [Matrix.mulVec, dotProduct, Pi.zero_apply]
      have hterm : ∀ c : Fin n, mat2 m r c * (if c < i then (m c i : ZMod 2) else if c = i then 1 else 0) =
          (if c = r then (if r < i then (m r i : ZMod 2) else 0) else 0) + if c = i then (m r i : ZMod 2) else 0 := by
        intro c
        unfold mat2
        by_cases hc : c < i
        · rw [if_pos hc, hu c hc r, if_neg (ne_of_lt hc)]
          by_cases hcr : c = r
          · subst hcr; simp [hc]
          · rw [if_neg (Ne.symm hcr), if_neg hcr]; simp
        · rw [if_neg hc]
          by_cases hci : c = i
          · subst hci
            rw [if_pos rfl, if_pos rfl, mul_one]
            by_cases hcr : c = r
            · subst hcr; simp
            · simp [hcr]
          · rw [if_neg hci, if_neg hci, mul_zero, add_zero]
            by_cases hcr : c = r
            · subst hcr; simp [hc]
            · simp [hcr]
      simp only [hterm, Finset.sum_add_distrib, Finset.sum_ite_eq', Finset.mem_univ, if_true]
      by_cases hr : r < i
      · rw [if_pos hr]
        have : ∀ a : ZMod 2, a + a = 0 := by decide
        exact this _
      · rw [if_neg hr, hno r (not_lt.1 hr)]; simp
  rw [h0] at hd
  exact absurd hd (by decide)

theorem redPivot_spec {n : ℕ} {e : Elem n} {s : Red n} (h : Rec e s) (hsh : ∀ j, s.1.shift j = 0) (i : Fin n)
    (hu : Unit s.1.linear i) : ∃ s', redPivot i s = some s' ∧ Rec e s' ∧ (∀ j, s'.1.shift j = 0) ∧
      Unit s'.1.linear i ∧ s'.1.linear i i = 1 := by
  unfold redPivot
  by_cases hii : s.1.linear i i = 0
  · rw [if_neg (by simpa using hii)]
    obtain ⟨j, hij, hj⟩ := pivot_exists h.good.lin h.det i hu
    have hji : j ≠ i := by rintro rfl; exact hj hii
    cases hf : (List.finRange n).find? fun j => decide (i < j) && decide (s.1.linear j i ≠ 0) with
    | none =>
      rw [List.find?_eq_none] at hf
      have := hf j (List.mem_finRange j)
      simp [hj, lt_of_le_of_ne hij (Ne.symm hji)] at this
    | some j =>
      have hjp := List.find?_some hf
      simp only [Bool.and_eq_true, decide_eq_true_eq] at hjp
      obtain ⟨hlt, hne⟩ := hjp
      have hji : j ≠ i := ne_of_gt hlt
      obtain ⟨s1, a1, a2, a3, a4⟩ := redCx_spec h hji
      obtain ⟨s2, b1, b2, b3, b4⟩ := redCx_spec a2 hji.symm
      obtain ⟨s3, c1, c2, c3, c4⟩ := redCx_spec b2 hji
      refine ⟨s3, by simp [a1, b1, c1], c2, ?_, ?_, ?_⟩
      · intro k
        rw [c3, b3, a3]
        simp only [Function.update_self, Function.update_of_ne hji, Function.update_of_ne hji.symm, hsh]
        by_cases hk : k = i
        · subst hk; simp
        · rw [Function.update_of_ne hk]
          by_cases hk2 : k = j
          · subst hk2; simp
          · rw [Function.update_of_ne hk2, Function.update_of_ne hk, hsh]
      · intro c hc r
        have hci : c ≠ i := fun h => by rw [h] at hc; exact lt_irrefl _ hc
        have hcj : c ≠ j := fun h => by
          rw [h] at hc; exact absurd hlt (not_lt.2 (le_of_lt hc))
        have hi0 : s.1.linear i c = 0 := by rw [hu c hc i, if_neg hci.symm]
        have hj0 : s.1.linear j c = 0 := by rw [hu c hc j, if_neg hcj.symm]
        rw [c4, b4, a4]
        simp only [Function.update_self, Function.update_of_ne hji, Function.update_of_ne hji.symm]
        by_cases hk : r = i
        · subst hk; rw [Function.update_self, if_neg hci.symm]; simp [hi0, hj0]
        · rw [Function.update_of_ne hk]
          by_cases hk2 : r = j
          · subst hk2; rw [Function.update_self, if_neg hcj.symm]; simp [hi0, hj0]
          · rw [Function.update_of_ne hk2, Function.update_of_ne hk]; exact hu c hc r
      · rw [c4, b4, a4]
        simp only [Function.update_self, Function.update_of_ne hji, Function.update_of_ne hji.symm]
        have : s.1.linear j i = 1 := (h.good.lin j i).resolve_left hne
        rw [hii, this]; rfl
  · rw [if_pos hii]
    exact ⟨s, rfl, h, hsh, hu, (h.good.lin i i).resolve_left hii⟩

theorem redClear_spec {n : ℕ} {e : Elem n} (i : Fin n) (L : List (Fin n)) {s : Red n} (h : Rec e s)
    (hsh : ∀ j, s.1.shift j = 0) (hu : Unit s.1.linear i) (hii : s.1.linear i i = 1)
    (hdone : ∀ j ∉ L, j ≠ i → s.1.linear j i = 0) :
    ∃ s', L.foldlM (redClearStep i) s = some s' ∧ Rec e s' ∧ (∀ j, s'.1.shift j = 0) ∧ Unit s'.1.linear (i + 1) := by
  induction L generalizing s with
  | nil =>
    refine ⟨s, rfl, h, hsh, ?_⟩
    intro c hc r
    by_cases hci : (c : ℕ) < i
    · exact hu c hci r
    · have hce : c = i := Fin.ext (by omega)
      subst hce
      by_cases hr : r = c
      · subst hr; rw [hii, if_pos rfl]
      · rw [hdone r (by simp) hr, if_neg hr]
  | cons j L ih =>
    rw [List.foldlM_cons]
    by_cases hji : j = i
    · subst hji
      have : redClearStep j s j = some s := by simp [redClearStep]
      rw [this]
      refine ih h hsh hu hii fun k hk hki => hdone k (by simp [hk, hki]) hki
    · by_cases hz : s.1.linear j i = 0
      · have : redClearStep i s j = some s := by simp [redClearStep, hji, hz]
        rw [this]
        refine ih h hsh hu hii fun k hk hki => ?_
        by_cases hkj : k = j
        · rw [hkj, hz]
        · exact hdone k (by simp [hk, hkj]) hki
      · obtain ⟨s1, a1, a2, a3, a4⟩ := redCx_spec h (Ne.symm hji)
        have : redClearStep i s j = some s1 := by simp [redClearStep, hji, hz, a1]
        rw [this]
        have hj1 : s.1.linear j i = 1 := (h.good.lin j i).resolve_left hz
        refine ih a2 ?_ ?_ ?_ ?_
        · intro k
          rw [a3, hsh, hsh]
          by_cases hk : k = j
          · subst hk; simp
          · rw [Function.update_of_ne hk, hsh]
        · intro c hc r
          rw [a4]
          by_cases hr : r = j
          · subst hr
            rw [Function.update_self]
            have hci : i ≠ c := fun h => by rw [h] at hc; exact lt_irrefl _ hc
            rw [hu c hc i, hu c hc r, if_neg hci]
            split_ifs <;> rfl
          · rw [Function.update_of_ne hr]; exact hu c hc r
        · rw [a4, Function.update_of_ne (Ne.symm hji)]; exact hii
        · intro k hk hki
          rw [a4]
          by_cases hkj : k = j
          · subst hkj; rw [Function.update_self, hii, hj1]; rfl
          · rw [Function.update_of_ne hkj]; exact hdone k (by simp [hk, hkj]) hki

theorem redColumns_spec {n : ℕ} {e : Elem n} : ∀ (k : ℕ) (hk : k ≤ n) {s : Red n}, Rec e s →
    (∀ j, s.1.shift j = 0) → Unit s.1.linear (n - k) →
    ∃ s', ((List.finRange n).drop (n - k)).foldlM redColumn s = some s' ∧ Rec e s' ∧ (∀ j, s'.1.shift j = 0) ∧
      Unit s'.1.linear n := by
  intro k
  induction k with
  | zero =>
    intro hk s h h1 h2
    refine ⟨s, ?_, h, h1, h2⟩
    rw [List.drop_of_length_le (by simp)]; rfl
  | succ k ih =>
    intro hk s h h1 h2
    have hlt : n - (k + 1) < (List.finRange n).length := by simp; omega
    rw [List.drop_eq_getElem_cons hlt, List.foldlM_cons]
    have hg : (List.finRange n)[n - (k + 1)] = (⟨n - (k + 1), by omega⟩ : Fin n) := by simp
    rw [hg]
    obtain ⟨s1, a1, a2, a3, a4, a5⟩ := redPivot_spec h h1 ⟨n - (k + 1), by omega⟩ h2
    obtain ⟨s2, b1, b2, b3, b4⟩ := redClear_spec ⟨n - (k + 1), by omega⟩ (List.finRange n) a2 a3 a4 a5
      (fun j hj => absurd (List.mem_finRange j) hj)
    have hc : redColumn s ⟨n - (k + 1), by omega⟩ = some s2 := by
      unfold redColumn; rw [a1]; exact b1
    rw [hc]
    have he : n - (k + 1) + 1 = n - k := by omega
    rw [he]
    have b4' : Unit s2.1.linear (n - k) := by simpa [he] using b4
    exact ih (by omega) b2 b3 b4'

theorem elimination_spec {n : ℕ} {e : Elem n} (he : Good e) (hd : detOdd e.linear = true) :
    ∃ s0 s, redFlips e = some s0 ∧ (List.finRange n).foldlM redColumn s0 = some s ∧ Rec e s ∧
      (∀ j, s.1.shift j = 0) ∧ ∀ i j, s.1.linear i j = if i = j then 1 else 0 := by
  obtain ⟨s0, h1, h2, h3⟩ := redFlips_spec he hd
  obtain ⟨s, h4, h5, h6, h7⟩ := redColumns_spec n le_rfl h2 h3 (by
    intro c hc; rw [Nat.sub_self] at hc; exact absurd hc (Nat.not_lt_zero _))
  rw [Nat.sub_self, List.drop_zero] at h4
  exact ⟨s0, s, h1, h4, h5, h6, fun i j => h7 j j.2 i⟩

end Verif.Dihedral
