import Verif.RB.Utils
import Verif.Py.DictLemmas
import Mathlib.Analysis.Convex.SpecificFunctions.Basic
set_option linter.unusedSimpArgs false
set_option linter.unusedVariables false
/-
C45, C76-C78: the helper functions of rb_utils.py.
-/
namespace Verif.RB.Utils
open Verif

/-! ### Specification -/

/-- The product `∏ (1 - f·epg)^n` over the gates of a table of errors. -/
noncomputable def survival (f : ℝ) (n : Str → ℝ) (epgs : Dict Str ℝ) : ℝ := (epgs.map fun ge => (1 - f * ge.2) ^ n ge.1).prod

/-- Number of times the gate `b` touches qubit `q` in a list of circuits. -/
def occ (circuits : List (List TIns)) (q : ℕ) (b : Str) : ℕ :=
  (circuits.map fun c => (c.map fun i => if i.1 = b then i.2.count q else 0).sum).sum

/-- All counts of a table are non-negative. -/
def NonNeg (d : Dict Str ℝ) : Prop := ∀ x ∈ d, 0 ≤ x.2

/-! ### Lemmas -/

theorem getD_nonneg {d : Dict Str ℝ} (h : NonNeg d) (k : Str) : 0 ≤ d.getD k 0 := by
  unfold Dict.getD
  cases hk : d.get? k with
  | none => exact le_refl _
  | some v => exact h _ (Dict.get?_mem d k v hk)

theorem pow?_nonneg {x y : ℝ} (hx : 0 ≤ x) (hy : 0 ≤ y) : pow? x y = some (x ^ y) := by
  unfold pow?
  rw [if_neg]
  rintro (⟨h, -⟩ | ⟨-, h⟩) <;> linarith

theorem alphaLoop_go (f : ℝ) {d : Dict Str ℝ} (hd : NonNeg d) (epgs : Dict Str ℝ) (he : ∀ x ∈ epgs, f * x.2 ≤ 1) (a : ℝ) :
    epgs.foldlM (fun a ge => (pow? (1 - f * ge.2) (d.getD ge.1 0)).map fun p => a * p) a = some (a * survival f (fun g => d.getD g 0) epgs) := by
  induction epgs generalizing a with
  | nil => simp [survival]
  | cons x t ih =>
    have h := he x (by simp)
    rw [List.foldlM_cons, pow?_nonneg (by linarith) (getD_nonneg hd _)]
    simp only [Option.map_some, Option.bind_eq_bind, Option.bind_some]
    rw [ih fun y hy => he y (by simp [hy])]
    simp only [survival, List.map_cons, List.prod_cons]
    rw [mul_assoc]

theorem alphaLoop_eq (f : ℝ) {d : Dict Str ℝ} (hd : NonNeg d) (epgs : Dict Str ℝ) (he : ∀ x ∈ epgs, f * x.2 ≤ 1) :
    alphaLoop f d epgs = some (survival f (fun g => d.getD g 0) epgs) := by
  unfold alphaLoop
  rw [alphaLoop_go f hd epgs he, one_mul]

theorem survival_range (f : ℝ) {n : Str → ℝ} (hn : ∀ g, 0 ≤ n g) (epgs : Dict Str ℝ) (he : ∀ x ∈ epgs, 0 ≤ f * x.2 ∧ f * x.2 ≤ 1) :
    0 ≤ survival f n epgs ∧ survival f n epgs ≤ 1 := by
  induction epgs with
  | nil => simp [survival]
  | cons x t ih =>
    obtain ⟨h1, h2⟩ := he x (by simp)
    obtain ⟨i1, i2⟩ := ih fun y hy => he y (by simp [hy])
    have e : survival f n (x :: t) = (1 - f * x.2) ^ n x.1 * survival f n t := by simp [survival]
    have p1 : 0 ≤ (1 - f * x.2) ^ n x.1 := Real.rpow_nonneg (by linarith) _
    have p2 : (1 - f * x.2) ^ n x.1 ≤ 1 := Real.rpow_le_one (by linarith) (by linarith) (hn _)
    rw [e]
    exact ⟨mul_nonneg p1 i1, mul_le_one₀ p2 i1 i2⟩

theorem survival_pos (f : ℝ) {n : Str → ℝ} (epgs : Dict Str ℝ) (he : ∀ x ∈ epgs, f * x.2 < 1) : 0 < survival f n epgs := by
  induction epgs with
  | nil => simp [survival]
  | cons x t ih =>
    have e : survival f n (x :: t) = (1 - f * x.2) ^ n x.1 * survival f n t := by simp [survival]
    rw [e]
    exact mul_pos (Real.rpow_pos_of_pos (by linarith [he x (by simp)]) _) (ih fun y hy => he y (by simp [hy]))

/-! ### C45: errors per gate and per Clifford -/

/-- C45: the error per Clifford of a one-qubit experiment is `1 - ∏ (1 - epg)^n` and lies in [0,1]. -/
theorem C45_epc1q (gpc : Counts ℝ) (q : ℕ) (d : Dict Str ℝ) (hq : gpc.get? q = some d) (hd : NonNeg d) (epgs : Dict Str ℝ)
    (he : ∀ x ∈ epgs, 0 ≤ x.2 ∧ x.2 ≤ 1) :
    ∃ e, epc1q gpc epgs q = some e ∧ e = 1 - survival 1 (fun g => d.getD g 0) epgs ∧ 0 ≤ e ∧ e ≤ 1 := by
  have h := survival_range 1 (getD_nonneg hd) epgs (fun x hx => by simpa using he x hx)
  refine ⟨_, ?_, rfl, by linarith [h.2], by linarith [h.1]⟩
  unfold epc1q
  simp only [Option.bind_eq_bind, hq, Option.bind_some]
  rw [alphaLoop_eq 1 hd epgs fun x hx => by simpa using (he x hx).2]
  rfl

/-- C45: the one-qubit gate errors add up to the error per Clifford with their numbers of gates, with `u1`
free and `u3` twice `u2`. -/
theorem C45_epg1q (gpc : Counts ℝ) (q : ℕ) (d : Dict Str ℝ) (hq : gpc.get? q = some d) (hd : NonNeg d) (n2 n3 : ℝ)
    (h2 : d.get? "u2".toList = some n2) (h3 : d.get? "u3".toList = some n3) (hcx : d.getD "cx".toList 0 = 0) (hpos : 0 < n2 + n3) (epc : ℝ) :
    ∃ e2 e3, epg1q gpc epc q = some [("u1".toList, 0), ("u2".toList, e2), ("u3".toList, e3)] ∧ n2 * e2 + n3 * e3 = epc ∧ e3 = 2 * e2 ∧
      (0 ≤ epc → 0 ≤ e2) := by
  have p2 := hd _ (Dict.get?_mem d _ _ h2)
  have p3 := hd _ (Dict.get?_mem d _ _ h3)
  have hne : n2 + 2 * n3 > 0 := by simp at p2 p3; linarith
  refine ⟨epc / (n2 + 2 * n3), 2 * epc / (n2 + 2 * n3), ?_, by field_simp, by ring, fun h => div_nonneg h hne.le⟩
  unfold epg1q
  simp only [hq, h2, h3, hcx]
  rw [if_neg (lt_irrefl _), if_neg hne.ne']

theorem alphas_eq (gpc : Counts ℝ) (pair : ℕ × ℕ) (d0 d1 : Dict Str ℝ) (h0 : gpc.get? pair.1 = some d0) (h1 : gpc.get? pair.2 = some d1)
    (hd0 : NonNeg d0) (hd1 : NonNeg d1) (e0 e1 : Dict Str ℝ) (he0 : ∀ x ∈ e0, 0 ≤ x.2 ∧ x.2 ≤ 1 / 2) (he1 : ∀ x ∈ e1, 0 ≤ x.2 ∧ x.2 ≤ 1 / 2) :
    alphas gpc pair [e0, e1] = some (survival 2 (fun g => d0.getD g 0) e0, survival 2 (fun g => d1.getD g 0) e1) := by
  unfold alphas
  simp only [Option.bind_eq_bind, h0, Option.bind_some, h1]
  rw [alphaLoop_eq 2 hd0 e0 fun x hx => by linarith [(he0 x hx).2], Option.bind_some,
    alphaLoop_eq 2 hd1 e1 fun x hx => by linarith [(he1 x hx).2], Option.bind_some]

/-- C45: the error per Clifford of a two-qubit experiment: the formula, and its range, for gate errors up to
the depolarizing limit (1/2 for one qubit, 3/4 for two). -/
theorem C45_epc2q (gpc : Counts ℝ) (pair : ℕ × ℕ) (d0 d1 : Dict Str ℝ) (h0 : gpc.get? pair.1 = some d0) (h1 : gpc.get? pair.2 = some d1)
    (hd0 : NonNeg d0) (hd1 : NonNeg d1) (e0 e1 : Dict Str ℝ) (he0 : ∀ x ∈ e0, 0 ≤ x.2 ∧ x.2 ≤ 1 / 2) (he1 : ∀ x ∈ e1, 0 ≤ x.2 ∧ x.2 ≤ 1 / 2)
    (name : Str) (n : ℝ) (hn : d0.getD name 0 = n) (hn0 : n ≠ 0) (epg : ℝ) (hepg : 0 ≤ epg ∧ epg ≤ 3 / 4) :
    ∃ e, epc2q gpc epg pair [e0, e1] name = some e ∧ 0 ≤ e ∧ e ≤ 3 / 4 ∧
      e = 3 / 4 * (1 - 1 / 5 * (survival 2 (fun g => d0.getD g 0) e0 + survival 2 (fun g => d1.getD g 0) e1 +
        3 * survival 2 (fun g => d0.getD g 0) e0 * survival 2 (fun g => d1.getD g 0) e1) * (1 - 4 / 3 * epg) ^ n) := by
  have hnn : 0 ≤ n := by rw [← hn]; exact getD_nonneg hd0 _
  obtain ⟨a1, a2⟩ := survival_range 2 (getD_nonneg hd0) e0 (fun x hx => ⟨by linarith [(he0 x hx).1], by linarith [(he0 x hx).2]⟩)
  obtain ⟨b1, b2⟩ := survival_range 2 (getD_nonneg hd1) e1 (fun x hx => ⟨by linarith [(he1 x hx).1], by linarith [(he1 x hx).2]⟩)
  have p1 : 0 ≤ (1 - 4 / 3 * epg) ^ n := Real.rpow_nonneg (by linarith) _
  have p2 : (1 - 4 / 3 * epg) ^ n ≤ 1 := Real.rpow_le_one (by linarith) (by linarith) hnn
  have ha := alphas_eq gpc pair d0 d1 h0 h1 hd0 hd1 e0 e1 he0 he1
  refine ⟨_, ?_, ?_, ?_, rfl⟩
  · unfold epc2q
    simp only [Option.bind_eq_bind, h0, Option.bind_some, hn]
    rw [if_neg hn0, pow?_nonneg (by linarith) hnn, Option.bind_some, ha, Option.bind_some]
  all_goals
    generalize survival 2 (fun g => d0.getD g 0) e0 = a at *
    generalize survival 2 (fun g => d1.getD g 0) e1 = b at *
    generalize (1 - 4 / 3 * epg) ^ n = p at *
    have hab : 0 ≤ a * b := mul_nonneg a1 b1
    have hab' : a * b ≤ 1 := mul_le_one₀ a2 b1 b2
    have hc0 : 0 ≤ 1 / 5 * (a + b + 3 * a * b) := by nlinarith
    have hc1 : 1 / 5 * (a + b + 3 * a * b) ≤ 1 := by nlinarith
    have h1 : 0 ≤ 1 / 5 * (a + b + 3 * a * b) * p := mul_nonneg hc0 p1
    have h2 : 1 / 5 * (a + b + 3 * a * b) * p ≤ 1 := mul_le_one₀ hc1 p1 p2
    linarith

/-- C45: estimating the gate error from the error per Clifford computed with the same counts gives
`3/4 (1 - (1 - 4/3 epg)^n) / n`; that is the gate error itself for one gate per Clifford, at most the gate
error for more than one, at least the gate error for less than one. -/
theorem C45_roundtrip (gpc : Counts ℝ) (pair : ℕ × ℕ) (d0 d1 : Dict Str ℝ) (h0 : gpc.get? pair.1 = some d0) (h1 : gpc.get? pair.2 = some d1)
    (hd0 : NonNeg d0) (hd1 : NonNeg d1) (e0 e1 : Dict Str ℝ) (he0 : ∀ x ∈ e0, 0 ≤ x.2 ∧ x.2 < 1 / 2) (he1 : ∀ x ∈ e1, 0 ≤ x.2 ∧ x.2 < 1 / 2)
    (name : Str) (n : ℝ) (hn : d0.getD name 0 = n) (hn0 : n ≠ 0) (epg : ℝ) (hepg : 0 ≤ epg ∧ epg ≤ 3 / 4) :
    ∃ e est, epc2q gpc epg pair [e0, e1] name = some e ∧ epg2q gpc e pair [e0, e1] name = some est ∧
      est = 3 / 4 * (1 - (1 - 4 / 3 * epg) ^ n) / n ∧ (n = 1 → est = epg) ∧ (1 ≤ n → est ≤ epg) ∧ (n ≤ 1 → epg ≤ est) := by
  have hnn : 0 < n := lt_of_le_of_ne (by rw [← hn]; exact getD_nonneg hd0 _) (Ne.symm hn0)
  have he0' : ∀ x ∈ e0, 0 ≤ x.2 ∧ x.2 ≤ 1 / 2 := fun x hx => ⟨(he0 x hx).1, (he0 x hx).2.le⟩
  have he1' : ∀ x ∈ e1, 0 ≤ x.2 ∧ x.2 ≤ 1 / 2 := fun x hx => ⟨(he1 x hx).1, (he1 x hx).2.le⟩
  obtain ⟨e, f1, f2, f3, f4⟩ := C45_epc2q gpc pair d0 d1 h0 h1 hd0 hd1 e0 e1 he0' he1' name n hn hn0 epg hepg
  have ha := alphas_eq gpc pair d0 d1 h0 h1 hd0 hd1 e0 e1 he0' he1'
  have pa : 0 < survival 2 (fun g => d0.getD g 0) e0 := survival_pos 2 e0 fun x hx => by linarith [(he0 x hx).2]
  have pb : 0 < survival 2 (fun g => d1.getD g 0) e1 := survival_pos 2 e1 fun x hx => by linarith [(he1 x hx).2]
  generalize survival 2 (fun g => d0.getD g 0) e0 = a at *
  generalize survival 2 (fun g => d1.getD g 0) e1 = b at *
  have hab : 0 < a * b := mul_pos pa pb
  have hc : 0 < 1 / 5 * (a + b + 3 * a * b) := by nlinarith
  refine ⟨e, _, f1, ?_, rfl, ?_, ?_, ?_⟩
  · unfold epg2q
    simp only [Option.bind_eq_bind]
    rw [ha]
    simp only [Option.bind_some]
    rw [if_neg hc.ne']
    simp only [h0, Option.bind_some, hn]
    rw [if_pos hnn, f4]
    congr 1
    generalize (1 - 4 / 3 * epg) ^ n = p at *
    field_simp
    ring
  · rintro rfl
    rw [Real.rpow_one]; ring
  · intro h
    have := one_add_mul_self_le_rpow_one_add (s := -(4 / 3 * epg)) (by linarith) h
    rw [← sub_eq_add_neg] at this
    rw [div_le_iff₀ hnn]
    nlinarith
  · intro h
    have := rpow_one_add_le_one_add_mul_self (s := -(4 / 3 * epg)) (by linarith) hnn.le h
    rw [← sub_eq_add_neg] at this
    rw [le_div_iff₀ hnn]
    nlinarith

/-- Finding: with two gates per Clifford the gate error 3/8 comes back as 9/32. -/
theorem C45_finding_not_recovered : ∃ (gpc : Counts ℝ) (e : ℝ), epc2q gpc (3 / 8) (0, 1) [[], []] "cx".toList = some e ∧
    epg2q gpc e (0, 1) [[], []] "cx".toList = some (9 / 32) := by
  obtain ⟨e, est, h1, h2, h3, -⟩ := C45_roundtrip [(0, [("cx".toList, 2)]), (1, [("cx".toList, 2)])] (0, 1) [("cx".toList, 2)] [("cx".toList, 2)] rfl rfl
    (by simp [NonNeg]) (by simp [NonNeg]) [] [] (by simp) (by simp) "cx".toList 2 rfl (by norm_num) (3 / 8) (by norm_num)
  refine ⟨_, e, h1, ?_⟩
  rw [h2, h3]
  rw [show (2 : ℝ) = ((2 : ℕ) : ℝ) by norm_num, Real.rpow_natCast]
  norm_num

/-- The hypotheses of the round trip are met: one-qubit errors of one percent, one cx per Clifford. -/
example : ∃ e est, epc2q [(0, [("u2".toList, 2), ("cx".toList, 1)]), (1, [("u2".toList, 1 / 2)])] (1 / 10) (0, 1) [[("u2".toList, 1 / 100)], [("u2".toList, 1 / 50)]] "cx".toList = some e ∧
    epg2q [(0, [("u2".toList, 2), ("cx".toList, 1)]), (1, [("u2".toList, 1 / 2)])] e (0, 1) [[("u2".toList, 1 / 100)], [("u2".toList, 1 / 50)]] "cx".toList = some est ∧ est = 1 / 10 := by
  obtain ⟨e, est, h1, h2, -, h3, -⟩ := C45_roundtrip [(0, [("u2".toList, 2), ("cx".toList, 1)]), (1, [("u2".toList, 1 / 2)])] (0, 1) [("u2".toList, 2), ("cx".toList, 1)] [("u2".toList, 1 / 2)] rfl rfl
    (by simp [NonNeg]) (by simp [NonNeg]) [("u2".toList, 1 / 100)] [("u2".toList, 1 / 50)] (by simp; norm_num) (by simp; norm_num) "cx".toList 1 rfl (by norm_num) (1 / 10) (by norm_num)
  exact ⟨e, est, h1, h2, h3 rfl⟩

example : ∃ e2 e3, epg1q [(0, [("u2".toList, 1 / 2), ("u3".toList, 1 / 4)])] (1 / 100) 0 = some [("u1".toList, 0), ("u2".toList, e2), ("u3".toList, e3)] ∧
    1 / 2 * e2 + 1 / 4 * e3 = 1 / 100 := by
  obtain ⟨e2, e3, h1, h2, -⟩ := C45_epg1q [(0, [("u2".toList, 1 / 2), ("u3".toList, 1 / 4)])] 0 _ rfl (by simp [NonNeg]) (1 / 2) (1 / 4) rfl rfl rfl (by norm_num) (1 / 100)
  exact ⟨e2, e3, h1, h2⟩

example : ∃ e, epc1q [(0, [("u2".toList, 1 / 2), ("u3".toList, 1 / 4)])] [("u2".toList, 1 / 10)] 0 = some e ∧ 0 ≤ e ∧ e ≤ 1 := by
  obtain ⟨e, h1, -, h2⟩ := C45_epc1q [(0, [("u2".toList, 1 / 2), ("u3".toList, 1 / 4)])] 0 _ rfl (by simp [NonNeg]) [("u2".toList, 1 / 10)] (by simp; norm_num)
  exact ⟨e, h1, h2⟩

/-! ### C78: the deprecated function agrees with its replacement -/

/-- C78: `twoQ_clifford_error` with the gate errors listed in its order gives what `calculate_2q_epc` gives
for the same errors, whatever the order of the two qubits in the dictionary. -/
theorem C78_twoQ_agrees (q0 q1 : ℕ) (hq : q0 < q1) (d0 d1 : Dict Str ℝ) (swapped : Bool) (hd0 : NonNeg d0) (hd1 : NonNeg d1)
    (hn : d0.getD "cx".toList 0 ≠ 0) (a1 a2 a3 b1 b2 b3 c : ℝ) (h : ∀ e ∈ [a1, a2, a3, b1, b2, b3], 0 ≤ e ∧ e ≤ 1 / 2) (hc : 0 ≤ c ∧ c ≤ 3 / 4) :
    ∃ e, twoQError (if swapped then [(q1, d1), (q0, d0)] else [(q0, d0), (q1, d1)]) [0, 0, 0, 1, 1, 1, -1] [a1, a2, a3, b1, b2, b3, c] = some e ∧
      epc2q [(q0, d0), (q1, d1)] c (q0, q1) [[("u1".toList, a1), ("u2".toList, a2), ("u3".toList, a3)], [("u1".toList, b1), ("u2".toList, b2), ("u3".toList, b3)]]
        "cx".toList = some e := by
  have g0 : Dict.get? [(q0, d0), (q1, d1)] q0 = some d0 := by simp [Dict.get?_cons]
  have g1 : Dict.get? [(q0, d0), (q1, d1)] q1 = some d1 := by simp [Dict.get?_cons, hq.ne]
  simp only [List.forall_mem_cons] at h
  obtain ⟨ha1, ha2, ha3, hb1, hb2, hb3, -⟩ := h
  obtain ⟨e, f1, -, -, f4⟩ := C45_epc2q [(q0, d0), (q1, d1)] (q0, q1) d0 d1 g0 g1 hd0 hd1 [("u1".toList, a1), ("u2".toList, a2), ("u3".toList, a3)]
    [("u1".toList, b1), ("u2".toList, b2), ("u3".toList, b3)] (by simp only [List.forall_mem_cons]; exact ⟨ha1, ha2, ha3, by simp⟩)
    (by simp only [List.forall_mem_cons]; exact ⟨hb1, hb2, hb3, by simp⟩) "cx".toList _ rfl hn c hc
  refine ⟨e, ?_, f1⟩
  have pw : ∀ (x : ℝ) (d : Dict Str ℝ) (k : Str), NonNeg d → 0 ≤ x ∧ x ≤ 1 / 2 → pow? (1 - 2 * x) (d.getD k 0) = some ((1 - 2 * x) ^ d.getD k 0) := by
    intro x d k hd hx
    exact pow?_nonneg (by linarith [hx.2]) (getD_nonneg hd k)
  have pc : pow? (1 - 4 / 3 * c) (d0.getD "cx".toList 0) = some ((1 - 4 / 3 * c) ^ d0.getD "cx".toList 0) :=
    pow?_nonneg (by linarith [hc.2]) (getD_nonneg hd0 _)
  have hcore : twoQError [(q0, d0), (q1, d1)] [0, 0, 0, 1, 1, 1, -1] [a1, a2, a3, b1, b2, b3, c] = some e := by
    unfold twoQError
    simp only [if_pos hq, List.length_cons, List.length_nil, lt_irrefl, or_self, if_false]
    simp only [List.zip_cons_cons, List.zip_nil_right, List.foldlM_cons, List.foldlM_nil, twoQStep, Option.bind_eq_bind]
    simp only [pw _ _ _ hd0 ha1, pw _ _ _ hd0 ha2, pw _ _ _ hd0 ha3, pw _ _ _ hd1 hb1, pw _ _ _ hd1 hb2, pw _ _ _ hd1 hb3, pc, Option.bind_some, Option.map_some]
    norm_num
    rw [f4]
    simp only [survival, List.map_cons, List.map_nil, List.prod_cons, List.prod_nil, mul_one]
    ring
  cases swapped with
  | false => exact hcore
  | true =>
    have : twoQError [(q1, d1), (q0, d0)] [0, 0, 0, 1, 1, 1, -1] [a1, a2, a3, b1, b2, b3, c] =
        twoQError [(q0, d0), (q1, d1)] [0, 0, 0, 1, 1, 1, -1] [a1, a2, a3, b1, b2, b3, c] := by
      unfold twoQError
      simp only [if_pos hq, if_neg (by omega : ¬ q1 < q0)]
    exact this.trans hcore

example : ∃ e, twoQError [(4, [("u2".toList, 1), ("cx".toList, 3 / 2)]), (2, [("u2".toList, 1), ("cx".toList, 3 / 2)])] [0, 0, 0, 1, 1, 1, -1] [0, 1 / 10, 1 / 5, 0, 1 / 20, 1 / 10, 1 / 4] = some e := by
  obtain ⟨e, h, -⟩ := C78_twoQ_agrees 2 4 (by norm_num) [("u2".toList, 1), ("cx".toList, 3 / 2)] [("u2".toList, 1), ("cx".toList, 3 / 2)] true (by simp [NonNeg]; norm_num) (by simp [NonNeg]; norm_num)
    (by simp [Dict.getD, Dict.get?_cons]) 0 (1 / 10) (1 / 5) 0 (1 / 20) (1 / 10) (1 / 4) (by simp; norm_num) (by norm_num)
  exact ⟨e, h⟩

/-! ### C77: the coherence limit -/

/-- C77: for one qubit and for two, with positive times, the coherence limit is an error rate: zero for a gate of
length zero, never negative, at most 1/2 (one qubit) or 3/4 (two), and longer gates have larger limits. -/
theorem C77_one (a b : ℝ) (ha : 0 < a) (hb : 0 < b) (g g' : ℝ) (hg : 0 ≤ g) (hgg : g ≤ g') :
    ∃ e e', coherenceLimit 1 [a] (some [b]) g = some e ∧ coherenceLimit 1 [a] (some [b]) g' = some e' ∧ 0 ≤ e ∧ e ≤ e' ∧ e' ≤ 1 / 2 ∧ (g = 0 → e = 0) := by
  have hexp : ∀ (t : ℝ) (c : ℝ), 0 < c → 0 ≤ t → Real.exp (-t / c) ≤ 1 := fun t c hc ht => by
    rw [Real.exp_le_one_iff]; exact div_nonpos_of_nonpos_of_nonneg (by linarith) hc.le
  have hmono : ∀ c : ℝ, 0 < c → Real.exp (-g' / c) ≤ Real.exp (-g / c) := fun c hc => by
    rw [Real.exp_le_exp]; exact div_le_div_of_nonneg_right (by linarith) hc.le
  refine ⟨_, _, rfl, rfl, ?_, ?_, ?_, ?_⟩
  · linarith [hexp g a ha hg, hexp g b hb hg]
  · linarith [hmono a ha, hmono b hb]
  · linarith [Real.exp_pos (-g' / a), Real.exp_pos (-g' / b)]
  · rintro rfl; norm_num

/-- See `C77_one`. -/
theorem C77_two (a0 a1 b0 b1 : ℝ) (ha0 : 0 < a0) (ha1 : 0 < a1) (hb0 : 0 < b0) (hb1 : 0 < b1) (g g' : ℝ) (hg : 0 ≤ g) (hgg : g ≤ g') :
    ∃ e e', coherenceLimit 2 [a0, a1] (some [b0, b1]) g = some e ∧ coherenceLimit 2 [a0, a1] (some [b0, b1]) g' = some e' ∧ 0 ≤ e ∧ e ≤ e' ∧ e' ≤ 3 / 4 ∧
      (g = 0 → e = 0) := by
  have hexp : ∀ (t : ℝ) (c : ℝ), 0 < c → 0 ≤ t → Real.exp (-t / c) ≤ 1 := fun t c hc ht => by
    rw [Real.exp_le_one_iff]; exact div_nonpos_of_nonpos_of_nonneg (by linarith) hc.le
  have hmono : ∀ c : ℝ, 0 < c → Real.exp (-g' / c) ≤ Real.exp (-g / c) := fun c hc => by
    rw [Real.exp_le_exp]; exact div_le_div_of_nonneg_right (by linarith) hc.le
  have hexp2 : ∀ (t c d : ℝ), 0 < c → 0 < d → 0 ≤ t → Real.exp (-t * (1 / c + 1 / d)) ≤ 1 := fun t c d hc hd ht => by
    rw [Real.exp_le_one_iff]
    have : 0 < 1 / c + 1 / d := by positivity
    nlinarith
  have hmono2 : ∀ c d : ℝ, 0 < c → 0 < d → Real.exp (-g' * (1 / c + 1 / d)) ≤ Real.exp (-g * (1 / c + 1 / d)) := fun c d hc hd => by
    rw [Real.exp_le_exp]
    have : 0 < 1 / c + 1 / d := by positivity
    nlinarith
  refine ⟨_, _, rfl, rfl, ?_, ?_, ?_, ?_⟩
  · linarith [hexp g a0 ha0 hg, hexp g a1 ha1 hg, hexp g b0 hb0 hg, hexp g b1 hb1 hg, hexp2 g a0 a1 ha0 ha1 hg, hexp2 g b0 a1 hb0 ha1 hg,
      hexp2 g b1 a0 hb1 ha0 hg, hexp2 g b0 b1 hb0 hb1 hg]
  · linarith [hmono a0 ha0, hmono a1 ha1, hmono b0 hb0, hmono b1 hb1, hmono2 a0 a1 ha0 ha1, hmono2 b0 a1 hb0 ha1, hmono2 b1 a0 hb1 ha0, hmono2 b0 b1 hb0 hb1]
  · have p : ∀ x : ℝ, 0 < Real.exp x := Real.exp_pos
    linarith [p (-g' / a0), p (-g' / a1), p (-g' / b0), p (-g' / b1), p (-g' * (1 / a0 + 1 / a1)), p (-g' * (1 / b0 + 1 / a1)), p (-g' * (1 / b1 + 1 / a0)), p (-g' * (1 / b0 + 1 / b1))]
  · rintro rfl; norm_num

/-- C77: T2 defaults to twice T1. -/
theorem C77_default (nQ : ℕ) (T1 : List ℝ) (g : ℝ) : coherenceLimit nQ T1 none g = coherenceLimit nQ T1 (some (T1.map fun t => 2 * t)) g := rfl

/-- C77: lists of the wrong length and numbers of qubits other than 1 and 2 are rejected. -/
theorem C77_rejects (nQ : ℕ) (T1 T2 : List ℝ) (g : ℝ) (h : T1.length ≠ nQ ∨ T2.length ≠ nQ ∨ (nQ ≠ 1 ∧ nQ ≠ 2)) :
    coherenceLimit nQ T1 (some T2) g = none := by
  unfold coherenceLimit
  simp only [Option.getD_some]
  split
  · simp at h
  · simp at h
  · rfl

example : ∃ e e', coherenceLimit 2 [50, 60] (some [70, 80]) 1 = some e ∧ coherenceLimit 2 [50, 60] (some [70, 80]) 2 = some e' ∧ e ≤ e' := by
  obtain ⟨e, e', h1, h2, -, h3, -⟩ := C77_two 50 60 70 80 (by norm_num) (by norm_num) (by norm_num) (by norm_num) 1 2 (by norm_num) (by norm_num)
  exact ⟨e, e', h1, h2, h3⟩

/-! ### C76: gates per Clifford -/

/-- Entry of a nested dictionary. -/
def entry (d : Counts ℝ) (q : ℕ) (b : Str) : Option ℝ := (d.get? q).bind fun e => e.get? b

theorem init_inner (basis : List Str) (b : Str) (e : Dict Str ℝ) :
    (basis.foldl (fun e b => e.set b 0) e).get? b = if b ∈ basis then some 0 else e.get? b := by
  induction basis generalizing e with
  | nil => simp
  | cons x t ih =>
    rw [List.foldl_cons, ih, Dict.get?_set]
    by_cases h1 : b ∈ t <;> by_cases h2 : x = b <;> simp [h1, h2, eq_comm (a := b)]

theorem init_entry (qubits : List ℕ) (basis : List Str) (q : ℕ) (b : Str) :
    entry (initCounts qubits basis) q b = if q ∈ qubits ∧ b ∈ basis then some 0 else none := by
  have key : ∀ (qs : List ℕ) (d : Counts ℝ), (qs.foldl (fun d q => d.set q (basis.foldl (fun (e : Dict Str ℝ) b => e.set b 0) [])) d).get? q =
      if q ∈ qs then some (basis.foldl (fun (e : Dict Str ℝ) b => e.set b 0) []) else d.get? q := by
    intro qs
    induction qs with
    | nil => simp
    | cons x t ih =>
      intro d
      rw [List.foldl_cons, ih, Dict.get?_set]
      by_cases h1 : q ∈ t <;> by_cases h2 : x = q <;> simp [h1, h2, eq_comm (a := q)]
  unfold entry initCounts
  rw [key]
  by_cases h : q ∈ qubits
  · simp only [h, if_true, Option.bind_some, true_and]
    rw [init_inner]; simp
  · simp [h]

theorem bump_entry (name : Str) (d : Counts ℝ) (x q : ℕ) (b : Str) :
    entry (bump name d x) q b = (entry d q b).map fun v => v + if name = b ∧ x = q then 1 else 0 := by
  unfold bump
  cases h1 : d.get? x with
  | none =>
    by_cases hx : x = q
    · subst hx; simp [entry, h1]
    · simp [hx]
  | some e =>
    simp only []
    cases h2 : e.get? name with
    | none =>
      by_cases hx : x = q ∧ name = b
      · obtain ⟨rfl, rfl⟩ := hx; simp [entry, h1, h2]
      · have : ¬ (name = b ∧ x = q) := fun h => hx ⟨h.2, h.1⟩
        simp [this]
    | some v =>
      unfold entry
      rw [Dict.get?_set]
      by_cases hx : x = q
      · subst hx
        simp only [if_true, Option.bind_some, h1, Dict.get?_set]
        by_cases hb : name = b
        · subst hb; simp [h2]
        · simp [hb]
      · simp [hx]

theorem fold_entry {α : Type} (f : Counts ℝ → α → Counts ℝ) (w : α → ℕ) (q : ℕ) (b : Str)
    (hf : ∀ d a, entry (f d a) q b = (entry d q b).map fun v : ℝ => v + w a) (l : List α) (d : Counts ℝ) :
    entry (l.foldl f d) q b = (entry d q b).map fun v : ℝ => v + ((l.map w).sum : ℕ) := by
  induction l generalizing d with
  | nil => simp
  | cons a t ih =>
    rw [List.foldl_cons, ih, hf, Option.map_map]
    congr 1
    funext v
    simp only [Function.comp, List.map_cons, List.sum_cons]
    push_cast; ring

theorem countIns_entry (d : Counts ℝ) (i : TIns) (q : ℕ) (b : Str) :
    entry (countIns d i) q b = (entry d q b).map fun v => v + ((if i.1 = b then i.2.count q else 0 : ℕ) : ℝ) := by
  unfold countIns
  rw [fold_entry (bump i.1) (fun x => if i.1 = b ∧ x = q then 1 else 0) q b (fun d x => by rw [bump_entry]; push_cast; rfl)]
  congr 1
  funext v
  congr 2
  generalize i.2 = l
  by_cases h : i.1 = b
  · simp only [h, true_and, if_true]
    induction l with
    | nil => rfl
    | cons x t ih =>
      rw [List.map_cons, List.sum_cons, ih, List.count_cons, add_comm]
      simp
  · simp [h]

theorem divide_entry (total : ℝ) (d : Counts ℝ) (x : ℕ × Str) (q : ℕ) (b : Str) :
    entry (divide total d x) q b = (entry d q b).map fun v => if x = (q, b) then v / total else v := by
  obtain ⟨xq, xb⟩ := x
  unfold divide
  simp only []
  cases h1 : d.get? xq with
  | none =>
    by_cases hx : xq = q
    · subst hx; simp [entry, h1]
    · simp [hx]
  | some e =>
    simp only []
    cases h2 : e.get? xb with
    | none =>
      by_cases hx : xq = q ∧ xb = b
      · obtain ⟨rfl, rfl⟩ := hx; simp [entry, h1, h2]
      · have : ¬ ((xq, xb) = (q, b)) := fun h => hx ⟨(Prod.mk.inj h).1, (Prod.mk.inj h).2⟩
        simp only [this, if_false, Option.map_id']
    | some v =>
      unfold entry
      rw [Dict.get?_set]
      by_cases hx : xq = q
      · subst hx
        simp only [if_true, Option.bind_some, h1, Dict.get?_set]
        by_cases hb : xb = b
        · subst hb; simp [h2]
        · simp [hb]
      · simp [hx]

theorem divideAll_entry (total : ℝ) (l : List (ℕ × Str)) (hl : l.Nodup) (d : Counts ℝ) (q : ℕ) (b : Str) :
    entry (l.foldl (divide total) d) q b = (entry d q b).map fun v => if (q, b) ∈ l then v / total else v := by
  induction l generalizing d with
  | nil => simp
  | cons x t ih =>
    obtain ⟨h1, h2⟩ := List.nodup_cons.1 hl
    rw [List.foldl_cons, ih h2, divide_entry, Option.map_map]
    congr 1
    funext v
    simp only [Function.comp]
    by_cases hx : x = (q, b)
    · subst hx; simp [h1]
    · simp [hx, Ne.symm hx]

/-- C76: `gates_per_clifford` reports, for every requested qubit and basis gate, the number of times the gate touches
the qubit in all circuits, divided by the number of seeds times the total of the sequence lengths plus one. -/
theorem C76_gates_per_clifford (circuits : List (List (List TIns))) (hne : circuits ≠ []) (lengths : List ℤ) (basis : List Str) (hb : basis.Nodup)
    (qubits : List ℕ) (hq : qubits.Nodup) :
    ∃ r, gatesPerClifford circuits lengths basis qubits = some r ∧ ∀ q b,
      entry r q b = if q ∈ qubits ∧ b ∈ basis then some (((occ circuits.flatten q b : ℕ) : ℝ) / (circuits.length * ((lengths.map fun l => l + 1).sum : ℤ))) else none := by
  cases circuits with
  | nil => exact absurd rfl hne
  | cons c0 cs =>
    refine ⟨_, rfl, fun q b => ?_⟩
    generalize c0 :: cs = circuits
    have hnd : (qubits.flatMap fun q => basis.map fun b => (q, b)).Nodup := by
      rw [List.nodup_flatMap]
      refine ⟨fun q _ => List.Nodup.map (fun a b h => (Prod.mk.inj h).2) hb, hq.imp ?_⟩
      intro p p' hpp x hx hx'
      obtain ⟨b, -, rfl⟩ := List.mem_map.1 hx
      obtain ⟨b', -, h⟩ := List.mem_map.1 hx'
      exact hpp (Prod.mk.inj h).1.symm
    rw [divideAll_entry _ _ hnd]
    rw [fold_entry (fun d cs => cs.foldl (fun d c => c.foldl countIns d) d) (fun cs => occ cs q b) q b]
    · rw [init_entry]
      have hsum : (circuits.map fun cs => occ cs q b).sum = occ circuits.flatten q b := by
        unfold occ
        induction circuits with
        | nil => rfl
        | cons a t ih => rw [List.map_cons, List.sum_cons, ih, List.flatten_cons, List.map_append, List.sum_append]
      by_cases h : q ∈ qubits ∧ b ∈ basis
      · have hm : (q, b) ∈ qubits.flatMap fun q => basis.map fun b => (q, b) :=
          List.mem_flatMap.2 ⟨q, h.1, List.mem_map.2 ⟨b, h.2, rfl⟩⟩
        simp only [if_pos h, Option.map_some, zero_add, if_pos hm, hsum]
      · simp only [if_neg h, Option.map_none]
    · intro d cs
      unfold occ
      refine fold_entry (fun d c => c.foldl countIns d) (fun c => (c.map fun i : TIns => if i.1 = b then i.2.count q else 0).sum) q b ?_ cs d
      intro d c
      exact fold_entry countIns (fun i : TIns => if i.1 = b then i.2.count q else 0) q b (fun d i => countIns_entry d i q b) c d

/-- The hypotheses are met: two seeds, one circuit each. -/
example : ∃ r, gatesPerClifford [[[("cx".toList, [0, 1]), ("u2".toList, [0])]], [[("cx".toList, [1, 0]), ("cx".toList, [0, 2])]]] [1] ["u2".toList, "cx".toList] [0, 1] = some r ∧
    entry r 0 "cx".toList = some (3 / 4) := by
  obtain ⟨r, h1, h2⟩ := C76_gates_per_clifford [[[("cx".toList, [0, 1]), ("u2".toList, [0])]], [[("cx".toList, [1, 0]), ("cx".toList, [0, 2])]]] (by simp) [1]
    ["u2".toList, "cx".toList] (by decide) [0, 1] (by decide)
  refine ⟨r, h1, ?_⟩
  rw [h2, if_pos (by decide)]
  have : occ [[[("cx".toList, [0, 1]), ("u2".toList, [0])]], [[("cx".toList, [1, 0]), ("cx".toList, [0, 2])]]].flatten 0 "cx".toList = 3 := by decide
  rw [this]; norm_num

/-- Finding: a basis that lists a gate twice divides its count twice. -/
theorem C76_finding_duplicate_basis : ∃ r, gatesPerClifford [[[("x".toList, [0])]]] [1] ["x".toList, "x".toList] [0] = some r ∧ entry r 0 "x".toList = some (1 / 4) := by
  refine ⟨_, rfl, ?_⟩
  norm_num [gatesPerClifford, initCounts, countIns, bump, divide, entry, Dict.set, Dict.get?]

end Verif.RB.Utils
