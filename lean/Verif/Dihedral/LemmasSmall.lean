import Verif.Dihedral.LemmasBuild
/-
The one- and two-qubit decompositions.  The valid elements on one and two qubits form a finite set (16
and 6144 elements); the check below runs through all of them.
-/
set_option linter.unusedSimpArgs false
set_option linter.unusedVariables false
namespace Verif.Dihedral
open Verif.Quantum

/-- Checks whether a gate is in range. -/
def gateOkB (n : ℕ) : Gate → Bool
  | .x q | .z q | .y q | .u1 _ q | .id q => decide (q < n)
  | .cx a b | .cz a b => decide (a < n) && decide (b < n) && decide (a ≠ b)
  | .other _ => false

theorem gateOkB_iff {n : ℕ} {g : Gate} : gateOkB n g = true ↔ GateOk n g := by
  cases g <;> simp [gateOkB, GateOk]

/-- All one-qubit elements. -/
def mk1 (a : Fin 8) (s : Fin 2) : Elem 1 := ⟨⟨0, [(a : ℤ)], [], []⟩, fun _ _ => 1, fun _ => (s : ℤ)⟩

/-- All two-qubit elements. -/
def mk2 (l : ℤ × ℤ × ℤ × ℤ) (s0 s1 : Fin 2) (a b : Fin 8) (c : Fin 4) : Elem 2 :=
  ⟨⟨0, [(a : ℤ), (b : ℤ)], [2 * (c : ℤ)], []⟩,
    fun i j => if i = 0 then (if j = 0 then l.1 else l.2.1) else (if j = 0 then l.2.2.1 else l.2.2.2),
    fun i => if i = 0 then (s0 : ℤ) else (s1 : ℤ)⟩

/-- Entrywise comparison. -/
def sameB {n : ℕ} (o : Option (Elem n)) (e : Elem n) : Bool :=
  match o with
  | none => false
  | some r => decide (r.poly = e.poly) && decide (∀ i j, r.linear i j = e.linear i j) && decide (∀ i, r.shift i = e.shift i)

theorem sameB_iff {n : ℕ} {o : Option (Elem n)} {e : Elem n} : sameB o e = true → o = some e := by
  cases o with
  | none => simp [sameB]
  | some r =>
    intro h
    simp only [sameB, Bool.and_eq_true, decide_eq_true_eq] at h
    have h1 : r.linear = e.linear := by funext i j; exact h.1.2 i j
    have h2 : r.shift = e.shift := by funext i; exact h.2 i
    cases r; cases e; simp_all

/-- Round trip of one element. -/
def check2 (e : Elem 2) : Bool :=
  match decompose2 e with
  | none => false
  | some c => c.all (gateOkB 2) && sameB (fromCircuit 2 c) e

def check1 (e : Elem 1) : Bool :=
  match decompose1 e with
  | none => false
  | some c => c.all (gateOkB 1) && sameB (fromCircuit 1 c) e

theorem check1_all : ∀ a s, check1 (mk1 a s) = true := by decide +kernel

/-- The six invertible 2×2 bit matrices. -/
def invs : List (ℤ × ℤ × ℤ × ℤ) :=
  [(1, 0, 0, 1), (1, 0, 1, 1), (1, 1, 0, 1), (0, 1, 1, 1), (1, 1, 1, 0), (0, 1, 1, 0)]

/- The complete check of the two-qubit group, in parts (to bound the memory of the kernel). -/
theorem check2_000 : ∀ a b c, check2 (mk2 (1, 0, 0, 1) 0 0 a b c) = true := by decide +kernel
theorem check2_001 : ∀ a b c, check2 (mk2 (1, 0, 0, 1) 0 1 a b c) = true := by decide +kernel
theorem check2_010 : ∀ a b c, check2 (mk2 (1, 0, 0, 1) 1 0 a b c) = true := by decide +kernel
theorem check2_011 : ∀ a b c, check2 (mk2 (1, 0, 0, 1) 1 1 a b c) = true := by decide +kernel
theorem check2_100 : ∀ a b c, check2 (mk2 (1, 0, 1, 1) 0 0 a b c) = true := by decide +kernel
theorem check2_101 : ∀ a b c, check2 (mk2 (1, 0, 1, 1) 0 1 a b c) = true := by decide +kernel
theorem check2_110 : ∀ a b c, check2 (mk2 (1, 0, 1, 1) 1 0 a b c) = true := by decide +kernel
theorem check2_111 : ∀ a b c, check2 (mk2 (1, 0, 1, 1) 1 1 a b c) = true := by decide +kernel
theorem check2_200 : ∀ a b c, check2 (mk2 (1, 1, 0, 1) 0 0 a b c) = true := by decide +kernel
theorem check2_201 : ∀ a b c, check2 (mk2 (1, 1, 0, 1) 0 1 a b c) = true := by decide +kernel
theorem check2_210 : ∀ a b c, check2 (mk2 (1, 1, 0, 1) 1 0 a b c) = true := by decide +kernel
theorem check2_211 : ∀ a b c, check2 (mk2 (1, 1, 0, 1) 1 1 a b c) = true := by decide +kernel
theorem check2_300 : ∀ a b c, check2 (mk2 (0, 1, 1, 1) 0 0 a b c) = true := by decide +kernel
theorem check2_301 : ∀ a b c, check2 (mk2 (0, 1, 1, 1) 0 1 a b c) = true := by decide +kernel
theorem check2_310 : ∀ a b c, check2 (mk2 (0, 1, 1, 1) 1 0 a b c) = true := by decide +kernel
theorem check2_311 : ∀ a b c, check2 (mk2 (0, 1, 1, 1) 1 1 a b c) = true := by decide +kernel
theorem check2_400 : ∀ a b c, check2 (mk2 (1, 1, 1, 0) 0 0 a b c) = true := by decide +kernel
theorem check2_401 : ∀ a b c, check2 (mk2 (1, 1, 1, 0) 0 1 a b c) = true := by decide +kernel
theorem check2_410 : ∀ a b c, check2 (mk2 (1, 1, 1, 0) 1 0 a b c) = true := by decide +kernel
theorem check2_411 : ∀ a b c, check2 (mk2 (1, 1, 1, 0) 1 1 a b c) = true := by decide +kernel
theorem check2_500 : ∀ a b c, check2 (mk2 (0, 1, 1, 0) 0 0 a b c) = true := by decide +kernel
theorem check2_501 : ∀ a b c, check2 (mk2 (0, 1, 1, 0) 0 1 a b c) = true := by decide +kernel
theorem check2_510 : ∀ a b c, check2 (mk2 (0, 1, 1, 0) 1 0 a b c) = true := by decide +kernel
theorem check2_511 : ∀ a b c, check2 (mk2 (0, 1, 1, 0) 1 1 a b c) = true := by decide +kernel

theorem fin2_cases (s : Fin 2) : s = 0 ∨ s = 1 := by revert s; decide

theorem check2_all : ∀ l ∈ invs, ∀ s0 s1 a b c, check2 (mk2 l s0 s1 a b c) = true := by
  intro l hl s0 s1
  simp only [invs, List.mem_cons, List.not_mem_nil, or_false] at hl
  rcases hl with rfl | rfl | rfl | rfl | rfl | rfl <;> rcases fin2_cases s0 with rfl | rfl <;> rcases fin2_cases s1 with rfl | rfl
  · exact check2_000
  · exact check2_001
  · exact check2_010
  · exact check2_011
  · exact check2_100
  · exact check2_101
  · exact check2_110
  · exact check2_111
  · exact check2_200
  · exact check2_201
  · exact check2_210
  · exact check2_211
  · exact check2_300
  · exact check2_301
  · exact check2_310
  · exact check2_311
  · exact check2_400
  · exact check2_401
  · exact check2_410
  · exact check2_411
  · exact check2_500
  · exact check2_501
  · exact check2_510
  · exact check2_511


theorem list_len1 {l : List ℤ} (h : l.length = 1) : ∃ a, l = [a] := List.length_eq_one_iff.1 h

theorem list_len2 {l : List ℤ} (h : l.length = 2) : ∃ a b, l = [a, b] := List.length_eq_two.1 h

theorem fin8 {a : ℤ} (h : 0 ≤ a ∧ a < 8) : ∃ k : Fin 8, ((k : ℕ) : ℤ) = a :=
  ⟨⟨a.toNat, by omega⟩, by simp; omega⟩

theorem fin2 {a : ℤ} (h : a = 0 ∨ a = 1) : ∃ k : Fin 2, ((k : ℕ) : ℤ) = a :=
  ⟨⟨a.toNat, by omega⟩, by simp; omega⟩

theorem fin4 {a : ℤ} (h : (0 ≤ a ∧ a < 8) ∧ (2 : ℤ) ∣ a) : ∃ k : Fin 4, 2 * ((k : ℕ) : ℤ) = a :=
  ⟨⟨(a / 2).toNat, by omega⟩, by simp; omega⟩

theorem eq_mk1 {e : Elem 1} (h : isCnotDihedral e = true) : ∃ a s, e = mk1 a s := by
  obtain ⟨ge, re, we, de⟩ := (isCnot_iff e).1 h
  obtain ⟨a, ha⟩ := list_len1 ge.wf.1
  obtain ⟨k, hk⟩ := fin8 (re.2.1 a (by simp [ha]))
  obtain ⟨s, hs⟩ := fin2 (ge.sh 0)
  refine ⟨k, s, ?_⟩
  have h2 : e.poly.w2 = [] := List.length_eq_zero_iff.1 ge.wf.2.1
  have h3 : e.poly.w3 = [] := List.length_eq_zero_iff.1 ge.wf.2.2
  have hl : e.linear = fun _ _ => 1 := by
    funext i j
    rw [Subsingleton.elim i 0, Subsingleton.elim j 0]
    rw [detOdd, decide_eq_true_iff, Matrix.det_fin_one] at de
    have : Matrix.of e.linear 0 0 = e.linear 0 0 := rfl
    rw [this] at de
    rcases ge.lin 0 0 with h | h
    · rw [h] at de; norm_num at de
    · exact h
  have hsh : e.shift = fun _ => ((s : ℕ) : ℤ) := by
    funext i; rw [Subsingleton.elim i 0, hs]
  obtain ⟨⟨w0, w1, w2, w3⟩, lin, sh⟩ := e
  simp only at we ha h2 h3 hl hsh
  simp only [mk1, we, ha, h2, h3, hl, hsh, hk]

theorem eq_mk2 {e : Elem 2} (h : isCnotDihedral e = true) : ∃ l ∈ invs, ∃ s0 s1 a b c, e = mk2 l s0 s1 a b c := by
  obtain ⟨ge, re, we, de⟩ := (isCnot_iff e).1 h
  obtain ⟨a, b, hab⟩ := list_len2 ge.wf.1
  obtain ⟨c, hc⟩ := list_len1 ge.wf.2.1
  have h3 : e.poly.w3 = [] := List.length_eq_zero_iff.1 ge.wf.2.2
  obtain ⟨a', ha'⟩ := fin8 (re.2.1 a (by simp [hab]))
  obtain ⟨b', hb'⟩ := fin8 (re.2.1 b (by simp [hab]))
  obtain ⟨s0, hs0⟩ := fin2 (ge.sh 0)
  obtain ⟨s1, hs1⟩ := fin2 (ge.sh 1)
  have hv : Valid 2 [0, 1] := ⟨by simp, by simp, by simp⟩
  have hg : getTerm e.poly [0, 1] = some c := by
    rw [getTerm_two _ ge.wf (by omega) (by omega), hc]; rfl
  obtain ⟨c', hc'⟩ := fin4 ⟨re.2.2.1 c (by simp [hc]), two_dvd_of_gr ge.gr hv rfl hg⟩
  refine ⟨(e.linear 0 0, e.linear 0 1, e.linear 1 0, e.linear 1 1), ?_, s0, s1, a', b', c', ?_⟩
  · rw [detOdd, decide_eq_true_iff, Matrix.det_fin_two] at de
    simp only [Matrix.of_apply] at de
    rcases ge.lin 0 0 with h1 | h1 <;> rcases ge.lin 0 1 with h2 | h2 <;> rcases ge.lin 1 0 with h3 | h3 <;>
      rcases ge.lin 1 1 with h4 | h4 <;> rw [h1, h2, h3, h4] at de ⊢ <;> first | (norm_num at de; done) | decide
  · have hl : e.linear = fun i j => if i = 0 then (if j = 0 then e.linear 0 0 else e.linear 0 1) else
        (if j = 0 then e.linear 1 0 else e.linear 1 1) := by
      funext i j
      match i, j with
      | 0, 0 => rfl
      | 0, 1 => rfl
      | 1, 0 => rfl
      | 1, 1 => rfl
    have hsh : e.shift = fun i => if i = 0 then ((s0 : ℕ) : ℤ) else ((s1 : ℕ) : ℤ) := by
      funext i
      match i with
      | 0 => exact hs0.symm
      | 1 => exact hs1.symm
    have hp : e.poly = ⟨0, [((a' : ℕ) : ℤ), ((b' : ℕ) : ℤ)], [2 * ((c' : ℕ) : ℤ)], []⟩ := by
      rw [ha', hb', hc', ← hab, ← hc, ← h3, ← we]
    unfold mk2
    simp only
    rw [← hl, ← hsh, ← hp]

/-- Every valid element is decomposed, and the circuit rebuilds exactly that element. -/
theorem toCircuit_spec {n : ℕ} (hn : 0 < n) {e : Elem n} (h : isCnotDihedral e = true) :
    ∃ c, toCircuit e = some c ∧ (∀ g ∈ c, GateOk n g) ∧ fromCircuit n c = some e := by
  match n, hn, e, h with
  | 1, _, e, h =>
    obtain ⟨a, s, rfl⟩ := eq_mk1 h
    have := check1_all a s
    unfold check1 at this
    cases hd : decompose1 (mk1 a s) with
    | none => rw [hd] at this; exact absurd this (by simp)
    | some c =>
      rw [hd] at this
      simp only [Bool.and_eq_true, List.all_eq_true] at this
      exact ⟨c, hd, fun g hg => gateOkB_iff.1 (this.1 g hg), sameB_iff this.2⟩
  | 2, _, e, h =>
    obtain ⟨l, hl, s0, s1, a, b, c, rfl⟩ := eq_mk2 h
    have := check2_all l hl s0 s1 a b c
    unfold check2 at this
    cases hd : decompose2 (mk2 l s0 s1 a b c) with
    | none => rw [hd] at this; exact absurd this (by simp)
    | some c =>
      rw [hd] at this
      simp only [Bool.and_eq_true, List.all_eq_true] at this
      exact ⟨c, hd, fun g hg => gateOkB_iff.1 (this.1 g hg), sameB_iff this.2⟩
  | n + 3, _, e, h => exact decomposeGeneral_spec h

end Verif.Dihedral
