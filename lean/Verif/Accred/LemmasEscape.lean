import Verif.Accred.LemmasTrapErr
set_option linter.unusedSectionVars false
set_option linter.unusedSimpArgs false
/-
At most three quarters of the traps let a given error pass.
-/
namespace Verif.Accred
open Verif Verif.Quantum

variable {n : ℕ}

/-- The error at the end of a trap. -/
def fp (g : TwoQ) (rnd : ℕ → ℕ → Bool) (post : List (Gate n)) : ℕ → List (List (Fin n × Fin n)) → List (PP n) → PP n → PP n
  | k, t :: T, P :: ps, v => fp g rnd post (k + 1) T ps (cj (layB g (rnd k) t) (cj (twoGates g t) (pxor P (cj (layA g (rnd k) t) v))))
  | _, [], P :: _, v => pxor P (cj post v)
  | _, _, _, v => v

theorem cjPath_trap (g : TwoQ) (rnd : ℕ → ℕ → Bool) (post : List (Gate n)) (k : ℕ) (T : List (List (Fin n × Fin n))) (ps : List (PP n))
    (hps : ps.length = T.length + 1) (pre : List (Gate n)) (v : PP n) :
    cjPath g (trapSingles g rnd post k T pre) T ps v = fp g rnd post k T ps (cj pre v) := by
  induction T generalizing k ps pre v with
  | nil =>
    obtain ⟨p, rfl⟩ : ∃ p, ps = [p] := List.length_eq_one_iff.1 hps
    simp only [trapSingles, cjPath, fp, cj_append]
  | cons t T ih =>
    obtain ⟨p, ps, rfl⟩ : ∃ s S', ps = s :: S' := by
      cases ps with
      | nil => simp at hps
      | cons s S' => exact ⟨s, S', rfl⟩
    simp only [trapSingles, cjPath, fp]
    rw [ih (k + 1) ps (by simpa using hps), cj_append]

theorem fp_congr (g : TwoQ) (rnd rnd' : ℕ → ℕ → Bool) (post : List (Gate n)) (k : ℕ) (h : ∀ j, k ≤ j → rnd j = rnd' j) (T : List (List (Fin n × Fin n)))
    (ps : List (PP n)) (v : PP n) : fp g rnd post k T ps v = fp g rnd' post k T ps v := by
  induction T generalizing k ps v with
  | nil => cases ps <;> rfl
  | cons t T ih =>
    cases ps with
    | nil => rfl
    | cons P ps =>
      simp only [fp]
      rw [h k le_rfl, ih (k + 1) (fun j hj => h j (by omega))]

/-- The part of an error that the basis `b` sees. -/
def part (b : Bool) (v : PP n) : Basis (Fin n) := if b then v.1 else v.2

theorem part_pxor (b : Bool) (v w : PP n) : part b (pxor v w) = bxor (part b v) (part b w) := by cases b <;> rfl

theorem part_ext {v w : PP n} (h : ∀ b, part b v = part b w) : v = w := Prod.ext (h true) (h false)

theorem cj_hs (l : List (Fin n)) (hl : l.Nodup) (v : PP n) (q : Fin n) :
    (cj (l.map Gate.h) v).1 q = (if q ∈ l then v.2 q else v.1 q) ∧ (cj (l.map Gate.h) v).2 q = if q ∈ l then v.1 q else v.2 q := by
  induction l generalizing v with
  | nil => simp [cj]
  | cons p l ih =>
    rw [List.nodup_cons] at hl
    rw [List.map_cons, cj_cons, (ih hl.2 _).1, (ih hl.2 _).2]
    by_cases h : q = p
    · subst h; simp [hl.1, cjG]
    · simp [cjG, h]

theorem cj_hsG (b : Bool) (v : PP n) : cj (hsG b) v = if b then (v.2, v.1) else v := by
  cases b
  · rfl
  · simp only [hsG, if_true]
    refine Prod.ext ?_ ?_
    · funext q; rw [(cj_hs _ (List.nodup_finRange n) v q).1]; simp
    · funext q; rw [(cj_hs _ (List.nodup_finRange n) v q).2]; simp

theorem cj_hsG_snd (b : Bool) (v : PP n) : (cj (hsG b) v).2 = part b v := by rw [cj_hsG]; cases b <;> rfl

theorem pxor_cancel (p v w : PP n) : pxor (pxor p v) (pxor p w) = pxor v w := by
  have h : ∀ a b c : Bool, Bool.xor (Bool.xor a b) (Bool.xor a c) = Bool.xor b c := by decide
  exact Prod.ext (funext fun q => h _ _ _) (funext fun q => h _ _ _)

/-! ### Layers -/

theorem cjG_invol (a : Gate n) (ha : a.cliff) (v : PP n) : cjG a (cjG a v) = v := by
  cases a with
  | u m q => exact ha.elim
  | x q => exact ha.elim
  | z q => exact ha.elim
  | barrier => exact ha.elim
  | h q => simp [cjG]
  | s q => simp [cjG]
  | sdg q => simp [cjG]
  | cx c t =>
    have h : c ≠ t := ha
    simp [cjG, h, h.symm]
  | cz a b =>
    have h : a ≠ b := ha
    refine Prod.ext ?_ rfl
    funext q
    simp only [cjG, Function.update_apply]
    by_cases h1 : q = b
    · subst h1; simp [h, h.symm]
    · by_cases h2 : q = a
      · subst h2; simp [h1]
      · simp [h1, h2]

theorem cj_reverse (l : List (Gate n)) (hl : ∀ a ∈ l, a.cliff) (v : PP n) : cj l (cj l.reverse v) = v := by
  induction l generalizing v with
  | nil => rfl
  | cons a l ih =>
    rw [List.reverse_cons, cj_append, cj_cons]
    show cj l (cjG a (cjG a (cj l.reverse v))) = v
    rw [cjG_invol a (hl a List.mem_cons_self), ih fun a ha => hl a (List.mem_cons_of_mem _ ha)]

theorem cj_inj (l : List (Gate n)) (hl : ∀ a ∈ l, a.cliff) (v : PP n) (h : cj l v = p0) : v = p0 := by
  have h1 := cj_reverse l.reverse (fun a ha => hl a (List.mem_reverse.1 ha)) v
  rw [List.reverse_reverse, h, cj_p0] at h1
  exact h1.symm

/-- A layer without error, in the frame of the trap. -/
def lay (g : TwoQ) (rnd : ℕ → Bool) (t : List (Fin n × Fin n)) (v : PP n) : PP n :=
  cj (layB g rnd t) (cj (twoGates g t) (cj (layA g rnd t) v))

theorem regs_ne {t : List (Fin n × Fin n)} (ht : (regs t).Nodup) : ∀ p ∈ t, p.1 ≠ p.2 := by
  intro p hp
  obtain ⟨t1, t2, rfl⟩ := List.append_of_mem hp
  have hr : regs (t1 ++ p :: t2) = regs t1 ++ (p.1 :: p.2 :: regs t2) := by rw [regs_append]; rfl
  rw [hr] at ht
  have := (List.nodup_append.1 ht).2.1
  simp only [List.nodup_cons, List.mem_cons, not_or] at this
  exact this.1.1

theorem lay_inj (g : TwoQ) (rnd : ℕ → Bool) (t : List (Fin n × Fin n)) (ht : (regs t).Nodup) (v : PP n) (h : lay g rnd t v = p0) : v = p0 := by
  refine cj_inj _ (fun a ha => (layA_cliff g rnd t a ha).cliff) _ (cj_inj _ (two_cliff g t (regs_ne ht)) _ (cj_inj _ (fun a ha => (layB_cliff g rnd t a ha).cliff) _ h))

theorem lay_pxor (g : TwoQ) (rnd : ℕ → Bool) (t : List (Fin n × Fin n)) (v w : PP n) : lay g rnd t (pxor v w) = pxor (lay g rnd t v) (lay g rnd t w) := by
  simp only [lay, cj_pxor]

theorem lay_split (g : TwoQ) (hg : g ≠ .other) (rnd : ℕ → Bool) (t : List (Fin n × Fin n)) (ht : (regs t).Nodup) (b : Bool) (v : PP n)
    (h : part b v = fun _ => false) : part b (lay g rnd t v) = fun _ => false := by
  funext q
  obtain ⟨i, -, Q, a, b', c, hq, hB, h1, h2, h3⟩ := block_at g hg t ht q
  have hA : Agree Q (lay g rnd t v) (cj (b' (rnd i)) (cj c (cj (a (rnd i)) v))) :=
    (h3 rnd _).trans (cj_on Q _ (hB.inB _) _ _ ((h2 _).trans (cj_on Q _ hB.inC _ _ (h1 rnd v))))
  cases b
  · exact (hA q hq).2.trans (hB.splitX (rnd i) v (fun p _ => congrFun h p) q hq)
  · exact (hA q hq).1.trans (hB.splitZ (rnd i) v (fun p _ => congrFun h p) q hq)

theorem lay_part (g : TwoQ) (hg : g ≠ .other) (rnd : ℕ → Bool) (t : List (Fin n × Fin n)) (ht : (regs t).Nodup) (b : Bool) (v : PP n) :
    (part b (lay g rnd t v) = fun _ => false) ↔ part b v = fun _ => false := by
  refine ⟨fun h => ?_, lay_split g hg rnd t ht b v⟩
  obtain ⟨z, x⟩ := v
  have e : ((z, x) : PP n) = pxor (z, fun _ => false) (fun _ => false, x) := by
    simp only [pxor]; exact Prod.ext (bxor_zero z).symm (zero_bxor x).symm
  rw [e, lay_pxor, part_pxor] at h
  cases b
  · have h1 := lay_split g hg rnd t ht false (z, fun _ => false) rfl
    have h2 := lay_split g hg rnd t ht true (fun _ => false, x) rfl
    rw [h1, zero_bxor] at h
    have h3 : lay g rnd t (fun _ => false, x) = p0 := part_ext fun b => by cases b; exact h; exact h2
    exact (Prod.mk.inj (lay_inj g rnd t ht _ h3)).2
  · have h1 := lay_split g hg rnd t ht true (fun _ => false, x) rfl
    have h2 := lay_split g hg rnd t ht false (z, fun _ => false) rfl
    rw [h1, bxor_zero] at h
    have h3 : lay g rnd t (z, fun _ => false) = p0 := part_ext fun b => by cases b; exact h2; exact h
    exact (Prod.mk.inj (lay_inj g rnd t ht _ h3)).1

/-- The same errors from two starting points. -/
theorem fp_diff (g : TwoQ) (hg : g ≠ .other) (rnd : ℕ → ℕ → Bool) (b : Bool) (k : ℕ) (T : List (List (Fin n × Fin n))) (hT : ∀ t ∈ T, (regs t).Nodup)
    (ps : List (PP n)) (hps : ps.length = T.length + 1) (v w : PP n) :
    (pxor (fp g rnd (hsG b) k T ps v) (fp g rnd (hsG b) k T ps w)).2 = (fun _ => false) ↔ part b (pxor v w) = fun _ => false := by
  induction T generalizing k ps v w with
  | nil =>
    obtain ⟨p, rfl⟩ : ∃ p, ps = [p] := List.length_eq_one_iff.1 hps
    have : pxor (fp g rnd (hsG b) k [] [p] v) (fp g rnd (hsG b) k [] [p] w) = cj (hsG b) (pxor v w) := by
      simp only [fp, cj_pxor]
      exact pxor_cancel _ _ _
    rw [this, cj_hsG_snd]
  | cons t T ih =>
    obtain ⟨p, ps, rfl⟩ : ∃ s S', ps = s :: S' := by
      cases ps with
      | nil => simp at hps
      | cons s S' => exact ⟨s, S', rfl⟩
    simp only [fp]
    rw [ih (k + 1) (fun t ht => hT t (List.mem_cons_of_mem _ ht)) ps (by simpa using hps), ← lay_part g hg (rnd k) t (hT t List.mem_cons_self) b (pxor v w)]
    have : pxor (cj (layB g (rnd k) t) (cj (twoGates g t) (pxor p (cj (layA g (rnd k) t) v))))
        (cj (layB g (rnd k) t) (cj (twoGates g t) (pxor p (cj (layA g (rnd k) t) w)))) = lay g (rnd k) t (pxor v w) := by
      unfold lay
      rw [← cj_pxor, ← cj_pxor, cj_pxor (layA g (rnd k) t)]
      congr 2
      exact pxor_cancel _ _ _
    rw [this]

/-- No error in front of a two-qubit layer. -/
def BandClean : List (List (Fin n × Fin n)) → List (PP n) → Prop
  | _ :: T, P :: ps => P = p0 ∧ BandClean T ps
  | _, _ => True

/-- Qubits flipped before the measurement. -/
def lastX : List (List (Fin n × Fin n)) → List (PP n) → Basis (Fin n)
  | _ :: T, _ :: ps => lastX T ps
  | [], P :: _ => P.2
  | _, _ => fun _ => false

theorem fp_zero (g : TwoQ) (rnd : ℕ → ℕ → Bool) (b : Bool) (k : ℕ) (T : List (List (Fin n × Fin n))) (ps : List (PP n)) (hps : ps.length = T.length + 1)
    (hc : BandClean T ps) : (fp g rnd (hsG b) k T ps p0).2 = lastX T ps := by
  induction T generalizing k ps with
  | nil =>
    obtain ⟨p, rfl⟩ : ∃ p, ps = [p] := List.length_eq_one_iff.1 hps
    simp only [fp, cj_p0, pxor_p0, lastX]
  | cons t T ih =>
    obtain ⟨p, ps, rfl⟩ : ∃ s S', ps = s :: S' := by
      cases ps with
      | nil => simp at hps
      | cons s S' => exact ⟨s, S', rfl⟩
    obtain ⟨rfl, hc⟩ := hc
    simp only [fp, cj_p0, pxor_p0, lastX]
    exact ih (k + 1) ps (by simpa using hps) hc

theorem fp_clean (g : TwoQ) (hg : g ≠ .other) (rnd : ℕ → ℕ → Bool) (b : Bool) (k : ℕ) (T : List (List (Fin n × Fin n))) (hT : ∀ t ∈ T, (regs t).Nodup)
    (ps : List (PP n)) (hps : ps.length = T.length + 1) (hc : BandClean T ps) (hl : lastX T ps = fun _ => false) (v : PP n) :
    (fp g rnd (hsG b) k T ps v).2 = (fun _ => false) ↔ part b v = fun _ => false := by
  have h := fp_diff g hg rnd b k T hT ps hps v p0
  have h0 := fp_zero g rnd b k T ps hps hc
  rw [pxor_p0] at h
  rw [← h]
  show _ ↔ bxor _ _ = _
  rw [h0, hl, bxor_zero]

/-! ### One bit changed -/

/-- The bits with one of them set to `c`. -/
def setBit (rnd : ℕ → ℕ → Bool) (j i : ℕ) (c : Bool) : ℕ → ℕ → Bool := fun j' i' => if j' = j ∧ i' = i then c else rnd j' i'

theorem setBit_self (rnd : ℕ → ℕ → Bool) (j i : ℕ) (c : Bool) : setBit rnd j i c j i = c := by simp [setBit]

theorem setBit_ne (rnd : ℕ → ℕ → Bool) (j i : ℕ) (c : Bool) (j' : ℕ) (h : j' ≠ j) : setBit rnd j i c j' = rnd j' := by
  funext i'; simp [setBit, h]

theorem ne_p0 {P : PP n} (h : P ≠ p0) : ∃ q, ¬ (P.1 q = false ∧ P.2 q = false) := by
  by_contra hc
  push Not at hc
  exact h (Prod.ext (funext fun q => (hc q).1) (funext fun q => (hc q).2))

/-- An error in front of a two-qubit layer, good preparation: the first error is seen. -/
theorem first_error (g : TwoQ) (hg : g ≠ .other) (k : ℕ) (T : List (List (Fin n × Fin n))) (hT : ∀ t ∈ T, (regs t).Nodup) (ps : List (PP n))
    (hps : ps.length = T.length + 1) (hc : ¬ BandClean T ps) :
    ∃ j i, j < T.length ∧ i < n ∧ ∀ rnd, ¬ ∀ b c, (fp g (setBit rnd (k + j) i c) (hsG b) k T ps p0).2 = fun _ => false := by
  induction T generalizing k ps with
  | nil =>
    exact absurd trivial (by cases ps <;> exact hc)
  | cons t T ih =>
    obtain ⟨P, ps, rfl⟩ : ∃ s S', ps = s :: S' := by
      cases ps with
      | nil => simp at hps
      | cons s S' => exact ⟨s, S', rfl⟩
    have hT' : ∀ t ∈ T, (regs t).Nodup := fun t ht => hT t (List.mem_cons_of_mem _ ht)
    by_cases hP : P = p0
    · subst hP
      have hc' : ¬ BandClean T ps := fun h => hc ⟨rfl, h⟩
      obtain ⟨j, i, hj, hi, h⟩ := ih (k + 1) hT' ps (by simpa using hps) hc'
      refine ⟨j + 1, i, by simpa using hj, hi, fun rnd hall => h rnd fun b c => ?_⟩
      have := hall b c
      simp only [fp, cj_p0, pxor_p0] at this
      rwa [show k + 1 + j = k + (j + 1) by omega]
    · obtain ⟨q, hq⟩ := ne_p0 hP
      obtain ⟨i, hi, Q, a, b', c', hqQ, hB, h1, h2, h3⟩ := block_at g hg t (hT t List.mem_cons_self) q
      refine ⟨0, i, by simp, hi, fun rnd hall => ?_⟩
      have hall' : ∀ b c, (fp g rnd (hsG b) (k + 1) T ps (cj (layB g (setBit rnd k i c k) t) (cj (twoGates g t) P))).2 = fun _ => false := by
        intro b c
        have := hall b c
        simp only [fp, cj_p0, pxor_p0, Nat.add_zero] at this
        rwa [fp_congr g _ rnd _ (k + 1) (fun j hj => setBit_ne rnd k i c j (by omega))] at this
      have heq : cj (layB g (setBit rnd k i true k) t) (cj (twoGates g t) P) = cj (layB g (setBit rnd k i false k) t) (cj (twoGates g t) P) := by
        refine part_ext fun b => ?_
        have := (fp_diff g hg rnd b (k + 1) T hT' ps (by simpa using hps) (cj (layB g (setBit rnd k i true k) t) (cj (twoGates g t) P))
          (cj (layB g (setBit rnd k i false k) t) (cj (twoGates g t) P))).1 (by
            show bxor _ _ = _
            rw [hall' b true, hall' b false, bxor_zero])
        rw [part_pxor] at this
        exact bxor_eq_zero.1 this
      have hA : Agree Q (cj (b' true) (cj c' P)) (cj (b' false) (cj c' P)) := by
        have e : ∀ c, Agree Q (cj (layB g (setBit rnd k i c k) t) (cj (twoGates g t) P)) (cj (b' c) (cj c' P)) := by
          intro c
          have := h3 (setBit rnd k i c k) (cj (twoGates g t) P)
          rw [setBit_self] at this
          exact this.trans (cj_on Q _ (hB.inB _) _ _ (h2 P))
        refine (e true).symm.trans ?_
        rw [heq]
        exact e false
      exact hq (hB.post P hA q hqQ)

/-- An error in front of a two-qubit layer, good measurement: the last error is seen. -/
theorem last_error (g : TwoQ) (hg : g ≠ .other) (k : ℕ) (T : List (List (Fin n × Fin n))) (hT : ∀ t ∈ T, (regs t).Nodup) (ps : List (PP n))
    (hps : ps.length = T.length + 1) (hc : ¬ BandClean T ps) (hl : lastX T ps = fun _ => false) :
    ∃ j i, j < T.length ∧ i < n ∧ ∀ rnd (v : Bool → PP n), ¬ ∀ b c, (fp g (setBit rnd (k + j) i c) (hsG b) k T ps (v b)).2 = fun _ => false := by
  induction T generalizing k ps with
  | nil =>
    exact absurd trivial (by cases ps <;> exact hc)
  | cons t T ih =>
    obtain ⟨P, ps, rfl⟩ : ∃ s S', ps = s :: S' := by
      cases ps with
      | nil => simp at hps
      | cons s S' => exact ⟨s, S', rfl⟩
    have hT' : ∀ t ∈ T, (regs t).Nodup := fun t ht => hT t (List.mem_cons_of_mem _ ht)
    by_cases hP : BandClean T ps
    · have hP0 : P ≠ p0 := fun h => hc ⟨h, hP⟩
      obtain ⟨q, hq⟩ := ne_p0 hP0
      obtain ⟨i, hi, Q, a, b', c', hqQ, hB, h1, h2, h3⟩ := block_at g hg t (hT t List.mem_cons_self) q
      refine ⟨0, i, by simp, hi, fun rnd v hall => ?_⟩
      obtain ⟨u, hu⟩ : ∃ u : Bool → PP n, ∀ c, cj (layA g (setBit rnd k i c k) t) (u c) = P :=
        ⟨fun c => cj (layA g (setBit rnd k i c k) t).reverse P, fun c => cj_reverse _ (fun a ha => (layA_cliff _ _ _ a ha).cliff) P⟩
      have hall' : ∀ b c, part b (u c) = part b (v b) := by
        intro b c
        have h := hall b c
        simp only [fp, Nat.add_zero] at h
        rw [fp_clean g hg _ b (k + 1) T hT' ps (by simpa using hps) hP hl, ← hu c, ← cj_pxor] at h
        have := (lay_part g hg (setBit rnd k i c k) t (hT t List.mem_cons_self) b _).1 h
        rw [part_pxor] at this
        exact bxor_eq_zero.1 this
      have heq : u true = u false := part_ext fun b => (hall' b true).trans (hall' b false).symm
      have e : ∀ c, Agree Q P (cj (a c) (u c)) := by
        intro c
        have := h1 (setBit rnd k i c k) (u c)
        rwa [setBit_self, hu c] at this
      have hA : Agree Q (cj (a true) (u true)) (cj (a false) (u true)) := by
        refine (e true).symm.trans ?_
        rw [heq]
        exact e false
      have h0 := hB.pre _ hA
      have := (e true).trans (cj_on Q _ (hB.inA true) _ _ h0)
      rw [cj_p0] at this
      exact hq (this q hqQ)
    · obtain ⟨j, i, hj, hi, h⟩ := ih (k + 1) hT' ps (by simpa using hps) hP hl
      refine ⟨j + 1, i, by simpa using hj, hi, fun rnd v hall => ?_⟩
      refine h rnd (fun b => cj (layB g (rnd k) t) (cj (twoGates g t) (pxor P (cj (layA g (rnd k) t) (v b))))) fun b c => ?_
      have := hall b c
      simp only [fp] at this
      rw [setBit_ne rnd (k + (j + 1)) i c k (by omega)] at this
      rwa [show k + 1 + j = k + (j + 1) by omega]

end Verif.Accred
