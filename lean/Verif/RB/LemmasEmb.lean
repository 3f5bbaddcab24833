import Verif.RB.LemmasSem
set_option linter.unusedSimpArgs false
set_option linter.unusedVariables false
/-
Embedding a circuit on the qubits 0..n-1 into a larger register, and splitting a circuit into parts on
disjoint sets of qubits.
-/
namespace Verif.RB
open Verif.Quantum

/-- A valid target list: distinct qubits of the register. -/
structure Tgt (N : ℕ) (pat : List ℕ) : Prop where
  nodup : pat.Nodup
  lt : ∀ q ∈ pat, q < N

/-- The injection of the pattern's positions into the register. -/
def Tgt.inj {N : ℕ} {pat : List ℕ} (h : Tgt N pat) (i : Fin pat.length) : Fin N := ⟨pat[i], h.lt _ (List.getElem_mem _)⟩

theorem Tgt.injective {N : ℕ} {pat : List ℕ} (h : Tgt N pat) : Function.Injective h.inj := by
  intro i j hij
  have h1 : pat[i] = pat[j] := Fin.mk.inj hij
  exact Fin.ext ((List.Nodup.getElem_inj_iff h.nodup).1 h1)

/-- Bits `x` on the pattern, `r` elsewhere. -/
noncomputable def glue {N m : ℕ} (f : Fin m → Fin N) (r : Basis (Fin N)) (x : Basis (Fin m)) : Basis (Fin N) :=
  open Classical in fun q => if h : ∃ i, f i = q then x h.choose else r q

theorem glue_at {N m : ℕ} {f : Fin m → Fin N} (hf : Function.Injective f) (r : Basis (Fin N)) (x : Basis (Fin m)) (i : Fin m) :
    glue f r x (f i) = x i := by
  have h : ∃ j, f j = f i := ⟨i, rfl⟩
  unfold glue
  rw [dif_pos h, hf h.choose_spec]

theorem glue_off {N m : ℕ} {f : Fin m → Fin N} (r : Basis (Fin N)) (x : Basis (Fin m)) (q : Fin N) (h : ∀ i, f i ≠ q) :
    glue f r x q = r q := by
  unfold glue
  rw [dif_neg (by push Not; exact h)]

theorem glue_update {N m : ℕ} {f : Fin m → Fin N} (hf : Function.Injective f) (r : Basis (Fin N)) (x : Basis (Fin m)) (i : Fin m) (b : Bool) :
    glue f r (Function.update x i b) = Function.update (glue f r x) (f i) b := by
  funext q
  by_cases h : ∃ j, f j = q
  · obtain ⟨j, rfl⟩ := h
    rw [glue_at hf]
    by_cases hj : j = i
    · subst hj; simp
    · rw [Function.update_of_ne hj, Function.update_of_ne (fun h => hj (hf h)), glue_at hf]
  · push Not at h
    rw [glue_off _ _ _ h, Function.update_of_ne (fun e => h i e.symm), glue_off _ _ _ h]

theorem glue_self {N m : ℕ} {f : Fin m → Fin N} (hf : Function.Injective f) (y : Basis (Fin N)) :
    glue f y (fun i => y (f i)) = y := by
  funext q
  by_cases h : ∃ j, f j = q
  · obtain ⟨j, rfl⟩ := h; rw [glue_at hf]
  · push Not at h; rw [glue_off _ _ _ h]

/-- The state of the pattern's qubits when the others are in the basis state `r`. -/
noncomputable def slice {N m : ℕ} (f : Fin m → Fin N) (r : Basis (Fin N)) (ψ : State (Fin N) ℂ) : State (Fin m) ℂ := fun x => ψ (glue f r x)

theorem slice_app1 {N m : ℕ} {f : Fin m → Fin N} (hf : Function.Injective f) (r : Basis (Fin N)) (u : Mat2 ℂ) (i : Fin m) (ψ : State (Fin N) ℂ) :
    slice f r (app1 u (f i) ψ) = app1 u i (slice f r ψ) := by
  funext x
  simp only [slice, app1, glue_update hf, glue_at hf]

theorem glue_swap {N m : ℕ} {f : Fin m → Fin N} (hf : Function.Injective f) (r : Basis (Fin N)) (x : Basis (Fin m)) (i j : Fin m) :
    (fun q => glue f r x (Equiv.swap (f i) (f j) q)) = glue f r (fun k => x (Equiv.swap i j k)) := by
  funext q
  by_cases h : ∃ k, f k = q
  · obtain ⟨k, rfl⟩ := h
    rw [glue_at hf]
    have : Equiv.swap (f i) (f j) (f k) = f (Equiv.swap i j k) := by
      simp only [Equiv.swap_apply_def, hf.eq_iff]; split_ifs <;> rfl
    rw [this, glue_at hf]
  · push Not at h
    rw [Equiv.swap_apply_of_ne_of_ne (fun e => h i e.symm) (fun e => h j e.symm), glue_off _ _ _ h, glue_off _ _ _ h]

theorem slice_act2 {N m : ℕ} {f : Fin m → Fin N} (hf : Function.Injective f) (r : Basis (Fin N)) (k : Kind) (i j : Fin m) (ψ : State (Fin N) ℂ) :
    slice f r (act2 k (f i) (f j) ψ) = act2 k i j (slice f r ψ) := by
  funext x
  cases k <;> simp only [slice, act2]
  · simp only [appCX, glue_update hf, glue_at hf, slice]
  · simp only [appCZ, glue_at hf, slice]
  · simp only [appSwap, glue_swap hf, slice]

theorem get_of_lt {pat : List ℕ} {q : ℕ} (h : q < pat.length) : pat[q]? = some pat[q] := List.getElem?_eq_getElem h

/-- `replace_q_indices` of one gate: it becomes a gate on the pattern's qubits which acts on every slice
like the original one. -/
theorem replaceIns_spec {N : ℕ} {pat : List ℕ} (ht : Tgt N pat) {i : Ins} (hi : Ok pat.length i) :
    ∃ j, replaceIns pat i = some j ∧ Ok N j ∧ (∀ q ∈ j.qubits, q ∈ pat) ∧ ((∃ k qs, i = .gate k qs) → ∃ k qs, j = .gate k qs) ∧
      ∀ r ψ, slice ht.inj r (act N j ψ) = act pat.length i (slice ht.inj r ψ) := by
  rcases ok_cases hi with ⟨k, q, hq, rfl, hk⟩ | ⟨k, a, b, ha, hb, rfl, hab, hk⟩ | ⟨qs, rfl, hqs⟩
  · have hq' : pat[q] < N := ht.lt _ (List.getElem_mem _)
    refine ⟨.gate k [pat[q]], by simp [replaceIns, get_of_lt hq], ⟨hk, hq'⟩, by simp [Ins.qubits], fun _ => ⟨_, _, rfl⟩, fun r ψ => ?_⟩
    rw [act_one _ _ hq', act_one _ _ hq, ← slice_app1 ht.injective]; rfl
  · have ha' : pat[a] < N := ht.lt _ (List.getElem_mem _)
    have hb' : pat[b] < N := ht.lt _ (List.getElem_mem _)
    refine ⟨.gate k [pat[a], pat[b]], by simp [replaceIns, get_of_lt ha, get_of_lt hb], ⟨hk, ha', hb', ?_⟩, by simp [Ins.qubits], fun _ => ⟨_, _, rfl⟩, fun r ψ => ?_⟩
    · intro h; exact hab ((List.Nodup.getElem_inj_iff ht.nodup).1 h)
    · rw [act_two _ _ _ ha' hb', act_two _ _ _ ha hb, ← slice_act2 ht.injective]; rfl
  · have : ∀ qs : List ℕ, (∀ q ∈ qs, q < pat.length) → ∃ l, qs.mapM (fun x => pat[x]?) = some l ∧ ∀ q ∈ l, q ∈ pat := by
      intro qs
      induction qs with
      | nil => intro _; exact ⟨[], rfl, by simp⟩
      | cons q qs ih =>
        intro h
        obtain ⟨l, h1, h2⟩ := ih fun p hp => h p (by simp [hp])
        refine ⟨pat[q]'(h q (by simp)) :: l, ?_, ?_⟩
        · rw [List.mapM_cons, get_of_lt (h q (by simp)), h1]; rfl
        · intro p hp
          rcases List.mem_cons.1 hp with rfl | hp
          · exact List.getElem_mem _
          · exact h2 p hp
    obtain ⟨l, h1, h2⟩ := this qs hqs
    refine ⟨.barrier l, by simp [replaceIns, h1], fun q hq => ht.lt q (h2 q hq), h2, ?_, fun r ψ => rfl⟩
    rintro ⟨k, qs', h⟩; cases h

theorem replaceQ_spec {N : ℕ} {pat : List ℕ} (ht : Tgt N pat) {c : List Ins} (hc : ∀ i ∈ c, Ok pat.length i) :
    ∃ d, replaceQ c pat = some d ∧ (∀ j ∈ d, Ok N j) ∧ (∀ j ∈ d, ∀ q ∈ j.qubits, q ∈ pat) ∧
      ((∀ i ∈ c, ∃ k qs, i = .gate k qs) → ∀ j ∈ d, ∃ k qs, j = .gate k qs) ∧
      ∀ r ψ, slice ht.inj r (run N d ψ) = run pat.length c (slice ht.inj r ψ) := by
  induction c with
  | nil => exact ⟨[], rfl, by simp, by simp, by simp, fun r ψ => rfl⟩
  | cons i c ih =>
    obtain ⟨d, h1, h2, h3, h4, h5⟩ := ih fun j hj => hc j (by simp [hj])
    obtain ⟨j, k1, k2, k3, k4, k5⟩ := replaceIns_spec ht (hc i (by simp))
    refine ⟨j :: d, ?_, ?_, ?_, ?_, ?_⟩
    · unfold replaceQ at h1 ⊢; rw [List.mapM_cons, k1, h1]; rfl
    · intro l hl
      rcases List.mem_cons.1 hl with rfl | hl
      · exact k2
      · exact h2 l hl
    · intro l hl
      rcases List.mem_cons.1 hl with rfl | hl
      · exact k3
      · exact h3 l hl
    · intro hg l hl
      rcases List.mem_cons.1 hl with rfl | hl
      · exact k4 (hg i (by simp))
      · exact h4 (fun i hi => hg i (by simp [hi])) l hl
    · intro r ψ
      rw [run_cons, run_cons, h5, k5]

/-- Circuits with the same operator have the same operator after embedding. -/
theorem Same.embed {N : ℕ} {pat : List ℕ} (ht : Tgt N pat) {c d c' d' : List Ins} (hc : ∀ i ∈ c, Ok pat.length i)
    (hd : ∀ i ∈ d, Ok pat.length i) (h : Same pat.length c d) (h1 : replaceQ c pat = some c') (h2 : replaceQ d pat = some d') :
    Same N c' d' := by
  obtain ⟨z, hz, h⟩ := h
  obtain ⟨c1, a1, -, -, -, a2⟩ := replaceQ_spec ht hc
  obtain ⟨d1, b1, -, -, -, b2⟩ := replaceQ_spec ht hd
  rw [h1] at a1; cases a1
  rw [h2] at b1; cases b1
  refine ⟨z, hz, fun ψ => ?_⟩
  funext y
  have e1 := congrFun (a2 y ψ) (fun i => y (ht.inj i))
  have e2 := congrFun (b2 y ψ) (fun i => y (ht.inj i))
  rw [h] at e1
  simp only [slice, glue_self ht.injective] at e1 e2
  rw [e1]
  exact congrArg _ e2.symm

theorem replaceQ_append {c d c' d' : List Ins} {pat : List ℕ} (h1 : replaceQ c pat = some c') (h2 : replaceQ d pat = some d') :
    replaceQ (c ++ d) pat = some (c' ++ d') := by
  unfold replaceQ at *
  rw [List.mapM_append, h1, h2]; rfl

/-! ### Splitting -/

/-- Filter for the gates on `pat`. -/
def onPat (pat : List ℕ) : Ins → Bool
  | .gate _ qs => qs.all fun q => decide (q ∈ pat)
  | _ => false

theorem part_eq (pat : List ℕ) (c : List Ins) : part pat c = c.filter (onPat pat) := by
  unfold part
  congr 1

theorem part_append (pat : List ℕ) (c d : List Ins) : part pat (c ++ d) = part pat c ++ part pat d := by
  rw [part_eq, part_eq, part_eq, List.filter_append]

theorem run_comm {n : ℕ} {i : Ins} {c : List Ins} (hi : Ok n i) (hc : ∀ j ∈ c, Ok n j)
    (hd : ∀ j ∈ c, ∀ q ∈ i.qubits, q ∉ j.qubits) (ψ : State (Fin n) ℂ) : run n c (act n i ψ) = act n i (run n c ψ) := by
  induction c generalizing ψ with
  | nil => rfl
  | cons j c ih =>
    rw [run_cons, run_cons, ← act_comm hi (hc j (by simp)) (hd j (by simp)), ih (fun k hk => hc k (by simp [hk])) (fun k hk => hd k (by simp [hk]))]

/-- Gates on `P` first, the others afterwards. -/
theorem run_split {n : ℕ} (P : Ins → Bool) (c : List Ins) (hc : ∀ i ∈ c, Ok n i)
    (hd : ∀ i ∈ c, ∀ j ∈ c, P i = true → P j = false → ∀ q ∈ i.qubits, q ∉ j.qubits) (ψ : State (Fin n) ℂ) :
    run n c ψ = run n (c.filter fun i => !P i) (run n (c.filter P) ψ) := by
  induction c generalizing ψ with
  | nil => rfl
  | cons i c ih =>
    have ih' := ih (fun j hj => hc j (by simp [hj])) (fun j hj k hk => hd j (by simp [hj]) k (by simp [hk]))
    rw [run_cons, ih']
    cases hP : P i
    · have f1 : (i :: c).filter P = c.filter P := List.filter_cons_of_neg (by simp [hP])
      have f2 : (i :: c).filter (fun i => !P i) = i :: c.filter fun i => !P i := List.filter_cons_of_pos (by simp [hP])
      rw [f1, f2, run_cons, run_comm (hc i (by simp))]
      · intro j hj; exact hc j (by simp [(List.mem_filter.1 hj).1])
      · intro j hj q hq hq'
        obtain ⟨h1, h2⟩ := List.mem_filter.1 hj
        exact hd j (by simp [h1]) i (by simp) h2 hP q hq' hq
    · have f1 : (i :: c).filter P = i :: c.filter P := List.filter_cons_of_pos hP
      have f2 : (i :: c).filter (fun i => !P i) = c.filter fun i => !P i := List.filter_cons_of_neg (by simp [hP])
      rw [f1, f2, run_cons]

theorem filter_barrier {n : ℕ} (c : List Ins) (hc : ∀ i ∈ c, Ok n i) (ψ : State (Fin n) ℂ) :
    run n (c.filter fun i => match i with | .gate _ _ => true | _ => false) ψ = run n c ψ := by
  induction c generalizing ψ with
  | nil => rfl
  | cons i c ih =>
    have ih' := ih fun j hj => hc j (by simp [hj])
    rcases ok_cases (hc i (by simp)) with ⟨k, q, hq, rfl, hk⟩ | ⟨k, a, b, ha, hb, rfl, hab, hk⟩ | ⟨qs, rfl, hqs⟩
    · rw [List.filter_cons_of_pos rfl, run_cons, run_cons, ih']
    · rw [List.filter_cons_of_pos rfl, run_cons, run_cons, ih']
    · rw [List.filter_cons_of_neg (by simp), run_cons, ih']; rfl

theorem ok_ne_nil {n : ℕ} {k : Kind} {qs : List ℕ} (h : Ok n (.gate k qs)) : qs ≠ [] := by
  rintro rfl; exact h

/-- If a circuit consists of gates on disjoint sets of qubits, and what it does on every one of the sets is
the identity up to a phase, then so is the circuit. -/
theorem same_of_parts {n : ℕ} (ps : List (List ℕ)) (hps : ps.Pairwise fun p q => ∀ x ∈ p, x ∉ q) (c : List Ins)
    (hc : ∀ i ∈ c, Ok n i) (hg : ∀ k qs, Ins.gate k qs ∈ c → ∃ p ∈ ps, ∀ q ∈ qs, q ∈ p)
    (h : ∀ p ∈ ps, Same n (part p c) []) : Same n c [] := by
  induction ps generalizing c with
  | nil =>
    have : ∀ i ∈ c, ∀ ψ, act n i ψ = ψ := by
      intro i hi ψ
      cases i with
      | gate k qs => obtain ⟨p, hp, -⟩ := hg k qs hi; cases hp
      | barrier qs => rfl
      | measure q x => rfl
    refine Same.of_eq fun ψ => ?_
    rw [run_nil]
    clear hc hg h
    induction c generalizing ψ with
    | nil => rfl
    | cons i c ih => rw [run_cons, this i (by simp), ih fun j hj => this j (by simp [hj])]
  | cons p ps ih =>
    obtain ⟨hp, hps'⟩ := List.pairwise_cons.1 hps
    -- remove the barriers
    let isG : Ins → Bool := fun i => match i with | .gate _ _ => true | _ => false
    let c0 := c.filter isG
    have hc0 : ∀ i ∈ c0, Ok n i := fun i hi => hc i (List.mem_filter.1 hi).1
    have e0 : ∀ ψ, run n c0 ψ = run n c ψ := filter_barrier c hc
    have hpart : ∀ q, part q c0 = part q c := by
      intro q
      rw [part_eq, part_eq, List.filter_filter]
      refine List.filter_congr fun i _ => ?_
      cases i <;> simp [isG, onPat]
    let c1 := c0.filter fun i => !onPat p i
    have hc1 : ∀ i ∈ c1, Ok n i := fun i hi => hc0 i (List.mem_filter.1 hi).1
    have hsplit : ∀ ψ, run n c0 ψ = run n c1 (run n (part p c) ψ) := by
      intro ψ
      rw [← hpart p, part_eq]
      refine run_split (onPat p) c0 hc0 ?_ ψ
      intro i hi j hj hPi hPj x hx hx'
      obtain ⟨hi1, hi2⟩ := List.mem_filter.1 hi
      obtain ⟨hj1, hj2⟩ := List.mem_filter.1 hj
      cases i with
      | gate k qs =>
        cases j with
        | gate l rs =>
          have hx1 : x ∈ p := by simp [onPat] at hPi; exact hPi x hx
          obtain ⟨p', hp', hsub⟩ := hg l rs hj1
          rcases List.mem_cons.1 hp' with rfl | hp'
          · have : onPat p' (.gate l rs) = true := by simp [onPat]; exact hsub
            rw [this] at hPj; cases hPj
          · exact hp p' hp' x hx1 (hsub x hx')
        | barrier _ => simp [isG] at hj2
        | measure _ _ => simp [isG] at hj2
      | barrier _ => simp [isG] at hi2
      | measure _ _ => simp [isG] at hi2
    have hsame : Same n c (part p c ++ c1) := Same.of_eq fun ψ => by rw [run_append, ← hsplit, e0]
    have h1 : Same n c1 [] := by
      refine ih hps' c1 hc1 ?_ ?_
      · intro k qs hk
        obtain ⟨hk1, hk2⟩ := List.mem_filter.1 hk
        obtain ⟨p', hp', hsub⟩ := hg k qs (List.mem_filter.1 hk1).1
        rcases List.mem_cons.1 hp' with rfl | hp'
        · have : onPat p' (.gate k qs) = true := by simp [onPat]; exact hsub
          rw [this] at hk2; cases hk2
        · exact ⟨p', hp', hsub⟩
      · intro p' hp'
        have : part p' c1 = part p' c := by
          rw [← hpart p', part_eq, part_eq, List.filter_filter]
          refine List.filter_congr fun i hi => ?_
          cases i with
          | gate k qs =>
            cases hP : onPat p' (.gate k qs)
            · simp
            · simp only [Bool.true_and]
              obtain ⟨x, hx⟩ := List.exists_mem_of_ne_nil _ (ok_ne_nil (hc0 _ hi))
              have hx1 : x ∈ p' := by simp [onPat] at hP; exact hP x hx
              have : onPat p (.gate k qs) = false := by
                simp only [onPat, List.all_eq_false, decide_eq_true_eq]
                exact ⟨x, hx, fun hxp => hp p' hp' x hxp hx1⟩
              rw [this]; rfl
          | barrier _ => rfl
          | measure _ _ => rfl
        rw [this]; exact h p' (by simp [hp'])
    have h2 := Same.append hc1 (h p (by simp)) h1
    exact hsame.trans h2

end Verif.RB
