import Verif.RB.LemmasNoise
set_option linter.unusedSimpArgs false
set_option linter.unusedVariables false
/-
Depolarising noise on a subset of a register.
-/
namespace Verif.RB
open Verif.Quantum Complex
variable {N : ℕ} {pat : List ℕ}

/-- Probability that the qubits `pat` of a pure state read `x`. -/
noncomputable def mp (pat : List ℕ) (x : Fin pat.length → Bool) (ψ : State (Fin N) ℂ) : ℝ :=
  open Classical in ∑ y with ∀ (q : Fin N) (j : Fin pat.length), q.val = pat[j] → y q = x j, prob ψ y

theorem outcome_eq (x : Fin pat.length → Bool) (e : Ens N) : outcome pat x e = (e.map fun s => s.1 * mp pat x s.2).sum := rfl

theorem cond_iff (ht : Tgt N pat) (x : Fin pat.length → Bool) (y : Basis (Fin N)) :
    (∀ (q : Fin N) (j : Fin pat.length), q.val = pat[j] → y q = x j) ↔ (fun j => y (ht.inj j)) = x := by
  constructor
  · intro h; funext j; exact h _ j rfl
  · rintro rfl q j hq
    congr 1
    exact Fin.ext hq

theorem mp_eq (ht : Tgt N pat) (x : Fin pat.length → Bool) (ψ : State (Fin N) ℂ) :
    mp pat x ψ = ∑ y with (fun j => y (ht.inj j)) = x, prob ψ y := by
  classical
  unfold mp
  refine Finset.sum_congr ?_ fun _ _ => rfl
  ext y
  simp only [Finset.mem_filter, Finset.mem_univ, true_and]
  exact cond_iff ht x y

/-- The assignments that are 0 on the subset: the states of the rest. -/
noncomputable def rest (ht : Tgt N pat) : Finset (Basis (Fin N)) := Finset.univ.filter fun r => (fun j => r (ht.inj j)) = fun _ => false

theorem glue_rest (ht : Tgt N pat) (r : Basis (Fin N)) (x : Basis (Fin pat.length)) : (fun j => glue ht.inj r x (ht.inj j)) = x := by
  funext j; exact glue_at ht.injective r x j

theorem glue_glue (ht : Tgt N pat) (r : Basis (Fin N)) (x y : Basis (Fin pat.length)) : glue ht.inj (glue ht.inj r x) y = glue ht.inj r y := by
  funext q
  by_cases h : ∃ j, ht.inj j = q
  · obtain ⟨j, rfl⟩ := h; rw [glue_at ht.injective, glue_at ht.injective]
  · push Not at h
    rw [glue_off _ _ _ h, glue_off _ _ _ h, glue_off _ _ _ h]

theorem sum_rest (ht : Tgt N pat) (g : Basis (Fin N) → ℝ) : ∑ r ∈ rest ht, ∑ x, g (glue ht.inj r x) = ∑ y, g y := by
  rw [Finset.sum_comm, ← Finset.sum_fiberwise Finset.univ (fun y : Basis (Fin N) => fun j => y (ht.inj j)) g]
  refine Finset.sum_congr rfl fun x _ => ?_
  refine Finset.sum_nbij' (fun r => glue ht.inj r x) (fun y => glue ht.inj y fun _ => false) ?_ ?_ ?_ ?_ ?_
  · intro r hr
    simp only [Finset.mem_filter, Finset.mem_univ, true_and]
    exact glue_rest ht r x
  · intro y hy
    simp only [rest, Finset.mem_filter, Finset.mem_univ, true_and]
    exact glue_rest ht y _
  · intro r hr
    simp only [rest, Finset.mem_filter, Finset.mem_univ, true_and] at hr
    rw [glue_glue, ← hr, glue_self ht.injective]
  · intro y hy
    simp only [Finset.mem_filter, Finset.mem_univ, true_and] at hy
    rw [glue_glue, ← hy, glue_self ht.injective]
  · intro r hr; rfl

theorem mp_slice (ht : Tgt N pat) (x : Fin pat.length → Bool) (ψ : State (Fin N) ℂ) :
    mp pat x ψ = ∑ r ∈ rest ht, prob (slice ht.inj r ψ) x := by
  rw [mp_eq ht, Finset.sum_filter, ← sum_rest ht]
  refine Finset.sum_congr rfl fun r _ => ?_
  simp only [glue_rest ht]
  rw [Finset.sum_ite_eq' Finset.univ x, if_pos (Finset.mem_univ _)]
  rfl

theorem nrm_slice (ht : Tgt N pat) (ψ : State (Fin N) ℂ) : ∑ r ∈ rest ht, nrm (slice ht.inj r ψ) = nrm ψ := by
  unfold nrm
  rw [← sum_rest ht]
  rfl

theorem sgn_glue (ht : Tgt N pat) (a : Basis (Fin pat.length)) (r : Basis (Fin N)) (x : Basis (Fin pat.length)) :
    (sgn (glue ht.inj (fun _ => false) a) (glue ht.inj r x) : ℂ) = sgn a x := by
  unfold sgn
  symm
  refine Fintype.prod_of_injective ht.inj ht.injective _ _ ?_ ?_
  · intro q hq
    rw [glue_off _ _ _ fun i h => hq ⟨i, h⟩]
    simp
  · intro i
    rw [glue_at ht.injective, glue_at ht.injective]

theorem bxor_glue (ht : Tgt N pat) (b : Basis (Fin pat.length)) (r : Basis (Fin N)) (x : Basis (Fin pat.length)) :
    bxor (glue ht.inj r x) (glue ht.inj (fun _ => false) b) = glue ht.inj r (bxor x b) := by
  funext q
  by_cases h : ∃ j, ht.inj j = q
  · obtain ⟨j, rfl⟩ := h
    simp only [bxor, glue_at ht.injective]
  · push Not at h
    simp only [bxor, glue_off _ _ _ h, Bool.xor_false]

theorem slice_pauli (ht : Tgt N pat) (a b : Basis (Fin pat.length)) (r : Basis (Fin N)) (ψ : State (Fin N) ℂ) :
    slice ht.inj r (pauli (glue ht.inj (fun _ => false) a) (glue ht.inj (fun _ => false) b) ψ) = pauli a b (slice ht.inj r ψ) := by
  funext x
  unfold slice pauli
  rw [sgn_glue ht, bxor_glue ht]

theorem sum_paulis (ht : Tgt N pat) (F : Basis (Fin N) × Basis (Fin N) → ℝ) :
    ∑ ab ∈ paulisOn N pat, F ab = ∑ a : Basis (Fin pat.length), ∑ b : Basis (Fin pat.length),
      F (glue ht.inj (fun _ => false) a, glue ht.inj (fun _ => false) b) := by
  classical
  rw [← Finset.sum_product']
  symm
  have off : ∀ q : Fin N, q.val ∉ pat ↔ ∀ i, ht.inj i ≠ q := by
    intro q
    constructor
    · rintro h i rfl
      exact h (List.getElem_mem _)
    · intro h hq
      obtain ⟨i, hi, he⟩ := List.getElem_of_mem hq
      exact h ⟨i, hi⟩ (Fin.ext he)
  refine Finset.sum_nbij' (fun ab => (glue ht.inj (fun _ => false) ab.1, glue ht.inj (fun _ => false) ab.2))
    (fun ab => (fun j => ab.1 (ht.inj j), fun j => ab.2 (ht.inj j))) ?_ ?_ ?_ ?_ ?_
  · intro ab _
    simp only [paulisOn, Finset.mem_filter, Finset.mem_univ, true_and]
    intro q hq
    rw [glue_off _ _ _ ((off q).1 hq), glue_off _ _ _ ((off q).1 hq)]
    exact ⟨rfl, rfl⟩
  · intro ab _; simp
  · intro ab _
    obtain ⟨a, b⟩ := ab
    dsimp only
    rw [glue_rest ht, glue_rest ht]
  · intro ab hab
    simp only [paulisOn, Finset.mem_filter, Finset.mem_univ, true_and] at hab
    have : ∀ a : Basis (Fin N), (∀ q : Fin N, q.val ∉ pat → a q = false) → glue ht.inj (fun _ => false) (fun j => a (ht.inj j)) = a := by
      intro a ha
      funext q
      by_cases h : ∃ j, ht.inj j = q
      · obtain ⟨j, rfl⟩ := h; rw [glue_at ht.injective]
      · push Not at h
        rw [glue_off _ _ _ h, ha q ((off q).2 h)]
    rw [Prod.ext_iff]
    exact ⟨this _ fun q hq => (hab q hq).1, this _ fun q hq => (hab q hq).2⟩
  · intro ab _; rfl

theorem card_paulis (ht : Tgt N pat) : ((paulisOn N pat).card : ℝ) = 4 ^ pat.length := by
  have := sum_paulis ht fun _ => (1 : ℝ)
  rw [Finset.sum_const, nsmul_eq_mul, mul_one] at this
  rw [this]
  simp only [Finset.sum_const, Finset.card_univ, Fintype.card_fun, Fintype.card_bool, Fintype.card_fin, nsmul_eq_mul, mul_one]
  push_cast
  rw [← mul_pow]; norm_num

theorem nrm_pauli {n : ℕ} (a b : Basis (Fin n)) (ψ : State (Fin n) ℂ) : nrm (pauli a b ψ) = nrm ψ := by
  unfold nrm Quantum.prob pauli
  refine Fintype.sum_bijective (fun y => bxor y b) ?_ _ _ fun y => ?_
  · refine Function.Involutive.bijective fun y => ?_
    rw [bxor_assoc, bxor_self, bxor_zero]
  · rw [map_mul]
    rcases sgn_pm (K := ℂ) a y with h | h <;> rw [h] <;> simp

/-- A circuit on the subset: the image of a circuit on its own register. -/
def OnSub (pat : List ℕ) (d : List Ins) : Prop := ∃ c, (∀ i ∈ c, Ok pat.length i) ∧ replaceQ c pat = some d

theorem OnSub.append {d e : List Ins} (hd : OnSub pat d) (he : OnSub pat e) : OnSub pat (d ++ e) := by
  obtain ⟨c, h1, h2⟩ := hd
  obtain ⟨c', h3, h4⟩ := he
  refine ⟨c ++ c', ?_, replaceQ_append h2 h4⟩
  intro i hi
  rcases List.mem_append.1 hi with hi | hi
  · exact h1 i hi
  · exact h3 i hi

theorem OnSub.nil : OnSub pat [] := ⟨[], by simp, rfl⟩

theorem OnSub.flatten {l : List (List Ins)} (h : ∀ d ∈ l, OnSub pat d) : OnSub pat l.flatten := by
  induction l with
  | nil => exact OnSub.nil
  | cons d l ih =>
    rw [List.flatten_cons]
    exact (h d (by simp)).append (ih fun e he => h e (by simp [he]))

theorem OnSub.ok {d : List Ins} (ht : Tgt N pat) (h : OnSub pat d) : ∀ i ∈ d, Ok N i := by
  obtain ⟨c, h1, h2⟩ := h
  obtain ⟨d', h3, h4, -⟩ := replaceQ_spec ht h1
  rw [h2, Option.some.injEq] at h3
  subst h3; exact h4

/-- After a random Pauli operator on the subset and any circuit on the subset all readings of the subset are equally likely. -/
theorem twirl_sub (ht : Tgt N pat) {d : List Ins} (hd : OnSub pat d) (ψ : State (Fin N) ℂ) (x : Fin pat.length → Bool) :
    ∑ ab ∈ paulisOn N pat, mp pat x (run N d (pauli ab.1 ab.2 ψ)) = 2 ^ pat.length * nrm ψ := by
  obtain ⟨c, h1, h2⟩ := hd
  obtain ⟨d', h3, -, -, -, h4⟩ := replaceQ_spec ht h1
  rw [h2, Option.some.injEq] at h3
  subst h3
  rw [sum_paulis ht (fun ab => mp pat x (run N d (pauli ab.1 ab.2 ψ)))]
  simp only [mp_slice ht, h4, slice_pauli ht]
  rw [Finset.sum_congr rfl fun a _ => Finset.sum_comm, Finset.sum_comm]
  simp only [twirl c h1]
  rw [← Finset.mul_sum, nrm_slice ht]

theorem sum_depolarize (p : ℝ) (g : State (Fin N) ℂ → ℝ) (e : Ens N) :
    ((depolarize pat p e).map fun s => s.1 * g s.2).sum =
      (e.map fun s => s.1 * (p * g s.2 + (1 - p) / 4 ^ pat.length * ∑ ab ∈ paulisOn N pat, g (pauli ab.1 ab.2 s.2))).sum := by
  unfold depolarize
  induction e with
  | nil => rfl
  | cons s e ih =>
    rw [List.flatMap_cons, List.map_append, List.sum_append, ih, List.map_cons, List.sum_cons, List.map_cons, List.sum_cons, List.map_map]
    congr 1
    have : (((paulisOn N pat).toList.map ((fun s : ℝ × State (Fin N) ℂ => s.1 * g s.2) ∘ fun ab => ((1 - p) / 4 ^ pat.length * s.1, pauli ab.1 ab.2 s.2)))).sum =
        (1 - p) / 4 ^ pat.length * s.1 * ∑ ab ∈ paulisOn N pat, g (pauli ab.1 ab.2 s.2) := by
      rw [Finset.mul_sum, ← Finset.sum_map_toList]
      rfl
    rw [this]; ring

/-- Circuits of gates on the subset come from circuits on its own register. -/
theorem OnSub.of_gates (ht : Tgt N pat) {d : List Ins} (h : GatesOn N pat d) : OnSub pat d := by
  induction d with
  | nil => exact OnSub.nil
  | cons j d ih =>
    rw [← List.singleton_append]
    refine OnSub.append ?_ (ih fun j hj => h j (by simp [hj]))
    obtain ⟨hok, k, l, rfl, hl⟩ := h j (by simp)
    have idx : ∀ q ∈ pat, ∃ i, ∃ hi : i < pat.length, pat[i] = q := fun q hq => by
      obtain ⟨i, hi, he⟩ := List.getElem_of_mem hq
      exact ⟨i, hi, he⟩
    match l, hok with
    | [q], hok =>
      obtain ⟨i, hi, rfl⟩ := idx q (hl q (by simp))
      refine ⟨[.gate k [i]], ?_, ?_⟩
      · intro j hj; rw [List.mem_singleton.1 hj]; exact ⟨hok.1, hi⟩
      · simp [replaceQ, replaceIns, hi]
    | [a, b], hok =>
      obtain ⟨i, hi, rfl⟩ := idx a (hl a (by simp))
      obtain ⟨i', hi', rfl⟩ := idx b (hl b (by simp))
      refine ⟨[.gate k [i, i']], ?_, ?_⟩
      · intro j hj; rw [List.mem_singleton.1 hj]
        refine ⟨hok.1, hi, hi', ?_⟩
        rintro rfl
        exact hok.2.2.2 rfl
      · simp [replaceQ, replaceIns, hi, hi']

theorem run_comm_run {n : ℕ} {c d : List Ins} (hc : ∀ j ∈ c, Ok n j) (hd : ∀ j ∈ d, Ok n j)
    (h : ∀ i ∈ d, ∀ j ∈ c, ∀ q ∈ i.qubits, q ∉ j.qubits) (ψ : State (Fin n) ℂ) : run n c (run n d ψ) = run n d (run n c ψ) := by
  induction d generalizing ψ with
  | nil => rfl
  | cons i d ih =>
    rw [run_cons, run_cons, ih (fun j hj => hd j (by simp [hj])) (fun i' hi' => h i' (by simp [hi'])),
      run_comm (hd i (by simp)) hc (h i (by simp))]

/-- What happens on other qubits does not change the readings of the subset. -/
theorem mp_off {pat' : List ℕ} (ht : Tgt N pat) (ht' : Tgt N pat') (hdis : ∀ q ∈ pat, q ∉ pat') {d : List Ins} (hd : OnSub pat' d)
    (x : Fin pat.length → Bool) (φ : State (Fin N) ℂ) : mp pat x (run N d φ) = mp pat x φ := by
  obtain ⟨c, h1, h2⟩ := hd
  obtain ⟨d', h3, -, -, -, h4⟩ := replaceQ_spec ht' h1
  rw [h2, Option.some.injEq] at h3
  subst h3
  have hoff : ∀ j i, ht'.inj i ≠ ht.inj j := by
    intro j i he
    have he' : pat'[i] = pat[j] := Fin.mk.inj he
    exact hdis pat[j] (List.getElem_mem _) (he' ▸ List.getElem_mem _)
  have key : ∀ φ : State (Fin N) ℂ, mp pat x φ = ∑ r ∈ rest ht', if (fun j => r (ht.inj j)) = x then nrm (slice ht'.inj r φ) else 0 := by
    intro φ
    rw [mp_eq ht, Finset.sum_filter, ← sum_rest ht']
    refine Finset.sum_congr rfl fun r _ => ?_
    simp only [glue_off _ _ _ (hoff _)]
    split_ifs
    · rfl
    · simp
  rw [key, key]
  refine Finset.sum_congr rfl fun r _ => ?_
  rw [h4, nrm_run c h1]

theorem prob_smul {n : ℕ} (z : ℂ) (hz : normSq z = 1) (φ : State (Fin n) ℂ) (x : Basis (Fin n)) : prob (fun y => z * φ y) x = prob φ x := by
  unfold Quantum.prob
  rw [map_mul, hz, one_mul]

/-- Pauli operators on other qubits do not change the readings of the subset after a circuit on it. -/
theorem mp_pauli_off (ht : Tgt N pat) {d : List Ins} (hd : OnSub pat d) (a b : Basis (Fin N)) (ha : ∀ j, a (ht.inj j) = false)
    (hb : ∀ j, b (ht.inj j) = false) (x : Fin pat.length → Bool) (ψ : State (Fin N) ℂ) :
    mp pat x (run N d (pauli a b ψ)) = mp pat x (run N d ψ) := by
  obtain ⟨c, h1, h2⟩ := hd
  obtain ⟨d', h3, -, -, -, h4⟩ := replaceQ_spec ht h1
  rw [h2, Option.some.injEq] at h3
  subst h3
  have hs : ∀ r, slice ht.inj r (pauli a b ψ) = fun z => sgn a r * slice ht.inj (bxor r b) ψ z := by
    intro r
    funext z
    unfold slice pauli
    have e1 : (sgn a (glue ht.inj r z) : ℂ) = sgn a r := by
      unfold sgn
      refine Finset.prod_congr rfl fun q _ => ?_
      by_cases h : ∃ j, ht.inj j = q
      · obtain ⟨j, rfl⟩ := h; rw [ha]; simp
      · push Not at h; rw [glue_off _ _ _ h]
    have e2 : bxor (glue ht.inj r z) b = glue ht.inj (bxor r b) z := by
      funext q
      by_cases h : ∃ j, ht.inj j = q
      · obtain ⟨j, rfl⟩ := h; simp only [bxor, glue_at ht.injective, hb, Bool.xor_false]
      · push Not at h; simp only [bxor, glue_off _ _ _ h]
    rw [e1, e2]
  rw [mp_slice ht, mp_slice ht]
  simp only [h4, hs]
  have hn : ∀ r, normSq (sgn a r : ℂ) = 1 := fun r => by rcases sgn_pm (K := ℂ) a r with h | h <;> rw [h] <;> simp
  simp only [run_smul c h1, prob_smul _ (hn _)]
  have hinv : ∀ r : Basis (Fin N), bxor (bxor r b) b = r := fun r => by rw [bxor_assoc, bxor_self, bxor_zero]
  have hrest : ∀ r ∈ rest ht, bxor r b ∈ rest ht := by
    intro r hr
    simp only [rest, Finset.mem_filter, Finset.mem_univ, true_and] at hr ⊢
    rw [← hr]
    funext j
    simp only [bxor, hb, Bool.xor_false]
  refine Finset.sum_nbij' (fun r => bxor r b) (fun r => bxor r b) hrest hrest (fun r _ => hinv r) (fun r _ => hinv r) fun r _ => rfl

/-- Depolarising noise between circuits on a subset: the readings of the noiseless circuits, mixed with the uniform distribution. -/
theorem noisy_outcome {pats : List (List ℕ)} (htp : ∀ p ∈ pats, Tgt N p) (ht : Tgt N pat) (hdis : ∀ p ∈ pats, p ≠ pat → ∀ q ∈ pat, q ∉ p)
    (x : Fin pat.length → Bool) (evs : List Event) (l : List (List Ins × ℝ)) (hl : ∀ cp ∈ l, OnSub pat cp.1) (h : Runs N pats pat l evs) (e : Ens N) :
    outcome pat x (noisy evs e) = (e.map fun s => s.1 *
      ((l.map (·.2)).prod * mp pat x (run N (l.map (·.1)).flatten s.2) + (1 - (l.map (·.2)).prod) / 2 ^ pat.length * nrm s.2)).sum := by
  induction evs generalizing e l with
  | nil =>
    obtain ⟨rfl, -⟩ := h
    simp [noisy, outcome_eq, run_nil]
  | cons ev evs ih =>
    obtain ⟨h1, h2⟩ := h
    by_cases hev : ev.1 = pat
    · rw [List.filter_cons_of_pos (by simpa using hev), List.map_cons] at h1
      subst h1
      set l := (evs.filter fun ev => ev.1 = pat).map (·.2) with hl'
      obtain ⟨qs, c, p⟩ := ev
      dsimp only at hev
      subst hev
      have hon : OnSub qs (l.map (·.1)).flatten := OnSub.flatten fun d hd => by
        obtain ⟨cp', h1, rfl⟩ := List.mem_map.1 hd
        exact hl cp' (by simp [h1])
      have hcp := (hl (c, p) (by simp)).ok ht
      rw [noisy, ih l (fun cp' h => hl cp' (by simp [h])) ⟨hl'.symm, fun ev' h' => h2 ev' (by simp [h'])⟩]
      dsimp only
      rw [sum_depolarize p (fun ψ => (l.map (·.2)).prod * mp qs x (run N (l.map (·.1)).flatten ψ) + (1 - (l.map (·.2)).prod) / 2 ^ qs.length * nrm ψ)]
      rw [List.map_map]
      congr 1
      refine List.map_congr_left fun s _ => ?_
      simp only [Function.comp]
      rw [Finset.sum_add_distrib, ← Finset.mul_sum, twirl_sub ht hon]
      simp only [nrm_pauli, nrm_run _ hcp]
      rw [Finset.sum_const, nsmul_eq_mul, card_paulis ht, List.map_cons, List.prod_cons, List.map_cons, List.flatten_cons, run_append]
      have h4 : (4 : ℝ) ^ qs.length = 2 ^ qs.length * 2 ^ qs.length := by rw [← mul_pow]; norm_num
      have h2 : (2 : ℝ) ^ qs.length ≠ 0 := by positivity
      rw [h4]
      field_simp
      ring
    · rw [List.filter_cons_of_neg (by simpa using hev)] at h1
      obtain ⟨hp, hg⟩ := h2 ev (by simp) hev
      have ht' := htp _ hp
      have hd := hdis _ hp hev
      have hon' := OnSub.of_gates ht' hg
      have hok' := hon'.ok ht'
      have hon : OnSub pat (l.map (·.1)).flatten := OnSub.flatten fun d hd => by
        obtain ⟨cp', h1, rfl⟩ := List.mem_map.1 hd
        exact hl cp' h1
      have hq : ∀ j ∈ (l.map (·.1)).flatten, ∀ q ∈ j.qubits, q ∈ pat := by
        obtain ⟨c, h1, h2⟩ := hon
        obtain ⟨d', h3, -, h5, -⟩ := replaceQ_spec ht h1
        rw [h2, Option.some.injEq] at h3
        subst h3; exact h5
      have hcomm : ∀ ψ : State (Fin N) ℂ, run N (l.map (·.1)).flatten (run N ev.2.1 ψ) = run N ev.2.1 (run N (l.map (·.1)).flatten ψ) :=
        run_comm_run (hon.ok ht) hok' fun i hi j hj q hqi hqj => by
          obtain ⟨-, k, m, rfl, hm⟩ := hg i hi
          exact hd q (hq j hj q hqj) (hm q hqi)
      rw [noisy, ih l hl ⟨h1, fun ev' h' => h2 ev' (by simp [h'])⟩]
      rw [sum_depolarize ev.2.2 (fun ψ => (l.map (·.2)).prod * mp pat x (run N (l.map (·.1)).flatten ψ) + (1 - (l.map (·.2)).prod) / 2 ^ pat.length * nrm ψ)]
      rw [List.map_map]
      congr 1
      refine List.map_congr_left fun s _ => ?_
      simp only [Function.comp]
      have hsum : ∑ ab ∈ paulisOn N ev.1, ((l.map (·.2)).prod * mp pat x (run N (l.map (·.1)).flatten (pauli ab.1 ab.2 (run N ev.2.1 s.2))) +
          (1 - (l.map (·.2)).prod) / 2 ^ pat.length * nrm (pauli ab.1 ab.2 (run N ev.2.1 s.2))) =
          ∑ ab ∈ paulisOn N ev.1, ((l.map (·.2)).prod * mp pat x (run N (l.map (·.1)).flatten s.2) + (1 - (l.map (·.2)).prod) / 2 ^ pat.length * nrm s.2) := by
        refine Finset.sum_congr rfl fun ab hab => ?_
        simp only [paulisOn, Finset.mem_filter, Finset.mem_univ, true_and] at hab
        have hz : ∀ j, (ht.inj j).val ∉ ev.1 := fun j => hd _ (List.getElem_mem _)
        rw [nrm_pauli, nrm_run _ hok', mp_pauli_off ht hon _ _ (fun j => (hab _ (hz j)).1) (fun j => (hab _ (hz j)).2), hcomm, mp_off ht ht' hd hon']
      rw [hsum, hcomm, mp_off ht ht' hd hon', nrm_run _ hok', Finset.sum_const, nsmul_eq_mul, card_paulis ht']
      have h4 : (4 : ℝ) ^ ev.1.length ≠ 0 := by positivity
      field_simp
      ring

end Verif.RB
