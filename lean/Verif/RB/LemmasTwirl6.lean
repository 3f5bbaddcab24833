import Verif.RB.LemmasTwirl5
set_option linter.unusedSimpArgs false
set_option linter.unusedVariables false
/-
The Clifford group and the CNOT-dihedral group as groups of operations, and the twirls over them.
-/
namespace Verif.RB
open Verif.Quantum Matrix
variable {E : Type} {G : Group E} {Mem : ℕ → E → Prop} {N n : ℕ} {pat : List ℕ} {els : Finset E}

/-! ### Groups of circuits -/

theorem cancel_left {c c' t : List Ins} (hc : ∀ i ∈ c, Ok n i) (hc' : ∀ i ∈ c', Ok n i) (ht : ∀ i ∈ t, Ok n i) (h : Same n (c ++ t) (c' ++ t)) : Same n c c' := by
  obtain ⟨z, hz, h⟩ := opMat_same h
  refine same_opMat hc hc' hz ?_
  rw [opMat_append hc ht, opMat_append hc' ht] at h
  have := congrArg (fun M => (opMat n t)ᴴ * M) h
  simpa only [← Matrix.mul_assoc, Matrix.mul_smul, opMat_unitary ht, Matrix.one_mul] using this

theorem cancel_right {c c' t : List Ins} (hc : ∀ i ∈ c, Ok n i) (hc' : ∀ i ∈ c', Ok n i) (ht : ∀ i ∈ t, Ok n i) (h : Same n (t ++ c) (t ++ c')) : Same n c c' := by
  obtain ⟨z, hz, h⟩ := opMat_same h
  refine same_opMat hc hc' hz ?_
  rw [opMat_append ht hc, opMat_append ht hc'] at h
  have := congrArg (fun M => M * (opMat n t)ᴴ) h
  simpa only [Matrix.mul_assoc, Matrix.smul_mul, opMat_unitary' ht, Matrix.mul_one] using this

/-- A finite set of elements that is closed under products and has no element twice is a group of operations. -/
theorem closed_of (hne : els.Nonempty) (hok : ∀ e ∈ els, ∃ c, G.toCircuit e = some c ∧ ∀ i ∈ c, Ok n i)
    (hmul : ∀ a ∈ els, ∀ b ∈ els, ∃ r ∈ els, ∀ ca cb cr, G.toCircuit a = some ca → G.toCircuit b = some cb → G.toCircuit r = some cr → Same n cr (ca ++ cb))
    (hdis : ∀ e ∈ els, ∀ e' ∈ els, ∀ c c', G.toCircuit e = some c → G.toCircuit e' = some c' → Same n c c' → e = e') : Closed els (uOf G n) := by
  have hu : ∀ a ∈ els, ∀ b ∈ els, ∀ r ∈ els, (∀ ca cb cr, G.toCircuit a = some ca → G.toCircuit b = some cb → G.toCircuit r = some cr → Same n cr (ca ++ cb)) →
      uOf G n r = uOf G n b * uOf G n a := by
    intro a ha b hb r hr h
    obtain ⟨ca, a1, a2⟩ := hok a ha
    obtain ⟨cb, b1, b2⟩ := hok b hb
    obtain ⟨cr, r1, r2⟩ := hok r hr
    rw [uOf_eq a1 a2, uOf_eq b1 b2, uOf_eq r1 r2, ← adU_append a2 b2 (ok_append a2 b2)]
    exact adU_same _ _ (h _ _ _ a1 b1 r1)
  classical
  refine ⟨hne, fun t ht => ?_, fun t ht => ?_⟩
  · have hc : ∀ e, ∃ r, e ∈ els → r ∈ els ∧ ∀ ca cb cr, G.toCircuit t = some ca → G.toCircuit e = some cb → G.toCircuit r = some cr → Same n cr (ca ++ cb) := by
      intro e
      by_cases he : e ∈ els
      · obtain ⟨r, h1, h2⟩ := hmul t ht e he; exact ⟨r, fun _ => ⟨h1, h2⟩⟩
      · exact ⟨e, fun h => absurd h he⟩
    choose σ hσ using hc
    refine ⟨σ, fun e he => (hσ e he).1, ?_, fun e he => hu t ht e he _ (hσ e he).1 (hσ e he).2⟩
    intro e he e' he' h
    have h : σ e = σ e' := h
    obtain ⟨ct, t1, t2⟩ := hok t ht
    obtain ⟨ce, a1, a2⟩ := hok e he
    obtain ⟨ce', b1, b2⟩ := hok e' he'
    obtain ⟨cr, r1, r2⟩ := hok _ (hσ e he).1
    have h1 := (hσ e he).2 _ _ _ t1 a1 r1
    have h2 := (hσ e' he').2 _ _ _ t1 b1 (h ▸ r1)
    exact hdis e he e' he' _ _ a1 b1 (cancel_right a2 b2 t2 (h1.symm.trans h2))
  · have hc : ∀ e, ∃ r, e ∈ els → r ∈ els ∧ ∀ ca cb cr, G.toCircuit e = some ca → G.toCircuit t = some cb → G.toCircuit r = some cr → Same n cr (ca ++ cb) := by
      intro e
      by_cases he : e ∈ els
      · obtain ⟨r, h1, h2⟩ := hmul e he t ht; exact ⟨r, fun _ => ⟨h1, h2⟩⟩
      · exact ⟨e, fun h => absurd h he⟩
    choose σ hσ using hc
    refine ⟨σ, fun e he => (hσ e he).1, ?_, fun e he => hu e he t ht _ (hσ e he).1 (hσ e he).2⟩
    intro e he e' he' h
    have h : σ e = σ e' := h
    obtain ⟨ct, t1, t2⟩ := hok t ht
    obtain ⟨ce, a1, a2⟩ := hok e he
    obtain ⟨ce', b1, b2⟩ := hok e' he'
    obtain ⟨cr, r1, r2⟩ := hok _ (hσ e he).1
    have h1 := (hσ e he).2 _ _ _ a1 t1 r1
    have h2 := (hσ e' he').2 _ _ _ b1 t1 (h ▸ r1)
    exact hdis e he e' he' _ _ a1 b1 (cancel_left a2 b2 t2 (h1.symm.trans h2))

/-- An operation that commutes with the operation of an element commutes with every circuit of the element. -/
theorem comm_of (hcl : Closed els (uOf G n)) (Λ : Sup n) {e : E} (he : e ∈ els) {c d : List Ins} (hc : G.toCircuit e = some c) (hok : ∀ i ∈ c, Ok n i) (h : Same n c d) :
    Comm (tw els (uOf G n) Λ) d := by
  refine Comm.same ?_ h
  have := tw_comm hcl Λ he
  rw [uOf_eq hc hok] at this
  exact this

theorem tw_trace (hne : els.Nonempty) (hok : ∀ e ∈ els, ∃ c, G.toCircuit e = some c ∧ ∀ i ∈ c, Ok n i) {Ks : List (Op n)} (hK : IsChannel Ks) (ρ : Op n) :
    (tw els (uOf G n) (chan Ks) ρ).trace = ρ.trace := by
  refine trace_tw hne (fun e he σ => ?_) (trace_Ad_sum hK) ρ
  obtain ⟨c, c1, c2⟩ := hok e he
  rw [uOf_eq c1 c2]
  exact trace_Ad (opMat_unitary c2) σ

/-! ### The Clifford group -/

theorem HSC.append {c d : List Ins} (hc : HSC n c) (hd : HSC n d) : HSC n (c ++ d) := fun i hi => (List.mem_append.1 hi).elim (hc i) (hd i)

theorem HSC.ok {c : List Ins} (hc : HSC n c) : ∀ i ∈ c, Ok n i := fun i hi => (hc i hi).1

theorem cliff_closed (hC : IsClifford G n els) (hok : ∀ e ∈ els, ∃ c, G.toCircuit e = some c ∧ ∀ i ∈ c, Ok n i) : Closed els (uOf G n) := by
  refine closed_of ?_ hok ?_ hC.distinct
  · obtain ⟨e, he, -⟩ := hC.complete [] (by simp [HSC])
    exact ⟨e, he⟩
  · intro a ha b hb
    obtain ⟨ca, a1, a2⟩ := hok a ha
    obtain ⟨cb, b1, b2⟩ := hok b hb
    obtain ⟨da, a3, a4⟩ := hC.sound a ha ca a1
    obtain ⟨db, b3, b4⟩ := hC.sound b hb cb b1
    obtain ⟨r, r1, r2⟩ := hC.complete _ (a3.append b3)
    refine ⟨r, r1, fun ca' cb' cr h1 h2 h3 => ?_⟩
    rw [a1] at h1; cases h1
    rw [b1] at h2; cases h2
    exact (r2 cr h3).trans (Same.append b3.ok a4.symm b4.symm)

theorem cliff_twirl (hn : 0 < n) (hC : IsClifford G n els) (hok : ∀ e ∈ els, ∃ c, G.toCircuit e = some c ∧ ∀ i ∈ c, Ok n i) {Ks : List (Op n)} (hK : IsChannel Ks) :
    tw els (uOf G n) (chan Ks) = (decay Ks : ℂ) • 1 + (1 - (decay Ks : ℂ)) • Dep n := by
  have hcl := cliff_closed hC hok
  have key : ∀ d, HSC n d → Comm (tw els (uOf G n) (chan Ks)) d := by
    intro d hd
    obtain ⟨e, he, h⟩ := hC.complete d hd
    obtain ⟨c, c1, c2⟩ := hok e he
    exact comm_of hcl _ he c1 c2 (h c c1)
  obtain ⟨f, hf⟩ := form_clifford (T := tw els (uOf G n) (chan Ks)) hn (tw_trace hcl.pos hok hK)
    (fun q => key _ fun i hi => by rw [List.mem_singleton.1 hi]; exact ⟨⟨rfl, q.2⟩, Or.inl ⟨_, rfl⟩⟩)
    (fun q => key _ fun i hi => by rw [List.mem_singleton.1 hi]; exact ⟨⟨rfl, q.2⟩, Or.inr (Or.inl ⟨_, rfl⟩)⟩)
    (fun i j hij => key _ fun k hk => by
      rw [List.mem_singleton.1 hk]; exact ⟨⟨rfl, i.2, j.2, fun h => hij (Fin.ext h)⟩, Or.inr (Or.inr ⟨_, _, rfl⟩)⟩)
  have ht := strace_tw hcl.pos (uOf G n) (chan Ks) 1 (fun e _ => by rw [one_mul, mul_one])
  rw [one_mul, one_mul, hf, map_add, map_smul, map_smul, strace_one, strace_Dep, strace_chan] at ht
  have hd : (1 : ℝ) < (2 ^ n) ^ 2 := by
    have : (1 : ℝ) < 2 ^ n := one_lt_pow₀ (by norm_num) (by omega)
    nlinarith
  have hd' : (((2 : ℂ) ^ n) ^ 2 - 1) ≠ 0 := by
    have : (((2 ^ n) ^ 2 - 1 : ℝ) : ℂ) ≠ 0 := by
      rw [Ne, Complex.ofReal_eq_zero]; linarith
    push_cast at this; exact this
  have : f = (decay Ks : ℂ) := by
    unfold decay
    push_cast at ht ⊢
    rw [eq_div_iff hd']
    rw [smul_eq_mul, smul_eq_mul] at ht
    linear_combination ht
  rw [hf, this]

/-! ### The CNOT-dihedral group -/

theorem same_of_img {e : Dihedral.Elem n} {c d : List Ins} (hc : ∀ i ∈ c, Ok n i) (hd : ∀ i ∈ d, Ok n i) {z w : ℂ} (hz : ‖z‖ = 1) (hw : ‖w‖ = 1)
    (h1 : ∀ x : Basis (Fin n), run n c (ket x) = fun y => z * Dihedral.img e x y) (h2 : ∀ x : Basis (Fin n), run n d (ket x) = fun y => w * Dihedral.img e x y) :
    Same n c d := by
  have hw0 : w ≠ 0 := fun h => by rw [h, norm_zero] at hw; exact zero_ne_one hw
  refine same_of_kets (z := z * w⁻¹) hc hd (by rw [norm_mul, norm_inv, hz, hw]; norm_num) fun b => ?_
  rw [h1, h2]
  funext y
  field_simp

theorem dih_ok {e : Σ n, Dihedral.Elem n} (he : DihMem n e) : ∃ c, (dihGroup Dihedral.cpySetOrder).toCircuit e = some c ∧ ∀ i ∈ c, Ok n i := dih_lawful.ok he

theorem dih_closed {els : Finset (Σ n, Dihedral.Elem n)} (hn : 0 < n) (h8 : n ≤ 8) (h : ∀ e, e ∈ els ↔ DihMem n e) :
    Closed els (uOf (dihGroup Dihedral.cpySetOrder) n) := by
  refine closed_of ⟨⟨n, Dihedral.Elem.one n⟩, (h _).2 ⟨hn, h8, _, rfl, Dihedral.valid_one n⟩⟩ (fun e he => dih_ok ((h e).1 he)) ?_ ?_
  · intro a ha b hb
    obtain ⟨r, -, r1, r2⟩ := dih_lawful.compose n a b ((h a).1 ha) ((h b).1 hb)
    exact ⟨r, (h r).2 r1, r2⟩
  · intro a ha b hb ca cb h1 h2 hs
    obtain ⟨-, -, a, rfl, va⟩ := (h a).1 ha
    obtain ⟨-, -, b, rfl, vb⟩ := (h b).1 hb
    obtain ⟨c, z, c1, c2, c3, c4⟩ := dih_circuit hn va
    rw [h1] at c1; cases c1
    obtain ⟨d, w, d1, d2, d3, d4⟩ := dih_circuit hn vb
    rw [h2] at d1; cases d1
    obtain ⟨v, hv, hs⟩ := hs
    rw [Dihedral.eq_of_sameOp va vb ⟨v * w * z⁻¹, by rw [norm_mul, norm_mul, norm_inv, hv, c3, d3]; norm_num, fun x => ?_⟩]
    have hz0 : z ≠ 0 := fun h => by rw [h, norm_zero] at c3; exact zero_ne_one c3
    have := hs (ket x)
    rw [c4, d4] at this
    funext y
    have := congrFun this y
    field_simp
    linear_combination this

/-- The twirl over the CNOT-dihedral group commutes with the gates x, z, s, cx and cz. -/
theorem dih_comm {els : Finset (Σ n, Dihedral.Elem n)} (hn : 0 < n) (h8 : n ≤ 8) (h : ∀ e, e ∈ els ↔ DihMem n e) (Λ : Sup n) {c : List Dihedral.Gate}
    (hc : ∀ g ∈ c, Dihedral.GateOk n g) : Comm (tw els (uOf (dihGroup Dihedral.cpySetOrder) n) Λ) (c.map ofGate) := by
  obtain ⟨r, r1, r2, -⟩ := Dihedral.C37_circuit c hc
  obtain ⟨-, w, hw, hx⟩ := Dihedral.circuit_img hc r1
  obtain ⟨d, z, d1, d2, d3, d4⟩ := dih_circuit hn r2
  have hcok : ∀ i ∈ c.map ofGate, Ok n i := by
    intro i hi
    obtain ⟨g, hg, rfl⟩ := List.mem_map.1 hi
    exact (ofGate_ok (hc g hg)).1
  refine comm_of (dih_closed hn h8 h) Λ (e := ⟨n, r⟩) ((h _).2 ⟨hn, h8, r, rfl, r2⟩) d1 (fun i hi => (d2 i hi).1)
    (same_of_img (fun i hi => (d2 i hi).1) hcok d3 hw d4 fun x => ?_)
  have := hx x
  rw [ofGate_run hc] at this
  exact Option.some.inj this

theorem t2_s : Kind.mat (.t 2) = Kind.mat .s := by
  funext r c
  show (if r = c then (if r then Dihedral.ω ^ (2 : ℤ) else 1) else 0) = if r = c then (if r then Complex.I else 1) else 0
  have : Dihedral.ω ^ (2 : ℤ) = Complex.I := by
    unfold Dihedral.ω
    rw [← Complex.exp_int_mul]
    rw [show ((2 : ℤ) : ℂ) * (Real.pi * Complex.I / 4) = (Real.pi / 2) * Complex.I by push_cast; ring, Complex.exp_pi_div_two_mul_I]
  rw [this]

/-- A matrix with one entry in each column: the elements of the CNOT-dihedral group. -/
theorem Dg_monomial {U : Op n} (hU : Uᴴ * U = 1) {π : Basis (Fin n) → Basis (Fin n)} (h : ∀ x y, y ≠ π x → U y x = 0) : Dg n * Ad U = Ad U * Dg n := by
  have hinj : ∀ x x', π x = π x' → x = x' := by
    intro x x' hx
    by_contra hne
    have e1 : ∀ x, star (U (π x) x) * U (π x) x = 1 := by
      intro x
      have := congrFun (congrFun hU x) x
      rw [Matrix.mul_apply, Matrix.one_apply_eq, Finset.sum_eq_single (π x)] at this
      · exact this
      · intro y _ hy; rw [h x y hy, mul_zero]
      · intro hx; exact absurd (Finset.mem_univ _) hx
    have := congrFun (congrFun hU x) x'
    rw [Matrix.mul_apply, Matrix.one_apply_ne hne, Finset.sum_eq_single (π x)] at this
    · rw [Matrix.conjTranspose_apply, mul_eq_zero, star_eq_zero] at this
      rcases this with this | this
      · have h1 := e1 x
        rw [this] at h1; simp at h1
      · have h1 := e1 x'
        rw [← hx, this] at h1; simp at h1
    · intro y _ hy; rw [Matrix.conjTranspose_apply, h x y hy, star_zero, zero_mul]
    · intro hx; exact absurd (Finset.mem_univ _) hx
  refine LinearMap.ext fun ρ => ?_
  ext y y'
  rw [Module.End.mul_apply, Module.End.mul_apply, Ad_apply, Ad_apply]
  show Matrix.diagonal (U * ρ * Uᴴ).diag y y' = (U * Matrix.diagonal ρ.diag * Uᴴ) y y'
  rw [Matrix.diagonal_apply, Matrix.mul_apply]
  simp only [Matrix.mul_diagonal, Matrix.conjTranspose_apply, Matrix.diag_apply]
  split_ifs with hy
  · subst hy
    rw [Matrix.mul_apply]
    refine Finset.sum_congr rfl fun x _ => ?_
    rw [Matrix.conjTranspose_apply, Matrix.mul_apply]
    by_cases hx : y = π x
    · rw [Finset.sum_eq_single x]
      · intro x' _ hne
        rw [h x' y (fun h' => hne (hinj _ _ (h'.symm.trans hx))), zero_mul]
      · intro hx; exact absurd (Finset.mem_univ _) hx
    · rw [h x y hx, star_zero, mul_zero, mul_zero]
  · symm
    refine Finset.sum_eq_zero fun x _ => ?_
    by_cases hx : y = π x
    · rw [h x y' (fun h' => hy (hx.trans h'.symm)), star_zero, mul_zero]
    · rw [h x y hx, zero_mul, zero_mul]

theorem dih_Dg {e : Σ n, Dihedral.Elem n} (he : DihMem n e) :
    Dg n * (uOf (dihGroup Dihedral.cpySetOrder) n e : Sup n) = (uOf (dihGroup Dihedral.cpySetOrder) n e : Sup n) * Dg n := by
  obtain ⟨hn, -, e, rfl, hv⟩ := he
  obtain ⟨c, z, c1, c2, c3, c4⟩ := dih_circuit hn hv
  have hc : ∀ i ∈ c, Ok n i := fun i hi => (c2 i hi).1
  rw [uOf_eq c1 hc]
  refine Dg_monomial (π := Dihedral.aff e) (opMat_unitary hc) fun x y hy => ?_
  show run n c (ket x) y = 0
  rw [c4]
  show z * (_ * ket (Dihedral.aff e x) y) = 0
  rw [show (ket (Dihedral.aff e x) y : ℂ) = 0 from if_neg hy, mul_zero, mul_zero]

theorem strace_Dg_Ad (K : Op n) : LinearMap.trace ℂ (Op n) (Dg n * Ad K) = ((∑ y, Complex.normSq (K y y) : ℝ) : ℂ) := by
  rw [strace]
  have : ∀ y x : Basis (Fin n), (Dg n * Ad K) (Matrix.single y x 1) y x = if y = x then ((Complex.normSq (K y y) : ℝ) : ℂ) else 0 := by
    intro y x
    show Matrix.diagonal (K * Matrix.single y x 1 * Kᴴ).diag y x = _
    rw [Matrix.diagonal_apply]
    split_ifs with h
    · subst h
      rw [Matrix.diag_apply, Matrix.mul_apply, Finset.sum_eq_single y]
      · rw [Matrix.mul_single_apply_same, Matrix.conjTranspose_apply, mul_one, Complex.normSq_eq_conj_mul_self, mul_comm]; rfl
      · intro x _ hx
        rw [Matrix.mul_single_apply_of_ne _ _ _ _ _ hx, zero_mul]
      · intro hx; exact absurd (Finset.mem_univ _) hx
    · rfl
  simp only [this, Finset.sum_ite_eq, Finset.mem_univ, if_true]
  push_cast
  rfl

theorem strace_Dg_chan (Ks : List (Op n)) : LinearMap.trace ℂ (Op n) (Dg n * chan Ks) = ((population Ks * 2 ^ n : ℝ) : ℂ) := by
  unfold population
  rw [div_mul_cancel₀ _ (by positivity)]
  unfold chan
  induction Ks with
  | nil => simp
  | cons K Ks ih => rw [List.map_cons, List.sum_cons, mul_add, map_add, ih, strace_Dg_Ad, List.map_cons, List.sum_cons]; push_cast; rfl

theorem dih_twirl {els : Finset (Σ n, Dihedral.Elem n)} (hn : 0 < n) (h8 : n ≤ 8) (h : ∀ e, e ∈ els ↔ DihMem n e) {Ks : List (Op n)} (hK : IsChannel Ks) :
    tw els (uOf (dihGroup Dihedral.cpySetOrder) n) (chan Ks) = (decayR Ks : ℂ) • 1 + ((decayZ Ks : ℂ) - (decayR Ks : ℂ)) • Dg n + (1 - (decayZ Ks : ℂ)) • Dep n := by
  have hcl := dih_closed hn h8 h
  have key := fun (c : List Dihedral.Gate) => dih_comm (c := c) hn h8 h (chan Ks)
  have one : ∀ (g : Dihedral.Gate), Dihedral.GateOk n g → Comm (tw els (uOf (dihGroup Dihedral.cpySetOrder) n) (chan Ks)) [ofGate g] := fun g hg =>
    key [g] (by simpa using hg)
  obtain ⟨z, r, hT, -⟩ := form_dih (T := tw els (uOf (dihGroup Dihedral.cpySetOrder) n) (chan Ks)) hn (tw_trace hcl.pos (fun e he => dih_ok ((h e).1 he)) hK)
    (fun q => one (.x q) q.2) (fun q => one (.z q) q.2)
    (fun q => (one (.u1 2 q) q.2).same (Same.of_eq fun ψ => by
      show act n (.gate (.t 2) [q.val]) ψ = act n (.gate .s [q.val]) ψ
      rw [act_one _ _ q.2, act_one _ _ q.2, t2_s]))
    (fun i j hij => one (.cx i j) ⟨⟨i.2, j.2⟩, fun h => hij (Fin.ext h)⟩)
    (fun i j hij => one (.cz i j) ⟨⟨i.2, j.2⟩, fun h => hij (Fin.ext h)⟩)
  have h1 := strace_tw hcl.pos (uOf (dihGroup Dihedral.cpySetOrder) n) (chan Ks) 1 (fun e _ => by rw [one_mul, mul_one])
  have h2 := strace_tw hcl.pos (uOf (dihGroup Dihedral.cpySetOrder) n) (chan Ks) (Dg n) (fun e he => dih_Dg ((h e).1 he))
  rw [one_mul, one_mul, hT, map_add, map_add, map_smul, map_smul, map_smul, strace_one, strace_Dep, strace_Dg, strace_chan] at h1
  rw [hT, mul_add, mul_add, mul_smul_comm, mul_smul_comm, mul_smul_comm, mul_one, Dg_Dg, Dg_Dep, map_add, map_add, map_smul, map_smul, map_smul, strace_Dep, strace_Dg,
    strace_Dg_chan] at h2
  simp only [smul_eq_mul] at h1 h2
  have hd : (1 : ℝ) < 2 ^ n := one_lt_pow₀ (by norm_num) (by omega)
  have hd1 : ((2 : ℂ) ^ n - 1) ≠ 0 := by
    have : ((2 ^ n - 1 : ℝ) : ℂ) ≠ 0 := by
      rw [Ne, Complex.ofReal_eq_zero]; linarith
    push_cast at this; exact this
  have hd2 : (((2 : ℂ) ^ n) ^ 2 - 2 ^ n) ≠ 0 := by
    rw [pow_two, ← mul_sub_one]; exact mul_ne_zero (pow_ne_zero _ two_ne_zero) hd1
  push_cast at h1 h2
  have hz : z = (decayZ Ks : ℂ) := by
    unfold decayZ
    push_cast
    rw [eq_div_iff hd1]
    linear_combination h2
  have hr : r = (decayR Ks : ℂ) := by
    unfold decayR
    push_cast
    rw [eq_div_iff hd2]
    linear_combination h1 - h2
  rw [hT, hz, hr]

end Verif.RB
