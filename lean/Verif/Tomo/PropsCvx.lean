import Verif.Tomo.PropsProc
/-
C54: the partial trace superoperator.  C85: the convex program of `cvx_fit`.
-/
set_option linter.unusedSectionVars false
set_option linter.unusedSimpArgs false
set_option linter.unusedVariables false
namespace Verif.Tomo
open Verif Verif.Quantum Verif.Counts

/-! ### C54 -/

/-- Specification: the partial trace over the second factor (of dimension `d2`). -/
def partialTrace {R : Type} [CommSemiring R] (d2 : ℕ) (ρ : ℕ → ℕ → R) : ℕ → ℕ → R := fun a b =>
  ∑ j ∈ Finset.range d2, ρ (a * d2 + j) (b * d2 + j)

theorem sum_square' {R : Type} [CommSemiring R] (m d : ℕ) (f : ℕ → R) :
    ∑ k ∈ Finset.range (m * d), f k = ∑ b ∈ Finset.range m, ∑ a ∈ Finset.range d, f (b * d + a) := by
  induction m with
  | zero => simp
  | succ m ih => rw [Nat.succ_mul, Finset.sum_range_add, ih, Finset.sum_range_succ]

/-- **C54**.  `partial_trace_super(dim1, dim2)` times the column vectorisation of a matrix on the tensor product is the column
vectorisation of its partial trace over the second factor. -/
theorem C54_partial_trace {R : Type} [CommSemiring R] (d1 d2 : ℕ) (ρ : ℕ → ℕ → R) (a b : ℕ) (ha : a < d1) (hb : b < d1) :
    ∑ c ∈ Finset.range (d1 * d2 * (d1 * d2)), partialTraceSuper d1 d2 (b * d1 + a) c * ρ (c % (d1 * d2)) (c / (d1 * d2)) =
      partialTrace d2 ρ a b := by
  rw [sum_square']
  have hdiv : ∀ d i x : ℕ, x < d → (i * d + x) / d = i ∧ (i * d + x) % d = x := by
    intro d i x hx
    exact ⟨by rw [Nat.mul_comm, Nat.mul_add_div (by omega), Nat.div_eq_of_lt hx, Nat.add_zero],
      by rw [Nat.mul_comm, Nat.mul_add_mod, Nat.mod_eq_of_lt hx]⟩
  obtain ⟨hr1, hr2⟩ := hdiv d1 b a ha
  have step : ∀ B ∈ Finset.range (d1 * d2), ∑ A ∈ Finset.range (d1 * d2),
      partialTraceSuper d1 d2 (b * d1 + a) (B * (d1 * d2) + A) *
        ρ ((B * (d1 * d2) + A) % (d1 * d2)) ((B * (d1 * d2) + A) / (d1 * d2)) =
      ∑ A ∈ Finset.range (d1 * d2), ∑ j ∈ Finset.range d2,
        (if B = b * d2 + j then 1 else 0) * (if A = a * d2 + j then 1 else 0) * ρ A B := by
    intro B hB
    refine Finset.sum_congr rfl fun A hA => ?_
    obtain ⟨h1, h2⟩ := hdiv (d1 * d2) B A (Finset.mem_range.1 hA)
    unfold partialTraceSuper
    simp only [h1, h2, hr1, hr2]
    rw [Finset.sum_mul]
    refine Finset.sum_congr rfl fun j hj => ?_
    have hj' := Finset.mem_range.1 hj
    have key : ∀ x y : ℕ, (if y = x / d2 then (1 : R) else 0) * (if x % d2 = j then 1 else 0) = if x = y * d2 + j then 1 else 0 := by
      intro x y
      by_cases hx : x = y * d2 + j
      · obtain ⟨q1, q2⟩ := hdiv d2 y j hj'
        rw [if_pos hx, hx, q1, q2, if_pos rfl, if_pos rfl, mul_one]
      · rw [if_neg hx]
        by_cases h1 : y = x / d2
        · rw [if_pos h1, if_neg, mul_zero]
          intro h2
          apply hx
          rw [h1, ← h2, Nat.mul_comm, Nat.div_add_mod]
        · rw [if_neg h1, zero_mul]
    rw [key, key]
  rw [Finset.sum_congr rfl step]
  unfold partialTrace
  have hlt : ∀ x j : ℕ, x < d1 → j < d2 → x * d2 + j < d1 * d2 := by
    intro x j hx hj
    calc x * d2 + j < x * d2 + d2 := by omega
      _ = (x + 1) * d2 := by ring
      _ ≤ d1 * d2 := Nat.mul_le_mul_right _ hx
  have swap : ∀ B, ∑ A ∈ Finset.range (d1 * d2), ∑ j ∈ Finset.range d2,
      ((if B = b * d2 + j then (1 : R) else 0) * (if A = a * d2 + j then 1 else 0) * ρ A B) =
      ∑ j ∈ Finset.range d2, ∑ A ∈ Finset.range (d1 * d2),
        ((if B = b * d2 + j then (1 : R) else 0) * (if A = a * d2 + j then 1 else 0) * ρ A B) := fun B => Finset.sum_comm
  simp only [swap]
  rw [Finset.sum_comm]
  refine Finset.sum_congr rfl fun j hj => ?_
  have hj' := Finset.mem_range.1 hj
  rw [Finset.sum_eq_single (b * d2 + j), Finset.sum_eq_single (a * d2 + j)]
  · simp
  · intro A _ hA; simp [hA]
  · intro h; exact absurd (Finset.mem_range.2 (hlt a j ha hj')) h
  · intro B _ hB
    refine Finset.sum_eq_zero fun A _ => ?_
    simp [hB]
  · intro h; exact absurd (Finset.mem_range.2 (hlt b j hb hj')) h

example : partialTrace 2 (fun a b => ((a + 1) * (b + 2) : ℤ)) 1 0 = 3 * 2 + 4 * 3 := by decide

/-! ### C85 -/

/-- The complex matrix made of the two real variables (cvx_fit.py:223). -/
noncomputable def cvxRho (r im : ℕ → ℕ → ℝ) : ℕ → ℕ → ℂ := fun a b => (r a b : ℂ) + Complex.I * (im a b : ℂ)

/-- Specification: Hermitian. -/
def Herm (dim : ℕ) (ρ : ℕ → ℕ → ℂ) : Prop := ∀ a b, a < dim → b < dim → (starRingEnd ℂ) (ρ a b) = ρ b a

theorem cvxRho_herm (dim : ℕ) (r im : ℕ → ℕ → ℝ) : Herm dim (cvxRho r im) ↔
    (∀ a b, a < dim → b < dim → r a b = r b a) ∧ (∀ a b, a < dim → b < dim → im a b = -im b a) := by
  unfold Herm cvxRho
  constructor
  · intro h
    refine ⟨fun a b ha hb => ?_, fun a b ha hb => ?_⟩
    · have := congrArg Complex.re (h a b ha hb); simpa using this
    · have := congrArg Complex.im (h a b ha hb)
      simp at this; linarith
  · rintro ⟨h1, h2⟩ a b ha hb
    rw [h1 a b ha hb, h2 a b ha hb]
    apply Complex.ext <;> simp

theorem sum_double (d : ℕ) (f : ℕ → ℝ) : ∑ a ∈ Finset.range (2 * d), f a = ∑ a ∈ Finset.range d, f a + ∑ a ∈ Finset.range d, f (d + a) := by
  rw [Nat.two_mul, Finset.sum_range_add]

/-- The quadratic form of the block matrix. -/
theorem block_form (d : ℕ) (r im : ℕ → ℕ → ℝ) (z : ℕ → ℝ) :
    ∑ a ∈ Finset.range (2 * d), ∑ b ∈ Finset.range (2 * d), z a * cvxBlock d r im a b * z b =
      ∑ a ∈ Finset.range d, ∑ b ∈ Finset.range d, (z a * r a b * z b + z (d + a) * r a b * z (d + b) - z a * im a b * z (d + b) +
        z (d + a) * im a b * z b) := by
  rw [sum_double, ← Finset.sum_add_distrib]
  refine Finset.sum_congr rfl fun a ha => ?_
  rw [sum_double, sum_double, ← Finset.sum_add_distrib, ← Finset.sum_add_distrib, ← Finset.sum_add_distrib]
  refine Finset.sum_congr rfl fun b hb => ?_
  have ha' := Finset.mem_range.1 ha
  have hb' := Finset.mem_range.1 hb
  simp only [cvxBlock, ha', hb', if_true, show ¬ d + a < d by omega, show ¬ d + b < d by omega, if_false, Nat.add_sub_cancel_left]
  ring

/-- The quadratic form of a Hermitian matrix is that of its block matrix. -/
theorem form_eq (d : ℕ) (r im : ℕ → ℕ → ℝ) (h : Herm d (cvxRho r im)) (x y : ℕ → ℝ) :
    ∑ a ∈ Finset.range d, ∑ b ∈ Finset.range d, (starRingEnd ℂ) ((x a : ℂ) + Complex.I * (y a : ℂ)) * cvxRho r im a b *
        ((x b : ℂ) + Complex.I * (y b : ℂ)) =
      ((∑ a ∈ Finset.range d, ∑ b ∈ Finset.range d, (x a * r a b * x b + y a * r a b * y b - x a * im a b * y b + y a * im a b * x b) : ℝ) : ℂ) := by
  obtain ⟨h1, h2⟩ := (cvxRho_herm d r im).1 h
  have hre : ∀ a b, ((starRingEnd ℂ) ((x a : ℂ) + Complex.I * (y a : ℂ)) * cvxRho r im a b * ((x b : ℂ) + Complex.I * (y b : ℂ))).re =
      x a * r a b * x b + y a * r a b * y b - x a * im a b * y b + y a * im a b * x b := by
    intro a b
    simp [cvxRho]; ring
  have him : ∀ a b, ((starRingEnd ℂ) ((x a : ℂ) + Complex.I * (y a : ℂ)) * cvxRho r im a b * ((x b : ℂ) + Complex.I * (y b : ℂ))).im =
      x a * r a b * y b - y a * r a b * x b + x a * im a b * x b + y a * im a b * y b := by
    intro a b
    simp [cvxRho]; ring
  apply Complex.ext
  · rw [Complex.ofReal_re, Complex.re_sum]
    refine Finset.sum_congr rfl fun a _ => ?_
    rw [Complex.re_sum]
    exact Finset.sum_congr rfl fun b _ => hre a b
  · rw [Complex.ofReal_im, Complex.im_sum]
    have e : ∑ a ∈ Finset.range d, (∑ b ∈ Finset.range d, (starRingEnd ℂ) ((x a : ℂ) + Complex.I * (y a : ℂ)) * cvxRho r im a b *
        ((x b : ℂ) + Complex.I * (y b : ℂ))).im =
        ∑ a ∈ Finset.range d, ∑ b ∈ Finset.range d, (x a * r a b * y b - y a * r a b * x b + x a * im a b * x b + y a * im a b * y b) := by
      refine Finset.sum_congr rfl fun a _ => ?_
      rw [Complex.im_sum]
      exact Finset.sum_congr rfl fun b _ => him a b
    rw [e]
    set T := ∑ a ∈ Finset.range d, ∑ b ∈ Finset.range d, (x a * r a b * y b - y a * r a b * x b + x a * im a b * x b + y a * im a b * y b) with hT
    have hneg : T = -T := by
      conv_lhs => rw [hT, Finset.sum_comm]
      rw [hT, ← Finset.sum_neg_distrib]
      refine Finset.sum_congr rfl fun b hb => ?_
      rw [← Finset.sum_neg_distrib]
      refine Finset.sum_congr rfl fun a ha => ?_
      have ha' := Finset.mem_range.1 ha
      have hb' := Finset.mem_range.1 hb
      rw [h1 a b ha' hb', h2 a b ha' hb']
      ring
    linarith

theorem psd_iff_block (d : ℕ) (r im : ℕ → ℕ → ℝ) (h : Herm d (cvxRho r im)) : PSD d (cvxRho r im) ↔
    ∀ z : ℕ → ℝ, 0 ≤ ∑ a ∈ Finset.range (2 * d), ∑ b ∈ Finset.range (2 * d), z a * cvxBlock d r im a b * z b := by
  constructor
  · intro hp z
    obtain ⟨t, ht, e⟩ := hp fun a => (z a : ℂ) + Complex.I * (z (d + a) : ℂ)
    rw [form_eq d r im h (fun a => z a) (fun a => z (d + a))] at e
    rw [block_form]
    have := Complex.ofReal_injective e
    rw [this]; exact ht
  · intro hz u
    refine ⟨_, ?_, (?_ : _ = ((∑ a ∈ Finset.range d, ∑ b ∈ Finset.range d, ((u a).re * r a b * (u b).re + (u a).im * r a b * (u b).im -
      (u a).re * im a b * (u b).im + (u a).im * im a b * (u b).re) : ℝ) : ℂ))⟩
    · have := hz fun k => if k < d then (u k).re else (u (k - d)).im
      rw [block_form] at this
      refine this.trans_eq (Finset.sum_congr rfl fun a ha => Finset.sum_congr rfl fun b hb => ?_)
      have ha' := Finset.mem_range.1 ha
      have hb' := Finset.mem_range.1 hb
      simp only [ha', hb', if_true, show ¬ d + a < d by omega, show ¬ d + b < d by omega, if_false, Nat.add_sub_cancel_left]
    · rw [← form_eq d r im h (fun a => (u a).re) (fun a => (u a).im)]
      refine Finset.sum_congr rfl fun a _ => Finset.sum_congr rfl fun b _ => ?_
      have hu : ∀ a, u a = ((u a).re : ℂ) + Complex.I * ((u a).im : ℂ) := fun a => by
        rw [mul_comm]; exact (Complex.re_add_im (u a)).symm
      rw [← hu a, ← hu b]

/-- **C85** (constraints).  The constraints of the convex program on the two real variables say exactly that the complex matrix is
Hermitian, has the requested trace, is positive semidefinite if `psd` is set, and — for a matrix on two factors of dimension `s` — has
partial trace the identity if `trace_preserving` is set. -/
theorem C85_constraints (dim s : ℕ) (hs : dim = s * s) (psd : Bool) (trace : Option ℝ) (tp : Bool) (r im : ℕ → ℕ → ℝ) :
    CvxFeasible dim psd trace tp r im ↔
      Herm dim (cvxRho r im) ∧ (∀ t : ℝ, trace = some t → tr dim (cvxRho r im) = t) ∧ (psd = true → PSD dim (cvxRho r im)) ∧
      (tp = true → ∀ i j, i < s → j < s → partialTrace s (cvxRho r im) i j = if i = j then 1 else 0) := by
  have hsq : Nat.sqrt dim = s := by rw [hs]; exact Nat.sqrt_eq s
  have hpt : ∀ m : ℕ → ℕ → ℝ, ∀ i < s * s, ∑ c ∈ Finset.range (dim * dim), partialTraceSuper s s i c * cvxVec dim m c =
      partialTrace s m (i % s) (i / s) := by
    intro m i hi
    have hs0 : 0 < s := Nat.pos_of_ne_zero (by rintro rfl; simp at hi)
    have := C54_partial_trace s s m (i % s) (i / s) (Nat.mod_lt _ hs0) (Nat.div_lt_of_lt_mul hi)
    rw [Nat.mul_comm (i / s) s, Nat.div_add_mod] at this
    rw [← this, ← hs]; rfl
  have hsplit : ∀ i j, partialTrace s (cvxRho r im) i j = ((partialTrace s r i j : ℝ) : ℂ) + Complex.I * ((partialTrace s im i j : ℝ) : ℂ) := by
    intro i j
    unfold partialTrace cvxRho
    push_cast
    rw [Finset.sum_add_distrib, Finset.mul_sum]
  have htr : ∀ t : ℝ, (∀ a b, a < dim → b < dim → im a b = -im b a) →
      (∑ k ∈ Finset.range dim, r k k = t ↔ tr dim (cvxRho r im) = t) := by
    intro t h2
    have : tr dim (cvxRho r im) = ((∑ k ∈ Finset.range dim, r k k : ℝ) : ℂ) := by
      unfold tr cvxRho
      push_cast
      refine Finset.sum_congr rfl fun k hk => ?_
      have hk' := Finset.mem_range.1 hk
      have : im k k = 0 := by have := h2 k k hk' hk'; linarith
      rw [this]; simp
    rw [this]
    exact ⟨fun h => by rw [h], fun h => Complex.ofReal_injective h⟩
  have hidx : ∀ i j, i < s → j < s → j * s + i < s * s ∧ (j * s + i) / s = j ∧ (j * s + i) % s = i := by
    intro i j hi hj
    refine ⟨?_, by rw [Nat.mul_comm, Nat.mul_add_div (by omega), Nat.div_eq_of_lt hi, Nat.add_zero],
      by rw [Nat.mul_comm, Nat.mul_add_mod, Nat.mod_eq_of_lt hi]⟩
    calc j * s + i < j * s + s := by omega
      _ = (j + 1) * s := by ring
      _ ≤ s * s := Nat.mul_le_mul_right _ hj
  constructor
  · intro h
    have hh : Herm dim (cvxRho r im) := (cvxRho_herm dim r im).2 ⟨h.sym, h.anti⟩
    refine ⟨hh, fun t ht => (htr t h.anti).1 (h.tr t ht), fun hp => (psd_iff_block dim r im hh).2 (h.pos hp), ?_⟩
    intro ht i j hi hj
    obtain ⟨k1, k2, k3⟩ := hidx i j hi hj
    have e1 := h.tpr ht (j * s + i) (by rw [hsq]; exact k1)
    have e2 := h.tpi ht (j * s + i) (by rw [hsq]; exact k1)
    rw [hsq, hpt r _ k1, k2, k3] at e1
    rw [hsq, hpt im _ k1, k2, k3] at e2
    rw [hsplit, e1, e2]
    by_cases hij : i = j
    · subst hij; simp
    · simp [hij, Ne.symm hij]
  · rintro ⟨hh, ht, hp, htp⟩
    obtain ⟨h1, h2⟩ := (cvxRho_herm dim r im).1 hh
    have hpar : tp = true → ∀ i < s * s, partialTrace s r (i % s) (i / s) = (if i / s = i % s then 1 else 0) ∧
        partialTrace s im (i % s) (i / s) = 0 := by
      intro t i hi
      have hs0 : 0 < s := Nat.pos_of_ne_zero (by rintro rfl; simp at hi)
      have := htp t (i % s) (i / s) (Nat.mod_lt _ hs0) (Nat.div_lt_of_lt_mul hi)
      rw [hsplit] at this
      have e1 := congrArg Complex.re this
      have e2 := congrArg Complex.im this
      simp only [Complex.add_re, Complex.ofReal_re, Complex.mul_re, Complex.I_re, zero_mul, Complex.I_im, Complex.ofReal_im, mul_zero,
        sub_zero, add_zero, Complex.add_im, Complex.mul_im, one_mul, zero_add] at e1 e2
      refine ⟨?_, ?_⟩
      · rw [e1]
        by_cases hij : i % s = i / s
        · simp [hij]
        · simp [hij, Ne.symm hij]
      · rw [e2]; split <;> simp
    refine ⟨h1, h2, fun t h => (htr t h2).2 (ht t h), fun h => (psd_iff_block dim r im hh).1 (hp h), ?_, ?_⟩
    · intro t i hi
      rw [hsq] at hi ⊢
      rw [hpt r i hi, (hpar t i hi).1]
    · intro t i hi
      rw [hsq] at hi ⊢
      rw [hpt im i hi, (hpar t i hi).2]

/-- The total weight by which `cvx_fit` normalises. -/
noncomputable def weightNorm (weights : Option (List ℝ)) : ℝ :=
  match weights with
  | none => 1
  | some w => (w.map fun x => x ^ 2).sum

theorem traceMul_real (d : ℕ) (m ρ : ℕ → ℕ → ℂ) (hm : Herm d m) (hρ : Herm d ρ) : (starRingEnd ℂ) (traceMul d m ρ) = traceMul d m ρ := by
  unfold traceMul
  rw [map_sum, Finset.sum_comm]
  refine Finset.sum_congr rfl fun a ha => ?_
  rw [map_sum]
  refine Finset.sum_congr rfl fun b hb => ?_
  have ha' := Finset.mem_range.1 ha
  have hb' := Finset.mem_range.1 hb
  rw [map_mul, hm a b ha' hb', hρ b a hb' ha']

theorem cvxArg_eq (dim : ℕ) (rows : List SM) (freqs : List ℝ) (weights : Option (List ℝ)) (r im : ℕ → ℕ → ℝ) (i : ℕ)
    (hdim : (rows.getD i smOne).dim = dim) :
    cvxArg dim rows freqs weights r im i =
      cvxWeight weights i * ((rowDot (rows.getD i smOne) (vecF dim (cvxRho r im))).re - freqs.getD i 0) := by
  unfold cvxArg rowDot
  rw [hdim, Complex.re_sum, mul_sub, Finset.mul_sum, ← Finset.sum_sub_distrib]
  congr 1
  refine Finset.sum_congr rfl fun k _ => ?_
  simp [vecF, cvxRho, cvxVec]
  ring

/-- **C85** (objective).  On Hermitian matrices and for Hermitian basis operators the objective is, up to the constant normalisation of
the weights, the least squares residual: dropping the imaginary part loses nothing. -/
theorem C85_objective (dim : ℕ) (hd : 0 < dim) (rows : List SM) (freqs : List ℝ) (weights : Option (List ℝ)) (r im : ℕ → ℕ → ℝ)
    (hrows : ∀ op ∈ rows, op.dim = dim ∧ Herm dim op.e) (hρ : Herm dim (cvxRho r im)) (hw : 0 < weightNorm weights) :
    cvxObjective dim rows freqs weights r im ^ 2 * weightNorm weights = residual rows freqs weights (vecF dim (cvxRho r im)) := by
  have hterm : ∀ i ∈ Finset.range rows.length, cvxArg dim rows freqs weights r im i ^ 2 * weightNorm weights =
      Complex.normSq ((weightAt weights i : ℂ) * rowDot (rows.getD i smOne) (vecF dim (cvxRho r im)) -
        (weightAt weights i : ℂ) * (freqs.getD i 0 : ℂ)) := by
    intro i hi
    have hi' := Finset.mem_range.1 hi
    have hm : rows.getD i smOne ∈ rows := by rw [List.getD_eq_getElem _ _ hi']; exact List.getElem_mem _
    have hreal : (rowDot (rows.getD i smOne) (vecF dim (cvxRho r im))).im = 0 := by
      rw [rowDot_hermitian _ dim (hrows _ hm).1 hd (hrows _ hm).2,
        traceMul_congr dim (fun _ _ _ _ => rfl) (fun a b ha _ => vecF_get dim (cvxRho r im) a b ha)]
      exact Complex.conj_eq_iff_im.1 (traceMul_real dim _ _ (hrows _ hm).2 hρ)
    rw [cvxArg_eq dim rows freqs weights r im i (hrows _ hm).1]
    obtain ⟨z, hz⟩ : ∃ z : ℝ, rowDot (rows.getD i smOne) (vecF dim (cvxRho r im)) = (z : ℂ) :=
      ⟨_, Complex.ext rfl hreal⟩
    rw [hz, Complex.ofReal_re, ← mul_sub, ← Complex.ofReal_sub, ← Complex.ofReal_mul, Complex.normSq_ofReal, mul_pow]
    have hww : cvxWeight weights i ^ 2 * weightNorm weights = weightAt weights i * weightAt weights i := by
      cases weights with
      | none => simp [cvxWeight, weightNorm, weightAt]
      | some w =>
        have hw' : 0 < (w.map fun x => x ^ 2).sum := hw
        simp only [cvxWeight, weightNorm, weightAt]
        rw [div_pow, Real.sq_sqrt hw'.le, div_mul_cancel₀ _ hw'.ne']; ring
    linear_combination (z - freqs.getD i 0) ^ 2 * hww
  unfold cvxObjective residual
  rw [Real.sq_sqrt (Finset.sum_nonneg fun i _ => sq_nonneg _), Finset.sum_mul, Finset.sum_congr rfl hterm]

theorem residual_nonneg (rows : List SM) (freqs : List ℝ) (weights : Option (List ℝ)) (x : ℕ → ℂ) : 0 ≤ residual rows freqs weights x :=
  Finset.sum_nonneg fun i _ => Complex.normSq_nonneg _

theorem weightNorm_pos (rows : List SM) (hne : rows ≠ []) (weights : Option (List ℝ)) (hw : PosWeights rows weights) :
    0 < weightNorm weights := by
  cases weights with
  | none => exact one_pos
  | some w =>
    obtain ⟨h1, h2⟩ := hw w rfl
    cases w with
    | nil => exact absurd (List.length_eq_zero_iff.1 h1.symm) hne
    | cons x w =>
      show 0 < ((x :: w).map fun x => x ^ 2).sum
      rw [List.map_cons, List.sum_cons]
      have hx := h2 x (by simp)
      have : 0 ≤ (w.map fun x => x ^ 2).sum := List.sum_nonneg (by
        intro y hy; obtain ⟨z, _, rfl⟩ := List.mem_map.1 hy; exact sq_nonneg z)
      have := pow_pos hx 2
      linarith

/-- Zero residual at the truth makes every optimum of the convex program a least squares solution. -/
theorem cvx_lstsq (dim : ℕ) (hd : 0 < dim) (rows : List SM) (hne : rows ≠ []) (freqs : List ℝ) (weights : Option (List ℝ))
    (hrows : ∀ op ∈ rows, op.dim = dim ∧ Herm dim op.e) (hw : PosWeights rows weights) (P : (ℕ → ℕ → ℝ) → (ℕ → ℕ → ℝ) → Prop)
    (hP : ∀ r im, P r im → Herm dim (cvxRho r im)) (ρ : ℕ → ℕ → ℂ)
    (hρ : P (fun a b => (ρ a b).re) (fun a b => (ρ a b).im)) (hzero : residual rows freqs weights (vecF dim ρ) = 0)
    (r im : ℕ → ℕ → ℝ) (hri : P r im)
    (hmin : ∀ r' im', P r' im' → cvxObjective dim rows freqs weights r im ≤ cvxObjective dim rows freqs weights r' im') :
    IsLstsq rows freqs weights (vecF dim (cvxRho r im)) := by
  have hn := weightNorm_pos rows hne weights hw
  have heq : cvxRho (fun a b => (ρ a b).re) (fun a b => (ρ a b).im) = ρ := by
    funext a b
    unfold cvxRho
    rw [mul_comm]; exact Complex.re_add_im _
  have h1 := C85_objective dim hd rows freqs weights r im hrows (hP r im hri) hn
  have h2 := C85_objective dim hd rows freqs weights _ _ hrows (hP _ _ hρ) hn
  rw [heq, hzero] at h2
  have h3 := hmin _ _ hρ
  have h4 : cvxObjective dim rows freqs weights (fun a b => (ρ a b).re) (fun a b => (ρ a b).im) = 0 := by
    rcases mul_eq_zero.1 h2 with h | h
    · exact pow_eq_zero_iff (two_ne_zero) |>.1 h
    · exact absurd h hn.ne'
  have h5 : cvxObjective dim rows freqs weights r im = 0 := by
    refine le_antisymm (h4 ▸ h3) (Real.sqrt_nonneg _)
  rw [h5] at h1
  intro y
  rw [← h1]
  have := residual_nonneg rows freqs weights y
  simpa using this

/-- The standard weights are good. -/
theorem posWeights_standard (standard : Bool) (beta : ℝ) (hb : 0 ≤ beta) (data : Dict Key Counts) (n : ℕ) (hn : 0 < n) (hne : data ≠ [])
    (hk : ∀ kv ∈ data, keyLen kv.1 = n) (hc : ∀ kv ∈ data, GoodCounts n kv.2) (rows : List SM) (hrl : rows.length = data.length * 2 ^ n) :
    ∃ ws, fitterWeights standard beta data = some ws ∧ PosWeights rows ws := by
  obtain ⟨ws, w1, w2, w3⟩ := C53_fitter standard beta hb data n hn hne hk hc
  refine ⟨ws, w1, ?_⟩
  intro l hl
  cases standard
  · rw [w2 rfl] at hl; cases hl
  · obtain ⟨l', e, hlen, hpos⟩ := w3 rfl
    rw [e] at hl
    obtain rfl := Option.some.inj hl
    exact ⟨by rw [hlen, hrl], hpos⟩

theorem cvxRho_parts (ρ : ℕ → ℕ → ℂ) : cvxRho (fun a b => (ρ a b).re) (fun a b => (ρ a b).im) = ρ := by
  funext a b
  unfold cvxRho
  rw [mul_comm]; exact Complex.re_add_im _

theorem psd_congr (d : ℕ) {m m' : ℕ → ℕ → ℂ} (h : ∀ a b, a < d → b < d → m a b = m' a b) (hp : PSD d m) : PSD d m' := by
  intro u
  obtain ⟨t, ht, e⟩ := hp u
  refine ⟨t, ht, ?_⟩
  rw [← e]
  refine Finset.sum_congr rfl fun r hr => Finset.sum_congr rfl fun c hc => ?_
  rw [h r c (Finset.mem_range.1 hr) (Finset.mem_range.1 hc)]

/-- Constraints without `trace_preserving` need no factorisation. -/
theorem C85_constraints_state (dim : ℕ) (psd : Bool) (trace : Option ℝ) (r im : ℕ → ℕ → ℝ) :
    CvxFeasible dim psd trace false r im ↔
      Herm dim (cvxRho r im) ∧ (∀ t : ℝ, trace = some t → tr dim (cvxRho r im) = t) ∧ (psd = true → PSD dim (cvxRho r im)) := by
  have htr : ∀ t : ℝ, (∀ a b, a < dim → b < dim → im a b = -im b a) →
      (∑ k ∈ Finset.range dim, r k k = t ↔ tr dim (cvxRho r im) = t) := by
    intro t h2
    have : tr dim (cvxRho r im) = ((∑ k ∈ Finset.range dim, r k k : ℝ) : ℂ) := by
      unfold tr cvxRho
      push_cast
      refine Finset.sum_congr rfl fun k hk => ?_
      have hk' := Finset.mem_range.1 hk
      have : im k k = 0 := by have := h2 k k hk' hk'; linarith
      rw [this]; simp
    rw [this]
    exact ⟨fun h => by rw [h], fun h => Complex.ofReal_injective h⟩
  constructor
  · intro h
    have hh : Herm dim (cvxRho r im) := (cvxRho_herm dim r im).2 ⟨h.sym, h.anti⟩
    exact ⟨hh, fun t ht => (htr t h.anti).1 (h.tr t ht), fun hp => (psd_iff_block dim r im hh).2 (h.pos hp)⟩
  · rintro ⟨hh, ht, hp⟩
    obtain ⟨h1, h2⟩ := (cvxRho_herm dim r im).1 hh
    exact ⟨h1, h2, fun t h => (htr t h2).2 (ht t h), fun h => (psd_iff_block dim r im hh).1 (hp h), fun h => absurd h (by decide),
      fun h => absurd h (by decide)⟩

/-- **C85** (state tomography).  From exact data of a state the convex program of `StateTomographyFitter.fit(method='cvx')` has
exactly one optimal matrix, the state itself: it is feasible and every optimum equals it. -/
theorem C85_state (n : ℕ) (hn : 0 < n) (prep : Str → Option SM) (data : Dict Key Counts) (ρ : ℕ → ℕ → ℂ) (h : ExactStateData n data ρ)
    (hcts : ∀ kv ∈ data, GoodCounts n kv.2) (hpsd : PSD (2 ^ n) ρ) (htr : tr (2 ^ n) ρ = 1) (standard : Bool) (beta : ℝ) (hb : 0 ≤ beta) :
    ∃ freqs rows weights, fitterData pauliMeas prep data = some (freqs, rows) ∧ fitterWeights standard beta data = some weights ∧
      CvxFeasible (2 ^ n) true (some 1) false (fun a b => (ρ a b).re) (fun a b => (ρ a b).im) ∧
      cvxObjective (2 ^ n) rows freqs weights (fun a b => (ρ a b).re) (fun a b => (ρ a b).im) = 0 ∧
      ∀ r im, CvxFeasible (2 ^ n) true (some 1) false r im →
        (∀ r' im', CvxFeasible (2 ^ n) true (some 1) false r' im' →
          cvxObjective (2 ^ n) rows freqs weights r im ≤ cvxObjective (2 ^ n) rows freqs weights r' im') →
        ∀ a b, a < 2 ^ n → b < 2 ^ n → cvxRho r im a b = ρ a b := by
  have hpos := Nat.two_pow_pos n
  obtain ⟨freqs, rows, h1, _, hrl, hrows, hres, h4⟩ := C51_inversion n hn prep data ρ h
  have hne : data ≠ [] := by
    rintro rfl; simp [fitterData] at h1
  have hkl : ∀ kv ∈ data, keyLen kv.1 = n := fun kv hkv => by
    obtain ⟨l, e, hl⟩ := h.only kv hkv
    rw [e]; exact hl.1
  obtain ⟨ws, w1, hw⟩ := posWeights_standard standard beta hb data n hn hne hkl hcts rows hrl
  have hrne : rows ≠ [] := by
    rintro rfl
    rw [List.length_nil] at hrl
    rcases Nat.mul_eq_zero.1 hrl.symm with h | h
    · exact hne (List.length_eq_zero_iff.1 h)
    · omega
  have hherm : Herm (2 ^ n) ρ := fun a b ha hb => psd_hermitian (2 ^ n) ρ hpsd b a hb ha
  have hfeas : CvxFeasible (2 ^ n) true (some 1) false (fun a b => (ρ a b).re) (fun a b => (ρ a b).im) := by
    rw [C85_constraints_state, cvxRho_parts]
    exact ⟨hherm, fun t ht => by obtain rfl := Option.some.inj ht; rw [htr]; simp, fun _ => hpsd⟩
  refine ⟨freqs, rows, ws, h1, w1, hfeas, ?_, ?_⟩
  · have := C85_objective (2 ^ n) hpos rows freqs ws _ _ hrows (by rw [cvxRho_parts]; exact hherm) (weightNorm_pos rows hrne ws hw)
    rw [cvxRho_parts, hres] at this
    rcases mul_eq_zero.1 this with h | h
    · exact (pow_eq_zero_iff two_ne_zero).1 h
    · exact absurd h (weightNorm_pos rows hrne ws hw).ne'
  · intro r im hri hmin a b ha hb'
    have hl := cvx_lstsq (2 ^ n) hpos rows hrne freqs ws hrows hw (CvxFeasible (2 ^ n) true (some 1) false)
      (fun r im hf => ((C85_constraints_state _ _ _ _ _).1 hf).1) ρ hfeas (hres ws) r im hri hmin
    obtain ⟨m, e1, e2⟩ := h4 ws _ hw hl
    rw [← e2 a b ha hb']
    have hs : Nat.sqrt (2 ^ n * 2 ^ n) = 2 ^ n := Nat.sqrt_eq _
    unfold reshapeF at e1
    rw [hs, if_neg (by simp)] at e1
    have := (Prod.mk.inj (Option.some.inj e1)).2
    rw [← this]
    exact (vecF_get (2 ^ n) (cvxRho r im) a b ha).symm

/-- **C85** (process tomography).  From exact data of a completely positive trace preserving map the convex program of
`ProcessTomographyFitter.fit(method='cvx')`, with its trace and trace preservation constraints, has exactly one optimal matrix, the Choi
matrix of the map. -/
theorem C85_process (n : ℕ) (hn : 0 < n) (alph : List Str) (prep : Str → Option SM) (g : Str → SM)
    (hprep : (alph = prep4 ∧ prep = pauliPrep ∧ g = pauliPreparationMatrix) ∨ (alph = sic4 ∧ prep = sicPrep ∧ g = sicPreparationMatrix))
    (data : Dict Key Counts) (S : ℕ → ℕ → ℕ → ℕ → ℂ) (h : ExactProcessData n alph g data S)
    (hcts : ∀ kv ∈ data, GoodCounts n kv.2) (hcp : PSD (2 ^ (n + n)) (choi (2 ^ n) S))
    (htp : ∀ i j, i < 2 ^ n → j < 2 ^ n → tr (2 ^ n) (S i j) = if i = j then 1 else 0)
    (standard : Bool) (beta : ℝ) (hb : 0 ≤ beta) :
    ∃ freqs rows weights, fitterData pauliMeas prep data = some (freqs, rows) ∧ fitterWeights standard beta data = some weights ∧
      CvxFeasible (2 ^ (n + n)) true (some ((2 ^ n : ℕ) : ℝ)) true (fun a b => (choi (2 ^ n) S a b).re) (fun a b => (choi (2 ^ n) S a b).im) ∧
      ∀ r im, CvxFeasible (2 ^ (n + n)) true (some ((2 ^ n : ℕ) : ℝ)) true r im →
        (∀ r' im', CvxFeasible (2 ^ (n + n)) true (some ((2 ^ n : ℕ) : ℝ)) true r' im' →
          cvxObjective (2 ^ (n + n)) rows freqs weights r im ≤ cvxObjective (2 ^ (n + n)) rows freqs weights r' im') →
        ∀ a b, a < 2 ^ (n + n) → b < 2 ^ (n + n) → cvxRho r im a b = choi (2 ^ n) S a b := by
  have hpos := Nat.two_pow_pos n
  have hpos2 := Nat.two_pow_pos (n + n)
  obtain ⟨a0, ha0, hcomp⟩ : ∃ a0, a0 ∈ alph ∧ Complete alph prep g := by
    rcases hprep with ⟨rfl, rfl, rfl⟩ | ⟨rfl, rfl, rfl⟩
    · exact ⟨"Zp".toList, by decide, complete_pauli⟩
    · exact ⟨"S0".toList, by decide, complete_sic⟩
  obtain ⟨freqs, rows, h1, _, hrl, hrows, hres, h4⟩ := C84_inversion n hn alph prep g hcomp a0 ha0 data S h
  have hne : data ≠ [] := by
    rintro rfl; simp [fitterData] at h1
  have hkl : ∀ kv ∈ data, keyLen kv.1 = n := fun kv hkv => by
    obtain ⟨p, l, e, _, hl⟩ := h.only kv hkv
    rw [e]; exact hl.1
  obtain ⟨ws, w1, hw⟩ := posWeights_standard standard beta hb data n hn hne hkl hcts rows hrl
  have hrne : rows ≠ [] := by
    rintro rfl
    rw [List.length_nil] at hrl
    rcases Nat.mul_eq_zero.1 hrl.symm with h | h
    · exact hne (List.length_eq_zero_iff.1 h)
    · omega
  have hherm : Herm (2 ^ (n + n)) (choi (2 ^ n) S) := fun a b ha hb => psd_hermitian _ _ hcp b a hb ha
  have hfac : (2 : ℕ) ^ (n + n) = 2 ^ n * 2 ^ n := Nat.pow_add 2 n n
  have hidx : ∀ i k, k < 2 ^ n → (i * 2 ^ n + k) / 2 ^ n = i ∧ (i * 2 ^ n + k) % 2 ^ n = k := by
    intro i k hk
    exact ⟨by rw [Nat.mul_comm, Nat.mul_add_div hpos, Nat.div_eq_of_lt hk, Nat.add_zero],
      by rw [Nat.mul_comm, Nat.mul_add_mod, Nat.mod_eq_of_lt hk]⟩
  have hpt : ∀ i j, i < 2 ^ n → j < 2 ^ n → partialTrace (2 ^ n) (choi (2 ^ n) S) i j = if i = j then 1 else 0 := by
    intro i j hi hj
    rw [← htp i j hi hj]
    unfold partialTrace tr choi
    refine Finset.sum_congr rfl fun k hk => ?_
    have hk' := Finset.mem_range.1 hk
    rw [(hidx i k hk').1, (hidx i k hk').2, (hidx j k hk').1, (hidx j k hk').2]
  have htr : tr (2 ^ (n + n)) (choi (2 ^ n) S) = ((2 ^ n : ℕ) : ℂ) := by
    unfold tr
    rw [hfac, sum_square hpos]
    have : ∀ i ∈ Finset.range (2 ^ n), ∑ a ∈ Finset.range (2 ^ n), choi (2 ^ n) S (i * 2 ^ n + a) (i * 2 ^ n + a) = 1 := by
      intro i hi
      have := hpt i i (Finset.mem_range.1 hi) (Finset.mem_range.1 hi)
      rw [if_pos rfl] at this
      exact this
    rw [Finset.sum_congr rfl this]; simp
  have hfeas : CvxFeasible (2 ^ (n + n)) true (some ((2 ^ n : ℕ) : ℝ)) true (fun a b => (choi (2 ^ n) S a b).re)
      (fun a b => (choi (2 ^ n) S a b).im) := by
    rw [C85_constraints _ (2 ^ n) hfac, cvxRho_parts]
    exact ⟨hherm, fun t ht => by obtain rfl := Option.some.inj ht; rw [htr]; push_cast; rfl, fun _ => hcp, fun _ => hpt⟩
  refine ⟨freqs, rows, ws, h1, w1, hfeas, ?_⟩
  intro r im hri hmin a b ha hb'
  have hl := cvx_lstsq (2 ^ (n + n)) hpos2 rows hrne freqs ws hrows hw (CvxFeasible (2 ^ (n + n)) true (some ((2 ^ n : ℕ) : ℝ)) true)
    (fun r im hf => ((C85_constraints _ (2 ^ n) hfac _ _ _ _ _).1 hf).1) _ hfeas (hres ws) r im hri hmin
  obtain ⟨m, e1, e2⟩ := h4 ws _ hw hl
  rw [← e2 a b ha hb']
  have hs : Nat.sqrt (2 ^ (n + n) * 2 ^ (n + n)) = 2 ^ (n + n) := Nat.sqrt_eq _
  unfold reshapeF at e1
  rw [hs, if_neg (by simp)] at e1
  have := (Prod.mk.inj (Option.some.inj e1)).2
  rw [← this]
  exact (vecF_get (2 ^ (n + n)) (cvxRho r im) a b ha).symm

example : CvxFeasible (2 ^ 1) true (some 1) false (fun a b => (exState a b).re) (fun a b => (exState a b).im) := by
  obtain ⟨_, _, _, _, _, h, _⟩ := C85_state 1 (by norm_num) (fun _ => none) exData exState exData_exact
    (by decide +kernel) exState_psd (by simp [tr, exState]) true (1/2) (by norm_num)
  exact h

end Verif.Tomo
