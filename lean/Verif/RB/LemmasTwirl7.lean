import Verif.RB.LemmasTwirl6
import Mathlib.Data.Matrix.Basis
import Mathlib.Data.Set.Finite.List
set_option linter.unusedSimpArgs false
set_option linter.unusedVariables false
/-
The two groups are finite; states in the two bases; the curves.
-/
namespace Verif.RB
open Verif.Quantum Matrix
variable {E : Type} {G : Group E} {Mem : ℕ → E → Prop} {N n : ℕ} {pat : List ℕ} {els : Finset E}

/-! ### The groups are finite -/

theorem elems_finite (n : ℕ) : Set.Finite {e : Dihedral.Elem n | Dihedral.isCnotDihedral e = true} := by
  have f1 : Set.Finite {l : List (Fin 8) | l.length = n} := List.finite_length_eq _ _
  have f2 : Set.Finite {l : List (Fin 4) | l.length = Dihedral.nc2 n} := List.finite_length_eq _ _
  have f3 : Set.Finite {l : List (Fin 2) | l.length = Dihedral.nc3 n} := List.finite_length_eq _ _
  have f4 : Set.Finite (Set.univ : Set ((Fin n → Fin n → Fin 2) × (Fin n → Fin 2))) := Set.finite_univ
  have := ((f1.prod (f2.prod (f3.prod f4))).image fun p : List (Fin 8) × List (Fin 4) × List (Fin 2) × ((Fin n → Fin n → Fin 2) × (Fin n → Fin 2)) =>
    Dihedral.randomElem n p.1 p.2.1 p.2.2.1 [p.2.2.2.1] p.2.2.2.2)
  refine Set.Finite.of_finite_image (f := some) (this.subset ?_) (fun a _ b _ h => Option.some.inj h)
  rintro _ ⟨e, he, rfl⟩
  obtain ⟨w1, w2, w3, m, s, h1, h2, h3, h4⟩ := Dihedral.C75_all e he
  exact ⟨(w1, w2, w3, m, s), ⟨h1, h2, h3, Set.mem_univ _⟩, h4⟩

theorem dih_exists (n : ℕ) : ∃ els : Finset (Σ n, Dihedral.Elem n), ∀ e, e ∈ els ↔ DihMem n e := by
  have : Set.Finite {e : Σ n, Dihedral.Elem n | DihMem n e} := by
    refine ((elems_finite n).image fun e => (⟨n, e⟩ : Σ n, Dihedral.Elem n)).subset ?_
    rintro e ⟨-, -, e', rfl, h⟩
    exact ⟨e', h, rfl⟩
  exact ⟨this.toFinset, fun e => by simp⟩

/-- Equal operations come from equal circuits up to a phase. -/
theorem same_of_Ad {c d : List Ins} (hc : ∀ i ∈ c, Ok n i) (hd : ∀ i ∈ d, Ok n i) (h : Ad (opMat n c) = Ad (opMat n d)) : Same n c d := by
  set U := opMat n c with hU
  set V := opMat n d with hV
  have hUU := opMat_unitary hc
  have hVV := opMat_unitary hd
  have hVV' := opMat_unitary' hd
  rw [← hU] at hUU
  rw [← hV] at hVV hVV'
  have comm : ∀ ρ : Op n, (Vᴴ * U) * ρ = ρ * (Vᴴ * U) := by
    intro ρ
    have := congrArg (fun T : Sup n => T ρ) h
    simp only [Ad_apply] at this
    calc (Vᴴ * U) * ρ = Vᴴ * (U * ρ * Uᴴ) * U := by
          simp only [Matrix.mul_assoc, hUU, Matrix.mul_one]
      _ = Vᴴ * (V * ρ * Vᴴ) * U := by rw [this]
      _ = (Vᴴ * V) * ρ * (Vᴴ * U) := by simp only [Matrix.mul_assoc]
      _ = _ := by rw [hVV, Matrix.one_mul]
  obtain ⟨z, hz⟩ : ∃ z : ℂ, Vᴴ * U = z • 1 := by
    have h1 : Vᴴ * U ∈ Set.range (Matrix.scalar (α := ℂ) (Basis (Fin n))) :=
      Matrix.mem_range_scalar_of_commute_single fun i j _ => (comm _).symm
    obtain ⟨z, hz⟩ := h1
    refine ⟨z, ?_⟩
    rw [← hz, Matrix.scalar_apply, Matrix.smul_one_eq_diagonal]
  have hUz : U = z • V := by
    have := congrArg (fun M => V * M) hz
    simpa only [← Matrix.mul_assoc, hVV', Matrix.one_mul, Matrix.mul_smul, Matrix.mul_one] using this
  refine same_opMat hc hd ?_ hUz
  have : (starRingEnd ℂ z * z) • (1 : Op n) = 1 := by
    rw [hUz, Matrix.conjTranspose_smul, Matrix.smul_mul, Matrix.mul_smul, hVV, smul_smul] at hUU
    exact hUU
  have := congrFun (congrFun this fun _ => false) fun _ => false
  rw [Matrix.smul_apply, Matrix.one_apply_eq, smul_eq_mul, mul_one, ← Complex.normSq_eq_conj_mul_self] at this
  have : Complex.normSq z = 1 := by exact_mod_cast this
  rw [Complex.normSq_eq_norm_sq] at this
  nlinarith [norm_nonneg z]

/-- Operations that take Pauli operators to Pauli operators, up to a fourth root of unity. -/
def PauliMap (T : Sup n) : Prop := ∀ a b, ∃ (k : Fin 4) (a' b' : Basis (Fin n)), T (P a b) = Complex.I ^ k.val • P a' b'

theorem pauliMap_finite (n : ℕ) : Set.Finite {T : Sup n | PauliMap T} := by
  classical
  have hch : ∀ T : {T : Sup n | PauliMap T}, ∃ f : Basis (Fin n) → Basis (Fin n) → Fin 4 × Basis (Fin n) × Basis (Fin n),
      ∀ a b, T.1 (P a b) = Complex.I ^ (f a b).1.val • P (f a b).2.1 (f a b).2.2 := by
    intro T
    have hT : PauliMap T.1 := T.2
    choose k a' b' h using hT
    exact ⟨fun a b => (k a b, a' a b, b' a b), h⟩
  choose F hF using hch
  have : Finite {T : Sup n | PauliMap T} :=
    Finite.of_injective F fun T T' h => Subtype.ext (ext_pauli fun a b => by rw [hF T a b, hF T' a b, h])
  exact Set.toFinite _

theorem PauliMap.one : PauliMap (1 : Sup n) := fun a b => ⟨0, a, b, by simp⟩

theorem PauliMap.mul {T T' : Sup n} (h : PauliMap T) (h' : PauliMap T') : PauliMap (T * T') := by
  intro a b
  obtain ⟨k, a', b', e⟩ := h' a b
  obtain ⟨k', a'', b'', e'⟩ := h a' b'
  refine ⟨⟨(k.val + k'.val) % 4, Nat.mod_lt _ (by norm_num)⟩, a'', b'', ?_⟩
  rw [Module.End.mul_apply, e, map_smul, e', smul_smul, ← pow_add]
  rw [← Complex.I_pow_eq_pow_mod]

theorem P_sq (a b : Basis (Fin n)) : P a b * P a b = (sgn a b : ℂ) • 1 := by
  ext y x
  rw [Matrix.mul_apply, Matrix.smul_apply, smul_eq_mul, Finset.sum_eq_single (bxor y b)]
  · show (if bxor y b = bxor y b then sgn a y else 0) * (if x = bxor (bxor y b) b then sgn a (bxor y b) else 0) = _
    rw [if_pos rfl, bxor_bxor, Matrix.one_apply]
    by_cases h : x = y
    · subst h
      rw [if_pos rfl, if_pos rfl, mul_one, sgn_bxor_right, ← mul_assoc]
      have : (sgn a x : ℂ) * sgn a x = 1 := sgn_sq a x
      rw [this, one_mul]
    · rw [if_neg h, if_neg (Ne.symm h), mul_zero, mul_zero]
  · intro z _ hz
    show (if z = bxor y b then sgn a y else 0) * _ = _
    rw [if_neg hz, zero_mul]
  · intro h; exact absurd (Finset.mem_univ _) h

theorem sgn_cases (a b : Basis (Fin n)) : (sgn a b : ℂ) = 1 ∨ (sgn a b : ℂ) = -1 := by
  exact sgn_pm a b

theorem root4 {z s s' : ℂ} (hs : s = 1 ∨ s = -1) (hs' : s' = 1 ∨ s' = -1) (h : z ^ 2 * s' = s) : ∃ k : Fin 4, z = Complex.I ^ k.val := by
  have hz : z ^ 2 = 1 ∨ z ^ 2 = -1 := by
    rcases hs with rfl | rfl <;> rcases hs' with rfl | rfl
    · left; linear_combination h
    · right; linear_combination -h
    · right; linear_combination h
    · left; linear_combination -h
  rcases hz with hz | hz
  · rcases (mul_self_eq_one_iff.1 (by rw [← pow_two]; exact hz) : z = 1 ∨ z = -1) with h | h
    · exact ⟨0, by simpa using h⟩
    · exact ⟨2, by simpa [Complex.I_sq] using h⟩
  · have : (z - Complex.I) * (z + Complex.I) = 0 := by
      have := Complex.I_sq
      linear_combination hz - this
    rcases mul_eq_zero.1 this with h | h
    · exact ⟨1, by simpa using sub_eq_zero.1 h⟩
    · refine ⟨3, ?_⟩
      show z = Complex.I ^ 3
      rw [Complex.I_pow_three]
      linear_combination h

theorem pauliMap_gate {c : List Ins} (hc : ∀ i ∈ c, Ok n i)
    (hm : ∀ a b : Basis (Fin n), ∃ (a' b' : Basis (Fin n)) (z : ℂ), z ≠ 0 ∧ ∀ ψ, run n c (pauli a b ψ) = z • pauli a' b' (run n c ψ)) : PauliMap (Ad (opMat n c)) := by
  intro a b
  obtain ⟨a', b', z, -, h⟩ := hm a b
  have h1 : opMat n c * P a b = z • (P a' b' * opMat n c) := by
    refine op_ext fun ψ => ?_
    rw [← Matrix.mulVec_mulVec, P_mulVec, opMat_mulVec hc, h, Matrix.smul_mulVec, ← Matrix.mulVec_mulVec, opMat_mulVec hc, P_mulVec]
  have hU := opMat_unitary' hc
  have hU' := opMat_unitary hc
  have h2 : Ad (opMat n c) (P a b) = z • P a' b' := by
    rw [Ad_apply, h1, Matrix.smul_mul, Matrix.mul_assoc, hU, Matrix.mul_one]
  have h3 : (z • P a' b') * (z • P a' b') = (sgn a b : ℂ) • 1 := by
    rw [← h2, Ad_apply]
    calc opMat n c * P a b * (opMat n c)ᴴ * (opMat n c * P a b * (opMat n c)ᴴ) = opMat n c * P a b * ((opMat n c)ᴴ * opMat n c) * P a b * (opMat n c)ᴴ := by
          simp only [Matrix.mul_assoc]
      _ = opMat n c * (P a b * P a b) * (opMat n c)ᴴ := by rw [hU', Matrix.mul_one]; simp only [Matrix.mul_assoc]
      _ = _ := by rw [P_sq, Matrix.mul_smul, Matrix.mul_one, Matrix.smul_mul, hU]
  rw [Matrix.smul_mul, Matrix.mul_smul, P_sq, smul_smul, smul_smul] at h3
  have h4 := congrFun (congrFun h3 fun _ => false) fun _ => false
  rw [Matrix.smul_apply, Matrix.smul_apply, Matrix.one_apply_eq, smul_eq_mul, smul_eq_mul, mul_one, mul_one] at h4
  obtain ⟨k, hk⟩ := root4 (z := z) (sgn_cases a b) (sgn_cases a' b') (by linear_combination h4)
  exact ⟨k, a', b', by rw [h2, hk]⟩

theorem pauliMap_hsc {c : List Ins} (hc : HSC n c) : PauliMap (Ad (opMat n c)) := by
  induction c with
  | nil => rw [opMat_nil, Ad_one]; exact PauliMap.one
  | cons i c ih =>
    have hi := hc i (by simp)
    have hc' : HSC n c := fun j hj => hc j (by simp [hj])
    rw [← List.singleton_append, opMat_append (by simpa using hi.1) hc'.ok, Ad_mul]
    refine (ih hc').mul ?_
    obtain ⟨hok, ⟨q, rfl⟩ | ⟨q, rfl⟩ | ⟨a, b, rfl⟩⟩ := hi
    · exact pauliMap_gate (by simpa using hok) fun x y => ⟨_, _, move_h (⟨q, hok.2⟩ : Fin n) x y⟩
    · exact pauliMap_gate (by simpa using hok) fun x y => ⟨_, _, move_s (⟨q, hok.2⟩ : Fin n) x y⟩
    · obtain ⟨-, h1, h2, h3⟩ := hok
      exact pauliMap_gate (by simpa [Ok] using ⟨rfl, h1, h2, h3⟩) fun x y => ⟨_, _, move_cx (i := (⟨a, h1⟩ : Fin n)) (j := ⟨b, h2⟩) (fun h => h3 (Fin.mk.inj h)) x y⟩

/-- The Clifford group exists: a finite set of circuits. -/
theorem cliff_exists (n : ℕ) : ∃ els : Finset (List Ins), IsClifford freeGroup n els ∧ ∀ e ∈ els, FreeMem n e := by
  classical
  have hfin : Set.Finite {T : Sup n | ∃ c, HSC n c ∧ T = Ad (opMat n c)} := (pauliMap_finite n).subset (by
    rintro T ⟨c, hc, rfl⟩; exact pauliMap_hsc hc)
  have hch : ∀ T : Sup n, ∃ c, T ∈ {T : Sup n | ∃ c, HSC n c ∧ T = Ad (opMat n c)} → HSC n c ∧ T = Ad (opMat n c) := by
    intro T
    by_cases h : ∃ c, HSC n c ∧ T = Ad (opMat n c)
    · obtain ⟨c, hc⟩ := h; exact ⟨c, fun _ => hc⟩
    · exact ⟨[], fun h' => absurd h' h⟩
  choose rep hrep using hch
  refine ⟨hfin.toFinset.image rep, ⟨?_, ?_, ?_⟩, ?_⟩
  · intro e he c h
    cases h
    obtain ⟨T, hT, rfl⟩ := Finset.mem_image.1 he
    exact ⟨_, (hrep T (hfin.mem_toFinset.1 hT)).1, Same.refl _ _⟩
  · intro d hd
    have hT : Ad (opMat n d) ∈ {T : Sup n | ∃ c, HSC n c ∧ T = Ad (opMat n c)} := ⟨d, hd, rfl⟩
    refine ⟨rep (Ad (opMat n d)), Finset.mem_image.2 ⟨_, hfin.mem_toFinset.2 hT, rfl⟩, fun c h => ?_⟩
    cases h
    obtain ⟨h1, h2⟩ := hrep _ hT
    exact same_of_Ad h1.ok hd.ok h2.symm
  · intro e he e' he' c c' h h' hs
    cases h; cases h'
    obtain ⟨T, hT, rfl⟩ := Finset.mem_image.1 he
    obtain ⟨T', hT', rfl⟩ := Finset.mem_image.1 he'
    obtain ⟨z, hz, h⟩ := opMat_same hs
    have h1 := (hrep T (hfin.mem_toFinset.1 hT)).2
    have h2 := (hrep T' (hfin.mem_toFinset.1 hT')).2
    rw [h, Ad_phase z hz, ← h2] at h1
    rw [h1]
  · intro e he i hi
    obtain ⟨T, hT, rfl⟩ := Finset.mem_image.1 he
    obtain ⟨h1, h2⟩ := (hrep T (hfin.mem_toFinset.1 hT)).1 i hi
    refine ⟨h1, ?_⟩
    rcases h2 with ⟨q, rfl⟩ | ⟨q, rfl⟩ | ⟨a, b, rfl⟩ <;> exact ⟨_, _, rfl⟩

end Verif.RB
