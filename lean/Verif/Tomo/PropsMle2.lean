import Verif.Tomo.PropsMle
import Verif.Tomo.PropsGst
/-
C56: round trip of whole gate sets; C88: the objective; C89: the constraints.
-/
set_option linter.unusedSimpArgs false
set_option linter.unusedVariables false
namespace Verif.Tomo
open Verif Verif.Counts Matrix
open scoped ComplexOrder

/-! Pauli transfer matrices. -/

theorem pauli_orth (a b : ℕ) (ha : a < 4) (hb : b < 4) :
    ∑ r ∈ Finset.range 2, ∑ s ∈ Finset.range 2, pauli1 a s r * pauli1 b r s = if a = b then 2 else 0 := by
  simp only [Finset.sum_range_succ, Finset.sum_range_zero]
  interval_cases a <;> interval_cases b <;> simp [pauli1] <;> norm_num

theorem pauli_complete (i j i' j' : ℕ) (hi : i < 2) (hj : j < 2) (hi' : i' < 2) (hj' : j' < 2) :
    ∑ b ∈ Finset.range 4, pauli1 b i j * pauli1 b j' i' = if i = i' ∧ j = j' then 2 else 0 := by
  interval_cases i <;> interval_cases j <;> interval_cases i' <;> interval_cases j' <;> simp [pauli1, Finset.sum_range_succ] <;> norm_num

theorem choiToPtm_ptmToChoi (g : ℕ → ℕ → ℂ) (a b : ℕ) (ha : a < 4) (hb : b < 4) : choiToPtm (ptmToChoi g) a b = g a b := by
  have hterm : ∀ i ∈ Finset.range 2, ∀ j ∈ Finset.range 2, ∀ r ∈ Finset.range 2, ∀ s ∈ Finset.range 2,
      pauli1 a s r * (pauli1 b i j * ptmToChoi g (2 * i + r) (2 * j + s)) =
      (1/2) * ∑ a' ∈ Finset.range 4, ∑ b' ∈ Finset.range 4, g a' b' * ((pauli1 b i j * pauli1 b' j i) * (pauli1 a s r * pauli1 a' r s)) := by
    intro i hi j hj r hr s hs
    rw [Finset.mem_range] at hi hj hr hs
    unfold ptmToChoi
    rw [show (2 * i + r) / 2 = i by omega, show (2 * i + r) % 2 = r by omega, show (2 * j + s) / 2 = j by omega,
      show (2 * j + s) % 2 = s by omega]
    simp only [Finset.mul_sum]
    refine Finset.sum_congr rfl fun a' _ => Finset.sum_congr rfl fun b' _ => ?_
    ring
  have : choiToPtm (ptmToChoi g) a b = (1/2) * ∑ i ∈ Finset.range 2, ∑ j ∈ Finset.range 2, ∑ r ∈ Finset.range 2, ∑ s ∈ Finset.range 2,
      ((1/2) * ∑ a' ∈ Finset.range 4, ∑ b' ∈ Finset.range 4, g a' b' * ((pauli1 b i j * pauli1 b' j i) * (pauli1 a s r * pauli1 a' r s))) := by
    unfold choiToPtm
    congr 1
    exact Finset.sum_congr rfl fun i hi => Finset.sum_congr rfl fun j hj => Finset.sum_congr rfl fun r hr =>
      Finset.sum_congr rfl fun s hs => hterm i hi j hj r hr s hs
  rw [this]
  have h2 : (1/2 : ℂ) * ∑ i ∈ Finset.range 2, ∑ j ∈ Finset.range 2, ∑ r ∈ Finset.range 2, ∑ s ∈ Finset.range 2,
      ((1/2) * ∑ a' ∈ Finset.range 4, ∑ b' ∈ Finset.range 4, g a' b' * ((pauli1 b i j * pauli1 b' j i) * (pauli1 a s r * pauli1 a' r s))) =
      (1/4) * ∑ a' ∈ Finset.range 4, ∑ b' ∈ Finset.range 4, g a' b' *
        ((∑ j ∈ Finset.range 2, ∑ i ∈ Finset.range 2, pauli1 b i j * pauli1 b' j i) *
          (∑ r ∈ Finset.range 2, ∑ s ∈ Finset.range 2, pauli1 a s r * pauli1 a' r s)) := by
    simp only [Finset.sum_range_succ, Finset.sum_range_zero]
    ring
  rw [h2]
  have h3 : ∀ a' ∈ Finset.range 4, ∀ b' ∈ Finset.range 4, g a' b' *
        ((∑ j ∈ Finset.range 2, ∑ i ∈ Finset.range 2, pauli1 b i j * pauli1 b' j i) *
          (∑ r ∈ Finset.range 2, ∑ s ∈ Finset.range 2, pauli1 a s r * pauli1 a' r s)) =
      if a = a' then (if b = b' then 4 * g a b else 0) else 0 := by
    intro a' ha' b' hb'
    rw [pauli_orth b b' hb (Finset.mem_range.1 hb'), pauli_orth a a' ha (Finset.mem_range.1 ha')]
    split_ifs with h h'
    · subst h; subst h'; ring
    all_goals simp_all
  rw [Finset.sum_congr rfl fun a' ha' => Finset.sum_congr rfl fun b' hb' => h3 a' ha' b' hb']
  rw [Finset.sum_eq_single_of_mem a (Finset.mem_range.2 ha) (fun x _ hx => by simp [Ne.symm hx])]
  simp only [if_true]
  rw [Finset.sum_eq_single_of_mem b (Finset.mem_range.2 hb) (fun x _ hx => by simp [Ne.symm hx])]
  simp only [if_true]
  ring

theorem choiToPtm_congr (c c' : ℕ → ℕ → ℂ) (h : ∀ i < 4, ∀ j < 4, c i j = c' i j) : choiToPtm c = choiToPtm c' := by
  funext a b
  unfold choiToPtm
  congr 1
  refine Finset.sum_congr rfl fun i hi => Finset.sum_congr rfl fun j hj => Finset.sum_congr rfl fun r hr => Finset.sum_congr rfl fun s hs => ?_
  rw [Finset.mem_range] at hi hj hr hs
  rw [h _ (by omega) _ (by omega)]

/-! Round trip. -/

/-- Specification: the 2×2 matrix whose rows are the first and the last two entries of a vector. -/
def reshape2 (v : ℕ → ℂ) : Matrix (Fin 2) (Fin 2) ℂ := !![v 0, v 1; v 2, v 3]

/-- Specification: the Choi matrix of a Pauli transfer matrix. -/
noncomputable def choiOf (g : ℕ → ℕ → ℂ) : Matrix (Fin 4) (Fin 4) ℂ := Matrix.of fun x y => ptmToChoi g x y

theorem gram_unpack (schur : CM → CM × CM) (m : CM) (hs : IsSchur m (schur m).1 (schur m).2) (hm : (m.mat m.n).PosSemidef) :
    ∃ t, vecToComplexMatrix (complexMatrixToVec (choleskyLike schur m)) = some t ∧ (gramOf t).Same m := by
  obtain ⟨t, h1, h2, h3⟩ := C56_pack (choleskyLike schur m)
  refine ⟨t, h1, ?_⟩
  obtain ⟨h4, h5⟩ := C56_decomposition schur m hs hm
  have hn : t.n = m.n := h2
  refine ⟨hn, ?_⟩
  intro i hi j hj
  have hi' : i < t.n := hi
  have hj' : j < t.n := hj
  rw [← h5 i (hn ▸ hi') j (hn ▸ hj')]
  unfold gramOf
  simp only
  rw [h2]
  refine Finset.sum_congr rfl fun k hk => ?_
  rw [Finset.mem_range, ← h2] at hk
  rw [h3 i hi' k hk, h3 j hj' k hk]

theorem mat2 (v : ℕ → ℂ) : (CM.mat ⟨2, fun i j => v (2 * i + j)⟩ 2) = reshape2 v := by
  ext i j
  fin_cases i <;> fin_cases j <;> rfl

/-- **C56** (gate sets).  A gate set whose effect and state are positive semidefinite as 2×2 matrices and whose gates are completely
positive is recovered from its vector representation. -/
theorem C56_round_trip (schur : CM → CM × CM) (hs : ∀ m : CM, (m.mat m.n).IsHermitian → IsSchur m (schur m).1 (schur m).2)
    (e r : ℕ → ℂ) (gs : List (ℕ → ℕ → ℂ)) (he : (reshape2 e).PosSemidef) (hr : (reshape2 r).PosSemidef)
    (hg : ∀ g ∈ gs, (choiOf g).PosSemidef) :
    ∃ e' r' gs', splitInputVector gs.length (joinInputVector schur e r gs) = some (e', r', gs') ∧
      (∀ k < 4, e' k = e k) ∧ (∀ k < 4, r' k = r k) ∧ gs'.length = gs.length ∧
      ∀ n < gs.length, ∀ a < 4, ∀ b < 4, gs'.getD n (fun _ _ => 0) a b = gs.getD n (fun _ _ => 0) a b := by
  have hte : ∀ v : ℕ → ℂ, (reshape2 v).PosSemidef →
      ∃ t, vecToComplexMatrix (complexMatrixToVec (choleskyLike schur ⟨2, fun i j => v (2 * i + j)⟩)) = some t ∧
        ∀ k < 4, (gramOf t).e (k / 2) (k % 2) = v k := by
    intro v hv
    have hv' : (CM.mat ⟨2, fun i j => v (2 * i + j)⟩ 2).PosSemidef := by rw [mat2]; exact hv
    obtain ⟨t, h1, h2, h3⟩ := gram_unpack schur ⟨2, fun i j => v (2 * i + j)⟩ (hs _ hv'.1) hv'
    refine ⟨t, h1, fun k hk => ?_⟩
    have h2' : (gramOf t).n = 2 := h2
    rw [h3 _ (by omega) _ (by omega)]
    simp only
    rw [Nat.div_add_mod]
  obtain ⟨te, he1, he2⟩ := hte e he
  obtain ⟨tr, hr1, hr2⟩ := hte r hr
  have htg : ∀ g ∈ gs, ∃ t, vecToComplexMatrix (complexMatrixToVec (choleskyLike schur ⟨4, ptmToChoi g⟩)) = some t ∧
      ∀ a < 4, ∀ b < 4, choiToPtm (gramOf t).e a b = g a b := by
    intro g hgm
    have hv' : (CM.mat ⟨4, ptmToChoi g⟩ 4).PosSemidef := hg g hgm
    obtain ⟨t, h1, h2, h3⟩ := gram_unpack schur ⟨4, ptmToChoi g⟩ (hs _ hv'.1) hv'
    refine ⟨t, h1, fun a ha b hb => ?_⟩
    have h2' : (gramOf t).n = 4 := h2
    rw [choiToPtm_congr (gramOf t).e (ptmToChoi g) fun i hi j hj => h3 i (by omega) j (by omega)]
    exact choiToPtm_ptmToChoi g a b ha hb
  have : Nonempty CM := ⟨te⟩
  choose! tg htg using htg
  have hsplit : splitList (joinInputVector schur e r gs) ([8, 8] ++ List.replicate gs.length 32) =
      some (complexMatrixToVec (choleskyLike schur ⟨2, fun i j => e (2 * i + j)⟩) ::
        complexMatrixToVec (choleskyLike schur ⟨2, fun i j => r (2 * i + j)⟩) ::
        gs.map fun g => complexMatrixToVec (choleskyLike schur ⟨4, ptmToChoi g⟩)) := by
    rw [C56_split]
    constructor
    · unfold joinInputVector
      rw [List.flatten_cons, List.flatten_cons, ← List.flatMap_def, List.append_assoc]
    · rw [List.map_cons, List.map_cons, length_complexMatrixToVec, length_complexMatrixToVec, List.map_map]
      have : gs.map (List.length ∘ fun g => complexMatrixToVec (choleskyLike schur ⟨4, ptmToChoi g⟩)) = List.replicate gs.length 32 := by
        rw [← List.map_const' ]
        refine List.map_congr_left fun g _ => ?_
        rw [Function.comp_apply, length_complexMatrixToVec]
        rfl
      rw [this]
      rfl
  have hmap : (complexMatrixToVec (choleskyLike schur ⟨2, fun i j => e (2 * i + j)⟩) ::
        complexMatrixToVec (choleskyLike schur ⟨2, fun i j => r (2 * i + j)⟩) ::
        gs.map fun g => complexMatrixToVec (choleskyLike schur ⟨4, ptmToChoi g⟩)).mapM vecToComplexMatrix = some (te :: tr :: gs.map tg) := by
    rw [List.mapM_cons, he1, List.mapM_cons, hr1, List.mapM_map]
    rw [mapM_eq_some gs (vecToComplexMatrix ∘ fun g => complexMatrixToVec (choleskyLike schur ⟨4, ptmToChoi g⟩)) tg
      fun g hgm => (htg g hgm).1]
    rfl
  refine ⟨fun k => (gramOf te).e (k / 2) (k % 2), fun k => (gramOf tr).e (k / 2) (k % 2),
    (gs.map tg).map fun g => choiToPtm (gramOf g).e, ?_, he2, hr2, ?_, ?_⟩
  · unfold splitInputVector
    rw [hsplit]
    simp only [Option.bind_eq_bind, Option.bind_some]
    rw [hmap]
    rfl
  · simp
  · intro n hn a ha b hb
    rw [List.getD_eq_getElem _ _ (by simpa using hn), List.getD_eq_getElem _ _ hn]
    simp only [List.getElem_map]
    exact (htg _ (List.getElem_mem hn)).2 a ha b hb

/-! The meaning of the vector. -/

theorem vec_size (v : List ℝ) (n : ℕ) (h : v.length = 2 * n * n) : ∃ t, vecToComplexMatrix v = some t ∧ t.n = n := by
  unfold vecToComplexMatrix
  simp only [h, sqrt_two_sq, ne_eq, not_true_eq_false, if_false]
  exact ⟨_, rfl, rfl⟩

/-- What the parts of a vector stand for. -/
theorem split_spec (n : ℕ) (x : List ℝ) (s : (ℕ → ℂ) × (ℕ → ℂ) × List (ℕ → ℕ → ℂ)) (h : splitInputVector n x = some s) :
    ∃ (te tr : CM) (ts : List CM), te.n = 2 ∧ tr.n = 2 ∧ (∀ t ∈ ts, t.n = 4) ∧ ts.length = n ∧
      s = (fun k => (gramOf te).e (k / 2) (k % 2), fun k => (gramOf tr).e (k / 2) (k % 2), ts.map fun t => choiToPtm (gramOf t).e) := by
  unfold splitInputVector at h
  cases hp : splitList x ([8, 8] ++ List.replicate n 32) with
  | none => rw [hp] at h; cases h
  | some parts =>
    rw [hp] at h
    obtain ⟨h1, h2⟩ := (C56_split _ _ _).1 hp
    obtain ⟨pe, pr, pg, rfl⟩ : ∃ pe pr pg, parts = pe :: pr :: pg := by
      match parts, h2 with
      | [], h2 => simp at h2
      | [_], h2 => simp at h2
      | pe :: pr :: pg, _ => exact ⟨pe, pr, pg, rfl⟩
    simp only [List.map_cons, List.cons_append, List.nil_append, List.cons.injEq] at h2
    obtain ⟨a1, a2, a3⟩ := h2
    obtain ⟨te, b1, b2⟩ := vec_size pe 2 (by omega)
    obtain ⟨tr, c1, c2⟩ := vec_size pr 2 (by omega)
    have hg : ∀ p ∈ pg, ∃ t, vecToComplexMatrix p = some t ∧ t.n = 4 := by
      intro p hp
      refine vec_size p 4 ?_
      have : p.length ∈ List.replicate n 32 := a3 ▸ List.mem_map.2 ⟨p, hp, rfl⟩
      exact (List.eq_of_mem_replicate this)
    have : Nonempty CM := ⟨te⟩
    choose! tg htg using hg
    refine ⟨te, tr, pg.map tg, b2, c2, ?_, ?_, ?_⟩
    · intro t ht
      obtain ⟨p, hp, rfl⟩ := List.mem_map.1 ht
      exact (htg p hp).2
    · have := congrArg List.length a3
      simpa using this
    · simp only [Option.bind_eq_bind, Option.bind_some] at h
      rw [List.mapM_cons, b1, List.mapM_cons, c1, mapM_eq_some pg vecToComplexMatrix tg fun p hp => (htg p hp).1] at h
      exact (Option.some.inj h).symm

/-- Every choice of matrices is a vector. -/
theorem split_pack (te tr : CM) (ts : List CM) (he : te.n = 2) (hr : tr.n = 2) (ht : ∀ t ∈ ts, t.n = 4) :
    ∃ x s, splitInputVector ts.length x = some s ∧ (∀ k < 4, s.1 k = (gramOf te).e (k / 2) (k % 2)) ∧
      (∀ k < 4, s.2.1 k = (gramOf tr).e (k / 2) (k % 2)) ∧ s.2.2 = ts.map fun t => choiToPtm (gramOf t).e := by
  have hgram : ∀ t t' : CM, t'.Same t → (gramOf t').Same (gramOf t) := by
    intro t t' h
    refine ⟨h.1, fun i hi j hj => ?_⟩
    unfold gramOf
    simp only
    rw [h.1]
    refine Finset.sum_congr rfl fun k hk => ?_
    rw [Finset.mem_range, ← h.1] at hk
    rw [h.2 i hi k hk, h.2 j hj k hk]
  obtain ⟨te', a1, a2⟩ := C56_pack te
  obtain ⟨tr', b1, b2⟩ := C56_pack tr
  choose tg htg using fun t => C56_pack t
  have hsplit : splitList (complexMatrixToVec te ++ (complexMatrixToVec tr ++ ts.flatMap complexMatrixToVec))
      ([8, 8] ++ List.replicate ts.length 32) = some (complexMatrixToVec te :: complexMatrixToVec tr :: ts.map complexMatrixToVec) := by
    rw [C56_split]
    constructor
    · rw [List.flatten_cons, List.flatten_cons, ← List.flatMap_def]
    · rw [List.map_cons, List.map_cons, length_complexMatrixToVec, length_complexMatrixToVec, List.map_map, he, hr]
      have : ts.map (List.length ∘ complexMatrixToVec) = List.replicate ts.length 32 := by
        rw [← List.map_const']
        refine List.map_congr_left fun t htm => ?_
        rw [Function.comp_apply, length_complexMatrixToVec, ht t htm]
      rw [this]
      rfl
  have hmap : (complexMatrixToVec te :: complexMatrixToVec tr :: ts.map complexMatrixToVec).mapM vecToComplexMatrix =
      some (te' :: tr' :: ts.map tg) := by
    rw [List.mapM_cons, a1, List.mapM_cons, b1, List.mapM_map]
    rw [mapM_eq_some ts (vecToComplexMatrix ∘ complexMatrixToVec) tg fun t _ => (htg t).1]
    rfl
  refine ⟨complexMatrixToVec te ++ (complexMatrixToVec tr ++ ts.flatMap complexMatrixToVec), (fun k => (gramOf te').e (k / 2) (k % 2), fun k => (gramOf tr').e (k / 2) (k % 2),
    (ts.map tg).map fun g => choiToPtm (gramOf g).e), ?_, ?_, ?_, ?_⟩
  rotate_left
  · intro k hk
    have : (gramOf te').n = 2 := a2.1.trans he
    exact (hgram te te' a2).2 _ (by omega) _ (by omega)
  · intro k hk
    have : (gramOf tr').n = 2 := b2.1.trans hr
    exact (hgram tr tr' b2).2 _ (by omega) _ (by omega)
  · rw [List.map_map]
    refine List.map_congr_left fun t htm => ?_
    have : (gramOf (tg t)).n = 4 := (htg t).2.1.trans (ht t htm)
    exact choiToPtm_congr _ _ fun i hi j hj => (hgram t (tg t) (htg t).2).2 i (by omega) j (by omega)
  · unfold splitInputVector
    rw [hsplit]
    simp only [Option.bind_eq_bind, Option.bind_some]
    rw [hmap]
    rfl

end Verif.Tomo
