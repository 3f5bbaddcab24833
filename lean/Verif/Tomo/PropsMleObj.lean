import Verif.Tomo.PropsMle2
/-
C88: the objective of gate set tomography.
-/
set_option linter.unusedSimpArgs false
set_option linter.unusedVariables false
namespace Verif.Tomo
open Verif Verif.Counts Matrix
open scoped ComplexOrder

/-- Specification: the amplitude of outcome 0 after running the gates `w` in order. -/
noncomputable def crun (e r : ℕ → ℂ) (G : Str → ℕ → ℕ → ℂ) (w : List Str) : ℂ :=
  ∑ i ∈ Finset.range 4, e i * w.foldl (fun v g => fun i => ∑ j ∈ Finset.range 4, G g i j * v j) r i

/-- Specification: the sum of squared residuals over all triples. -/
noncomputable def residuals (fNames gs : List Str) (spec : Str → List Str) (probs : Dict Key ℝ) (p : List Str → ℝ) : ℝ :=
  (fNames.map fun fi => (fNames.map fun fj => (gs.map fun g =>
    (p (spec fj ++ [g] ++ spec fi) - probs.getD (.state [fj, g, fi]) 0) ^ 2).sum).sum).sum

/-- Specification: the labels and the gates of the SPAM circuits are known, and all triples have been measured. -/
structure MleInput (gs fNames : List Str) (fs : Dict Str (List Str)) (spec : Str → List Str) (probs : Dict Key ℝ) : Prop where
  nodup : gs.Nodup
  len : fNames.length = fs.length
  specs : ∀ f ∈ fNames, fs.get? f = some (spec f)
  known : ∀ f ∈ fNames, ∀ g ∈ spec f, g ∈ gs
  measured : ∀ fj ∈ fNames, ∀ g ∈ gs, ∀ fi ∈ fNames, probs.has (.state [fj, g, fi]) = true

theorem map_range_getElem {α β : Type} (l : List α) (n : ℕ) (hn : l.length = n) (f : ℕ → β) (g : α → β)
    (h : ∀ i (hi : i < l.length), f i = g l[i]) : (List.range n).map f = l.map g := by
  subst hn
  refine List.ext_getElem (by simp) ?_
  intro i h1 h2
  simp only [List.getElem_map, List.getElem_range]
  exact h i (by simpa using h1)

/-- The list of `_compute_objective_function_data`. -/
theorem objFnData_eq (gs fNames : List Str) (fs : Dict Str (List Str)) (spec : Str → List Str) (probs : Dict Key ℝ)
    (h : MleInput gs fNames fs spec probs) :
    objFnData gs fNames fs probs = some (fNames.flatMap fun fi => fNames.flatMap fun fj => gs.map fun g =>
      ((spec fj ++ [g] ++ spec fi).map gs.idxOf, probs.getD (.state [fj, g, fi]) 0)) := by
  have hidx : ∀ f ∈ fNames, ((spec f).mapM fun g => if g ∈ gs then some (gs.idxOf g) else none) = some ((spec f).map gs.idxOf) := by
    intro f hf
    exact mapM_eq_some (spec f) _ _ fun g hg => by simp only [if_pos (h.known f hf g hg)]
  unfold objFnData
  simp only
  rw [mapM_eq_some _ _ (fun ijk : ℕ × ℕ × ℕ =>
    (((spec (fNames.getD ijk.2.1 [])) ++ [gs.getD ijk.2.2 []] ++ spec (fNames.getD ijk.1 [])).map gs.idxOf,
      probs.getD (.state [fNames.getD ijk.2.1 [], gs.getD ijk.2.2 [], fNames.getD ijk.1 []]) 0))]
  · congr 1
    rw [← h.len]
    simp only [List.map_flatMap, List.map_map, Function.comp_def]
    simp only [List.flatMap_def]
    congr 1
    refine map_range_getElem fNames _ rfl _ _ fun i hi => ?_
    congr 1
    refine map_range_getElem fNames _ rfl _ _ fun j hj => ?_
    refine map_range_getElem gs _ rfl _ _ fun k hk => ?_
    rw [List.getD_eq_getElem _ _ hi, List.getD_eq_getElem _ _ hj, List.getD_eq_getElem _ _ hk]
  · rintro ⟨i, j, k⟩ hm
    simp only [List.mem_flatMap, List.mem_map, List.mem_range, Prod.mk.injEq] at hm
    obtain ⟨i', hi, j', hj, k', hk, rfl, rfl, rfl⟩ := hm
    rw [← h.len] at hi hj
    have hmi := List.getElem_mem hi
    have hmj := List.getElem_mem hj
    have hmk := List.getElem_mem hk
    obtain ⟨p, hp⟩ := Option.isSome_iff_exists.1 (h.measured _ hmj _ hmk _ hmi)
    simp only [List.getElem?_eq_getElem hi, List.getElem?_eq_getElem hj, List.getElem?_eq_getElem hk, Option.bind_eq_bind,
      Option.bind_some, hp, h.specs _ hmi, h.specs _ hmj, hidx _ hmi, hidx _ hmj]
    rw [List.getD_eq_getElem _ _ hi, List.getD_eq_getElem _ _ hj, List.getD_eq_getElem _ _ hk, Dict.getD, hp]
    simp only [List.map_append, List.map_cons, List.map_nil, Option.getD_some]
    rw [h.nodup.idxOf_getElem]

theorem predict_eq (e r : ℕ → ℂ) (gm : List (ℕ → ℕ → ℂ)) (gs : List Str) (w : List Str) :
    predictMle e r gm (w.map gs.idxOf) = crun e r (fun g => gm.getD (gs.idxOf g) fun _ _ => 0) w := by
  unfold predictMle crun
  simp only [List.foldl_map]

theorem sum_flatMap {α : Type} (l : List α) (f : α → List ℝ) : (l.flatMap f).sum = (l.map fun a => (f a).sum).sum := by
  induction l with
  | nil => rfl
  | cons a l ih => rw [List.flatMap_cons, List.sum_append, List.map_cons, List.sum_cons, ih]

/-- **C88** (objective).  The objective at a vector is the sum, over all pairs of SPAM circuits and all gates, of the squared difference
between the probability that the gate set of the vector predicts for the circuit and the measured one. -/
theorem C88_objective (gs fNames : List Str) (fs : Dict Str (List Str)) (spec : Str → List Str) (probs : Dict Key ℝ)
    (h : MleInput gs fNames fs spec probs) :
    ∃ data, objFnData gs fNames fs probs = some data ∧ ∀ x e r gm, splitInputVector gs.length x = some (e, r, gm) →
      mleObjective data gs.length x = some (residuals fNames gs spec probs fun w =>
        (crun e r (fun g => gm.getD (gs.idxOf g) fun _ _ => 0) w).re) := by
  refine ⟨_, objFnData_eq gs fNames fs spec probs h, ?_⟩
  intro x e r gm hx
  unfold mleObjective
  rw [hx]
  simp only [Option.bind_eq_bind, Option.bind_some, List.map_flatMap, sum_flatMap, List.map_map, Function.comp_def, predict_eq]
  rfl

theorem list_sum_zero {α : Type} (l : List α) (f : α → ℝ) (hf : ∀ a ∈ l, 0 ≤ f a) : (l.map f).sum = 0 ↔ ∀ a ∈ l, f a = 0 := by
  induction l with
  | nil => simp
  | cons a l ih =>
    have h1 := hf a (by simp)
    have h2 : 0 ≤ (l.map f).sum := List.sum_nonneg fun x hx => by
      obtain ⟨b, hb, rfl⟩ := List.mem_map.1 hx
      exact hf b (by simp [hb])
    have ih := ih fun b hb => hf b (by simp [hb])
    rw [List.map_cons, List.sum_cons, List.forall_mem_cons, ← ih]
    constructor
    · intro h; constructor <;> linarith
    · rintro ⟨a, b⟩; rw [a, b, add_zero]

/-- **C88** (minimum).  The sum is never negative and is zero exactly when every prediction equals the measured probability. -/
theorem C88_zero (fNames gs : List Str) (spec : Str → List Str) (probs : Dict Key ℝ) (p : List Str → ℝ) :
    0 ≤ residuals fNames gs spec probs p ∧ (residuals fNames gs spec probs p = 0 ↔
      ∀ fi ∈ fNames, ∀ fj ∈ fNames, ∀ g ∈ gs, p (spec fj ++ [g] ++ spec fi) = probs.getD (.state [fj, g, fi]) 0) := by
  have h1 : ∀ fi fj, 0 ≤ (gs.map fun g => (p (spec fj ++ [g] ++ spec fi) - probs.getD (.state [fj, g, fi]) 0) ^ 2).sum := fun fi fj =>
    List.sum_nonneg fun x hx => by
      obtain ⟨b, hb, rfl⟩ := List.mem_map.1 hx
      exact sq_nonneg _
  have h2 : ∀ fi, 0 ≤ (fNames.map fun fj => (gs.map fun g =>
      (p (spec fj ++ [g] ++ spec fi) - probs.getD (.state [fj, g, fi]) 0) ^ 2).sum).sum := fun fi =>
    List.sum_nonneg fun x hx => by
      obtain ⟨b, hb, rfl⟩ := List.mem_map.1 hx
      exact h1 _ _
  constructor
  · exact List.sum_nonneg fun x hx => by
      obtain ⟨b, hb, rfl⟩ := List.mem_map.1 hx
      exact h2 _
  · unfold residuals
    rw [list_sum_zero _ _ fun a _ => h2 a]
    refine forall₂_congr fun fi _ => ?_
    rw [list_sum_zero _ _ fun a _ => h1 fi a]
    refine forall₂_congr fun fj _ => ?_
    rw [list_sum_zero _ _ fun a _ => sq_nonneg _]
    refine forall₂_congr fun g _ => ?_
    rw [pow_eq_zero_iff two_ne_zero, sub_eq_zero]

/-! The true gate set is a minimum. -/

/-- A real vector of length 4 as the model's vectors. -/
noncomputable def vecOf (v : Fin 4 → ℝ) : ℕ → ℂ := fun k => if h : k < 4 then ((v ⟨k, h⟩ : ℝ) : ℂ) else 0

/-- The same for matrices. -/
noncomputable def matOf (m : Matrix (Fin 4) (Fin 4) ℝ) : ℕ → ℕ → ℂ := fun i j => if h : i < 4 ∧ j < 4 then ((m ⟨i, h.1⟩ ⟨j, h.2⟩ : ℝ) : ℂ) else 0

theorem foldl_vecOf (D : Device 4) (G : Str → ℕ → ℕ → ℂ) (w : List Str) (v : Fin 4 → ℝ) (u : ℕ → ℂ) (hu : ∀ k < 4, u k = vecOf v k)
    (hG : ∀ g ∈ w, ∀ i < 4, ∀ j < 4, G g i j = matOf (D.gate g) i j) :
    ∀ k < 4, w.foldl (fun v g => fun i => ∑ j ∈ Finset.range 4, G g i j * v j) u k =
      vecOf (w.foldl (fun v g => D.gate g *ᵥ v) v) k := by
  induction w generalizing v u with
  | nil => exact hu
  | cons g w ih =>
    rw [List.foldl_cons, List.foldl_cons]
    refine ih _ _ ?_ fun g' hg' => hG g' (by simp [hg'])
    intro k hk
    rw [Finset.sum_congr rfl fun j hj => by
      rw [hG g (by simp) k hk j (Finset.mem_range.1 hj), hu j (Finset.mem_range.1 hj)]]
    rw [Finset.sum_range fun j => matOf (D.gate g) k j * vecOf v j]
    simp only [vecOf, matOf, hk, Fin.is_lt, and_self, dif_pos, Matrix.mulVec, dotProduct]
    push_cast
    rfl

theorem crun_eq (D : Device 4) (e r : ℕ → ℂ) (G : Str → ℕ → ℕ → ℂ) (w : List Str) (he : ∀ k < 4, e k = vecOf D.E k)
    (hr : ∀ k < 4, r k = vecOf D.rho k) (hG : ∀ g ∈ w, ∀ i < 4, ∀ j < 4, G g i j = matOf (D.gate g) i j) :
    crun e r G w = ((D.run w : ℝ) : ℂ) := by
  unfold crun Device.run
  rw [Finset.sum_congr rfl fun j hj => by
      rw [he j (Finset.mem_range.1 hj), foldl_vecOf D G w D.rho r hr hG j (Finset.mem_range.1 hj)]]
  rw [Finset.sum_range fun j => vecOf D.E j * vecOf (w.foldl (fun v g => D.gate g *ᵥ v) D.rho) j]
  simp only [vecOf, Fin.is_lt, dif_pos, dotProduct]
  push_cast
  rfl

/-- **C88** (optimum).  On exact data of a device whose effect and state are positive semidefinite as 2×2 matrices and whose gates are
completely positive, the vector of the device is accepted as an initial value and the objective there is zero, its least value. -/
theorem C88_optimum (gs fNames : List Str) (fs : Dict Str (List Str)) (spec : Str → List Str) (probs : Dict Key ℝ)
    (h : MleInput gs fNames fs spec probs) (D : Device 4)
    (hex : ∀ fi ∈ fNames, ∀ fj ∈ fNames, ∀ g ∈ gs, probs.get? (.state [fj, g, fi]) = some (D.run (spec fj ++ [g] ++ spec fi)))
    (hE : (reshape2 (vecOf D.E)).PosSemidef) (hr : (reshape2 (vecOf D.rho)).PosSemidef)
    (hg : ∀ g ∈ gs, (choiOf (matOf (D.gate g))).PosSemidef)
    (schur : CM → CM × CM) (hs : ∀ m : CM, (m.mat m.n).IsHermitian → IsSchur m (schur m).1 (schur m).2) :
    ∃ data, objFnData gs fNames fs probs = some data ∧
      mleObjective data gs.length (joinInputVector schur (vecOf D.E) (vecOf D.rho) (gs.map fun g => matOf (D.gate g))) = some 0 ∧
      ∀ x v, mleObjective data gs.length x = some v → 0 ≤ v := by
  obtain ⟨data, hd, hobj⟩ := C88_objective gs fNames fs spec probs h
  refine ⟨data, hd, ?_, ?_⟩
  · obtain ⟨e', r', gm, h1, h2, h3, h4, h5⟩ := C56_round_trip schur hs (vecOf D.E) (vecOf D.rho) (gs.map fun g => matOf (D.gate g)) hE hr
      (by
        intro g hgm
        obtain ⟨g', hg', rfl⟩ := List.mem_map.1 hgm
        exact hg g' hg')
    rw [List.length_map] at h1 h4 h5
    rw [hobj _ _ _ _ h1]
    congr 1
    rw [(C88_zero _ _ _ _ _).2]
    intro fi hfi fj hfj g hgm
    rw [Dict.getD, hex fi hfi fj hfj g hgm, Option.getD_some]
    rw [crun_eq D e' r' _ _ h2 h3, Complex.ofReal_re]
    intro g' hg' i hi j hj
    have hg'' : g' ∈ gs := by
      simp only [List.mem_append, List.mem_singleton] at hg'
      rcases hg' with (hg' | rfl) | hg'
      · exact h.known fj hfj g' hg'
      · exact hgm
      · exact h.known fi hfi g' hg'
    have hlt := List.idxOf_lt_length_of_mem hg''
    rw [h5 _ hlt i hi j hj, List.getD_eq_getElem _ _ (by simpa using hlt)]
    simp only [List.getElem_map, List.getElem_idxOf]
  · intro x v hv
    cases hx : splitInputVector gs.length x with
    | none => unfold mleObjective at hv; rw [hx] at hv; cases hv
    | some s =>
      obtain ⟨e, r, gm⟩ := s
      rw [hobj x e r gm hx] at hv
      obtain rfl := Option.some.inj hv
      exact (C88_zero _ _ _ _ _).1

end Verif.Tomo
