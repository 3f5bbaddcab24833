import Verif.Tomo.LemmasSpan
import Verif.Tomo.PropsPsd
import Verif.Tomo.PropsWts
import Verif.Tomo.LemmasEigh
/-
C51: linear inversion of exact data returns the true state.  C84: the same for processes.
-/
set_option linter.unusedSectionVars false
set_option linter.unusedSimpArgs false
set_option linter.unusedVariables false
namespace Verif.Tomo
open Verif Verif.Quantum Verif.Counts

/-! ### Specification of the least squares problem -/

/-- The product of a row of the basis matrix with a vector. -/
noncomputable def rowDot (op : SM) (x : ℕ → ℂ) : ℂ := ∑ k ∈ Finset.range (op.dim * op.dim), operatorRow op k * x k

/-- The factor of row `i` (lstsq_fit.py:94-97); without weights it is 1. -/
def weightAt (weights : Option (List ℝ)) (i : ℕ) : ℝ :=
  match weights with
  | none => 1
  | some ws => ws.getD i 0

/-- `‖a·x − b‖²` with `a`, `b` multiplied by the weights, the function `lstsq` minimises (lstsq_fit.py:84-100). -/
noncomputable def residual (rows : List SM) (freqs : List ℝ) (weights : Option (List ℝ)) (x : ℕ → ℂ) : ℝ :=
  ∑ i ∈ Finset.range rows.length,
    Complex.normSq ((weightAt weights i : ℂ) * rowDot (rows.getD i smOne) x - (weightAt weights i : ℂ) * (freqs.getD i 0 : ℂ))

/-- `x` is a solution of the least squares problem. -/
def IsLstsq (rows : List SM) (freqs : List ℝ) (weights : Option (List ℝ)) (x : ℕ → ℂ) : Prop :=
  ∀ y, residual rows freqs weights x ≤ residual rows freqs weights y

/-- No weights, or one positive weight per row. -/
def PosWeights (rows : List SM) (weights : Option (List ℝ)) : Prop :=
  ∀ ws, weights = some ws → ws.length = rows.length ∧ ∀ w ∈ ws, 0 < w

/-! ### Helpers -/

theorem sum_square {d : ℕ} (hd : 0 < d) (f : ℕ → ℂ) :
    ∑ k ∈ Finset.range (d * d), f k = ∑ b ∈ Finset.range d, ∑ a ∈ Finset.range d, f (b * d + a) := by
  have : ∀ m, ∑ k ∈ Finset.range (m * d), f k = ∑ b ∈ Finset.range m, ∑ a ∈ Finset.range d, f (b * d + a) := by
    intro m
    induction m with
    | zero => simp
    | succ m ih => rw [Nat.succ_mul, Finset.sum_range_add, ih, Finset.sum_range_succ]
  exact this d

theorem rowDot_eq (op : SM) (hd : 0 < op.dim) (x : ℕ → ℂ) :
    rowDot op x = ∑ b ∈ Finset.range op.dim, ∑ a ∈ Finset.range op.dim, (starRingEnd ℂ) (op.e a b) * x (b * op.dim + a) := by
  unfold rowDot
  rw [sum_square hd]
  refine Finset.sum_congr rfl fun b hb => Finset.sum_congr rfl fun a ha => ?_
  rw [Finset.mem_range] at ha hb
  unfold operatorRow
  rw [show (b * op.dim + a) % op.dim = a from by
    rw [Nat.mul_comm, Nat.mul_add_mod, Nat.mod_eq_of_lt ha], show (b * op.dim + a) / op.dim = b from by
    rw [Nat.mul_comm, Nat.mul_add_div hd, Nat.div_eq_of_lt ha, Nat.add_zero]]

/-- For a Hermitian operator, row times vectorised matrix is the trace of the product. -/
theorem rowDot_hermitian (op : SM) (d : ℕ) (hdim : op.dim = d) (hd : 0 < d)
    (hh : ∀ a b, a < d → b < d → (starRingEnd ℂ) (op.e a b) = op.e b a) (x : ℕ → ℂ) :
    rowDot op x = traceMul d op.e fun a b => x (b * d + a) := by
  rw [rowDot_eq op (by rw [hdim]; exact hd), hdim]
  unfold traceMul
  refine Finset.sum_congr rfl fun b hb => Finset.sum_congr rfl fun a ha => ?_
  rw [hh a b (Finset.mem_range.1 ha) (Finset.mem_range.1 hb)]

theorem traceMul_congr (d : ℕ) {M M' ρ ρ' : ℕ → ℕ → ℂ} (hM : ∀ a b, a < d → b < d → M a b = M' a b)
    (hρ : ∀ a b, a < d → b < d → ρ a b = ρ' a b) : traceMul d M ρ = traceMul d M' ρ' := by
  unfold traceMul
  refine Finset.sum_congr rfl fun a ha => Finset.sum_congr rfl fun b hb => ?_
  rw [Finset.mem_range] at ha hb
  rw [hM a b ha hb, hρ b a hb ha]

theorem traceMul_sub (d : ℕ) (M ρ σ : ℕ → ℕ → ℂ) : traceMul d M (fun a b => ρ a b - σ a b) = traceMul d M ρ - traceMul d M σ := by
  unfold traceMul
  rw [← Finset.sum_sub_distrib]
  refine Finset.sum_congr rfl fun a _ => ?_
  rw [← Finset.sum_sub_distrib]
  exact Finset.sum_congr rfl fun b _ => by ring

/-- A matrix as a column-major vector. -/
def vecF (d : ℕ) (ρ : ℕ → ℕ → ℂ) : ℕ → ℂ := fun k => ρ (k % d) (k / d)

theorem vecF_get (d : ℕ) (ρ : ℕ → ℕ → ℂ) (a b : ℕ) (ha : a < d) : vecF d ρ (b * d + a) = ρ a b := by
  unfold vecF
  rw [show (b * d + a) % d = a from by rw [Nat.mul_comm, Nat.mul_add_mod, Nat.mod_eq_of_lt ha],
    show (b * d + a) / d = b from by rw [Nat.mul_comm, Nat.mul_add_div (by omega), Nat.div_eq_of_lt ha, Nat.add_zero]]

/-- The true matrix fits exact data exactly. -/
theorem residual_exact (d : ℕ) (hd : 0 < d) (rows : List SM) (freqs : List ℝ) (weights : Option (List ℝ)) (ρ : ℕ → ℕ → ℂ)
    (hrows : ∀ op ∈ rows, op.dim = d ∧ ∀ a b, a < d → b < d → (starRingEnd ℂ) (op.e a b) = op.e b a)
    (hexact : ∀ i < rows.length, (freqs.getD i 0 : ℂ) = traceMul d (rows.getD i smOne).e ρ) :
    residual rows freqs weights (vecF d ρ) = 0 := by
  unfold residual
  refine Finset.sum_eq_zero fun i hi => ?_
  rw [Finset.mem_range] at hi
  have hm : rows.getD i smOne ∈ rows := by rw [List.getD_eq_getElem _ _ hi]; exact List.getElem_mem _
  rw [rowDot_hermitian _ _ (hrows _ hm).1 hd (hrows _ hm).2, hexact i hi,
    traceMul_congr d (fun _ _ _ _ => rfl) (fun a b ha _ => vecF_get d ρ a b ha), sub_self, map_zero]

/-- Exact data on a spanning set of Hermitian tensor products has one least squares solution: the true matrix. -/
theorem lstsq_exact (N : ℕ) (rows : List SM) (freqs : List ℝ) (weights : Option (List ℝ)) (ρ : ℕ → ℕ → ℂ) (Fam : ℕ → Set (Mat2 ℂ))
    (hspan : ∀ j < N, ∀ M, M ∈ Submodule.span ℂ (Fam j))
    (hrows : ∀ op ∈ rows, op.dim = 2 ^ N ∧ ∀ a b, a < 2 ^ N → b < 2 ^ N → (starRingEnd ℂ) (op.e a b) = op.e b a)
    (hexact : ∀ i < rows.length, (freqs.getD i 0 : ℂ) = traceMul (2 ^ N) (rows.getD i smOne).e ρ)
    (hcover : ∀ B : ℕ → Mat2 ℂ, (∀ j < N, B j ∈ Fam j) → ∃ op ∈ rows, ∀ a b, a < 2 ^ N → b < 2 ^ N →
      op.e a b = ∏ j ∈ Finset.range N, B j (a.testBit j) (b.testBit j))
    (hw : PosWeights rows weights) (x : ℕ → ℂ) (hx : IsLstsq rows freqs weights x) (a b : ℕ) (ha : a < 2 ^ N) (hb : b < 2 ^ N) :
    x (b * 2 ^ N + a) = ρ a b := by
  have hd : 0 < 2 ^ N := Nat.two_pow_pos N
  have hdot : ∀ i < rows.length, ∀ y, rowDot (rows.getD i smOne) y =
      traceMul (2 ^ N) (rows.getD i smOne).e fun a b => y (b * 2 ^ N + a) := by
    intro i hi y
    have hm : rows.getD i smOne ∈ rows := by rw [List.getD_eq_getElem _ _ hi]; exact List.getElem_mem _
    exact rowDot_hermitian _ _ (hrows _ hm).1 hd (hrows _ hm).2 y
  have hzero := residual_exact (2 ^ N) hd rows freqs weights ρ hrows hexact
  have hx0 : residual rows freqs weights x ≤ 0 := hzero ▸ hx _
  have hterm : ∀ i < rows.length, rowDot (rows.getD i smOne) x = (freqs.getD i 0 : ℂ) := by
    intro i hi
    have hnn : ∀ j ∈ Finset.range rows.length, 0 ≤ Complex.normSq ((weightAt weights j : ℂ) * rowDot (rows.getD j smOne) x -
        (weightAt weights j : ℂ) * (freqs.getD j 0 : ℂ)) := fun j _ => Complex.normSq_nonneg _
    have hle := Finset.single_le_sum hnn (Finset.mem_range.2 hi)
    have h0 := le_antisymm (le_trans hle hx0) (Complex.normSq_nonneg _)
    rw [Complex.normSq_eq_zero, ← mul_sub, mul_eq_zero] at h0
    have hwp : weightAt weights i ≠ 0 := by
      cases weights with
      | none => exact one_ne_zero
      | some ws =>
        obtain ⟨h1, h2⟩ := hw ws rfl
        have hi' : i < ws.length := by rw [h1]; exact hi
        show ws.getD i 0 ≠ 0
        rw [List.getD_eq_getElem _ _ hi']; exact ne_of_gt (h2 _ (List.getElem_mem _))
    rcases h0 with h0 | h0
    · exact absurd (by exact_mod_cast h0) hwp
    · exact sub_eq_zero.1 h0
  have key := zero_of_pairing N (fun a b => x (b * 2 ^ N + a) - ρ a b) Fam hspan ?_ a b ha hb
  · exact sub_eq_zero.1 key
  · intro B hB
    obtain ⟨op, hop, he⟩ := hcover B hB
    obtain ⟨i, hi, rfl⟩ := List.mem_iff_getElem.1 hop
    have hg : rows.getD i smOne = rows[i] := List.getD_eq_getElem _ _ hi
    unfold pairing
    rw [traceMul_congr (2 ^ N) (M' := (rows.getD i smOne).e) (fun a b ha hb => by rw [hg, he a b ha hb]) (fun _ _ _ _ => rfl),
      traceMul_sub, ← hdot i hi, hterm i hi, hexact i hi, sub_self]

theorem conj_projector (a : Str) (o x y : Bool) : (starRingEnd ℂ) (pauliProjector a o x y) = pauliProjector a o y x := by
  unfold pauliProjector
  cases o <;> cases x <;> cases y <;> simp only [map_div₀, map_add, map_mul, map_ofNat, if_true, Bool.false_eq_true, if_false,
    map_one, map_neg, map_zero, reduceCtorEq] <;> split <;> simp <;> split <;> simp

theorem zip_flatMap {α β γ : Type} (l : List α) (f : α → List β) (g : α → List γ) (h : ∀ a ∈ l, (f a).length = (g a).length) :
    (l.flatMap f).zip (l.flatMap g) = l.flatMap fun a => (f a).zip (g a) := by
  induction l with
  | nil => rfl
  | cons a l ih =>
    rw [List.flatMap_cons, List.flatMap_cons, List.flatMap_cons, List.zip_append (h a (by simp)), ih fun b hb => h b (by simp [hb])]

theorem length_flatMap_eq {α β γ : Type} (l : List α) (f : α → List β) (g : α → List γ) (h : ∀ a ∈ l, (f a).length = (g a).length) :
    (l.flatMap f).length = (l.flatMap g).length := by
  induction l with
  | nil => rfl
  | cons a l ih =>
    rw [List.flatMap_cons, List.flatMap_cons, List.length_append, List.length_append, h a (by simp), ih fun b hb => h b (by simp [hb])]

theorem length_flatMap_const {α β : Type} (l : List α) (f : α → List β) (d : ℕ) (h : ∀ a ∈ l, (f a).length = d) :
    (l.flatMap f).length = l.length * d := by
  induction l with
  | nil => simp
  | cons a l ih =>
    rw [List.flatMap_cons, List.length_append, h a (by simp), ih fun b hb => h b (by simp [hb]), List.length_cons]; ring

/-- What `_fitter_data` makes of a dictionary all of whose labels have operators. -/
theorem fitterData_eq (meas : Str → Bool → Option SM) (prep : Str → Option SM) (data : Dict Key Counts) (n : ℕ) (hne : data ≠ [])
    (hn : ∀ kv ∈ data, keyLen kv.1 = n)
    (g : Key → List SM) (hg : ∀ kv ∈ data, labelOps meas prep kv.1 = some (g kv.1)) :
    fitterData meas prep data = some (data.flatMap fun kv => frequencies (countsArray n kv.2), data.flatMap fun kv => g kv.1) := by
  have hmap : data.mapM (fun kv => labelOps meas prep kv.1) = some (data.map fun kv => g kv.1) := mapM_eq_some _ _ _ hg
  cases data with
  | nil => exact absurd rfl hne
  | cons kv rest =>
    obtain ⟨k0, c0⟩ := kv
    have hn0 := hn (k0, c0) (by simp)
    simp only [fitterData]
    rw [hmap]
    subst hn0
    simp only [Option.bind_eq_bind, Option.bind_some, List.flatMap_def]
    cases k0 <;> rfl

theorem length_frequencies (n : ℕ) (c : Counts) : (frequencies (countsArray n c)).length = 2 ^ n := by
  simp [frequencies, countsArray, length_countKeys]

/-- Row `i` of the data belongs to one label and outcome. -/
theorem row_index (n : ℕ) (data : Dict Key Counts) (g : Key → List SM) (hlen : ∀ kv ∈ data, (g kv.1).length = 2 ^ n) (i : ℕ)
    (hi : i < (data.flatMap fun kv => g kv.1).length) :
    ∃ kv ∈ data, ∃ k, ∃ hk : k < (g kv.1).length, (data.flatMap fun kv => g kv.1).getD i smOne = (g kv.1)[k] ∧
      (data.flatMap fun kv => frequencies (countsArray n kv.2)).getD i 0 = (frequencies (countsArray n kv.2)).getD k 0 := by
  have hz := zip_flatMap data (fun kv => g kv.1) (fun kv => frequencies (countsArray n kv.2))
    (fun kv hkv => by rw [hlen kv hkv, length_frequencies])
  have hi2 : i < (data.flatMap fun kv => frequencies (countsArray n kv.2)).length := by
    rw [← length_flatMap_eq data (fun kv => g kv.1) (fun kv => frequencies (countsArray n kv.2))
      (fun kv hkv => by rw [hlen kv hkv, length_frequencies])]
    exact hi
  have hmem : ((data.flatMap fun kv => g kv.1)[i], (data.flatMap fun kv => frequencies (countsArray n kv.2))[i]) ∈
      (data.flatMap fun kv => g kv.1).zip (data.flatMap fun kv => frequencies (countsArray n kv.2)) :=
    List.mem_iff_getElem.2 ⟨i, by simp only [List.length_zip]; omega, by rw [List.getElem_zip]⟩
  rw [hz] at hmem
  obtain ⟨kv, hkv, hm⟩ := List.mem_flatMap.1 hmem
  obtain ⟨k, hk, he⟩ := List.mem_iff_getElem.1 hm
  rw [List.getElem_zip, Prod.mk.injEq] at he
  have hk' : k < (g kv.1).length ∧ k < (frequencies (countsArray n kv.2)).length := by
    rw [List.length_zip] at hk; omega
  refine ⟨kv, hkv, k, hk'.1, ?_, ?_⟩
  · rw [List.getD_eq_getElem _ _ hi]; exact he.1.symm
  · rw [List.getD_eq_getElem _ _ hi2, List.getD_eq_getElem _ _ hk'.2]; exact he.2.symm

/-! ### C51 -/

/-- **C51** (span): two matrices with the same expectation values for every operator the fitter uses, over all `3^n` labels, are
equal. -/
theorem C51_span (n : ℕ) (ρ σ : ℕ → ℕ → ℂ)
    (h : ∀ l, IsLabel xyz n l → ∀ ops, measurementOps pauliMeas l = some ops → ∀ M ∈ ops,
      traceMul (2 ^ n) M.e ρ = traceMul (2 ^ n) M.e σ) (a b : ℕ) (ha : a < 2 ^ n) (hb : b < 2 ^ n) : ρ a b = σ a b := by
  have key := zero_of_pairing n (fun a b => ρ a b - σ a b) (fun _ => measFam) (fun _ _ M => span_measFam M) ?_ a b ha hb
  · exact sub_eq_zero.1 key
  · intro B hB
    have hch : ∀ j : ℕ, ∃ p : Str × Bool, j < n → p.1 ∈ xyz ∧ B j = pauliProjector p.1 p.2 := by
      intro j
      by_cases hj : j < n
      · obtain ⟨a, ha, o, e⟩ := hB j hj
        exact ⟨(a, o), fun _ => ⟨ha, e⟩⟩
      · exact ⟨([], false), fun h => absurd h hj⟩
    choose p hp using hch
    have hl : IsLabel xyz n ((List.range n).map fun j => (p j).1) := by
      refine ⟨by simp, fun a ha => ?_⟩
      obtain ⟨j, hj, rfl⟩ := List.mem_map.1 ha
      exact (hp j (List.mem_range.1 hj)).1
    obtain ⟨ops, h1, h2, h3⟩ := measurementOps_pauli n _ hl
    have hk : Nat.ofBits (fun j : Fin n => (p j).2) < ops.length := by rw [h2]; exact Nat.ofBits_lt_two_pow _
    have := h _ hl ops h1 _ (List.getElem_mem hk)
    unfold pairing
    rw [traceMul_congr (2 ^ n) (M' := (ops[Nat.ofBits (fun j : Fin n => (p j).2)]).e) ?_ (fun _ _ _ _ => rfl), traceMul_sub, this,
      sub_self]
    intro a b _ _
    rw [(h3 _ hk).2]
    refine Finset.prod_congr rfl fun j hj => ?_
    rw [Finset.mem_range] at hj
    rw [(hp j hj).2, Nat.testBit_ofBits_lt _ _ hj]
    simp [hj]

/-- Specification: the data has all `3^n` Pauli labels and no others, each with counts of `n` bits, and the frequency of every outcome
string is its probability `Tr[Π ρ]`. -/
structure ExactStateData (n : ℕ) (data : Dict Key Counts) (ρ : ℕ → ℕ → ℂ) : Prop where
  only : ∀ kv ∈ data, ∃ l, kv.1 = .state l ∧ IsLabel xyz n l
  all : ∀ l, IsLabel xyz n l → ∃ c, (Key.state l, c) ∈ data
  counts : ∀ kv ∈ data, OneReg n kv.2
  exact_ : ∀ l c, (Key.state l, c) ∈ data → ExactFreq n c fun s => traceMul (2 ^ n) (outcomeProj n l s) ρ

/-- The operators of a state label. -/
noncomputable def stateOps (k : Key) : List SM :=
  match k with
  | .state l => ((measurementOps pauliMeas l).getD []).map fun m => kron smOne.transpose m
  | .process _ _ => []

/-- **C51** (linear inversion).  From exact data, with any positive weights, every solution of the least squares problem
`_fitter_data` sets up is, column by column, the true state. -/
theorem C51_inversion (n : ℕ) (hn : 0 < n) (prep : Str → Option SM) (data : Dict Key Counts) (ρ : ℕ → ℕ → ℂ)
    (h : ExactStateData n data ρ) :
    ∃ freqs rows, fitterData pauliMeas prep data = some (freqs, rows) ∧ freqs.length = rows.length ∧
      rows.length = data.length * 2 ^ n ∧
      (∀ op ∈ rows, op.dim = 2 ^ n ∧ ∀ a b, a < 2 ^ n → b < 2 ^ n → (starRingEnd ℂ) (op.e a b) = op.e b a) ∧
      (∀ weights, residual rows freqs weights (vecF (2 ^ n) ρ) = 0) ∧
      ∀ weights x, PosWeights rows weights → IsLstsq rows freqs weights x →
        ∃ m, reshapeF (2 ^ n * 2 ^ n) x = some (2 ^ n, m) ∧ ∀ a b, a < 2 ^ n → b < 2 ^ n → m a b = ρ a b := by
  have hops : ∀ kv ∈ data, ∃ l ops, kv.1 = .state l ∧ IsLabel xyz n l ∧ measurementOps pauliMeas l = some ops ∧
      stateOps kv.1 = ops.map (fun m => kron smOne.transpose m) ∧ ops.length = 2 ^ n ∧
      (∀ k (hk : k < ops.length), ops[k].dim = 2 ^ n ∧ ∀ a b, ops[k].e a b =
        ∏ j ∈ Finset.range n, pauliProjector (l.getD j []) (k.testBit j) (a.testBit j) (b.testBit j)) := by
    intro kv hkv
    obtain ⟨l, e, hl⟩ := h.only kv hkv
    obtain ⟨ops, h1, h2, h3⟩ := measurementOps_pauli n l hl
    refine ⟨l, ops, e, hl, h1, ?_, h2, h3⟩
    rw [e]; simp [stateOps, h1]
  have hne : data ≠ [] := by
    obtain ⟨c, hc⟩ := h.all (List.replicate n "Z".toList) ⟨by simp, fun a ha => by
      rw [List.eq_of_mem_replicate ha]; decide⟩
    rintro rfl; simp at hc
  have hlen : ∀ kv ∈ data, (stateOps kv.1).length = 2 ^ n := by
    intro kv hkv
    obtain ⟨l, ops, _, _, _, e, h2, _⟩ := hops kv hkv
    rw [e, List.length_map, h2]
  have hkron : ∀ m : SM, m.dim = 2 ^ n → (kron smOne.transpose m).dim = 2 ^ n ∧
      ∀ a b, a < 2 ^ n → b < 2 ^ n → (kron smOne.transpose m).e a b = m.e a b := by
    intro m hm
    refine ⟨by simp [kron, SM.transpose, smOne, hm], fun a b ha hb => ?_⟩
    simp [kron, SM.transpose, smOne, hm, Nat.mod_eq_of_lt ha, Nat.mod_eq_of_lt hb]
  have hfd := fitterData_eq pauliMeas prep data n hne
    (fun kv hkv => by obtain ⟨l, _, e, hl, _⟩ := hops kv hkv; rw [e]; exact hl.1) stateOps
    (fun kv hkv => by
      obtain ⟨l, ops, e, hl, h1, e2, _⟩ := hops kv hkv
      rw [e2, e]
      simp [labelOps, preparationOp, h1])
  have hrows : ∀ op ∈ data.flatMap fun kv => stateOps kv.1, op.dim = 2 ^ n ∧
      ∀ a b, a < 2 ^ n → b < 2 ^ n → (starRingEnd ℂ) (op.e a b) = op.e b a := by
    intro op hop
    obtain ⟨kv, hkv, hm⟩ := List.mem_flatMap.1 hop
    obtain ⟨l, ops, _, _, _, e, h2, h3⟩ := hops kv hkv
    rw [e] at hm
    obtain ⟨m, hm2, rfl⟩ := List.mem_map.1 hm
    obtain ⟨k, hk, rfl⟩ := List.mem_iff_getElem.1 hm2
    refine ⟨(hkron _ (h3 k hk).1).1, fun a b ha hb => ?_⟩
    rw [(hkron _ (h3 k hk).1).2 a b ha hb, (hkron _ (h3 k hk).1).2 b a hb ha, (h3 k hk).2, (h3 k hk).2, map_prod]
    exact Finset.prod_congr rfl fun j _ => conj_projector _ _ _ _
  have hexact : ∀ i < (data.flatMap fun kv => stateOps kv.1).length,
      ((data.flatMap fun kv => frequencies (countsArray n kv.2)).getD i 0 : ℂ) =
        traceMul (2 ^ n) ((data.flatMap fun kv => stateOps kv.1).getD i smOne).e ρ := by
    intro i hi
    obtain ⟨kv, hkv, k, hk, e1, e2⟩ := row_index n data stateOps hlen i hi
    obtain ⟨l, ops, ek, hl, ho, e, h2, h3⟩ := hops kv hkv
    rw [e1, e2]
    have hk2 : k < ops.length := by rw [hlen kv hkv] at hk; omega
    have hx2 := frequencies_exact n hn kv.2 (h.counts kv hkv) l (fun m => traceMul (2 ^ n) m ρ)
      (h.exact_ l kv.2 (by rw [← ek]; exact hkv)) k (by rw [← h2]; exact hk2) ops[k].e (h3 k hk2).2
    rw [hx2]
    refine traceMul_congr _ (fun a b ha hb => ?_) fun _ _ _ _ => rfl
    simp only [e, List.getElem_map]
    exact ((hkron _ (h3 k hk2).1).2 a b ha hb).symm
  refine ⟨_, _, hfd, ?_, length_flatMap_const _ _ _ hlen, hrows,
    fun weights => residual_exact (2 ^ n) (Nat.two_pow_pos n) _ _ weights ρ hrows hexact, ?_⟩
  · exact length_flatMap_eq _ _ _ fun kv hkv => by rw [hlen kv hkv, length_frequencies]
  · intro weights x hw hx
    have hs : Nat.sqrt (2 ^ n * 2 ^ n) = 2 ^ n := Nat.sqrt_eq _
    refine ⟨fun i j => x (j * 2 ^ n + i), by unfold reshapeF; rw [hs, if_neg (by simp)], ?_⟩
    intro a b ha hb
    refine lstsq_exact n _ _ weights ρ (fun _ => measFam) (fun _ _ M => span_measFam M) hrows hexact ?_ hw x hx a b ha hb
    · intro B hB
      have hch : ∀ j : ℕ, ∃ p : Str × Bool, j < n → p.1 ∈ xyz ∧ B j = pauliProjector p.1 p.2 := by
        intro j
        by_cases hj : j < n
        · obtain ⟨a, ha, o, e⟩ := hB j hj
          exact ⟨(a, o), fun _ => ⟨ha, e⟩⟩
        · exact ⟨([], false), fun h => absurd h hj⟩
      choose p hp using hch
      have hl : IsLabel xyz n ((List.range n).map fun j => (p j).1) := by
        refine ⟨by simp, fun a ha => ?_⟩
        obtain ⟨j, hj, rfl⟩ := List.mem_map.1 ha
        exact (hp j (List.mem_range.1 hj)).1
      obtain ⟨c, hc⟩ := h.all _ hl
      obtain ⟨l, ops, ek, _, _, e, h2, h3⟩ := hops _ hc
      obtain rfl := Key.state.inj ek
      have hk : Nat.ofBits (fun j : Fin n => (p j).2) < ops.length := by rw [h2]; exact Nat.ofBits_lt_two_pow _
      refine ⟨kron smOne.transpose ops[Nat.ofBits (fun j : Fin n => (p j).2)], List.mem_flatMap.2 ⟨_, hc, ?_⟩, ?_⟩
      · rw [e]; exact List.mem_map_of_mem (List.getElem_mem hk)
      · intro a b ha hb
        rw [(hkron _ (h3 _ hk).1).2 a b ha hb, (h3 _ hk).2]
        refine Finset.prod_congr rfl fun j hj => ?_
        rw [Finset.mem_range] at hj
        rw [(hp j hj).2, Nat.testBit_ofBits_lt _ _ hj]
        simp [hj]

/-- The rescaling steps of `lstsq_fit` leave a state alone. -/
theorem lstsqPost_exact (d : ℕ) (ρ : ℕ → ℕ → ℂ) (t : ℂ) (hpsd : PSD d ρ) (htr : tr d ρ = t) (ht : t ≠ 0)
    (eigh : ℕ → (ℕ → ℕ → ℂ) → (ℕ → ℝ) × (ℕ → ℕ → ℂ)) (heigh : ∀ m, PSD d m → IsEigh d m (eigh d m).1 (eigh d m).2)
    (x : ℕ → ℂ) (m : ℕ → ℕ → ℂ) (size : ℕ) (e1 : reshapeF size x = some (d, m)) (e2 : ∀ a b, a < d → b < d → m a b = ρ a b)
    (psd : Bool) :
    ∃ m, lstsqPost eigh size x psd (some t) = some m ∧ ∀ a b, a < d → b < d → m a b = ρ a b := by
  have hm : PSD d m := by
    intro u
    obtain ⟨t, ht, e⟩ := hpsd u
    refine ⟨t, ht, ?_⟩
    rw [← e]
    refine Finset.sum_congr rfl fun r hr => Finset.sum_congr rfl fun c hc => ?_
    rw [e2 r c (Finset.mem_range.1 hr) (Finset.mem_range.1 hc)]
  have he := heigh m hm
  have hresc : ∀ p : ℕ → ℕ → ℂ, (∀ a b, a < d → b < d → p a b = ρ a b) → ∀ a b, a < d → b < d →
      rescaleTrace d (some t) p a b = ρ a b := by
    intro p hp a b ha hb
    have : ∑ k ∈ Finset.range d, p k k = t := by
      rw [← htr]
      refine Finset.sum_congr rfl fun k hk => ?_
      have hk' := Finset.mem_range.1 hk
      rw [hp k k hk' hk']
    simp only [rescaleTrace, this]
    rw [hp a b ha hb, div_self ht, mul_one]
  obtain ⟨p, hp1, hp2⟩ := C52_unchanged d m _ _ he (fun k hk => eigen_nonneg he hm k hk)
  cases psd
  · refine ⟨rescaleTrace d (some t) m, ?_, hresc m e2⟩
    unfold lstsqPost
    rw [e1]; rfl
  · refine ⟨rescaleTrace d (some t) p, ?_, hresc p fun a b ha hb => (hp2 a b ha hb).trans (e2 a b ha hb)⟩
    unfold lstsqPost
    rw [e1]
    simp [hp1]

/-- **C51** (fit).  `StateTomographyFitter.fit(method='lstsq')`: from exact data of a state (positive semidefinite, trace 1) with at
least one shot per label, with or without the standard weights and for every nonnegative `beta`, least squares followed by the
rescaling to a positive matrix and to trace 1 returns exactly that state. -/
theorem C51_fit (n : ℕ) (hn : 0 < n) (prep : Str → Option SM) (data : Dict Key Counts) (ρ : ℕ → ℕ → ℂ) (h : ExactStateData n data ρ)
    (hcts : ∀ kv ∈ data, GoodCounts n kv.2) (hpsd : PSD (2 ^ n) ρ) (htr : tr (2 ^ n) ρ = 1) (standard : Bool) (beta : ℝ) (hb : 0 ≤ beta)
    (eigh : ℕ → (ℕ → ℕ → ℂ) → (ℕ → ℝ) × (ℕ → ℕ → ℂ))
    (heigh : ∀ m, PSD (2 ^ n) m → IsEigh (2 ^ n) m (eigh (2 ^ n) m).1 (eigh (2 ^ n) m).2) :
    ∃ freqs rows weights, fitterData pauliMeas prep data = some (freqs, rows) ∧ fitterWeights standard beta data = some weights ∧
      ∀ x, IsLstsq rows freqs weights x →
        ∃ m, lstsqPost eigh (2 ^ n * 2 ^ n) x true (some 1) = some m ∧ ∀ a b, a < 2 ^ n → b < 2 ^ n → m a b = ρ a b := by
  obtain ⟨freqs, rows, h1, _, hrl, _, _, h4⟩ := C51_inversion n hn prep data ρ h
  have hne : data ≠ [] := by
    rintro rfl; simp [fitterData] at h1
  have hkl : ∀ kv ∈ data, keyLen kv.1 = n := fun kv hkv => by
    obtain ⟨l, e, hl⟩ := h.only kv hkv
    rw [e]; exact hl.1
  obtain ⟨ws, w1, w2, w3⟩ := C53_fitter standard beta hb data n hn hne hkl hcts
  refine ⟨freqs, rows, ws, h1, w1, fun x hx => ?_⟩
  have hw : PosWeights rows ws := by
    intro l hl
    cases standard
    · rw [w2 rfl] at hl; cases hl
    · obtain ⟨l', e, hlen, hpos⟩ := w3 rfl
      rw [e] at hl
      obtain rfl := Option.some.inj hl
      exact ⟨by rw [hlen, hrl], hpos⟩
  obtain ⟨m, e1, e2⟩ := h4 ws x hw hx
  exact lstsqPost_exact (2 ^ n) ρ 1 hpsd htr one_ne_zero eigh heigh x m _ e1 e2 true

/-! A concrete case: one qubit in state `|0><0|`, eight shots for each of the three labels. -/

def exState : ℕ → ℕ → ℂ := fun a b => if a = 0 ∧ b = 0 then 1 else 0

def exData : Dict Key Counts :=
  [(.state ["Z".toList], [("0".toList, 8)]), (.state ["X".toList], [("0".toList, 4), ("1".toList, 4)]),
   (.state ["Y".toList], [("1".toList, 4), ("0".toList, 4)])]

theorem exState_psd : PSD (2 ^ 1) exState := by
  intro u
  refine ⟨Complex.normSq (u 0), Complex.normSq_nonneg _, ?_⟩
  rw [show (2 : ℕ) ^ 1 = 2 from rfl]
  simp [exState, Finset.sum_range_succ, Complex.normSq_eq_conj_mul_self]

theorem exData_exact : ExactStateData 1 exData exState := by
  refine ⟨?_, ?_, by decide +kernel, ?_⟩
  · intro kv hkv
    simp only [exData, List.mem_cons, List.not_mem_nil, or_false] at hkv
    rcases hkv with rfl | rfl | rfl <;> exact ⟨_, rfl, rfl, by decide⟩
  · rintro l ⟨hl, ha⟩
    match l, hl with
    | [a], _ =>
      have := ha a (by simp)
      simp only [xyz, List.mem_cons, List.not_mem_nil, or_false] at this
      rcases this with rfl | rfl | rfl
      · exact ⟨_, by simp only [exData, List.mem_cons]; exact .inr (.inl rfl)⟩
      · exact ⟨_, by simp only [exData, List.mem_cons]; exact .inr (.inr (.inl rfl))⟩
      · exact ⟨_, by simp only [exData, List.mem_cons]; exact .inl rfl⟩
  · intro l c hlc s hs hsl
    have e : traceMul (2 ^ 1) (outcomeProj 1 l s) exState = pauliProjector (l.getD 0 []) (charAt s 0 = some '1') false false := by
      unfold traceMul
      rw [show (2 : ℕ) ^ 1 = 2 from rfl]
      simp [exState, Finset.sum_range_succ, outcomeProj]
    beta_reduce
    rw [e]
    match s, hsl with
    | [b], _ =>
      have hb : b = '0' ∨ b = '1' := hs b (by simp)
      simp only [exData, List.mem_cons, List.not_mem_nil, or_false, Prod.mk.injEq, Key.state.injEq] at hlc
      rcases hlc with ⟨rfl, rfl⟩ | ⟨rfl, rfl⟩ | ⟨rfl, rfl⟩ <;> rcases hb with rfl | rfl <;>
        simp [Dict.getD, Dict.get?, total, pauliProjector, charAt] <;> norm_num

example : ∃ freqs rows weights eigh, fitterData pauliMeas (fun _ => none) exData = some (freqs, rows) ∧
    fitterWeights true (1/2) exData = some weights ∧
      ∀ x, IsLstsq rows freqs weights x →
        ∃ m, lstsqPost eigh (2 ^ 1 * 2 ^ 1) x true (some 1) = some m ∧ ∀ a b, a < 2 ^ 1 → b < 2 ^ 1 → m a b = exState a b := by
  classical
  obtain ⟨f, r, w, h⟩ := C51_fit 1 (by norm_num) (fun _ => none) exData exState exData_exact
    (by decide +kernel) exState_psd (by simp [tr, exState]) true (1/2) (by norm_num)
    (fun d m => if h : PSD d m then ((exists_eigh d m h).choose, (exists_eigh d m h).choose_spec.choose) else (fun _ => 0, fun _ _ => 0))
    (fun m hm => by rw [dif_pos hm]; exact (exists_eigh _ m hm).choose_spec.choose_spec)
  exact ⟨f, r, w, _, h⟩

end Verif.Tomo
