import Verif.Tomo.PropsLin
/-
C84: process tomography by least squares returns the true channel.
-/
set_option linter.unusedSectionVars false
set_option linter.unusedSimpArgs false
set_option linter.unusedVariables false
namespace Verif.Tomo
open Verif Verif.Quantum Verif.Counts

/-! ### Specification -/

/-- A linear map on `d × d` matrices, given by what it makes of the units: `S i j` is the image of `|i><j|`. -/
noncomputable def applyMap (d : ℕ) (S : ℕ → ℕ → ℕ → ℕ → ℂ) (p : ℕ → ℕ → ℂ) : ℕ → ℕ → ℂ := fun r s =>
  ∑ i ∈ Finset.range d, ∑ j ∈ Finset.range d, p i j * S i j r s

/-- Its Choi matrix `Σ_ij |i><j| ⊗ S(|i><j|)`. -/
def choi (d : ℕ) (S : ℕ → ℕ → ℕ → ℕ → ℂ) : ℕ → ℕ → ℂ := fun a b => S (a / d) (b / d) (a % d) (b % d)

/-- Specification: the product state in which qubit `j` is prepared in the state `g p[j]`. -/
noncomputable def prepared (n : ℕ) (g : Str → SM) (p : List Str) : ℕ → ℕ → ℂ := fun a b =>
  ∏ j ∈ Finset.range n, (g (p.getD j [])).e (a.testBit j).toNat (b.testBit j).toNat

/-- Specification: the data has every pair of a preparation label over `alph` and a Pauli measurement label and no others, each with
counts of `n` bits, and the frequency of every outcome string is its probability `Tr[Π S(ρ_p)]` for the channel `S` and the prepared
state `ρ_p`. -/
structure ExactProcessData (n : ℕ) (alph : List Str) (g : Str → SM) (data : Dict Key Counts)
    (S : ℕ → ℕ → ℕ → ℕ → ℂ) : Prop where
  only : ∀ kv ∈ data, ∃ p l, kv.1 = .process p l ∧ IsLabel alph n p ∧ IsLabel xyz n l
  all : ∀ p l, IsLabel alph n p → IsLabel xyz n l → ∃ c, (Key.process p l, c) ∈ data
  counts : ∀ kv ∈ data, OneReg n kv.2
  exact_ : ∀ p l c, (Key.process p l, c) ∈ data →
    ExactFreq n c fun s => traceMul (2 ^ n) (outcomeProj n l s) (applyMap (2 ^ n) S (prepared n g p))

/-- Specification: the preparations of one qubit suffice — they are Hermitian and every 2×2 matrix is a combination of them. -/
structure Complete (alph : List Str) (prep : Str → Option SM) (g : Str → SM) : Prop where
  ops : ∀ a ∈ alph, prep a = some (g a)
  dim : ∀ a ∈ alph, (g a).dim = 2
  herm : ∀ a ∈ alph, ∀ x y : Bool, (starRingEnd ℂ) ((g a).e x.toNat y.toNat) = (g a).e y.toNat x.toNat
  span : ∀ M : Mat2 ℂ, M ∈ Submodule.span ℂ {N | ∃ a ∈ alph, N = fun x y => (g a).e y.toNat x.toNat}

/-! ### Helpers -/

/-- The trace against a tensor product. -/
theorem traceMul_kron (d : ℕ) (hd : 0 < d) (p m : SM) (hp : p.dim = d) (hm : m.dim = d) (S : ℕ → ℕ → ℕ → ℕ → ℂ) :
    traceMul (d * d) (kron p.transpose m).e (choi d S) = traceMul d m.e (applyMap d S p.e) := by
  unfold traceMul applyMap
  rw [sum_square hd]
  simp only [sum_square hd]
  have e : ∀ i a, a < d → (i * d + a) / d = i ∧ (i * d + a) % d = a := by
    intro i a ha
    exact ⟨by rw [Nat.mul_comm, Nat.mul_add_div hd, Nat.div_eq_of_lt ha, Nat.add_zero],
      by rw [Nat.mul_comm, Nat.mul_add_mod, Nat.mod_eq_of_lt ha]⟩
  have lhs : ∑ i ∈ Finset.range d, ∑ r ∈ Finset.range d, ∑ j ∈ Finset.range d, ∑ s ∈ Finset.range d,
      (kron p.transpose m).e (i * d + r) (j * d + s) * choi d S (j * d + s) (i * d + r) =
      ∑ i ∈ Finset.range d, ∑ r ∈ Finset.range d, ∑ j ∈ Finset.range d, ∑ s ∈ Finset.range d,
        p.e j i * m.e r s * S j i s r := by
    refine Finset.sum_congr rfl fun i _ => Finset.sum_congr rfl fun r hr => Finset.sum_congr rfl fun j _ =>
      Finset.sum_congr rfl fun s hs => ?_
    have hr' := e i r (Finset.mem_range.1 hr)
    have hs' := e j s (Finset.mem_range.1 hs)
    simp only [kron, SM.transpose, choi, hm, hr'.1, hr'.2, hs'.1, hs'.2]
  rw [lhs, Finset.sum_comm]
  refine Finset.sum_congr rfl fun r _ => ?_
  have rhs : ∑ s ∈ Finset.range d, m.e r s * ∑ i ∈ Finset.range d, ∑ j ∈ Finset.range d, p.e i j * S i j s r =
      ∑ s ∈ Finset.range d, ∑ i ∈ Finset.range d, ∑ j ∈ Finset.range d, p.e i j * m.e r s * S i j s r := by
    refine Finset.sum_congr rfl fun s _ => ?_
    rw [Finset.mul_sum]
    refine Finset.sum_congr rfl fun i _ => ?_
    rw [Finset.mul_sum]
    exact Finset.sum_congr rfl fun j _ => by ring
  rw [rhs, Finset.sum_comm]
  refine Eq.trans ?_ Finset.sum_comm
  exact Finset.sum_congr rfl fun i _ => Finset.sum_comm

/-- The entries of a row operator, over the bits of its indices: the low `n` bits belong to the measurement. -/
theorem kron_bits (n : ℕ) (p m : SM) (P Q : ℕ → Mat2 ℂ) (hm : m.dim = 2 ^ n) (hp : p.dim = 2 ^ n)
    (ep : ∀ a b, a < 2 ^ n → b < 2 ^ n → p.e a b = ∏ j ∈ Finset.range n, P j (a.testBit j) (b.testBit j))
    (em : ∀ a b, a < 2 ^ n → b < 2 ^ n → m.e a b = ∏ j ∈ Finset.range n, Q j (a.testBit j) (b.testBit j))
    (a b : ℕ) (ha : a < 2 ^ (n + n)) (hb : b < 2 ^ (n + n)) :
    (kron p.transpose m).e a b =
      ∏ j ∈ Finset.range (n + n), (if j < n then Q j else fun x y => P (j - n) y x) (a.testBit j) (b.testBit j) := by
  have hpos := Nat.two_pow_pos n
  have hdiv : ∀ c, c < 2 ^ (n + n) → c / 2 ^ n < 2 ^ n := by
    intro c hc
    rw [Nat.pow_add] at hc
    exact Nat.div_lt_of_lt_mul hc
  simp only [kron, SM.transpose, hm]
  rw [ep _ _ (hdiv b hb) (hdiv a ha), em _ _ (Nat.mod_lt _ hpos) (Nat.mod_lt _ hpos), Finset.prod_range_add, mul_comm]
  congr 1
  · refine Finset.prod_congr rfl fun j hj => ?_
    rw [Finset.mem_range] at hj
    rw [if_pos hj, Nat.testBit_mod_two_pow, Nat.testBit_mod_two_pow]
    simp [hj]
  · refine Finset.prod_congr rfl fun j hj => ?_
    rw [if_neg (by omega), Nat.testBit_div_two_pow, Nat.testBit_div_two_pow, Nat.add_sub_cancel_left, Nat.add_comm]

/-- The operators of a process label. -/
noncomputable def processOps (prep : Str → Option SM) (k : Key) : List SM :=
  match k with
  | .state _ => []
  | .process p l => ((measurementOps pauliMeas l).getD []).map fun m => kron (((preparationOp prep (some p)).getD smOne).transpose) m

/-! ### C84 -/

/-- **C84** (linear inversion).  From exact data for a complete set of preparations, with any positive weights, every solution of the
least squares problem is, column by column, the Choi matrix of the true channel. -/
theorem C84_inversion (n : ℕ) (hn : 0 < n) (alph : List Str) (prep : Str → Option SM) (g : Str → SM) (hcomp : Complete alph prep g)
    (a0 : Str) (ha0 : a0 ∈ alph) (data : Dict Key Counts) (S : ℕ → ℕ → ℕ → ℕ → ℂ) (h : ExactProcessData n alph g data S) :
    ∃ freqs rows, fitterData pauliMeas prep data = some (freqs, rows) ∧ freqs.length = rows.length ∧
      rows.length = data.length * 2 ^ n ∧
      (∀ op ∈ rows, op.dim = 2 ^ (n + n) ∧ ∀ a b, a < 2 ^ (n + n) → b < 2 ^ (n + n) → (starRingEnd ℂ) (op.e a b) = op.e b a) ∧
      (∀ weights, residual rows freqs weights (vecF (2 ^ (n + n)) (choi (2 ^ n) S)) = 0) ∧
      ∀ weights x, PosWeights rows weights → IsLstsq rows freqs weights x →
        ∃ m, reshapeF (2 ^ (n + n) * 2 ^ (n + n)) x = some (2 ^ (n + n), m) ∧
          ∀ a b, a < 2 ^ (n + n) → b < 2 ^ (n + n) → m a b = choi (2 ^ n) S a b := by
  have hd : (2 : ℕ) ^ (n + n) = 2 ^ n * 2 ^ n := Nat.pow_add 2 n n
  have hpos := Nat.two_pow_pos n
  have hops : ∀ kv ∈ data, ∃ p l op ops, kv.1 = .process p l ∧ IsLabel alph n p ∧ IsLabel xyz n l ∧
      preparationOp prep (some p) = some op ∧ op.dim = 2 ^ n ∧
      (∀ a b, a < 2 ^ n → b < 2 ^ n → op.e a b =
        ∏ j ∈ Finset.range n, (fun (x y : Bool) => (g (p.getD j [])).e x.toNat y.toNat) (a.testBit j) (b.testBit j)) ∧
      measurementOps pauliMeas l = some ops ∧
      processOps prep kv.1 = ops.map (fun m => kron op.transpose m) ∧ ops.length = 2 ^ n ∧
      (∀ k (hk : k < ops.length), ops[k].dim = 2 ^ n ∧ ∀ a b, ops[k].e a b =
        ∏ j ∈ Finset.range n, pauliProjector (l.getD j []) (k.testBit j) (a.testBit j) (b.testBit j)) := by
    intro kv hkv
    obtain ⟨p, l, e, hp, hl⟩ := h.only kv hkv
    obtain ⟨op, o1, o2, o3⟩ := preparationOp_entries prep g p (fun a ha => hcomp.ops a (hp.2 a ha)) (fun a ha => hcomp.dim a (hp.2 a ha))
    rw [hp.1] at o2 o3
    obtain ⟨ops, h1, h2, h3⟩ := measurementOps_pauli n l hl
    refine ⟨p, l, op, ops, e, hp, hl, o1, o2, o3, h1, ?_, h2, h3⟩
    rw [e]; simp [processOps, h1, o1]
  have hzl : IsLabel xyz n (List.replicate n "Z".toList) := ⟨by simp, fun a ha => by
      rw [List.eq_of_mem_replicate ha]; decide⟩
  have hne : data ≠ [] := by
    obtain ⟨c, hc⟩ := h.all (List.replicate n a0) _ ⟨by simp, fun a ha => by
      rw [List.eq_of_mem_replicate ha]; exact ha0⟩ hzl
    rintro rfl; simp at hc
  have hlen : ∀ kv ∈ data, (processOps prep kv.1).length = 2 ^ n := by
    intro kv hkv
    obtain ⟨p, l, op, ops, _, _, _, _, _, _, _, e, h2, _⟩ := hops kv hkv
    rw [e, List.length_map, h2]
  have hfd := fitterData_eq pauliMeas prep data n hne
    (fun kv hkv => by obtain ⟨p, l, _, _, e, _, hl, _⟩ := hops kv hkv; rw [e]; exact hl.1) (processOps prep)
    (fun kv hkv => by
      obtain ⟨p, l, op, ops, e, hp, hl, o1, _, _, h1, e2, _⟩ := hops kv hkv
      rw [e2, e]
      simp [labelOps, o1, h1])
  have hrows : ∀ op ∈ data.flatMap fun kv => processOps prep kv.1, op.dim = 2 ^ (n + n) ∧
      ∀ a b, a < 2 ^ (n + n) → b < 2 ^ (n + n) → (starRingEnd ℂ) (op.e a b) = op.e b a := by
    intro o ho
    obtain ⟨kv, hkv, hm⟩ := List.mem_flatMap.1 ho
    obtain ⟨p, l, op, ops, _, hp, _, _, o2, o3, _, e, h2, h3⟩ := hops kv hkv
    rw [e] at hm
    obtain ⟨m, hm2, rfl⟩ := List.mem_map.1 hm
    obtain ⟨k, hk, rfl⟩ := List.mem_iff_getElem.1 hm2
    refine ⟨by show op.dim * ops[k].dim = _; rw [o2, (h3 k hk).1, hd], fun a b ha hb => ?_⟩
    rw [kron_bits n op ops[k] (fun j (x y : Bool) => (g (p.getD j [])).e x.toNat y.toNat) _ (h3 k hk).1 o2 o3
        (fun a b _ _ => (h3 k hk).2 a b) a b ha hb,
      kron_bits n op ops[k] (fun j (x y : Bool) => (g (p.getD j [])).e x.toNat y.toNat) _ (h3 k hk).1 o2 o3
        (fun a b _ _ => (h3 k hk).2 a b) b a hb ha, map_prod]
    refine Finset.prod_congr rfl fun j hj => ?_
    rw [Finset.mem_range] at hj
    by_cases hjn : j < n
    · simp only [hjn, if_true]; exact conj_projector _ _ _ _
    · simp only [hjn, if_false]
      refine hcomp.herm _ (hp.2 _ ?_) _ _
      rw [List.getD_eq_getElem _ _ (by rw [hp.1]; omega)]
      exact List.getElem_mem _
  have hexact : ∀ i < (data.flatMap fun kv => processOps prep kv.1).length,
      ((data.flatMap fun kv => frequencies (countsArray n kv.2)).getD i 0 : ℂ) =
        traceMul (2 ^ (n + n)) ((data.flatMap fun kv => processOps prep kv.1).getD i smOne).e (choi (2 ^ n) S) := by
    intro i hi
    obtain ⟨kv, hkv, k, hk, e1, e2⟩ := row_index n data (processOps prep) hlen i hi
    obtain ⟨p, l, op, ops, ek, hp, hl, o1, o2, o3, ho, e, h2, h3⟩ := hops kv hkv
    rw [e1, e2]
    have hk2 : k < ops.length := by rw [hlen kv hkv] at hk; omega
    have hx2 := frequencies_exact n hn kv.2 (h.counts kv hkv) l (fun m => traceMul (2 ^ n) m (applyMap (2 ^ n) S (prepared n g p)))
      (h.exact_ p l kv.2 (by rw [← ek]; exact hkv)) k (by rw [← h2]; exact hk2) ops[k].e (h3 k hk2).2
    have happ : applyMap (2 ^ n) S (prepared n g p) = applyMap (2 ^ n) S op.e := by
      funext r s
      unfold applyMap
      refine Finset.sum_congr rfl fun i hi => Finset.sum_congr rfl fun j hj => ?_
      rw [o3 i j (Finset.mem_range.1 hi) (Finset.mem_range.1 hj)]
      rfl
    rw [hx2, happ, ← traceMul_kron (2 ^ n) hpos op ops[k] o2 (h3 k hk2).1, hd]
    simp only [e, List.getElem_map]
  refine ⟨_, _, hfd, ?_, length_flatMap_const _ _ _ hlen, hrows,
    fun weights => residual_exact (2 ^ (n + n)) (Nat.two_pow_pos _) _ _ weights _ hrows hexact, ?_⟩
  · exact length_flatMap_eq _ _ _ fun kv hkv => by rw [hlen kv hkv, length_frequencies]
  · intro weights x hw hx
    have hs : Nat.sqrt (2 ^ (n + n) * 2 ^ (n + n)) = 2 ^ (n + n) := Nat.sqrt_eq _
    refine ⟨fun i j => x (j * 2 ^ (n + n) + i), by unfold reshapeF; rw [hs, if_neg (by simp)], ?_⟩
    intro a b ha hb
    refine lstsq_exact (n + n) _ _ weights (choi (2 ^ n) S)
      (fun j => if j < n then measFam else {N | ∃ a ∈ alph, N = fun x y => (g a).e y.toNat x.toNat}) ?_ hrows hexact ?_ hw x hx a b ha hb
    · intro j _ M
      by_cases hj : j < n
      · simp only [hj, if_true]; exact span_measFam M
      · simp only [hj, if_false]; exact hcomp.span M
    · intro B hB
      have hch : ∀ j : ℕ, ∃ p : Str × Bool, j < n → p.1 ∈ xyz ∧ B j = pauliProjector p.1 p.2 := by
        intro j
        by_cases hj : j < n
        · have := hB j (by omega)
          simp only [hj, if_true] at this
          obtain ⟨a, ha, o, e⟩ := this
          exact ⟨(a, o), fun _ => ⟨ha, e⟩⟩
        · exact ⟨([], false), fun h => absurd h hj⟩
      choose q hq using hch
      have hch2 : ∀ j : ℕ, ∃ a : Str, j < n → a ∈ alph ∧ B (n + j) = fun x y => (g a).e y.toNat x.toNat := by
        intro j
        by_cases hj : j < n
        · have := hB (n + j) (by omega)
          simp only [show ¬ n + j < n by omega, if_false] at this
          obtain ⟨a, ha, e⟩ := this
          exact ⟨a, fun _ => ⟨ha, e⟩⟩
        · exact ⟨[], fun h => absurd h hj⟩
      choose r hr using hch2
      have hl : IsLabel xyz n ((List.range n).map fun j => (q j).1) := by
        refine ⟨by simp, fun a ha => ?_⟩
        obtain ⟨j, hj, rfl⟩ := List.mem_map.1 ha
        exact (hq j (List.mem_range.1 hj)).1
      have hp : IsLabel alph n ((List.range n).map r) := by
        refine ⟨by simp, fun a ha => ?_⟩
        obtain ⟨j, hj, rfl⟩ := List.mem_map.1 ha
        exact (hr j (List.mem_range.1 hj)).1
      obtain ⟨c, hc⟩ := h.all _ _ hp hl
      obtain ⟨p', l', op, ops, ek, _, _, o1, o2, o3, _, e, h2, h3⟩ := hops _ hc
      obtain ⟨rfl, rfl⟩ := Key.process.inj ek
      have hk : Nat.ofBits (fun j : Fin n => (q j).2) < ops.length := by rw [h2]; exact Nat.ofBits_lt_two_pow _
      refine ⟨kron op.transpose ops[Nat.ofBits (fun j : Fin n => (q j).2)], List.mem_flatMap.2 ⟨_, hc, ?_⟩, ?_⟩
      · rw [e]; exact List.mem_map_of_mem (List.getElem_mem hk)
      · intro a b ha hb
        rw [kron_bits n op ops[Nat.ofBits (fun j : Fin n => (q j).2)]
          (fun j (x y : Bool) => (g (((List.range n).map r).getD j [])).e x.toNat y.toNat) _ (h3 _ hk).1 o2 o3 (fun a b _ _ => (h3 _ hk).2 a b) a b ha hb]
        refine Finset.prod_congr rfl fun j hj => ?_
        rw [Finset.mem_range] at hj
        by_cases hjn : j < n
        · simp only [hjn, if_true]
          rw [(hq j hjn).2, Nat.testBit_ofBits_lt _ _ hjn]
          simp [hjn]
        · simp only [hjn, if_false]
          have hjn' : j - n < n := by omega
          have := (hr (j - n) hjn').2
          rw [show n + (j - n) = j by omega] at this
          rw [this]
          simp [hjn']

/-- The four default Pauli preparations are complete. -/
theorem complete_pauli : Complete prep4 pauliPrep pauliPreparationMatrix := by
  have hmem : ∀ a ∈ prep4, a ∈ prep6 := by decide
  refine ⟨?_, fun a ha => pauliPreparationMatrix_dim a (hmem a ha), ?_, ?_⟩
  · intro a ha
    exact if_pos (hmem a ha)
  · intro a ha x y
    simp only [prep4, List.mem_cons, List.not_mem_nil, or_false] at ha
    rcases ha with rfl | rfl | rfl | rfl <;> cases x <;> cases y <;>
      simp [pauliPreparationMatrix, m2, map_ofNat, Complex.conj_ofNat]
  · intro M
    set F : Set (Mat2 ℂ) := {N | ∃ a ∈ prep4, N = fun x y => (pauliPreparationMatrix a).e y.toNat x.toNat} with hF
    have hm : ∀ a ∈ prep4, (fun x y : Bool => (pauliPreparationMatrix a).e y.toNat x.toNat) ∈ Submodule.span ℂ F := fun a ha =>
      Submodule.subset_span ⟨a, ha, rfl⟩
    have hzp := hm "Zp".toList (by decide)
    have hzm := hm "Zm".toList (by decide)
    have hxp := hm "Xp".toList (by decide)
    have hyp := hm "Yp".toList (by decide)
    have e : M = (M false false - (M false true + M true false + -Complex.I * (M false true - M true false)) / 2) •
          (fun x y : Bool => (pauliPreparationMatrix "Zp".toList).e y.toNat x.toNat) +
        (M true true - (M false true + M true false + -Complex.I * (M false true - M true false)) / 2) •
          (fun x y : Bool => (pauliPreparationMatrix "Zm".toList).e y.toNat x.toNat) +
        (M false true + M true false) • (fun x y : Bool => (pauliPreparationMatrix "Xp".toList).e y.toNat x.toNat) +
        (-Complex.I * (M false true - M true false)) • (fun x y : Bool => (pauliPreparationMatrix "Yp".toList).e y.toNat x.toNat) := by
      have hI := Complex.I_mul_I
      funext r c
      cases r <;> cases c <;> simp [pauliPreparationMatrix, m2]
      · ring
      · linear_combination ((M false true - M true false) / 2) * hI
      · linear_combination (-(M false true - M true false) / 2) * hI
      · ring
    rw [e]
    exact add_mem (add_mem (add_mem (Submodule.smul_mem _ _ hzp) (Submodule.smul_mem _ _ hzm)) (Submodule.smul_mem _ _ hxp))
      (Submodule.smul_mem _ _ hyp)

theorem omega_mul : Complex.exp (Real.pi * (2 * Complex.I) / 3) * Complex.exp (-Real.pi * (2 * Complex.I) / 3) = 1 := by
  rw [← Complex.exp_add]; simp [← add_div]

theorem omega_sum : 1 + Complex.exp (Real.pi * (2 * Complex.I) / 3) + Complex.exp (-Real.pi * (2 * Complex.I) / 3) = 0 := by
  have e1 : (Real.pi * (2 * Complex.I) / 3 : ℂ) = ((2 * Real.pi / 3 : ℝ) : ℂ) * Complex.I := by push_cast; ring
  have e2 : (-Real.pi * (2 * Complex.I) / 3 : ℂ) = -((2 * Real.pi / 3 : ℝ) : ℂ) * Complex.I := by push_cast; ring
  have hc : Real.cos (2 * Real.pi / 3) = -(1/2) := by
    rw [show 2 * Real.pi / 3 = Real.pi - Real.pi / 3 by ring, Real.cos_pi_sub, Real.cos_pi_div_three]
  have h := Complex.two_cos ((2 * Real.pi / 3 : ℝ) : ℂ)
  rw [← Complex.ofReal_cos, hc] at h
  rw [e1, e2]
  push_cast at h ⊢
  linear_combination -h

theorem omega_conj : (starRingEnd ℂ) (Complex.exp (Real.pi * (2 * Complex.I) / 3)) = Complex.exp (-Real.pi * (2 * Complex.I) / 3) := by
  rw [← Complex.exp_conj]; congr 1; simp [Complex.conj_ofNat]

/-- The four SIC preparations are complete. -/
theorem complete_sic : Complete sic4 sicPrep sicPreparationMatrix := by
  have hconj' : (starRingEnd ℂ) (Complex.exp (-Real.pi * (2 * Complex.I) / 3)) = Complex.exp (Real.pi * (2 * Complex.I) / 3) := by
    rw [← omega_conj, Complex.conj_conj]
  have hconj := omega_conj
  have hmul := omega_mul
  have hsum := omega_sum
  have hs : ((√2 : ℝ) : ℂ) * ((√2 : ℝ) : ℂ) = 2 := by
    rw [← Complex.ofReal_mul, Real.mul_self_sqrt (by norm_num)]; norm_num
  refine ⟨fun a ha => if_pos ha, sicPreparationMatrix_dim, ?_, ?_⟩
  · intro a ha x y
    simp only [sic4, List.mem_cons, List.not_mem_nil, or_false] at ha
    simp only [sicPreparationMatrix]
    generalize Complex.exp (Real.pi * (2 * Complex.I) / 3) = w at *
    generalize Complex.exp (-Real.pi * (2 * Complex.I) / 3) = v at *
    rcases ha with rfl | rfl | rfl | rfl <;> cases x <;> cases y <;>
      simp [m2, Complex.conj_ofNat, hconj, hconj']
  · intro M
    set F : Set (Mat2 ℂ) := {N | ∃ a ∈ sic4, N = fun x y => (sicPreparationMatrix a).e y.toNat x.toNat} with hF
    have hm : ∀ a ∈ sic4, (fun x y : Bool => (sicPreparationMatrix a).e y.toNat x.toNat) ∈ Submodule.span ℂ F := fun a ha =>
      Submodule.subset_span ⟨a, ha, rfl⟩
    have h0 := hm "S0".toList (by decide)
    have h1 := hm "S1".toList (by decide)
    have h2 := hm "S2".toList (by decide)
    have h3 := hm "S3".toList (by decide)
    obtain ⟨w, hw⟩ : ∃ w, w = Complex.exp (Real.pi * (2 * Complex.I) / 3) := ⟨_, rfl⟩
    obtain ⟨v, hv⟩ : ∃ v, v = Complex.exp (-Real.pi * (2 * Complex.I) / 3) := ⟨_, rfl⟩
    obtain ⟨s, hs'⟩ : ∃ s, s = ((√2 : ℝ) : ℂ) := ⟨_, rfl⟩
    have e : M = (M false false - M true true / 2) • (fun x y : Bool => (sicPreparationMatrix "S0".toList).e y.toNat x.toNat) +
        ((3 / 2 * M true true + 3 / 2 * s * M false true + 3 / 2 * s * M true false) / 3) •
          (fun x y : Bool => (sicPreparationMatrix "S1".toList).e y.toNat x.toNat) +
        ((3 / 2 * M true true + w * (3 / 2 * s * M false true) + v * (3 / 2 * s * M true false)) / 3) •
          (fun x y : Bool => (sicPreparationMatrix "S2".toList).e y.toNat x.toNat) +
        ((3 / 2 * M true true + v * (3 / 2 * s * M false true) + w * (3 / 2 * s * M true false)) / 3) •
          (fun x y : Bool => (sicPreparationMatrix "S3".toList).e y.toNat x.toNat) := by
      rw [← hw, ← hv] at hmul hsum
      rw [← hs'] at hs
      have hww : w * w = v := by linear_combination w * hsum - hmul - hsum
      have hvv : v * v = w := by linear_combination v * hsum - hmul - hsum
      have hv2 : Complex.exp (-(Real.pi * (2 * Complex.I)) / 3) = v := by rw [hv, neg_mul]
      funext r c
      cases r <;> cases c <;> simp [sicPreparationMatrix, m2, ← hw, hv2, ← hs']
      · linear_combination -(s / 6) * (M false true + M true false) * hsum
      · linear_combination -(s / 6) * M true true * hsum - (s * s / 3) * M false true * hmul - (M false true / 2) * hs -
          (s * s / 6) * M true false * (hvv + hww + hsum)
      · linear_combination -(s / 6) * M true true * hsum - (s * s / 3) * M true false * hmul - (M true false / 2) * hs -
          (s * s / 6) * M false true * (hvv + hww + hsum)
      · linear_combination -(s / 3) * (M false true + M true false) * hsum
    rw [e]
    exact add_mem (add_mem (add_mem (Submodule.smul_mem _ _ h0) (Submodule.smul_mem _ _ h1)) (Submodule.smul_mem _ _ h2))
      (Submodule.smul_mem _ _ h3)

/-- **C84** (fit).  `ProcessTomographyFitter.fit(method='lstsq')` for the default Pauli preparations or the SIC preparations: from
exact data of a completely positive (Choi matrix positive semidefinite) trace preserving map, with at least one shot per label, with or
without the standard weights, the result is exactly the Choi matrix of that map. -/
theorem C84_fit (n : ℕ) (hn : 0 < n) (alph : List Str) (prep : Str → Option SM) (g : Str → SM)
    (hprep : (alph = prep4 ∧ prep = pauliPrep ∧ g = pauliPreparationMatrix) ∨ (alph = sic4 ∧ prep = sicPrep ∧ g = sicPreparationMatrix))
    (data : Dict Key Counts) (S : ℕ → ℕ → ℕ → ℕ → ℂ) (h : ExactProcessData n alph g data S)
    (hcts : ∀ kv ∈ data, GoodCounts n kv.2) (hcp : PSD (2 ^ (n + n)) (choi (2 ^ n) S))
    (htp : ∀ i j, i < 2 ^ n → j < 2 ^ n → tr (2 ^ n) (S i j) = if i = j then 1 else 0)
    (standard : Bool) (beta : ℝ) (hb : 0 ≤ beta)
    (eigh : ℕ → (ℕ → ℕ → ℂ) → (ℕ → ℝ) × (ℕ → ℕ → ℂ))
    (heigh : ∀ m, PSD (2 ^ (n + n)) m → IsEigh (2 ^ (n + n)) m (eigh (2 ^ (n + n)) m).1 (eigh (2 ^ (n + n)) m).2) :
    ∃ freqs rows weights, fitterData pauliMeas prep data = some (freqs, rows) ∧ fitterWeights standard beta data = some weights ∧
      (∀ op ∈ rows, processDim (op.dim * op.dim) = some (2 ^ n)) ∧
      ∀ x, IsLstsq rows freqs weights x →
        ∃ m, lstsqPost eigh (2 ^ (n + n) * 2 ^ (n + n)) x true (some ((2 ^ n : ℕ) : ℂ)) = some m ∧
          ∀ a b, a < 2 ^ (n + n) → b < 2 ^ (n + n) → m a b = choi (2 ^ n) S a b := by
  have hpos := Nat.two_pow_pos n
  obtain ⟨a0, ha0, hcomp⟩ : ∃ a0, a0 ∈ alph ∧ Complete alph prep g := by
    rcases hprep with ⟨rfl, rfl, rfl⟩ | ⟨rfl, rfl, rfl⟩
    · exact ⟨"Zp".toList, by decide, complete_pauli⟩
    · exact ⟨"S0".toList, by decide, complete_sic⟩
  obtain ⟨freqs, rows, h1, _, hrl, hdim, _, h4⟩ := C84_inversion n hn alph prep g hcomp a0 ha0 data S h
  have hne : data ≠ [] := by
    rintro rfl; simp [fitterData] at h1
  have hkl : ∀ kv ∈ data, keyLen kv.1 = n := fun kv hkv => by
    obtain ⟨p, l, e, _, hl⟩ := h.only kv hkv
    rw [e]; exact hl.1
  obtain ⟨ws, w1, w2, w3⟩ := C53_fitter standard beta hb data n hn hne hkl hcts
  refine ⟨freqs, rows, ws, h1, w1, ?_, fun x hx => ?_⟩
  · intro op hop
    unfold processDim
    rw [(hdim op hop).1, Nat.pow_add, Nat.sqrt_eq, Nat.sqrt_eq, if_neg (by rw [not_not]; ring)]
  have hw : PosWeights rows ws := by
    intro l hl
    cases standard
    · rw [w2 rfl] at hl; cases hl
    · obtain ⟨l', e, hlen, hpos⟩ := w3 rfl
      rw [e] at hl
      obtain rfl := Option.some.inj hl
      exact ⟨by rw [hlen, hrl], hpos⟩
  obtain ⟨m, e1, e2⟩ := h4 ws x hw hx
  refine lstsqPost_exact (2 ^ (n + n)) (choi (2 ^ n) S) _ hcp ?_ (by exact_mod_cast hpos.ne') eigh heigh x m _ e1 e2 true
  unfold tr
  rw [Nat.pow_add, sum_square hpos]
  have e : ∀ i ∈ Finset.range (2 ^ n), ∑ a ∈ Finset.range (2 ^ n), choi (2 ^ n) S (i * 2 ^ n + a) (i * 2 ^ n + a) = 1 := by
    intro i hi
    rw [← if_pos (c := i = i) (t := (1 : ℂ)) (e := 0) rfl, ← htp i i (Finset.mem_range.1 hi) (Finset.mem_range.1 hi)]
    refine Finset.sum_congr rfl fun a ha => ?_
    have ha' := Finset.mem_range.1 ha
    simp only [choi]
    rw [show (i * 2 ^ n + a) / 2 ^ n = i by rw [Nat.mul_comm, Nat.mul_add_div hpos, Nat.div_eq_of_lt ha', Nat.add_zero],
      show (i * 2 ^ n + a) % 2 ^ n = a by rw [Nat.mul_comm, Nat.mul_add_mod, Nat.mod_eq_of_lt ha']]
  rw [Finset.sum_congr rfl e]
  simp

/-! A concrete case: the identity on one qubit, eight shots for each of the twelve labels. -/

/-- The identity channel. -/
def idMap : ℕ → ℕ → ℕ → ℕ → ℂ := fun i j r s => if r = i ∧ s = j then 1 else 0

/-- Counts of an outcome that is certain 0, certain 1, or even. -/
def cz : Counts := [("0".toList, 8)]
def co : Counts := [("1".toList, 8)]
def ch : Counts := [("0".toList, 4), ("1".toList, 4)]

def exProcess : Dict Key Counts :=
  [(.process ["Zp".toList] ["Z".toList], cz), (.process ["Zp".toList] ["X".toList], ch), (.process ["Zp".toList] ["Y".toList], ch),
   (.process ["Zm".toList] ["Z".toList], co), (.process ["Zm".toList] ["X".toList], ch), (.process ["Zm".toList] ["Y".toList], ch),
   (.process ["Xp".toList] ["Z".toList], ch), (.process ["Xp".toList] ["X".toList], cz), (.process ["Xp".toList] ["Y".toList], ch),
   (.process ["Yp".toList] ["Z".toList], ch), (.process ["Yp".toList] ["X".toList], ch), (.process ["Yp".toList] ["Y".toList], cz)]

theorem exProcess_exact : ExactProcessData 1 prep4 pauliPreparationMatrix exProcess idMap := by
  have hall : ∀ p ∈ prep4, ∀ l ∈ xyz, ∃ c, (Key.process [p] [l], c) ∈ exProcess := by
    intro p hp l hl
    have : ((exProcess.map (·.1)).contains (Key.process [p] [l])) = true := by
      revert p l; decide +kernel
    rw [List.contains_iff_mem] at this
    obtain ⟨kv, hkv, e⟩ := List.mem_map.1 this
    exact ⟨kv.2, by rw [← e]; exact hkv⟩
  refine ⟨?_, ?_, by decide +kernel, ?_⟩
  · intro kv hkv
    simp only [exProcess, List.mem_cons, List.not_mem_nil, or_false] at hkv
    rcases hkv with rfl | rfl | rfl | rfl | rfl | rfl | rfl | rfl | rfl | rfl | rfl | rfl <;>
      exact ⟨_, _, rfl, ⟨rfl, by decide⟩, rfl, by decide⟩
  · rintro p l ⟨hp, hpa⟩ ⟨hl, hla⟩
    match p, l, hp, hl with
    | [a], [b], _, _ => exact hall a (hpa a (by simp)) b (hla b (by simp))
  · intro p l c hplc s hs hsl
    have hlab : ∃ a b, p = [a] ∧ l = [b] ∧ a ∈ prep4 ∧ b ∈ xyz := by
      simp only [exProcess, List.mem_cons, List.not_mem_nil, or_false, Prod.mk.injEq, Key.process.injEq] at hplc
      rcases hplc with ⟨⟨rfl, rfl⟩, _⟩ | ⟨⟨rfl, rfl⟩, _⟩ | ⟨⟨rfl, rfl⟩, _⟩ | ⟨⟨rfl, rfl⟩, _⟩ | ⟨⟨rfl, rfl⟩, _⟩ | ⟨⟨rfl, rfl⟩, _⟩ |
        ⟨⟨rfl, rfl⟩, _⟩ | ⟨⟨rfl, rfl⟩, _⟩ | ⟨⟨rfl, rfl⟩, _⟩ | ⟨⟨rfl, rfl⟩, _⟩ | ⟨⟨rfl, rfl⟩, _⟩ | ⟨⟨rfl, rfl⟩, _⟩ <;>
      exact ⟨_, _, rfl, rfl, by decide, by decide⟩
    obtain ⟨a, b, rfl, rfl, ha, hb⟩ := hlab
    have e : traceMul (2 ^ 1) (outcomeProj 1 [b] s) (applyMap (2 ^ 1) idMap (prepared 1 pauliPreparationMatrix [a])) =
        pauliProjector b (charAt s 0 = some '1') false false * (pauliPreparationMatrix a).e 0 0 +
        pauliProjector b (charAt s 0 = some '1') false true * (pauliPreparationMatrix a).e 1 0 +
        (pauliProjector b (charAt s 0 = some '1') true false * (pauliPreparationMatrix a).e 0 1 +
        pauliProjector b (charAt s 0 = some '1') true true * (pauliPreparationMatrix a).e 1 1) := by
      unfold traceMul applyMap
      rw [show (2 : ℕ) ^ 1 = 2 from rfl]
      simp [idMap, Finset.sum_range_succ, outcomeProj, prepared]
    beta_reduce
    rw [e]
    match s, hsl with
    | [t], _ =>
      have ht : t = '0' ∨ t = '1' := hs t (by simp)
      simp only [exProcess, List.mem_cons, List.not_mem_nil, or_false, Prod.mk.injEq, Key.process.injEq, List.cons.injEq, and_true] at hplc
      rcases hplc with ⟨⟨rfl, rfl⟩, rfl⟩ | ⟨⟨rfl, rfl⟩, rfl⟩ | ⟨⟨rfl, rfl⟩, rfl⟩ | ⟨⟨rfl, rfl⟩, rfl⟩ | ⟨⟨rfl, rfl⟩, rfl⟩ |
        ⟨⟨rfl, rfl⟩, rfl⟩ | ⟨⟨rfl, rfl⟩, rfl⟩ | ⟨⟨rfl, rfl⟩, rfl⟩ | ⟨⟨rfl, rfl⟩, rfl⟩ | ⟨⟨rfl, rfl⟩, rfl⟩ | ⟨⟨rfl, rfl⟩, rfl⟩ |
        ⟨⟨rfl, rfl⟩, rfl⟩ <;> rcases ht with rfl | rfl <;>
        simp [cz, co, ch, Dict.getD, Dict.get?, total, charAt, pauliProjector, pauliPreparationMatrix, m2] <;> ring_nf <;> simp <;> norm_num

end Verif.Tomo
