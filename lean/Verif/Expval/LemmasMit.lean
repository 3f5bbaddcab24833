import Verif.Expval.LemmasVec
import Mathlib.Tactic.Positivity
import Mathlib.Tactic.NormNum
import Mathlib.Algebra.BigOperators.Field
set_option linter.unusedSectionVars false
set_option linter.unusedSimpArgs false
/-
Closed forms for the complete and the tensored mitigator.
-/
namespace Verif.Expval
open Verif Verif.Counts

theorem testBit_of_bit_eq {x y t s : ℕ} (h : bit x t = bit y s) : x.testBit t = y.testBit s := by
  unfold bit at h
  revert h
  cases x.testBit t <;> cases y.testBit s <;> simp

/-! ### zDiagonal -/

theorem count_binDigits (n x : ℕ) (hx : x < 2 ^ n) : (binDigits x).count '1' = ∑ t ∈ Finset.range n, bit x t := by
  induction x using Nat.strong_induction_on generalizing n with
  | _ x ih =>
    by_cases h : x < 2
    · rw [binDigits_lt x h]
      cases n with
      | zero =>
        have : x = 0 := by simpa using hx
        subst this; simp
      | succ n =>
        rw [Finset.sum_range_succ']
        have h0 : ∑ t ∈ Finset.range n, bit x (t + 1) = 0 :=
          Finset.sum_eq_zero fun t _ => bit_of_ge (n := 1) (by omega) (by omega)
        rw [h0, bit_eq]
        have : x = 0 ∨ x = 1 := by omega
        rcases this with rfl | rfl <;> simp
    · have hge : 2 ≤ x := by omega
      rw [binDigits_ge x hge, List.count_append]
      cases n with
      | zero => simp at hx; omega
      | succ n =>
        rw [ih (x / 2) (by omega) n (by rw [pow_succ] at hx; omega), Finset.sum_range_succ']
        congr 1
        · refine Finset.sum_congr rfl fun t _ => ?_
          rw [bit_eq, bit_eq, Nat.div_div_eq_div_mul, pow_succ, Nat.mul_comm]
        · rw [bit_eq, pow_zero, Nat.div_one]
          have : x % 2 = 0 ∨ x % 2 = 1 := by omega
          rcases this with h | h <;> simp [h]

variable {K : Type} [Field K] [LinearOrder K] [IsStrictOrderedRing K]

theorem zDiagonal_eq (n x : ℕ) (hx : x < 2 ^ n) : (zDiagonal x : K) = diagVal n none x := by
  unfold zDiagonal diagVal
  rw [← neg_one_pow_eq_pow_mod_two, count_binDigits n x hx]
  rfl

theorem diagOr_eq (n : ℕ) (diagonal : Option (List K)) (hd : ∀ d, diagonal = some d → d.length = 2 ^ n) :
    ∃ d, diagOr n diagonal = some d ∧ ∀ x < 2 ^ n, d x = diagVal n diagonal x := by
  cases diagonal with
  | none => exact ⟨_, rfl, fun x hx => zDiagonal_eq n x hx⟩
  | some l => exact ⟨_, if_pos (hd l rfl), fun x _ => rfl⟩

theorem sum_map_range (n : ℕ) (f : ℕ → K) : ((List.range n).map f).sum = ∑ x ∈ Finset.range n, f x := by
  induction n with
  | zero => simp
  | succ n ih => simp [List.range_succ, Finset.sum_range_succ, ih]

theorem expvalVec_fst (n : ℕ) (coeffs probs : ℕ → K) (shots : ℤ) :
    (expvalVec n coeffs probs shots).1 = ∑ x ∈ Finset.range (2 ^ n), coeffs x * probs x := by
  unfold expvalVec expvalVar
  simp only [List.map_map, Function.comp_def]
  exact sum_map_range _ _

theorem expvalVec_snd (n : ℕ) (coeffs probs : ℕ → K) (shots : ℤ) :
    (expvalVec n coeffs probs shots).2 = (∑ x ∈ Finset.range (2 ^ n), coeffs x ^ 2 * probs x -
      (∑ x ∈ Finset.range (2 ^ n), coeffs x * probs x) ^ 2) / (shots : K) := by
  unfold expvalVec expvalVar
  simp only [List.map_map, Function.comp_def]
  rw [sum_map_range, sum_map_range]

/-! ### Complete mitigator -/

theorem keep_fold (T : List ℕ) :
    (T.foldl (fun (idx : List ℕ) i => idx ++ idx.map (· + 2 ^ i)) [0]).length = 2 ^ T.length ∧
      ∀ x < 2 ^ T.length, (T.foldl (fun (idx : List ℕ) i => idx ++ idx.map (· + 2 ^ i)) [0]).getD x 0 =
        ∑ j ∈ Finset.range T.length, bit x j * 2 ^ T.getD j 0 := by
  induction T using List.reverseRecOn with
  | nil =>
    refine ⟨rfl, fun x hx => ?_⟩
    have : x = 0 := by simpa using hx
    subst this; rfl
  | append_singleton T a ih =>
    rw [List.foldl_append, List.foldl_cons, List.foldl_nil]
    set L := T.foldl (fun (idx : List ℕ) i => idx ++ idx.map (· + 2 ^ i)) [0] with hL
    obtain ⟨hlen, hget⟩ := ih
    refine ⟨by simp [hlen, pow_succ]; ring, fun x hx => ?_⟩
    have hlen' : (T ++ [a]).length = T.length + 1 := by simp
    rw [hlen'] at hx ⊢
    rw [Finset.sum_range_succ]
    have hT : ∀ j ∈ Finset.range T.length, (T ++ [a]).getD j 0 = T.getD j 0 := by
      intro j hj
      have := Finset.mem_range.1 hj
      simp [List.getD_eq_getElem?_getD, List.getElem?_append_left this]
    have ha : (T ++ [a]).getD T.length 0 = a := by simp [List.getD_eq_getElem?_getD]
    rw [ha, Finset.sum_congr rfl fun j hj => by rw [hT j hj]]
    by_cases h : x < 2 ^ T.length
    · rw [bit_of_ge h (le_refl _), Nat.zero_mul, Nat.add_zero, ← hget x h]
      simp [List.getD_eq_getElem?_getD, List.getElem?_append_left (hlen ▸ h)]
    · have hx2 : x - 2 ^ T.length < 2 ^ T.length := by rw [pow_succ] at hx; omega
      have hxe : x = (x - 2 ^ T.length) + 2 ^ T.length * 1 := by omega
      have hb1 : bit x T.length = 1 := by rw [hxe]; exact bit_high hx2 (by omega)
      rw [hb1, Nat.one_mul]
      have h1 : (L ++ L.map (· + 2 ^ a)).getD x 0 = L.getD (x - 2 ^ T.length) 0 + 2 ^ a := by
        rw [List.getD_eq_getElem?_getD, List.getElem?_append_right (by omega), hlen, List.getElem?_map,
          List.getElem?_eq_getElem (by omega)]
        simp [List.getD_eq_getElem?_getD, List.getElem?_eq_getElem (show x - 2 ^ T.length < L.length by omega)]
      rw [h1, hget _ hx2]
      congr 1
      refine Finset.sum_congr rfl fun j hj => ?_
      congr 1
      conv_rhs => rw [hxe]
      exact (bit_add_high hx2 j (Finset.mem_range.1 hj)).symm

theorem sorted_insertionSort {T : List ℕ} (hT : T.Pairwise (· < ·)) : T.insertionSort (· ≤ ·) = T :=
  List.Pairwise.insertionSort_eq (hT.imp fun h => Nat.le_of_lt h)

theorem keepIndexes_getD (T : List ℕ) (hT : T.Pairwise (· < ·)) (x : ℕ) (hx : x < 2 ^ T.length) :
    (keepIndexes T).getD x 0 = ∑ j ∈ Finset.range T.length, bit x j * 2 ^ T.getD j 0 := by
  unfold keepIndexes
  rw [sorted_insertionSort hT]
  exact (keep_fold T).2 x hx

theorem keptAxes_eq (N : ℕ) (T : List ℕ) (hT : T.Pairwise (· < ·)) (hN : ∀ q ∈ T, q < N) :
    (keptAxes N T).map (fun a => N - 1 - a) = T.reverse := by
  have h1 : (keptAxes N T).map (fun a => N - 1 - a) = ((List.range N).map fun a => N - 1 - a).filter (· ∈ T) := by
    rw [List.filter_map]; rfl
  have h2 : (List.range N).map (fun a => N - 1 - a) = (List.range N).reverse := by
    apply List.ext_getElem (by simp)
    intro i h1 h2
    simp
  rw [h1, h2, List.filter_reverse]
  congr 1
  refine List.Perm.eq_of_pairwise (fun a b _ _ h1 h2 => by omega) (List.pairwise_lt_range.filter _) hT ?_
  rw [List.perm_ext_iff_of_nodup (List.nodup_range.filter _) (hT.imp fun h => Nat.ne_of_lt h)]
  intro q
  simp only [List.mem_filter, List.mem_range, decide_eq_true_eq]
  exact ⟨fun h => h.2, fun h => ⟨hN q h, h⟩⟩

theorem foldl_bits (l : List ℕ) (z acc : ℕ) :
    l.foldl (fun acc q => 2 * acc + bit z q) acc =
      acc * 2 ^ l.length + ∑ j ∈ Finset.range l.length, bit z (l.reverse.getD j 0) * 2 ^ j := by
  induction l using List.reverseRecOn generalizing acc with
  | nil => simp
  | append_singleton l a ih =>
    rw [List.foldl_append, List.foldl_cons, List.foldl_nil, ih, List.length_append, List.length_singleton,
      Finset.sum_range_succ']
    simp only [List.reverse_append, List.reverse_cons, List.reverse_nil, List.nil_append, List.singleton_append,
      List.getD_cons_succ, List.getD_cons_zero, pow_zero, Nat.mul_one]
    rw [Nat.mul_add, Finset.mul_sum, pow_succ]
    have : ∑ j ∈ Finset.range l.length, 2 * (bit z (l.reverse.getD j 0) * 2 ^ j) =
        ∑ j ∈ Finset.range l.length, bit z (l.reverse.getD j 0) * 2 ^ (j + 1) :=
      Finset.sum_congr rfl fun j _ => by ring
    rw [this]; ring

theorem keptIndex_eq (N : ℕ) (T : List ℕ) (hT : T.Pairwise (· < ·)) (hN : ∀ q ∈ T, q < N) (z : ℕ) :
    keptIndex N T z = ∑ j ∈ Finset.range T.length, bit z (T.getD j 0) * 2 ^ j := by
  unfold keptIndex
  have := foldl_bits T.reverse z 0
  rw [← keptAxes_eq N T hT hN, List.foldl_map, keptAxes_eq N T hT hN] at this
  rw [this]
  simp

theorem keptIndex_iff (N : ℕ) (T : List ℕ) (hT : T.Pairwise (· < ·)) (hN : ∀ q ∈ T, q < N) (z y : ℕ)
    (hy : y < 2 ^ T.length) :
    keptIndex N T z = y ↔ ∀ j < T.length, z.testBit (T.getD j 0) = y.testBit j := by
  rw [keptIndex_eq N T hT hN]
  constructor
  · rintro rfl j hj
    exact testBit_of_bit_eq (bit_sum T.length (fun j => bit z (T.getD j 0)) (fun t _ => bit_lt _ _) j hj).symm
  · intro h
    refine eq_of_bits (sum_bits_lt _ _ fun t _ => bit_lt _ _) hy fun t ht => ?_
    rw [bit_sum T.length (fun j => bit z (T.getD j 0)) (fun t _ => bit_lt _ _) t ht]
    unfold bit
    rw [h t ht]

theorem completeAmat_eq (A : Mat K) (N : ℕ) (T : List ℕ) (hT : T.Pairwise (· < ·)) (hN : ∀ q ∈ T, q < N) :
    ∃ m, completeAmat A N T = some m ∧ ∀ y < 2 ^ T.length, ∀ x < 2 ^ T.length, m y x = subNoise A N T y x := by
  have hlen : (keptAxes N T).length = T.length := by
    have := congrArg List.length (keptAxes_eq N T hT hN)
    simpa using this
  refine ⟨_, if_neg (by rw [hlen]; exact fun h => h rfl), fun y hy x hx => ?_⟩
  unfold subNoise
  refine Finset.sum_congr rfl fun z _ => ?_
  rw [keepIndexes_getD T hT x hx]
  by_cases h : keptIndex N T z = y
  · rw [if_pos h, if_pos ((keptIndex_iff N T hT hN z y hy).1 h)]; rfl
  · rw [if_neg h, if_neg fun h' => h ((keptIndex_iff N T hT hN z y hy).2 h')]

theorem isInv_congr (dim : ℕ) (B A A' : Mat K) (h : ∀ y < dim, ∀ x < dim, A y x = A' y x) (hi : IsInv dim B A) :
    IsInv dim B A' := by
  intro i hi' j hj
  rw [← hi i hi' j hj]
  exact Finset.sum_congr rfl fun k hk => by rw [h k (Finset.mem_range.1 hk) j hj]

theorem completeMit_eq (inv : ℕ → Mat K → Mat K) (hinv : InvCorrect inv) (A : Mat K) (N : ℕ) (qs Q : List ℕ)
    (hQ : Q.Pairwise (· < ·)) (hp : qs.Perm Q) (hN : ∀ q ∈ Q, q < N)
    (hi : ∃ B, IsInv (2 ^ Q.length) B (subNoise A N Q)) :
    ∃ m, completeMit inv A N qs = some m ∧ IsInv (2 ^ Q.length) m (subNoise A N Q) := by
  have hs : qs.insertionSort (· ≤ ·) = Q := by
    refine List.Perm.eq_of_pairwise (fun a b _ _ h1 h2 => by omega) (List.pairwise_insertionSort (· ≤ ·) qs)
      (hQ.imp fun h => Nat.le_of_lt h) ((List.perm_insertionSort _ _).trans hp)
  obtain ⟨m, hm, he⟩ := completeAmat_eq A N Q hQ hN
  refine ⟨inv (2 ^ qs.length) m, by unfold completeMit; rw [hs, hm]; rfl, ?_⟩
  rw [hp.length_eq]
  obtain ⟨B, hB⟩ := hi
  exact isInv_congr _ _ m _ he (hinv _ m ⟨B, isInv_congr _ B _ m (fun y hy x hx => (he y hy x hx).symm) hB⟩)

/-- The linear algebra behind every mitigator. -/
theorem inverse_exact (dim : ℕ) (B S : Mat K) (h : IsInv dim B S) (d p probs : ℕ → K)
    (hp : ∀ y < dim, probs y = ∑ x ∈ Finset.range dim, S y x * p x) :
    ∑ x ∈ Finset.range dim, (∑ z ∈ Finset.range dim, B z x * d z) * probs x = ∑ x ∈ Finset.range dim, d x * p x := by
  have h1 : ∀ x ∈ Finset.range dim, (∑ z ∈ Finset.range dim, B z x * d z) * probs x =
      ∑ z ∈ Finset.range dim, ∑ w ∈ Finset.range dim, d z * p w * (B z x * S x w) := by
    intro x hx
    rw [hp x (Finset.mem_range.1 hx), Finset.sum_mul]
    refine Finset.sum_congr rfl fun z _ => ?_
    rw [Finset.mul_sum]
    exact Finset.sum_congr rfl fun w _ => by ring
  rw [Finset.sum_congr rfl h1, Finset.sum_comm]
  refine Finset.sum_congr rfl fun z hz => ?_
  rw [Finset.sum_comm]
  have h2 : ∀ w ∈ Finset.range dim, ∑ x ∈ Finset.range dim, d z * p w * (B z x * S x w) =
      if z = w then d z * p w else 0 := by
    intro w hw
    rw [← Finset.mul_sum, h z (Finset.mem_range.1 hz) w (Finset.mem_range.1 hw)]
    split <;> simp
  rw [Finset.sum_congr rfl h2, Finset.sum_ite_eq, if_pos hz]

/-! ### Tensored mitigator -/

theorem prod_zipIdx {α M : Type} [CommMonoid M] (l : List α) (a : α) (f : α → ℕ → M) :
    (l.zipIdx.map fun p => f p.1 p.2).prod = ∏ t ∈ Finset.range l.length, f (l.getD t a) t := by
  have key : ∀ k, ((l.zipIdx k).map fun p => f p.1 p.2).prod = ∏ t ∈ Finset.range l.length, f (l.getD t a) (t + k) := by
    induction l with
    | nil => intro k; simp
    | cons b l ih =>
      intro k
      rw [List.zipIdx_cons, List.map_cons, List.prod_cons, ih, List.length_cons, Finset.prod_range_succ', mul_comm]
      congr 1
      · refine Finset.prod_congr rfl fun t _ => ?_
        rw [List.getD_cons_succ, show t + (k + 1) = t + 1 + k by omega]
      · simp
  exact key 0

/-- The product over bits of the entries of 2×2 matrices. -/
theorem tensoredCoeffs_eq (ainvs : List (Mat K)) (d : ℕ → K) :
    ∃ co, tensoredCoeffs ainvs.length ainvs d = some co ∧ ∀ o, co o = ∑ f ∈ Finset.range (2 ^ ainvs.length),
      prodNoise ainvs f o * d f := by
  refine ⟨_, if_neg (by omega), fun o => ?_⟩
  refine Finset.sum_congr rfl fun f hf => ?_
  rw [Nat.mod_eq_of_lt (Finset.mem_range.1 hf), mul_comm]
  congr 1
  set n := ainvs.length with hn
  rw [prod_zipIdx ainvs.reverse (fun _ _ => 0) fun a i => a (einsumLabel n f o i) (einsumLabel n f o (n + i))]
  rw [List.length_reverse, ← hn, ← Finset.prod_range_reflect]
  unfold prodNoise
  refine Finset.prod_congr rfl fun t ht => ?_
  have ht := Finset.mem_range.1 ht
  rw [← hn] at ht
  have h1 : ainvs.reverse.getD (n - 1 - t) (fun _ _ => 0) = ainvs.getD t (fun _ _ => 0) := by
    rw [List.getD_eq_getElem?_getD, List.getElem?_reverse (by omega), List.getD_eq_getElem?_getD]
    congr 2; omega
  rw [h1]
  unfold einsumLabel
  rw [if_pos (by omega), if_neg (by omega), if_pos (by omega), show n - 1 - (n - 1 - t) = t by omega,
    show 2 * n - 1 - (n + (n - 1 - t)) = t by omega]
  rfl

theorem prodNoise_inv (as bs : List (Mat K)) (hl : bs.length = as.length)
    (h : ∀ j < as.length, IsInv 2 (bs.getD j (fun _ _ => 0)) (as.getD j (fun _ _ => 0))) :
    IsInv (2 ^ as.length) (prodNoise bs) (prodNoise as) := by
  intro i hi j hj
  unfold prodNoise
  rw [hl]
  simp only [← Finset.prod_mul_distrib]
  refine (sum_prod_bits as.length fun t b => bs.getD t (fun _ _ => 0) (i.testBit t).toNat b * as.getD t (fun _ _ => 0) b (j.testBit t).toNat).trans ?_
  rw [← prod_delta as.length i j hi hj]
  refine Finset.prod_congr rfl fun t ht => ?_
  have := h t (Finset.mem_range.1 ht) (bit i t) (bit_lt _ _) (bit j t) (bit_lt _ _)
  rw [Finset.sum_range_succ, Finset.sum_range_succ, Finset.sum_range_zero, zero_add] at this
  exact this

end Verif.Expval
