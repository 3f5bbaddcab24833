import Verif.Tomo.LemmasFrame
import Verif.Tomo.PropsShots
/-
The least squares problem of process tomography data.
-/
set_option linter.unusedSimpArgs false
set_option linter.unusedVariables false
namespace Verif.Tomo
open Verif Verif.Quantum Verif.Counts

/-! ### Labels -/

theorem PrepBasis.complete (B : PrepBasis) : Complete B.alph B.prep B.mat := by
  cases B
  · exact complete_pauli
  · exact complete_sic

theorem PrepBasis.label_mem (B : PrepBasis) (i : Fin 4) : B.label i ∈ B.alph := by
  cases B <;> revert i <;> decide

theorem PrepBasis.label_inj (B : PrepBasis) : Function.Injective B.label := by
  cases B <;> decide

theorem PrepBasis.exists_label (B : PrepBasis) (a : Str) (ha : a ∈ B.alph) : ∃ i, B.label i = a := by
  cases B <;> revert a <;> decide

theorem prepLabel_isLabel (B : PrepBasis) {n : ℕ} (p : Fin n → Fin 4) : IsLabel B.alph n (prepLabel B p) := by
  refine ⟨by simp [prepLabel], fun a ha => ?_⟩
  obtain ⟨j, rfl⟩ := (List.mem_ofFn' _ _).1 ha
  exact B.label_mem _

theorem prepLabel_inj (B : PrepBasis) {n : ℕ} : Function.Injective (prepLabel B (n := n)) := by
  intro t t' h
  have := List.ofFn_injective h
  funext j
  exact B.label_inj (congrFun this j)

theorem exists_prep (B : PrepBasis) {n : ℕ} (l : List Str) (hl : IsLabel B.alph n l) : ∃ p : Fin n → Fin 4, prepLabel B p = l := by
  have h : ∀ j : Fin n, ∃ t : Fin 4, B.label t = l[(j : ℕ)]'(by rw [hl.1]; exact j.2) := by
    intro j
    exact B.exists_label _ (hl.2 _ (List.getElem_mem (l := l) (n := j) (by rw [hl.1]; exact j.2)))
  choose t ht using h
  refine ⟨t, List.ext_getElem (by simp [prepLabel, hl.1]) fun i h1 h2 => ?_⟩
  simp only [prepLabel, List.getElem_ofFn]
  exact ht _

theorem prepLabel_getD (B : PrepBasis) {n : ℕ} (p : Fin n → Fin 4) (j : Fin n) : (prepLabel B p).getD j [] = B.label (p j) := by
  rw [List.getD_eq_getElem _ _ (by simp [prepLabel])]
  simp [prepLabel]

theorem prepared_eq (B : PrepBasis) {n : ℕ} (p : Fin n → Fin 4) (a b : ℕ) : prepared n B.mat (prepLabel B p) a b = prepN B p a b := by
  unfold prepared prepN
  rw [Finset.prod_range]
  refine Finset.prod_congr rfl fun j _ => ?_
  rw [prepLabel_getD]; rfl

theorem output_eq (B : PrepBasis) {n : ℕ} (S : ℕ → ℕ → ℕ → ℕ → ℂ) (p : Fin n → Fin 4) : output B S p = applyMap (2 ^ n) S (prepN B p) := by
  unfold output
  rw [show prepared n B.mat (prepLabel B p) = prepN B p from funext fun a => funext fun b => prepared_eq B p a b]

/-! ### The rows -/

/-- The counts of a preparation and a setting. -/
def pcnt (B : PrepBasis) {n : ℕ} (data : Dict Key Counts) (i : (Fin n → Fin 4) × (Fin n → Fin 3)) : Counts :=
  data.getD (.process (prepLabel B i.1) (settingLabel i.2)) []

/-- The frequency of an outcome. -/
noncomputable def pfreq (B : PrepBasis) {n : ℕ} (data : Dict Key Counts) (i : (Fin n → Fin 4) × (Fin n → Fin 3)) (s : Fin n → Bool) : ℝ :=
  ((pcnt B data i).getD (outcomeStr s) 0 : ℤ) / ((total (pcnt B data i) : ℤ) : ℝ)

theorem pkey_inj (B : PrepBasis) {n : ℕ} {i i' : (Fin n → Fin 4) × (Fin n → Fin 3)}
    (h : Key.process (prepLabel B i.1) (settingLabel i.2) = Key.process (prepLabel B i'.1) (settingLabel i'.2)) : i = i' := by
  obtain ⟨h1, h2⟩ := Key.process.inj h
  exact Prod.ext (prepLabel_inj B h1) (settingLabel_inj h2)

theorem pcnt_mem {B : PrepBasis} {n : ℕ} {data : Dict Key Counts} (h : ProcData B n data) (i : (Fin n → Fin 4) × (Fin n → Fin 3)) :
    (Key.process (prepLabel B i.1) (settingLabel i.2), pcnt B data i) ∈ data := by
  obtain ⟨c, hc⟩ := h.all _ _ (prepLabel_isLabel B i.1) (settingLabel_isLabel i.2)
  have := Dict.get?_of_mem _ h.wf _ _ hc
  unfold pcnt Dict.getD
  rw [this]; exact hc

theorem pcnt_of_mem {B : PrepBasis} {n : ℕ} {data : Dict Key Counts} (h : ProcData B n data) (i : (Fin n → Fin 4) × (Fin n → Fin 3)) (c : Counts)
    (hc : (Key.process (prepLabel B i.1) (settingLabel i.2), c) ∈ data) : pcnt B data i = c := by
  have := Dict.get?_of_mem _ h.wf _ _ hc
  unfold pcnt Dict.getD
  rw [this]; rfl

theorem pdata_perm {B : PrepBasis} {n : ℕ} {data : Dict Key Counts} (h : ProcData B n data) :
    data.Perm ((Finset.univ : Finset ((Fin n → Fin 4) × (Fin n → Fin 3))).toList.map fun i =>
      (Key.process (prepLabel B i.1) (settingLabel i.2), pcnt B data i)) := by
  have hinj : Function.Injective fun i : (Fin n → Fin 4) × (Fin n → Fin 3) => (Key.process (prepLabel B i.1) (settingLabel i.2), pcnt B data i) := by
    intro t t' e
    exact pkey_inj B (Prod.mk.inj e).1
  refine (List.perm_ext_iff_of_nodup (List.Nodup.of_map _ h.wf) ((Finset.nodup_toList _).map hinj)).2 fun kv => ?_
  rw [List.mem_map]
  constructor
  · intro hkv
    obtain ⟨p, l, e, hp, hl⟩ := h.only kv hkv
    obtain ⟨t, rfl⟩ := exists_setting l hl
    obtain ⟨p, rfl⟩ := exists_prep B p hp
    refine ⟨(p, t), by simp, ?_⟩
    obtain ⟨k, c⟩ := kv
    simp only at e
    subst e
    rw [pcnt_of_mem h (p, t) c hkv]
  · rintro ⟨t, _, rfl⟩
    exact pcnt_mem h t

/-- The frequencies of one label add up to one. -/
theorem freq_sum_one {n : ℕ} (c : Counts) (hg : GoodCounts n c) : ∑ s : Fin n → Bool, ((c.getD (outcomeStr s) 0 : ℤ) / ((total c : ℤ) : ℝ) : ℝ) = 1 := by
  rw [← Finset.sum_div]
  have e : ∑ s : Fin n → Bool, ((c.getD (outcomeStr s) 0 : ℤ) : ℝ) = ((total c : ℤ) : ℝ) := by
    rw [← sum_getD n _ hg.1]
    have h1 : ((bitStrings n).map fun k => c.getD k 0).sum = ∑ k ∈ Finset.range (2 ^ n), c.getD ((bitStrings n).getD k []) 0 := by
      rw [← length_bitStrings n]
      generalize bitStrings n = l
      induction l with
      | nil => simp
      | cons a l ih => rw [List.map_cons, List.sum_cons, List.length_cons, Finset.sum_range_succ', ih, add_comm]; rfl
    rw [h1, sum_range_bits]
    push_cast
    refine Finset.sum_congr rfl fun s _ => ?_
    have hk : Nat.ofBits s < (bitStrings n).length := by rw [length_bitStrings]; exact Nat.ofBits_lt_two_pow _
    rw [List.getD_eq_getElem _ _ hk, bitStrings_outcome]
  rw [e, div_self]
  have := hg.2.2
  exact_mod_cast this.ne'

theorem pfreq_sum {B : PrepBasis} {n : ℕ} {data : Dict Key Counts} (h : ProcData B n data) (i : (Fin n → Fin 4) × (Fin n → Fin 3)) : ∑ s, pfreq B data i s = 1 :=
  freq_sum_one _ (h.counts _ (pcnt_mem h i))

/-- Everything `_fitter_data` hands to the least squares routine, and sums over its rows. -/
theorem pfitterData_sum (B : PrepBasis) (n : ℕ) (hn : 0 < n) (data : Dict Key Counts) (h : ProcData B n data) :
    ∃ freqs rows, fitterData pauliMeas B.prep data = some (freqs, rows) ∧ freqs.length = rows.length ∧ rows.length = data.length * 2 ^ n ∧ rows ≠ [] ∧
      (∀ op ∈ rows, op.dim = 2 ^ (n + n)) ∧
      ∀ (M : Type) [AddCommMonoid M] (G : SM → ℝ → M),
        (∀ op op' f, op.dim = 2 ^ (n + n) → op'.dim = 2 ^ (n + n) → (∀ a b, a < 2 ^ (n + n) → b < 2 ^ (n + n) → op.e a b = op'.e a b) → G op f = G op' f) →
        ∑ i ∈ Finset.range rows.length, G (rows.getD i smOne) (freqs.getD i 0) =
          ∑ i : (Fin n → Fin 4) × (Fin n → Fin 3), ∑ s, G (opP B i.1 i.2 s) (pfreq B data i s) := by
  have hd : (2 : ℕ) ^ (n + n) = 2 ^ n * 2 ^ n := Nat.pow_add 2 n n
  have hpos := Nat.two_pow_pos n
  have hops : ∀ i : (Fin n → Fin 4) × (Fin n → Fin 3), ∃ op ops, preparationOp B.prep (some (prepLabel B i.1)) = some op ∧
      measurementOps pauliMeas (settingLabel i.2) = some ops ∧
      processOps B.prep (.process (prepLabel B i.1) (settingLabel i.2)) = ops.map (fun m => kron op.transpose m) ∧ ops.length = 2 ^ n ∧
      ∀ s : Fin n → Bool, ∃ hk : Nat.ofBits s < ops.length, (kron op.transpose ops[Nat.ofBits s]).dim = 2 ^ (n + n) ∧
        ∀ a b, a < 2 ^ (n + n) → b < 2 ^ (n + n) → (kron op.transpose ops[Nat.ofBits s]).e a b = (opP B i.1 i.2 s).e a b := by
    intro i
    obtain ⟨op, o1, o2, o3⟩ := preparationOp_entries B.prep B.mat (prepLabel B i.1) (fun a ha => B.complete.ops a ((prepLabel_isLabel B i.1).2 a ha))
      (fun a ha => B.complete.dim a ((prepLabel_isLabel B i.1).2 a ha))
    rw [(prepLabel_isLabel B i.1).1] at o2 o3
    obtain ⟨ops, h1, h2, h3⟩ := measurementOps_pauli n _ (settingLabel_isLabel i.2)
    refine ⟨op, ops, o1, h1, by simp [processOps, h1, o1], h2, fun s => ?_⟩
    have hk : Nat.ofBits s < ops.length := by rw [h2]; exact Nat.ofBits_lt_two_pow _
    refine ⟨hk, by show op.dim * ops[Nat.ofBits s].dim = _; rw [o2, (h3 _ hk).1, hd], fun a b ha hb => ?_⟩
    rw [hd] at ha hb
    show op.e (b / ops[Nat.ofBits s].dim) (a / ops[Nat.ofBits s].dim) * ops[Nat.ofBits s].e (a % ops[Nat.ofBits s].dim) (b % ops[Nat.ofBits s].dim) =
      prepN B i.1 (b / 2 ^ n) (a / 2 ^ n) * projN i.2 s (a % 2 ^ n) (b % 2 ^ n)
    rw [(h3 _ hk).1, o3 _ _ (Nat.div_lt_of_lt_mul hb) (Nat.div_lt_of_lt_mul ha), (h3 _ hk).2]
    congr 1
    · exact prepared_eq B i.1 _ _
    · rw [projN, Finset.prod_range]
      refine Finset.prod_congr rfl fun j _ => ?_
      rw [settingLabel_getD, testBit_ofBits']
  have hset : ∀ kv ∈ data, ∃ i : (Fin n → Fin 4) × (Fin n → Fin 3), kv.1 = .process (prepLabel B i.1) (settingLabel i.2) := by
    intro kv hkv
    obtain ⟨p, l, e, hp, hl⟩ := h.only kv hkv
    obtain ⟨t, rfl⟩ := exists_setting l hl
    obtain ⟨p, rfl⟩ := exists_prep B p hp
    exact ⟨(p, t), e⟩
  have hne : data ≠ [] := by
    have := pcnt_mem h (fun _ : Fin n => 0, fun _ : Fin n => 0)
    rintro rfl; simp at this
  have hlen : ∀ kv ∈ data, (processOps B.prep kv.1).length = 2 ^ n := by
    intro kv hkv
    obtain ⟨i, e⟩ := hset kv hkv
    obtain ⟨op, ops, _, _, e2, h2, _⟩ := hops i
    rw [e, e2, List.length_map, h2]
  have hfd := fitterData_eq pauliMeas B.prep data n hne
    (fun kv hkv => by obtain ⟨i, e⟩ := hset kv hkv; rw [e]; exact (settingLabel_isLabel i.2).1) (processOps B.prep)
    (fun kv hkv => by
      obtain ⟨i, e⟩ := hset kv hkv
      obtain ⟨op, ops, o1, h1, e2, _⟩ := hops i
      rw [e, e2]
      simp [labelOps, o1, h1])
  have hll := length_flatMap_eq data (fun kv => frequencies (countsArray n kv.2)) (fun kv => processOps B.prep kv.1)
    fun kv hkv => by rw [hlen kv hkv, length_frequencies]
  refine ⟨_, _, hfd, hll, length_flatMap_const _ _ _ hlen, ?_, ?_, ?_⟩
  · rw [← List.length_pos_iff, length_flatMap_const _ _ _ hlen]
    exact Nat.mul_pos (List.length_pos_iff.2 hne) hpos
  · intro o ho
    obtain ⟨kv, hkv, hm⟩ := List.mem_flatMap.1 ho
    obtain ⟨i, e⟩ := hset kv hkv
    obtain ⟨op, ops, _, _, e2, h2, h3⟩ := hops i
    rw [e, e2] at hm
    obtain ⟨m, hm2, rfl⟩ := List.mem_map.1 hm
    obtain ⟨k, hk, rfl⟩ := List.mem_iff_getElem.1 hm2
    have hk2 : k = Nat.ofBits (fun j : Fin n => k.testBit j) := by
      rw [Nat.ofBits_testBit, Nat.mod_eq_of_lt (by rw [← h2]; exact hk)]
    obtain ⟨hk3, h4, h5⟩ := h3 fun j => k.testBit j
    have e5 : ops[k] = ops[Nat.ofBits fun j : Fin n => k.testBit j] := by congr 1
    rw [e5]
    exact h4
  · intro M _ G hG
    rw [sum_zip _ _ hll.symm, zip_flatMap data (fun kv => processOps B.prep kv.1) (fun kv => frequencies (countsArray n kv.2))
      (fun kv hkv => by rw [hlen kv hkv, length_frequencies]), sum_flatMap_map, ((pdata_perm h).map _).sum_eq, List.map_map, Finset.sum_map_toList]
    refine Finset.sum_congr rfl fun i _ => ?_
    obtain ⟨op, ops, _, _, e2, h2, h3⟩ := hops i
    have hl2 : (processOps B.prep (.process (prepLabel B i.1) (settingLabel i.2))).length = (frequencies (countsArray n (pcnt B data i))).length := by
      rw [e2, List.length_map, h2, length_frequencies]
    show (((processOps B.prep (.process (prepLabel B i.1) (settingLabel i.2))).zip (frequencies (countsArray n (pcnt B data i)))).map fun p => G p.1 p.2).sum = _
    rw [← sum_zip _ _ hl2, e2, List.length_map, h2, sum_range_bits]
    refine Finset.sum_congr rfl fun s _ => ?_
    obtain ⟨hk, h4, h5⟩ := h3 s
    have hf : (frequencies (countsArray n (pcnt B data i))).getD (Nat.ofBits s) 0 = pfreq B data i s := by
      have hk' : Nat.ofBits s < (bitStrings n).length := by rw [length_bitStrings]; exact Nat.ofBits_lt_two_pow _
      unfold frequencies
      rw [countsArray_sum n hn _ (h.counts _ (pcnt_mem h i)).1, countsArray_eq n hn, List.map_map, List.getD_eq_getElem _ _ (by simpa using hk')]
      simp only [List.getElem_map, Function.comp, bitStrings_outcome]
      rfl
    rw [hf, List.getD_eq_getElem _ _ (by simpa using hk), List.getElem_map]
    exact hG _ _ _ h4 (opP_dim B i.1 i.2 s) h5

theorem rowDot_opP (B : PrepBasis) {n : ℕ} (p : Fin n → Fin 4) (t : Fin n → Fin 3) (s : Fin n → Bool) (x : ℕ → ℂ) :
    rowDot (opP B p t s) x = traceMul (2 ^ (n + n)) (opP B p t s).e fun a b => x (b * 2 ^ (n + n) + a) :=
  rowDot_hermitian (opP B p t s) (2 ^ (n + n)) (opP_dim B p t s) (Nat.two_pow_pos _) (fun a b _ _ => opP_conj B p t s a b) x

/-- The closed form of the least squares solution without weights. -/
noncomputable def procEstimate (B : PrepBasis) {n : ℕ} (f : (Fin n → Fin 4) × (Fin n → Fin 3) → (Fin n → Bool) → ℝ) (a b : ℕ) : ℂ :=
  ∑ i, ∑ s, (f i s : ℂ) * dualP B i.1 i.2 s a b

/-- The least squares solution without weights. -/
theorem plstsq_closed_form (B : PrepBasis) (n : ℕ) (hn : 0 < n) (data : Dict Key Counts) (h : ProcData B n data) (freqs : List ℝ) (rows : List SM)
    (hfd : fitterData pauliMeas B.prep data = some (freqs, rows)) (x : ℕ → ℂ) (hx : IsLstsq rows freqs none x) (a b : ℕ)
    (ha : a < 2 ^ (n + n)) (hb : b < 2 ^ (n + n)) : x (b * 2 ^ (n + n) + a) = procEstimate B (n := n) (pfreq B data) a b := by
  obtain ⟨freqs', rows', h1, _, _, _, _, h2⟩ := pfitterData_sum B n hn data h
  obtain ⟨rfl, rfl⟩ : freqs' = freqs ∧ rows' = rows := by
    rw [h1] at hfd; exact Prod.mk.inj (Option.some.inj hfd)
  have hg := normal_of_lstsq _ _ _ x hx (vecF (2 ^ (n + n)) (probeP B n b a))
  unfold gradient at hg
  simp only [weightAt, Complex.ofReal_one, one_pow, one_mul] at hg
  rw [h2 ℂ (fun op f => (starRingEnd ℂ) (rowDot op (vecF (2 ^ (n + n)) (probeP B n b a))) * (rowDot op x - (f : ℂ))) fun op op' f e1 e2 e3 => by
    rw [rowDot_congr_op op op' _ e1 e2 (Nat.two_pow_pos _) e3, rowDot_congr_op op op' _ e1 e2 (Nat.two_pow_pos _) e3]] at hg
  have e : ∀ p : Fin n → Fin 4, ∀ t : Fin n → Fin 3, ∀ s, (starRingEnd ℂ) (rowDot (opP B p t s) (vecF (2 ^ (n + n)) (probeP B n b a))) = dualP B p t s a b := by
    intro p t s
    rw [rowDot_opP, traceMul_congr (2 ^ (n + n)) (fun _ _ _ _ => rfl) (fun a' b' ha' _ => vecF_get (2 ^ (n + n)) (probeP B n b a) a' b' ha'), traceMul_probeP,
      dualP_conj]
  simp only [e, mul_sub, Finset.sum_sub_distrib] at hg
  have e2 : ∀ p : Fin n → Fin 4, ∀ t : Fin n → Fin 3, ∀ s, rowDot (opP B p t s) x =
      traceMul (2 ^ n) (projN t s) (applyMap (2 ^ n) (fun i j r s => x ((j * 2 ^ n + s) * 2 ^ (n + n) + (i * 2 ^ n + r))) (prepN B p)) := by
    intro p t s
    rw [← traceMul_opP, rowDot_opP]
    exact traceMul_congr _ (fun _ _ _ _ => rfl) fun a' b' _ _ => (eq_choi (2 ^ n) (fun a b => x (b * 2 ^ (n + n) + a)) a' b').symm
  simp only [e2] at hg
  rw [Fintype.sum_prod_type] at hg
  dsimp only at hg
  rw [dualP_recon B n _ a b ha hb, sub_eq_zero, eq_choi (2 ^ n) (fun a b => x (b * 2 ^ (n + n) + a)) a b] at hg
  rw [hg]
  unfold procEstimate
  exact Finset.sum_congr rfl fun t _ => Finset.sum_congr rfl fun s _ => mul_comm _ _

/-- The closed form is Hermitian. -/
theorem procEstimate_conj (B : PrepBasis) {n : ℕ} (f : (Fin n → Fin 4) × (Fin n → Fin 3) → (Fin n → Bool) → ℝ) (a b : ℕ) :
    (starRingEnd ℂ) (procEstimate B f a b) = procEstimate B f b a := by
  unfold procEstimate
  rw [map_sum]
  refine Finset.sum_congr rfl fun t _ => ?_
  rw [map_sum]
  refine Finset.sum_congr rfl fun s _ => ?_
  rw [map_mul, Complex.conj_ofReal, dualP_conj]

/-- The closed form is trace preserving. -/
theorem procEstimate_ptrace (B : PrepBasis) {n : ℕ} (f : (Fin n → Fin 4) × (Fin n → Fin 3) → (Fin n → Bool) → ℝ) (hf : ∀ i, ∑ s, f i s = 1) (i j : ℕ)
    (hi : i < 2 ^ n) (hj : j < 2 ^ n) :
    ∑ r ∈ Finset.range (2 ^ n), procEstimate B f (i * 2 ^ n + r) (j * 2 ^ n + r) = if i = j then 1 else 0 := by
  unfold procEstimate
  rw [Finset.sum_comm]
  have e : ∀ q : (Fin n → Fin 4) × (Fin n → Fin 3), ∑ r ∈ Finset.range (2 ^ n), ∑ s, (f q s : ℂ) * dualP B q.1 q.2 s (i * 2 ^ n + r) (j * 2 ^ n + r) =
      edualN B q.1 j i * (1 / 3) ^ n := by
    intro q
    rw [Finset.sum_comm]
    have e1 : ∀ s : Fin n → Bool, ∑ r ∈ Finset.range (2 ^ n), (f q s : ℂ) * dualP B q.1 q.2 s (i * 2 ^ n + r) (j * 2 ^ n + r) = (f q s : ℂ) * (edualN B q.1 j i * (1 / 3) ^ n) := by
      intro s
      rw [← Finset.mul_sum, dualP_ptrace]
    simp only [e1]
    rw [← Finset.sum_mul, ← Complex.ofReal_sum, hf]; simp
  simp only [e]
  rw [Fintype.sum_prod_type]
  simp only [Finset.sum_const, Finset.card_univ, Fintype.card_fun, Fintype.card_fin, nsmul_eq_mul]
  rw [← Finset.mul_sum, ← Finset.sum_mul, edualN_sum B j i hj hi]
  push_cast
  have h3 : (3 : ℂ) ^ n * (1 / 3) ^ n = 1 := by rw [← mul_pow]; norm_num
  by_cases hij : i = j
  · subst hij; simp only [if_true, one_mul]; exact h3
  · rw [if_neg hij, if_neg (fun h => hij h.symm)]; simp

/-- The trace of a trace preserving Choi matrix. -/
theorem tr_of_ptrace (n : ℕ) (m : ℕ → ℕ → ℂ) (h : ∀ i, i < 2 ^ n → ∑ r ∈ Finset.range (2 ^ n), m (i * 2 ^ n + r) (i * 2 ^ n + r) = 1) :
    tr (2 ^ (n + n)) m = ((2 ^ n : ℕ) : ℂ) := by
  unfold tr
  rw [sum_tensor, Finset.sum_congr rfl fun i hi => h i (Finset.mem_range.1 hi)]
  simp

/-! ### Outputs -/

/-- The output of a channel is a state. -/
theorem output_density (B : PrepBasis) {n : ℕ} (S : ℕ → ℕ → ℕ → ℕ → ℂ) (hS : IsChannel n S) (p : Fin n → Fin 4) :
    IsDensity (2 ^ n) (applyMap (2 ^ n) S (prepN B p)) := by
  have hpos := Nat.two_pow_pos n
  refine ⟨fun u => ?_, ?_⟩
  · choose x hx ex using fun c : ℕ => hS.cp fun k => (starRingEnd ℂ) (prepN B p (k / 2 ^ n) c) * u (k % 2 ^ n)
    refine ⟨∑ c ∈ Finset.range (2 ^ n), x c, Finset.sum_nonneg fun c _ => hx c, ?_⟩
    push_cast
    simp only [← ex]
    have e1 : ∀ c ∈ Finset.range (2 ^ n), ∑ k ∈ Finset.range (2 ^ (n + n)), ∑ l ∈ Finset.range (2 ^ (n + n)),
        (starRingEnd ℂ) ((starRingEnd ℂ) (prepN B p (k / 2 ^ n) c) * u (k % 2 ^ n)) * choi (2 ^ n) S k l * ((starRingEnd ℂ) (prepN B p (l / 2 ^ n) c) * u (l % 2 ^ n)) =
        ∑ i ∈ Finset.range (2 ^ n), ∑ r ∈ Finset.range (2 ^ n), ∑ j ∈ Finset.range (2 ^ n), ∑ s ∈ Finset.range (2 ^ n),
          (prepN B p i c * prepN B p c j) * ((starRingEnd ℂ) (u r) * S i j r s * u s) := by
      intro c _
      rw [sum_tensor]
      refine Finset.sum_congr rfl fun i _ => Finset.sum_congr rfl fun r hr => ?_
      rw [sum_tensor]
      refine Finset.sum_congr rfl fun j _ => Finset.sum_congr rfl fun s hs => ?_
      have h1 := index_div i r (Finset.mem_range.1 hr)
      have h2 := index_div j s (Finset.mem_range.1 hs)
      simp only [choi, h1.1, h1.2, h2.1, h2.2, map_mul, Complex.conj_conj, prepN_conj]
      ring
    rw [Finset.sum_congr rfl e1]
    have e2 : ∑ c ∈ Finset.range (2 ^ n), ∑ i ∈ Finset.range (2 ^ n), ∑ r ∈ Finset.range (2 ^ n), ∑ j ∈ Finset.range (2 ^ n), ∑ s ∈ Finset.range (2 ^ n),
          (prepN B p i c * prepN B p c j) * ((starRingEnd ℂ) (u r) * S i j r s * u s) =
        ∑ i ∈ Finset.range (2 ^ n), ∑ r ∈ Finset.range (2 ^ n), ∑ j ∈ Finset.range (2 ^ n), ∑ s ∈ Finset.range (2 ^ n),
          prepN B p i j * ((starRingEnd ℂ) (u r) * S i j r s * u s) := by
      rw [Finset.sum_comm]
      refine Finset.sum_congr rfl fun i _ => ?_
      rw [Finset.sum_comm]
      refine Finset.sum_congr rfl fun r _ => ?_
      rw [Finset.sum_comm]
      refine Finset.sum_congr rfl fun j _ => ?_
      rw [Finset.sum_comm]
      refine Finset.sum_congr rfl fun s _ => ?_
      rw [← Finset.sum_mul, prepN_idem]
    rw [e2]
    symm
    rw [Finset.sum_comm]
    refine Finset.sum_congr rfl fun r _ => ?_
    simp only [applyMap, Finset.mul_sum, Finset.sum_mul]
    symm
    rw [Finset.sum_comm]
    refine Finset.sum_congr rfl fun i _ => ?_
    rw [Finset.sum_comm]
    exact Finset.sum_congr rfl fun j _ => Finset.sum_congr rfl fun s _ => by ring
  · unfold tr applyMap
    rw [Finset.sum_comm]
    have e : ∀ i ∈ Finset.range (2 ^ n), ∑ r ∈ Finset.range (2 ^ n), ∑ j ∈ Finset.range (2 ^ n), prepN B p i j * S i j r r = prepN B p i i := by
      intro i hi
      rw [Finset.sum_comm]
      have e1 : ∀ j ∈ Finset.range (2 ^ n), ∑ r ∈ Finset.range (2 ^ n), prepN B p i j * S i j r r = prepN B p i j * if i = j then 1 else 0 := by
        intro j hj
        rw [← Finset.mul_sum, ← hS.tp i j (Finset.mem_range.1 hi) (Finset.mem_range.1 hj)]; rfl
      rw [Finset.sum_congr rfl e1]
      simp [Finset.mem_range.1 hi]
    rw [Finset.sum_congr rfl e]
    exact prepN_tr B p

/-! ### Errors of averages -/

/-- Independent runs: the expected squared distance of the average from its mean. -/
theorem frame_error {τ κ : Type} [Fintype τ] [DecidableEq τ] [Fintype κ] [DecidableEq κ] (d N : ℕ) (hN : 0 < N) (q : τ → κ → ℝ) (hq : ∀ i, ∑ s, q i s = 1)
    (D : τ → κ → ℕ → ℕ → ℂ) (ρ : ℕ → ℕ → ℂ) (hmean : ∀ a b, a < d → b < d → ∑ i, ∑ s, (q i s : ℂ) * D i s a b = ρ a b) (c : ℝ)
    (hc : ∀ i s, ∑ a ∈ Finset.range d, ∑ b ∈ Finset.range d, Complex.normSq (D i s a b) = c) :
    (∀ a b, a < d → b < d → ∑ ω : τ × Fin N → κ, ((∏ i, q i.1 (ω i) : ℝ) : ℂ) * ∑ i, D i.1 (ω i) a b / N = ρ a b) ∧
    ∑ ω : τ × Fin N → κ, (∏ i, q i.1 (ω i)) * dist2 d (fun a b => ∑ i, D i.1 (ω i) a b / N) ρ ≤ Fintype.card τ * c / N := by
  have hN' : (N : ℝ) ≠ 0 := by exact_mod_cast hN.ne'
  have hNc : (N : ℂ) ≠ 0 := by exact_mod_cast hN.ne'
  have hmean' : ∀ a b, a < d → b < d → ∑ i : τ × Fin N, ∑ s, (q i.1 s : ℂ) * (D i.1 s a b / N) = ρ a b := by
    intro a b ha hb
    rw [← hmean a b ha hb, Fintype.sum_prod_type]
    refine Finset.sum_congr rfl fun t _ => ?_
    dsimp only
    rw [Finset.sum_const, Finset.card_univ, Fintype.card_fin, nsmul_eq_mul, Finset.mul_sum]
    refine Finset.sum_congr rfl fun s _ => ?_
    field_simp
  have hq' : ∀ i : τ × Fin N, ∑ s, q i.1 s = 1 := fun i => hq i.1
  refine ⟨fun a b ha hb => ?_, ?_⟩
  · rw [← hmean' a b ha hb]
    exact indep_mean_sum (fun (i : τ × Fin N) s => q i.1 s) hq' fun i s => D i.1 s a b / N
  unfold dist2
  simp only [Finset.mul_sum]
  rw [Finset.sum_comm]
  have e : ∀ a ∈ Finset.range d, ∑ ω : τ × Fin N → κ, ∑ b ∈ Finset.range d, (∏ i, q i.1 (ω i)) * Complex.normSq (∑ i, D i.1 (ω i) a b / N - ρ a b) ≤
      ∑ b ∈ Finset.range d, ∑ i : τ × Fin N, ∑ s, q i.1 s * Complex.normSq (D i.1 s a b / N) := by
    intro a ha
    rw [Finset.sum_comm]
    refine Finset.sum_le_sum fun b hb => ?_
    have := indep_variance (fun (i : τ × Fin N) s => q i.1 s) hq' fun i s => D i.1 s a b / N
    rwa [hmean' a b (Finset.mem_range.1 ha) (Finset.mem_range.1 hb)] at this
  refine le_trans (Finset.sum_le_sum e) (le_of_eq ?_)
  have hinner : ∀ t s, ∑ a ∈ Finset.range d, ∑ b ∈ Finset.range d, Complex.normSq (D t s a b / N) = c / (N : ℝ) ^ 2 := by
    intro t s
    rw [← hc t s]
    simp only [Finset.sum_div]
    refine Finset.sum_congr rfl fun a _ => Finset.sum_congr rfl fun b _ => ?_
    rw [map_div₀, Complex.normSq_natCast, pow_two]
  have hswap : ∑ a ∈ Finset.range d, ∑ b ∈ Finset.range d, ∑ i : τ × Fin N, ∑ s, q i.1 s * Complex.normSq (D i.1 s a b / N) =
      ∑ i : τ × Fin N, ∑ s, q i.1 s * ∑ a ∈ Finset.range d, ∑ b ∈ Finset.range d, Complex.normSq (D i.1 s a b / N) := by
    simp only [Finset.mul_sum]
    have e1 : ∀ a ∈ Finset.range d, ∑ b ∈ Finset.range d, ∑ i : τ × Fin N, ∑ s, q i.1 s * Complex.normSq (D i.1 s a b / N) =
        ∑ i : τ × Fin N, ∑ s, ∑ b ∈ Finset.range d, q i.1 s * Complex.normSq (D i.1 s a b / N) := by
      intro a _
      rw [Finset.sum_comm]
      refine Finset.sum_congr rfl fun i _ => ?_
      rw [Finset.sum_comm]
    rw [Finset.sum_congr rfl e1, Finset.sum_comm]
    refine Finset.sum_congr rfl fun i _ => ?_
    rw [Finset.sum_comm]
  rw [hswap]
  simp only [hinner]
  have e3 : ∀ i : τ × Fin N, ∑ s, q i.1 s * (c / (N : ℝ) ^ 2) = c / (N : ℝ) ^ 2 := by
    intro i
    rw [← Finset.sum_mul, hq, one_mul]
  simp only [e3]
  rw [Finset.sum_const, Finset.card_univ, Fintype.card_prod, Fintype.card_fin, nsmul_eq_mul]
  push_cast
  field_simp

end Verif.Tomo
