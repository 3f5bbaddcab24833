import Verif.RepCode.Lemmas13
import Verif.RepCode.Props
import Mathlib.Data.Int.LeastGreatest
/-
Property C104: the decoder of the repetition code.
-/
namespace Verif.RepCode
open Verif

/-- A finite graph has a matching as networkx documents it, so that the hypothesis of the theorems below can be met. -/
theorem exists_maxWeight {V : Type} (G : WGraph V) (hG : FiniteGraph G) : ∃ M, IsMaxWeight G M := by
  classical
  obtain ⟨l, hl⟩ := hG
  have hlends : ∀ Q : List (V × V), (Q.flatMap fun p => [p.1, p.2]).length = 2 * Q.length := by
    intro Q
    induction Q with
    | nil => rfl
    | cons q Q ih => rw [List.flatMap_cons, List.length_append, ih, List.length_cons]; simp; ring
  have hb : ∀ n, (∃ M, IsMatching G M ∧ M.length = n) → n ≤ l.length := by
    rintro n ⟨M, ⟨h1, h2⟩, rfl⟩
    have hsub : (M.flatMap fun p => [p.1, p.2]) ⊆ l := by
      intro x hx
      obtain ⟨p, hp, hx⟩ := List.mem_flatMap.1 hx
      simp only [List.mem_cons, List.not_mem_nil, or_false] at hx
      rcases hx with rfl | rfl
      · exact (hl _ _ (h1 p hp)).1
      · exact (hl _ _ (h1 p hp)).2
    have := (List.subperm_of_subset h2 hsub).length_le
    rw [hlends] at this
    omega
  have h0 : ∃ M, IsMatching G M ∧ M.length = 0 := ⟨[], ⟨by simp, by simp⟩, rfl⟩
  have hL := Nat.findGreatest_spec (P := fun n => ∃ M, IsMatching G M ∧ M.length = n) (Nat.zero_le l.length) h0
  have hLle : ∀ M', IsMatching G M' →
      M'.length ≤ Nat.findGreatest (fun n => ∃ M, IsMatching G M ∧ M.length = n) l.length :=
    fun M' h => Nat.le_findGreatest (hb _ ⟨M', h, rfl⟩) ⟨M', h, rfl⟩
  generalize Nat.findGreatest (fun n => ∃ M, IsMatching G M ∧ M.length = n) l.length = L at hL hLle
  -- weights are bounded
  obtain ⟨B, hB⟩ : ∃ B : Nat, ∀ a b w, G a b = some w → w ≤ B := by
    obtain ⟨B, hB⟩ : ∃ B : Nat, ∀ p ∈ l.product l, ((G p.1 p.2).getD 0) ≤ B := by
      generalize l.product l = ps
      induction ps with
      | nil => exact ⟨0, by simp⟩
      | cons p ps ih =>
        obtain ⟨B, hB⟩ := ih
        refine ⟨B + ((G p.1 p.2).getD 0).toNat, ?_⟩
        intro q hq
        rcases List.mem_cons.1 hq with rfl | hq
        · omega
        · have := hB q hq; omega
    refine ⟨B, fun a b w h => ?_⟩
    obtain ⟨ha, hb⟩ := hl a b (by rw [h]; rfl)
    have := hB (a, b) (List.pair_mem_product.2 ⟨ha, hb⟩)
    simpa [h] using this
  have hsum : ∀ M : List (V × V), mweight G M ≤ M.length * B := by
    intro M
    unfold mweight
    induction M with
    | nil => simp
    | cons p M ih =>
      rw [List.map_cons, List.sum_cons, List.length_cons]
      have : (G p.1 p.2).getD 0 ≤ B := by
        cases h : G p.1 p.2 with
        | none => simp
        | some w => exact hB _ _ _ h
      push_cast
      rw [add_mul]
      omega
  obtain ⟨M0, hM0, hM0l⟩ := hL
  obtain ⟨w, ⟨M, hM, hMl, hMw⟩, hmax⟩ := Int.exists_greatest_of_bdd (P := fun w => ∃ M, IsMatching G M ∧ M.length = L ∧ mweight G M = w)
    ⟨L * B, by
      rintro w ⟨M, -, rfl, rfl⟩
      exact hsum M⟩ ⟨_, M0, hM0, hM0l, rfl⟩
  refine ⟨M, hM, fun M' h => by rw [hMl]; exact hLle M' h, fun M' h hl => ?_⟩
  rw [hMw]
  exact hmax _ ⟨M', h, by rw [hl, hMl], rfl⟩

/-- **C104** Fewer than `d/2` faults are corrected.  Take the circuit for logical value `b` of a code with `d ≥ 2` code qubits and `T ≥ 1`
rounds; insert any list `F` of Pauli errors on any qubits anywhere in the circuit and read any list `M` of classical bits out wrongly,
at most `(d-1)/2` faults altogether.  Then the decoder's syndrome graph exists, the processed outcome exists, and the matching decoder
returns `b b`, for every library matching that keeps networkx's promise and whichever optimal matching it picks. -/
theorem C104_decoder_corrects (d T : Nat) (hd : 2 ≤ d) (hT : 1 ≤ T) (b : Bool) (F : List Fault) (M : List Cl)
    (hF : ∀ f ∈ F, f.2.1.Valid d) (hM : ∀ c ∈ M, ClValid d T c) (hw : 2 * (F.length + M.length) < d)
    (mwm : WGraph (List Nat) → List (List Nat × List Nat)) (hmwm : ∀ G, FiniteGraph G → IsMaxWeight G (mwm G)) :
    ∃ S s, syndromeGraph (mkCode d T) = some S ∧
      processString d T (countsKey ((mkCode d T).circ b).cregs (noisyMemory ((mkCode d T).circ b).ops F M)) = some s ∧
      matching mwm S s = some [bitChar b, ' ', bitChar b] := by
  obtain ⟨S, hS, -, -⟩ := graph_spec d T hd hT
  have hok := graphOk d T hd hT S hS
  obtain ⟨E, h1, h2, h3, h4⟩ := noisy_edges d T hd hT S hok b F M hF hM
  rw [mkCode_circ d T hT]
  refine ⟨S, _, hS, process_key d T hd hT _, ?_⟩
  exact decode d T hd S hok b _ _ (noisy_rel d T hT b F M) E (by omega) h2 h3 h4 mwm hmwm

/-- The hypotheses can be met: such a library function exists, and three faults on a distance-7 code are a case. -/
example : ∃ mwm : WGraph (List Nat) → List (List Nat × List Nat), ∀ G, FiniteGraph G → IsMaxWeight G (mwm G) := by
  classical
  refine ⟨fun G => if h : FiniteGraph G then (exists_maxWeight G h).choose else [], fun G h => ?_⟩
  dsimp only
  rw [dif_pos h]
  exact (exists_maxWeight G h).choose_spec

example : let F : List Fault := [(3, .code 2, .x), (9, .link 4, .y)]
    let M : List Cl := [(.round 1, 3)]
    (∀ f ∈ F, f.2.1.Valid 7) ∧ (∀ c ∈ M, ClValid 7 2 c) ∧ 2 * (F.length + M.length) < 7 ∧
      processString 7 2 (countsKey ((mkCode 7 2).circ true).cregs (noisyMemory ((mkCode 7 2).circ true).ops F M)) =
        some "1 1  010110 011000 001000".toList := by
  refine ⟨?_, ?_, by decide, ?_⟩
  · intro f hf
    simp only [List.mem_cons, List.not_mem_nil, or_false] at hf
    rcases hf with rfl | rfl <;> simp [Qb.Valid]
  · intro c hc
    simp only [List.mem_cons, List.not_mem_nil, or_false] at hc
    subst hc
    simp [ClValid]
  · decide +kernel

theorem noisyOps_nil (ops : List Op) : noisyOps ops [] = ops := by
  unfold noisyOps
  have : ∀ k, ((ops.zipIdx k).flatMap fun oi => (([] : List Fault).filter fun f => f.1 = oi.2 ∧ f.2.2 ≠ .z).map (fun f => Op.x f.2.1) ++ [oi.1]) = ops := by
    induction ops with
    | nil => intro k; rfl
    | cons o ops ih =>
      intro k
      rw [List.zipIdx_cons, List.flatMap_cons, ih]
      rfl
  exact this 0

/-- **C104** The bound is sharp: if more than half of the code qubits are read out wrongly, the decoder returns the other logical value. -/
theorem C104_bound_sharp (d T : Nat) (hd : 2 ≤ d) (hT : 1 ≤ T) (b : Bool) (A : List Nat) (hA : A.Nodup) (hAd : ∀ k ∈ A, k < d)
    (hmany : d < 2 * A.length)
    (mwm : WGraph (List Nat) → List (List Nat × List Nat)) (hmwm : ∀ G, FiniteGraph G → IsMaxWeight G (mwm G)) :
    ∃ S s, syndromeGraph (mkCode d T) = some S ∧
      processString d T (countsKey ((mkCode d T).circ b).cregs (noisyMemory ((mkCode d T).circ b).ops [] (A.map fun k => (Reg.code, k)))) = some s ∧
      matching mwm S s = some [bitChar (!b), ' ', bitChar (!b)] := by
  set B := (List.range d).filter fun k => k ∉ A with hB
  have hBlen : 2 * B.length < d := by
    have h1 : A.Perm ((List.range d).filter fun k => k ∈ A) := by
      rw [List.perm_ext_iff_of_nodup hA (List.nodup_range.filter _)]
      intro k
      simp only [List.mem_filter, List.mem_range, decide_eq_true_eq]
      exact ⟨fun h => ⟨hAd k h, h⟩, fun h => h.2⟩
    have h2 := List.length_eq_length_filter_add (l := List.range d) (fun k => decide (k ∈ A))
    rw [← h1.length_eq, List.length_range] at h2
    have h3 : (List.range d).filter (fun k => !decide (k ∈ A)) = B := by
      rw [hB]
      apply List.filter_congr
      intro k _
      simp
    rw [h3] at h2
    omega
  obtain ⟨S, s, h1, h2, h3⟩ := C104_decoder_corrects d T hd hT (!b) [] (B.map fun k => (Reg.code, k)) (by simp)
    (by
      intro c hc
      obtain ⟨k, hk, rfl⟩ := List.mem_map.1 hc
      rw [hB, List.mem_filter] at hk
      exact List.mem_range.1 hk.1) (by simpa using hBlen) mwm hmwm
  refine ⟨S, s, h1, ?_, h3⟩
  rw [← h2]
  rw [mkCode_circ d T hT, mkCode_circ d T hT]
  congr 1
  have hcount : ∀ (X : List Nat) k, X.Nodup → decide ((X.map fun k => (Reg.code, k)).count (Reg.code, k) % 2 = 1) = decide (k ∈ X) := by
    intro X k hX
    rw [List.count_map_of_injective _ _ (fun a b h => by simpa using h)]
    by_cases h : k ∈ X
    · rw [List.count_eq_one_of_mem hX h]; simp [h]
    · rw [List.count_eq_zero.2 h]; simp [h]
  have hcount0 : ∀ (X : List Nat) t j, (X.map fun k => (Reg.code, k)).count (Reg.round t, j) = 0 := by
    intro X t j
    rw [List.count_eq_zero]
    simp
  obtain ⟨a1, a2⟩ := noiseless d T hT b
  obtain ⟨b1, b2⟩ := noiseless d T hT (!b)
  have hcode : ∀ k < d, noisyMemory (codeOps d T b) [] (A.map fun k => (Reg.code, k)) (Reg.code, k) =
      noisyMemory (codeOps d T (!b)) [] (B.map fun k => (Reg.code, k)) (Reg.code, k) := by
    intro k hk
    unfold noisyMemory
    rw [noisyOps_nil, noisyOps_nil, a2 k hk, b2 k hk, hcount A k hA, hcount B k (List.nodup_range.filter _)]
    have : decide (k ∈ B) = !decide (k ∈ A) := by
      rw [hB]
      simp [List.mem_filter, hk]
    rw [this]
    cases b <;> cases decide (k ∈ A) <;> rfl
  have hround : ∀ t < T, ∀ j < d - 1, noisyMemory (codeOps d T b) [] (A.map fun k => (Reg.code, k)) (Reg.round t, j) =
      noisyMemory (codeOps d T (!b)) [] (B.map fun k => (Reg.code, k)) (Reg.round t, j) := by
    intro t ht j hj
    unfold noisyMemory
    rw [noisyOps_nil, noisyOps_nil, a1 t ht j hj, b1 t ht j hj, hcount0, hcount0]
  change countsKey (regs d T) _ = countsKey (regs d T) _
  rw [key_eq, key_eq]
  congr 1
  congr 1
  · apply List.map_congr_left
    intro k hk
    rw [hcode k (List.mem_range.1 (List.mem_reverse.1 hk))]
  · apply List.map_congr_left
    intro t ht
    exact row_congr d _ _ (hround t (List.mem_range.1 (List.mem_reverse.1 ht)))

example : [0, 2, 3].Nodup ∧ (∀ k ∈ [0, 2, 3], k < 5) ∧ 5 < 2 * [0, 2, 3].length := by decide

/-- **C104** `get_logical_prob` of counts all of whose outcomes have at most `(d-1)/2` faults is 0. -/
theorem C104_logical_prob_zero (d T : Nat) (hd : 2 ≤ d) (hT : 1 ≤ T) (b : Bool) (S : Graph) (hS : syndromeGraph (mkCode d T) = some S)
    (results : Dict Str Nat) (htot : (results.map (·.2)).sum ≠ 0)
    (hres : ∀ kv ∈ results, ∃ F M, (∀ f ∈ F, f.2.1.Valid d) ∧ (∀ c ∈ M, ClValid d T c) ∧ 2 * (F.length + M.length) < d ∧
      processString d T (countsKey ((mkCode d T).circ b).cregs (noisyMemory ((mkCode d T).circ b).ops F M)) = some kv.1)
    (mwm : WGraph (List Nat) → List (List Nat × List Nat)) (hmwm : ∀ G, FiniteGraph G → IsMaxWeight G (mwm G)) :
    logicalProb (fun s => (matching mwm S s).getD []) [bitChar b] results = some 0 := by
  have hdec : ∀ kv ∈ results, matching mwm S kv.1 = some [bitChar b, ' ', bitChar b] := by
    intro kv hkv
    obtain ⟨F, M, hF, hM, hw, hs⟩ := hres kv hkv
    obtain ⟨S', s, h1, h2, h3⟩ := C104_decoder_corrects d T hd hT b F M hF hM hw mwm hmwm
    rw [hS] at h1
    rw [hs] at h2
    obtain rfl := Option.some.inj h1
    obtain rfl := Option.some.inj h2
    exact h3
  obtain ⟨p, hp, -, -, h⟩ := C11_logical_prob (fun s => (matching mwm S s).getD []) [bitChar b] results
    (fun kv hkv => by rw [hdec kv hkv]; simp) htot
  rw [hp, h]
  have : countsWhere (fun s => decide (((matching mwm S s).getD []).take 1 ≠ [bitChar b])) results = 0 := by
    unfold countsWhere
    rw [List.filter_eq_nil_iff.2]
    · rfl
    · intro kv hkv
      beta_reduce
      rw [hdec kv hkv]
      simp
  rw [this]
  simp

/-- **C104** Two nodes are joined in the decoder's syndrome graph exactly when one error, on any qubit before any instruction, shows up at
both of them. -/
theorem C104_graph (d T : Nat) (hd : 2 ≤ d) (hT : 1 ≤ T) (S : Graph) (hS : syndromeGraph (mkCode d T) = some S) (u v : Tup) :
    S.simple.Adj u v ↔ u ≠ v ∧ ∃ i q s, q.Valid d ∧ processString d T (outcome (inject ((mkCode d T).circ false) i q)) = some s ∧
      u ∈ string2nodes s ∧ v ∈ string2nodes s := by
  have hok := graphOk d T hd hT S hS
  obtain ⟨S', hS', hn, he⟩ := graph_spec d T hd hT
  rw [hS] at hS'
  obtain rfl := Option.some.inj hS'
  have hrel : ∀ i q n, n ∈ nodes d T → nodeVal d T (run (inject ((mkCode d T).circ false) i q).ops Sim.zero).m n =
      nodeVal d T (flip ((codeOps d T false).drop i) q) n := by
    intro i q n hn
    have h := rel_inject d T hT false _ _ q (List.take_append_drop i (codeOps d T false)).symm
    rw [mkCode_circ d T hT]
    change nodeVal d T (run (List.take i (codeOps d T false) ++ Op.x q :: List.drop i (codeOps d T false)) Sim.zero).m n = _
    cases n with
    | L => exact (h.2 (d - 1) (by omega)).trans (by simp [nodeVal])
    | R => exact (h.2 0 (by omega)).trans (by simp [nodeVal])
    | s t j => exact chg_rel h t j ((mem_nodes d T t j).1 hn).2
  have hproc : ∀ i q, processString d T (outcome (inject ((mkCode d T).circ false) i q)) =
      some (processed d T (run (inject ((mkCode d T).circ false) i q).ops Sim.zero).m) := by
    intro i q
    rw [mkCode_circ d T hT, outcome, inject]
    exact process_key d T hd hT _
  have hmem : ∀ i q x, x ∈ string2nodes (processed d T (run (inject ((mkCode d T).circ false) i q).ops Sim.zero).m) ↔
      ∃ n ∈ nodes d T, nodeVal d T (flip ((codeOps d T false).drop i) q) n = true ∧ nt d n = x := by
    intro i q x
    rw [mem_string2nodes d T hd]
    constructor
    · rintro ⟨n, h1, h2, h3⟩
      exact ⟨n, h1, by rw [← hrel i q n h1]; exact h2, h3⟩
    · rintro ⟨n, h1, h2, h3⟩
      exact ⟨n, h1, by rw [hrel i q n h1]; exact h2, h3⟩
  constructor
  · intro h
    refine ⟨h.1, ?_⟩
    have key : ∀ u v, (u, v) ∈ S.edges → ∃ i q s, q.Valid d ∧
        processString d T (outcome (inject ((mkCode d T).circ false) i q)) = some s ∧ u ∈ string2nodes s ∧ v ∈ string2nodes s := by
      intro u v h
      obtain ⟨-, o, l, q, hsuf, hq, h1, h2⟩ := (he u v).1 h
      have hv : q.Valid d := body_valid d T o (hsuf.subset (by simp)) q hq
      obtain ⟨pre, hpre⟩ := hsuf
      have hdrop : (codeOps d T false).drop pre.length = o :: l := by
        rw [codeOps_false, ← hpre]
        simp
      refine ⟨pre.length, q, _, hv, hproc _ _, ?_, ?_⟩
      · rw [hmem, hdrop]; exact h1
      · rw [hmem, hdrop]; exact h2
    rcases h.2 with h | h
    · exact key u v h
    · obtain ⟨i, q, s, h1, h2, h3, h4⟩ := key v u h
      exact ⟨i, q, s, h1, h2, h4, h3⟩
  · rintro ⟨hne, i, q, s, hq, hs, hu, hv⟩
    rw [hproc] at hs
    obtain rfl := Option.some.inj hs
    rw [hmem] at hu hv
    obtain ⟨n, h1, h2, rfl⟩ := hu
    obtain ⟨n', h3, h4, rfl⟩ := hv
    rcases hok.fault false _ q (List.drop_suffix i _) hq with h | ⟨a, c, -, hadj, h⟩
    · rw [h n h1] at h2
      simp at h2
    · rw [h n h1] at h2
      rw [h n' h3] at h4
      have hnn : n ≠ n' := fun e => hne (by rw [e])
      by_cases e1 : n = a <;> by_cases e2 : n = c <;> by_cases e3 : n' = a <;> by_cases e4 : n' = c <;> simp_all
      exact hadj.symm

example : (syndromeGraph (mkCode 3 1)).isSome := by decide +kernel

end Verif.RepCode
