import Verif.Ent.PropsTier
import Verif.Ent.Sem
set_option linter.unusedSimpArgs false
set_option linter.unusedVariables false
/-
C64: the preparation circuits prepare the GHZ state, along the couplings of the device.
-/
namespace Verif.Ent
open Verif Verif.Quantum

/-! ### The linear circuit -/

theorem tree_append (k : ℕ) (ps qs : List ℕ) : tree k (ps ++ qs) = tree k ps ++ tree (k + ps.length) qs := by
  induction ps generalizing k with
  | nil => simp [tree]
  | cons p ps ih =>
    simp only [List.cons_append, tree, ih, List.length_cons]
    rw [show k + 1 + ps.length = k + (ps.length + 1) by omega]

theorem before_append (k : ℕ) (ps : List ℕ) (p : ℕ) (h : Before k ps) (hp : p < k + ps.length) : Before k (ps ++ [p]) := by
  induction ps generalizing k with
  | nil => exact ⟨by simpa using hp, trivial⟩
  | cons q ps ih =>
    refine ⟨h.1, ih (k + 1) h.2 ?_⟩
    simp only [List.length_cons] at hp
    omega

theorem line_tree (k m : ℕ) : ((List.range' (k + 1) m).map fun i => (Instr.cx (i - 1) i : Instr ℝ)) = tree (k + 1) (List.range' k m) := by
  induction m generalizing k with
  | zero => rfl
  | succ m ih =>
    rw [List.range'_succ, List.range'_succ, List.map_cons, tree, ih (k + 1)]
    rfl

theorem line_before (k m : ℕ) : Before (k + 1) (List.range' k m) := by
  induction m generalizing k with
  | zero => exact trivial
  | succ m ih => rw [List.range'_succ]; exact ⟨by omega, ih (k + 1)⟩

/-- **C64** (linear): the circuit for `n` qubits, `n ≥ 1`, prepares the GHZ state and, if asked, measures qubit `i` into the
classical bit `i`. -/
theorem C64_linear (n : ℕ) (hn : 1 ≤ n) (measure full : Bool) :
    exec n (ghzSimple n measure full) = some (ghz n, if measure then measured n full else []) := by
  have hrun : runGates n (Instr.h 0 :: ((List.range' 1 (n - 1)).map fun i => .cx (i - 1) i)) ket0 = some (ghz n) := by
    rw [line_tree 0 (n - 1), run_prep _ (line_before 0 (n - 1)) (by rw [List.length_range']; omega)]
    rcases pairSt_ghz (n := n) with h | h
    · rw [h]
    · omega
  unfold ghzSimple
  cases measure with
  | true =>
    simp only [if_true]
    exact exec_measurementCirc hn _ _ full hrun
  | false =>
    simp only [if_false, Bool.false_eq_true, List.append_nil]
    exact exec_gates _ _ _ hrun

/-! ### The circuit along the tiers -/

/-- Register index to device qubit. -/
def layoutOf (l : List ℕ) : Dict ℕ ℕ := l.zipIdx.map fun p => (p.2, p.1)

/-- The state of the loops after the pairs `P`. -/
structure LInv (root : ℕ) (s : LaySt ℝ) (P : List (ℕ × ℕ)) : Prop where
  trash : s.trash = if P = [] then [] else root :: P.map (·.2)
  layout : s.layout = layoutOf s.trash
  circ : ∃ ps : List ℕ, (s.circ.filter fun g => decide (g ≠ .barrier)) = .h 0 :: tree 1 ps ∧ ps.length = P.length ∧ Before 1 ps ∧
    ∀ i p, ps[i]? = some p → ∃ pr ∈ P, s.trash[p]? = some pr.1 ∧ s.trash[i + 1]? = some pr.2

theorem set_fresh (d : Dict ℕ ℕ) (k v : ℕ) (h : k ∉ d.map (·.1)) : d.set k v = d ++ [(k, v)] := by
  induction d with
  | nil => rfl
  | cons kv d ih =>
    obtain ⟨a, b⟩ := kv
    simp only [List.map_cons, List.mem_cons, not_or] at h
    simp only [Dict.set]
    rw [if_neg (fun e => h.1 e.symm), ih h.2]
    rfl

theorem layout_snoc (l : List ℕ) (v : ℕ) : (layoutOf l).set l.length v = layoutOf (l ++ [v]) := by
  rw [set_fresh]
  · simp only [layoutOf, List.zipIdx_append, List.map_append]
    simp
  · intro h
    simp only [layoutOf, List.map_map] at h
    obtain ⟨⟨a, b⟩, h1, h2⟩ := List.mem_map.1 h
    have := List.mem_zipIdx h1
    simp only [Function.comp] at h2
    omega

theorem pairStep_inv (root n : ℕ) (s : LaySt ℝ) (P : List (ℕ × ℕ)) (aa : ℕ × ℕ) (inv : LInv root s P) (hn : P.length + 1 < n)
    (h1 : aa.1 ∈ root :: P.map (·.2)) (h2 : aa.2 ∉ root :: P.map (·.2)) :
    ∃ s', pairStep n s aa = some s' ∧ LInv root s' (P ++ [aa]) := by
  -- after the first placement the list is `root :: P.map snd`
  obtain ⟨s1, hs1, ht1, hl1, hc1⟩ : ∃ s1 : LaySt ℝ, placeQubit n s aa.1 = some s1 ∧ s1.trash = root :: P.map (·.2) ∧
      s1.layout = layoutOf s1.trash ∧ s1.circ = s.circ := by
    unfold placeQubit
    have ht := inv.trash
    by_cases hP : P = []
    · subst hP
      simp only [List.map_nil, List.mem_cons, List.not_mem_nil, or_false] at h1
      rw [if_pos rfl] at ht
      have hl := inv.layout
      rw [ht] at hl
      rw [ht, if_neg (by simp), if_pos (by simp; omega)]
      refine ⟨_, rfl, ?_, ?_, rfl⟩
      · simp [h1]
      · simp [hl, Dict.set, layoutOf]
    · rw [if_neg hP] at ht
      rw [ht, if_pos h1]
      exact ⟨s, rfl, ht, inv.layout, rfl⟩
  obtain ⟨s2, hs2, ht2, hl2, hc2⟩ : ∃ s2 : LaySt ℝ, placeQubit n s1 aa.2 = some s2 ∧ s2.trash = (root :: P.map (·.2)) ++ [aa.2] ∧
      s2.layout = layoutOf s2.trash ∧ s2.circ = s1.circ := by
    unfold placeQubit
    rw [if_neg (by rw [ht1]; exact h2), if_pos (by rw [ht1]; simpa using hn)]
    refine ⟨_, rfl, ?_, ?_, rfl⟩
    · rw [ht1]
    · simp only [hl1]
      exact layout_snoc _ _
  refine ⟨_, by unfold pairStep; simp only [hs1, hs2, Option.bind_eq_bind, Option.bind_some]; rfl, ?_, ?_, ?_⟩
  · simp only [ht2]
    rw [if_neg (by simp)]
    simp
  · exact hl2
  · obtain ⟨ps, hf, hlen, hb, hps⟩ := inv.circ
    have hlen1 : (root :: P.map (·.2)).length = P.length + 1 := by simp
    have hi1 : List.idxOf aa.1 s2.trash = List.idxOf aa.1 (root :: P.map (·.2)) := by
      rw [ht2, List.idxOf_append_of_mem h1]
    have hi1' : List.idxOf aa.1 s2.trash < 1 + ps.length := by
      rw [hi1]
      have := List.idxOf_lt_length_iff.2 h1
      rw [hlen1] at this
      omega
    have hi2 : List.idxOf aa.2 s2.trash = 1 + ps.length := by
      rw [ht2, List.idxOf_append_of_notMem h2, hlen1]
      simp; omega
    refine ⟨ps ++ [List.idxOf aa.1 s2.trash], ?_, by simp [hlen], before_append 1 ps _ hb hi1', ?_⟩
    · simp only [hc2, hc1, List.filter_append, hf, tree_append, hi2]
      simp [tree]
    · intro i p hip
      simp only
      rw [List.getElem?_append] at hip
      split at hip
      · obtain ⟨pr, hpr, e1, e2⟩ := hps i p hip
        have hP : P ≠ [] := by intro h; subst h; cases hpr
        have ht := inv.trash
        rw [if_neg hP] at ht
        refine ⟨pr, by simp [hpr], ?_, ?_⟩
        · rw [ht2, ← ht, List.getElem?_append_left (List.getElem?_eq_some_iff.1 e1).1]; exact e1
        · rw [ht2, ← ht, List.getElem?_append_left (List.getElem?_eq_some_iff.1 e2).1]; exact e2
      · rename_i hge
        obtain ⟨hj, hv⟩ := List.getElem?_eq_some_iff.1 hip
        have hi : i = ps.length := by simp at hj; omega
        subst hi
        simp only [Nat.sub_self, List.getElem_cons_zero] at hv
        refine ⟨aa, by simp, ?_, ?_⟩
        · rw [← hv]
          have hm : aa.1 ∈ s2.trash := by rw [ht2]; exact List.mem_append_left _ h1
          rw [List.getElem?_eq_getElem (List.idxOf_lt_length_iff.2 hm), List.getElem_idxOf]
        · rw [show ps.length + 1 = List.idxOf aa.2 s2.trash by rw [hi2]; omega]
          have hm : aa.2 ∈ s2.trash := by rw [ht2]; simp
          rw [List.getElem?_eq_getElem (List.idxOf_lt_length_iff.2 hm), List.getElem_idxOf]

theorem linv_length {root : ℕ} {s : LaySt ℝ} {P : List (ℕ × ℕ)} (inv : LInv root s P) (hP : P ≠ []) : s.trash.length = P.length + 1 := by
  rw [inv.trash, if_neg hP]; simp

/-- The inner loop processes pairs until the register is full. -/
theorem innerLoop_inv (root n : ℕ) (l : List (ℕ × ℕ)) (s : LaySt ℝ) (P : List (ℕ × ℕ)) (inv : LInv root s P) (hn : P.length + 1 < n)
    (h1 : ∀ p ∈ l, p.1 ∈ root :: P.map (·.2)) (h2 : (root :: (P ++ l).map (·.2)).Nodup) :
    ∃ s', innerLoop n l s = some s' ∧ LInv root s' (P ++ l.take (n - 1 - P.length)) := by
  induction l generalizing s P with
  | nil => exact ⟨s, rfl, by simpa using inv⟩
  | cons aa l ih =>
    have h2' : aa.2 ∉ root :: P.map (·.2) := by
      have : root :: (P ++ aa :: l).map (·.2) = (root :: P.map (·.2)) ++ (aa.2 :: l.map (·.2)) := by simp
      rw [this, List.nodup_append'] at h2
      intro h
      exact h2.2.2 h (by simp)
    obtain ⟨s', hs, hi⟩ := pairStep_inv root n s P aa inv hn (h1 aa (by simp)) h2'
    have hl := linv_length hi (by simp)
    rw [List.length_append, List.length_singleton] at hl
    unfold innerLoop
    simp only [hs, Option.bind_eq_bind, Option.bind_some]
    by_cases hfull : s'.trash.length = n
    · rw [if_pos hfull]
      refine ⟨s', rfl, ?_⟩
      rw [show n - 1 - P.length = 1 by omega]
      simpa using hi
    · rw [if_neg hfull]
      obtain ⟨s'', hs'', hi''⟩ := ih s' (P ++ [aa]) hi (by simp; omega) (by
        intro p hp
        have := h1 p (by simp [hp])
        simp only [List.map_append, List.mem_cons, List.mem_append] at this ⊢
        tauto) (by simpa using h2)
      refine ⟨s'', hs'', ?_⟩
      rw [show n - 1 - P.length = (n - 1 - (P ++ [aa]).length) + 1 by simp; omega, List.take_succ_cons]
      simpa using hi''

theorem linv_barrier {root : ℕ} {s : LaySt ℝ} {P : List (ℕ × ℕ)} (inv : LInv root s P) (b : Bool) :
    LInv root (if b then { s with circ := s.circ ++ [.barrier] } else s) P := by
  cases b with
  | false => exact inv
  | true =>
    refine ⟨inv.trash, inv.layout, ?_⟩
    obtain ⟨ps, h1, h2⟩ := inv.circ
    exact ⟨ps, by simpa using h1, h2⟩

/-- The outer loop processes tiers until the register is full. -/
theorem outerLoop_inv (root n : ℕ) (b : Bool) (hn2 : 2 ≤ n) (post : List (ℕ × List (ℕ × ℕ))) (s : LaySt ℝ) (P : List (ℕ × ℕ)) (inv : LInv root s P)
    (hn : P.length + 1 < n)
    (h1 : ∀ kv ∈ post, kv.2 ≠ [])
    (hearly : ∀ pre kv post', post = pre ++ kv :: post' → ∀ p ∈ kv.2, p.1 ∈ root :: (P ++ pre.flatMap (·.2)).map (·.2))
    (h2 : (root :: (P ++ post.flatMap (·.2)).map (·.2)).Nodup) :
    ∃ s', outerLoop n b post s = some s' ∧ LInv root s' (P ++ (post.flatMap (·.2)).take (n - 1 - P.length)) := by
  induction post generalizing s P with
  | nil => exact ⟨s, rfl, by simpa using inv⟩
  | cons kv post ih =>
    have hsub : (root :: (P ++ kv.2).map (·.2)).Nodup := by
      have : root :: (P ++ (kv :: post).flatMap (·.2)).map (·.2) = (root :: (P ++ kv.2).map (·.2)) ++ (post.flatMap (·.2)).map (·.2) := by simp
      rw [this] at h2
      exact (List.nodup_append'.1 h2).1
    obtain ⟨s1, hs1, hi1⟩ := innerLoop_inv root n kv.2 s P inv hn (fun p hp => by simpa using hearly [] kv post rfl p hp) hsub
    have hi2 := linv_barrier hi1 b
    have hne : P ++ kv.2.take (n - 1 - P.length) ≠ [] := by
      have := h1 kv (by simp)
      intro h
      rw [List.append_eq_nil_iff] at h
      rw [List.take_eq_nil_iff] at h
      rcases h.2 with h | h
      · omega
      · exact this h
    have hl := linv_length hi2 hne
    unfold outerLoop
    simp only [hs1, Option.bind_eq_bind, Option.bind_some]
    simp only [List.length_append, List.length_take] at hl
    by_cases hfull : (if b then { s1 with circ := s1.circ ++ [.barrier] } else s1 : LaySt ℝ).trash.length = n
    · rw [if_pos hfull]
      refine ⟨_, rfl, ?_⟩
      rw [List.flatMap_cons, List.take_append_of_le_length (by omega)]
      exact hi2
    · rw [if_neg hfull]
      have hlt : kv.2.length < n - 1 - P.length := by omega
      rw [List.take_of_length_le (by omega)] at hi2
      obtain ⟨s', hs', hi'⟩ := ih _ (P ++ kv.2) hi2 (by simp; omega) (fun kv' h => h1 kv' (by simp [h])) (by
        intro pre kv' post' h p hp
        have := hearly (kv :: pre) kv' post' (by rw [h]; rfl) p hp
        simpa using this) (by simpa using h2)
      refine ⟨s', hs', ?_⟩
      rw [List.flatMap_cons, List.take_append, List.take_of_length_le (by omega), ← List.append_assoc]
      rw [List.length_append, show n - 1 - (P.length + kv.2.length) = n - 1 - P.length - kv.2.length by omega] at hi'
      exact hi'

theorem schedule_early {cmap : List (ℕ × ℕ)} {root : ℕ} {tier : Dict ℕ (List (ℕ × ℕ))} (h : Schedule cmap root tier)
    (pre : List (ℕ × List (ℕ × ℕ))) (kv : ℕ × List (ℕ × ℕ)) (post : List (ℕ × List (ℕ × ℕ))) (he : tier = pre ++ kv :: post) :
    ∀ p ∈ kv.2, p.1 ∈ root :: (pre.flatMap (·.2)).map (·.2) := by
  intro p hp
  rcases h.earlier kv (by rw [he]; simp) p hp with h1 | ⟨kv', hm, hlt, ht⟩
  · simp [h1]
  · have hpre : kv' ∈ pre := by
      have ho := h.ordered
      rw [he, List.map_append, List.map_cons, List.pairwise_append] at ho
      rw [he, List.mem_append, List.mem_cons] at hm
      rcases hm with hm | rfl | hm
      · exact hm
      · omega
      · have := (List.pairwise_cons.1 ho.2.1).1 kv'.1 (List.mem_map.2 ⟨kv', hm, rfl⟩)
        omega
    obtain ⟨q, hq, e⟩ := List.mem_map.1 ht
    refine List.mem_cons_of_mem _ (List.mem_map.2 ⟨q, List.mem_flatMap.2 ⟨kv', hpre, hq⟩, e⟩)

theorem targets_eq (tier : Dict ℕ (List (ℕ × ℕ))) : targets tier = (tier.flatMap (·.2)).map (·.2) := by
  unfold targets
  rw [List.map_flatMap]

/-- What `get_ghz_layout` leaves behind. -/
theorem layout_spec {cmap : List (ℕ × ℕ)} {root : ℕ} {tier : Dict ℕ (List (ℕ × ℕ))} (h : Schedule cmap root tier) (n : ℕ) (hn : 2 ≤ n) (b : Bool) :
    ∃ s : LaySt ℝ, ghzLayout tier n b = some (s.circ, s.layout) ∧ LInv root s ((tier.flatMap (·.2)).take (n - 1)) := by
  obtain ⟨s, h1, h2⟩ := outerLoop_inv root n b hn tier ⟨[.h 0], [], []⟩ [] ⟨rfl, rfl, [], rfl, rfl, trivial, by simp⟩ (by simp; omega)
    h.nonempty (by simpa using schedule_early h) (by have := h.once; rw [targets_eq] at this; simpa using this)
  refine ⟨s, ?_, by simpa using h2⟩
  unfold ghzLayout
  rw [if_neg (by omega), h1]
  rfl

theorem mem_tree (k : ℕ) (ps : List ℕ) (c t : ℕ) (h : Instr.cx c t ∈ tree k ps) : ∃ i, ps[i]? = some c ∧ t = k + i := by
  induction ps generalizing k with
  | nil => cases h
  | cons p ps ih =>
    rcases List.mem_cons.1 h with h | h
    · cases h; exact ⟨0, rfl, rfl⟩
    · obtain ⟨i, h1, h2⟩ := ih (k + 1) h
      exact ⟨i + 1, h1, by omega⟩

theorem layout_get (l : List ℕ) (i : ℕ) : (layoutOf l).get? i = l[i]? := by
  have hwf : Dict.WF (layoutOf l) := by
    unfold Dict.WF layoutOf
    rw [List.map_map]
    have : ((fun x : ℕ × ℕ => x.1) ∘ fun p : ℕ × ℕ => (p.2, p.1)) = fun p => p.2 := rfl
    rw [this]
    have e : l.zipIdx.map (fun p => p.2) = List.range' 0 l.length := by
      simpa using List.zipIdx_map_snd 0 l
    rw [e]
    exact List.nodup_range'
  cases hi : l[i]? with
  | some v =>
    apply Dict.get?_of_mem _ hwf
    refine List.mem_map.2 ⟨(v, i), ?_, rfl⟩
    rw [List.mem_zipIdx_iff_getElem?]
    exact hi
  | none =>
    rw [Dict.get?_eq_none_iff]
    intro hk
    simp only [layoutOf, List.map_map, List.mem_map, Function.comp] at hk
    obtain ⟨⟨a, j⟩, h1, h2⟩ := hk
    simp only at h2
    subst h2
    rw [List.mem_zipIdx_iff_getElem?] at h1
    simp only at h1
    rw [hi] at h1; cases h1

/-! ### C64 -/

/-- A register of `n` qubits is laid out on the device so that the circuit's CNOT gates act along couplings. -/
structure GoodLayout (cmap : List (ℕ × ℕ)) (n : ℕ) (circ : List (Instr ℝ)) (layout : Dict ℕ ℕ) : Prop where
  /-- register qubits 0, …, n − 1 -/
  keys : layout.map (·.1) = List.range n
  /-- on different device qubits -/
  distinct : (layout.map (·.2)).Nodup
  /-- of the device -/
  device : ∀ d ∈ layout.map (·.2), d ∈ qubits cmap
  /-- every CNOT of the circuit acts on coupled device qubits -/
  coupled : ∀ c t, Instr.cx c t ∈ circ → ∃ a b, layout.get? c = some a ∧ layout.get? t = some b ∧ Coupled cmap a b

/-- **C64** (tiers): for a schedule that reaches at least `n ≥ 2` qubits the circuit prepares the GHZ state on `n` qubits, with
or without barriers, and its layout uses only couplings of the device. -/
theorem C64_layout (cmap : List (ℕ × ℕ)) (root : ℕ) (tier : Dict ℕ (List (ℕ × ℕ))) (h : Schedule cmap root tier) (n : ℕ)
    (hn : 2 ≤ n) (hmax : n ≤ (root :: targets tier).length) (barriered : Bool) :
    ∃ circ layout, ghzLayout tier n barriered = some (circ, layout) ∧ exec n circ = some (ghz n, []) ∧ GoodLayout cmap n circ layout := by
  obtain ⟨s, hs, inv⟩ := layout_spec h n hn barriered
  refine ⟨s.circ, s.layout, hs, ?_, ?_⟩
  all_goals
    have hlen : ((tier.flatMap (·.2)).take (n - 1)).length = n - 1 := by
      rw [targets_eq] at hmax
      simp only [List.length_cons, List.length_map] at hmax
      rw [List.length_take]
      omega
    obtain ⟨ps, hf, hpl, hb, hps⟩ := inv.circ
    have hne : (tier.flatMap (·.2)).take (n - 1) ≠ [] := by
      intro hh; rw [hh] at hlen; simp at hlen; omega
    have htl := linv_length inv hne
    rw [hlen] at htl hpl
    have ht := inv.trash
    rw [if_neg hne] at ht
  · apply exec_gates
    rw [← runGates_barriers, hf, run_prep ps hb (by omega)]
    rcases pairSt_ghz (n := n) with h | h
    · rw [h]
    · omega
  · have hv : s.layout.map (·.2) = s.trash := by
      rw [inv.layout, layoutOf, List.map_map]
      exact List.zipIdx_map_fst 0 _
    have hsub : ((tier.flatMap (·.2)).take (n - 1)).map (·.2) <+: targets tier := by
      rw [targets_eq]
      exact (List.take_prefix _ _).map _
    have hcp : ∀ p ∈ tier.flatMap (·.2), Coupled cmap p.1 p.2 := by
      intro p hp
      obtain ⟨kv, h1, h2⟩ := List.mem_flatMap.1 hp
      exact h.coupled kv h1 p h2
    refine ⟨?_, ?_, ?_, ?_⟩
    · rw [inv.layout, layoutOf, List.map_map]
      have : ((fun x : ℕ × ℕ => x.1) ∘ fun p : ℕ × ℕ => (p.2, p.1)) = Prod.snd := rfl
      rw [this, List.zipIdx_map_snd, htl, List.range_eq_range']
      congr 1
      omega
    · rw [hv, ht]
      have := h.once
      rw [List.nodup_cons] at this ⊢
      exact ⟨fun hm => this.1 (hsub.subset hm), this.2.sublist hsub.sublist⟩
    · rw [hv, ht]
      intro d hd
      rcases List.mem_cons.1 hd with rfl | hd
      · -- the root is the control of the first pair
        have h0 : 0 < tier.length := by
          rcases tier with _ | ⟨kv, post⟩
          · simp at hne
          · simp
        rcases htier : tier with _ | ⟨kv, post⟩
        · rw [htier] at h0; simp at h0
        · obtain ⟨p, hp⟩ := List.exists_mem_of_ne_nil _ (h.nonempty kv (by rw [htier]; simp))
          have he := schedule_early h [] kv post (by rw [htier]; rfl) p hp
          simp only [List.flatMap_nil, List.map_nil, List.mem_cons, List.not_mem_nil, or_false] at he
          rw [mem_qubits, ← he]
          exact ⟨p.2, h.coupled kv (by rw [htier]; simp) p hp⟩
      · obtain ⟨p, hp, rfl⟩ := List.mem_map.1 hd
        rw [mem_qubits]
        exact ⟨p.1, (hcp p ((List.take_prefix _ _).subset hp)).symm⟩
    · intro c t hct
      have hmem : Instr.cx c t ∈ s.circ.filter fun g => decide (g ≠ .barrier) := List.mem_filter.2 ⟨hct, by simp⟩
      rw [hf] at hmem
      rcases List.mem_cons.1 hmem with hh | hh
      · cases hh
      · obtain ⟨i, h1, h2⟩ := mem_tree 1 ps c t hh
        obtain ⟨pr, hpr, e1, e2⟩ := hps i c h1
        refine ⟨pr.1, pr.2, ?_, ?_, hcp pr ((List.take_prefix _ _).subset hpr)⟩
        · rw [inv.layout, layout_get, e1]
        · rw [inv.layout, layout_get, h2, Nat.add_comm, e2]

/-- **C64** (device): on a connected device of at most 52 qubits that has a qubit 0, `get_ghz_layout` gives the GHZ state on any
number `n` of qubits from 2 to the number of qubits of the device. -/
theorem C64_device (cmap : List (ℕ × ℕ)) (hnd : cmap.Nodup) (h0 : 0 ∈ qubits cmap) (hc : Connected cmap)
    (hsize : (qubits cmap).length ≤ 52) (err : Option (ℕ → ℕ → ℚ)) (n : ℕ) (hn : 2 ≤ n) (hmax : n ≤ (qubits cmap).length) (barriered : Bool) :
    ∃ tier circ layout, getTierDict (initNodes cmap) err = some tier ∧ ghzLayout tier n barriered = some (circ, layout) ∧
      exec n circ = some (ghz n, []) ∧ GoodLayout cmap n circ layout := by
  obtain ⟨root, tier, h1, h2, h3⟩ := C63_spanning cmap hnd h0 hc hsize err
  have hq : (qubits cmap).Nodup := List.nodup_dedup _
  have hlen : (root :: targets tier).length = (qubits cmap).length :=
    ((List.perm_ext_iff_of_nodup h2.once hq).2 h3).length_eq
  obtain ⟨circ, layout, h4, h5, h6⟩ := C64_layout cmap root tier h2 n hn (by rw [hlen]; exact hmax) barriered
  exact ⟨tier, circ, layout, h1, h4, h5, h6⟩

/-- The circuit for a T-shaped device of five qubits. -/
example : ((getTierDict (initNodes [(0, 1), (1, 2), (1, 3), (3, 4)]) none).bind fun tier =>
    (ghzLayout tier 5 true : Option (List (Instr ℕ) × Dict ℕ ℕ))) =
    some ([.h 0, .cx 0 1, .barrier, .cx 0 2, .barrier, .cx 0 3, .cx 2 4, .barrier], [(0, 1), (1, 2), (2, 3), (3, 0), (4, 4)]) := by
  decide +kernel

/-- **C64** (finding): with more qubits than the schedule reaches, the circuit is returned without complaint but does not
prepare the GHZ state: the last qubits stay in |0⟩. -/
theorem C64_finding_too_many (cmap : List (ℕ × ℕ)) (root : ℕ) (tier : Dict ℕ (List (ℕ × ℕ))) (h : Schedule cmap root tier) (n : ℕ)
    (hn : 2 ≤ n) (hmax : (root :: targets tier).length < n) (barriered : Bool) :
    ∃ circ layout ψ, ghzLayout tier n barriered = some (circ, layout) ∧ exec n circ = some (ψ, []) ∧
      (∀ x : Basis (Fin n), x ⟨n - 1, by omega⟩ = true → ψ x = 0) ∧ ψ ≠ ghz n := by
  obtain ⟨s, hs, inv⟩ := layout_spec h n hn barriered
  obtain ⟨ps, hf, hpl, hb, hps⟩ := inv.circ
  have hlt : ps.length + 1 < n := by
    rw [hpl, List.length_take]
    rw [targets_eq] at hmax
    simp only [List.length_cons, List.length_map] at hmax
    omega
  have hrun : exec n s.circ = some (pairSt n (1 + ps.length) rt rt, []) := by
    apply exec_gates
    rw [← runGates_barriers, hf, runGates_cons, ket0_eq]
    have h : applyGate n (pairSt n 1 1 0) (.h 0) = some (pairSt n 1 rt rt) := by
      simp only [applyGate]
      rw [pairSt_h (by omega)]
      simp
    rw [h, Option.bind_some, run_tree ps 1 hb (by omega)]
  have hz : ∀ x : Basis (Fin n), x ⟨n - 1, by omega⟩ = true → pairSt n (1 + ps.length) rt rt x = 0 := by
    intro x hx
    unfold pairSt
    rw [if_neg (fun hh => by rw [hh] at hx; cases hx), if_neg (fun hh => by rw [hh] at hx; simp at hx; omega), add_zero]
  refine ⟨s.circ, s.layout, _, hs, hrun, hz, ?_⟩
  intro he
  have := hz (fun _ => true) rfl
  rw [he] at this
  simp only [ghz, implies_true, or_true, if_true] at this
  have h2 := rt_sq
  rw [this] at h2
  norm_num at h2

/-- **C64** (finding): a GHZ state "on one qubit" raises an exception. -/
theorem C64_finding_one (tier : Dict ℕ (List (ℕ × ℕ))) (k a b : ℕ) (l : List (ℕ × ℕ)) (post : List (ℕ × List (ℕ × ℕ)))
    (ht : tier = (k, (a, b) :: l) :: post) (hab : a ≠ b) (barriered : Bool) : (ghzLayout tier 1 barriered : Option (List (Instr ℝ) × _)) = none := by
  subst ht
  simp [ghzLayout, outerLoop, innerLoop, pairStep, placeQubit, hab.symm]

end Verif.Ent
