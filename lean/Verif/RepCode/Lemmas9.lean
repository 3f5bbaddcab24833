import Verif.RepCode.Lemmas8
set_option linter.unusedVariables false
/-
The syndrome graph: single faults are edges; cuts; connectedness.
-/
namespace Verif.RepCode
open Verif

/-- An instruction that does not touch the flipped qubit does not change the flips. -/
theorem flip_untouched (o : Op) (l : List Op) (q : Qb) (h : q ∉ o.qubits) : flip (o :: l) q = flip l q := by
  have hstep : o.notX = true → step (single q) o = single q := by
    intro hx
    cases o with
    | x a => simp [Op.notX] at hx
    | cx a t =>
      simp only [Op.qubits, List.mem_cons, List.not_mem_nil, or_false, not_or] at h
      simp only [step, single, Sim.mk.injEq, and_true]
      funext b
      by_cases hb : b = t
      · subst hb; simp [Ne.symm h.1]
      · simp [hb]
    | measure a c =>
      simp only [Op.qubits, List.mem_cons, List.not_mem_nil, or_false] at h
      simp only [step, single, Sim.mk.injEq, true_and]
      funext e
      split
      · simp [Ne.symm h]
      · rfl
    | reset a =>
      simp only [Op.qubits, List.mem_cons, List.not_mem_nil, or_false] at h
      simp only [step, single, Sim.mk.injEq, and_true]
      funext b
      split
      · next hb => subst hb; simp [Ne.symm h]
      · rfl
  unfold flip lin
  cases hx : o.notX
  · rw [List.filter_cons_of_neg (by simp [hx])]
  · rw [List.filter_cons_of_pos (by simp [hx]), run_cons, hstep hx]

theorem suffix_body {d T : Nat} {b : Bool} {o : Op} {l : List Op} (h : (o :: l) <:+ codeOps d T b) (ho : o.notX = true) :
    (o :: l) <:+ bodyOps d T := by
  rw [codeOps_eq] at h
  obtain ⟨t, ht⟩ := h
  rcases List.append_eq_append_iff.1 ht with ⟨a, h1, h2⟩ | ⟨a, h1, h2⟩
  · cases a with
    | nil => simp at h2; rw [h2]
    | cons x a =>
      simp only [List.cons_append, List.cons.injEq] at h2
      have hx : x ∈ prepOps d b := by rw [h1]; simp
      have : x.notX = false := by
        unfold prepOps at hx
        split at hx
        · obtain ⟨j, -, rfl⟩ := List.mem_map.1 hx; rfl
        · simp at hx
      rw [h2.1, this] at ho
      simp at ho
  · exact ⟨a, h2.symm⟩

/-- A fault on a qubit is the fault just before the next instruction on that qubit. -/
theorem touch (d T : Nat) (b : Bool) (q : Qb) (post : List Op) (h : post <:+ codeOps d T b) :
    flip post q = zpat ∨ ∃ o l, (o :: l) <:+ bodyOps d T ∧ q ∈ o.qubits ∧ flip (o :: l) q = flip post q := by
  induction post with
  | nil => exact Or.inl (flip_nil q)
  | cons o l ih =>
    have ih := ih ((List.suffix_cons o l).trans h)
    by_cases hx : o.notX = true
    · by_cases hq : q ∈ o.qubits
      · exact Or.inr ⟨o, l, suffix_body h hx, hq, rfl⟩
      · rw [flip_untouched o l q hq]; exact ih
    · have : flip (o :: l) q = flip l q := by
        unfold flip lin
        rw [List.filter_cons_of_neg hx]
      rw [this]; exact ih

/-! ### edges -/

def Edge (d T : Nat) (u v : Node) : Prop :=
  (∃ k a b, k < d ∧ a ≤ T ∧ b ≤ T ∧ u = upNode d a k ∧ v = dnNode b k) ∨
  (∃ t j, t < T ∧ j < d - 1 ∧ u = Node.s t j ∧ v = Node.s (t + 1) j)

theorem Edge.mem {d T : Nat} {u v : Node} (h : Edge d T u v) : u ∈ nodes d T ∧ v ∈ nodes d T ∧ u ≠ v := by
  rcases h with ⟨k, a, b, hk, ha, hb, rfl, rfl⟩ | ⟨t, j, ht, hj, rfl, rfl⟩
  · refine ⟨?_, ?_, ?_⟩
    · unfold upNode; split
      · simp [nodes]
      · rw [mem_nodes]; omega
    · unfold dnNode; split
      · simp [nodes]
      · rw [mem_nodes]; omega
    · unfold upNode dnNode
      split <;> split <;> simp
      omega
  · simp only [mem_nodes]
    refine ⟨by omega, by omega, by simp⟩

theorem nodeVal_epat (d T t j : Nat) (ht : t < T) (hj : j < d - 1) (n : Node) (hn : n ∈ nodes d T) :
    nodeVal d T (epat t j) n = (decide (n = Node.s t j)).xor (decide (n = Node.s (t + 1) j)) := by
  cases n with
  | L => simp [nodeVal, epat]
  | R => simp [nodeVal, epat]
  | s t' j' =>
    obtain ⟨ht', hj'⟩ := (mem_nodes d T t' j').1 hn
    have hs : ∀ u, u ≤ T → syn T (epat t j) u j' = decide (u = t ∧ j' = j) := by
      intro u hu
      unfold syn
      split
      · simp [epat]
      · have : ¬ u = t := by omega
        simp [epat, this]
    simp only [nodeVal, chg, Node.s.injEq]
    split
    · next h => subst h; rw [hs 0 (by omega)]; simp
    · next h =>
      rw [hs t' ht', hs (t' - 1) (by omega)]
      by_cases e : j' = j
      · have : (t' - 1 = t) = (t' = t + 1) := by rw [eq_iff_iff]; omega
        simp [e, this]
      · simp [e]

/-- A flip pattern is the pattern of at most one pair of nodes. -/
theorem good_pair (d T : Nat) (hd : 2 ≤ d) (L : List Op) (hL : Good d T L) (q : Qb) (hq : q.Valid d) :
    (∀ n ∈ nodes d T, nodeVal d T (flip L q) n = false) ∨ ∃ u v, Edge d T u v ∧
      ∀ n ∈ nodes d T, nodeVal d T (flip L q) n = (decide (n = u)).xor (decide (n = v)) := by
  cases q with
  | link j =>
    rcases hL.link j hq with h | ⟨t, ht, h⟩
    · left; intro n _; rw [h, nodeVal_zpat]
    · right; exact ⟨_, _, Or.inr ⟨t, j, ht, hq, rfl, rfl⟩, fun n hn => by rw [h]; exact nodeVal_epat d T t j ht hq n hn⟩
  | code k =>
    rcases hL.code k hq with ⟨a, b, ha, hb, h⟩ | ⟨h, -⟩
    · right; exact ⟨_, _, Or.inl ⟨k, a, b, hq, ha, hb, rfl, rfl⟩, fun n hn => by rw [h]; exact nodeVal_pat d T a b k hd ha hb n hn⟩
    · left; intro n _; rw [h, nodeVal_zpat]

/-! ### cuts -/

/-- The side of a node with respect to the cut through code qubit `k`. -/
def side (d k : Nat) (x : Tup) : Bool := if x.1 = 0 then decide (x.2.1 = 0) else decide (k + x.2.2 ≤ d - 2)

theorem side_up (d k a k0 : Nat) (hk : k < d) (hk0 : k0 < d) : side d k (nt d (upNode d a k0)) = decide (k ≤ k0) := by
  unfold upNode
  split
  · next h => simp [nt, side]; omega
  · change decide (k + (d - 2 - k0) ≤ d - 2) = _
    rw [decide_eq_decide]; omega

theorem side_dn (d k b k0 : Nat) (hk : k < d) (hk0 : k0 < d) : side d k (nt d (dnNode b k0)) = decide (k + 1 ≤ k0) := by
  unfold dnNode
  split
  · next h => simp [nt, side]; omega
  · change decide (k + (d - 2 - (k0 - 1)) ≤ d - 2) = _
    rw [decide_eq_decide]; omega

def cuts (d : Nat) (u v : Tup) : Nat := (List.range d).countP fun k => side d k u != side d k v

theorem cuts_comm (d : Nat) (u v : Tup) : cuts d u v = cuts d v u := by
  unfold cuts
  apply List.countP_congr
  intro k _
  cases side d k u <;> cases side d k v <;> rfl

theorem cuts_triangle (d : Nat) (u v w : Tup) : cuts d u w ≤ cuts d u v + cuts d v w := by
  unfold cuts
  generalize List.range d = l
  induction l with
  | nil => simp
  | cons k l ih =>
    simp only [List.countP_cons]
    cases side d k u <;> cases side d k v <;> cases side d k w <;> simp <;> omega

theorem cuts_edge (d T : Nat) (u v : Node) (h : Edge d T u v) : cuts d (nt d u) (nt d v) ≤ 1 := by
  rcases h with ⟨k0, a, b, hk, ha, hb, rfl, rfl⟩ | ⟨t, j, ht, hj, rfl, rfl⟩
  · unfold cuts
    have : (List.range d).countP (fun k => side d k (nt d (upNode d a k0)) != side d k (nt d (dnNode b k0))) =
        (List.range d).count k0 := by
      rw [List.count_eq_countP]
      apply List.countP_congr
      intro k hkr
      have hkd := List.mem_range.1 hkr
      rw [side_up d k a k0 hkd hk, side_dn d k b k0 hkd hk]
      simp only [bne_iff_ne, ne_eq, decide_eq_decide, beq_iff_eq]
      omega
    rw [this]
    exact List.nodup_iff_count_le_one.1 List.nodup_range k0
  · unfold cuts
    have : (List.range d).countP (fun k => side d k (nt d (Node.s t j)) != side d k (nt d (Node.s (t + 1) j))) = 0 := by
      rw [List.countP_eq_zero]
      intro k _
      have : side d k (nt d (Node.s t j)) = side d k (nt d (Node.s (t + 1) j)) := rfl
      simp [this]
    omega

/-! ### the graph -/

/-- What the proofs need to know about the syndrome graph. -/
structure GraphOk (d T : Nat) (S : Graph) : Prop where
  mem : ∀ n ∈ nodes d T, nt d n ∈ S.nodes
  reach : ∀ m ∈ nodes d T, ∀ n ∈ nodes d T, S.simple.Reachable (nt d m) (nt d n)
  cut : ∀ u v, S.simple.Reachable u v → cuts d u v ≤ S.simple.dist u v
  edge : ∀ u v, S.simple.Adj u v → ∃ m n, Edge d T m n ∧ ((u = nt d m ∧ v = nt d n) ∨ (u = nt d n ∧ v = nt d m))
  fault : ∀ b post q, post <:+ codeOps d T b → q.Valid d →
    (∀ n ∈ nodes d T, nodeVal d T (flip post q) n = false) ∨ ∃ u v, Edge d T u v ∧ S.simple.Adj (nt d u) (nt d v) ∧
      ∀ n ∈ nodes d T, nodeVal d T (flip post q) n = (decide (n = u)).xor (decide (n = v))

theorem graphOk (d T : Nat) (hd : 2 ≤ d) (hT : 1 ≤ T) (S : Graph) (hS : syndromeGraph (mkCode d T) = some S) : GraphOk d T S := by
  obtain ⟨S', hS', hnodes, hedges⟩ := graph_spec d T hd hT
  rw [hS] at hS'
  obtain rfl := Option.some.inj hS'
  have hbody : ∀ L, L <:+ bodyOps d T → Good d T L := fun L hL => good_suffix d T hT false L (by rw [codeOps_false]; exact hL)
  have hfault : ∀ b post q, post <:+ codeOps d T b → q.Valid d →
    (∀ n ∈ nodes d T, nodeVal d T (flip post q) n = false) ∨ ∃ u v, Edge d T u v ∧ S.simple.Adj (nt d u) (nt d v) ∧
      ∀ n ∈ nodes d T, nodeVal d T (flip post q) n = (decide (n = u)).xor (decide (n = v)) := by
    intro b post q hs hq
    rcases touch d T b q post hs with h | ⟨o, l, hol, hqo, hfl⟩
    · left; intro n _; rw [h, nodeVal_zpat]
    · rw [← hfl]
      rcases good_pair d T hd _ (hbody _ hol) q hq with h | ⟨u, v, he, h⟩
      · exact Or.inl h
      · refine Or.inr ⟨u, v, he, ?_, h⟩
        obtain ⟨hu, hv, hne⟩ := he.mem
        have hne' : nt d u ≠ nt d v := fun h => hne (nt_inj hu hv h)
        refine ⟨hne', Or.inl ((hedges _ _).2 ⟨hne', o, l, q, hol, hqo, ⟨u, hu, ?_, rfl⟩, ⟨v, hv, ?_, rfl⟩⟩)⟩
        · rw [h u hu]; simp [hne]
        · rw [h v hv]; simp [hne.symm]
  have hedge : ∀ u v, S.simple.Adj u v → ∃ m n, Edge d T m n ∧ ((u = nt d m ∧ v = nt d n) ∨ (u = nt d n ∧ v = nt d m)) := by
    have key : ∀ u v, (u, v) ∈ S.edges → ∃ m n, Edge d T m n ∧ ((u = nt d m ∧ v = nt d n) ∨ (u = nt d n ∧ v = nt d m)) := by
      intro u v huv
      obtain ⟨hne, o, l, q, hol, hqo, ⟨n, hn, hv, rfl⟩, ⟨n', hn', hv', rfl⟩⟩ := (hedges u v).1 huv
      have hqv := body_valid d T o (hol.subset (by simp)) q hqo
      rcases good_pair d T hd _ (hbody _ hol) q hqv with h | ⟨a, b, he, h⟩
      · rw [h n hn] at hv; simp at hv
      · refine ⟨a, b, he, ?_⟩
        rw [h n hn] at hv
        rw [h n' hn'] at hv'
        have hnn : n ≠ n' := fun h => hne (by rw [h])
        have hab := he.mem.2.2
        by_cases e1 : n = a
        · subst e1
          have : n' = b := by
            have : ¬ n' = n := fun h => hnn h.symm
            simpa [this] using hv'
          subst this
          exact Or.inl ⟨rfl, rfl⟩
        · have e2 : n = b := by simpa [e1] using hv
          subst e2
          have : n' = a := by
            have : ¬ n' = n := fun h => hnn h.symm
            simpa [this] using hv'
          subst this
          exact Or.inr ⟨rfl, rfl⟩
    rintro u v ⟨-, h | h⟩
    · exact key u v h
    · obtain ⟨m, n, he, h⟩ := key v u h
      exact ⟨m, n, he, by tauto⟩
  have hchain : ∀ t ≤ T, ∀ k < d, S.simple.Adj (nt d (upNode d t k)) (nt d (dnNode t k)) := by
    intro t ht k hk
    obtain ⟨L, hL, hinv, -⟩ := suffix_inv d T hT t ht
    change L <:+ bodyOps d T at hL
    have hpat := hinv.code k hk
    have hup : upNode d t k ∈ nodes d T ∧ dnNode t k ∈ nodes d T ∧ upNode d t k ≠ dnNode t k :=
      Edge.mem (Or.inl ⟨k, t, t, hk, ht, ht, rfl, rfl⟩)
    rcases hfault false L (.code k) (by rw [codeOps_false]; exact hL) hk with h | ⟨u, v, he, hadj, h⟩
    · have := h _ hup.1
      rw [hpat, nodeVal_pat d T t t k hd ht ht _ hup.1] at this
      simp [hup.2.2] at this
    · have h1 := h _ hup.1
      have h2 := h _ hup.2.1
      rw [hpat, nodeVal_pat d T t t k hd ht ht _ hup.1] at h1
      rw [hpat, nodeVal_pat d T t t k hd ht ht _ hup.2.1] at h2
      have hne := hup.2.2
      simp only [decide_true, hne, hne.symm, decide_false, Bool.xor_false, Bool.false_xor] at h1 h2
      by_cases e1 : upNode d t k = u
      · have e2 : dnNode t k = v := by
          have : ¬ dnNode t k = u := fun h => hne (e1.trans h.symm)
          simpa [this] using h2.symm
        rw [e1, e2]; exact hadj
      · have e2 : upNode d t k = v := by simpa [e1] using h1.symm
        have e3 : dnNode t k = u := by
          have : ¬ dnNode t k = v := fun h => hne (e2.trans h.symm)
          simpa [this] using h2.symm
        rw [e2, e3]; exact hadj.symm
  have hR : ∀ t ≤ T, ∀ k < d, S.simple.Reachable (nt d (upNode d t k)) (nt d Node.R) := by
    intro t ht k
    induction k with
    | zero =>
      intro hk
      have := hchain t ht 0 hk
      rw [show dnNode t 0 = Node.R from rfl] at this
      exact this.reachable
    | succ k ih =>
      intro hk
      refine (hchain t ht (k + 1) hk).reachable.trans ?_
      have : dnNode t (k + 1) = upNode d t k := by
        unfold dnNode upNode
        rw [if_neg (by omega), if_neg (by omega)]
        rfl
      rw [this]
      exact ih (by omega)
  have hRn : ∀ n ∈ nodes d T, S.simple.Reachable (nt d n) (nt d Node.R) := by
    intro n hn
    cases n with
    | L =>
      have := hR 0 (by omega) (d - 1) (by omega)
      rwa [show upNode d 0 (d - 1) = Node.L by simp [upNode]] at this
    | R => exact SimpleGraph.Reachable.refl _
    | s t j =>
      obtain ⟨ht, hj⟩ := (mem_nodes d T t j).1 hn
      have := hR t ht j (by omega)
      rwa [show upNode d t j = Node.s t j by unfold upNode; rw [if_neg (by omega)]] at this
  have hadjmem : ∀ u v, S.simple.Adj u v → u ∈ S.nodes := by
    rintro u v ⟨-, h | h⟩
    · obtain ⟨-, o, l, q, a, b, c, -⟩ := (hedges _ _).1 h
      exact (hnodes u).2 ⟨o, l, q, a, b, c⟩
    · obtain ⟨-, o, l, q, a, b, -, c⟩ := (hedges _ _).1 h
      exact (hnodes u).2 ⟨o, l, q, a, b, c⟩
  refine ⟨?_, fun m hm n hn => (hRn m hm).trans (hRn n hn).symm, ?_, hedge, hfault⟩
  · intro n hn
    cases n with
    | L =>
      have := hadjmem _ _ (hchain 0 (by omega) (d - 1) (by omega))
      rwa [show upNode d 0 (d - 1) = Node.L by simp [upNode]] at this
    | R => exact hadjmem _ _ (hchain 0 (by omega) 0 (by omega)).symm
    | s t j =>
      obtain ⟨ht, hj⟩ := (mem_nodes d T t j).1 hn
      have := hadjmem _ _ (hchain t ht j (by omega))
      rwa [show upNode d t j = Node.s t j by unfold upNode; rw [if_neg (by omega)]] at this
  · intro u v huv
    obtain ⟨p, hp⟩ := huv.exists_walk_length_eq_dist
    rw [← hp]
    clear hp huv
    induction p with
    | nil => simp [cuts]
    | cons hadj p ih =>
      obtain ⟨m, n, he, h⟩ := hedge _ _ hadj
      have h1 := cuts_edge d T m n he
      have h2 := cuts_triangle d
      rw [SimpleGraph.Walk.length_cons]
      rename_i a b c
      have h3 : cuts d a b ≤ 1 := by
        rcases h with ⟨rfl, rfl⟩ | ⟨rfl, rfl⟩
        · exact h1
        · rw [cuts_comm]; exact h1
      have h4 := h2 a b c
      omega

end Verif.RepCode
