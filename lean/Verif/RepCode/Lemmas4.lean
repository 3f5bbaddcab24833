import Verif.RepCode.Lemmas3
import Verif.RepCode.Spec
import Mathlib.Algebra.BigOperators.Group.List.Basic
import Mathlib.Data.List.Nodup
/-
Counting nodes of processed strings.
-/
namespace Verif.RepCode
open Verif

def bodyOps (d T : Nat) : List Op :=
  ((List.range (T - 1)).flatMap fun t => roundOps d t true) ++ (roundOps d (T - 1) false ++ readOps d)

theorem codeOps_eq (d T : Nat) (b : Bool) : codeOps d T b = prepOps d b ++ bodyOps d T := by
  simp [codeOps, bodyOps]

theorem bodyOps_notX (d T : Nat) : ∀ o ∈ bodyOps d T, o.notX = true := by
  have hr : ∀ t r, ∀ o ∈ roundOps d t r, o.notX = true := by
    intro t r o ho
    simp only [roundOps, List.mem_append, List.mem_map, List.mem_flatMap] at ho
    rcases ho with ⟨_, _, rfl⟩ | ⟨_, _, rfl⟩ | ⟨_, _, ho⟩
    · rfl
    · rfl
    · rcases ho with ho | ho
      · simp at ho; subst ho; rfl
      · cases r <;> simp at ho; subst ho; rfl
  intro o ho
  simp only [bodyOps, List.mem_append, List.mem_flatMap] at ho
  rcases ho with ⟨t, _, ho⟩ | ho | ho
  · exact hr _ _ _ ho
  · exact hr _ _ _ ho
  · simp only [readOps, List.mem_map] at ho
    obtain ⟨_, _, rfl⟩ := ho
    rfl

theorem run_body_zero (d T : Nat) : run (bodyOps d T) Sim.zero = Sim.zero := by
  have := lin_zero (bodyOps d T)
  rwa [lin, List.filter_eq_self.2 (bodyOps_notX d T)] at this

theorem run_prefix (d T : Nat) (hT : 1 ≤ T) (n : Nat) (hn : n ≤ d) :
    let m := (run (((List.range n).map fun j => Op.x (Qb.code j)) ++ bodyOps d T) Sim.zero).m
    (∀ t < T, ∀ j < d - 1, m (Reg.round t, j) = (decide (j < n)).xor (decide (j + 1 < n))) ∧
    (∀ k < d, m (Reg.code, k) = decide (k < n)) := by
  induction n with
  | zero =>
    simp only [List.range_zero, List.map_nil, List.nil_append, run_body_zero]
    simp [Sim.zero]
  | succ n ih =>
    obtain ⟨h1, h2⟩ := ih (by omega)
    have hb := (body_inv d T hT).code n (by omega)
    rw [List.range_succ, List.map_append, List.append_assoc]
    simp only [List.map_cons, List.map_nil, List.singleton_append, run_inject]
    change flip (bodyOps d T) (Qb.code n) = _ at hb
    constructor
    · intro t ht j hj
      rw [h1 t ht j hj, hb]
      simp only [pat, Nat.zero_le, true_and, ht]
      by_cases e1 : j = n
      · have : n < d - 1 := by omega
        simp [e1, this]
      · by_cases e2 : j + 1 = n
        · simp [← e2]; omega
        · have a1 : decide (j < n) = decide (j < n + 1) := by
            rw [decide_eq_decide]; omega
          have a2 : decide (j + 1 < n) = decide (j + 1 < n + 1) := by
            rw [decide_eq_decide]; omega
          simp [e1, e2, a1, a2]
    · intro k hk
      rw [h2 k hk, hb]
      simp only [pat]
      by_cases e : k = n
      · simp [e]
      · have : decide (k < n) = decide (k < n + 1) := by rw [decide_eq_decide]; omega
        simp [e, this]

/-- Memory of the noiseless run. -/
theorem noiseless (d T : Nat) (hT : 1 ≤ T) (b : Bool) :
    let m := (run (codeOps d T b) Sim.zero).m
    (∀ t < T, ∀ j < d - 1, m (Reg.round t, j) = false) ∧ (∀ k < d, m (Reg.code, k) = b) := by
  rw [codeOps_eq]
  cases b with
  | false =>
    simp only [prepOps, Bool.false_eq_true, if_false, List.nil_append, run_body_zero]
    simp [Sim.zero]
  | true =>
    obtain ⟨h1, h2⟩ := run_prefix d T hT d (le_refl _)
    simp only [prepOps, if_true]
    refine ⟨fun t ht j hj => ?_, fun k hk => ?_⟩
    · rw [h1 t ht j hj]
      have e1 : j < d := by omega
      have e2 : j + 1 < d := by omega
      simp [e1, e2]
    · rw [h2 k hk]; simp [hk]

/-! ### nodes -/

inductive Node where
  | L
  | R
  | s (t j : Nat)
  deriving DecidableEq

def nodes (d T : Nat) : List Node :=
  Node.L :: Node.R :: (List.range (T + 1)).flatMap fun t => (List.range (d - 1)).map fun j => Node.s t j

def nodeVal (d T : Nat) (δ : Cl → Bool) : Node → Bool
  | .L => δ (Reg.code, d - 1)
  | .R => δ (Reg.code, 0)
  | .s t j => chg T δ t j

theorem mem_nodes (d T t j : Nat) : Node.s t j ∈ nodes d T ↔ t ≤ T ∧ j < d - 1 := by
  simp [nodes, Nat.lt_succ_iff]

theorem nodup_nodes (d T : Nat) : (nodes d T).Nodup := by
  have : ((List.range (T + 1)).flatMap fun t => (List.range (d - 1)).map fun j => Node.s t j).Nodup := by
    rw [List.nodup_flatMap]
    refine ⟨fun t _ => List.Nodup.map_on (by simp) List.nodup_range, ?_⟩
    refine List.Pairwise.imp ?_ (List.nodup_range (n := T + 1))
    intro a b hab
    simp only [Function.onFun, List.disjoint_left, List.mem_map, not_exists, not_and]
    rintro n ⟨j, _, rfl⟩ j' _ h
    simp only [Node.s.injEq] at h
    exact hab h.1.symm
  simp [nodes, this]

/-- `m` is the noiseless memory of logical value `b` with the bits of `δ` flipped. -/
def Rel (d T : Nat) (b : Bool) (m δ : Cl → Bool) : Prop :=
  (∀ t < T, ∀ j < d - 1, m (Reg.round t, j) = δ (Reg.round t, j)) ∧
  (∀ k < d, m (Reg.code, k) = b.xor (δ (Reg.code, k)))

theorem syn_rel {d T : Nat} {b : Bool} {m δ : Cl → Bool} (h : Rel d T b m δ) (t j : Nat)
    (hj : j < d - 1) : syn T m t j = syn T δ t j := by
  unfold syn
  split
  · next ht => exact h.1 t ht j hj
  · rw [h.2 j (by omega), h.2 (j + 1) (by omega)]
    cases b <;> cases δ (Reg.code, j) <;> cases δ (Reg.code, j + 1) <;> rfl

theorem chg_rel {d T : Nat} {b : Bool} {m δ : Cl → Bool} (h : Rel d T b m δ) (t j : Nat)
    (hj : j < d - 1) : chg T m t j = chg T δ t j := by
  unfold chg
  rw [syn_rel h 0 j hj, syn_rel h t j hj, syn_rel h (t - 1) j hj]

theorem row_congr (d : Nat) (f g : Nat → Bool) (h : ∀ j < d - 1, f j = g j) : row d f = row d g := by
  apply List.map_congr_left
  intro j hj
  rw [h j (List.mem_range.1 (List.mem_reverse.1 hj))]

theorem filter_one_join (ps : List Str) :
    ((joinSep [' '] ps).filter (· = '1')).length = (ps.map fun p => (p.filter (· = '1')).length).sum := by
  induction ps with
  | nil => rfl
  | cons p ps ih =>
    by_cases h : ps = []
    · subst h; simp [joinSep]
    · rw [joinSep_cons _ _ _ h]
      simp only [List.filter_append, List.length_append, ih, List.map_cons, List.sum_cons]
      simp

theorem filter_one_row (d : Nat) (f : Nat → Bool) :
    ((row d f).filter (· = '1')).length = (List.range (d - 1)).countP f := by
  rw [← List.countP_eq_length_filter, row, List.countP_map, List.countP_reverse]
  apply List.countP_congr
  intro j _
  cases h : f j <;> simp [bitChar, h]

theorem splitDouble_processed (d T : Nat) (hd : 2 ≤ d) (m : Cl → Bool) :
    splitDouble (processed d T m) =
      [[bitChar (m (Reg.code, d - 1)), ' ', bitChar (m (Reg.code, 0))],
        joinSep [' '] ((List.range (T + 1)).map fun t => row d (chg T m t))] := by
  have h1 : splitDouble (joinSep [' '] ((List.range (T + 1)).map fun t => row d (chg T m t))) =
      [joinSep [' '] ((List.range (T + 1)).map fun t => row d (chg T m t))] := by
    apply splitDouble_join
    intro p hp
    obtain ⟨t, _, rfl⟩ := List.mem_map.1 hp
    refine ⟨space_not_mem_row d _, ?_⟩
    intro h
    have := congrArg List.length h
    rw [length_row] at this
    simp at this
    omega
  have hL := bitChar_ne_space (m (Reg.code, d - 1))
  have hR := bitChar_ne_space (m (Reg.code, 0))
  unfold processed
  generalize joinSep [' '] ((List.range (T + 1)).map fun t => row d (chg T m t)) = s at h1 ⊢
  generalize bitChar (m (Reg.code, d - 1)) = x at hL
  generalize bitChar (m (Reg.code, 0)) = y at hR
  rw [show [x, ' ', y, ' ', ' '] ++ _ = x :: ' ' :: y :: ' ' :: ' ' :: _ from rfl]
  rw [splitDouble_cons x _ (fun h => hL h.1), splitDouble_cons ' ' _ (by simpa using hR),
    splitDouble_cons y _ (fun h => hR h.1), splitDouble_sep]
  simp [*]

theorem countP_nodes (d T : Nat) (p : Node → Bool) : (nodes d T).countP p =
    (if p Node.L then 1 else 0) + (if p Node.R then 1 else 0) +
      ((List.range (T + 1)).map fun t => (List.range (d - 1)).countP fun j => p (Node.s t j)).sum := by
  simp only [nodes, List.countP_cons, List.countP_flatMap]
  have : ((List.range (T + 1)).map (List.countP p ∘ fun t => (List.range (d - 1)).map fun j => Node.s t j)) =
      (List.range (T + 1)).map fun t => (List.range (d - 1)).countP fun j => p (Node.s t j) := by
    apply List.map_congr_left
    intro t _
    simp [List.countP_map, Function.comp_def]
  rw [this]
  omega

theorem defects_processed (d T : Nat) (hd : 2 ≤ d) (b : Bool) (m δ : Cl → Bool) (h : Rel d T b m δ) :
    defects b (processed d T m) = (nodes d T).countP (nodeVal d T δ) := by
  unfold defects
  rw [splitDouble_processed d T hd, countP_nodes]
  simp only [List.flatten_cons, List.flatten_nil, List.append_nil, filter_one_join, List.map_map]
  have e1 : ((List.range (T + 1)).map ((fun p : Str => (p.filter (· = '1')).length) ∘ fun t => row d (chg T m t))) =
      (List.range (T + 1)).map fun t => (List.range (d - 1)).countP fun j => nodeVal d T δ (Node.s t j) := by
    apply List.map_congr_left
    intro t _
    simp only [Function.comp, filter_one_row]
    apply List.countP_congr
    intro j hj
    rw [chg_rel h t j (List.mem_range.1 hj)]
    rfl
  rw [e1, h.2 (d - 1) (by omega), h.2 0 (by omega)]
  congr 1
  simp only [nodeVal]
  have hall : ∀ b x y : Bool, (([bitChar (b.xor x), ' ', bitChar (b.xor y)].filter (· ≠ ' ')).filter
      (· ≠ bitChar b)).length = (if x = true then 1 else 0) + (if y = true then 1 else 0) := by decide
  exact hall _ _ _

/-! ### patterns -/

/-- Node on the left of code qubit `k` (towards code qubit `d-1`, printed left-most). -/
def upNode (d a k : Nat) : Node := if k = d - 1 then Node.L else Node.s a k
def dnNode (b k : Nat) : Node := if k = 0 then Node.R else Node.s b (k - 1)

theorem syn_pat (d T a b k t j : Nat) (ha : a ≤ T) (hb : b ≤ T) (ht : t ≤ T) (hj : j < d - 1) :
    syn T (pat d T a b k) t j = (decide (a ≤ t ∧ j = k)).xor (decide (b ≤ t ∧ j + 1 = k)) := by
  unfold syn
  split
  · next h =>
    simp only [pat, h, true_and]
    by_cases e : j = k
    · have : k < d - 1 := by omega
      simp [e, this]
    · simp [e]
  · have : t = T := by omega
    subst this
    simp [pat, ha, hb]

theorem nodeVal_pat (d T a b k : Nat) (hd : 2 ≤ d) (ha : a ≤ T) (hb : b ≤ T) (n : Node)
    (hn : n ∈ nodes d T) : nodeVal d T (pat d T a b k) n =
      (decide (n = upNode d a k)).xor (decide (n = dnNode b k)) := by
  cases n with
  | L =>
    have e1 : decide (Node.L = upNode d a k) = decide (d - 1 = k) := by
      rw [decide_eq_decide, upNode]; split <;> simp <;> omega
    have e2 : decide (Node.L = dnNode b k) = false := by
      rw [decide_eq_false_iff_not, dnNode]; split <;> simp
    rw [e1, e2, Bool.xor_false]
    rfl
  | R =>
    have e1 : decide (Node.R = upNode d a k) = false := by
      rw [decide_eq_false_iff_not, upNode]; split <;> simp
    have e2 : decide (Node.R = dnNode b k) = decide (0 = k) := by
      rw [decide_eq_decide, dnNode]; split <;> simp <;> omega
    rw [e1, e2, Bool.false_xor]
    rfl
  | s t j =>
    obtain ⟨ht, hj⟩ := (mem_nodes d T t j).1 hn
    have e1 : decide (Node.s t j = upNode d a k) = decide (t = a ∧ j = k) := by
      rw [decide_eq_decide, upNode]
      split
      · simp; omega
      · simp
    have e2 : decide (Node.s t j = dnNode b k) = decide (t = b ∧ j + 1 = k) := by
      rw [decide_eq_decide, dnNode]
      split
      · simp; omega
      · simp; omega
    rw [e1, e2, nodeVal, chg]
    split
    · next h =>
      subst h
      rw [syn_pat d T a b k 0 j ha hb ht hj]
      congr 2 <;> (rw [eq_iff_iff]; constructor <;> (rintro ⟨h1, h2⟩; exact ⟨by omega, h2⟩))
    · next h =>
      rw [syn_pat d T a b k t j ha hb ht hj, syn_pat d T a b k (t - 1) j ha hb (by omega) hj]
      by_cases h1 : j = k
      · have h2 : ¬ j + 1 = k := by omega
        simp only [h1, and_true, show ¬ k + 1 = k by omega, and_false, decide_false, Bool.xor_false]
        by_cases h3 : a ≤ t - 1
        · have : a ≤ t := by omega
          have : ¬ t = a := by omega
          simp [*]
        · by_cases h4 : a ≤ t
          · have : t = a := by omega
            subst this
            simp [h3]
          · have : ¬ t = a := by omega
            simp [*]
      · by_cases h2 : j + 1 = k
        · simp only [h2, h1, and_true, and_false, decide_false, Bool.false_xor]
          by_cases h3 : b ≤ t - 1
          · have : b ≤ t := by omega
            have : ¬ t = b := by omega
            simp [*]
          · by_cases h4 : b ≤ t
            · have : t = b := by omega
              subst this
              simp [h3]
            · have : ¬ t = b := by omega
              simp [*]
        · simp [h1, h2]

theorem countP_two (l : List Node) (hl : l.Nodup) (p : Node → Bool) (a b : Node) (ha : a ∈ l) (hb : b ∈ l)
    (hab : a ≠ b) (hp : ∀ n ∈ l, p n = (decide (n = a)).xor (decide (n = b))) : l.countP p = 2 := by
  have h1 : l.countP p = l.countP (fun n => n == a) + l.countP (fun n => n == b) := by
    clear ha hb hl
    induction l with
    | nil => rfl
    | cons n l ih =>
      simp only [List.countP_cons]
      rw [ih (fun n hn => hp n (List.mem_cons_of_mem _ hn)), hp n (by simp)]
      by_cases e1 : n = a
      · subst e1
        simp [hab]; omega
      · by_cases e2 : n = b
        · subst e2; simp [e1]; omega
        · simp [e1, e2]
  rw [h1, ← List.count_eq_countP, ← List.count_eq_countP, List.count_eq_one_of_mem hl ha,
    List.count_eq_one_of_mem hl hb]

theorem countP_pat (d T a b k : Nat) (hd : 2 ≤ d) (hk : k < d) (ha : a ≤ T) (hb : b ≤ T) :
    (nodes d T).countP (nodeVal d T (pat d T a b k)) = 2 := by
  apply countP_two _ (nodup_nodes d T) _ (upNode d a k) (dnNode b k)
  · unfold upNode; split
    · simp [nodes]
    · rw [mem_nodes]; omega
  · unfold dnNode; split
    · simp [nodes]
    · rw [mem_nodes]; omega
  · unfold upNode dnNode
    split <;> split
    · simp
    · simp
    · simp
    · simp; omega
  · exact nodeVal_pat d T a b k hd ha hb

theorem countP_epat (d T t j : Nat) (ht : t < T) (hj : j < d - 1) :
    (nodes d T).countP (nodeVal d T (epat t j)) = 2 := by
  apply countP_two _ (nodup_nodes d T) _ (Node.s t j) (Node.s (t + 1) j)
  · rw [mem_nodes]; omega
  · rw [mem_nodes]; omega
  · simp
  · intro n hn
    cases n with
    | L => simp [nodeVal, epat]
    | R => simp [nodeVal, epat]
    | s t' j' =>
      obtain ⟨ht', hj'⟩ := (mem_nodes d T t' j').1 hn
      have hs : ∀ u, u ≤ T → syn T (epat t j) u j' = decide (u = t ∧ j' = j) := by
        intro u hu
        unfold syn
        split
        · simp [epat]
        · have : ¬ u = t := by omega
          simp [epat, this]
      simp only [nodeVal, chg, Node.s.injEq]
      split
      · next h => subst h; rw [hs 0 (by omega)]; simp
      · next h =>
        rw [hs t' ht', hs (t' - 1) (by omega)]
        by_cases e : j' = j
        · have : (t' - 1 = t) = (t' = t + 1) := by rw [eq_iff_iff]; omega
          simp [e, this]
        · simp [e]

theorem countP_zpat (d T : Nat) : (nodes d T).countP (nodeVal d T zpat) = 0 := by
  rw [List.countP_eq_zero]
  intro n _
  cases n <;> simp [nodeVal, zpat, chg, syn]

/-- Injecting an X before the instructions `post`. -/
theorem rel_inject (d T : Nat) (hT : 1 ≤ T) (b : Bool) (pre post : List Op) (q : Qb)
    (h : codeOps d T b = pre ++ post) :
    Rel d T b (run (pre ++ Op.x q :: post) Sim.zero).m (flip post q) := by
  obtain ⟨h1, h2⟩ := noiseless d T hT b
  rw [h] at h1 h2
  rw [run_inject]
  exact ⟨fun t ht j hj => by simp [h1 t ht j hj], fun k hk => by simp [h2 k hk]⟩

/-- Flips of suffixes of the whole circuit. -/
theorem good_suffix (d T : Nat) (hT : 1 ≤ T) (b : Bool) (post : List Op) (h : post <:+ codeOps d T b) :
    Good d T post := by
  have hb := (body_inv d T hT).good
  change AllGood d T (bodyOps d T) at hb
  rw [codeOps_eq] at h
  have key : ∀ (l : List Nat), AllGood d T ((l.map fun j => Op.x (Qb.code j)) ++ bodyOps d T) := by
    intro l
    induction l with
    | nil => simpa using hb
    | cons a l ih =>
      rw [List.map_cons, List.cons_append]
      refine AllGood.cons ?_ ih
      refine ⟨fun k hk => ?_, fun j hj => ?_⟩
      · rw [flip_x]
        rcases ih.self.code k hk with h | ⟨h, h'⟩
        · exact Or.inl h
        · exact Or.inr ⟨h, fun c hc => by
            rcases List.mem_cons.1 hc with h1 | h1
            · simp at h1
            · exact h' c h1⟩
      · rw [flip_x]; exact ih.self.link j hj
  cases b with
  | false => exact hb _ (by simpa [prepOps] using h)
  | true => exact key (List.range d) _ (by simpa [prepOps] using h)

/-! ### parity -/

theorem countP_xor (l : List Nat) (f g : Nat → Bool) :
    l.countP (fun j => (f j).xor (g j)) % 2 = (l.countP f + l.countP g) % 2 := by
  induction l with
  | nil => rfl
  | cons a l ih =>
    simp only [List.countP_cons]
    cases f a <;> cases g a <;> simp <;> omega

theorem row_parity (d T : Nat) (m : Cl → Bool) (n : Nat) :
    ((List.range (n + 1)).map fun t => (List.range (d - 1)).countP fun j => chg T m t j).sum % 2 =
      ((List.range (d - 1)).countP fun j => syn T m n j) % 2 := by
  induction n with
  | zero => simp [chg]
  | succ n ih =>
    rw [List.range_succ, List.map_append, List.sum_append]
    simp only [List.map_cons, List.map_nil, List.sum_cons, List.sum_nil, Nat.add_zero]
    have h1 : ((List.range (d - 1)).countP fun j => chg T m (n + 1) j) % 2 =
        (((List.range (d - 1)).countP fun j => syn T m (n + 1) j) +
          (List.range (d - 1)).countP fun j => syn T m n j) % 2 := by
      have := countP_xor (List.range (d - 1)) (fun j => syn T m (n + 1) j) (fun j => syn T m n j)
      rw [← this]
      simp [chg]
    omega

theorem chain_parity (c : Nat → Bool) (n : Nat) :
    ((List.range n).countP fun j => (c j).xor (c (j + 1))) % 2 = ((c 0).toNat + (c n).toNat) % 2 := by
  induction n with
  | zero => simp; cases c 0 <;> rfl
  | succ n ih =>
    rw [List.range_succ, List.countP_append]
    cases h1 : c n <;> cases h2 : c (n + 1) <;> cases h3 : c 0 <;> simp_all <;> omega

theorem countP_even (d T : Nat) (m : Cl → Bool) : (nodes d T).countP (nodeVal d T m) % 2 = 0 := by
  rw [countP_nodes]
  have h1 := row_parity d T m T
  have h2 : ((List.range (d - 1)).countP fun j => syn T m T j) % 2 =
      ((m (Reg.code, 0)).toNat + (m (Reg.code, d - 1)).toNat) % 2 := by
    rw [← chain_parity (fun j => m (Reg.code, j)) (d - 1)]
    simp [syn]
  have e : ∀ x : Bool, (if x = true then 1 else 0) = x.toNat := by decide
  rw [e, e]
  simp only [nodeVal]
  omega

end Verif.RepCode
