import Verif.RepCode.Lemmas2
/-
Flip patterns of single faults in the repetition code circuit.
-/
namespace Verif.RepCode
open Verif

/-- Flips caused by a flipped code qubit `k` that link `k` sees from round `a` on and link `k-1`
from round `b` on. -/
def pat (d T a b k : Nat) : Cl → Bool
  | (.round t, j) => (decide (a ≤ t ∧ t < T ∧ j = k ∧ k < d - 1)).xor (decide (b ≤ t ∧ t < T ∧ j + 1 = k))
  | (.code, j) => decide (j = k)

/-- Flip of one recorded syndrome bit. -/
def epat (t j : Nat) : Cl → Bool := fun c => decide (c = (Reg.round t, j))

def zpat : Cl → Bool := fun _ => false

/-- What can happen if a qubit is flipped just before the instructions `L`. -/
structure Good (d T : Nat) (L : List Op) : Prop where
  code : ∀ k < d, (∃ a b, a ≤ T ∧ b ≤ T ∧ flip L (.code k) = pat d T a b k) ∨
    (flip L (.code k) = zpat ∧ ∀ c, Op.measure (.code k) c ∉ L)
  link : ∀ j < d - 1, flip L (.link j) = zpat ∨ ∃ t < T, flip L (.link j) = epat t j

def AllGood (d T : Nat) (L : List Op) : Prop := ∀ S, S <:+ L → Good d T S

theorem AllGood.cons {d T : Nat} {o : Op} {L : List Op} (h : Good d T (o :: L)) (hL : AllGood d T L) :
    AllGood d T (o :: L) := by
  intro S hS
  rcases List.suffix_cons_iff.1 hS with rfl | hS
  · exact h
  · exact hL S hS

theorem AllGood.self {d T : Nat} {L : List Op} (h : AllGood d T L) : Good d T L := h L (List.suffix_refl L)

/-! ### readout -/

structure InvR (d T i : Nat) (L : List Op) : Prop where
  code : ∀ k < d, if k < i then flip L (.code k) = zpat ∧ (∀ c, Op.measure (.code k) c ∉ L)
    else flip L (.code k) = pat d T T T k
  link : ∀ j, flip L (.link j) = zpat
  unw : ∀ t j, Unwritten L (Reg.round t, j)
  unwc : ∀ k < i, Unwritten L (Reg.code, k)
  good : AllGood d T L

theorem flip_nil (q : Qb) : flip [] q = zpat := rfl

theorem InvR.toGood {d T i : Nat} {L : List Op}
    (hc : ∀ k < d, if k < i then flip L (.code k) = zpat ∧ (∀ c, Op.measure (.code k) c ∉ L)
    else flip L (.code k) = pat d T T T k) (hl : ∀ j, flip L (.link j) = zpat) : Good d T L := by
  refine ⟨fun k hk => ?_, fun j _ => Or.inl (hl j)⟩
  have := hc k hk
  split at this
  · exact Or.inr this
  · exact Or.inl ⟨T, T, le_refl _, le_refl _, this⟩

theorem readOps_inv (d T n : Nat) (hn : n ≤ d) :
    InvR d T (d - n) ((List.range' (d - n) n).map fun j => Op.measure (Qb.code j) (Reg.code, j)) := by
  induction n with
  | zero =>
    have hc : ∀ k < d, if k < d - 0 then flip [] (.code k) = zpat ∧ (∀ c, Op.measure (.code k) c ∉ ([] : List Op))
        else flip [] (.code k) = pat d T T T k := by
      intro k hk
      rw [if_pos (by omega)]
      exact ⟨rfl, by simp⟩
    refine ⟨hc, fun _ => rfl, fun t j q => by simp, fun k hk q => by simp, ?_⟩
    intro S hS
    obtain rfl : S = [] := List.suffix_nil.1 hS
    exact InvR.toGood hc fun _ => rfl
  | succ n ih =>
    have ih := ih (by omega)
    have he : d - (n + 1) + 1 = d - n := by omega
    rw [List.range'_succ, List.map_cons, he]
    generalize ((List.range' (d - n) n).map fun j => Op.measure (Qb.code j) (Reg.code, j)) = L at ih
    have hfl := fun q => flip_measure (Qb.code (d - (n + 1))) q (Reg.code, d - (n + 1)) L (ih.unwc _ (by omega))
    have hc : ∀ k < d, if k < d - (n + 1) then
        flip (Op.measure (Qb.code (d - (n + 1))) (Reg.code, d - (n + 1)) :: L) (.code k) = zpat ∧
        (∀ c, Op.measure (.code k) c ∉ Op.measure (Qb.code (d - (n + 1))) (Reg.code, d - (n + 1)) :: L)
        else flip (Op.measure (Qb.code (d - (n + 1))) (Reg.code, d - (n + 1)) :: L) (.code k) = pat d T T T k := by
      intro k hk
      have hik := ih.code k hk
      rw [hfl]
      split
      · next h =>
        rw [if_pos (by omega)] at hik
        have hne : ¬ Qb.code k = Qb.code (d - (n + 1)) := by simp; omega
        refine ⟨?_, ?_⟩
        · funext e; simp only [hne, false_and, if_false, hik.1]
        · intro c hcm
          rcases List.mem_cons.1 hcm with h1 | h1
          · simp only [Op.measure.injEq] at h1; exact hne h1.1
          · exact hik.2 c h1
      · next h =>
        by_cases hk2 : k = d - (n + 1)
        · rw [if_pos (by omega)] at hik
          funext e
          rw [hik.1]
          subst hk2
          rcases e with ⟨_ | _, j⟩
          · next t' =>
            have h1 : ∀ P : Prop, ¬ (T ≤ t' ∧ t' < T ∧ P) := by rintro P ⟨h2, h3, _⟩; omega
            simp [zpat, pat, h1]
          · simp [zpat, pat]
        · rw [if_neg (by omega)] at hik
          have hne : ¬ Qb.code k = Qb.code (d - (n + 1)) := by simpa using hk2
          funext e; simp only [hne, false_and, if_false, hik]
    have hl : ∀ j, flip (Op.measure (Qb.code (d - (n + 1))) (Reg.code, d - (n + 1)) :: L) (.link j) = zpat := by
      intro j; rw [hfl]; funext e; simp [ih.link]
    refine ⟨hc, hl, ?_, ?_, AllGood.cons (InvR.toGood hc hl) ih.good⟩
    · intro t j q hq
      rcases List.mem_cons.1 hq with h1 | h1
      · simp at h1
      · exact ih.unw t j q h1
    · intro k hk q hq
      rcases List.mem_cons.1 hq with h1 | h1
      · simp at h1; omega
      · exact ih.unwc k (by omega) q h1

/-! ### one round -/

/-- Situation just before round `t` (`t = T`: just before the readout). -/
structure Inv (d T t : Nat) (L : List Op) : Prop where
  code : ∀ k < d, flip L (.code k) = pat d T t t k
  link : ∀ j < d - 1, flip L (.link j) = zpat ∨ flip L (.link j) = epat t j ∧ t < T
  unw : ∀ t' < t, ∀ j, Unwritten L (Reg.round t', j)
  good : AllGood d T L

theorem readOps_inv' (d T : Nat) : Inv d T T (readOps d) ∧ ∀ j, flip (readOps d) (.link j) = zpat := by
  have h := readOps_inv d T d (le_refl _)
  rw [Nat.sub_self] at h
  have e : readOps d = (List.range' 0 d).map fun j => Op.measure (Qb.code j) (Reg.code, j) := by
    rw [readOps, List.range_eq_range']
  rw [e]
  refine ⟨⟨fun k hk => ?_, fun j _ => Or.inl (h.link j), fun t' _ j => h.unw t' j, h.good⟩, h.link⟩
  have := h.code k hk
  simpa using this

theorem unw_cons {o : Op} {L : List Op} {c : Cl} (h : Unwritten L c) (ho : ∀ q, o ≠ Op.measure q c) :
    Unwritten (o :: L) c := by
  intro q hq
  rcases List.mem_cons.1 hq with h1 | h1
  · exact ho q h1.symm
  · exact h q h1

/-- Situation inside the measurement phase of round `t`, links below `i` already measured. -/
structure InvM (d T t i : Nat) (L0 L : List Op) : Prop where
  code : ∀ k < d, flip L (.code k) = pat d T (t + 1) (t + 1) k
  link : ∀ j < d - 1, if i ≤ j then flip L (.link j) = epat t j else flip L (.link j) = flip L0 (.link j)
  unw : ∀ t' < t, ∀ j, Unwritten L (Reg.round t', j)
  unw' : ∀ j < i, Unwritten L (Reg.round t, j)
  good : AllGood d T L

theorem good_of_round {d T : Nat} {L : List Op}
    (hc : ∀ k < d, ∃ a b, a ≤ T ∧ b ≤ T ∧ flip L (.code k) = pat d T a b k)
    (hl : ∀ j < d - 1, flip L (.link j) = zpat ∨ ∃ t < T, flip L (.link j) = epat t j) : Good d T L :=
  ⟨fun k hk => Or.inl (hc k hk), hl⟩

theorem measure_inv (d T t : Nat) (ht : t < T) (reset : Bool) (L0 : List Op) (h0 : Inv d T (t + 1) L0)
    (hl0 : reset = false → ∀ j, flip L0 (.link j) = zpat) (n : Nat) (hn : n ≤ d - 1) :
    InvM d T t (d - 1 - n) L0 (((List.range' (d - 1 - n) n).flatMap fun j =>
      [Op.measure (Qb.link j) (Reg.round t, j)] ++ (if reset then [Op.reset (Qb.link j)] else [])) ++ L0) := by
  have hlg : ∀ j < d - 1, flip L0 (.link j) = zpat ∨ ∃ t < T, flip L0 (.link j) = epat t j := by
    intro j hj
    rcases h0.link j hj with h | ⟨h, h'⟩
    · exact Or.inl h
    · exact Or.inr ⟨_, h', h⟩
  induction n with
  | zero =>
    refine ⟨h0.code, ?_, fun t' h' => h0.unw t' (by omega), fun j _ => h0.unw t (by omega) j, h0.good⟩
    intro j hj
    rw [if_neg (by omega)]
    rfl
  | succ n ih =>
    have ih2 := ih (by omega)
    clear ih
    rename' ih2 => ih
    have he : d - 1 - (n + 1) + 1 = d - 1 - n := by omega
    rw [List.range'_succ, List.flatMap_cons, he, List.append_assoc, List.append_assoc]
    generalize (((List.range' (d - 1 - n) n).flatMap fun j =>
      [Op.measure (Qb.link j) (Reg.round t, j)] ++ (if reset then [Op.reset (Qb.link j)] else [])) ++ L0) = L at ih
    generalize hi : d - 1 - (n + 1) = i
    have hi' : d - 1 - n = i + 1 := by omega
    rw [hi'] at ih
    -- after the optional reset
    have hR : InvM d T t (i + 1) (if reset then Op.reset (Qb.link i) :: L0 else L0)
          ((if reset then [Op.reset (Qb.link i)] else []) ++ L) ∧
        flip ((if reset then [Op.reset (Qb.link i)] else []) ++ L) (.link i) = zpat ∧
        ∀ j, j ≠ i → flip (if reset then Op.reset (Qb.link i) :: L0 else L0) (.link j) = flip L0 (.link j) := by
      cases reset with
      | false =>
        refine ⟨by simpa using ih, ?_, fun j _ => rfl⟩
        have := ih.link i (by omega)
        rw [if_neg (by omega)] at this
        simp only [Bool.false_eq_true, if_false, List.nil_append, this]
        exact hl0 rfl i
      | true =>
        simp only [if_true, List.singleton_append]
        have hfl := fun q => flip_reset (Qb.link i) q L
        have hfl0 := fun q => flip_reset (Qb.link i) q L0
        have hc : ∀ k < d, flip (Op.reset (Qb.link i) :: L) (.code k) = pat d T (t + 1) (t + 1) k := by
          intro k hk; rw [hfl]; funext e; simp [ih.code k hk]
        have hl : ∀ j < d - 1, if i + 1 ≤ j then flip (Op.reset (Qb.link i) :: L) (.link j) = epat t j
            else flip (Op.reset (Qb.link i) :: L) (.link j) = flip (Op.reset (Qb.link i) :: L0) (.link j) := by
          intro j hj
          have h1 := ih.link j hj
          rw [hfl, hfl0]
          split at h1
          · next h => rw [if_pos h]; funext e; simp [show ¬ j = i by omega, h1]
          · next h => rw [if_neg h]; funext e; simp [h1]
        have hg : Good d T (Op.reset (Qb.link i) :: L) := by
          refine good_of_round (fun k hk => ⟨t + 1, t + 1, by omega, by omega, hc k hk⟩) ?_
          intro j hj
          have h1 := hl j hj
          split at h1
          · exact Or.inr ⟨t, ht, h1⟩
          · rw [h1, hfl0]
            by_cases hji : j = i
            · left; funext e; simp [hji, zpat]
            · rcases hlg j hj with h2 | ⟨t2, h2, h3⟩
              · left; funext e; simp [hji, h2]
              · right; refine ⟨t2, h2, ?_⟩; funext e; simp [hji, h3]
        refine ⟨⟨hc, hl, fun t' h' j => unw_cons (ih.unw t' h' j) (by simp),
          fun j hj => unw_cons (ih.unw' j hj) (by simp), AllGood.cons hg ih.good⟩, ?_, ?_⟩
        · rw [hfl]; funext e; simp [zpat]
        · intro j hj; rw [hfl0]; funext e; simp [hj]
    obtain ⟨hM, hz, hneq⟩ := hR
    generalize ((if reset then [Op.reset (Qb.link i)] else []) ++ L) = L' at hM hz
    change InvM d T t i L0 (Op.measure (Qb.link i) (Reg.round t, i) :: L')
    have hfl := fun q => flip_measure (Qb.link i) q (Reg.round t, i) L' (hM.unw' i (by omega))
    have hc : ∀ k < d, flip (Op.measure (Qb.link i) (Reg.round t, i) :: L') (.code k) = pat d T (t + 1) (t + 1) k := by
      intro k hk; rw [hfl]; funext e; simp [hM.code k hk]
    have hl : ∀ j < d - 1, if i ≤ j then flip (Op.measure (Qb.link i) (Reg.round t, i) :: L') (.link j) = epat t j
        else flip (Op.measure (Qb.link i) (Reg.round t, i) :: L') (.link j) = flip L0 (.link j) := by
      intro j hj
      rw [hfl]
      by_cases hji : j = i
      · subst hji
        rw [if_pos (le_refl _), hz]
        funext e
        by_cases he : e = (Reg.round t, j) <;> simp [he, epat, zpat]
      · have h1 := hM.link j hj
        rw [hneq j hji] at h1
        have hne : ¬ Qb.link j = Qb.link i := by simpa using hji
        split at h1
        · next h => rw [if_pos (by omega)]; funext e; simp [hji, h1]
        · next h => rw [if_neg (by omega)]; funext e; simp [hji, h1]
    refine ⟨hc, hl, fun t' h' j => unw_cons (hM.unw t' h' j) (by simp; omega),
      fun j hj => unw_cons (hM.unw' j (by omega)) (by simp; omega), AllGood.cons ?_ hM.good⟩
    refine good_of_round (fun k hk => ⟨t + 1, t + 1, by omega, by omega, hc k hk⟩) ?_
    intro j hj
    have h1 := hl j hj
    split at h1
    · exact Or.inr ⟨t, ht, h1⟩
    · rw [h1]; exact hlg j hj

/-- Situation inside the CX phases: each code qubit `k` has its own pair of first-seen rounds. -/
structure InvC (d T t : Nat) (a b : Nat → Nat) (L : List Op) : Prop where
  ha : ∀ k, a k ≤ T
  hb : ∀ k, b k ≤ T
  code : ∀ k < d, flip L (.code k) = pat d T (a k) (b k) k
  link : ∀ j < d - 1, flip L (.link j) = epat t j
  unw : ∀ t' < t, ∀ j, Unwritten L (Reg.round t', j)
  good : AllGood d T L

theorem cxB_inv (d T t : Nat) (ht : t < T) (L0 : List Op)
    (h0 : InvC d T t (fun _ => t + 1) (fun _ => t + 1) L0) (n : Nat) (hn : n ≤ d - 1) :
    InvC d T t (fun _ => t + 1) (fun k => if d - 1 - n + 1 ≤ k then t else t + 1)
      (((List.range' (d - 1 - n) n).map fun j => Op.cx (Qb.code (j + 1)) (Qb.link j)) ++ L0) := by
  induction n with
  | zero =>
    refine ⟨fun k => ht, fun k => by split <;> omega, ?_, h0.link, h0.unw, h0.good⟩
    intro k hk
    have : ¬ d - 1 - 0 + 1 ≤ k := by omega
    simp only [this, if_false]
    exact h0.code k hk
  | succ n ih =>
    have ih := ih (by omega)
    have he : d - 1 - (n + 1) + 1 = d - 1 - n := by omega
    rw [List.range'_succ, List.map_cons, he, List.cons_append]
    generalize (((List.range' (d - 1 - n) n).map fun j => Op.cx (Qb.code (j + 1)) (Qb.link j)) ++ L0) = L at ih
    generalize hi : d - 1 - (n + 1) = i
    have hi' : d - 1 - n = i + 1 := by omega
    rw [hi'] at ih ⊢
    have hfl := fun q => flip_cx (Qb.code (i + 1)) (Qb.link i) q L (by simp)
    have hc : ∀ k < d, flip (Op.cx (Qb.code (i + 1)) (Qb.link i) :: L) (.code k)
        = pat d T (t + 1) (if i + 1 ≤ k then t else t + 1) k := by
      intro k hk
      rw [hfl]
      by_cases hki : k = i + 1
      · subst hki
        funext e
        simp only [if_true, ih.code (i + 1) hk, ih.link i (by omega), le_refl]
        rw [if_neg (by omega)]
        rcases e with ⟨_ | _, j⟩
        · next t' =>
          simp only [pat, epat, Prod.mk.injEq, Reg.round.injEq]
          by_cases h1 : j = i <;> by_cases h2 : t' = t <;> by_cases h3 : t + 1 ≤ t' <;>
            by_cases h4 : t' < T <;> simp [h1, h2, h3, h4] <;> omega
        · simp [pat, epat]
      · have hne : ¬ Qb.code k = Qb.code (i + 1) := by simpa using hki
        funext e
        simp only [hne, if_false, ih.code k hk]
        by_cases h1 : i + 1 ≤ k
        · rw [if_pos h1, if_pos (by omega)]
        · rw [if_neg h1, if_neg (by omega)]
    have hl : ∀ j < d - 1, flip (Op.cx (Qb.code (i + 1)) (Qb.link i) :: L) (.link j) = epat t j := by
      intro j hj; rw [hfl]; funext e; simp [ih.link j hj]
    refine ⟨fun k => ht, fun k => by split <;> omega, hc, hl,
      fun t' h' j => unw_cons (ih.unw t' h' j) (by simp), AllGood.cons ?_ ih.good⟩
    refine good_of_round (fun k hk => ⟨_, _, ?_, ?_, hc k hk⟩) (fun j hj => Or.inr ⟨t, ht, hl j hj⟩)
    · omega
    · split <;> omega

theorem cxA_inv (d T t : Nat) (ht : t < T) (L0 : List Op) (b : Nat → Nat)
    (h0 : InvC d T t (fun _ => t + 1) b L0) (n : Nat) (hn : n ≤ d - 1) :
    InvC d T t (fun k => if d - 1 - n ≤ k then t else t + 1) b
      (((List.range' (d - 1 - n) n).map fun j => Op.cx (Qb.code j) (Qb.link j)) ++ L0) := by
  induction n with
  | zero =>
    refine ⟨fun k => by split <;> omega, h0.hb, ?_, h0.link, h0.unw, h0.good⟩
    intro k hk
    rw [List.range'_zero, List.map_nil, List.nil_append, h0.code k hk]
    funext e
    rcases e with ⟨_ | _, j⟩
    · simp only [pat]
      by_cases hk1 : k < d - 1
      · rw [if_neg (by omega : ¬ d - 1 - 0 ≤ k)]
      · simp [hk1]
    · rfl
  | succ n ih =>
    have ih := ih (by omega)
    have he : d - 1 - (n + 1) + 1 = d - 1 - n := by omega
    rw [List.range'_succ, List.map_cons, he, List.cons_append]
    generalize (((List.range' (d - 1 - n) n).map fun j => Op.cx (Qb.code j) (Qb.link j)) ++ L0) = L at ih
    generalize hi : d - 1 - (n + 1) = i
    have hi' : d - 1 - n = i + 1 := by omega
    rw [hi'] at ih
    have hfl := fun q => flip_cx (Qb.code i) (Qb.link i) q L (by simp)
    have hc : ∀ k < d, flip (Op.cx (Qb.code i) (Qb.link i) :: L) (.code k)
        = pat d T (if i ≤ k then t else t + 1) (b k) k := by
      intro k hk
      rw [hfl]
      by_cases hki : k = i
      · subst hki
        funext e
        simp only [if_true, ih.code k hk, ih.link k (by omega), le_refl]
        rw [if_neg (by omega)]
        rcases e with ⟨_ | _, j⟩
        · next t' =>
          simp only [pat, epat, Prod.mk.injEq, Reg.round.injEq]
          have hkd : k < d - 1 := by omega
          by_cases h1 : j = k <;> by_cases h2 : t' = t <;> by_cases h3 : t + 1 ≤ t' <;>
            by_cases h4 : t' < T <;> simp [h1, h2, h3, h4, hkd] <;> omega
        · simp [pat, epat]
      · have hne : ¬ Qb.code k = Qb.code i := by simpa using hki
        funext e
        simp only [hne, if_false, ih.code k hk]
        by_cases h1 : i ≤ k
        · rw [if_pos h1, if_pos (by omega)]
        · rw [if_neg h1, if_neg (by omega)]
    have hl : ∀ j < d - 1, flip (Op.cx (Qb.code i) (Qb.link i) :: L) (.link j) = epat t j := by
      intro j hj; rw [hfl]; funext e; simp [ih.link j hj]
    refine ⟨fun k => by split <;> omega, h0.hb, hc, hl,
      fun t' h' j => unw_cons (ih.unw t' h' j) (by simp), AllGood.cons ?_ ih.good⟩
    refine good_of_round (fun k hk => ⟨_, _, ?_, h0.hb k, hc k hk⟩) (fun j hj => Or.inr ⟨t, ht, hl j hj⟩)
    split <;> omega

theorem round_inv (d T t : Nat) (ht : t < T) (reset : Bool) (L0 : List Op) (h0 : Inv d T (t + 1) L0)
    (hl0 : reset = false → ∀ j, flip L0 (.link j) = zpat) : Inv d T t (roundOps d t reset ++ L0) ∧
      ∀ j < d - 1, flip (roundOps d t reset ++ L0) (.link j) = epat t j := by
  have hM := measure_inv d T t ht reset L0 h0 hl0 (d - 1) (le_refl _)
  rw [Nat.sub_self] at hM
  have hM' : InvC d T t (fun _ => t + 1) (fun _ => t + 1) _ :=
    ⟨fun _ => ht, fun _ => ht, hM.code, fun j hj => by simpa using hM.link j hj, hM.unw, hM.good⟩
  have hB := cxB_inv d T t ht _ hM' (d - 1) (le_refl _)
  rw [Nat.sub_self] at hB
  have hA := cxA_inv d T t ht _ _ hB (d - 1) (le_refl _)
  rw [Nat.sub_self] at hA
  simp only [← List.range_eq_range', ← List.append_assoc] at hA
  simp only [roundOps, ← List.append_assoc]
  refine ⟨⟨?_, fun j hj => Or.inr ⟨hA.link j hj, ht⟩, hA.unw, hA.good⟩, hA.link⟩
  intro k hk
  rw [hA.code k hk]
  funext e
  rcases e with ⟨_ | _, j⟩
  · simp only [Nat.zero_le, if_true, pat]
    by_cases h1 : 0 + 1 ≤ k
    · simp [h1]
    · obtain rfl : k = 0 := by omega
      simp
  · rfl

theorem rounds_inv (d T n : Nat) (hn : n < T) (L0 : List Op) (h0 : Inv d T n L0) :
    Inv d T 0 (((List.range n).flatMap fun t => roundOps d t true) ++ L0) := by
  induction n generalizing L0 with
  | zero => simpa using h0
  | succ n ih =>
    rw [List.range_succ, List.flatMap_append, List.append_assoc]
    refine ih (by omega) _ ?_
    simpa using (round_inv d T n (by omega) true L0 h0 (by simp)).1

/-- All instructions after the preparation. -/
theorem body_inv (d T : Nat) (hT : 1 ≤ T) :
    Inv d T 0 (((List.range (T - 1)).flatMap fun t => roundOps d t true) ++
      (roundOps d (T - 1) false ++ readOps d)) := by
  obtain ⟨hr, hl⟩ := readOps_inv' d T
  apply rounds_inv d T (T - 1) (by omega)
  refine (round_inv d T (T - 1) (by omega) false _ ?_ ?_).1
  · rw [show T - 1 + 1 = T by omega]; exact hr
  · exact fun _ => hl

/-- The instructions from round `t` on. -/
theorem suffix_inv (d T : Nat) (hT : 1 ≤ T) (t : Nat) (ht : t ≤ T) :
    ∃ L, L <:+ ((List.range (T - 1)).flatMap fun t => roundOps d t true) ++ (roundOps d (T - 1) false ++ readOps d) ∧
      Inv d T t L ∧ (t < T → ∀ j < d - 1, flip L (.link j) = epat t j) := by
  obtain ⟨hr, hl⟩ := readOps_inv' d T
  have hlast := round_inv d T (T - 1) (by omega) false (readOps d) (by rw [show T - 1 + 1 = T by omega]; exact hr) (fun _ => hl)
  by_cases hTt : t = T
  · subst hTt
    refine ⟨readOps d, ?_, hr, by omega⟩
    exact (List.suffix_append _ _).trans (List.suffix_append _ _)
  have key : ∀ k ≤ T - 1, ∃ L, L = ((List.range' (T - 1 - k) k).flatMap fun t => roundOps d t true) ++ (roundOps d (T - 1) false ++ readOps d) ∧
      Inv d T (T - 1 - k) L ∧ ∀ j < d - 1, flip L (.link j) = epat (T - 1 - k) j := by
    intro k
    induction k with
    | zero => intro _; exact ⟨_, rfl, by simpa using hlast⟩
    | succ k ih =>
      intro hk
      obtain ⟨L, hL, h1, h2⟩ := ih (by omega)
      refine ⟨_, rfl, ?_⟩
      rw [List.range'_succ, show T - 1 - (k + 1) + 1 = T - 1 - k by omega, List.flatMap_cons, List.append_assoc, ← hL]
      refine round_inv d T _ (by omega) true L ?_ (by simp)
      rw [show T - 1 - (k + 1) + 1 = T - 1 - k by omega]
      exact h1
  obtain ⟨L, hL, h1, h2⟩ := key (T - 1 - t) (by omega)
  rw [show T - 1 - (T - 1 - t) = t by omega] at hL h1 h2
  refine ⟨L, ?_, h1, fun _ => h2⟩
  rw [hL]
  have : List.range (T - 1) = List.range' 0 t ++ List.range' t (T - 1 - t) := by
    have h := List.range'_append_1 (s := 0) (m := t) (n := T - 1 - t)
    rw [List.range_eq_range', show T - 1 = t + (T - 1 - t) by omega, ← h]
    simp
  rw [this, List.flatMap_append, List.append_assoc]
  exact List.suffix_append _ _

end Verif.RepCode
