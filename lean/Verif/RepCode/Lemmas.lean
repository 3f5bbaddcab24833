import Verif.RepCode.Model
import Verif.Py.SplitLemmas
/-
Closed forms for the circuits of the code and for `process_results`.
-/
namespace Verif.RepCode
open Verif

/-! ### The circuits -/

def roundOps (d t : Nat) (reset : Bool) : List Op :=
  ((List.range (d - 1)).map fun j => Op.cx (Qb.code j) (Qb.link j)) ++
  (((List.range (d - 1)).map fun j => Op.cx (Qb.code (j + 1)) (Qb.link j)) ++
  ((List.range (d - 1)).flatMap fun j =>
    [Op.measure (Qb.link j) (Reg.round t, j)] ++ (if reset then [Op.reset (Qb.link j)] else [])))

def prepOps (d : Nat) (b : Bool) : List Op :=
  if b then (List.range d).map fun j => Op.x (Qb.code j) else []

def readOps (d : Nat) : List Op := (List.range d).map fun j => Op.measure (Qb.code j) (Reg.code, j)

/-- State of the object after the preparation and `n` rounds with reset. -/
def codeAfter (d n : Nat) : Code where
  d := d
  T := n
  linkBits := (List.range n).map Reg.round
  circ := fun b => ⟨prepOps d b ++ (List.range n).flatMap fun t => roundOps d t true,
    (List.range n).map fun t => (Reg.round t, d - 1)⟩

theorem sm_codeAfter (d n : Nat) (r : Bool) : (codeAfter d n).syndromeMeasurement r =
    { d := d, T := n + 1, linkBits := (List.range (n + 1)).map Reg.round,
      circ := fun b => ⟨prepOps d b ++ ((List.range n).flatMap fun t => roundOps d t true) ++ roundOps d n r,
        (List.range (n + 1)).map fun t => (Reg.round t, d - 1)⟩ } := by
  simp [codeAfter, Code.syndromeMeasurement, Circuit.add, Circuit.addReg, List.range_succ, roundOps,
    List.append_assoc]

theorem sm_codeAfter_true (d n : Nat) : (codeAfter d n).syndromeMeasurement true = codeAfter d (n + 1) := by
  rw [sm_codeAfter]
  simp [codeAfter, List.range_succ]

theorem rounds_codeAfter (d k n : Nat) : (codeAfter d n).rounds k = codeAfter d (n + k) := by
  induction k generalizing n with
  | zero => rfl
  | succ k ih => rw [Code.rounds, sm_codeAfter_true, ih]; congr 1; omega

theorem prep_codeAfter (d : Nat) :
    ({ d := d, T := 0, linkBits := [], circ := fun _ => ⟨[], []⟩ } : Code).x [true] = codeAfter d 0 := by
  simp only [Code.x, codeAfter, Circuit.add, Code.mk.injEq, true_and, List.range_zero, List.map_nil]
  funext b
  cases b <;> simp [prepOps]

def regs (d T : Nat) : List (Reg × Nat) :=
  ((List.range T).map fun t => (Reg.round t, d - 1)) ++ [(Reg.code, d)]

def codeOps (d T : Nat) (b : Bool) : List Op :=
  prepOps d b ++ ((List.range (T - 1)).flatMap fun t => roundOps d t true) ++
    roundOps d (T - 1) false ++ readOps d

theorem mkCode_circ (d T : Nat) (hT : 1 ≤ T) (b : Bool) :
    ((mkCode d T).circ b) = ⟨codeOps d T b, regs d T⟩ := by
  obtain ⟨n, rfl⟩ : ∃ n, T = n + 1 := ⟨T - 1, by omega⟩
  simp only [mkCode, prep_codeAfter, rounds_codeAfter, ne_eq, Nat.succ_ne_zero, not_false_eq_true,
    if_true, Nat.zero_add]
  rw [sm_codeAfter]
  simp [Code.readout, Circuit.add, Circuit.addReg, codeOps, regs, readOps]

/-! ### The processed string -/

/-- Syndrome bit of link `j` in round `t`, the last one (`t = T`) inferred from the code bits. -/
def syn (T : Nat) (m : Cl → Bool) (t j : Nat) : Bool :=
  if t < T then m (Reg.round t, j) else (m (Reg.code, j)).xor (m (Reg.code, j + 1))

/-- Change of the syndrome of link `j` at round `t`. -/
def chg (T : Nat) (m : Cl → Bool) (t j : Nat) : Bool :=
  if t = 0 then syn T m 0 j else (syn T m t j).xor (syn T m (t - 1) j)

def row (d : Nat) (f : Nat → Bool) : Str := (List.range (d - 1)).reverse.map fun j => bitChar (f j)

def processed (d T : Nat) (m : Cl → Bool) : Str :=
  [bitChar (m (Reg.code, d - 1)), ' ', bitChar (m (Reg.code, 0)), ' ', ' '] ++
    joinSep [' '] ((List.range (T + 1)).map fun t => row d (chg T m t))

theorem bitChar_ne_space (b : Bool) : bitChar b ≠ ' ' := by cases b <;> decide

theorem bitChar_inj {a b : Bool} (h : bitChar a = bitChar b) : a = b := by
  cases a <;> cases b <;> simp_all [bitChar]

theorem space_not_mem_row (d : Nat) (f : Nat → Bool) : ' ' ∉ row d f := by
  simp only [row, List.mem_map, List.mem_reverse, List.mem_range, not_exists, not_and]
  exact fun j _ => bitChar_ne_space _

theorem length_row (d : Nat) (f : Nat → Bool) : (row d f).length = d - 1 := by simp [row]

theorem getElem?_row (d : Nat) (f : Nat → Bool) (i : Nat) (h : i < d - 1) :
    (row d f)[i]? = some (bitChar (f (d - 2 - i))) := by
  rw [row, List.getElem?_map, List.getElem?_reverse (by simpa using h)]
  simp only [List.length_range]
  rw [List.getElem?_range (by omega)]
  simp only [Option.map_some]
  congr 3

def codeRow (d : Nat) (m : Cl → Bool) : Str := (List.range d).reverse.map fun j => bitChar (m (Reg.code, j))

theorem key_eq (d T : Nat) (m : Cl → Bool) : countsKey (regs d T) m =
    joinSep [' '] (codeRow d m ::
      (List.range T).reverse.map fun t => row d fun j => m (Reg.round t, j)) := by
  simp only [countsKey, regs, List.reverse_append, List.reverse_cons, List.reverse_nil, List.nil_append,
    List.singleton_append, List.map_cons, ← List.map_reverse, List.map_map, codeRow]
  rfl

theorem key_split (d T : Nat) (hT : 1 ≤ T) (m : Cl → Bool) : countsKey (regs d T) m =
    codeRow d m ++ ' ' :: joinSep [' '] ((List.range T).reverse.map fun t => row d fun j => m (Reg.round t, j)) := by
  rw [key_eq, joinSep_cons]
  · simp
  · intro h
    have := congrArg List.length h
    simp at this
    omega

theorem length_codeRow (d : Nat) (m : Cl → Bool) : (codeRow d m).length = d := by simp [codeRow]

theorem getElem?_key (d T : Nat) (hT : 1 ≤ T) (m : Cl → Bool) (i : Nat) (h : i < d) :
    (countsKey (regs d T) m)[i]? = some (bitChar (m (Reg.code, d - 1 - i))) := by
  rw [key_split d T hT, List.getElem?_append_left (by simpa [length_codeRow] using h), codeRow,
    List.getElem?_map, List.getElem?_reverse (by simpa using h)]
  simp only [List.length_range]
  rw [List.getElem?_range (by omega)]
  rfl

theorem negIdx_range (f : Nat → Str) (n k : Nat) (h : k < n) :
    negIdx ((List.range n).reverse.map f) (k + 1) = some (f k) := by
  rw [negIdx, if_pos (by simp; omega)]
  simp only [List.length_map, List.length_reverse, List.length_range, List.getElem?_map]
  rw [List.getElem?_reverse (by simp; omega)]
  simp only [List.length_range]
  rw [List.getElem?_range (by omega)]
  simp only [Option.map_some]
  congr 2
  omega

theorem bne_bitChar (a b : Bool) : (bitChar a != bitChar b) = a.xor b := by
  cases a <;> cases b <;> decide

theorem changeAt_eq (d T : Nat) (f : Nat → Nat → Bool) (t i : Nat) (ht : t ≤ T) (hi : i < d - 1) :
    changeAt ((List.range (T + 1)).reverse.map fun t => row d (f t)) t i =
      some (bitChar (if t = 0 then f 0 (d - 2 - i) else (f t (d - 2 - i)).xor (f (t - 1) (d - 2 - i)))) := by
  unfold changeAt
  by_cases h0 : t = 0
  · subst h0
    rw [if_pos rfl, if_pos rfl, negIdx_range (fun t => row d (f t)) (T + 1) 0 (by omega)]
    simp only [Option.bind_eq_bind, Option.bind_some, getElem?_row d _ i hi]
    have : ('0' : Char) = bitChar false := rfl
    rw [this, bne_bitChar, Bool.xor_false]
    rfl
  · obtain ⟨t, rfl⟩ : ∃ n, t = n + 1 := ⟨t - 1, by omega⟩
    rw [if_neg h0, if_neg h0, negIdx_range (fun t => row d (f t)) (T + 1) t (by omega),
      negIdx_range (fun t => row d (f t)) (T + 1) (t + 1) (by omega)]
    simp only [Option.bind_eq_bind, Option.bind_some, getElem?_row d _ i hi]
    rw [bne_bitChar, Bool.xor_comm]
    rfl

theorem map_range_row (d : Nat) (f : Nat → Bool) :
    (List.range (d - 1)).map (fun i => bitChar (f (d - 2 - i))) = row d f := by
  apply List.ext_getElem?
  intro i
  by_cases hi : i < d - 1
  · rw [getElem?_row d f i hi, List.getElem?_map, List.getElem?_range hi]
    rfl
  · rw [List.getElem?_eq_none (by simp; omega), List.getElem?_eq_none (by simp [length_row]; omega)]

theorem process_key (d T : Nat) (hd : 2 ≤ d) (hT : 1 ≤ T) (m : Cl → Bool) :
    processString d T (countsKey (regs d T) m) = some (processed d T m) := by
  have hfinal : ((List.range (d - 1)).mapM fun j => do
      let a ← (countsKey (regs d T) m)[j]?
      let b ← (countsKey (regs d T) m)[j + 1]?
      pure (if a = b then '0' else '1')) = some (row d (syn T m T)) := by
    rw [mapM_eq_some _ _ fun j => bitChar (syn T m T (d - 2 - j)), map_range_row]
    intro j hj
    have hj : j < d - 1 := List.mem_range.1 hj
    rw [getElem?_key d T hT m j (by omega), getElem?_key d T hT m (j + 1) (by omega)]
    simp only [syn, Nat.lt_irrefl, if_false, Option.bind_eq_bind, Option.bind_some]
    have e1 : d - 1 - j = (d - 2 - j) + 1 := by omega
    have e2 : d - 1 - (j + 1) = d - 2 - j := by omega
    rw [e1, e2]
    cases m (Reg.code, d - 2 - j) <;> cases m (Reg.code, d - 2 - j + 1) <;> rfl
  have hdrop : (countsKey (regs d T) m).drop d =
      ' ' :: joinSep [' '] ((List.range T).reverse.map fun t => row d fun j => m (Reg.round t, j)) := by
    rw [key_split d T hT]
    have := length_codeRow d m
    rw [List.drop_append_of_le_length (by omega), List.drop_of_length_le (by omega)]
    rfl
  have hrows : ∀ t ∈ (List.range T).reverse, (row d fun j => m (Reg.round t, j)) = row d (syn T m t) := by
    intro t ht
    have ht : t < T := List.mem_range.1 (List.mem_reverse.1 ht)
    congr 1
    funext j
    simp [syn, ht]
  have hsplit : splitChar ' ' (row d (syn T m T) ++ (countsKey (regs d T) m).drop d) =
      (List.range (T + 1)).reverse.map fun t => row d (syn T m t) := by
    rw [hdrop, splitChar_append _ _ _ (space_not_mem_row d _), splitChar_join, List.map_congr_left hrows,
      List.range_succ, List.reverse_append]
    · rfl
    · intro h
      have := congrArg List.length h
      simp at this
      omega
    · intro p hp
      obtain ⟨t, _, rfl⟩ := List.mem_map.1 hp
      exact space_not_mem_row d _
  have hblocks : ((List.range (T + 1)).mapM fun t => do
      let cs ← (List.range (d - 1)).mapM fun j =>
        changeAt ((List.range (T + 1)).reverse.map fun t => row d (syn T m t)) t j
      pure (cs ++ [' '])) = some ((List.range (T + 1)).map fun t => row d (chg T m t) ++ [' ']) := by
    apply mapM_eq_some
    intro t ht
    have ht : t ≤ T := by have := List.mem_range.1 ht; omega
    rw [mapM_eq_some _ _ fun j => bitChar (chg T m t (d - 2 - j)), map_range_row]
    · rfl
    · intro j hj
      rw [changeAt_eq d T (syn T m) t j ht (List.mem_range.1 hj)]
      rfl
  unfold processString
  rw [getElem?_key d T hT m 0 (by omega), getElem?_key d T hT m (d - 1) (by omega)]
  simp only [Option.bind_eq_bind, Option.bind_some]
  rw [show (d - 1 - 0) = d - 1 by omega, show d - 1 - (d - 1) = 0 by omega]
  simp only [Option.bind_eq_bind] at hfinal
  rw [hfinal]
  simp only [Option.bind_some, hsplit]
  simp only [Option.bind_eq_bind] at hblocks
  rw [hblocks]
  simp only [Option.bind_some, Option.pure_def, processed, Option.some.injEq]
  have := flatten_dropLast_join ' ' ((List.range (T + 1)).map fun t => row d (chg T m t))
    (by intro h; have := congrArg List.length h; simp at this)
  rw [List.map_map] at this
  rw [← this]
  rfl

end Verif.RepCode
