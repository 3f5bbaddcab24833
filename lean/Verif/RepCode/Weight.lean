import Verif.RepCode.Props
import Mathlib.Analysis.SpecialFunctions.Log.ENNRealLog
set_option linter.unusedVariables false
/-
Model of `GraphDecoder.weight_syndrome_graph` (fitters.py:161-200) and property C105.
-/
namespace Verif.RepCode
open Verif

/-- `count[element][edge]`, fitters.py:178-189: the counts of the outcomes in which the ends of the edge are as in the element. -/
def edgeCount (results : Dict Str Nat) (e : (Nat × Nat × Nat) × (Nat × Nat × Nat)) (x y : Bool) : Nat :=
  results.foldl (fun acc kv => if decide (e.1 ∈ string2nodes kv.1) = x ∧ decide (e.2 ∈ string2nodes kv.1) = y then acc + kv.2 else acc) 0

/-- The list `ratios`, fitters.py:193-199. -/
def edgeRatios (results : Dict Str Nat) (e : (Nat × Nat × Nat) × (Nat × Nat × Nat)) : List Rat :=
  [((false, false), (true, true)), ((true, true), (false, false)), ((false, true), (true, false)), ((true, false), (false, true))].filterMap
    fun p => if 0 < edgeCount results e p.2.1 p.2.2 then
      some ((edgeCount results e p.1.1 p.1.2 : Rat) / edgeCount results e p.2.1 p.2.2) else none

/-- `edge_data['distance'] = -np.log(min(ratios))`, fitters.py:200; `-np.log(0)` is infinity.  `none`: `ValueError` of `min`. -/
noncomputable def edgeDistance (results : Dict Str Nat) (e : (Nat × Nat × Nat) × (Nat × Nat × Nat)) : Option EReal :=
  match edgeRatios results e with
  | [] => none
  | r :: rs => some (-(ENNReal.log (ENNReal.ofReal ((rs.foldl min r : Rat) : ℝ))))

/-! ### Specification -/

/-- The number of shots in which the two ends are lit or not as given. -/
def shotsWhere (results : Dict Str Nat) (P : Str → Prop) [DecidablePred P] : Nat := ((results.filter fun kv => P kv.1).map (·.2)).sum

theorem edgeCount_eq (results : Dict Str Nat) (e : (Nat × Nat × Nat) × (Nat × Nat × Nat)) (x y : Bool) :
    edgeCount results e x y = shotsWhere results fun s => decide (e.1 ∈ string2nodes s) = x ∧ decide (e.2 ∈ string2nodes s) = y := by
  unfold edgeCount shotsWhere
  have : ∀ a, results.foldl (fun acc kv => if decide (e.1 ∈ string2nodes kv.1) = x ∧ decide (e.2 ∈ string2nodes kv.1) = y then acc + kv.2 else acc) a =
      a + ((results.filter fun kv => decide (decide (e.1 ∈ string2nodes kv.1) = x ∧ decide (e.2 ∈ string2nodes kv.1) = y)).map (·.2)).sum := by
    induction results with
    | nil => simp
    | cons kv l ih =>
      intro a
      rw [List.foldl_cons, ih, List.filter_cons]
      by_cases h : decide (e.1 ∈ string2nodes kv.1) = x ∧ decide (e.2 ∈ string2nodes kv.1) = y
      · rw [if_pos h, if_pos (decide_eq_true h), List.map_cons, List.sum_cons]
        omega
      · rw [if_neg h, if_neg (by simpa using h)]
  rw [this 0]
  simp

theorem foldl_min (r : Rat) (rs : List Rat) : rs.foldl min r ∈ r :: rs ∧ ∀ x ∈ r :: rs, rs.foldl min r ≤ x := by
  induction rs generalizing r with
  | nil => simp
  | cons a rs ih =>
    rw [List.foldl_cons]
    obtain ⟨h1, h2⟩ := ih (min r a)
    constructor
    · rcases List.mem_cons.1 h1 with h | h
      · rcases min_choice r a with h' | h'
        · rw [h, h']; simp
        · rw [h, h']; simp
      · simp [h]
    · intro x hx
      have h3 := h2 (min r a) (by simp)
      rcases List.mem_cons.1 hx with rfl | hx
      · exact h3.trans (min_le_left _ _)
      · rcases List.mem_cons.1 hx with rfl | hx
        · exact h3.trans (min_le_right _ _)
        · exact h2 x (by simp [hx])

theorem mem_edgeRatios (results : Dict Str Nat) (e : (Nat × Nat × Nat) × (Nat × Nat × Nat)) (r : Rat) :
    r ∈ edgeRatios results e ↔ ∃ x y, 0 < edgeCount results e (!x) (!y) ∧ r = (edgeCount results e x y : Rat) / edgeCount results e (!x) (!y) := by
  unfold edgeRatios
  simp only [List.mem_filterMap, List.mem_cons, List.not_mem_nil, or_false]
  constructor
  · rintro ⟨p, hp, h⟩
    split at h
    · next h' =>
      rcases hp with rfl | rfl | rfl | rfl
      · exact ⟨false, false, h', (Option.some.inj h).symm⟩
      · exact ⟨true, true, h', (Option.some.inj h).symm⟩
      · exact ⟨false, true, h', (Option.some.inj h).symm⟩
      · exact ⟨true, false, h', (Option.some.inj h).symm⟩
    · simp at h
  · rintro ⟨x, y, h1, h2⟩
    refine ⟨((x, y), (!x, !y)), by cases x <;> cases y <;> simp, ?_⟩
    rw [if_pos h1, h2]

/-- The distance, through the smallest ratio. -/
theorem distance_min (results : Dict Str Nat) (e : (Nat × Nat × Nat) × (Nat × Nat × Nat)) (h : ∃ x y, 0 < edgeCount results e x y) :
    ∃ r : Rat, edgeDistance results e = some (-(ENNReal.log (ENNReal.ofReal (r : ℝ)))) ∧ r ∈ edgeRatios results e ∧
      (∀ x ∈ edgeRatios results e, r ≤ x) ∧ 0 ≤ r ∧ r ≤ 1 := by
  obtain ⟨x, y, h⟩ := h
  have hm : (edgeCount results e (!x) (!y) : Rat) / edgeCount results e x y ∈ edgeRatios results e := by
    rw [mem_edgeRatios]
    exact ⟨!x, !y, by simpa using h, by simp⟩
  unfold edgeDistance
  have hall := mem_edgeRatios results e
  generalize edgeRatios results e = l at hm hall
  cases l with
  | nil => simp at hm
  | cons r rs =>
    obtain ⟨h1, h2⟩ := foldl_min r rs
    refine ⟨_, rfl, h1, h2, ?_, ?_⟩
    · obtain ⟨x, y, -, h⟩ := (hall _).1 h1
      rw [h]
      positivity
    · by_cases hle : (edgeCount results e (!x) (!y)) ≤ edgeCount results e x y
      · refine (h2 _ hm).trans ?_
        rw [div_le_one (by exact_mod_cast h)]
        exact_mod_cast hle
      · refine (h2 ((edgeCount results e x y : Rat) / edgeCount results e (!x) (!y)) ?_).trans ?_
        · rw [hall]
          exact ⟨x, y, by omega, rfl⟩
        · rw [div_le_one (by exact_mod_cast (by omega : 0 < edgeCount results e (!x) (!y)))]
          exact_mod_cast (by omega : edgeCount results e x y ≤ edgeCount results e (!x) (!y))

/-- The shots split into four classes. -/
theorem edgeCount_total (results : Dict Str Nat) (e : (Nat × Nat × Nat) × (Nat × Nat × Nat)) :
    edgeCount results e false false + edgeCount results e true true + edgeCount results e false true + edgeCount results e true false =
      (results.map (·.2)).sum := by
  simp only [edgeCount_eq, shotsWhere]
  induction results with
  | nil => simp
  | cons kv l ih =>
    simp only [List.filter_cons, List.map_cons, List.sum_cons]
    rw [← ih]
    by_cases h1 : e.1 ∈ string2nodes kv.1 <;> by_cases h2 : e.2 ∈ string2nodes kv.1 <;> simp [h1, h2] <;> omega

/-- **C105** With at least one shot every edge gets a distance; it is not negative, does not depend on the direction of the edge, and is
finite exactly when equally lit and unlit, and oppositely lit, outcomes occur both or not at all. -/
theorem C105_distance (results : Dict Str Nat) (u v : Nat × Nat × Nat) (h : (results.map (·.2)).sum ≠ 0) :
    ∃ D, edgeDistance results (u, v) = some D ∧ edgeDistance results (v, u) = some D ∧ 0 ≤ D ∧
      (D ≠ ⊤ ↔
        ((shotsWhere results fun s => u ∈ string2nodes s ∧ v ∈ string2nodes s) = 0 ↔
          (shotsWhere results fun s => u ∉ string2nodes s ∧ v ∉ string2nodes s) = 0) ∧
        ((shotsWhere results fun s => u ∈ string2nodes s ∧ v ∉ string2nodes s) = 0 ↔
          (shotsWhere results fun s => u ∉ string2nodes s ∧ v ∈ string2nodes s) = 0)) := by
  have hpos : ∃ x y, 0 < edgeCount results (u, v) x y := by
    by_contra hn
    push Not at hn
    have := edgeCount_total results (u, v)
    have a1 := hn false false
    have a2 := hn true true
    have a3 := hn false true
    have a4 := hn true false
    omega
  have hswap : ∀ x y, edgeCount results (v, u) x y = edgeCount results (u, v) y x := by
    intro x y
    simp only [edgeCount_eq, shotsWhere]
    congr 2
    apply List.filter_congr
    intro kv _
    rw [decide_eq_decide]
    exact and_comm
  have hpos' : ∃ x y, 0 < edgeCount results (v, u) x y := by
    obtain ⟨x, y, h⟩ := hpos
    exact ⟨y, x, by rw [hswap]; exact h⟩
  have hmem : ∀ r, r ∈ edgeRatios results (v, u) ↔ r ∈ edgeRatios results (u, v) := by
    intro r
    rw [mem_edgeRatios, mem_edgeRatios]
    constructor
    · rintro ⟨x, y, h1, h2⟩
      rw [hswap] at h1
      rw [hswap, hswap] at h2
      exact ⟨y, x, h1, h2⟩
    · rintro ⟨x, y, h1, h2⟩
      exact ⟨y, x, by rw [hswap]; exact h1, by rw [hswap, hswap]; exact h2⟩
  obtain ⟨r, h1, h2, h3, h4, h5⟩ := distance_min results (u, v) hpos
  obtain ⟨r', k1, k2, k3, k4, k5⟩ := distance_min results (v, u) hpos'
  have : r' = r := le_antisymm (k3 r ((hmem r).2 h2)) (h3 r' ((hmem r').1 k2))
  subst this
  refine ⟨_, h1, k1, ?_, ?_⟩
  · rw [← neg_zero, EReal.neg_le_neg_iff, ENNReal.log_le_zero_iff, ENNReal.ofReal_le_one]
    exact_mod_cast h5
  · have e11 : edgeCount results (u, v) true true = shotsWhere results fun s => u ∈ string2nodes s ∧ v ∈ string2nodes s := by
      rw [edgeCount_eq]; simp [shotsWhere]
    have e00 : edgeCount results (u, v) false false = shotsWhere results fun s => u ∉ string2nodes s ∧ v ∉ string2nodes s := by
      rw [edgeCount_eq]; simp [shotsWhere]
    have e10 : edgeCount results (u, v) true false = shotsWhere results fun s => u ∈ string2nodes s ∧ v ∉ string2nodes s := by
      rw [edgeCount_eq]; simp [shotsWhere]
    have e01 : edgeCount results (u, v) false true = shotsWhere results fun s => u ∉ string2nodes s ∧ v ∈ string2nodes s := by
      rw [edgeCount_eq]; simp [shotsWhere]
    rw [← e11, ← e00, ← e10, ← e01]
    have hz : (-(ENNReal.log (ENNReal.ofReal (r' : ℝ))) ≠ ⊤) ↔ r' ≠ 0 := by
      rw [Ne, EReal.neg_eq_top_iff, ENNReal.log_eq_bot_iff, ENNReal.ofReal_eq_zero]
      constructor
      · intro h h'
        exact h (by rw [h']; simp)
      · intro h h'
        exact h (le_antisymm (by exact_mod_cast h') h4)
    rw [hz]
    constructor
    · intro hr
      have key : ∀ x y, edgeCount results (u, v) x y = 0 → edgeCount results (u, v) (!x) (!y) = 0 := by
        intro x y h0
        by_contra hne
        have := h3 ((edgeCount results (u, v) x y : Rat) / edgeCount results (u, v) (!x) (!y)) ((mem_edgeRatios _ _ _).2 ⟨x, y, by omega, rfl⟩)
        rw [h0] at this
        simp at this
        exact hr (le_antisymm this h4)
      exact ⟨⟨key true true, key false false⟩, ⟨key true false, key false true⟩⟩
    · rintro ⟨⟨a1, a2⟩, ⟨a3, a4⟩⟩ hr
      obtain ⟨x, y, hp, hxy⟩ := (mem_edgeRatios _ _ _).1 h2
      rw [hr] at hxy
      have h0 : edgeCount results (u, v) x y = 0 := by
        rcases div_eq_zero_iff.1 hxy.symm with h | h
        · exact_mod_cast h
        · have : edgeCount results (u, v) (!x) (!y) = 0 := by exact_mod_cast h
          omega
      cases x <;> cases y
      · have := a2 h0; simp at hp; omega
      · have := a4 h0; simp at hp; omega
      · have := a3 h0; simp at hp; omega
      · have := a1 h0; simp at hp; omega

/-- **C105** If single lit ends are as frequent on one side as on the other, and both ends are lit less often than not lit, then the
distance is `-log(p/(1-p))`, with `p` the share of shots with both ends lit among those with equal ends. -/
theorem C105_estimate (results : Dict Str Nat) (u v : Nat × Nat × Nat) (n11 n00 : Nat)
    (h11 : (shotsWhere results fun s => u ∈ string2nodes s ∧ v ∈ string2nodes s) = n11)
    (h00 : (shotsWhere results fun s => u ∉ string2nodes s ∧ v ∉ string2nodes s) = n00)
    (hbal : (shotsWhere results fun s => u ∈ string2nodes s ∧ v ∉ string2nodes s) =
      (shotsWhere results fun s => u ∉ string2nodes s ∧ v ∈ string2nodes s)) (hpos : 0 < n11) (hle : n11 ≤ n00) :
    edgeDistance results (u, v) = some ((-Real.log (((n11 : ℝ) / (n00 + n11)) / (1 - (n11 : ℝ) / (n00 + n11))) : ℝ) : EReal) := by
  have e11 : edgeCount results (u, v) true true = n11 := by
    rw [edgeCount_eq, ← h11]; simp [shotsWhere]
  have e00 : edgeCount results (u, v) false false = n00 := by
    rw [edgeCount_eq, ← h00]; simp [shotsWhere]
  have ebal : edgeCount results (u, v) true false = edgeCount results (u, v) false true := by
    rw [edgeCount_eq, edgeCount_eq]; simpa [shotsWhere] using hbal
  obtain ⟨r, h1, h2, h3, h4, h5⟩ := distance_min results (u, v) ⟨true, true, by omega⟩
  have hn0 : (0 : Rat) < n00 := by exact_mod_cast (by omega : 0 < n00)
  have hn1 : (0 : Rat) < n11 := by exact_mod_cast hpos
  have hle' : (n11 : Rat) ≤ n00 := by exact_mod_cast hle
  have hmin : r = (n11 : Rat) / n00 := by
    apply le_antisymm
    · apply h3
      rw [mem_edgeRatios]
      exact ⟨true, true, by simp; omega, by simp [e11, e00]⟩
    · obtain ⟨x, y, hp, hxy⟩ := (mem_edgeRatios _ _ _).1 h2
      have hone : (n11 : Rat) / n00 ≤ 1 := by rw [div_le_one hn0]; exact hle'
      cases x <;> cases y
      · simp only [Bool.not_false, e00, e11] at hxy
        rw [hxy]
        refine hone.trans ?_
        rw [le_div_iff₀ hn1]
        linarith
      · simp only [Bool.not_false, Bool.not_true, ebal] at hxy hp
        rw [hxy, div_self (by exact_mod_cast hp.ne')]
        exact hone
      · simp only [Bool.not_false, Bool.not_true, ebal] at hxy hp
        rw [hxy, div_self (by exact_mod_cast hp.ne')]
        exact hone
      · simp only [Bool.not_true, e00, e11] at hxy
        rw [hxy]
  rw [h1, hmin]
  have hr0 : (0 : ℝ) < n00 := by exact_mod_cast hn0
  have hr1 : (0 : ℝ) < n11 := by exact_mod_cast hn1
  have hcast : (((n11 : Rat) / n00 : Rat) : ℝ) = ((n11 : ℝ) / (n00 + n11)) / (1 - (n11 : ℝ) / (n00 + n11)) := by
    push_cast
    have : 1 - (n11 : ℝ) / (n00 + n11) = n00 / (n00 + n11) := by field_simp; ring
    rw [this]
    field_simp
  rw [hcast, ENNReal.log_ofReal_of_pos]
  · rfl
  · rw [← hcast]
    push_cast
    positivity

/-- **C105, finding** One lit end that is never lit on the other side alone makes the distance infinite, however often the edge's own
error occurs: here 50 of 951 shots show it, and one shot shows one end alone. -/
theorem C105_finding_infinite :
    edgeDistance [("0 0  00 00".toList, 900), ("0 0  00 11".toList, 50), ("1 0  00 01".toList, 1)] ((1, 1, 0), (1, 1, 1)) = some ⊤ := by
  obtain ⟨D, h1, -, -, h2⟩ := C105_distance [("0 0  00 00".toList, 900), ("0 0  00 11".toList, 50), ("1 0  00 01".toList, 1)]
    (1, 1, 0) (1, 1, 1) (by decide)
  rw [h1]
  by_contra hne
  have := (h2.1 fun h => hne (by rw [h])).2
  revert this
  decide +kernel

example : (shotsWhere [("0 0  00 00".toList, 900), ("0 0  00 11".toList, 50)] fun s => (1, 1, 0) ∈ string2nodes s ∧ (1, 1, 1) ∈ string2nodes s) = 50 := by
  decide +kernel

end Verif.RepCode
