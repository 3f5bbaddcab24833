import Verif.Tomo.Spec
import Verif.Tomo.PropsCirc
import Verif.Expval.LemmasBits
import Verif.Counts.Lemmas
import Verif.Py.SplitLemmas
/-
Entries of the operators of `_measurement_ops` and `_preparation_op`.
-/
set_option linter.unusedSectionVars false
set_option linter.unusedSimpArgs false
namespace Verif.Tomo
open Verif Verif.Quantum Verif.Counts

/-- Product of one-qubit matrices, the first for the least significant bit. -/
noncomputable def bitProd : List SM → ℕ → ℕ → ℂ
  | [], _, _ => 1
  | m :: ms, a, b => m.e (a % 2) (b % 2) * bitProd ms (a / 2) (b / 2)

theorem bitProd_eq (ms : List SM) (a b : ℕ) :
    bitProd ms a b = ∏ j : Fin ms.length, ms[j].e (a.testBit j).toNat (b.testBit j).toNat := by
  induction ms generalizing a b with
  | nil => simp [bitProd]
  | cons m ms ih =>
    rw [bitProd, ih]
    simp only [List.length_cons]
    rw [Fin.prod_univ_succ]
    have h0 : ∀ x : ℕ, (x.testBit 0).toNat = x % 2 := by
      intro x
      rw [Nat.testBit_zero]
      rcases Nat.mod_two_eq_zero_or_one x with h | h <;> simp [h]
    congr 1
    · rw [← h0 a, ← h0 b]; rfl
    · refine Finset.prod_congr rfl fun j _ => ?_
      simp [Nat.testBit_succ]

/-- Folding with the new factor on the right (least significant). -/
theorem fold_kron_right {α : Type} (f : α → Option SM) (g : α → SM) (z : List α) (hf : ∀ p ∈ z, f p = some (g p))
    (hd : ∀ p ∈ z, (g p).dim = 2) :
    ∃ op, z.foldlM (fun op p => (f p).map fun m => kron op m) smOne = some op ∧ op.dim = 2 ^ z.length ∧
      ∀ a b, op.e a b = bitProd (z.reverse.map g) a b := by
  induction z using List.reverseRecOn with
  | nil => exact ⟨smOne, rfl, rfl, fun a b => rfl⟩
  | append_singleton z p ih =>
    obtain ⟨op, h1, h2, h3⟩ := ih (fun q hq => hf q (by simp [hq])) (fun q hq => hd q (by simp [hq]))
    refine ⟨kron op (g p), ?_, ?_, ?_⟩
    · rw [List.foldlM_append, h1]
      simp [hf p (by simp)]
    · simp [kron, h2, hd p (by simp), pow_succ]
    · intro a b
      simp only [kron, hd p (by simp), List.reverse_append, List.reverse_cons, List.reverse_nil, List.nil_append,
        List.singleton_append, List.map_cons, bitProd, h3]
      ring

theorem mul_pow_div (a m : ℕ) : a / 2 ^ (m + 1) = a / 2 / 2 ^ m := by
  rw [pow_succ, mul_comm, Nat.div_div_eq_div_mul]

theorem bitProd_append (l : List SM) (m : SM) (a b : ℕ) :
    bitProd (l ++ [m]) a b = bitProd l (a % 2 ^ l.length) (b % 2 ^ l.length) * m.e (a / 2 ^ l.length % 2) (b / 2 ^ l.length % 2) := by
  induction l generalizing a b with
  | nil => simp [bitProd]
  | cons x l ih =>
    simp only [List.cons_append, bitProd, List.length_cons, ih]
    have e1 : ∀ c : ℕ, c % 2 ^ (l.length + 1) % 2 = c % 2 := fun c =>
      Nat.mod_mod_of_dvd _ (dvd_pow_self 2 (by omega))
    have e2 : ∀ c : ℕ, c % 2 ^ (l.length + 1) / 2 = c / 2 % 2 ^ l.length := by
      intro c
      rw [pow_succ, mul_comm, Nat.mod_mul_right_div_self]
    rw [e1, e1, e2, e2, mul_pow_div, mul_pow_div]
    ring

/-- Folding with the new factor on the left (most significant), on indexes below the size. -/
theorem fold_kron_left {α : Type} (f : α → Option SM) (g : α → SM) (z : List α) (hf : ∀ p ∈ z, f p = some (g p))
    (hd : ∀ p ∈ z, (g p).dim = 2) :
    ∃ op, z.foldlM (fun op p => (f p).map fun m => kron m op) smOne = some op ∧ op.dim = 2 ^ z.length ∧
      ∀ a b, a < 2 ^ z.length → b < 2 ^ z.length → op.e a b = bitProd (z.map g) a b := by
  induction z using List.reverseRecOn with
  | nil => exact ⟨smOne, rfl, rfl, fun a b _ _ => rfl⟩
  | append_singleton z p ih =>
    obtain ⟨op, h1, h2, h3⟩ := ih (fun q hq => hf q (by simp [hq])) (fun q hq => hd q (by simp [hq]))
    refine ⟨kron (g p) op, ?_, ?_, ?_⟩
    · rw [List.foldlM_append, h1]
      simp [hf p (by simp)]
    · simp [kron, h2, hd p (by simp), pow_succ, mul_comm]
    · intro a b ha hb
      have hpos : 0 < 2 ^ z.length := Nat.two_pow_pos _
      rw [List.length_append, List.length_singleton, pow_succ] at ha hb
      rw [List.map_append, List.map_singleton, bitProd_append]
      simp only [kron, h2, List.length_map]
      rw [h3 _ _ (Nat.mod_lt _ hpos) (Nat.mod_lt _ hpos)]
      have e : ∀ c < 2 ^ z.length * 2, c / 2 ^ z.length % 2 = c / 2 ^ z.length := by
        intro c hc
        exact Nat.mod_eq_of_lt (Nat.div_lt_of_lt_mul hc)
      rw [e a ha, e b hb]
      ring

/-- Bits of `k`, most significant first. -/
def bitsOf (n k : ℕ) : List Bool := ((List.range n).map fun j => k.testBit j).reverse

theorem bitsOf_succ (n k : ℕ) : bitsOf (n + 1) k = k.testBit n :: bitsOf n k := by
  simp [bitsOf, List.range_succ]

theorem length_outcomes (n : ℕ) : (outcomes n).length = 2 ^ n := by
  induction n with
  | zero => rfl
  | succ n ih => simp [outcomes, ih, pow_succ]; ring

theorem outcomes_getElem (n k : ℕ) (hk : k < (outcomes n).length) : (outcomes n)[k] = bitsOf n k := by
  have hk' : k < 2 ^ n := by rwa [length_outcomes] at hk
  have : (outcomes n)[k]? = some (bitsOf n k) := by
    clear hk
    induction n generalizing k with
    | zero =>
      have : k = 0 := by simpa using hk'
      subst this; rfl
    | succ n ih =>
      have e : outcomes (n + 1) = (outcomes n).map (false :: ·) ++ (outcomes n).map (true :: ·) := by
        simp [outcomes]
      rw [e]
      by_cases h : k < 2 ^ n
      · rw [List.getElem?_append_left (by simpa [length_outcomes] using h), List.getElem?_map, ih k h, bitsOf_succ,
          Nat.testBit_eq_false_of_lt h]
        rfl
      · push Not at h
        rw [List.getElem?_append_right (by simpa [length_outcomes] using h), List.getElem?_map, List.length_map,
          length_outcomes, ih (k - 2 ^ n) (by rw [pow_succ] at hk'; omega), bitsOf_succ]
        have hb : k.testBit n = true := by
          have : k = 2 ^ n + (k - 2 ^ n) := by omega
          rw [this, Nat.testBit_two_pow_add_eq, Nat.testBit_eq_false_of_lt (by rw [pow_succ] at hk'; omega)]; rfl
        rw [hb]
        simp only [Option.map_some, Option.some.injEq, List.cons.injEq, true_and]
        unfold bitsOf
        congr 1
        refine List.map_congr_left fun j hj => ?_
        rw [List.mem_range] at hj
        have : k = 2 ^ n + (k - 2 ^ n) := by omega
        conv_rhs => rw [this, Nat.testBit_two_pow_add_gt hj]
  rw [List.getElem?_eq_getElem hk] at this
  exact Option.some.inj this

theorem bitProd_range (ms : List SM) (a b : ℕ) :
    bitProd ms a b = ∏ j ∈ Finset.range ms.length, (ms.getD j smOne).e (a.testBit j).toNat (b.testBit j).toNat := by
  rw [bitProd_eq, ← Fin.prod_univ_eq_prod_range (fun j => (ms.getD j smOne).e (a.testBit j).toNat (b.testBit j).toNat)]
  refine Finset.prod_congr rfl fun j _ => ?_
  rw [List.getD_eq_getElem _ _ j.2]; rfl

/-- The operators of a label: entry by entry. -/
theorem measurementOps_entries (f : Str → Bool → Option SM) (g : Str → Bool → SM) (l : List Str)
    (hf : ∀ a ∈ l, ∀ o, f a o = some (g a o)) (hd : ∀ a ∈ l, ∀ o, (g a o).dim = 2) :
    ∃ ops, measurementOps f l = some ops ∧ ops.length = 2 ^ l.length ∧
      ∀ k (hk : k < ops.length), ops[k].dim = 2 ^ l.length ∧ ∀ a b, ops[k].e a b =
        ∏ j ∈ Finset.range l.length, (g (l.getD j []) (k.testBit j)).e (a.testBit j).toNat (b.testBit j).toNat := by
  have key : ∀ o : List Bool, o.length = l.length → ∃ op, outcomeOp f l o = some op ∧ op.dim = 2 ^ l.length ∧
      ∀ a b, op.e a b = bitProd ((l.reverse.zip o).reverse.map fun p => g p.1 p.2) a b := by
    intro o ho
    obtain ⟨op, h1, h2, h3⟩ := fold_kron_right (fun p : Str × Bool => f p.1 p.2) (fun p => g p.1 p.2) (l.reverse.zip o)
      (fun p hp => hf _ (by simpa using (List.of_mem_zip hp).1) _) (fun p hp => hd _ (by simpa using (List.of_mem_zip hp).1) _)
    refine ⟨op, h1, ?_, h3⟩
    rw [h2]; simp [ho]
  have hlen : ∀ o ∈ outcomes l.length, o.length = l.length := by
    intro o ho
    obtain ⟨k, hk, rfl⟩ := List.mem_iff_getElem.1 ho
    rw [outcomes_getElem]; simp [bitsOf]
  refine ⟨(outcomes l.length).map fun o => (outcomeOp f l o).getD smOne, ?_, ?_, ?_⟩
  · refine mapM_eq_some _ _ _ fun o ho => ?_
    obtain ⟨op, h1, _⟩ := key o (hlen o ho)
    rw [h1]; rfl
  · rw [List.length_map, length_outcomes]
  · intro k hk
    rw [List.getElem_map]
    have hk' : k < (outcomes l.length).length := by simpa using hk
    obtain ⟨op, h1, h2, h3⟩ := key _ (hlen _ (List.getElem_mem hk'))
    rw [h1, Option.getD_some]
    refine ⟨h2, fun a b => ?_⟩
    rw [h3, bitProd_range]
    have e : ((l.reverse.zip (outcomes l.length)[k]).reverse.map fun p => g p.1 p.2).length = l.length := by
      simp [hlen _ (List.getElem_mem hk')]
    rw [e]
    refine Finset.prod_congr rfl fun j hj => ?_
    rw [Finset.mem_range] at hj
    congr 1
    rw [List.getD_eq_getElem _ _ (by rw [e]; exact hj), List.getElem_map, List.getElem_reverse]
    simp only [List.getElem_zip, List.getElem_reverse, outcomes_getElem, bitsOf, List.getElem_map, List.getElem_range,
      List.length_zip, List.length_reverse, List.length_map, List.length_range, min_self]
    rw [List.getD_eq_getElem _ _ hj]
    have e1 : l.length - 1 - (l.length - 1 - j) = j := by omega
    simp only [e1]

/-- The preparation operator of a label: entry by entry. -/
theorem preparationOp_entries (f : Str → Option SM) (g : Str → SM) (l : List Str)
    (hf : ∀ a ∈ l, f a = some (g a)) (hd : ∀ a ∈ l, (g a).dim = 2) :
    ∃ op, preparationOp f (some l) = some op ∧ op.dim = 2 ^ l.length ∧
      ∀ a b, a < 2 ^ l.length → b < 2 ^ l.length → op.e a b =
        ∏ j ∈ Finset.range l.length, (g (l.getD j [])).e (a.testBit j).toNat (b.testBit j).toNat := by
  obtain ⟨op, h1, h2, h3⟩ := fold_kron_left f g l hf hd
  refine ⟨op, h1, h2, fun a b ha hb => ?_⟩
  rw [h3 a b ha hb, bitProd_range, List.length_map]
  refine Finset.prod_congr rfl fun j hj => ?_
  rw [Finset.mem_range] at hj
  congr 1
  rw [List.getD_eq_getElem _ _ (by simpa using hj), List.getD_eq_getElem _ _ hj, List.getElem_map]

theorem pauliMeas_some (a : Str) (ha : a ∈ xyz) (o : Bool) : pauliMeas a o = some (pauliMeasurementMatrix a o) := by
  unfold pauliMeas checkedMeas
  exact if_pos ha

theorem dim_m2 (a b c d : ℂ) : (m2 a b c d).dim = 2 := rfl

theorem pauliMeasurementMatrix_dim (a : Str) (ha : a ∈ xyz) (o : Bool) : (pauliMeasurementMatrix a o).dim = 2 := by
  simp only [xyz, List.mem_cons, List.not_mem_nil, or_false] at ha
  rcases ha with rfl | rfl | rfl <;> cases o <;> simp [pauliMeasurementMatrix, pauliPreparationMatrix, dim_m2]

theorem pauliMeasurementMatrix_eq (a : Str) (ha : a ∈ xyz) (o x y : Bool) :
    (pauliMeasurementMatrix a o).e x.toNat y.toNat = pauliProjector a o x y := by
  simp only [xyz, List.mem_cons, List.not_mem_nil, or_false] at ha
  rcases ha with rfl | rfl | rfl <;> cases o <;> cases x <;> cases y <;>
    simp [pauliMeasurementMatrix, pauliPreparationMatrix, m2, pauliProjector] <;> ring

end Verif.Tomo
