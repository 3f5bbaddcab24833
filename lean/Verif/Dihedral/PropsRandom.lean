import Verif.Dihedral.PropsDecomp
import Mathlib.Data.Fintype.BigOperators
import Mathlib.Data.Fintype.Pi
import Mathlib.Algebra.BigOperators.Fin
import Mathlib.Algebra.Order.BigOperators.Group.Finset
import Mathlib.Analysis.SpecialFunctions.Pow.Real
/-
C75, continued: the elements `random_cnotdihedral` returns are uniformly distributed.
-/
set_option linter.unusedSimpArgs false
set_option linter.unusedVariables false
namespace Verif.Dihedral

/-- What `rng.randint` may return during one call of `random_cnotdihedral` on `n` qubits that makes at most `K` rounds of its loop:
`n` numbers below 8, `n(n-1)/2` below 4, `n(n-1)(n-2)/6` below 2, `K` candidates for the matrix, the shift.  `randint` makes all of
them equally likely. -/
abbrev Draws (n K : ℕ) := (Fin n → Fin 8) × (Fin (nc2 n) → Fin 4) × (Fin (nc3 n) → Fin 2) × (Fin K → Fin n → Fin n → Fin 2) × (Fin n → Fin 2)

/-- The element returned for these draws; `none` if all `K` candidates are rejected. -/
def drawn {n K : ℕ} (d : Draws n K) : Option (Elem n) :=
  randomElem n (List.ofFn d.1) (List.ofFn d.2.1) (List.ofFn d.2.2.1) (List.ofFn d.2.2.2.1) d.2.2.2.2

theorem ofFn_of_length {α : Type} {l : List α} {n : ℕ} (h : l.length = n) : ∃ f : Fin n → α, List.ofFn f = l := by
  subst h; exact ⟨l.get, List.ofFn_get l⟩

theorem map_ofFn_inj {α β : Type} {f : α → β} (hf : Function.Injective f) {n : ℕ} {a b : Fin n → α} (h : (List.ofFn a).map f = (List.ofFn b).map f) : a = b :=
  List.ofFn_injective (List.map_injective_iff.2 hf h)

/-- The acceptance test of the loop. -/
def odd {n : ℕ} (m : Fin n → Fin n → Fin 2) : Bool := detOdd fun i j => ((m i j : ℕ) : ℤ)

theorem drawn_iff {n K : ℕ} {e : Elem n} {a1 : Fin n → Fin 8} {a2 : Fin (nc2 n) → Fin 4} {a3 : Fin (nc3 n) → Fin 2} {m : Fin n → Fin n → Fin 2}
    {s : Fin n → Fin 2} (he : randomElem n (List.ofFn a1) (List.ofFn a2) (List.ofFn a3) [m] s = some e) (d : Draws n K) :
    drawn d = some e ↔ d.1 = a1 ∧ d.2.1 = a2 ∧ d.2.2.1 = a3 ∧ (List.ofFn d.2.2.2.1).find? odd = some m ∧ d.2.2.2.2 = s := by
  unfold randomElem at he
  obtain ⟨m', hm', he'⟩ := Option.bind_eq_some_iff.1 he
  have hmm : m' = m := by simpa using List.mem_of_find?_eq_some hm'
  subst hmm
  clear he
  have i2 : Function.Injective fun a : Fin 2 => ((a : ℕ) : ℤ) := by decide
  constructor
  · intro h
    unfold drawn randomElem at h
    obtain ⟨l, hl, h⟩ := Option.bind_eq_some_iff.1 h
    rw [← he'] at h
    have h := Option.some.inj h
    injection h with h1 h2 h3
    injection h1 with _ h4 h5 h6
    have hlm : l = m' := by
      funext i j
      exact i2 (congrFun (congrFun h2 i) j)
    subst hlm
    refine ⟨map_ofFn_inj (by decide) h4, map_ofFn_inj (by decide) h5, map_ofFn_inj (by decide) h6, hl, ?_⟩
    funext i
    exact i2 (congrFun h3 i)
  · rintro ⟨h1, h2, h3, h4, h5⟩
    unfold drawn randomElem
    rw [h1, h2, h3, h5]
    show ((List.ofFn d.2.2.2.1).find? odd).bind _ = _
    rw [h4]
    exact he'

theorem find_map {α : Type} {p : α → Bool} (σ : α → α) (hσ : ∀ a, p (σ a) = p a) : ∀ l : List α, (l.map σ).find? p = (l.find? p).map σ
  | [] => rfl
  | a :: l => by
    rw [List.map_cons, List.find?_cons, List.find?_cons, hσ]
    cases p a
    · exact find_map σ hσ l
    · rfl

open Classical in
theorem card_eq {n K : ℕ} {e e' : Elem n} (he : isCnotDihedral e = true) (he' : isCnotDihedral e' = true) :
    (Finset.univ.filter fun d : Draws n K => drawn d = some e).card = (Finset.univ.filter fun d : Draws n K => drawn d = some e').card := by
  have key : ∀ e : Elem n, isCnotDihedral e = true → ∃ (a1 : Fin n → Fin 8) (a2 : Fin (nc2 n) → Fin 4) (a3 : Fin (nc3 n) → Fin 2)
      (m : Fin n → Fin n → Fin 2) (s : Fin n → Fin 2), randomElem n (List.ofFn a1) (List.ofFn a2) (List.ofFn a3) [m] s = some e ∧ odd m = true := by
    intro e he
    obtain ⟨w1, w2, w3, m, s, h1, h2, h3, h4⟩ := C75_all e he
    obtain ⟨a1, rfl⟩ := ofFn_of_length h1
    obtain ⟨a2, rfl⟩ := ofFn_of_length h2
    obtain ⟨a3, rfl⟩ := ofFn_of_length h3
    refine ⟨a1, a2, a3, m, s, h4, ?_⟩
    unfold randomElem at h4
    obtain ⟨m', hm', -⟩ := Option.bind_eq_some_iff.1 h4
    have hmm : m' = m := by simpa using List.mem_of_find?_eq_some hm'
    subst hmm
    exact List.find?_some hm'
  obtain ⟨a1, a2, a3, m, s, h, ho⟩ := key e he
  obtain ⟨b1, b2, b3, m', s', h', ho'⟩ := key e' he'
  have hσ : ∀ a, odd (Equiv.swap m m' a) = odd a := by
    intro a
    rcases eq_or_ne a m with rfl | h1
    · rw [Equiv.swap_apply_left, ho, ho']
    rcases eq_or_ne a m' with rfl | h2
    · rw [Equiv.swap_apply_right, ho, ho']
    rw [Equiv.swap_apply_of_ne_of_ne h1 h2]
  have hmap : ∀ ms : Fin K → Fin n → Fin n → Fin 2, (List.ofFn fun k => Equiv.swap m m' (ms k)).find? odd = ((List.ofFn ms).find? odd).map (Equiv.swap m m') := by
    intro ms
    rw [← find_map _ hσ, List.map_ofFn]; rfl
  refine Finset.card_nbij' (fun d => (b1, b2, b3, fun k => Equiv.swap m m' (d.2.2.2.1 k), s')) (fun d => (a1, a2, a3, fun k => Equiv.swap m m' (d.2.2.2.1 k), s)) ?_ ?_ ?_ ?_
  · intro d hd
    obtain ⟨-, -, -, h4, -⟩ := (drawn_iff h d).1 (Finset.mem_filter.1 hd).2
    refine Finset.mem_filter.2 ⟨Finset.mem_univ _, (drawn_iff h' _).2 ⟨rfl, rfl, rfl, ?_, rfl⟩⟩
    show (List.ofFn fun k => Equiv.swap m m' (d.2.2.2.1 k)).find? odd = _
    rw [hmap, h4, Option.map_some, Equiv.swap_apply_left]
  · intro d hd
    obtain ⟨-, -, -, h4, -⟩ := (drawn_iff h' d).1 (Finset.mem_filter.1 hd).2
    refine Finset.mem_filter.2 ⟨Finset.mem_univ _, (drawn_iff h _).2 ⟨rfl, rfl, rfl, ?_, rfl⟩⟩
    show (List.ofFn fun k => Equiv.swap m m' (d.2.2.2.1 k)).find? odd = _
    rw [hmap, h4, Option.map_some, Equiv.swap_apply_right]
  · intro d hd
    obtain ⟨h1, h2, h3, -, h5⟩ := (drawn_iff h d).1 (Finset.mem_filter.1 hd).2
    simp only [Equiv.swap_apply_self]
    rw [← h1, ← h2, ← h3, ← h5]
  · intro d hd
    obtain ⟨h1, h2, h3, -, h5⟩ := (drawn_iff h' d).1 (Finset.mem_filter.1 hd).2
    simp only [Equiv.swap_apply_self]
    rw [← h1, ← h2, ← h3, ← h5]

open Classical in
/-- C75: the draws are uniform on the group.  However many rounds the loop may make, every valid element is returned for the same number
of outcomes of the draws: the outcomes that return anything, divided by the number of elements. -/
theorem C75_uniform {n K : ℕ} {els : Finset (Elem n)} (hels : ∀ e, e ∈ els ↔ isCnotDihedral e = true) {e : Elem n} (he : isCnotDihedral e = true) :
    els.card * (Finset.univ.filter fun d : Draws n K => drawn d = some e).card = (Finset.univ.filter fun d : Draws n K => drawn d ≠ none).card := by
  have hval : ∀ d : Draws n K, ∀ e, drawn d = some e → e ∈ els := by
    intro d e h
    exact (hels e).2 (C75_valid _ _ _ (by simp) (by simp) (by simp) _ _ e h)
  rw [Finset.card_eq_sum_card_fiberwise (s := Finset.univ.filter fun d : Draws n K => drawn d ≠ none) (f := fun d : Draws n K => drawn d)
    (t := els.map ⟨some, Option.some_injective _⟩)]
  · rw [Finset.sum_map]
    rw [Finset.sum_congr rfl (g := fun _ => (Finset.univ.filter fun d : Draws n K => drawn d = some e).card)]
    · rw [Finset.sum_const, smul_eq_mul]
    · intro e' he'
      rw [card_eq he ((hels e').1 he'), Finset.filter_filter]
      congr 1
      ext d
      simp only [Finset.mem_filter, Finset.mem_univ, true_and, Function.Embedding.coeFn_mk]
      exact ⟨fun h => h.2, fun h => ⟨by rw [h]; simp, h⟩⟩
  · intro d hd
    obtain ⟨e', h⟩ := Option.ne_none_iff_exists'.1 (Finset.mem_filter.1 hd).2
    exact Finset.mem_coe.2 (Finset.mem_map.2 ⟨e', hval d e' h, h.symm⟩)

open Classical in
/-- C75: the loop ends with probability 1.  The share of the outcomes for which all of `K` candidates are rejected is `r^K` with `r < 1`. -/
theorem C75_ends (n : ℕ) : ∃ r : ℝ, 0 ≤ r ∧ r < 1 ∧ ∀ K : ℕ,
    ((Finset.univ.filter fun d : Draws n K => drawn d = none).card : ℝ) = r ^ K * Fintype.card (Draws n K) := by
  obtain ⟨c, hc⟩ : ∃ c : ℝ, c = ((Fintype.card (Fin n → Fin n → Fin 2) : ℕ) : ℝ) := ⟨_, rfl⟩
  obtain ⟨b, hb⟩ : ∃ b : ℝ, b = ((Fintype.card {m : Fin n → Fin n → Fin 2 // odd m = false} : ℕ) : ℝ) := ⟨_, rfl⟩
  have hc0 : 0 < c := by rw [hc]; exact_mod_cast Fintype.card_pos
  refine ⟨b / c, div_nonneg (hb ▸ Nat.cast_nonneg _) hc0.le, ?_, fun K => ?_⟩
  · rw [div_lt_one hc0, hb, hc]
    norm_cast
    refine Fintype.card_subtype_lt (x := fun i j => if i = j then 1 else 0) ?_
    have : odd (fun i j : Fin n => if i = j then (1 : Fin 2) else 0) = true := by
      have h1 : (fun i j : Fin n => (((if i = j then (1 : Fin 2) else 0 : Fin 2) : ℕ) : ℤ)) = (Elem.one n).linear := by
        funext i j
        show _ = if i = j then (1 : ℤ) else 0
        split_ifs <;> rfl
      unfold odd
      rw [h1]
      have h2 : Matrix.of (Elem.one n).linear = 1 := by
        ext i j
        rw [Matrix.one_apply]; rfl
      unfold detOdd
      rw [h2, Matrix.det_one]
      rfl
    rw [this]; simp
  · have h1 : (Finset.univ.filter fun d : Draws n K => drawn d = none).card =
        Fintype.card ((Fin n → Fin 8) × (Fin (nc2 n) → Fin 4) × (Fin (nc3 n) → Fin 2) × (Fin K → {m : Fin n → Fin n → Fin 2 // odd m = false}) × (Fin n → Fin 2)) := by
      have hn : ∀ d : Draws n K, drawn d = none ↔ ∀ k, odd (d.2.2.2.1 k) = false := by
        intro d
        unfold drawn randomElem
        show ((List.ofFn d.2.2.2.1).find? odd).bind _ = none ↔ _
        rw [Option.bind_eq_none_iff]
        constructor
        · intro h
          have : (List.ofFn d.2.2.2.1).find? odd = none := by
            cases hf : (List.ofFn d.2.2.2.1).find? odd with
            | none => rfl
            | some m => exact absurd (h m hf) (by simp)
          intro k
          simpa using List.find?_eq_none.1 this (d.2.2.2.1 k) (by simp [List.mem_ofFn])
        · intro h m hm
          have h1 := List.find?_some hm
          obtain ⟨k, rfl⟩ := List.mem_ofFn.1 (List.mem_of_find?_eq_some hm)
          rw [h k] at h1
          simp at h1
      rw [← Fintype.card_subtype]
      refine Fintype.card_congr ⟨fun d => (d.1.1, d.1.2.1, d.1.2.2.1, fun k => ⟨d.1.2.2.2.1 k, (hn d.1).1 d.2 k⟩, d.1.2.2.2.2),
        fun t => ⟨(t.1, t.2.1, t.2.2.1, fun k => (t.2.2.2.1 k).1, t.2.2.2.2), (hn _).2 fun k => (t.2.2.2.1 k).2⟩, fun d => rfl, fun t => rfl⟩
    rw [h1]
    simp only [Fintype.card_prod]
    have h2 : ∀ (α : Type) [Fintype α], Fintype.card (Fin K → α) = Fintype.card α ^ K := fun α _ => by simp
    rw [h2 {m : Fin n → Fin n → Fin 2 // odd m = false}, h2 (Fin n → Fin n → Fin 2)]
    push_cast
    rw [← hb, ← hc, div_pow]
    field_simp

open Classical in
/-- C75: the mean of any quantity over the outcomes that return an element is its mean over the group. -/
theorem C75_mean {n K : ℕ} {els : Finset (Elem n)} (hels : ∀ e, e ∈ els ↔ isCnotDihedral e = true) (hK : 0 < K) (F : Elem n → ℝ) :
    (∑ d : Draws n K, (drawn d).elim 0 F) / ((Finset.univ.filter fun d : Draws n K => drawn d ≠ none).card : ℝ) = (∑ e ∈ els, F e) / els.card := by
  have hval : ∀ d : Draws n K, ∀ e, drawn d = some e → e ∈ els := by
    intro d e h
    exact (hels e).2 (C75_valid _ _ _ (by simp) (by simp) (by simp) _ _ e h)
  have h1 : ∀ d : Draws n K, (drawn d).elim 0 F = ∑ e ∈ els, if drawn d = some e then F e else 0 := by
    intro d
    cases hd : drawn d with
    | none => simp
    | some e =>
      simp only [Option.elim_some, Option.some.injEq]
      rw [Finset.sum_ite_eq els e F, if_pos (hval d e hd)]
  have h2 : ∑ d : Draws n K, (drawn d).elim 0 F = ∑ e ∈ els, ((Finset.univ.filter fun d : Draws n K => drawn d = some e).card : ℝ) * F e := by
    rw [Finset.sum_congr rfl fun d _ => h1 d, Finset.sum_comm]
    refine Finset.sum_congr rfl fun e _ => ?_
    rw [← Finset.sum_filter, Finset.sum_const, nsmul_eq_mul]
  obtain ⟨c, hc⟩ : ∃ c : ℕ, ∀ e ∈ els, (Finset.univ.filter fun d : Draws n K => drawn d = some e).card = c := by
    by_cases hne : els.Nonempty
    · obtain ⟨e, he⟩ := hne
      exact ⟨_, fun e' he' => card_eq ((hels e').1 he') ((hels e).1 he)⟩
    · exact ⟨0, fun e he => absurd ⟨e, he⟩ hne⟩
  have hone : isCnotDihedral (Elem.one n) = true := valid_one n
  have hN := C75_uniform (K := K) hels hone
  rw [hc _ ((hels _).2 hone)] at hN
  have hc0 : c ≠ 0 := by
    rw [← hc _ ((hels _).2 hone)]
    refine Finset.card_ne_zero.2 ?_
    obtain ⟨w1, w2, w3, m, s, l1, l2, l3, h4⟩ := C75_all _ hone
    obtain ⟨a1, rfl⟩ := ofFn_of_length l1
    obtain ⟨a2, rfl⟩ := ofFn_of_length l2
    obtain ⟨a3, rfl⟩ := ofFn_of_length l3
    refine ⟨(a1, a2, a3, fun _ => m, s), Finset.mem_filter.2 ⟨Finset.mem_univ _, (drawn_iff h4 _).2 ⟨rfl, rfl, rfl, ?_, rfl⟩⟩⟩
    unfold randomElem at h4
    obtain ⟨m', hm', -⟩ := Option.bind_eq_some_iff.1 h4
    have hmm : m' = m := by simpa using List.mem_of_find?_eq_some hm'
    subst hmm
    obtain ⟨K, rfl⟩ : ∃ k, K = k + 1 := ⟨K - 1, by omega⟩
    rw [List.ofFn_succ, List.find?_cons_of_pos (p := odd) (List.find?_some hm' : odd m' = true)]
  have hcard : (els.card : ℝ) ≠ 0 := by
    exact_mod_cast Finset.card_ne_zero.2 ⟨_, (hels _).2 hone⟩
  rw [h2, Finset.sum_congr rfl fun e he => by rw [hc e he], ← Finset.mul_sum, ← hN]
  push_cast
  have : (c : ℝ) ≠ 0 := by exact_mod_cast hc0
  field_simp

/-- Two qubits: one loop round rejects 10 of 16 matrices. -/
example : (Finset.univ.filter fun m : Fin 2 → Fin 2 → Fin 2 => odd m = true).card = 6 := by decide +kernel

end Verif.Dihedral
