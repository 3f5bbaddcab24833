import Verif.Accred.LemmasTrap
import Verif.Py.DictLemmas
import Mathlib.Algebra.Order.Field.Rat
import Mathlib.Tactic.Linarith
import Mathlib.Tactic.Positivity
set_option linter.unusedSimpArgs false
/-
C31–C34: the quantum one-time pad and accreditation.
-/
namespace Verif.Accred
open Verif Verif.Quantum

variable {n m : Nat}

/-- The string of a basis outcome, qubit 0 right-most. -/
def str (x : Basis (Fin n)) : Str := ((List.finRange n).map fun q => if x q then '1' else '0').reverse

theorem str_inj {x y : Basis (Fin n)} (h : str x = str y) : x = y := by
  unfold str at h
  rw [List.reverse_inj] at h
  funext q
  have := List.map_inj_left.1 h q (List.mem_finRange q)
  cases hx : x q <;> cases hy : y q <;> simp [hx, hy] at this ⊢

theorem mem_fold (meas : List (Fin n × Fin n)) (hm : ∀ p ∈ meas, p.1 = p.2) (x : Basis (Fin n)) (mem : Fin n → Bool)
    (c : Fin n) : (meas.foldl (fun (mem : Fin n → Bool) p => Function.update mem p.2 (x p.1)) mem) c =
      if (c, c) ∈ meas then x c else mem c := by
  induction meas generalizing mem with
  | nil => simp
  | cons p l ih =>
    rw [List.foldl_cons, ih (fun p hp => hm p (List.mem_cons_of_mem _ hp))]
    have hp := hm p List.mem_cons_self
    obtain ⟨a, b⟩ := p
    simp only at hp
    subst hp
    by_cases h : (c, c) ∈ l
    · simp [h]
    · by_cases hc : c = a
      · subst hc; simp [h]
      · simp [h, hc]

theorem keyOf_straight (meas : List (Fin n × Fin n)) (hm : Straight meas) (x : Basis (Fin n)) :
    keyOf meas x = str x := by
  unfold keyOf str
  congr 1
  apply List.map_congr_left
  intro c _
  rw [mem_fold meas hm.1, if_pos (hm.2 c)]

theorem correctString_str (x xs : Basis (Fin n)) :
    correctString (str x) ((List.finRange n).map xs).reverse = str (bxor x xs) := by
  unfold correctString str
  rw [List.zip, ← List.reverse_zipWith (by simp), List.map_reverse]
  refine congrArg List.reverse ?_
  rw [List.zipWith_map, List.zipWith_self, List.map_map]
  apply List.map_congr_left
  intro q _
  cases hx : x q <;> cases hy : xs q <;> simp [bxor, hx, hy]

/-- Undoing the pad on the strings undoes it on the state. -/
theorem strProb_padded (ψ φ : State (Fin n) ℂ) (zs xs : Basis (Fin n)) (h : EqSign ψ (pauli zs xs φ))
    (meas : List (Fin n × Fin n)) (hm : Straight meas) (s : Str) :
    strProb ψ (fun x => correctString (keyOf meas x) ((List.finRange n).map xs).reverse) s =
      strProb φ (keyOf meas) s := by
  unfold strProb
  have hb : ∀ x : Basis (Fin n), bxor (bxor x xs) xs = x := fun x => by rw [bxor_assoc, bxor_self, bxor_zero]
  refine Finset.sum_bij' (fun x _ => bxor x xs) (fun x _ => bxor x xs) ?_ ?_ ?_ ?_ ?_
  · intro x hx
    simp only [Finset.mem_filter, Finset.mem_univ, true_and, keyOf_straight meas hm, correctString_str] at hx ⊢
    exact hx
  · intro x hx
    simp only [Finset.mem_filter, Finset.mem_univ, true_and, keyOf_straight meas hm, correctString_str, hb] at hx ⊢
    exact hx
  · intro x _; exact hb x
  · intro x _; exact hb x
  · intro x _
    rw [EqSign.prob h]
    unfold prob pauli
    rw [Complex.normSq_mul]
    rcases sgn_pm (K := ℂ) zs x with e | e <;> simp [e]

/-- **C31** For every circuit of one-qubit gates, CX gates and barriers, followed by a measurement
of every qubit `q` into classical bit `q`, for both choices of the two-qubit gate and all random
bits: `QOTP` succeeds, returns the requested number of circuits, and for each of them the strings
corrected with its pad have exactly the probabilities of the strings of the original circuit. -/
theorem C31_pad_undone (g : TwoQ) (hg : g ≠ .other) (body : List (InOp n n)) (hbody : ∀ op ∈ body, op.isBody)
    (meas : List (Fin n × Fin n)) (hm : Straight meas) (num : Nat) (rng : Nat → Nat → Basis (Fin n)) :
    ∃ out, qotp (body ++ meas.map fun p => .measure p.1 p.2) num g rng = some out ∧ out.length = num ∧
      ∀ o ∈ out, ∀ s, strProb (sem o.1 ket0) (fun x => correctString (keyOf o.2.1 x) o.2.2) s =
        strProb (sem (body.flatMap InOp.gates) ket0) (keyOf meas) s := by
  obtain ⟨L, hL, hLg, hLm, hlen, hnd, hsem⟩ := layerParser_spec g hg body hbody meas
  have hT : ∀ t ∈ L.two, ∀ p ∈ t, p.1 ≠ p.2 := by
    intro t ht p hp
    have := hnd t ht
    obtain ⟨a, b, rfl⟩ := List.append_of_mem hp
    rw [regs_append] at this
    have := (List.nodup_append.1 this).2.1
    simp only [regs, List.flatMap_cons, List.cons_append, List.nodup_cons, List.mem_cons, not_or] at this
    exact this.1.1
  choose circ xs zs hq using fun i => qotpFromLayers_spec L (hLg ▸ hg) hT hlen (rng i)
  refine ⟨(List.range num).map fun i => (circ i, L.meas, ((List.finRange n).map (xs i)).reverse), ?_, by simp, ?_⟩
  · unfold qotp
    rw [hL]
    show (List.range num).mapM _ = _
    have : (fun i => qotpFromLayers L (rng i)) =
        fun i => some (circ i, L.meas, ((List.finRange n).map (xs i)).reverse) := funext fun i => (hq i).1
    rw [this]
    exact List.mapM_pure
  · intro o ho s
    obtain ⟨i, _, rfl⟩ := List.mem_map.1 ho
    have h := (hq i).2
    rw [hLg, hsem] at h
    simp only [hLm]
    exact strProb_padded _ _ _ _ h meas hm s

/-- Non-trivial instance: two qubits, a gate, a CX, straight measurements. -/
example : ∃ out, qotp ([.u mX 0, .cx 0 1, .u mX 1] ++ [((0 : Fin 2), (0 : Fin 2)), (1, 1)].map fun p => .measure p.1 p.2)
    3 .cz (fun i k q => i + k + q.val == 3) = some out ∧ out.length = 3 :=
  let h := C31_pad_undone .cz (by decide) [.u mX 0, .cx 0 1, .u mX 1] (by simp [InOp.isBody]) [((0 : Fin 2), (0 : Fin 2)), (1, 1)]
    (by simp [Straight]) 3 (fun i k q => i + k + q.val == 3)
  h.imp fun _ h => ⟨h.1, h.2.1⟩

/-- **C31, finding** The pad is *not* undone when the circuit measures its qubits into other
classical bits: with the two measurements swapped, an empty circuit on two qubits returns `00`
with certainty, its padded version corrected with its pad never does for some pads. -/
theorem C31_finding_permuted_measurement :
    ∃ rng : Nat → Nat → Basis (Fin 2), ∃ o : List (Gate 2) × List (Fin 2 × Fin 2) × List Bool,
      qotp [.measure 0 1, .measure 1 0] 1 .cx rng = some [o] ∧
      strProb (sem ([] : List (Gate 2)) ket0) (keyOf [((0 : Fin 2), (1 : Fin 2)), (1, 0)]) "00".toList = 1 ∧
      strProb (sem o.1 ket0) (fun x => correctString (keyOf o.2.1 x) o.2.2) "00".toList = 0 := by
  refine ⟨fun _ k q => k == 2 && q == 0, _, rfl, ?_, ?_⟩
  · unfold strProb
    rw [show (Finset.univ.filter fun x => keyOf [((0 : Fin 2), (1 : Fin 2)), (1, 0)] x = "00".toList) = {fun _ => false} by
      decide +kernel]
    simp [prob, ket0]
  · unfold strProb
    refine Finset.sum_eq_zero fun x hx => ?_
    have h1 : x = fun q => q == 1 := by
      have := (Finset.mem_filter.1 hx).2
      revert this
      have : ∀ x : Basis (Fin 2), correctString (keyOf [((0 : Fin 2), (1 : Fin 2)), (1, 0)] x) [false, true] = "00".toList →
        x = fun q => q == 1 := by decide +kernel
      exact this x
    subst h1
    simp [padZX, List.finRange_succ, applyGate, app1_mX, pauli, sgn_zero_left, prob, ket0, bxor, Quantum.unit]
    intro h
    exact absurd (congrFun h 0) (by decide)

/-! ### C32 -/

theorem correctString_invol (k : Str) (hk : IsBits k) (p : List Bool) (hlen : k.length = p.length) :
    correctString (correctString k p) p = k := by
  induction k generalizing p with
  | nil => rfl
  | cons c k ih =>
    cases p with
    | nil => simp at hlen
    | cons b p =>
      have h := ih (fun c hc => hk c (List.mem_cons_of_mem _ hc)) p (by simpa using hlen)
      unfold correctString at h ⊢
      simp only [List.zip_cons_cons, List.map_cons, h]
      congr 1
      rcases hk c List.mem_cons_self with rfl | rfl <;> cases b <;> rfl

theorem correctCounts_eq (c : Dict Str Nat) (hwf : Dict.WF c) (p : List Bool)
    (hk : ∀ kv ∈ c, IsBits kv.1 ∧ kv.1.length = p.length) :
    correctCounts c p = c.map fun kv => (correctString kv.1 p, kv.2) := by
  unfold correctCounts
  have := Dict.foldl_set_fresh c (fun kv => correctString kv.1 p) (fun kv => kv.2) [] (by
    simp only [List.map_nil, List.nil_append]
    unfold Dict.WF at hwf
    refine List.Nodup.map_on ?_ (List.Nodup.of_map _ hwf)
    intro a ha b hb hab
    have h := congrArg (fun s => correctString s p) hab
    simp only [correctString_invol _ (hk a ha).1 p (hk a ha).2, correctString_invol _ (hk b hb).1 p (hk b hb).2] at h
    exact List.inj_on_of_nodup_map hwf ha hb h)
  simpa using this

/-- **C32** For counts whose keys have the width of the pad, `QOTPCorrectCounts` keeps the number of
entries and the total number of shots, moves the count of each key to the key with the bits of the
pad flipped, and applying it twice gives back the counts. -/
theorem C32_involution (c : Dict Str Nat) (hwf : Dict.WF c) (p : List Bool)
    (hk : ∀ kv ∈ c, IsBits kv.1 ∧ kv.1.length = p.length) :
    correctCounts (correctCounts c p) p = c ∧ (correctCounts c p).length = c.length ∧
    ((correctCounts c p).map (·.2)).sum = (c.map (·.2)).sum ∧
    (∀ k v, IsBits k → k.length = p.length → ((correctCounts c p).get? (correctString k p) = some v ↔ c.get? k = some v)) ∧
    ∀ (k : Str) (i : Nat) (ch : Char) (b : Bool), k[i]? = some ch → p[i]? = some b →
      (correctString k p)[i]? = some (if b then (if ch = '1' then '0' else '1') else (if ch = '1' then '1' else '0')) := by
  have e := correctCounts_eq c hwf p hk
  have hbits : ∀ (k : Str), IsBits (correctString k p) := by
    intro k ch hch
    simp only [correctString, List.mem_map] at hch
    obtain ⟨x, _, rfl⟩ := hch
    split <;> simp
  have hl : ∀ k : Str, k.length = p.length → (correctString k p).length = p.length := by
    intro k h; simp [correctString, h]
  have hwf' : Dict.WF (correctCounts c p) := by
    rw [e]
    unfold Dict.WF at hwf ⊢
    rw [List.map_map]
    refine List.Nodup.map_on ?_ (List.Nodup.of_map _ hwf)
    intro a ha b hb hab
    have h := congrArg (fun s => correctString s p) hab
    simp only [Function.comp, correctString_invol _ (hk a ha).1 p (hk a ha).2, correctString_invol _ (hk b hb).1 p (hk b hb).2] at h
    exact List.inj_on_of_nodup_map hwf ha hb h
  refine ⟨?_, by rw [e]; simp, by rw [e, List.map_map]; rfl, ?_, ?_⟩
  · rw [correctCounts_eq (correctCounts c p) hwf' p, e, List.map_map]
    · conv_rhs => rw [← List.map_id c]
      apply List.map_congr_left
      intro kv hkv
      simp [correctString_invol _ (hk kv hkv).1 p (hk kv hkv).2]
    · intro kv hkv
      rw [e] at hkv
      obtain ⟨kv', h', rfl⟩ := List.mem_map.1 hkv
      exact ⟨hbits _, hl _ (hk kv' h').2⟩
  · intro k v hkb hkl
    constructor
    · intro h
      have := Dict.get?_mem _ _ _ h
      rw [e] at this
      obtain ⟨kv', h', heq⟩ := List.mem_map.1 this
      simp only [Prod.mk.injEq] at heq
      have hh := congrArg (fun s => correctString s p) heq.1
      simp only [correctString_invol _ (hk kv' h').1 p (hk kv' h').2, correctString_invol _ hkb p hkl] at hh
      apply Dict.get?_of_mem c hwf
      rw [← hh, ← heq.2]; exact h'
    · intro h
      apply Dict.get?_of_mem _ hwf'
      rw [e]
      exact List.mem_map.2 ⟨(k, v), Dict.get?_mem _ _ _ h, rfl⟩
  · intro k i ch b hki hpi
    have hz : (List.zip k p)[i]? = some (ch, b) := List.getElem?_zip_eq_some.2 ⟨hki, hpi⟩
    simp only [correctString, List.getElem?_map, hz, Option.map_some]
    cases b <;> by_cases hc : ch = '1' <;> simp [hc]

example : correctCounts [("01".toList, 3), ("11".toList, 5)] [true, false] = [("11".toList, 3), ("01".toList, 5)] := by
  decide +kernel

/-! ### C33 -/

theorem layers_regs_ne {L : Layers n m} (hnd : ∀ t ∈ L.two, (regs t).Nodup) : ∀ t ∈ L.two, ∀ p ∈ t, p.1 ≠ p.2 := by
  intro t ht p hp
  have := hnd t ht
  obtain ⟨a, b, rfl⟩ := List.append_of_mem hp
  rw [regs_append] at this
  have := (List.nodup_append.1 this).2.1
  simp only [regs, List.flatMap_cons, List.cons_append, List.nodup_cons, List.mem_cons, not_or] at this
  exact this.1.1

/-- **C33** For every target circuit as in C31, every number of traps, position of the target and
all random choices, `generate_circuits` returns `numTrap + 1` circuits; each circuit other than the
target, corrected with its own pad, returns the all-zero string with probability 1 (and any other
string with probability 0), and circuit `vZero` has the statistics of the target. -/
theorem C33_traps_zero (g : TwoQ) (hg : g ≠ .other) (body : List (InOp n n)) (hbody : ∀ op ∈ body, op.isBody)
    (meas : List (Fin n × Fin n)) (hm : Straight meas) (numTrap vZero : Nat) (draw : Nat → Draw n) :
    ∃ L out, layerParser g (body ++ meas.map fun p => .measure p.1 p.2) = some L ∧
      generateCircuits L numTrap vZero draw = some out ∧ out.length = numTrap + 1 ∧
      ∀ k o, out[k]? = some o → ∀ s, strProb (sem o.1 ket0) (fun x => correctString (keyOf o.2.1 x) o.2.2) s =
        if k = vZero then strProb (sem (body.flatMap InOp.gates) ket0) (keyOf meas) s
        else if s = List.replicate n '0' then 1 else 0 := by
  obtain ⟨L, hL, hLg, hLm, hlen, hnd, hsem⟩ := layerParser_spec g hg body hbody meas
  have hT := layers_regs_ne hnd
  have hg' : L.gate ≠ .other := hLg ▸ hg
  have hk : ∀ k, ∃ o, (if k = vZero then qotpFromLayers L (draw k).pad
      else do
        let single ← routineTwo L (draw k).basis (draw k).rnd
        qotpFromLayers { L with single := single } (draw k).pad) = some o ∧
      ∀ s, strProb (sem o.1 ket0) (fun x => correctString (keyOf o.2.1 x) o.2.2) s =
        if k = vZero then strProb (sem (body.flatMap InOp.gates) ket0) (keyOf meas) s
        else if s = List.replicate n '0' then 1 else 0 := by
    intro k
    by_cases h : k = vZero
    · obtain ⟨circ, xs, zs, hq, he⟩ := qotpFromLayers_spec L hg' hT hlen (draw k).pad
      refine ⟨_, by rw [if_pos h]; exact hq, fun s => ?_⟩
      rw [if_pos h]
      rw [hLg, hsem] at he
      simp only [hLm]
      exact strProb_padded _ _ _ _ he meas hm s
    · obtain ⟨S, hS, hSlen, hSsem⟩ := routineTwo_spec L hg' hnd (draw k).basis (draw k).rnd
      obtain ⟨circ, xs, zs, hq, he⟩ := qotpFromLayers_spec { L with single := S } hg' hT hSlen (draw k).pad
      refine ⟨_, by rw [if_neg h, hS]; exact hq, fun s => ?_⟩
      rw [if_neg h]
      simp only [hSsem] at he
      simp only [hLm]
      rw [strProb_padded _ _ _ _ he meas hm s]
      have hz : str (fun _ : Fin n => false) = List.replicate n '0' := by
        simp [str]
      unfold strProb
      simp only [keyOf_straight meas hm]
      split
      · next hs =>
        rw [Finset.sum_eq_single (fun _ : Fin n => false)]
        · simp [prob, ket0]
        · intro x _ hx; simp [prob, ket0, hx]
        · intro hx; simp [hs, hz] at hx
      · next hs =>
        refine Finset.sum_eq_zero fun x hx => ?_
        have : x ≠ fun _ => false := by
          rintro rfl
          rw [Finset.mem_filter, hz] at hx
          exact hs hx.2.symm
        simp [prob, ket0, this]
  choose o ho hs using hk
  refine ⟨L, (List.range (numTrap + 1)).map o, hL, ?_, by simp, ?_⟩
  · unfold generateCircuits
    rw [funext ho]
    exact List.mapM_pure
  · intro k o' hk' s
    rw [List.getElem?_map] at hk'
    obtain ⟨i, hi, rfl⟩ := Option.map_eq_some_iff.1 hk'
    obtain ⟨hlt, hi⟩ := List.getElem?_eq_some_iff.1 hi
    rw [List.getElem_range] at hi
    subst hi
    exact hs k s

example : Straight [((1 : Fin 2), (1 : Fin 2)), (0, 0)] ∧ (InOp.cx 0 1 : InOp 2 2).isBody := by
  simp [Straight, InOp.isBody]

end Verif.Accred
