import Verif.Accred.LemmasSound
set_option linter.unusedSectionVars false
set_option linter.unusedSimpArgs false
/-
The circuits of a run and its acceptance, in terms of the corrected outcomes.
-/
namespace Verif.Accred
open Verif Verif.Quantum Finset

variable {n : ℕ} {κ : Type} [Fintype κ]

/-- The pad of the outcomes of a circuit. -/
def lastPad {l : ℕ} (c : Fin (2 * l + 3) → Basis (Fin n)) : Basis (Fin n) := padFn c (2 * l + 2)

/-- The gates of a padded circuit. -/
def qcirc (L : Layers n n) (S : List (List (Gate n))) (c : Fin (2 * L.two.length + 3) → Basis (Fin n)) : List (Gate n) :=
  ((qotpFromLayers ⟨S, L.two, L.meas, L.gate⟩ (padFn c)).map (·.1)).getD []

theorem qotp_out {m : ℕ} (L : Layers n m) (rng : ℕ → Basis (Fin n)) (o : List (Gate n) × List (Fin n × Fin m) × List Bool)
    (h : qotpFromLayers L rng = some o) : o.2 = (L.meas, ((List.finRange n).map (rng (2 * L.two.length + 2))).reverse) := by
  unfold qotpFromLayers at h
  obtain ⟨a, _, h⟩ := Option.bind_eq_some_iff.1 h
  obtain ⟨b, _, h⟩ := Option.bind_eq_some_iff.1 h
  simp only [Option.pure_def, Option.some.injEq] at h
  subst h
  rfl

theorem qcirc_spec (L : Layers n n) (hg : L.gate ≠ .other) (hT : ∀ t ∈ L.two, ∀ p ∈ t, p.1 ≠ p.2) (S : List (List (Gate n)))
    (hS : S.length = L.two.length + 1) (c : Fin (2 * L.two.length + 3) → Basis (Fin n)) :
    qotpFromLayers ⟨S, L.two, L.meas, L.gate⟩ (padFn c) = some (qcirc L S c, L.meas, ((List.finRange n).map (lastPad c)).reverse) := by
  obtain ⟨circ, xs, zs, h, _⟩ := qotpFromLayers_spec ⟨S, L.two, L.meas, L.gate⟩ hg hT hS (padFn c)
  have h2 := qotp_out _ _ _ h
  have h3 : qcirc L S c = circ := by unfold qcirc; rw [h]; rfl
  rw [h3, h]
  simp only [Prod.mk.injEq] at h2
  rw [h2.2]
  rfl

/-- The one-qubit layers of circuit `k`. -/
def singlesOf (L : Layers n n) (v0 k : ℕ) (b : Bits n L.two.length) : List (List (Gate n)) :=
  if k = v0 then L.single else trapS L.gate L.two b.1 (bitFn b.2)

theorem singlesOf_length (L : Layers n n) (hlen : L.single.length = L.two.length + 1) (v0 k : ℕ) (b : Bits n L.two.length) :
    (singlesOf L v0 k b).length = L.two.length + 1 := by
  unfold singlesOf
  split
  · exact hlen
  · exact trapSingles_length _ _ _ _ _ _

theorem singlesOf_single (L : Layers n n) (h1 : ∀ s ∈ L.single, ∀ a ∈ s, a.isTwo = false) (v0 k : ℕ) (b : Bits n L.two.length) :
    ∀ s ∈ singlesOf L v0 k b, ∀ a ∈ s, a.isTwo = false := by
  unfold singlesOf
  split
  · exact h1
  · exact fun s hs a ha => (trapSingles_cliff L.gate _ _ (hsG_cliff b.1) 0 L.two _ (hsG_cliff b.1) s hs a ha).single

/-- The random bits of the traps. -/
def bitsOf {l : ℕ} (c : Coins n l) : Bits n l := (c.1, c.2.1)

theorem mapM_range {α : Type} (m : ℕ) (f : ℕ → Option α) (g : Fin m → α) (h : ∀ k : Fin m, f k = some (g k)) :
    (List.range m).mapM f = some (List.ofFn g) := by
  have h1 : List.range m = (List.finRange m).map Fin.val := by simp
  rw [h1, List.mapM_map, List.ofFn_eq_map]
  have : (f ∘ Fin.val) = fun k : Fin m => some (g k) := funext h
  rw [this]
  exact List.mapM_pure

theorem gen_eq (L : Layers n n) (hg : L.gate ≠ .other) (hT : ∀ t ∈ L.two, ∀ p ∈ t, p.1 ≠ p.2) (hlen : L.single.length = L.two.length + 1)
    (v v0 : ℕ) (coins : Fin (v + 1) → Coins n L.two.length) :
    generateCircuits L v v0 (drawOf coins) = some (List.ofFn fun k : Fin (v + 1) =>
      (qcirc L (singlesOf L v0 k (bitsOf (coins k))) (coins k).2.2, L.meas, ((List.finRange n).map (lastPad (coins k).2.2)).reverse)) := by
  unfold generateCircuits
  refine mapM_range (v + 1) _ _ fun k => ?_
  have hd : drawOf coins k = (coins k).draw := by unfold drawOf; rw [dif_pos k.2]
  rw [hd, ← qcirc_spec L hg hT _ (singlesOf_length L hlen v0 k _)]
  unfold singlesOf
  split
  · rfl
  · rw [routineTwo_eq _ hg]
    rfl

theorem str_zero (x : Basis (Fin n)) : (∀ c ∈ str x, c = '0') ↔ x = fun _ => false := by
  constructor
  · intro h
    funext q
    have := h (if x q then '1' else '0') (by unfold str; rw [List.mem_reverse]; exact List.mem_map_of_mem (List.mem_finRange q))
    cases hx : x q
    · rfl
    · rw [hx] at this; simp at this
  · rintro rfl c hc
    unfold str at hc
    rw [List.mem_reverse] at hc
    simp at hc
    exact hc.2

theorem recorded_iff (L : Layers n n) (hg : L.gate ≠ .other) (hT : ∀ t ∈ L.two, ∀ p ∈ t, p.1 ≠ p.2) (hlen : L.single.length = L.two.length + 1)
    (hm : Straight L.meas) (v : ℕ) (v0 : Fin (v + 1)) (coins : Fin (v + 1) → Coins n L.two.length) (ys : Fin (v + 1) → Basis (Fin n)) (s : Str) :
    recorded L v v0 (drawOf coins) (List.ofFn ys) = some s ↔
      (∀ k, k ≠ v0 → bxor (ys k) (lastPad (coins k).2.2) = fun _ => false) ∧ str (bxor (ys v0) (lastPad (coins v0).2.2)) = s := by
  unfold recorded
  rw [gen_eq L hg hT hlen]
  obtain ⟨r, hr⟩ : ∃ r : Run, r = ⟨(List.ofFn fun k => str (ys k)).map fun k => [(k, 1)],
    List.ofFn fun k => ((List.finRange n).map (lastPad (coins k).2.2)).reverse, v0⟩ := ⟨_, rfl⟩
  obtain ⟨keys, hkeys⟩ : ∃ keys : List Str, keys = List.ofFn fun k => str (ys k) := ⟨_, rfl⟩
  have hsingle : r.single keys := by rw [hr, hkeys]; exact ⟨rfl, by simp⟩
  have hv : r.vZero < r.postps.length := by rw [hr]; simp only [List.length_ofFn]; exact v0.2
  have hcorr : ∀ k : Fin (v + 1), corrected r keys k = str (bxor (ys k) (lastPad (coins k).2.2)) := by
    intro k
    unfold corrected
    rw [hr, hkeys, ← correctString_str]
    simp [-List.ofFn_succ, Nat.le_of_lt_succ k.2]
  have hclean : TrapsClean r keys ↔ ∀ k, k ≠ v0 → bxor (ys k) (lastPad (coins k).2.2) = fun _ => false := by
    unfold TrapsClean
    constructor
    · intro h k hk
      rw [← str_zero, ← hcorr]
      exact h k (by rw [hr]; simp only [List.length_ofFn]; exact k.2) (by rw [hr]; exact fun h => hk (Fin.ext h))
    · intro h k hk hk0
      rw [hr] at hk hk0
      simp only [List.length_ofFn] at hk
      rw [show k = (⟨k, hk⟩ : Fin (v + 1)).val from rfl, hcorr, str_zero]
      exact h _ fun h => hk0 (congrArg Fin.val h)
  obtain ⟨o, f', h1, h2, h3, h4, _⟩ := C34_accept_iff [] Fitter.new r keys hsingle hv
  have hres : r.results = ((List.ofFn fun k : Fin (v + 1) =>
      (qcirc L (singlesOf L v0 k (bitsOf (coins k))) (coins k).2.2, L.meas, ((List.finRange n).map (lastPad (coins k).2.2)).reverse)).zip
        (List.ofFn ys)).map fun p => [(keyOf p.1.2.1 p.2, 1)] := by
    rw [hr]
    apply List.ext_getElem
    · simp
    · intro i hi hi'
      simp [-List.ofFn_succ, keyOf_straight L.meas hm]
  have hpost : r.postps = (List.ofFn fun k : Fin (v + 1) =>
      (qcirc L (singlesOf L v0 k (bitsOf (coins k))) (coins k).2.2, L.meas, ((List.finRange n).map (lastPad (coins k).2.2)).reverse)).map (·.2.2) := by
    rw [hr]
    apply List.ext_getElem
    · simp
    · intro i hi hi'
      simp [-List.ofFn_succ]
  dsimp only
  rw [← hres, ← hpost, show (v0 : ℕ) = r.vZero by rw [hr], h1, ← hclean]
  by_cases hc : TrapsClean r keys
  · obtain ⟨rfl, _⟩ := h3 hc
    have hv0 : r.vZero = (v0 : ℕ) := by rw [hr]
    simp only [List.nil_append, hv0, h2.2 hc, if_true, Option.some.injEq, hcorr]
    exact ⟨fun h => ⟨hc, h⟩, fun h => h.2⟩
  · obtain ⟨rfl, _⟩ := h4 hc
    simp [hc]

end Verif.Accred
