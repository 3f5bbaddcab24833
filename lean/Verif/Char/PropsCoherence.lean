import Verif.Char.Equator
set_option linter.unusedSimpArgs false
set_option linter.unusedVariables false
/-
C68: the coherence circuits end where they should.  C92: Ramsey fringes.  C93: ZZ.
-/
namespace Verif.Char
open Verif Verif.Quantum Complex
open Verif.Ent (mU1 mU2 mv dlt)

/-- A device without errors except that during every identity gate qubit `q` picks up the phase `δ q` in state 1
(its frequency differs from the drive frequency). -/
noncomputable def detuned (δ : ℕ → ℝ) : Device := ⟨fun q _ => δ q, mU2, mX⟩

theorem forall₂_of_zipIdx {α β γ : Type} (l : List α) (f : α × ℕ → β) (g : α → γ) (R : β → γ → Prop)
    (h : ∀ a ∈ l, ∀ i, R (f (a, i)) (g a)) : List.Forall₂ R (l.zipIdx.map f) (l.map g) := by
  have key : ∀ (l : List α) (k : ℕ), (∀ a ∈ l, ∀ i, R (f (a, i)) (g a)) → List.Forall₂ R ((l.zipIdx k).map f) (l.map g) := by
    intro l
    induction l with
    | nil => intro k _; exact .nil
    | cons a l ih =>
      intro k h
      rw [List.zipIdx_cons, List.map_cons, List.map_cons]
      exact .cons (h a (by simp) k) (ih (k + 1) fun b hb => h b (by simp [hb]))
  exact key l 0 h

theorem zip_map_self {α β : Type} (l : List α) (f : α → β) : l.zip (l.map f) = l.map fun a => (a, f a) := by
  induction l with
  | nil => rfl
  | cons a l ih => simp [ih]

theorem zipIdx_map_fst {α β : Type} (l : List α) (f : α → β) : (l.map f).zipIdx = l.zipIdx.map fun p => (f p.1, p.2) := by
  rw [List.zipIdx_map]
  rfl

theorem dlt_norm (b : Bool) : normSq (dlt b false) + normSq (dlt b true) = 1 := by cases b <;> simp [dlt]

/-! ### T1 -/

/-- **C68** (T1) Without decay every `t1_circuits` circuit ends with each qubit of the list in state 1, the state
`T1Fitter` counts, whatever the frequency offsets of the qubits. -/
theorem C68_t1 (num : List ℕ) (gateTime : ℝ) (qubits : List ℕ) (hne : qubits ≠ []) (hnd : qubits.Nodup) (δ : ℕ → ℝ) :
    ∃ circs xdata, t1Circuits num gateTime qubits = some (circs, xdata) ∧
      List.Forall₂ (fun C _ => Reads (detuned δ) C qubits fun _ => 1) circs xdata := by
  refine ⟨_, _, by unfold t1Circuits; rw [regSize_some hne]; rfl, ?_⟩
  refine forall₂_of_zipIdx num _ _ _ ?_
  intro len _ i
  have hlt := regSize_lt (regSize_some hne)
  refine reads_of_run (detuned δ) _ qubits _ [Instr.barrier _] rfl (by simp) rfl hlt ?_ ?_ _ ?_ ?_
  · exact fun q => if q ∈ qubits then blockVec (detuned δ) (δ q) (t1Block q len) (dlt false) else dlt false
  · rw [ket0_tens]
    refine run_blocks (detuned δ) [] δ qubits hnd hlt (by simp) (by simp) _ ?_ _ (fun q _ x _ => rfl)
    intro q _ g hg
    unfold t1Block at hg
    rcases List.mem_cons.1 hg with rfl | hg
    · rfl
    · exact onQ_padId [] q len g hg
  · intro q hq
    simp only [if_pos hq, t1Block, blockVec_cons, blockVec_padId, matOf]
    have h0 : mv mX (dlt false) = dlt true := by
      funext b; cases b <;> simp [mv, mX, dlt]
    rw [h0]
    constructor
    · simp only [mv, mU1, dlt]
      simp [-ofReal_mul, ← ofReal_natCast, ← ofReal_mul, normSq_exp]
    · simp [mv, mU1, dlt]
  · intro q _ hq
    simp only [if_neg hq]
    exact dlt_norm false

example : ([2, 0] : List ℕ) ≠ [] ∧ ([2, 0] : List ℕ).Nodup := by decide

/-! ### T2 -/

/-- The number of Y pulses among `n` echoes. -/
def numY (alt : Bool) (n : ℕ) : ℕ := if alt then (n + 1) / 2 else n

theorem cos_eqv {α : ℝ} {v : Bool → ℂ} (h : Eqv α v) (β : ℝ) (hb : exp (α * I) = exp (β * I)) : Eqv β v := by
  obtain ⟨c, hc, rfl⟩ := h
  exact ⟨c, hc, by simp only [hb]⟩

theorem exp_pi_cases (k : ℕ) : exp (((k : ℝ) * Real.pi : ℝ) * I) = (-1) ^ k := by
  push_cast
  rw [mul_assoc, exp_nat_mul, exp_pi_mul_I]

/-- The echo sequence brings the equator state to phase `numY · π`, half a delay before the end. -/
theorem echo_state (D : Device) (hD : D.u2 = mU2) (d : ℝ) (q len m : ℕ) (alt : Bool) :
    ∃ v, blockVec D d (Instr.u2 0 0 q :: padId q len ++ [Instr.y q] ++ echoes q len alt m) (dlt false) = v ∧
      Eqv ((numY alt (m + 1) : ℝ) * Real.pi) (mv (mU1 (len * d)) v) := by
  induction m with
  | zero =>
    refine ⟨_, rfl, ?_⟩
    simp only [echoes, List.range_zero, List.flatMap_nil, List.append_nil, List.cons_append, blockVec_cons, blockVec_append,
      blockVec_padId, matOf, blockVec_nil, hD]
    have h := ((eqv_y90.u1 (len * d)).y).u1 (len * d)
    have : Real.pi - (0 + len * d) + len * d = (numY alt (0 + 1) : ℝ) * Real.pi := by
      cases alt <;> simp [numY]
    rw [this] at h
    exact h
  | succ m ih =>
    obtain ⟨v, hv, he⟩ := ih
    refine ⟨_, rfl, ?_⟩
    have e : echoes q len alt (m + 1) = (echoes q len alt m ++ (padId q (2 * len) ++ [if alt && (m % 2 == 0) then Instr.x q else Instr.y q]) : List (Instr ℝ)) := by
      unfold echoes
      rw [List.range_succ, List.flatMap_append]
      simp
    rw [e, ← List.append_assoc, blockVec_append, hv, blockVec_append, blockVec_padId, blockVec_cons, blockVec_nil]
    have h2 : mv (mU1 (((2 * len : ℕ) : ℝ) * d)) v = mv (mU1 (len * d)) (mv (mU1 (len * d)) v) := by
      rw [mv_u1_u1]
      congr 2
      push_cast
      ring
    rw [h2]
    have he2 := he.u1 (len * d)
    by_cases hx : (alt && (m % 2 == 0)) = true
    · rw [if_pos hx]
      have h3 := (he2.x).u1 (len * d)
      simp only [matOf]
      refine cos_eqv h3 _ ?_
      have hn : numY alt (m + 1 + 1) = numY alt (m + 1) := by
        simp only [Bool.and_eq_true, beq_iff_eq] at hx
        unfold numY
        rw [if_pos hx.1, if_pos hx.1]
        omega
      rw [hn, show -((numY alt (m + 1) : ℝ) * Real.pi + len * d) + len * d = -((numY alt (m + 1) : ℝ) * Real.pi) by ring]
      rw [ofReal_neg, neg_mul, Complex.exp_neg, exp_pi_cases]
      rcases Nat.even_or_odd (numY alt (m + 1)) with h | h
      · simp [h.neg_one_pow]
      · simp [h.neg_one_pow]
    · rw [if_neg hx]
      have h3 := (he2.y).u1 (len * d)
      simp only [matOf]
      refine cos_eqv h3 _ ?_
      have hn : numY alt (m + 1 + 1) = numY alt (m + 1) + 1 := by
        simp only [Bool.and_eq_true, beq_iff_eq, not_and] at hx
        unfold numY
        cases alt
        · simp
        · have := hx rfl
          simp only [if_true]
          omega
      rw [hn, exp_pi_cases, show Real.pi - ((numY alt (m + 1) : ℝ) * Real.pi + len * d) + len * d
        = Real.pi + -((numY alt (m + 1) : ℝ) * Real.pi) by ring]
      rw [ofReal_add, add_mul, Complex.exp_add, exp_pi_mul_I, ofReal_neg, neg_mul ((((numY alt (m + 1) : ℝ) * Real.pi : ℝ)) : ℂ), Complex.exp_neg, exp_pi_cases, pow_succ]
      rcases Nat.even_or_odd (numY alt (m + 1)) with h | h
      · simp [h.neg_one_pow]
      · simp [h.neg_one_pow]

theorem onQ_t2Block (q len m : ℕ) (alt : Bool) : ∀ g ∈ t2Block q len m alt, OnQ [] q g := by
  intro g hg
  simp only [t2Block, echoes, List.mem_append, List.mem_cons, List.mem_flatMap, List.not_mem_nil, or_false, List.cons_append] at hg
  rcases hg with rfl | hg | rfl
  · rfl
  · rcases hg with ((hg | rfl) | ⟨a, -, hg | rfl⟩) | hg
    · exact onQ_padId _ _ _ _ hg
    · rfl
    · exact onQ_padId _ _ _ _ hg
    · split <;> rfl
    · exact onQ_padId _ _ _ _ hg
  · rfl

/-- **C68** (T2) Without decay every `t2_circuits` circuit refocuses arbitrary frequency offsets, and ends with each qubit of
the list in state 0 if the number of Y pulses is odd, and in state 1 if it is even. -/
theorem C68_t2 (num : List ℕ) (gateTime : ℝ) (qubits : List ℕ) (hne : qubits ≠ []) (hnd : qubits.Nodup) (nEchos : ℕ)
    (hE : 1 ≤ nEchos) (alt : Bool) (δ : ℕ → ℝ) :
    ∃ circs xdata, t2Circuits num gateTime qubits nEchos alt = some (circs, xdata) ∧
      List.Forall₂ (fun C _ => Reads (detuned δ) C qubits fun _ => if Odd (numY alt nEchos) then 0 else 1) circs xdata := by
  refine ⟨_, _, by unfold t2Circuits; rw [if_neg (by omega), regSize_some hne]; rfl, ?_⟩
  refine forall₂_of_zipIdx num _ _ _ ?_
  intro len _ i
  have hlt := regSize_lt (regSize_some hne)
  refine reads_of_run (detuned δ) _ qubits _ [Instr.barrier _] rfl (by simp) rfl hlt ?_ ?_ _ ?_ ?_
  · exact fun q => if q ∈ qubits then blockVec (detuned δ) (δ q) (t2Block q len nEchos alt) (dlt false) else dlt false
  · rw [ket0_tens]
    refine run_blocks (detuned δ) [] δ qubits hnd hlt (by simp) (by simp) _ ?_ _ (fun q _ x _ => rfl)
    intro q _ g hg
    exact onQ_t2Block q len nEchos alt g (by simpa using hg)
  · intro q hq
    obtain ⟨m, rfl⟩ : ∃ m, nEchos = m + 1 := ⟨nEchos - 1, by omega⟩
    obtain ⟨v, hv, he⟩ := echo_state (detuned δ) rfl (δ q) q len m alt
    have hb : blockVec (detuned δ) (δ q) (t2Block q len (m + 1) alt) (dlt false) = mv (mU2 0 0) (mv (mU1 (len * δ q)) v) := by
      unfold t2Block
      rw [show m + 1 - 1 = m from rfl, blockVec_append, blockVec_append, hv, blockVec_padId]
      rfl
    simp only [if_pos hq, hb]
    obtain ⟨h1, h2⟩ := he.final_y90
    have hcos : Real.cos ((numY alt (m + 1) : ℝ) * Real.pi) = (-1) ^ numY alt (m + 1) := by
      rw [Real.cos_nat_mul_pi]
    rw [h1, h2, hcos]
    by_cases ho : Odd (numY alt (m + 1))
    · rw [if_pos ho, ho.neg_one_pow]; norm_num
    · rw [if_neg ho, (Nat.not_odd_iff_even.1 ho).neg_one_pow]; norm_num
  · intro q _ hq
    simp only [if_neg hq]
    exact dlt_norm false

/-- **C68** (T2) In particular the default experiment, one echo, ends in the state 0 that `T2Fitter` counts, and so does any odd
number of equal echoes. -/
theorem C68_t2_expected (num : List ℕ) (gateTime : ℝ) (qubits : List ℕ) (hne : qubits ≠ []) (hnd : qubits.Nodup) (nEchos : ℕ)
    (hE : Odd nEchos) (δ : ℕ → ℝ) :
    ∃ circs xdata, t2Circuits num gateTime qubits nEchos false = some (circs, xdata) ∧
      List.Forall₂ (fun C _ => Reads (detuned δ) C qubits fun _ => 0) circs xdata ∧ t2Fitter.expected = '0' := by
  obtain ⟨c, x, h1, h2⟩ := C68_t2 num gateTime qubits hne hnd nEchos (by rcases hE with ⟨k, rfl⟩; omega) false δ
  refine ⟨c, x, h1, ?_, rfl⟩
  simpa [numY, hE] using h2

/-- **C68, violated by the code.** With an even number of equal echoes, for example two, the perfect circuit ends in state 1
with certainty, while `T2Fitter` counts state 0: all data points are 0 at every delay. -/
theorem C68_finding_even_echoes (num : List ℕ) (gateTime : ℝ) (qubits : List ℕ) (hne : qubits ≠ []) (hnd : qubits.Nodup)
    (nEchos : ℕ) (hE : Even nEchos) (h1 : 1 ≤ nEchos) :
    ∃ circs xdata, t2Circuits num gateTime qubits nEchos false = some (circs, xdata) ∧
      List.Forall₂ (fun C _ => Reads ideal C qubits fun _ => 1) circs xdata ∧ t2Fitter.expected = '0' := by
  obtain ⟨c, x, h1, h2⟩ := C68_t2 num gateTime qubits hne hnd nEchos h1 false fun _ => 0
  refine ⟨c, x, h1, ?_, rfl⟩
  have : ¬ Odd nEchos := Nat.not_odd_iff_even.2 hE
  have hd : detuned (fun _ => 0) = ideal := rfl
  simpa [numY, this, hd] using h2

/-- **C68, violated by the code.** With alternating pulses three or four echoes end in state 1 as well. -/
theorem C68_finding_alternating (num : List ℕ) (gateTime : ℝ) (qubits : List ℕ) (hne : qubits ≠ []) (hnd : qubits.Nodup)
    (nEchos : ℕ) (hE : nEchos % 4 = 3 ∨ nEchos % 4 = 0) (h1 : 1 ≤ nEchos) :
    ∃ circs xdata, t2Circuits num gateTime qubits nEchos true = some (circs, xdata) ∧
      List.Forall₂ (fun C _ => Reads ideal C qubits fun _ => 1) circs xdata ∧ t2Fitter.expected = '0' := by
  obtain ⟨c, x, h1, h2⟩ := C68_t2 num gateTime qubits hne hnd nEchos h1 true fun _ => 0
  refine ⟨c, x, h1, ?_, rfl⟩
  have : ¬ Odd ((nEchos + 1) / 2) := by
    rw [Nat.odd_iff]; omega
  have hd : detuned (fun _ => 0) = ideal := rfl
  simpa [numY, this, hd] using h2

/-- Fewer than one echo is refused. -/
theorem C68_no_echo (num : List ℕ) (gateTime : ℝ) (qubits : List ℕ) (nEchos : ℤ) (hE : nEchos < 1) (alt : Bool) :
    t2Circuits num gateTime qubits nEchos alt = none := by
  unfold t2Circuits
  rw [if_pos hE]

/-! ### Ramsey fringes -/

theorem onQ_ramsey (q len : ℕ) (φ : ℝ) : ∀ g ∈ ramseyBlock q len φ, OnQ [] q g := by
  intro g hg
  simp only [ramseyBlock, List.mem_append, List.mem_cons, List.not_mem_nil, or_false, List.cons_append] at hg
  rcases hg with rfl | hg | rfl | rfl
  · rfl
  · exact onQ_padId _ _ _ _ hg
  · rfl
  · rfl

theorem ramsey_final (D : Device) (d : ℝ) (q len : ℕ) (φ : ℝ) :
    normSq (blockVec D d (ramseyBlock q len φ) (dlt false) true) = (1 - Real.cos (len * d + φ)) / 2 ∧
    normSq (blockVec D d (ramseyBlock q len φ) (dlt false) false) = (1 + Real.cos (len * d + φ)) / 2 := by
  have h := ((eqv_h.u1 (len * d)).u1 φ).final_h
  rw [show (0 + len * d + φ) = len * d + φ by ring] at h
  have hb : blockVec D d (ramseyBlock q len φ) (dlt false) = mv mH (mv (mU1 φ) (mv (mU1 (len * d)) (mv mH (dlt false)))) := by
    unfold ramseyBlock
    rw [List.cons_append, blockVec_cons, blockVec_append, blockVec_padId]
    rfl
  rw [hb]
  exact h

/-- **C92** On a device where qubit `q` picks up the phase `δ q` per identity gate, that is, is detuned by
`δ q / (2π gate_time)`, the probability of reading 0 in each `t2star_circuits` circuit is exactly the fringe `T2StarFitter`
fits (without decay), at the returned delay and with frequency equal to the returned frequency plus the detuning. -/
theorem C92_t2star (num : List ℕ) (gateTime : ℝ) (hg : gateTime ≠ 0) (qubits : List ℕ) (hne : qubits ≠ []) (hnd : qubits.Nodup)
    (nosc : ℕ) (last : ℕ) (hlast : num.getLast? = some last) (h0 : last ≠ 0) (δ : ℕ → ℝ) :
    ∃ circs xdata f, t2starCircuits Real.pi num gateTime qubits nosc = some (circs, xdata, f) ∧
      f = nosc / (gateTime * last) ∧
      List.Forall₂ (fun C x => Reads (detuned δ) C qubits fun q =>
        1 - oscNodecayFit x (1 / 2) (f + δ q / (2 * Real.pi * gateTime)) 0 (1 / 2)) circs xdata := by
  have hl : (num.map fun (n : ℕ) => gateTime * (n : ℝ)).getLast? = some (gateTime * last) := by
    rw [List.getLast?_map, hlast]; rfl
  have hz : gateTime * (last : ℝ) ≠ 0 := mul_ne_zero hg (by exact_mod_cast h0)
  refine ⟨_, _, _, by
    unfold t2starCircuits
    simp only [regSize_some hne, hl, Option.bind_eq_bind, Option.bind_some, if_neg hz]
    rfl, rfl, ?_⟩
  rw [zip_map_self, zipIdx_map_fst, List.map_map]
  refine forall₂_of_zipIdx num _ _ _ ?_
  intro len _ i
  have hlt := regSize_lt (regSize_some hne)
  refine reads_of_run (detuned δ) _ qubits _ [Instr.barrier _] rfl (by simp) rfl hlt ?_ ?_ _ ?_ ?_
  · exact fun q => if q ∈ qubits then blockVec (detuned δ) (δ q)
      (ramseyBlock q len (2 * Real.pi * (nosc / (gateTime * last)) * (gateTime * len))) (dlt false) else dlt false
  · rw [ket0_tens]
    exact run_blocks (detuned δ) [] δ qubits hnd hlt (by simp) (by simp) _ (fun q _ => onQ_ramsey q len _) _ (fun q _ x _ => rfl)
  · intro q hq
    simp only [if_pos hq]
    obtain ⟨h1, h2⟩ := ramsey_final (detuned δ) (δ q) q len (2 * Real.pi * (nosc / (gateTime * last)) * (gateTime * len))
    have hα : 2 * Real.pi * (nosc / (gateTime * last) + δ q / (2 * Real.pi * gateTime)) * (gateTime * len) + 0
        = len * δ q + 2 * Real.pi * (nosc / (gateTime * last)) * (gateTime * len) := by
      have := Real.pi_ne_zero
      field_simp
      ring
    rw [h1, h2]
    unfold oscNodecayFit
    rw [hα]
    constructor <;> ring
  · intro q _ hq
    simp only [if_neg hq]
    exact dlt_norm false

example : ([10, 20, 50] : List ℕ).getLast? = some 50 := by decide

/-! ### ZZ -/

/-- A device whose qubits interact: during every identity gate qubit `q` picks up the phase `δ q` in state 1, and an
additional `ζ q` if its spectator `spec q` is in state 1. -/
noncomputable def zzDevice (δ ζ : ℕ → ℝ) (spec : ℕ → ℕ) : Device :=
  ⟨fun q x => δ q + if x (spec q) then ζ q else 0, mU2, mX⟩

theorem run_xs (D : Device) {n : ℕ} (l : List ℕ) (hnd : l.Nodup) (hn : ∀ q ∈ l, q < n) (w : ℕ → Bool → ℂ) (hw : ∀ q ∈ l, w q = dlt false) :
    runGates D n (l.map Instr.x) (tens n w) = some (tens n fun q => if q ∈ l then dlt true else w q) := by
  induction l generalizing w with
  | nil => simp [runGates]
  | cons q l ih =>
    have hnd' := List.nodup_cons.1 hnd
    rw [List.map_cons, runGates_cons]
    simp only [applyGate, on1, dif_pos (hn q (by simp)), app1_tens, Option.bind_some]
    rw [ih hnd'.2 (fun p hp => hn p (by simp [hp]))]
    · congr 2
      funext p
      by_cases hpq : p = q
      · subst hpq
        rw [if_neg hnd'.1, Function.update_self, if_pos (by simp), hw p (by simp)]
        funext b; cases b <;> simp [mv, mX, dlt]
      · simp [hpq, Function.update_of_ne hpq]
    · intro p hp
      rw [Function.update_of_ne (show p ≠ q from fun h => hnd'.1 (h ▸ hp)), hw p (by simp [hp])]

/-- **C93** Distinct qubits and spectators, the `i`-th spectator belonging to the `i`-th qubit.  On a device where qubit `q` is
detuned by `δ q / (2π gate_time)` and shifts by a further `ζ q / (2π gate_time)` while its spectator is in state 1, series `0`
of `zz_circuits` shows exactly the fringe `ZZFitter` fits with frequency `f + detuning`, and series `1` with frequency
`f + detuning + shift`; so `ZZ_rate` evaluated on the exact frequencies is the shift. -/
theorem C93_zz (num : List ℕ) (gateTime : ℝ) (hg : gateTime ≠ 0) (qubits spectators : List ℕ) (hne : qubits ≠ [])
    (hlen : qubits.length = spectators.length) (hnd : (qubits ++ spectators).Nodup) (nosc last : ℕ)
    (hlast : num.getLast? = some last) (h0 : last ≠ 0) (δ ζ : ℕ → ℝ) (spec : ℕ → ℕ) (hspec : qubits.map spec = spectators) :
    ∃ circs0 circs1 xdata f, zzCircuits Real.pi num gateTime qubits spectators nosc = some (circs0 ++ circs1, xdata, f) ∧
      f = nosc / (gateTime * last) ∧
      List.Forall₂ (fun C x => Reads (zzDevice δ ζ spec) C qubits fun q =>
        1 - oscNodecayFit x (1 / 2) (f + δ q / (2 * Real.pi * gateTime)) 0 (1 / 2)) circs0 xdata ∧
      List.Forall₂ (fun C x => Reads (zzDevice δ ζ spec) C qubits fun q =>
        1 - oscNodecayFit x (1 / 2) (f + (δ q + ζ q) / (2 * Real.pi * gateTime)) 0 (1 / 2)) circs1 xdata ∧
      ∀ q, zzRate (f + δ q / (2 * Real.pi * gateTime)) (f + (δ q + ζ q) / (2 * Real.pi * gateTime)) = ζ q / (2 * Real.pi * gateTime) := by
  have hl : (num.map fun (n : ℕ) => gateTime * (n : ℝ)).getLast? = some (gateTime * last) := by
    rw [List.getLast?_map, hlast]; rfl
  have hz : gateTime * (last : ℝ) ≠ 0 := mul_ne_zero hg (by exact_mod_cast h0)
  obtain ⟨hq, hs, hdis⟩ := List.nodup_append.1 hnd
  have hsne : spectators ≠ [] := by
    rw [← List.length_pos_iff] at hne ⊢
    omega
  have hany : (qubits.any fun q => spectators.contains q) = false := by
    rw [List.any_eq_false]
    intro q hqq
    simp only [List.contains_iff_mem]
    intro hc
    exact hdis q hqq q hc rfl
  have hltq := regSize_lt (regSize_some hne)
  have hlts := regSize_lt (regSize_some hsne)
  have hgen : ∀ (flip : Bool) (len : ℕ) (nm : Str),
      Reads (zzDevice δ ζ spec) ⟨nm, max (qubits.foldl max 0 + 1) (spectators.foldl max 0 + 1), qubits.length,
        (if flip then spectators.map Instr.x else []) ++ [Instr.barrier (List.range (max (qubits.foldl max 0 + 1) (spectators.foldl max 0 + 1)))]
        ++ qubits.flatMap (fun q => ramseyBlock q len (2 * Real.pi * ((nosc : ℝ) / (gateTime * last)) * (gateTime * len)))
        ++ [Instr.barrier (List.range (max (qubits.foldl max 0 + 1) (spectators.foldl max 0 + 1)))] ++ measureAll qubits⟩ qubits
        fun q => 1 - oscNodecayFit (gateTime * len) (1 / 2)
          (nosc / (gateTime * last) + (δ q + if flip then ζ q else 0) / (2 * Real.pi * gateTime)) 0 (1 / 2) := by
    intro flip len nm
    have hN : ∀ q ∈ qubits, q < max (qubits.foldl max 0 + 1) (spectators.foldl max 0 + 1) :=
      fun q h => lt_of_lt_of_le (hltq q h) (le_max_left _ _)
    have hNs : ∀ q ∈ spectators, q < max (qubits.foldl max 0 + 1) (spectators.foldl max 0 + 1) :=
      fun q h => lt_of_lt_of_le (hlts q h) (le_max_right _ _)
    refine reads_of_run (zzDevice δ ζ spec) _ qubits _ [Instr.barrier _] rfl (by simp) rfl hN ?_ ?_ _ ?_ ?_
    · exact fun q => if q ∈ qubits then blockVec (zzDevice δ ζ spec) (δ q + if flip then ζ q else 0)
        (ramseyBlock q len (2 * Real.pi * (nosc / (gateTime * last)) * (gateTime * len))) (dlt false)
        else (if flip = true ∧ q ∈ spectators then dlt true else dlt false)
    · rw [ket0_tens, runGates_append, runGates_append]
      have h1 : runGates (zzDevice δ ζ spec) (max (qubits.foldl max 0 + 1) (spectators.foldl max 0 + 1))
          (if flip then spectators.map Instr.x else []) (tens _ fun _ => dlt false)
          = some (tens _ fun q => if flip = true ∧ q ∈ spectators then dlt true else dlt false) := by
        cases flip
        · simp [runGates]
        · simp only [if_true, true_and]
          exact run_xs _ spectators hs hNs _ (fun _ _ => rfl)
      rw [h1, Option.bind_some]
      have h2 : ∀ ψ : State (Fin (max (qubits.foldl max 0 + 1) (spectators.foldl max 0 + 1))) ℂ,
          runGates (zzDevice δ ζ spec) _ [Instr.barrier (List.range (max (qubits.foldl max 0 + 1) (spectators.foldl max 0 + 1)))] ψ = some ψ :=
        fun _ => rfl
      rw [h2, Option.bind_some]
      rw [run_blocks (zzDevice δ ζ spec) spectators (fun q => δ q + if flip then ζ q else 0) qubits hq hN
        (fun q h hc => hdis q h q hc rfl) hNs _ (fun q _ => onQ_ramsey q len _)]
      · congr 2
        funext q
        by_cases hqq : q ∈ qubits
        · have : ¬ (flip = true ∧ q ∈ spectators) := fun h => hdis q hqq q h.2 rfl
          simp only [if_pos hqq, if_neg this]
        · simp only [if_neg hqq]
      · intro q hqq x hx
        have hsp : spec q ∈ spectators := by rw [← hspec]; exact List.mem_map_of_mem hqq
        have hxs := hx (spec q) hsp
        have hbit : ext x (spec q) = flip := by
          by_contra hc
          apply hxs
          cases flip <;> cases hxx : ext x (spec q) <;> simp_all [dlt]
        unfold zzDevice
        simp only [hbit]
    · intro q hqq
      simp only [if_pos hqq]
      obtain ⟨h1, h2⟩ := ramsey_final (zzDevice δ ζ spec) (δ q + if flip then ζ q else 0) q len
        (2 * Real.pi * (nosc / (gateTime * last)) * (gateTime * len))
      have hα : 2 * Real.pi * (nosc / (gateTime * last) + (δ q + if flip then ζ q else 0) / (2 * Real.pi * gateTime)) * (gateTime * len) + 0
          = len * (δ q + if flip then ζ q else 0) + 2 * Real.pi * (nosc / (gateTime * last)) * (gateTime * len) := by
        have := Real.pi_ne_zero
        field_simp
        ring
      rw [h1, h2]
      unfold oscNodecayFit
      rw [hα]
      constructor <;> ring
    · intro q _ hqq
      simp only [if_neg hqq]
      split <;> exact dlt_norm _
  refine ⟨num.zipIdx.map ?_, num.zipIdx.map ?_, num.map fun (n : ℕ) => gateTime * (n : ℝ), nosc / (gateTime * last), ?_, rfl,
    forall₂_of_zipIdx num _ _ _ (fun len _ i => ?_), forall₂_of_zipIdx num _ _ _ (fun len _ i => ?_), ?_⟩
  · exact fun p => ⟨circName "zzcircuit_" p.2 "0", max (qubits.foldl max 0 + 1) (spectators.foldl max 0 + 1), qubits.length,
        [] ++ [Instr.barrier (List.range (max (qubits.foldl max 0 + 1) (spectators.foldl max 0 + 1)))]
        ++ qubits.flatMap (fun q => ramseyBlock q p.1 (2 * Real.pi * ((nosc : ℝ) / (gateTime * last)) * (gateTime * p.1)))
        ++ [Instr.barrier (List.range (max (qubits.foldl max 0 + 1) (spectators.foldl max 0 + 1)))] ++ measureAll qubits⟩
  · exact fun p => ⟨circName "zzcircuit_" p.2 "1", max (qubits.foldl max 0 + 1) (spectators.foldl max 0 + 1), qubits.length,
        spectators.map Instr.x ++ [Instr.barrier (List.range (max (qubits.foldl max 0 + 1) (spectators.foldl max 0 + 1)))]
        ++ qubits.flatMap (fun q => ramseyBlock q p.1 (2 * Real.pi * ((nosc : ℝ) / (gateTime * last)) * (gateTime * p.1)))
        ++ [Instr.barrier (List.range (max (qubits.foldl max 0 + 1) (spectators.foldl max 0 + 1)))] ++ measureAll qubits⟩
  · unfold zzCircuits
    rw [if_neg (by simpa using hlen), hany]
    simp only [Bool.false_eq_true, if_false, regSize_some hne, regSize_some hsne, hl, Option.bind_eq_bind, Option.bind_some, if_neg hz]
    rw [zip_map_self, zipIdx_map_fst]
    simp only [List.flatMap_cons, List.flatMap_nil, List.append_nil, List.map_map, Function.comp_def, Bool.false_eq_true, if_false, if_true]
    rfl
  · have := hgen false len (circName "zzcircuit_" i "0")
    simpa using this
  · have := hgen true len (circName "zzcircuit_" i "1")
    simpa using this
  · intro q
    unfold zzRate
    ring

example : (([0, 3] : List ℕ) ++ [1, 2]).Nodup ∧ ([0, 3] : List ℕ).map (fun q => if q = 0 then 1 else 2) = [1, 2] := by decide

/-- A qubit listed among the spectators, or lists of different lengths, are refused. -/
theorem C93_refused (num : List ℕ) (gateTime : ℝ) (qubits spectators : List ℕ) (nosc : ℕ)
    (h : qubits.length ≠ spectators.length ∨ ∃ q ∈ qubits, q ∈ spectators) :
    zzCircuits Real.pi num gateTime qubits spectators nosc = none := by
  unfold zzCircuits
  by_cases hlen : qubits.length = spectators.length
  · rcases h with h | ⟨q, h1, h2⟩
    · exact absurd hlen h
    · rw [if_neg (by simpa using hlen), if_pos]
      rw [List.any_eq_true]
      exact ⟨q, h1, by simpa using h2⟩
  · rw [if_pos hlen]

end Verif.Char
