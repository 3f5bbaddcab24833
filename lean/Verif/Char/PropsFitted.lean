import Verif.Char.PropsGates
import Verif.Char.PropsDecay
/-
C68, C92, C93, C95, C96, C106: the outcome that each fitter counts has the probability of the curve that it fits.
-/
namespace Verif.Char
open Verif Verif.Quantum Complex

/-- Running circuit `C` on device `D` measures qubit `qubits[i]` into classical bit `i`, and the outcome that the fitter `F` counts has probability `v q`
for the bit of qubit `q`. -/
def Counted (F : Fitter) (D : Device) (C : Circ ℝ) (qubits : List ℕ) (v : ℕ → ℝ) : Prop :=
  ∃ ψ, exec D C = some (ψ, qubits.zipIdx) ∧ C.nc = qubits.length ∧
    ∃ b : Bool, F.expected = (if b then '1' else '0') ∧ ∀ q ∈ qubits, probBit ψ q b = v q

/-- The same for qubits that relax and dephase. -/
def RelaxCounted (F : Fitter) (R : Relax) (C : Circ ℝ) (qubits : List ℕ) (v : ℕ → ℝ) : Prop :=
  ∃ ρ, C.ops.foldlM (relaxStep R C.nq C.nc) (fun _ => rho0, []) = some (ρ, qubits.zipIdx) ∧ C.nc = qubits.length ∧
    ∃ b : Bool, F.expected = (if b then '1' else '0') ∧ ∀ q ∈ qubits, ρ q b b = (v q : ℝ)

theorem Reads.one {F : Fitter} {D : Device} {C : Circ ℝ} {qubits : List ℕ} {v : ℕ → ℝ} (h : Reads D C qubits v) (hF : F.expected = '1') :
    Counted F D C qubits v := by
  obtain ⟨ψ, h1, h2, h3⟩ := h
  exact ⟨ψ, h1, h2, true, hF, fun q hq => (h3 q hq).1⟩

theorem Reads.zero {F : Fitter} {D : Device} {C : Circ ℝ} {qubits : List ℕ} {v : ℕ → ℝ} (h : Reads D C qubits fun q => 1 - v q) (hF : F.expected = '0') :
    Counted F D C qubits v := by
  obtain ⟨ψ, h1, h2, h3⟩ := h
  exact ⟨ψ, h1, h2, false, hF, fun q hq => by rw [(h3 q hq).2]; ring⟩

theorem RelaxReads.one {F : Fitter} {R : Relax} {C : Circ ℝ} {qubits : List ℕ} {v : ℕ → ℝ} (h : RelaxReads R C qubits v) (hF : F.expected = '1') :
    RelaxCounted F R C qubits v := by
  obtain ⟨ψ, h1, h2, h3⟩ := h
  exact ⟨ψ, h1, h2, true, hF, fun q hq => (h3 q hq).1⟩

theorem RelaxReads.zero {F : Fitter} {R : Relax} {C : Circ ℝ} {qubits : List ℕ} {v : ℕ → ℝ} (h : RelaxReads R C qubits fun q => 1 - v q) (hF : F.expected = '0') :
    RelaxCounted F R C qubits v := by
  obtain ⟨ψ, h1, h2, h3⟩ := h
  exact ⟨ψ, h1, h2, false, hF, fun q hq => by rw [(h3 q hq).2]; push_cast; ring⟩

/-- **C92** `T2StarFitter` counts the outcome whose probability is the fringe. -/
theorem C92_counted (num : List ℕ) (gateTime : ℝ) (hg : gateTime ≠ 0) (qubits : List ℕ) (hne : qubits ≠ []) (hnd : qubits.Nodup)
    (nosc : ℕ) (last : ℕ) (hlast : num.getLast? = some last) (h0 : last ≠ 0) (δ : ℕ → ℝ) :
    ∃ circs xdata f, t2starCircuits Real.pi num gateTime qubits nosc = some (circs, xdata, f) ∧ f = nosc / (gateTime * last) ∧
      List.Forall₂ (fun C x => Counted t2starFitter (detuned δ) C qubits fun q =>
        oscNodecayFit x (1 / 2) (f + δ q / (2 * Real.pi * gateTime)) 0 (1 / 2)) circs xdata := by
  obtain ⟨circs, xdata, f, h1, h2, h3⟩ := C92_t2star num gateTime hg qubits hne hnd nosc last hlast h0 δ
  exact ⟨circs, xdata, f, h1, h2, h3.imp fun _ _ h => h.zero rfl⟩

/-- **C93** `ZZFitter` counts the outcome whose probability is the fringe. -/
theorem C93_counted (num : List ℕ) (gateTime : ℝ) (hg : gateTime ≠ 0) (qubits spectators : List ℕ) (hne : qubits ≠ [])
    (hlen : qubits.length = spectators.length) (hnd : (qubits ++ spectators).Nodup) (nosc last : ℕ)
    (hlast : num.getLast? = some last) (h0 : last ≠ 0) (δ ζ : ℕ → ℝ) (spec : ℕ → ℕ) (hspec : qubits.map spec = spectators) :
    ∃ circs0 circs1 xdata f, zzCircuits Real.pi num gateTime qubits spectators nosc = some (circs0 ++ circs1, xdata, f) ∧
      f = nosc / (gateTime * last) ∧
      List.Forall₂ (fun C x => Counted zzFitter (zzDevice δ ζ spec) C qubits fun q =>
        oscNodecayFit x (1 / 2) (f + δ q / (2 * Real.pi * gateTime)) 0 (1 / 2)) circs0 xdata ∧
      List.Forall₂ (fun C x => Counted zzFitter (zzDevice δ ζ spec) C qubits fun q =>
        oscNodecayFit x (1 / 2) (f + (δ q + ζ q) / (2 * Real.pi * gateTime)) 0 (1 / 2)) circs1 xdata := by
  obtain ⟨c0, c1, xdata, f, h1, h2, h3, h4, -⟩ := C93_zz num gateTime hg qubits spectators hne hlen hnd nosc last hlast h0 δ ζ spec hspec
  exact ⟨c0, c1, xdata, f, h1, h2, h3.imp fun _ _ h => h.zero rfl, h4.imp fun _ _ h => h.zero rfl⟩

/-- **C95** `AmpCalFitter` and `AmpCalCXFitter` count the outcome whose probability is the curve. -/
theorem C95_counted (maxReps : ℕ) (qubits controls : List ℕ) (hne : qubits ≠ []) (hnd : (qubits ++ controls).Nodup) (ε : ℝ) :
    (∃ circs xdata, ampcal1Q maxReps qubits = some (circs, xdata) ∧ xdata = (List.range maxReps).map (2 * ·) ∧
      List.Forall₂ (fun C (x : ℕ) => Counted ampCalFitter (ampDevice ε) C qubits fun _ => ampCalFit x ε (1 / 2)) circs xdata) ∧
    (controls.length = qubits.length → ∃ circs xdata, ampcalCx Real.pi maxReps qubits controls = some (circs, xdata) ∧ xdata = List.range maxReps ∧
      List.Forall₂ (fun C (x : ℕ) => Counted ampCalCxFitter (ampCxDevice ε) C qubits fun _ => ampCalCxFit x ε (1 / 2)) circs xdata) := by
  constructor
  · obtain ⟨circs, xdata, h1, h2, h3⟩ := C95_amp maxReps qubits hne (List.nodup_append.1 hnd).1 ε
    exact ⟨circs, xdata, h1, h2, h3.imp fun _ _ h => h.one rfl⟩
  · intro hlen
    obtain ⟨circs, xdata, h1, h2, h3⟩ := C95_amp_cx maxReps qubits controls hne hlen hnd ε
    exact ⟨circs, xdata, h1, h2, h3.imp fun _ _ h => h.one rfl⟩

/-- **C96** `AngleCalFitter` and `AngleCalCXFitter` count the outcome whose probability is the curve. -/
theorem C96_counted (maxReps : ℕ) (qubits controls : List ℕ) (hne : qubits ≠ []) (hnd : (qubits ++ controls).Nodup) (ζ e : ℝ) :
    (∃ circs xdata, anglecal1Q Real.pi maxReps qubits 0 = some (circs, xdata) ∧ xdata = (List.range maxReps).map (2 * ·) ∧
      List.Forall₂ (fun C (x : ℕ) => Counted angleCalFitter (axisDevice ζ) C qubits fun _ => angleCalFit x ζ (1 / 2)) circs xdata) ∧
    (controls.length = qubits.length → ∃ circs xdata, anglecalCx Real.pi maxReps qubits controls e = some (circs, xdata) ∧ xdata = List.range maxReps ∧
      List.Forall₂ (fun C (x : ℕ) => Counted angleCalCxFitter (axisCxDevice ζ) C qubits fun _ => angleCalCxFit x (2 * (ζ + e)) (1 / 2)) circs xdata) := by
  constructor
  · obtain ⟨circs, xdata, h1, h2, h3⟩ := C96_angle maxReps qubits hne (List.nodup_append.1 hnd).1 ζ
    exact ⟨circs, xdata, h1, h2, h3.imp fun _ _ h => h.one rfl⟩
  · intro hlen
    obtain ⟨circs, xdata, h1, h2, h3, -⟩ := C96_angle_cx maxReps qubits controls hne hlen hnd ζ e
    exact ⟨circs, xdata, h1, h2, h3.imp fun _ _ h => h.one rfl⟩

/-- **C68** `T1Fitter` counts what a qubit without decay gives with certainty. -/
theorem C68_counted (num : List ℕ) (gateTime : ℝ) (qubits : List ℕ) (hne : qubits ≠ []) (hnd : qubits.Nodup) (δ : ℕ → ℝ) :
    ∃ circs xdata, t1Circuits num gateTime qubits = some (circs, xdata) ∧
      List.Forall₂ (fun C _ => Counted t1Fitter (detuned δ) C qubits fun _ => 1) circs xdata := by
  obtain ⟨circs, xdata, h1, h3⟩ := C68_t1 num gateTime qubits hne hnd δ
  exact ⟨circs, xdata, h1, h3.imp fun _ _ h => h.one rfl⟩

/-- **C106** `T1Fitter`, `T2Fitter` and `T2StarFitter` count the outcome whose probability is the curve. -/
theorem C106_counted (R : Relax) (hg : R.gateTime ≠ 0) (num : List ℕ) (qubits : List ℕ) (hne : qubits ≠ []) (hnd : qubits.Nodup) (nEchos : ℕ)
    (hE : 1 ≤ nEchos) (alt : Bool) (nosc : ℕ) (last : ℕ) (hlast : num.getLast? = some last) (h0 : last ≠ 0) :
    (∃ circs xdata, t1Circuits num R.gateTime qubits = some (circs, xdata) ∧
      List.Forall₂ (fun C t => RelaxCounted t1Fitter R C qubits fun q => expFit t 1 (R.t1 q) 0) circs xdata) ∧
    (∃ circs xdata, t2Circuits num R.gateTime qubits nEchos alt = some (circs, xdata) ∧
      List.Forall₂ (fun C t => RelaxCounted t2Fitter R C qubits fun q => expFit t (if Odd (numY alt nEchos) then 1 / 2 else -1 / 2) (R.t2 q) (1 / 2)) circs xdata) ∧
    (∃ circs xdata f, t2starCircuits Real.pi num R.gateTime qubits nosc = some (circs, xdata, f) ∧ f = nosc / (R.gateTime * last) ∧
      List.Forall₂ (fun C t => RelaxCounted t2starFitter R C qubits fun q =>
        oscFit t (1 / 2) (R.t2 q) (f + R.phase q / (2 * Real.pi * R.gateTime)) 0 (1 / 2)) circs xdata) := by
  refine ⟨?_, ?_, ?_⟩
  · obtain ⟨circs, xdata, h1, h3⟩ := C106_t1 R num qubits hne hnd
    exact ⟨circs, xdata, h1, h3.imp fun _ _ h => h.one rfl⟩
  · obtain ⟨circs, xdata, h1, h3⟩ := C106_t2 R num qubits hne hnd nEchos hE alt
    exact ⟨circs, xdata, h1, h3.imp fun _ _ h => h.zero rfl⟩
  · obtain ⟨circs, xdata, f, h1, h2, h3⟩ := C106_t2star R hg num qubits hne hnd nosc last hlast h0
    exact ⟨circs, xdata, f, h1, h2, h3.imp fun _ _ h => h.zero rfl⟩

/-- Three repetitions on two qubits with their controls. -/
example : ∃ circs xdata, ampcalCx Real.pi 3 [0, 2] [1, 3] = some (circs, xdata) ∧ xdata = [0, 1, 2] ∧
    List.Forall₂ (fun C (x : ℕ) => Counted ampCalCxFitter (ampCxDevice (1 / 10)) C [0, 2] fun _ => ampCalCxFit x (1 / 10) (1 / 2)) circs xdata :=
  (C95_counted 3 [0, 2] [1, 3] (by simp) (by decide) (1 / 10)).2 rfl

end Verif.Char
