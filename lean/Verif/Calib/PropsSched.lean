import Verif.Calib.Sched
import Verif.Calib.Iq
import Verif.Py.DictLemmas
import Verif.Py.SplitLemmas
import Mathlib.Analysis.SpecialFunctions.Trigonometric.Basic
import Mathlib.Analysis.SpecialFunctions.Complex.Circle
import Mathlib.LinearAlgebra.Matrix.Notation
import Mathlib.Data.Matrix.Mul
set_option linter.unusedSimpArgs false
set_option linter.unusedVariables false
/-
C102, C103: the calibration schedules, and the gates installed from a calibrated pulse.
-/
namespace Verif.Calib
open Verif

variable {A : Type}

/-! ### C102: schedules -/

theorem foldl_max_zero (l : List ℕ) (h : ∀ x ∈ l, x = 0) : l.foldl max 0 = 0 := by
  induction l with
  | nil => rfl
  | cons a l ih =>
    rw [List.foldl_cons, h a (by simp)]
    exact ih fun x hx => h x (by simp [hx])

theorem chStop_free (s : Sched A) (chs : List Chan) (h : ∀ c ∈ chs, c ∉ channels s) : chStop s chs = 0 := by
  unfold chStop
  refine foldl_max_zero _ fun x hx => ?_
  obtain ⟨y, hy, rfl⟩ := List.mem_map.1 hx
  rw [if_neg]
  intro hany
  obtain ⟨c, hc, hm⟩ := List.any_eq_true.1 hany
  exact h c (of_decide_eq_true hm) (List.mem_flatMap.2 ⟨y, hy, hc⟩)

theorem shift_zero (s : Sched A) : shift 0 s = s := by
  unfold shift
  simp

theorem channels_append (s t : Sched A) : channels (s ++ t) = channels s ++ channels t := by simp [channels]

theorem channels_shift (n : ℕ) (s : Sched A) : channels (shift n s) = channels s := by simp [channels, shift, List.flatMap_map]

/-- A child on channels not in use starts at once. -/
theorem append_free (s child : Sched A) (h : ∀ c ∈ channels child, c ∉ channels s) : append s child = s ++ child := by
  unfold append
  have : (channels child).filter (fun c => decide (c ∈ channels s)) = [] := by
    rw [List.filter_eq_nil_iff]
    intro c hc hm
    exact h c hc (of_decide_eq_true hm)
  rw [this, chStop_free s [] (by simp), shift_zero]

theorem rabiSched_eq (chs : List Chan) (hn : chs.Nodup) (meas : Sched A) (hm : ∀ c ∈ channels meas, c ∉ chs) (p : Pulse A) :
    rabiSched chs meas p = chs.map (fun c => (0, PInstr.play p c)) ++ shift p.dur meas := by
  have hch : ∀ l : List Chan, channels (l.map fun c => (0, PInstr.play p c)) = l := by
    intro l; simp [channels, List.flatMap_map, PInstr.chans]
  have key : ∀ (rest done : List Chan), (done ++ rest).Nodup → rest.foldl (fun s c => append s [(0, PInstr.play p c)]) (done.map fun c => (0, PInstr.play p c))
      = (done ++ rest).map fun c => (0, PInstr.play p c) := by
    intro rest
    induction rest with
    | nil => intro done _; simp
    | cons c rest ih =>
      intro done hd
      have hc : c ∉ done := by
        rw [List.nodup_append] at hd
        exact fun h => hd.2.2 c h c (by simp) rfl
      rw [List.foldl_cons, append_free _ _ (by
        rw [hch]; simpa [channels, PInstr.chans] using hc)]
      have := ih (done ++ [c]) (by simpa using hd)
      simpa using this
  unfold rabiSched
  have := key chs [] (by simpa using hn)
  simp only [List.map_nil, List.nil_append] at this
  rw [this, append_free _ _ (by rw [hch, channels_shift]; exact hm)]

/-- **C102** `rabi_schedules` returns one schedule per amplitude, named as `RabiFitter` looks it up; in schedule `i` each qubit is driven
by one Gaussian pulse with amplitude `i`, all starting together, and the measurement starts when the pulses end. -/
theorem C102_rabi [Field A] (amps : List A) (qubits : List ℕ) (width : ℕ) (sigma : Option A) (ratio : A) (drives : List Chan) (chs : List Chan)
    (hd : drivesAt drives qubits = some chs) (hn : chs.Nodup) (meas : Sched A) (hm : ∀ c ∈ channels meas, c ∉ chs) :
    rabiSchedules amps qubits width sigma ratio drives meas = some (amps.zipIdx.map fun p =>
      ("rabisched_".toList ++ fmtD p.2 ++ "_0".toList,
        chs.map (fun c => (0, PInstr.play ⟨width, p.1, sigma.getD ((width : A) / ratio), none⟩ c)) ++ meas.map fun x => (x.1 + width, x.2))) := by
  unfold rabiSchedules
  refine mapM_eq_some _ _ _ fun p hp => ?_
  rw [hd]
  simp only [Option.bind_eq_bind, Option.bind_some, rabiSched_eq chs hn meas hm]
  rfl

/-- **C102** The names are the ones the fitter asks for. -/
theorem C102_rabi_names [Field A] (amps : List A) (qubits : List ℕ) (width : ℕ) (sigma : Option A) (ratio : A) (drives : List Chan)
    (meas : Sched A) (out : List (Str × Sched A)) (h : rabiSchedules amps qubits width sigma ratio drives meas = some out) :
    out.map (·.1) = rabiNames amps.length := by
  have hout : ∀ (l : List (A × ℕ)) (o : List (Str × Sched A)), (l.mapM fun p => do
      let chs ← drivesAt drives qubits
      some ("rabisched_".toList ++ fmtD p.2 ++ "_0".toList, rabiSched chs meas ⟨width, p.1, sigmaOf sigma width ratio, none⟩)) = some o →
      o.map (·.1) = l.map fun p => "rabisched_".toList ++ fmtD p.2 ++ "_0".toList := by
    intro l
    induction l with
    | nil => intro o ho; simp at ho; subst ho; rfl
    | cons p l ih =>
      intro o ho
      rw [List.mapM_cons] at ho
      cases hd : drivesAt drives qubits with
      | none => rw [hd] at ho; cases ho
      | some chs =>
        rw [hd] at ho
        simp only [Option.bind_eq_bind, Option.bind_some, Option.pure_def] at ho
        rw [hd] at ih
        simp only [Option.bind_eq_bind, Option.bind_some] at ih
        cases ht : (l.mapM fun p : A × ℕ => some ("rabisched_".toList ++ fmtD p.2 ++ "_0".toList, rabiSched chs meas ⟨width, p.1, sigmaOf sigma width ratio, none⟩)) with
        | none => rw [ht] at ho; cases ho
        | some t =>
          rw [ht] at ho
          simp only [Option.bind_some, Option.some.injEq] at ho
          subst ho
          rw [List.map_cons, List.map_cons, ih t ht]
  rw [hout _ _ h]
  unfold rabiNames
  apply List.ext_getElem (by simp)
  intro i _ _
  simp

theorem dragSched_eq [Field A] (qs : List (Chan × A)) (hn : (qs.map (·.1)).Nodup) (meas : Sched A) (hm : ∀ c ∈ channels meas, c ∉ qs.map (·.1))
    (width : ℕ) (sigma beta : A) :
    dragSched qs meas width sigma beta = qs.flatMap (fun q => [(0, PInstr.play ⟨width, q.2, sigma, some beta⟩ q.1),
      (width, PInstr.play ⟨width, -q.2, sigma, some beta⟩ q.1)]) ++ shift (2 * width) meas := by
  let pair : Chan × A → Sched A := fun q => [(0, PInstr.play ⟨width, q.2, sigma, some beta⟩ q.1), (width, PInstr.play ⟨width, -q.2, sigma, some beta⟩ q.1)]
  have hch : ∀ (l : List (Chan × A)) c, c ∈ channels (l.flatMap pair) ↔ c ∈ l.map (·.1) := by
    intro l c
    induction l with
    | nil => simp [channels]
    | cons q l ih =>
      rw [List.flatMap_cons, channels_append, List.mem_append, ih, List.map_cons, List.mem_cons]
      simp [channels, pair, PInstr.chans]
  have hstep : ∀ (s : Sched A) (q : Chan × A), q.1 ∉ channels s → append (append s [(0, .play ⟨width, q.2, sigma, some beta⟩ q.1)])
      [(0, .play ⟨width, -q.2, sigma, some beta⟩ q.1)] = s ++ pair q := by
    intro s q hq
    rw [append_free s _ (by simpa [channels, PInstr.chans] using hq)]
    unfold append
    have hf : (channels [((0 : ℕ), (PInstr.play ⟨width, -q.2, sigma, some beta⟩ q.1 : PInstr A))]).filter
        (fun c => decide (c ∈ channels (s ++ [(0, PInstr.play ⟨width, q.2, sigma, some beta⟩ q.1)]))) = [q.1] := by
      simp [channels, PInstr.chans]
    have hstop : chStop (s ++ [(0, PInstr.play ⟨width, q.2, sigma, some beta⟩ q.1)]) [q.1] = width := by
      have h0 : chStop s [q.1] = 0 := chStop_free s _ (by simpa using hq)
      unfold chStop at h0 ⊢
      rw [List.map_append, List.foldl_append, h0]
      simp [PInstr.chans, PInstr.dur]
    rw [hf, hstop]
    simp [shift, pair]
  have key : ∀ (rest done : List (Chan × A)), ((done ++ rest).map (·.1)).Nodup → rest.foldl (fun s q => append (append s [(0, .play ⟨width, q.2, sigma, some beta⟩ q.1)])
      [(0, .play ⟨width, -q.2, sigma, some beta⟩ q.1)]) (done.flatMap pair) = (done ++ rest).flatMap pair := by
    intro rest
    induction rest with
    | nil => intro done _; simp
    | cons q rest ih =>
      intro done hd
      have hc : q.1 ∉ done.map (·.1) := by
        rw [List.map_append, List.nodup_append] at hd
        exact fun h => hd.2.2 q.1 h q.1 (by simp) rfl
      rw [List.foldl_cons, hstep _ q (fun h => hc ((hch done q.1).1 h))]
      have := ih (done ++ [q]) (by simpa using hd)
      simpa using this
  unfold dragSched
  have := key qs [] (by simpa using hn)
  simp only [List.flatMap_nil, List.nil_append] at this
  rw [this, append_free _ _ (by
    intro c hc hc'
    rw [channels_shift] at hc
    exact hm c hc ((hch qs c).1 hc'))]

/-- **C102** `drag_schedules` returns one schedule per derivative amplitude; in each, every qubit is driven by a DRAG pulse with its own
amplitude and then by the same pulse with the opposite amplitude, and the measurement starts when the second pulse ends. -/
theorem C102_drag [Field A] (betas : List A) (qubits : List ℕ) (amps : List A) (width : ℕ) (sigma : Option A) (ratio : A) (drives chs : List Chan)
    (hd : drivesAt drives qubits = some chs) (hn : chs.Nodup) (meas : Sched A) (hm : ∀ c ∈ channels meas, c ∉ chs) (hl : qubits.length ≤ amps.length) :
    dragSchedules betas qubits amps width sigma ratio drives meas = some (betas.zipIdx.map fun p =>
      ("dragsched_".toList ++ fmtD p.2 ++ "_0".toList,
        (chs.zip amps).flatMap (fun q => [(0, PInstr.play ⟨width, q.2, sigma.getD ((width : A) / ratio), some p.1⟩ q.1),
          (width, PInstr.play ⟨width, -q.2, sigma.getD ((width : A) / ratio), some p.1⟩ q.1)]) ++ meas.map fun x => (x.1 + 2 * width, x.2))) := by
  unfold dragSchedules
  refine mapM_eq_some _ _ _ fun p hp => ?_
  rw [hd]
  have hlen : chs.length = qubits.length := by
    have : ∀ (l : List ℕ) (o : List Chan), (l.mapM fun q => drives[q]?) = some o → o.length = l.length := by
      intro l
      induction l with
      | nil => intro o ho; simp at ho; subst ho; rfl
      | cons q l ih =>
        intro o ho
        rw [List.mapM_cons] at ho
        cases h1 : drives[q]? with
        | none => rw [h1] at ho; cases ho
        | some c =>
          cases h2 : (l.mapM fun q => drives[q]?) with
          | none => rw [h1, h2] at ho; cases ho
          | some t => rw [h1, h2] at ho; simp at ho; subst ho; simp [ih t h2]
    exact this qubits chs hd
  have hz : (chs.zip amps).map (·.1) = chs := by
    rw [List.map_fst_zip (by omega)]
  simp only [Option.bind_eq_bind, Option.bind_some]
  rw [if_neg (by omega), dragSched_eq _ (by rw [hz]; exact hn) meas (by rw [hz]; exact hm)]
  rfl

theorem mapM_fst {α : Type} (f : α → Option (Str × Sched A)) (g : α → Str) (hf : ∀ x r, f x = some r → r.1 = g x) :
    ∀ (l : List α) (o : List (Str × Sched A)), l.mapM f = some o → o.map (·.1) = l.map g := by
  intro l
  induction l with
  | nil => intro o ho; simp at ho; subst ho; rfl
  | cons p l ih =>
    intro o ho
    rw [List.mapM_cons] at ho
    cases h1 : f p with
    | none => rw [h1] at ho; cases ho
    | some r =>
      cases h2 : l.mapM f with
      | none => rw [h1, h2] at ho; cases ho
      | some t =>
        rw [h1, h2] at ho
        simp only [Option.bind_eq_bind, Option.bind_some, Option.pure_def, Option.some.injEq] at ho
        subst ho
        rw [List.map_cons, List.map_cons, ih t h2, hf p r h1]

/-- **C102** The names are the ones the fitter asks for. -/
theorem C102_drag_names [Field A] (betas : List A) (qubits : List ℕ) (amps : List A) (width : ℕ) (sigma : Option A) (ratio : A) (drives : List Chan)
    (meas : Sched A) (out : List (Str × Sched A)) (h : dragSchedules betas qubits amps width sigma ratio drives meas = some out) :
    out.map (·.1) = dragNames betas.length := by
  rw [mapM_fst _ (fun p => "dragsched_".toList ++ fmtD p.2 ++ "_0".toList) ?_ _ _ h]
  · unfold dragNames
    apply List.ext_getElem (by simp)
    intro i _ _
    simp
  · intro p r hr
    cases hd : drivesAt drives qubits with
    | none => rw [hd] at hr; cases hr
    | some chs =>
      rw [hd] at hr
      simp only [Option.bind_eq_bind, Option.bind_some] at hr
      by_cases hl : amps.length < qubits.length
      · rw [if_pos hl] at hr; cases hr
      · rw [if_neg hl] at hr
        rw [← Option.some.inj hr]

/-- A device with two driven qubits and a joint readout. -/
example : drivesAt [.drive 0, .drive 1, .drive 2] [2, 0] = some [.drive 2, .drive 0]
    ∧ (rabiSchedules (A := ℚ) [1 / 2, 1] [2, 0] 160 none 4 [.drive 0, .drive 1, .drive 2] [(0, .other 1000 [.readout 2, .acquire 2])]).map
        (fun l => l.map (·.2)) = some [[(0, .play ⟨160, 1 / 2, 40, none⟩ (.drive 2)), (0, .play ⟨160, 1 / 2, 40, none⟩ (.drive 0)), (160, .other 1000 [.readout 2, .acquire 2])],
          [(0, .play ⟨160, 1, 40, none⟩ (.drive 2)), (0, .play ⟨160, 1, 40, none⟩ (.drive 0)), (160, .other 1000 [.readout 2, .acquire 2])]] := by
  decide +kernel

/-! ### C103: U2 and U3 -/

open Matrix Complex

/-- The rotation about Z. -/
noncomputable def rz (φ : ℝ) : Matrix (Fin 2) (Fin 2) ℂ := !![exp (-(φ / 2) * I), 0; 0, exp (φ / 2 * I)]

/-- The rotation about X by π/2. -/
noncomputable def x90M : Matrix (Fin 2) (Fin 2) ℂ := (1 / (Real.sqrt 2 : ℂ)) • !![1, -I; -I, 1]

/-- The frame of a drive channel and what has happened to the qubit: a pulse played in a frame of phase φ acts as the pulse conjugated by
the rotation of the frame. -/
structure Frame where
  phase : ℝ
  U : Matrix (Fin 2) (Fin 2) ℂ

/-- One instruction on the drive channel; `pulse` tells what each pulse does. -/
noncomputable def Frame.step (pulse : Pulse ℝ → Matrix (Fin 2) (Fin 2) ℂ) (f : Frame) (x : ℕ × PInstr ℝ) : Frame :=
  match x.2 with
  | .shiftPhase θ _ => ⟨f.phase + θ, f.U⟩
  | .play p _ => ⟨f.phase, rz f.phase * pulse p * rz (-f.phase) * f.U⟩
  | .other _ _ => f

/-- What a schedule does to the qubit of a drive channel, seen in the frame reached at its end. -/
noncomputable def gateOf (pulse : Pulse ℝ → Matrix (Fin 2) (Fin 2) ℂ) (s : Sched ℝ) (ch : Chan) : Matrix (Fin 2) (Fin 2) ℂ :=
  let f := (timeline s ch).foldl (Frame.step pulse) ⟨0, 1⟩
  rz (-f.phase) * f.U

/-- The gates of the circuit model. -/
noncomputable def u2M (φ lam : ℝ) : Matrix (Fin 2) (Fin 2) ℂ :=
  (1 / (Real.sqrt 2 : ℂ)) • !![1, -exp (lam * I); exp (φ * I), exp ((φ + lam) * I)]

noncomputable def u3M (θ φ lam : ℝ) : Matrix (Fin 2) (Fin 2) ℂ :=
  !![(Real.cos (θ / 2) : ℂ), -exp (lam * I) * (Real.sin (θ / 2) : ℂ); exp (φ * I) * (Real.sin (θ / 2) : ℂ), exp ((φ + lam) * I) * (Real.cos (θ / 2) : ℂ)]

theorem rz_mul (a b : ℝ) : rz a * rz b = rz (a + b) := by
  unfold rz
  rw [Matrix.mul_fin_two]
  simp only [mul_zero, zero_mul, add_zero, zero_add, ← Complex.exp_add]
  congr 3 <;> push_cast <;> ring_nf

theorem filter_group {B : Type} (group : List Chan) (hn : group.Nodup) (ch : Chan) (hc : ch ∈ group) (f : Chan → B) (P : B → Bool) (hP : ∀ c, P (f c) = decide (ch = c)) :
    (group.map f).filter P = [f ch] := by
  rw [List.filter_map]
  have : group.filter (P ∘ f) = [ch] := by
    have h1 : group.filter (P ∘ f) = group.filter (fun c => decide (ch = c)) := List.filter_congr fun c _ => hP c
    rw [h1]
    clear h1
    induction group with
    | nil => simp at hc
    | cons g group ih =>
      rw [List.nodup_cons] at hn
      rw [List.filter_cons]
      by_cases h : ch = g
      · subst h
        rw [if_pos (by simp)]
        congr 1
        rw [List.filter_eq_nil_iff]
        intro c hc' h
        exact hn.1 ((of_decide_eq_true h) ▸ hc')
      · rw [if_neg (by simpa using h)]
        exact ih hn.2 ((List.mem_cons.1 hc).resolve_left h)
  rw [this]
  rfl

/-- The instructions on the drive channel, in order. -/
theorem u2_timeline (ch : Chan) (p : Pulse ℝ) (hp : 0 < p.dur) (group : List Chan) (hn : group.Nodup) (hc : ch ∈ group) (p0 p1 : ℝ) :
    timeline (u2Sched Real.pi [(0, .play p ch)] p.dur group p0 p1) ch =
      [(0, .shiftPhase (-p1 + Real.pi / 2) ch), (0, .play p ch), (p.dur, .shiftPhase (-p0 + -Real.pi / 2) ch)] := by
  unfold timeline u2Sched
  rw [List.filter_append, List.filter_append, filter_group group hn ch hc _ _ (fun c => by simp [PInstr.chans]),
    filter_group group hn ch hc _ _ (fun c => by simp [PInstr.chans])]
  have hf : ([(0, PInstr.play p ch)] : Sched ℝ).filter (fun x => decide (ch ∈ x.2.chans)) = [(0, PInstr.play p ch)] := by simp [PInstr.chans]
  rw [hf]
  have hp' : ¬ p.dur = 0 := by omega
  simp [List.insertionSort, List.orderedInsert, PInstr.dur, hp, hp', Nat.ne_of_lt hp]

theorem u3_timeline (ch : Chan) (p : Pulse ℝ) (hp : 0 < p.dur) (group : List Chan) (hn : group.Nodup) (hc : ch ∈ group) (p0 p1 p2 : ℝ) :
    timeline (u3Sched Real.pi [(0, .play p ch)] p.dur group p0 p1 p2) ch =
      [(0, .shiftPhase (-p2 + 0) ch), (0, .play p ch), (p.dur, .shiftPhase (-p0 + -Real.pi) ch), (p.dur, .play p ch),
        (2 * p.dur, .shiftPhase (-p1 + Real.pi) ch)] := by
  unfold timeline u3Sched
  simp only [List.filter_append]
  rw [filter_group group hn ch hc _ _ (fun c => by simp [PInstr.chans]),
    filter_group group hn ch hc _ _ (fun c => by simp [PInstr.chans]), filter_group group hn ch hc _ _ (fun c => by simp [PInstr.chans])]
  have hf : ([(0, PInstr.play p ch)] : Sched ℝ).filter (fun x => decide (ch ∈ x.2.chans)) = [(0, PInstr.play p ch)] := by simp [PInstr.chans]
  have hf2 : (shift p.dur ([(0, PInstr.play p ch)] : Sched ℝ)).filter (fun x => decide (ch ∈ x.2.chans)) = [(p.dur, PInstr.play p ch)] := by
    simp [PInstr.chans, shift]
  rw [hf, hf2]
  have hp' : ¬ p.dur = 0 := by omega
  have h2 : p.dur < 2 * p.dur := by omega
  have h3 : 0 < 2 * p.dur := by omega
  simp [List.insertionSort, List.orderedInsert, PInstr.dur, hp, hp', Nat.ne_of_lt hp, h2, h3]

theorem frame_conj (P : Matrix (Fin 2) (Fin 2) ℂ) (a b : ℝ) : rz (-(a + b)) * (rz a * P * rz (-a)) = rz (-b) * P * rz (-a) := by
  rw [← Matrix.mul_assoc, ← Matrix.mul_assoc, rz_mul]
  congr 3
  ring

theorem groupOf_ok (groups : List (List Chan)) (hg : ∀ g ∈ groups, g.Nodup) (ch : Chan) :
    (groupOf groups ch).Nodup ∧ ch ∈ groupOf groups ch := by
  unfold groupOf
  cases h : groups.find? fun g => decide (ch ∈ g) with
  | none => simp
  | some g =>
    have h2 := List.find?_some h
    exact ⟨hg g (List.mem_of_find?_eq_some h), of_decide_eq_true h2⟩

theorem exp_add_quarter (x : ℂ) : exp (x + Real.pi / 2 * I) = exp x * I := by rw [Complex.exp_add, Complex.exp_pi_div_two_mul_I]

theorem exp_sub_quarter (x : ℂ) : exp (x - Real.pi / 2 * I) = -(exp x * I) := by
  rw [Complex.exp_sub, Complex.exp_pi_div_two_mul_I, div_eq_mul_inv, Complex.inv_I]; ring

theorem rz_sub_pi (a : ℝ) : rz (a - Real.pi) = !![exp (-(a / 2) * I) * I, 0; 0, -(exp (a / 2 * I) * I)] := by
  unfold rz
  rw [← exp_add_quarter, ← exp_sub_quarter]
  congr 3 <;> push_cast <;> ring_nf

theorem rz_add_pi (a : ℝ) : rz (a + Real.pi) = !![-(exp (-(a / 2) * I) * I), 0; 0, exp (a / 2 * I) * I] := by
  unfold rz
  rw [← exp_sub_quarter, ← exp_add_quarter]
  congr 3 <;> push_cast <;> ring_nf

theorem half_sqrt : (1 / (Real.sqrt 2 : ℂ)) * (1 / (Real.sqrt 2 : ℂ)) = 1 / 2 := by
  rw [div_mul_div_comm, ← Complex.ofReal_mul, Real.mul_self_sqrt (by norm_num)]
  norm_num

theorem x_rz_x (θ : ℝ) : x90M * rz (θ + Real.pi) * x90M =
    I • !![-(Real.cos (θ / 2) : ℂ), (Real.sin (θ / 2) : ℂ); (Real.sin (θ / 2) : ℂ), (Real.cos (θ / 2) : ℂ)] := by
  rw [rz_add_pi]
  unfold x90M
  rw [Matrix.mul_smul, Matrix.smul_mul, Matrix.smul_mul, smul_smul, half_sqrt, Matrix.mul_fin_two, Matrix.mul_fin_two]
  have hp : exp ((θ : ℂ) / 2 * I) = (Real.cos (θ / 2) : ℂ) + (Real.sin (θ / 2) : ℂ) * I := by
    rw [Complex.exp_mul_I]; push_cast; rfl
  have hm : exp (-((θ : ℂ) / 2) * I) = (Real.cos (θ / 2) : ℂ) - (Real.sin (θ / 2) : ℂ) * I := by
    rw [Complex.exp_mul_I, Complex.cos_neg, Complex.sin_neg]; push_cast; ring
  rw [hp, hm]
  generalize (Real.cos (θ / 2) : ℂ) = c
  generalize (Real.sin (θ / 2) : ℂ) = s
  have hI : I * I = -1 := Complex.I_mul_I
  ext i j
  fin_cases i <;> fin_cases j
  · simp; linear_combination (c * I / 2 + s * I * I / 2) * hI
  · simp; linear_combination (-s * I) * hI
  · simp; linear_combination (-s * I) * hI
  · simp; linear_combination (-c * I / 2 + s * I * I / 2) * hI

/-- **C103** With an ideal π/2 pulse about X, the schedule installed for U2 performs U2(P0, P1), up to a global phase, for all
parameters. -/
theorem C103_u2 (ch : Chan) (p : Pulse ℝ) (hp : 0 < p.dur) (pulse : Pulse ℝ → Matrix (Fin 2) (Fin 2) ℂ) (hx : pulse p = x90M)
    (groups : List (List Chan)) (hg : ∀ g ∈ groups, g.Nodup) (p0 p1 : ℝ) :
    ∃ c : ℂ, ‖c‖ = 1 ∧ gateOf pulse (u2Sched Real.pi [(0, .play p ch)] p.dur (groupOf groups ch) p0 p1) ch = c • u2M p0 p1 := by
  have hgr := groupOf_ok groups hg ch
  refine ⟨exp (-((p0 + p1) / 2 : ℝ) * I), ?_, ?_⟩
  · rw [← Complex.ofReal_neg]; exact Complex.norm_exp_ofReal_mul_I _
  · unfold gateOf
    rw [u2_timeline ch p hp _ hgr.1 hgr.2]
    simp only [List.foldl_cons, List.foldl_nil, Frame.step, hx, zero_add, Matrix.mul_one]
    rw [frame_conj]
    have e1 : -(-p0 + -Real.pi / 2) = p0 + Real.pi / 2 := by ring
    have e2 : -(-p1 + Real.pi / 2) = p1 - Real.pi / 2 := by ring
    rw [e1, e2]
    unfold rz x90M u2M
    rw [Matrix.mul_smul, Matrix.smul_mul, Matrix.mul_fin_two, Matrix.mul_fin_two, smul_comm]
    congr 1
    ext i j
    fin_cases i <;> fin_cases j
    · simp [← Complex.exp_add]
      congr 1; ring
    · have : exp (-(((p0 + Real.pi / 2 : ℝ) : ℂ) / 2) * I) * exp (((p1 - Real.pi / 2 : ℝ) : ℂ) / 2 * I) = -(exp (-(((p0 + p1) / 2 : ℝ) : ℂ) * I) * exp (p1 * I) * I) := by
        rw [← Complex.exp_add, ← Complex.exp_add, ← exp_sub_quarter]
        congr 1; push_cast; ring
      simp only [Fin.mk_zero, Fin.mk_one, Fin.zero_eta, Fin.isValue, Matrix.of_apply, Matrix.cons_val', Matrix.cons_val_zero, Matrix.cons_val_one, Matrix.smul_apply, smul_eq_mul, Matrix.cons_val_fin_one]
      linear_combination -I * this + (exp (-(((p0 + p1) / 2 : ℝ) : ℂ) * I) * exp (p1 * I)) * Complex.I_mul_I
    · have : exp (((p0 + Real.pi / 2 : ℝ) : ℂ) / 2 * I) * exp (-(((p1 - Real.pi / 2 : ℝ) : ℂ) / 2) * I) = exp (-(((p0 + p1) / 2 : ℝ) : ℂ) * I) * exp (p0 * I) * I := by
        rw [← Complex.exp_add, ← Complex.exp_add, ← exp_add_quarter]
        congr 1; push_cast; ring
      simp only [Fin.mk_zero, Fin.mk_one, Fin.zero_eta, Fin.isValue, Matrix.of_apply, Matrix.cons_val', Matrix.cons_val_zero, Matrix.cons_val_one, Matrix.smul_apply, smul_eq_mul, Matrix.cons_val_fin_one]
      linear_combination -I * this - (exp (-(((p0 + p1) / 2 : ℝ) : ℂ) * I) * exp (p0 * I)) * Complex.I_mul_I
    · simp [← Complex.exp_add]
      congr 1; ring

/-- **C103** With an ideal π/2 pulse about X, the schedule installed for U3 performs U3(P0, P1, P2), up to a global phase, for all
parameters. -/
theorem C103_u3 (ch : Chan) (p : Pulse ℝ) (hp : 0 < p.dur) (pulse : Pulse ℝ → Matrix (Fin 2) (Fin 2) ℂ) (hx : pulse p = x90M)
    (groups : List (List Chan)) (hg : ∀ g ∈ groups, g.Nodup) (p0 p1 p2 : ℝ) :
    ∃ c : ℂ, ‖c‖ = 1 ∧ gateOf pulse (u3Sched Real.pi [(0, .play p ch)] p.dur (groupOf groups ch) p0 p1 p2) ch = c • u3M p0 p1 p2 := by
  have hgr := groupOf_ok groups hg ch
  refine ⟨exp (-((p1 + p2) / 2 : ℝ) * I), ?_, ?_⟩
  · rw [← Complex.ofReal_neg]; exact Complex.norm_exp_ofReal_mul_I _
  · unfold gateOf
    rw [u3_timeline ch p hp _ hgr.1 hgr.2]
    simp only [List.foldl_cons, List.foldl_nil, Frame.step, hx, zero_add, add_zero, Matrix.mul_one]
    have e : rz (-(-p2 + (-p0 + -Real.pi) + (-p1 + Real.pi))) * (rz (-p2 + (-p0 + -Real.pi)) * x90M * rz (-(-p2 + (-p0 + -Real.pi))) * (rz (-p2) * x90M * rz (-(-p2))))
        = rz (p1 - Real.pi) * (x90M * rz (p0 + Real.pi) * x90M) * rz p2 := by
      have h1 : rz (p1 - Real.pi) = rz (-(-p2 + (-p0 + -Real.pi) + (-p1 + Real.pi))) * rz (-p2 + (-p0 + -Real.pi)) := by
        rw [rz_mul]; congr 1; ring
      have h2 : rz (p0 + Real.pi) = rz (-(-p2 + (-p0 + -Real.pi))) * rz (-p2) := by
        rw [rz_mul]; congr 1; ring
      rw [h1, h2, neg_neg]
      simp only [Matrix.mul_assoc]
    rw [e, x_rz_x, rz_sub_pi]
    unfold rz u3M
    rw [Matrix.mul_smul, Matrix.smul_mul, Matrix.mul_fin_two, Matrix.mul_fin_two]
    have f00 : exp (-(((p1 + p2) / 2 : ℝ) : ℂ) * I) = exp (-((p1 : ℂ) / 2) * I) * exp (-((p2 : ℂ) / 2) * I) := by
      rw [← Complex.exp_add]; congr 1; push_cast; ring
    have f2 : exp (p2 * I) = exp ((p2 : ℂ) / 2 * I) * exp ((p2 : ℂ) / 2 * I) := by rw [← Complex.exp_add]; congr 1; ring
    have f1 : exp (p1 * I) = exp ((p1 : ℂ) / 2 * I) * exp ((p1 : ℂ) / 2 * I) := by rw [← Complex.exp_add]; congr 1; ring
    have f12 : exp ((p1 + p2) * I) = exp (p1 * I) * exp (p2 * I) := by rw [← Complex.exp_add]; congr 1; ring
    have g2 : exp (-((p2 : ℂ) / 2) * I) * exp ((p2 : ℂ) / 2 * I) = 1 := by rw [← Complex.exp_add, neg_mul, neg_add_cancel, Complex.exp_zero]
    have g1 : exp (-((p1 : ℂ) / 2) * I) * exp ((p1 : ℂ) / 2 * I) = 1 := by rw [← Complex.exp_add, neg_mul, neg_add_cancel, Complex.exp_zero]
    rw [f12, f00, f1, f2]
    revert g1 g2
    generalize exp (-((p1 : ℂ) / 2) * I) = a
    generalize exp (-((p2 : ℂ) / 2) * I) = b
    generalize exp ((p1 : ℂ) / 2 * I) = a'
    generalize exp ((p2 : ℂ) / 2 * I) = b'
    generalize (Real.cos (p0 / 2) : ℂ) = c
    generalize (Real.sin (p0 / 2) : ℂ) = s
    intro g2 g1
    have hI : I * I = -1 := Complex.I_mul_I
    ext i j
    fin_cases i <;> fin_cases j <;>
      simp only [Fin.mk_zero, Fin.mk_one, Fin.zero_eta, Fin.isValue, Matrix.of_apply, Matrix.cons_val', Matrix.cons_val_zero, Matrix.cons_val_one, Matrix.smul_apply, smul_eq_mul, Matrix.cons_val_fin_one]
    · linear_combination (-a * b * c) * hI
    · linear_combination (a * b' * s) * hI + (a * b' * s) * g2
    · linear_combination (-a' * b * s) * hI - (a' * b * s) * g1
    · linear_combination (-a' * b' * c) * hI - (a' * b' * c) * g1 - (a * a' * a' * b' * c) * g2

/-- **C103** Every other channel of the group gets exactly the phase shifts of the drive channel, at the same times. -/
theorem C103_follow (ch ch' : Chan) (p : Pulse ℝ) (group : List Chan) (hn : group.Nodup) (hc : ch' ∈ group) (hne : ch' ≠ ch) (p0 p1 p2 : ℝ) :
    (u2Sched Real.pi [(0, .play p ch)] p.dur group p0 p1).filter (fun x => decide (ch' ∈ x.2.chans)) =
      [(0, .shiftPhase (-p1 + Real.pi / 2) ch'), (p.dur, .shiftPhase (-p0 + -Real.pi / 2) ch')]
    ∧ (u3Sched Real.pi [(0, .play p ch)] p.dur group p0 p1 p2).filter (fun x => decide (ch' ∈ x.2.chans)) =
      [(0, .shiftPhase (-p2 + 0) ch'), (p.dur, .shiftPhase (-p0 + -Real.pi) ch'), (2 * p.dur, .shiftPhase (-p1 + Real.pi) ch')] := by
  have hf : ∀ t, ([(t, PInstr.play p ch)] : Sched ℝ).filter (fun x => decide (ch' ∈ x.2.chans)) = [] := by
    intro t; simp [PInstr.chans, hne]
  have hs : shift p.dur ([(0, PInstr.play p ch)] : Sched ℝ) = [(p.dur, PInstr.play p ch)] := by simp [shift]
  constructor
  · unfold u2Sched
    rw [List.filter_append, List.filter_append, filter_group group hn ch' hc _ _ (fun c => by simp [PInstr.chans]),
      filter_group group hn ch' hc _ _ (fun c => by simp [PInstr.chans]), hf]
    rfl
  · unfold u3Sched
    simp only [List.filter_append]
    rw [filter_group group hn ch' hc _ _ (fun c => by simp [PInstr.chans]),
      filter_group group hn ch' hc _ _ (fun c => by simp [PInstr.chans]), filter_group group hn ch' hc _ _ (fun c => by simp [PInstr.chans]), hs, hf, hf]
    rfl

/-- **C103** The group used is the first group the channel is in, and the channel alone when it is in none. -/
theorem C103_group (groups : List (List Chan)) (ch : Chan) : ch ∈ groupOf groups ch
    ∧ (groupOf groups ch ∈ groups ∨ ((∀ g ∈ groups, ch ∉ g) ∧ groupOf groups ch = [ch])) := by
  unfold groupOf
  cases h : groups.find? fun g => decide (ch ∈ g) with
  | none =>
    refine ⟨by simp, Or.inr ⟨fun g hg hc => ?_, rfl⟩⟩
    exact List.find?_eq_none.1 h g hg (by simpa using hc)
  | some g =>
    have h2 := List.find?_some h
    exact ⟨of_decide_eq_true h2, Or.inl (List.mem_of_find?_eq_some h)⟩

/-- The channels whose phase is shifted by `ph` at time `t`. -/
def shiftedAt {A : Type} [DecidableEq A] (s : Sched A) (t : ℕ) (ph : A) : List Chan :=
  s.filterMap fun x => match x.2 with
    | .shiftPhase ph' ch => if x.1 = t ∧ ph' = ph then some ch else none
    | _ => none

theorem sync_get {A : Type} [DecidableEq A] (s : Sched A) :
    Dict.WF (s.foldl syncStep []) ∧ ∀ k : ℕ × A, Dict.get? (s.foldl syncStep []) k = if shiftedAt s k.1 k.2 = [] then none else some (shiftedAt s k.1 k.2) := by
  induction s using List.reverseRecOn with
  | nil => exact ⟨Dict.wf_nil, fun k => by simp [shiftedAt, Dict.get?]⟩
  | append_singleton s x ih =>
    obtain ⟨h1, h2⟩ := ih
    rw [List.foldl_append]
    simp only [List.foldl_cons, List.foldl_nil]
    have hx : ∀ t ph, shiftedAt (s ++ [x]) t ph = shiftedAt s t ph ++ shiftedAt [x] t ph := fun t ph => by unfold shiftedAt; rw [List.filterMap_append]
    obtain ⟨t', i⟩ := x
    cases i with
    | play p c => exact ⟨h1, fun k => by rw [hx, show shiftedAt [(t', PInstr.play p c)] k.1 k.2 = [] from rfl, List.append_nil]; exact h2 k⟩
    | other n c => exact ⟨h1, fun k => by rw [hx, show shiftedAt [(t', (PInstr.other n c : PInstr A))] k.1 k.2 = [] from rfl, List.append_nil]; exact h2 k⟩
    | shiftPhase ph' c =>
      refine ⟨Dict.wf_set _ h1 _ _, fun k => ?_⟩
      show Dict.get? (Dict.set _ (t', ph') (Dict.getD _ (t', ph') [] ++ [c])) k = _
      rw [Dict.get?_set, hx]
      by_cases h : (t', ph') = k
      · subst h
        have : Dict.getD (s.foldl syncStep []) (t', ph') [] = shiftedAt s t' ph' := by
          unfold Dict.getD
          rw [h2]
          by_cases h0 : shiftedAt s t' ph' = []
          · simp [h0]
          · simp [h0]
        simp [this, shiftedAt]
      · have h' : ¬ k = (t', ph') := fun e => h e.symm
        have : ¬ (t' = k.1 ∧ ph' = k.2) := fun e => h (by rw [e.1, e.2])
        have h3 : shiftedAt [(t', PInstr.shiftPhase ph' c)] k.1 k.2 = [] := by
          unfold shiftedAt
          rw [List.filterMap_cons]
          simp [this]
        simp [h, h', h2, h3]

/-- **C103** Two channels are taken to share a frame exactly when the device's own schedule of the gate shifts them by the same phase at
the same time. -/
theorem C103_groups {A : Type} [DecidableEq A] (s : Sched A) (g : List Chan) :
    g ∈ findChannelGroups s ↔ ∃ t ph, g = shiftedAt s t ph ∧ g ≠ [] := by
  obtain ⟨h1, h2⟩ := sync_get s
  unfold findChannelGroups
  rw [List.mem_dedup, List.mem_map]
  constructor
  · rintro ⟨⟨k, v⟩, hk, rfl⟩
    have := Dict.get?_of_mem _ h1 k v hk
    rw [h2] at this
    by_cases h0 : shiftedAt s k.1 k.2 = []
    · rw [if_pos h0] at this; cases this
    · rw [if_neg h0] at this
      exact ⟨k.1, k.2, (Option.some.inj this).symm, (Option.some.inj this) ▸ h0⟩
  · rintro ⟨t, ph, rfl, hne⟩
    exact ⟨((t, ph), shiftedAt s t ph), Dict.get?_mem _ _ _ (by rw [h2, if_neg hne]), rfl⟩

/-- The groups of a U2 on a device where a control channel follows the drive channel. -/
example : findChannelGroups (A := ℚ) [(0, .shiftPhase 1 (.drive 0)), (0, .shiftPhase 1 (.control 3)), (0, .play ⟨160, 1, 40, none⟩ (.drive 0)),
      (160, .shiftPhase (-1) (.drive 0)), (160, .shiftPhase (-1) (.control 3))] = [[.drive 0, .control 3]]
    ∧ groupOf [[.drive 0, .control 3]] (.drive 0) = [.drive 0, .control 3] ∧ groupOf [[.drive 0, .control 3]] (.drive 1) = [.drive 1] := by
  decide +kernel

end Verif.Calib
