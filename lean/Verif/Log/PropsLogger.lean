import Verif.Log.Model
set_option linter.unusedSimpArgs false
/-
C97: where the output of a logger goes.
-/
namespace Verif.Log
open Verif

/-! ### Specification -/

/-- The ordinary messages of a history. -/
def messages : List Op → List Str
  | [] => []
  | .log m :: ops => m :: messages ops
  | _ :: ops => messages ops

/-- The lines logged to the file, given whether file logging is on at the start. -/
def fileLines' (on : Bool) : List Op → List Str
  | [] => []
  | .logToFile m :: ops => if on then m :: fileLines' on ops else fileLines' on ops
  | .enable :: ops => fileLines' true ops
  | .disable :: ops => fileLines' false ops
  | _ :: ops => fileLines' on ops

/-- Whether something was logged to the file while file logging was off. -/
def refused (on : Bool) : List Op → Bool
  | [] => false
  | .logToFile _ :: ops => !on || refused on ops
  | .enable :: ops => refused true ops
  | .disable :: ops => refused false ops
  | _ :: ops => refused on ops

/-- The history asks for the logger no further time. -/
def noGet : List Op → Bool
  | [] => true
  | .getLogger :: _ => false
  | _ :: ops => noGet ops

/-! ### Proof -/

/-- The state between operations. -/
structure Inv (s : State) : Prop where
  handlers : s.handlers = [s.streamHandler]
  stream : ∃ n, s.streamHandler = .stream n

theorem run_inv (conf : Bool) (ops : List Op) (hops : noGet ops = true) : ∀ s, Inv s → ∃ s', run conf s ops = some s' ∧ Inv s' ∧
    s'.console = s.console ++ messages ops ∧ s'.file = s.file ++ fileLines' s.enabled ops ∧
    s'.warned = (s.warned || refused s.enabled ops) ∧
    s'.warnings = s.warnings + (if s.warned then 0 else if refused s.enabled ops then 1 else 0) := by
  induction ops with
  | nil =>
    intro s h
    refine ⟨s, rfl, h, ?_⟩
    simp [messages, fileLines', refused]
  | cons op ops ih =>
    intro s h
    obtain ⟨n, hn⟩ := h.stream
    have hh := h.handlers
    have hrun : ∀ s1, step conf s op = some s1 → run conf s (op :: ops) = run conf s1 ops := by
      intro s1 hs
      unfold run
      rw [List.foldlM_cons, hs]
      rfl
    cases op with
    | getLogger => simp [noGet] at hops
    | enable =>
      obtain ⟨s', h1, h2⟩ := ih hops { s with enabled := true } ⟨hh, n, hn⟩
      exact ⟨s', (hrun _ rfl).trans h1, h2⟩
    | disable =>
      obtain ⟨s', h1, h2⟩ := ih hops { s with enabled := false } ⟨hh, n, hn⟩
      exact ⟨s', (hrun _ rfl).trans h1, h2⟩
    | log m =>
      have hs : step conf s (.log m) = some { s with console := s.console ++ [m] } := by
        simp [step, emit, hh, hn, emitTo]
      obtain ⟨s', h1, h2, h3, h4⟩ := ih hops { s with console := s.console ++ [m] } ⟨hh, n, hn⟩
      exact ⟨s', (hrun _ hs).trans h1, h2, by simpa [messages] using h3, h4⟩
    | logToFile m =>
      cases he : s.enabled with
      | false =>
        cases hw : s.warned with
        | true =>
          have hs : step conf s (.logToFile m) = some s := by simp [step, logToFile, he, hw]
          obtain ⟨s', h1, h2, h3, h4, h5, h6⟩ := ih hops s h
          refine ⟨s', (hrun _ hs).trans h1, h2, h3, ?_, ?_, ?_⟩
          · simpa [fileLines', he] using h4
          · simpa [hw] using h5
          · simpa [hw] using h6
        | false =>
          have hs : step conf s (.logToFile m) = some { s with warned := true, warnings := s.warnings + 1 } := by
            simp [step, logToFile, he, hw]
          obtain ⟨s', h1, h2, h3, h4, h5, h6⟩ := ih hops { s with warned := true, warnings := s.warnings + 1 } ⟨hh, n, hn⟩
          refine ⟨s', (hrun _ hs).trans h1, h2, h3, ?_, ?_, ?_⟩
          · simpa [fileLines', he] using h4
          · simpa [refused] using h5
          · simpa [refused] using h6
      | true =>
        have hs : step conf s (.logToFile m) = some { s with file := s.file ++ [m] } := by
          simp [step, logToFile, he, hh, hn, addHandler, removeHandler, emit, emitTo]
        obtain ⟨s', h1, h2, h3, h4, h5, h6⟩ := ih hops { s with file := s.file ++ [m] } ⟨hh, n, hn⟩
        refine ⟨s', (hrun _ hs).trans h1, h2, h3, ?_, ?_, ?_⟩
        · simpa [fileLines', he] using h4
        · simpa [refused, he] using h5
        · simpa [refused, he] using h6

/-- **C97** For a logger obtained once and then used in any way: every ordinary message appears on the console once and in order,
nothing else appears there, the file receives exactly the lines logged while file logging was on, and one warning is issued if
any line was refused. -/
theorem C97_logger (conf : Bool) (ops : List Op) (hops : noGet ops = true) : ∃ s, run conf {} (.getLogger :: ops) = some s ∧
    s.console = messages ops ∧ s.file = fileLines' conf ops ∧ s.warnings = if refused conf ops then 1 else 0 := by
  have h0 : getLogger conf {} = { enabled := conf, streamHandler := .stream 0, handlers := [.stream 0], made := 1 : State } := by
    cases conf <;> rfl
  obtain ⟨s', h1, _, h3, h4, _, h6⟩ := run_inv conf ops hops (getLogger conf {}) (by rw [h0]; exact ⟨rfl, 0, rfl⟩)
  refine ⟨s', ?_, ?_, ?_, ?_⟩
  · unfold run
    rw [List.foldlM_cons]
    exact h1
  · rw [h0] at h3; simpa using h3
  · rw [h0] at h4; simpa using h4
  · rw [h0] at h6; simpa using h6

example : noGet [.log ['a'], .logToFile ['b'], .disable, .logToFile ['c'], .logToFile ['d'], .log ['e']] = true
    ∧ fileLines' true [.log ['a'], .logToFile ['b'], .disable, .logToFile ['c'], .logToFile ['d'], .log ['e']] = [['b']] := by decide

/-- **C97 (finding)** Asking for the same logger twice duplicates every console message and sends the lines meant for the file to the
console as well. -/
theorem C97_finding_twice :
    (run true {} [.getLogger, .getLogger, .log ['a'], .logToFile ['b']]).map (fun s => (s.console, s.file)) = some ([['a'], ['a'], ['b']], [['b']]) := by
  decide

/-- **C97 (finding)** A logger not obtained through `get_logger` breaks after its first line logged to the file: the missing stream
handler has been added as a handler, and the next message fails. -/
theorem C97_finding_none : (run true {} [.enable, .logToFile ['b']]).isSome = true ∧ run true {} [.enable, .logToFile ['b'], .log ['a']] = none := by
  decide

end Verif.Log
