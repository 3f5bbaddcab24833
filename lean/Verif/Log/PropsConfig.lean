import Verif.Log.PropsRead
import Verif.Py.DictLemmas
import Verif.Py.Fmt
set_option linter.unusedSimpArgs false
/-
C98: the logging configuration file.
-/
namespace Verif.Log
open Verif

/-! ### Specification -/

/-- A line of the configuration file: `key : value`, with blanks anywhere around the two and possibly a comment, or a line without a
setting. -/
inductive ConfLine
  | setting (b1 key b2 b3 value b4 : Str) (comment : Option Str)
  | other (text : Str) (comment : Option Str)

/-- A comment as written. -/
def commentText : Option Str → Str
  | none => []
  | some c => '#' :: c

/-- A line as written. -/
def ConfLine.text : ConfLine → Str
  | .setting b1 k b2 b3 v b4 c => b1 ++ k ++ b2 ++ [':'] ++ (b3 ++ v ++ b4) ++ commentText c
  | .other t c => t ++ commentText c

/-- Only white space, within one line. -/
def Blank (s : Str) : Prop := ∀ c ∈ s, isSpace c = true ∧ c ≠ '\n' ∧ c ≠ '\r'

/-- A text within one line. -/
def OneLine (s : Str) : Prop := ∀ c ∈ s, c ≠ '\n' ∧ c ≠ '\r'

/-- A word that can be configured: lower case, within one line, no colon and no `#`, no white space at its ends. -/
def Word (s : Str) : Prop := OneLine s ∧ lower s = s ∧ ':' ∉ s ∧ '#' ∉ s ∧ (∀ c ∈ s.head?, isSpace c = false) ∧ ∀ c ∈ s.getLast?, isSpace c = false

def ConfLine.Good : ConfLine → Prop
  | .setting b1 k b2 b3 v b4 c => Blank b1 ∧ Blank b2 ∧ Blank b3 ∧ Blank b4 ∧ Word k ∧ Word v ∧ OneLine (commentText c)
  | .other t c => OneLine t ∧ ':' ∉ t ∧ '#' ∉ t ∧ OneLine (commentText c)

instance (s : Str) : Decidable (Blank s) := inferInstanceAs (Decidable (∀ _ ∈ _, _))
instance (s : Str) : Decidable (OneLine s) := inferInstanceAs (Decidable (∀ _ ∈ _, _))
instance (s : Str) : Decidable (Word s) := by unfold Word; infer_instance
instance (l : ConfLine) : Decidable l.Good := by cases l <;> unfold ConfLine.Good <;> infer_instance

/-- The last value the lines give to a key. -/
def lastValue (k : Str) : List ConfLine → Option Str
  | [] => none
  | .other _ _ :: ls => lastValue k ls
  | .setting _ k' _ _ v _ _ :: ls => match lastValue k ls with
    | some w => some w
    | none => if k' = k then some v else none

/-- The text of a configuration file. -/
def confText (ls : List ConfLine) : Str := ls.flatMap fun l => l.text ++ ['\n']

/-! ### Proof -/

theorem dropWhile_all (p : Char → Bool) (w s : Str) (h : ∀ c ∈ w, p c = true) : (w ++ s).dropWhile p = s.dropWhile p := by
  induction w with
  | nil => rfl
  | cons a w ih => rw [List.cons_append, List.dropWhile_cons, if_pos (h a (by simp)), ih fun c hc => h c (by simp [hc])]

theorem dropWhile_head (p : Char → Bool) (s : Str) (h : ∀ c ∈ s.head?, p c = false) : s.dropWhile p = s := by
  cases s with
  | nil => rfl
  | cons a s => rw [List.dropWhile_cons, if_neg (by simp [h a (by simp)])]

theorem strip_word (w1 s w2 : Str) (h1 : ∀ c ∈ w1, isSpace c = true) (h2 : ∀ c ∈ w2, isSpace c = true)
    (hs1 : ∀ c ∈ s.head?, isSpace c = false) (hs2 : ∀ c ∈ s.getLast?, isSpace c = false) : stripChars isSpace (w1 ++ s ++ w2) = s := by
  unfold stripChars
  rw [List.append_assoc, dropWhile_all _ _ _ h1]
  cases s with
  | nil =>
    have := dropWhile_all isSpace w2 [] h2
    rw [List.append_nil] at this
    rw [List.nil_append, this]; rfl
  | cons a s =>
    rw [dropWhile_head isSpace (a :: s ++ w2) (by simpa using hs1), List.reverse_append, dropWhile_all _ _ _ (by simpa using h2),
      dropWhile_head isSpace (a :: s).reverse (by rw [List.head?_reverse]; exact hs2), List.reverse_reverse]

theorem blank_not {s : Str} (h : Blank s) (c : Char) (hc : isSpace c = false) : c ∉ s := by
  intro hm
  rw [(h c hm).1] at hc
  cases hc

theorem uncomment (t : Str) (c : Option Str) (h : '#' ∉ t) :
    (if (t ++ commentText c).contains '#' then (t ++ commentText c).takeWhile (· ≠ '#') else t ++ commentText c) = t := by
  cases c with
  | none =>
    rw [commentText, List.append_nil, if_neg (by rw [List.contains_iff_mem]; exact h)]
  | some c =>
    rw [if_pos (by rw [List.contains_iff_mem]; simp [commentText]), List.takeWhile_append_of_pos, commentText, List.takeWhile_cons]
    · simp
    · intro a ha
      simp only [ne_eq, decide_not, Bool.not_eq_true', decide_eq_false_iff_not]
      exact fun e => h (e ▸ ha)

theorem configLine_setting (cfg : Dict Str Str) (b1 k b2 b3 v b4 : Str) (c : Option Str) (h : (ConfLine.setting b1 k b2 b3 v b4 c).Good) :
    configLine cfg (ConfLine.setting b1 k b2 b3 v b4 c).text = cfg.set k v := by
  obtain ⟨h1, h2, h3, h4, ⟨_, hk2, hk3, hk4, hk5, hk6⟩, ⟨_, hv2, hv3, hv4, hv5, hv6⟩, _⟩ := h
  unfold configLine ConfLine.text
  rw [uncomment _ c (by
    simp only [List.mem_append, List.mem_singleton, not_or]
    exact ⟨⟨⟨⟨blank_not h1 _ (by decide), hk4⟩, blank_not h2 _ (by decide)⟩, by decide⟩, ⟨blank_not h3 _ (by decide), hv4⟩, blank_not h4 _ (by decide)⟩)]
  have hs : splitChar ':' (b1 ++ k ++ b2 ++ [':'] ++ (b3 ++ v ++ b4)) = [b1 ++ k ++ b2, b3 ++ v ++ b4] := by
    rw [List.append_assoc _ [':'], List.singleton_append, splitChar_append ':' _ _ (by
      simp only [List.mem_append, not_or]
      exact ⟨⟨blank_not h1 _ (by decide), hk3⟩, blank_not h2 _ (by decide)⟩), splitChar_noSep ':' _ (by
      simp only [List.mem_append, not_or]
      exact ⟨⟨blank_not h3 _ (by decide), hv3⟩, blank_not h4 _ (by decide)⟩)]
  dsimp only
  rw [hs]
  dsimp only
  rw [strip_word b1 k b2 (fun c hc => (h1 c hc).1) (fun c hc => (h2 c hc).1) hk5 hk6, hk2,
    strip_word b3 v b4 (fun c hc => (h3 c hc).1) (fun c hc => (h4 c hc).1) hv5 hv6, hv2]

theorem configLine_other (cfg : Dict Str Str) (t : Str) (c : Option Str) (h : (ConfLine.other t c).Good) :
    configLine cfg (ConfLine.other t c).text = cfg := by
  obtain ⟨_, h2, h3, _⟩ := h
  unfold configLine ConfLine.text
  rw [uncomment _ c h3]
  dsimp only
  rw [splitChar_noSep ':' _ h2]

theorem text_oneLine (l : ConfLine) (h : l.Good) : OneLine l.text := by
  have hb : ∀ {s}, Blank s → OneLine s := fun h c hc => (h c hc).2
  have ha : ∀ {s t}, OneLine s → OneLine t → OneLine (s ++ t) := fun h1 h2 c hc => (List.mem_append.1 hc).elim (h1 c) (h2 c)
  cases l with
  | setting b1 k b2 b3 v b4 c =>
    obtain ⟨h1, h2, h3, h4, h5, h6, h7⟩ := h
    exact ha (ha (ha (ha (ha (hb h1) h5.1) (hb h2)) (by decide)) (ha (ha (hb h3) h6.1) (hb h4))) h7
  | other t c => exact ha h.1 h.2.2.2

theorem loadConfig_get (ls : List ConfLine) (h : ∀ l ∈ ls, l.Good) (k : Str) : (loadConfig (confText ls)).get? k = lastValue k ls := by
  have h1 : fileLines [] (confText ls) = ls.map ConfLine.text := by
    rw [← fileLines_lines (ls.map ConfLine.text)]
    · unfold confText
      rw [List.flatMap_map]
    · intro t ht
      obtain ⟨l, hl, rfl⟩ := List.mem_map.1 ht
      exact text_oneLine l (h l hl)
  unfold loadConfig
  rw [h1, List.foldl_map]
  have key : ∀ (cfg : Dict Str Str), (ls.foldl (fun d l => configLine d l.text) cfg).get? k = (lastValue k ls).or (cfg.get? k) := by
    clear h1
    induction ls with
    | nil => intro cfg; simp [lastValue]
    | cons l ls ih =>
      intro cfg
      rw [List.foldl_cons, ih fun l' hl' => h l' (by simp [hl'])]
      cases l with
      | other t c => rw [configLine_other cfg t c (h _ (by simp))]; rfl
      | setting b1 k' b2 b3 v b4 c =>
        rw [configLine_setting cfg b1 k' b2 b3 v b4 c (h _ (by simp)), Dict.get?_set, lastValue]
        cases lastValue k ls with
        | some w => rfl
        | none =>
          by_cases hk : k' = k
          · simp [hk]
          · simp [hk, Ne.symm hk]
  rw [key []]
  simp

theorem intOrZero_digits (n : ℕ) : intOrZero (some (Nat.toDigits 10 n)) = n := by
  show (if Nat.toDigits 10 n ≠ [] ∧ (Nat.toDigits 10 n).all Char.isDigit then (Nat.toDigits 10 n).foldl (fun a c => 10 * a + (c.toNat - 48)) 0 else 0) = n
  rw [if_pos ⟨Nat.toDigits_ne_nil, List.all_eq_true.2 fun c hc => digit_of_toDigits hc⟩]
  have : Nat.ofDigitChars 10 (Nat.toDigits 10 n) 0 = n := Nat.ofDigitChars_ten_toDigits
  exact this

/-- **C98** For every configuration file whose lines are settings in lower case, without colon or `#` in the value, blanks and comments
anywhere, and lines without settings: the last line that mentions a setting decides it; a setting not mentioned has its default. -/
theorem C98_config (ls : List ConfLine) (h : ∀ l ∈ ls, l.Good) :
    ((settingsOf (loadConfig (confText ls))).fileLogging = true ↔ lastValue "file_logging".toList ls = some "true".toList) ∧
    (∀ p, lastValue "log_file".toList ls = some p → (settingsOf (loadConfig (confText ls))).logFile = p) ∧
    (lastValue "log_file".toList ls = none → (settingsOf (loadConfig (confText ls))).logFile = "ignis.log".toList) ∧
    (∀ n : ℕ, lastValue "max_size".toList ls = some (Nat.toDigits 10 n) → (settingsOf (loadConfig (confText ls))).maxBytes = n) ∧
    (lastValue "max_size".toList ls = none → (settingsOf (loadConfig (confText ls))).maxBytes = 0) ∧
    (∀ n : ℕ, lastValue "max_rotations".toList ls = some (Nat.toDigits 10 n) → (settingsOf (loadConfig (confText ls))).maxRotations = n) ∧
    (lastValue "max_rotations".toList ls = none → (settingsOf (loadConfig (confText ls))).maxRotations = 0) := by
  unfold settingsOf
  simp only [loadConfig_get ls h]
  refine ⟨decide_eq_true_iff, ?_, ?_, ?_, ?_, ?_, ?_⟩
  · intro p hp; rw [hp]; rfl
  · intro hp; rw [hp]; rfl
  · intro n hn; rw [hn]; exact intOrZero_digits n
  · intro hn; rw [hn]; rfl
  · intro n hn; rw [hn]; exact intOrZero_digits n
  · intro hn; rw [hn]; rfl

/-- A configuration file. -/
def sampleConf : List ConfLine :=
  [.other [] (some " settings".toList), .setting [] "file_logging".toList [] [' '] "false".toList [] none,
   .setting [] "max_size".toList [' '] [' ', ' '] "1000".toList [' '] (some " bytes: not kB".toList), .other "nothing here".toList none,
   .setting [' '] "file_logging".toList [] [] "true".toList [] none]

example : (∀ l ∈ sampleConf, l.Good) ∧ settingsOf (loadConfig (confText sampleConf)) = ⟨true, "ignis.log".toList, 1000, 0⟩ := by decide +kernel

/-- **C98 (finding)** The path of the log file is changed to lower case, and cut at a colon. -/
theorem C98_finding_path :
    (settingsOf (loadConfig "log_file: /home/Me/Ignis.log".toList)).logFile = "/home/me/ignis.log".toList
    ∧ (settingsOf (loadConfig "log_file: c:\\logs\\ignis.log".toList)).logFile = "c".toList := by decide +kernel

end Verif.Log
