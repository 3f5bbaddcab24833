import Verif.Log.Model
import Verif.Py.SplitLemmas
import Mathlib.Data.List.Lex
import Mathlib.Order.RelClasses
import Mathlib.Order.Fin.Basic
set_option linter.unusedSimpArgs false
set_option linter.unusedVariables false
set_option linter.unusedSectionVars false
/-
C70, C71: what the log reader returns for files written by the logger.
-/
namespace Verif.Log
open Verif

/-! ### Specification -/

/-- No white space. -/
def Clean (s : Str) : Prop := ∀ c ∈ s, isSpace c = false

instance (s : Str) : Decidable (Clean s) := inferInstanceAs (Decidable (∀ _ ∈ _, _))

/-- A key that can be asked for: no white space, no colon, no quote at either end. -/
def NiceKey (k : Str) : Prop := Clean k ∧ ':' ∉ k ∧ k.head? ≠ some '\'' ∧ k.getLast? ≠ some '\''

instance (s : Str) : Decidable (NiceKey s) := by unfold NiceKey; infer_instance

/-- One call of `log_to_file`: when, and with what. -/
structure Entry (T : Type) where
  time : T
  items : List (Str × Str)

/-- How a time is written: date and time of day. -/
structure Clock (T : Type) where
  date : T → Str
  tod : T → Str

/-- The clock writes no white space inside its parts, and `strptime` with the default format reads back what it wrote. -/
structure Clock.Good {T : Type} (C : Clock T) (strptime : Str → Str → Option T) : Prop where
  date_clean : ∀ t, Clean (C.date t) ∧ C.date t ≠ []
  tod_clean : ∀ t, Clean (C.tod t) ∧ C.tod t ≠ []
  parse : ∀ t, strptime defaultFmt (C.date t ++ [' '] ++ C.tod t) = some t

variable {T : Type} [LinearOrder T]

/-- The text of a log file after a history of calls. -/
def logFile (C : Clock T) (es : List (Entry T)) : Str := es.flatMap fun e => logLine (C.date e.time ++ [' '] ++ C.tod e.time) e.items

/-- The rows a user expects: the entries inside the closed interval, restricted to the wanted keys, those left empty dropped. -/
def expectedRows (C : Clock T) (keys : Option (List Str)) (lo hi : Option T) (es : List (Entry T)) : List (List Str) :=
  es.filterMap fun e =>
    let wanted := e.items.filter fun kv => match keys with | some ks => decide (kv.1 ∈ ks) | none => true
    if (∀ l ∈ lo, l ≤ e.time) ∧ (∀ h ∈ hi, e.time ≤ h) ∧ wanted ≠ [] then
      some (C.date e.time :: C.tod e.time :: wanted.map fun kv => "'".toList ++ kv.1 ++ "':'".toList ++ kv.2 ++ "'".toList)
    else none

/-! ### Lines and terms -/

theorem clean_append {s t : Str} (hs : Clean s) (ht : Clean t) : Clean (s ++ t) := by
  intro c hc
  rcases List.mem_append.1 hc with h | h
  · exact hs c h
  · exact ht c h

theorem splitWs_clean (s rest cur : Str) (h : Clean s) : splitWs cur (s ++ rest) = splitWs (cur ++ s) rest := by
  induction s generalizing cur with
  | nil => simp
  | cons a s ih =>
    rw [List.cons_append, splitWs, if_neg (by simp [h a (by simp)]), ih _ (fun c hc => h c (by simp [hc]))]
    simp

theorem splitWs_term (s rest : Str) (h : Clean s) (hne : s ≠ []) : splitWs [] (s ++ ' ' :: rest) = s :: splitWs [] rest := by
  rw [splitWs_clean s _ _ h, splitWs, if_pos (by decide), List.nil_append, if_neg hne]

theorem splitWs_terms (l : List Str) (h : ∀ s ∈ l, Clean s ∧ s ≠ []) : splitWs [] (l.flatMap fun s => s ++ [' ']) = l := by
  induction l with
  | nil => rfl
  | cons s l ih =>
    rw [List.flatMap_cons, List.append_assoc, List.singleton_append, splitWs_term s _ (h s (by simp)).1 (h s (by simp)).2,
      ih fun t ht => h t (by simp [ht])]

theorem fileLines_cons (cur s : Str) (a : Char) (h1 : a ≠ '\n') (h2 : a ≠ '\r') : fileLines cur (a :: s) = fileLines (cur ++ [a]) s := by
  conv => lhs; unfold fileLines
  split
  · simp_all
  · rename_i heq; simp only [List.cons.injEq] at heq; exact absurd heq.1 h2
  · rename_i heq; simp only [List.cons.injEq] at heq; exact absurd heq.1 h2
  · rename_i heq; simp only [List.cons.injEq] at heq; exact absurd heq.1 h1
  · rename_i heq; simp only [List.cons.injEq] at heq; rw [heq.1, heq.2]

theorem fileLines_line (l cur rest : Str) (h : ∀ c ∈ l, c ≠ '\n' ∧ c ≠ '\r') :
    fileLines cur (l ++ '\n' :: rest) = (cur ++ l) :: fileLines [] rest := by
  induction l generalizing cur with
  | nil => simp [fileLines]
  | cons a l ih =>
    have ha := h a (by simp)
    rw [List.cons_append, fileLines_cons _ _ _ ha.1 ha.2, ih _ (fun c hc => h c (by simp [hc]))]
    simp

theorem fileLines_lines (ls : List Str) (h : ∀ l ∈ ls, ∀ c ∈ l, c ≠ '\n' ∧ c ≠ '\r') : fileLines [] (ls.flatMap fun l => l ++ ['\n']) = ls := by
  induction ls with
  | nil => rfl
  | cons l ls ih =>
    rw [List.flatMap_cons, List.append_assoc, List.singleton_append, fileLines_line l _ _ (h l (by simp)), List.nil_append,
      ih fun t ht => h t (by simp [ht])]

theorem clean_nl {s : Str} (h : Clean s) : ∀ c ∈ s, c ≠ '\n' ∧ c ≠ '\r' := by
  intro c hc
  constructor <;> (rintro rfl; have := h _ hc; revert this; decide)

theorem clean_quoted {kv : Str × Str} (hk : Clean kv.1) (hv : Clean kv.2) : Clean (quoted kv) ∧ quoted kv ≠ [] := by
  refine ⟨?_, by simp [quoted]⟩
  unfold quoted
  exact clean_append (clean_append (clean_append (clean_append (by decide) hk) (by decide)) hv) (by decide)

/-- The terms of a logged line. -/
def lineTerms (C : Clock T) (e : Entry T) : List Str :=
  C.date e.time :: C.tod e.time :: "ignis_logging".toList :: e.items.map quoted

theorem logLine_terms (C : Clock T) (e : Entry T) :
    logLine (C.date e.time ++ [' '] ++ C.tod e.time) e.items = (lineTerms C e).flatMap (fun s => s ++ [' ']) ++ ['\n'] := by
  unfold logLine lineTerms
  simp only [List.flatMap_cons, List.flatMap_map, List.append_assoc]
  rfl

theorem lineTerms_clean (C : Clock T) (strptime : Str → Str → Option T) (hC : C.Good strptime) (e : Entry T)
    (h : ∀ kv ∈ e.items, Clean kv.1 ∧ Clean kv.2) : ∀ s ∈ lineTerms C e, Clean s ∧ s ≠ [] := by
  intro s hs
  simp only [lineTerms, List.mem_cons, List.mem_map] at hs
  rcases hs with rfl | rfl | rfl | ⟨kv, hkv, rfl⟩
  · exact hC.date_clean _
  · exact hC.tod_clean _
  · exact ⟨by decide, by decide⟩
  · exact clean_quoted (h kv hkv).1 (h kv hkv).2

theorem fileLines_logFile (C : Clock T) (strptime : Str → Str → Option T) (hC : C.Good strptime) (es : List (Entry T))
    (h : ∀ e ∈ es, ∀ kv ∈ e.items, Clean kv.1 ∧ Clean kv.2) :
    fileLines [] (logFile C es) = es.map fun e => (lineTerms C e).flatMap fun s => s ++ [' '] := by
  have : logFile C es = (es.map fun e => (lineTerms C e).flatMap fun s => s ++ [' ']).flatMap fun l => l ++ ['\n'] := by
    unfold logFile
    rw [List.flatMap_map]
    exact congrArg List.flatten (List.map_congr_left fun e _ => logLine_terms C e)
  rw [this, fileLines_lines]
  intro l hl c hc
  obtain ⟨e, he, rfl⟩ := List.mem_map.1 hl
  obtain ⟨s, hs, hc⟩ := List.mem_flatMap.1 hc
  rcases List.mem_append.1 hc with hc | hc
  · exact clean_nl (lineTerms_clean C strptime hC e (h e he) s hs).1 c hc
  · rw [List.mem_singleton.1 hc]; decide

theorem stripChars_quote (k : Str) (h1 : k.head? ≠ some '\'') (h2 : k.getLast? ≠ some '\'') :
    stripChars (· == '\'') ('\'' :: k ++ ['\'']) = k := by
  unfold stripChars
  rw [List.cons_append, List.dropWhile_cons, if_pos (by decide)]
  cases k with
  | nil => decide
  | cons a k =>
    have ha : (a == '\'') = false := by
      rw [beq_eq_false_iff_ne]
      intro h
      rw [h] at h1
      simp at h1
    rw [List.cons_append, List.dropWhile_cons, ha]
    simp only [Bool.false_eq_true, if_false]
    rw [← List.cons_append, List.reverse_append, List.reverse_singleton, List.singleton_append, List.dropWhile_cons, if_pos (by decide)]
    cases hr : (a :: k).reverse with
    | nil => simp at hr
    | cons b r =>
      have hl : (a :: k).getLast? = some b := by
        rw [← List.head?_reverse, hr]; rfl
      have hb : (b == '\'') = false := by
        rw [beq_eq_false_iff_ne]
        intro h
        rw [h] at hl
        exact h2 hl
      rw [List.dropWhile_cons, hb]
      simp only [Bool.false_eq_true, if_false]
      rw [← hr, List.reverse_reverse]

theorem key_quoted (kv : Str × Str) (h : NiceKey kv.1) : stripChars (· == '\'') ((splitChar ':' (quoted kv)).headD []) = kv.1 := by
  obtain ⟨h0, h1, h2, h3⟩ := h
  have e : quoted kv = ('\'' :: kv.1 ++ ['\'']) ++ ':' :: ('\'' :: kv.2 ++ ['\'']) := by simp [quoted]
  rw [e, splitChar_append ':' _ _ (by simpa using h1)]
  exact stripChars_quote kv.1 h2 h3

theorem filterKeys_quoted (items : List (Str × Str)) (ks : List Str) (h : ∀ kv ∈ items, NiceKey kv.1) :
    filterKeys (items.map quoted) ks = (items.filter fun kv => decide (kv.1 ∈ ks)).map quoted := by
  unfold filterKeys
  rw [List.filter_map]
  congr 1
  refine List.filter_congr fun kv hkv => ?_
  rw [Function.comp_apply, key_quoted kv (h kv hkv), Bool.eq_iff_iff, List.contains_iff_mem, decide_eq_true_iff]

/-! ### The reader -/

/-- A bound that denotes a time or nothing. -/
theorem filterByDatetime_ok (strptime : Str → Str → Option T) (C : Clock T) (hC : C.Good strptime) (lo hi : Bound T) (lo' hi' : Option T)
    (h1 : resolve strptime lo = .ok lo') (h2 : resolve strptime hi = .ok hi') (t : T) :
    filterByDatetime strptime [C.date t, C.tod t] lo hi = .ok (!decide ((∀ l ∈ lo', l ≤ t) ∧ (∀ h ∈ hi', t ≤ h))) := by
  unfold filterByDatetime
  rw [h1, h2]
  dsimp only
  cases lo' <;> cases hi' <;> simp only [Option.isNone_none, Option.isNone_some, and_self, if_true, if_false, Bool.false_eq_true, and_false, false_and, hC.parse]
  · simp
  · simp [← not_le]
  · simp [← not_le]
  · simp [← not_le, Bool.eq_iff_iff]

/-- **C70** For log files written by any history of `log_to_file` calls with keys and values free of white space, `read_values`
returns, in file order, exactly the entries whose time lies in the closed interval given, restricted to the wanted keys, and
without the entries of which nothing is left. -/
theorem C70_rows (strptime : Str → Str → Option T) (C : Clock T) (hC : C.Good strptime) (files : List (List (Entry T)))
    (hes : ∀ es ∈ files, ∀ e ∈ es, ∀ kv ∈ e.items, NiceKey kv.1 ∧ Clean kv.2) (keys : Option (List Str)) (lo hi : Bound T)
    (lo' hi' : Option T) (h1 : resolve strptime lo = .ok lo') (h2 : resolve strptime hi = .ok hi') :
    readValues strptime keys lo hi (files.map (logFile C)) = .ok (files.flatMap (expectedRows C keys lo' hi')) := by
  have hline : ∀ e : Entry T, (∀ kv ∈ e.items, NiceKey kv.1 ∧ Clean kv.2) →
      readLine strptime keys lo hi ((lineTerms C e).flatMap fun s => s ++ [' ']) = .ok (expectedRows C keys lo' hi' [e]).head? := by
    intro e he
    unfold readLine
    rw [splitWs_terms _ (lineTerms_clean C strptime hC e fun kv hkv => ⟨(he kv hkv).1.1, (he kv hkv).2⟩)]
    have ht : (lineTerms C e).take 2 = [C.date e.time, C.tod e.time] := rfl
    have hd : (lineTerms C e).drop 3 = e.items.map quoted := rfl
    simp only [ht, hd, filterByDatetime_ok strptime C hC lo hi lo' hi' h1 h2]
    have hq : (fun kv : Str × Str => "'".toList ++ kv.1 ++ "':'".toList ++ kv.2 ++ "'".toList) = quoted := rfl
    unfold expectedRows
    by_cases hin : (∀ l ∈ lo', l ≤ e.time) ∧ (∀ h ∈ hi', e.time ≤ h)
    · rw [decide_eq_true hin]
      simp only [Bool.not_true]
      cases keys with
      | none =>
        by_cases hne : e.items = []
        · simp [hne]
        · have hf : (e.items.filter fun _ => true) = e.items := by simp
          simp only [hf, hq, List.filterMap_cons, List.filterMap_nil]
          rw [if_neg (by simpa using hne), if_pos ⟨hin.1, hin.2, hne⟩]
          rfl
      | some ks =>
        simp only [filterKeys_quoted e.items ks fun kv hkv => (he kv hkv).1, hq, List.filterMap_cons, List.filterMap_nil]
        by_cases hne : (e.items.filter fun kv => decide (kv.1 ∈ ks)) = []
        · simp [hne]
        · rw [if_neg (by rw [List.map_eq_nil_iff]; exact hne), if_pos ⟨hin.1, hin.2, hne⟩]
          rfl
    · rw [decide_eq_false hin]
      simp only [Bool.not_false, List.filterMap_cons, List.filterMap_nil]
      rw [if_neg (fun h => hin ⟨h.1, h.2.1⟩)]
      rfl
  have hsplit : ∀ (e : Entry T) (es : List (Entry T)), (expectedRows C keys lo' hi' [e]).head?.toList ++ expectedRows C keys lo' hi' es
      = expectedRows C keys lo' hi' (e :: es) := by
    intro e es
    unfold expectedRows
    rw [List.filterMap_cons, List.filterMap_cons, List.filterMap_nil]
    split <;> rfl
  have hlines : ∀ es : List (Entry T), (∀ e ∈ es, ∀ kv ∈ e.items, NiceKey kv.1 ∧ Clean kv.2) →
      readLines strptime keys lo hi (es.map fun e => (lineTerms C e).flatMap fun s => s ++ [' ']) = .ok (expectedRows C keys lo' hi' es) := by
    intro es
    induction es with
    | nil => intro _; rfl
    | cons e es ih =>
      intro h
      rw [List.map_cons, readLines, hline e (h e (by simp)), ih fun e he => h e (by simp [he])]
      dsimp only
      rw [hsplit]
  unfold readValues
  have hf : (files.map (logFile C)).flatMap (fileLines []) = files.flatten.map fun e => (lineTerms C e).flatMap fun s => s ++ [' '] := by
    rw [List.flatMap_map, List.map_flatten, List.flatMap_def]
    congr 1
    exact List.map_congr_left fun es hes' => fileLines_logFile C strptime hC es fun e he kv hkv => ⟨(hes es hes' e he kv hkv).1.1, (hes es hes' e he kv hkv).2⟩
  rw [hf, hlines files.flatten fun e he => by
    obtain ⟨es, h1, h2⟩ := List.mem_flatten.1 he
    exact hes es h1 e h2]
  congr 1
  unfold expectedRows
  rw [List.filterMap_flatten, List.flatMap_def]

/-- **C70** A bound given as text that does not parse makes the reader fail with `ValueError` as soon as there is a line to look at,
whatever is in the files. -/
theorem C70_bad_bound (strptime : Str → Str → Option T) (keys : Option (List Str)) (lo hi : Bound T) (files : List Str)
    (hne : files.flatMap (fileLines []) ≠ [])
    (hbad : resolve strptime lo = .error .value ∨ (∃ t, resolve strptime lo = .ok t) ∧ resolve strptime hi = .error .value) :
    readValues strptime keys lo hi files = .error .value := by
  unfold readValues
  cases hl : files.flatMap (fileLines []) with
  | nil => exact absurd hl hne
  | cons l ls =>
    have : readLine strptime keys lo hi l = .error .value := by
      unfold readLine filterByDatetime
      rcases hbad with h | ⟨⟨t, h1⟩, h2⟩
      · rw [h]
      · rw [h1, h2]
    rw [readLines, this]

/-- **C71** Reading back without restrictions gives every non-empty entry with all its pairs, in the order written. -/
theorem C71_all (strptime : Str → Str → Option T) (C : Clock T) (hC : C.Good strptime) (es : List (Entry T))
    (hes : ∀ e ∈ es, e.items ≠ [] ∧ ∀ kv ∈ e.items, NiceKey kv.1 ∧ Clean kv.2) :
    readValues strptime none .absent .absent [logFile C es] = .ok (es.map fun e =>
      C.date e.time :: C.tod e.time :: e.items.map fun kv => "'".toList ++ kv.1 ++ "':'".toList ++ kv.2 ++ "'".toList) := by
  have h := C70_rows strptime C hC [es] (by simpa using fun e he kv hkv => (hes e he).2 kv hkv) none .absent .absent none none rfl rfl
  rw [List.map_singleton, List.flatMap_singleton] at h
  rw [h]
  congr 1
  unfold expectedRows
  have hm : ∀ f : Entry T → List Str, es.map f = es.filterMap fun e => some (f e) := fun f => (congrFun (List.filterMap_eq_map (f := f)) es).symm
  rw [hm]
  refine List.filterMap_congr fun e he => ?_
  simp [(hes e he).1]

/-- **C71** Asking for the keys `ks` gives the same entries restricted to the pairs with those keys. -/
theorem C71_keys (strptime : Str → Str → Option T) (C : Clock T) (hC : C.Good strptime) (es : List (Entry T)) (ks : List Str)
    (hes : ∀ e ∈ es, ∀ kv ∈ e.items, NiceKey kv.1 ∧ Clean kv.2) :
    ∃ rows, readValues strptime (some ks) .absent .absent [logFile C es] = .ok rows ∧
      ∀ e ∈ es, ∀ kv ∈ e.items, kv.1 ∈ ks → ∃ row ∈ rows, row.take 2 = [C.date e.time, C.tod e.time] ∧
        "'".toList ++ kv.1 ++ "':'".toList ++ kv.2 ++ "'".toList ∈ row := by
  refine ⟨_, C70_rows strptime C hC [es] (by simpa using hes) (some ks) .absent .absent none none rfl rfl, ?_⟩
  intro e he kv hkv hk
  rw [List.flatMap_singleton]
  have hm : kv ∈ e.items.filter fun kv => decide (kv.1 ∈ ks) := List.mem_filter.2 ⟨hkv, by simpa using hk⟩
  refine ⟨C.date e.time :: C.tod e.time :: (e.items.filter fun kv => decide (kv.1 ∈ ks)).map fun kv => "'".toList ++ kv.1 ++ "':'".toList ++ kv.2 ++ "'".toList, ?_, rfl, ?_⟩
  · unfold expectedRows
    refine List.mem_filterMap.2 ⟨e, he, ?_⟩
    rw [if_pos ⟨by simp, by simp, List.ne_nil_of_mem hm⟩]
  · refine List.mem_cons_of_mem _ (List.mem_cons_of_mem _ (List.mem_map.2 ⟨kv, hm, rfl⟩))

/-! ### A concrete clock, and what goes wrong -/

/-- Two digits. -/
def two (k : ℕ) : Str := [Nat.digitChar (k / 10), Nat.digitChar (k % 10)]

/-- A clock for one day: seconds after midnight of 2020/01/01. -/
def dayClock : Clock (Fin 86400) :=
  ⟨fun _ => "2020/01/01".toList, fun t => two (t / 3600) ++ ':' :: two (t / 60 % 60) ++ ':' :: two (t % 60)⟩

/-- The value of a digit. -/
def digitVal (c : Char) : ℕ := c.toNat - 48

/-- A second of the day. -/
def second (n : ℕ) : Option (Fin 86400) := if h : n < 86400 then some ⟨n, h⟩ else none

/-- `strptime` for that day, default format only. -/
def dayParse (fmt s : Str) : Option (Fin 86400) :=
  if fmt = defaultFmt ∧ s.take 11 = "2020/01/01 ".toList then
    match s.drop 11 with
    | [a, b, x, c, d, y, e, f] =>
      if x = ':' ∧ y = ':' then
        second ((10 * digitVal a + digitVal b) * 3600 + (10 * digitVal c + digitVal d) * 60 + (10 * digitVal e + digitVal f))
      else none
    | _ => none
  else none

theorem digit_facts : ∀ d < 10, digitVal (Nat.digitChar d) = d ∧ isSpace (Nat.digitChar d) = false := by decide +kernel

theorem two_val (k : ℕ) (h : k < 100) : 10 * digitVal (Nat.digitChar (k / 10)) + digitVal (Nat.digitChar (k % 10)) = k := by
  rw [(digit_facts (k / 10) (by omega)).1, (digit_facts (k % 10) (by omega)).1]
  omega

theorem two_clean (k : ℕ) (h : k < 100) : Clean (two k) := by
  intro c hc
  simp only [two, List.mem_cons, List.not_mem_nil, or_false] at hc
  rcases hc with rfl | rfl
  · exact (digit_facts (k / 10) (by omega)).2
  · exact (digit_facts (k % 10) (by omega)).2

theorem dayClock_good : dayClock.Good dayParse where
  date_clean t := by
    show Clean "2020/01/01".toList ∧ "2020/01/01".toList ≠ []
    decide
  tod_clean t := by
    have ht := t.2
    have key : ∀ a b c, a < 100 → b < 100 → c < 100 → Clean (two a ++ ':' :: two b ++ ':' :: two c) ∧ two a ++ ':' :: two b ++ ':' :: two c ≠ [] := by
      intro a b c ha hb hc
      refine ⟨?_, by simp [two]⟩
      have h1 : Clean ([':'] ++ two b) := clean_append (by decide) (two_clean _ hb)
      have h2 : Clean ([':'] ++ two c) := clean_append (by decide) (two_clean _ hc)
      exact clean_append (clean_append (two_clean _ ha) h1) h2
    exact key _ _ _ (by omega) (by omega) (by omega)
  parse t := by
    have ht := t.2
    have e : dayClock.date t ++ [' '] ++ dayClock.tod t = "2020/01/01 ".toList ++ dayClock.tod t := rfl
    rw [e]
    unfold dayParse
    rw [if_pos ⟨rfl, rfl⟩]
    have e2 : ("2020/01/01 ".toList ++ dayClock.tod t).drop 11 = [Nat.digitChar (t / 3600 / 10), Nat.digitChar (t / 3600 % 10), ':',
      Nat.digitChar (t / 60 % 60 / 10), Nat.digitChar (t / 60 % 60 % 10), ':', Nat.digitChar (t % 60 / 10), Nat.digitChar (t % 60 % 10)] := rfl
    rw [e2]
    show (if ':' = ':' ∧ ':' = ':' then second _ else none) = some t
    rw [if_pos ⟨rfl, rfl⟩, two_val (t / 3600) (by omega), two_val (t / 60 % 60) (by omega), two_val (t % 60) (by omega)]
    have : (t : ℕ) / 3600 * 3600 + t / 60 % 60 * 60 + t % 60 = t := by omega
    rw [this, second, dif_pos ht]

/-- Two calls, seventy seconds apart. -/
def sampleLog : List (Entry (Fin 86400)) :=
  [⟨3600, [("t1".toList, "1.5".toList), ("qubit".toList, "0".toList)]⟩, ⟨3670, [("t1".toList, "2.5".toList)]⟩, ⟨3680, []⟩]

example : readValues dayParse (some ["t1".toList]) (.str "2020/01/01 01:01:00".toList none) (.dt 3670) [logFile dayClock sampleLog]
    = .ok [["2020/01/01".toList, "01:01:10".toList, "'t1':'2.5'".toList]] := by decide +kernel

example : (∀ es ∈ [sampleLog], ∀ e ∈ es, ∀ kv ∈ e.items, NiceKey kv.1 ∧ Clean kv.2) := by decide +kernel

example : (∀ e ∈ sampleLog.take 2, e.items ≠ [] ∧ ∀ kv ∈ e.items, NiceKey kv.1 ∧ Clean kv.2) := by decide +kernel

example : [logFile dayClock sampleLog].flatMap (fileLines []) ≠ []
    ∧ resolve dayParse (.str "yesterday".toList none) = .error .value := by decide +kernel

/-- **C70 (finding)** With no line to look at, a bound that does not parse goes unreported. -/
theorem C70_finding_empty (strptime : Str → Str → Option T) (keys : Option (List Str)) (lo hi : Bound T) :
    readValues strptime keys lo hi [[]] = .ok [] := rfl

/-- **C70 (finding)** A blank line is skipped by a reader without bounds and makes one with bounds fail with `IndexError`. -/
theorem C70_finding_blank :
    readValues dayParse none .absent .absent [logFile dayClock sampleLog ++ ['\n']]
      = .ok [["2020/01/01".toList, "01:00:00".toList, "'t1':'1.5'".toList, "'qubit':'0'".toList],
          ["2020/01/01".toList, "01:01:10".toList, "'t1':'2.5'".toList]]
    ∧ readValues dayParse none (.dt 0) .absent [logFile dayClock sampleLog ++ ['\n']] = .error .index := by decide +kernel

/-- **C71 (finding)** The documentation's own example, a list of qubits, is cut at its blanks: the value does not come back, and
asking for its key returns only the first fragment. -/
theorem C71_finding_blanks :
    readValues dayParse none .absent .absent [logFile dayClock [⟨3600, [("qubits".toList, "[1, 2, 4]".toList)]⟩]]
      = .ok [["2020/01/01".toList, "01:00:00".toList, "'qubits':'[1,".toList, "2,".toList, "4]'".toList]]
    ∧ readValues dayParse (some ["qubits".toList]) .absent .absent [logFile dayClock [⟨3600, [("qubits".toList, "[1, 2, 4]".toList)]⟩]]
      = .ok [["2020/01/01".toList, "01:00:00".toList, "'qubits':'[1,".toList]] := by decide +kernel

/-- **C71 (finding)** A line break inside a value lets the value pass for another entry. -/
theorem C71_finding_forged :
    readValues dayParse (some ["t1".toList]) .absent .absent
        [logFile dayClock [⟨3600, [("note".toList, "x\n2020/01/01 02:00:00 ignis_logging 't1':'9".toList)]⟩]]
      = .ok [["2020/01/01".toList, "02:00:00".toList, "'t1':'9'".toList]] := by decide +kernel

/-- **C71 (finding)** A key with a colon is never found. -/
theorem C71_finding_colon :
    readValues dayParse (some ["a:b".toList]) .absent .absent [logFile dayClock [⟨3600, [("a:b".toList, "1".toList)]⟩]] = .ok []
    ∧ readValues dayParse (some ["a".toList]) .absent .absent [logFile dayClock [⟨3600, [("a:b".toList, "1".toList)]⟩]]
      = .ok [["2020/01/01".toList, "01:00:00".toList, "'a:b':'1'".toList]] := by decide +kernel

end Verif.Log
