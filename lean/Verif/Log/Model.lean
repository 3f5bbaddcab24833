import Verif.Py.Basic
import Verif.Py.Split
import Mathlib.Order.Defs.LinearOrder
import Mathlib.Data.Nat.Notation
/-
Model of `qiskit/ignis/logging/ignis_logging.py`.

Files are their text.  Date/time values are elements of an arbitrary linear order; `datetime.strptime` is a parameter
(format, text ↦ value, `none` for `ValueError`).
-/
namespace Verif.Log
open Verif

/-! ### Text -/

/-- `str.isspace` of one character: the white space `str.split()` and `str.strip()` use. -/
def isSpace (c : Char) : Bool :=
  let n := c.toNat
  (9 ≤ n && n ≤ 13) || (28 ≤ n && n ≤ 32) || n == 0x85 || n == 0xa0 || n == 0x1680 || (0x2000 ≤ n && n ≤ 0x200a) ||
    n == 0x2028 || n == 0x2029 || n == 0x202f || n == 0x205f || n == 0x3000

/-- `str.split()`; `cur` is the piece being read. -/
def splitWs (cur : Str) : Str → List Str
  | [] => if cur = [] then [] else [cur]
  | a :: s =>
    if isSpace a then (if cur = [] then splitWs [] s else cur :: splitWs [] s)
    else splitWs (cur ++ [a]) s

/-- The lines `for line in f` yields for a text file (universal newlines), without their terminators; `cur` is the line being
read. -/
def fileLines (cur : Str) : Str → List Str
  | [] => if cur = [] then [] else [cur]
  | '\r' :: '\n' :: s => cur :: fileLines [] s
  | '\r' :: s => cur :: fileLines [] s
  | '\n' :: s => cur :: fileLines [] s
  | a :: s => fileLines (cur ++ [a]) s

/-- `s.strip(chars)`. -/
def stripChars (p : Char → Bool) (s : Str) : Str := ((s.dropWhile p).reverse.dropWhile p).reverse

/-! ### Writing -/

/-- One key/value pair, ignis_logging.py:99: `"'{}':'{}' ".format(k, v)` without the blank. -/
def quoted (kv : Str × Str) : Str := ['\''] ++ kv.1 ++ ['\'', ':', '\''] ++ kv.2 ++ ['\'']

/-- The line `log_to_file` writes, ignis_logging.py:97-101 with the formatter of lines 255-257; `asctime` is the formatted
time. -/
def logLine (asctime : Str) (kwargs : List (Str × Str)) : Str :=
  asctime ++ " ignis_logging ".toList ++ (kwargs.flatMap fun kv => quoted kv ++ [' ']) ++ ['\n']

/-! ### Reading -/

/-- Python exceptions of the reader. -/
inductive Err
  | value
  | index
deriving DecidableEq

/-- The date/time arguments of `read_values`: absent, a `datetime`, or a string with an optional format. -/
inductive Bound (T : Type)
  | absent
  | dt (t : T)
  | str (s : Str) (fmt : Option Str)

/-- `_default_datefmt`, ignis_logging.py:152. -/
def defaultFmt : Str := "%Y/%m/%d %H:%M:%S".toList

variable {T : Type} [LinearOrder T] (strptime : Str → Str → Option T)

/-- ignis_logging.py:434-440 and 442-448. -/
def resolve : Bound T → Except Err (Option T)
  | .absent => .ok none
  | .dt t => .ok (some t)
  | .str s fmt =>
    match strptime (fmt.getD defaultFmt) s with
    | some t => .ok (some t)
    | none => .error .value

/-- `_filter_by_datetime`, ignis_logging.py:415-465: `true` if the row is to be left out. -/
def filterByDatetime (row : List Str) (lo hi : Bound T) : Except Err Bool :=
  match resolve strptime lo with
  | .error e => .error e
  | .ok lo =>
    match resolve strptime hi with
    | .error e => .error e
    | .ok hi =>
      if lo.isNone ∧ hi.isNone then .ok false
      else
        match row with
        | d :: t :: _ =>
          match strptime defaultFmt (d ++ [' '] ++ t) with
          | none => .error .value
          | some r => .ok (lo.any (fun l => decide (r < l)) || hi.any (fun h => decide (h < r)))
        | _ => .error .index

/-- `_filter_keys`, ignis_logging.py:394-413. -/
def filterKeys (kvs keys : List Str) : List Str :=
  kvs.filter fun kv => keys.contains (stripChars (· == '\'') ((splitChar ':' kv).headD []))

/-- The body of the loop over lines, ignis_logging.py:372-390; `none`: the line is skipped. -/
def readLine (keys : Option (List Str)) (lo hi : Bound T) (line : Str) : Except Err (Option (List Str)) :=
  let terms := splitWs [] line
  let dateTime := terms.take 2
  match filterByDatetime strptime dateTime lo hi with
  | .error e => .error e
  | .ok true => .ok none
  | .ok false =>
    let kvs := terms.drop 3
    let kvs := match keys with
      | some ks => filterKeys kvs ks
      | none => kvs
    if kvs = [] then .ok none else .ok (some (dateTime ++ kvs))

/-- The loop over the lines of all files. -/
def readLines (keys : Option (List Str)) (lo hi : Bound T) : List Str → Except Err (List (List Str))
  | [] => .ok []
  | l :: ls =>
    match readLine strptime keys lo hi l with
    | .error e => .error e
    | .ok r =>
      match readLines keys lo hi ls with
      | .error e => .error e
      | .ok rs => .ok (r.toList ++ rs)

/-- `read_values`, ignis_logging.py:332-392, for files given by their text. -/
def readValues (keys : Option (List Str)) (lo hi : Bound T) (files : List Str) : Except Err (List (List Str)) :=
  readLines strptime keys lo hi (files.flatMap (fileLines []))

/-! ### The logger object -/

/-- A handler of a logger: the stream handler made by the n-th call of `get_logger`, the file handler, or Python's `None`. -/
inductive Handler
  | stream (n : ℕ)
  | file
  | none
deriving DecidableEq

/-- The part of an `IgnisLogger` and of its surroundings the methods touch.  `console` and `file` are what has been written;
`warnings` counts the warnings "File logging is disabled". -/
structure State where
  enabled : Bool := false
  streamHandler : Handler := .none
  handlers : List Handler := []
  warned : Bool := false
  made : ℕ := 0
  console : List Str := []
  file : List Str := []
  warnings : ℕ := 0
deriving DecidableEq

/-- `Logger.addHandler`. -/
def addHandler (h : Handler) (s : State) : State := if h ∈ s.handlers then s else { s with handlers := s.handlers ++ [h] }

/-- `Logger.removeHandler`. -/
def removeHandler (h : Handler) (s : State) : State := { s with handlers := s.handlers.erase h }

/-- One handler writes a record; the handler `None` raises. -/
def emitTo (msg : Str) (s : State) : Handler → Option State
  | .stream _ => some { s with console := s.console ++ [msg] }
  | .file => some { s with file := s.file ++ [msg] }
  | .none => Option.none

/-- `Logger.log` for a level that is enabled: every handler in turn.  Handlers of parent loggers are not modelled. -/
def emit (msg : Str) (s : State) : Option State := s.handlers.foldlM (fun s h => emitTo msg s h) s

/-- `get_logger`, ignis_logging.py:222-239 with `_configure_logger` 262-280 and `configure` 54-65; `confEnabled` is the
configured `file_logging`. -/
def getLogger (confEnabled : Bool) (s : State) : State :=
  let sh := Handler.stream s.made
  let s := addHandler sh { s with streamHandler := sh, made := s.made + 1 }
  if confEnabled then { s with enabled := true } else s

/-- `log_to_file`, ignis_logging.py:67-104; `msg` is the text of the record. -/
def logToFile (msg : Str) (s : State) : Option State :=
  if s.enabled = false then
    some (if s.warned then s else { s with warned := true, warnings := s.warnings + 1 })
  else do
    let s := addHandler .file (removeHandler s.streamHandler s)
    let s ← emit msg s
    some (addHandler s.streamHandler (removeHandler .file s))

/-- What a program can do with a logger. -/
inductive Op
  | getLogger
  | enable
  | disable
  | logToFile (msg : Str)
  | log (msg : Str)

/-- One operation; `enable_file_logging` and `disable_file_logging` are ignis_logging.py:106-118. -/
def step (confEnabled : Bool) (s : State) : Op → Option State
  | .getLogger => some (getLogger confEnabled s)
  | .enable => some { s with enabled := true }
  | .disable => some { s with enabled := false }
  | .logToFile msg => logToFile msg s
  | .log msg => emit msg s

def run (confEnabled : Bool) (s : State) (ops : List Op) : Option State := ops.foldlM (step confEnabled) s

/-! ### Configuration -/

/-- `str.lower()`; only ASCII letters are changed here. -/
def lower (s : Str) : Str := s.map Char.toLower

/-- One line of the configuration file, ignis_logging.py:180-184. -/
def configLine (cfg : Dict Str Str) (line : Str) : Dict Str Str :=
  let line := if line.contains '#' then line.takeWhile (· ≠ '#') else line
  match splitChar ':' line with
  | k :: v :: _ => cfg.set (lower (stripChars isSpace k)) (lower (stripChars isSpace v))
  | _ => cfg

/-- `_load_config_file`, ignis_logging.py:164-187, for an existing file. -/
def loadConfig (text : Str) : Dict Str Str := (fileLines [] text).foldl configLine []

structure Settings where
  fileLogging : Bool
  logFile : Str
  maxBytes : ℕ
  maxRotations : ℕ
deriving DecidableEq

/-- `int(x) if x is not None and x.isdigit() else 0`, ignis_logging.py:202-207. -/
def intOrZero : Option Str → ℕ
  | none => 0
  | some s => if s ≠ [] ∧ s.all Char.isDigit then s.foldl (fun a c => 10 * a + (c.toNat - 48)) 0 else 0

/-- `_initialize`, ignis_logging.py:190-207. -/
def settingsOf (cfg : Dict Str Str) : Settings :=
  ⟨cfg.get? "file_logging".toList = some "true".toList, (cfg.get? "log_file".toList).getD "ignis.log".toList,
    intOrZero (cfg.get? "max_size".toList), intOrZero (cfg.get? "max_rotations".toList)⟩

end Verif.Log
