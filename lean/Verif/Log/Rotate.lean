import Verif.Log.Model
import Mathlib.Logic.Function.Basic
import Mathlib.Data.List.Sort
/-
Model of the log files on disk: `IgnisLogging.get_file_handler` (one `RotatingFileHandler` for each logger), what that handler of the standard library does
(`logging/handlers.py`, `RotatingFileHandler.shouldRollover`, `doRollover` and `emit`), and `IgnisLogReader.get_log_files`.

Lines are elements of any type with a size in bytes and a length in characters; writing one line is a single step, as are removing and renaming a file.
The directory maps absolute names to files (inodes): a file that is open stays writable after it was renamed or removed.  Every process uses one
configuration; `os.chdir` is not modelled.
-/
namespace Verif.Log
open Verif

/-- The settings `get_file_handler` reads (ignis_logging.py:249-251), with the sizes of lines. -/
structure RotConf (L : Type) where
  path : Str
  maxBytes : ℕ
  rotations : ℕ
  bytes : L → ℕ
  chars : L → ℕ

/-- A file: its lines and the time of the last change. -/
structure DFile (L T : Type) where
  lines : List L
  mtime : T
deriving DecidableEq

/-- The directory, the files, and for each logger the file its handler has open (`none`: no handler yet). -/
structure Disk (L T : Type) where
  dir : Str → Option ℕ
  store : List (DFile L T)
  stream : ℕ → Option ℕ

variable {L T : Type}

/-- `"%s.%d" % (self.baseFilename, k)` of `doRollover`; number 0 stands for the log file itself. -/
def backup (path : Str) (k : ℕ) : Str := if k = 0 then path else path ++ ['.'] ++ Nat.toDigits 10 k

/-- `FileHandler._open`: `open(baseFilename, 'a')`. -/
def Disk.openBase (path : Str) (a : ℕ) (t : T) (d : Disk L T) : Disk L T :=
  match d.dir path with
  | some i => { d with stream := Function.update d.stream a (some i) }
  | none => ⟨Function.update d.dir path (some d.store.length), d.store ++ [⟨[], t⟩], Function.update d.stream a (some d.store.length)⟩

/-- `stream.close()`. -/
def Disk.closeStream (a : ℕ) (d : Disk L T) : Disk L T := { d with stream := Function.update d.stream a none }

/-- `if os.path.exists(n): os.remove(n)`. -/
def Disk.rm (n : Str) (d : Disk L T) : Disk L T := { d with dir := Function.update d.dir n none }

/-- `os.rename(n, m)`. -/
def Disk.mv (n m : Str) (d : Disk L T) : Disk L T := { d with dir := Function.update (Function.update d.dir m (d.dir n)) n none }

/-- `stream.write(msg); stream.flush()`. -/
def Disk.append (a : ℕ) (l : L) (t : T) (d : Disk L T) : Disk L T :=
  match d.stream a with
  | none => d
  | some i => { d with store := d.store.modify i fun f => ⟨f.lines ++ [l], t⟩ }

/-- `RotatingFileHandler.shouldRollover`. -/
def Disk.should (c : RotConf L) (a : ℕ) (l : L) (d : Disk L T) : Bool :=
  match (d.stream a).bind fun i => d.store[i]? with
  | none => false
  | some f => decide (0 < c.maxBytes) && decide (c.maxBytes ≤ (f.lines.map c.bytes).sum + c.chars l)

/-- The loop of `doRollover`: the backups `m, …, 1` move up by one. -/
def moveSteps (path : Str) : ℕ → List (Disk L T → Disk L T)
  | 0 => []
  | m + 1 => (fun d => if (d.dir (backup path (m + 1))).isSome then d.rm (backup path (m + 2)) else d) ::
      (fun d => if (d.dir (backup path (m + 1))).isSome then d.mv (backup path (m + 1)) (backup path (m + 2)) else d) :: moveSteps path m

/-- `RotatingFileHandler.doRollover`, as a sequence of steps. -/
def rollSteps (c : RotConf L) (a : ℕ) (t : T) : List (Disk L T → Disk L T) :=
  [Disk.closeStream a] ++
    (if 0 < c.rotations then
      moveSteps c.path (c.rotations - 1) ++
        [Disk.rm (backup c.path 1), fun d => if (d.dir c.path).isSome then d.mv c.path (backup c.path 1) else d]
     else []) ++ [Disk.openBase c.path a t]

def runSteps (fs : List (Disk L T → Disk L T)) (d : Disk L T) : Disk L T := fs.foldl (fun d f => f d) d

/-- What a call of `log_to_file` by logger `a` does to the disk (ignis_logging.py:86-101 with `RotatingFileHandler.emit`): the handler is made on first use,
which opens the file; then the handler rolls over if necessary and writes the line. -/
def logSteps (c : RotConf L) (a : ℕ) (l : L) (t : T) (d : Disk L T) : List (Disk L T → Disk L T) :=
  let opens : List (Disk L T → Disk L T) := if (d.stream a).isNone then [Disk.openBase c.path a t] else []
  opens ++ (if (runSteps opens d).should c a l then rollSteps c a t else []) ++ [Disk.append a l t]

/-- What happens: logger `a` logs a line at time `t`; the process is killed while doing so, after `k` steps; the process ends and another one starts. -/
inductive DiskOp (L T : Type)
  | log (a : ℕ) (l : L) (t : T)
  | crash (a : ℕ) (l : L) (t : T) (k : ℕ)
  | restart

/-- The end of the process closes all files. -/
def Disk.restart (d : Disk L T) : Disk L T := { d with stream := fun _ => none }

def Disk.step (c : RotConf L) (d : Disk L T) : DiskOp L T → Disk L T
  | .log a l t => runSteps (logSteps c a l t d) d
  | .crash a l t k => (runSteps ((logSteps c a l t d).take k) d).restart
  | .restart => d.restart

def Disk.run (c : RotConf L) (d : Disk L T) (ops : List (DiskOp L T)) : Disk L T := ops.foldl (Disk.step c) d

/-! ### Finding the files -/

/-- What remains of `s` after the regular expression `p`, all of whose characters stand for themselves except that `.` stands for any character but a line
break.  Other special characters of regular expressions are assumed not to occur in the path. -/
def reRest : Str → Str → Option Str
  | [], s => some s
  | _ :: _, [] => none
  | p :: ps, x :: s => if (if p = '.' then x ≠ '\n' else x = p) then reRest ps s else none

/-- `$`: the end, or a line break at the end. -/
def reEnd (s : Str) : Bool := s = [] || s = ['\n']

/-- `.\d+$`. -/
def reBackup : Str → Bool
  | [] => false
  | x :: s => x ≠ '\n' && s.takeWhile Char.isDigit ≠ [] && reEnd (s.dropWhile Char.isDigit)

/-- The regular expression of `get_log_files`, ignis_logging.py:322-326. -/
def isLogName (path name : Str) : Bool :=
  match reRest path name with
  | none => false
  | some r => reEnd r || reBackup r

/-- `glob.glob(file_name + "*")`, ignis_logging.py:318-319: the names that start with the path, in the same directory. -/
def globbed (path name : Str) : Bool := path.isPrefixOf name && !(name.drop path.length).contains '/'

/-- `get_log_files`, ignis_logging.py:306-330; `listing` are the files in the order in which `glob` finds them; `files.sort` is
stable, as insertion sort is. -/
def getLogFiles [LinearOrder T] (path : Str) (mtime : Str → T) (listing : List Str) : List Str :=
  ((listing.filter (globbed path)).insertionSort fun a b => mtime a ≤ mtime b).filter (isLogName path)

/-- The lines of a file. -/
def Disk.lines (d : Disk L T) (n : Str) : List L := (((d.dir n).bind fun i => d.store[i]?).map DFile.lines).getD []

/-- `os.path.getmtime`. -/
def Disk.mtime [Inhabited T] (d : Disk L T) (n : Str) : T := (((d.dir n).bind fun i => d.store[i]?).map DFile.mtime).getD default

/-- The lines `IgnisLogReader().read_values()` goes through, ignis_logging.py:366-371. -/
def Disk.readAll [LinearOrder T] [Inhabited T] (path : Str) (d : Disk L T) (listing : List Str) : List L :=
  (getLogFiles path d.mtime listing).flatMap d.lines

end Verif.Log
