import Verif.Log.Rotate
import Verif.Py.Fmt
/-
Invariants of the log files under rotation.
-/
namespace Verif.Log
open Verif
variable {L T : Type}

/-! ### Names -/

theorem toDigits10_inj {a b : ℕ} (h : Nat.toDigits 10 a = Nat.toDigits 10 b) : a = b := by
  have := congrArg (fun l => Nat.ofDigitChars 10 l 0) h
  simpa using this

theorem toDigits10_ne_nil (k : ℕ) : Nat.toDigits 10 k ≠ [] := by
  intro h
  have := Nat.length_toDigits_pos (b := 10) (n := k)
  rw [h] at this
  simp at this

theorem backup_zero (path : Str) : backup path 0 = path := rfl

theorem backup_inj {path : Str} {j k : ℕ} (h : backup path j = backup path k) : j = k := by
  unfold backup at h
  split at h <;> split at h
  · omega
  · next h1 h2 =>
    have := congrArg List.length h
    simp at this
  · next h1 h2 =>
    have := congrArg List.length h
    simp at this
  · next h1 h2 =>
    rw [List.append_assoc, List.append_assoc, List.append_cancel_left_eq] at h
    exact toDigits10_inj (by simpa using h)

theorem backup_succ_ne (path : Str) (k : ℕ) : backup path (k + 1) ≠ path := fun h => by
  have := backup_inj (path := path) (j := k + 1) (k := 0) h
  omega

theorem reRest_self (p s : Str) : reRest p (p ++ s) = some s := by
  induction p with
  | nil => rfl
  | cons x p ih =>
    rw [List.cons_append, reRest]
    rw [if_pos (by split <;> simp_all), ih]

theorem takeWhile_digits (k : ℕ) : (Nat.toDigits 10 k).takeWhile Char.isDigit = Nat.toDigits 10 k ∧ (Nat.toDigits 10 k).dropWhile Char.isDigit = [] := by
  have h : ∀ c ∈ Nat.toDigits 10 k, c.isDigit = true := fun c hc => digit_of_toDigits hc
  revert h
  generalize Nat.toDigits 10 k = l
  intro h
  induction l with
  | nil => exact ⟨rfl, rfl⟩
  | cons x l ih =>
    obtain ⟨h1, h2⟩ := ih fun c hc => h c (List.mem_cons_of_mem _ hc)
    simp [h x List.mem_cons_self, h1, h2]

theorem isLogName_backup (path : Str) (k : ℕ) : isLogName path (backup path k) = true := by
  unfold isLogName
  by_cases hk : k = 0
  · subst hk
    have := reRest_self path []
    rw [List.append_nil] at this
    rw [backup_zero, this]; rfl
  · unfold backup
    rw [if_neg hk, List.append_assoc, reRest_self]
    obtain ⟨h1, h2⟩ := takeWhile_digits k
    simp only [List.singleton_append, reBackup, h1, h2]
    simp [reEnd]

theorem globbed_backup (path : Str) (k : ℕ) : globbed path (backup path k) = true := by
  unfold globbed backup
  split
  · simp
  · rw [List.append_assoc, List.drop_left]
    have h : ∀ c ∈ Nat.toDigits 10 k, c.isDigit = true := fun c hc => digit_of_toDigits hc
    have : '/' ∉ Nat.toDigits 10 k := fun hc => absurd (h _ hc) (by decide)
    simp [this]

/-! ### Joined backups -/

/-- The oldest backup first, the log file last. -/
def joined {α : Type} (ws : ℕ → List α) : ℕ → List α
  | 0 => ws 0
  | n + 1 => ws (n + 1) ++ joined ws n

theorem joined_congr {α : Type} {ws ws' : ℕ → List α} {n : ℕ} (h : ∀ k, k ≤ n → ws k = ws' k) : joined ws n = joined ws' n := by
  induction n with
  | zero => exact h 0 le_rfl
  | succ n ih => rw [joined, joined, h (n + 1) le_rfl, ih fun k hk => h k (by omega)]

theorem joined_move {α : Type} (ws : ℕ → List α) (n i : ℕ) (hi : i < n) (he : ws (i + 1) = []) :
    joined (Function.update (Function.update ws (i + 1) (ws i)) i []) n = joined ws n := by
  induction n with
  | zero => omega
  | succ n ih =>
    rw [joined, joined]
    rcases Nat.lt_succ_iff_lt_or_eq.1 hi with h | h
    · rw [ih h, Function.update_of_ne (by omega), Function.update_of_ne (by omega)]
    · subst h
      rw [Function.update_of_ne (by omega), Function.update_self, he, List.nil_append]
      cases i with
      | zero => simp [joined]
      | succ i =>
        rw [joined, joined, Function.update_self, List.nil_append]
        congr 1
        exact joined_congr fun k hk => by rw [Function.update_of_ne (by omega), Function.update_of_ne (by omega)]

theorem joined_top {α : Type} (ws : ℕ → List α) (n : ℕ) : joined ws n = ws n ++ joined (Function.update ws n []) n := by
  cases n with
  | zero => simp [joined]
  | succ n =>
    rw [joined, joined, Function.update_self, List.nil_append]
    congr 1
    exact joined_congr fun k hk => by rw [Function.update_of_ne (by omega)]

theorem joined_last {α : Type} (ws : ℕ → List α) (n : ℕ) (x : List α) : joined (Function.update ws 0 (ws 0 ++ x)) n = joined ws n ++ x := by
  induction n with
  | zero => simp [joined]
  | succ n ih => rw [joined, joined, ih, Function.update_of_ne (by omega), List.append_assoc]

/-! ### The invariant -/

/-- `ws k` are the lines (with the times of writing) in backup `k`; `W` are all lines written and `dropped` those no longer on disk. -/
structure RInv (c : RotConf L) (d : Disk L T) (W dropped : List (L × T)) (ws : ℕ → List (L × T)) : Prop where
  inj : ∀ m n i, d.dir m = some i → d.dir n = some i → m = n
  bound : ∀ n i, d.dir n = some i → i < d.store.length
  names : ∀ n, (d.dir n).isSome → isLogName c.path n = true → ∃ k, k ≤ c.rotations ∧ n = backup c.path k
  absent : ∀ k, k ≤ c.rotations → d.dir (backup c.path k) = none → ws k = []
  present : ∀ k, k ≤ c.rotations → ∀ i f, d.dir (backup c.path k) = some i → d.store[i]? = some f →
    f.lines = (ws k).map Prod.fst ∧ ∀ x ∈ (ws k).getLast?, f.mtime = x.2
  all : W = dropped ++ joined ws c.rotations
  keep : c.maxBytes = 0 ∨ c.rotations = 0 → dropped = []
  size : 0 < c.maxBytes → 0 < c.rotations → ∀ k, k ≤ c.rotations → ∀ init l, (ws k).map Prod.fst = init ++ [l] → init ≠ [] →
    (init.map c.bytes).sum + c.chars l < c.maxBytes
  streams : ∀ a i, d.stream a = some i → d.dir c.path = some i

variable {c : RotConf L} {d : Disk L T} {W dr : List (L × T)} {ws : ℕ → List (L × T)}

theorem inv_open (h : RInv c d W dr ws) (a : ℕ) (t : T) : RInv c (d.openBase c.path a t) W dr ws ∧ ((d.openBase c.path a t).stream a).isSome := by
  unfold Disk.openBase
  cases hd : d.dir c.path with
  | some i =>
    refine ⟨⟨h.inj, h.bound, h.names, h.absent, h.present, h.all, h.keep, h.size, ?_⟩, by simp⟩
    intro b j hj
    simp only at hj ⊢
    by_cases e : b = a
    · subst e
      rw [Function.update_self] at hj
      rw [← hj]; exact hd
    · rw [Function.update_of_ne e] at hj
      exact h.streams b j hj
  | none =>
    have hs : ∀ b, d.stream b = none := by
      intro b
      cases hb : d.stream b with
      | none => rfl
      | some i => rw [h.streams b i hb] at hd; cases hd
    refine ⟨⟨?_, ?_, ?_, ?_, ?_, h.all, h.keep, h.size, ?_⟩, by simp⟩
    · intro m n i hm hn
      simp only [Function.update_apply] at hm hn
      split at hm <;> split at hn
      · next e1 e2 => rw [e1, e2]
      · obtain rfl := Option.some.inj hm
        exact absurd (h.bound _ _ hn) (lt_irrefl _)
      · obtain rfl := Option.some.inj hn
        exact absurd (h.bound _ _ hm) (lt_irrefl _)
      · exact h.inj m n i hm hn
    · intro n i hn
      simp only [Function.update_apply] at hn
      simp only [List.length_append, List.length_singleton]
      split at hn
      · obtain rfl := Option.some.inj hn
        omega
      · have := h.bound n i hn
        omega
    · intro n hn hl
      simp only [Function.update_apply] at hn
      split at hn
      · next e => exact ⟨0, by omega, e⟩
      · exact h.names n hn hl
    · intro k hk hn
      simp only [Function.update_apply] at hn
      split at hn
      · cases hn
      · exact h.absent k hk hn
    · intro k hk i f hn hf
      simp only [Function.update_apply] at hn
      split at hn
      · next e =>
        obtain rfl := backup_inj (k := 0) (e.trans (backup_zero _).symm)
        obtain rfl := Option.some.inj hn
        rw [List.getElem?_append_right le_rfl] at hf
        simp at hf
        rw [h.absent 0 hk hd]
        rw [← hf]
        simp
      · have hb := h.bound _ _ hn
        rw [List.getElem?_append_left hb] at hf
        exact h.present k hk i f hn hf
    · intro b j hj
      simp only [Function.update_apply] at hj ⊢
      split at hj
      · simpa using hj
      · rw [hs b] at hj; cases hj

theorem inv_streams (h : RInv c d W dr ws) (st : ℕ → Option ℕ) (hst : ∀ b i, st b = some i → d.stream b = some i) :
    RInv c { d with stream := st } W dr ws :=
  ⟨h.inj, h.bound, h.names, h.absent, h.present, h.all, h.keep, h.size, fun b i hb => h.streams b i (hst b i hb)⟩

theorem inv_close (h : RInv c d W dr ws) (a : ℕ) : RInv c (d.closeStream a) W dr ws := by
  refine inv_streams h _ fun b i hb => ?_
  simp only [Function.update_apply] at hb
  split at hb
  · cases hb
  · exact hb

theorem inv_restart (h : RInv c d W dr ws) : RInv c d.restart W dr ws := inv_streams h _ fun b i hb => by cases hb

theorem rm_absent (n : Str) (hn : d.dir n = none) : d.rm n = d := by
  unfold Disk.rm
  have : Function.update d.dir n none = d.dir := by rw [← hn]; exact Function.update_eq_self n d.dir
  rw [this]

theorem inv_rm_top (h : RInv c d W dr ws) (hr : 0 < c.rotations) (hM : 0 < c.maxBytes) :
    RInv c (d.rm (backup c.path c.rotations)) W (dr ++ ws c.rotations) (Function.update ws c.rotations []) := by
  refine ⟨?_, ?_, ?_, ?_, ?_, ?_, ?_, ?_, ?_⟩
  · intro m n i hm hn
    simp only [Disk.rm, Function.update_apply] at hm hn
    split at hm
    · cases hm
    · split at hn
      · cases hn
      · exact h.inj m n i hm hn
  · intro n i hn
    simp only [Disk.rm, Function.update_apply] at hn
    split at hn
    · cases hn
    · exact h.bound n i hn
  · intro n hn hl
    simp only [Disk.rm, Function.update_apply] at hn
    split at hn
    · cases hn
    · exact h.names n hn hl
  · intro k hk hn
    simp only [Disk.rm, Function.update_apply] at hn
    by_cases e : k = c.rotations
    · subst e; rw [Function.update_self]
    · rw [if_neg fun e' => e (backup_inj e')] at hn
      rw [Function.update_of_ne e]
      exact h.absent k hk hn
  · intro k hk i f hn hf
    simp only [Disk.rm, Function.update_apply] at hn
    by_cases e : k = c.rotations
    · rw [if_pos (by rw [e])] at hn; cases hn
    · rw [if_neg fun e' => e (backup_inj e')] at hn
      rw [Function.update_of_ne e]
      exact h.present k hk i f hn hf
  · rw [h.all, List.append_assoc, ← joined_top]
  · rintro (e | e) <;> omega
  · intro h1 h2 k hk init l e he
    by_cases e' : k = c.rotations
    · rw [e', Function.update_self] at e
      simp at e
    · rw [Function.update_of_ne e'] at e
      exact h.size h1 h2 k hk init l e he
  · intro b i hb
    simp only [Disk.rm, Function.update_apply]
    rw [if_neg]
    · exact h.streams b i hb
    · intro e
      have := backup_inj (j := 0) ((backup_zero _).trans e)
      omega

theorem inv_mv (h : RInv c d W dr ws) (i : ℕ) (hi : i < c.rotations) (habs : d.dir (backup c.path (i + 1)) = none)
    (hs : i = 0 → ∀ a, d.stream a = none) :
    RInv c (d.mv (backup c.path i) (backup c.path (i + 1))) W dr (Function.update (Function.update ws (i + 1) (ws i)) i []) := by
  have hne : backup c.path (i + 1) ≠ backup c.path i := fun e => by have := backup_inj e; omega
  have hdir : ∀ n, (d.mv (backup c.path i) (backup c.path (i + 1))).dir n =
      if n = backup c.path i then none else if n = backup c.path (i + 1) then d.dir (backup c.path i) else d.dir n := by
    intro n
    simp only [Disk.mv, Function.update_apply]
  have hws : ws (i + 1) = [] := h.absent (i + 1) (by omega) habs
  refine ⟨?_, ?_, ?_, ?_, ?_, ?_, h.keep, ?_, ?_⟩
  · intro m n j hm hn
    rw [hdir] at hm hn
    split at hm
    · cases hm
    · split at hn
      · cases hn
      · next e1 e2 =>
        split at hm <;> split at hn
        · next e3 e4 => rw [e3, e4]
        · exact absurd (h.inj _ _ _ hn hm) e2
        · exact absurd (h.inj _ _ _ hm hn) e1
        · exact h.inj m n j hm hn
  · intro n j hn
    rw [hdir] at hn
    split at hn
    · cases hn
    · split at hn
      · exact h.bound _ j hn
      · exact h.bound n j hn
  · intro n hn hl
    rw [hdir] at hn
    split at hn
    · cases hn
    · split at hn
      · next e => exact ⟨i + 1, by omega, e⟩
      · exact h.names n hn hl
  · intro k hk hn
    rw [hdir] at hn
    by_cases e1 : k = i
    · subst e1; rw [Function.update_self]
    · rw [if_neg fun e => e1 (backup_inj e)] at hn
      rw [Function.update_of_ne e1]
      by_cases e2 : k = i + 1
      · subst e2
        rw [if_pos rfl] at hn
        rw [Function.update_self]
        exact h.absent i (by omega) hn
      · rw [if_neg fun e => e2 (backup_inj e)] at hn
        rw [Function.update_of_ne e2]
        exact h.absent k hk hn
  · intro k hk j f hn hf
    rw [hdir] at hn
    by_cases e1 : k = i
    · rw [if_pos (by rw [e1])] at hn; cases hn
    · rw [if_neg fun e => e1 (backup_inj e)] at hn
      rw [Function.update_of_ne e1]
      by_cases e2 : k = i + 1
      · subst e2
        rw [if_pos rfl] at hn
        rw [Function.update_self]
        exact h.present i (by omega) j f hn hf
      · rw [if_neg fun e => e2 (backup_inj e)] at hn
        rw [Function.update_of_ne e2]
        exact h.present k hk j f hn hf
  · rw [joined_move ws _ i hi hws]
    exact h.all
  · intro h1 h2 k hk init l e he
    by_cases e1 : k = i
    · subst e1; rw [Function.update_self] at e; simp at e
    · rw [Function.update_of_ne e1] at e
      by_cases e2 : k = i + 1
      · subst e2
        rw [Function.update_self] at e
        exact h.size h1 h2 i (by omega) init l e he
      · rw [Function.update_of_ne e2] at e
        exact h.size h1 h2 k hk init l e he
  · intro b j hb
    have hb' : d.stream b = some j := hb
    by_cases e0 : i = 0
    · rw [hs e0 b] at hb'; cases hb'
    · rw [hdir, if_neg, if_neg]
      · exact h.streams b j hb'
      · exact fun e => backup_succ_ne c.path i e.symm
      · intro e
        exact e0 (backup_inj (j := 0) e).symm

theorem inv_append (h : RInv c d W dr ws) (a : ℕ) (l : L) (t : T) (ha : (d.stream a).isSome)
    (hsz : 0 < c.maxBytes → 0 < c.rotations → ws 0 = [] ∨ (((ws 0).map Prod.fst).map c.bytes).sum + c.chars l < c.maxBytes) :
    RInv c (d.append a l t) (W ++ [(l, t)]) dr (Function.update ws 0 (ws 0 ++ [(l, t)])) := by
  obtain ⟨i, hi⟩ := Option.isSome_iff_exists.1 ha
  have hp := h.streams a i hi
  have e : d.append a l t = { d with store := d.store.modify i fun f => ⟨f.lines ++ [l], t⟩ } := by
    unfold Disk.append; rw [hi]
  rw [e]
  refine ⟨h.inj, ?_, h.names, ?_, ?_, ?_, h.keep, ?_, h.streams⟩
  · intro n j hn
    rw [List.length_modify]
    exact h.bound n j hn
  · intro k hk hn
    by_cases e1 : k = 0
    · subst e1
      rw [backup_zero] at hn
      simp only at hn
      rw [hp] at hn; cases hn
    · rw [Function.update_of_ne e1]
      exact h.absent k hk hn
  · intro k hk j f hn hf
    simp only at hn hf
    by_cases e1 : k = 0
    · subst e1
      rw [backup_zero, hp] at hn
      obtain rfl := Option.some.inj hn
      rw [List.getElem?_modify_eq] at hf
      obtain ⟨f0, hf0, rfl⟩ := Option.map_eq_some_iff.1 hf
      obtain ⟨h1, h2⟩ := h.present 0 hk i f0 (by rw [backup_zero]; exact hp) hf0
      rw [Function.update_self]
      simp [h1]
    · rw [Function.update_of_ne e1]
      have hij : i ≠ j := by
        intro e2
        subst e2
        have := h.inj _ _ _ hn hp
        exact e1 (backup_inj (k := 0) this)
      rw [List.getElem?_modify_ne _ _ hij] at hf
      exact h.present k hk j f hn hf
  · rw [joined_last, h.all, List.append_assoc]
  · intro h1 h2 k hk init l' e1 he
    by_cases e2 : k = 0
    · subst e2
      rw [Function.update_self, List.map_append] at e1
      simp only [List.map_cons, List.map_nil] at e1
      obtain ⟨e3, e4⟩ := List.append_inj' e1 rfl
      obtain rfl : l = l' := by simpa using e4
      rcases hsz h1 h2 with h3 | h3
      · rw [h3] at e3; exact absurd e3.symm he
      · rw [← e3]; exact h3
    · rw [Function.update_of_ne e2] at e1
      exact h.size h1 h2 k hk init l' e1 he

/-! ### Rolling over -/

/-- The property holds before every step and at the end. -/
def Along (P : Disk L T → Prop) : List (Disk L T → Disk L T) → Disk L T → Prop
  | [], d => P d
  | f :: fs, d => P d ∧ Along P fs (f d)

theorem along_append {P : Disk L T → Prop} (fs gs : List (Disk L T → Disk L T)) (d : Disk L T) (h1 : Along P fs d) (h2 : Along P gs (runSteps fs d)) :
    Along P (fs ++ gs) d := by
  induction fs generalizing d with
  | nil => exact h2
  | cons f fs ih => exact ⟨h1.1, ih _ h1.2 h2⟩

theorem along_take {P : Disk L T → Prop} (fs : List (Disk L T → Disk L T)) (d : Disk L T) (h : Along P fs d) (k : ℕ) : P (runSteps (fs.take k) d) := by
  induction fs generalizing d k with
  | nil => simpa [runSteps, Along] using h
  | cons f fs ih =>
    cases k with
    | zero => exact h.1
    | succ k => exact ih _ h.2 k

theorem runSteps_append (fs gs : List (Disk L T → Disk L T)) (d : Disk L T) : runSteps (fs ++ gs) d = runSteps gs (runSteps fs d) := List.foldl_append ..

/-- The disk is in order. -/
def DiskOk (c : RotConf L) (W : List (L × T)) (d : Disk L T) : Prop := ∃ dr ws, RInv c d W dr ws

/-- Backup `k` exists. -/
def ex (c : RotConf L) (d : Disk L T) (k : ℕ) : Prop := (d.dir (backup c.path k)).isSome = true

theorem not_ex {k : ℕ} : ¬ ex c d k ↔ d.dir (backup c.path k) = none := by
  unfold ex; simp

theorem step_up (h : RInv c d W dr ws) (hM : 0 < c.maxBytes) (i : ℕ) (hi : i + 1 ≤ c.rotations)
    (hc : i + 1 = c.rotations ∨ d.dir (backup c.path (i + 1)) = none) (hs : i = 0 → ∀ a, d.stream a = none) :
    DiskOk c W (d.rm (backup c.path (i + 1))) ∧ ∃ dr', (dr' = dr ∨ dr' = dr ++ ws c.rotations) ∧
      RInv c ((d.rm (backup c.path (i + 1))).mv (backup c.path i) (backup c.path (i + 1))) W dr'
        (Function.update (Function.update ws (i + 1) (ws i)) i []) := by
  rcases hc with hc | hc
  · have h1 := inv_rm_top h (by omega) hM
    rw [← hc] at h1
    refine ⟨⟨_, _, h1⟩, dr ++ ws c.rotations, Or.inr rfl, ?_⟩
    have h2 := inv_mv h1 i (by omega) (by simp [Disk.rm]) hs
    rw [← hc]
    rw [Function.update_of_ne (by omega), Function.update_idem] at h2
    exact h2
  · rw [rm_absent _ hc]
    exact ⟨⟨_, _, h⟩, dr, Or.inl rfl, inv_mv h i (by omega) hc hs⟩

theorem mv_dir (i k : ℕ) (d : Disk L T) : ((d.rm (backup c.path (i + 1))).mv (backup c.path i) (backup c.path (i + 1))).dir (backup c.path k) =
    if k = i then none else if k = i + 1 then d.dir (backup c.path i) else d.dir (backup c.path k) := by
  simp only [Disk.mv, Disk.rm, Function.update_apply]
  by_cases e1 : k = i
  · subst e1; simp
  · rw [if_neg fun e => e1 (backup_inj e), if_neg e1]
    by_cases e2 : k = i + 1
    · subst e2
      rw [if_pos rfl, if_pos rfl, if_neg]
      intro e; exact e1 (backup_inj e).symm
    · rw [if_neg fun e => e2 (backup_inj e), if_neg e2, if_neg fun e => e2 (backup_inj e)]

/-- What moving the backups up has done. -/
structure Moved (c : RotConf L) (m : ℕ) (d d' : Disk L T) (ws ws' : ℕ → List (L × T)) : Prop where
  free : 1 = c.rotations ∨ d'.dir (backup c.path 1) = none
  base : d'.dir (backup c.path 0) = d.dir (backup c.path 0) ∧ ws' 0 = ws 0
  stream : d'.stream = d.stream
  up : ∀ k, 1 ≤ k → k ≤ m → ex c d k → ex c d' (k + 1) ∧ ws' (k + 1) = ws k
  hole : ∀ k, 1 ≤ k → k ≤ m → (¬ ex c d k → ¬ ex c d (k + 1)) → ¬ ex c d k → ¬ ex c d' (k + 1)
  high : ∀ k, m + 1 < k → d'.dir (backup c.path k) = d.dir (backup c.path k) ∧ ws' k = ws k

theorem move_along (m : ℕ) : ∀ (d : Disk L T) (dr : List (L × T)) (ws : ℕ → List (L × T)), RInv c d W dr ws → 0 < c.maxBytes → m + 1 ≤ c.rotations →
    (m + 1 = c.rotations ∨ d.dir (backup c.path (m + 1)) = none) →
    Along (DiskOk c W) (moveSteps c.path m) d ∧ ∃ dr' ws', (dr' = dr ∨ m + 1 = c.rotations ∧ dr' = dr ++ ws c.rotations) ∧
      (1 = c.rotations → dr' = dr) ∧
      RInv c (runSteps (moveSteps c.path m) d) W dr' ws' ∧ Moved c m d (runSteps (moveSteps c.path m) d) ws ws' := by
  induction m with
  | zero =>
    intro d dr ws h hM hm hc
    refine ⟨⟨dr, ws, h⟩, dr, ws, Or.inl rfl, fun _ => rfl, h, ⟨?_, ⟨rfl, rfl⟩, rfl, fun k h1 h2 => by omega, fun k h1 h2 => by omega, fun _ _ => ⟨rfl, rfl⟩⟩⟩
    exact hc
  | succ m ih =>
    intro d dr ws h hM hm hc
    by_cases he : ex c d (m + 1)
    · have he' : (d.dir (backup c.path (m + 1))).isSome = true := he
      obtain ⟨ok, dr1, hdr1, h1⟩ := step_up h hM (m + 1) hm hc (by omega)
      have hd1 := fun k => mv_dir (c := c) (m + 1) k d
      obtain ⟨d1, hd1def⟩ : ∃ d1, d1 = (d.rm (backup c.path (m + 1 + 1))).mv (backup c.path (m + 1)) (backup c.path (m + 1 + 1)) := ⟨_, rfl⟩
      rw [← hd1def] at h1
      simp only [← hd1def] at hd1
      have hrm : ((d.rm (backup c.path (m + 1 + 1))).dir (backup c.path (m + 1))).isSome = true := by
        simp only [Disk.rm, Function.update_apply]
        rw [if_neg fun e => by have := backup_inj e; omega]
        exact he
      have hrun : runSteps (moveSteps c.path (m + 1)) d = runSteps (moveSteps c.path m) d1 := by
        simp only [moveSteps, runSteps, List.foldl_cons]
        rw [if_pos he', if_pos hrm, hd1def]
      obtain ⟨a1, dr2, ws2, hdr2, _, h2, hmv⟩ := ih d1 dr1 _ h1 hM (by omega) (Or.inr (by rw [hd1, if_pos rfl]))
      have hdr : dr2 = dr1 := by
        rcases hdr2 with e | ⟨e, _⟩
        · exact e
        · omega
      refine ⟨?_, dr2, ws2, ?_, fun e => by omega, by rw [hrun]; exact h2, ?_⟩
      · simp only [moveSteps, Along]
        rw [if_pos he', if_pos hrm, ← hd1def]
        exact ⟨⟨dr, ws, h⟩, ok, a1⟩
      · rw [hdr]
        by_cases e : m + 1 + 1 = c.rotations
        · exact hdr1.imp id fun e1 => ⟨e, e1⟩
        · rcases hc with hc | hc
          · exact absurd hc e
          · left
            have h3 := h2.all
            rw [hdr] at h3
            have h4 := rm_absent (d := d) _ hc
            rcases hdr1 with e1 | e1
            · exact e1
            · -- nothing was removed
              have h5 := h1.all
              have h6 := h.all
              rw [joined_move ws _ (m + 1) (by omega) (h.absent _ (by omega) hc)] at h5
              rw [h5] at h6
              exact List.append_cancel_right h6
      · rw [hrun]
        have hex1 : ∀ k, k ≠ m + 1 → k ≠ m + 1 + 1 → (ex c d1 k ↔ ex c d k) := fun k e1 e2 => by
          unfold ex; rw [hd1, if_neg e1, if_neg e2]
        refine ⟨hmv.free, ⟨?_, ?_⟩, ?_, ?_, ?_, ?_⟩
        · rw [hmv.base.1, hd1, if_neg (by omega), if_neg (by omega)]
        · rw [hmv.base.2, Function.update_of_ne (by omega), Function.update_of_ne (by omega)]
        · rw [hmv.stream, hd1def]; rfl
        · intro k k1 k2 hk
          by_cases e : k = m + 1
          · subst e
            obtain ⟨g1, g2⟩ := hmv.high (m + 1 + 1) (by omega)
            refine ⟨?_, ?_⟩
            · unfold ex; rw [g1, hd1, if_neg (by omega), if_pos rfl]; exact he
            · rw [g2, Function.update_of_ne (by omega), Function.update_self]
          · obtain ⟨g1, g2⟩ := hmv.up k k1 (by omega) ((hex1 k e (by omega)).2 hk)
            exact ⟨g1, by rw [g2, Function.update_of_ne e, Function.update_of_ne (by omega)]⟩
        · intro k k1 k2 hk hn
          by_cases e : k = m + 1
          · subst e; exact absurd he hn
          · refine hmv.hole k k1 (by omega) ?_ (fun hx => hn ((hex1 k e (by omega)).1 hx))
            intro _
            by_cases e2 : k + 1 = m + 1
            · rw [e2, not_ex, hd1, if_pos rfl]
            · exact fun hx => hk hn ((hex1 (k + 1) e2 (by omega)).1 hx)
        · intro k hk
          obtain ⟨g1, g2⟩ := hmv.high k (by omega)
          rw [g1, g2, hd1, if_neg (by omega), if_neg (by omega), Function.update_of_ne (by omega), Function.update_of_ne (by omega)]
          exact ⟨rfl, rfl⟩
    · have hrun : runSteps (moveSteps c.path (m + 1)) d = runSteps (moveSteps c.path m) d := by
        have he' : ¬ (d.dir (backup c.path (m + 1))).isSome = true := he
        simp only [moveSteps, runSteps, List.foldl_cons]
        rw [if_neg he', if_neg he']
      obtain ⟨a1, dr2, ws2, hdr2, _, h2, hmv⟩ := ih d dr ws h hM (by omega) (Or.inr (not_ex.1 he))
      refine ⟨?_, dr2, ws2, ?_, fun e => by omega, by rw [hrun]; exact h2, ?_⟩
      · have he' : ¬ (d.dir (backup c.path (m + 1))).isSome = true := he
        simp only [moveSteps, Along]
        rw [if_neg he', if_neg he']
        exact ⟨⟨dr, ws, h⟩, ⟨dr, ws, h⟩, a1⟩
      · rcases hdr2 with e | ⟨e, _⟩
        · exact Or.inl e
        · omega
      · rw [hrun]
        refine ⟨hmv.free, hmv.base, hmv.stream, ?_, ?_, fun k hk => hmv.high k (by omega)⟩
        · intro k k1 k2 hk
          by_cases e : k = m + 1
          · subst e; exact absurd hk he
          · exact hmv.up k k1 (by omega) hk
        · intro k k1 k2 hk hn
          by_cases e : k = m + 1
          · subst e
            have := hk hn
            unfold ex
            rw [(hmv.high (m + 1 + 1) (by omega)).1]
            exact this
          · exact hmv.hole k k1 (by omega) hk hn

/-- There is no hole in the numbering of the backups. -/
def NoHole (c : RotConf L) (d : Disk L T) : Prop := ∀ k, k < c.rotations → ex c d (k + 1) → ex c d k

/-- What a rollover has done, if it was not interrupted. -/
structure Rolled (c : RotConf L) (d d' : Disk L T) (dr dr' : List (L × T)) (ws ws' : ℕ → List (L × T)) : Prop where
  base : ex c d' 0
  up : ∀ k, k < c.rotations → (ex c d' (k + 1) ↔ ex c d k) ∧ ws' (k + 1) = ws k
  lost : dr' = dr ∨ dr' = dr ++ ws c.rotations

theorem ex_open (d : Disk L T) (a : ℕ) (t : T) (k : ℕ) : ex c (d.openBase c.path a t) k ↔ k = 0 ∨ ex c d k := by
  unfold ex Disk.openBase
  cases hd : d.dir c.path with
  | some i =>
    simp only
    constructor
    · exact Or.inr
    · rintro (e | e)
      · subst e; rw [backup_zero, hd]; rfl
      · exact e
  | none =>
    simp only [Function.update_apply]
    by_cases e : k = 0
    · subst e; simp [backup_zero]
    · have hne : backup c.path k ≠ c.path := fun e' => e (backup_inj (k := 0) e')
      rw [if_neg hne]
      simp [e]

theorem open_stream (d : Disk L T) (path : Str) (a b : ℕ) (t : T) (hb : b ≠ a) : (d.openBase path a t).stream b = d.stream b := by
  unfold Disk.openBase
  split <;> simp [hb]

theorem roll_along (h : RInv c d W dr ws) (hM : 0 < c.maxBytes) (a : ℕ) (t : T) (hs : 0 < c.rotations → ∀ b, b ≠ a → d.stream b = none) (he : ex c d 0) :
    Along (DiskOk c W) (rollSteps c a t) d ∧ ∃ dr' ws', RInv c (runSteps (rollSteps c a t) d) W dr' ws' ∧
      ((runSteps (rollSteps c a t) d).stream a).isSome ∧ (0 < c.rotations → ws' 0 = []) ∧ (0 < c.rotations → ∀ b, b ≠ a → (runSteps (rollSteps c a t) d).stream b = none) ∧
      (0 < c.rotations → NoHole c d → Rolled c d (runSteps (rollSteps c a t) d) dr dr' ws ws') := by
  have hcl := inv_close h a
  by_cases hr : 0 < c.rotations
  · obtain ⟨m, hm⟩ : ∃ m, c.rotations = m + 1 := ⟨c.rotations - 1, by omega⟩
    have hsteps : rollSteps c a t = [Disk.closeStream a] ++ (moveSteps c.path m ++
        ([Disk.rm (backup c.path 1), fun d => if (d.dir c.path).isSome then d.mv c.path (backup c.path 1) else d] ++ [Disk.openBase c.path a t])) := by
      unfold rollSteps
      rw [if_pos hr, hm]
      simp
    obtain ⟨d1, hd1⟩ : ∃ d1, d1 = d.closeStream a := ⟨_, rfl⟩
    rw [← hd1] at hcl
    obtain ⟨a1, dr2, ws2, hdr2, hone, h2, hmv⟩ := move_along m d1 dr ws hcl hM (by omega) (Or.inl hm.symm)
    obtain ⟨d2, hd2⟩ : ∃ d2, d2 = runSteps (moveSteps c.path m) d1 := ⟨_, rfl⟩
    rw [← hd2] at h2 hmv
    have hex1 : ∀ k, ex c d1 k ↔ ex c d k := fun k => by rw [hd1]; exact Iff.rfl
    have hs2 : ∀ b, d2.stream b = none := by
      intro b
      rw [hmv.stream, hd1]
      unfold Disk.closeStream
      simp only [Function.update_apply]
      split
      · rfl
      · next e => exact hs hr b e
    have he2 : ex c d2 0 := by unfold ex; rw [hmv.base.1]; exact (hex1 0).2 he
    obtain ⟨ok3, dr4, hdr4, h4⟩ := step_up h2 hM 0 (by omega) hmv.free (fun _ => hs2)
    have hd4 := fun k => mv_dir (c := c) 0 k d2
    obtain ⟨d4, hd4def⟩ : ∃ d4, d4 = (d2.rm (backup c.path (0 + 1))).mv (backup c.path 0) (backup c.path (0 + 1)) := ⟨_, rfl⟩
    rw [← hd4def] at h4
    simp only [← hd4def] at hd4
    obtain ⟨h5, hst⟩ := inv_open h4 a t
    have hrm : ((d2.rm (backup c.path 1)).dir c.path).isSome = true := by
      simp only [Disk.rm, Function.update_apply]
      rw [if_neg fun e => backup_succ_ne c.path 0 e.symm]
      exact he2
    have hrun : runSteps (rollSteps c a t) d = d4.openBase c.path a t := by
      rw [hsteps, runSteps_append, runSteps_append]
      have : runSteps [Disk.closeStream a] d = d1 := hd1.symm
      rw [this, ← hd2]
      simp only [runSteps, List.cons_append, List.nil_append, List.foldl_cons, List.foldl_nil]
      rw [if_pos hrm, hd4def]
      rfl
    have hw : Function.update (Function.update ws2 (0 + 1) (ws2 0)) 0 [] 0 = [] := Function.update_self ..
    refine ⟨?_, dr4, _, by rw [hrun]; exact h5, by rw [hrun]; exact hst, fun _ => hw, ?_, ?_⟩
    · rw [hsteps]
      refine along_append _ _ _ ⟨⟨_, _, h⟩, ?_⟩ ?_
      · exact ⟨_, _, inv_close h a⟩
      · have : runSteps [Disk.closeStream a] d = d1 := hd1.symm
        rw [this]
        refine along_append _ _ _ a1 ?_
        rw [← hd2]
        simp only [List.cons_append, List.nil_append, Along]
        rw [if_pos hrm]
        refine ⟨⟨_, _, h2⟩, ok3, ?_, ?_⟩
        · exact ⟨dr4, _, hd4def ▸ h4⟩
        · exact ⟨dr4, _, hd4def ▸ h5⟩
    · intro _ b hb
      rw [hrun, open_stream _ _ _ _ _ hb, hd4def]
      exact hs2 b
    · intro _ hnh
      rw [hrun]
      refine ⟨(ex_open _ _ _ _).2 (Or.inl rfl), ?_, ?_⟩
      · intro k hk
        rw [ex_open]
        simp only [Nat.succ_ne_zero, false_or]
        have hex4 : ∀ k, 2 ≤ k → (ex c d4 k ↔ ex c d2 k) := fun k h2 => by
          unfold ex; rw [hd4, if_neg (by omega), if_neg (by omega)]
        by_cases e : k = 0
        · subst e
          have : ex c d4 (0 + 1) := by unfold ex; rw [hd4, if_neg (by omega), if_pos rfl]; exact he2
          refine ⟨⟨fun _ => he, fun _ => this⟩, ?_⟩
          rw [Function.update_of_ne (by omega), Function.update_self, hmv.base.2]
        · rw [hex4 _ (by omega), Function.update_of_ne (by omega), Function.update_of_ne (by omega)]
          by_cases hx : ex c d k
          · obtain ⟨g1, g2⟩ := hmv.up k (by omega) (by omega) ((hex1 k).2 hx)
            exact ⟨⟨fun _ => hx, fun _ => g1⟩, g2⟩
          · have g1 := hmv.hole k (by omega) (by omega) (fun _ h3 => hx (hnh k hk ((hex1 _).1 h3))) (fun h3 => hx ((hex1 k).1 h3))
            refine ⟨⟨fun h3 => absurd h3 g1, fun h3 => absurd h3 hx⟩, ?_⟩
            rw [h2.absent (k + 1) (by omega) (not_ex.1 g1), h.absent k (by omega) (not_ex.1 hx)]
      · by_cases e : 1 = c.rotations
        · have e2 := hone e
          have hm0 : m = 0 := by omega
          have hw2 : ws2 c.rotations = ws c.rotations := by
            have hd21 : d2 = d1 := by rw [hd2, hm0]; rfl
            -- with one backup nothing was moved
            have h6 := h2.all
            have h7 := hcl.all
            rw [e2] at h6
            rw [h6] at h7
            have h8 := List.append_cancel_left h7
            rw [← e] at h8 ⊢
            simp only [joined] at h8
            rw [hmv.base.2] at h8
            exact List.append_cancel_right h8
          rw [← e2, ← hw2]
          exact hdr4
        · have h42 : dr4 = dr2 := by
            rcases hmv.free with e1 | e1
            · exact absurd e1 e
            · rcases hdr4 with e3 | e3
              · exact e3
              · have h6 := h4.all
                have h7 := h2.all
                rw [joined_move ws2 _ 0 hr (h2.absent 1 (by omega) e1)] at h6
                rw [h6] at h7
                exact List.append_cancel_right h7
          rw [h42]
          rcases hdr2 with e3 | ⟨_, e3⟩
          · exact Or.inl e3
          · exact Or.inr e3
  · have hsteps : rollSteps c a t = [Disk.closeStream a, Disk.openBase c.path a t] := by
      unfold rollSteps
      rw [if_neg hr]
      rfl
    obtain ⟨h5, hst⟩ := inv_open hcl a t
    rw [hsteps]
    refine ⟨⟨⟨_, _, h⟩, ⟨_, _, hcl⟩, ⟨_, _, h5⟩⟩, dr, ws, h5, hst, fun e => absurd e hr, fun e => absurd e hr, fun e => absurd e hr⟩

/-! ### One call -/

/-- Either files are never moved, or no other logger has the file open. -/
def Alone (c : RotConf L) (a : ℕ) (d : Disk L T) : Prop := c.maxBytes = 0 ∨ c.rotations = 0 ∨ ∀ b, b ≠ a → d.stream b = none

/-- The numbering has no hole, neighbouring backups are full, and lines were dropped only when all backups were in use. -/
structure Tight (c : RotConf L) (d : Disk L T) (dr : List (L × T)) (ws : ℕ → List (L × T)) : Prop where
  noHole : NoHole c d
  full : ∀ k, k < c.rotations → ex c d (k + 1) → ∃ l rest, (ws k).map Prod.fst = l :: rest ∧ c.maxBytes ≤ (((ws (k + 1)).map Prod.fst).map c.bytes).sum + c.chars l
  lost : dr ≠ [] → ex c d c.rotations

theorem should_iff (h : RInv c d W dr ws) (a : ℕ) (l : L) (ha : (d.stream a).isSome) :
    d.should c a l = true ↔ 0 < c.maxBytes ∧ c.maxBytes ≤ (((ws 0).map Prod.fst).map c.bytes).sum + c.chars l := by
  obtain ⟨i, hi⟩ := Option.isSome_iff_exists.1 ha
  have hp := h.streams a i hi
  have hb := h.bound _ _ hp
  have hf : d.store[i]? = some d.store[i] := List.getElem?_eq_getElem hb
  have := (h.present 0 (by omega) i _ (by rw [backup_zero]; exact hp) hf).1
  unfold Disk.should
  rw [hi, Option.bind_some, hf]
  simp only [this]
  simp

theorem ex_append (a : ℕ) (l : L) (t : T) (k : ℕ) : ex c (d.append a l t) k ↔ ex c d k := by
  unfold ex Disk.append
  split <;> exact Iff.rfl

theorem stream_append (a b : ℕ) (l : L) (t : T) : (d.append a l t).stream b = d.stream b := by
  unfold Disk.append
  split <;> rfl

theorem ex_all (hn : NoHole c d) {j k : ℕ} (hk : k ≤ c.rotations) (h : ex c d k) (hj : j ≤ k) : ex c d j := by
  induction k with
  | zero => obtain rfl : j = 0 := by omega
            exact h
  | succ k ih =>
    by_cases e : j = k + 1
    · rw [e]; exact h
    · exact ih (by omega) (hn k (by omega) h) (by omega)

/-- What a call leaves behind. -/
structure Logged (c : RotConf L) (a : ℕ) (l : L) (t : T) (W : List (L × T)) (dr : List (L × T)) (ws : ℕ → List (L × T)) (d d' : Disk L T) : Prop where
  ok : ∃ dr' ws', RInv c d' (W ++ [(l, t)]) dr' ws' ∧ (ws' 0).getLast? = some (l, t) ∧
    (0 < c.maxBytes → 0 < c.rotations → Tight c d dr ws → (∀ b, b ≠ a → d.stream b = none) → Tight c d' dr' ws')
  alone : (∀ b, b ≠ a → d.stream b = none) → 0 < c.rotations → ∀ b, b ≠ a → d'.stream b = none

theorem write_step (h : RInv c d W dr ws) (a : ℕ) (l : L) (t : T) (ha : (d.stream a).isSome) (hal : Alone c a d) :
    let rolls := if d.should c a l then rollSteps c a t else []
    Along (DiskOk c W) rolls d ∧ Logged c a l t W dr ws d (Disk.append a l t (runSteps rolls d)) := by
  intro rolls
  have hx : ex c d 0 := by
    obtain ⟨i, hi⟩ := Option.isSome_iff_exists.1 ha
    unfold ex
    rw [backup_zero, h.streams a i hi]; rfl
  by_cases hsh : d.should c a l = true
  · have hrolls : rolls = rollSteps c a t := if_pos hsh
    obtain ⟨hM, hbig⟩ := (should_iff h a l ha).1 hsh
    have hs : 0 < c.rotations → ∀ b, b ≠ a → d.stream b = none := by
      intro hr
      rcases hal with e | e | e
      · omega
      · omega
      · exact e
    obtain ⟨a1, dr', ws', h1, hst, hw, hs1, hro⟩ := roll_along h hM a t hs hx
    rw [hrolls]
    refine ⟨a1, ?_, ?_⟩
    · refine ⟨dr', _, inv_append h1 a l t hst ?_, by rw [Function.update_self]; simp, ?_⟩
      · intro _ hr
        exact Or.inl (hw hr)
      · intro _ hr ht _
        have hroll := hro hr ht.noHole
        refine ⟨?_, ?_, ?_⟩
        · intro k hk
          rw [ex_append, ex_append, (hroll.up k hk).1]
          cases k with
          | zero => exact fun _ => hroll.base
          | succ k => rw [(hroll.up k (by omega)).1]; exact ht.noHole k (by omega)
        · intro k hk hk1
          rw [ex_append, (hroll.up k hk).1] at hk1
          cases k with
          | zero =>
            refine ⟨l, [], ?_, ?_⟩
            · rw [Function.update_self, hw hr]; rfl
            · rw [Function.update_of_ne (by omega), (hroll.up 0 hk).2]; exact hbig
          | succ k =>
            obtain ⟨l', rest, g1, g2⟩ := ht.full k (by omega) hk1
            refine ⟨l', rest, ?_, ?_⟩
            · rw [Function.update_of_ne (by omega), (hroll.up k (by omega)).2]; exact g1
            · rw [Function.update_of_ne (by omega), (hroll.up (k + 1) hk).2]; exact g2
        · intro hne
          rw [ex_append]
          have htop : ex c d c.rotations := by
            rcases hroll.lost with e | e
            · exact ht.lost (e ▸ hne)
            · by_cases e0 : dr = []
              · by_contra hx'
                rw [e, e0, h.absent _ le_rfl (not_ex.1 hx')] at hne
                exact hne rfl
              · exact ht.lost e0
          obtain ⟨m, hm⟩ : ∃ m, c.rotations = m + 1 := ⟨c.rotations - 1, by omega⟩
          rw [hm, (hroll.up m (by omega)).1]
          exact ex_all ht.noHole (by omega) htop (by omega)
    · intro _ hr b hb
      rw [stream_append]
      exact hs1 hr b hb
  · have hrolls : rolls = [] := if_neg hsh
    rw [hrolls]
    have hsz : 0 < c.maxBytes → (((ws 0).map Prod.fst).map c.bytes).sum + c.chars l < c.maxBytes := by
      intro hM
      by_contra hlt
      exact hsh ((should_iff h a l ha).2 ⟨hM, by omega⟩)
    refine ⟨⟨_, _, h⟩, ?_, ?_⟩
    · refine ⟨dr, _, inv_append h a l t ha fun hM _ => Or.inr (hsz hM), by rw [Function.update_self]; simp, ?_⟩
      intro _ hr ht _
      refine ⟨?_, ?_, ?_⟩
      · intro k hk
        rw [runSteps, List.foldl_nil, ex_append, ex_append]
        exact ht.noHole k hk
      · intro k hk hk1
        rw [runSteps, List.foldl_nil, ex_append] at hk1
        obtain ⟨l', rest, g1, g2⟩ := ht.full k hk hk1
        rw [Function.update_of_ne (a := k + 1) (by omega)]
        by_cases e : k = 0
        · subst e
          refine ⟨l', rest ++ [l], ?_, g2⟩
          rw [Function.update_self, List.map_append, g1]; rfl
        · rw [Function.update_of_ne e]
          exact ⟨l', rest, g1, g2⟩
      · intro hne
        rw [runSteps, List.foldl_nil, ex_append]
        exact ht.lost hne
    · intro hb _ b e
      rw [stream_append]
      exact hb b e

theorem take_append_one {α : Type} (l : List α) (x : α) (k : ℕ) : (l ++ [x]).take k = l.take k ∨ (l ++ [x]).take k = l ++ [x] := by
  rcases Nat.lt_or_ge l.length k with h | h
  · right; exact List.take_of_length_le (by simp; omega)
  · left; rw [List.take_append_of_le_length h]

theorem log_step (h : RInv c d W dr ws) (a : ℕ) (l : L) (t : T) (hal : Alone c a d) :
    (∀ k, ∃ W', (W' = W ∨ W' = W ++ [(l, t)]) ∧ DiskOk c W' (runSteps ((logSteps c a l t d).take k) d)) ∧
    Logged c a l t W dr ws d (runSteps (logSteps c a l t d) d) := by
  obtain ⟨opens, ho⟩ : ∃ opens : List (Disk L T → Disk L T), opens = if (d.stream a).isNone then [Disk.openBase c.path a t] else [] := ⟨_, rfl⟩
  obtain ⟨d1, hd1⟩ : ∃ d1, d1 = runSteps opens d := ⟨_, rfl⟩
  have key : RInv c d1 W dr ws ∧ (d1.stream a).isSome ∧ Along (DiskOk c W) opens d ∧ (∀ b, b ≠ a → d1.stream b = d.stream b) ∧
      (Tight c d dr ws → Tight c d1 dr ws) := by
    by_cases hn : (d.stream a).isNone = true
    · rw [if_pos hn] at ho
      obtain ⟨h1, hst⟩ := inv_open h a t
      have e : d1 = d.openBase c.path a t := by rw [hd1, ho]; rfl
      rw [← e] at h1 hst
      refine ⟨h1, hst, ?_, ?_, ?_⟩
      · rw [ho]
        exact ⟨⟨_, _, h⟩, _, _, e ▸ h1⟩
      · intro b hb
        rw [e, open_stream _ _ _ _ _ hb]
      · intro ht
        rw [e]
        refine ⟨?_, ?_, ?_⟩
        · intro k hk hk1
          rw [ex_open] at hk1 ⊢
          rcases hk1 with e | e
          · omega
          · exact Or.inr (ht.noHole k hk e)
        · intro k hk hk1
          rw [ex_open] at hk1
          rcases hk1 with e | e
          · omega
          · exact ht.full k hk e
        · intro hne
          rw [ex_open]
          exact Or.inr (ht.lost hne)
    · rw [if_neg hn] at ho
      have e : d1 = d := by rw [hd1, ho]; rfl
      rw [e, ho]
      refine ⟨h, ?_, ⟨_, _, h⟩, fun _ _ => rfl, id⟩
      cases hh : d.stream a with
      | none => rw [hh] at hn; exact absurd rfl hn
      | some i => rfl
  obtain ⟨h1, hst, a1, hs1, ht1⟩ := key
  have hal1 : Alone c a d1 := by
    rcases hal with e | e | e
    · exact Or.inl e
    · exact Or.inr (Or.inl e)
    · exact Or.inr (Or.inr fun b hb => (hs1 b hb).trans (e b hb))
  obtain ⟨a2, hlog⟩ := write_step h1 a l t hst hal1
  obtain ⟨rolls, hr⟩ : ∃ rolls, rolls = if d1.should c a l then rollSteps c a t else [] := ⟨_, rfl⟩
  rw [← hr] at a2 hlog
  have hsteps : logSteps c a l t d = (opens ++ rolls) ++ [Disk.append a l t] := by
    unfold logSteps
    simp only [← ho, ← hd1, ← hr]
  have hpre : Along (DiskOk c W) (opens ++ rolls) d := along_append _ _ _ a1 (by rw [← hd1]; exact a2)
  have hfin : runSteps (logSteps c a l t d) d = Disk.append a l t (runSteps rolls d1) := by
    rw [hsteps, runSteps_append, runSteps_append, ← hd1]
    rfl
  refine ⟨?_, ?_⟩
  · intro k
    rw [hsteps]
    rcases take_append_one (opens ++ rolls) (Disk.append a l t) k with e | e
    · rw [e]
      exact ⟨W, Or.inl rfl, along_take _ _ hpre k⟩
    · rw [e, ← hsteps, hfin]
      obtain ⟨dr', ws', g1, _⟩ := hlog.ok
      exact ⟨_, Or.inr rfl, dr', ws', g1⟩
  · rw [hfin]
    obtain ⟨dr', ws', g1, g2, g3⟩ := hlog.ok
    refine ⟨⟨dr', ws', g1, g2, ?_⟩, ?_⟩
    · intro hM hr0 ht hb
      exact g3 hM hr0 (ht1 ht) fun b e => (hs1 b e).trans (hb b e)
    · intro hb hr0
      exact hlog.alone (fun b e => (hs1 b e).trans (hb b e)) hr0

end Verif.Log
