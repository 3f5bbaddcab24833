import Verif.Log.SpecRotate
import Verif.Log.LemmasRotate
import Verif.Log.PropsRead
/-
C138: what can be read back from the log files after any history.
-/
namespace Verif.Log
open Verif
variable {L T : Type} {c : RotConf L} {d : Disk L T} {W dr : List (L × T)} {ws : ℕ → List (L × T)}

/-! ### Reading -/

theorem joined_pairwise {α : Type} {R : α → α → Prop} (ws : ℕ → List α) (n : ℕ) (h : (joined ws n).Pairwise R) :
    ∀ k, k ≤ n → ∀ j, j < k → ∀ x ∈ ws k, ∀ y ∈ ws j, R x y := by
  have hmem : ∀ n j, j ≤ n → ∀ y ∈ ws j, y ∈ joined ws n := by
    intro n
    induction n with
    | zero => intro j hj y hy; obtain rfl : j = 0 := by omega
              exact hy
    | succ n ih =>
      intro j hj y hy
      rw [joined, List.mem_append]
      by_cases e : j = n + 1
      · subst e; exact Or.inl hy
      · exact Or.inr (ih j (by omega) y hy)
  induction n with
  | zero => intro k hk j hj; omega
  | succ n ih =>
    rw [joined, List.pairwise_append] at h
    intro k hk j hj x hx y hy
    by_cases e : k = n + 1
    · subst e
      exact h.2.2 x hx y (hmem n j (by omega) y hy)
    · exact ih h.2.1 k (by omega) j hj x hx y hy

theorem lines_slot (h : RInv c d W dr ws) (k : ℕ) (hk : k ≤ c.rotations) : d.lines (backup c.path k) = (ws k).map Prod.fst := by
  unfold Disk.lines
  cases hd : d.dir (backup c.path k) with
  | none => rw [h.absent k hk hd]; rfl
  | some i =>
    have hb := h.bound _ _ hd
    have hf : d.store[i]? = some d.store[i] := List.getElem?_eq_getElem hb
    rw [Option.bind_some, hf]
    exact (h.present k hk i _ hd hf).1

theorem mtime_slot [Inhabited T] (h : RInv c d W dr ws) (k : ℕ) (hk : k ≤ c.rotations) (x : L × T) (hx : (ws k).getLast? = some x) :
    d.mtime (backup c.path k) = x.2 := by
  unfold Disk.mtime
  cases hd : d.dir (backup c.path k) with
  | none => rw [h.absent k hk hd] at hx; cases hx
  | some i =>
    have hb := h.bound _ _ hd
    have hf : d.store[i]? = some d.store[i] := List.getElem?_eq_getElem hb
    rw [Option.bind_some, hf]
    exact (h.present k hk i _ hd hf).2 x hx

theorem flatMap_nonempty {α β : Type} (f : α → List β) (l : List α) : l.flatMap f = (l.filter fun x => !(f x).isEmpty).flatMap f := by
  induction l with
  | nil => rfl
  | cons x l ih =>
    rw [List.flatMap_cons, List.filter_cons]
    split
    · rw [List.flatMap_cons, ih]
    · next e =>
      have : f x = [] := by simpa using e
      rw [this, List.nil_append, ih]

theorem joined_flatMap (ws : ℕ → List (L × T)) (g : Str → List L) (path : Str) (n : ℕ) (h : ∀ k, k ≤ n → g (backup path k) = (ws k).map Prod.fst) :
    (joined ws n).map Prod.fst = (((List.range (n + 1)).reverse).map (backup path)).flatMap g := by
  induction n with
  | zero => simp [joined, h 0 le_rfl]
  | succ n ih =>
    rw [joined, List.map_append, List.range_succ, List.reverse_append, List.reverse_singleton, List.singleton_append, List.map_cons, List.flatMap_cons,
      h (n + 1) le_rfl, ih fun k hk => h k (by omega)]

theorem mem_files [LinearOrder T] [Inhabited T] (h : RInv c d W dr ws) (listing : List Str) (hl : Listing d listing) (n : Str) :
    n ∈ getLogFiles c.path d.mtime listing ↔ ∃ k, k ≤ c.rotations ∧ n = backup c.path k ∧ ex c d k := by
  unfold getLogFiles
  rw [List.mem_filter, List.mem_insertionSort, List.mem_filter, hl.2 n]
  constructor
  · rintro ⟨⟨h1, _⟩, h2⟩
    obtain ⟨k, hk, rfl⟩ := h.names n h1 h2
    exact ⟨k, hk, rfl, h1⟩
  · rintro ⟨k, hk, rfl, hx⟩
    exact ⟨⟨hx, globbed_backup _ _⟩, isLogName_backup _ _⟩

theorem nodup_files [LinearOrder T] [Inhabited T] (listing : List Str) (hl : Listing d listing) : (getLogFiles c.path d.mtime listing).Nodup := by
  unfold getLogFiles
  refine List.Nodup.filter _ ?_
  exact (List.perm_insertionSort _ _).nodup_iff.2 (hl.1.filter _)

theorem read_all [LinearOrder T] [Inhabited T] (h : RInv c d W dr ws) (ht : (W.map Prod.snd).Pairwise (· < ·)) (listing : List Str) (hl : Listing d listing) :
    d.readAll c.path listing = (joined ws c.rotations).map Prod.fst ∧ (getLogFiles c.path d.mtime listing).length ≤ c.rotations + 1 := by
  have hmem := mem_files h listing hl
  have hnd := nodup_files (c := c) listing hl
  have hsort : (getLogFiles c.path d.mtime listing).Pairwise fun a b => d.mtime a ≤ d.mtime b := by
    unfold getLogFiles
    refine List.Pairwise.filter _ ?_
    have : Std.Total fun a b : Str => d.mtime a ≤ d.mtime b := ⟨fun a b => le_total _ _⟩
    have : IsTrans Str fun a b => d.mtime a ≤ d.mtime b := ⟨fun a b c => le_trans⟩
    exact List.pairwise_insertionSort (fun a b : Str => d.mtime a ≤ d.mtime b) _
  obtain ⟨G, hG⟩ : ∃ G, G = ((List.range (c.rotations + 1)).reverse).map (backup c.path) := ⟨_, rfl⟩
  have hGn : G.Nodup := by
    rw [hG]
    exact (List.nodup_reverse.2 List.nodup_range).map fun a b e => backup_inj e
  have hGm : ∀ n, n ∈ G ↔ ∃ k, k ≤ c.rotations ∧ n = backup c.path k := by
    intro n
    rw [hG]
    simp only [List.mem_map, List.mem_reverse, List.mem_range]
    constructor
    · rintro ⟨k, hk, rfl⟩; exact ⟨k, by omega, rfl⟩
    · rintro ⟨k, hk, rfl⟩; exact ⟨k, by omega, rfl⟩
  refine ⟨?_, ?_⟩
  · unfold Disk.readAll
    rw [joined_flatMap ws d.lines c.path c.rotations (lines_slot h), ← hG, flatMap_nonempty, flatMap_nonempty _ G]
    congr 1
    have hp : (joined ws c.rotations).Pairwise fun x y => x.2 < y.2 := by
      have h1 := List.pairwise_map.1 ht
      rw [h.all, List.pairwise_append] at h1
      exact h1.2.1
    have hlt : ∀ k, k ≤ c.rotations → ∀ j, j < k → d.lines (backup c.path k) ≠ [] → d.lines (backup c.path j) ≠ [] →
        d.mtime (backup c.path k) < d.mtime (backup c.path j) := by
      intro k hk j hj h1 h2
      rw [lines_slot h k hk] at h1
      rw [lines_slot h j (by omega)] at h2
      have h1' : ws k ≠ [] := fun e => h1 (by rw [e]; rfl)
      have h2' : ws j ≠ [] := fun e => h2 (by rw [e]; rfl)
      rw [mtime_slot h k hk _ (List.getLast?_eq_some_getLast h1'), mtime_slot h j (by omega) _ (List.getLast?_eq_some_getLast h2')]
      exact joined_pairwise ws _ hp k hk j hj _ (List.getLast_mem h1') _ (List.getLast_mem h2')
    have hGp : (G.filter fun x => !(d.lines x).isEmpty).Pairwise fun a b => d.mtime a ≤ d.mtime b := by
      rw [List.pairwise_filter, hG, List.pairwise_map, List.pairwise_reverse]
      refine (List.pairwise_lt_range (n := c.rotations + 1)).imp_of_mem ?_
      intro j k hj hk hjk h1 h2
      have hk' := List.mem_range.1 hk
      exact (hlt k (by omega) j hjk (by simpa using h1) (by simpa using h2)).le
    refine List.Perm.eq_of_pairwise ?_ (List.Pairwise.filter _ hsort) hGp ?_
    · intro a b ha hb hab hba
      rw [List.mem_filter] at ha hb
      obtain ⟨j, hj, rfl, _⟩ := (hmem a).1 ha.1
      obtain ⟨k, hk, rfl⟩ := (hGm b).1 hb.1
      rcases Nat.lt_trichotomy j k with e | e | e
      · exact absurd hab (not_le.2 (hlt k hk j e (by simpa using hb.2) (by simpa using ha.2)))
      · rw [e]
      · exact absurd hba (not_le.2 (hlt j hj k e (by simpa using ha.2) (by simpa using hb.2)))
    · refine (List.perm_ext_iff_of_nodup (hnd.filter _) (hGn.filter _)).2 fun n => ?_
      rw [List.mem_filter, List.mem_filter, hmem, hGm]
      constructor
      · rintro ⟨⟨k, hk, e, _⟩, h2⟩
        exact ⟨⟨k, hk, e⟩, h2⟩
      · rintro ⟨⟨k, hk, e⟩, h2⟩
        refine ⟨⟨k, hk, e, ?_⟩, h2⟩
        by_contra hx
        rw [e, lines_slot h k hk, h.absent k hk (not_ex.1 hx)] at h2
        simp at h2
  · have hsub : getLogFiles c.path d.mtime listing ⊆ G := fun n hn => by
      obtain ⟨k, hk, e, _⟩ := (hmem n).1 hn
      exact (hGm n).2 ⟨k, hk, e⟩
    have := (List.subperm_of_subset hnd hsub).length_le
    rw [hG] at this
    simpa using this

/-! ### Histories -/

theorem inv_fresh (h : FreshDisk c d) : RInv c d [] [] fun _ => [] := by
  have hn : ∀ k, d.dir (backup c.path k) = none := fun k => h.names _ (isLogName_backup _ _)
  refine ⟨h.inj, h.bound, ?_, fun _ _ _ => rfl, ?_, ?_, fun _ => rfl, ?_, ?_⟩
  · intro n hn hl
    rw [h.names n hl] at hn; cases hn
  · intro k _ i f hd
    rw [hn k] at hd; cases hd
  · have : ∀ n, joined (fun _ => ([] : List (L × T))) n = [] := by
      intro n
      induction n with
      | zero => rfl
      | succ n ih => rw [joined, ih]; rfl
    rw [this]; rfl
  · intro _ _ k _ init l e
    have := congrArg List.length e
    simp at this
  · intro a i ha
    rw [h.closed a] at ha; cases ha

/-- What is known after a history: `Quiet` if only logger `a` is used. -/
def Quiet (a : ℕ) (d : Disk L T) : Prop := ∀ b, b ≠ a → d.stream b = none

theorem run_ok (c : RotConf L) (ops : List (DiskOp L T)) : ∀ (d : Disk L T) (W dr : List (L × T)) (ws : ℕ → List (L × T)), RInv c d W dr ws →
    (c.maxBytes = 0 ∨ c.rotations = 0 ∨ ∃ a, OnlyLogger a ops ∧ Quiet a d) →
    ∃ W' dr' ws', Wrote ops W' ∧ RInv c (d.run c ops) (W ++ W') dr' ws' ∧
      ∀ a l t, ops.getLast? = some (.log a l t) → (ws' 0).getLast? = some (l, t) := by
  induction ops with
  | nil =>
    intro d W dr ws h _
    exact ⟨[], dr, ws, rfl, by rw [List.append_nil]; exact h, fun a l t e => by cases e⟩
  | cons op ops ih =>
    intro d W dr ws h hs
    have hrest : (∃ a, OnlyLogger a (op :: ops) ∧ Quiet a d) → ∃ a, OnlyLogger a ops := fun ⟨a, h1, _⟩ => ⟨a, fun o ho => h1 o (List.mem_cons_of_mem _ ho)⟩
    have hlast : ∀ (ws' : ℕ → List (L × T)) (a : ℕ) (l : L) (t : T), ops ≠ [] →
        (∀ a l t, ops.getLast? = some (.log a l t) → (ws' 0).getLast? = some (l, t)) → (op :: ops).getLast? = some (.log a l t) → (ws' 0).getLast? = some (l, t) := by
      intro ws' a l t hne hh e
      rw [List.getLast?_cons_of_ne_nil hne] at e
      exact hh a l t e
    cases op with
    | log a l t =>
      have hal : Alone c a d := by
        rcases hs with e | e | ⟨b, h1, h2⟩
        · exact Or.inl e
        · exact Or.inr (Or.inl e)
        · have : a = b := h1 (.log a l t) List.mem_cons_self
          subst this
          exact Or.inr (Or.inr h2)
      obtain ⟨_, hlog⟩ := log_step h a l t hal
      obtain ⟨dr1, ws1, h1, hl1, _⟩ := hlog.ok
      obtain ⟨W', dr2, ws2, hw, h2, hl2⟩ := ih _ _ dr1 ws1 h1 (by
        rcases hs with e | e | ⟨b, h1, h2⟩
        · exact Or.inl e
        · exact Or.inr (Or.inl e)
        · by_cases hr : c.rotations = 0
          · exact Or.inr (Or.inl hr)
          · have : a = b := h1 (.log a l t) List.mem_cons_self
            subst this
            exact Or.inr (Or.inr ⟨a, fun o ho => h1 o (List.mem_cons_of_mem _ ho), hlog.alone h2 (by omega)⟩))
      by_cases hne : ops = []
      · subst hne
        obtain rfl : W' = [] := hw
        refine ⟨[(l, t)], dr1, ws1, ⟨[], rfl, rfl⟩, h1, ?_⟩
        intro a' l' t' e
        simp only [List.getLast?_singleton, Option.some.injEq, DiskOp.log.injEq] at e
        rw [hl1, e.2.1, e.2.2]
      · refine ⟨(l, t) :: W', dr2, ws2, ⟨W', hw, rfl⟩, ?_, fun a' l' t' => hlast ws2 a' l' t' hne hl2⟩
        rw [List.append_assoc] at h2
        exact h2
    | crash a l t k =>
      have hal : Alone c a d := by
        rcases hs with e | e | ⟨b, h1, h2⟩
        · exact Or.inl e
        · exact Or.inr (Or.inl e)
        · have : a = b := h1 (.crash a l t k) List.mem_cons_self
          subst this
          exact Or.inr (Or.inr h2)
      obtain ⟨hk, _⟩ := log_step h a l t hal
      obtain ⟨W1, hW1, dr1, ws1, h1⟩ := hk k
      obtain ⟨W', dr2, ws2, hw, h2, hl2⟩ := ih _ _ dr1 ws1 (inv_restart h1) (by
        rcases hs with e | e | h3
        · exact Or.inl e
        · exact Or.inr (Or.inl e)
        · obtain ⟨b, hb⟩ := hrest h3
          exact Or.inr (Or.inr ⟨b, hb, fun _ _ => rfl⟩))
      have hl3 : ∀ a' l' t', (DiskOp.crash a l t k :: ops).getLast? = some (.log a' l' t') → (ws2 0).getLast? = some (l', t') := by
        intro a' l' t' e
        by_cases hne : ops = []
        · subst hne; cases e
        · exact hlast ws2 a' l' t' hne hl2 e
      rcases hW1 with e | e
      · exact ⟨W', dr2, ws2, ⟨W', hw, Or.inl rfl⟩, by rw [← e]; exact h2, hl3⟩
      · refine ⟨(l, t) :: W', dr2, ws2, ⟨W', hw, Or.inr rfl⟩, ?_, hl3⟩
        rw [e, List.append_assoc] at h2
        exact h2
    | restart =>
      obtain ⟨W', dr2, ws2, hw, h2, hl2⟩ := ih _ _ dr ws (inv_restart h) (by
        rcases hs with e | e | h3
        · exact Or.inl e
        · exact Or.inr (Or.inl e)
        · obtain ⟨b, hb⟩ := hrest h3
          exact Or.inr (Or.inr ⟨b, hb, fun _ _ => rfl⟩))
      refine ⟨W', dr2, ws2, hw, h2, ?_⟩
      intro a' l' t' e
      by_cases hne : ops = []
      · subst hne; cases e
      · exact hlast ws2 a' l' t' hne hl2 e

theorem wrote_times [LT T] (ops : List (DiskOp L T)) (W : List (L × T)) (h : Wrote ops W) : List.Sublist (W.map Prod.snd) (ops.filterMap DiskOp.time) := by
  induction ops generalizing W with
  | nil => rw [show W = [] from h]; exact List.Sublist.refl _
  | cons op ops ih =>
    cases op with
    | log a l t =>
      obtain ⟨W', hw, rfl⟩ := h
      exact (ih W' hw).cons_cons t
    | crash a l t k =>
      obtain ⟨W', hw, rfl | rfl⟩ := h
      · exact (ih W hw).cons t
      · exact (ih W' hw).cons_cons t
    | restart => exact ih W h

/-- **C138** Whatever processes log through one logger, however often they are killed in the middle of a call and started again, the reader finds, for every
order in which the directory is listed, a suffix of the lines written, in the order of writing, in at most `rotations + 1` files; the last line
logged is the last one read; and with no size limit or no rotations, nothing is ever lost, for any number of loggers. -/
theorem C138_read [LinearOrder T] [Inhabited T] (c : RotConf L) (d : Disk L T) (hd : FreshDisk c d) (ops : List (DiskOp L T)) (ht : Ticking ops)
    (hsafe : c.maxBytes = 0 ∨ c.rotations = 0 ∨ ∃ a, OnlyLogger a ops) :
    ∃ lost kept, Wrote ops (lost ++ kept) ∧ (c.maxBytes = 0 ∨ c.rotations = 0 → lost = []) ∧
      (∀ a l t, ops.getLast? = some (.log a l t) → kept.getLast? = some (l, t)) ∧
      ∀ listing, Listing (d.run c ops) listing →
        (d.run c ops).readAll c.path listing = kept.map Prod.fst ∧ (getLogFiles c.path (d.run c ops).mtime listing).length ≤ c.rotations + 1 := by
  obtain ⟨W, dr, ws, hw, h, hl⟩ := run_ok c ops d [] [] _ (inv_fresh hd) (by
    rcases hsafe with e | e | ⟨a, ha⟩
    · exact Or.inl e
    · exact Or.inr (Or.inl e)
    · exact Or.inr (Or.inr ⟨a, ha, fun b _ => hd.closed b⟩))
  rw [List.nil_append] at h
  refine ⟨dr, joined ws c.rotations, by rw [← h.all]; exact hw, h.keep, ?_, ?_⟩
  · intro a l t e
    have h0 := hl a l t e
    have : ∀ n, (joined ws n).getLast? = some (l, t) := by
      intro n
      induction n with
      | zero => exact h0
      | succ n ih => rw [joined, List.getLast?_append, ih]; rfl
    exact this _
  · intro listing hli
    exact read_all h (List.Pairwise.sublist (wrote_times ops W hw) ht) listing hli

/-- **C138** What `read_values` returns after such a history are the rows of the entries still on disk, in the order of writing, filtered as documented. -/
theorem C138_rows {S : Type} [LinearOrder S] [LinearOrder T] [Inhabited T] (strptime : Str → Str → Option S) (C : Clock S) (hC : C.Good strptime)
    (c : RotConf (Entry S)) (d : Disk (Entry S) T) (hd : FreshDisk c d) (ops : List (DiskOp (Entry S) T)) (ht : Ticking ops)
    (hsafe : c.maxBytes = 0 ∨ c.rotations = 0 ∨ ∃ a, OnlyLogger a ops)
    (hclean : ∀ W, Wrote ops W → ∀ x ∈ W, ∀ kv ∈ x.1.items, NiceKey kv.1 ∧ Clean kv.2)
    (keys : Option (List Str)) (lo hi : Bound S) (lo' hi' : Option S) (h1 : resolve strptime lo = .ok lo') (h2 : resolve strptime hi = .ok hi') :
    ∃ lost kept, Wrote ops (lost ++ kept) ∧ (c.maxBytes = 0 ∨ c.rotations = 0 → lost = []) ∧ ∀ listing, Listing (d.run c ops) listing →
      readValues strptime keys lo hi ((getLogFiles c.path (d.run c ops).mtime listing).map fun n => logFile C ((d.run c ops).lines n)) =
        .ok (expectedRows C keys lo' hi' (kept.map Prod.fst)) := by
  obtain ⟨lost, kept, hw, hk, _, hr⟩ := C138_read c d hd ops ht hsafe
  refine ⟨lost, kept, hw, hk, fun listing hl => ?_⟩
  have hread := (hr listing hl).1
  unfold Disk.readAll at hread
  have hmap : (getLogFiles c.path (d.run c ops).mtime listing).map (fun n => logFile C ((d.run c ops).lines n)) =
      ((getLogFiles c.path (d.run c ops).mtime listing).map (d.run c ops).lines).map (logFile C) := by rw [List.map_map]; rfl
  rw [hmap, C70_rows strptime C hC _ ?_ keys lo hi lo' hi' h1 h2]
  · congr 1
    rw [← hread]
    unfold expectedRows
    rw [List.flatMap_map, List.flatMap_def, List.flatMap_def, List.filterMap_flatten, List.map_map]
    rfl
  · intro es hes e he
    have : e ∈ kept.map Prod.fst := by
      rw [← hread, List.mem_flatMap]
      obtain ⟨n, hn, rfl⟩ := List.mem_map.1 hes
      exact ⟨n, hn, he⟩
    obtain ⟨x, hx, rfl⟩ := List.mem_map.1 this
    exact hclean _ hw x (List.mem_append_right _ hx)

/-- **C138** With a size limit and rotations, a file with more than one line is below the limit: what came before its last line, together with that line, is. -/
theorem C138_sizes [LinearOrder T] [Inhabited T] (c : RotConf L) (hM : 0 < c.maxBytes) (hr : 0 < c.rotations) (d : Disk L T) (hd : FreshDisk c d)
    (ops : List (DiskOp L T)) (hsafe : ∃ a, OnlyLogger a ops) (listing : List Str) (hl : Listing (d.run c ops) listing) :
    ∀ n ∈ getLogFiles c.path (d.run c ops).mtime listing, ∀ init l, (d.run c ops).lines n = init ++ [l] → init ≠ [] →
      (init.map c.bytes).sum + c.chars l < c.maxBytes := by
  obtain ⟨a, ha⟩ := hsafe
  obtain ⟨W, dr, ws, hw, h, _⟩ := run_ok c ops d [] [] _ (inv_fresh hd) (Or.inr (Or.inr ⟨a, ha, fun b _ => hd.closed b⟩))
  intro n hn init l e hne
  obtain ⟨k, hk, rfl, _⟩ := (mem_files h listing hl n).1 hn
  rw [lines_slot h k hk] at e
  exact h.size hM hr k hk init l e hne

theorem run_tight (c : RotConf L) (hM : 0 < c.maxBytes) (hr : 0 < c.rotations) (a : ℕ) (ops : List (DiskOp L T)) :
    ∀ (d : Disk L T) (W dr : List (L × T)) (ws : ℕ → List (L × T)), RInv c d W dr ws → Tight c d dr ws → OnlyLogger a ops → NoCrash ops → Quiet a d →
    ∃ W' dr' ws', Wrote ops W' ∧ RInv c (d.run c ops) (W ++ W') dr' ws' ∧ Tight c (d.run c ops) dr' ws' := by
  induction ops with
  | nil =>
    intro d W dr ws h ht _ _ _
    exact ⟨[], dr, ws, rfl, by rw [List.append_nil]; exact h, ht⟩
  | cons op ops ih =>
    intro d W dr ws h ht ho hn hq
    have ho' : OnlyLogger a ops := fun o h' => ho o (List.mem_cons_of_mem _ h')
    have hn' : NoCrash ops := fun o h' => hn o (List.mem_cons_of_mem _ h')
    cases op with
    | log b l t =>
      obtain rfl : b = a := ho (.log b l t) List.mem_cons_self
      obtain ⟨_, hlog⟩ := log_step h b l t (Or.inr (Or.inr hq))
      obtain ⟨dr1, ws1, h1, _, ht1⟩ := hlog.ok
      obtain ⟨W', dr2, ws2, hw, h2, ht2⟩ := ih _ _ dr1 ws1 h1 (ht1 hM hr ht hq) ho' hn' (hlog.alone hq hr)
      refine ⟨(l, t) :: W', dr2, ws2, ⟨W', hw, rfl⟩, ?_, ht2⟩
      rw [List.append_assoc] at h2
      exact h2
    | crash b l t k => exact absurd (hn (.crash b l t k) List.mem_cons_self) id
    | restart => exact ih _ _ dr ws (inv_restart h) ⟨ht.noHole, ht.full, ht.lost⟩ ho' hn' fun _ _ => rfl

theorem joined_bytes (w : L → ℕ) (ws : ℕ → List (L × T)) (m n : ℕ) (h : ∀ k, k < n → m ≤ (((ws (k + 1)).map Prod.fst).map w).sum) :
    n * m ≤ (((joined ws n).map Prod.fst).map w).sum := by
  induction n with
  | zero => simp
  | succ n ih =>
    have h1 := h n (by omega)
    have h2 := ih fun k hk => h k (by omega)
    rw [joined, List.map_append, List.map_append, List.sum_append, Nat.succ_mul]
    omega

/-- **C138** If no process was killed, a line is lost only when all backups are in use, and then each backup is full: it has no room for the first line of the
next one.  So with no line longer than `m` characters, at least `rotations · (maxBytes - m)` bytes are kept. -/
theorem C138_full [LinearOrder T] [Inhabited T] (c : RotConf L) (hM : 0 < c.maxBytes) (hr : 0 < c.rotations) (d : Disk L T) (hd : FreshDisk c d)
    (ops : List (DiskOp L T)) (ht : Ticking ops) (hn : NoCrash ops) (a : ℕ) (ha : OnlyLogger a ops) :
    ∃ lost kept, Wrote ops (lost ++ kept) ∧
      (∀ listing, Listing (d.run c ops) listing → (d.run c ops).readAll c.path listing = kept.map Prod.fst) ∧
      (lost ≠ [] →
        (∀ k, k < c.rotations → ∃ l, ((d.run c ops).lines (backup c.path k)).head? = some l ∧
          c.maxBytes ≤ (((d.run c ops).lines (backup c.path (k + 1))).map c.bytes).sum + c.chars l) ∧
        ∀ m, (∀ l, c.chars l ≤ m) → c.rotations * (c.maxBytes - m) ≤ ((kept.map Prod.fst).map c.bytes).sum) := by
  have ht0 : Tight c d [] fun _ => [] := by
    have hx : ∀ k, ¬ ex c d k := fun k => not_ex.2 (hd.names _ (isLogName_backup _ _))
    exact ⟨fun k _ h => absurd h (hx _), fun k _ h => absurd h (hx _), fun h => absurd rfl h⟩
  obtain ⟨W, dr, ws, hw, h, hti⟩ := run_tight c hM hr a ops d [] [] _ (inv_fresh hd) ht0 ha hn fun b _ => hd.closed b
  rw [List.nil_append] at h
  refine ⟨dr, joined ws c.rotations, by rw [← h.all]; exact hw, ?_, ?_⟩
  · intro listing hl
    exact (read_all h (List.Pairwise.sublist (wrote_times ops W hw) ht) listing hl).1
  · intro hne
    have hall := fun k (hk : k ≤ c.rotations) => ex_all hti.noHole le_rfl (hti.lost hne) hk
    refine ⟨?_, ?_⟩
    · intro k hk
      obtain ⟨l, rest, g1, g2⟩ := hti.full k hk (hall (k + 1) (by omega))
      rw [lines_slot h k (by omega), lines_slot h (k + 1) (by omega), g1]
      exact ⟨l, rfl, g2⟩
    · intro m hm
      refine joined_bytes c.bytes ws _ _ fun k hk => ?_
      obtain ⟨l, rest, g1, g2⟩ := hti.full k hk (hall (k + 1) (by omega))
      have := hm l
      omega

/-! ### A concrete history, and what goes wrong -/

/-- Lines are numbers, each of ten bytes. -/
def tenConf (maxBytes rotations : ℕ) : RotConf ℕ := ⟨"ignis.log".toList, maxBytes, rotations, fun _ => 10, fun _ => 10⟩

/-- A directory with one other file. -/
def otherFile (n : Str) : Disk ℕ ℕ := ⟨fun m => if m = n then some 0 else none, [⟨[99], 0⟩], fun _ => none⟩

theorem otherFile_fresh (n : Str) (b r : ℕ) (h : isLogName "ignis.log".toList n = false) : FreshDisk (tenConf b r) (otherFile n) := by
  refine ⟨?_, ?_, ?_, fun _ => rfl⟩
  · intro m k i hm hk
    simp only [otherFile] at hm hk
    split at hm
    · split at hk
      · next e1 e2 => rw [e1, e2]
      · cases hk
    · cases hm
  · intro m i hm
    simp only [otherFile] at hm
    split at hm
    · obtain rfl := Option.some.inj hm
      exact Nat.one_pos
    · cases hm
  · intro m hm
    simp only [otherFile]
    rw [if_neg]
    rintro rfl
    rw [show (tenConf b r).path = "ignis.log".toList from rfl, h] at hm
    cases hm

/-- Seven lines; the process is killed in the middle of the rollover before the fifth. -/
def tenOps : List (DiskOp ℕ ℕ) := [.log 0 1 1, .log 0 2 2, .log 0 3 3, .log 0 4 4, .restart, .crash 0 5 5 4, .log 0 6 6, .log 0 7 7]

/-- The names of the log files. -/
def tenNames : List Str := ["ignis.log".toList, "ignis.log.1".toList, "ignis.log.2".toList, "notes".toList]

/-- **C138, a concrete case**: the hypotheses are met, lines are really lost, and reading gives the rest whatever the order of the directory. -/
theorem C138_experiment :
    FreshDisk (tenConf 25 2) (otherFile "notes".toList) ∧ Ticking tenOps ∧ OnlyLogger 0 tenOps ∧
    ((otherFile "notes".toList).run (tenConf 25 2) (tenOps ++ [.log 0 8 8])).readAll "ignis.log".toList tenNames = [3, 4, 6, 7, 8] ∧
    ((otherFile "notes".toList).run (tenConf 25 2) (tenOps ++ [.log 0 8 8])).readAll "ignis.log".toList tenNames.reverse = [3, 4, 6, 7, 8] ∧
    ((otherFile "notes".toList).run (tenConf 25 2) tenOps).readAll "ignis.log".toList tenNames = [1, 2, 3, 4, 6, 7] := by
  refine ⟨otherFile_fresh _ _ _ (by decide +kernel), ?_, ?_, ?_, ?_, ?_⟩
  · show List.Pairwise _ _
    decide +kernel
  · intro op hop
    simp only [tenOps, List.mem_cons, List.not_mem_nil, or_false] at hop
    rcases hop with rfl | rfl | rfl | rfl | rfl | rfl | rfl | rfl <;> trivial
  all_goals decide +kernel

/-- An empty directory. -/
def noFiles : Disk ℕ ℕ := ⟨fun _ => none, [], fun _ => none⟩

/-- The log file and its first three backups. -/
def fourNames : List Str := ["ignis.log".toList, "ignis.log.1".toList, "ignis.log.2".toList, "ignis.log.3".toList]

/-- **C138 (finding)** With rotation, two loggers do not work together although `get_file_handler` gives each its own handler for the same file: a logger whose file
was moved away by the other keeps writing there.  Lines come back in the wrong order, and a line just logged may be in no file at all. -/
theorem C138_finding_two_loggers :
    (noFiles.run (tenConf 25 1) [.log 0 1 1, .log 1 2 2, .log 1 3 3, .log 0 4 4, .log 1 5 5, .log 0 6 6]).readAll "ignis.log".toList fourNames = [3, 5, 4, 6] ∧
    (noFiles.run (tenConf 25 1) [.log 0 1 1, .log 1 2 2, .log 1 3 3, .log 0 4 4, .log 0 5 5, .log 0 6 6, .log 1 7 7]).readAll "ignis.log".toList fourNames
      = [4, 5, 6] := by decide +kernel

/-- **C138 (finding)** If two files were last changed at the same time, which a coarse clock makes likely, the order in which they are read depends on the order of
the directory. -/
theorem C138_finding_same_time :
    (noFiles.run (tenConf 15 1) [.log 0 1 1, .log 0 2 1]).readAll "ignis.log".toList fourNames = [2, 1] ∧
    (noFiles.run (tenConf 15 1) [.log 0 1 1, .log 0 2 1]).readAll "ignis.log".toList fourNames.reverse = [1, 2] := by decide +kernel

/-- **C138 (finding)** The dot of the pattern is not escaped: files with names such as `ignis.log_2020` or `ignis.log77` are read as if they were backups. -/
theorem C138_finding_other_files :
    ((otherFile "ignis.log_2020".toList).run (tenConf 25 2) [.log 0 1 1]).readAll "ignis.log".toList ["ignis.log".toList, "ignis.log_2020".toList] = [99, 1] ∧
    isLogName "ignis.log".toList "ignis.log77".toList = true ∧ isLogName "ignis.log".toList "ignis.log.old".toList = false := by decide +kernel

/-- **C138 (finding)** A process killed in the middle of a rollover leaves a hole in the numbering, and later rollovers do not use it: here two lines are lost to
make room although two of the three backups are free afterwards. -/
theorem C138_finding_hole :
    (noFiles.run (tenConf 15 3) [.log 0 1 1, .log 0 2 2, .log 0 3 3, .log 0 4 4]).readAll "ignis.log".toList fourNames = [1, 2, 3, 4] ∧
    (noFiles.run (tenConf 15 3) [.log 0 1 1, .log 0 2 2, .log 0 3 3, .log 0 4 4, .crash 0 5 5 5, .crash 0 5 6 5]).readAll "ignis.log".toList fourNames = [3, 4] := by
  decide +kernel

theorem noFiles_fresh {L T : Type} (c : RotConf L) : FreshDisk c (⟨fun _ => none, [], fun _ => none⟩ : Disk L T) :=
  ⟨fun _ _ _ h => (nomatch h), fun _ _ h => (nomatch h), fun _ _ => rfl, fun _ => rfl⟩

/-- The hypotheses of `C138_full` and `C138_sizes` are met by histories in which lines are lost. -/
example : FreshDisk (tenConf 15 1) noFiles ∧ Ticking ([.log 0 1 1, .log 0 2 2, .restart, .log 0 3 3] : List (DiskOp ℕ ℕ)) ∧
    NoCrash ([.log 0 1 1, .log 0 2 2, .restart, .log 0 3 3] : List (DiskOp ℕ ℕ)) ∧
    OnlyLogger 0 ([.log 0 1 1, .log 0 2 2, .restart, .log 0 3 3] : List (DiskOp ℕ ℕ)) ∧
    (noFiles.run (tenConf 15 1) [.log 0 1 1, .log 0 2 2, .restart, .log 0 3 3]).readAll "ignis.log".toList fourNames = [2, 3] := by
  refine ⟨noFiles_fresh _, ?_, ?_, ?_, by decide +kernel⟩
  · show List.Pairwise _ _
    decide +kernel
  · intro op hop
    simp only [List.mem_cons, List.not_mem_nil, or_false] at hop
    rcases hop with rfl | rfl | rfl | rfl <;> trivial
  · intro op hop
    simp only [List.mem_cons, List.not_mem_nil, or_false] at hop
    rcases hop with rfl | rfl | rfl | rfl <;> trivial

/-- The hypotheses of `C138_rows` are met. -/
example : ∃ lost kept, Wrote ([.log 0 ⟨3600, [("t1".toList, "1.5".toList)]⟩ 1, .crash 0 ⟨3670, [("t1".toList, "2.5".toList)]⟩ 2 1] : List (DiskOp (Entry (Fin 86400)) ℕ)) (lost ++ kept) ∧
    ∀ listing, Listing ((⟨fun _ => none, [], fun _ => none⟩ : Disk (Entry (Fin 86400)) ℕ).run ⟨"ignis.log".toList, 100, 2, fun _ => 50, fun _ => 50⟩
        [.log 0 ⟨3600, [("t1".toList, "1.5".toList)]⟩ 1, .crash 0 ⟨3670, [("t1".toList, "2.5".toList)]⟩ 2 1]) listing →
      readValues dayParse none .absent .absent ((getLogFiles "ignis.log".toList ((⟨fun _ => none, [], fun _ => none⟩ : Disk (Entry (Fin 86400)) ℕ).run
          ⟨"ignis.log".toList, 100, 2, fun _ => 50, fun _ => 50⟩
          [.log 0 ⟨3600, [("t1".toList, "1.5".toList)]⟩ 1, .crash 0 ⟨3670, [("t1".toList, "2.5".toList)]⟩ 2 1]).mtime listing).map fun n =>
          logFile dayClock (((⟨fun _ => none, [], fun _ => none⟩ : Disk (Entry (Fin 86400)) ℕ).run ⟨"ignis.log".toList, 100, 2, fun _ => 50, fun _ => 50⟩
            [.log 0 ⟨3600, [("t1".toList, "1.5".toList)]⟩ 1, .crash 0 ⟨3670, [("t1".toList, "2.5".toList)]⟩ 2 1]).lines n)) =
        .ok (expectedRows dayClock none none none (kept.map Prod.fst)) := by
  obtain ⟨lost, kept, h1, _, h2⟩ := C138_rows dayParse dayClock dayClock_good ⟨"ignis.log".toList, 100, 2, fun _ => 50, fun _ => 50⟩
    (⟨fun _ => none, [], fun _ => none⟩ : Disk (Entry (Fin 86400)) ℕ) (noFiles_fresh _)
    [.log 0 ⟨3600, [("t1".toList, "1.5".toList)]⟩ 1, .crash 0 ⟨3670, [("t1".toList, "2.5".toList)]⟩ 2 1] (by show List.Pairwise _ _; decide +kernel)
    (Or.inr (Or.inr ⟨0, by
      intro op hop
      simp only [List.mem_cons, List.not_mem_nil, or_false] at hop
      rcases hop with rfl | rfl <;> trivial⟩))
    (by
      rintro W ⟨W1, ⟨W2, hW2, h3⟩, rfl⟩ x hx
      obtain rfl : W2 = [] := hW2
      rcases h3 with rfl | rfl
      · simp only [List.mem_cons, List.not_mem_nil, or_false] at hx
        subst hx
        decide +kernel
      · simp only [List.mem_cons, List.not_mem_nil, or_false] at hx
        rcases hx with rfl | rfl <;> decide +kernel)
    none .absent .absent none none rfl rfl
  exact ⟨lost, kept, h1, h2⟩

end Verif.Log
