import Verif.MeasMit.Spec
import Verif.Py.DictLemmas
import Mathlib.Data.List.Nodup
import Mathlib.Data.List.Perm.Basic
import Mathlib.Algebra.BigOperators.Group.List.Basic
import Mathlib.Algebra.Order.Field.Rat
import Mathlib.Tactic.Ring
import Mathlib.Tactic.FieldSimp
import Mathlib.Tactic.Linarith
/-
Closed form of the calibration accumulation loop.
-/
namespace Verif.MeasMit
open Verif Verif.Counts

theorem indices_eq (labels : List Str) (h : labels.Nodup) : indices labels = labels.zipIdx := by
  rw [indices]
  have := Dict.foldl_set_fresh labels.zipIdx (·.1) (·.2) ([] : Dict Str Nat) (by simpa using h)
  refine this.trans ?_
  simp

theorem get?_indices (labels : List Str) (h : labels.Nodup) (s : Str) (i : Nat) :
    (indices labels).get? s = some i ↔ labels[i]? = some s := by
  rw [indices_eq labels h]
  have hw : Dict.WF (labels.zipIdx : Dict Str Nat) := by
    rw [Dict.WF]; simpa using h
  constructor
  · intro h1
    exact List.mk_mem_zipIdx_iff_getElem?.1 (Dict.get?_mem _ _ _ h1)
  · intro h1
    exact Dict.get?_of_mem _ hw _ _ (List.mk_mem_zipIdx_iff_getElem?.2 h1)

/-- Index, in group `g`, of the part of string `s` that the loop looks at. -/
def gidx (sizes : List Nat) (inds : List (Dict Str Nat)) (e g : Nat) (s : Str) : Option Nat :=
  Dict.get? (inds.getD g []) (slice s (e - (sizes.take (g + 1)).sum) (e - (sizes.take g).sum))

/-- The string is readable: every group finds an index in range. -/
def Ok (sizes : List Nat) (inds : List (Dict Str Nat)) (e : Nat) (s : Str) : Prop :=
  ∀ g, g < sizes.length → ∃ i, gidx sizes inds e g s = some i ∧ i < 2 ^ sizes.getD g 0

/-- The loop of `addShots` as a recursion. -/
def stepRec (e : Nat) (st me : Str) (c : ℚ) :
    List ((Mat ℚ × Nat) × Dict Str Nat) → Option (List (Mat ℚ))
  | [] => some []
  | g :: gs =>
    match g.2.get? (slice st (e - g.1.2) e), g.2.get? (slice me (e - g.1.2) e) with
    | some j, some i =>
      if i < 2 ^ g.1.2 ∧ j < 2 ^ g.1.2 then
        (stepRec (e - g.1.2) st me c gs).map (Mat.bump g.1.1 i j c :: ·)
      else none
    | _, _ => none

theorem fold_eq_stepRec (e : Nat) (st me : Str) (c : ℚ)
    (gs : List ((Mat ℚ × Nat) × Dict Str Nat)) (acc : List (Mat ℚ)) :
    (gs.foldlM (addShotsStep st me c) (e, acc)).map (·.2)
      = (stepRec e st me c gs).map (acc ++ ·) := by
  induction gs generalizing e acc with
  | nil => simp [stepRec]
  | cons g gs ih =>
    rw [List.foldlM_cons, stepRec, addShotsStep]
    simp only
    cases h1 : Dict.get? g.2 (slice st (e - g.1.2) e) with
    | none => simp
    | some j =>
      cases h2 : Dict.get? g.2 (slice me (e - g.1.2) e) with
      | none => simp
      | some i =>
        by_cases h3 : i < 2 ^ g.1.2 ∧ j < 2 ^ g.1.2
        · simp only [Option.bind_eq_bind, Option.bind_some, h3, and_self, if_true]
          refine (ih (e - g.1.2) _).trans ?_
          cases stepRec (e - g.1.2) st me c gs <;> simp
        · simp only [Option.bind_eq_bind, Option.bind_some, h3, if_false]
          simp

theorem addShots_eq (sizes : List Nat) (inds : List (Dict Str Nat)) (n : Nat) (st me : Str) (c : ℚ)
    (mats : List (Mat ℚ)) :
    addShots sizes inds n st me c mats = stepRec n st me c ((mats.zip sizes).zip inds) := by
  rw [addShots, fold_eq_stepRec]
  cases stepRec n st me c ((mats.zip sizes).zip inds) <;> simp

theorem stepRec_iff (st me : Str) (c : ℚ) (sizes : List Nat) (inds : List (Dict Str Nat))
    (mats out : List (Mat ℚ)) (e : Nat) (hm : mats.length = sizes.length)
    (hi : inds.length = sizes.length) :
    stepRec e st me c ((mats.zip sizes).zip inds) = some out ↔
      (Ok sizes inds e st ∧ Ok sizes inds e me) ∧ out.length = sizes.length ∧
      ∀ g, g < sizes.length → ∀ i j, (out.getD g (fun _ _ => 0)) i j =
        (mats.getD g (fun _ _ => 0)) i j +
          (if gidx sizes inds e g me = some i ∧ gidx sizes inds e g st = some j then c else 0) := by
  induction sizes generalizing mats inds out e with
  | nil =>
    have h1 : mats = [] := List.length_eq_zero_iff.1 (by simpa using hm)
    subst h1
    cases out <;> simp [stepRec, Ok]
  | cons k sizes ih =>
    obtain ⟨m, mats, rfl⟩ := List.exists_cons_of_length_eq_add_one (by simpa using hm)
    obtain ⟨d, inds, rfl⟩ := List.exists_cons_of_length_eq_add_one (by simpa using hi)
    have hm' : mats.length = sizes.length := by simpa using hm
    have hi' : inds.length = sizes.length := by simpa using hi
    have hg0 : ∀ s, gidx (k :: sizes) (d :: inds) e 0 s = Dict.get? d (slice s (e - k) e) := by
      intro s; simp [gidx]
    have hgs : ∀ g s, gidx (k :: sizes) (d :: inds) e (g + 1) s = gidx sizes inds (e - k) g s := by
      intro g s
      simp [gidx, Nat.sub_sub]
    have hOk : ∀ s, Ok (k :: sizes) (d :: inds) e s ↔
        (∃ i, Dict.get? d (slice s (e - k) e) = some i ∧ i < 2 ^ k) ∧ Ok sizes inds (e - k) s := by
      intro s
      constructor
      · intro h
        refine ⟨?_, ?_⟩
        · obtain ⟨i, h1, h2⟩ := h 0 (by simp)
          rw [hg0] at h1
          exact ⟨i, h1, by simpa using h2⟩
        · intro g hg
          obtain ⟨i, h1, h2⟩ := h (g + 1) (by simpa using hg)
          rw [hgs] at h1
          exact ⟨i, h1, by simpa using h2⟩
      · rintro ⟨⟨i, h1, h2⟩, h⟩ g hg
        cases g with
        | zero => exact ⟨i, by rw [hg0]; exact h1, by simpa using h2⟩
        | succ g =>
          obtain ⟨i, h1, h2⟩ := h g (by simpa using hg)
          exact ⟨i, by rw [hgs]; exact h1, by simpa using h2⟩
    rw [List.zip_cons_cons, List.zip_cons_cons, stepRec, hOk, hOk]
    cases h1 : Dict.get? d (slice st (e - k) e) with
    | none => simp
    | some j0 =>
      cases h2 : Dict.get? d (slice me (e - k) e) with
      | none => simp
      | some i0 =>
        by_cases h3 : i0 < 2 ^ k ∧ j0 < 2 ^ k
        swap
        · simp only [h3, if_false]
          constructor
          · simp
          · rintro ⟨⟨⟨⟨i, hi1, hi2⟩, -⟩, ⟨i', hi1', hi2'⟩, -⟩, -⟩
            simp at hi1 hi1'
            subst hi1; subst hi1'
            exact absurd ⟨hi2', hi2⟩ h3
        simp only [h3, and_self, if_true, Option.map_eq_some_iff]
        constructor
        · rintro ⟨out', ho, rfl⟩
          obtain ⟨⟨a1, a2⟩, a3, a4⟩ := (ih inds mats out' (e - k) hm' hi').1 ho
          refine ⟨⟨⟨⟨j0, rfl, h3.2⟩, a1⟩, ⟨i0, rfl, h3.1⟩, a2⟩, by simp [a3], ?_⟩
          intro g hg i j
          cases g with
          | zero =>
            rw [hg0, hg0, h1, h2]
            simp only [List.getD_cons_zero, Mat.bump, Option.some.injEq]
            by_cases hij : i = i0 ∧ j = j0
            · rw [if_pos hij, if_pos ⟨hij.1.symm, hij.2.symm⟩]
            · rw [if_neg hij, if_neg (fun h => hij ⟨h.1.symm, h.2.symm⟩), add_zero]
          | succ g =>
            rw [hgs, hgs]
            simpa using a4 g (by simpa using hg) i j
        · rintro ⟨⟨⟨-, a1⟩, ⟨-, a2⟩⟩, a3, a4⟩
          obtain ⟨o, out', rfl⟩ := List.exists_cons_of_length_eq_add_one (by simpa using a3)
          refine ⟨out', (ih inds mats out' (e - k) hm' hi').2 ⟨⟨a1, a2⟩, by simpa using a3, ?_⟩, ?_⟩
          · intro g hg i j
            have := a4 (g + 1) (by simpa using hg) i j
            rw [hgs, hgs] at this
            simpa using this
          · congr 1
            funext i j
            have := a4 0 (by simp) i j
            rw [hg0, hg0, h1, h2] at this
            simp only [List.getD_cons_zero, Option.some.injEq] at this
            rw [this, Mat.bump]
            by_cases hij : i = i0 ∧ j = j0
            · rw [if_pos hij, if_pos ⟨hij.1.symm, hij.2.symm⟩]
            · rw [if_neg hij, if_neg (fun h => hij ⟨h.1.symm, h.2.symm⟩), add_zero]

theorem accumulate_eq_shots (circlabel : Str) (sizes : List Nat) (inds : List (Dict Str Nat))
    (results : List Result) :
    accumulate circlabel sizes inds results =
      (shots circlabel results).foldlM
        (fun mats s => addShots sizes inds sizes.sum s.prepared s.measured s.count mats)
        (sizes.map fun _ => fun _ _ => 0) := by
  rw [accumulate, shots]
  generalize (sizes.map fun _ => (fun _ _ => 0 : Mat ℚ)) = m0
  have inner : ∀ (r : Result) (l : Result) (hl : l ⊆ r) (m : List (Mat ℚ)),
      l.foldlM (fun mats e =>
        match calState circlabel e.1 with
        | none => some mats
        | some state => do
          let cnts ← getCounts r e.1
          cnts.foldlM (fun mats p => addShots sizes inds sizes.sum state p.1 p.2 mats) mats) m
      = (l.flatMap fun e =>
          match calState circlabel e.1 with
          | none => []
          | some state => ((getCounts r e.1).getD []).map fun p => Shot.mk state p.1 p.2).foldlM
        (fun mats s => addShots sizes inds sizes.sum s.prepared s.measured s.count mats) m := by
    intro r l
    induction l with
    | nil => intro _ m; rfl
    | cons e l ih =>
      intro hl m
      rw [List.foldlM_cons, List.flatMap_cons, List.foldlM_append]
      have hget : ∃ c, getCounts r e.1 = some c := by
        have : e.1 ∈ r.map (·.1) := List.mem_map.2 ⟨e, hl (by simp), rfl⟩
        rw [Dict.mem_keys_iff] at this
        exact Option.isSome_iff_exists.1 this
      obtain ⟨c, hc⟩ := hget
      have ih' := ih (fun x hx => hl (by simp [hx]))
      cases hs : calState circlabel e.1 with
      | none =>
        simp only [List.foldlM_nil]
        exact ih' m
      | some state =>
        simp only [hc, Option.getD_some, List.foldlM_map]
        refine congrArg₂ _ rfl ?_
        funext m'
        exact ih' m'
  induction results generalizing m0 with
  | nil => rfl
  | cons r rs ih =>
    rw [List.foldlM_cons, List.flatMap_cons, List.foldlM_append]
    refine congrArg₂ _ (inner r r (fun _ h => h) m0) ?_
    funext m'
    exact ih m'

theorem total_cons (s : Shot) (l : List Shot) (cond : Shot → Bool) :
    total (s :: l) cond = (if cond s then s.count else 0) + total l cond := by
  rw [total, total, List.filter_cons]
  split <;> simp

theorem foldShots_iff (sizes : List Nat) (inds : List (Dict Str Nat)) (n : Nat) (l : List Shot)
    (mats out : List (Mat ℚ)) (hm : mats.length = sizes.length) (hi : inds.length = sizes.length) :
    l.foldlM (fun mats s => addShots sizes inds n s.prepared s.measured s.count mats) mats
      = some out ↔
      (∀ s ∈ l, Ok sizes inds n s.prepared ∧ Ok sizes inds n s.measured) ∧
      out.length = sizes.length ∧
      ∀ g, g < sizes.length → ∀ i j, (out.getD g (fun _ _ => 0)) i j =
        (mats.getD g (fun _ _ => 0)) i j +
        total l fun s => gidx sizes inds n g s.measured = some i ∧
          gidx sizes inds n g s.prepared = some j := by
  induction l generalizing mats with
  | nil =>
    simp only [List.foldlM_nil, List.not_mem_nil, false_implies, implies_true, true_and]
    constructor
    · intro h
      have : mats = out := Option.some.inj h
      subst this
      exact ⟨hm, fun g hg i j => by simp [total]⟩
    · rintro ⟨h1, h2⟩
      have : mats = out := by
        apply List.ext_getElem (by omega)
        intro g hg1 hg2
        funext i j
        have := h2 g (by omega) i j
        simp [total, List.getD_eq_getElem?_getD, hg1, hg2] at this
        exact this.symm
      rw [this]; rfl
  | cons s l ih =>
    rw [List.foldlM_cons]
    constructor
    · intro h
      rw [Option.bind_eq_bind, Option.bind_eq_some_iff] at h
      obtain ⟨mid, h1, h2⟩ := h
      rw [addShots_eq, stepRec_iff _ _ _ _ _ _ _ _ hm hi] at h1
      obtain ⟨a1, a2, a3⟩ := h1
      obtain ⟨b1, b2, b3⟩ := (ih mid a2).1 h2
      refine ⟨?_, b2, ?_⟩
      · intro t ht
        rcases List.mem_cons.1 ht with rfl | ht
        · exact a1
        · exact b1 t ht
      · intro g hg i j
        rw [b3 g hg i j, a3 g hg i j, total_cons, add_assoc]
        simp
    · rintro ⟨h1, h2, h3⟩
      have hs := h1 s (by simp)
      obtain ⟨mid, hmid⟩ : ∃ mid, stepRec n s.prepared s.measured s.count ((mats.zip sizes).zip inds)
          = some mid := by
        refine ⟨(List.range sizes.length).map fun g => fun i j => (mats.getD g (fun _ _ => 0)) i j +
          (if gidx sizes inds n g s.measured = some i ∧ gidx sizes inds n g s.prepared = some j
            then s.count else 0), ?_⟩
        rw [stepRec_iff _ _ _ _ _ _ _ _ hm hi]
        refine ⟨hs, by simp, ?_⟩
        intro g hg i j
        simp [List.getD_eq_getElem?_getD, hg]
      have hmid' := hmid
      rw [stepRec_iff _ _ _ _ _ _ _ _ hm hi] at hmid
      obtain ⟨a1, a2, a3⟩ := hmid
      rw [addShots_eq, hmid', Option.bind_eq_bind, Option.bind_some]
      refine (ih mid a2).2 ⟨fun t ht => h1 t (by simp [ht]), h2, ?_⟩
      intro g hg i j
      rw [h3 g hg i j, a3 g hg i j, total_cons, add_assoc]
      simp

theorem total_perm (l l' : List Shot) (h : l.Perm l') (cond : Shot → Bool) :
    total l cond = total l' cond :=
  ((h.filter cond).map _).sum_eq

theorem shots_perm (circlabel : Str) (rs rs' : List Result) (h : rs.Perm rs') :
    (shots circlabel rs).Perm (shots circlabel rs') :=
  h.flatMap_right _

theorem accumulate_perm (circlabel : Str) (sizes : List Nat) (inds : List (Dict Str Nat))
    (hi : inds.length = sizes.length) (rs rs' : List Result) (h : rs.Perm rs') :
    accumulate circlabel sizes inds rs = accumulate circlabel sizes inds rs' := by
  apply Option.ext
  intro out
  rw [accumulate_eq_shots, accumulate_eq_shots,
    foldShots_iff _ _ _ _ _ _ (by simp) hi, foldShots_iff _ _ _ _ _ _ (by simp) hi]
  have hp := shots_perm circlabel rs rs' h
  simp only [total_perm _ _ hp, hp.mem_iff]

theorem total_add (l : List Shot) (c1 c2 c3 : Shot → Bool)
    (h : ∀ s ∈ l, (if c1 s then (1 : ℚ) else 0) = (if c2 s then 1 else 0) + (if c3 s then 1 else 0)) :
    total l c1 = total l c2 + total l c3 := by
  induction l with
  | nil => simp [total]
  | cons s l ih =>
    rw [total_cons, total_cons, total_cons, ih (fun t ht => h t (by simp [ht]))]
    have := h s (by simp)
    have e : ∀ b : Bool, (if b then s.count else 0) = s.count * (if b then (1 : ℚ) else 0) := by
      intro b; cases b <;> simp
    rw [e, e, e, this]
    ring

/-- Splitting the shots by the measured index. -/
theorem total_split (l : List Shot) (idx : Shot → Option Nat) (cond : Shot → Bool) (d : Nat) :
    ((List.range d).map fun i => total l fun s => idx s = some i ∧ cond s).sum
      = total l fun s => (∃ i, i < d ∧ idx s = some i) ∧ cond s := by
  induction d with
  | zero => simp [total]
  | succ d ih =>
    rw [List.range_succ, List.map_append, List.sum_append, ih]
    simp only [List.map_cons, List.map_nil, List.sum_cons, List.sum_nil, add_zero]
    symm
    apply total_add
    intro s _
    by_cases hc : cond s
    · cases h : idx s with
      | none => simp
      | some k =>
        simp only [hc, Option.some.injEq, and_true]
        by_cases hk : k = d
        · subst hk
          simp
        · by_cases hk2 : k < d
          · simp [hk, hk2]; omega
          · have : ¬ k < d + 1 := by omega
            simp [hk, hk2, this]
    · simp [hc]

theorem total_congr (l : List Shot) (c1 c2 : Shot → Bool) (h : ∀ s ∈ l, c1 s = c2 s) :
    total l c1 = total l c2 := by
  rw [total, total, List.filter_congr h]

theorem total_nonneg (l : List Shot) (c : Shot → Bool) (h : ∀ s ∈ l, 0 ≤ s.count) :
    0 ≤ total l c := by
  induction l with
  | nil => simp [total]
  | cons s l ih =>
    rw [total_cons]
    have h1 := h s (by simp)
    have h2 := ih (fun t ht => h t (by simp [ht]))
    split <;> linarith

end Verif.MeasMit
