import Verif.RepCode.Lemmas4
import Verif.Py.DictLemmas
import Mathlib.Data.Rat.Lemmas
import Mathlib.Algebra.Order.Field.Rat
import Mathlib.Tactic.Positivity
/-
Helper lemmas on dictionaries of processed strings and decoder shares.
-/
namespace Verif.RepCode
open Verif

theorem foldlM_process (d T : Nat) (regs' : List (Reg × Nat))
    (hinj : ∀ m m' : Cl → Bool, processString d T (countsKey regs' m) = processString d T (countsKey regs' m') →
      countsKey regs' m = countsKey regs' m')
    (hsome : ∀ m : Cl → Bool, (processString d T (countsKey regs' m)).isSome)
    (c : Dict Str Nat) (hwf : Dict.WF c) (hc : ∀ kv ∈ c, ∃ m : Cl → Bool, kv.1 = countsKey regs' m) :
    processCounts d T c = some (c.map fun kv => ((processString d T kv.1).getD [], kv.2)) := by
  have key : ∀ (acc : Dict Str Nat) (c : Dict Str Nat),
      (∀ kv ∈ c, ∃ m : Cl → Bool, kv.1 = countsKey regs' m) → Dict.WF c →
      (∀ kv ∈ c, (processString d T kv.1).getD [] ∉ acc.keys) →
      c.foldlM (fun (acc : Dict Str Nat) kv => do
        let s ← processString d T kv.1
        pure (acc.set s kv.2)) acc = some (acc ++ c.map fun kv => ((processString d T kv.1).getD [], kv.2)) := by
    intro acc c
    induction c generalizing acc with
    | nil => intro _ _ _; simp
    | cons kv c ih =>
      intro hk hw hf
      obtain ⟨m, hm⟩ := hk kv (by simp)
      have hs := hsome m
      rw [← hm] at hs
      obtain ⟨s, hs⟩ := Option.isSome_iff_exists.1 hs
      have hset : acc.set s kv.2 = acc ++ [(s, kv.2)] := by
        have hfr := hf kv (by simp)
        rw [hs] at hfr
        simp only [Option.getD_some] at hfr
        clear ih hf
        induction acc with
        | nil => rfl
        | cons e acc ih2 =>
          simp only [Dict.keys, List.map_cons, List.mem_cons, not_or] at hfr
          rw [Dict.set, if_neg (fun h => hfr.1 h.symm), ih2 hfr.2]
          rfl
      rw [List.foldlM_cons, hs]
      simp only [Option.bind_eq_bind, Option.bind_some, Option.pure_def]
      rw [hset]
      have hw' : Dict.WF c := by
        unfold Dict.WF at hw ⊢; simp only [List.map_cons, List.nodup_cons] at hw; exact hw.2
      rw [show (fun (acc : Dict Str Nat) (kv : Str × Nat) =>
          (processString d T kv.1).bind fun s => some (acc.set s kv.2)) =
        (fun (acc : Dict Str Nat) kv => do
          let s ← processString d T kv.1
          pure (acc.set s kv.2)) from rfl]
      rw [ih _ (fun kv' h' => hk kv' (List.mem_cons_of_mem _ h')) hw']
      · simp [hs]
      · intro kv' h' hmem
        simp only [Dict.keys, List.map_append, List.map_cons, List.map_nil, List.mem_append,
          List.mem_singleton] at hmem
        rcases hmem with hmem | hmem
        · exact hf kv' (List.mem_cons_of_mem _ h') hmem
        · obtain ⟨m', hm'⟩ := hk kv' (List.mem_cons_of_mem _ h')
          have hs' := hsome m'
          rw [← hm'] at hs'
          obtain ⟨s', hs'⟩ := Option.isSome_iff_exists.1 hs'
          rw [hs'] at hmem
          simp only [Option.getD_some] at hmem
          subst hmem
          have : kv.1 = kv'.1 := by
            rw [hm, hm']
            apply hinj
            rw [← hm, ← hm', hs, hs']
          unfold Dict.WF at hw
          simp only [List.map_cons, List.nodup_cons] at hw
          exact hw.1 (this ▸ List.mem_map_of_mem h')
  have := key [] c hc hwf (by simp [Dict.keys])
  simpa [processCounts] using this

theorem foldlM_share (log : Str) (l : Dict Str Nat) (h : ∀ kv ∈ l, kv.1 ≠ []) (a b : Nat) :
    l.foldlM (fun (acc : Nat × Nat) kv => do
      let c ← kv.1[0]?
      pure (acc.1 + kv.2, if [c] ≠ log then acc.2 + kv.2 else acc.2)) (a, b) =
    some (a + (l.map (·.2)).sum, b + ((l.filter fun kv => decide (kv.1.take 1 ≠ log)).map (·.2)).sum) := by
  induction l generalizing a b with
  | nil => simp
  | cons kv l ih =>
    have hk := h kv (by simp)
    obtain ⟨c, t, hct⟩ : ∃ c t, kv.1 = c :: t := by
      cases hkv : kv.1 with
      | nil => exact absurd hkv hk
      | cons c t => exact ⟨c, t, rfl⟩
    rw [List.foldlM_cons]
    simp only [hct, List.getElem?_cons_zero, Option.bind_eq_bind, Option.bind_some, Option.pure_def]
    have ih := ih (fun kv h' => h kv (List.mem_cons_of_mem _ h'))
    simp only [Option.bind_eq_bind, Option.pure_def] at ih
    rw [ih]
    by_cases hc : [c] = log
    · have h1 : decide (kv.1.take 1 ≠ log) = false := by simp [hct, hc]
      rw [List.filter_cons_of_neg (by simp [h1])]
      simp [hc, add_assoc]
    · have h1 : decide (kv.1.take 1 ≠ log) = true := by simp [hct, hc]
      rw [List.filter_cons_of_pos (by simp [h1])]
      simp [hc, add_assoc]

theorem countsWhere_le (p q : Str → Bool) (h : ∀ s, p s = true → q s = true) (l : Dict Str Nat) :
    countsWhere p l ≤ countsWhere q l := by
  induction l with
  | nil => exact le_refl _
  | cons kv l ih =>
    have hc := h kv.1
    unfold countsWhere at ih ⊢
    cases hp : p kv.1 <;> cases hq : q kv.1 <;> simp_all; omega

theorem pyDiv_prob (a b : Nat) (hb : b ≠ 0) (h : a ≤ b) :
    ∃ p, pyDiv a b = some p ∧ 0 ≤ p ∧ p ≤ 1 := by
  refine ⟨(a : Rat) / b, by simp [pyDiv, hb], by positivity, ?_⟩
  rw [div_le_one (by positivity)]
  exact_mod_cast h

theorem lookup_fold (f : Str → Bool) (l : Dict Str Nat) (a b : Nat) :
    l.foldl (fun (acc : Nat × Nat) kv => (acc.1 + kv.2, if f kv.1 = true then acc.2 + kv.2 else acc.2)) (a, b)
      = (a + (l.map (·.2)).sum, b + countsWhere f l) := by
  induction l generalizing a b with
  | nil => simp [countsWhere]
  | cons kv l ih =>
    rw [List.foldl_cons, ih]
    unfold countsWhere
    cases h : f kv.1 <;> simp [h, add_assoc]

theorem merge_counts (matching : Str → Str) (p : Str → Bool) (results : Dict Str Nat) (acc : Dict Str Nat)
    (hacc : Dict.WF acc) :
    let r := results.foldl (fun (acc : Dict Str Nat) kv =>
      match acc.get? (matching kv.1) with
      | some v => acc.set (matching kv.1) (v + kv.2)
      | none => acc.set (matching kv.1) kv.2) acc
    Dict.WF r ∧ countsWhere p r = countsWhere p acc + countsWhere (fun s => p (matching s)) results ∧
    (∀ k ∈ r.keys, k ∈ acc.keys ∨ ∃ kv ∈ results, k = matching kv.1) := by
  have hset : ∀ (acc : Dict Str Nat) (k : Str) (w : Nat), Dict.WF acc →
      countsWhere p (match acc.get? k with
        | some v => acc.set k (v + w)
        | none => acc.set k w) = countsWhere p acc + (if p k then w else 0) := by
    intro acc k w
    induction acc with
    | nil => intro _; cases h : p k <;> simp [Dict.get?, Dict.set, countsWhere, h]
    | cons kv acc ih =>
      intro hw
      have hw' : Dict.WF acc := by
        unfold Dict.WF at hw ⊢; simp only [List.map_cons, List.nodup_cons] at hw; exact hw.2
      have ih := ih hw'
      rcases kv with ⟨k', v'⟩
      by_cases hk : k' = k
      · subst hk
        simp only [Dict.get?, if_true, Dict.set]
        unfold countsWhere
        cases h : p k' <;> simp [h]; omega
      · simp only [Dict.get?, if_neg hk]
        cases hg : Dict.get? acc k with
        | none =>
          simp only [hg] at ih
          simp only [Dict.set, if_neg hk]
          unfold countsWhere at ih ⊢
          cases h : p k' <;> simp [h, ih]; omega
        | some v =>
          simp only [hg] at ih
          simp only [Dict.set, if_neg hk]
          unfold countsWhere at ih ⊢
          cases h : p k' <;> simp [h, ih]; omega
  induction results generalizing acc with
  | nil => exact ⟨hacc, by simp [countsWhere], fun k hk => Or.inl hk⟩
  | cons kv results ih =>
    have hw2 : Dict.WF (match acc.get? (matching kv.1) with
        | some v => acc.set (matching kv.1) (v + kv.2)
        | none => acc.set (matching kv.1) kv.2) := by
      split <;> exact Dict.wf_set _ hacc _ _
    obtain ⟨h1, h2, h3⟩ := ih _ hw2
    refine ⟨h1, ?_, ?_⟩
    · rw [List.foldl_cons, h2, hset acc _ _ hacc]
      unfold countsWhere
      cases h : p (matching kv.1) <;> simp [h, add_assoc]
    · intro k hk
      rcases h3 k hk with h | ⟨kv', h, h'⟩
      · have : k ∈ acc.keys ∨ k = matching kv.1 := by
          split at h <;> exact ((Dict.mem_keys_set _ _ _ _).1 h).symm
        rcases this with h | h
        · exact Or.inl h
        · exact Or.inr ⟨kv, by simp, h⟩
      · exact Or.inr ⟨kv', List.mem_cons_of_mem _ h, h'⟩

end Verif.RepCode
