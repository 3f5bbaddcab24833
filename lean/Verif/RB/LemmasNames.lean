import Verif.RB.LemmasMain
set_option linter.unusedSimpArgs false
set_option linter.unusedVariables false
/-
The names of the circuits.
-/
namespace Verif.RB
open Verif.Quantum
variable {E : Type} {G : Group E} {Mem : ℕ → E → Prop} {N : ℕ}

theorem underscore_fmtD (k : ℤ) : '_' ∉ fmtD k := fmtD_not_mem (by decide) (by decide)

/-- Split at the last underscore. -/
theorem split_last {p p' s s' : Str} (h1 : '_' ∉ s) (h2 : '_' ∉ s') (h : p ++ '_' :: s = p' ++ '_' :: s') : p = p' ∧ s = s' := by
  have h' := congrArg List.reverse h
  rw [List.reverse_append, List.reverse_append, List.reverse_cons, List.reverse_cons, List.append_assoc, List.append_assoc] at h'
  obtain ⟨a, b⟩ := split_at_char (by simpa using h1) (by simpa using h2) (show s.reverse ++ '_' :: p.reverse = s'.reverse ++ '_' :: p'.reverse from h')
  exact ⟨List.reverse_injective b, List.reverse_injective a⟩

theorem suffix_inj {t t' : Str} {k k' : ℕ} {s s' : ℤ} (h : t ++ suffix k s = t' ++ suffix k' s') : t = t' ∧ k = k' ∧ s = s' := by
  unfold suffix at h
  have e : ∀ (t : Str) (k : ℕ) (s : ℤ), t ++ ("_length_".toList ++ fmtD k ++ "_seed_".toList ++ fmtD s) =
      ((t ++ "_length".toList) ++ '_' :: fmtD k ++ "_seed".toList) ++ '_' :: fmtD s := by
    intro t k s; simp [List.append_assoc]
  rw [e, e] at h
  obtain ⟨h1, h2⟩ := split_last (underscore_fmtD s) (underscore_fmtD s') h
  have h1' := List.append_cancel_right h1
  obtain ⟨h3, h4⟩ := split_last (underscore_fmtD k) (underscore_fmtD k') h1'
  exact ⟨List.append_cancel_right h3, by have := fmtD_inj h4; omega, fmtD_inj h2⟩

theorem names_eq (tag : String) (nseeds nlens : ℕ) (off : ℤ) :
    names tag nseeds nlens off = (List.range nseeds).flatMap fun (j : ℕ) => (List.range nlens).map fun (k : ℕ) => tag.toList ++ suffix k (j + off) := by
  unfold names suffix
  simp only [List.append_assoc]

theorem mem_names {tag : String} {nseeds nlens : ℕ} {off : ℤ} {x : Str} (h : x ∈ names tag nseeds nlens off) :
    ∃ (k : ℕ) (s : ℤ), x = tag.toList ++ suffix k s := by
  rw [names_eq] at h
  obtain ⟨j, -, hx⟩ := List.mem_flatMap.1 h
  obtain ⟨k, -, rfl⟩ := List.mem_map.1 hx
  exact ⟨k, _, rfl⟩

theorem names_nodup (tag : String) (nseeds nlens : ℕ) (off : ℤ) : (names tag nseeds nlens off).Nodup := by
  rw [names_eq, List.nodup_flatMap]
  refine ⟨fun j _ => ?_, ?_⟩
  · refine List.Nodup.map ?_ List.nodup_range
    intro k k' h
    exact (suffix_inj h).2.1
  · refine List.nodup_range.imp ?_
    intro j j' hjj x hx hx'
    obtain ⟨k, -, rfl⟩ := List.mem_map.1 hx
    obtain ⟨k', -, h⟩ := List.mem_map.1 hx'
    have := (suffix_inj h).2.2
    exact hjj (by omega)

theorem names_disjoint {tag tag' : String} (h : tag ≠ tag') (n m : ℕ) (off : ℤ) :
    List.Disjoint (names tag n m off) (names tag' n m off) := by
  intro x hx hx'
  obtain ⟨k, s, rfl⟩ := mem_names hx
  obtain ⟨k', s', h'⟩ := mem_names hx'
  exact h (String.toList_injective (suffix_inj h').1)

theorem dig3_inj {m d d' : ℕ} (hd : d < 3 ^ m) (hd' : d' < 3 ^ m) (h : ∀ j < m, dig3 d j = dig3 d' j) : d = d' := by
  induction m generalizing d d' with
  | zero => simp at hd hd'; omega
  | succ m ih =>
    have h0 := h 0 (by omega)
    simp [dig3] at h0
    have := ih (d := d / 3) (d' := d' / 3) (by rw [Nat.pow_succ] at hd; omega) (by rw [Nat.pow_succ] at hd'; omega) (by
      intro j hj
      have := h (j + 1) (by omega)
      simp only [dig3] at this ⊢
      rw [Nat.pow_succ, Nat.mul_comm, ← Nat.div_div_eq_div_mul, ← Nat.div_div_eq_div_mul] at this
      exact this)
    omega

theorem letters_inj {m d d' : ℕ} (hd : d < 3 ^ m) (hd' : d' < 3 ^ m) (h : purityLetters m d = purityLetters m d') : d = d' := by
  refine dig3_inj hd hd' fun j hj => ?_
  unfold purityLetters at h
  have := List.map_inj_left.1 h j (List.mem_range.2 hj)
  have h1 : dig3 d j < 3 := Nat.mod_lt _ (by omega)
  have h2 : dig3 d' j < 3 := Nat.mod_lt _ (by omega)
  revert this
  generalize dig3 d j = a at *
  generalize dig3 d' j = b at *
  interval_cases a <;> interval_cases b <;> simp

theorem purityNames_eq (tag : String) (nseeds dim nlens : ℕ) (off : ℤ) :
    purityNames tag nseeds dim nlens off = (List.range nseeds).flatMap fun (j : ℕ) => (List.range (3 ^ dim)).flatMap fun d => (List.range nlens).map fun (k : ℕ) =>
      (tag.toList ++ "_purity_".toList ++ purityLetters dim d) ++ suffix k (j + off) := by
  unfold purityNames suffix
  simp only [List.append_assoc]

theorem purityNames_nodup (tag : String) (nseeds dim nlens : ℕ) (off : ℤ) : (purityNames tag nseeds dim nlens off).Nodup := by
  rw [purityNames_eq, List.nodup_flatMap]
  refine ⟨fun j _ => ?_, ?_⟩
  · rw [List.nodup_flatMap]
    refine ⟨fun d _ => ?_, ?_⟩
    · refine List.Nodup.map ?_ List.nodup_range
      intro k k' h
      exact (suffix_inj h).2.1
    · refine List.nodup_range.imp_of_mem ?_
      intro d d' hd hd' hdd x hx hx'
      obtain ⟨k, -, rfl⟩ := List.mem_map.1 hx
      obtain ⟨k', -, h⟩ := List.mem_map.1 hx'
      have := List.append_cancel_left (suffix_inj h).1
      exact hdd (letters_inj (List.mem_range.1 hd) (List.mem_range.1 hd') this.symm)
  · refine List.nodup_range.imp ?_
    intro j j' hjj x hx hx'
    obtain ⟨d, -, hx⟩ := List.mem_flatMap.1 hx
    obtain ⟨d', -, hx'⟩ := List.mem_flatMap.1 hx'
    obtain ⟨k, -, rfl⟩ := List.mem_map.1 hx
    obtain ⟨k', -, h⟩ := List.mem_map.1 hx'
    have := (suffix_inj h).2.2
    exact hjj (by omega)

theorem expectedNames_nodup (a : Args E) (dihedral : Bool) : (expectedNames a dihedral).Nodup := by
  unfold expectedNames
  cases a.isPurity <;> cases a.inter.isSome <;> cases dihedral <;>
    simp only [] <;>
    first
    | exact purityNames_nodup _ _ _ _ _
    | exact names_nodup _ _ _ _
    | skip
  · exact List.Nodup.append (names_nodup _ _ _ _) (names_nodup _ _ _ _) (names_disjoint (by decide) _ _ _)
  · exact List.Nodup.append (names_nodup _ _ _ _) (names_nodup _ _ _ _) (names_disjoint (by decide) _ _ _)
  · refine List.Nodup.append (List.Nodup.append (List.Nodup.append (names_nodup _ _ _ _) (names_nodup _ _ _ _) (names_disjoint (by decide) _ _ _)) (names_nodup _ _ _ _) ?_) (names_nodup _ _ _ _) ?_
    · rw [List.disjoint_append_left]
      exact ⟨names_disjoint (by decide) _ _ _, names_disjoint (by decide) _ _ _⟩
    · rw [List.disjoint_append_left, List.disjoint_append_left]
      exact ⟨⟨names_disjoint (by decide) _ _ _, names_disjoint (by decide) _ _ _⟩, names_disjoint (by decide) _ _ _⟩

/-! ### The names of what is returned -/

theorem list_eq_range_map {α β : Type} (l : List α) (n : ℕ) (hn : l.length = n) (f : α → β) (g : ℕ → β) (h : ∀ (j : ℕ) (x : α), l[j]? = some x → f x = g j) :
    l.map f = (List.range n).map g := by
  apply List.ext_getElem
  · simp [hn]
  · intro i h1 h2
    simp only [List.getElem_map, List.getElem_range]
    exact h i _ (List.getElem?_eq_getElem _)

theorem names_of {f : Step → Circ} {steps : List (List Step)} {nseeds nlens : ℕ} {off : ℤ} {tag : String} (h1 : steps.length = nseeds)
    (h2 : ∀ (j : ℕ) (l : List Step), steps[j]? = some l → l.length = nlens ∧
      ∀ (k : ℕ) (s : Step), l[k]? = some s → (f s).name = tag.toList ++ suffix k (j + off)) :
    (steps.map (·.map f)).flatten.map Circ.name = names tag nseeds nlens off := by
  rw [names_eq, List.map_flatten, List.flatMap_def, List.map_map]
  congr 1
  refine list_eq_range_map _ _ h1 _ _ fun j l hj => ?_
  obtain ⟨a, b⟩ := h2 j l hj
  show (l.map f).map Circ.name = _
  rw [List.map_map]
  exact list_eq_range_map _ _ a _ _ fun k s hk => b k s hk

theorem SeedOk.steps {cfg : Cfg E} {rand : Rand E} {dihedral isPurity : Bool} {maxDim : ℕ} {lv : List ℤ} {sd : ℤ} {l : List Step}
    (h : SeedOk G cfg rand N dihedral isPurity maxDim lv sd l) : l.length = lv.length ∧
      ∀ (k : ℕ) (s : Step), l[k]? = some s → ∃ L pre ipre, StepOk G cfg rand N dihedral isPurity maxDim L pre ipre (suffix k sd) s := by
  obtain ⟨h1, H, h2, -⟩ := h
  refine ⟨h1, fun k s hk => ?_⟩
  have hlt := (List.getElem?_eq_some_iff.1 hk).1
  exact ⟨_, _, _, (h2 k s _ hk (List.getElem?_eq_getElem (by omega))).1⟩

theorem pack_names {a : Args E} {rand : Rand E} {dihedral : Bool} {xdata : List (List ℤ)} {steps : List (List Step)} (h1 : steps.length = a.nseeds)
    (h2 : ∀ (j : ℕ) (l : List Step), steps[j]? = some l → SeedOk G a.cfg rand N dihedral a.isPurity a.dim a.lens (j + a.seedOffset) l) :
    (pack a dihedral a.dim xdata steps).all.map Circ.name = expectedNames a dihedral := by
  have hstd : ∀ tag : String, circType dihedral ++ (if dihedral then "_Z".toList else []) = tag.toList →
      (steps.map (·.map Step.std)).flatten.map Circ.name = names tag a.nseeds a.lens.length a.seedOffset := by
    intro tag ht
    refine names_of h1 fun j l hj => ⟨(h2 j l hj).steps.1, fun k s hk => ?_⟩
    obtain ⟨L, pre, ipre, hs⟩ := (h2 j l hj).steps.2 k s hk
    obtain ⟨body, -, e, -⟩ := hs.std
    rw [e, ← ht]
  have hdih : ∀ tag : String, dihedral = true → circType dihedral ++ "_X".toList = tag.toList →
      (steps.map (·.map Step.dih)).flatten.map Circ.name = names tag a.nseeds a.lens.length a.seedOffset := by
    intro tag hd ht
    refine names_of h1 fun j l hj => ⟨(h2 j l hj).steps.1, fun k s hk => ?_⟩
    obtain ⟨L, pre, ipre, hs⟩ := (h2 j l hj).steps.2 k s hk
    obtain ⟨body, -, -, e, -⟩ := hs.std
    rw [e hd, ← ht]
  have hint : ∀ tag : String, a.inter.isSome = true → circType dihedral ++ "_interleaved".toList ++ (if dihedral then "_Z".toList else []) = tag.toList →
      (steps.map (·.map Step.inter)).flatten.map Circ.name = names tag a.nseeds a.lens.length a.seedOffset := by
    intro tag hi ht
    obtain ⟨x, hx⟩ := Option.isSome_iff_exists.1 hi
    refine names_of h1 fun j l hj => ⟨(h2 j l hj).steps.1, fun k s hk => ?_⟩
    obtain ⟨L, pre, ipre, hs⟩ := (h2 j l hj).steps.2 k s hk
    obtain ⟨body, -, e, -⟩ := hs.int (x.map (·.2)) (by show a.inter.map _ = _; rw [hx]; rfl)
    rw [e, ← ht]
  have hdi : ∀ tag : String, dihedral = true → a.inter.isSome = true → circType dihedral ++ "_interleaved_X".toList = tag.toList →
      (steps.map (·.map Step.dihInter)).flatten.map Circ.name = names tag a.nseeds a.lens.length a.seedOffset := by
    intro tag hd hi ht
    obtain ⟨x, hx⟩ := Option.isSome_iff_exists.1 hi
    refine names_of h1 fun j l hj => ⟨(h2 j l hj).steps.1, fun k s hk => ?_⟩
    obtain ⟨L, pre, ipre, hs⟩ := (h2 j l hj).steps.2 k s hk
    obtain ⟨body, -, -, e⟩ := hs.int (x.map (·.2)) (by show a.inter.map _ = _; rw [hx]; rfl)
    rw [e hd, ← ht]
  have hpur : ∀ tag : String, a.isPurity = true → circType dihedral = tag.toList →
      (steps.map fun l => (List.range (3 ^ a.dim)).map fun d => l.filterMap fun s => s.purity[d]?).flatten.flatten.map Circ.name =
        purityNames tag a.nseeds a.dim a.lens.length a.seedOffset := by
    intro tag hp ht
    rw [purityNames_eq, List.map_flatten, List.map_flatten, List.map_map, List.flatMap_def, List.flatten_flatten, List.map_map]
    congr 1
    refine list_eq_range_map _ _ h1 _ _ fun j l hj => ?_
    simp only [Function.comp, List.map_map]
    rw [List.flatMap_def]
    congr 1
    refine List.map_congr_left fun d hd => ?_
    have hf : (l.filterMap fun s => s.purity[d]?) = l.map fun s => (s.purity[d]?).getD s.std := by
      refine List.filterMap_eq_map_iff_forall_eq_some.2 ?_
      intro s hs
      obtain ⟨k, hk, hke⟩ := List.getElem_of_mem hs
      obtain ⟨L, pre, ipre, hs'⟩ := (h2 j l hj).steps.2 k s (by rw [List.getElem?_eq_getElem hk, hke])
      obtain ⟨body, -, -, -, e⟩ := hs'.std
      rw [e hp, List.getElem?_map, List.getElem?_range (List.mem_range.1 hd)]; rfl
    simp only [Function.comp]
    rw [hf, List.map_map]
    refine list_eq_range_map _ _ (h2 j l hj).steps.1 _ _ fun k s hk => ?_
    obtain ⟨L, pre, ipre, hs'⟩ := (h2 j l hj).steps.2 k s hk
    obtain ⟨body, -, -, -, e⟩ := hs'.std
    simp only [Function.comp]
    rw [e hp, List.getElem?_map, List.getElem?_range (List.mem_range.1 hd), ← ht]
    rfl
  unfold pack expectedNames
  cases hp : a.isPurity with
  | true =>
    cases dihedral with
    | true => exact hpur _ hp rfl
    | false => exact hpur _ hp rfl
  | false =>
    cases hi : a.inter.isSome with
    | true =>
      cases dihedral with
      | true =>
        simp only [Bool.false_eq_true, if_false, Bool.and_self, if_true, Ret.all, List.map_append]
        rw [hstd "rb_cnotdihedral_Z" rfl, hdih "rb_cnotdihedral_X" rfl rfl, hint "rb_cnotdihedral_interleaved_Z" hi rfl, hdi "rb_cnotdihedral_interleaved_X" rfl hi rfl]
      | false =>
        simp only [Bool.false_eq_true, if_false, Bool.and_false, if_true, Ret.all, List.map_append]
        rw [hstd "rb" rfl, hint "rb_interleaved" hi rfl]
    | false =>
      cases dihedral with
      | true =>
        simp only [Bool.false_eq_true, if_false, Bool.false_and, if_true, Ret.all, List.map_append]
        rw [hstd "rb_cnotdihedral_Z" rfl, hdih "rb_cnotdihedral_X" rfl rfl]
      | false =>
        simp only [Bool.false_eq_true, if_false, Bool.and_false, if_true, Ret.all, List.map_append]
        rw [hstd "rb" rfl]

end Verif.RB
