import Verif.MeasMit.PropsTensoredEnd
/-
C141: tensored calibration and correction of counts from end to end, the accuracy.
-/
set_option linter.unusedVariables false
namespace Verif.MeasMit
open Verif Verif.Counts Verif.Expval

variable {K n : ℕ} {circs : List Circ} {pattern pat : List (List ℕ)} {qr : Option ℕ} {circlabel : Str}

theorem kron_nonneg (gs : List (Group ℝ)) (hl : ∀ g ∈ gs, g.1.Perm (bitStrings g.2.1)) (h0 : ∀ g ∈ gs, ∀ s ∈ g.1, ∀ t ∈ g.1, 0 ≤ entry g.1 g.2.2 s t)
    (n : ℕ) (hn : groupSize gs = n) (s t : Str) (hs : s ∈ bitStrings n) (ht : t ∈ bitStrings n) : 0 ≤ kron gs s t := by
  induction gs generalizing n s t with
  | nil => simp [kron]
  | cons g gs ih =>
    have hn' : groupSize gs + g.2.1 = n := by rw [← hn]; simp [groupSize, Nat.add_comm]
    subst hn'
    obtain ⟨a, ha, b, hb, rfl⟩ := bits_split hs
    obtain ⟨a', ha', b', hb', rfl⟩ := bits_split ht
    rw [kron_append g gs a a' b b' (bits_length hb) (bits_length hb')]
    exact mul_nonneg (ih (fun g hg => hl g (by simp [hg])) (fun g hg => h0 g (by simp [hg])) _ rfl a a' ha ha')
      (h0 g (by simp) b ((hl g (by simp)).mem_iff.2 hb) b' ((hl g (by simp)).mem_iff.2 hb'))

theorem share_readout {I U : Type} [Fintype I] [DecidableEq I] [Fintype U] (prep : I → Str) (read : U → Str) (L : List Str) (hL : L.Nodup) (hr : ∀ u, read u ∈ L)
    (hS : ∀ x ∈ L, 0 < (Finset.univ.filter fun i => prep i = x).card) (κ : I → U) : IsReadout L (share prep read κ) := by
  intro x hx
  have h0 : ((Finset.univ.filter fun i => prep i = x).card : ℝ) ≠ 0 := by exact_mod_cast (hS x hx).ne'
  refine ⟨fun y _ => by unfold share; positivity, ?_⟩
  unfold share
  rw [lsum hL, ← Finset.sum_div, div_eq_one_iff_eq h0, ← Nat.cast_sum]
  congr 1
  rw [Finset.card_eq_sum_card_fiberwise (s := Finset.univ.filter fun i => prep i = x) (t := L.toFinset) (f := fun i => read (κ i))
    (fun i _ => List.mem_toFinset.2 (hr _))]
  refine Finset.sum_congr rfl fun y _ => ?_
  rw [Finset.filter_filter]

/-- The size of a group. -/
theorem size_get (i : ℕ) (hi : i < pattern.length) : (pattern.map List.length).getD i 0 = pattern[i].length := by
  simp [List.getD_eq_getElem?_getD, hi]

theorem groups_length (mats : List (Mat ℝ)) (h : mats.length = pattern.length) : (patternGroups pattern mats).length = pattern.length := by simp [patternGroups, h]

theorem groups_get (mats : List (Mat ℝ)) (h : mats.length = pattern.length) (i : ℕ) (hi : i < (patternGroups pattern mats).length) :
    (patternGroups pattern mats)[i] = (bitStrings (pattern[i]'(by rwa [groups_length mats h] at hi)).length, (pattern[i]'(by rwa [groups_length mats h] at hi)).length,
      mats[i]'(by rwa [groups_length mats h, ← h] at hi)) := by
  simp [patternGroups]

theorem groups_sizes (mats : List (Mat ℝ)) (h : mats.length = pattern.length) : ((patternGroups pattern mats).map fun g => g.2.1) = pattern.map List.length := by
  refine List.ext_getElem (by simp [groups_length mats h]) fun i h1 h2 => ?_
  simp only [List.getElem_map]
  rw [groups_get mats h]

theorem groups_mem (mats : List (Mat ℝ)) (h : mats.length = pattern.length) {g : Group ℝ} (hg : g ∈ patternGroups pattern mats) :
    ∃ (i : ℕ) (hi : i < pattern.length), g = (bitStrings pattern[i].length, pattern[i].length, mats[i]) := by
  obtain ⟨i, hi, rfl⟩ := List.getElem_of_mem hg
  exact ⟨i, by rwa [groups_length mats h] at hi, groups_get mats h i hi⟩

variable {O : Type} [Fintype O] {N : ℕ}

/-- What the filters need of the matrices of the groups. -/
structure NearGroups (pattern : List (List ℕ)) (noise As : List (Mat ℝ)) (pinv : ℕ → Mat ℝ → Mat ℝ) (G η : ℝ) (i : ℕ) (hi : i < pattern.length) (hn : i < noise.length)
    (hA : i < As.length) : Prop where
  inv : Invertible (2 ^ pattern[i].length) As[i]
  ispinv : IsPinv (2 ^ pattern[i].length) As[i] (pinv (2 ^ pattern[i].length) As[i])
  bound : ColBound (bitStrings pattern[i].length) (entry (bitStrings pattern[i].length) (pinv (2 ^ pattern[i].length) As[i])) G
  near : ∀ t ∈ bitStrings pattern[i].length, ((bitStrings pattern[i].length).map fun s =>
    |entry (bitStrings pattern[i].length) noise[i] s t - entry (bitStrings pattern[i].length) As[i] s t|).sum ≤ η
  trans : IsTransition (bitStrings pattern[i].length) As[i]

open Classical in
/-- The common part: whatever is true of the corrected counts with calibrations close to the noise is true from end to end. -/
theorem tensored_end_to_end (hne : pattern ≠ []) (hg : ∀ g ∈ pattern, g ≠ []) (hK : 0 < K)
    (h : tensoredMeasCal (some pattern) qr none circlabel = some (circs, pat)) (noise : List (Mat ℝ)) (hlen : noise.length = pattern.length) (γ : ℝ) (hγ : 0 < γ)
    (hnoise : ∀ i (hi : i < pattern.length), GroupNoise pattern[i].length noise[i] γ)
    (results : (Fin circs.length × Fin K → Fin (bitStrings pattern.flatten.length).length) → List Result) (hran : ∀ κ, CircuitsRan circs κ (results κ))
    (pinv : ℕ → Mat ℝ → Mat ℝ) (hp : ∀ d a, Invertible d a → IsPinv d a (pinv d a)) (w : O → ℝ) (hw : IsDistr w) (η : ℝ) (hη : 0 < η) (hlt : γ * η < 1)
    (good : (Fin circs.length × Fin K → Fin (bitStrings pattern.flatten.length).length) → List (List Str) → List (Mat ℝ) → (Fin N → O) → Prop) (b : ℝ) (hb : 0 ≤ b)
    (hgood : ∀ κ (As : List (Mat ℝ)) (hA : As.length = pattern.length),
      (∀ i (hi : i < pattern.length), NearGroups pattern noise As pinv (γ / (1 - γ * η)) η i hi (lt_of_lt_of_eq hi hlen.symm) (lt_of_lt_of_eq hi hA.symm)) →
      (∑ ω, if good κ (pattern.map fun g => bitStrings g.length) As ω then 0 else shotsProb w ω) ≤ b) :
    (∑ κ, ∑ ω : Fin N → O, if ∃ f ms, mkTensored (some (results κ)) pattern none circlabel = some f ∧ f.mats = some ms ∧ good κ f.labels (ms.map realMat) ω
      then 0 else circuitsProb circs (kron (patternGroups pattern noise)) κ * shotsProb w ω) ≤
      (pattern.map fun g => ((2 : ℝ) ^ g.length) ^ 2).sum / (K * η ^ 2) + b := by
  obtain ⟨-, hread, -⟩ := tensored_facts hne hg h
  have hsz : groupSize (patternGroups pattern noise) = pattern.flatten.length := by rw [groupSize, groups_sizes noise hlen, sum_length_flatten]
  have hperm : ∀ g ∈ patternGroups pattern noise, g.1.Perm (bitStrings g.2.1) := by
    intro g hg'
    obtain ⟨i, hi, rfl⟩ := groups_mem noise hlen hg'
    exact List.Perm.refl _
  have hcol : ∀ g ∈ patternGroups pattern noise, ∀ t ∈ g.1, (g.1.map fun s => entry g.1 g.2.2 s t).sum = 1 := by
    intro g hg' t ht
    obtain ⟨i, hi, rfl⟩ := groups_mem noise hlen hg'
    exact ((hnoise i hi).1 t ht).2
  have hnn : ∀ g ∈ patternGroups pattern noise, ∀ s ∈ g.1, ∀ t ∈ g.1, 0 ≤ entry g.1 g.2.2 s t := by
    intro g hg' s hs t ht
    obtain ⟨i, hi, rfl⟩ := groups_mem noise hlen hg'
    exact ((hnoise i hi).1 t ht).1 s hs
  let Q : Fin circs.length × Fin K → Fin (bitStrings pattern.flatten.length).length → ℝ := fun a u =>
    kron (patternGroups pattern noise) ((bitStrings pattern.flatten.length).get u) (readout (circs.get a.1))
  have hQ0 : ∀ a u, 0 ≤ Q a u := fun a u => kron_nonneg _ hperm hnn _ hsz _ _ (List.get_mem _ _) (hread _ (List.get_mem _ _)).2
  have hQ1 : ∀ a, ∑ u, Q a u = 1 := fun a => by
    rw [← kron_col_one _ hperm hcol _ hsz _ (hread _ (List.get_mem circs a.1)).2, fin_label_sum]
  refine two_stage (fun κ => circuitsProb circs (kron (patternGroups pattern noise)) κ) (shotsProb w) (fun κ => Finset.prod_nonneg fun a _ => hQ0 a _)
    (fun ω => Finset.prod_nonneg fun k _ => hw.1 _) (product_one Q hQ1) (QV.draws_sum_one N w hw.2)
    (fun κ => ∃ i : Fin pattern.length, ∃ x ∈ bitStrings (pattern[i]).length, η ≤ ((bitStrings (pattern[i]).length).map fun y =>
      |entry (bitStrings (pattern[i]).length) (noise[(i : ℕ)]'(lt_of_lt_of_eq i.2 hlen.symm)) y x - share (prepOf circs pattern i) (readOf pattern.flatten.length pattern i) κ y x|).sum)
    _ _ b hb ?_ fun κ hκ => ?_
  · have hone : ∀ i : Fin pattern.length, (∑ κ : Fin circs.length × Fin K → Fin (bitStrings pattern.flatten.length).length,
        if ∃ x ∈ bitStrings (pattern[i]).length, η ≤ ((bitStrings (pattern[i]).length).map fun y =>
          |entry (bitStrings (pattern[i]).length) (noise[(i : ℕ)]'(lt_of_lt_of_eq i.2 hlen.symm)) y x - share (prepOf circs pattern i) (readOf pattern.flatten.length pattern i) κ y x|).sum
        then ∏ a, Q a (κ a) else 0) ≤ ((2 : ℝ) ^ (pattern[i]).length) ^ 2 / (K * η ^ 2) := by
      intro i
      have hi := i.2
      refine le_trans (le_of_eq ?_) ((share_error Q hQ0 hQ1 (prepOf circs pattern i) (readOf pattern.flatten.length pattern i) (bitStrings (pattern[i]).length) (nodup_bitStrings _)
        (entry (bitStrings (pattern[i]).length) (noise[(i : ℕ)]'(lt_of_lt_of_eq i.2 hlen.symm))) ?_ (hnoise i hi).1 hK ?_ η hη).trans (le_of_eq ?_))
      · exact Finset.sum_congr rfl fun κ _ => by congr
      · intro a _ y hy
        have := kron_marginal (patternGroups pattern noise) hperm hcol i (by rw [groups_length noise hlen]; exact hi) y (by rw [groups_get noise hlen]; exact hy)
          _ hsz _ (hread _ (List.get_mem circs a.1)).2
        rw [fin_label_sum, groups_sizes noise hlen, groups_get noise hlen] at this
        exact this
      · intro x hx
        exact tensored_covers hK hne hg h i hi x (by rw [size_get i hi]; exact hx)
      · rw [length_bitStrings]; push_cast; rfl
    have hsum : (pattern.map fun g => ((2 : ℝ) ^ g.length) ^ 2).sum / (K * η ^ 2) = ∑ i : Fin pattern.length, ((2 : ℝ) ^ (pattern[i]).length) ^ 2 / (K * η ^ 2) := by
      rw [← Finset.sum_div]
      congr 1
      conv_lhs => rw [← List.ofFn_get pattern, List.map_ofFn, List.sum_ofFn]
      rfl
    rw [hsum]
    refine le_trans ?_ (Finset.sum_le_sum fun i _ => hone i)
    rw [Finset.sum_comm]
    refine Finset.sum_le_sum fun κ _ => ?_
    split
    · next hf =>
      obtain ⟨i, hi⟩ := hf
      refine le_trans (le_of_eq ?_) (Finset.single_le_sum (fun i _ => ?_) (Finset.mem_univ i))
      · rw [if_pos hi]; rfl
      · split
        · exact Finset.prod_nonneg fun a _ => hQ0 a _
        · exact le_rfl
    · exact Finset.sum_nonneg fun i _ => by
        split
        · exact Finset.prod_nonneg fun a _ => hQ0 a _
        · exact le_rfl
  · obtain ⟨f, ms, f1, f2, f3, f4, f5⟩ := tensored_fitted hne hg h κ (results κ) (hran κ)
    have hA : (ms.map realMat).length = pattern.length := by rw [List.length_map, f4]
    have hgm : ∀ i (hi : i < pattern.length), groupMat ms i = (ms.map realMat)[i]'(lt_of_lt_of_eq hi hA.symm) := by
      intro i hi
      have : i < ms.length := f4 ▸ hi
      funext a b
      simp [groupMat, realMat, List.getD_eq_getElem?_getD, this]
    refine le_trans (Finset.sum_le_sum fun ω _ => ?_) (hgood κ (ms.map realMat) hA fun i hi => ?_)
    · by_cases hgd : good κ (pattern.map fun g => bitStrings g.length) (ms.map realMat) ω
      · rw [if_pos ⟨f, ms, f1, f2, f3 ▸ hgd⟩, if_pos hgd]
      · rw [if_neg hgd]
        split
        · exact Finset.prod_nonneg fun k _ => hw.1 _
        · exact le_rfl
    · have hent := f5 i hi
      rw [size_get i hi, hgm i hi] at hent
      have hnear : ∀ x ∈ bitStrings pattern[i].length, ((bitStrings pattern[i].length).map fun y =>
          |entry (bitStrings pattern[i].length) (noise[i]'(lt_of_lt_of_eq hi hlen.symm)) y x - entry (bitStrings pattern[i].length) ((ms.map realMat)[i]'(lt_of_lt_of_eq hi hA.symm)) y x|).sum ≤ η := by
        intro x hx
        rw [List.map_congr_left fun y hy => by rw [hent y hy x hx]]
        exact (not_le.1 fun hc => hκ ⟨⟨i, hi⟩, x, hx, hc⟩).le
      have htr : IsReadout (bitStrings pattern[i].length) (entry (bitStrings pattern[i].length) ((ms.map realMat)[i]'(lt_of_lt_of_eq hi hA.symm))) := by
        have := share_readout (prepOf (K := K) circs pattern i) (readOf pattern.flatten.length pattern i) (bitStrings pattern[i].length) (nodup_bitStrings _) (fun u => by
          have := part_mem (pattern.map List.length) i (by simpa using hi) ((bitStrings pattern.flatten.length).get u) (by rw [sum_length_flatten]; exact List.get_mem _ _)
          rw [size_get i hi] at this
          exact this) (fun x hx => lt_of_lt_of_le hK (tensored_covers hK hne hg h i hi x (by rw [size_get i hi]; exact hx))) κ
        intro x hx
        refine ⟨fun y hy => by rw [hent y hy x hx]; exact (this x hx).1 y hy, ?_⟩
        rw [List.map_congr_left fun y hy => hent y hy x hx]
        exact (this x hx).2
      obtain ⟨X, hX, hXb⟩ := (hnoise i hi).2
      have hbm : ∀ j < (bitStrings pattern[i].length).length, (bitStrings pattern[i].length).getD j [] ∈ bitStrings pattern[i].length := fun j hj => by
        rw [List.getD_eq_getElem?_getD, List.getElem?_eq_getElem hj]
        exact List.getElem_mem hj
      obtain ⟨i1, i2, i3, i4⟩ := near_calibration (nodup_bitStrings pattern[i].length) (entry (bitStrings pattern[i].length) (noise[i]'(lt_of_lt_of_eq hi hlen.symm))) X hX γ η hγ hXb
        ((ms.map realMat)[i]'(lt_of_lt_of_eq hi hA.symm)) (fun x hx => by
          have := hnear _ (hbm x hx)
          rw [label_sum, sum_map_range] at this
          refine le_trans (le_of_eq (Finset.sum_congr rfl fun y hy => ?_)) this
          rw [entry_getD (nodup_bitStrings _) ((ms.map realMat)[i]'(lt_of_lt_of_eq hi hA.symm)) (Finset.mem_range.1 hy) hx]
          rfl) hlt (pinv (2 ^ pattern[i].length)) (fun a ha => by rw [length_bitStrings] at ha ⊢; exact hp _ a ha)
      rw [length_bitStrings] at i1 i2
      exact ⟨i1, i2, i3, i4, fun s hs t ht => (htr t ht).1 s hs, fun t ht => (htr t ht).2⟩

/-! ### The two methods -/

/-- The groups with two matrices each. -/
def quads (pattern : List (List ℕ)) (Xs As : List (Mat ℝ)) : List (List Str × ℕ × Mat ℝ × Mat ℝ) :=
  (pattern.zip (Xs.zip As)).map fun p => (bitStrings p.1.length, p.1.length, p.2.1, p.2.2)

section
variable (Xs As : List (Mat ℝ)) (hX : Xs.length = pattern.length) (hA : As.length = pattern.length)
include hX hA

theorem quads_length : (quads pattern Xs As).length = pattern.length := by simp [quads, hX, hA]

theorem quads_get (i : ℕ) (hi : i < (quads pattern Xs As).length) (hi' : i < pattern.length) :
    (quads pattern Xs As)[i] = (bitStrings pattern[i].length, pattern[i].length, Xs[i], As[i]) := by
  simp [quads]

theorem quads_mem {g} (hg : g ∈ quads pattern Xs As) : ∃ (i : ℕ) (hi : i < pattern.length), g = (bitStrings pattern[i].length, pattern[i].length, Xs[i], As[i]) := by
  obtain ⟨i, hi, rfl⟩ := List.getElem_of_mem hg
  have hi' : i < pattern.length := by rwa [quads_length Xs As hX hA] at hi
  exact ⟨i, hi', quads_get Xs As hX hA i hi hi'⟩

theorem quads_labels : ((quads pattern Xs As).map (·.1)) = pattern.map fun g => bitStrings g.length := by
  refine List.ext_getElem (by simp [quads_length Xs As hX hA]) fun i h1 h2 => ?_
  simp [quads]

theorem quads_first : ((quads pattern Xs As).map fun g => g.2.2.1) = Xs := by
  refine List.ext_getElem (by simp [quads_length Xs As hX hA, hX]) fun i h1 h2 => ?_
  simp [quads]

theorem quads_second : ((quads pattern Xs As).map fun g => g.2.2.2) = As := by
  refine List.ext_getElem (by simp [quads_length Xs As hX hA, hA]) fun i h1 h2 => ?_
  simp [quads]

theorem quads_groups_first : ((quads pattern Xs As).map fun g => (g.1, g.2.1, g.2.2.1)) = patternGroups pattern Xs := by
  refine List.ext_getElem (by simp [quads_length Xs As hX hA, groups_length Xs hX]) fun i h1 h2 => ?_
  simp [quads, patternGroups]

theorem quads_groups_second : ((quads pattern Xs As).map fun g => (g.1, g.2.1, g.2.2.2)) = patternGroups pattern As := by
  refine List.ext_getElem (by simp [quads_length Xs As hX hA, groups_length As hA]) fun i h1 h2 => ?_
  simp [quads, patternGroups]

theorem quads_sum : ((quads pattern Xs As).map fun g => g.2.1).sum = pattern.flatten.length := by
  rw [← sum_length_flatten]
  congr 1
  refine List.ext_getElem (by simp [quads_length Xs As hX hA]) fun i h1 h2 => ?_
  simp [quads]

theorem quads_const (c : ℝ) : ((quads pattern Xs As).map fun _ => c).prod = c ^ pattern.length ∧ ((quads pattern Xs As).map fun _ => c).sum = pattern.length * c := by
  rw [List.map_const', quads_length Xs As hX hA]
  simp
end

theorem near_device {noise As : List (Mat ℝ)} {pinv : ℕ → Mat ℝ → Mat ℝ} {G η : ℝ} (hlen : noise.length = pattern.length) (hA : As.length = pattern.length)
    (hR : ∀ i (hi : i < pattern.length), IsReadout (bitStrings pattern[i].length) (entry (bitStrings pattern[i].length) noise[i]))
    (hnear : ∀ i (hi : i < pattern.length), NearGroups pattern noise As pinv G η i hi (lt_of_lt_of_eq hi hlen.symm) (lt_of_lt_of_eq hi hA.symm))
    {w : O → ℝ} {out : O → Str} {p : Str → ℝ}
    (hdev : NoisyDevice w out (bitStrings pattern.flatten.length) (kron (patternGroups pattern noise)) (kron (patternGroups pattern noise)) p 0) :
    NoisyDevice w out (bitStrings pattern.flatten.length) (kron (patternGroups pattern noise))
      (kron ((quads pattern (pinvs pinv pattern As) As).map fun g => (g.1, g.2.1, g.2.2.2))) p (pattern.length * η) := by
  have hX : (pinvs pinv pattern As).length = pattern.length := by simp [pinvs, hA]
  refine ⟨hdev.reads, hdev.nonneg, hdev.total, hdev.device, ?_⟩
  have := C126_tensored_calibration (quads pattern noise As) (fun g hg => by
      obtain ⟨i, hi, rfl⟩ := quads_mem noise As hlen hA hg
      exact List.Perm.refl _) (fun g hg => by
      obtain ⟨i, hi, rfl⟩ := quads_mem noise As hlen hA hg
      exact ⟨fun s hs t ht => (hR i hi t ht).1 s hs, fun t ht => (hR i hi t ht).2⟩) (fun g hg => by
      obtain ⟨i, hi, rfl⟩ := quads_mem noise As hlen hA hg
      exact (hnear i hi).trans) (fun _ => η) (fun g hg => by
      obtain ⟨i, hi, rfl⟩ := quads_mem noise As hlen hA hg
      exact (hnear i hi).near) _ (quads_sum noise As hlen hA)
  rw [quads_groups_first noise As hlen hA, quads_groups_second noise As hlen hA, (quads_const noise As hlen hA η).2] at this
  rw [quads_groups_second _ As hX hA]
  exact this

theorem transition_stochastic {k : ℕ} {A : Mat ℝ} (h : IsTransition (bitStrings k) A) : ColumnStochastic (2 ^ k) A := by
  intro j hj
  rw [← length_bitStrings k] at hj
  have hm : (bitStrings k).getD j [] ∈ bitStrings k := by
    rw [List.getD_eq_getElem?_getD, List.getElem?_eq_getElem hj]
    exact List.getElem_mem hj
  have := h.2 _ hm
  rw [label_sum] at this
  rw [← length_bitStrings k, ← this]
  congr 1
  refine List.map_congr_left fun i hi => ?_
  rw [entry_getD (nodup_bitStrings k) A (List.mem_range.1 hi) hj]

open Classical in
/-- **C141**, `pseudo_inverse`: calibrate the groups together with `K` shots per circuit, then correct the counts of `N` shots.  Except with a small probability
the frequencies are as close to the noiseless probabilities as stated. -/
theorem C141_counts (hne : pattern ≠ []) (hg : ∀ g ∈ pattern, g ≠ []) (hK : 0 < K) (hN : 0 < N)
    (h : tensoredMeasCal (some pattern) qr none circlabel = some (circs, pat)) (noise : List (Mat ℝ)) (hlen : noise.length = pattern.length) (γ : ℝ) (hγ : 0 < γ)
    (hnoise : ∀ i (hi : i < pattern.length), GroupNoise pattern[i].length noise[i] γ)
    (results : (Fin circs.length × Fin K → Fin (bitStrings pattern.flatten.length).length) → List Result) (hran : ∀ κ, CircuitsRan circs κ (results κ))
    (pinv : ℕ → Mat ℝ → Mat ℝ) (hp : ∀ d a, Invertible d a → IsPinv d a (pinv d a)) (solve : Solver) (rand : (Fin N → O) → Nat → ℝ)
    (w : O → ℝ) (hw : IsDistr w) (out : O → Str) (p : Str → ℝ)
    (hdev : NoisyDevice w out (bitStrings pattern.flatten.length) (kron (patternGroups pattern noise)) (kron (patternGroups pattern noise)) p 0)
    (raw : (Fin N → O) → Dict Str ℝ) (hraw : ∀ ω, Tally (bitStrings pattern.flatten.length) out ω (raw ω)) (η ε : ℝ) (hη : 0 < η) (hε : 0 < ε) (hlt : γ * η < 1) :
    (∑ κ, ∑ ω : Fin N → O, if ∃ f ms, mkTensored (some (results κ)) pattern none circlabel = some f ∧ f.mats = some ms ∧
        ∃ cor, tensoredFilter f.labels (ms.map realMat) (pinvs pinv pattern (ms.map realMat)) solve (some "pseudo_inverse".toList) (rand ω) (raw ω) = some cor ∧
          ((bitStrings pattern.flatten.length).map (val cor)).sum = N ∧
          off (bitStrings pattern.flatten.length) (freq N cor) p < (γ / (1 - γ * η)) ^ pattern.length * (pattern.length * η + ε)
      then 0 else circuitsProb circs (kron (patternGroups pattern noise)) κ * shotsProb w ω) ≤
      (pattern.map fun g => ((2 : ℝ) ^ g.length) ^ 2).sum / (K * η ^ 2) + 2 ^ pattern.flatten.length / (N * ε ^ 2) := by
  have hG : 0 < γ / (1 - γ * η) := div_pos hγ (by linarith)
  refine tensored_end_to_end hne hg hK h noise hlen γ hγ hnoise results hran pinv hp w hw η hη hlt
    (fun _ L As ω => ∃ cor, tensoredFilter L As (pinvs pinv pattern As) solve (some "pseudo_inverse".toList) (rand ω) (raw ω) = some cor ∧
          ((bitStrings pattern.flatten.length).map (val cor)).sum = N ∧
          off (bitStrings pattern.flatten.length) (freq N cor) p < (γ / (1 - γ * η)) ^ pattern.length * (pattern.length * η + ε)) _ (by positivity) fun κ As hA hnear => ?_
  have hX : (pinvs pinv pattern As).length = pattern.length := by simp [pinvs, hA]
  obtain ⟨cor, c1, c2⟩ := C126_tensored hN (quads pattern (pinvs pinv pattern As) As) (fun g hg => by
      obtain ⟨i, hi, rfl⟩ := quads_mem _ As hX hA hg
      exact List.Perm.refl _) (fun g hg => by
      obtain ⟨i, hi, rfl⟩ := quads_mem _ As hX hA hg
      refine ⟨?_, (hnear i hi).inv, transition_stochastic (hnear i hi).trans⟩
      simpa [pinvs] using (hnear i hi).ispinv) (quads_sum _ As hX hA) (by
      cases pattern with
      | nil => exact absurd rfl hne
      | cons a l =>
        have := List.length_pos_iff.2 (hg a (by simp))
        simp only [List.flatten_cons, List.length_append]
        omega) solve rand w hw out _ p _ (fun _ => γ / (1 - γ * η)) (fun g hg => by
      obtain ⟨i, hi, rfl⟩ := quads_mem _ As hX hA hg
      refine ⟨hG, ?_⟩
      simpa [pinvs] using (hnear i hi).bound) (near_device hlen hA (fun i hi => (hnoise i hi).1) hnear hdev) raw hraw
  rw [quads_labels _ As hX hA, quads_first _ As hX hA, quads_second _ As hX hA] at c1
  rw [(quads_const _ As hX hA _).1] at c2
  have hd := c2.distance ε hε
  rw [length_bitStrings] at hd
  push_cast at hd
  exact not_good hw hd fun ω hb => ⟨cor ω, c1 ω, c2.total ω, not_le.1 hb⟩

open Classical in
/-- **C141**, `pseudo_inverse`: the average of an observable. -/
theorem C141_observable (hne : pattern ≠ []) (hg : ∀ g ∈ pattern, g ≠ []) (hK : 0 < K) (hN : 0 < N)
    (h : tensoredMeasCal (some pattern) qr none circlabel = some (circs, pat)) (noise : List (Mat ℝ)) (hlen : noise.length = pattern.length) (γ : ℝ) (hγ : 0 < γ)
    (hnoise : ∀ i (hi : i < pattern.length), GroupNoise pattern[i].length noise[i] γ)
    (results : (Fin circs.length × Fin K → Fin (bitStrings pattern.flatten.length).length) → List Result) (hran : ∀ κ, CircuitsRan circs κ (results κ))
    (pinv : ℕ → Mat ℝ → Mat ℝ) (hp : ∀ d a, Invertible d a → IsPinv d a (pinv d a)) (solve : Solver) (rand : (Fin N → O) → Nat → ℝ)
    (w : O → ℝ) (hw : IsDistr w) (out : O → Str) (p : Str → ℝ)
    (hdev : NoisyDevice w out (bitStrings pattern.flatten.length) (kron (patternGroups pattern noise)) (kron (patternGroups pattern noise)) p 0)
    (raw : (Fin N → O) → Dict Str ℝ) (hraw : ∀ ω, Tally (bitStrings pattern.flatten.length) out ω (raw ω)) (η ε : ℝ) (hη : 0 < η) (hε : 0 < ε) (hlt : γ * η < 1)
    (d : Str → ℝ) (hd : ∀ s ∈ bitStrings pattern.flatten.length, |d s| ≤ 1) :
    (∑ κ, ∑ ω : Fin N → O, if ∃ f ms, mkTensored (some (results κ)) pattern none circlabel = some f ∧ f.mats = some ms ∧
        ∃ cor, tensoredFilter f.labels (ms.map realMat) (pinvs pinv pattern (ms.map realMat)) solve (some "pseudo_inverse".toList) (rand ω) (raw ω) = some cor ∧
          |((bitStrings pattern.flatten.length).map fun s => d s * freq N cor s).sum - ((bitStrings pattern.flatten.length).map fun s => d s * p s).sum| <
            (γ / (1 - γ * η)) ^ pattern.length * (pattern.length * η + ε)
      then 0 else circuitsProb circs (kron (patternGroups pattern noise)) κ * shotsProb w ω) ≤
      (pattern.map fun g => ((2 : ℝ) ^ g.length) ^ 2).sum / (K * η ^ 2) + 2 * Real.exp (-(N * ε ^ 2 / 2)) := by
  have hG : 0 < γ / (1 - γ * η) := div_pos hγ (by linarith)
  refine tensored_end_to_end hne hg hK h noise hlen γ hγ hnoise results hran pinv hp w hw η hη hlt
    (fun _ L As ω => ∃ cor, tensoredFilter L As (pinvs pinv pattern As) solve (some "pseudo_inverse".toList) (rand ω) (raw ω) = some cor ∧
          |((bitStrings pattern.flatten.length).map fun s => d s * freq N cor s).sum - ((bitStrings pattern.flatten.length).map fun s => d s * p s).sum| <
            (γ / (1 - γ * η)) ^ pattern.length * (pattern.length * η + ε)) _ (by positivity) fun κ As hA hnear => ?_
  have hX : (pinvs pinv pattern As).length = pattern.length := by simp [pinvs, hA]
  obtain ⟨cor, c1, c2⟩ := C126_tensored hN (quads pattern (pinvs pinv pattern As) As) (fun g hg => by
      obtain ⟨i, hi, rfl⟩ := quads_mem _ As hX hA hg
      exact List.Perm.refl _) (fun g hg => by
      obtain ⟨i, hi, rfl⟩ := quads_mem _ As hX hA hg
      refine ⟨?_, (hnear i hi).inv, transition_stochastic (hnear i hi).trans⟩
      simpa [pinvs] using (hnear i hi).ispinv) (quads_sum _ As hX hA) (by
      cases pattern with
      | nil => exact absurd rfl hne
      | cons a l =>
        have := List.length_pos_iff.2 (hg a (by simp))
        simp only [List.flatten_cons, List.length_append]
        omega) solve rand w hw out _ p _ (fun _ => γ / (1 - γ * η)) (fun g hg => by
      obtain ⟨i, hi, rfl⟩ := quads_mem _ As hX hA hg
      refine ⟨hG, ?_⟩
      simpa [pinvs] using (hnear i hi).bound) (near_device hlen hA (fun i hi => (hnoise i hi).1) hnear hdev) raw hraw
  rw [quads_labels _ As hX hA, quads_first _ As hX hA, quads_second _ As hX hA] at c1
  rw [(quads_const _ As hX hA _).1] at c2
  have hG' : 0 < (γ / (1 - γ * η)) ^ pattern.length := pow_pos hG _
  have hb := c2.observable d hd ((γ / (1 - γ * η)) ^ pattern.length * ε) (by positivity)
  have e1 : (N : ℝ) * ((γ / (1 - γ * η)) ^ pattern.length * ε) ^ 2 / (2 * ((γ / (1 - γ * η)) ^ pattern.length) ^ 2) = N * ε ^ 2 / 2 := by
    have := hG'.ne'
    generalize (γ / (1 - γ * η)) ^ pattern.length = G at this
    field_simp
  rw [e1] at hb
  exact not_good hw hb fun ω hb => ⟨cor ω, c1 ω, by rw [mul_add]; exact not_le.1 hb⟩

open Classical in
/-- **C141**, the default method, for an exact solver. -/
theorem C141_default (hne : pattern ≠ []) (hg : ∀ g ∈ pattern, g ≠ []) (hK : 0 < K) (hN : 0 < N)
    (h : tensoredMeasCal (some pattern) qr none circlabel = some (circs, pat)) (noise : List (Mat ℝ)) (hlen : noise.length = pattern.length) (γ : ℝ) (hγ : 0 < γ)
    (hnoise : ∀ i (hi : i < pattern.length), GroupNoise pattern[i].length noise[i] γ)
    (results : (Fin circs.length × Fin K → Fin (bitStrings pattern.flatten.length).length) → List Result) (hran : ∀ κ, CircuitsRan circs κ (results κ))
    (pinv : ℕ → Mat ℝ → Mat ℝ) (hp : ∀ d a, Invertible d a → IsPinv d a (pinv d a)) (solve : Solver) (hs : Solves solve 0) (rand : (Fin N → O) → Nat → ℝ)
    (w : O → ℝ) (hw : IsDistr w) (out : O → Str) (p : Str → ℝ)
    (hdev : NoisyDevice w out (bitStrings pattern.flatten.length) (kron (patternGroups pattern noise)) (kron (patternGroups pattern noise)) p 0)
    (raw : (Fin N → O) → Dict Str ℝ) (hraw : ∀ ω, Tally (bitStrings pattern.flatten.length) out ω (raw ω)) (η ε : ℝ) (hη : 0 < η) (hε : 0 < ε) (hlt : γ * η < 1) :
    (∑ κ, ∑ ω : Fin N → O, if ∃ f ms, mkTensored (some (results κ)) pattern none circlabel = some f ∧ f.mats = some ms ∧
        ∃ cor, tensoredFilter f.labels (ms.map realMat) (pinvs pinv pattern (ms.map realMat)) solve (some "least_squares".toList) (rand ω) (raw ω) = some cor ∧
          Physical (bitStrings pattern.flatten.length) N (val cor) ∧ off (bitStrings pattern.flatten.length) (freq N cor) p <
            (γ / (1 - γ * η)) ^ pattern.length * √(2 ^ pattern.flatten.length) * (pattern.length * η + ε)
      then 0 else circuitsProb circs (kron (patternGroups pattern noise)) κ * shotsProb w ω) ≤
      (pattern.map fun g => ((2 : ℝ) ^ g.length) ^ 2).sum / (K * η ^ 2) + 1 / (N * ε ^ 2) := by
  have hG : 0 < γ / (1 - γ * η) := div_pos hγ (by linarith)
  refine tensored_end_to_end hne hg hK h noise hlen γ hγ hnoise results hran pinv hp w hw η hη hlt
    (fun _ L As ω => ∃ cor, tensoredFilter L As (pinvs pinv pattern As) solve (some "least_squares".toList) (rand ω) (raw ω) = some cor ∧
          Physical (bitStrings pattern.flatten.length) N (val cor) ∧ off (bitStrings pattern.flatten.length) (freq N cor) p <
            (γ / (1 - γ * η)) ^ pattern.length * √(2 ^ pattern.flatten.length) * (pattern.length * η + ε)) _ (by positivity) fun κ As hA hnear => ?_
  have hX : (pinvs pinv pattern As).length = pattern.length := by simp [pinvs, hA]
  obtain ⟨cor, c1, c2⟩ := C126_tensored_lsq hN (quads pattern (pinvs pinv pattern As) As) (fun g hg => by
      obtain ⟨i, hi, rfl⟩ := quads_mem _ As hX hA hg
      exact List.Perm.refl _) (fun g hg => by
      obtain ⟨i, hi, rfl⟩ := quads_mem _ As hX hA hg
      refine ⟨?_, (hnear i hi).inv⟩
      simpa [pinvs] using (hnear i hi).ispinv) (quads_sum _ As hX hA) (by
      cases pattern with
      | nil => exact absurd rfl hne
      | cons a l =>
        have := List.length_pos_iff.2 (hg a (by simp))
        simp only [List.flatten_cons, List.length_append]
        omega) hs rand w hw out _ p _ (fun _ => γ / (1 - γ * η)) (fun g hg => by
      obtain ⟨i, hi, rfl⟩ := quads_mem _ As hX hA hg
      refine ⟨hG, ?_⟩
      simpa [pinvs] using (hnear i hi).bound) (near_device hlen hA (fun i hi => (hnoise i hi).1) hnear hdev) raw hraw
  rw [quads_labels _ As hX hA, quads_first _ As hX hA, quads_second _ As hX hA] at c1
  rw [(quads_const _ As hX hA _).1] at c2
  have hd := c2.distance ε hε
  rw [length_bitStrings] at hd
  push_cast at hd
  exact not_good hw hd fun ω hb => ⟨cor ω, c1 ω, c2.physical ω, not_le.1 hb⟩

/-! ### An experiment -/

omit [Fintype O] in
/-- Whatever was read, there are results that tell it. -/
theorem exists_circuitsRan (circs : List Circ) (κ : Fin circs.length × Fin K → Fin (bitStrings n).length) : ∃ r : Result, CircuitsRan circs κ [r] := by
  let tally : Fin circs.length → Dict Str ℚ := fun c => List.ofFn fun y : Fin (bitStrings n).length => ((bitStrings n).get y, ((Finset.univ.filter fun k => κ (c, k) = y).card : ℚ))
  have hwf : ∀ c, Dict.WF (tally c) := by
    intro c
    unfold Dict.WF
    simp only [tally, List.map_ofFn]
    rw [show (Prod.fst ∘ fun y : Fin (bitStrings n).length => ((bitStrings n).get y, ((Finset.univ.filter fun k => κ (c, k) = y).card : ℚ))) = (bitStrings n).get from rfl, List.ofFn_get]
    exact nodup_bitStrings n
  refine ⟨List.ofFn fun c : Fin circs.length => ((circs.get c).name, tally c), ?_, ?_, ?_, ?_⟩
  · refine List.ext_getElem (by simp) fun i h1 h2 => ?_
    simp
  · intro e he
    simp only [List.flatten_cons, List.flatten_nil, List.append_nil, List.mem_ofFn] at he
    obtain ⟨x, rfl⟩ := he
    exact hwf x
  · intro e he q hq
    simp only [List.flatten_cons, List.flatten_nil, List.append_nil, List.mem_ofFn] at he
    obtain ⟨x, rfl⟩ := he
    simp only [tally, List.mem_ofFn] at hq
    obtain ⟨y, rfl⟩ := hq
    exact List.get_mem _ _
  · intro x e he y
    simp only [List.flatten_cons, List.flatten_nil, List.append_nil] at he
    obtain ⟨h1, rfl⟩ := List.getElem?_eq_some_iff.1 he
    simp only [List.getElem_ofFn]
    unfold val
    rw [Dict.getD, Dict.get?_of_mem _ (hwf x) ((bitStrings n).get y) _ (List.mem_ofFn.2 ⟨y, rfl⟩), Option.getD_some]

omit [Fintype O] in
/-- There are counts of any shots. -/
theorem exists_tally (states : List Str) (hs : states.Nodup) (out : O → Str) (hout : ∀ o, out o ∈ states) (ω : Fin N → O) : ∃ raw, Tally states out ω raw := by
  refine ⟨states.map fun s => (s, ((Finset.univ.filter fun k => out (ω k) = s).card : ℝ)), ?_, ?_, ?_⟩
  · unfold Dict.WF
    rw [List.map_map]
    simpa [Function.comp_def] using hs
  · intro q hq
    obtain ⟨s, hs', rfl⟩ := List.mem_map.1 hq
    exact hs'
  · intro s
    have hwf : Dict.WF (states.map fun s => (s, ((Finset.univ.filter fun k => out (ω k) = s).card : ℝ))) := by
      unfold Dict.WF
      rw [List.map_map]
      simpa [Function.comp_def] using hs
    unfold val
    by_cases h : s ∈ states
    · rw [Dict.getD, Dict.get?_of_mem _ hwf s _ (List.mem_map.2 ⟨s, h, rfl⟩), Option.getD_some]
    · rw [Dict.getD, (Dict.get?_eq_none_iff _ _).2 (by rw [List.map_map]; simpa [Function.comp_def] using h), Option.getD_none]
      symm
      rw [Nat.cast_eq_zero, Finset.card_eq_zero, Finset.filter_eq_empty_iff]
      intro k _ e
      exact h (e ▸ hout _)

/-- Two bits. -/
def pairOut (b : Bool × Bool) : Str := bitOut b.1 ++ bitOut b.2

/-- Readings of two qubits in the state `|00> + |11>`, each read with errors of probability 1/10. -/
noncomputable def pairW (b : Bool × Bool) : ℝ := if b.1 = b.2 then 41 / 100 else 9 / 100

noncomputable def bellP (s : Str) : ℝ := if s = "00".toList ∨ s = "11".toList then 1 / 2 else 0

theorem pair_device : NoisyDevice pairW pairOut (bitStrings 2) (kron (patternGroups [[0], [1]] [flip10, flip10])) (kron (patternGroups [[0], [1]] [flip10, flip10])) bellP 0 := by
  have hb : bitStrings 2 = ["00".toList, "01".toList, "10".toList, "11".toList] := by decide
  have hb1 : bitStrings 1 = ["0".toList, "1".toList] := by decide
  rw [hb]
  refine ⟨fun o => by obtain ⟨a, b⟩ := o; cases a <;> cases b <;> simp [pairOut, bitOut], fun t _ => by unfold bellP; split <;> norm_num, by simp [bellP]; norm_num, ?_, by simp⟩
  intro s hs
  simp only [List.mem_cons, List.not_mem_nil, or_false] at hs
  rcases hs with rfl | rfl | rfl | rfl <;>
    simp [pairOut, bitOut, pairW, noisyCounts, bellP, Fintype.sum_prod_type, patternGroups, kron, entry, hb1, flip10, List.idxOf, List.findIdx_cons] <;> norm_num

theorem flip10_group : GroupNoise 1 flip10 (5 / 4) := by
  have hb1 : bitStrings 1 = ["0".toList, "1".toList] := by decide
  unfold GroupNoise
  rw [hb1]
  refine ⟨?_, entry ["0".toList, "1".toList] flip10Inv, ?_, bit_bound⟩
  · intro t ht
    simp only [List.mem_cons, List.not_mem_nil, or_false] at ht
    refine ⟨fun s hs => ?_, ?_⟩
    · unfold entry flip10
      split <;> norm_num
    · rcases ht with rfl | rfl <;> simp [entry, flip10, List.idxOf, List.findIdx_cons] <;> norm_num
  · intro s hs u hu
    simp only [List.mem_cons, List.not_mem_nil, or_false] at hs hu
    rcases hs with rfl | rfl <;> rcases hu with rfl | rfl <;> simp [entry, flip10, flip10Inv, List.idxOf, List.findIdx_cons] <;> norm_num

open Classical in
/-- Two qubits in the state `|00> + |11>`, each read with errors of probability 1/10 and each a group of its own: with `K` shots of each of the two calibration
circuits and `N` shots of the circuit, the corrected frequencies are less than 75/361 off in total, except with probability `5000 / K + 2500 / N`. -/
theorem C141_experiment (hK : 0 < K) (hN : 0 < N) (solve : Solver) (rand : Nat → ℝ) :
    ∃ (circs : List Circ) (pinv : ℕ → Mat ℝ → Mat ℝ) (results : (Fin circs.length × Fin K → Fin (bitStrings 2).length) → Result) (raw : (Fin N → Bool × Bool) → Dict Str ℝ),
      tensoredMeasCal (some [[0], [1]]) none none [] = some (circs, [[0], [1]]) ∧ circs.length = 2 ∧ (∀ κ, CircuitsRan circs κ [results κ]) ∧
      (∀ ω, Tally (bitStrings 2) pairOut ω (raw ω)) ∧
      (∑ κ, ∑ ω : Fin N → Bool × Bool, if ∃ f ms, mkTensored (some [results κ]) [[0], [1]] none [] = some f ∧ f.mats = some ms ∧
        ∃ cor, tensoredFilter f.labels (ms.map realMat) (pinvs pinv [[0], [1]] (ms.map realMat)) solve (some "pseudo_inverse".toList) rand (raw ω) = some cor ∧
          ((bitStrings 2).map (val cor)).sum = N ∧ off (bitStrings 2) (freq N cor) bellP < 75 / 361
      then 0 else circuitsProb circs (kron (patternGroups [[0], [1]] [flip10, flip10])) κ * shotsProb pairW ω) ≤ 5000 / K + 2500 / N := by
  obtain ⟨circs, hc, hc2⟩ : ∃ circs, tensoredMeasCal (some [[0], [1]]) none none [] = some (circs, [[0], [1]]) ∧ circs.length = 2 := ⟨_, rfl, rfl⟩
  choose pinv hp using exists_pinv
  choose results hres using fun κ : Fin circs.length × Fin K → Fin (bitStrings 2).length => exists_circuitsRan circs κ
  choose raw hraw using fun ω : Fin N → Bool × Bool => exists_tally (bitStrings 2) (nodup_bitStrings 2) pairOut pair_device.reads ω
  refine ⟨circs, pinv, results, raw, hc, hc2, hres, hraw, ?_⟩
  have hw : IsDistr pairW := ⟨fun b => by unfold pairW; split <;> norm_num, by simp [pairW, Fintype.sum_prod_type]; norm_num⟩
  have h := C141_counts (K := K) (N := N) (pattern := [[0], [1]]) (qr := none) (circlabel := []) (by simp) (by simp) hK hN hc [flip10, flip10] rfl (5 / 4) (by norm_num)
    (by
      intro i hi
      have : i = 0 ∨ i = 1 := by simp at hi; omega
      rcases this with rfl | rfl <;> exact flip10_group) (fun κ => [results κ]) hres pinv hp solve (fun _ => rand) pairW hw pairOut bellP pair_device raw hraw
    (1 / 25) (1 / 25) (by norm_num) (by norm_num) (by norm_num)
  refine le_trans (le_of_eq ?_) (h.trans (le_of_eq ?_))
  · have e : ((5 / 4 : ℝ) / (1 - 5 / 4 * (1 / 25))) ^ [[0], [1]].length * ((([[0], [1]] : List (List ℕ)).length : ℕ) * (1 / 25) + 1 / 25) = 75 / 361 := by norm_num
    rw [e]
    rfl
  · have h1 : (K : ℝ) ≠ 0 := by exact_mod_cast hK.ne'
    have h2 : (N : ℝ) ≠ 0 := by exact_mod_cast hN.ne'
    simp
    field_simp
    norm_num
    ring

end Verif.MeasMit
