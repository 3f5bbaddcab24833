import Verif.Calib.PropsIq
/-
C99: the data series of every qubit.
-/
namespace Verif.Calib
open Verif

theorem mapM_series {α β : Type} (l : List α) (f : α → Option β) (l' : List β) (h : l.mapM f = some l') : l.map f = l'.map some := by
  induction l generalizing l' with
  | nil => simp only [List.mapM_nil, Option.pure_def, Option.some.injEq] at h; subst h; rfl
  | cons a l ih =>
    rw [List.mapM_cons] at h
    obtain ⟨b, h1, h2⟩ := Option.bind_eq_some_iff.1 h
    obtain ⟨t, h3, h4⟩ := Option.bind_eq_some_iff.1 h2
    simp only [Option.pure_def, Option.some.injEq] at h4
    subst h4
    rw [List.map_cons, List.map_cons, h1, ih t h3]

/-- **C99** The series of qubit number `q` is the projection of the pooled averages of its own memory slot, schedule by schedule. -/
theorem C99_series (len : Str → ℕ) (results : List JobRes) (hn : ∀ r ∈ results, (r.map (·.name)).Nodup) (hg : GoodData len results.flatten)
    (names : List Str) (nq : ℕ) (ys : List (List ℝ)) (h : calcIq results names nq = some ys) :
    ys.length = nq ∧ ∀ q < nq, ∃ zs, names.mapM (fun n => poolMean results.flatten n q) = some zs ∧ (ys[q]?) = project zs := by
  obtain ⟨a, h1, h2⟩ := C99_pooled len results hn hg
  unfold calcIq at h
  rw [h1] at h
  simp only [Option.bind_eq_bind, Option.bind_some, h2] at h
  have h3 := mapM_series _ _ _ h
  have hlen := congrArg List.length h3
  rw [List.length_map, List.length_map, List.length_range] at hlen
  refine ⟨hlen.symm, fun q hq => ?_⟩
  have h4 := congrArg (·[q]?) h3
  simp only [List.getElem?_map, List.getElem?_range hq, Option.map_some, List.getElem?_eq_getElem (hlen ▸ hq : q < ys.length), Option.some.injEq] at h4
  obtain ⟨zs, z1, z2⟩ := Option.bind_eq_some_iff.1 h4
  exact ⟨zs, z1, by rw [z2, List.getElem?_eq_getElem]⟩

/-- Two schedules, the first in two jobs. -/
example : ∃ ys, calcIq sampleJobs [['a'], ['b']] 1 = some ys := by
  have hg : GoodData (fun _ => 2) sampleJobs.flatten := by simp [GoodData, sampleJobs]
  obtain ⟨a, h1, h2⟩ := C99_pooled (fun _ => 2) sampleJobs (by decide) hg
  have ha : poolMean sampleJobs.flatten ['a'] 0 = some 2 := by simp [poolMean, sampleJobs]; norm_num
  have hb : poolMean sampleJobs.flatten ['b'] 0 = some 0 := by simp [poolMean, sampleJobs]
  have hp : ∃ y, project [2, 0] = some y := by
    unfold project
    rw [if_neg (by simp)]
    have hm : mean [2, 0] = 1 := by norm_num [mean]
    have h1 : ext ((([2, 0] : List ℂ).map (· - mean [2, 0])).map Complex.re) = 1 := by rw [hm]; norm_num [ext]
    have h2 : ext ((([2, 0] : List ℂ).map (· - mean [2, 0])).map Complex.im) = 0 := by rw [hm]; norm_num [ext]
    simp only [h1, h2]
    rw [if_neg (by norm_num)]
    exact ⟨_, rfl⟩
  obtain ⟨y, hy⟩ := hp
  refine ⟨[y], ?_⟩
  unfold calcIq
  rw [h1]
  simp [h2, ha, hb, hy]

end Verif.Calib
