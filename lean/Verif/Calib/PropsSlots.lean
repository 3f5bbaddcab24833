import Verif.Calib.PropsCalc
/-
C99: which memory slots a calibration fitter reads.
-/
namespace Verif.Calib
open Verif

/-- **C99** (finding).  A fitter for `nq` qubits reads the first `nq` memory slots, whatever the qubits are: data that differ only in the other slots give the same
series.  `measure` stores a qubit in the slot of its own number, so the series of a fitter for qubit 3 alone do not depend on what was measured on qubit 3. -/
theorem C99_finding_slots (len : Str → ℕ) (results : List JobRes) (hn : ∀ r ∈ results, (r.map (·.name)).Nodup) (hg : GoodData len results.flatten)
    (nq : ℕ) (g : Exp → Exp) (hsame : ∀ e, (g e).name = e.name ∧ (g e).shots = e.shots ∧ (g e).level = e.level ∧ (g e).avg = e.avg)
    (hmem : ∀ e, (g e).memory.length = e.memory.length ∧ ∀ s < nq, (g e).memory.getD s 0 = e.memory.getD s 0) (names : List Str) :
    calcIq (results.map (·.map g)) names nq = calcIq results names nq := by
  have hfl : (results.map (·.map g)).flatten = results.flatten.map g := by rw [List.map_flatten]
  have hn' : ∀ r ∈ results.map (·.map g), (r.map (·.name)).Nodup := by
    intro r hr
    obtain ⟨r0, h0, rfl⟩ := List.mem_map.1 hr
    rw [List.map_map]
    have : ((fun e : Exp => e.name) ∘ g) = fun e => e.name := funext fun e => (hsame e).1
    rw [this]
    exact hn r0 h0
  have hg' : GoodData len (results.map (·.map g)).flatten := by
    rw [hfl]
    intro e he
    obtain ⟨e0, h0, rfl⟩ := List.mem_map.1 he
    obtain ⟨s1, -, s3, s4⟩ := hsame e0
    rw [s1, s3, s4, (hmem e0).1]
    exact hg e0 h0
  obtain ⟨a, h1, h2⟩ := C99_pooled len results hn hg
  obtain ⟨a', h1', h2'⟩ := C99_pooled len _ hn' hg'
  have hpool : ∀ name, ∀ s < nq, poolMean (results.flatten.map g) name s = poolMean results.flatten name s := by
    intro name s hs
    have hf : (results.flatten.map g).filter (fun e => e.name = name) = (results.flatten.filter fun e => e.name = name).map g := by
      rw [List.filter_map]
      congr 1
      refine List.filter_congr fun e _ => ?_
      simp only [Function.comp_apply, (hsame e).1]
    unfold poolMean
    dsimp only
    rw [hf]
    simp only [List.map_map, Function.comp_def, List.mem_map, exists_exists_and_eq_and, (hsame _).2.1, (hmem _).1, (hmem _).2 s hs]
  unfold calcIq
  rw [h1, h1']
  simp only [Option.bind_eq_bind, Option.bind_some, h2, h2', hfl]
  have hall : ∀ l : List ℕ, (∀ q ∈ l, q < nq) →
      (l.mapM fun q => (names.mapM fun n => poolMean (results.flatten.map g) n q).bind fun zs => project zs)
        = l.mapM fun q => (names.mapM fun n => poolMean results.flatten n q).bind fun zs => project zs := by
    intro l
    induction l with
    | nil => intro _; rfl
    | cons q l ih =>
      intro h
      rw [List.mapM_cons, List.mapM_cons, ih fun x hx => h x (List.mem_cons_of_mem _ hx)]
      have hq : (fun n => poolMean (results.flatten.map g) n q) = fun n => poolMean results.flatten n q := funext fun n => hpool n q (h q List.mem_cons_self)
      rw [hq]
  exact hall _ fun q hq => List.mem_range.1 hq

/-- Overwrite every slot but the first. -/
noncomputable def spoil (e : Exp) : Exp := { e with memory := e.memory.zipIdx.map fun p => if p.2 = 0 then p.1 else 77 }

/-- Non-vacuity: overwriting every slot but the first of the two in the sample meets the hypotheses for one qubit, and changes the data. -/
example : (∀ names, calcIq (sampleJobs.map (·.map spoil)) names 1 = calcIq sampleJobs names 1) ∧
    poolMean (sampleJobs.map (·.map spoil)).flatten ['a'] 1 ≠ poolMean sampleJobs.flatten ['a'] 1 := by
  refine ⟨fun names => C99_finding_slots (fun _ => 2) sampleJobs (by decide) (by simp [GoodData, sampleJobs]) 1 spoil (fun e => ⟨rfl, rfl, rfl, rfl⟩)
    (fun e => ⟨by simp [spoil], fun s hs => ?_⟩) names, ?_⟩
  · obtain rfl : s = 0 := by omega
    cases hm : e.memory with
    | nil => simp [spoil, hm]
    | cons a l => simp [spoil, hm]
  · simp [sampleJobs, spoil, poolMean]
    norm_num

end Verif.Calib
