import Verif.Expval.Fitter
import Verif.Expval.CtmpExpval
/-
Model of the mitigator objects with their caches and with the arrays they share with the caller: complete_mitigator.py, tensored_mitigator.py and ctmp_mitigator.py
of qiskit/ignis/mitigation/expval.  Arrays live in a heap; a reference is a position.  `np.linalg.inv` (with the fallback `pinv`) and `scipy.linalg.expm` are
parameters.  A single qubit given as a number is not modelled.
-/
namespace Verif.Expval.Obj
open Verif Verif.Counts Verif.Expval Verif.Expval.Ctmp

/-- A mitigator object: `CompleteExpvalMeasMitigator` (complete_mitigator.py:41-49), `TensoredExpvalMeasMitigator` (tensored_mitigator.py:41-66; each row of
`_mitigation_mats` counts as an array of its own, since `_mitigation_mats[i]` is a view) or `CTMPExpvalMeasMitigator` (ctmp_mitigator.py:49-77, after the filter
of the rates).  The random number generator is not part of it. -/
inductive MObj
  | complete (n : ℕ) (amat : ℕ) (cache : Dict (List ℕ) ℕ)
  | tensored (amats mits : List ℕ) (gammas : List ℝ)
  | ctmp (n : ℕ) (gens : List (Gen × ℝ)) (gmats : Dict (List ℕ) ℕ) (strengths : Dict (List ℕ) ℝ) (bmats : Dict (List ℕ) (Mat ℝ))

/-- The arrays and the objects of a program. -/
structure MWorld where
  heap : List (Mat ℝ)
  objs : List MObj

/-- The methods; `gamma` is what `required_shots`, `mitigation_overhead` and `stddev_upper_bound` are computed from. -/
inductive MQuery
  | mit (qs : Option (List ℕ))
  | amat (qs : Option (List ℕ))
  | gamma (qs : Option (List ℕ))
  | expval (counts : Counts) (diag : Option (List ℝ)) (qs clbits : Option (List ℕ))
  | gen (qs : Option (List ℕ))
  | strength (qs : Option (List ℕ))

/-- What a call gives: an array, a number, a value with its standard deviation, what the random number generator is asked for (CTMP), nothing, or an exception. -/
inductive MAns
  | array (r : ℕ)
  | num (x : ℝ)
  | pair (v : ℝ × ℝ)
  | sample (s : CtmpCall)
  | done
  | raised

/-- The array a reference denotes. -/
def arr (heap : List (Mat ℝ)) (r : ℕ) : Mat ℝ := (heap[r]?).getD fun _ _ => 0

/-! ### complete_mitigator.py -/

/-- `mitigation_matrix`, complete_mitigator.py:112-130. -/
noncomputable def completeMitC (inv : ℕ → Mat ℝ → Mat ℝ) (n amat : ℕ) (cache : Dict (List ℕ) ℕ) (heap : List (Mat ℝ)) (qs : Option (List ℕ)) :
    Option (ℕ × Dict (List ℕ) ℕ × List (Mat ℝ)) :=
  let key := (qs.getD (List.range n)).insertionSort (· ≤ ·)
  match cache.get? key with
  | some r => some (r, cache, heap)
  | none =>
    match completeAmat (arr heap amat) n key with
    | none => none
    | some m => some (heap.length, cache.set key heap.length, heap ++ [inv (2 ^ key.length) m])

/-- All methods of `CompleteExpvalMeasMitigator`: `mitigation_matrix`; `assignment_matrix`, complete_mitigator.py:144-163; `_compute_gamma`, 172-175;
`expectation_value`, 81-99. -/
noncomputable def askComplete (inv : ℕ → Mat ℝ → Mat ℝ) (n amat : ℕ) (cache : Dict (List ℕ) ℕ) (heap : List (Mat ℝ)) : MQuery → MObj × List (Mat ℝ) × MAns
  | .mit qs =>
    match completeMitC inv n amat cache heap qs with
    | none => (.complete n amat cache, heap, .raised)
    | some (r, cache', heap') => (.complete n amat cache', heap', .array r)
  | .amat none => (.complete n amat cache, heap, .array amat)
  | .amat (some qs) =>
    match completeAmat (arr heap amat) n qs with
    | none => (.complete n amat cache, heap, .raised)
    | some m => (.complete n amat cache, heap ++ [m], .array heap.length)
  | .gamma qs =>
    match completeMitC inv n amat cache heap qs with
    | none => (.complete n amat cache, heap, .raised)
    | some (r, cache', heap') => (.complete n amat cache', heap', .num (completeGamma (2 ^ (qs.getD (List.range n)).length) (arr heap' r)))
  | .expval counts diag qs clbits =>
    match countsProbabilityVector (K := ℝ) counts qs clbits none with
    | none => (.complete n amat cache, heap, .raised)
    | some (w, probs, shots) =>
      match completeMitC inv n amat cache heap (some (qs.getD (List.range w))) with
      | none => (.complete n amat cache, heap, .raised)
      | some (r, cache', heap') =>
        match diagOr w diag with
        | none => (.complete n amat cache', heap', .raised)
        | some d => (.complete n amat cache', heap', .pair (expvalVec w (fun x => ∑ z ∈ Finset.range (2 ^ w), arr heap' r z x * d z) probs shots))
  | .gen _ => (.complete n amat cache, heap, .raised)
  | .strength _ => (.complete n amat cache, heap, .raised)

/-! ### tensored_mitigator.py -/

/-- tensored_mitigator.py:139-143 and 161-165: for one qubit the array kept in the object, otherwise a new one. -/
noncomputable def tensoredMatC (refs : List ℕ) (heap : List (Mat ℝ)) (qs : Option (List ℕ)) : Option (ℕ × List (Mat ℝ)) :=
  match qs.getD (List.range refs.length) with
  | [q] => (refs[q]?).map fun r => (r, heap)
  | l => (tensoredMatrix (refs.map (arr heap)) (some l)).map fun m => (heap.length, heap ++ [m.2])

/-- All methods of `TensoredExpvalMeasMitigator`, tensored_mitigator.py:68-198. -/
noncomputable def askTensored (amats mits : List ℕ) (gammas : List ℝ) (heap : List (Mat ℝ)) : MQuery → List (Mat ℝ) × MAns
  | .mit qs =>
    match tensoredMatC mits heap qs with
    | none => (heap, .raised)
    | some (r, heap') => (heap', .array r)
  | .amat qs =>
    match tensoredMatC amats heap qs with
    | none => (heap, .raised)
    | some (r, heap') => (heap', .array r)
  | .gamma none => (heap, .num gammas.prod)
  | .gamma (some qs) =>
    match qs.mapM fun q => gammas[q]? with
    | none => (heap, .raised)
    | some l => (heap, .num l.prod)
  | .expval counts diag qs clbits =>
    match tensoredExpval (fun _ M => M) (mits.map (arr heap)) counts diag qs clbits with
    | none => (heap, .raised)
    | some v => (heap, .pair v)
  | .gen _ => (heap, .raised)
  | .strength _ => (heap, .raised)

/-! ### ctmp_mitigator.py -/

/-- The caches of a CTMP mitigator. -/
structure CtmpCache where
  gmats : Dict (List ℕ) ℕ
  strengths : Dict (List ℕ) ℝ
  bmats : Dict (List ℕ) (Mat ℝ)

/-- `generator_matrix`, ctmp_mitigator.py:178-195, for the sorted qubits. -/
noncomputable def genMatC (gens : List (Gen × ℝ)) (c : CtmpCache) (heap : List (Mat ℝ)) (key : List ℕ) : Option (ℕ × CtmpCache × List (Mat ℝ)) :=
  match c.gmats.get? key with
  | some r => some (r, c, heap)
  | none =>
    match generatorMatrix gens key with
    | none => none
    | some g => some (heap.length, { c with gmats := c.gmats.set key heap.length }, heap ++ [g])

/-- `noise_strength`, ctmp_mitigator.py:236-255, for the sorted qubits. -/
noncomputable def strengthC (gens : List (Gen × ℝ)) (c : CtmpCache) (heap : List (Mat ℝ)) (key : List ℕ) : Option (ℝ × CtmpCache × List (Mat ℝ)) :=
  match c.strengths.get? key with
  | some x => some (x, c, heap)
  | none =>
    match genMatC gens c heap key with
    | none => none
    | some (r, c', heap') =>
      let x := noiseStrength (2 ^ key.length) (arr heap' r)
      some (x, { c' with strengths := c'.strengths.set key x }, heap')

/-- `_sampling_matrix`, ctmp_mitigator.py:310-326, for the sorted qubits. -/
noncomputable def samplingC (gens : List (Gen × ℝ)) (c : CtmpCache) (heap : List (Mat ℝ)) (key : List ℕ) : Option (Mat ℝ × CtmpCache × List (Mat ℝ)) :=
  match c.bmats.get? key with
  | some b => some (b, c, heap)
  | none =>
    match genMatC gens c heap key with
    | none => none
    | some (r, c1, heap1) =>
      match strengthC gens c1 heap1 key with
      | none => none
      | some (x, c2, heap2) =>
        let b : Mat ℝ := if x ≠ 0 then fun i j => ident i j + arr heap2 r i j / x else ident
        some (b, { c2 with bmats := c2.bmats.set key b }, heap2)

/-- The key of the caches. -/
def ctmpKey (n : ℕ) (qs : Option (List ℕ)) : List ℕ := (qs.getD (List.range n)).insertionSort (· ≤ ·)

/-- All methods of `CTMPExpvalMeasMitigator`, ctmp_mitigator.py:79-264.  If an exception is raised the caches may have been filled. -/
noncomputable def askCtmp (expm : ℕ → Mat ℝ → Mat ℝ) (n : ℕ) (gens : List (Gen × ℝ)) (c : CtmpCache) (heap : List (Mat ℝ)) :
    MQuery → CtmpCache × List (Mat ℝ) × MAns
  | .gen qs =>
    match genMatC gens c heap (ctmpKey n qs) with
    | none => (c, heap, .raised)
    | some (r, c', heap') => (c', heap', .array r)
  | .mit qs =>
    match genMatC gens c heap (ctmpKey n qs) with
    | none => (c, heap, .raised)
    | some (r, c', heap') =>
      let dim := 2 ^ (ctmpKey n qs).length
      (c', heap' ++ [expm dim fun i j => -flipMat dim (arr heap' r) i j], .array heap'.length)
  | .amat qs =>
    match genMatC gens c heap (ctmpKey n qs) with
    | none => (c, heap, .raised)
    | some (r, c', heap') =>
      let dim := 2 ^ (ctmpKey n qs).length
      (c', heap' ++ [expm dim (flipMat dim (arr heap' r))], .array heap'.length)
  | .strength qs =>
    match strengthC gens c heap (ctmpKey n qs) with
    | none => (c, heap, .raised)
    | some (x, c', heap') => (c', heap', .num x)
  | .gamma (some _) => (c, heap, .raised)
  | .gamma none =>
    match strengthC gens c heap (ctmpKey n none) with
    | none => (c, heap, .raised)
    | some (x, c', heap') => (c', heap', .num (Real.exp (2 * x)))
  | .expval counts diag qs clbits =>
    let l := qs.getD (List.range n)
    match countsProbabilityVector (K := ℝ) counts (some l) clbits (some l.length) with
    | none => (c, heap, .raised)
    | some (w, probs, _) =>
      match diagOr w diag with
      | none => (c, heap, .raised)
      | some d =>
        match strengthC gens c heap (ctmpKey n qs) with
        | none => (c, heap, .raised)
        | some (x, c1, heap1) =>
          match samplingC gens c1 heap1 (ctmpKey n qs) with
          | none => (c1, heap1, .raised)
          | some (b, c2, heap2) => (c2, heap2, .sample ⟨2 ^ w, x, probs, toCsc (2 ^ w) b, d, shotsOf counts, ctmpSamples (shotsOf counts) x⟩)

/-! ### Programs -/

/-- What a program does: make an array, change one in place, construct mitigators from arrays or generators, call a method. -/
inductive MOp
  | alloc (m : Mat ℝ)
  | write (r : ℕ) (m : Mat ℝ)
  | newComplete (n r : ℕ)
  | newTensored (rs : List ℕ)
  | newCtmp (n : ℕ) (gens : List (Gen × ℝ))
  | ask (o : ℕ) (q : MQuery)

/-- One step of a program. -/
noncomputable def MWorld.step (inv expm : ℕ → Mat ℝ → Mat ℝ) (w : MWorld) : MOp → MWorld × MAns
  | .alloc m => ({ w with heap := w.heap ++ [m] }, .array w.heap.length)
  | .write r m => ({ w with heap := w.heap.set r m }, .done)
  | .newComplete n r => ({ w with objs := w.objs ++ [.complete n r []] }, .done)
  | .newTensored rs =>
    let mats := rs.map (arr w.heap)
    (⟨w.heap ++ mats.map (inv 2), w.objs ++ [.tensored rs (List.range' w.heap.length rs.length) (mats.map tensoredGamma1)]⟩, .done)
  | .newCtmp n gens => ({ w with objs := w.objs ++ [.ctmp n gens [] [] []] }, .done)
  | .ask o q =>
    match w.objs[o]? with
    | none => (w, .raised)
    | some (.complete n amat cache) =>
      let (obj, heap, ans) := askComplete inv n amat cache w.heap q
      (⟨heap, w.objs.set o obj⟩, ans)
    | some (.tensored amats mits gammas) =>
      let (heap, ans) := askTensored amats mits gammas w.heap q
      (⟨heap, w.objs⟩, ans)
    | some (.ctmp n gens gmats strengths bmats) =>
      let (c, heap, ans) := askCtmp expm n gens ⟨gmats, strengths, bmats⟩ w.heap q
      (⟨heap, w.objs.set o (.ctmp n gens c.gmats c.strengths c.bmats)⟩, ans)

end Verif.Expval.Obj
