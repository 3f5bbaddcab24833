import Verif.Expval.Model
/-
Model of the continuous time Markov process (CTMP) mitigator: ctmp_generator_set.py, ctmp_mitigator.py and
ctmp_fitter.py of qiskit/ignis/mitigation/expval.  Sparse matrices are functions `row → column → value`; random
draws are arguments.
-/
namespace Verif.Expval.Ctmp
open Verif Verif.Counts Verif.Expval

/-- `Generator = Tuple[str, str, Tuple[int]]`, ctmp_generator_set.py:20: `(b, a, qubits)`. -/
structure Gen where
  b : Str
  a : Str
  qubits : List ℕ
  deriving DecidableEq

/-! ### ctmp_generator_set.py -/

/-- `itertools.combinations(range(n), r=2)`. -/
def pairsOf (n : ℕ) : List (ℕ × ℕ) :=
  (List.range n).flatMap fun i => (List.range' (i + 1) (n - (i + 1))).map fun j => (i, j)

/-- `single_qubit_bitstrings`, ctmp_generator_set.py:59-67. -/
def singleQubit (n : ℕ) : Option (List Gen) :=
  let res := (List.range n).map (fun i => ⟨['1'], ['0'], [i]⟩) ++ (List.range n).map fun i => ⟨['0'], ['1'], [i]⟩
  if res.length ≠ 2 * n then none else some res

/-- `two_qubit_bitstrings_symmetric`, ctmp_generator_set.py:70-79. -/
def twoQubitSymmetric (n : ℕ) (pairs : Option (List (ℕ × ℕ))) : Option (List Gen) :=
  let pairs := pairs.getD (pairsOf n)
  let res := (pairs.filter fun p => p.1 < p.2).map (fun p => ⟨['1', '1'], ['0', '0'], [p.1, p.2]⟩) ++
    (pairs.filter fun p => p.1 < p.2).map fun p => ⟨['0', '0'], ['1', '1'], [p.1, p.2]⟩
  if res.length ≠ n * (n - 1) then none else some res

/-- `two_qubit_bitstrings_asymmetric`, ctmp_generator_set.py:82-91. -/
def twoQubitAsymmetric (n : ℕ) (pairs : Option (List (ℕ × ℕ))) : Option (List Gen) :=
  let pairs := pairs.getD (pairsOf n)
  let res := pairs.map (fun p => ⟨['1', '0'], ['0', '1'], [p.1, p.2]⟩) ++
    pairs.map fun p => ⟨['1', '0'], ['0', '1'], [p.2, p.1]⟩
  if res.length ≠ n * (n - 1) then none else some res

/-- `standard_generator_set`, ctmp_generator_set.py:23-56. -/
def standardGeneratorSet (numQubits : ℤ) (pairs : Option (List (ℕ × ℕ))) : Option (List Gen) :=
  if numQubits ≤ 0 then none
  else
    let n := numQubits.toNat
    (singleQubit n).bind fun gens =>
      if 1 < n then
        (twoQubitSymmetric n pairs).bind fun sym => (twoQubitAsymmetric n pairs).bind fun asym =>
          let gens := gens ++ sym ++ asym
          if gens.length ≠ 2 * n ^ 2 then none else some gens
      else some gens

/-! ### ctmp_mitigator.py: matrices -/

section field
variable {K : Type} [Field K] [LinearOrder K]

/-- `ket_bra_dict`, ctmp_mitigator.py:349-354: `|x⟩⟨y|` for the key `xy`. -/
def ketBra (x y : Char) : Option (Mat K) :=
  if (x = '0' ∨ x = '1') ∧ (y = '0' ∨ y = '1') then some fun r c => if r = bitVal x ∧ c = bitVal y then 1 else 0
  else none

/-- The identity matrix. -/
def ident : Mat K := fun r c => if r = c then 1 else 0

/-- `_tensor_list`, ctmp_mitigator.py:328-334, for 2×2 matrices: `sps.kron(res, mat)` repeatedly. -/
def tensorList (parts : List (Mat K)) : Option (Mat K) :=
  match parts with
  | [] => none
  | p :: rest => some (rest.foldl (fun (res : Mat K) mat => fun r c => res (r / 2) (c / 2) * mat (r % 2) (c % 2)) p)

/-- The loop of ctmp_mitigator.py:363-366: the matrices placed on the generator's qubits. -/
def placeMats (qubits : List ℕ) (entries : List (ℕ × Char × Char)) (mats : List (Mat K)) : Option (List (Mat K)) :=
  entries.foldlM (fun mats e =>
    if e.1 ∈ qubits then (ketBra e.2.1 e.2.2).map fun m => mats.set (qubits.idxOf e.1) m else none) mats

/-- `_generator_to_coo_matrix`, ctmp_mitigator.py:336-371. -/
def generatorToMatrix (gen : Gen) (qubits : List ℕ) : Option (Mat K) := do
  let baMats ← placeMats qubits (gen.qubits.zip (gen.b.zip gen.a)) (List.replicate qubits.length ident)
  let aaMats ← placeMats qubits (gen.qubits.zip (gen.a.zip gen.a)) (List.replicate qubits.length ident)
  let ba ← tensorList baMats.reverse
  let aa ← tensorList aaMats.reverse
  pure fun r c => ba r c - aa r c

/-- The constructor's filter, ctmp_mitigator.py:60-68; `threshold` is `1e-5`. -/
def keepRates (threshold : K) (generators : List Gen) (rates : List K) : List (Gen × K) :=
  (generators.zip rates).filter fun p => threshold < p.2

/-- The number of qubits, ctmp_mitigator.py:54-57. -/
def numQubitsOf (generators : List Gen) (numQubits : Option ℕ) : Option ℕ :=
  match numQubits with
  | some n => some n
  | none =>
    if generators = [] ∨ generators.any (fun g => g.qubits = []) then none
    else some (1 + (generators.map fun g => g.qubits.foldl max 0).foldl max 0)

/-- The sum of ctmp_mitigator.py:187-191: one generator. -/
def addGen (qubits : List ℕ) (acc : Mat K) (p : Gen × K) : Option (Mat K) :=
  if ∀ q ∈ p.1.qubits, q ∈ qubits then (generatorToMatrix p.1 qubits).map fun m => fun r c => acc r c + p.2 * m r c
  else some acc

/-- `generator_matrix`, ctmp_mitigator.py:166-195, for the (sorted) list of qubits; the cache is not modelled. -/
def generatorMatrix (gens : List (Gen × K)) (qubits : List ℕ) : Option (Mat K) :=
  gens.foldlM (addGen (qubits.insertionSort (· ≤ ·))) fun _ _ => 0

/-- `noise_strength`, ctmp_mitigator.py:236-255: the largest negated diagonal entry.  The code takes the maximum over
the stored entries and 0 if there are none; for a generator matrix both give the maximum over the diagonal and 0. -/
def noiseStrength (dim : ℕ) (g : Mat K) : K := (List.range dim).foldl (fun m j => max m (-g j j)) 0

/-- `_sampling_matrix`, ctmp_mitigator.py:310-326. -/
def samplingMatrix (dim : ℕ) (g : Mat K) : Mat K :=
  let gamma := noiseStrength dim g
  if gamma ≠ 0 then fun r c => ident r c + g r c / gamma else ident

/-- `np.flip` of a square matrix, ctmp_mitigator.py:213 and 233: rows and columns in reverse order. -/
def flipMat (dim : ℕ) (g : Mat K) : Mat K := fun r c => g (dim - 1 - r) (dim - 1 - c)

/-! ### ctmp_mitigator.py: sampling -/

/-- Stored entries of one column of a sparse matrix: the non-zero ones, by increasing row. -/
def cscColumn (dim : ℕ) (m : Mat K) (c : ℕ) : List (ℕ × K) :=
  ((List.range dim).filter fun r => m r c ≠ 0).map fun r => (r, m r c)

/-- `csc.data`, `csc.indices`, `csc.indptr`. -/
structure Csc (K : Type) where
  data : List K
  indices : List ℕ
  indptr : List ℕ

/-- `tocsc()`: the columns one after another, with the offsets of their beginnings. -/
def toCsc (dim : ℕ) (m : Mat K) : Csc K :=
  ⟨(List.range dim).flatMap fun c => (cscColumn dim m c).map (·.2),
   (List.range dim).flatMap fun c => (cscColumn dim m c).map (·.1),
   (List.range (dim + 1)).map fun c => ((List.range c).map fun c' => (cscColumn dim m c').length).sum⟩

/-- The loop of `_choice`, ctmp_mitigator.py:390-394, with the running sum. -/
def choiceLoop (r : K) : List ℕ → List K → K → Option ℕ
  | i :: inds, p :: probs, acc => if r < acc + p then some i else choiceLoop r inds probs (acc + p)
  | _, _, _ => none

/-- `_choice`, ctmp_mitigator.py:375-395. -/
def choice (inds : List ℕ) (probs : List K) (r : K) : Option ℕ := (choiceLoop r inds probs 0).or inds.getLast?

/-- Slices and step of ctmp_mitigator.py:418-423. -/
def chainStep (csc : Csc K) (y : ℕ) (r : K) : Option ℕ := do
  let b ← csc.indptr[y]?
  let e ← csc.indptr[y + 1]?
  choice ((csc.indices.take e).drop b) ((csc.data.take e).drop b) r

/-- The inner loop, ctmp_mitigator.py:417-424: state `(y, r_pos)`. -/
def chainWalk (csc : Csc K) (rVals : List K) : ℕ → ℕ × ℕ → Option (ℕ × ℕ)
  | 0, st => some st
  | k + 1, (y, pos) => do
    let r ← rVals[pos]?
    let y' ← chainStep csc y r
    chainWalk csc rVals k (y', pos + 1)

/-- `_markov_chain_compiled`, ctmp_mitigator.py:399-425: the sampled values and the final `r_pos`. -/
def markovChain (csc : Csc K) (rVals : List K) (samples : List (ℕ × ℕ)) : Option (List ℕ × ℕ) :=
  samples.foldlM (fun st s => (chainWalk csc rVals s.2 (s.1, st.2)).map fun w => (st.1 ++ [w.1], w.2)) ([], 0)

/-- The draws of one call of `_ctmp_inverse`: Poisson numbers, initial values, uniform numbers. -/
structure Draws (K : Type) where
  alphas : List ℕ
  xs : List ℕ
  rs : List K

/-- `_ctmp_inverse`, ctmp_mitigator.py:272-308: final values and signs. -/
def ctmpInverse (csc : Csc K) (d : Draws K) : Option (List ℕ × List ℕ) :=
  (markovChain csc d.rs (d.xs.zip d.alphas)).map fun w => (w.1, d.alphas.map (· % 2))

/-- The batches, ctmp_mitigator.py:141-143. -/
def batches (numSamples : ℕ) : List ℕ := List.replicate (numSamples / 50000) 50000 ++ [numSamples % 50000]

/-- The signed sum of one batch, ctmp_mitigator.py:150-151. -/
def signedSum (diagonal : ℕ → K) (ys signs : List ℕ) : K :=
  (((ys.zip signs).filter fun p => p.2 = 0).map fun p => diagonal p.1).sum -
    (((ys.zip signs).filter fun p => p.2 = 1).map fun p => diagonal p.1).sum

/-- ctmp_mitigator.py:144-153: the estimate from the draws of all batches; `scale` is `exp(2 * gamma)`. -/
def ctmpEstimate (csc : Csc K) (diagonal : ℕ → K) (scale : K) (numSamples : ℕ) (draws : List (Draws K)) : Option K := do
  let parts ← draws.mapM fun d => (ctmpInverse csc d).map fun w => signedSum diagonal w.1 w.2
  pure (scale / (numSamples : K) * parts.sum)

/-! ### ctmp_fitter.py -/

/-- `_local_g_matrix`, ctmp_fitter.py:126-143; `logm` returns the (real) logarithm, `none` for a complex one. -/
def localG (logm : Mat K → Option (Mat K)) (calData : Dict ℕ IntCounts) (n : ℕ) (j k : ℕ) : Option (Mat K) := do
  let (_, a) ← assignmentMatrix (K := K) calData n (some [j, k])
  let g ← logm a
  pure fun r c => if r ≠ c ∧ g r c < 0 then 0 else g r c

/-- `_supplementary_generators`, ctmp_fitter.py:146-162; the set of qubit tuples is listed in first-seen order. -/
def supplementary (gens : List Gen) : List Gen :=
  (gens.map (·.qubits)).dedup.flatMap fun q =>
    [⟨['1', '0'], ['0', '0'], q⟩, ⟨['0', '0'], ['1', '0'], q⟩, ⟨['1', '1'], ['0', '1'], q⟩, ⟨['0', '1'], ['1', '1'], q⟩]

/-- The dictionary of ctmp_fitter.py:51-55. -/
def genMatDict (logm : Mat K → Option (Mat K)) (calData : Dict ℕ IntCounts) (n : ℕ) (gens : List Gen) :
    Option (Dict Gen (Mat K)) :=
  (gens ++ supplementary gens).foldlM (fun d g =>
    match g.qubits with
    | [j, k] => (localG logm calData n j k).map fun m => d.set g m
    | [] => some d
    | [_] => some d
    | _ => none) []

/-- `_ctmp_err_rate_2_q`, ctmp_fitter.py:92-98. -/
def errRate2q (gen : Gen) (d : Dict Gen (Mat K)) : Option K := do
  let g ← d.get? gen
  let b ← parseBin gen.b
  let a ← parseBin gen.a
  pure (g b a)

/-- `_ctmp_err_rate_1_q`, ctmp_fitter.py:64-89.  The mean of an empty list (one qubit) is not a number: `none`. -/
def errRate1q (a b : Str) (j : ℕ) (d : Dict Gen (Mat K)) (n : ℕ) : Option K := do
  let gs ← (if a = ['0'] ∧ b = ['1'] then some [((['0', '0'] : Str), (['1', '0'] : Str)), (['0', '1'], ['1', '1'])]
    else if a = ['1'] ∧ b = ['0'] then some [(['1', '0'], ['0', '0']), (['1', '1'], ['0', '1'])]
    else none)
  let rates ← (((List.range n).filter (· ≠ j)).flatMap fun k => gs.map fun g => (⟨g.1, g.2, [j, k]⟩ : Gen)).mapM
    fun g => errRate2q g d
  if rates.length ≠ 2 * (n - 1) then none
  else if rates = [] then none
  else pure (rates.sum / (rates.length : K))

/-- `_get_ctmp_error_rate`, ctmp_fitter.py:101-123.  (Other lengths leave `rate` unbound.) -/
def errorRate (gen : Gen) (d : Dict Gen (Mat K)) (n : ℕ) : Option K :=
  if gen.b.length = 1 then gen.qubits.head?.bind fun c => errRate1q gen.a gen.b c d n
  else if gen.b.length = 2 then errRate2q gen d
  else none

/-- `fit_ctmp_meas_mitigator`, ctmp_fitter.py:30-59: generators with their rates (before the constructor's filter). -/
def fitCtmp (logm : Mat K → Option (Mat K)) (calData : Dict ℕ IntCounts) (n : ℕ) (generators : Option (List Gen)) :
    Option (List (Gen × K)) := do
  let gens ← (match generators with
    | some g => some g
    | none => standardGeneratorSet n none)
  let d ← genMatDict logm calData n gens
  let rates ← gens.mapM fun g => errorRate g d n
  pure (gens.zip rates)

end field
end Verif.Expval.Ctmp
