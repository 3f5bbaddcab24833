import Verif.Counts.Model
import Verif.Py.Split
import Verif.RB.Model
import Mathlib.Analysis.SpecialFunctions.Pow.Real
/-
Model of qiskit/ignis/verification/randomized_benchmarking/fitters.py: data handling of `RBFitter` with exact
rational arithmetic, and the error formulas with real numbers.  `scipy.optimize.curve_fit` and plotting are not modelled.
-/
namespace Verif.RB.Fit
open Verif Verif.Counts

/-- A result: the experiments with their names and counts, in order. -/
abbrev Result := List (Str × Counts)

/-- `result.get_counts(name)`: the counts of the (first) experiment of that name; the exception for an unknown name is `none`. -/
def getCounts (r : Result) (name : Str) : Option Counts := (r.find? fun e => e.1 = name).map (·.2)

/-- The part of an `RBFitter` that `add_data` writes (fitters.py:158-161). -/
structure State where
  nseeds : List ℤ
  results : List Result
deriving DecidableEq

/-- fitters.py:158-161. -/
def State.init : State := ⟨[], []⟩

/-- fitters.py:247 `int(name.split('_')[-1])`. -/
def seedOf (name : Str) : Option ℤ := parseInt ((splitChar '_' name).getLast?.getD [])

/-- fitters.py:246-249, one circuit of a result. -/
def addSeed (seeds : List ℤ) (e : Str × Counts) : Option (List ℤ) :=
  (seedOf e.1).map fun s => if s ∈ seeds then seeds else seeds ++ [s]

/-- fitters.py:240-249, one result. -/
def addResult (st : State) (r : Result) : Option State :=
  (r.foldlM addSeed st.nseeds).map fun seeds => ⟨seeds, st.results ++ [r]⟩

/-- fitters.py:220-249 `RBFitter.add_data` for a list of results; the refit of lines 251-254 is `calcData` below. -/
def addData (st : State) (rs : List Result) : Option State := rs.foldlM addResult st

/-- `s.split(sub)[0]`. -/
def beforeSub (sub : Str) : Str → Str
  | [] => []
  | a :: s => if sub.isPrefixOf (a :: s) then [] else a :: beforeSub sub s

/-- fitters.py:277-278 `_circ_name_type`. -/
def nameType (st : State) : Option Str :=
  match st.results with
  | (e :: _) :: _ => some (beforeSub "_length".toList e.1)
  | _ => none

/-- fitters.py:286-294, the pooled counts of one circuit. -/
def pooled (st : State) (name : Str) : Counts := buildCountsDictFromList (st.results.filterMap fun r => getCounts r name)

/-- fitters.py:280-296, `circ_counts`. -/
def circCounts (st : State) (t : Str) (nlen : ℕ) : Dict Str Counts :=
  (st.nseeds.flatMap fun s => (List.range nlen).map fun k => t ++ suffix k s).foldl (fun d name => d.set name (pooled st name)) []

/-- fitters.py:313-320, one number: the share of all-zero outcomes on the classical bits `lo, …, hi-1`.  Exceptions: unknown
circuit, no counts at all, no shots. -/
def rawEntry (table : Dict Str Counts) (lo len : ℕ) (name : Str) : Option ℚ := do
  let c ← table.get? name
  let m ← marginalCounts c (some (List.range' lo len)) false
  let shots := (c.map (·.2)).sum
  if shots = 0 then none else some (((m.getD (List.replicate len '0') 0 : ℤ) : ℚ) / (shots : ℤ))

/-- fitters.py:309-320, one pattern. -/
def rawPattern (table : Dict Str Counts) (t : Str) (seeds : List ℤ) (lo len nlen : ℕ) : Option (List (List ℚ)) :=
  seeds.mapM fun s => (List.range nlen).mapM fun k => rawEntry table lo len (t ++ suffix k s)

/-- fitters.py:298-321, the patterns in order; `cliff_lengths[patt_ind]` must exist. -/
def rawPatterns (table : Dict Str Counts) (t : Str) (seeds : List ℤ) : List (List ℕ) → List (List ℤ) → ℕ → Option (List (List (List ℚ)))
  | [], _, _ => some []
  | _ :: _, [], _ => none
  | p :: ps, l :: ls, lo => do
    let x ← rawPattern table t seeds lo p.length l.length
    let xs ← rawPatterns table t seeds ps ls (lo + p.length)
    some (x :: xs)

/-- fitters.py:262-321 `RBFitter.calc_data`. -/
def calcData (st : State) (lengths : List (List ℤ)) (pattern : List (List ℕ)) : Option (List (List (List ℚ))) := do
  let t ← nameType st
  let l0 ← lengths.head?
  rawPatterns (circCounts st t l0.length) t st.nseeds pattern lengths 0

/-- fitters.py:343 `np.mean(raw_data[patt_ind], 0)` for a table with `nlen` columns. -/
def meanCol (rows : List (List ℚ)) (k : ℕ) : ℚ := (rows.map fun r => r.getD k 0).sum / rows.length

/-- fitters.py:345-348: `None` for one seed, otherwise `np.std(…, 0)`, given by its square. -/
def varCol (rows : List (List ℚ)) (k : ℕ) : Option ℚ :=
  if rows.length = 1 then none else some ((rows.map fun r => (r.getD k 0 - meanCol rows k) ^ 2).sum / rows.length)

/-! ### Formulas -/

/-- fitters.py:256-260 `_rb_fit_fun`. -/
noncomputable def fitFun (x a alpha b : ℝ) : ℝ := a * alpha ^ x + b

/-- fitters.py:412-433, the starting point of the fit: `y0, y1` are the first two means, `m0, m1` the first two lengths
(`m0 < m1`), `n` the number of qubits.  `numpy` gives `nan` for a power of a negative number with a fractional
exponent and `nan` or `inf` for the division by zero; none of them is `< 1`. -/
noncomputable def fitGuess (n : ℕ) (y0 y1 : ℝ) (m0 m1 : ℤ) : ℝ × ℝ × ℝ :=
  let b : ℝ := 1 / 2 ^ n
  let dcliff : ℤ := m1 - m0
  let dy : ℝ := (y1 - b) / (y0 - b)
  let g1 : ℝ :=
    if y0 = b ∨ (dy < 0 ∧ dcliff ≠ 1) then 99 / 100
    else (fun alpha_guess : ℝ => if alpha_guess < 1 then alpha_guess else 99 / 100) (if dcliff = 1 then dy else dy ^ (1 / (dcliff : ℝ)))
  let g0 : ℝ := if y0 > b then (y0 - b) / g1 ^ m0 else 95 / 100
  (g0, g1, b)

/-- fitters.py:387-388 `epc`. -/
noncomputable def epc (n : ℕ) (alpha : ℝ) : ℝ := let nrb : ℝ := 2 ^ n; (nrb - 1) / nrb * (1 - alpha)

/-- fitters.py:389 `epc_err`. -/
noncomputable def epcErr (n : ℕ) (alpha alphaErr : ℝ) : ℝ := let nrb : ℝ := 2 ^ n; (nrb - 1) / nrb * alphaErr / alpha

/-- The numbers of an interleaved fit, fitters.py:694-705. -/
structure IntFit where
  epcEst : ℝ
  epcEstErr : ℝ
  sys : ℝ
  sysL : ℝ
  sysR : ℝ

/-- fitters.py:664-705 (`InterleavedRBFitter.fit_data`, one pattern), from the fitted decay parameters and their errors. -/
noncomputable def interleaved (n : ℕ) (alpha alphaC alphaErr alphaCErr : ℝ) : IntFit :=
  let nrb : ℝ := 2 ^ n
  let epc_est := (nrb - 1) * (1 - alphaC / alpha) / nrb
  let e1 := (nrb - 1) * (|alpha - alphaC / alpha| + (1 - alpha)) / nrb
  let e2 := 2 * (nrb * nrb - 1) * (1 - alpha) / (alpha * nrb * nrb) + 4 * Real.sqrt (1 - alpha) * Real.sqrt (nrb * nrb - 1) / alpha
  let sys := min e1 e2
  let sq1 := (alphaErr / alpha) * (alphaErr / alpha)
  let sq2 := (alphaCErr / alphaC) * (alphaCErr / alphaC)
  ⟨epc_est, (nrb - 1) / nrb * (alphaC / alpha) * Real.sqrt (sq1 + sq2), sys, epc_est - sys, epc_est + sys⟩

/-- fitters.py:1331-1349 (`CNOTDihedralRBFitter.fit_data`, one pattern): `alpha` and `epg_est`. -/
noncomputable def dihedral (n : ℕ) (alphaZ alphaR : ℝ) : ℝ × ℝ :=
  let nrb : ℝ := 2 ^ n
  let alpha := (alphaZ + nrb * alphaR) / (nrb + 1)
  (alpha, (nrb - 1) * (1 - alpha) / nrb)

/-- fitters.py:1081-1098 (`PurityRBFitter.fit_data`, one pattern): `alpha_pur`, `alpha_pur_err`, `pepc`. -/
noncomputable def purity (n : ℕ) (alpha alphaErr : ℝ) : ℝ × ℝ × ℝ :=
  let alpha_pur := Real.sqrt alpha
  let nrb : ℝ := 2 ^ n
  (alpha_pur, alphaErr / (2 * Real.sqrt alpha_pur), (nrb - 1) / nrb * (1 - alpha_pur))

end Verif.RB.Fit
