import Verif.RB.FitClass
import Verif.RB.Purity
/-
Model of qiskit/ignis/verification/randomized_benchmarking/fitters.py: `PurityRBFitter` as an object.
-/
namespace Verif.RB.Fit
open Verif Verif.Counts

/-- fitters.py:966-967, the key of a circuit in `circ_counts`. -/
def purityKey (pur k : ℕ) (s : ℤ) : Str := "rb_purity_".toList ++ fmtD pur ++ suffix k s

/-- fitters.py:950-972, one seed and one purity circuit: the type is that of the first circuit of the result with number `idx`. -/
def purityStep (st : State) (nlen : ℕ) (d : Dict Str Counts) (x : ℤ × ℕ × ℕ) : Option (Dict Str Counts) := do
  let r ← st.results[x.2.1]?
  let e ← r.head?
  let t := beforeSub "_length".toList e.1
  some ((List.range nlen).foldl (fun d k => d.set (purityKey x.2.2 k x.1) (pooled st (t ++ suffix k x.1))) d)

/-- fitters.py:944-972, `circ_counts`; `result_count` (lines 946, 954) is the number of steps so far. -/
def purityTable (st : State) (npurity nlen : ℕ) : Option (Dict Str Counts) :=
  (st.nseeds.zipIdx.flatMap fun sj => (List.range npurity).map fun pur => (sj.1, sj.2 * npurity + pur, pur)).foldlM (purityStep st nlen) []

/-- fitters.py:988-1021, one number.  An average without shots is zero. -/
def purityEntry (table : Dict Str Counts) (nq npurity lo len k : ℕ) (s : ℤ) : Option ℚ := do
  let cs ← (List.range npurity).mapM fun pur => do
    let c ← table.get? (purityKey pur k s)
    marginalCounts c (some (List.range' lo len)) false
  Purity.purityOf nq npurity fun pur ind => Purity.averageData (cs.getD pur []) (Purity.zdict nq ind)

/-- fitters.py:974-1023, the patterns in order. -/
def purityPatterns (table : Dict Str Counts) (nq npurity nlen : ℕ) (seeds : List ℤ) : List (List ℕ) → ℕ → Option (List (List (List ℚ)))
  | [], _ => some []
  | p :: ps, lo => do
    let x ← seeds.mapM fun s => (List.range nlen).mapM fun k => purityEntry table nq npurity lo p.length k s
    let xs ← purityPatterns table nq npurity nlen seeds ps (lo + p.length)
    some (x :: xs)

/-- fitters.py:931-1023 `PurityRBFitter.calc_data`. -/
def purityData (st : State) (lengths : List (List ℤ)) (pattern : List (List ℕ)) (nq npurity : ℕ) : Option (List (List (List ℚ))) := do
  let l0 ← lengths.head?
  let table ← purityTable st npurity l0.length
  purityPatterns table nq npurity l0.length st.nseeds pattern 0

/-- One dictionary of `PurityRBFitter.fit`, fitters.py:1084-1102. -/
structure PurDict where
  base : FitDict
  pepc : ℝ
  pepcErr : ℝ

/-- fitters.py:1081-1102, one pattern: the decay and its error are replaced, `epc` and `epc_err` stay. -/
noncomputable def purFit (nq : ℕ) (d : FitDict) : PurDict :=
  let x := purity nq d.params.2.1 d.paramsErr.2.1
  ⟨{ d with params := (d.params.1, x.1, d.params.2.2), paramsErr := (d.paramsErr.1, x.2.1, d.paramsErr.2.2) }, x.2.2, purityErr nq d.params.2.1 d.paramsErr.2.1⟩

/-- A `PurityRBFitter`, fitters.py:799-813.  `pfit` is its `fit`. -/
structure PFitter where
  npurity : ℕ
  nq : ℕ
  inner : Fitter
  pfit : List PurDict

/-- fitters.py:906-929 `PurityRBFitter.add_data` with `calc_statistics` (1025-1044) and `fit_data` (1063-1102). -/
noncomputable def PFitter.addData (curve : CurveFit) (f : PFitter) (new : Option (List Result)) (rerun : Bool := true) : Option PFitter :=
  match new with
  | none => some f
  | some rs => do
    let inner ← f.inner.addData curve (some rs) rerun
    if rerun then
      let raw ← purityData inner.st inner.lengths inner.pattern f.nq f.npurity
      let inner ← ({ inner with raw := raw }.calcStatistics).fitData curve
      let ds ← ((inner.lengths.zip inner.pattern).zipIdx).mapM fun x => (inner.fit[x.2]?).join
      some { f with inner := inner, pfit := ds.map (purFit f.nq) }
    else some { f with inner := inner }

/-- fitters.py:785-813 `PurityRBFitter.__init__`; `rb_pattern[0]` must exist. -/
noncomputable def PFitter.new (curve : CurveFit) (results : Option (List Result)) (npurity : ℕ) (lengths : List (List ℤ)) (pattern : Option (List (List ℕ))) :
    Option PFitter := do
  let p := pattern.getD [[0]]
  let p0 ← p.head?
  let inner ← Fitter.new curve results lengths (some p)
  PFitter.addData curve ⟨npurity, p0.length, inner, []⟩ results

end Verif.RB.Fit
