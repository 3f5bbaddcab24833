import Verif.Py.BitStrings
import Verif.Py.BinLemmas
import Verif.Py.DictLemmas
import Mathlib.Analysis.SpecialFunctions.Trigonometric.Basic
import Mathlib.Analysis.Complex.Norm
import Mathlib.LinearAlgebra.Matrix.Notation
/-
Analysis of GHZ experiments: `qiskit/ignis/verification/entanglement/analysis.py`.  Floating point numbers are exact; the plots
and the printed messages are not modelled.
-/
namespace Verif.Ent
open Verif

variable {K : Type} [Field K]

/-- `ordered_list_generator`, analysis.py:19-38.  `format(a, '#0{qn+2}b')[2:]` is the binary form of `a` padded to `qn`
digits. -/
def orderedList (counts : Dict Str K) (qn : ℕ) : List K := (List.range (2 ^ qn)).map fun a => counts.getD (zfill qn (binDigits a)) 0

/-- `sigma_z`, analysis.py:51. -/
def sigmaZ (i j : ℕ) : K := if i = j then (if i = 0 then 1 else -1) else 0

/-- `np.kron(A, B)` for a 2×2 matrix `B`, entry by entry. -/
def kron2 (A B : ℕ → ℕ → K) (i j : ℕ) : K := A (i / 2) (j / 2) * B (i % 2) (j % 2)

/-- `composite_pauli_z`, analysis.py:41-55: the entries (of a square matrix of size `2 ^ max qn 1`). -/
def compositeZ (qn : ℕ) : ℕ → ℕ → K := (List.range' 1 (qn - 1)).foldl (fun A _ => kron2 A sigmaZ) sigmaZ

/-- `composite_pauli_z_expvalue`, analysis.py:58-71.  `np.dot` of vectors of different lengths raises. -/
def zExpvalue (counts : Dict Str K) (qn : ℕ) : Option K :=
  let l := orderedList counts qn
  let d := (List.range (2 ^ max qn 1)).map fun i => compositeZ (K := K) qn i i
  if l.length = d.length then some (List.zipWith (· * ·) l d).sum else none

/-- `(1/norm) * np.fft.fft(y)`, entry `m`, analysis.py:160-161 with `norm = len(x)`; `y` has as many entries. -/
noncomputable def fft (N : ℕ) (y : ℕ → ℂ) (m : ℕ) : ℂ :=
  (1 / N) * ∑ k ∈ Finset.range N, y k * Complex.exp (-(2 * Real.pi * Complex.I * (m * k / N)))

/-- The fidelities and bounds of `get_fourier_info` with label 'mqc', analysis.py:171-203. -/
structure MqcInfo where
  I0 : ℂ
  In : ℂ
  LB : ℝ
  UB : ℝ
  F : ℝ
  I0m : ℂ
  Inm : ℂ
  LBm : ℝ
  UBm : ℝ
  Fm : ℝ

/-- The arguments `P0`, `P1`, `P0_m`, `P1_m` of the dictionary `p_dict`. -/
structure Pops where
  P0 : ℝ
  P1 : ℝ
  P0m : ℝ
  P1m : ℝ

/-- `get_fourier_info`, label 'mqc', analysis.py:150-203.  Line 192 uses the mitigated populations for the raw fidelity.
`fft[n]` raises `IndexError` for `n ≥ N`. -/
noncomputable def infoMqc (N n : ℕ) (y ym : ℕ → ℂ) (p : Pops) : Option MqcInfo :=
  if n < N then
    let I0 := fft N y 0
    let In := fft N y n
    let I0m := fft N ym 0
    let Inm := fft N ym n
    some { I0 := I0, In := In, I0m := I0m, Inm := Inm
           LB := 2 * Real.sqrt ‖In‖
           UB := Real.sqrt ‖In‖ + Real.sqrt (‖I0‖ / 2)
           LBm := 2 * Real.sqrt ‖Inm‖
           UBm := Real.sqrt ‖Inm‖ + Real.sqrt (‖I0m‖ / 2)
           F := (1 / 2) * (p.P0m + p.P1m) + Real.sqrt ‖In‖
           Fm := (1 / 2) * (p.P0m + p.P1m) + Real.sqrt ‖Inm‖ }
  else none

/-- `get_fourier_info`, label 'po', analysis.py:205-214: the raw and the mitigated fidelity. -/
noncomputable def infoPo (N n : ℕ) (y ym : ℕ → ℂ) (p : Pops) : Option (ℝ × ℝ) :=
  if n < N then
    let C := 2 * ‖fft N y n‖
    let Cm := 2 * ‖fft N ym n‖
    some ((1 / 2) * (p.P0 + p.P1 + C), (1 / 2) * (p.P0m + p.P1m + Cm))
  else none

/-- `rho_to_fidelity`, analysis.py:217-226, for a matrix of size `d + 1`. -/
noncomputable def rhoToFidelity {d : ℕ} (rho : Matrix (Fin (d + 1)) (Fin (d + 1)) ℂ) : ℝ :=
  ‖(rho 0 0 + rho (Fin.last d) (Fin.last d) + (‖rho 0 (Fin.last d)‖ : ℂ) + (‖rho (Fin.last d) 0‖ : ℂ)) / 2‖

end Verif.Ent
