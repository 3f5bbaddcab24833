import Verif.RB.SpecTwirl
/-
Specification side of purity randomized benchmarking with arbitrary noise: density matrices of a subset of a register, purity and
unitarity.  Not code of the repository.
-/
namespace Verif.RB
open Verif.Quantum Matrix

/-- Density matrix of the qubits `pat` of a mixed state: the sum over all assignments of the other qubits. -/
noncomputable def density {N : ℕ} (pat : List ℕ) (e : Ens N) : Op pat.length := fun x x' =>
  (e.map fun s => (s.1 : ℂ) * ∑ y with ∀ q ∈ pat, bitOf y q = false, s.2 (putBits pat x y) * star (s.2 (putBits pat x' y))).sum

/-- The purity `tr ρ²`. -/
noncomputable def purity {n : ℕ} (ρ : Op n) : ℝ := (ρ * ρ).trace.re

/-- What a channel makes of a state. -/
noncomputable def output {n : ℕ} (Ks : List (Op n)) (ρ : Op n) : Op n := (Ks.map fun K => K * ρ * Kᴴ).sum

/-- The purity of the qubits `pat` after the RB sequence of the elements `gs`: noise `Ks` after each of them, noise `Js` after the inverse. -/
noncomputable def finalPurity {E : Type} {N : ℕ} (G : Group E) (pat : List ℕ) (Ks Js : List (Op pat.length)) (e : Ens N) (gs : List E) : ℝ :=
  ((seqOn G pat gs).map fun bi =>
    purity (density pat (noisyK ((bi.1.map (fun b => (b, Ks)) ++ [(bi.2, Js)]).map fun cK => (pat, cK.1, cK.2.map (applyOn N pat))) e))).getD 0

/-- Unitarity of a channel on `n` qubits, `d = 2^n`: `(∑_{K, K'} |tr (K'† K)|² - tr Λ(1)² / d) / (d² - 1)`. -/
noncomputable def unitarity {n : ℕ} (Ks : List (Op n)) : ℝ :=
  ((Ks.map fun K => (Ks.map fun K' => Complex.normSq (K'ᴴ * K).trace).sum).sum - purity (output Ks 1) / 2 ^ n) / ((2 ^ n) ^ 2 - 1)

end Verif.RB
