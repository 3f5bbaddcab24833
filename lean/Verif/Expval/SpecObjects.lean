import Verif.Expval.Objects
/-
What is expected of mitigator objects in programs: the answers of objects without caches, and which arrays a program may change.
-/
namespace Verif.Expval.Obj
open Verif Verif.Counts Verif.Expval Verif.Expval.Ctmp

/-- An answer by value. -/
inductive PAns
  | array (m : Mat ℝ)
  | num (x : ℝ)
  | pair (v : ℝ × ℝ)
  | sample (s : CtmpCall)
  | done
  | raised

/-- The value, or an exception. -/
def PAns.of {α : Type} (f : α → PAns) : Option α → PAns
  | none => .raised
  | some x => f x

/-- What an answer says now. -/
def MAns.value (heap : List (Mat ℝ)) : MAns → PAns
  | .array r => .array (arr heap r)
  | .num x => .num x
  | .pair v => .pair v
  | .sample s => .sample s
  | .done => .done
  | .raised => .raised

/-- The answer computed from what the mitigator was constructed from, by the formulas of the methods without any cache. -/
noncomputable def expected (inv expm : ℕ → Mat ℝ → Mat ℝ) : Mitigator ℝ → MQuery → PAns
  | .complete n A, .mit qs => PAns.of .array (completeMit inv A n (qs.getD (List.range n)))
  | .complete _ A, .amat none => .array A
  | .complete n A, .amat (some qs) => PAns.of .array (completeAmat A n qs)
  | .complete n A, .gamma qs => PAns.of (fun m => .num (completeGamma (2 ^ (qs.getD (List.range n)).length) m)) (completeMit inv A n (qs.getD (List.range n)))
  | .complete n A, .expval counts diag qs clbits => PAns.of .pair (completeExpval inv A n counts diag qs clbits)
  | .complete _ _, _ => .raised
  | .tensored As, .mit qs => PAns.of (fun p => .array p.2) (tensoredMit inv As qs)
  | .tensored As, .amat qs => PAns.of (fun p => .array p.2) (tensoredMatrix As qs)
  | .tensored As, .gamma qs => PAns.of .num (tensoredGamma As qs)
  | .tensored As, .expval counts diag qs clbits => PAns.of .pair (tensoredExpval inv As counts diag qs clbits)
  | .tensored _, _ => .raised
  | .ctmp n gens, .gen qs => PAns.of .array (generatorMatrix gens (qs.getD (List.range n)))
  | .ctmp n gens, .mit qs =>
    let dim := 2 ^ (qs.getD (List.range n)).length
    PAns.of (fun g => .array (expm dim fun i j => -flipMat dim g i j)) (generatorMatrix gens (qs.getD (List.range n)))
  | .ctmp n gens, .amat qs =>
    let dim := 2 ^ (qs.getD (List.range n)).length
    PAns.of (fun g => .array (expm dim (flipMat dim g))) (generatorMatrix gens (qs.getD (List.range n)))
  | .ctmp n gens, .strength qs =>
    PAns.of (fun g => .num (noiseStrength (2 ^ (qs.getD (List.range n)).length) g)) (generatorMatrix gens (qs.getD (List.range n)))
  | .ctmp _ _, .gamma (some _) => .raised
  | .ctmp n gens, .gamma none => PAns.of (fun g => .num (Real.exp (2 * noiseStrength (2 ^ n) g))) (generatorMatrix gens (List.range n))
  | .ctmp n gens, .expval counts diag qs clbits => PAns.of .sample (ctmpCall gens n counts diag qs clbits)

/-- Calls that hand out an array the object goes on using. -/
def shares : Mitigator ℝ → MQuery → Bool
  | .complete _ _, .mit _ => true
  | .complete _ _, .amat none => true
  | .tensored As, .mit qs => (qs.getD (List.range As.length)).length == 1
  | .tensored As, .amat qs => (qs.getD (List.range As.length)).length == 1
  | .ctmp _ _, .gen _ => true
  | _, _ => false

/-- What the program has been told so far: what its mitigators were constructed from, the arrays it has, and those of them that a mitigator uses. -/
structure Told where
  mits : List (Mitigator ℝ)
  known : List ℕ
  shared : List ℕ

/-- The effect of an operation, given the arrays before it and its answer. -/
def Told.step (g : Told) (heap : List (Mat ℝ)) (ans : MAns) : MOp → Told
  | .alloc _ => match ans with
    | .array r => { g with known := r :: g.known }
    | _ => g
  | .write _ _ => g
  | .newComplete n r => ⟨g.mits ++ [.complete n (arr heap r)], g.known, r :: g.shared⟩
  | .newTensored rs => ⟨g.mits ++ [.tensored (rs.map (arr heap))], g.known, rs ++ g.shared⟩
  | .newCtmp n gens => { g with mits := g.mits ++ [.ctmp n gens] }
  | .ask o q => match ans with
    | .array r => ⟨g.mits, r :: g.known, if (g.mits[o]?).any fun m => shares m q then r :: g.shared else g.shared⟩
    | _ => g

/-- The program uses arrays it has, and changes in place none that a mitigator uses. -/
def Allowed (g : Told) : MOp → Prop
  | .write r _ => r ∈ g.known ∧ r ∉ g.shared
  | .newComplete _ r => r ∈ g.known
  | .newTensored rs => ∀ r ∈ rs, r ∈ g.known
  | _ => True

/-- Every operation of the program is allowed. -/
def Honest (inv expm : ℕ → Mat ℝ → Mat ℝ) : MWorld → Told → List MOp → Prop
  | _, _, [] => True
  | w, g, op :: ops => Allowed g op ∧ Honest inv expm (w.step inv expm op).1 (g.step w.heap (w.step inv expm op).2 op) ops

/-- Every call in the program gives the expected answer. -/
def AllExpected (inv expm : ℕ → Mat ℝ → Mat ℝ) : MWorld → Told → List MOp → Prop
  | _, _, [] => True
  | w, g, op :: ops =>
    (∀ o q m, op = .ask o q → g.mits[o]? = some m → (w.step inv expm op).2.value (w.step inv expm op).1.heap = expected inv expm m q) ∧
      AllExpected inv expm (w.step inv expm op).1 (g.step w.heap (w.step inv expm op).2 op) ops

/-- The answers of a program, each as it is at its time. -/
noncomputable def outputs (inv expm : ℕ → Mat ℝ → Mat ℝ) : MWorld → List MOp → List PAns
  | _, [] => []
  | w, op :: ops => (w.step inv expm op).2.value (w.step inv expm op).1.heap :: outputs inv expm (w.step inv expm op).1 ops

end Verif.Expval.Obj
