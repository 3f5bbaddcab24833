import Verif.Tomo.PropsGst
/-
C86: gate set tomography circuits; C55 from circuits to predictions.
-/
set_option linter.unusedSectionVars false
set_option linter.unusedSimpArgs false
set_option linter.unusedVariables false
namespace Verif.Tomo
open Verif Verif.Counts Matrix

variable {ι : Type} [DecidableEq ι]

/-- Specification: distinct names without quotes, and SPAM circuits that use known gates. -/
structure GoodGateSet (b : GateSet ι) : Prop where
  spamNodup : (b.spam.map (·.1)).Nodup
  gatesNodup : b.gateLabels.Nodup
  spamQuote : NoQuote (b.spam.map (·.1))
  gateQuote : NoQuote b.gateLabels
  known : ∀ g ∈ b.gateLabels, b.gates.has g = true
  spamKnown : ∀ f gs, b.spam.get? f = some gs → ∀ g ∈ gs, b.gates.has g = true

/-- Specification: the instructions of a sequence of gates, in order. -/
def seqOps (b : GateSet ι) (q : ι) (w : List Str) : List (Op ι) := w.flatMap fun g => ((b.gates.get? g).map (· q)).getD []

/-- Specification: the gates of a SPAM circuit. -/
def specOf (b : GateSet ι) (f : Str) : List Str := b.spam.getD f []

/-- Specification: the circuit of a key: `F_j`, the gate if any, `F_i`, and the measurement. -/
def gstOps (b : GateSet ι) (q : ι) : List Str → List (Op ι)
  | [f] => .barrier :: (seqOps b q (specOf b f) ++ [.measure q (.tomo 0)])
  | [f, f'] => seqOps b q (specOf b f) ++ [.barrier] ++ .barrier :: (seqOps b q (specOf b f') ++ [.measure q (.tomo 0)])
  | [f, g, f'] => seqOps b q (specOf b f) ++ [.barrier] ++ seqOps b q [g] ++
      .barrier :: (seqOps b q (specOf b f') ++ [.measure q (.tomo 0)])
  | _ => []

/-- Specification: the keys. -/
inductive GstKey (b : GateSet ι) : List Str → Prop where
  | one (f) (hf : b.spam.has f = true) : GstKey b [f]
  | two (f f') (hf : b.spam.has f = true) (hf' : b.spam.has f' = true) : GstKey b [f, f']
  | three (f g f') (hf : b.spam.has f = true) (hg : g ∈ b.gateLabels) (hf' : b.spam.has f' = true) : GstKey b [f, g, f']

/-! Helpers. -/

theorem mem_spamLabels (b : GateSet ι) (f : Str) : f ∈ b.spamLabels ↔ b.spam.has f = true := by
  unfold GateSet.spamLabels
  rw [List.mem_insertionSort, Dict.has, Option.isSome_iff_ne_none, ne_eq, Dict.get?_eq_none_iff, not_not]

theorem nodup_spamLabels (b : GateSet ι) (h : GoodGateSet b) : b.spamLabels.Nodup :=
  (List.perm_insertionSort _ _).nodup_iff.2 h.spamNodup

theorem length_spamLabels (b : GateSet ι) : b.spamLabels.length = b.spam.length := by
  unfold GateSet.spamLabels
  rw [List.length_insertionSort, List.length_map]

theorem gateOps_eq (b : GateSet ι) (q : ι) (g : Str) (h : b.gates.has g = true) : b.gateOps q g = some (seqOps b q [g]) := by
  obtain ⟨v, hv⟩ := Option.isSome_iff_exists.1 h
  simp [GateSet.gateOps, seqOps, hv]

theorem spamOps_eq (b : GateSet ι) (h : GoodGateSet b) (q : ι) (f : Str) (hf : b.spam.has f = true) :
    b.spamOps q f = some (seqOps b q (specOf b f)) := by
  obtain ⟨gs, hgs⟩ := Option.isSome_iff_exists.1 hf
  unfold GateSet.spamOps specOf
  rw [Dict.getD, hgs]
  simp only [Option.bind_eq_bind, Option.bind_some, Option.getD_some]
  rw [mapM_eq_some gs _ (fun g => seqOps b q [g]) fun g hg => gateOps_eq b q g (h.spamKnown f gs hgs g hg)]
  simp [seqOps, List.flatMap_def]

theorem operatorTuples_one (ls : List Str) : operatorTuples ls 1 = ls.map fun a => [a] := by
  simp [operatorTuples, List.flatMap_def, List.map_flatten]
  induction ls with
  | nil => rfl
  | cons a ls ih => simp [ih]

theorem measPart_gst (b : GateSet ι) (h : GoodGateSet b) (q : ι) (f : Str) (hf : b.spam.has f = true) :
    measPart (some b.basis.measurementCircuit) [q] (some [f]) =
      some (.barrier :: (seqOps b q (specOf b f) ++ [.measure q (.tomo 0)])) := by
  simp only [measPart]
  rw [labelledOps_eq _ (fun j a q => seqOps b q (specOf b a) ++ [.measure q (.tomo j)]) [f] [q] rfl]
  · simp [slot]
  · intro j a ha q'
    rw [List.mem_singleton] at ha
    subst ha
    simp only [CBasis.measurementCircuit, GateSet.basis]
    rw [if_pos ((mem_spamLabels b a).2 hf), GateSet.measOps, spamOps_eq b h q' a hf]
    rfl

theorem prepPart_gst (b : GateSet ι) (h : GoodGateSet b) (q : ι) (f : Str) (hf : b.spam.has f = true) :
    prepPart (some b.basis.preparationCircuit) [q] (some [f]) = some (seqOps b q (specOf b f) ++ [.barrier]) := by
  simp only [prepPart]
  rw [labelledOps_eq _ (fun _ a q => seqOps b q (specOf b a)) [f] [q] rfl]
  · simp [slot]
  · intro j a ha q'
    rw [List.mem_singleton] at ha
    subst ha
    simp only [CBasis.preparationCircuit, GateSet.basis]
    rw [if_pos ((mem_spamLabels b a).2 hf), spamOps_eq b h q' a hf]

theorem noQuote_spam (b : GateSet ι) (h : GoodGateSet b) (f : Str) (hf : b.spam.has f = true) : '\'' ∉ f := by
  refine h.spamQuote f ?_
  have := (mem_spamLabels b f).2 hf
  unfold GateSet.spamLabels at this
  rwa [List.mem_insertionSort] at this

theorem quotedPieces_pair (f f' : Str) (h : '\'' ∉ f) (h' : '\'' ∉ f') :
    quotedPieces (reprTuple [reprLabel [f], reprLabel [f']]) = [f, f'] := by
  unfold quotedPieces
  rw [unweave_pair [f] [f'] (by simp) (by simp) (by simpa [NoQuote] using h) (by simpa [NoQuote] using h')]
  rfl

theorem gstBlock_eq (b : GateSet ι) (h : GoodGateSet b) (q : ι) (gate : Option Str) (hg : ∀ g ∈ gate, g ∈ b.gateLabels) :
    gstBlock b q gate = some (b.spamLabels.flatMap fun f => b.spamLabels.map fun f' =>
      ⟨reprLabel ([f] ++ gate.toList ++ [f']), gstOps b q ([f] ++ gate.toList ++ [f'])⟩) := by
  have key : ∀ mid : List (Op ι), tomographyCircuits mid [q] (some [q]) (.tuple b.spamLabels) (.basis b.basis) (.tuple b.spamLabels)
      (.basis b.basis) = some ((b.spamLabels.map fun a => some [a]).flatMap fun pl => (b.spamLabels.map fun a => some [a]).map fun ml =>
        ⟨circName pl ml, (seqOps b q (specOf b ((pl.getD []).headD [])) ++ [.barrier]) ++ mid ++
          (.barrier :: (seqOps b q (specOf b ((ml.getD []).headD [])) ++ [.measure q (.tomo 0)]))⟩) := by
    intro mid
    refine tomographyCircuits_eq mid [q] [q] (some [q]) (.tuple b.spamLabels) (.tuple b.spamLabels) (.basis b.basis) (.basis b.basis) (some b.basis.measurementCircuit) (some b.basis.preparationCircuit)
      (b.spamLabels.map fun a => some [a]) (b.spamLabels.map fun a => some [a])
      (fun pl => seqOps b q (specOf b ((pl.getD []).headD [])) ++ [.barrier])
      (fun ml => .barrier :: (seqOps b q (specOf b ((ml.getD []).headD [])) ++ [.measure q (.tomo 0)]))
      (by simp) (by simp) rfl (by simp) (by simp) rfl rfl rfl (Or.inl rfl) (Or.inl rfl) ?_ ?_ ?_ ?_
    · simp [generateLabels, operatorTuples_one]
    · simp [generateLabels, operatorTuples_one]
    · intro pl hpl
      obtain ⟨f, hf, rfl⟩ := List.mem_map.1 hpl
      exact prepPart_gst b h q f ((mem_spamLabels b f).1 hf)
    · intro ml hml
      obtain ⟨f, hf, rfl⟩ := List.mem_map.1 hml
      exact measPart_gst b h q f ((mem_spamLabels b f).1 hf)
  have ren : ∀ mid : List (Op ι), mid = seqOps b q gate.toList → ((b.spamLabels.map fun a => some [a]).flatMap fun pl =>
      (b.spamLabels.map fun a => some [a]).map fun ml =>
        (⟨circName pl ml, (seqOps b q (specOf b ((pl.getD []).headD [])) ++ [.barrier]) ++ mid ++
          (.barrier :: (seqOps b q (specOf b ((ml.getD []).headD [])) ++ [.measure q (.tomo 0)]))⟩ : Circ ι)).mapM (gstRename gate) =
      some (b.spamLabels.flatMap fun f => b.spamLabels.map fun f' =>
      ⟨reprLabel ([f] ++ gate.toList ++ [f']), gstOps b q ([f] ++ gate.toList ++ [f'])⟩) := by
    intro mid hmid
    have hshape : ((b.spamLabels.map fun a => some [a]).flatMap fun pl =>
      (b.spamLabels.map fun a => some [a]).map fun ml =>
        (⟨circName pl ml, (seqOps b q (specOf b ((pl.getD []).headD [])) ++ [.barrier]) ++ mid ++
          (.barrier :: (seqOps b q (specOf b ((ml.getD []).headD [])) ++ [.measure q (.tomo 0)]))⟩ : Circ ι)) =
      (b.spamLabels.flatMap fun f => b.spamLabels.map fun f' => (f, f')).map fun ff =>
        (⟨reprTuple [reprLabel [ff.1], reprLabel [ff.2]], (seqOps b q (specOf b ff.1) ++ [.barrier]) ++ mid ++
          (.barrier :: (seqOps b q (specOf b ff.2) ++ [.measure q (.tomo 0)]))⟩ : Circ ι) := by
      simp only [List.flatMap_map, List.map_flatMap, List.map_map, Function.comp_def]
      rfl
    have hshape2 : (b.spamLabels.flatMap fun f => b.spamLabels.map fun f' =>
        (⟨reprLabel ([f] ++ gate.toList ++ [f']), gstOps b q ([f] ++ gate.toList ++ [f'])⟩ : Circ ι)) =
      (b.spamLabels.flatMap fun f => b.spamLabels.map fun f' => (f, f')).map fun ff =>
        (⟨reprLabel ([ff.1] ++ gate.toList ++ [ff.2]), gstOps b q ([ff.1] ++ gate.toList ++ [ff.2])⟩ : Circ ι) := by
      simp only [List.map_flatMap, List.map_map, Function.comp_def]
    rw [hshape, hshape2, List.mapM_map]
    refine mapM_eq_some _ _ _ ?_
    rintro ⟨f, f'⟩ hff
    obtain ⟨f1, hf1, hff⟩ := List.mem_flatMap.1 hff
    obtain ⟨f2, hf2, e⟩ := List.mem_map.1 hff
    obtain ⟨rfl, rfl⟩ := Prod.mk.inj e
    unfold gstRename
    simp only [Function.comp_apply]
    rw [quotedPieces_pair _ _ (noQuote_spam b h _ ((mem_spamLabels b _).1 hf1)) (noQuote_spam b h _ ((mem_spamLabels b _).1 hf2))]
    subst hmid
    cases gate with
    | none => simp [gstOps, seqOps]
    | some g => simp [gstOps, seqOps]
  unfold gstBlock
  cases gate with
  | none =>
    simp only [Option.bind_eq_bind, Option.bind_some]
    rw [key [], Option.bind_some]
    exact ren [] rfl
  | some g =>
    simp only [Option.bind_eq_bind]
    rw [gateOps_eq b q g (h.known g (hg g rfl)), Option.bind_some, key, Option.bind_some]
    exact ren _ rfl

theorem gstSingles_eq (b : GateSet ι) (h : GoodGateSet b) (q : ι) :
    gstSingles b q = some (b.spamLabels.map fun f => ⟨reprLabel [f], gstOps b q [f]⟩) := by
  unfold gstSingles
  rw [tomographyCircuits_eq [] [q] [q] (some [q]) (.tuple b.spamLabels) .none (.basis b.basis) .none (some b.basis.measurementCircuit) none
      (b.spamLabels.map fun a => some [a]) [none] (fun _ => [])
      (fun ml => .barrier :: (seqOps b q (specOf b ((ml.getD []).headD [])) ++ [.measure q (.tomo 0)]))
      (by simp) (by simp) rfl (by simp) (by simp) rfl rfl rfl (Or.inl rfl) (Or.inr rfl) (by simp [generateLabels, operatorTuples_one]) rfl
      (by intro pl hpl; rw [List.mem_singleton] at hpl; subst hpl; rfl)
      (by
        intro ml hml
        obtain ⟨f, hf, rfl⟩ := List.mem_map.1 hml
        exact measPart_gst b h q f ((mem_spamLabels b f).1 hf))]
  simp only [Option.bind_eq_bind, Option.bind_some, List.flatMap_cons, List.flatMap_nil, List.append_nil, List.map_map]
  rw [List.mapM_map]
  refine mapM_eq_some _ _ _ ?_
  intro f hf
  have hq := noQuote_spam b h _ ((mem_spamLabels b _).1 hf)
  simp only [Function.comp_apply, circName, quotedPieces]
  rw [unweave_reprLabel [f] (by simp) (by simpa [NoQuote] using hq)]
  simp [gstOps]

/-- The keys, in the order of the circuits. -/
def gstKeys (b : GateSet ι) : List (List Str) :=
  (b.gateLabels.flatMap fun g => b.spamLabels.flatMap fun f => b.spamLabels.map fun f' => [f, g, f']) ++
  (b.spamLabels.flatMap fun f => b.spamLabels.map fun f' => [f, f']) ++ b.spamLabels.map fun f => [f]

theorem mem_gstKeys (b : GateSet ι) (k : List Str) : k ∈ gstKeys b ↔ GstKey b k := by
  unfold gstKeys
  simp only [List.mem_append, List.mem_flatMap, List.mem_map, mem_spamLabels]
  constructor
  · rintro ((⟨g, hg, f, hf, f', hf', rfl⟩ | ⟨f, hf, f', hf', rfl⟩) | ⟨f, hf, rfl⟩)
    · exact .three f g f' hf hg hf'
    · exact .two f f' hf hf'
    · exact .one f hf
  · rintro (⟨f, hf⟩ | ⟨f, f', hf, hf'⟩ | ⟨f, g, f', hf, hg, hf'⟩)
    · exact .inr ⟨f, hf, rfl⟩
    · exact .inl (.inr ⟨f, hf, f', hf', rfl⟩)
    · exact .inl (.inl ⟨g, hg, f, hf, f', hf', rfl⟩)

theorem nodup_gstKeys (b : GateSet ι) (h : GoodGateSet b) : (gstKeys b).Nodup := by
  have hs := nodup_spamLabels b h
  have h1 : (b.spamLabels.map fun f => [f]).Nodup := hs.map fun a c e => by simpa using e
  have h2 : (b.spamLabels.flatMap fun f => b.spamLabels.map fun f' => [f, f']).Nodup := by
    rw [List.nodup_flatMap]
    refine ⟨fun f _ => hs.map fun a c e => by simpa using e, hs.imp ?_⟩
    intro f f' hne
    simp only [Function.onFun, List.disjoint_left, List.mem_map]
    rintro x ⟨a, _, rfl⟩ ⟨c, _, e⟩
    exact hne (by simpa using (List.cons.inj e).1.symm)
  have h3 : ∀ g, (b.spamLabels.flatMap fun f => b.spamLabels.map fun f' => [f, g, f']).Nodup := by
    intro g
    rw [List.nodup_flatMap]
    refine ⟨fun f _ => hs.map fun a c e => by simpa using e, hs.imp ?_⟩
    intro f f' hne
    simp only [Function.onFun, List.disjoint_left, List.mem_map]
    rintro x ⟨a, _, rfl⟩ ⟨c, _, e⟩
    exact hne (by simpa using (List.cons.inj e).1.symm)
  have h4 : (b.gateLabels.flatMap fun g => b.spamLabels.flatMap fun f => b.spamLabels.map fun f' => [f, g, f']).Nodup := by
    rw [List.nodup_flatMap]
    refine ⟨fun g _ => h3 g, h.gatesNodup.imp ?_⟩
    intro g g' hne
    simp only [Function.onFun, List.disjoint_left, List.mem_map, List.mem_flatMap]
    rintro x ⟨f, _, a, _, rfl⟩ ⟨f', _, c, _, e⟩
    simp only [List.cons.injEq, and_true] at e
    exact hne e.2.1.symm
  unfold gstKeys
  rw [List.nodup_append, List.nodup_append]
  refine ⟨⟨h4, h2, ?_⟩, h1, ?_⟩
  · intro a ha c hc e
    simp only [List.mem_flatMap, List.mem_map] at ha hc
    obtain ⟨_, _, _, _, _, _, rfl⟩ := ha
    obtain ⟨_, _, _, _, rfl⟩ := hc
    simp at e
  · intro a ha c hc e
    simp only [List.mem_append, List.mem_flatMap, List.mem_map] at ha hc
    obtain ⟨_, _, rfl⟩ := hc
    rcases ha with ⟨_, _, _, _, _, _, rfl⟩ | ⟨_, _, _, _, rfl⟩ <;> simp at e

theorem gst_eq (b : GateSet ι) (h : GoodGateSet b) (q : ι) :
    gatesetTomographyCircuits b q = some ((gstKeys b).map fun k => ⟨reprLabel k, gstOps b q k⟩) := by
  unfold gatesetTomographyCircuits
  rw [mapM_eq_some b.gateLabels _ _ fun g hg => gstBlock_eq b h q (some g) (by
    intro g' hg'; obtain rfl := Option.mem_some_iff.1 hg'; exact hg)]
  rw [gstBlock_eq b h q none (by simp), gstSingles_eq b h q]
  simp only [Option.bind_eq_bind, Option.bind_some, gstKeys, List.map_append, List.map_flatMap, List.map_map, Function.comp_def]
  congr 3

theorem gstKey_noQuote (b : GateSet ι) (h : GoodGateSet b) (k : List Str) (hk : GstKey b k) : k ≠ [] ∧ NoQuote k := by
  have hs := noQuote_spam b h
  cases hk with
  | one f hf => exact ⟨by simp, by simpa [NoQuote] using hs f hf⟩
  | two f f' hf hf' => exact ⟨by simp, by simpa [NoQuote] using ⟨hs f hf, hs f' hf'⟩⟩
  | three f g f' hf hg hf' => exact ⟨by simp, by simpa [NoQuote] using ⟨hs f hf, h.gateQuote g hg, hs f' hf'⟩⟩

/-- **C86**.  With `m` gates and `n` SPAM circuits there are `m n² + n² + n` circuits with distinct names, one for each key (a SPAM
circuit, a pair of them, or a gate between a pair); the circuit of a key runs its parts in order, then measures, and the fitter reads
the key back from its name. -/
theorem C86_circuits (b : GateSet ι) (h : GoodGateSet b) (q : ι) :
    ∃ cs, gatesetTomographyCircuits b q = some cs ∧
      cs.length = b.gateLabels.length * b.spam.length ^ 2 + b.spam.length ^ 2 + b.spam.length ∧ (cs.map Circ.name).Nodup ∧
      (∀ k, GstKey b k → ∃ c ∈ cs, literalEval c.name = some (.state k)) ∧
      ∀ c ∈ cs, ∃ k, GstKey b k ∧ literalEval c.name = some (.state k) ∧ c.ops = gstOps b q k := by
  refine ⟨_, gst_eq b h q, ?_, ?_, ?_, ?_⟩
  · rw [List.length_map]
    unfold gstKeys
    simp only [List.length_append, List.length_flatMap, List.length_map, length_spamLabels, List.map_const', List.sum_replicate,
      smul_eq_mul]
    ring
  · rw [List.map_map]
    refine List.Nodup.map_on ?_ (nodup_gstKeys b h)
    intro k hk k' hk' e
    obtain ⟨a1, a2⟩ := gstKey_noQuote b h k ((mem_gstKeys b k).1 hk)
    obtain ⟨b1, b2⟩ := gstKey_noQuote b h k' ((mem_gstKeys b k').1 hk')
    exact reprLabel_inj a1 b1 a2 b2 e
  · intro k hk
    obtain ⟨a1, a2⟩ := gstKey_noQuote b h k hk
    exact ⟨_, List.mem_map.2 ⟨k, (mem_gstKeys b k).2 hk, rfl⟩, literalEval_reprLabel k a1 a2⟩
  · intro c hc
    obtain ⟨k, hk, rfl⟩ := List.mem_map.1 hc
    have hk' := (mem_gstKeys b k).1 hk
    obtain ⟨a1, a2⟩ := gstKey_noQuote b h k hk'
    exact ⟨k, hk', literalEval_reprLabel k a1 a2, rfl⟩

/-- Finding: adding a gate under a name already in use (`add_gate` appends to the labels without a check) gives two circuits of the
same name. -/
theorem C86_finding_duplicate :
    ∃ cs, gatesetTomographyCircuits (ι := ℕ) ⟨["G".toList, "G".toList], [("G".toList, fun q => [.gate .x q])],
      [("F0".toList, ["G".toList])]⟩ 0 = some cs ∧ ¬ (cs.map Circ.name).Nodup := by
  exact ⟨_, rfl, by decide +kernel⟩

/-! From circuits to predictions. -/

/-- Specification: a physical device acts on every instruction by a matrix, barriers and the final measurement doing nothing to the
state; the probability of outcome 0 of a circuit is read off at the end. -/
structure OpDevice (ι : Type) (d : ℕ) where
  E : Fin d → ℝ
  rho : Fin d → ℝ
  act : Op ι → Matrix (Fin d) (Fin d) ℝ
  barrier : act .barrier = 1
  measure : ∀ q c, act (.measure q c) = 1

/-- Specification: the probability of outcome 0 of a circuit. -/
noncomputable def OpDevice.prob {d : ℕ} (P : OpDevice ι d) (ops : List (Op ι)) : ℝ := P.E ⬝ᵥ ops.foldl (fun v o => P.act o *ᵥ v) P.rho

/-- The same device with gate names. -/
noncomputable def OpDevice.named {d : ℕ} (P : OpDevice ι d) (b : GateSet ι) (q : ι) : Device d :=
  ⟨P.E, P.rho, fun g => (seqOps b q [g]).foldl (fun M o => P.act o * M) 1⟩

theorem act_fold {d : ℕ} (P : OpDevice ι d) (ops : List (Op ι)) (M : Matrix (Fin d) (Fin d) ℝ) (v : Fin d → ℝ) :
    ops.foldl (fun v o => P.act o *ᵥ v) (M *ᵥ v) = (ops.foldl (fun M o => P.act o * M) M) *ᵥ v := by
  induction ops generalizing M with
  | nil => rfl
  | cons g w ih => rw [List.foldl_cons, List.foldl_cons, Matrix.mulVec_mulVec, ih]

theorem act_seq {d : ℕ} (P : OpDevice ι d) (b : GateSet ι) (q : ι) (w : List Str) (v : Fin d → ℝ) :
    (seqOps b q w).foldl (fun v o => P.act o *ᵥ v) v = w.foldl (fun v g => (P.named b q).gate g *ᵥ v) v := by
  induction w generalizing v with
  | nil => rfl
  | cons g w ih =>
    have : seqOps b q (g :: w) = seqOps b q [g] ++ seqOps b q w := by simp [seqOps]
    rw [this, List.foldl_append, ih, List.foldl_cons]
    congr 1
    have := act_fold P (seqOps b q [g]) 1 v
    rw [Matrix.one_mulVec] at this
    exact this

theorem prob_seq {d : ℕ} (P : OpDevice ι d) (b : GateSet ι) (q : ι) (w : List Str) : P.prob (seqOps b q w) = (P.named b q).run w := by
  unfold OpDevice.prob Device.run
  rw [act_seq]; rfl

theorem prob_key {d : ℕ} (P : OpDevice ι d) (b : GateSet ι) (q : ι) :
    (∀ f, P.prob (gstOps b q [f]) = (P.named b q).run (specOf b f)) ∧
    (∀ f f', P.prob (gstOps b q [f, f']) = (P.named b q).run (specOf b f ++ specOf b f')) ∧
    ∀ f g f', P.prob (gstOps b q [f, g, f']) = (P.named b q).run (specOf b f ++ [g] ++ specOf b f') := by
  refine ⟨?_, ?_, ?_⟩
  · intro f
    unfold OpDevice.prob Device.run gstOps
    simp only [List.foldl_cons, List.foldl_append, List.foldl_nil, P.barrier, P.measure, Matrix.one_mulVec, act_seq]
    rfl
  · intro f f'
    unfold OpDevice.prob Device.run gstOps
    simp only [List.foldl_cons, List.foldl_append, List.foldl_nil, P.barrier, P.measure, Matrix.one_mulVec, act_seq]
    rfl
  · intro f g f'
    unfold OpDevice.prob Device.run gstOps
    simp only [List.foldl_cons, List.foldl_append, List.foldl_nil, P.barrier, P.measure, Matrix.one_mulVec, act_seq]
    rfl

theorem gstProbs_get? (data : Dict Key Counts) (hs : ∀ kv ∈ data, (Dict.values kv.2).sum ≠ 0) :
    ∃ probs, gstProbs data = some probs ∧ ∀ k c, data.get? k = some c →
      probs.get? k = some (((c.getD "0".toList 0 : ℤ) : ℝ) / (((Dict.values c).sum : ℤ) : ℝ)) := by
  refine ⟨data.map fun kv => (kv.1, ((Dict.getD kv.2 "0".toList 0 : ℤ) : ℝ) / (((Dict.values kv.2).sum : ℤ) : ℝ)), ?_, ?_⟩
  · unfold gstProbs
    refine mapM_eq_some data _ _ ?_
    intro kv hkv
    simp only
    rw [if_neg (hs kv hkv)]
  · intro k c h
    induction data with
    | nil => cases h
    | cons kv data ih =>
      rw [Dict.get?_cons] at h
      rw [List.map_cons, Dict.get?_cons]
      split at h
      · rename_i e
        obtain rfl := Option.some.inj h
        rw [if_pos e]
      · rename_i e
        rw [if_neg e]
        exact ih (fun kv' h' => hs kv' (by simp [h'])) h

/-- **C55** (from circuits to predictions).  Run all circuits of `gateset_tomography_circuits` on any device with as many SPAM circuits as
state dimensions.  If the relative frequencies in the data are the device's probabilities and the SPAM circuits are informationally
complete, then the gate set found by linear inversion predicts the probability of every sequence of gates exactly. -/
theorem C55_circuits (b : GateSet ι) (h : GoodGateSet b) (q : ι) (P : OpDevice ι b.spamLabels.length)
    (hE : "E".toList ∉ b.gateLabels) (hr : "rho".toList ∉ b.gateLabels) (cs : List (Circ ι))
    (hcs : gatesetTomographyCircuits b q = some cs) (data : Dict Key Counts) (hs : ∀ kv ∈ data, (Dict.values kv.2).sum ≠ 0)
    (hexact : ∀ c ∈ cs, ∃ k counts, literalEval c.name = some k ∧ data.get? k = some counts ∧
      ((counts.getD "0".toList 0 : ℤ) : ℝ) / (((Dict.values counts).sum : ℤ) : ℝ) = P.prob c.ops)
    (hic : InfoComplete (P.named b q) (specOf b) b.spamLabels) :
    ∃ probs res, gstProbs data = some probs ∧ linearInversion b.spamLabels b.gateLabels probs = some res ∧
      (∃ D', Describes res b.gateLabels D') ∧
      ∀ D', Describes res b.gateLabels D' → ∀ w, (∀ g ∈ w, g ∈ b.gateLabels) → D'.run w = P.prob (seqOps b q w) := by
  obtain ⟨probs, hp, hget⟩ := gstProbs_get? data hs
  rw [gst_eq b h q] at hcs
  obtain rfl := Option.some.inj hcs
  have key : ∀ k, GstKey b k → probs.get? (.state k) = some (P.prob (gstOps b q k)) := by
    intro k hk
    obtain ⟨a1, a2⟩ := gstKey_noQuote b h k hk
    obtain ⟨k', counts, e1, e2, e3⟩ := hexact _ (List.mem_map.2 ⟨k, (mem_gstKeys b k).2 hk, rfl⟩)
    simp only at e1 e3
    rw [literalEval_reprLabel k a1 a2] at e1
    obtain rfl := Option.some.inj e1
    rw [hget _ _ e2, e3]
  obtain ⟨p1, p2, p3⟩ := prob_key P b q
  have hex : ExactProbs (P.named b q) (specOf b) b.spamLabels b.gateLabels probs := by
    refine ⟨?_, ?_, ?_⟩
    · intro f hf
      rw [key _ (.one f ((mem_spamLabels b f).1 hf)), p1]
    · intro f hf f' hf'
      rw [key _ (.two f f' ((mem_spamLabels b f).1 hf) ((mem_spamLabels b f').1 hf')), p2]
    · intro f hf g hg f' hf'
      rw [key _ (.three f g f' ((mem_spamLabels b f).1 hf) hg ((mem_spamLabels b f').1 hf')), p3]
  obtain ⟨res, r1, r2, r3⟩ := C55_predicts b.spamLabels b.gateLabels (P.named b q) (specOf b) probs hex hic hE hr
  refine ⟨probs, res, hp, r1, r2, ?_⟩
  intro D' hD' w hw
  rw [r3 D' hD' w hw, prob_seq]

end Verif.Tomo
