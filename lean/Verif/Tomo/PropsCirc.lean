import Verif.Tomo.LemmasCirc
/-
C48: families of tomography circuits.
-/
set_option linter.unusedSectionVars false
set_option linter.unusedSimpArgs false
set_option linter.unusedTactic false
set_option linter.unreachableTactic false
namespace Verif.Tomo
open Verif

variable {ι : Type} [DecidableEq ι]

/-- Specification: the gates that turn a measurement of this Pauli operator into a computational one. -/
def specRotation (label : Str) : List G1 :=
  if label = "X".toList then [.h] else if label = "Y".toList then [.sdg, .h] else []

/-- Specification: the gates that prepare this state from |0⟩. -/
def specPreparation (label : Str) : List G1 :=
  if label = "Zm".toList then [.x] else if label = "Xp".toList then [.h]
  else if label = "Yp".toList then [.h, .s] else []

/-- Specification: an n-qubit label over an alphabet. -/
def IsLabel (alphabet : List Str) (n : ℕ) (l : List Str) : Prop := l.length = n ∧ ∀ a ∈ l, a ∈ alphabet

/-- The measured Pauli operators. -/
def xyz : List Str := ["X".toList, "Y".toList, "Z".toList]

/-- The prepared states. -/
def prep4 : List Str := ["Zp".toList, "Zm".toList, "Xp".toList, "Yp".toList]

/-- Specification of the measurement part: what happens on each qubit, and nothing else. -/
def MeasuresLabel (qs : List ι) (l : List Str) (ops : List (Op ι)) : Prop :=
  (∀ j (hj : j < qs.length) (hl : j < l.length), ops.filter (Op.on qs[j]) =
    (specRotation l[j]).map (fun g => Op.gate g qs[j]) ++ [Op.measure qs[j] (.tomo j)]) ∧
  ∀ op ∈ ops, ∃ q ∈ qs, op.on q = true

/-- Specification of the preparation part. -/
def PreparesLabel (qs : List ι) (l : List Str) (ops : List (Op ι)) : Prop :=
  (∀ j (hj : j < qs.length) (hl : j < l.length), ops.filter (Op.on qs[j]) =
    (specPreparation l[j]).map (fun g => Op.gate g qs[j])) ∧
  ∀ op ∈ ops, ∃ q ∈ qs, op.on q = true

/-! Helper lemmas. -/

theorem pauliMeasurementCircuit_eq (a : Str) (ha : a ∈ xyz) (q : ι) (c : Clbit) :
    pauliMeasurementCircuit a q c = (specRotation a).map (fun g => Op.gate g q) ++ [Op.measure q c] := by
  simp only [xyz, List.mem_cons, List.not_mem_nil, or_false] at ha
  rcases ha with rfl | rfl | rfl <;> rfl

theorem pauliPreparationCircuit_eq (a : Str) (ha : a ∈ prep4) (q : ι) :
    pauliPreparationCircuit a q = (specPreparation a).map (fun g => Op.gate g q) := by
  simp only [prep4, List.mem_cons, List.not_mem_nil, or_false] at ha
  rcases ha with rfl | rfl | rfl | rfl <;> rfl

theorem measCirc_on (a : Str) (q : ι) (c : Clbit) : ∀ op ∈ pauliMeasurementCircuit a q c, op.on q = true := by
  intro op hop
  unfold pauliMeasurementCircuit at hop
  simp only [List.mem_append] at hop
  rcases hop with (h | h) | h <;> split at h <;>
    first
    | (simp only [List.mem_cons, List.not_mem_nil, or_false] at h
       rcases h with rfl | rfl | rfl <;> simp [Op.on])
    | (simp only [List.mem_cons, List.not_mem_nil, or_false] at h
       rcases h with rfl | rfl <;> simp [Op.on])
    | (simp only [List.mem_cons, List.not_mem_nil, or_false] at h
       subst h; simp [Op.on])
    | simp at h

theorem measCirc_off (a : Str) (q q' : ι) (hq : q ≠ q') (c : Clbit) :
    ∀ op ∈ pauliMeasurementCircuit a q c, op.on q' = false := by
  intro op hop
  have := measCirc_on a q c op hop
  cases op <;> simp_all [Op.on]

theorem prepCirc_on (a : Str) (q : ι) : ∀ op ∈ pauliPreparationCircuit a q, op.on q = true := by
  intro op hop
  unfold pauliPreparationCircuit at hop
  simp only [List.mem_append] at hop
  rcases hop with (((h | h) | h) | h) | h <;> split at h <;>
    first
    | (simp only [List.mem_cons, List.not_mem_nil, or_false] at h
       rcases h with rfl | rfl | rfl <;> simp [Op.on])
    | (simp only [List.mem_cons, List.not_mem_nil, or_false] at h
       rcases h with rfl | rfl <;> simp [Op.on])
    | (simp only [List.mem_cons, List.not_mem_nil, or_false] at h
       subst h; simp [Op.on])
    | simp at h

theorem prepCirc_off (a : Str) (q q' : ι) (hq : q ≠ q') :
    ∀ op ∈ pauliPreparationCircuit a q, op.on q' = false := by
  intro op hop
  have := prepCirc_on a q op hop
  cases op <;> simp_all [Op.on]

/-- The measurement instructions of a label, slot by slot. -/
def measOpsOf (qs : List ι) (l : List Str) : List (Op ι) :=
  (List.range qs.length).flatMap (slot (fun j a q => pauliMeasurementCircuit a q (.tomo j)) l qs)

/-- The preparation instructions of a label, slot by slot. -/
def prepOpsOf (qs : List ι) (l : List Str) : List (Op ι) :=
  (List.range qs.length).flatMap (slot (fun _ a q => pauliPreparationCircuit a q) l qs)

theorem measOpsOf_spec (qs : List ι) (hnd : qs.Nodup) (l : List Str) (h : IsLabel xyz qs.length l) :
    MeasuresLabel qs l (measOpsOf qs l) := by
  refine ⟨?_, ?_⟩
  · intro j hj hl
    have := filter_slots (fun j a q => pauliMeasurementCircuit a q (.tomo j)) l qs h.1 hnd
      (fun j a q => measCirc_on a q _) (fun j a q q' hq => measCirc_off a q q' hq _) j hj
    rw [measOpsOf, this]
    exact pauliMeasurementCircuit_eq _ (h.2 _ (List.getElem_mem _)) _ _
  · exact fun op hop => mem_slots _ l qs (fun j a q => measCirc_on a q _) op hop

theorem prepOpsOf_spec (qs : List ι) (hnd : qs.Nodup) (l : List Str) (h : IsLabel prep4 qs.length l) :
    PreparesLabel qs l (prepOpsOf qs l) := by
  refine ⟨?_, ?_⟩
  · intro j hj hl
    have := filter_slots (fun _ a q => pauliPreparationCircuit a q) l qs h.1 hnd
      (fun j a q => prepCirc_on a q) (fun j a q q' hq => prepCirc_off a q q' hq) j hj
    rw [prepOpsOf, this]
    exact pauliPreparationCircuit_eq _ (h.2 _ (List.getElem_mem _)) _
  · exact fun op hop => mem_slots _ l qs (fun j a q => prepCirc_on a q) op hop

theorem measPart_pauli (qs : List ι) (l : List Str) (h : IsLabel xyz qs.length l) :
    measPart (some (pauliBasis (ι := ι)).measurementCircuit) qs (some l) = some (.barrier :: measOpsOf qs l) := by
  simp only [measPart]
  rw [labelledOps_eq _ (fun j a q => pauliMeasurementCircuit a q (.tomo j)) l qs h.1]
  · rfl
  · intro j a ha q
    have : a ∈ ["X".toList, "Y".toList, "Z".toList] := h.2 a ha
    simp only [CBasis.measurementCircuit, pauliBasis]
    rw [if_pos this]

theorem prepPart_pauli (qs : List ι) (l : List Str) (h : IsLabel prep4 qs.length l) :
    prepPart (some (pauliBasis (ι := ι)).preparationCircuit) qs (some l) = some (prepOpsOf qs l ++ [.barrier]) := by
  simp only [prepPart]
  rw [labelledOps_eq _ (fun _ a q => pauliPreparationCircuit a q) l qs h.1]
  · rfl
  · intro j a ha q
    have h' : a ∈ prep4 := h.2 a ha
    have : a ∈ ["Xp".toList, "Xm".toList, "Yp".toList, "Ym".toList, "Zp".toList, "Zm".toList] := by
      simp only [prep4, List.mem_cons, List.not_mem_nil, or_false] at h' ⊢
      tauto
    simp only [CBasis.preparationCircuit, pauliBasis]
    rw [if_pos this]

theorem noQuote_of_alphabet {alph : List Str} (halph : NoQuote alph) {l : List Str} (h : ∀ a ∈ l, a ∈ alph) :
    NoQuote l := fun a ha => halph a (h a ha)

theorem ne_nil_of_len {l : List Str} {qs : List ι} (h : l.length = qs.length) (hne : qs ≠ []) : l ≠ [] := by
  rintro rfl
  exact hne (List.length_eq_zero_iff.1 h.symm)

theorem state_eq (circuit : List (Op ι)) (qs : List ι) (hne : qs ≠ []) (hnd : qs.Nodup) :
    stateTomographyCircuits circuit qs pauliLabels pauliArg =
      some ((operatorTuples xyz qs.length).map fun l => ⟨reprLabel l, circuit ++ .barrier :: measOpsOf qs l⟩) := by
  unfold stateTomographyCircuits
  rw [tomographyCircuits_eq circuit qs qs none pauliLabels .none pauliArg .none
    (some (pauliBasis (ι := ι)).measurementCircuit) none ((operatorTuples xyz qs.length).map some) [none]
    (fun _ => []) (fun ml => .barrier :: measOpsOf qs (ml.getD [])) hne hnd rfl hne hnd rfl rfl rfl
    (Or.inl rfl) (Or.inr rfl) rfl rfl]
  · simp [Function.comp_def, circName]
  · intro pl hpl
    rw [List.mem_singleton] at hpl
    subst hpl; rfl
  · intro ml hml
    obtain ⟨l, hl, rfl⟩ := List.mem_map.1 hml
    exact measPart_pauli qs l ((mem_operatorTuples _ _ _).1 hl)

theorem process_eq (circuit : List (Op ι)) (mq pq : List ι) (prepared : Option (List ι))
    (hpq : prepared.getD mq = pq) (hne : mq ≠ []) (hnd : mq.Nodup) (hpnd : pq.Nodup) (hlen : pq.length = mq.length) :
    processTomographyCircuits circuit mq prepared pauliLabels pauliArg pauliLabels pauliArg =
      some ((operatorTuples prep4 mq.length).flatMap fun p => (operatorTuples xyz mq.length).map fun l =>
        ⟨reprTuple [reprLabel p, reprLabel l],
          prepOpsOf pq p ++ [.barrier] ++ circuit ++ .barrier :: measOpsOf mq l⟩) := by
  unfold processTomographyCircuits
  have hpne : pq ≠ [] := by
    rintro rfl
    exact hne (List.length_eq_zero_iff.1 hlen.symm)
  rw [tomographyCircuits_eq circuit mq pq prepared pauliLabels pauliLabels pauliArg pauliArg
    (some (pauliBasis (ι := ι)).measurementCircuit) (some (pauliBasis (ι := ι)).preparationCircuit)
    ((operatorTuples xyz mq.length).map some) ((operatorTuples prep4 mq.length).map some)
    (fun pl => prepOpsOf pq (pl.getD []) ++ [.barrier]) (fun ml => .barrier :: measOpsOf mq (ml.getD []))
    hne hnd hpq hpne hpnd hlen rfl rfl
    (Or.inl rfl) (Or.inl rfl) rfl rfl]
  · simp [Function.comp_def, circName, List.flatMap_map]
  · intro pl hpl
    obtain ⟨l, hl, rfl⟩ := List.mem_map.1 hpl
    have := (mem_operatorTuples _ _ _).1 hl
    exact prepPart_pauli pq l ⟨this.1.trans hlen.symm, this.2⟩
  · intro ml hml
    obtain ⟨l, hl, rfl⟩ := List.mem_map.1 hml
    exact measPart_pauli mq l ((mem_operatorTuples _ _ _).1 hl)

/-- **C48** (state tomography).  On any nonempty list of distinct qubits there are exactly `3^n` circuits with
pairwise distinct names; the names are exactly those of the Pauli labels, and the circuit of a label is the given
circuit followed by the measurement of that label: qubit `j` is rotated for its own label and read into
classical bit `j`. -/
theorem C48_state (circuit : List (Op ι)) (qs : List ι) (hne : qs ≠ []) (hnd : qs.Nodup) :
    ∃ cs, stateTomographyCircuits circuit qs pauliLabels pauliArg = some cs ∧
      cs.length = 3 ^ qs.length ∧ (cs.map Circ.name).Nodup ∧
      (∀ l, IsLabel xyz qs.length l → ∃ c ∈ cs, c.name = reprLabel l) ∧
      (∀ c ∈ cs, ∃ l, IsLabel xyz qs.length l ∧ c.name = reprLabel l ∧ literalEval c.name = some (.state l) ∧
        ∃ ops, c.ops = circuit ++ .barrier :: ops ∧ MeasuresLabel qs l ops) := by
  refine ⟨_, state_eq circuit qs hne hnd, ?_, ?_, ?_, ?_⟩
  · rw [List.length_map, length_operatorTuples]; rfl
  · rw [List.map_map]
    refine List.Nodup.map_on ?_ (nodup_operatorTuples xyz (by decide) _)
    intro l hl m hm h
    have hl' := (mem_operatorTuples _ _ _).1 hl
    have hm' := (mem_operatorTuples _ _ _).1 hm
    exact reprLabel_inj (ne_nil_of_len hl'.1 hne) (ne_nil_of_len hm'.1 hne) (noQuote_of_alphabet (by unfold NoQuote; decide) hl'.2)
      (noQuote_of_alphabet (by unfold NoQuote; decide) hm'.2) h
  · intro l hl
    exact ⟨_, List.mem_map.2 ⟨l, (mem_operatorTuples _ _ _).2 hl, rfl⟩, rfl⟩
  · intro c hc
    obtain ⟨l, hl, rfl⟩ := List.mem_map.1 hc
    have hl' := (mem_operatorTuples _ _ _).1 hl
    exact ⟨l, hl', rfl, literalEval_reprLabel l (ne_nil_of_len hl'.1 hne)
      (noQuote_of_alphabet (by unfold NoQuote; decide) hl'.2), _, rfl, measOpsOf_spec qs hnd l hl'⟩

/-- **C48** (process tomography).  `4^n · 3^n` circuits with pairwise distinct names; each prepares its label on the
prepared qubits, then runs the given circuit, then measures its label. -/
theorem C48_process (circuit : List (Op ι)) (mq pq : List ι) (prepared : Option (List ι))
    (hpq : prepared.getD mq = pq) (hne : mq ≠ []) (hnd : mq.Nodup) (hpnd : pq.Nodup) (hlen : pq.length = mq.length) :
    ∃ cs, processTomographyCircuits circuit mq prepared pauliLabels pauliArg pauliLabels pauliArg = some cs ∧
      cs.length = 4 ^ mq.length * 3 ^ mq.length ∧ (cs.map Circ.name).Nodup ∧
      (∀ p l, IsLabel prep4 mq.length p → IsLabel xyz mq.length l →
        ∃ c ∈ cs, c.name = reprTuple [reprLabel p, reprLabel l]) ∧
      (∀ c ∈ cs, ∃ p l, IsLabel prep4 mq.length p ∧ IsLabel xyz mq.length l ∧
        literalEval c.name = some (.process p l) ∧
        ∃ pops mops, c.ops = pops ++ [.barrier] ++ circuit ++ .barrier :: mops ∧
          PreparesLabel pq p pops ∧ MeasuresLabel mq l mops) := by
  have key : ∀ p l, IsLabel prep4 mq.length p → IsLabel xyz mq.length l →
      p ≠ [] ∧ l ≠ [] ∧ NoQuote p ∧ NoQuote l := fun p l hp hl =>
    ⟨ne_nil_of_len hp.1 hne, ne_nil_of_len hl.1 hne, noQuote_of_alphabet (by unfold NoQuote; decide) hp.2,
      noQuote_of_alphabet (by unfold NoQuote; decide) hl.2⟩
  refine ⟨_, process_eq circuit mq pq prepared hpq hne hnd hpnd hlen, ?_, ?_, ?_, ?_⟩
  · simp only [List.length_flatMap, List.length_map, length_operatorTuples]
    rw [List.map_const', List.sum_replicate, length_operatorTuples, smul_eq_mul]; rfl
  · rw [List.map_flatMap]
    rw [List.nodup_flatMap]
    refine ⟨?_, ?_⟩
    · intro p hp
      rw [List.map_map]
      refine List.Nodup.map_on ?_ (nodup_operatorTuples xyz (by decide) _)
      intro l hl m hm h
      have hp' := (mem_operatorTuples _ _ _).1 hp
      obtain ⟨a1, a2, a3, a4⟩ := key p l hp' ((mem_operatorTuples _ _ _).1 hl)
      obtain ⟨b1, b2, b3, b4⟩ := key p m hp' ((mem_operatorTuples _ _ _).1 hm)
      exact (pairName_inj a1 a2 b1 b2 a3 a4 b3 b4 h).2
    · have := nodup_operatorTuples prep4 (by decide) mq.length
      refine List.Pairwise.imp_of_mem ?_ this
      intro p p' hp hp' hne'
      simp only [Function.onFun, List.disjoint_left, List.map_map, List.mem_map, Function.comp_apply]
      rintro x ⟨l, hl, rfl⟩ ⟨l', hl', h⟩
      obtain ⟨a1, a2, a3, a4⟩ := key p l ((mem_operatorTuples _ _ _).1 hp) ((mem_operatorTuples _ _ _).1 hl)
      obtain ⟨b1, b2, b3, b4⟩ := key p' l' ((mem_operatorTuples _ _ _).1 hp') ((mem_operatorTuples _ _ _).1 hl')
      exact hne' (pairName_inj a1 a2 b1 b2 a3 a4 b3 b4 h.symm).1
  · intro p l hp hl
    exact ⟨_, List.mem_flatMap.2 ⟨p, (mem_operatorTuples _ _ _).2 hp,
      List.mem_map.2 ⟨l, (mem_operatorTuples _ _ _).2 hl, rfl⟩⟩, rfl⟩
  · intro c hc
    obtain ⟨p, hp, hc⟩ := List.mem_flatMap.1 hc
    obtain ⟨l, hl, rfl⟩ := List.mem_map.1 hc
    have hp' := (mem_operatorTuples _ _ _).1 hp
    have hl' := (mem_operatorTuples _ _ _).1 hl
    obtain ⟨a1, a2, a3, a4⟩ := key p l hp' hl'
    exact ⟨p, l, hp', hl', literalEval_pair p l a1 a2 a3 a4, _, _, rfl,
      prepOpsOf_spec pq hpnd p ⟨hp'.1.trans hlen.symm, hp'.2⟩, measOpsOf_spec mq hnd l hl'⟩

/-- **C48**: an empty or repeating qubit list, and preparation and measurement lists of different lengths,
are refused. -/
theorem C48_rejects (circuit : List (Op ι)) (mq : List ι) (prepared : Option (List ι)) (ml pl : Labels)
    (mb pb : BasisArg ι)
    (h : mq = [] ∨ ¬ mq.Nodup ∨ prepared.getD mq = [] ∨ ¬ (prepared.getD mq).Nodup ∨
      (prepared.getD mq).length ≠ mq.length) :
    tomographyCircuits circuit mq prepared ml mb pl pb = none := by
  have hfr : ∀ qs : List ι, ¬ qs.Nodup → formatRegisters qs = none := by
    intro qs hqs
    unfold formatRegisters
    split
    · rfl
    · rw [if_pos]
      intro hlen
      exact hqs (by rw [← (List.dedup_sublist qs).eq_of_length hlen]; exact List.nodup_dedup qs)
  have hfe : formatRegisters ([] : List ι) = none := by simp [formatRegisters]
  have hsome : ∀ qs r : List ι, formatRegisters qs = some r → r = qs := by
    intro qs r hr
    unfold formatRegisters at hr
    split at hr
    · cases hr
    · split at hr
      · cases hr
      · exact (Option.some.inj hr).symm
  unfold tomographyCircuits
  rcases h with h | h | h | h | h
  · subst h; simp [hfe]
  · simp [hfr _ h]
  · rw [h]; simp [hfe]
  · simp [hfr _ h]
  · cases h1 : formatRegisters mq with
    | none => simp
    | some a =>
      cases h2 : formatRegisters (prepared.getD mq) with
      | none => simp
      | some b =>
        rw [hsome _ _ h1] 
        rw [hsome _ _ h2]
        simp [h]

/-- **C48** (finding): choosing the SIC preparation basis alone is refused: the default preparation labels stay
those of the Pauli basis. -/
theorem C48_finding_sic_needs_labels :
    processTomographyCircuits ([] : List (Op ℕ)) [0] none pauliLabels pauliArg pauliLabels (.name "SIC".toList) = none ∧
    (processTomographyCircuits ([] : List (Op ℕ)) [0] none pauliLabels pauliArg (.builtin "SIC".toList)
      (.name "SIC".toList)).isSome = true := by
  decide +kernel

/-- **C48** (finding): the pairs of `tomography_circuit_tuples` are (preparation, measurement), not the documented
(measurement, preparation). -/
theorem C48_finding_tuple_order :
    ∃ t, tomographyCircuitTuples 1 pauliLabels pauliLabels = some t ∧
      t.head? = some (some ["Zp".toList], some ["X".toList]) := by
  exact ⟨_, rfl, rfl⟩

/-- Two qubits, out of order. -/
example : ∃ cs, stateTomographyCircuits [Op.user 7] [3, 1] pauliLabels pauliArg = some cs ∧
    cs.length = 9 ∧ cs[5]? = some ⟨"('Y', 'Z')".toList, [.user 7, .barrier, .gate .sdg 3, .gate .h 3, .measure 3 (.tomo 0),
      .measure 1 (.tomo 1)]⟩ := by
  refine ⟨_, rfl, rfl, rfl⟩

example : ([3, 1] : List ℕ) ≠ [] ∧ ([3, 1] : List ℕ).Nodup := by decide

example : ∃ cs, processTomographyCircuits [Op.user 7] [3] (some [2]) pauliLabels pauliArg pauliLabels pauliArg = some cs ∧
    cs.length = 12 ∧ cs[10]? = some ⟨"(('Yp',), ('Y',))".toList,
      [.gate .h 2, .gate .s 2, .barrier, .user 7, .barrier, .gate .sdg 3, .gate .h 3, .measure 3 (.tomo 0)]⟩ := by
  refine ⟨_, rfl, rfl, rfl⟩

end Verif.Tomo
