# Counts -------------------------------------------------------------------------------------
CM = "Counts/Model.lean"
CT = "Verif.Counts.Props"
m("counts-01", CM, "countKeys", "(List.range (2 ^ n)).map", "(List.range (2 ^ n - 1)).map", "C01",
  "the all-ones key is missing", CT)
m("counts-02", CM, "rgxHelper", "if y ∈ qubits then Rgx.lit (key.getD (qubits.idxOf y) '?') :: x else Rgx.digit :: x",
  "if y ∈ qubits then x ++ [Rgx.lit (key.getD (qubits.idxOf y) '?')] else x ++ [Rgx.digit]", "C02",
  "regular expression built in the wrong bit order", CT)
m("counts-03", CM, "matchSum", "then c + kv.2 else c) 0", "then kv.2 else c) 0", "C03",
  "matching counts overwrite instead of adding", CT)
m("counts-04", CM, "marginalCounts", "let qubits := sortDesc mq", "let qubits := mq", "C02",
  "the measured qubits are not sorted", CT)
m("counts-05", CM, "marginalCounts", "if kv.2 ≠ 0 then ret.set kv.1 kv.2 else ret", "if kv.2 > 1 then ret.set kv.1 kv.2 else ret",
  "C03", "entries with one shot are dropped without padding", CT)
m("counts-06", CM, "marginalCounts", "if numQubits = mq.length then some noMarg", "if numQubits ≤ mq.length + 1 then some noMarg", "C02",
  "marginalisation skipped when one qubit is left out", CT)
m("counts-07", CM, "combineCounts", "| some v => ret.set kv.1 (v + kv.2)", "| some _ => ret.set kv.1 kv.2", "C05",
  "common keys are overwritten", CT)
m("counts-08", CM, "combineCounts", "    | none => ret.set kv.1 kv.2) counts1", "    | none => ret) counts1", "C05",
  "keys only in the second dictionary are lost", CT)
m("counts-09", CM, "buildCountsDictFromList", "(kv.2 + acc.getD kv.1 0)", "(kv.2)", "C06", "later results overwrite", CT)
m("counts-10", CM, "buildCountsDictFromList", "  | [c] => c\n  | _ => l.foldl", "  | [c] => c\n  | _ => l.tail.foldl", "C06", "first result ignored", CT)
m("counts-11", CM, "expSum", "(-1) ^ (kv.1.count '1')", "(-1) ^ (kv.1.count '0')", "C07", "sign by zeros", CT)
m("counts-12", CM, "expectationCounts", "combinations (r + 1) (List.range numq)", "combinations r (List.range numq)", "C07",
  "the full subset is skipped", CT)
m("counts-13", CM, "expOp", "op.set q '1'", "op.set (numq - 1 - q) '1'", "C07", "operator labels in the other order", CT)
m("counts-14", CM, "marginalCounts", "counts.foldl (fun ret kv => ret.set (trimSpaces kv.1) kv.2) []",
  "counts.foldl (fun ret kv => ret.set kv.1 kv.2) []", "C02", "blanks kept in the unmarginalised branch", CT)

# Repetition code ------------------------------------------------------------------------------
RM = "RepCode/Model.lean"
RT = "Verif.RepCode.Props"
m("rep-01", RM, "Code.syndromeMeasurement", "Op.cx (Qb.code (j + 1)) (Qb.link j)", "Op.cx (Qb.code (j + 2)) (Qb.link j)", "C08",
  "second parity check uses the wrong neighbour", RT)
m("rep-02", RM, "mkCode", "let self := self.rounds (T - 1)", "let self := self.rounds T", "C08", "one round too many", RT)
m("rep-03", RM, "Code.syndromeMeasurement", "(if reset then [Op.reset (Qb.link j)] else [])", "(if reset then [] else [])", "C10",
  "ancillas not reset", RT)
m("rep-04", RM, "changeAt", "pure (bitChar (c != '0'))", "pure (bitChar (c == '0'))", "C08", "first round inverted", RT)
m("rep-05", RM, "changeAt", "let b ← negIdx syndromeList (t + 1)", "let b ← negIdx syndromeList t", "C09",
  "a round compared with itself", RT)
m("rep-06", RM, "processString", "let last ← string[d - 1]?", "let last ← string[0]?", "C11",
  "both boundary values read from one end", RT)
m("rep-07", RM, "processString", "pure (if a = b then '0' else '1')", "pure (if a = b then '1' else '0')", "C08",
  "final parity inverted", RT)
m("rep-08", RM, "processString", "let blocks ← (List.range (T + 1)).mapM", "let blocks ← (List.range T).mapM", "C09",
  "final round dropped", RT)
m("rep-09", RM, "processCounts", "pure (acc.set s kv.2)) []", "pure (acc.set s 1)) []", "C09", "counts lost", RT)
m("rep-10", RM, "string2nodes", "if element = '1' then some (synType, synRound, elemNum) else none",
  "if element = '1' ∧ synType ≠ 0 then some (synType, synRound, elemNum) else none", "C10", "boundary nodes skipped", RT)
m("rep-11", RM, "postselection", "(joinSep [' ', ' '] ((splitDouble kv.1).drop 1)).all", "(joinSep [' ', ' '] (splitDouble kv.1)).all",
  "C11", "postselects on the logical readout as well", RT)
m("rep-12", RM, "lookuptable", "p (!log) > p log", "p (!log) ≥ p log", "C11", "ties counted as incorrect", RT)
m("rep-13", RM, "logicalProb", "| some v => acc.set s (v + kv.2)", "| some _ => acc.set s kv.2", "C11", "merged strings overwrite", RT)
m("rep-14", RM, "Code.readout", "Op.measure (Qb.code j) (Reg.code, j)", "Op.measure (Qb.code j) (Reg.code, self.d - 1 - j)", "C10",
  "code bits stored in reverse", RT)
m("rep-15", RM, "Code.syndromeMeasurement", "(linkBits.getD self.T Reg.code, j)", "(linkBits.getD (self.T - 1) Reg.code, j)", "C10",
  "syndrome written to the previous register", RT)
m("rep-16", RM, "Code.x", "(List.range self.d).map fun j => Op.x", "(List.range (self.d - 1)).map fun j => Op.x", "C08",
  "last code qubit not flipped", RT)
m("rep-17", RM, "changeAt", "    let a ← negIdx syndromeList t\n    let b ← negIdx syndromeList (t + 1)",
  "    let a ← negIdx syndromeList (t + 1)\n    let b ← negIdx syndromeList (t + 1)", "C09", "same-round comparison", RT)

# Measurement mitigation ---------------------------------------------------------------------
MM = "MeasMit/Model.lean"
MT = "Verif.MeasMit.Props Verif.MeasMit.PropsFit Verif.MeasMit.PropsSubset Verif.MeasMit.PropsFilter"
m("meas-01", MM, "collectQubits", "if q ∈ acc then none else some (acc ++ [q])", "some (acc ++ [q])", "C12",
  "repeated qubits accepted", MT)
m("meas-02", MM, "stateLabels", "ls.take sz ++ basis", "basis ++ ls.take sz", "C12", "groups in the wrong order", MT)
m("meas-03", MM, "prepOps", "sub.getD (ql.length - k - 1) ' '", "sub.getD k ' '", "C12", "x gates on mirrored qubits", MT)
m("meas-04", MM, "measOps", "(nqubits - (st.1 - k))", "(st.1 - k - 1)", "C12", "measured into mirrored bits", MT)
m("meas-05", MM, "tensoredMeasCal", "pure (qs, m + 1, p)", "pure (qs, m, p)", "C12", "register one qubit too small", MT)
m("meas-06", MM, "addShotsStep", "Mat.bump g.1.1 i j cnt", "Mat.bump g.1.1 j i cnt", "C13", "transposed matrix", MT)
m("meas-07", MM, "addShotsStep", "let i ← g.2.get? (slice measured start st.1)", "let i ← g.2.get? (slice measured 0 g.1.2)", "C13",
  "always reads the left-most group", MT)
m("meas-08", MM, "normalise", "colSum (2 ^ size) m j ≠ 0 then m i j / colSum (2 ^ size) m j", "colSum (2 ^ size) m i ≠ 0 then m i j / colSum (2 ^ size) m i", "C13",
  "normalised by the wrong column", MT)
m("meas-09", MM, "Fitter.addData", "results := f.results ++ rs }", "results := rs }", "C14", "earlier results forgotten", MT)
m("meas-10", MM, "accumulate", "let cnts ← getCounts r e.1", "let cnts ← getCounts (r.drop 1) e.1", "C13", "first experiment skipped", MT)
m("meas-11", MM, "subsetFitter", "/ ((mapping i).length : ℚ)", "/ ((mapping i).length + 1 : ℚ)", "C17", "wrong average", MT)
m("meas-12", MM, "subsetFitter", "if sublist.all (· ∈ qubitList) then", "if true then", "C17", "unknown qubits accepted", MT)
m("meas-13", MM, "measApplyDict", "if raw.all fun p => p.1 ∈ labels then", "if true then", "C15", "unknown keys silently dropped", MT)
m("meas-14", MM, "measApplyDict", "if x p.2 ≠ 0 then d.set p.1 (x p.2) else d", "if x p.2 = 1 then d.set p.1 (x p.2) else d", "C15",
  "wrong filter on the output", MT)
m("meas-15", MM, "measApplyList", "raw.getD (c * nlabels + j) 0", "raw.getD (c + j) 0", "C15", "chunks overlap", MT)
m("meas-16", MM, "groupStep", "g.2.2 a b", "g.2.2 b a", "C16", "transposed inverse", MT)
m("meas-17", MM, "groupStep", "pure (start, p, decide (p = 0))", "pure (st.1, p, decide (p = 0))", "C16", "end index not moved", MT)
m("meas-18", MM, "tensoredApply", "pure (t * v p.2)", "pure (t + v p.2)", "C16", "sum instead of product", MT)
m("meas-19", MM, "tensoredApply", "if v p.2 = 0 then some 0", "if v p.2 = 1 then some 0", "C16", "skips weight one", MT)
m("meas-20", MM, "completeMeasCal", "pure (circs, countKeys ql.length)", "pure (circs, countKeys qr)", "C12", "labels of the whole register", MT)
m("meas-21", MM, "calState", "(circlabel ++ \"cal_\".toList).reverse", "(\"cal_\".toList).reverse", "C13", "label prefix ignored", MT)

# Accreditation --------------------------------------------------------------------------------
AM = "Accred/Model.lean"
AT = "Verif.Accred.Props Verif.Accred.PropsFit"
m("accred-01", AM, "updatePauli", "Function.update zx.2 inds.2 (Bool.xor (zx.2 inds.2) (zx.2 inds.1)))", "Function.update zx.2 inds.1 (Bool.xor (zx.2 inds.2) (zx.2 inds.1)))", "C31",
  "X propagates to the control", AT)
m("accred-02", AM, "updatePauli", "Function.update z1 inds.2 (Bool.xor (z1 inds.2) (zx.2 inds.1))", "z1", "C31", "only one Z is propagated through CZ", AT)
m("accred-03", AM, "qotpStep", "pure (circ, padXZ zx.1 zx.2)", "pure (circ, padXZ zs xs)", "C31", "old Paulis undone after the layer", AT)
m("accred-04", AM, "qotpFromLayers", "((List.finRange n).map xs).reverse", "((List.finRange n).map xs)", "C31", "pad not flipped", AT)
m("accred-05", AM, "qotpFromLayers", "((List.finRange n).map xs).reverse", "((List.finRange n).map zs).reverse", "C31", "Z bits recorded", AT)
m("accred-06", AM, "parseStep", "if a ∈ st.current ∨ b ∈ st.current then newLayer st else st", "if a ∈ st.current ∧ b ∈ st.current then newLayer st else st", "C31",
  "overlapping gates put in one layer", AT)
m("accred-07", AM, "parseStep", "if q ∈ st.current then some { st with single := appendAt st.single 1 (.u mat q) }", "if q ∉ st.current then some { st with single := appendAt st.single 1 (.u mat q) }", "C31",
  "gates put on the wrong side of the two-qubit layer", AT)
m("accred-08", AM, "parseStep", "single := appendAt (appendAt st.single 1 (.h b)) 2 (.h b)", "single := appendAt (appendAt st.single 1 (.h a)) 2 (.h a)", "C31",
  "Hadamards on the control", AT)
m("accred-09", AM, "layerParser", "pure ⟨st.single.dropLast, st.two.dropLast, st.meas, g⟩", "pure ⟨st.single.dropLast.dropLast, st.two.dropLast, st.meas, g⟩", "C31",
  "last single-qubit layer lost", AT)
m("accred-10", AM, "correctString", "if Bool.xor (p.1 == '1') p.2 then", "if (p.1 == '1') || p.2 then", "C32", "or instead of xor", AT)
m("accred-11", AM, "trapPair", "| .cx, false => some ([.s p.1], [.sdg p.1])", "| .cx, false => some ([.s p.1], [.s p.1])", "C33", "S not undone", AT)
m("accred-12", AM, "trapPair", "| .cz, true => some ([.h p.1, .s p.2], [.h p.1, .sdg p.2])", "| .cz, true => some ([.h p.1, .h p.2], [.h p.1, .h p.2])", "C33",
  "wrong gates around CZ", AT)
m("accred-13", AM, "routineTwo", "pure (if basis then trap.modify (trap.length - 1) (· ++ hs) else trap)", "pure trap", "C33", "final Hadamards missing", AT)
m("accred-14", AM, "trapIdle", "if r then ([.h q], [.h q]) else", "if r then ([.h q], []) else", "C33", "idle qubit not undone", AT)
m("accred-15", AM, "generateCircuits", "if k = vZero then", "if k = vZero + 1 then", "C33", "target at the wrong position", AT)
m("accred-16", AM, "singleProtocolRun", "p.2 ≠ vZero ∧ p.1 ≠ List.replicate", "p.1 ≠ List.replicate", "C34", "target treated as a trap", AT)
m("accred-17", AM, "singleProtocolRun", "pure (outputs ++ [target], { f with nAcc := f.nAcc + 1 })", "pure (outputs ++ [target], f)", "C34", "accepted runs not counted", AT)
m("accred-18", AM, "singleProtocolRun", "if bad then pure (outputs, {", "if bad then pure (outputs ++ [[]], {", "C34", "rejected runs recorded", AT)
m("accred-19", AM, "boundVariationDistance", "if b > 1 then 1 else b }", "b }", "C34", "bound not capped", AT)
m("accred-20", AM, "boundVariationDistance", "(f.nAcc : Rat) / f.numRuns\n", "(f.numRuns : Rat) / f.nAcc\n", "C34", "share inverted", AT)
m("accred-21", AM, "padXZ", "(if xs q then [Gate.x q] else []) ++ (if zs q then [Gate.z q] else [])", "(if xs q then [Gate.x q] else [])", "C31", "Z not undone", AT)
# CNOT-dihedral --------------------------------------------------------------------------------
DM = "Dihedral/Model.lean"
DT = "Verif.Dihedral.Props Verif.Dihedral.LemmasInv Verif.Dihedral.LemmasTensor Verif.Dihedral.LemmasBuild"
DT2 = "Verif.Dihedral.LemmasSmall"
m("dihedral-01", DM, "off2", "let offset_2 := j - i - 1\n  offset_1 + offset_2", "let offset_2 := j - i\n  offset_1 + offset_2", "C35", "off by one in the quadratic position", DT)
m("dihedral-02", DM, "off3", "let offset_3 := n - k\n", "let offset_3 := k - j\n", "C35", "wrong cubic position", DT)
m("dihedral-03", DM, "setTerm", "let value := value % 8\n", "let value := value % 4\n", "C35", "wrong modulus", DT)
m("dihedral-04", DM, "okIdx", "decide (ab.2 ≤ ab.1))", "decide (ab.2 < ab.1))", "C35", "repeated indices accepted", DT)
m("dihedral-05", DM, "mulMonomialStep", "setTerm result new_term ((old + value) % 8)", "setTerm result new_term value", "C36", "coefficients overwritten instead of added", DT)
m("dihedral-06", DM, "add", "(fun a b => (a + b) % 8) p.w2 q.w2", "(fun a b => (a + b) % 8) p.w2 p.w2", "C36", "swapped operand", DT)
m("dihedral-07", DM, "mulStep", "let temp ← mulMonomial so p term", "let temp ← mulMonomial so q term", "C38", "wrong operand", DT)
m("dihedral-08", DM, "setPj", "(combs indices 2).foldlM (fun p j => setTerm p j 6) p", "(combs indices 2).foldlM (fun p j => setTerm p j 2) p", "C38", "x+y-2xy with the wrong sign", DT)
m("dihedral-09", DM, "newVar", "(poly.w0 + 1) % 8", "(poly.w0 + 7) % 8", "C38", "shifted variable", DT)
m("dihedral-10", DM, "elemMul", "let linear := z2matmul self.linear other.linear\n  let new_vars ← (List.finRange n).mapM fun i => newVar (other.linear i)", "let linear := z2matmul other.linear self.linear\n  let new_vars ← (List.finRange n).mapM fun i => newVar (other.linear i)", "C38", "matrices multiplied in the wrong order", DT)
m("dihedral-11", DM, "elemMul", "let new_vars ← (List.finRange n).mapM fun i => newVar (other.linear i) (other.shift i)", "let new_vars ← (List.finRange n).mapM fun i => newVar (other.linear i) (self.shift i)", "C38", "shift of the wrong operand", DT)
m("dihedral-12", DM, "cnot", "linear := Function.update e.linear ⟨j, h.2⟩", "linear := Function.update e.linear ⟨i, h.1⟩", "C37", "control row updated", DT)
m("dihedral-13", DM, "cnot", "shift := Function.update e.shift ⟨j, h.2⟩ ((e.shift ⟨i, h.1⟩ + e.shift ⟨j, h.2⟩) % 2) }", "shift := e.shift }", "C37", "shift not updated", DT)
m("dihedral-14", DM, "phase", "if e.shift ⟨i, h⟩ = 1 then (7 * k) % 8 else k", "k", "C37", "phase not negated on a flipped qubit", DT)
m("dihedral-15", DM, "phase", "let p ← addTerms (combs supp 3) (4 * k) p", "let p ← addTerms (combs supp 3) (2 * k) p", "C37", "wrong cubic coefficient", DT)
m("dihedral-16", DM, "phase", "let p ← addTerms (combs supp 2) (-2 * k) p", "let p ← addTerms (combs supp 2) (2 * k) p", "C37", "wrong quadratic sign", DT)
m("dihedral-17", DM, "appendGate", "| .z q => phase e 4 q", "| .z q => phase e 2 q", "C37", "S instead of Z", DT)
m("dihedral-18", DM, "appendGate", "    let e ← flip e q\n    phase e 4 q", "    flip e q", "C37", "Y treated as X", DT)
m("dihedral-19", DM, "appendGate", "    let e ← cnot e b a\n    let e ← phase e 2 a\n    let e ← cnot e b a\n", "    let e ← cnot e b a\n    let e ← phase e 2 a\n    let e ← cnot e a b\n", "C37", "CZ with a wrong CX", DT)
m("dihedral-20", DM, "compose", "let r ← if front then elemMul so self other else elemMul so other self", "let r ← if front then elemMul so other self else elemMul so self other", "C38", "front inverted", DT)
m("dihedral-21", DM, "dot", "let r ← elemMul so self other\n  pure { r with poly := { r.poly with w0 := 0 } }", "elemMul so self other", "C38", "constant term kept", DT)
m("dihedral-22", DM, "isCnotDihedral", "else if !detOdd e.linear then false\n", "", "C40", "singular elements accepted", DT)
m("dihedral-23", DM, "redPivot", "      let s ← redCx j i s\n      let s ← redCx i j s\n      redCx j i s", "      let s ← redCx j i s\n      redCx i j s", "C39", "swap needs three CX", DT)
m("dihedral-24", DM, "redClearStep", "if s.1.linear j i ≠ 0 then redCx i j s else pure s", "if s.1.linear i j ≠ 0 then redCx i j s else pure s", "C39", "transposed entry tested", DT)
m("dihedral-25", DM, "step3", "build [.cx i k, .cx j k, .u1 1 k, .cx i k, .cx j k] s", "build [.cx i k, .cx j k, .u1 1 k, .cx j k] s", "C39", "missing CX", DT)
m("dihedral-26", DM, "step2", "let tpow := ((tpow2 - tpow1) / 2) % 4", "let tpow := ((tpow1 - tpow2) / 2) % 4", "C39", "wrong sign", DT)
m("dihedral-27", DM, "step1", "let tpow := (tpow1 - tpow2) % 8", "let tpow := tpow1 % 8", "C39", "linear part already there ignored", DT)
m("dihedral-28", DM, "decomposeGeneral", "pure (b.2 ++ invCircuit s.2)", "pure (invCircuit s.2 ++ b.2)", "C39", "parts in the wrong order", DT)
m("dihedral-29", DM, "invCircuit", "(c.map Gate.inv).reverse", "c.map Gate.inv", "C73", "not reversed", DT)
m("dihedral-30", DM, "Gate.conj", "| .u1 k q => .u1 (8 - k) q", "| .u1 k q => .u1 (4 - k) q", "C73", "wrong period", DT)
m("dihedral-31", DM, "copyTerms", "setTerm d [j + s, i + s] v", "setTerm d [j, i + s] v", "C74", "index not moved", DT)
m("dihedral-32", DM, "copyTerms", "let v ← getTerm src [k, j, i]", "let v ← getTerm src [j, i]", "C74", "wrong coefficient copied", DT)
m("dihedral-33", DM, "tensorCore", "Fin.addCases e0.shift e1.shift i", "Fin.addCases e0.shift (fun _ => 0) i", "C74", "shift dropped", DT)
m("dihedral-34", DM, "randomElem", "w2.map fun (a : Fin 4) => 2 * ((a : ℕ) : ℤ)", "w2.map fun (a : Fin 4) => ((a : ℕ) : ℤ)", "C75", "odd quadratic coefficients", "Verif.Dihedral.PropsDecomp")
m("dihedral-35", DM, "decompose2CS", "dihedralPrefix ((w10 - 4 * x1) % 8) x0 ((w11 - 4 * x0) % 8) x1 ++ [.cz 1 0]", "dihedralPrefix ((w10 - 4 * x0) % 8) x0 ((w11 - 4 * x1) % 8) x1 ++ [.cz 1 0]", "C39", "swapped corrections in the CZ class", DT2)
m("dihedral-36", DM, "cxPowers", "let m := (w2 / 2) % 4\n    (m, (w10 + m) % 8, (w11 + m) % 8)", "let m := (w2 / 2) % 4\n    (m, (w10 - m) % 8, (w11 - m) % 8)", "C39", "wrong sign", DT2)
m("dihedral-37", DM, "decompose2", "[.cx 0 1, .cx 1 0] ++ u1If r.1 1 ++ [.cx 0 1]", "[.cx 0 1, .cx 1 0] ++ u1If r.1 0 ++ [.cx 0 1]", "C39", "phase on the wrong qubit", DT2)
m("dihedral-38", DM, "decompose1", "u1If tpow0 0 ++ xIf xpow0 0", "xIf xpow0 0 ++ u1If tpow0 0", "C39", "gates swapped", DT2)

RM = "RB/Model.lean"
RT = "Verif.RB.Props"
m("rb-01", RM, "innerStep", "let e ← G.compose cur new\n  let c", "let e ← G.compose new cur\n  let c", "C41", "composition order swapped", RT)
m("rb-02", RM, "innerStep", "circ := st.circ ++ c ++ [.barrier pat], rseed", "circ := c ++ st.circ ++ [.barrier pat], rseed", "C41", "element prepended", RT)
m("rb-03", RM, "interStep", "let e2 ← G.compose e1 el", "let e2 ← some e1", "C41", "interleaved element not accumulated", RT)
m("rb-04", RM, "interStep", "++ c1 ++ [.barrier pat] ++ c2 ++ [.barrier pat]", "++ c2 ++ [.barrier pat] ++ c1 ++ [.barrier pat]", "C41", "interleaved element before the random one", RT)
m("rb-05", RM, "Group.inverse", "  invCirc circ", "  some circ", "C41", "circuit not inverted", RT)
m("rb-06", RM, "invCirc", "(c.mapM Ins.inv).map List.reverse", "c.mapM Ins.inv", "C41", "inverse not reversed", RT)
m("rb-07", RM, "Kind.inv", "| .t k => .t (-k)", "| .t k => .t k", "C41", "T inverted wrongly", RT)
m("rb-08", RM, "replaceIns", "| .gate k qs => (qs.mapM fun x => qNums[x]?).map (Ins.gate k)", "| .gate k qs => some (Ins.gate k qs)", "C41", "qubits not relabelled", RT)
m("rb-09", RM, "patStep", "(List.range m.toNat).foldlM", "(List.range 1).foldlM", "C42", "multiplier ignored", RT)
m("rb-10", RM, "lengthStep", "if (idx : ℤ) + 1 = target", "if (idx : ℤ) = target", "C42", "off by one in the length test", RT)
m("rb-11", RM, "lengthStep", "li := lp.li + 1, out := lp.out ++ [s]", "li := lp.li, out := lp.out ++ [s]", "C42", "length index not advanced", RT)
m("rb-12", RM, "lengthStep", "finish G cfg dihedral isPurity maxDim lp.li (seed + seedOffset) st", "finish G cfg dihedral isPurity maxDim lp.li seed st", "C42", "seed offset not in the name", RT)
m("rb-13", RM, "suffix", "\"_length_\".toList ++ fmtD li ++ \"_seed_\".toList ++ fmtD s", "\"_length_\".toList ++ fmtD li ++ fmtD s", "C42", "names may collide", RT)
m("rb-14", RM, "measures", "flat.zipIdx.map fun qi => .measure qi.1 qi.2", "flat.zipIdx.map fun qi => .measure qi.1 qi.1", "C41", "classical bit is the qubit number", RT)
m("rb-15", RM, "purityLetter", "if r = 0 then 'Z' else if r = 1 then 'X' else 'Y'", "if r = 0 then 'Z' else if r = 1 then 'X' else 'X'", "C42", "purity names collide", RT)
m("rb-16", RM, "finish", "dih := ⟨if dihedral then ty ++ \"_X\".toList ++ suf else []", "dih := ⟨if dihedral then ty ++ \"_Z\".toList ++ suf else []", "C42", "X circuits named Z", RT)
m("rb-17", RM, "checkPattern", "decide (flat.count q > 1)", "decide (flat.count q > 2)", "C43", "a qubit may occur twice", RT)
m("rb-18", RM, "checkPattern", "else if isPurity && decide (dim.dedup.length > 1) then none", "else if isPurity && decide (dim.dedup.length > 2) then none", "C43", "purity with two sizes", RT)
m("rb-19", RM, "handleMult", "decide (k < 1)", "decide (k < 0)", "C43", "zero multiplier accepted", RT)
m("rb-20", RM, "handleMult", "else if l.length ≠ lenPattern then .none", "else if l.length < lenPattern then .none", "C43", "too many multipliers accepted", RT)
m("rb-21", RM, "groupOf", "[\"0\", \"Clifford\", \"clifford\"]", "[\"0\", \"1\", \"Clifford\", \"clifford\"]", "C44", "name in the wrong group", RT)
m("rb-22", RM, "closeStep", "let inv ← G.inverse e\n", "let inv ← G.toCircuit e\n", "C41", "inverse missing", RT)
m("rb-23", RM, "finish", "let circ ← closeSeq G cfg.pattern st.elts st.circ", "let circ ← closeSeq G cfg.pattern st.ielts st.circ", "C41", "wrong running elements inverted", RT)
m("rb-24", RM, "bumpSeed", "some (.int (s + (seed + 1)))", "some (.int (s + seed))", "C42", "first seed draws repeat", RT)
m("rb-25", RM, "alignStep", "icirc := if cfg.inter.isSome then st.icirc ++ [.barrier cfg.pattern.flatten] else st.icirc }", "icirc := st.circ }", "C41", "interleaved circuit overwritten", RT)
m("rb-26", RM, "calcXdata", "mult.map fun m => lengthVector.map fun l => l * m", "mult.map fun m => lengthVector.map fun l => l + m", "C42", "wrong xdata", RT)
m("rb-27", RM, "pack", "(List.range (3 ^ maxDim)).map fun d => l.filterMap fun s => s.purity[d]?", "(List.range (3 ^ maxDim)).map fun d => l.filterMap fun s => s.purity[d + 1]?", "C42", "purity circuits shifted", RT)
m("rb-28", RM, "xCirc", "flat.flatMap (fun q => [.barrier [q], .gate .h [q]]) ++ measures flat", "measures flat", "C41", "final Hadamards missing", RT)
m("rb-29", RM, "purityRot", "(if rk.1 = 1 then .rx90 else .ry90)", "(if rk.1 = 1 then .ry90 else .rx90)", "C41", "rotation axes exchanged", RT)
m("rb-30", RM, "seedStep", "elts := ids, ielts := ids, rseed := acc.1, draws := acc.2.1", "elts := ids, ielts := ids, rseed := acc.1, draws := 0", "C42", "random generator restarted for every seed", RT)

UM = "RB/Utils.lean"
UT = "Verif.RB.PropsUtils"
m("rbu-01", UM, "bump", "some v => d.set q (e.set name (v + 1))", "some v => d.set q (e.set name 1)", "C76", "count overwritten", UT)
m("rbu-02", UM, "gatesPerClifford", "((lengths.map fun l => l + 1).sum : ℤ)", "((lengths.map fun l => l).sum : ℤ)", "C76", "inverse not counted", UT)
m("rbu-03", UM, "coherenceLimit", "2 / 3 * Real.exp (-g / b) - 1 / 3 * Real.exp (-g / a)", "2 / 3 * Real.exp (-g / b) - 2 / 3 * Real.exp (-g / a)", "C77", "wrong weight", UT)
m("rbu-04", UM, "coherenceLimit", "4 / 15 * Real.exp (-g * (1 / b0 + 1 / b1))", "2 / 15 * Real.exp (-g * (1 / b0 + 1 / b1))", "C77", "wrong weight", UT)
m("rbu-05", UM, "epg1q", "(\"u3\".toList, 2 * epc / (n2 + 2 * n3))", "(\"u3\".toList, epc / (n2 + 2 * n3))", "C45", "u3 counted once", UT)
m("rbu-06", UM, "epg2q", "some (3 / 4 * (1 - c2) / n)", "some (3 / 4 * (1 - c2))", "C45", "not divided by the number of gates", UT)
m("rbu-07", UM, "epc2q", "pow? (1 - 4 / 3 * epg) n", "pow? (1 - 3 / 4 * epg) n", "C45", "wrong factor", UT)
m("rbu-08", UM, "twoQStep", "some (s.1, s.2.1 * p, s.2.2)", "some (s.1 * p, s.2.1, s.2.2)", "C78", "wrong qubit", UT)
m("rbu-09", UM, "divide", "e.set qb.2 (v / total)", "e.set qb.2 v", "C76", "not divided", UT)
FM = "RB/Fit.lean"
m("rbf-01", FM, "addSeed", "if s ∈ seeds then seeds else seeds ++ [s]", "seeds ++ [s]", "C46", "seeds repeated", "Verif.RB.PropsFit")
m("rbf-02", FM, "addResult", "⟨seeds, st.results ++ [r]⟩", "⟨seeds, [r]⟩", "C46", "earlier results lost", "Verif.RB.PropsFit")
m("rbf-03", FM, "seedOf", "(splitChar '_' name).getLast?", "(splitChar '_' name).head?", "C46", "wrong part of the name", "Verif.RB.PropsFit")
m("rbf-04", FM, "rawPatterns", "ps ls (lo + p.length)", "ps ls lo", "C46", "all patterns read the first bits", "Verif.RB.PropsFit")
m("rbf-05", FM, "rawEntry", "(List.range' lo len)) false", "(List.range' (lo + 1) len)) false", "C46", "shifted bits", "Verif.RB.PropsFit")
m("rbf-06", FM, "circCounts", "(List.range nlen).map", "(List.range (nlen - 1)).map", "C46", "last length lost", "Verif.RB.PropsFit")
m("rbf-07", FM, "getCounts", "fun e => e.1 = name", "fun e => e.1.length = name.length", "C46", "wrong circuit", "Verif.RB.PropsFit")
m("rbf-08", FM, "pooled", "st.results.filterMap fun r => getCounts r name", "(st.results.filterMap fun r => getCounts r name).take 1", "C46", "only the first result used", "Verif.RB.PropsFit")
m("rbf-09", FM, "epc", "(nrb - 1) / nrb * (1 - alpha)", "(nrb - 1) / nrb * alpha", "C47", "fidelity instead of error", "Verif.RB.PropsErr")
m("rbf-10", FM, "interleaved", "(nrb - 1) * (1 - alphaC / alpha) / nrb", "(nrb - 1) * (1 - alpha / alphaC) / nrb", "C47", "decays swapped", "Verif.RB.PropsErr")
m("rbf-11", FM, "interleaved", "sys, epc_est - sys, epc_est + sys⟩", "sys, epc_est + sys, epc_est - sys⟩", "C47", "bounds swapped", "Verif.RB.PropsErr")
m("rbf-12", FM, "dihedral", "(alphaZ + nrb * alphaR) / (nrb + 1)", "(alphaZ + nrb * alphaR) / nrb", "C47", "wrong normalisation", "Verif.RB.PropsErr")
m("rbf-13", FM, "fitGuess", "(y0 - b) / g1 ^ m0", "(y0 - b) / g1 ^ m1", "C79", "wrong length", "Verif.RB.PropsErr")
m("rbf-14", FM, "fitGuess", "dy ^ (1 / (dcliff : ℝ))", "dy", "C79", "root missing", "Verif.RB.PropsErr")
m("rbf-15", FM, "purity", "let alpha_pur := Real.sqrt alpha", "let alpha_pur := alpha", "C47", "square root missing", "Verif.RB.PropsErr")
PM = "RB/Purity.lean"
m("rbp-01", PM, "lut", "[3, 1, 2]", "[3, 2, 1]", "C80", "X and Y exchanged", "Verif.RB.PropsPurity")
m("rbp-02", PM, "F234", "(a / 2) (b / 3)", "(a / 2) (b / 2)", "C80", "wrong digit", "Verif.RB.PropsPurity")
m("rbp-03", PM, "zsign", "i &&& j", "i ||| j", "C80", "wrong sign", "Verif.RB.PropsPurity")
m("rbp-04", PM, "accStep", "st.2.modify zv.1 (· + 1)", "st.2.modify zv.1 (fun _ => 1)", "C80", "multiplicity lost", "Verif.RB.PropsPurity")
m("rbp-05", PM, "purityOf", ".sum / 2 ^ n)", ".sum / 4 ^ n)", "C80", "wrong normalisation", "Verif.RB.PropsPurity")

# ---- expectation value mitigation
XM = "Expval/Model.lean"
XP, XA, XT, XO = "Verif.Expval.Props", "Verif.Expval.PropsAmat", "Verif.Expval.PropsMit", "Verif.Expval.PropsMore"
m("exp-01", XM, "methodLabels", "List.replicate (n - i - 1) '0' ++ '1' :: List.replicate i '0'", "List.replicate i '0' ++ '1' :: List.replicate i '0'", "C18", "wrong padding of the weight-one labels", XP)
m("exp-02", XM, "calibrationCircuit", "label.reverse.zipIdx.flatMap", "label.zipIdx.flatMap", "C18", "label not reversed", XP)
m("exp-03", XM, "expvalVar", "(sq - expval ^ 2) / shots", "(sq - expval) / shots", "C20", "mean not squared", XP)
m("exp-04", XM, "coeffOf", "(key.count '1' % 2)", "(key.count '0' % 2)", "C20", "parity of the zeros", XP)
m("exp-05", XM, "remapAxes", "(argsort qubits).reverse.map fun i => n - 1 - i", "(argsort qubits).map fun i => n - 1 - i", "C21", "axes not reversed", XP)
m("exp-06", XM, "transposeIdx", "bit k (n - 1 - p.2) * 2 ^ (n - 1 - p.1)", "bit k (n - 1 - p.1) * 2 ^ (n - 1 - p.2)", "C21", "inverse permutation", XP)
m("exp-07", XM, "countsProbabilityVector", "if qs.length ≠ n then none", "if qs.length < n then none", "C21", "too many qubits accepted", XP)
m("exp-08", XM, "amatMask", "if i ∈ qubits then mask else mask + 2 ^ i", "if i ∈ qubits then mask + 2 ^ i else mask", "C19", "mask of the wrong qubits", XA)
m("exp-09", XM, "accumLocal", "addAt m (amatIndex kv.1 qubits) (amatIndex cal qubits)", "addAt m (amatIndex cal qubits) (amatIndex kv.1 qubits)", "C19", "matrix transposed", XA)
m("exp-10", XM, "assignmentMatrix", "let renorm := fun j => ∑ i ∈ Finset.range dim, amat i j", "let renorm := fun j => ∑ i ∈ Finset.range dim, amat j i", "C19", "rows normalised instead of columns", XA)
m("exp-11", XM, "assignmentMatrix", "if (List.range dim).any (fun j => renorm j = 0) then none", "if (List.range (dim - 1)).any (fun j => renorm j = 0) then none", "C19", "last column unchecked", XA)
m("exp-12", XM, "keepIndexes", "idx.map (· + 2 ^ i)", "idx.map (· + 2 * i)", "C22", "wrong weight", XT)
m("exp-13", XM, "keptIndex", "2 * acc + bit z (N - 1 - a)", "2 * acc + bit z a", "C22", "axes reversed", XT)
m("exp-14", XM, "completeMit", "(completeAmat A N (qubits.insertionSort (· ≤ ·))).map fun m => inv (2 ^ qubits.length) m", "(completeAmat A N (qubits.insertionSort (· ≤ ·))).map fun m => m", "C22", "inverse forgotten", XT)
m("exp-15", XM, "completeExpval", "mit z x * d z) probs shots", "mit x z * d z) probs shots", "C22", "transposed mitigation matrix", XT)
m("exp-16", XM, "einsumLabel", "bit o (2 * n - 1 - l)", "bit o (l - n)", "C23", "output axes reversed", XT)
m("exp-17", XM, "tensoredCoeffs", "ainvs.reverse.zipIdx.map", "ainvs.zipIdx.map", "C23", "matrices in the wrong order", XT)
m("exp-18", XM, "listedInverses", "qs.mapM fun q => (amats[q]?).map (inv 2)", "(List.range qs.length).mapM fun q => (amats[q]?).map (inv 2)", "C23", "position used instead of the qubit", XT)
m("exp-19", XM, "kron2", "a (i / dim) (j / dim) * b (i % dim) (j % dim)", "a (i % dim) (j % dim) * b (i / dim) (j / dim)", "C24", "factors exchanged", XT)
m("exp-20", XM, "tensoredMit", "tensoredMatrix (amats.map (inv 2)) qubits", "tensoredMatrix amats qubits", "C24", "inverse forgotten", XT)
m("exp-21", XM, "tensoredGamma1", "(1 + |a 1 0 - a 0 1|)", "(1 + a 1 0 - a 0 1)", "C25", "absolute value dropped", XT)
m("exp-22", XM, "tensoredGamma", "some ((amats.map tensoredGamma1).prod)", "some ((amats.map tensoredGamma1).sum)", "C25", "sum instead of product", XT)
m("exp-23", XM, "completeGamma", "|mit i j|", "|mit j i|", "C81", "row sums", XO)
m("exp-24", XM, "requiredShots", "⌈4 * gamma ^ 2 / delta ^ 2⌉", "⌈4 * gamma / delta ^ 2⌉", "C81", "gamma not squared", XO)
m("exp-25", XM, "requiredShots", "⌈4 * gamma ^ 2 / delta ^ 2⌉", "⌈4 * gamma ^ 2 / delta ^ 2⌉ - 1", "C81", "off by one", XO)
m("exp-26", XM, "tensoredFidelity", "(a 0 0 + a 1 1) / 2", "(a 0 0 + a 1 1)", "C82", "factor 1/2 dropped", XO)
m("exp-27", XM, "combineInt", "(ret.getD kv.1 0 + kv.2)", "kv.2", "C83", "counts overwritten", XO)
m("exp-28", XM, "calStep", "if p.1.experiment = some \"meas_mit\".toList then do", "if p.1.experiment ≠ none then do", "C83", "other circuits included", XO)
m("exp-29", XM, "calStep", "| some old => st.data.set key (combineInt old c)", "| some _ => st.data.set key c", "C83", "repeated label overwrites", XO)
XC = "Expval/Ctmp.lean"
XG, XW = "Verif.Expval.PropsCtmp", "Verif.Expval.PropsWalk"
m("ctmp-01", XC, "generatorToMatrix", "gen.qubits.zip (gen.b.zip gen.a)", "gen.qubits.zip (gen.a.zip gen.b)", "C26", "b and a exchanged", XG)
m("ctmp-02", XC, "generatorToMatrix", "let ba ← tensorList baMats.reverse", "let ba ← tensorList baMats", "C26", "order of the factors", XG)
m("ctmp-03", XC, "generatorToMatrix", "gen.qubits.zip (gen.a.zip gen.a)", "gen.qubits.zip (gen.b.zip gen.b)", "C26", "loss term at the target", XG)
m("ctmp-04", XC, "addGen", "acc r c + p.2 * m r c", "acc r c - p.2 * m r c", "C26", "wrong sign", XG)
m("ctmp-05", XC, "addGen", "if ∀ q ∈ p.1.qubits, q ∈ qubits then", "if ∃ q ∈ p.1.qubits, q ∈ qubits then", "C26", "generators crossing the subset", XG)
m("ctmp-06", XC, "noiseStrength", "max m (-g j j)", "max m (g j j)", "C26", "sign of the diagonal", XG)
m("ctmp-07", XC, "samplingMatrix", "ident r c + g r c / gamma", "ident r c - g r c / gamma", "C26", "wrong sign", XG)
m("ctmp-08", XC, "keepRates", "threshold < p.2", "p.2 < threshold", "C26", "filter inverted", XG)
m("ctmp-09", XC, "pairsOf", "(List.range' (i + 1) (n - (i + 1)))", "(List.range' i (n - i))", "C29", "pairs with equal qubits", XG)
m("ctmp-10", XC, "twoQubitAsymmetric", "pairs.map fun p => ⟨['1', '0'], ['0', '1'], [p.2, p.1]⟩", "pairs.map fun p => ⟨['1', '0'], ['0', '1'], [p.1, p.2]⟩", "C29", "duplicates instead of swapped pairs", XG)
m("ctmp-11", XC, "standardGeneratorSet", "if numQubits ≤ 0 then none", "if numQubits < 0 then none", "C29", "zero qubits accepted", XG)
m("ctmp-12", XC, "errRate2q", "pure (g b a)", "pure (g a b)", "C30", "entry transposed", XG)
m("ctmp-13", XC, "localG", "if r ≠ c ∧ g r c < 0 then 0 else g r c", "if r ≠ c ∧ g r c < 0 then -g r c else g r c", "C30", "absolute value instead of cut-off", XG)
m("ctmp-14", XC, "choiceLoop", "choiceLoop r inds probs (acc + p)", "choiceLoop r inds probs p", "C28", "running sum lost", XW)
m("ctmp-15", XC, "toCsc", "(List.range (dim + 1)).map fun c => ((List.range c)", "(List.range (dim + 1)).map fun c => ((List.range (c + 1))", "C28", "offsets shifted", XW)
m("ctmp-16", XC, "chainWalk", "chainWalk csc rVals k (y', pos + 1)", "chainWalk csc rVals k (y', pos)", "C28", "random number reused", XW)
m("ctmp-17", XC, "markovChain", "(s.1, st.2)", "(s.1, 0)", "C28", "random numbers reused by every sample", XW)
m("ctmp-18", XC, "batches", "++ [numSamples % 50000]", "++ []", "C28", "rest of the samples lost", XW)
m("ctmp-19", XC, "signedSum", "fun p => p.2 = 1).map", "fun p => p.2 = 0).map", "C28", "sign ignored", XW)
m("ctmp-20", XC, "samplingMatrix", "ident r c + g r c / gamma", "ident r c + g r c / (2 * gamma)", "C27", "wrong normalisation", XW)
m("ctmp-21", XC, "cscColumn", "fun r => (r, m r c)", "fun r => (r, m c r)", "C28", "row read instead of column", XW)
m("ctmp-22", XC, "flipMat", "g (dim - 1 - r) (dim - 1 - c)", "g r c", "C30", "flip removed (finding)", XG)

TC, TF, TG = "Tomo/Circ.lean", "Tomo/Fit.lean", "Tomo/Gst.lean"
T_C, T_O, T_P, T_W, T_L, T_R, T_X, T_A = ("Verif.Tomo." + x for x in ("PropsCirc", "PropsOps", "PropsPsd", "PropsWts", "PropsLin", "PropsProc", "PropsCvx", "PropsAdd"))
T_G, T_GC, T_GD, T_M, T_MO, T_MC = ("Verif.Tomo." + x for x in ("PropsGst", "PropsGstCirc", "PropsGstDef", "PropsMle2", "PropsMleObj", "PropsMleCon"))
m("tomo-01", TC, "pauliMeasurementCircuit", "[.gate .sdg q, .gate .h q, .measure q c]", "[.gate .s q, .gate .h q, .measure q c]", "C49", "S instead of its inverse", T_O)
m("tomo-02", TC, "pauliMeasurementCircuit", "[.gate .sdg q, .gate .h q, .measure q c]", "[.gate .h q, .gate .sdg q, .measure q c]", "C49", "gates in the wrong order", T_O)
m("tomo-03", TC, "pauliPreparationCircuit", "[.gate .x q, .gate .h q, .gate .s q]", "[.gate .h q, .gate .x q, .gate .s q]", "C49", "order of X and H", T_O)
m("tomo-04", TC, "pauliPreparationCircuit", "(if op = \"Zm\".toList then [.gate .x q] else [])", "(if op = \"Zp\".toList then [.gate .x q] else [])", "C49", "Zp and Zm exchanged", T_O)
m("tomo-05", TC, "operatorTuples", "(operatorTuples labels n).map (a :: ·)", "(operatorTuples labels n).map fun t => a :: t.map fun _ => a", "C48", "same letter on every qubit", T_C)
m("tomo-06", TC, "formatRegisters", "if qs.dedup.length ≠ qs.length then none else some qs", "some qs.dedup", "C48", "repeated qubits silently merged", T_C)
m("tomo-07", TC, "circName", "| some l => reprTuple [reprLabel l, show' ml]", "| some l => reprTuple [show' ml, reprLabel l]", "C48", "labels exchanged in the name", T_C)
m("tomo-08", TC, "measPart", "f a q (.tomo j)", "f a q (.tomo 0)", "C48", "every qubit measured into bit 0", T_C)
m("tomo-09", TC, "tomographyCircuits", "let p ← prepPart prep pq pl", "let p ← prepPart prep mq pl", "C48", "preparation on the measured qubits", T_C)
m("tomo-10", TC, "tomographyCircuits", "(p ++ circuit ++ m)", "(circuit ++ p ++ m)", "C48", "preparation after the circuit", T_C)
m("tomo-11", TC, "tomographyCircuits", "if pq.length ≠ mq.length then none else", "if pq.length < mq.length then none else", "C48", "too many prepared qubits accepted", T_C)
m("tomo-12", TC, "CBasis.measurementCircuit", "if op ∈ labels then f op q c else none", "f op q c", "C48", "unknown labels accepted", T_C)
m("tomo-13", TF, "pauliPreparationMatrix", "m2 (1/2) (-(1/2) * Complex.I) ((1/2) * Complex.I) (1/2)", "m2 (1/2) ((1/2) * Complex.I) (-(1/2) * Complex.I) (1/2)", "C49", "Yp with the matrix of Ym", T_O)
m("tomo-14", TF, "pauliMeasurementMatrix", "if outcome then \"Xm\".toList else \"Xp\".toList", "if outcome then \"Xp\".toList else \"Xm\".toList", "C49", "outcomes exchanged", T_O)
m("tomo-15", TF, "outcomeOp", "(label.reverse.zip o)", "(label.zip o)", "C50", "qubit order reversed", T_O)
m("tomo-16", TF, "outcomeOp", "fun m => kron op m", "fun m => kron m op", "C50", "factors exchanged", T_O)
m("tomo-17", TF, "preparationOp", "fun m => kron m op", "fun m => kron op m", "C49", "preparation factors in the wrong order", T_O)
m("tomo-18", TF, "operatorRow", "(starRingEnd ℂ) (b.e (k % b.dim) (k / b.dim))", "b.e (k % b.dim) (k / b.dim)", "C51", "conjugation dropped", T_L)
m("tomo-19", TF, "operatorRow", "(b.e (k % b.dim) (k / b.dim))", "(b.e (k / b.dim) (k % b.dim))", "C51", "row-major instead of column-major", T_L)
m("tomo-20", TF, "reshapeF", "x (j * Nat.sqrt size + i)", "x (i * Nat.sqrt size + j)", "C51", "row-major instead of column-major", T_L)
m("tomo-21", TF, "labelOps", "kron p.transpose m", "kron p m", "C84", "transpose dropped", T_R)
m("tomo-22", TF, "labelOps", "kron p.transpose m", "kron m p.transpose", "C84", "preparation and measurement exchanged", T_R)
m("tomo-23", TF, "hedged", "(c + beta) / (counts.sum + counts.length * beta)", "(c + beta) / (counts.sum + beta)", "C53", "normalisation of the hedged frequencies", T_W)
m("tomo-24", TF, "effectiveBeta", "(counts.sum ∈ counts ∨ 0 ∈ counts)", "(counts.sum ∈ counts)", "C53", "zero counts not hedged", T_W)
m("tomo-25", TF, "binomialWeights", "√(counts.sum / (f * (1 - f)))", "√(counts.sum / f)", "C53", "variance of a Poisson law", T_W)
m("tomo-26", TF, "wizardStep", "else if j < k then v k + v j / ((dim : K) - ((j : K) + 1)) else v k", "else if j < k then v k + v j / ((dim : K) - (j : K)) else v k", "C52", "off by one in the share", T_P)
m("tomo-27", TF, "wizardStep", "if v j < eps then", "if eps < v j then", "C52", "comparison inverted", T_P)
m("tomo-28", TF, "fromEigen", "(w r j * (starRingEnd ℂ) (w c j))", "(w r j * w c j)", "C52", "conjugation dropped", T_P)
m("tomo-29", TF, "rescaleTrace", "m i j * (t / ∑ k ∈ Finset.range dim, m k k)", "m i j * t", "C51", "trace not divided out", T_L)
m("tomo-30", TF, "poolInto", "| some d => data.set k (combineCounts d c)", "| some _ => data.set k c", "C57", "later counts overwrite", T_A)
m("tomo-31", TF, "addData", "circuits.foldlM (addOne results (needsMarginal c)) data", "circuits.foldlM (addOne results (needsMarginal c)) []", "C57", "earlier data lost", T_A)
m("tomo-32", TF, "lookupCounts", "(r name).or acc", "acc.or (r name)", "C57", "first result instead of last (finding)", T_A)
m("tomo-33", TF, "partialTraceSuper", "if i = k / dim2 then 1 else 0) * (if k % dim2 = j", "if i = k % dim2 then 1 else 0) * (if k / dim2 = j", "C54", "wrong subsystem traced out", T_X)
m("tomo-34", TF, "cvxBlock", "(if b < dim then r a b else -im a (b - dim))", "(if b < dim then r a b else im a (b - dim))", "C85", "sign in the block matrix", T_X)
m("tomo-35", TF, "cvxArg", "cvxVec dim r k) -\n  (∑ k", "cvxVec dim r k) +\n  (∑ k", "C85", "sign of the imaginary part", T_X)
m("tomo-36", TF, "literalEval", "some (.process (u.2.take a) (u.2.drop a))", "some (.process (u.2.drop a) (u.2.take a))", "C57", "key halves exchanged", T_A + " " + T_C)
m("tomo-37", TF, "sicPreparationMatrix", "m2 (1/3) (Complex.exp (Real.pi * (2 * Complex.I) / 3)", "m2 (1/3) (Complex.exp (Real.pi * (1 * Complex.I) / 3)", "C49", "wrong phase of S2", T_O)
m("tomo-38", TF, "countsArray", "c.getD k 0", "c.getD k.reverse 0", "C51", "outcome strings mirrored", T_L)
m("gst-01", TC, "gstRename", "| some g => some ⟨reprLabel [f1, g, f2], c.ops⟩", "| some g => some ⟨reprLabel [f2, g, f1], c.ops⟩", "C86", "SPAM names exchanged", T_GC)
m("gst-02", TC, "gstBlock", "| some g => b.gateOps q g\n", "| some _ => some []\n", "C86", "gate left out", T_GC)
m("gst-03", TC, "gatesetTomographyCircuits", "some (g.flatten ++ n ++ s)", "some (g.flatten ++ n)", "C86", "single circuits missing", T_GC)
m("gst-04", TG, "gramMatrix", "probs.getD (.state [spam[j], spam[i]]) 0", "probs.getD (.state [spam[i], spam[j]]) 0", "C55", "Gram matrix transposed", T_G)
m("gst-05", TG, "linearInversion", "(inv * gateData spam probs g)", "(gateData spam probs g * inv)", "C55", "inverse on the wrong side", T_G)
m("gst-06", TG, "linearInversion", "(.prep (inv *ᵥ gstVector spam probs))", "(.prep (gstVector spam probs))", "C55", "state not transformed", T_G)
m("gst-07", TG, "xToGateset", ".gate (B⁻¹ * m * B)", ".gate (B * m * B⁻¹)", "C87", "gauge applied the wrong way", T_G)
m("gst-08", TG, "gstProbs", "(Dict.getD kv.2 \"0\".toList 0 : ℤ)", "(Dict.getD kv.2 \"1\".toList 0 : ℤ)", "C55", "probability of outcome 1", T_GC)
m("gst-09", TG, "gaugeObjective", "    gstDist (gs.getD \"rho\".toList (.prep 0)) (ideal.getD \"rho\".toList (.prep 0)))", "    0)", "C87", "state ignored by the objective", T_G)
m("gst-10", TG, "splitList", "st.2 + s)) ([], 0)).1", "st.2 + 1)) ([], 0)).1", "C56", "position not advanced by the size", "Verif.Tomo.PropsMle")
m("gst-11", TG, "vecToComplexMatrix", "vec.getD (n * n + (i * n + j)) 0", "vec.getD (i * n + j) 0", "C56", "imaginary part read from the real half", "Verif.Tomo.PropsMle")
m("gst-12", TG, "choleskyLike", "u.e i j * (ev j)", "u.e i j * (ev i)", "C56", "eigenvalue of the wrong column", "Verif.Tomo.PropsMle")
m("gst-13", TG, "objFnData", "some (fjm ++ [ijk.2.2] ++ fim, m)", "some (fim ++ [ijk.2.2] ++ fjm, m)", "C88", "SPAM circuits exchanged", T_MO)
m("gst-14", TG, "mleObjective", "((predictMle s.1 s.2.1 s.2.2 t.1).re - t.2) ^ 2", "((predictMle s.1 s.2.1 s.2.2 t.1).re - t.2)", "C88", "residual not squared", T_MO)
m("gst-15", TG, "boundsEq", "(p.getD (32 * k) 0 - 1)", "(p.getD (32 * k) 0)", "C89", "G00 forced to 0", T_MC)
m("gst-16", TG, "boundsEq", "((List.range 3).map fun i => p.getD (32 * k + 1 + i) 0)", "((List.range 2).map fun i => p.getD (32 * k + 1 + i) 0)", "C89", "last entry of the first row free", T_MC)
m("gst-17", TG, "boundsEq", "((List.range 3).map fun i => p.getD (32 * k + 1 + i) 0)", "((List.range 3).map fun i => p.getD (32 * k + 4 * (1 + i)) 0)", "C89", "first column instead of first row", T_MC)
m("gst-18", TG, "boundsIneq", "(List.range 12).flatMap", "(List.range 11).flatMap", "C89", "last entry unbounded", T_MC)
m("gst-19", TG, "choiToPtm", "pauli1 a s r * (pauli1 b i j *", "pauli1 a r s * (pauli1 b i j *", "C89", "transposed Pauli matrix", T_M + " " + T_MC)
m("gst-20", TG, "rhoTrace", "some [t.re - 1, t.im]", "some [t.re, t.im]", "C89", "trace zero demanded", T_MC)
m("gst-21", TG, "spamMatrix", "| m :: rest => some (rest.foldl (· * ·) m)", "| m :: _ => some m", "C87", "only the first gate", T_G)
QM = "QV/Model.lean"
QT = "Verif.QV.PropsAcc Verif.QV.PropsCirc"
m("qv-01", QM, "heavyStrings", "decide (dist.getD x 0 > m)", "decide (dist.getD x 0 ≥ m)", "C58", "at least the median", QT)
m("qv-02", QM, "median", "if n % 2 = 1 then s.getD (n / 2) 0 else (s.getD (n / 2 - 1) 0 + s.getD (n / 2) 0) / 2", "s.getD (n / 2) 0", "C58", "upper median", QT)
m("qv-03", QM, "idealProb", "some (zfill depth (binDigits b), Complex.normSq a)", "some ((zfill depth (binDigits b)).reverse, Complex.normSq a)", "C58", "outcome strings mirrored", QT)
m("qv-04", QM, "addResult", "if t + 1 > st.ntrials then { st with ntrials := t + 1 } else st", "if t > st.ntrials then { st with ntrials := t } else st", "C59", "trial count off by one", QT)
m("qv-05", QM, "addResult", "if t + 1 > st.ntrials then { st with ntrials := t + 1 } else st", "{ st with ntrials := t + 1 }", "C59", "trial count of the last circuit", QT)
m("qv-06", QM, "calcName", "st.results.filterMap fun r => r.get? name", "(st.results.drop (st.results.length - 1)).filterMap fun r => r.get? name", "C59", "only the last result counted", QT)
m("qv-07", QM, "statColumn", "let y1 := Real.sqrt (y0 * (1 - y0) / n)", "let y1 := Real.sqrt (y0 * (1 - y0) / (shots.sum : ℝ))", "C58", "deviation with shots instead of trials", QT)
m("qv-08", QM, "statColumn", "let y0 : ℝ := (vals.sum : ℝ) / (shots.sum : ℝ)", "let y0 : ℝ := (vals.sum : ℝ) / ((shots.sum : ℝ) + 1)", "C58", "wrong normalisation", QT)
m("qv-09", QM, "qvSuccess", "c > confidence 2)", "c > confidence 1)", "C58", "one sigma", QT)
m("qv-10", QM, "zValue", "(mean - 2 / 3) / sigma", "(mean - 1 / 2) / sigma", "C58", "threshold one half", QT)
m("qv-11", QM, "measureActive", "Op.measure p.1 p.2 }", "Op.measure p.1 p.1 }", "C60", "classical bit is the qubit number", QT)
m("qv-12", QM, "qvCircuit", "ops := qv.map (Op.onto qubitList) }", "ops := qv }", "C60", "qubit list ignored", QT)
m("qv-13", QM, "calcNames", "(List.range st.ntrials.toNat).flatMap", "(List.range (st.ntrials.toNat - 1)).flatMap", "C59", "last trial not recomputed", QT)
m("qv-14", QM, "addStatevector", "if st.heavyOutputs.has name then none", "if false then none", "C58", "known circuits overwritten", QT)
m("qv-15", QM, "subsetCounts", "(dist : Counts) : ℤ := (strings.map fun s => dist.getD s 0).sum", "(dist : Counts) : ℤ := (strings.map fun s => dist.getD s 1).sum", "C58", "missing outcomes counted", QT)
m("qv-16", QM, "calcName", "heavyCounts := st.heavyCounts.set name hc", "heavyCounts := st.heavyCounts.set name (hc + st.heavyCounts.getD name 0)", "C59", "heavy counts added up at every call", QT)

DM = "Discr/Model.lean"; DT = "Verif.Discr.Props Verif.Discr.PropsApply"
m("discr-01", DM, "count", "| some v => some (raw.set h (v + 1))", "| some v => some (raw.set h v)", "C61", "a repeated state does not increase its count", DT)
m("discr-02", DM, "count", "| none => some (raw.set h 1)) []", "| none => some (raw.set h 0)) []", "C61", "a new state starts at 0", DT)
m("discr-03", DM, "intBase", "if v < base then some (base * a + v)", "if v < base then some (a + v)", "C61", "the digits are added up, keys collide", DT)
m("discr-04", DM, "intBase", "if v < base then", "if v ≤ base then", "C61", "a digit equal to the base is accepted", DT)
m("discr-05", DM, "hexStr", "Nat.toDigits 16 n", "Nat.toDigits 16 (n % 16)", "C61", "only the last hexadecimal digit", DT)
m("discr-06", DM, "getBase", "some (b + 1)", "some b", "C61", "the base is the largest digit", DT)
m("discr-07", DM, "getBase", "if base > c.toNat - 48 then base else c.toNat - 48", "if base < c.toNat - 48 then base else c.toNat - 48", "C61", "the smaller digit is kept", DT)
m("discr-08", DM, "sliceLoop", "sliceLoop base yData (start + e.shots) es", "sliceLoop base yData start es", "C61", "the start of the slice does not advance", DT)
m("discr-09", DM, "sliceLoop", "take e.shots", "take (e.shots + 1)", "C61", "the slice is one too long", DT)
m("discr-10", DM, "apply", "let keep := raw.filter fun e => e.measLevel = 1", "let keep := raw.filter fun e => e.measLevel ≤ 1", "C61", "level 0 experiments are kept", DT)
m("discr-11", DM, "formatRow", "sel.map (·.1) ++ sel.map (·.2)", "sel.map (·.1) ++ sel.map (·.1)", "C61/C62", "the Q values are the I values", DT)
m("discr-12", DM, "labels", "fun st => List.replicate m.shape0 st", "fun st => List.replicate (m.shape0 - 1) st", "C62", "one label too few", DT)
m("discr-13", DM, "addExpected", "(schedules.zip states).foldl", "(schedules.zip states.reverse).foldl", "C62", "the states are assigned in reverse", DT)
m("discr-14", DM, "addExpected", "fun d p => d.set p.1 p.2) d)", "fun d p => if d.has p.1 then d else d.set p.1 p.2) d)", "C62", "an existing expected state is not replaced", DT)
m("discr-15", DM, "addData", "let results := st.results ++ [result]", "let results := [result] ++ st.results", "C62", "results in another order", DT)
m("discr-16", DM, "addData", "let y ← getYdata expected results scheds", "let y ← getYdata expected results (st.schedules ++ scheds)", "C62", "labels for all schedules, rows for the new ones", DT)
m("discr-17", DM, "getXdata", "  some parts.flatten\n\n/-- The labels", "  some parts.reverse.flatten\n\n/-- The labels", "C62", "schedules in reverse order in the rows", DT)
m("discr-18", DM, "removeCal", "| 'c' :: 'a' :: 'l' :: '_' :: rest => removeCal rest", "| 'c' :: 'a' :: 'l' :: '_' :: rest => '_' :: removeCal rest", "C62", "the underscore stays in the state", DT)
m("discr-19", DM, "getSchedules", "| 0 => some (names.filter isCalibration)", "| 0 => some names", "C62", "all schedules count as calibrations", DT)
m("discr-20", DM, "isCalibration", "!rest.isEmpty && rest.all (·.isDigit)", "rest.all (·.isDigit)", "C62", "cal_ alone is a calibration", DT)

EM = "Ent/Model.lean"
EA = "Ent/Analysis.lean"
ET = "Verif.Ent.PropsTier Verif.Ent.PropsGhz Verif.Ent.PropsOsc"
EAT = "Verif.Ent.PropsAnalysis"
m("ent-01", EM, "cmapCalib", "decide ((a.2, a.1) ∉ cmap)", "decide ((a.1, a.2) ∉ cmap)", "C63", "reversed pairs are never added", ET)
m("ent-02", EM, "initNodes", "(Dict.getD d a.1 [] ++ [a.2])", "[a.2]", "C63", "only the last neighbour is kept", ET)
m("ent-03", EM, "bestNode", "if kv.2.length > lb.length then some kv.1 else some best", "if kv.2.length < lb.length then some kv.1 else some best", "C63", "the worst connected qubit is the root", ET)
m("ent-04", EM, "childLoop", "childLoop parent cs (j + 1)", "childLoop parent cs j", "C63", "all children of a parent in the same tier", ET)
m("ent-05", EM, "childLoop", "s.dm.set c (j + 1)", "s.dm.set c j", "C63", "a child may control in its own tier", ET)
m("ent-06", EM, "childLoop", "trash := s.trash ++ [c]", "trash := s.trash", "C63", "reached qubits are not recorded", ET)
m("ent-07", EM, "parentStep", "decide (a ∉ acc.1.trash)", "true", "C63", "reached children are entangled again", ET)
m("ent-08", EM, "tierLoop", "else tierLoop nodes err fuel r.2 r.1", "else some r.1", "C63", "one round only", ET)
m("ent-09", EM, "tierInit", "dm := [(root, 0)]", "dm := [(root, 1)]", "C63", "the root starts in tier 1", ET)
m("ent-10", EM, "getTierDict", "tierLoop nodes err 51 [root]", "tierLoop nodes err 5 [root]", "C63", "gives up after five rounds", ET)
m("ent-11", EM, "childLoop", "t ++ [(parent, c)]", "t ++ [(c, parent)]", "C63", "control and target swapped", ET)
m("ent-12", EM, "placeQubit", "s.layout.set s.trash.length v", "s.layout.set v s.trash.length", "C64", "layout inverted", ET)
m("ent-13", EM, "pairStep", ".cx (s.trash.idxOf aa.1) (s.trash.idxOf aa.2)", ".cx (s.trash.idxOf aa.2) (s.trash.idxOf aa.1)", "C64", "CNOT reversed", ET)
m("ent-14", EM, "pairStep", ".cx (s.trash.idxOf aa.1) (s.trash.idxOf aa.2)", ".cx aa.1 aa.2", "C64", "device numbers used as register indices", ET)
m("ent-15", EM, "innerLoop", "if s.trash.length = n then some s else innerLoop n rest s", "if s.trash.length + 1 = n then some s else innerLoop n rest s", "C64", "stops one qubit early", ET)
m("ent-16", EM, "outerLoop", "if s.trash.length = n then some s else outerLoop n barriered rest s", "outerLoop n barriered rest s", "C64", "no stop after the register is full", ET)
m("ent-17", EM, "ghzLayout", "{ circ := [.h 0], trash", "{ circ := [], trash", "C64", "no Hadamard gate", ET)
m("ent-18", EM, "inverse", "(circ.reverse).mapM", "circ.mapM", "C65", "the inverse is not reversed", ET)
m("ent-19", EM, "measurementCirc", "fun i => .measure i i", "fun i => .measure i (n - 1 - i)", "C64", "bits reversed", ET)
m("ent-20", EM, "ghzSimple", "List.range' 1 (n - 1)", "List.range' 1 (n - 2)", "C64", "the last qubit is not entangled", ET)
m("ent-21", EM, "ghzSimple", ".cx (i - 1) i", ".cx i (i - 1)", "C64", "CNOTs reversed", ET)
m("ent-22", EM, "mqcWith", "(List.range n).map (fun i => .u1 delta i)", "[.u1 delta 0]", "C65", "rotation of the first qubit only", ET)
m("ent-23", EM, "mqcWith", "(List.range n).map (fun i => .x i) ++ [.barrier] ++", "[.barrier] ++", "C65", "no X gates (the signal on qubit 0 is the same up to a phase; the state changes)", ET)
m("ent-24", EM, "mqcWith", "    inv ++ measurementCirc n full", "    prep ++ measurementCirc n full", "C65", "the preparation instead of its inverse", ET)
m("ent-25", EM, "poWith", ".u2 delta (-delta) i", ".u2 delta delta i", "C65", "wrong second angle", ET)
m("ent-26", EM, "poWith", "measurementCirc n true", "measurementCirc n false", "C65", "only one qubit measured", ET)
m("ent-27", EA, "orderedList", "counts.getD (zfill qn (binDigits a)) 0", "counts.getD (binDigits a) 0", "C66", "keys not padded", EAT)
m("ent-28", EA, "compositeZ", "List.range' 1 (qn - 1)", "List.range' 1 qn", "C66", "one factor too many", EAT)
m("ent-29", EA, "sigmaZ", "if i = 0 then 1 else -1", "1", "C66", "identity instead of Z", EAT)
m("ent-30", EA, "fft", "(1 / N) *", "1 *", "C91", "not normalised", EAT)
m("ent-31", EA, "infoMqc", "UB := Real.sqrt ‖In‖ + Real.sqrt (‖I0‖ / 2)", "UB := Real.sqrt ‖In‖ + Real.sqrt ‖I0‖", "C91", "wrong upper bound", EAT)
m("ent-32", EA, "infoPo", "let C := 2 * ‖fft N y n‖", "let C := ‖fft N y n‖", "C91", "coherence without the factor 2", EAT)
m("ent-33", EA, "rhoToFidelity", "(‖rho 0 (Fin.last d)‖ : ℂ)", "rho 0 (Fin.last d)", "C90", "no absolute value", EAT)
m("ent-34", EA, "infoMqc", "Fm := (1 / 2) * (p.P0m + p.P1m) + Real.sqrt ‖Inm‖", "Fm := (1 / 2) * (p.P0 + p.P1) + Real.sqrt ‖Inm‖", "C91", "mitigated fidelity from raw populations", EAT)

m("tomo-38b", TF, "countsArray", "c.getD k 0", "c.getD k.reverse 0", "C51", "outcome strings mirrored, after tightening", T_L, tightened=("C51_inversion", "C84_inversion"))
m("ent-34b", EA, "infoMqc", "Fm := (1 / 2) * (p.P0m + p.P1m) + Real.sqrt ‖Inm‖", "Fm := (1 / 2) * (p.P0 + p.P1) + Real.sqrt ‖Inm‖", "C91", "mitigated fidelity from raw populations, after tightening", EAT, tightened=("C91_finding_raw",))

CM = "Char/Model.lean"
CR = "Char/ModelReal.lean"
CT = "Verif.Char.PropsData Verif.Char.PropsCoherence Verif.Char.PropsDelay Verif.Char.PropsGates"
m("char-01", CM, "regSize", "some (l.foldl max 0 + 1)", "some (l.foldl max 0)", "C68", "register one qubit too small", CT)
m("char-02b", CM, "padId", "(List.range n).flatMap (fun _", "(List.range (n - 1)).flatMap (fun _", "C68", "one idle gate too few", CT)
m("char-03", CM, "measureAll", "Instr.measure p.1 p.2", "Instr.measure p.1 p.1", "C68", "bits indexed by the qubit", CT)
m("char-04", CM, "npRound", "else if f % 2 = 0 then f else f + 1", "else f + 1", "C69", "halves rounded up", CT)
m("char-05", CM, "timeToNgates", "npRound (t / gateTime)", "⌊t / gateTime⌋", "C69", "numbers of gates truncated", CT)
m("char-06", CM, "t1Block", "Instr.x q :: padId q len", "padId q len", "C68", "no excitation", CT)
m("char-07", CM, "t1Circuits", "\"t1circuit_\" p.2 \"0\"", "\"t1circuit_\" p.1 \"0\"", "C94", "circuits named by the number of gates", CT)
m("char-08", CM, "ramseyBlock", "[Instr.u1 phase q, Instr.h q]", "[Instr.u1 (-phase) q, Instr.h q]", "C92", "phase with the wrong sign", CT)
m("char-09", CM, "t2starCircuits", "let oscFreq := (nosc : A) / last\n  let circuits := (num.zip xdata).zipIdx.map fun p =>\n    (⟨circName \"t2star", "let oscFreq := last / (nosc : A)\n  let circuits := (num.zip xdata).zipIdx.map fun p =>\n    (⟨circName \"t2star", "C92", "inverse of the oscillation frequency", CT)
m("char-10", CM, "echoes", "padId q (2 * len)", "padId q len", "C68", "half the delay between echoes", CT)
m("char-11", CM, "echoes", "(e % 2 == 0)", "(e % 2 == 1)", "C68", "alternation starts with Y", CT)
m("char-12", CM, "t2Block", "echoes q len alt (nEchos - 1)", "echoes q len alt nEchos", "C68", "one echo too many", CT)
m("char-13", CM, "t2Circuits", "2 * gateTime * (n : A) * (nEchos : A)", "gateTime * (n : A) * (nEchos : A)", "C69", "half the delay reported", CT)
m("char-14", CM, "t2Circuits", "if nEchos < 1 then none", "if nEchos < 0 then none", "C69", "no echo accepted", CT)
m("char-15", CM, "zzCircuits", "if qubits.any (fun q => spectators.contains q) then none else", "", "C93", "overlap accepted", CT)
m("char-16", CM, "zzCircuits", "(if flip then spectators.map Instr.x else [])", "(if flip then qubits.map Instr.x else [])", "C93", "the measured qubits are flipped", CT)
m("char-17", CM, "zzCircuits", "(if flip then \"1\" else \"0\")", "(if flip then \"0\" else \"1\")", "C93/C94", "series names exchanged", CT)
m("char-18", CM, "ampBlock", "(List.range len).flatMap fun _ => [Instr.barrier [q], Instr.u2 0 0 q]", "(List.range (len + 1)).flatMap fun _ => [Instr.barrier [q], Instr.u2 0 0 q]", "C95", "one pulse too many", CT)
m("char-19", CM, "ampcal1Q", "let xdata := (List.range maxReps).map (· * 2)\n  let nq ← regSize qubits\n  let circuits := xdata.zipIdx", "let xdata := (List.range maxReps).map (· * 2 + 1)\n  let nq ← regSize qubits\n  let circuits := xdata.zipIdx", "C95", "odd repetitions", CT)
m("char-20", CM, "angleRep", "errU1 err (2 * err) q ++", "errU1 err (-2 * err) q ++", "C96", "the artificial error is not undone", CT)
m("char-21", CM, "angleBlock", "++ errU1 err (-err) q ++ [Instr.u2 (-pi / 2) (pi / 2) q]", "++ errU1 err (-2 * err) q ++ [Instr.u2 (-pi / 2) (pi / 2) q]", "C96", "repaired artificial error: the recorded finding no longer holds", CT)
m("char-23", CM, "ampCxBlock", "[Instr.x c, Instr.u2 (-pi / 2) (pi / 2) q]", "[Instr.u2 (-pi / 2) (pi / 2) q]", "C95", "control not excited", CT)
m("char-24", CM, "angleCxBlock", "[Instr.y q])", "[Instr.x q])", "C96", "X instead of Y", CT)
m("char-25", CM, "angleCxBlock", "errU1 err err q", "errU1 err (-err) q", "C96", "the artificial error is not undone", CT)
m("char-26", CM, "ampcalCx", "if controls.length < qubits.length ∧ 0 < maxReps then none else\n  let circuits := xdata.zipIdx.map fun p =>\n    (⟨circName \"ampcalcx", "\n  let circuits := xdata.zipIdx.map fun p =>\n    (⟨circName \"ampcalcx", "C95", "too few controls accepted", CT)
m("char-27", CM, "t2Fitter", "⟨\"t2circuit_\", [\"0\"], '0'⟩", "⟨\"t2circuit_\", [\"0\"], '1'⟩", "C68", "expected state 1", CT)
m("char-28", CM, "zzFitter", "[\"0\", \"1\"]", "[\"0\"]", "C94", "second series not read", CT)
m("char-29", CM, "Fitter.circuitNames", "fmtD i ++ ['_']", "fmtD (i + 1) ++ ['_']", "C94", "names counted from 1", CT)
m("char-30", CM, "pooled", "results.filterMap", "(results.take 1).filterMap", "C67", "only the first result is used", CT)
m("char-31", CM, "point", "some [qind]", "some [0]", "C67", "always the first qubit", CT)
m("char-32", CM, "point", "if shots = 0 then none else", "if shots ≤ 1 then none else", "C67", "single shots refused", CT)
m("char-33", CM, "addData", "old ++ new", "new", "C67", "old results dropped", CT)
m("char-34", CM, "calcData", "(List.range nqubits).mapM", "(List.range nqubits).reverse.mapM", "C67", "qubits in reverse order", CT)
m("char-35", CR, "pointStd", "* (1 - p.1)", "* p.1", "C67", "wrong variance", CT)
m("char-36", CR, "ampCalFit", "(-1 / 2) thetaerr thetaerr (Real.pi / 2) (Real.pi / 2) c\n\n/-- `_angle_cal_fit`", "(-1 / 2) thetaerr 0 (Real.pi / 2) (Real.pi / 2) c\n\n/-- `_angle_cal_fit`", "C95", "the first pulse's error left out", CT)
m("char-37", CR, "zzRate", "freq1 - freq0", "freq0 - freq1", "C93", "sign of the coupling", CT)
m("char-38", CR, "angleErr", "thetaerr / 2", "thetaerr", "C96", "twice the angle reported", CT)
m("char-39", CR, "oscFit", "Real.cos (2 * Real.pi * f * x + phi)", "Real.cos (Real.pi * f * x + phi)", "C92", "half the frequency", CT)
m("char-40", CR, "expFit", "Real.exp (-x / tau) + c\n\n/-- `_osc_fit", "Real.exp (-x * tau) + c\n\n/-- `_osc_fit", "C68", "rate instead of time", CT)

CT2 = CT + " Verif.Char.PropsDecay"
m("char-35b", CR, "pointStd", "* (1 - p.1)", "* p.1", "C67", "wrong variance", CT2, tightened=("C67_std",))
m("char-39b", CR, "oscFit", "noncomputable def oscFit (x a tau f phi c : ℝ) : ℝ := a * Real.exp (-x / tau) * Real.cos (2 *", "noncomputable def oscFit (x a tau f phi c : ℝ) : ℝ := a * Real.exp (-x / tau) * Real.cos (", "C106", "half the frequency", CT2)
m("char-40b", CR, "expFit", "Real.exp (-x / tau) + c\n\n/-- `_osc_fit", "Real.exp (-x * tau) + c\n\n/-- `_osc_fit", "C106", "rate instead of time", CT2, tightened=("C106_t1", "C106_t2"))
m("char-41", CR, "oscFit", "a * Real.exp (-x / tau) * Real.cos", "a * Real.exp (x / tau) * Real.cos", "C106", "growth instead of decay", CT2, tightened=("C106_t2star",))
m("char-42", CR, "pointStd", "(p.2 : ℝ))", "(p.2 : ℝ) ^ 2)", "C67", "error bar falls with shots, not their root", CT2)
m("char-43", CR, "pointStd", "then 1 / 10000 else s", "then 0 else s", "C67", "zero error bars", CT2)

LM = "Log/Model.lean"
LT = "Verif.Log.PropsRead Verif.Log.PropsLogger Verif.Log.PropsConfig"
m("log-01", LM, "splitWs", "(if cur = [] then splitWs [] s else cur :: splitWs [] s)", "(cur :: splitWs [] s)", "C70", "empty terms between blanks", LT)
m("log-02", LM, "filterByDatetime", "lo.any (fun l => decide (r < l))", "lo.any (fun l => decide (r ≤ l))", "C70", "open interval", LT)
m("log-03", LM, "filterByDatetime", "hi.any (fun h => decide (h < r))", "hi.any (fun h => decide (r < h))", "C70", "upper bound reversed", LT)
m("log-04", LM, "filterKeys", "(splitChar ':' kv).headD []", "kv", "C70", "the whole pair is compared with the keys", LT)
m("log-05", LM, "filterKeys", "keys.contains", "!keys.contains", "C70", "keys excluded instead of selected", LT)
m("log-06", LM, "readLine", "terms.drop 3", "terms.drop 2", "C70", "the label counts as a pair", LT)
m("log-07", LM, "readLine", "if kvs = [] then .ok none else", "", "C70", "empty rows kept", LT)
m("log-08", LM, "readLines", "r.toList ++ rs", "rs ++ r.toList", "C70", "rows in reverse order", LT)
m("log-10", LM, "addHandler", "if h ∈ s.handlers then s else", "", "C97", "handlers added twice (no difference within one logger)", LT)
m("log-11", LM, "getLogger", "addHandler sh { s with", "{ s with", "C97", "no stream handler", LT)
m("log-12", LM, "logToFile", "addHandler .file (removeHandler s.streamHandler s)", "addHandler .file s", "C97", "file lines also on the console", LT)
m("log-13", LM, "logToFile", "some (addHandler s.streamHandler (removeHandler .file s))", "some (addHandler s.streamHandler s)", "C97", "messages also in the file", LT)
m("log-14", LM, "logToFile", "if s.warned then s else { s with warned := true,", "if s.warned then s else { s with warned := false,", "C97", "a warning every time", LT)
m("log-15", LM, "step", "| .disable => some { s with enabled := false }", "| .disable => some s", "C97", "file logging cannot be switched off", LT)
m("log-16", LM, "configLine", "| k :: v :: _ => cfg.set (lower (stripChars isSpace k))", "| k :: v :: _ => cfg.set (lower k)", "C98", "keys not stripped", LT)
m("log-17", LM, "configLine", "if line.contains '#' then line.takeWhile (· ≠ '#') else line", "line", "C98", "comments not removed", LT)
m("log-18", LM, "settingsOf", "intOrZero (cfg.get? \"max_size\".toList), intOrZero (cfg.get? \"max_rotations\".toList)", "intOrZero (cfg.get? \"max_rotations\".toList), intOrZero (cfg.get? \"max_size\".toList)", "C98", "size and rotations exchanged", LT)
m("log-19", LM, "intOrZero", "10 * a + (c.toNat - 48)", "a + (c.toNat - 48)", "C98", "digits added up", LT)
m("log-20", LM, "quoted", "kv.2 ++", "kv.1 ++", "C71", "the key written as its value", LT)

KI = "Calib/Iq.lean"
KS = "Calib/Sched.lean"
KT = "Verif.Calib.PropsIq Verif.Calib.PropsGuess Verif.Calib.PropsSched"
m("calib-01", KI, "addExp", "if e.level ≠ 1 then none\n  else", "", "C99", "measurement level not checked", KT)
m("calib-02", KI, "addExp", "else if ret ≠ e.avg then none", "else if false then none", "C99", "averaged and single-shot data mixed", KT)
m("calib-03", KI, "addExp", "(e.shots + a.shots.getD e.name 0)", "e.shots", "C99", "shots of earlier jobs forgotten", KT)
m("calib-04", KI, "addExp", ".map ((e.shots : ℂ) * ·)", "", "C99", "jobs not weighted by shots", KT)
m("calib-05", KI, "vecAdd", "(List.zipWith (· + ·) a b)", "a", "C99", "earlier jobs dropped", KT)
m("calib-06", KI, "meanAt", "v[slot]?", "v[0]?", "C99", "always the first memory slot", KT)
m("calib-07", KI, "meanAt", "some (z / n)", "some z", "C99", "sum instead of average", KT)
m("calib-08", KI, "project", "let d := zs.map (· - mean zs)", "let d := zs", "C100", "mean not removed", KT)
m("calib-09", KI, "project", "re / n * z.re + im / n * z.im", "re / n * z.im + im / n * z.re", "C100", "components exchanged", KT)
m("calib-10", KI, "project", "if n = 0 then none else", "", "C100", "constant data accepted", KT)
m("calib-11", KI, "ext", "(l.map abs).sum", "l.sum", "C100", "signed spread", KT)
m("calib-12", KI, "argmaxAux", "if v < y then", "if y < v then", "C101", "smallest instead of largest", KT)
m("calib-13", KI, "fftfreq", "if m < (n + 1) / 2 then m / (n * d)", "if m < (n + 1) / 2 then m / d", "C101", "frequency not scaled by the number of points", KT)
m("calib-14", KI, "rabiGuess", "(x1 - x0) main, Complex.arg", "(x0 - x1) main, Complex.arg", "C101", "negative spacing", KT)
m("calib-15", KI, "dragGuess", "some (a * -1 / npMax xdata ^ 2", "some (a / npMax xdata ^ 2", "C101", "curvature sign lost", KT)
m("calib-16", KI, "dragGuess", "if |xdata.getD i1 0| < |xdata.getD i2 0|", "if |xdata.getD i2 0| < |xdata.getD i1 0|", "C101", "the far extremum taken as vertex", KT)
m("calib-17", KI, "rabiNames", "\"rabisched_\".toList ++ fmtD i ++", "\"rabisched_\".toList ++ fmtD (i + 1) ++", "C102", "names shifted by one", KT)
m("calib-18", KS, "rabiSched", "(shift p.dur meas)", "meas", "C102", "measurement during the pulse", KT)
m("calib-19", KS, "dragSched", "-q.2, sigma, some beta", "q.2, sigma, some beta", "C102", "second pulse with the same sign", KT)
m("calib-20", KS, "dragSched", "(shift (2 * width) meas)", "(shift width meas)", "C102", "measurement during the second pulse", KT)
m("calib-21", KS, "chStop", "then x.1 + x.2.dur else 0", "then x.1 else 0", "C102", "pulses overlap", KT)
m("calib-22", KS, "sigmaOf", "((width : A) / ratio)", "((width : A) * ratio)", "C102", "wrong default width", KT)
m("calib-23", KS, "groupOf", ".getD [ch]", ".getD []", "C103", "no phase shifts without a group", KT)
m("calib-24", KS, "syncStep", "(x.1, ph) (d.getD (x.1, ph) [] ++ [ch])", "(x.1, ph) [ch]", "C103", "group keeps the last channel only", KT)
m("calib-25", KS, "u2Sched", "(0, .shiftPhase (-p1 + pi / 2) c)", "(0, .shiftPhase (-p0 + pi / 2) c)", "C103", "parameters exchanged", KT)
m("calib-26", KS, "u2Sched", "(dur, .shiftPhase (-p0 + -pi / 2) c)", "(dur, .shiftPhase (-p0 + pi / 2) c)", "C103", "wrong second angle", KT)
m("calib-27", KS, "u2Sched", "group.map (fun c => (dur, .shift", "group.map (fun c => (0, .shift", "C103", "second shift too early", KT)
m("calib-28", KS, "u3Sched", "(-p0 + -pi) c)", "(-p0) c)", "C103", "π missing", KT)
m("calib-29", KS, "u3Sched", "(2 * dur, .shiftPhase (-p1 + pi) c)", "(2 * dur, .shiftPhase (-p2 + pi) c)", "C103", "wrong parameter", KT)
m("calib-30", KS, "u3Sched", "++ shift dur x90", "", "C103", "one pulse only", KT)

DI = "RepCode/Decoder.lean"
DT = "Verif.RepCode.PropsDecoder"
m("dec-01", DI, "syndromeGraph", "[Pauli.x, .y, .z].foldlM", "[Pauli.z].foldlM", "C104", "only phase errors make the graph", DT)
m("dec-02", DI, "addError", "if nodes.length = 0 ∨ nodes.length = 2 then", "if nodes.length = 2 then", "C104", "assertion refuses errors without effect", DT)
m("dec-03", DI, "errorNodes", "if element = '1' ∨ synType = 0 then", "if element = '1' then", "C104", "logical nodes missing in the error graph", DT)
m("dec-04", DI, "makeErrorGraph", "some (u, v, -(n : Int))", "some (u, v, (n : Int))", "C104", "weights with the wrong sign", DT)
m("dec-05", DI, "maxKey", "if x.2 < y.2 then some y else some x", "if y.2 < x.2 then some y else some x", "C104", "farthest logical node", DT)
m("dec-06", DI, "matchingRow", "tup near.1 ++ tup u, near.2)]", "tup near.1 ++ tup u, 0)]", "C104", "logical errors cost nothing", DT)
m("dec-07", DI, "matchingGraph", "++ nbrs.flatMap fun a => (nbrs.filter fun b => b ≠ a).map fun b => (a, b, (0 : Int))", "", "C104", "copies not joined", DT)
m("dec-08", DI, "correct", "p.2.headD 0 = 0 ∧ p.1.headD 0 ≠ 0 then flipAt ls (p.2.getD 1 0)", "p.2.headD 0 = 0 ∧ p.1.headD 0 ≠ 0 then flipAt ls (p.2.getD 2 0)", "C104", "wrong logical value corrected", DT)
m("dec-09", DI, "correct", "if p.1.headD 0 = 0 ∧ p.2.headD 0 ≠ 0 then flipAt ls (p.1.getD 1 0) else some ls", "some ls", "C104", "one orientation of the pairs ignored", DT)
m("dec-10", DI, "correct", "if p.2.headD 0 = 0 ∧ p.1.headD 0 ≠ 0 then", "if p.2.headD 0 = 0 then", "C104", "pairs of copies corrected too", DT)
m("dec-11", DI, "flipStr", "if x = ['0'] then some ['1'] else", "if x = ['0'] then some ['0'] else", "C104", "0 is never flipped", DT)
m("dec-12", DI, "matchingRow", "(syndromes.filter fun v => v ≠ u)", "(syndromes.filter fun v => v.2.1 = u.2.1 ∧ v ≠ u)", "C104", "syndrome nodes of different rounds not joined", DT)
m("dec-13", DI, "matching", "((separateString s).headD [])", "((separateString s).getD 1 [])", "C104", "the syndrome instead of the logical values corrected", DT)
m("dec-14", DI, "withError", "| .x => inject c j q\n  | .y => inject c j q", "| .x => inject c (j + 1) q\n  | .y => inject c (j + 1) q", "C104", "errors after the instruction", DT)
WI = "RepCode/Weight.lean"
WT = "Verif.RepCode.Weight"
m("weight-01", WI, "edgeCount", "acc + kv.2 else acc) 0", "acc + 1 else acc) 0", "C105", "outcomes counted once", WT)
m("weight-02", WI, "edgeRatios", "((false, true), (true, false)), ((true, false), (false, true))", "((false, true), (true, true)), ((true, false), (true, true))", "C105", "wrong ratios", WT)
m("weight-03", WI, "edgeDistance", "some (-(ENNReal.log", "some ((ENNReal.log", "C105", "sign lost", WT)
m("weight-04", WI, "edgeDistance", "((rs.foldl min r : Rat) : ℝ)", "((rs.foldl max r : Rat) : ℝ)", "C105", "largest ratio", WT)
m("weight-05", WI, "edgeRatios", "if 0 < edgeCount results e p.2.1 p.2.2 then", "if 1 < edgeCount results e p.2.1 p.2.2 then", "C105", "ratios over one shot dropped", WT)
m("weight-03b", WI, "edgeDistance", "| r :: rs => some (-(ENNReal.log (ENNReal.ofReal ((rs.foldl min r : Rat) : ℝ))))\n\n", "| r :: rs => some ((ENNReal.log (ENNReal.ofReal ((rs.foldl min r : Rat) : ℝ))))\n\n", "C105", "sign lost", WT)
m("calib-10b", KI, "project", "if n = 0 then none else\n  some (d.map", "some (d.map", "C100", "constant data accepted", KT)
m("calib-27b", KS, "u2Sched", "group.map (fun c => (dur, .shiftPhase (-p0 + -pi / 2) c))", "group.map (fun c => (0, .shiftPhase (-p0 + -pi / 2) c))", "C103", "second shift too early", KT)

TB = "Verif.Dihedral.PropsTable"
m("table-01", "Dihedral/Table.lean", "nextCandidates", "(List.range 4).map fun t => (v, i, j, t)", "(List.range 3).map fun t => (v, i, j, t)",
  "C107: table k holds every element whose cheapest circuit has k CNOT gates", "one phase power too few is tried", TB)
m("table-02", "Dihedral/Table.lean", "nextElem", "a.1.2 ++ [Gate.cx a.2.1 a.2.2.1]", "a.1.2 ++ [Gate.cx a.2.2.1 a.2.1]",
  "C107: the stored circuit makes the element", "control and target swapped in the recorded gate", TB)
m("table-03", "Dihedral/Table.lean", "digitStep", "((num - num % 2) / 2) % 8", "((num - num % 2) / 2) % 4",
  "C107: the first table has 16^n elements", "phase digit taken modulo 4", TB)
m("table-04", "Dihedral/Table.lean", "storeNew", "!(prior.any fun d => d.has r.1) && !obj.has r.1", "!obj.has r.1",
  "C107: each element is in one table only, with the fewest CNOT gates", "earlier tables are not consulted", TB)
m("table-05", "Dihedral/Table.lean", "storeNew", "!(prior.any fun d => d.has r.1) && !obj.has r.1", "!(prior.any fun d => d.has r.1)",
  "none: a later circuit with the same number of CNOT gates replaces the earlier one, the claim still holds", "entries of the table under construction are overwritten", TB)
m("table-06", "Dihedral/Table.lean", "storeNew", "prior.any fun d => d.has r.1", "(prior.drop 1).any fun d => d.has r.1",
  "C107: each element is in one table only", "the first table is not consulted", TB)
m("table-07", "Dihedral/Table.lean", "digitElem", "(List.range n).foldlM digitStep", "(List.range (n - 1)).foldlM digitStep",
  "C107: the first table has 16^n elements", "last qubit left out", TB)
m("table-08", "Dihedral/Table.lean", "digitStep", "(num - num % 16) / 16", "(num - num % 16) / 8",
  "C107: the first table has 16^n elements", "digits overlap", TB)
m("table-09", "Dihedral/Table.lean", "nextElem", "Gate.u1 a.2.2.2 a.2.2.1]", "Gate.u1 a.2.2.2 a.2.1]",
  "C107: the stored circuit makes the element", "phase recorded on the control", TB)
m("table-10", "Dihedral/Table.lean", "makeDict0", "List.range (16 ^ n)", "List.range (8 ^ n)",
  "C107: the first table has 16^n elements", "8^n numbers only", TB)
m("table-11", "Dihedral/Table.lean", "makeDictNext", "prior.getLast?", "prior.head?",
  "C107: table k holds every element whose cheapest circuit has k CNOT gates", "every table is grown from the first one", TB)
m("table-12", "Dihedral/Table.lean", "nextCandidates", "(List.range n).filter fun j => i ≠ j", "(List.range n).filter fun j => i < j",
  "C107: table k holds every element whose cheapest circuit has k CNOT gates", "only CNOT gates with control below target are tried", TB)
m("table-13", "Dihedral/Table.lean", "digitPhase", "s.2 ++ [Gate.u1 tpower j]", "Gate.u1 tpower j :: s.2",
  "none: the gates on other qubits commute", "phase put first", TB)
m("table-14", "Dihedral/Table.lean", "digitStep", "  let r ← digitPhase tpower j s.2\n  let r ← digitFlip xpower j r\n", "  let r ← digitFlip xpower j s.2\n  let r ← digitPhase tpower j r\n",
  "none: the same set of elements in another order", "X before the phase", TB)

ST = "Verif.Accred.PropsSound"
m("sound-01", AM, "trapPair", "| .cx, false => some ([.s p.1], [.sdg p.1])", "| .cx, false => some ([], [])",
  "C109: every consequential error is missed by at most 3/4 of the traps", "no phase gate around a CX gate of a trap; traps still return zeros", ST)
m("sound-02", AM, "routineTwo", "let trap := if basis then trap.modify 0 (· ++ hs) else trap\n", "let trap := if basis && false then trap.modify 0 (· ++ hs) else trap\n",
  "C109, C33: traps start in both bases", "no Hadamard gates at the start", ST)
m("sound-03", AM, "routineTwo", "let hs := (List.finRange n).map Gate.h", "let hs : List (Gate n) := []",
  "C109: traps start in both bases", "traps are run in one basis only; they still return zeros", ST)
m("sound-04", AM, "trapIdle", "if r then ([.h q], [.h q]) else ([.s q], [.sdg q])", "([.h q], [.h q])",
  "C109: errors of two layers on an idle qubit do not cancel in all traps", "random bit of idle qubits ignored; traps still return zeros", ST)
m("sound-05", AM, "qotpStep", "let zs := rng (2 * l.2 + 1)", "let zs : Basis (Fin n) := fun _ => false",
  "C109: noise is averaged to Pauli errors", "no Z pads before two-qubit layers; C31 still holds", ST)
m("sound-06", AM, "qotpStep", "let xs := rng (2 * l.2 + 2)", "let xs := rng 2",
  "C109: noise is averaged to Pauli errors layer by layer", "all layers use the same X pad; C31 still holds", ST)
m("sound-07", AM, "qotpFromLayers", "let temp := (List.finRange n).flatMap fun q => if rng 0 q then [Gate.z q] else []", "let temp : List (Gate n) := []",
  "C109: preparation noise is averaged", "no Z pad after the preparation; C31 still holds", ST)
m("sound-08", AM, "generateCircuits", "let single ← routineTwo layers (draw k).basis (draw k).rnd", "let single ← routineTwo layers (draw 0).basis (draw 0).rnd",
  "C109: traps are independent", "all traps use the random bits of the first; C33 still holds", ST)
m("sound-09", AM, "generateCircuits", "qotpFromLayers { layers with single := single } (draw k).pad", "qotpFromLayers { layers with single := single } (draw 0).pad",
  "C109: pads are independent", "all traps use the same pad; C33 still holds", ST)
m("sound-10", AM, "boundVariationDistance", "1 * (17 / 10) / (f.numTraps + 1)", "1 * (3 / 2) / (f.numTraps + 1)",
  "C109: the reported bound is a bound", "constant 1.5 instead of 1.7", ST)
m("sound-11", AM, "boundVariationDistance", "1 * (17 / 10) / (f.numTraps + 1)", "1 * (17 / 10) / (f.numTraps + 2)",
  "C109: the reported bound is a bound", "one circuit too many in the bound", ST)
m("sound-12", AM, "trapLayer", "trapPair g (rnd l.2 p.2) p.1", "trapPair g (rnd 0 p.2) p.1",
  "C109: every layer of a trap has its own random bits", "the bits of the first layer used for all layers; traps still return zeros", ST)
m("sound-13", AM, "trapLayer", "trapIdle (rnd l.2 (l.1.length + p.2)) p.1", "trapIdle (rnd l.2 0) p.1",
  "none: errors on one qubit are still missed by at most 3/4 of the traps; the random numbers drawn are not those of the code", "all idle qubits share a bit", ST)
m("sound-14", AM, "trapPair", "| .cz, false => some ([.s p.1, .h p.2], [.sdg p.1, .h p.2])", "| .cz, false => some ([.h p.1, .s p.2], [.h p.1, .sdg p.2])",
  "C109: errors of two layers do not cancel in all traps", "both random choices the same for CZ; traps still return zeros", ST)
m("sound-15", AM, "singleProtocolRun", "p.2 ≠ vZero ∧ p.1 ≠ List.replicate p.1.length '0'", "p.2 > vZero ∧ p.1 ≠ List.replicate p.1.length '0'",
  "C109, C34: every trap is checked", "traps before the target ignored", ST)

NT = "Verif.RB.PropsNoise"
m("noise-01", RM, "innerStep", "circ := st.circ ++ c ++ [.barrier pat], rseed", "circ := st.circ ++ c ++ c ++ [.barrier pat], rseed",
  "C108: one random element per unit of length", "each element applied twice", NT)
m("noise-02", RM, "patStep", "(List.range m.toNat).foldlM", "(List.range (m.toNat + 1)).foldlM",
  "C108: the returned lengths are the numbers of random elements", "one element more per unit of length", NT)
m("noise-03", RM, "interStep", "st.icirc ++ c1 ++ [.barrier pat] ++ c2 ++ [.barrier pat]", "st.icirc ++ c1 ++ [.barrier pat]",
  "C108: interleaved circuits have the interleaved element after each random one", "interleaved element left out of the circuit", NT)
m("noise-04", FM, "dihedral", "(alphaZ + nrb * alphaR) / (nrb + 1)", "(nrb * alphaZ + alphaR) / (nrb + 1)",
  "C108: with the same decay in both bases the estimate is that decay (and C47: the weights)", "weights of the two bases swapped", "Verif.RB.PropsErr")
m("noise-05", RM, "xCirc", "flat.flatMap (fun q => [.gate .h [q], .barrier [q]]) ++ circ ++", "flat.flatMap (fun q => [.gate .h [q], .barrier [q]]) ++ circ ++ circ ++",
  "C108: the X circuits hold the sequence once", "sequence repeated in the X circuits", NT)
m("noise-06", RM, "purityRot", "else pattern.mapM fun pat => (pat[rk.2]?)", "else (pattern.take 1).mapM fun pat => (pat[rk.2]?)",
  "C108: the purity circuits rotate every subset", "only the first subset is rotated", "Verif.RB.PropsNoisePurity")
m("noise-07", FM, "purity", "(nrb - 1) / nrb * (1 - alpha_pur))", "(nrb - 1) / nrb * (1 - alpha))",
  "C108: the purity estimate is the error of the depolarising noise", "square of the decay used", "Verif.RB.PropsNoisePurity")
m("noise-08", RM, "purityCirc", "ins := circ ++ rots.flatten ++ measures pattern.flatten", "ins := rots.flatten ++ circ ++ measures pattern.flatten",
  "C108, C41: rotations come after the sequence", "rotations before the sequence", "Verif.RB.PropsNoisePurity")
m("noise-09", RM, "finish", "dih := ⟨if dihedral then ty ++ \"_X\".toList ++ suf else [], if dihedral then xCirc flat circ else []⟩", "dih := ⟨if dihedral then ty ++ \"_X\".toList ++ suf else [], if dihedral then xCirc flat icirc else []⟩",
  "C108: the X circuits hold the plain sequence", "interleaved sequence in the plain X circuits", NT)
m("noise-10", RM, "rbSeq", "let xdata := calcXdata lv mult", "let xdata := calcXdata lv (mult.map fun _ => 1)",
  "C108, C42: the returned lengths are the numbers of random elements", "multiplier left out of the returned lengths", NT)

FE = "RB/FitErr.lean"
FC = "RB/FitClass.lean"
PU = "RB/PurityClass.lean"
TB = "Verif.RB.PropsErrBars"
TP = "Verif.RB.PropsPair"
TU = "Verif.RB.PropsPurityFit"
m("rbobj-01", FE, "dihedralErr", "(nrb * alphaRErr / alphaR / (nrb + 1)) ^ 2", "(alphaRErr / alphaR / (nrb + 1)) ^ 2",
  "C110: the bar covers the propagated error of the X basis decay", "weight left out of one error", TB)
m("rbobj-02", FE, "dihedralErr", "Real.sqrt (sqZ + sqR)", "Real.sqrt (sqZ * sqR)",
  "C110: squares are added", "product instead of sum", TB)
m("rbobj-03", FE, "purityErr", "(nrb - 1) / nrb * (purity n alpha alphaErr).2.1 / (purity n alpha alphaErr).1", "(nrb - 1) / nrb * (purity n alpha alphaErr).2.1",
  "C110: the purity bar is not below the propagated error", "relative error taken as absolute", TB)
m("rbobj-04", FM, "interleaved", "let sq2 := (alphaCErr / alphaC) * (alphaCErr / alphaC)", "let sq2 := (alphaCErr / alpha) * (alphaCErr / alpha)",
  "C110: the interleaved bar is the propagated error", "wrong decay in one relative error", TB)
m("rbobj-05", FC, "Fitter.addData", "if rerun then (← f.calcData).calcStatistics.fitData curve else some f", "if rerun then f.calcStatistics.fitData curve else some f",
  "C111: the data are those of all results", "rates not recomputed after new results", TP)
m("rbobj-06", FC, "Fitter.addData", "if rerun then (← f.calcData).calcStatistics.fitData curve else some f", "if rerun then (← f.calcData).fitData curve else some f",
  "C111: the fits are to the means of all results", "means not recomputed", TP)
m("rbobj-07", FC, "Pair.addData", "let b ← p.two.addData curve new2 rerun", "let b ← p.two.addData curve new1 rerun",
  "C111: each fitter gets its own results", "results of the first experiment given to both", TP)
m("rbobj-08", FC, "Pair.fitData", "some (comb x.1.2.length fa fb)", "some (comb x.1.2.length fb fa)",
  "C111: original and interleaved decays in their places", "fits swapped", TP)
m("rbobj-09", FC, "Pair.fitData", "some { p with one := a, two := b, comb := fs }", "some { p with one := a, two := b, comb := p.comb ++ fs }",
  "C111: one entry per pattern", "entries of earlier fits kept", TP)
m("rbobj-10", FC, "intComb", "interleaved n a.params.2.1 b.params.2.1 a.paramsErr.2.1 b.paramsErr.2.1⟩", "interleaved n b.params.2.1 a.params.2.1 b.paramsErr.2.1 a.paramsErr.2.1⟩",
  "C111: the estimate is from interleaved over original decay", "quotient inverted", TP)
m("rbobj-11", FC, "dihComb", "⟨(dihedral n a.params.2.1 b.params.2.1).1, e.1, (dihedral n a.params.2.1 b.params.2.1).2, e.2⟩", "⟨(dihedral n b.params.2.1 a.params.2.1).1, e.1, (dihedral n b.params.2.1 a.params.2.1).2, e.2⟩",
  "C111: weights of the two bases", "bases swapped", TP)
m("rbobj-12", FC, "fitOne", "fitPattern curve lens qubits y (fitGuess qubits.length y0 y1 m0 m1)", "fitPattern curve (lens.drop 1) qubits y (fitGuess qubits.length y0 y1 m0 m1)",
  "C111: the fit is over the given lengths", "first length dropped", TP)
m("rbobj-13", FC, "fitPattern", "Fit.epc qubits.length pe.1.2.1, Fit.epcErr", "Fit.epc qubits.length pe.1.1, Fit.epcErr",
  "C111: epc is computed from the decay", "amplitude used instead of decay", TP)
m("rbobj-14", FC, "Pair.new", "let b ← b.addData curve r2", "let b ← b.addData curve r1",
  "C111: the second fitter holds the second experiment's results only", "wrong results added in the constructor", TP)
m("rbobj-15", FC, "Pair.addData", "if rerun then q.fitData curve comb else some q", "some q",
  "C111: the combined fit is up to date after rerun", "combined fit not recomputed", TP)
m("rbobj-16", FC, "statsOf", "⟨(List.range m).map (meanCol rows),", "⟨(List.range (m - 1)).map (meanCol rows),",
  "C111: one mean per length", "last length lost", TP)
m("rbobj-17", PU, "purityStep", "let r ← st.results[x.2.1]?", "let r ← st.results[x.2.2]?",
  "C112: the results of each seed are found", "results of the first seed used for all seeds", TU)
m("rbobj-18", PU, "purityTable", "(sj.1, sj.2 * npurity + pur, pur)", "(sj.1, sj.2 + pur, pur)",
  "C112: results in the order seed, purity circuit", "stride forgotten", TU)
m("rbobj-19", PU, "purityEntry", "marginalCounts c (some (List.range' lo len)) false", "marginalCounts c (some (List.range' 0 len)) false",
  "C112: correlators of the pattern's own bits", "offset of the pattern forgotten", TU)
m("rbobj-20", PU, "purityPatterns", "nlen seeds ps (lo + p.length)", "nlen seeds ps (lo + 1)",
  "C112: correlators of the pattern's own bits", "offset advanced by one bit per pattern", TU)
m("rbobj-21", PU, "purFit", "params := (d.params.1, x.1, d.params.2.2)", "params := (d.params.1, d.params.2.1, d.params.2.2)",
  "C112: the reported decay is the square root", "decay not replaced", TU)
m("rbobj-22", PU, "purFit", "x.2.2, purityErr", "d.epc, purityErr",
  "C112: pepc belongs to the reported decay", "pepc from the squared decay", TU)
m("rbobj-23", PU, "PFitter.addData", "let inner ← ({ inner with raw := raw }.calcStatistics).fitData curve", "let inner ← ({ inner with raw := raw }).fitData curve",
  "C112: the fit is to the means of the purities", "fit to the means of the success rates", TU)
m("rbobj-24", PU, "purityKey", "\"rb_purity_\".toList ++ fmtD pur ++ suffix k s", "\"rb_purity_\".toList ++ fmtD pur ++ suffix 0 s",
  "C112: every length has its own counts", "lengths overwrite each other", TU)
m("rbobj-25", PU, "PFitter.new", "PFitter.addData curve ⟨npurity, p0.length, inner, []⟩ results", "PFitter.addData curve ⟨npurity, p.length, inner, []⟩ results",
  "C112: the number of qubits is that of a pattern", "number of patterns used as number of qubits", TU)

# C75, C113-C115
DM = "Dihedral/Model.lean"
m("c75-01", DM, "randomElem", "w3.map fun (a : Fin 2) => 4 * ((a : ℕ) : ℤ)", "w3.map fun (a : Fin 2) => 2 * ((a : ℕ) : ℤ)",
  "C75: random elements are uniform on the group", "cubic weights drawn from {0, 2} instead of {0, 4}", "Verif.Dihedral.PropsRandom")
m("c75-02", DM, "randomElem", "fun i => ((shift i : ℕ) : ℤ)⟩", "fun _ => 0⟩",
  "C75: random elements are uniform on the group", "the random shift is ignored", "Verif.Dihedral.PropsRandom")
m("c75-03", DM, "randomElem", "let linear ← linears.find? fun m => detOdd fun i j => ((m i j : ℕ) : ℤ)", "let linear ← linears.head?",
  "C75: random elements are in the group", "first matrix used although it may be singular", "Verif.Dihedral.PropsRandom")
m("c75-04", DM, "randomElem", "((linear i j : ℕ) : ℤ), fun", "((if i ≤ j then linear i j else 0 : Fin 2) : ℕ), fun",
  "C75: random elements are uniform on the group", "entries below the diagonal dropped", "Verif.Dihedral.PropsRandom")
RF_ = "RB/Fit.lean"
m("c113-01", RF_, "dihedral", "let alpha := (alphaZ + nrb * alphaR) / (nrb + 1)", "let alpha := (nrb * alphaZ + alphaR) / (nrb + 1)",
  "C113: the combination of the two decays is the alpha of the channel", "weights of the two bases swapped", "Verif.RB.PropsTwirl")
m("c113-02", RF_, "epc", "let nrb : ℝ := 2 ^ n; (nrb - 1) / nrb * (1 - alpha)", "let nrb : ℝ := 4 ^ n; (nrb - 1) / nrb * (1 - alpha)",
  "C113: epc is the average infidelity", "entanglement infidelity returned", "Verif.RB.PropsTwirl")
m("c113-03", RF_, "interleaved", "(nrb - 1) * (1 - alphaC / alpha) / nrb", "(nrb - 1) * (1 - (alphaC - alpha)) / nrb",
  "C113: the interleaved estimate is the infidelity of the gate", "difference instead of quotient", "Verif.RB.PropsTwirl")
m("c114-01", RF_, "purity", "(nrb - 1) / nrb * (1 - alpha_pur))", "(nrb - 1) / nrb * (1 - alpha))",
  "C114: pepc is the infidelity of depolarising noise", "unitarity used without the square root", "Verif.RB.PropsUnitarity")
m("c114-02", "RB/Purity.lean", "purityOf", ".sum / 2 ^ n)", ".sum / 4 ^ n)",
  "C114: the data are the purity of the state", "wrong normalisation", "Verif.RB.PropsUnitarity")
LS = "MeasMit/LeastSquares.lean"
LT = "Verif.MeasMit.PropsLsq"
m("lsq-01", LS, "lsqProblem", "eq := fun x => nshots - vsum n x", "eq := fun x => 1 - vsum n x",
  "C115: the total is conserved", "probabilities instead of counts in the constraint", LT)
m("lsq-02", LS, "lsqProblem", "bounds := (List.range n).map fun _ => (0, nshots)", "bounds := (List.range n).map fun _ => (-nshots, nshots)",
  "C115: counts are non-negative", "lower bound wrong", LT)
m("lsq-03", LS, "lsqProblem", "bounds := (List.range n).map fun _ => (0, nshots)", "bounds := (List.range n).map fun _ => (0, 1)",
  "C115: best of all physical counts", "upper bound one", LT)
m("lsq-04", LS, "lsqObj", "(v i - dot n cal x i) ^ 2", "(x i - dot n cal v i) ^ 2",
  "C115: fits the data best", "data and unknown swapped", LT)
m("lsq-05", LS, "lsqObj", "vsum n fun i => (v i - dot n cal x i) ^ 2", "vsum (n - 1) fun i => (v i - dot n cal x i) ^ 2",
  "C115: fits the data best", "last state not in the objective", LT)
m("lsq-06", LS, "filterDict", "labels.zipIdx.foldl (fun d p => if x p.2 ≠ 0 then", "labels.zipIdx.foldl (fun d p => if 1 < x p.2 then",
  "C115: the total is conserved", "small values dropped", LT)
m("lsq-07", LS, "filterList", "raw.getD (c * nlabels + j) 0", "raw.getD j 0",
  "C115: each vector of a list is corrected", "first vector used for all", LT)
m("lsq-08", LS, "tensoredObj", "groupProduct groups s1 p.1 nqubits", "groupProduct groups p.1 s1 nqubits",
  "C115: fits the data best", "transposed calibration matrices", LT)
m("lsq-09", LS, "filterResult", "filterDict labels cal pinv solve method (rand e.2) e.1", "filterDict labels cal pinv solve method (rand e.2) ((res.map id).headD [])",
  "C115: every experiment is corrected from its own counts", "counts of the first experiment used for all", LT)
m("lsq-10", LS, "correct", "else if method = some \"least_squares\".toList then solve", "else if method = some \"least_squares\".toList ∨ method = none then solve",
  "C115 finding: None raises", "None accepted as documented", LT)
m("lsq-11", LS, "tensoredLsq", "let x ← solve (lsqProblem (2 ^ nqubits)", "let x ← solve (lsqProblem nqubits",
  "C115: fits the data best", "dimension of the unknown wrong", LT)

RT = "Verif.RepCode.PropsRate"
m("c116-01", "RepCode/Model.lean", "logicalProb", "let (shots, incorrect) ← corrected.foldlM (fun (acc : Nat × Nat) kv => do\n    let c ← kv.1[0]?\n    pure (acc.1 + kv.2, if [c] ≠ log then acc.2 + kv.2 else acc.2)) (0, 0)", "let (shots, incorrect) ← corrected.foldlM (fun (acc : Nat × Nat) kv => do\n    let c ← kv.1[0]?\n    pure (acc.1 + kv.2, if [c] ≠ log then acc.2 + 1 else acc.2)) (0, 0)",
  "C116: the reported value is the share of wrongly decoded shots", "outcomes counted instead of shots", RT)
m("c116-02", "RepCode/Model.lean", "logicalProb", "    | some v => acc.set s (v + kv.2)\n    | none => acc.set s kv.2) []\n  let (shots", "    | some _ => acc.set s kv.2\n    | none => acc.set s kv.2) []\n  let (shots",
  "C116: the reported value is the share of wrongly decoded shots", "counts of merged outcomes overwritten", RT)
m("c116-03", "RepCode/Decoder.lean", "correct", "if p.2.headD 0 = 0 ∧ p.1.headD 0 ≠ 0 then flipAt ls (p.2.getD 1 0) else some ls", "if p.2.headD 0 = 0 then flipAt ls (p.2.getD 1 0) else some ls",
  "C116: every decoded string is a repeated logical bit", "matched pairs of copies flip a logical", RT)
m("c116-04", "RepCode/Decoder.lean", "maxKey", "if x.2 < y.2 then some y else some x", "if y.2 < x.2 then some y else some x",
  "C116: rate at most C(N, m) p^m", "far logical taken", RT)
m("c116-05", "RepCode/Decoder.lean", "matchingGraph", "(a, b, (0 : Int))", "(a, b, (-1 : Int))",
  "C116: rate at most C(N, m) p^m", "pairs of copies cost something", RT)

DT = "Verif.RepCode.PropsDetect"
m("c117-01", "RepCode/Model.lean", "lookuptable", "if p (!log) > p log then", "if p (!log) ≥ p log then",
  "C117: no more errors than any decoder; ties count as right", "ties count as wrong for both values", DT)
m("c117-02", "RepCode/Model.lean", "lookuptable", "if p (!log) > p log then", "if p log > p (!log) then",
  "C117: lookup table is optimal on its data", "less probable value chosen", DT)
m("c117-03", "RepCode/Model.lean", "postselection", "((splitDouble kv.1).drop 1)", "((splitDouble kv.1).drop 2)",
  "C117: fewer than d faults are detected", "syndrome not looked at", DT)
m("c117-04", "RepCode/Model.lean", "postselection", "if [c] ≠ log then acc.2 + kv.2 else acc.2)) (0, 0)\n  pyDiv incorrect shots\n\n/-- `lookuptable", "if [c] = log then acc.2 + kv.2 else acc.2)) (0, 0)\n  pyDiv incorrect shots\n\n/-- `lookuptable",
  "C117: 0 for data with fewer than d faults", "right shots counted", DT)

m("c118-01", TF, "lstsqPost", "  let m ← if psd then makePositiveSemidefinite", "  let m ← if !psd then makePositiveSemidefinite",
  "the fit returns a density matrix", "The positivity step is skipped when it is asked for.", "Verif.Tomo.PropsConstrained")
m("c118-02", TF, "fitterWeights", "    if standard then do\n      let ws ← data.mapM", "    if !standard then do\n      let ws ← data.mapM",
  "standard_weights=False gives no weights", "The meaning of standard_weights is inverted.", "Verif.Tomo.PropsConstrained")
m("c118-03", TF, "rescaleTrace", "fun i j => m i j * (t / ∑ k ∈ Finset.range dim, m k k)", "fun i j => m i j * ((∑ k ∈ Finset.range dim, m k k) / t)",
  "the returned matrix has the requested trace", "The scale factor is inverted.", "Verif.Tomo.PropsConstrained")

PS = "Verif.Tomo.PropsProcShots"
m("c119-01", TF, "labelOps", "some (ms.map fun m => kron p.transpose m)", "some (ms.map fun m => kron p m)",
  "the least-squares solution is the Choi matrix of the channel on average", "The preparation operator is not transposed.", PS)
m("c119-02", TF, "labelOps", "some (ms.map fun m => kron p.transpose m)", "some (ms.map fun m => kron m p.transpose)",
  "the least-squares solution is the Choi matrix of the channel on average", "Input and output factors are swapped.", PS)
m("c119-03", TF, "processDim", "Nat.sqrt (Nat.sqrt cols) ^ 4 ≠ cols then none else some (Nat.sqrt (Nat.sqrt cols))",
  "Nat.sqrt cols ^ 2 ≠ cols then none else some (Nat.sqrt cols)",
  "the fitted Choi matrix has trace 2^n", "The trace is set to the dimension of the Choi matrix, not of the input.", PS)
m("c119-04", TF, "sicPreparationMatrix", "m2 (1/3) ((√2 : ℝ) / 3) ((√2 : ℝ) / 3) (2/3)", "m2 (2/3) ((√2 : ℝ) / 3) ((√2 : ℝ) / 3) (1/3)",
  "SIC preparations form a tight frame, so the error bound is (25/3)^n / N", "The populations of S1 are swapped.", PS)

QS = "Verif.QV.PropsStat"
m("c120-01", QM, "statColumn", "let y1 := Real.sqrt (y0 * (1 - y0) / n)", "let y1 := Real.sqrt (y0 * (1 - y0) / (shots.sum : ℝ))",
  "the error bar is the binomial one for the number of trials", "The error bar is computed from the number of shots, so wrong verdicts are not controlled.", QS)
m("c120-02", QM, "zValue", "(mean - 2 / 3) / sigma", "(mean - 1 / 2) / sigma",
  "a device with heavy output probability at most 2/3 rarely passes", "The confidence is computed relative to 1/2.", QS)
m("c120-03", QM, "qvSuccess", "c > confidence 2", "c > confidence 1",
  "the probability of a wrong success is at most exp(-4n/(1+sqrt(2n+9))^2)", "One standard deviation instead of two.", QS)
m("c120-04", QM, "statColumn", "let y0 : ℝ := (vals.sum : ℝ) / (shots.sum : ℝ)", "let y0 : ℝ := (vals.sum : ℝ) / n",
  "the reported mean is the share of heavy shots", "Heavy counts are divided by the number of trials.", QS)
m("c120-05", QM, "zValue", "let sigma := if sigma = 0 then 1e-10 else sigma", "let sigma := if sigma = 0 then 1 else sigma",
  "success is reported exactly above the threshold", "A mean of 1 with a vanishing error bar fails.", QS)

ES = "Verif.Expval.PropsCalShots"
m("c121-01", XM, "expvalVar", "(sq - expval ^ 2) / shots", "(sq - expval ^ 2) / (shots - 1)",
  "the reported variance is on average (1 - 1/N) times the actual one", "The unbiased denominator.", ES)
m("c121-02", XM, "fitComplete", "  pure (n, a)\n", "  pure (n, fun i j => a j i)\n",
  "the fitted matrix has the shares of the outcomes in its columns", "The matrix is transposed.", ES)
m("c121-03", XM, "calStep", "let key ← parseBin p.1.cal", "let key ← parseBin p.1.cal.reverse",
  "the column of the fitted matrix for x comes from the circuit that prepares x", "The label is read in reverse.", ES)
m("c121-04", XM, "requiredShots", "⌈4 * gamma ^ 2 / delta ^ 2⌉", "⌈2 * gamma ^ 2 / delta ^ 2⌉",
  "with required_shots(delta) shots the error exceeds delta with probability at most 1/4", "Half the shots.", ES)
m("c121-05", XM, "completeGamma", "|mit i j|", "mit i j",
  "the variance is at most gamma^2/N", "The absolute value is dropped.", ES)

XF = "Expval/Fitter.lean"
EF = "Verif.Expval.PropsFitter"
m("c122-01", XM, "fitTensored", "(some [q])).map (·.2)", "(some [n - 1 - q])).map (·.2)",
  "fit('tensored') returns the error matrix of each qubit", "The qubits are listed in reverse order.", EF)
m("c122-02", XF, "fitterFit", "let method := method.or s.cal.method", "let method := s.cal.method.or method",
  "what a call returns depends on its own method argument", "The stored method overrides the argument.", EF)
m("c122-03", XF, "fitterFit", "let done := fun m => (⟨s.cal, some m⟩, m)", "let done := fun m => (⟨s.cal, s.mitigator.or (some m)⟩, m)",
  "mitigator is what the last successful call returned", "Only the first fitted mitigator is stored.", EF)
m("c122-04", XF, "newFitter", "fun st => ⟨st, none⟩", "fun st => ⟨st, some (.tensored [])⟩",
  "mitigator raises before the first successful fit", "An empty mitigator is there from the start.", EF)
m("c122-05", XM, "calStep", "| some old => st.data.set key (combineInt old c)", "| some old => st.data.set key old",
  "all circuits with the same label are pooled", "Repeated labels are dropped.", EF)
m("c122-06", XM, "amatMask", "if i ∈ qubits then mask else mask + 2 ^ i", "mask + 2 ^ i",
  "fit('tensored') returns the error matrix of each qubit", "Errors on the qubit itself are filtered out as well.", EF)

TG = "Tomo/GstFit.lean"
TGL = "Tomo/Gst.lean"
GX = "Verif.Tomo.PropsGstFitEx"
m("c123-01", TG, "processResult", "(.ptm (Matrix.of fun a b => s.2.2.getD i (fun _ _ => 0) a b))", "(.ptm (Matrix.of fun a b => s.2.2.getD i (fun _ _ => 0) b a))",
  "on exact data the returned gate set gives the true probabilities", "Transfer matrices are returned transposed.", GX)
m("c123-02", TG, "processResult", "let d := d.set \"rho\".toList (.op (Matrix.of fun i j => convertFromPtm s.2.1 i j))", "let d := d.set \"rho\".toList (.op (Matrix.of fun i j => convertFromPtm s.1 i j))",
  "on exact data the returned gate set gives the true probabilities", "The effect is returned as the state.", GX)
m("c123-03", TG, "mleConstraints", "[⟨true, rhoTrace numGates⟩, ⟨true, boundsEq numGates⟩, ⟨false, boundsIneq numGates⟩]", "[⟨true, rhoTrace numGates⟩, ⟨false, boundsEq numGates⟩, ⟨false, boundsIneq numGates⟩]",
  "every gate returned is a quantum channel", "The equality constraints are passed as inequalities.", GX)
m("c123-04", TG, "setInitialValue", "joinInputVector schur (vecN e) (vecN r) gs", "joinInputVector schur (vecN r) (vecN e) gs",
  "on exact data the returned gate set gives the true probabilities", "State and effect are swapped in the start.", GX)
m("c123-05", TG, "gstFirstGuess", "gaugeOptimize o spam gates spec mats ideal lin", "gaugeOptimize o spam gates spec mats lin ideal",
  "on exact data the returned gate set gives the true probabilities", "The gauge optimiser gets its two gate sets swapped.", GX)
m("c123-06", TG, "mleConstraints", "[⟨true, rhoTrace numGates⟩, ", "[",
  "the returned state has trace one", "The trace constraint is forgotten.", GX)
m("c123-07", TG, "idealGateset", "(.gate gm.2)) []", "(.gate gm.2ᵀ)) []",
  "on exact data of an ideal device fit returns the device", "The ideal gates are transposed.", GX)

TDI, TDX = "Tomo/Dispatch.lean", "Verif.Tomo.PropsDispatch"
m("c124-01", TDI, "checkSolver", "(a.setNotScs c true).setSdp c true", "(a.setNotScs .base true).setSdp c true",
  "the choice of the method does not depend on earlier fits of other classes", "The search sets the attribute on the base class.", TDX)
m("c124-02", TDI, "checkSolver", "&& env.scsWorks then", "then",
  "auto uses cvx for a process only if a solver works", "The test of SCS is dropped.", TDX)
m("c124-03", TDI, "runFit", "if a'.getNotScs c then \"cvx\".toList", "if a'.getSdp c = some true then \"cvx\".toList",
  "auto uses least squares for a state if only SCS is installed", "SCS counts as a solver for states.", TDX)
m("c124-04", TDI, "stateFit", "(x.kwargs.set \"trace\".toList (.num 1))", "x.kwargs",
  "the state is fitted with trace one", "The trace is not passed on.", TDX)
m("c124-05", TDI, "processFit", "(.num dim) (.bool true)", "(.num dim) (.bool false)",
  "a process is fitted trace preserving", "The constraint is not passed on to cvx.", TDX)
m("c124-06", TDI, "processFit", "let dim := Nat.sqrt (Nat.sqrt cols)", "let dim := Nat.sqrt cols",
  "the trace of a Choi matrix on n qubits is 2^n", "One square root is forgotten.", TDX)
m("c124-07", TDI, "ClsAttrs.getSdp", "(a.sdp c).or (a.sdp .base)", "(a.sdp .base).or (a.sdp c)",
  "the search is done once per class", "The base class has precedence.", TDX)
m("c124-08", TDI, "runFit", "else (a', .error .qiskit)\n\n/-- The keyword arguments other", "else (a', .ok (.lstsq standard beta psd trace))\n\n/-- The keyword arguments other",
  "an unknown method is an error", "An unknown method falls back to least squares.", TDX)
CE, CX = "Expval/CtmpExpval.lean", "Verif.Expval.PropsCtmpShots"
m("c125-01", CE, "ctmpResult", "(Real.exp (2 * s.gamma)) s.numSamples draws", "(Real.exp s.gamma) s.numSamples draws",
  "the mean of the value is the noiseless expectation", "The factor is the square root of the right one.", CX)
m("c125-02", CE, "ctmpSamples", "max 1600 (shots : ℝ) * Real.exp (2 * gamma)", "max 1600 (shots : ℝ)",
  "the variance is at most (e^{4 gamma} + e^{2 gamma})/N", "The number of samples does not grow with the noise.", CX)
m("c125-03", CE, "ctmpSamples", "max 1600 (shots : ℝ)", "min 1600 (shots : ℝ)",
  "the variance falls as 1/N", "The number of samples is bounded by 1600.", CX)
m("c125-04", CE, "ctmpCall", "(samplingMatrix (2 ^ n) g)", "g",
  "the mean of the value is the noiseless expectation", "The chain is run with the generator.", CX)
m("c125-05", CE, "ctmpResult", "/ √(s.shots : ℝ)", "/ (s.shots : ℝ)",
  "the error bar is e^{2 gamma}/sqrt(N)", "The root is forgotten.", CX)
m("c125-06", CE, "ctmpCall", "let qs := qubits.getD (List.range numQubits)", "let qs := List.range numQubits",
  "the value is accurate for every choice of qubits", "The list of qubits is ignored.", CX)

MS = "Verif.MeasMit.PropsShots"
LS = "MeasMit/LeastSquares.lean"
m("c126-01", LS, "correct", "some (dot n pinv v)", "some (dot n cal v)",
  "the mean frequencies are the noiseless probabilities for an exact calibration", "The noise is applied once more.", MS)
m("c126-02", LS, "filterDict", "some (labels.zipIdx.foldl (fun d p => if x p.2 ≠ 0 then d.set p.1 (x p.2) else d) [])", "some (labels.zipIdx.foldl (fun d p => if 0 < x p.2 then d.set p.1 (x p.2) else d) [])",
  "the total of the corrected counts is N", "Negative values are dropped.", MS)
m("c126-03", LS, "lsqProblem", "eq := fun x => nshots - vsum n x", "eq := fun x => 1 - vsum n x",
  "the total of the corrected counts is N", "The constraint is for probabilities, the counts are not.", MS)
m("c126-04", LS, "lsqObj", "(v i - dot n cal x i) ^ 2", "(v i - dot n (fun a b => cal b a) x i) ^ 2",
  "the corrected frequencies converge to the noiseless probabilities", "The matrix is transposed.", MS)
m("c126-05", LS, "tensoredLsq", "if i = ofBin p.1 then p.2 else v i", "if i = ofBin p.1.reverse then p.2 else v i",
  "the corrected frequencies converge to the noiseless probabilities", "The bits of the counts are reversed.", MS)
m("c126-06", "MeasMit/Model.lean", "normalise", "if colSum (2 ^ size) m j ≠ 0 then m i j / colSum (2 ^ size) m j else 0", "if colSum (2 ^ size) m i ≠ 0 then m i j / colSum (2 ^ size) m i else 0",
  "the fitted matrix consists of the shares of the calibration shots", "Divides by the total of another column.", MS)

PS = "Verif.RB.PropsPurityShots"
m("c127-01", "RB/Purity.lean", "purityOf", "(cn.1 / (cn.2 : ℚ)) ^ 2", "cn.1 ^ 2 / (cn.2 : ℚ)",
  "the mean of the reported purity is the purity plus an excess of order 1/N", "The square is taken before the mean over the circuits.", PS)
m("c127-02", "RB/Purity.lean", "purityOf", ".sum / 2 ^ n)", ".sum / 4 ^ n)",
  "the reported purity is rarely far from the purity", "Wrong normalisation.", PS)
m("c127-03", "RB/Purity.lean", "lut", "[[0, 0, 0], [3, 1, 2]]", "[[0, 0, 0], [1, 2, 3]]",
  "the correlators of a circuit are those of its Pauli strings", "Letters in another order than the circuits.", PS)
m("c127-04", "RB/Purity.lean", "accumulate", "(List.range (2 ^ n)).map fun ind =>", "((List.range (2 ^ n)).drop 1).map fun ind =>",
  "the identity contributes one to the purity", "The empty set of qubits is left out.", PS)
m("c127-05", "RB/PurityClass.lean", "purityEntry", "(cs.getD pur []) (Purity.zdict nq ind)", "(cs.getD 0 []) (Purity.zdict nq ind)",
  "every circuit contributes the correlators of its own shots", "Always uses the shots of the first circuit.", PS)

RS = "Verif.RB.PropsRBShots"
m("c128-01", "RB/Fit.lean", "meanCol", "(rows.map fun r => r.getD k 0).sum / rows.length", "(rows.map fun r => r.getD k 0).sum / (rows.length - 1)",
  "the means are on average the averaged success probabilities", "Divides by one less.", RS)
m("c128-02", "RB/Fit.lean", "varCol", "(r.getD k 0 - meanCol rows k) ^ 2).sum / rows.length)", "(r.getD k 0 - meanCol rows k) ^ 2).sum / (rows.length - 1))",
  "the reported variances are on average K - 1 times the variances of the means", "Sample variance with another divisor.", RS)
m("c128-03", "RB/Fit.lean", "rawEntry", "(List.replicate len '0')", "(List.replicate len '1')",
  "the means are on average the averaged success probabilities", "Counts the ones.", RS)
m("c128-04", "RB/Fit.lean", "rawPatterns", "ps ls (lo + p.length)", "ps ls lo",
  "the data of a pattern are those of its bits", "The first bits are used for every pattern.", RS)
m("c128-05", "RB/FitClass.lean", "statsOf", "if rows.length = 1 then none else some ((List.range m)", "if rows.length ≤ 2 then none else some ((List.range m)",
  "with one seed no variance is reported, otherwise it is", "Wrong boundary.", RS)

IQ, PI = "Discr/Iq.lean", "Verif.Discr.PropsIq"
m("c129-01", IQ, "scaleData", "let s ← scaler.or (fitScaler x)", "let s ← fitScaler x",
  "the same map is applied to everything that is discriminated later", "The scaler is fitted to the data of every call.", PI)
m("c129-02", IQ, "fitScaler", "if colVar rows k = 0 then 1 else √(colVar rows k)", "√(colVar rows k)",
  "features that are the same in all shots become zero, the map is affine and invertible", "Division by zero for constant features.", PI)
m("c129-03", IQ, "fitScaler", "if colVar rows k = 0 then 1 else √(colVar rows k)", "if colVar rows k = 0 then 1 else colVar rows k",
  "the data passed to the constructor have variance one", "The root is forgotten.", PI)
m("c129-04", IQ, "Iq.apply", "let y ← d.discriminate sx.2", "let y ← d.discriminate ((getXdata d.base.mask [keep] (keep.map (·.name))).getD [])",
  "a filter gives the same counts with and without standardisation", "The filter does not scale its data.", PI)
m("c129-05", IQ, "Iq.addData", "if refit then d'.fit train else some d'", "some d'",
  "after add_data with refit the classifier is the one of the new data", "Never refits.", PI)
m("c129-06", IQ, "Scaler.row", "(r.getD k 0 - s.mean.getD k 0) / s.scale.getD k 0", "r.getD k 0 / s.scale.getD k 0",
  "the data passed to the constructor have mean zero", "The mean is not subtracted.", PI)
m("c129-07", IQ, "Iq.addData", "let results := d.base.results ++ [result]", "let results := [result]",
  "the data are those of the discriminator without standardisation", "Earlier results are forgotten.", PI)

NA = "Ent/Analysis.lean"
NP = "Verif.Ent.PropsNoisy"
NM = "Ent/Model.lean"
m("c130-01", NA, "infoMqc", "UB := Real.sqrt ‖In‖ + Real.sqrt (‖I0‖ / 2)", "UB := Real.sqrt ‖In‖ + Real.sqrt ‖I0‖ / 2",
  "the fidelity lies below the reported upper bound", "The 2 is outside the root.", NP)
m("c130-02", NA, "infoMqc", "LBm := 2 * Real.sqrt ‖Inm‖", "LBm := 4 * Real.sqrt ‖Inm‖",
  "the fidelity lies above the reported lower bound", "A factor of two in the mitigated lower bound.", NP)
m("c130-03", NA, "infoMqc", "F := (1 / 2) * (p.P0m + p.P1m) + Real.sqrt ‖In‖", "F := (1 / 2) * (p.P0m + p.P1m + Real.sqrt ‖In‖)",
  "the fidelity reported is the largest fidelity", "Half of the coherence.", NP)
m("c130-04", NA, "infoPo", "let Cm := 2 * ‖fft N ym n‖", "let Cm := 2 * ‖fft N y n‖",
  "the mitigated fidelity is the largest fidelity of the state of the mitigated signal", "Raw signal used for the mitigated fidelity.", NP)
m("c130-05", NM, "mqcWith", "prep ++ [.barrier] ++ (List.range n).map (fun i => .u1 delta i) ++ mid ++ (List.range n).map (fun i => .x i)", "prep ++ [.barrier] ++ (List.range n).map (fun i => .u1 delta i) ++ mid ++ (List.range (n - 1)).map (fun i => .x i)",
  "the coherence signal of the circuit", "The X gate misses the last qubit.", NP)
m("c130-06", NM, "poWith", ".u2 delta (-delta) i", ".u2 delta delta i",
  "the parity oscillates with the coherence of the prepared state", "The sign of the second angle is lost.", NP)
m("c130-07", NM, "mqcWith", "fun i => .u1 delta i", "fun i => .u1 (delta + delta) i",
  "the n-th Fourier coefficient is the coherence", "The rotation is applied twice.", NP)

NG = "Verif.Ent.PropsGhzShots"
m("c131-01", NA, "orderedList", "(List.range (2 ^ qn)).map fun a => counts.getD (zfill qn (binDigits a)) 0", "(List.range (2 ^ qn)).map fun a => counts.getD (zfill qn (binDigits a)) 1",
  "the parity is computed from the counts", "Missing outcomes are counted once.", NG)
m("c131-02", NA, "sigmaZ", "if i = 0 then 1 else -1", "if i = 0 then -1 else 1",
  "the parity has sign +1 for an even number of ones", "The sign of sigma_z is reversed.", NG)
m("c131-03", NA, "infoPo", "some ((1 / 2) * (p.P0 + p.P1 + C)", "some ((1 / 2) * (p.P0 + p.P0 + C)",
  "the raw fidelity is on average between F and F + 1/sqrt(N S)", "One population used twice.", NG)
m("c131-04", NA, "infoMqc", "let In := fft N y n", "let In := fft N y (n - 1)",
  "the raw fidelity from coherences is rarely far from F", "The neighbouring Fourier coefficient.", NG)
m("c131-05", NA, "fft", "(1 / N) * ∑ k", "(1 / (N + 1)) * ∑ k",
  "the raw fidelity is on average not below F", "Normalised with one phase too many.", NG)
m("c131-06", NA, "infoMqc", "F := (1 / 2) * (p.P0m + p.P1m) + Real.sqrt ‖In‖", "F := (1 / 2) * (p.P0m + p.P1m) + Real.sqrt ‖Inm‖",
  "the raw fidelity is computed from the raw signal", "Mitigated signal in the raw fidelity.", NG)

GO = "Tomo/GsObj.lean"
PGO = "Verif.Tomo.PropsGsObj"
m("c132-01", GO, "gsStep", "| some m => (⟨dicts, h.objs.set i { o with gateLabels := o.gateLabels ++ [nm], mats := o.mats.set nm m }⟩, true)", "| some m => (⟨dicts, h.objs.set i { o with gateLabels := o.gateLabels ++ [nm] }⟩, true)",
  "gate_matrices holds the transfer matrix of every gate", "add_gate forgets the matrix.", PGO)
m("c132-02", GO, "gsStep", "| some m => (⟨dicts, h.objs.set i { o with gateLabels := o.gateLabels ++ [nm], mats", "| some m => (⟨dicts, h.objs.set i { o with gateLabels := o.gateLabels, mats",
  "gate_labels lists exactly the accepted gates", "add_gate forgets the label.", PGO)
m("c132-03", GO, "gateName", "| none, .obj nm _ => some nm", "| none, .obj _ _ => none",
  "add_gate raises exactly for a function without a name", "Gate objects also need a name.", PGO)
m("c132-04", GO, "gsStep", "let dicts := h.dicts.modify o.ref fun d => d.set nm gate", "let dicts := h.dicts.modify i fun d => d.set nm gate",
  "add_gate changes its own gate set", "The gate goes to another dictionary.", PGO)
m("c132-05", GO, "gsStep", "h.objs ++ [⟨ref, d.map (·.1), mats, spam⟩]", "h.objs ++ [⟨ref, (d.map (·.1)).dropLast, mats, spam⟩]",
  "gate_labels lists exactly the accepted gates", "The last gate is not listed.", PGO)
m("c132-06", GO, "gateName", "| some nm, _ => some nm", "| some nm, .fn _ => some nm\n  | some _, .obj nm _ => some nm",
  "add_gate uses the given name", "The name of a gate object wins over the given one.", PGO)
m("c132-07", GO, "MatFn.call2", "| .one _, _, _ => .error .type", "| .one f, l, _ => f l",
  "finding: measurement_matrix of get_tomography_basis always raises", "Extra arguments ignored.", PGO)
m("c132-08", "Tomo/Gst.lean", "spamMatrix", "rest.foldl (· * ·) m", "rest.foldl (fun a b => b * a) m",
  "spam_matrix is the matrix of the reversed sequence", "The product in the other order.", PGO)

EE = "Ent/Errors.lean"
PEE = "Verif.Ent.PropsErrors"
m("c133-01", EE, "cxStep", "if d.has (b, a) then some d else some (d.set (b, a) v)", "some (d.set (b, a) v)",
  "the reversed pair keeps its first value and its own values", "The reversed entry is always overwritten.", PEE)
m("c133-02", EE, "cxStep", "let d := d.set (a, b) v", "let d := if d.has (a, b) then d else d.set (a, b) v",
  "the last listed value counts", "The first listed value is kept.", PEE)
m("c133-03", EE, "sortChildrenP", "d.getD (a, parent) 0 ≤ d.getD (b, parent) 0", "d.getD (b, parent) 0 ≤ d.getD (a, parent) 0",
  "CNOTs of one control in the order of their errors", "Sorted in descending order.", PEE)
m("c133-04", EE, "sortChildrenP", "d.getD (a, parent) 0 ≤ d.getD (b, parent) 0", "d.getD (parent, a) 0 ≤ d.getD (parent, b) 0",
  "order by the errors of the reversed CNOTs (finding)", "The direction is corrected.", PEE)
m("c133-05", EE, "cxStep", "| [a, b] => do", "| [a, b, _] => do",
  "the table holds the two-qubit gates", "Three-qubit gates instead.", PEE)
m("c133-06", "Ent/Model.lean", "childLoop", "childLoop parent cs (j + 1)", "childLoop parent cs j",
  "CNOTs of one control in successive tiers", "The tier does not advance.", PEE)

MO = "MeasMit/Objects.lean"
PMO = "Verif.MeasMit.PropsObjects"
m("c134-01", MO, "mStep", "let f := { w.fitter with results := w.fitter.results ++ rs }", "let f := { w.fitter with results := rs }",
  "the matrix is the one of all results passed", "add_data forgets the earlier results.", PMO)
m("c134-02", MO, "mStep", "| none => ({ w with fitter := { f with cal := .dirty } }, false)", "| none => (w, false)",
  "finding: a result that cannot be used is recorded although the call raised", "A failing call is rolled back.", PMO)
m("c134-03", MO, "mStep", "({ w with fitter := { w.fitter with labels := ls } }, true)", "({ w with fitter := { w.fitter with labels := ls, inds := indices ls } }, true)",
  "finding: a rebuild keeps the original order of the labels", "The indices follow the labels.", PMO)
m("c134-04", MO, "mStep", "| .unset => (w, false)", "| .unset => ({ w with filters := w.filters ++ [⟨.unset, w.fitter.labels⟩] }, true)",
  "a filter can be taken exactly if the fitter has a matrix", "A filter without matrix.", PMO)
m("c134-05", MO, "mStep", "| .setCal m => ({ w with fitter := { w.fitter with cal := .clean m } }, true)", "| .setCal m => ({ w with fitter := { w.fitter with cal := .clean m }, filters := w.filters.map fun f => { f with cal := .clean m } }, true)",
  "a filter keeps its matrix whatever happens to the fitter", "The filters share the matrix of the fitter.", PMO)
m("c134-06", MO, "mStep", "    else ({ w with fitter := f }, true)", "    else ({ w with fitter := w.fitter }, true)",
  "the matrix is the one of all results passed", "Without rebuild the results are not recorded.", PMO)
m("c134-07", MO, "CFitter.build", "[f.inds] results).bind (·[0]?)", "[indices f.labels] results).bind (·[0]?)",
  "the matrix is in the order of the original labels", "The current labels are used.", PMO)

PME = "Verif.MeasMit.PropsEnd"
m("c135-01", "MeasMit/Model.lean", "normalise", "if colSum (2 ^ size) m j ≠ 0 then m i j / colSum (2 ^ size) m j else 0", "if colSum (2 ^ size) m j ≠ 0 then m i j / (colSum (2 ^ size) m j + 1) else 0",
  "the corrected frequencies are close to the noiseless ones", "Column sums off by one.", PME)
m("c135-02", "MeasMit/LeastSquares.lean", "correct", "then some (dot n pinv v)", "then some (dot n cal v)",
  "the corrected frequencies are close to the noiseless ones", "The noise is applied instead of undone.", PME)
m("c135-03", MO, "mStep", "w.filters ++ [⟨c, w.fitter.labels⟩]", "[⟨c, w.fitter.labels⟩] ++ w.filters",
  "the filter handed out last is the one of the calibration", "Filters in the wrong order.", PME)
m("c135-04", "MeasMit/Model.lean", "calState", "reSearch (circlabel ++ \"cal_\".toList).reverse [] name", "reSearch (circlabel ++ \"cal\".toList).reverse [] name",
  "every calibration circuit is recognised", "The underscore becomes part of the label.", PME)
m("c135-05", "MeasMit/LeastSquares.lean", "filterDict", "fun j => raw.getD (labels.getD j []) 0", "fun j => raw.getD (labels.getD (j + 1) []) 0",
  "the corrected frequencies are close to the noiseless ones", "The counts are shifted by one label.", PME)

DO = "Dihedral/Objects.lean"
PDO = "Verif.Dihedral.PropsObjects"
m("c136-01", DO, "Heap.step", "      | some (p, l, s) => h.alloc p l s", "      | some (p, l, s) => ({ h with objs := h.objs ++ [o] }, .new h.objs.length)",
  "a call leaves every other element as it is", "copy is shallow: the copy shares its arrays.", PDO)
m("c136-02", DO, "Heap.step", "| .ofElem _ => (h, .raised)", "| .ofElem a => match h.objs[a]? with | none => (h, .raised) | some o => ({ h with objs := h.objs ++ [o] }, .new h.objs.length)",
  "a call leaves every other element as it is", "The constructor works and shares the arrays, as its comment says.", PDO)
m("c136-03", DO, "Heap.prim", "| some r => ((h.setLin o r.linear).setShift o r.shift, .done)", "| some r => (h.setLin o r.linear, .done)",
  "every element represents the operator the calls prescribe", "cnot forgets the shift.", PDO)
m("c136-04", DO, "Gate.prims", "| .y q => some [.flip q, .phase 4 q]", "| .y q => some [.flip q]",
  "every element represents the operator the calls prescribe", "y without the phase.", PDO)
m("c136-05", DO, "Heap.product", "| some r => h.alloc r.poly r.linear (.lst r.shift)", "| some r => h.alloc r.poly r.linear (.arr r.shift)",
  "finding: is_cnotdihedral raises on every product", "The product stores its shift in an array.", PDO)
m("c136-06", DO, "Heap.append", "    | none => (h, .raised)\n    | some ms =>", "    | none => h.append o gs\n    | some ms =>",
  "append_circuit raises on an instruction that is no CNOT-dihedral gate", "Unknown gates are skipped.", PDO)
m("c136-07", DO, "Heap.step", "    | some o, some o' => h.tensor o' o", "    | some o, some o' => h.tensor o o'",
  "every element represents the operator the calls prescribe", "expand is tensor.", PDO)
m("c136-08", DO, "Heap.eq", "| s, s' => some (decide (p = p' ∧ l = l' ∧ s.vec? = s'.vec?))", "| s, s' => some (decide (p = p' ∧ l = l'))",
  "two elements compare equal exactly if their operators agree", "The key leaves out the shift.", PDO)
m("c136-09", DO, "Heap.setShift", "((h.shifts o.n).modify o.s (Shift.put v))", "((h.shifts o.n).map (Shift.put v))",
  "a call leaves every other element as it is", "All shifts are written.", PDO)

GSTM = "Tomo/Gst.lean"
PGS = "Verif.Tomo.PropsGstShots"
m("c137-01", GSTM, "gstProbs", "((Dict.getD kv.2 \"0\".toList 0 : ℤ) : ℝ) / (total : ℝ)", "((Dict.getD kv.2 \"0\".toList 0 : ℤ) : ℝ) / (total + 1 : ℝ)",
  "the relative frequencies are within eps of the probabilities", "The relative frequency is computed with one shot too many.", PGS)
m("c137-02", GSTM, "linearInversion", "(.prep (inv *ᵥ gstVector spam probs))", "(.prep (gstVector spam probs))",
  "the state is within L of the device's in the same gauge", "rho is not multiplied by the inverse Gram matrix.", PGS)
m("c137-03", GSTM, "linearInversion", "(.gate (inv * gateData spam probs g))", "(.gate (gateData spam probs g * inv))",
  "the gates are within n L of the device's in the same gauge", "The inverse is multiplied from the other side.", PGS)

ROT = "Log/Rotate.lean"
PROT = "Verif.Log.PropsRotate"
m("c138-01", ROT, "getLogFiles", "((listing.filter (globbed path)).insertionSort fun a b => mtime a ≤ mtime b)", "(listing.filter (globbed path))",
  "the lines are read in the order of writing", "The files are not sorted.", PROT)
m("c138-02", ROT, "getLogFiles", "mtime a ≤ mtime b)", "mtime b ≤ mtime a)",
  "the lines are read in the order of writing", "The newest file is read first.", PROT)
m("c138-03", ROT, "moveSteps", "d.mv (backup path (m + 1)) (backup path (m + 2)) else d) :: moveSteps path m", "d.mv (backup path (m + 1)) (backup path (m + 3)) else d) :: moveSteps path m",
  "at most rotations + 1 files", "Backups move up by two.", PROT)
m("c138-04", ROT, "rollSteps", "moveSteps c.path (c.rotations - 1) ++", "moveSteps c.path c.rotations ++",
  "at most rotations + 1 files", "One backup too many is kept.", PROT)
m("c138-05", ROT, "rollSteps", "if (d.dir c.path).isSome then d.mv c.path (backup c.path 1) else d]", "if (d.dir c.path).isSome then d.rm c.path else d]",
  "a suffix of the lines written is read", "The full file is removed instead of renamed.", PROT)
m("c138-06", ROT, "Disk.openBase", "  | some i => { d with stream := Function.update d.stream a (some i) }", "  | some i => { d with stream := Function.update d.stream a (some i), store := d.store.modify i fun f => ⟨[], f.mtime⟩ }",
  "nothing is lost without rotations", "The file is opened with mode w.", PROT)
m("c138-07", ROT, "Disk.should", "decide (c.maxBytes ≤ (f.lines.map c.bytes).sum + c.chars l)", "decide (c.maxBytes ≤ (f.lines.map c.bytes).sum)",
  "a file with more than one line is below the limit", "The length of the new line is not counted.", PROT)
m("c138-08", ROT, "Disk.should", "decide (0 < c.maxBytes) && ", "",
  "nothing is lost without a size limit", "Size 0 is taken for a limit.", PROT)
m("c138-09", ROT, "reBackup", "s.takeWhile Char.isDigit ≠ []", "s.length = 1 && s.takeWhile Char.isDigit ≠ []",
  "all files are found", "Only backups with one digit are found.", PROT)
m("c138-10", ROT, "logSteps", "(if (runSteps opens d).should c a l then rollSteps c a t else []) ++ [Disk.append a l t]", "[Disk.append a l t] ++ (if (runSteps opens d).should c a l then rollSteps c a t else [])",
  "a file with more than one line is below the limit", "The line is written before the rollover.", PROT)
m("c138-11", ROT, "moveSteps", "fun d => if (d.dir (backup path (m + 1))).isSome then d.rm (backup path (m + 2)) else d) ::", "fun d => d.rm (backup path (m + 1))) ::",
  "lines are lost only when all backups are full", "The wrong backup is removed.", PROT)
m("c138-12", ROT, "Disk.append", "⟨f.lines ++ [l], t⟩", "⟨l :: f.lines, t⟩",
  "the lines are read in the order of writing", "Lines are put at the front.", PROT)

OBJ = "Expval/Objects.lean"
POBJ = "Verif.Expval.PropsObjects"
m("c139-01", OBJ, "completeMitC", "let key := (qs.getD (List.range n)).insertionSort (· ≤ ·)\n  match cache.get? key with\n  | some r => some (r, cache, heap)\n  | none =>\n    match completeAmat", "let key := (qs.getD (List.range n)).insertionSort (· ≤ ·)\n  match cache.get? [] with\n  | some r => some (r, cache, heap)\n  | none =>\n    match completeAmat",
  "every call gives the answer that follows from the construction", "The cache is looked up under the key of no qubits.", POBJ)
m("c139-02", OBJ, "completeMitC", "cache.set key heap.length", "cache.set (key.take 1) heap.length",
  "every call gives the answer that follows from the construction", "The cache key forgets all qubits but one.", POBJ)
m("c139-03", OBJ, "completeMitC", "let key := (qs.getD (List.range n)).insertionSort (· ≤ ·)", "let key := qs.getD (List.range n)",
  "every call gives the answer that follows from the construction", "The qubits are not sorted.", POBJ)
m("c139-04", OBJ, "completeMitC", "heap ++ [inv (2 ^ key.length) m])", "heap.set amat (inv (2 ^ key.length) m) ++ [inv (2 ^ key.length) m])",
  "no call changes an array that exists already", "The inversion overwrites the assignment matrix.", POBJ)
m("c139-05", OBJ, "tensoredMatC", "(refs[q]?).map fun r => (r, heap)", "(refs[q]?).map fun r => (r, heap.set r fun _ _ => 0)",
  "no call changes an array that exists already", "A call clears the array it returns.", POBJ)
m("c139-06", OBJ, "askComplete", "| some m => (.complete n amat cache, heap ++ [m], .array heap.length)", "| some m => (.complete n heap.length cache, heap ++ [m], .array heap.length)",
  "every call gives the answer that follows from the construction", "The restricted assignment matrix replaces the one of the object.", POBJ)
m("c139-07", OBJ, "askComplete", "| .amat none => (.complete n amat cache, heap, .array amat)", "| .amat none => (.complete n amat [], heap, .raised)",
  "every call gives the answer that follows from the construction", "No assignment matrix for all qubits.", POBJ)
m("c139-08", OBJ, "strengthC", "{ c' with strengths := c'.strengths.set key x }", "{ c' with strengths := c'.strengths.set (key.take 1) x }",
  "every call gives the answer that follows from the construction", "The noise strength is stored under the wrong key.", POBJ)
m("c139-09", OBJ, "samplingC", "{ c2 with bmats := c2.bmats.set key b }", "{ c2 with bmats := c2.bmats.set [] b }",
  "every call gives the answer that follows from the construction", "The sampling matrix is stored under one key for all qubits.", POBJ)
m("c139-10", OBJ, "genMatC", "{ c with gmats := c.gmats.set key heap.length }", "{ c with gmats := c.gmats.set key (heap.length - 1) }",
  "every call gives the answer that follows from the construction", "The generator cache keeps the wrong array.", POBJ)
m("c139-11", OBJ, "ctmpKey", "List ℕ := (qs.getD (List.range n)).insertionSort (· ≤ ·)", "List ℕ := qs.getD (List.range (n - 1))",
  "every call gives the answer that follows from the construction", "Without qubits the last one is left out.", POBJ)
m("c139-12", OBJ, "askTensored", "| .gamma none => (heap, .num gammas.prod)", "| .gamma none => (heap, .num gammas.sum)",
  "every call gives the answer that follows from the construction", "Gamma factors are added.", POBJ)
m("c139-13", OBJ, "askCtmp", "(c', heap' ++ [expm dim (flipMat dim (arr heap' r))], .array heap'.length)", "({ c' with gmats := c'.gmats.set (ctmpKey n qs) heap'.length }, heap' ++ [expm dim (flipMat dim (arr heap' r))], .array heap'.length)",
  "every call gives the answer that follows from the construction", "The exponential ends up in the cache of generators.", POBJ)
m("c139-14", OBJ, "MWorld.step", "List.range' w.heap.length rs.length", "rs",
  "every call gives the answer that follows from the construction", "A tensored mitigator uses the assignment matrices as mitigation matrices.", POBJ)
m("c139-15", OBJ, "askCtmp", "| .gamma (some _) => (c, heap, .raised)", "| .gamma (some _) => (⟨[], [], []⟩, heap, .num 1)",
  "every call gives the answer that follows from the construction", "Gamma of listed qubits is 1.", POBJ)

CHT = "Verif.Char.PropsData Verif.Char.PropsGates Verif.Char.PropsCoherence Verif.Char.PropsDelay Verif.Char.PropsDecay"
CAT = "Verif.Calib.PropsGuess Verif.Calib.PropsIq Verif.Calib.PropsSched"
m("e-char-01", "Char/Model.lean", "errU1", "if err ≠ 0 then [Instr.u1 l q] else []", "[Instr.u1 err q]",
  "the success probability of the angle circuits is the fitted curve at the inserted error (C96)", "The artificial phase is always the angle error itself.", CHT)
m("e-char-02", "Char/Model.lean", "anglecal1Q", "(List.range maxReps).zipIdx.map fun p =>\n    (⟨circName \"anglecal1Qcircuit_\"", "((List.range maxReps).map (· * 2)).zipIdx.map fun p =>\n    (⟨circName \"anglecal1Qcircuit_\"",
  "the success probability of the angle circuits is the fitted curve at the inserted error (C96)", "The numbers of repetitions are doubled.", CHT)
m("e-char-03", "Char/Model.lean", "anglecalCx", "(⟨circName \"anglecalcxcircuit_\" p.2 \"0\"", "(⟨circName \"anglecalcxcircuit_\" (p.2 + 1) \"0\"",
  "the circuits are found by their fitter (C94)", "Names are counted from one.", CHT)
m("e-char-04", "Char/Model.lean", "t1Fitter", "⟨\"t1circuit_\", [\"0\"], '1'⟩", "⟨\"t1circuit_\", [\"0\"], '0'⟩",
  "the decay curve is the probability of the expected state (C106)", "The T1 fitter expects 0.", CHT)
m("e-char-05", "Char/Model.lean", "t2starFitter", "⟨\"t2starcircuit_\", [\"0\"], '0'⟩", "⟨\"t2circuit_\", [\"0\"], '0'⟩",
  "the circuits are found by their fitter (C94)", "The T2* fitter looks for T2 circuits.", CHT)
m("e-char-06", "Char/Model.lean", "ampCalFitter", "⟨\"ampcal1Qcircuit_\", [\"0\"], '1'⟩", "⟨\"ampcal1Qcircuit_\", [\"0\"], '0'⟩",
  "the success probability is the fitted curve (C95)", "Expects 0.", CHT)
m("e-char-07", "Char/Model.lean", "angleCalFitter", "⟨\"anglecal1Qcircuit_\", [\"0\"], '1'⟩", "⟨\"anglecal1Qcircuit_\", [\"0\"], '0'⟩",
  "the success probability is the fitted curve (C96)", "Expects 0.", CHT)
m("e-char-08", "Char/Model.lean", "ampCalCxFitter", "⟨\"ampcalcxcircuit_\", [\"0\"], '1'⟩", "⟨\"ampcalcxcircuit_\", [\"0\"], '0'⟩",
  "the success probability is the fitted curve (C95)", "Expects 0.", CHT)
m("e-char-09", "Char/Model.lean", "angleCalCxFitter", "⟨\"anglecalcxcircuit_\", [\"0\"], '1'⟩", "⟨\"anglecalcxcircuit_\", [\"0\"], '0'⟩",
  "the success probability is the fitted curve (C96)", "Expects 0.", CHT)
m("e-char-10", "Char/ModelReal.lean", "oscNodecayFit", "a * Real.cos (2 * Real.pi * f * x + phi) + c\n\n/-- `_cal", "a * Real.cos (Real.pi * f * x + phi) + c\n\n/-- `_cal",
  "Ramsey and ZZ curves are the success probabilities (C92, C93)", "Half the frequency.", CHT + " " + CAT)
m("e-char-11", "Char/ModelReal.lean", "calFit", "((theta0 + thetaerr) * x + phi0 + phierr)", "((theta0 + thetaerr) * x + phi0 - phierr)",
  "the success probability is the fitted curve (C95, C96)", "Sign of the phase error.", CHT)
m("e-char-12", "Char/ModelReal.lean", "quadratic", "a * (x - x0) ^ 2 + c", "a * (x + x0) ^ 2 + c",
  "start values of the DRAG fit (C101)", "Sign of the position.", CHT + " " + CAT)
m("e-char-13", "Char/ModelReal.lean", "angleCalFit", "angleCalFit (x thetaerr c : ℝ) : ℝ := calFit x (-1 / 2) thetaerr thetaerr (Real.pi / 2) (Real.pi / 2) c", "angleCalFit (x thetaerr c : ℝ) : ℝ := calFit x (-1 / 2) thetaerr 0 (Real.pi / 2) (Real.pi / 2) c",
  "the success probability is the fitted curve (C96)", "No phase error.", CHT)
m("e-char-14", "Char/ModelReal.lean", "ampCalCxFit", "ampCalCxFit (x thetaerr c : ℝ) : ℝ := calFit x (-1 / 2) thetaerr 0 Real.pi (Real.pi / 2) c", "ampCalCxFit (x thetaerr c : ℝ) : ℝ := calFit x (-1 / 2) thetaerr 0 (Real.pi / 2) (Real.pi / 2) c",
  "the success probability is the fitted curve (C95)", "Half the angle.", CHT)
m("e-char-15", "Char/ModelReal.lean", "angleCalCxFit", "angleCalCxFit (x thetaerr c : ℝ) : ℝ := calFit x (-1 / 2) thetaerr 0 Real.pi (Real.pi / 2) c", "angleCalCxFit (x thetaerr c : ℝ) : ℝ := calFit x (1 / 2) thetaerr 0 Real.pi (Real.pi / 2) c",
  "the success probability is the fitted curve (C96)", "Sign of the amplitude.", CHT)
m("e-char-16", "Char/ModelReal.lean", "piAmplitude", "1 / freq / 2", "1 / freq",
  "the amplitude of a π pulse is half a period (C101)", "A whole period.", CHT + " " + CAT)
m("e-char-17", "Char/ModelReal.lean", "pi2Amplitude", "piAmplitude freq / 2", "piAmplitude freq",
  "the amplitude of a π/2 pulse is a quarter of a period (C101)", "Half a period.", CHT + " " + CAT)
m("e-cal-01", "Calib/Iq.lean", "buildIq", "results.foldlM (fun a r => r.foldlM (addExp r) a) {}", "(results.take 1).foldlM (fun a r => r.foldlM (addExp r) a) {}",
  "IQ data of all jobs are pooled (C99)", "Only the first job.", CAT)
m("e-cal-02", "Calib/Iq.lean", "calcIq", "let zs ← names.mapM fun n => meanAt a n q", "let zs ← names.mapM fun n => meanAt a n 0",
  "every qubit gets the data of its slot (C99, C100)", "All qubits get slot 0.", CAT)
m("e-cal-03", "Calib/Iq.lean", "dragNames", "\"dragsched_\".toList ++ fmtD i", "\"dragsched_\".toList ++ fmtD (i + 1)",
  "the schedules are found by their fitter (C102)", "Counted from one.", CAT)
m("e-cal-04", "Calib/Sched.lean", "rabiSchedules", "⟨width, p.1, sigmaOf sigma width ratio, none⟩", "⟨width, p.1, sigmaOf none width ratio, none⟩",
  "the schedules play the asked pulses (C102)", "The given standard deviation is ignored.", CAT)
m("e-cal-05", "Calib/Sched.lean", "dragSchedules", "if amps.length < qubits.length then none else\n", "",
  "too few amplitudes raise (C102)", "Qubits without amplitude are left out.", CAT)
m("e-cal-06", "Calib/Sched.lean", "dragSchedules", "\"dragsched_\".toList ++ fmtD p.2", "\"dragsched_\".toList ++ fmtD (p.2 + 1)",
  "the schedules are found by their fitter (C102)", "Counted from one.", CAT)
m("e-cal-07", "Calib/Sched.lean", "findChannelGroups", "((s.foldl syncStep []).map (·.2)).dedup", "((s.foldl syncStep []).map (fun x => x.2.take 1)).dedup",
  "all channels that share the frame of the qubit are shifted (C103)", "Only one channel for each shift.", CAT)

QVT = "Verif.QV.Props Verif.QV.PropsAcc Verif.QV.PropsCirc Verif.QV.PropsStat"
m("e-qv-01", "QV/Model.lean", "depthOfName", "(splitChar '_' name)[2]?", "(splitChar '_' name)[4]?",
  "the ideal probabilities are written with the depth of the circuit (C58, C59)", "Reads the trial instead of the depth.", QVT)
m("e-qv-02", "QV/Model.lean", "trialOfName", "(splitChar '_' name).getLast?.bind parseInt", "(splitChar '_' name).head?.bind parseInt",
  "all trials count (C59)", "Reads the wrong part of the name.", QVT)
m("e-qv-03", "QV/Model.lean", "subsetProb", "(strings.map fun s => dist.getD s 0).sum\n\n/-- `_subset_probability`, fitters.py:574-587, for counts", "(strings.map fun s => dist.getD s 0).sum / strings.length\n\n/-- `_subset_probability`, fitters.py:574-587, for counts",
  "the ideal heavy output probability is the sum (C58)", "Mean instead of sum.", QVT)
m("e-qv-04", "QV/Model.lean", "init", "qubitLists.map List.length }", "qubitLists.map fun l => l.length + 1 }",
  "statistics are those of the circuits of the given lists (C59)", "Depths one too large.", QVT)
m("e-qv-05", "QV/Model.lean", "addStatevectors", "  | none => some st\n  | some l => l.foldlM (fun st r => r.foldlM (addStatevector r) st) st", "  | none => some st\n  | some l => (l.take 1).foldlM (fun st r => r.foldlM (addStatevector r) st) st",
  "adding state vectors in batches equals adding them at once (C59)", "Only the first result.", QVT)
m("e-qv-06", "QV/Model.lean", "calcStatistics", "some { st with ydata := cols }", "some { st with ydata := st.ydata ++ cols }",
  "statistics do not depend on the history (C59)", "Columns are appended.", QVT)
m("e-qv-07", "QV/Model.lean", "confidence", "0.5 * (1 + erf (z / Real.sqrt 2))", "0.5 * (1 + erf z)",
  "the verdict means what it says (C120)", "The argument is not divided by √2.", QVT)
m("e-qv-08", "QV/Model.lean", "quantumVolume", "fun d => 2 ^ d", "fun d => d ^ 2",
  "the quantum volume is two to the depth (C58)", "Square of the depth.", QVT)
m("e-qv-09", "QV/Model.lean", "qvCircuits", "qvCircuit p.1 t (qv t p.2)", "qvCircuit p.1 t (qv t 0)",
  "each circuit is the model circuit of its list (C60)", "The model circuit of the first list is used for all.", QVT)
ENT = "Verif.Ent.PropsTier Verif.Ent.PropsGhz Verif.Ent.PropsOsc Verif.Ent.PropsErrors"
m("e-ent-01", "Ent/Model.lean", "sortChildren", "e a parent ≤ e b parent", "e b parent ≤ e a parent",
  "children are taken in the order of their CNOT errors (C133)", "The worst CNOT first.", ENT)
m("e-ent-02", "Ent/Model.lean", "ghzMqc", "mqcWith pi n (ghzSimple n false true) [] delta full", "mqcWith pi n (ghzSimple n true true) [] delta full",
  "MQC circuits give the signal (C65)", "Measures before the rotation.", ENT)
m("e-ent-03", "Ent/Model.lean", "layoutMqc", "let c ← mqcWith pi n p.1 [.barrier] delta full", "let c ← mqcWith pi n p.1 [.barrier] delta false",
  "MQC circuits give the signal (C65)", "Measures one qubit only.", ENT)
m("e-ent-04", "Ent/Model.lean", "ghzPo", "poWith n (ghzSimple n false true) delta", "poWith n (ghzSimple (n - 1) false true) delta",
  "parity oscillation circuits give the signal (C65)", "One qubit is left out of the state.", ENT)
m("e-ent-05", "Ent/Model.lean", "layoutPo", "some (poWith n p.1 delta, p.2)", "some (poWith n p.1 (-delta), p.2)",
  "parity oscillation circuits give the signal (C65)", "Sign of the angle (the signal is the same: cos is even).", ENT)
RUT = "Verif.RB.PropsUtils Verif.RB.PropsPair"
m("e-rbu-01", "RB/Utils.lean", "initCounts", "(basis.foldl (fun e b => e.set b 0) [])", "(basis.foldl (fun e b => e.set b 1) [])",
  "gates per Clifford are exact averages (C76)", "Counts start at one.", RUT)
m("e-rbu-02", "RB/Utils.lean", "countIns", "i.2.foldl (bump i.1) d", "(i.2.take 1).foldl (bump i.1) d",
  "gates per Clifford are exact averages (C76)", "Two-qubit gates count for the first qubit only.", RUT)
m("e-rbu-03", "RB/Utils.lean", "alphaLoop", "fun p => a * p) 1", "fun p => a + p) 1",
  "the conversions invert each other (C45)", "Sum instead of product.", RUT)
m("e-rbu-04", "RB/Utils.lean", "alphas", "let a1 ← alphaLoop 2 d1 e1\n    some (a0, a1)", "let a1 ← alphaLoop 2 d1 e0\n    some (a0, a1)",
  "the error is that of the gates of both qubits (C45, C78)", "The second qubit uses the errors of the first.", RUT)
m("e-rbu-05", "RB/Utils.lean", "epc1q", "let fid ← alphaLoop 1 d epgs", "let fid ← alphaLoop 2 d epgs",
  "the conversions invert each other (C45)", "The factor of the two-qubit formula.", RUT)
m("e-rbu-06", "RB/Utils.lean", "twoQError", "hi.getD \"u3\".toList 0, lo.getD \"cx\".toList 0]", "hi.getD \"u3\".toList 0, hi.getD \"cx\".toList 0]",
  "the two two-qubit estimates agree (C78)", "CNOTs are counted at the other qubit.", RUT)
DIS = "Verif.Discr.Props Verif.Discr.PropsApply Verif.Discr.PropsIq"
m("e-dis-01", "Discr/Model.lean", "formatIq", "some [r]", "some [r, r]",
  "one row for averaged data (C61, C62)", "Averaged rows are doubled.", DIS)
m("e-dis-02", "Discr/Model.lean", "findIq", "(getMemory r schedule).or iq", "iq.or (getMemory r schedule)",
  "training rows are those of the last result of the schedule (C62)", "The first result wins.", DIS)
m("e-dis-03", "Discr/Model.lean", "getYdata", "some ps.flatten\n  some parts.flatten", "some (ps.flatten.take 1)\n  some parts.flatten",
  "rows and labels have equal length (C62)", "One label for each schedule.", DIS)
m("e-dis-04", "Discr/Model.lean", "pick", "| none => getSchedules results 0", "| none => getSchedules results 2",
  "training uses the calibration schedules (C62)", "All schedules are used.", DIS)
m("e-dis-05", "Discr/Model.lean", "mk", "let states := expectedStates.getD (scheds.map removeCal)\n  let expected ← addExpected [] states scheds\n  let x", "let states := expectedStates.getD scheds\n  let expected ← addExpected [] states scheds\n  let x",
  "row i carries the label of its schedule (C62)", "The prefix of the name is kept.", DIS)
m("e-dis-06", "Discr/Model.lean", "filterBase", "if b ≠ 0 then some b else getBase expected", "some b",
  "the base is inferred if it is not given (C61)", "A base 0 is kept.", DIS)
m("e-dis-07", "Discr/Iq.lean", "Scaler.transform", "then some (rows.map s.row) else none", "then some rows else none",
  "standardising makes no difference (C129)", "Data are not scaled.", DIS)
m("e-dis-08", "Discr/Iq.lean", "Iq.fit", "some { d with clf := some p, fitted := true }", "some { d with fitted := true }",
  "the discriminator predicts as trained (C129)", "The classifier is not kept.", DIS)
m("e-dis-09", "Discr/Iq.lean", "Iq.getX", "let x ← getXdata d.base.mask results schedules\n  scaleData d.standardize d.scaler x", "let x ← getXdata d.base.mask results schedules\n  scaleData d.standardize none x",
  "standardising makes no difference (C129)", "The scaler is fitted anew to the data to be classified.", DIS)
m("e-dis-10", "Discr/Iq.lean", "SchedArg.after", "| .held => all", "| .held => scheds",
  "what add_data trains with (C129)", "The list is not extended while in use.", DIS)
m("e-dis-11", "Discr/Iq.lean", "Iq.discriminate", "d.clf.bind fun p => p x", "d.clf.bind fun p => p d.base.xdata",
  "the discriminator predicts the given data (C129)", "The training data are classified.", DIS)
MMT = "Verif.MeasMit.Props Verif.MeasMit.PropsFit Verif.MeasMit.PropsFilter Verif.MeasMit.PropsSubset Verif.MeasMit.PropsObjects Verif.MeasMit.PropsLsq"
m("e-mm-01", "MeasMit/Model.lean", "addShots", "(addShotsStep state measured cnt)", "(addShotsStep measured state cnt)",
  "columns belong to the prepared state (C13, C83)", "Rows and columns are exchanged.", MMT)
m("e-mm-02", "MeasMit/Model.lean", "buildMatrices", "pure ((mats.zip sizes).map fun p => normalise p.2 p.1)", "pure mats",
  "calibration matrices are column stochastic (C13)", "Not normalised.", MMT)
m("e-mm-03", "MeasMit/Model.lean", "mkTensored", "if sizes.length ≠ l.length then none else some l", "some l",
  "a wrong number of label lists is rejected (C134)", "No check.", MMT)
m("e-mm-04", "MeasMit/Model.lean", "readoutFidelity", "fids.sum / (fids.length : ℚ)", "fids.sum",
  "the readout fidelity is the mean probability (C134)", "Sum instead of mean.", MMT)
m("e-mm-05", "MeasMit/Model.lean", "groupProduct", "(nqubits, 1, false)).map fun st => st.2.1", "(nqubits, 0, false)).map fun st => st.2.1",
  "the tensored filter is the Kronecker product filter (C16)", "The product starts at zero.", MMT)
EXT = "Verif.Expval.Props Verif.Expval.PropsAmat Verif.Expval.PropsMit Verif.Expval.PropsMore Verif.Expval.PropsCtmp Verif.Expval.PropsWalk Verif.Expval.PropsFitter"
m("e-ex-01", "Expval/Model.lean", "mitigatorCircuits", "⟨some \"meas_mit\".toList, l, some method⟩", "⟨some \"meas_mit\".toList, l.reverse, some method⟩",
  "the metadata name the prepared state (C18)", "Labels are reversed.", EXT)
m("e-ex-02", "Expval/Model.lean", "calibrationData", "metadata.zipIdx.foldlM (calStep counts)", "(metadata.zipIdx.map fun p => (p.1, 0)).foldlM (calStep counts)",
  "calibration data belong to their label (C19, C83)", "The counts of the first experiment are used for all.", EXT)
m("e-ex-03", "Expval/Model.lean", "amatIndex", "<<< (qubits.length - 1 - p.2)", "<<< p.2",
  "local assignment matrices list qubits in the given order (C19)", "Opposite order.", EXT)
m("e-ex-04", "Expval/Model.lean", "accumFull", "addAt m kv.1 cal (kv.2 : K)", "addAt m cal kv.1 (kv.2 : K)",
  "columns belong to the prepared state (C19)", "Transposed.", EXT)
m("e-ex-05", "Expval/Model.lean", "marginalTo", "marginalCounts counts (some cl) false", "marginalCounts counts (some cl.reverse) false",
  "the expectation value is that of the listed bits (C20, C21)", "Bits in reverse order.", EXT)
m("e-ex-06", "Expval/Model.lean", "expectationValue", "(x, (kv.2 : K) / shots)", "(x, (kv.2 : K))",
  "the expectation value is the mean over shots (C20)", "Not divided by shots.", EXT)
m("e-ex-07", "Expval/Model.lean", "widthOf", "| some n => some n\n  | none => c.head?.map fun kv => kv.1.length", "| some n => some n\n  | none => c.head?.map fun kv => kv.1.length + 1",
  "the vector has one entry for each outcome (C21)", "One bit too many.", EXT)
m("e-ex-08", "Expval/Model.lean", "zDiagonal", "(binDigits i).count '1' % 2", "(binDigits i).length % 2",
  "the default diagonal is the parity (C22, C23)", "Length instead of number of ones.", EXT)
m("e-ex-09", "Expval/Model.lean", "mitigationOverhead", "⌈gamma ^ 2⌉", "⌈gamma⌉",
  "overhead and required shots (C81)", "Not squared.", EXT)
m("e-ex-10", "Expval/Model.lean", "keptAxes", "N - 1 - a ∈ qubits", "a ∈ qubits",
  "restricted assignment matrices are those of the listed qubits (C22)", "Axes are counted from the other end.", EXT)
m("e-ex-11", "Expval/Model.lean", "completeAmat", "if (keptAxes N qubits).length ≠ qubits.length then none\n  else some", "some",
  "qubits that do not exist are rejected (C22)", "No check.", EXT)
m("e-ex-12", "Expval/Model.lean", "baseFidelity", "(∑ i ∈ Finset.range dim, a i i) / dim", "(∑ i ∈ Finset.range dim, a i i)",
  "assignment fidelity (C82)", "Sum instead of mean.", EXT)
m("e-ex-13", "Expval/Model.lean", "stddevOf", "if 0 < variance then √variance else 0", "√variance + 1",
  "the error bar (C20, C121)", "One too large.", EXT + " Verif.Expval.PropsShots")
m("e-ex-14", "Expval/Model.lean", "stddevUpperBound", "gamma / √shots", "gamma / shots",
  "error bound (C81)", "Divided by the shots.", EXT)
m("e-ctmp-01", "Expval/Ctmp.lean", "singleQubit", "(List.range n).map fun i => ⟨['0'], ['1'], [i]⟩", "(List.range n).map fun i => ⟨['1'], ['0'], [i]⟩",
  "standard generator set (C29)", "Only upward transitions.", EXT)
m("e-ctmp-02", "Expval/Ctmp.lean", "twoQubitSymmetric", "⟨['0', '0'], ['1', '1'], [p.1, p.2]⟩", "⟨['0', '1'], ['1', '1'], [p.1, p.2]⟩",
  "standard generator set (C29)", "A wrong transition.", EXT)
m("e-ctmp-03", "Expval/Ctmp.lean", "ketBra", "if r = bitVal x ∧ c = bitVal y then 1 else 0", "if r = bitVal y ∧ c = bitVal x then 1 else 0",
  "generators generate stochastic noise (C26)", "Bra and ket are exchanged.", EXT)
m("e-ctmp-04", "Expval/Ctmp.lean", "tensorList", "res (r / 2) (c / 2) * mat (r % 2) (c % 2)", "mat (r / 2) (c / 2) * res (r % 2) (c % 2)",
  "generators act on their qubits (C26)", "Order of the Kronecker product.", EXT)
m("e-ctmp-05", "Expval/Ctmp.lean", "numQubitsOf", "some (1 + (generators.map", "some ((generators.map",
  "number of qubits (C26)", "One too small.", EXT)
m("e-ctmp-06", "Expval/Ctmp.lean", "choice", "(choiceLoop r inds probs 0).or inds.getLast?", "(choiceLoop r inds probs 0).or inds.head?",
  "random walk stays in the support (C28); inverse sampling (C27)", "The first entry if rounding leaves nothing (agrees in exact arithmetic for r below the total).", EXT)
m("e-ctmp-07", "Expval/Ctmp.lean", "ctmpInverse", "d.alphas.map (· % 2)", "d.alphas.map fun _ => 0",
  "the estimate is unbiased (C27)", "All signs are plus.", EXT)
m("e-ctmp-08", "Expval/Ctmp.lean", "ctmpEstimate", "scale / (numSamples : K) * parts.sum", "1 / (numSamples : K) * parts.sum",
  "the estimate is unbiased (C27, C125)", "Not scaled.", EXT + " Verif.Expval.PropsCtmpShots")
m("e-ctmp-09", "Expval/Ctmp.lean", "supplementary", "⟨['0', '1'], ['1', '1'], q⟩]", "⟨['0', '1'], ['1', '0'], q⟩]",
  "fitted rates belong to their transition (C30)", "A wrong supplementary generator.", EXT)
m("e-ctmp-10", "Expval/Ctmp.lean", "errRate1q", "pure (rates.sum / (rates.length : K))", "pure rates.sum",
  "fitted rates belong to their transition (C30)", "Sum instead of mean.", EXT)
m("e-ctmp-11", "Expval/Ctmp.lean", "errorRate", "errRate1q gen.a gen.b c d n", "errRate1q gen.b gen.a c d n",
  "fitted rates belong to their transition (C30)", "Start and end are exchanged.", EXT)

ACT = "Verif.Accred.Props Verif.Accred.PropsFit"
m("e-acc-01", "Accred/Model.lean", "newLayer", "    two := st.two ++ [[]]\n    current := [] }", "    two := st.two ++ [[]]\n    current := st.current }",
  "the layers multiply to the circuit (C31, C115)", "The busy qubits are not reset.", ACT)
m("e-acc-02", "Accred/Model.lean", "padZX", "(if zs q then [Gate.z q] else []) ++ (if xs q then [Gate.x q] else [])\n\n/-- qotp.py:200-204", "(if zs q then [Gate.z q] else []) ++ (if zs q then [Gate.x q] else [])\n\n/-- qotp.py:200-204",
  "the pad is removed by the string (C31)", "The z bits are used for x.", ACT)
m("e-acc-03", "Accred/Model.lean", "qotp", "qotpFromLayers layers (rng i)", "qotpFromLayers layers (rng 0)",
  "independent pads (C31, C33)", "All circuits use the same random bits.", ACT)
m("e-acc-04", "Accred/Model.lean", "correctCounts", "out.set (correctString kv.1 postp) kv.2", "out.set kv.1 kv.2",
  "corrected counts are shifted by the pad (C34)", "Keys are not shifted.", ACT)
m("e-acc-05", "Accred/Model.lean", "extract", "(correctCounts counts postp).getLast?", "counts.getLast?",
  "the outputs are the corrected strings (C34)", "The measured string is used.", ACT)
TCT = "Verif.Tomo.PropsCirc Verif.Tomo.PropsGstCirc Verif.Tomo.PropsGstDef"
m("e-tc-01", "Tomo/Circ.lean", "CBasis.preparationCircuit", "if op ∈ labels then f op q else none", "f op q",
  "unknown labels are rejected (C47, C48)", "No check.", TCT)
m("e-tc-02", "Tomo/Circ.lean", "CBasis.measurementCircuit", "if op ∈ labels then f op q c else none", "f op q c",
  "unknown labels are rejected (C47)", "No check.", TCT)
m("e-tc-03", "Tomo/Circ.lean", "defaultBasis", "else if s = \"SIC\".toList then some (some sicBasis) else Option.none", "else if s = \"SIC\".toList then some (some pauliBasis) else Option.none",
  "SIC circuits (C48)", "The Pauli basis under the name SIC.", TCT + " Verif.Tomo.PropsProc")
m("e-tc-04", "Tomo/Circ.lean", "measurementFn", "if b.meas.isSome then some (some b.measurementCircuit) else Option.none", "if b.meas.isSome then some (some b.measurementCircuit) else some Option.none",
  "a basis without measurement circuits is rejected (C47)", "No exception here; labels given raise later, none given do not.", TCT)
m("e-tc-05", "Tomo/Circ.lean", "Labels.isNone", "  | .none => true\n  | _ => false", "  | .none => true\n  | .tuple _ => true\n  | _ => false",
  "labels without basis are rejected (C47)", "Tuples count as no labels (the later use still raises unless there are no labels).", TCT)
m("e-tc-06", "Tomo/Circ.lean", "operatorTuples", "labels.flatMap fun a => (operatorTuples labels n).map (a :: ·)", "labels.map fun a => List.replicate (n + 1) a",
  "one circuit for each label (C47)", "Only constant labels.", TCT)
m("e-tc-07", "Tomo/Circ.lean", "defaultPreparationLabels", "some [\"Zp\".toList, \"Zm\".toList, \"Xp\".toList, \"Yp\".toList]", "some [\"Zp\".toList, \"Zm\".toList, \"Xp\".toList, \"Xm\".toList]",
  "default preparations are complete (C48, C52)", "Xm instead of Yp.", TCT + " Verif.Tomo.PropsProc")
m("e-tc-08", "Tomo/Circ.lean", "reprTuple", "  | [a] => '(' :: (a ++ \",)\".toList)", "  | [a] => '(' :: (a ++ \")\".toList)",
  "names determine the label (C47, C49)", "The comma of one-element tuples is dropped.", TCT + " Verif.Tomo.PropsAdd")
m("e-tc-09", "Tomo/Circ.lean", "labelledOps", "let q ← qs[j]?\n    f j l q", "let q ← qs[0]?\n    f j l q",
  "each label acts on its qubit (C47)", "All on the first qubit.", TCT)
m("e-tc-10", "Tomo/Circ.lean", "tomographyCircuitTuples", "mls.flatMap fun pl => pls.map fun ml => (ml, pl)", "mls.flatMap fun pl => pls.map fun ml => (pl, ml)",
  "the tuples are those of the circuits (C47)", "Preparation and measurement exchanged.", TCT)
m("e-tc-11", "Tomo/Circ.lean", "GateSet.spamLabels", "(b.spam.map (·.1)).insertionSort (· ≤ ·)", "(b.spam.map (·.1)).dropLast.insertionSort (· ≤ ·)",
  "all SPAM circuits are used (C54)", "The last one is dropped.", TCT)
m("e-tc-12", "Tomo/Circ.lean", "GateSet.spamOps", "(gates.mapM (b.gateOps q)).map List.flatten", "(gates.reverse.mapM (b.gateOps q)).map List.flatten",
  "SPAM gates in order (C54)", "Reverse order.", TCT)
m("e-tc-13", "Tomo/Circ.lean", "GateSet.measOps", "(b.spamOps q op).map (· ++ [.measure q c])", "(b.spamOps q op).map ([.measure q c] ++ ·)",
  "measurement after the SPAM gates (C54)", "Measures first.", TCT)
m("e-tc-14", "Tomo/Circ.lean", "gstSingles", "some ⟨reprLabel [f], c.ops⟩", "some ⟨reprLabel [f, f], c.ops⟩",
  "names of the single SPAM circuits (C54)", "The label twice.", TCT)
TFT = "Verif.Tomo.PropsOps Verif.Tomo.PropsAdd Verif.Tomo.PropsWts Verif.Tomo.PropsLin Verif.Tomo.PropsProc"
m("e-tf-01", "Tomo/Fit.lean", "kron", "a.e (i / b.dim) (j / b.dim) * b.e (i % b.dim) (j % b.dim)", "a.e (i % a.dim) (j % a.dim) * b.e (i / a.dim) (j / a.dim)",
  "operators are those of the circuits (C50)", "The factors in the other order.", TFT)
m("e-tf-02", "Tomo/Fit.lean", "SM.transpose", "⟨a.dim, fun i j => a.e j i⟩", "⟨a.dim, fun i j => a.e i j⟩",
  "process operators (C50, C52)", "Not transposed.", TFT)
m("e-tf-03", "Tomo/Fit.lean", "pauliMeasurementMatrix", "pauliPreparationMatrix (if outcome then \"Ym\".toList else \"Yp\".toList)", "pauliPreparationMatrix (if outcome then \"Yp\".toList else \"Ym\".toList)",
  "operators are those of the circuits (C50)", "Outcomes of Y exchanged.", TFT)
m("e-tf-04", "Tomo/Fit.lean", "outcomes", "[false, true].flatMap fun b => (outcomes n).map (b :: ·)", "[true, false].flatMap fun b => (outcomes n).map (b :: ·)",
  "operators are in the order of the counts (C50)", "Opposite order.", TFT)
m("e-tf-05", "Tomo/Fit.lean", "outcomeOp", "(label.reverse.zip o)", "(label.zip o)",
  "operators are in the order of the counts (C50)", "Labels are not reversed.", TFT)
m("e-tf-06", "Tomo/Fit.lean", "needsMarginal", "| .circ _ k => k ≠ 1", "| .circ _ _ => false",
  "counts are reduced to the tomography register (C49)", "Never reduced.", TFT)
m("e-tf-07", "Tomo/Fit.lean", "firstLen", "| .process p _ => some p.length", "| .process p _ => some (p.length - 1)",
  "counts are reduced to the tomography register (C49)", "One bit too few.", TFT)
m("e-tf-08", "Tomo/Fit.lean", "poolInto", "| some d => data.set k (combineCounts d c)", "| some _ => data.set k c",
  "counts of equal labels are pooled (C49)", "Overwrites.", TFT)
m("e-tf-09", "Tomo/Fit.lean", "addOne", "some (poolInto data tup counts)", "some (poolInto [] tup counts)",
  "earlier data are kept (C49)", "Dropped.", TFT)
m("e-tf-10", "Tomo/Fit.lean", "frequencies", "(c : ℝ) / ((cts.sum : ℤ) : ℝ)", "(c : ℝ) / cts.length",
  "frequencies are relative to shots (C51)", "Divided by the number of outcomes.", TFT)
m("e-tf-11", "Tomo/Fit.lean", "countsArray", "(countKeys n).map fun k => c.getD k 0", "c.map fun kv => kv.2",
  "missing outcomes count zero (C51)", "Only outcomes seen.", TFT)
m("e-tf-12", "Tomo/Fit.lean", "rescaleTrace", "m i j * (t / ∑ k ∈ Finset.range dim, m k k)", "m i j * t",
  "the result has the trace wanted (C12, C53)", "Not divided by the trace.", "Verif.Tomo.PropsPsd Verif.Tomo.PropsLin Verif.Tomo.PropsConstrained")
m("e-tf-13", "Tomo/Fit.lean", "reshapeF", "fun i j => x (j * Nat.sqrt size + i)", "fun i j => x (i * Nat.sqrt size + j)",
  "the fit is the state (C51)", "Row by row.", TFT)
m("e-tf-14", "Tomo/Fit.lean", "processDim", "Nat.sqrt (Nat.sqrt cols) ^ 4 ≠ cols", "Nat.sqrt cols ^ 2 ≠ cols",
  "the dimension of the process (C52)", "A wrong check.", TFT + " Verif.Tomo.PropsDispatch Verif.Tomo.PropsConstrained Verif.Tomo.PropsCvx")
LGT = "Verif.Log.PropsRotate"
m("e-log-01", "Log/Rotate.lean", "backup", "if k = 0 then path else path ++ ['.'] ++ Nat.toDigits 10 k", "if k = 0 then path else path ++ Nat.toDigits 10 k",
  "the reader finds the backups (C138)", "No dot (the pattern wants any one character and digits).", LGT)
m("e-log-02", "Log/Rotate.lean", "isLogName", "| some r => reEnd r || reBackup r", "| some r => reEnd r",
  "the reader finds the backups (C138)", "Only the log file itself.", LGT)
m("e-log-03", "Log/Rotate.lean", "globbed", "path.isPrefixOf name && !(name.drop path.length).contains '/'", "path.isPrefixOf name && (name.drop path.length).isEmpty",
  "the reader finds the backups (C138)", "Only the log file itself.", LGT)
m("e-log-04", "Log/Rotate.lean", "Disk.readAll", "(getLogFiles path d.mtime listing).flatMap d.lines", "(getLogFiles path d.mtime listing).reverse.flatMap d.lines",
  "lines in the order written (C138)", "Newest file first.", LGT)
m("e-log-05", "Log/Rotate.lean", "Disk.append", "⟨f.lines ++ [l], t⟩", "⟨[l], t⟩",
  "lines are kept (C138)", "The file is truncated.", LGT)

TXT = "Verif.Dihedral.PropsText"
m("c140-01", "Dihedral/Text.lean", "monoText", "joinSep \"*\".toList (t.map", "joinSep \"*\".toList (t.reverse.take 1 |>.map",
  "the text has the value of the polynomial (C140)", "Only the last variable of a term is printed.", TXT)
m("c140-02", "Dihedral/Text.lean", "termText", "(if value ≠ 1 then fmtD value ++ \"*\".toList else [])", "(if value ≠ 1 then fmtD value else [])",
  "the text has the value of the polynomial (C140)", "No multiplication sign.", TXT)
m("c140-03", "Dihedral/Text.lean", "termText", "if value ≠ 1 then fmtD", "if value = 0 then fmtD",
  "the text has the value of the polynomial (C140)", "Coefficients are left out.", TXT)
m("c140-04", "Dihedral/Text.lean", "loopTerms", "(List.range (n - 1)).flatMap fun i => (pyRange (i + 1) n)", "(List.range (n - 1)).flatMap fun i => (pyRange (i + 1) (n - 1))",
  "the text has the value of the polynomial (C140)", "Quadratic terms with the last variable are left out.", TXT)
m("c140-05", "Dihedral/Text.lean", "loopTerms", "(List.range (n - 2)).flatMap fun i => (pyRange (i + 1) (n - 1))", "(List.range (n - 3)).flatMap fun i => (pyRange (i + 1) (n - 1))",
  "the text has the value of the polynomial (C140)", "The last cubic term is left out.", TXT)
m("c140-06", "Dihedral/Text.lean", "loopTerms", "((List.range n).map fun i => [i])", "((List.range (n - 1)).map fun i => [i])",
  "the text has the value of the polynomial (C140)", "The last linear term is left out.", TXT)
m("c140-07", "Dihedral/Text.lean", "polyText", "some (fmtD p.w0 ++ ts.flatten)", "some (fmtD 0 ++ ts.flatten)",
  "the text has the value of the polynomial (C140)", "The constant is not printed.", TXT)
m("c140-08", "Dihedral/Text.lean", "colStep", "then (st.1 ++ \" + x_\".toList", "then (st.1 ++ \" x_\".toList",
  "the text gives the affine function (C140)", "The plus sign is missing.", TXT)
m("c140-09", "Dihedral/Text.lean", "colStep", "fmtD ((col : ℕ) : ℤ), true)\n  else st", "fmtD ((col : ℕ) : ℤ), true)\n  else (st.1, true)",
  "the text gives the affine function (C140)", "wrote is set for every column.", TXT)
m("c140-10", "Dihedral/Text.lean", "rowText", "if e.shift row ≠ 0 then", "if e.shift row = 0 then",
  "the text gives the affine function (C140)", "The shift is inverted.", TXT)
m("c140-11", "Dihedral/Text.lean", "elemText", "if (row : ℕ) ≠ n - 1 then", "if (row : ℕ) ≠ n then",
  "the text gives the affine function (C140)", "A comma after the last row.", TXT)
m("c140-12", "Dihedral/Text.lean", "elemText", "rowText e row ++", "rowText e ⟨0, row.pos⟩ ++",
  "the text gives the affine function (C140)", "The first row is printed each time.", TXT)

DHT = "Verif.Dihedral.Props Verif.Dihedral.PropsDecomp"
m("e-dih-01", "Dihedral/Model.lean", "nc3", "n * (n - 1) * (n - 2) / 6\n\n/-- dihedral.py:54-75", "n * (n - 1) * (n - 2) / 3\n\n/-- dihedral.py:54-75",
  "the arrays have one entry for each term (C36, C105)", "Twice the number of cubic terms.", DHT)
m("e-dih-02", "Dihedral/Model.lean", "terms", "++ combs (List.range n) 2 ++ combs (List.range n) 3", "++ combs (List.range n) 2",
  "products are right (C36)", "Cubic terms are left out.", DHT)
m("e-dih-03", "Dihedral/Model.lean", "smul", "p.w2.map fun a => (a * k) % 8", "p.w2.map fun a => a % 8",
  "multiplication by an integer (C36)", "Quadratic terms are not multiplied.", DHT)
m("e-dih-04", "Dihedral/Model.lean", "onePoly", "{ Poly.zero n with w0 := 1 }", "{ Poly.zero n with w0 := 0 }",
  "composition (C36)", "Products start at zero.", DHT)
m("e-dih-05", "Dihedral/Model.lean", "evaluateStep", "pure (add result (smul newterm value))", "pure (add result newterm)",
  "composition (C36)", "The coefficient is dropped.", DHT)
m("e-dih-06", "Dihedral/Model.lean", "z2matmul", "(∑ k, a i k * b k j) % 2", "(∑ k, b i k * a k j) % 2",
  "composition (C36)", "Factors exchanged.", DHT)
m("e-dih-07", "Dihedral/Model.lean", "z2matvecmul", "(∑ k, a i k * v k) % 2", "(∑ k, a k i * v k) % 2",
  "composition (C36)", "Transposed.", DHT)
m("e-dih-08", "Dihedral/Model.lean", "support", "row j ≠ 0).map Fin.val", "row j = 0).map Fin.val",
  "composition (C36)", "Zero entries instead of nonzero ones.", DHT)
m("e-dih-09", "Dihedral/Model.lean", "addTerms", "setTerm p t ((value + v) % 8)) p", "setTerm p t (v % 8)) p",
  "T gates act (C37)", "Overwrites.", DHT)
m("e-dih-10", "Dihedral/Model.lean", "flip", "((e.shift ⟨i, h⟩ + 1) % 2)", "1",
  "X gates act (C37)", "Sets instead of flips.", DHT)
m("e-dih-11", "Dihedral/Model.lean", "appendCircuit", "c.foldlM appendGate e", "c.reverse.foldlM appendGate e",
  "circuits in order (C37)", "Reverse order.", DHT)
m("e-dih-12", "Dihedral/Model.lean", "dihedralPrefix", "u1If t0 0 ++ xIf x0 0 ++ u1If t1 1 ++ xIf x1 1", "xIf x0 0 ++ u1If t0 0 ++ u1If t1 1 ++ xIf x1 1",
  "decomposition of two-qubit elements (C38)", "X before T.", DHT)
RBT = "Verif.RB.Props"
m("e-rb-01", "RB/Model.lean", "circType", "if dihedral then \"rb_cnotdihedral\".toList else \"rb\".toList", "if dihedral then \"rb\".toList else \"rb\".toList",
  "names (C42, C43)", "One name for both groups.", RBT)
m("e-rb-02", "RB/Model.lean", "replaceQ", "c.mapM (replaceIns qNums)", "some c",
  "circuits act on the qubits of the pattern (C41)", "Qubits are not renumbered.", RBT)
m("e-rb-03", "RB/Model.lean", "elmStep", "some (alignStep cfg st)", "some st",
  "alignment barriers (C41)", "No barriers.", RBT)
m("e-rb-04", "RB/Model.lean", "closeSeq", "pattern.zipIdx.foldlM (closeStep G elts) circ", "pattern.dropLast.zipIdx.foldlM (closeStep G elts) circ",
  "sequences return to the start (C41)", "The last pattern is not inverted.", RBT)
m("e-rb-05", "RB/Model.lean", "purityDigits", "d % 3 :: purityDigits (d / 3)", "purityDigits (d / 3) ++ [d % 3]",
  "purity circuits (C42, C46)", "High digit first.", RBT + " Verif.RB.PropsPurity")
RBF = "Verif.RB.PropsFit Verif.RB.PropsErr"
m("e-rbf-01", "RB/Fit.lean", "nameType", "beforeSub \"_length\".toList e.1", "beforeSub \"_seed\".toList e.1",
  "data belong to their circuits (C44)", "The wrong part of the name.", RBF)
m("e-rbf-02", "RB/Fit.lean", "rawPattern", "seeds.mapM fun s =>", "seeds.reverse.mapM fun s =>",
  "rows belong to seeds (C44)", "Seeds in reverse order.", RBF)
m("e-rbf-03", "RB/Fit.lean", "fitFun", "a * alpha ^ x + b", "a * alpha ^ x - b",
  "the model curve (C45, C98)", "Sign of the offset.", RBF + " Verif.RB.PropsNoise")
m("e-rbf-04", "RB/Fit.lean", "epcErr", "(nrb - 1) / nrb * alphaErr / alpha", "(nrb - 1) / nrb * alphaErr",
  "the error reported (C128)", "Not divided by alpha.", RBF + " Verif.RB.PropsErrBars")
m("e-rbf-05", "RB/Purity.lean", "zdict", "(zfill n (binDigits j), zsign i j)", "(zfill n (binDigits j), zsign j j)",
  "purity is exact (C46)", "Signs of the outcome only.", "Verif.RB.PropsPurity Verif.RB.PropsPurityFit")
RCT = "Verif.RepCode.Props Verif.RepCode.PropsDetect"
m("e-rc-01", "RepCode/Model.lean", "Code.rounds", "Code.rounds n (self.syndromeMeasurement true)", "Code.rounds n (self.syndromeMeasurement false)",
  "noiseless outcome is trivial (C01)", "Link qubits are not reset.", RCT)
m("e-rc-02", "RepCode/Model.lean", "processResults", "pure (acc.set kv.1 r)", "pure (acc.set kv.1 kv.2)",
  "results are processed (C02)", "The raw counts are returned.", RCT)
m("e-rc-03", "RepCode/Model.lean", "separateString", "(splitDouble s).map (splitChar ' ')", "[splitChar ' ' s]",
  "the nodes of a string (C03)", "Not split at double blanks.", RCT)
m("e-rc-04", "RepCode/Model.lean", "inject", "c.ops.take i ++ Op.x q :: c.ops.drop i", "c.ops.take i ++ c.ops.drop i",
  "single errors are detected (C04)", "No error is injected.", RCT)
GST = "Verif.Tomo.PropsGst Verif.Tomo.PropsMle Verif.Tomo.PropsMle2 Verif.Tomo.PropsMleCon Verif.Tomo.PropsMleObj"
m("e-gst-01", "Tomo/Gst.lean", "gstNeeded", ".state [fj, fi] :: gates.map", ".state [fi, fi] :: gates.map",
  "missing data raise (C55)", "Some missing labels go unnoticed.", GST)
m("e-gst-02", "Tomo/Gst.lean", "gstVector", "probs.getD (.state [spam[i]]) 0", "probs.getD (.state [spam[i], spam[i]]) 0",
  "linear inversion is exact (C55)", "Wrong label.", GST)
m("e-gst-03", "Tomo/Gst.lean", "gateData", "probs.getD (.state [spam[j], g, spam[i]]) 0", "probs.getD (.state [spam[i], g, spam[j]]) 0",
  "linear inversion is exact (C55)", "Transposed.", GST)
m("e-gst-04", "Tomo/Gst.lean", "gaugeStart", "(fs j *ᵥ rho) i", "(fs i *ᵥ rho) j",
  "the gauge start recovers the ideal set (C55, C56)", "Transposed.", GST)
m("e-gst-05", "Tomo/Gst.lean", "complexMatrixToVec", "cells.map Complex.re ++ cells.map Complex.im", "cells.map Complex.im ++ cells.map Complex.re",
  "matrices survive the round trip (C57)", "Imaginary part first.", GST)
m("e-gst-06", "Tomo/Gst.lean", "splitInputVector", "e :: r :: gs => some (fun k => (gramOf e).e", "r :: e :: gs => some (fun k => (gramOf e).e",
  "the parametrisation (C57)", "E and rho are exchanged.", GST)
m("e-gst-07", "Tomo/Gst.lean", "joinInputVector", "complexMatrixToVec (choleskyLike schur ⟨4, ptmToChoi g⟩)", "complexMatrixToVec (choleskyLike schur ⟨4, g⟩)",
  "the parametrisation (C57)", "The transfer matrix is not converted.", GST)
m("e-gst-08", "Tomo/Gst.lean", "predictMle", "(fun v k => fun i => ∑ j ∈ Finset.range 4, gs.getD k (fun _ _ => 0) i j * v j) r", "(fun v k => fun i => ∑ j ∈ Finset.range 4, gs.getD k (fun _ _ => 0) j i * v j) r",
  "the prediction is that of quantum mechanics (C57, C101)", "Gates are transposed.", GST)
m("e-gst-09", "Tomo/Gst.lean", "ptmMatrixValues", "s.2.2.flatMap fun g => complexMatrixToVec ⟨4, g⟩", "s.2.2.flatMap fun g => complexMatrixToVec ⟨2, g⟩",
  "constraints (C57)", "Only a part of each matrix.", GST)
GOT = "Verif.Tomo.PropsGsObj"
m("e-gso-01", "Tomo/GsObj.lean", "GsHeap.view", "gateLabels := o.gateLabels\n  gates", "gateLabels := o.mats.map (·.1)\n  gates",
  "what the circuits are made of (C87)", "Labels from the matrices.", GOT)
m("e-gso-02", "Tomo/GsObj.lean", "MatBasis.measurementMatrix", "if label ∉ labels then .error .value\n    else if outcome", "if outcome",
  "unknown labels are rejected (C87)", "No check of the label.", GOT)
m("e-gso-03", "Tomo/GsObj.lean", "MatBasis.preparationMatrix", "if label ∉ labels then .error .value else fn.call1 label", "fn.call1 label",
  "unknown labels are rejected (C87)", "No check of the label.", GOT)
m("e-gso-04", "Tomo/GsObj.lean", "GsObj.gateMatrix", "| none => .error .key", "| none => .ok 0",
  "matrix functions of gate set bases (C87)", "Zero instead of an exception.", GOT)
m("e-gso-05", "Tomo/GsObj.lean", "GsObj.matBasis", "  prep := some ((o.spam.map (·.1)).insertionSort (· ≤ ·), .one o.gateMatrix)", "  prep := some (o.mats.map (·.1), .one o.gateMatrix)",
  "matrix functions of gate set bases (C87)", "The labels are the gates.", GOT)

# second attempts after tightening
for i, (d, b) in enumerate([("ampCalFitter", "ampcal1Qcircuit_"), ("angleCalFitter", "anglecal1Qcircuit_"), ("ampCalCxFitter", "ampcalcxcircuit_"), ("angleCalCxFitter", "anglecalcxcircuit_")]):
    m("f-char-%02d" % (6 + i), "Char/Model.lean", d, "\u27e8\"%s\", [\"0\"], '1'\u27e9" % b, "\u27e8\"%s\", [\"0\"], '0'\u27e9" % b,
      "the success probability is the fitted curve (%s)" % ("C95" if "amp" in d else "C96"), "Expects 0; survived before (e-char-%02d)." % (6 + i), "Verif.Char.PropsFitted", ("C95_counted" if "amp" in d else "C96_counted",))
m("f-cal-02", "Calib/Iq.lean", "calcIq", "let zs \u2190 names.mapM fun n => meanAt a n q", "let zs \u2190 names.mapM fun n => meanAt a n 0",
  "every qubit gets the data of its slot (C99)", "All qubits get slot 0; survived before (e-cal-02).", "Verif.Calib.PropsCalc", ("C99_series",))
m("f-qv-08", "QV/Model.lean", "quantumVolume", "fun d => 2 ^ d", "fun d => d ^ 2",
  "the quantum volume is two to the depth (C59)", "Square of the depth; survived before (e-qv-08).", "Verif.QV.PropsNames", ("C59_volumes",))
m("f-rep-01", "RepCode/PropsAlgorithm.lean", "logicalProbWith", "else logicalProb matching log []", "else logicalProb matching log results",
  "an unknown algorithm ends in a division by zero (finding of C11)", "Any algorithm is taken for matching.", "Verif.RepCode.PropsAlgorithm")
CG = "RB/CountGates.lean"
CGT = "Verif.RB.PropsCountGates"
m("g-cg-01", CG, "countInstr", "if q.1 ∈ i.2 then", "if q.2 ∈ i.2 then", "C76", "position of the qubit in the list tested", CGT)
m("g-cg-02", CG, "countInstr", "m.modify q.2 (", "m.modify q.1 (", "C76", "row named by the qubit", CGT)
m("g-cg-03", CG, "countInstr", "(· + 1)", "(fun _ => 1)", "C76", "count overwritten", CGT)
m("g-cg-04", CG, "countInstr", "if i.1 ∈ basis then", "if i.1 ∈ basis ∧ i.2.length = 1 then", "C76", "gates on several qubits missed", CGT)
m("g-cg-05", CG, "basisInd", "d.set p.1 p.2", "if (d.get? p.1).isSome then d else d.set p.1 p.2", "C76", "first column used for a repeated gate", CGT)
m("g-cg-06", CG, "countGates", "List.replicate qubits.length (List.replicate basis.length 0)", "List.replicate basis.length (List.replicate qubits.length 0)", "C76", "table transposed", CGT)
m("g-dis-06", "Discr/Model.lean", "filterBase", "if b ≠ 0 then some b else getBase expected", "some b", "the base is inferred if it is not given (C61)", "A base 0 is kept; survived before (e-dis-06).", "Verif.Discr.PropsBase", ("C61_base_given",))
EG = "RepCode/ErrorGraph.lean"
EGT = "Verif.RepCode.PropsErrorGraph"
m("g-eg-01", EG, "addNode", "if v ∈ ns then ns else ns ++ [v]", "ns ++ [v]", "nodes once (C142)", "A node is added again.", EGT)
m("g-eg-02", EG, "graphNodes", "let row ← sub[v.1]?", "let row ← sub[v.2.1]?", "nodes of the types of a graph (C142)", "The round selects the graphs.", EGT)
m("g-eg-03", EG, "graphNodes", "(sub.flatten.foldl (fun E n => E.set n []) [])", "[]", "every named graph exists (C142)", "Graphs without nodes are missing.", EGT)
m("g-eg-04", EG, "graphEdges", "some (u, v, -d)", "some (u, v, d)", "weights (C142)", "Sign lost.", EGT)
m("g-eg-05", EG, "graphEdges", "(ns.filter fun v => v ≠ u)", "(ns.filter fun v => v.1 ≠ u.1)", "every two nodes are joined (C142)", "Only nodes of different types are joined.", EGT)
m("g-eg-06", EG, "makeErrorGraphs", "sub.flatten.foldlM", "(sub.flatten.take 1).foldlM", "every graph has its edges (C142)", "Edges only in the first graph.", EGT)
m("g-eg-07", EG, "makeErrorGraphs", "((splitDouble s).map fun _ => [['0']])", "[[['0']]]", "all types belong to the default graph (C142)", "Only the logical type.", EGT)
m("g-eg-08", EG, "graphNodes", "(errorNodes s).foldlM", "(string2nodes s).foldlM", "logical elements are nodes (C142)", "Unlit logical elements missing.", EGT)
m("g-eg-09", EG, "graphEdges", "let d ← sp u v\n", "let d := (sp u v).getD 0\n", "no distance raises (C142)", "Weight 0 without a path.", EGT)
m("g-w-01", "RepCode/Weight.lean", "edgeDistance", "| [] => none", "| [] => some 0", "no shots raise (C105)", "Distance 0 without data.", "Verif.RepCode.PropsWeightRaises")
m("g-cnt-01", "Counts/Model.lean", "marginalCounts", "(fun ret kv => ret.set (trimSpaces kv.1) kv.2) []", "(fun ret kv => ret.set kv.1 kv.2) []", "all qubits: blanks removed (C02)", "Keys keep their blanks.", "Verif.Counts.PropsFull")
m("g-cnt-02", "Counts/Model.lean", "marginalCounts", "if numQubits = mq.length then some noMarg", "if numQubits = mq.length + 1 then some noMarg", "all qubits: counts kept (C02)", "One qubit less is taken for all.", "Verif.Counts.PropsFull")
TE = "Verif.Expval.PropsTensoredEnd"
m("g-te-01", "Expval/Model.lean", "fitTensored", "(assignmentMatrix (K := K) st.data n (some [q])).map (·.2)", "(assignmentMatrix (K := K) st.data n (some [n - 1 - q])).map (·.2)", "fitted matrices near the true ones (C121)", "Qubits in reverse order.", TE)
m("g-te-02", "Expval/Model.lean", "accumLocal", "addAt m (amatIndex kv.1 qubits) (amatIndex cal qubits) (kv.2 : K) else m", "addAt m (amatIndex cal qubits) (amatIndex kv.1 qubits) (kv.2 : K) else m", "fitted matrices near the true ones (C121)", "Transposed.", TE)
m("g-te-03", "Expval/Model.lean", "amatMask", "if i ∈ qubits then mask else mask + 2 ^ i", "if i ∈ qubits then mask + 2 ^ i else mask", "shots with an error elsewhere are dropped (C121)", "Mask inverted.", TE)
m("g-te-04", "Expval/Model.lean", "methodLabels", "then some [List.replicate n '0', List.replicate n '1']\n", "then some [List.replicate n '1', List.replicate n '0']\n", "calibration circuits (C121)", "Other order of the circuits.", TE)
m("g-te-05", "Expval/Model.lean", "tensoredGamma1", "(1 + |a 1 0 - a 0 1|)", "(1 - |a 1 0 - a 0 1|)", "amplification (C121)", "Gamma too small.", TE)
m("g-te-06", "Expval/Model.lean", "listedInverses", "| none => some (amats.map (inv 2))", "| none => some amats", "mitigated value near the true one (C121)", "Inverse forgotten.", TE)
DOB = "Discr/Objects.lean"
DOT = "Verif.Discr.PropsObjects"
m("g-ob-01", DOB, "expectedOfRefs", "| .obj _ => none", "| .obj n => some (removeCal n)", "without expected states an object raises (C62)", "The type test repaired.", DOT)
m("g-ob-02", DOB, "addExpectedRefs", "| .obj n => d.set n p.2", "| .obj _ => d", "objects may be mixed with names (C62)", "States of objects are not recorded.", DOT)
m("g-ob-03", DOB, "labelsRef", "| .obj n => n\n    | .str n => n\n  match", "| .obj n => removeCal n\n    | .str n => n\n  match", "same labels for objects and names (C62)", "The label is looked up by the wrong name.", DOT)
m("g-ob-04", DOB, "getMemoryRef", "| .obj n => getMemory r n", "| .obj _ => none", "same features for objects and names (C62)", "Objects are not found in the results.", DOT)
m("g-ob-05", DOB, "getXdataRefs", "(getMemoryRef r s).or iq", "iq.or (getMemoryRef r s)", "same features for objects and names (C62)", "The first result wins.", DOT)
ZL = "Char/ZzList.lean"
ZT = "Verif.Char.PropsZzList"
m("g-zl-01", ZL, "timesList", "| .float _ => none", "| .float x => some (num.map fun (n : ℕ) => x * (n : A))", "a list with a float raises (C93)", "The product repaired for floats.", ZT)
m("g-zl-02", ZL, "timesList", "some (((List.replicate g.toNat num).flatten).map fun (n : ℕ) => (n : A))", "some (num.map fun (n : ℕ) => (g : A) * (n : A))", "a list with an integer is repeated (C93)", "The product repaired for integers.", ZT)
m("g-zl-03", ZL, "zzCircuitsList", "(nosc : A) / last", "(nosc : A) * last", "frequency of the circuits (C93)", "Frequency inverted.", ZT)
m("g-zl-04", ZL, "zzCircuitsList", "if flip then spectators.map", "if !flip then spectators.map", "same circuits as with an array (C93)", "Spectators flipped in the wrong series.", ZT)
m("g-sl-01", "Calib/Iq.lean", "calcIq", "names.mapM fun n => meanAt a n q", "names.mapM fun n => meanAt a n (q + 1)", "the first slots are read (C99)", "Slots counted from one.", "Verif.Calib.PropsSlots")
m("g-sl-02", "Calib/Iq.lean", "calcIq", "(List.range nqubits).mapM", "(List.range (nqubits + 1)).mapM", "the first slots are read (C99)", "One slot too many.", "Verif.Calib.PropsSlots")
