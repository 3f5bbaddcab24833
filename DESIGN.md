# Formal model of qiskit-ignis in Lean 4

This file says what is modelled, how each property of `properties.jsonl` is stated and proved, and what has to be trusted.
`MANIFEST.json` maps each property to the theorems that settle it.  It is assembled by `tools/design.py`; edit `tools/design_text.py`.

## Layout

* `lean/Verif/Py/` – the few Python primitives the models need: dictionaries as association lists, strings as `List Char`, decimal
  formatting and parsing, `split`.
* `lean/Verif/Quantum/`, `Ent/Sem`, `Char/Sem`, `Tomo/Spec` – semantics of circuits: state vectors as functions from bit strings (or
  from `Fin`) to ℂ, gates by their matrices, the Born rule.  Nothing of `/repo` is in them.
* `lean/Verif/<Area>/Model.lean` (and `Fit`, `Purity`, `Ctmp`, `Gst`, `Circ`, `Names`, `Utils`, `Analysis`, `Graph`, `Iq`, `Sched`) –
  definitions that mirror functions of `/repo`, branch by branch.  Each cites the file and lines it models and its simplifications.
* `lean/Verif/<Area>/Spec.lean` (or the head of a `Props` file) – small specifications that do not use the model's helpers.
* `lean/Verif/<Area>/Lemmas*.lean` – helper lemmas.
* `lean/Verif/<Area>/Props*.lean` – the property theorems, named `Cxx_…`, each with an `example` that meets its hypotheses.
* `tools/` – generators for `properties.jsonl`, `MANIFEST.json`, this file, and the mutation runner; `seeded/LOG.jsonl` – its log.

## Modelling conventions

* A Python exception is `none` / `Except.error`; a function that can raise returns `Option`/`Except`.  Results with `nan` or `inf` are
  treated as `none` where they can occur.
* A dict is an association list with distinct keys in insertion order; `d[k] = v` keeps the position of an existing key and appends a
  new one.
* Bit strings: the Python string is a list of characters, left-most first.
* Random draws are explicit arguments, so a theorem quantified over them covers all seeds.  Where the distribution matters (C27, C28)
  a probability space is used.
* Floating point numbers are idealised as exact rationals, reals or complex numbers, or elements of any field.  Rounding, overflow and
  underflow are outside the model.
* Objects with state are records; a method is a function from the record to the record (and result).  Histories are lists of calls.
* Circuits are lists of gates.  Their meaning is given by a separate semantics: a classical simulator for circuits of
  X/CX/reset/measure, phase functions for the CNOT-dihedral group, and complex vectors and matrices where superpositions matter.
* External solvers (networkx matching, scipy and cvxpy optimisers, `curve_fit`, `logm`, `schur`, `eigh`, `lstsq`, numpy's inverse,
  LDA/QDA) are parameters constrained by the equations that define their result, or are not modelled.
* qiskit-terra (transpiler, simulators, `Result`, `Clifford`, pulse library) is outside the code base.  What of it is needed is stated
  in the model of the function that uses it.

Where the code violates a property, the negation is proved with a concrete witness (theorems named `…_finding_…`), and either the
property is stated for the inputs for which it holds, with the exception named in its statement, or the part that holds is proved under
the suffix `_partial`.  See "Findings".

## Properties: what is modelled and how it is proved

| id | property | status | modules | model and proof |
|----|----------|--------|---------|-----------------|
| C01 | Marginal counts conserve shots | proved | Counts/Props | `tomography/data.py:marginal_counts`; total of the result as a fold; induction over the dictionary |
| C02 | Marginal counts sum exactly the matching outcomes | proved | Counts/Props, Counts/PropsFull | as C01; the entry at a key as a sum over the dictionary filtered by agreement on the measured qubits |
| C03 | Marginalising in two steps equals marginalising once | proved | Counts/Props | as C01; composition of position lists, from the closed form of C02 |
| C04 | Combining counts adds them key by key | proved | Counts/Props | `combine_counts`; dictionary lemmas |
| C05 | Pooling a list of counts dictionaries is a sum | proved | Counts/Props | `utils.build_counts_dict_from_list`; induction over the list |
| C06 | count_keys lists every outcome once in numeric order | proved | Counts/Props | `count_keys`; binary expansions, `zfill` |
| C07 | expectation_counts returns Pauli-Z expectation values | partial | Counts/Props | `expectation_counts`; sign of a bit string as product; the code's key is the mirror image, so the documented statement is refuted and the mirrored one proved |
| C08 | Noiseless repetition code decodes to the encoded bit with trivial syndrome | proved | RepCode/Props | `RepetitionCode` as a gate list with a classical simulator; induction over rounds; closed form of the result string |
| C09 | process_results loses no counts | proved | RepCode/Props | `process_results` on character lists; left inverse |
| C10 | A single bit flip gives a pair of decoding-graph nodes | proved | RepCode/Props | one X fault inserted at any position of the circuit; closed form of the faulty result; `_string2nodes` |
| C11 | Decoded logical error probabilities are probabilities | proved | RepCode/Props, RepCode/PropsAlgorithm | decoders on dictionaries; the matching is a parameter |
| C12 | Calibration circuits prepare the state they are labelled with | proved | MeasMit/Props | `complete_meas_cal`, `tensored_meas_cal`; classical simulation of X circuits |
| C13 | Calibration matrices are column stochastic | proved | MeasMit/PropsFit | `TensoredMeasFitter` calibration matrices from pooled counts; column sums |
| C14 | Adding calibration data in batches equals adding it at once | proved | MeasMit/PropsFit | as C13, over histories of `add_data`; permutation invariance of sums |
| C15 | Pseudo-inverse filter inverts the calibrated noise | proved | MeasMit/PropsFilter | `MeasurementFilter.apply` with a matrix satisfying the Moore–Penrose equations |
| C16 | Tensored filter equals the Kronecker-product filter | proved | MeasMit/PropsFilter | `TensoredFilter.apply` as a loop over qubit groups; Kronecker product by index arithmetic |
| C17 | Marginal calibration for a qubit subset | partial | MeasMit/PropsSubset | `subset_fitter`; index arithmetic; documented statement refuted, mirrored one proved |
| C18 | Expectation-value calibration circuits read back their label | proved | Expval/Props | `expval/circuits.py`; classical simulation |
| C19 | Assignment matrices are column stochastic or rejected | proved | Expval/PropsAmat | `assignment_matrix`; column sums, error branch |
| C20 | Expectation value and its error from counts | proved | Expval/Props | `expectation_value` without mitigator; weighted means |
| C21 | Counts vector follows the qubit list | proved | Expval/Props | `counts_probability_vector`; bit permutation as index arithmetic |
| C22 | Complete mitigation is exact for the calibrated noise | proved | Expval/PropsMit | `CompleteExpvalMeasMitigator`; matrix algebra; numpy's inverse is any correct inverse |
| C23 | Tensored mitigation is exact for product noise | proved | Expval/PropsMit | `TensoredExpvalMeasMitigator`; product noise as a product of entries; induction over qubits |
| C24 | Tensored mitigation matrix is the Kronecker product over the requested qubits | proved | Expval/PropsMit | as C23; Kronecker products |
| C25 | Tensored gamma is the 1-norm of the inverse noise | proved | Expval/PropsMit | `_compute_gamma`; column sums of 2×2 inverses and of products |
| C26 | CTMP generators generate stochastic noise | proved | Expval/PropsCtmp | `Generator`, `CTMP` generator matrix and sampling matrix; column sums; `NormedSpace.exp` of a generator matrix |
| C27 | CTMP quasi-probability sampling is unbiased | proved | Expval/PropsWalk | Poisson series of powers of the sampling matrix; `NormedSpace.expSeries` |
| C28 | CTMP random walk stays inside the support | proved | Expval/PropsWalk | `ctmp_mitigator` random walk on a compressed sparse column matrix; law of one step and of the walk by Lebesgue measure |
| C29 | Standard CTMP generator set | proved | Expval/PropsCtmp | `standard_generator_set`; counting, injectivity |
| C30 | CTMP fitted rates belong to their transition | proved | Expval/PropsCtmp | `ctmp_fitter` rates; entries of the logarithm (a parameter) |
| C31 | Quantum one-time pad is undone by the recorded key | proved | Accred/Props, Accred/PropsMid | `qotp.py`, `layer_parser`; Pauli frames with a state-vector semantics; induction over layers |
| C32 | QOTP correction is an involution on counts | proved | Accred/Props | `QOTPCorrectCounts`; XOR of bit strings |
| C33 | Trap circuits return all zeros without noise | proved | Accred/Props | trap circuits; as C31 with Clifford conjugation tables |
| C34 | Accreditation accepts exactly the runs whose traps are all zero | proved | Accred/PropsFit | `AccreditationFitter` as a state machine over runs |
| C35 | Phase polynomial term addressing is exact | proved | Dihedral/Props | `SpecialPolynomial` table addressing; combinatorial index arithmetic for all n |
| C36 | Phase polynomial arithmetic agrees with evaluation | proved | Dihedral/Props | polynomial arithmetic mod 8; evaluation at 0/1 points |
| C37 | CNOT-dihedral gate updates implement the gates | proved | Dihedral/Props | `CNOTDihedral` gate updates; action on basis states with a phase in ZMod 8 |
| C38 | CNOT-dihedral composition is operator composition | proved | Dihedral/Props | `compose`, `dot`; substitution of polynomials; CPython's small-set order is modelled for acceptance |
| C39 | CNOT-dihedral decomposition round-trips | proved | Dihedral/PropsDecomp | `decompose_cnotdihedral`: complete tables for n ≤ 2, invariants of the general algorithm |
| C40 | Equality of CNOT-dihedral elements is equality of operators | proved | Dihedral/Props | `__eq__`; normal forms by Möbius inversion |
| C41 | RB sequences compose to the identity | proved | RB/Props | `randomized_benchmarking_seq` over an abstract group class, instantiated with the CNOT-dihedral class |
| C42 | RB circuit family is complete and uniquely named | proved | RB/Props | as C41; induction over lengths and seeds; injectivity of names |
| C43 | RB pattern validation | proved | RB/Props | `check_pattern`, `handle_length_multiplier`; decision logic |
| C44 | RB group selection by name | proved | RB/Props | `RBgroup`; decision table |
| C45 | EPG to EPC conversion formulas invert each other | proved | RB/PropsUtils | `rb_utils` conversion formulas; field identities |
| C46 | RB data does not depend on batching | proved | RB/PropsFit | `RBFitterBase` counting; pooled-count invariants |
| C47 | Error formulas of the RB fitters | proved | RB/PropsErr | formulas of the fitters; monotonicity and bounds over ℝ |
| C48 | Tomography circuit families are complete and distinct | proved | Tomo/PropsCirc | tomography circuit families; products of label lists |
| C49 | Tomography circuits agree with their matrices | proved | Tomo/PropsOps | Pauli and SIC circuits against the matrices of the basis; Born rule on n qubits |
| C50 | POVM completeness and order | proved | Tomo/PropsOps | `_measurement_matrix`; products of projectors |
| C51 | Tomography data identifies the state | proved | Tomo/PropsLin | Pauli operators span; least squares has a unique minimiser |
| C52 | Rescaling to a positive semidefinite matrix | proved | Tomo/PropsPsd | `make_positive_semidefinite`; loop invariant over the sorted eigenvalues |
| C53 | Tomography weights are finite and positive | proved | Tomo/PropsWts | `_binomial_weights`; positivity |
| C54 | Partial trace constraint matrix | proved | Tomo/PropsCvx | `partial_trace_super`; index arithmetic |
| C55 | Gate set linear inversion is exact up to gauge | proved | Tomo/PropsGst, Tomo/PropsGstCirc | `linear_inversion`; matrix algebra over products of gates |
| C56 | Gate set optimisation vector round-trips | proved | Tomo/PropsMle, Tomo/PropsMle2 | `_split_list`, `_vec_to_complex_matrix` and the decomposition; round trip |
| C57 | Tomography fitter pools repeated experiments | proved | Tomo/PropsAdd | `TomographyFitter.add_data`; pooled counts |
| C58 | Heavy output statistics | proved | QV/Props, QV/PropsAcc | `QVFitter` heavy outputs by median of a sorted list; counting; erf as an integral |
| C59 | QV data accumulation | proved | QV/Props, QV/PropsNames, QV/PropsAcc | as C58, over histories |
| C60 | QV circuits act on the listed qubits | proved | QV/PropsCirc, QV/PropsNames | `qv_circuits`; state vectors with permuted qubits |
| C61 | Discrimination filter counts every shot once | proved | Discr/Props, Discr/PropsBase, Discr/PropsApply | `DiscriminationFilter`; positional notation |
| C62 | Discriminator training data aligns with labels | proved | Discr/PropsApply, Discr/PropsObjects | `DiscriminationFitter` data preparation; alignment by induction over results |
| C63 | Parallel GHZ schedule is a valid spanning tree | proved | Ent/PropsTier | `BConfig` breadth-first schedule; invariants of the loop with fuel 51 |
| C64 | GHZ circuits prepare the GHZ state | proved | Ent/PropsGhz | linear and parallel GHZ circuits; state vectors |
| C65 | MQC and parity oscillation signals | proved | Ent/PropsOsc | MQC and PO circuits; state vectors with phases |
| C66 | Composite Pauli Z expectation | proved | Ent/PropsAnalysis | `composite_pauli_z`; signed sums |
| C67 | Characterisation success probabilities | proved | Char/PropsData | `BaseFitter._calc_data`; pooled counts |
| C68 | Coherence circuits give the expected state without noise | proved | Char/PropsCoherence, Char/PropsFitted | T1, T2* and T2 circuits; equator states with a phase per idle gate |
| C69 | Delay bookkeeping | proved | Char/PropsDelay | delays of the circuits; rounding half to even |
| C70 | Log reader returns exactly the matching rows | proved | Log/PropsRead | `IgnisLogReader`; list filters; clock and parser are parameters with their round trip as hypothesis |
| C71 | Logged values can be read back | proved | Log/PropsRead | as C70; tokenisation round trip |
| C72 | Every syndrome has an even number of non-trivial nodes | proved | RepCode/Props | repetition code with any X faults and measurement flips; parity argument |
| C73 | Adjoint, conjugate and transpose of CNOT-dihedral elements | proved | Dihedral/PropsDecomp | `adjoint`, `conjugate`, `transpose`; actions of reversed circuits |
| C74 | Tensor products of CNOT-dihedral elements | proved | Dihedral/PropsDecomp | `tensor`, `expand`; block structure |
| C75 | Random CNOT-dihedral elements are valid and uniform on the group | proved | Dihedral/PropsDecomp, Dihedral/PropsRandom | `random_cnotdihedral`; validity and surjectivity of the parametrisation; uniformity by exchanging two accepted matrices in all candidates |
| C76 | Gates per Clifford are exact averages | proved | RB/PropsUtils, RB/PropsCountGates | `gates_per_clifford`; averages; `count_gates`: every cell of the table by induction over the instructions |
| C77 | Coherence limit is an error rate | proved | RB/PropsUtils | `coherence_limit`; bounds over ℝ |
| C78 | The two two-qubit error estimates agree | proved | RB/PropsUtils | `twoQ_clifford_error` against `calculate_2q_epc`; algebra |
| C79 | The RB fit starts at the solution for exact data | proved | RB/PropsErr | `_fit_fun` start values; powers and roots |
| C80 | Purity RB measures every Pauli string | proved | RB/PropsPurity | `PurityRBFitter`; signs of Pauli strings; state-vector semantics |
| C81 | Error bounds and shot requirements of the mitigated estimates | proved | Expval/PropsMore | `required_shots`, `mitigation_overhead`, `stddev_upper_bound`; inequalities |
| C82 | Assignment fidelity of product noise | proved | Expval/PropsMore | `assignment_fidelity`; traces of Kronecker products |
| C83 | Calibration data pools all circuits with the same label | proved | Expval/PropsMore | `calibration_data`; pooled counts |
| C84 | Process tomography returns the true channel | proved | Tomo/PropsProc | process tomography; Choi matrices; span of preparation ⊗ measurement operators |
| C85 | Convex tomography program is the intended one | proved | Tomo/PropsCvx | `cvx_fit`; real block matrices of complex ones; constraints by traces |
| C86 | Gate set tomography circuits are complete and distinct | proved | Tomo/PropsGstCirc | gate set tomography circuits; products of label lists |
| C87 | Gauge freedom and gauge optimisation in gate set tomography | proved | Tomo/PropsGst, Tomo/PropsGstDef | `GaugeOptimize`; similarity transformations |
| C88 | Objective of the maximum likelihood step of gate set tomography | proved | Tomo/PropsMleObj | `GST_Optimize` objective; sum of squares |
| C89 | Constraints of the maximum likelihood step of gate set tomography | proved | Tomo/PropsMleCon | `GST_Optimize` constraints; Choi matrices |
| C90 | Fidelity from a density matrix | proved | Ent/PropsAnalysis | `rho_to_fidelity`; matrix entries |
| C91 | Fourier analysis of GHZ signals | proved | Ent/PropsAnalysis | `Plotter` and `get_fidelity` analysis; discrete Fourier transform by its definition |
| C92 | Ramsey fringes | proved | Char/PropsCoherence, Char/PropsFitted | T2* circuits with detuning; equator states |
| C93 | ZZ interaction | proved | Char/PropsCoherence, Char/PropsFitted, Char/PropsZzList | ZZ circuits; two-qubit phases |
| C94 | Characterisation circuits are found by their fitter | proved | Char/PropsDelay | circuit names; injectivity of decimal notation |
| C95 | Amplitude error curves | proved | Char/PropsGates, Char/PropsFitted | amplitude calibration circuits with rotation error; equator states |
| C96 | Angle error curves | proved | Char/PropsGates, Char/PropsFitted | angle calibration circuits with tilted axis; rotations |
| C97 | Where a logger's output goes | proved | Log/PropsLogger | `IgnisLogger`, `IgnisLogging` as a state machine over calls |
| C98 | Logging configuration | proved | Log/PropsConfig | `_load_config_file`; text parsing |
| C99 | Pooling of IQ data | proved | Calib/PropsIq, Calib/PropsCalc, Calib/PropsSlots | `IQFitter._build_iq_list`; weighted sums |
| C100 | Projection of IQ data | proved | Calib/PropsIq | `IQFitter._calc_data`; geometry of a line |
| C101 | Calibration start values and amplitudes | proved | Calib/PropsGuess | `RabiFitter`, `DragFitter`; discrete Fourier transform of a cosine; extrema of a parabola |
| C102 | Calibration schedules | proved | Calib/PropsSched | `pulse_schedules.py`; schedules as lists of timed instructions |
| C103 | Gates from a calibrated pulse | proved | Calib/PropsSched | `update_u_gates`; frame semantics of phase shifts; 2×2 matrices |
| C104 | The repetition code corrects errors up to half its distance | proved | RepCode/PropsDecoder | `GraphDecoder` graphs and correction; a fault is an edge of the graph, cuts of the graph bound distances, optimal matching is compared with the faults |
| C105 | Weights of the syndrome graph | proved | RepCode/Weight, RepCode/PropsWeightRaises | `weight_syndrome_graph`; logarithm in the extended reals |
| C106 | Decay curves of the coherence experiments | proved | Char/PropsDecay, Char/PropsFitted | the three coherence circuit builders on a device with relaxation, one density matrix per qubit (`Char/SemDecay.lean`); induction on the delay and on the echoes |
| C107 | Tables of CNOT-dihedral elements by CNOT count | proved | Dihedral/PropsTable | `make_dict_0` and `make_dict_next` (`Dihedral/Table.lean`); every circuit is equivalent to one that ends in a CNOT and a phase after a circuit with one CNOT less, then induction on the number of tables |
| C108 | Benchmarking decays under depolarising noise | proved | RB/PropsNoise, RB/PropsNoisePurity | the circuits of C42 as lists of noisy events on a mixed state (`RB/SpecNoise.lean`); a random Pauli operator on a subset makes its outcomes uniform, circuits on other subsets commute with it; induction on the events |
| C109 | Accreditation bounds the distance of accepted outputs from the ideal ones | proved | Accred/PropsSound, Accred/PropsSoundDevices | a noisy device with an environment (`Accred/SpecNoise.lean`); the pad averages every noise operation to a sum over Pauli errors (Parseval), so a run is a mixture of Pauli error paths, traps and target being Clifford frames around them; every path with consequences is missed by at most 3/4 of the traps, and k (3/4)^(k-1) ≤ 27/16; the failing device computed path by path |
| C110 | Error bars of the RB fitters | proved | RB/PropsErrBars | the formulas of the bars over ℝ against the derivative of the estimate's formula (`HasDerivAt`), root of the sum of squares |
| C111 | Data and fits of the interleaved and CNOT-dihedral fitters after any history | proved | RB/PropsPair | the objects as records, `add_data` branch by branch (`RB/FitClass.lean`), invariant over the list of calls; the rates by the pooling lemmas of C46 |
| C112 | Purity data and fits of PurityRBFitter | proved | RB/PropsPurityFit | the correlator tables by induction on the results in order (`RB/LemmasPurityFit.lean`), digit arithmetic of circuit and correlator numbers, then the object as in C111 |
| C113 | Benchmarking decays under arbitrary gate-independent noise | proved | RB/PropsTwirl | channels by Kraus operators on a subset of the register, the expected value over independent uniform elements (`RB/SpecTwirl.lean`); events on other subsets drop out (partial trace); the sequence telescopes to the m-th power of the twirled channel (group closed under product and inverse); the twirl commutes with all gates of the group, so by the Pauli/monomial structure it is depolarising (Clifford) or splits into diagonal and off-diagonal parts (CNOT-dihedral); traces of superoperators give the parameters; existence of both groups as finite sets |
| C114 | Purity benchmarking measures the unitarity of arbitrary gate-independent noise | proved | RB/PropsUnitarity | density matrices of a subset, purity and unitarity (`RB/SpecUnitarity.lean`); the rotations of the purity circuits turn every Pauli string into a product of Z, and the squares of all Pauli coefficients add up to the purity; the twirl of the channel followed by its adjoint is depolarising, which gives a linear recursion of the mean purity; the bounds by Cauchy-Schwarz for the Hilbert-Schmidt product |
| C115 | The default measurement filter returns the best physical counts | proved | MeasMit/PropsLsq | `scipy.optimize.minimize` as a parameter specified by its documented contract (`MeasMit/SpecLsq.lean`); the minimum exists by compactness of the simplex; uniqueness and the projection property by the parallelogram law; invertibility of the Kronecker product from C16 |
| C116 | Logical error rate of the repetition code decoder and what get_logical_prob estimates | proved | RepCode/PropsRate | distributions of faults over finite sample spaces (`RepCode/SpecRate.lean`); union bound over sets of m places from C104; expectation over shots by exchanging sums |
| C117 | Postselection detects faults up to the distance; lookup tables are optimal on their data | proved | RepCode/PropsDetect | cut argument of C104 without the matching; union bound over sets of d places; sums over all strings for the lookup table |
| C118 | State tomography from finitely many shots: accuracy of the least-squares fit | proved | Tomo/PropsShots, Tomo/PropsConstrained | normal equations solved by the dual frame of the Pauli projectors; projection onto a convex set contracts distances; variance of a sum of independent terms |
| C119 | Process tomography from finitely many shots: accuracy of the least-squares fit | proved | Tomo/PropsProcShots | the measurement frame of C118 tensored with the dual frame of the preparations; normal equations, convex projection and variance as in C118; the finding by the optimality conditions of the closest matrix |
| C120 | What the quantum volume mean, error bar and verdict say about the device | proved | QV/PropsStat | the verdict as a threshold on the share of heavy shots; mean and variance of an average of independent trials; an exponential moment bound and the Chebyshev bound; the finding by the binomial sum |
| C121 | Mitigated expectation values from finitely many shots: bias, error bar, failure probability | proved | Expval/PropsShots, Expval/PropsCalShots, Expval/PropsTensoredCal, Expval/PropsTensoredEnd | sums over a counts dictionary as averages over the shots; variance of an average; Hoeffding's inequality for bounded variables; perturbation of an inverse in the one-norm; the calibration loop by induction over the labels; for the tensored fit the variance of a quotient of counts, and a telescoping bound for products of column distributions |
| C122 | Fitting an expectation value mitigator is exact, and the fitter has no memory | proved | Expval/PropsFitter | exact data as an invariant of the calibration loop; the product noise factors out of the filtered tallies; the object by induction over the calls; the finding by evaluation |
| C123 | Gate set tomography as a whole returns channels that fit the data | proved | Tomo/PropsGstFit, Tomo/PropsGstFitEx | the driver of the three steps as a program with the optimisers as parameters; the vector of any candidate gate set is admissible and decodes to it (C56, C89), so optimality transfers; exactness by C55, C87 and C88 |
| C124 | Which fit state and process tomography run, whatever was fitted before | proved | Tomo/PropsDispatch | class attributes as a state machine; invariant: every attribute set agrees with the installation; the three fits are then a function of installation and arguments |
| C125 | CTMP mitigated expectation values from finitely many shots and random numbers are accurate | proved | Expval/PropsCtmpShots | expectation_value split into what is asked of the generator and what is made of its answer; nested averages (series, sums, integrals) over the draws reduce to independent signed samples on a finite set; mean by C27, then variance and Hoeffding conditionally on the shots |
| C126 | Counts corrected by the measurement filters from finitely many shots are accurate | proved | MeasMit/PropsShots | corrected frequencies as means over the shots of columns of the inverse; variance for the 1-norm, Hoeffding for observables; least squares by the projection inequality C115_closer; column bounds of Kronecker products by induction over the groups |
| C127 | Purities computed from finitely many shots are slightly too large on average and rarely far off | proved | RB/PropsPurityShots | reported purity as in C112 from means over shots; the circuits that measure a string counted by induction over the qubits; variance of a mean of independent numbers of different distributions; Cauchy-Schwarz and Chebyshev for the deviation |
| C128 | Benchmarking data from finitely many sequences and shots scatter around the decay curve | proved | RB/PropsRBShots | the reported data written as means over seeds of means over shots; the seeds as independent draws of a sequence and of shots; variance of a mean of independent numbers, Hoeffding and the union bound; decay curves from C113 |
| C129 | Standardising a discriminator makes no difference to linear and quadratic discriminant analysis | proved | Discr/PropsIq | objects with scaler and classifier; simulation relation between the runs with and without standardisation along the history; covariances, means and distances under a diagonal affine map; the maximum over the classes unchanged by a common constant |
| C130 | The GHZ fidelities are right for imperfect states, but the coherence bounds only under symmetric noise | proved | Ent/PropsNoisy | mixtures of state vectors pushed through the circuits; the rotation as a product kernel; self-adjointness of the preparation gates; the signal as a trigonometric polynomial in the difference of the numbers of ones, so that the top Fourier coefficient is one matrix entry |
| C131 | GHZ fidelities from finitely many shots: rarely far from the truth, but too large on average | proved | Ent/PropsGhzShots | product distribution on the shots of all circuits; second moment of a complex-weighted sum of independent averages (real and imaginary part separately); Jensen for the bias; |sqrt a - sqrt b|^2 <= |a - b| for the coherences; Markov; norms are preserved by every gate, so the outcome probabilities exist. |
| C132 | A gate set basis stays coherent whatever is added to it, unless it shares its dictionary | proved | Tomo/PropsGsObj | heap of gate dictionaries with addresses plus per-object labels and matrices; invariant over the list of calls (references distinct and disjoint from the sources still to come, every object coherent); the circuits follow from C86 for the enlarged gate set. |
| C133 | The parallel GHZ schedule takes the CNOT errors of the backend into account | proved | Ent/PropsErrors | the table by induction on the property list from the end; the order by an invariant of the tier construction (controls that have been visited have no new neighbours; the CNOTs of one control are entered in sorted order at increasing tiers); the schedule from C63. |
| C134 | A measurement calibration fitter after any history, and its filters as snapshots | proved | MeasMit/PropsObjects | the attributes of the fitter and its filters as a state, the calls as steps; induction over the calls, the matrix of all results from C12's model of the construction. |
| C135 | Calibrating and correcting counts from end to end: the probability of a wrong result | proved | MeasMit/PropsEnd | the results of the circuits of C12 give the readings as calibration shots (names from C13); the fitter object from C134; a matrix within eta of an invertible one has a bounded inverse; C126 with the calibrated matrix; the two stages by conditioning on the calibration. |
| C136 | Programs with CNOT-dihedral elements: no element changes behind the program's back | proved | Dihedral/PropsObjects | a heap with a cell for each attribute (and the kind of sequence that stores shift); the invariant that no cell belongs to two elements, by cases on the calls; a simulation of the heap by a list of operators, from C37, C38, C73 and C74. |
| C137 | Gate set tomography from finitely many shots: how accurate linear inversion is | proved | Tomo/PropsGstShots | Hoeffding's inequality for each circuit and a union bound; then a perturbation argument in the operator norm of the supremum norm: the measured Gram matrix is invertible, the estimates differ from those of C55 by the inverse times a residual, and predictions by induction on the sequence. |
| C138 | What can be read back from the log files after rotation, restarts and crashes | proved | Log/PropsRotate | `Log/Rotate.lean`: directory, inodes and open handles, `RotatingFileHandler` as a sequence of file operations with a crash after any of them; invariant over the slots 0…rotations, by induction on the history and on the loop of the rollover; reading by uniqueness of sorted permutations |
| C139 | Expectation value mitigators have no memory, and which arrays they share | proved | Expval/PropsObjects | `Expval/Objects.lean`: heap of arrays, objects with references and caches, programs as lists of operations; spec with cache-free answers and the arrays a program may change; invariant: every reference kept in an object denotes the right matrix and is known to be shared, by induction on the program |
| C140 | The printed form of a CNOT-dihedral element says exactly what the element is | proved | Dihedral/PropsText | `Dihedral/Text.lean`: the two `__str__` methods loop by loop, on top of the model of `get_term`; spec (`SpecText.lean`): a reader of sums of products of integers and variables. The text without blanks is a join of pieces, splitting undoes the join, the sum over the loops is the sum over all terms; uniqueness follows from C40, as the text determines the operator. |
| C141 | Tensored calibration and correction of counts from end to end: the probability of a wrong result | proved | MeasMit/PropsTensoredAccuracy | `SpecTensoredEnd.lean`: readings of all circuits, their probability. Every label of a group is prepared by at least one circuit (C12); the entries of a group are shares of readings (C13); the part of a reading that belongs to a group is distributed by the noise of the group; variance of sums over different circuits; union over labels and groups; then as C135, with C126 for tensor products. |
| C142 | Error graphs of the decoder | proved | RepCode/PropsErrorGraph | `ErrorGraph.lean`: `make_error_graph` with `subgraphs`; induction over the nodes and over the names, with the graph as a function of pairs; the syndrome graph of a code is connected (C104) |

## What of the code is modelled

Directories are relative to `/repo/qiskit/ignis`.

| file | modelled | not modelled |
|------|----------|--------------|
| `utils.py` | all | |
| `numba.py`, `version.py` | | decorator fallback, version string |
| `logging/ignis_logging.py` | logger, configuration, reader, rotation, selection of rotated files | handlers of parent loggers, keys given as one string |
| `characterization/characterization_utils.py` | all | |
| `characterization/coherence`, `hamiltonian`, `gates` | circuits, fit functions, names, data | `curve_fit`, plots |
| `characterization/fitters.py` | `BaseFitter` data and their error bars, `IQFitter` | `curve_fit`, plots, errors of fit parameters |
| `characterization/calibrations` | schedules, `RabiFitter` and `DragFitter` start values, `update_u_gates`, channel groups | sampling of pulse envelopes, `get_single_q_pulse` (needs a backend), the general π/2 schedule of several instructions |
| `measurement/discriminator` | filters, preparation of data and labels, scaling, fitting and discriminating | scikit-learn's classifiers (by specification), plots |
| `mitigation/expval` | all of circuits, fitters, mitigators, generator sets | plots; the matrix logarithm, inverse and exponential are specified |
| `mitigation/measurement` | circuits, fitters, filters with pseudo-inverse and with least squares (specified solver) on dictionaries, lists and `Result`s | the SLSQP algorithm, plots |
| `verification/accreditation` | circuits, one-time pad, fitters | transpilation to the gate set; measurements in the middle of a circuit (moved to the end by `layer_parser`) |
| `verification/entanglement` | linear and parallel circuits, analysis | drawing; transpilation; the backend's error map is a function |
| `verification/quantum_volume` | circuits, fitter | the random model circuit (input), plots |
| `verification/randomized_benchmarking` | circuits, groups, dihedral, fitters, utilities | terra's `Clifford`, `curve_fit`, plots |
| `verification/tomography` | bases, circuits, data, least squares and convex programs, gate sets | the solvers |
| `verification/topological_codes` | circuits, `process_results`, graphs, weights, decoders | networkx's shortest paths and matching (specified) |

### Read but not proved

These were noticed while reading the code.  They are outside the theorems.

* Topological codes: ties of the lookup table count as correct (used in C117).
* RB fitters: `PurityRBFitter.cliff_lengths` calls itself without end.
* Tomography: the loops `for op in circuit: isinstance(op, Measure)` look at tuples, so their warnings never appear.
* Expectation value mitigation: seed 0 and `None` differ only for some callers; with fewer measured bits than qubits see C23.
* Entanglement: `get_ghz_po_para` lacks the second barrier of the linear version.
* Characterisation: the missing-argument checks of `rabi_schedules` and
  `drag_schedules` create an exception without raising it.

## Findings

Each of these is a theorem about the model, with a concrete witness.

* `C02_finding_pad` – with all the qubits `pad_zeros` is ignored; the outcome `1` is missing.
* `C02_finding_repeated` – a list with a repeated qubit that is as long as the number of qubits is taken for all the qubits: the counts of qubit 0, asked for twice, are those of both qubits.
* `C07_expectation_key_mirrored` – The documented key of `expectation_counts` does not carry the documented value: for one shot with outcome `01` the entry `01` (Z on qubit 0) should be -1, the code reports +1.
* `C07_identity_key_missing` – For one qubit the identity entry `0` is missing altogether.
* `C11_finding_unknown_algorithm` – With an unknown `algorithm` the warning is followed by a division by zero, whatever the results; with `'matching'` the same call succeeds.
* `C13_finding_larger_register` – with a classical register larger than the number of calibrated qubits the slices are counted from the left end, so the fit reads the wrong characters: here every shot prepared in `01` reads `001` in a three-bit register, the fit succeeds and reports that `01` always reads `00`.
* `C17_documented_false` – The documented statement is false: with two qubits, the second of which always reads flipped, asking for the first returns the flipped calibration.
* `C19_finding_order` – asking for all qubits by name does not give the matrix of the whole register: rows and columns come in bit-reversed order.
* `C21_finding_clbit_order` – the order of `clbits` is ignored. After `measure([0, 1], [1, 0])` the outcome `01` means that qubit 1 read 1 and qubit 0 read 0, the number 2; the vector built with `qubits=[0, 1]`, `clbits=[1, 0]` has its weight at 1.
* `C22_finding_diagonal_order` – an explicit diagonal is not permuted together with the qubits. With perfect readout the mitigated value of the observable `[0, 1, 0, 0]` on the single outcome `01` is 1 for the qubit list `[0, 1]` and without mitigation, but 0 for `[1, 0]`, although the data and the observable are the same.
* `C23_finding_fewer_bits` – when fewer bits are measured than the device has qubits and no qubit list is given, the request is not rejected and the result is wrong. Two qubits, the second with error rates 1/4 and 0; measuring the first, which is perfect, and reading 0 always gives 0 instead of 1 (with the exact inverse matrices).
* `C24_finding_lists` – the list `[1, 0]` gives the matrix of qubit 1 twice, and the list `[1, 2]` of a three-qubit device raises an index error.
* `C29_finding_pairs` – the `pairs` argument is useless for three or more qubits: any selection of fewer pairs is rejected.
* `C30_finding_flip` – `assignment_matrix` reverses rows and columns of the generator matrix before taking the exponential. For a generator taking 00 to 11 the reversed matrix takes 11 to 00 instead.
* `C30_finding_one_qubit_swapped` – the rate fitted to the one-qubit generator taking qubit `j` from 0 to 1 is the average, over the other qubits, of the entries for qubit `j` going from 1 to 0, and vice versa.
* `C30_finding_single_qubit` – for a single qubit no rate can be computed: the mean is taken over an empty list.
* `C31_finding_mid_circuit` – A measurement before a gate on the same qubit is moved behind it: the circuit that measures a qubit and then flips it, which reads 0, and the circuit that flips it and then measures it, which reads 1, are parsed and padded in the same way.
* `C31_finding_permuted_measurement` – The pad is *not* undone when the circuit measures its qubits into other classical bits: with the two measurements swapped, an empty circuit on two qubits returns `00` with certainty, its padded version corrected with its pad never does for some pads.
* `C34_finding_checks_not_raised` – The checks of `single_protocol_run` build an error but do not raise it: a run without any trap is accepted, and so is a later run with another number of traps.
* `C34_finding_outputs_shared` – `outputs` belongs to the class: a second fitter in the same process starts with the outputs of the first, so its number of accepted runs is not the number of its recorded outputs.
* `C34_finding_stale_bound` – A bound computed earlier is kept when the share of accepted runs has dropped to `theta` or below: the same history without the earlier call gives the bound 1.
* `C36_finding_degree_four_dropped` – Where the restriction on degrees matters: `x₀x₁x₂ · x₃` becomes the zero polynomial, although its value at the all-ones point is 1.
* `C36_finding_nine_variables` – On nine variables CPython enumerates `{1, 8}` as `8, 1`, and `mul_monomial` raises "Indices are non-increasing!" even for the zero polynomial and a single variable.
* `C37_finding_equal_qubits` – `cnot` with equal control and target is accepted and makes the element singular.
* `C38_finding_nine_qubits` – On nine qubits, with CPython's set order, `compose` raises: here `T` on qubit 0 after the identity.
* `C38_finding_rmul` – `__rmul__` reads the shift of the wrong operand: with self = X and other = T the product `other * self` computed by `self.__rmul__(other)` is not the composed operator (it is the valid element T·x ↦ x + 1).
* `C42_finding_generator` – a generator as `rand_seed`, which the signature and the docstring allow, raises.
* `C42_finding_lengths_dropped` – lengths that are not increasing are silently dropped: here two of three.
* `C42_finding_seed_zero` – with `rand_seed=0` the seed never changes: every element is drawn with seed 0.
* `C43_finding_none_raises` – for purity circuits `None`, the value that the docstring asks for, raises.
* `C43_finding_scalar_unchecked` – a single multiplier is not checked: zero and negative values are accepted.
* `C44_finding_missing_comma` – a missing comma joins two names: `NonClifford` and `CNOTDihedral`, meant to be accepted, are rejected.
* `C45_finding_not_recovered` – with two gates per Clifford the gate error 3/8 comes back as 9/32.
* `C47_finding_purity_err` – the error bar of the purity decay is not the propagated one, `err/(2·√alpha)`: at `alpha = 1/16` and error 1 it is half of it.
* `C48_finding_sic_needs_labels` – choosing the SIC preparation basis alone is refused: the default preparation labels stay those of the Pauli basis.
* `C48_finding_tuple_order` – the pairs of `tomography_circuit_tuples` are (preparation, measurement), not the documented (measurement, preparation).
* `C52_finding_negative_trace` – with a negative trace the result is the zero matrix, so the trace is not kept.
* `C53_finding_single_outcome` – for a counts dictionary the weights are computed over the outcomes that occur (`pad_zeros=True` has no effect), so with a single observed outcome the hedged frequency is exactly 1 and the weight is a division by zero.
* `C55_finding_names` – a gate named `E` or `rho` is lost: its entry is overwritten by the measurement or the state.
* `C57_finding_last_result` – results given in one call are not pooled: only the last one that has the circuit counts.
* `C57_finding_registers` – with several classical registers the number of bits kept for a state label is the length of its first letter, that is 1: two-qubit data is reduced to one qubit.
* `C60_finding_equal_lengths` – lists of equal length. Their circuits of the same trial have the same name, so that their counts are pooled, although the circuits differ.
* `C60_finding_idle` – a model circuit in which no operation acts on some qubit. That qubit is not measured, and the outcomes have fewer bits than the ideal ones.
* `C60_finding_mapping` – a list whose largest entry equals its length. The circuit for qubits 1 and 2 acts on qubits 0 and 1.
* `C60_finding_order` – a list that is not increasing. Model qubit 0 is physical qubit 1, but classical bit 0 receives physical qubit 0, so the measured outcomes are mirrored with respect to the ideal ones.
* `C61_finding_averaged` – with averaged data, where there is one row per experiment but the shot number of the header is used for slicing, the second experiment gets no prediction and the first one gets both.
* `C61_finding_base_one` – a discriminator trained on the ground state only infers base 1, which `int` refuses, so the filter raises on every shot.
* `C61_finding_widths` – states of different widths can share a key.
* `C62_finding_averaged` – averaged data of two qubits is one row with two labels.
* `C62_finding_objects` – Without expected states a schedule given as an object raises, whatever the results, although the documentation allows it; with names only the states are read off the names.
* `C62_finding_replaced` – `add_data` replaces the data; after it, the shots of the earlier schedules are gone although the object still lists those schedules.
* `C62_finding_twice` – a schedule measured again in a later result contributes the rows of the last result only, but the labels of both, so rows and labels differ in number.
* `C63_finding_duplicate` – for a coupling map that lists a pair twice, already the first round entangles a qubit twice; the number of reached qubits then exceeds the number of qubits and the loop is not left before round 51.
* `C63_finding_exponential` – the list of parents holds every walk. If every qubit has at least two neighbours, each round at least doubles it.
* `C63_finding_no_zero` – a coupling map without qubit 0 raises `KeyError`.
* `C63_finding_rounds` – the loop stops after 51 rounds. On a line of 60 qubits, which is connected, the schedule starts from qubit 1 and does not reach the last qubit.
* `C64_finding_one` – a GHZ state "on one qubit" raises an exception.
* `C64_finding_too_many` – with more qubits than the schedule reaches, the circuit is returned without complaint but does not prepare the GHZ state: the last qubits stay in |0⟩.
* `C66_finding_registers` – keys with a space between registers, as Qiskit writes them, are ignored; and for no qubits an exception.
* `C68_finding_alternating` – With alternating pulses three or four echoes end in state 1 as well.
* `C68_finding_even_echoes` – With an even number of equal echoes, for example two, the perfect circuit ends in state 1 with certainty, while `T2Fitter` counts state 0: all data points are 0 at every delay.
* `C70_finding_blank` – A blank line is skipped by a reader without bounds and makes one with bounds fail with `IndexError`.
* `C70_finding_empty` – With no line to look at, a bound that does not parse goes unreported.
* `C71_finding_blanks` – The documentation's own example, a list of qubits, is cut at its blanks: the value does not come back, and asking for its key returns only the first fragment.
* `C71_finding_colon` – A key with a colon is never found.
* `C71_finding_forged` – A line break inside a value lets the value pass for another entry.
* `C74_finding_order` – The docstring calls `a.tensor(b)` the operator "self tensor other". In the convention of qiskit operators (and of this package's state vectors) the right factor of a tensor product lives on the low qubits; here it is the left factor: with a = X on one qubit and b = identity, X acts on qubit 0.
* `C76_finding_duplicate_basis` – a basis that lists a gate twice divides its count twice.
* `C76_finding_repeated_basis` – with a basis that lists a gate twice the first of the two columns says that the gate does not occur.
* `C79_finding_amplitude` – … and a long first sequence gives an amplitude above one.
* `C79_finding_negative_decay` – the starting point can lie outside the bounds `[0,1]` given to `curve_fit` (which then raises): lengths 1 and 2 with the second mean below 1/2 give a negative decay, …
* `C86_finding_duplicate` – adding a gate under a name already in use (`add_gate` appends to the labels without a check) gives two circuits of the same name.
* `C87_finding_spam_order` – for gates that do not commute `spam_matrix` multiplies in the wrong order.
* `C87_finding_start` – on perfect data of the default gate set the start value of the gauge optimisation is not the gauge that gives back the ideal gates (that is its inverse): `_x_to_gateset` applies the start value a second time instead of undoing it.
* `C89_finding_negative` – All constraints can hold while the reported initial state is not positive semidefinite.
* `C89_finding_states` – Because the vector of Pauli coefficients of the state is read as a 2×2 matrix `T T†`, the reported state is never less likely to give 0 than 1, and if it is Hermitian its X and Y components are equal: `|1⟩` and `|+⟩` cannot be reported. The same holds for the effect.
* `C91_finding_aliasing` – with N = 2n phases the two frequencies ±n fall together and the parity analysis of the noise-free signal returns the fidelity 3/2.
* `C91_finding_raw` – the raw fidelity of the MQC analysis does not depend on the raw populations: it uses the mitigated ones.
* `C93_finding_list_float` – With a list of numbers of gates, as documented, and a float as gate time `zz_circuits` raises, whatever the other arguments.
* `C93_finding_list_int` – With a list and a positive integer `g` as gate time `zz_circuits` returns the same circuits as with an array, but delay times that are the `g`-fold repeated numbers of gates, and an oscillation frequency that is `g` times too large.
* `C96_finding_artificial` – The artificial angle error is not put in the way a tilted X pulse would act: with `angleerr = e` the first circuit reads 1 with probability `(1 + sin e)/2`, whereas the curve for the error it is meant to simulate (`thetaerr = 2e`, reported as `angle_err = e`) has `(1 + sin 2e)/2`, for every `e` strictly between 0 and `π/3`.
* `C97_finding_none` – A logger not obtained through `get_logger` breaks after its first line logged to the file: the missing stream handler has been added as a handler, and the next message fails.
* `C97_finding_twice` – Asking for the same logger twice duplicates every console message and sends the lines meant for the file to the console as well.
* `C98_finding_path` – The path of the log file is changed to lower case, and cut at a colon.
* `C99_finding_duplicate` – A name occurring twice in one job: the memory of the first occurrence is used for both.
* `C99_finding_single` – Single-shot data never work: although the fitter accepts and sums them, it then always fails, whenever there is something to fit.
* `C99_finding_slots` – A fitter for `nq` qubits reads the first `nq` memory slots, whatever the qubits are: data that differ only in the other slots give the same series. `measure` stores a qubit in the slot of its own number, so the series of a fitter for qubit 3 alone do not depend on what was measured on qubit 3.
* `C100_finding_cancel` – For readout values spread along the other diagonal of the IQ plane the signal is zero for every point: the two components cancel.
* `C101_finding_edge` – With the vertex at the edge of the scan and the parabola open to below, the guess is the opposite edge with the wrong direction of curvature.
* `C105_finding_infinite` – One lit end that is never lit on the other side alone makes the distance infinite, however often the edge's own error occurs: here 50 of 951 shots show it, and one shot shows one end alone.
* `C109_finding_both_ends` – The bound does not hold for noise that flips qubits at the preparation and at the measurement: there are a target on two qubits and a device — fixed Pauli errors, without memory — for which every run with any number of traps is accepted and the recorded strings are never those of the target: their distance is 1, while the reported bound tends to 0 as the number of traps grows.
* `C109_finding_confidence` – The reported confidence is larger than the probability that the share of accepted runs is within `theta` of the probability of acceptance: `theta` is not squared in the exponent and the number of runs is.
* `C109_finding_reported` – … and the fitter then reports a bound below the distance: 2 traps, 100 runs, all of them accepted, `theta` 0.1 give 17/27.
* `C110_finding_dihedral` – the error bar of the CNOT-dihedral decay divides each error by its decay: on one qubit with decays 1/2 and errors 3/10 and 1/5 the bar is twice the propagated error.
* `C110_finding_epc` – the error bar of the error per Clifford is too large by the factor one over the decay: with decay 1/2 it is doubled.
* `C110_finding_purity` – the error reported for the decay of purity benchmarking is smaller than the propagated one (the code divides by the square root of the reported decay instead of the reported decay), for every fitted decay below one.
* `C111_finding_weights` – more shots for the same circuits, added with `add_data`, are pooled with the first results counted twice: ten shots `0` at the construction and ten shots `1` later give 2/3, while all of them at the construction give 1/2.
* `C112_finding_epc` – the entry `epc` of the purity fit stays that of the squared decay; it differs from the error per Clifford of the reported decay (`pepc`) for every fitted decay strictly between zero and one.
* `C112_finding_order` – the circuits are told apart by the position of their result only. With the results of the circuits `ZZ` and `XX` exchanged the purity of the same data is not one.
* `C112_finding_single` – all circuits of a seed in a single result make the constructor raise, for every fit, although every circuit's counts are there.
* `C113_finding_systematic` – the interval `[systematic_err_L, systematic_err_R]` that `InterleavedRBFitter` reports for the error of the interleaved gate does not contain it when the errors are coherent: with the phase error `diag(1, (4+3i)/5)` after every random element and its inverse squared after the interleaved Z gate the two curves are equal, the estimate is 0, the interval is at most [-2/15, 2/15], and the error of the gate is 6/25.
* `C115_finding_biased` – the default method is biased. Ten shots of a qubit prepared in 0 and read with errors of probability 1/10 give nine and one on average; the pairs (10, 0) and (8, 2) have this average, and the pseudo-inverse returns the truth on average, but the default method reports on average at least half a shot in state 1, whatever exact solver is used.
* `C115_finding_none` – the documentation of the method says "If `None`, then `'least_squares'` is used"; `None` raises instead, for both filters and every input.
* `C117_finding_ties` – a string that was seen equally often for both values, or never, counts as right for both. With the same counts for both values the reported probabilities are 0 and 0, although every decoder is wrong for half of the shots.
* `C117_finding_unseen` – strings that were never seen in training are reported without error whatever their value.
* `C118_finding_constrained` – For two qubits the result need not be the density matrix that fits the data best, although the documentation of `fit` says the fitted state is obtained by minimising the misfit subject to positivity and trace 1: for these data `diag(2/5, 3/10, 3/10, 0)` fits them better.
* `C119_finding_trace_preserving` – The matrix returned need not be the Choi matrix of a channel: although the linear estimate is always trace preserving, making it positive semidefinite destroys this. For these counts of one qubit, with or without the default weights, the fit has an off-diagonal entry `-1/2` in the partial trace over the output, which is the identity for every channel. The documentation of `fit` lists this among the constraints of the fit (a later remark says that only the CVX method can use it).
* `C120_finding_confidence` – The documented confidence level of 0.977 is not guaranteed: a device whose heavy output probability is exactly 2/3, so that it should not pass, passes 100 trials with one shot each with probability more than 0.028.
* `C122_finding_correlated` – the tensored fit drops every shot with an error on another qubit. If the two qubits of a device always flip together, with probability 1/2, it reports that neither qubit ever makes an error.
* `C124_finding_keywords` – the documented arguments `psd` and `trace` of a state fit always end in a `TypeError`, as do `trace` of a process fit and `trace_preserving`.
* `C124_finding_scs` – with SCS as the only solver the same default `'auto'`, documented alike, runs the least squares fit for states and the convex program for processes.
* `C125_finding_error_bar` – Finding C125.** The error bar e^{2γ}/√shots, which a comment in the code calls an upper bound, covers the scatter of the shots only and not that of the random numbers: without noise, for every number of shots from 1600 on, the variance of the value is (2 - 1/N)/N, nearly twice the square of the error bar 1/√N.
* `C127_finding_bias` – the reported purity is too large on average for every state with a Pauli string that is not certain.
* `C129_finding_held` – `add_data` with the list of names that was given to the constructor uses every new shot twice (it extends the list it is about to read).
* `C129_finding_stale` – the scaler is fitted once; after `add_data` the training data of a standardising discriminator neither have mean zero nor variance one.
* `C130_finding_bound` – the bounds and the fidelity are only right because preparation and inverse are assumed to be equally imperfect. When the preparation leaves the GHZ state with probability `p` and another basis state otherwise, and the inverse is perfect, the best fidelity is `p`; but the "lower bound" is √p and the fidelity reported is (p + √p)/2, both larger than `p`.
* `C131_finding_bias` – the reported fidelity is too large on average. For a state without any coherence between 0…0 and 1…1, of fidelity 1/2, the average exceeds 1/2 by at least 1/(N S): noise never cancels in the absolute value of the Fourier coefficient.
* `C132_finding_again` – adding a gate under a name in use to any gate set fit for tomography and with a SPAM circuit gives circuits of equal name: the list of gates has the name twice.
* `C132_finding_alias` – two gate sets built from one dictionary share it. After replacing a gate in the first one the circuits of the second use the new gate while its matrix is still that of the old one.
* `C132_finding_half` – a gate without a transfer matrix (such as a function that measures) makes `add_gate` raise, but after the gate has been listed and recorded: the gate set has a gate whose matrix is missing, or that of the gate it replaced.
* `C132_finding_matrices` – the `TomographyBasis` made from a gate set has no usable matrices. `measurement_matrix` raises for every label and outcome, a `TypeError` for the valid ones (the function takes one argument and is given two); `preparation_matrix` of a SPAM circuit that is not itself the name of a gate is a `KeyError`.
* `C133_finding_direction` – the errors of the wrong direction decide. Here the CNOT from qubit 0 to qubit 1 is the best of qubit 0 and the one to qubit 2 the worst, but 0 → 2 is made first, because 2 → 0 is better than 1 → 0.
* `C133_finding_gates` – any two-qubit gate counts as a CNOT. With a second two-qubit gate listed after the CNOTs, one direction gets the error of that gate and the reversed direction keeps the error of the CNOT.
* `C134_finding_labels` – assigning the labels renames rows and columns without moving them, and building the matrix again keeps the original order. Here the probability of reading 0 correctly is 9/10, but a filter taken after the labels were assigned in the other order has 8/10, even when all data were added afterwards.
* `C134_finding_poisoned` – one result that cannot be used (such as one with an unknown label) spoils the fitter for good: the call raises, but the result has been recorded, so every later call that builds the matrix raises too.
* `C136_finding_append_not_atomic` – `append_circuit` that raises at an instruction which is no CNOT-dihedral gate has already applied the instructions before it: the element then stands for the old operator followed by these.
* `C136_finding_check_of_product` – On an element that came out of `compose` or `dot` (or is a copy of one, or was changed in place afterwards) `is_cnotdihedral` raises AttributeError: `shift` is a Python list, which has no `flatten`.
* `C136_finding_copy_constructor` – `CNOTDihedral(a)`, documented as "initialize from another CNOTDihedral", always raises.
* `C136_finding_tensor_mixed` – `tensor` and `expand` of a product with an element that is not one always raise.
* `C136_finding_tensor_of_products` – `tensor` of two products on different numbers of qubits raises; on equal numbers it returns an element that is equal to none of the elements of the program, in particular not to the tensor product.
* `C138_finding_hole` – A process killed in the middle of a rollover leaves a hole in the numbering, and later rollovers do not use it: here two lines are lost to make room although two of the three backups are free afterwards.
* `C138_finding_other_files` – The dot of the pattern is not escaped: files with names such as `ignis.log_2020` or `ignis.log77` are read as if they were backups.
* `C138_finding_same_time` – If two files were last changed at the same time, which a coarse clock makes likely, the order in which they are read depends on the order of the directory.
* `C138_finding_two_loggers` – With rotation, two loggers do not work together although `get_file_handler` gives each its own handler for the same file: a logger whose file was moved away by the other keeps writing there. Lines come back in the wrong order, and a line just logged may be in no file at all.
* `C139_finding_assignment_matrix` – the assignment matrix given to a complete mitigator is kept, not copied. After a change in place of that array the object answers with the new assignment matrix, but with mitigation matrices of the old one for the qubits that were asked for before.
* `C139_finding_generator` – the generator matrix of a CTMP mitigator is the array of its cache; after a change in place, the assignment matrix is computed from it, and so is the noise strength, unless it was asked for before.
* `C139_finding_mitigation_matrix` – the mitigation matrix of a complete mitigator is the array of its cache. A program that changes it in place gets its own numbers back as mitigation matrix, and expectation values are computed with them.
* `C139_finding_tensored` – the mitigation matrix of one qubit of a tensored mitigator is the array it uses; after a change in place, matrices of several qubits and expectation values are computed with the changed one, while the gamma factor is still the old one.
* `C140_finding_variables` – the text of a polynomial does not say how many variables it has: the zero polynomials in one and in two variables are printed alike, and differ (their representations have different lengths).

## Trusted base

* Lean 4.33.0's kernel.  No axioms are added; there is no `sorry`, `native_decide` or `bv_decide`.
* Mathlib's definitions used in statements: ℝ, ℂ, matrices, `NormedSpace.exp`, `Complex.exp`, Lebesgue measure, multisets, `Finset.sum`.
* The reading of `/repo` recorded in the comments of each model definition, including the stated behaviour of numpy, scipy, CPython and
  qiskit-terra.
* The idealisation of floating point numbers.

### Axioms of the property theorems

Obtained with `#print axioms` for every theorem of `MANIFEST.json` (`python3 tools/axioms.py`).

* no axioms: `RB.C42_finding_generator`, `RB.C42_finding_seed_zero`, `RB.C43_finding_none_raises`, `RB.C43_finding_scalar_unchecked`

* `propext`: `Dihedral.C36_finding_nine_variables`, `Discr.C61_base_given`, `Discr.C61_finding_averaged`, `Discr.C62_finding_averaged`, `Discr.C62_finding_twice`, `Discr.C62_state`, `Expval.Ctmp.C29_finding_pairs`, `Expval.Ctmp.C29_rejects`, `Log.C97_finding_none`, `Log.C97_finding_twice`, `Log.C97_logger`, `RB.C44_documented`, `RB.C44_finding_missing_comma`, `Tomo.C56_split_rejects`

* `Quot.sound`, `propext`: `Calib.C103_group`, `Counts.C02_full`, `Counts.C05_build_is_pointwise_sum`, `Counts.C05_build_order_and_split`, `Dihedral.C35_rejects`, `Dihedral.C37_rejects`, `Discr.C62_add_data`, `Discr.C62_calibration`, `Discr.C62_finding_replaced`, `Discr.C62_init`, `Discr.C62_objects`, `Ent.C63_finding_duplicate`, `Ent.C63_finding_no_zero`, `Expval.Ctmp.C28_batches`, `Expval.Ctmp.C28_support`, `RB.C42_seed_changes`, `RB.C43_multiplier_scalar`, `RB.Fit.C46_batching`, `RepCode.C09_process_injective`, `RepCode.C09_process_keeps_counts`, `RepCode.C10_string2nodes`, `RepCode.C142_default`, `RepCode.C142_error_graph`, `RepCode.C72_even_defects`, `Tomo.C56_split`

* `Classical.choice`, `Quot.sound`, `propext`: `Accred.C109_bound`, `Accred.C109_complete`, `Accred.C109_distance`, `Accred.C109_finding_both_ends`, `Accred.C109_finding_confidence`, `Accred.C109_finding_reported`, `Accred.C109_sound`, `Accred.C31_finding_mid_circuit`, `Accred.C31_finding_permuted_measurement`, `Accred.C31_pad_undone`, `Accred.C32_involution`, `Accred.C33_traps_zero`, `Accred.C34_accept_iff`, `Accred.C34_bound`, `Accred.C34_bound_antitone`, `Accred.C34_finding_checks_not_raised`, `Accred.C34_finding_outputs_shared`, `Accred.C34_finding_stale_bound`, `Accred.C34_history`, `Calib.C100_constant`, `Calib.C100_finding_cancel`, `Calib.C100_line`, `Calib.C100_signal`, `Calib.C101_amplitudes`, `Calib.C101_drag_guess`, `Calib.C101_finding_edge`, `Calib.C101_half_period`, `Calib.C101_rabi_guess`, `Calib.C101_vertex`, `Calib.C102_drag`, `Calib.C102_drag_names`, `Calib.C102_rabi`, `Calib.C102_rabi_names`, `Calib.C103_follow`, `Calib.C103_groups`, `Calib.C103_u2`, `Calib.C103_u3`, `Calib.C99_batching`, `Calib.C99_finding_duplicate`, `Calib.C99_finding_single`, `Calib.C99_finding_slots`, `Calib.C99_level`, `Calib.C99_mixed`, `Calib.C99_pooled`, `Calib.C99_series`, `Char.C106_counted`, `Char.C106_t1`, `Char.C106_t2`, `Char.C106_t2star`, `Char.C67_add_data`, `Char.C67_batching`, `Char.C67_range`, `Char.C67_std`, `Char.C67_value`, `Char.C68_counted`, `Char.C68_finding_alternating`, `Char.C68_finding_even_echoes`, `Char.C68_no_echo`, `Char.C68_t1`, `Char.C68_t2`, `Char.C68_t2_expected`, `Char.C69_t1`, `Char.C69_t2`, `Char.C69_t2star`, `Char.C69_time_to_ngates`, `Char.C69_zz`, `Char.C92_counted`, `Char.C92_t2star`, `Char.C93_counted`, `Char.C93_finding_list_float`, `Char.C93_finding_list_int`, `Char.C93_refused`, `Char.C93_zz`, `Char.C94_distinct`, `Char.C94_names`, `Char.C95_amp`, `Char.C95_amp_cx`, `Char.C95_counted`, `Char.C96_angle`, `Char.C96_angle_cx`, `Char.C96_counted`, `Char.C96_finding_artificial`, `Counts.C01_marginal_conserves_shots`, `Counts.C02_finding_pad`, `Counts.C02_finding_repeated`, `Counts.C02_marginal_entries`, `Counts.C02_marginal_entries_empty`, `Counts.C02_marginal_order_irrelevant`, `Counts.C03_marginal_tower`, `Counts.C04_combine_comm_assoc`, `Counts.C04_combine_is_pointwise_sum`, `Counts.C06_count_keys`, `Counts.C07_expectation_counts_partial`, `Counts.C07_expectation_key_mirrored`, `Counts.C07_identity_key_missing`, `Dihedral.C107_complete`, `Dihedral.C107_entries`, `Dihedral.C107_every_element`, `Dihedral.C107_optimal`, `Dihedral.C107_sizes`, `Dihedral.C136_check`, `Dihedral.C136_equal`, `Dihedral.C136_equal_sizes`, `Dihedral.C136_experiment`, `Dihedral.C136_finding_append_not_atomic`, `Dihedral.C136_finding_check_of_product`, `Dihedral.C136_finding_copy_constructor`, `Dihedral.C136_finding_tensor_mixed`, `Dihedral.C136_finding_tensor_of_products`, `Dihedral.C136_independent`, `Dihedral.C136_program`, `Dihedral.C136_raise`, `Dihedral.C140_experiment`, `Dihedral.C140_finding_variables`, `Dihedral.C140_operator`, `Dihedral.C140_poly`, `Dihedral.C140_text`, `Dihedral.C140_unique`, `Dihedral.C35_get`, `Dihedral.C35_set_get`, `Dihedral.C36_add`, `Dihedral.C36_finding_degree_four_dropped`, `Dihedral.C36_mul_monomial`, `Dihedral.C36_mul_monomial_accepts`, `Dihedral.C36_mul_monomial_coefficients`, `Dihedral.C36_smul`, `Dihedral.C37_circuit`, `Dihedral.C37_cnot`, `Dihedral.C37_finding_equal_qubits`, `Dihedral.C37_flip`, `Dihedral.C37_identity`, `Dihedral.C37_phase`, `Dihedral.C38_compose`, `Dihedral.C38_compose_cpython`, `Dihedral.C38_dot`, `Dihedral.C38_finding_nine_qubits`, `Dihedral.C38_finding_rmul`, `Dihedral.C38_returns`, `Dihedral.C39_resynthesis`, `Dihedral.C39_round_trip`, `Dihedral.C40_circuits`, `Dihedral.C40_eq_iff`, `Dihedral.C73_adjoint`, `Dihedral.C73_conjugate`, `Dihedral.C73_transpose`, `Dihedral.C74_expand`, `Dihedral.C74_finding_order`, `Dihedral.C74_tensor`, `Dihedral.C75_all`, `Dihedral.C75_ends`, `Dihedral.C75_mean`, `Dihedral.C75_uniform`, `Dihedral.C75_valid`, `Discr.C129_add`, `Discr.C129_apply`, `Discr.C129_experiment`, `Discr.C129_finding_held`, `Discr.C129_finding_stale`, `Discr.C129_linear`, `Discr.C129_new`, `Discr.C129_plain`, `Discr.C129_quadratic`, `Discr.C129_scale`, `Discr.C129_standardised`, `Discr.C61_apply`, `Discr.C61_base`, `Discr.C61_count`, `Discr.C61_finding_base_one`, `Discr.C61_finding_widths`, `Discr.C61_inferred`, `Discr.C62_finding_objects`, `Ent.C130_experiment`, `Ent.C130_finding_bound`, `Ent.C130_mqc_layout`, `Ent.C130_mqc_linear`, `Ent.C130_pauli`, `Ent.C130_po_layout`, `Ent.C130_po_linear`, `Ent.C131_experiment`, `Ent.C131_finding_bias`, `Ent.C131_mqc_layout`, `Ent.C131_mqc_linear`, `Ent.C131_pauli_channel`, `Ent.C131_po_layout`, `Ent.C131_po_linear`, `Ent.C131_total`, `Ent.C133_experiment`, `Ent.C133_finding_direction`, `Ent.C133_finding_gates`, `Ent.C133_order`, `Ent.C133_raises`, `Ent.C133_table`, `Ent.C63_finding_exponential`, `Ent.C63_finding_rounds`, `Ent.C63_schedule`, `Ent.C63_spanning`, `Ent.C64_device`, `Ent.C64_finding_one`, `Ent.C64_finding_too_many`, `Ent.C64_layout`, `Ent.C64_linear`, `Ent.C65_mqc_first`, `Ent.C65_mqc_layout`, `Ent.C65_mqc_linear`, `Ent.C65_po_layout`, `Ent.C65_po_linear`, `Ent.C66_all`, `Ent.C66_bound`, `Ent.C66_even`, `Ent.C66_finding_registers`, `Ent.C66_value`, `Ent.C90_fidelity`, `Ent.C91_coefficient`, `Ent.C91_finding_aliasing`, `Ent.C91_finding_raw`, `Ent.C91_fourier`, `Ent.C91_mqc`, `Ent.C91_po`, `Expval.C121_calibration`, `Expval.C121_calibration_error`, `Expval.C121_complete`, `Expval.C121_complete_all`, `Expval.C121_end_to_end`, `Expval.C121_experiment`, `Expval.C121_plain`, `Expval.C121_required`, `Expval.C121_tensored`, `Expval.C121_tensored_calibration_error`, `Expval.C121_tensored_circuits`, `Expval.C121_tensored_end_to_end`, `Expval.C121_tensored_experiment`, `Expval.C122_complete`, `Expval.C122_finding_correlated`, `Expval.C122_object`, `Expval.C122_tensored`, `Expval.C18_labels`, `Expval.C18_readback`, `Expval.C19_finding_order`, `Expval.C19_full`, `Expval.C19_stochastic`, `Expval.C19_subset`, `Expval.C20_expectation_value`, `Expval.C20_stddev`, `Expval.C21_distribution`, `Expval.C21_distribution_qubits`, `Expval.C21_finding_clbit_order`, `Expval.C21_rejects`, `Expval.C21_vector`, `Expval.C21_vector_qubits`, `Expval.C22_complete`, `Expval.C22_complete_all`, `Expval.C22_finding_diagonal_order`, `Expval.C23_finding_fewer_bits`, `Expval.C23_tensored`, `Expval.C24_finding_lists`, `Expval.C24_inverse`, `Expval.C24_kronecker`, `Expval.C25_product`, `Expval.C25_single`, `Expval.C81_complete`, `Expval.C81_overhead`, `Expval.C81_required_pos`, `Expval.C81_required_shots`, `Expval.C81_tensored`, `Expval.C82_fidelity`, `Expval.C82_fidelity_all`, `Expval.C83_calibration_data`, `Expval.Ctmp.C125_accuracy`, `Expval.Ctmp.C125_error_bar`, `Expval.Ctmp.C125_experiment`, `Expval.Ctmp.C125_finding_error_bar`, `Expval.Ctmp.C26_generator_matrix`, `Expval.Ctmp.C26_mitigator`, `Expval.Ctmp.C26_one_generator`, `Expval.Ctmp.C26_sampling`, `Expval.Ctmp.C27_series`, `Expval.Ctmp.C27_unbiased`, `Expval.Ctmp.C28_chain`, `Expval.Ctmp.C28_signed_sum`, `Expval.Ctmp.C28_step`, `Expval.Ctmp.C28_step_law`, `Expval.Ctmp.C28_walk_law`, `Expval.Ctmp.C29_standard`, `Expval.Ctmp.C29_well_formed`, `Expval.Ctmp.C30_finding_flip`, `Expval.Ctmp.C30_finding_one_qubit_swapped`, `Expval.Ctmp.C30_finding_single_qubit`, `Expval.Ctmp.C30_fit`, `Expval.Ctmp.C30_rate`, `Expval.Ctmp.C30_two_qubit`, `Expval.Obj.C139_experiment`, `Expval.Obj.C139_finding_assignment_matrix`, `Expval.Obj.C139_finding_generator`, `Expval.Obj.C139_finding_mitigation_matrix`, `Expval.Obj.C139_finding_tensored`, `Expval.Obj.C139_history`, `Expval.Obj.C139_read_only`, `Expval.exists_invCorrect`, `Log.C138_experiment`, `Log.C138_finding_hole`, `Log.C138_finding_other_files`, `Log.C138_finding_same_time`, `Log.C138_finding_two_loggers`, `Log.C138_full`, `Log.C138_read`, `Log.C138_rows`, `Log.C138_sizes`, `Log.C70_bad_bound`, `Log.C70_finding_blank`, `Log.C70_finding_empty`, `Log.C70_rows`, `Log.C71_all`, `Log.C71_finding_blanks`, `Log.C71_finding_colon`, `Log.C71_finding_forged`, `Log.C71_keys`, `Log.C98_config`, `Log.C98_finding_path`, `MeasMit.C115_agrees`, `MeasMit.C115_closer`, `MeasMit.C115_dict`, `MeasMit.C115_exact`, `MeasMit.C115_faithful`, `MeasMit.C115_finding_biased`, `MeasMit.C115_finding_none`, `MeasMit.C115_list`, `MeasMit.C115_raises`, `MeasMit.C115_result`, `MeasMit.C115_tensored`, `MeasMit.C115_tensored_faithful`, `MeasMit.C115_tensored_result`, `MeasMit.C115_unique`, `MeasMit.C126_calibration`, `MeasMit.C126_calibration_error`, `MeasMit.C126_experiment`, `MeasMit.C126_lsq`, `MeasMit.C126_pinv`, `MeasMit.C126_tensored`, `MeasMit.C126_tensored_calibration`, `MeasMit.C126_tensored_lsq`, `MeasMit.C12_complete`, `MeasMit.C12_tensored`, `MeasMit.C12_tensored_succeeds`, `MeasMit.C134_experiment`, `MeasMit.C134_filter`, `MeasMit.C134_finding_labels`, `MeasMit.C134_finding_poisoned`, `MeasMit.C134_labels`, `MeasMit.C134_matrix`, `MeasMit.C134_same`, `MeasMit.C135_counts`, `MeasMit.C135_default`, `MeasMit.C135_experiment`, `MeasMit.C135_observable`, `MeasMit.C13_columns`, `MeasMit.C13_entries`, `MeasMit.C13_finding_larger_register`, `MeasMit.C13_name_designates_label`, `MeasMit.C13_succeeds`, `MeasMit.C141_counts`, `MeasMit.C141_default`, `MeasMit.C141_experiment`, `MeasMit.C141_observable`, `MeasMit.C14_order_irrelevant`, `MeasMit.C15_conserves_total`, `MeasMit.C15_inverts`, `MeasMit.C15_inverts_list`, `MeasMit.C16_inverts`, `MeasMit.C16_kronecker`, `MeasMit.C17_columns`, `MeasMit.C17_documented_false`, `MeasMit.C17_subset_partial`, `MeasMit.C17_whole_list`, `QV.C120_distribution`, `QV.C120_estimate`, `QV.C120_experiment`, `QV.C120_finding_confidence`, `QV.C120_missed_success`, `QV.C120_report`, `QV.C120_wrong_success`, `QV.C58_counts`, `QV.C58_heavy_outputs`, `QV.C58_ideal_accepted`, `QV.C58_ideal_twice`, `QV.C58_mean`, `QV.C58_success`, `QV.C59_batching`, `QV.C59_data_accepted`, `QV.C59_incomplete_raises`, `QV.C59_sums`, `QV.C59_trials`, `QV.C59_volumes`, `QV.C60_all`, `QV.C60_circuit`, `QV.C60_finding_equal_lengths`, `QV.C60_finding_idle`, `QV.C60_finding_mapping`, `QV.C60_finding_order`, `QV.C60_names`, `RB.C108_epc`, `RB.C108_estimates`, `RB.C108_interleaved`, `RB.C108_interleaved_xbasis`, `RB.C108_plain`, `RB.C108_purity`, `RB.C108_purity_estimate`, `RB.C108_xbasis`, `RB.C113_clifford`, `RB.C113_dihedral`, `RB.C113_dihedral_x`, `RB.C113_dihedral_z`, `RB.C113_epc`, `RB.C113_fidelity`, `RB.C113_finding_systematic`, `RB.C113_ideal`, `RB.C113_interleaved`, `RB.C113_interleaved_clifford`, `RB.C113_interleaved_dihedral_x`, `RB.C113_interleaved_dihedral_z`, `RB.C113_interleaved_epc`, `RB.C113_interleaved_xbasis`, `RB.C113_plain`, `RB.C113_xbasis`, `RB.C113_xbasis_ready`, `RB.C114_bounds`, `RB.C114_circuits`, `RB.C114_data`, `RB.C114_decay`, `RB.C114_ideal`, `RB.C114_inverse`, `RB.C114_pepc`, `RB.C114_unitarity`, `RB.C114_values`, `RB.C127_experiment`, `RB.C127_finding_bias`, `RB.C127_new`, `RB.C127_one_qubit`, `RB.C127_one_qubit_decay`, `RB.C128_clifford`, `RB.C128_data`, `RB.C128_experiment`, `RB.C128_interleaved`, `RB.C41_cnotdihedral`, `RB.C41_identity`, `RB.C42_family`, `RB.C42_finding_lengths_dropped`, `RB.C42_names`, `RB.C42_unique`, `RB.C43_accepts`, `RB.C43_multiplier_list`, `RB.C43_values`, `RB.C44_other`, `RB.Fit.C110_dihedral`, `RB.Fit.C110_epc`, `RB.Fit.C110_finding_dihedral`, `RB.Fit.C110_finding_epc`, `RB.Fit.C110_finding_purity`, `RB.Fit.C110_interleaved`, `RB.Fit.C110_purity`, `RB.Fit.C111_dihedral`, `RB.Fit.C111_finding_weights`, `RB.Fit.C111_interleaved`, `RB.Fit.C111_no_pattern`, `RB.Fit.C111_rate`, `RB.Fit.C111_rate_iff`, `RB.Fit.C111_value`, `RB.Fit.C112_finding_epc`, `RB.Fit.C112_finding_order`, `RB.Fit.C112_finding_single`, `RB.Fit.C112_fit`, `RB.Fit.C112_new`, `RB.Fit.C112_purity`, `RB.Fit.C112_value`, `RB.Fit.C46_add`, `RB.Fit.C46_order`, `RB.Fit.C46_range`, `RB.Fit.C46_twice`, `RB.Fit.C46_value`, `RB.Fit.C47_dihedral`, `RB.Fit.C47_epc`, `RB.Fit.C47_finding_purity_err`, `RB.Fit.C47_interleaved`, `RB.Fit.C47_interleaved_mono`, `RB.Fit.C47_purity`, `RB.Fit.C79_finding_amplitude`, `RB.Fit.C79_finding_negative_decay`, `RB.Fit.C79_guess_exact`, `RB.Purity.C80_average`, `RB.Purity.C80_covered`, `RB.Purity.C80_pauli_index`, `RB.Purity.C80_purity`, `RB.Purity.C80_sign`, `RB.Utils.C45_epc1q`, `RB.Utils.C45_epc2q`, `RB.Utils.C45_epg1q`, `RB.Utils.C45_finding_not_recovered`, `RB.Utils.C45_roundtrip`, `RB.Utils.C76_agree`, `RB.Utils.C76_count_gates`, `RB.Utils.C76_finding_duplicate_basis`, `RB.Utils.C76_finding_repeated_basis`, `RB.Utils.C76_gates_per_clifford`, `RB.Utils.C77_default`, `RB.Utils.C77_one`, `RB.Utils.C77_rejects`, `RB.Utils.C77_two`, `RB.Utils.C78_twoQ_agrees`, `RepCode.C08_noiseless`, `RepCode.C104_bound_sharp`, `RepCode.C104_decoder_corrects`, `RepCode.C104_graph`, `RepCode.C104_logical_prob_zero`, `RepCode.C105_distance`, `RepCode.C105_estimate`, `RepCode.C105_finding_infinite`, `RepCode.C105_raises`, `RepCode.C10_measurement_flip`, `RepCode.C10_no_fault`, `RepCode.C10_single_fault`, `RepCode.C116_always`, `RepCode.C116_bound`, `RepCode.C116_circuit_noise`, `RepCode.C116_expected`, `RepCode.C116_independent`, `RepCode.C116_places`, `RepCode.C116_reported`, `RepCode.C116_threshold`, `RepCode.C117_accepted`, `RepCode.C117_detects`, `RepCode.C117_detects_sharp`, `RepCode.C117_finding_ties`, `RepCode.C117_finding_unseen`, `RepCode.C117_lookup_beats_matching`, `RepCode.C117_lookup_decoder`, `RepCode.C117_lookup_optimal`, `RepCode.C117_postselected`, `RepCode.C117_postselection_zero`, `RepCode.C117_undetected`, `RepCode.C11_finding_unknown_algorithm`, `RepCode.C11_logical_prob`, `RepCode.C11_lookuptable`, `RepCode.C11_postselection`, `RepCode.C11_trivial_syndrome_boundaries_agree`, `RepCode.C142_code`, `Tomo.C118_accuracy`, `Tomo.C118_confidence`, `Tomo.C118_constrained`, `Tomo.C118_distribution`, `Tomo.C118_estimate`, `Tomo.C118_experiment`, `Tomo.C118_finding_constrained`, `Tomo.C118_fit`, `Tomo.C118_one_qubit`, `Tomo.C118_unbiased`, `Tomo.C118_weighted`, `Tomo.C119_accuracy`, `Tomo.C119_confidence`, `Tomo.C119_distribution`, `Tomo.C119_estimate`, `Tomo.C119_experiment`, `Tomo.C119_finding_trace_preserving`, `Tomo.C119_fit`, `Tomo.C119_one_qubit`, `Tomo.C119_unbiased`, `Tomo.C123_best`, `Tomo.C123_exact`, `Tomo.C123_experiment`, `Tomo.C123_ideal`, `Tomo.C123_physical`, `Tomo.C124_auto`, `Tomo.C124_finding_keywords`, `Tomo.C124_finding_scs`, `Tomo.C124_history`, `Tomo.C124_process`, `Tomo.C124_state`, `Tomo.C124_unknown`, `Tomo.C132_add`, `Tomo.C132_circuits`, `Tomo.C132_coherent`, `Tomo.C132_experiment`, `Tomo.C132_finding_again`, `Tomo.C132_finding_alias`, `Tomo.C132_finding_half`, `Tomo.C132_finding_matrices`, `Tomo.C132_raises`, `Tomo.C132_spam`, `Tomo.C137_accurate`, `Tomo.C137_consistent`, `Tomo.C137_data`, `Tomo.C137_experiment`, `Tomo.C48_finding_sic_needs_labels`, `Tomo.C48_finding_tuple_order`, `Tomo.C48_process`, `Tomo.C48_rejects`, `Tomo.C48_state`, `Tomo.C49_measurement`, `Tomo.C49_preparation`, `Tomo.C49_process`, `Tomo.C50_povm`, `Tomo.C50_rejects`, `Tomo.C51_fit`, `Tomo.C51_inversion`, `Tomo.C51_span`, `Tomo.C52_finding_negative_trace`, `Tomo.C52_matrix`, `Tomo.C52_rejects`, `Tomo.C52_spectrum`, `Tomo.C52_unchanged`, `Tomo.C53_finding_single_outcome`, `Tomo.C53_fitter`, `Tomo.C53_rejects`, `Tomo.C53_weights`, `Tomo.C54_partial_trace`, `Tomo.C55_circuits`, `Tomo.C55_finding_names`, `Tomo.C55_inversion`, `Tomo.C55_predicts`, `Tomo.C55_rejects`, `Tomo.C56_decomposition`, `Tomo.C56_pack`, `Tomo.C56_round_trip`, `Tomo.C56_unpack`, `Tomo.C57_finding_last_result`, `Tomo.C57_finding_registers`, `Tomo.C57_order`, `Tomo.C57_pools`, `Tomo.C57_rejects`, `Tomo.C84_fit`, `Tomo.C84_inversion`, `Tomo.C85_constraints`, `Tomo.C85_constraints_state`, `Tomo.C85_objective`, `Tomo.C85_process`, `Tomo.C85_state`, `Tomo.C86_circuits`, `Tomo.C86_finding_duplicate`, `Tomo.C87_finding_spam_order`, `Tomo.C87_finding_start`, `Tomo.C87_gauge`, `Tomo.C87_optimum`, `Tomo.C87_singular`, `Tomo.C87_spam_matrix`, `Tomo.C87_zero`, `Tomo.C88_objective`, `Tomo.C88_optimum`, `Tomo.C88_zero`, `Tomo.C89_bounded`, `Tomo.C89_completely_positive`, `Tomo.C89_equalities`, `Tomo.C89_finding_negative`, `Tomo.C89_finding_states`, `Tomo.C89_inequalities`, `Tomo.C89_trace`, `Tomo.complete_pauli`, `Tomo.complete_sic`

