# Hand-written parts of DESIGN.md; tools/design.py assembles them.
HEAD = """# Formal model of qiskit-ignis in Lean 4

This file says what is modelled, how each property of `properties.jsonl` is stated and proved, and what has to be trusted.
`MANIFEST.json` maps each property to the theorems that settle it.  It is assembled by `tools/design.py`; edit `tools/design_text.py`.

## Layout

* `lean/Verif/Py/` – the few Python primitives the models need: dictionaries as association lists, strings as `List Char`, decimal
  formatting and parsing, `split`.
* `lean/Verif/Quantum/`, `Ent/Sem`, `Char/Sem`, `Tomo/Spec` – semantics of circuits: state vectors as functions from bit strings (or
  from `Fin`) to ℂ, gates by their matrices, the Born rule.  Nothing of `/repo` is in them.
* `lean/Verif/<Area>/Model.lean` (and `Fit`, `Purity`, `Ctmp`, `Gst`, `Circ`, `Names`, `Utils`, `Analysis`, `Graph`, `Iq`, `Sched`) –
  definitions that mirror functions of `/repo`, branch by branch.  Each cites the file and lines it models and its simplifications.
* `lean/Verif/<Area>/Spec.lean` (or the head of a `Props` file) – small specifications that do not use the model's helpers.
* `lean/Verif/<Area>/Lemmas*.lean` – helper lemmas.
* `lean/Verif/<Area>/Props*.lean` – the property theorems, named `Cxx_…`, each with an `example` that meets its hypotheses.
* `tools/` – generators for `properties.jsonl`, `MANIFEST.json`, this file, and the mutation runner; `seeded/LOG.jsonl` – its log.

## Modelling conventions

* A Python exception is `none` / `Except.error`; a function that can raise returns `Option`/`Except`.  Results with `nan` or `inf` are
  treated as `none` where they can occur.
* A dict is an association list with distinct keys in insertion order; `d[k] = v` keeps the position of an existing key and appends a
  new one.
* Bit strings: the Python string is a list of characters, left-most first.
* Random draws are explicit arguments, so a theorem quantified over them covers all seeds.  Where the distribution matters (C27, C28)
  a probability space is used.
* Floating point numbers are idealised as exact rationals, reals or complex numbers, or elements of any field.  Rounding, overflow and
  underflow are outside the model.
* Objects with state are records; a method is a function from the record to the record (and result).  Histories are lists of calls.
* Circuits are lists of gates.  Their meaning is given by a separate semantics: a classical simulator for circuits of
  X/CX/reset/measure, phase functions for the CNOT-dihedral group, and complex vectors and matrices where superpositions matter.
* External solvers (networkx matching, scipy and cvxpy optimisers, `curve_fit`, `logm`, `schur`, `eigh`, `lstsq`, numpy's inverse,
  LDA/QDA) are parameters constrained by the equations that define their result, or are not modelled.
* qiskit-terra (transpiler, simulators, `Result`, `Clifford`, pulse library) is outside the code base.  What of it is needed is stated
  in the model of the function that uses it.

Where the code violates a property, the negation is proved with a concrete witness (theorems named `…_finding_…`), and either the
property is stated for the inputs for which it holds, with the exception named in its statement, or the part that holds is proved under
the suffix `_partial`.  See "Findings".

## Properties: what is modelled and how it is proved
"""

PLAN = {
"C01": "`tomography/data.py:marginal_counts`; total of the result as a fold; induction over the dictionary",
"C02": "as C01; the entry at a key as a sum over the dictionary filtered by agreement on the measured qubits",
"C03": "as C01; composition of position lists, from the closed form of C02",
"C04": "`combine_counts`; dictionary lemmas",
"C05": "`utils.build_counts_dict_from_list`; induction over the list",
"C06": "`count_keys`; binary expansions, `zfill`",
"C07": "`expectation_counts`; sign of a bit string as product; the code's key is the mirror image, so the documented statement is refuted and the mirrored one proved",
"C08": "`RepetitionCode` as a gate list with a classical simulator; induction over rounds; closed form of the result string",
"C09": "`process_results` on character lists; left inverse",
"C10": "one X fault inserted at any position of the circuit; closed form of the faulty result; `_string2nodes`",
"C11": "decoders on dictionaries; the matching is a parameter",
"C12": "`complete_meas_cal`, `tensored_meas_cal`; classical simulation of X circuits",
"C13": "`TensoredMeasFitter` calibration matrices from pooled counts; column sums",
"C14": "as C13, over histories of `add_data`; permutation invariance of sums",
"C15": "`MeasurementFilter.apply` with a matrix satisfying the Moore–Penrose equations",
"C16": "`TensoredFilter.apply` as a loop over qubit groups; Kronecker product by index arithmetic",
"C17": "`subset_fitter`; index arithmetic; documented statement refuted, mirrored one proved",
"C18": "`expval/circuits.py`; classical simulation",
"C19": "`assignment_matrix`; column sums, error branch",
"C20": "`expectation_value` without mitigator; weighted means",
"C21": "`counts_probability_vector`; bit permutation as index arithmetic",
"C22": "`CompleteExpvalMeasMitigator`; matrix algebra; numpy's inverse is any correct inverse",
"C23": "`TensoredExpvalMeasMitigator`; product noise as a product of entries; induction over qubits",
"C24": "as C23; Kronecker products",
"C25": "`_compute_gamma`; column sums of 2×2 inverses and of products",
"C26": "`Generator`, `CTMP` generator matrix and sampling matrix; column sums; `NormedSpace.exp` of a generator matrix",
"C27": "Poisson series of powers of the sampling matrix; `NormedSpace.expSeries`",
"C28": "`ctmp_mitigator` random walk on a compressed sparse column matrix; law of one step and of the walk by Lebesgue measure",
"C29": "`standard_generator_set`; counting, injectivity",
"C30": "`ctmp_fitter` rates; entries of the logarithm (a parameter)",
"C31": "`qotp.py`, `layer_parser`; Pauli frames with a state-vector semantics; induction over layers",
"C32": "`QOTPCorrectCounts`; XOR of bit strings",
"C33": "trap circuits; as C31 with Clifford conjugation tables",
"C34": "`AccreditationFitter` as a state machine over runs",
"C35": "`SpecialPolynomial` table addressing; combinatorial index arithmetic for all n",
"C36": "polynomial arithmetic mod 8; evaluation at 0/1 points",
"C37": "`CNOTDihedral` gate updates; action on basis states with a phase in ZMod 8",
"C38": "`compose`, `dot`; substitution of polynomials; CPython's small-set order is modelled for acceptance",
"C39": "`decompose_cnotdihedral`: complete tables for n ≤ 2, invariants of the general algorithm",
"C40": "`__eq__`; normal forms by Möbius inversion",
"C41": "`randomized_benchmarking_seq` over an abstract group class, instantiated with the CNOT-dihedral class",
"C42": "as C41; induction over lengths and seeds; injectivity of names",
"C43": "`check_pattern`, `handle_length_multiplier`; decision logic",
"C44": "`RBgroup`; decision table",
"C45": "`rb_utils` conversion formulas; field identities",
"C46": "`RBFitterBase` counting; pooled-count invariants",
"C47": "formulas of the fitters; monotonicity and bounds over ℝ",
"C48": "tomography circuit families; products of label lists",
"C49": "Pauli and SIC circuits against the matrices of the basis; Born rule on n qubits",
"C50": "`_measurement_matrix`; products of projectors",
"C51": "Pauli operators span; least squares has a unique minimiser",
"C52": "`make_positive_semidefinite`; loop invariant over the sorted eigenvalues",
"C53": "`_binomial_weights`; positivity",
"C54": "`partial_trace_super`; index arithmetic",
"C55": "`linear_inversion`; matrix algebra over products of gates",
"C56": "`_split_list`, `_vec_to_complex_matrix` and the decomposition; round trip",
"C57": "`TomographyFitter.add_data`; pooled counts",
"C58": "`QVFitter` heavy outputs by median of a sorted list; counting; erf as an integral",
"C59": "as C58, over histories",
"C60": "`qv_circuits`; state vectors with permuted qubits",
"C61": "`DiscriminationFilter`; positional notation",
"C62": "`DiscriminationFitter` data preparation; alignment by induction over results",
"C63": "`BConfig` breadth-first schedule; invariants of the loop with fuel 51",
"C64": "linear and parallel GHZ circuits; state vectors",
"C65": "MQC and PO circuits; state vectors with phases",
"C66": "`composite_pauli_z`; signed sums",
"C67": "`BaseFitter._calc_data`; pooled counts",
"C68": "T1, T2* and T2 circuits; equator states with a phase per idle gate",
"C69": "delays of the circuits; rounding half to even",
"C70": "`IgnisLogReader`; list filters; clock and parser are parameters with their round trip as hypothesis",
"C71": "as C70; tokenisation round trip",
"C72": "repetition code with any X faults and measurement flips; parity argument",
"C73": "`adjoint`, `conjugate`, `transpose`; actions of reversed circuits",
"C74": "`tensor`, `expand`; block structure",
"C75": "`random_cnotdihedral`; validity and surjectivity of the parametrisation; uniformity by exchanging two accepted matrices in all candidates",
"C76": "`gates_per_clifford`; averages; `count_gates`: every cell of the table by induction over the instructions",
"C77": "`coherence_limit`; bounds over ℝ",
"C78": "`twoQ_clifford_error` against `calculate_2q_epc`; algebra",
"C79": "`_fit_fun` start values; powers and roots",
"C80": "`PurityRBFitter`; signs of Pauli strings; state-vector semantics",
"C81": "`required_shots`, `mitigation_overhead`, `stddev_upper_bound`; inequalities",
"C82": "`assignment_fidelity`; traces of Kronecker products",
"C83": "`calibration_data`; pooled counts",
"C84": "process tomography; Choi matrices; span of preparation ⊗ measurement operators",
"C85": "`cvx_fit`; real block matrices of complex ones; constraints by traces",
"C86": "gate set tomography circuits; products of label lists",
"C87": "`GaugeOptimize`; similarity transformations",
"C88": "`GST_Optimize` objective; sum of squares",
"C89": "`GST_Optimize` constraints; Choi matrices",
"C90": "`rho_to_fidelity`; matrix entries",
"C91": "`Plotter` and `get_fidelity` analysis; discrete Fourier transform by its definition",
"C92": "T2* circuits with detuning; equator states",
"C93": "ZZ circuits; two-qubit phases",
"C94": "circuit names; injectivity of decimal notation",
"C95": "amplitude calibration circuits with rotation error; equator states",
"C96": "angle calibration circuits with tilted axis; rotations",
"C97": "`IgnisLogger`, `IgnisLogging` as a state machine over calls",
"C98": "`_load_config_file`; text parsing",
"C99": "`IQFitter._build_iq_list`; weighted sums",
"C100": "`IQFitter._calc_data`; geometry of a line",
"C101": "`RabiFitter`, `DragFitter`; discrete Fourier transform of a cosine; extrema of a parabola",
"C102": "`pulse_schedules.py`; schedules as lists of timed instructions",
"C103": "`update_u_gates`; frame semantics of phase shifts; 2×2 matrices",
"C104": "`GraphDecoder` graphs and correction; a fault is an edge of the graph, cuts of the graph bound distances, optimal matching is compared with the faults",
"C142": "`ErrorGraph.lean`: `make_error_graph` with `subgraphs`; induction over the nodes and over the names, with the graph as a function of pairs; the syndrome graph of a code is connected (C104)",
"C105": "`weight_syndrome_graph`; logarithm in the extended reals",
"C106": "the three coherence circuit builders on a device with relaxation, one density matrix per qubit (`Char/SemDecay.lean`); induction on the delay and on the echoes",
"C107": "`make_dict_0` and `make_dict_next` (`Dihedral/Table.lean`); every circuit is equivalent to one that ends in a CNOT and a phase after a circuit with one CNOT less, then induction on the number of tables",
"C108": "the circuits of C42 as lists of noisy events on a mixed state (`RB/SpecNoise.lean`); a random Pauli operator on a subset makes its outcomes uniform, circuits on other subsets commute with it; induction on the events",
"C109": "a noisy device with an environment (`Accred/SpecNoise.lean`); the pad averages every noise operation to a sum over Pauli errors (Parseval), so a run is a mixture of Pauli error paths, traps and target being Clifford frames around them; every path with consequences is missed by at most 3/4 of the traps, and k (3/4)^(k-1) ≤ 27/16; the failing device computed path by path",
"C110": "the formulas of the bars over ℝ against the derivative of the estimate's formula (`HasDerivAt`), root of the sum of squares",
"C111": "the objects as records, `add_data` branch by branch (`RB/FitClass.lean`), invariant over the list of calls; the rates by the pooling lemmas of C46",
"C112": "the correlator tables by induction on the results in order (`RB/LemmasPurityFit.lean`), digit arithmetic of circuit and correlator numbers, then the object as in C111",
"C113": "channels by Kraus operators on a subset of the register, the expected value over independent uniform elements (`RB/SpecTwirl.lean`); events on other subsets drop out (partial trace); the sequence telescopes to the m-th power of the twirled channel (group closed under product and inverse); the twirl commutes with all gates of the group, so by the Pauli/monomial structure it is depolarising (Clifford) or splits into diagonal and off-diagonal parts (CNOT-dihedral); traces of superoperators give the parameters; existence of both groups as finite sets",
"C114": "density matrices of a subset, purity and unitarity (`RB/SpecUnitarity.lean`); the rotations of the purity circuits turn every Pauli string into a product of Z, and the squares of all Pauli coefficients add up to the purity; the twirl of the channel followed by its adjoint is depolarising, which gives a linear recursion of the mean purity; the bounds by Cauchy-Schwarz for the Hilbert-Schmidt product",
"C115": "`scipy.optimize.minimize` as a parameter specified by its documented contract (`MeasMit/SpecLsq.lean`); the minimum exists by compactness of the simplex; uniqueness and the projection property by the parallelogram law; invertibility of the Kronecker product from C16",
"C116": "distributions of faults over finite sample spaces (`RepCode/SpecRate.lean`); union bound over sets of m places from C104; expectation over shots by exchanging sums",
"C117": "cut argument of C104 without the matching; union bound over sets of d places; sums over all strings for the lookup table",
"C118": "normal equations solved by the dual frame of the Pauli projectors; projection onto a convex set contracts distances; variance of a sum of independent terms",
"C119": "the measurement frame of C118 tensored with the dual frame of the preparations; normal equations, convex projection and variance as in C118; the finding by the optimality conditions of the closest matrix",
"C120": "the verdict as a threshold on the share of heavy shots; mean and variance of an average of independent trials; an exponential moment bound and the Chebyshev bound; the finding by the binomial sum",
"C121": "sums over a counts dictionary as averages over the shots; variance of an average; Hoeffding's inequality for bounded variables; perturbation of an inverse in the one-norm; the calibration loop by induction over the labels; for the tensored fit the variance of a quotient of counts, and a telescoping bound for products of column distributions",
"C122": "exact data as an invariant of the calibration loop; the product noise factors out of the filtered tallies; the object by induction over the calls; the finding by evaluation",
"C123": "the driver of the three steps as a program with the optimisers as parameters; the vector of any candidate gate set is admissible and decodes to it (C56, C89), so optimality transfers; exactness by C55, C87 and C88",
"C124": "class attributes as a state machine; invariant: every attribute set agrees with the installation; the three fits are then a function of installation and arguments",
"C125": "expectation_value split into what is asked of the generator and what is made of its answer; nested averages (series, sums, integrals) over the draws reduce to independent signed samples on a finite set; mean by C27, then variance and Hoeffding conditionally on the shots",
"C126": "corrected frequencies as means over the shots of columns of the inverse; variance for the 1-norm, Hoeffding for observables; least squares by the projection inequality C115_closer; column bounds of Kronecker products by induction over the groups",
"C127": "reported purity as in C112 from means over shots; the circuits that measure a string counted by induction over the qubits; variance of a mean of independent numbers of different distributions; Cauchy-Schwarz and Chebyshev for the deviation",
"C128": "the reported data written as means over seeds of means over shots; the seeds as independent draws of a sequence and of shots; variance of a mean of independent numbers, Hoeffding and the union bound; decay curves from C113",
"C129": "objects with scaler and classifier; simulation relation between the runs with and without standardisation along the history; covariances, means and distances under a diagonal affine map; the maximum over the classes unchanged by a common constant",
"C130": "mixtures of state vectors pushed through the circuits; the rotation as a product kernel; self-adjointness of the preparation gates; the signal as a trigonometric polynomial in the difference of the numbers of ones, so that the top Fourier coefficient is one matrix entry",
"C131": "product distribution on the shots of all circuits; second moment of a complex-weighted sum of independent averages (real and imaginary part separately); Jensen for the bias; |sqrt a - sqrt b|^2 <= |a - b| for the coherences; Markov; norms are preserved by every gate, so the outcome probabilities exist.",
"C132": "heap of gate dictionaries with addresses plus per-object labels and matrices; invariant over the list of calls (references distinct and disjoint from the sources still to come, every object coherent); the circuits follow from C86 for the enlarged gate set.",
"C133": "the table by induction on the property list from the end; the order by an invariant of the tier construction (controls that have been visited have no new neighbours; the CNOTs of one control are entered in sorted order at increasing tiers); the schedule from C63.",
"C134": "the attributes of the fitter and its filters as a state, the calls as steps; induction over the calls, the matrix of all results from C12's model of the construction.",
"C135": "the results of the circuits of C12 give the readings as calibration shots (names from C13); the fitter object from C134; a matrix within eta of an invertible one has a bounded inverse; C126 with the calibrated matrix; the two stages by conditioning on the calibration.",
"C136": "a heap with a cell for each attribute (and the kind of sequence that stores shift); the invariant that no cell belongs to two elements, by cases on the calls; a simulation of the heap by a list of operators, from C37, C38, C73 and C74.",
"C137": "Hoeffding's inequality for each circuit and a union bound; then a perturbation argument in the operator norm of the supremum norm: the measured Gram matrix is invertible, the estimates differ from those of C55 by the inverse times a residual, and predictions by induction on the sequence.",
"C138": "`Log/Rotate.lean`: directory, inodes and open handles, `RotatingFileHandler` as a sequence of file operations with a crash after any of them; invariant over the slots 0…rotations, by induction on the history and on the loop of the rollover; reading by uniqueness of sorted permutations",
"C139": "`Expval/Objects.lean`: heap of arrays, objects with references and caches, programs as lists of operations; spec with cache-free answers and the arrays a program may change; invariant: every reference kept in an object denotes the right matrix and is known to be shared, by induction on the program",
"C140": "`Dihedral/Text.lean`: the two `__str__` methods loop by loop, on top of the model of `get_term`; spec (`SpecText.lean`): a reader of sums of products of integers and variables. The text without blanks is a join of pieces, splitting undoes the join, the sum over the loops is the sum over all terms; uniqueness follows from C40, as the text determines the operator.",
"C141": "`SpecTensoredEnd.lean`: readings of all circuits, their probability. Every label of a group is prepared by at least one circuit (C12); the entries of a group are shares of readings (C13); the part of a reading that belongs to a group is distributed by the noise of the group; variance of sums over different circuits; union over labels and groups; then as C135, with C126 for tensor products.",
}

COVER = """
## What of the code is modelled

Directories are relative to `/repo/qiskit/ignis`.

| file | modelled | not modelled |
|------|----------|--------------|
| `utils.py` | all | |
| `numba.py`, `version.py` | | decorator fallback, version string |
| `logging/ignis_logging.py` | logger, configuration, reader, rotation, selection of rotated files | handlers of parent loggers, keys given as one string |
| `characterization/characterization_utils.py` | all | |
| `characterization/coherence`, `hamiltonian`, `gates` | circuits, fit functions, names, data | `curve_fit`, plots |
| `characterization/fitters.py` | `BaseFitter` data and their error bars, `IQFitter` | `curve_fit`, plots, errors of fit parameters |
| `characterization/calibrations` | schedules, `RabiFitter` and `DragFitter` start values, `update_u_gates`, channel groups | sampling of pulse envelopes, `get_single_q_pulse` (needs a backend), the general π/2 schedule of several instructions |
| `measurement/discriminator` | filters, preparation of data and labels, scaling, fitting and discriminating | scikit-learn's classifiers (by specification), plots |
| `mitigation/expval` | all of circuits, fitters, mitigators, generator sets | plots; the matrix logarithm, inverse and exponential are specified |
| `mitigation/measurement` | circuits, fitters, filters with pseudo-inverse and with least squares (specified solver) on dictionaries, lists and `Result`s | the SLSQP algorithm, plots |
| `verification/accreditation` | circuits, one-time pad, fitters | transpilation to the gate set; measurements in the middle of a circuit (moved to the end by `layer_parser`) |
| `verification/entanglement` | linear and parallel circuits, analysis | drawing; transpilation; the backend's error map is a function |
| `verification/quantum_volume` | circuits, fitter | the random model circuit (input), plots |
| `verification/randomized_benchmarking` | circuits, groups, dihedral, fitters, utilities | terra's `Clifford`, `curve_fit`, plots |
| `verification/tomography` | bases, circuits, data, least squares and convex programs, gate sets | the solvers |
| `verification/topological_codes` | circuits, `process_results`, graphs, weights, decoders | networkx's shortest paths and matching (specified) |

### Read but not proved

These were noticed while reading the code.  They are outside the theorems.

* Topological codes: ties of the lookup table count as correct (used in C117).
* RB fitters: `PurityRBFitter.cliff_lengths` calls itself without end.
* Tomography: the loops `for op in circuit: isinstance(op, Measure)` look at tuples, so their warnings never appear.
* Expectation value mitigation: seed 0 and `None` differ only for some callers; with fewer measured bits than qubits see C23.
* Entanglement: `get_ghz_po_para` lacks the second barrier of the linear version.
* Characterisation: the missing-argument checks of `rabi_schedules` and
  `drag_schedules` create an exception without raising it.
"""

TRUST = """
## Trusted base

* Lean 4.33.0's kernel.  No axioms are added; there is no `sorry`, `native_decide` or `bv_decide`.
* Mathlib's definitions used in statements: ℝ, ℂ, matrices, `NormedSpace.exp`, `Complex.exp`, Lebesgue measure, multisets, `Finset.sum`.
* The reading of `/repo` recorded in the comments of each model definition, including the stated behaviour of numpy, scipy, CPython and
  qiskit-terra.
* The idealisation of floating point numbers.

### Axioms of the property theorems

Obtained with `#print axioms` for every theorem of `MANIFEST.json` (`python3 tools/axioms.py`).
"""
