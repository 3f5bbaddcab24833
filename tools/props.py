"""Source of properties.jsonl: run `python3 tools/props.py` from /verif to regenerate it."""
import json, os
P = []
def p(title, statement, quantifier, why, anchors):
    P.append(dict(id="C%02d" % (len(P) + 1), title=title, statement=statement,
                  quantifier=quantifier, why_tests_cant=why, anchors=anchors))
B = "qiskit/ignis/"
TD = B + "verification/tomography/data.py"
RC = B + "verification/topological_codes/circuits.py"
RF = B + "verification/topological_codes/fitters.py"
MC = B + "mitigation/measurement/circuits.py"
MF = B + "mitigation/measurement/fitters.py"
ML = B + "mitigation/measurement/filters.py"
EV = B + "mitigation/expval/"
AC = B + "verification/accreditation/"
DI = B + "verification/randomized_benchmarking/dihedral.py"
RB = B + "verification/randomized_benchmarking/"
TO = B + "verification/tomography/"
QV = B + "verification/quantum_volume/"
EN = B + "verification/entanglement/"
CH = B + "characterization/"
DS = B + "measurement/discriminator/"

# ---------------- counts dictionaries
p("Marginal counts conserve shots",
  "For a counts dictionary over n-bit keys and a list of measured qubits naming a proper subset of the n qubits, marginal_counts returns a dictionary whose values add up to the same total number of shots.",
  "every n, every counts dictionary with n-bit keys, every proper subset of qubits, pad_zeros on or off",
  "There are infinitely many widths, subsets and dictionaries; a dropped or double counted key needs one particular combination.",
  [TD + ":marginal_counts", TD + ":count_keys"])
p("Marginal counts sum exactly the matching outcomes",
  "For every outcome string over the measured qubits, the count marginal_counts reports is the sum of the counts of all full outcomes that agree with it on the measured qubits, where qubit 0 is the right-most character and the measured qubits appear with the highest index left-most; the order in which the measured qubits are listed does not matter. Outcomes that never occur are absent unless pad_zeros is set, in which case they are present with 0. With all the qubits the outcomes keep their counts and only lose the blanks in their keys. (Findings: with all the qubits pad_zeros is ignored; a list with a repeated qubit that is as long as the number of qubits is taken for all the qubits.)",
  "every n, every counts dictionary, every proper subset of qubits in any order, every outcome string",
  "Bit-order mistakes cancel on symmetric samples; only a statement about all keys and all subsets excludes them.",
  [TD + ":marginal_counts", TD + ":count_keys"])
p("Marginalising in two steps equals marginalising once",
  "Taking the marginal on a set S of qubits and then, of the result, the marginal on a subset of the remaining positions gives the same counts as taking the marginal on the composed subset directly.",
  "every n, dictionary and pair of nested proper subsets",
  "It quantifies over pairs of nested subsets of any size.",
  [TD + ":marginal_counts"])
p("Combining counts adds them key by key",
  "combine_counts returns a dictionary whose value at every key is the sum of the two inputs' values (missing keys count as 0), so it is commutative and associative as a map from keys to counts and totals add.",
  "all pairs and triples of counts dictionaries",
  "A test sees a few dictionaries; overlap patterns of keys are unbounded.",
  [TD + ":combine_counts"])
p("Pooling a list of counts dictionaries is a sum",
  "build_counts_dict_from_list returns, at every key, the sum of that key's counts over the whole list; the result does not depend on the order of the list or on how the shots were split into dictionaries.",
  "all lists of counts dictionaries, all permutations and regroupings",
  "Histories of jobs can be split arbitrarily.",
  [B + "utils.py:build_counts_dict_from_list"])
p("count_keys lists every outcome once in numeric order",
  "For n >= 1, count_keys(n) is the list of all 2^n bit strings of length n, without repetition, in increasing numeric order.",
  "every n >= 1",
  "The claim is about every n.",
  [TD + ":count_keys"])
p("expectation_counts returns Pauli-Z expectation values",
  "For every bit string key, the value expectation_counts reports equals the sum over outcomes of the count times (-1)^(number of 1 outcomes among the qubits marked 1 in the key), qubit 0 being the right-most character both of the key and of the outcome as documented.",
  "every n, dictionary and key",
  "A mirrored key is invisible on symmetric samples.",
  [TD + ":expectation_counts"])
# ---------------- repetition code
p("Noiseless repetition code decodes to the encoded bit with trivial syndrome",
  "For every distance d >= 2 and every number of rounds T >= 1, running the circuit for logical value b without noise gives one outcome, and process_results turns it into the string 'b b' followed by T+1 blocks of d-1 zeros.",
  "every d >= 2, every T >= 1, both logical values",
  "d and T are unbounded.",
  [RC + ":RepetitionCode", RC + ":process_results"])
p("process_results loses no counts",
  "Two different well formed raw outcome strings of the code are never mapped to the same processed string, so the processed dictionary has the same number of entries and the same total counts as the raw one.",
  "every d >= 2, T >= 1 and every pair of raw outcome strings",
  "A collision is a property of all pairs among 2^(d+T(d-1)) strings.",
  [RC + ":process_results"])
p("A single bit flip gives a pair of decoding-graph nodes",
  "If exactly one X error hits one code qubit just before any one round of syndrome measurement or just before readout, or exactly one syndrome measurement outcome is flipped, the processed string contains exactly two non-trivial nodes (counting the two logical boundary nodes relative to the encoded value); without error it contains none.",
  "every d >= 2, T >= 1, both logical values, every error location",
  "Location, distance and number of rounds are unbounded; the decoding graph is built from exactly this fact.",
  [RC + ":RepetitionCode", RC + ":process_results", RF + ":GraphDecoder._string2nodes"])
p("Decoded logical error probabilities are probabilities",
  "postselection_decoding, lookuptable_decoding and GraphDecoder.get_logical_prob return values in [0,1] for non-empty counts, and postselection_decoding returns exactly the share of wrong logical readouts among the outcomes with trivial syndrome and agreeing logical boundary.",
  "all results dictionaries with at least one admissible shot",
  "Quantifies over all counts dictionaries and outcome strings.",
  [RF + ":postselection_decoding", RF + ":lookuptable_decoding", RF + ":GraphDecoder.get_logical_prob"])
# ---------------- measurement mitigation
p("Calibration circuits prepare the state they are labelled with",
  "complete_meas_cal returns one circuit per computational basis state of the calibrated qubits, 2^n in total with pairwise distinct labels, and the noiseless readout of each circuit on its measured classical bits is exactly its label; tensored_meas_cal's circuits read back their label too and over the whole set every group of qubits is prepared in every one of its basis states.",
  "every register size, every qubit list without repetition, every partition into groups",
  "All register sizes, lists and partitions.",
  [MC + ":complete_meas_cal", MC + ":tensored_meas_cal"])
p("Calibration matrices are column stochastic",
  "After add_data every column of the fitted calibration matrix whose state was prepared at least once has non-negative entries that add up to one, and the entry (i,j) is the fraction of shots prepared in state j and read as state i.",
  "every number of qubits, every substate order, every sequence of results",
  "Ranges over all counts and partitions.",
  [MF + ":TensoredMeasFitter._build_calibration_matrices", MF + ":CompleteMeasFitter"])
p("Adding calibration data in batches equals adding it at once",
  "The calibration matrices obtained by any sequence of add_data calls depend only on the multiset of all results passed, not on how they were grouped or ordered.",
  "all sequences of add_data calls",
  "Histories are unbounded.",
  [MF + ":TensoredMeasFitter.add_data", MF + ":TensoredMeasFitter._build_calibration_matrices"])
p("Pseudo-inverse filter inverts the calibrated noise",
  "If the calibration matrix is invertible, applying the measurement filter with the pseudo_inverse method to the noisy version A p of a counts vector p returns p; if moreover the matrix is column stochastic the total number of counts is unchanged by the filter for every input.",
  "every dimension, every invertible column stochastic matrix, every counts vector",
  "All matrices and vectors.",
  [ML + ":MeasurementFilter.apply"])
p("Tensored filter equals the Kronecker-product filter",
  "TensoredFilter.apply with pseudo_inverse computes the same counts as multiplying the counts vector by the Kronecker product of the inverse group matrices, for any partition of the qubits into groups and any substate label order.",
  "every number and size of groups, every label order, all counts",
  "Index arithmetic over all partitions.",
  [ML + ":TensoredFilter.apply"])
p("Marginal calibration for a qubit subset",
  "CompleteMeasFitter.subset_fitter(qubit_sublist) returns the calibration matrix of exactly the listed qubits: entry (i,j) is the average over preparations of the other qubits of the probability of reading i on the listed qubits when j was prepared on them.",
  "every number of qubits and every sublist",
  "A mirrored bit order is invisible for palindromic subsets.",
  [MF + ":CompleteMeasFitter.subset_fitter"])
# ---------------- expval mitigation
p("Expectation-value calibration circuits read back their label",
  "Every circuit produced by expval_meas_mitigator_circuits has, without noise, an outcome equal to the calibration label recorded in its metadata; the label sets are exactly {0..0, 1..1} for 'tensored', all 2^n strings for 'complete', and the two constant strings plus the n weight-one strings for 'CTMP'.",
  "every n and method",
  "Every n.",
  [EV + "circuits.py:expval_meas_mitigator_circuits", EV + "circuits.py:_method_labels", EV + "circuits.py:_calibration_circuit"])
p("Assignment matrices are column stochastic or rejected",
  "assignment_matrix either raises because some basis state has no calibration data or returns a matrix with non-negative entries whose columns add up to one, for the full register and for every subset of qubits; its entries are the observed fractions of the calibration shots. (Finding: for a named list of qubits rows and columns are in bit-reversed order compared with the unnamed full register.)",
  "all calibration data, all subsets",
  "Ranges over all calibration data sets.",
  [EV + "utils.py:assignment_matrix", EV + "utils.py:_amat_accum_local", EV + "utils.py:_amat_accum_full"])
p("Expectation value and its error from counts",
  "expectation_value without mitigator returns the counts-weighted mean of the diagonal, which lies between the smallest and largest diagonal entry, and the reported variance is non-negative and equals (mean of squares - square of mean)/shots.",
  "all non-empty counts, all diagonals, all clbit subsets",
  "All real inputs.",
  [EV + "utils.py:expectation_value", EV + "utils.py:_expval_with_stddev"])
p("Counts vector follows the qubit list",
  "counts_probability_vector with a qubits argument permutes outcome bits so that bit m of the result is the classical bit of the m-th smallest listed qubit; without it entry k of the vector is the share of the outcome whose binary value is k; the entries are non-negative and add up to one. (Finding: the order of the clbits argument itself is ignored, so clbits listed in decreasing order are attributed to the wrong qubits.)",
  "every n, every list of distinct qubits, all counts",
  "All permutations of any size.",
  [EV + "utils.py:counts_probability_vector"])
p("Complete mitigation is exact for the calibrated noise",
  "If the counts are distributed as A p with A the calibrated invertible assignment matrix, the complete mitigator's expectation value equals the noiseless one sum_x d(x) p(x), for every diagonal observable written in the increasing order of the qubits. (Finding: an explicit diagonal is not permuted together with a qubit list that is not increasing.)",
  "every n, A, p, d",
  "All matrices of every size.",
  [EV + "complete_mitigator.py:CompleteExpvalMeasMitigator.expectation_value"])
p("Tensored mitigation is exact for product noise",
  "If every qubit i is read through an invertible 2x2 assignment matrix A_i, the tensored mitigator's expectation value equals the noiseless one for every diagonal observable and every list of qubits matching the measured bits. (Finding: without a qubit list, measuring fewer bits than the device has qubits is not rejected and gives a wrong value.)",
  "every n, all A_i, p, d",
  "All n; the index contraction must pair every qubit with its own matrix.",
  [EV + "tensored_mitigator.py:TensoredExpvalMeasMitigator.expectation_value"])
p("Tensored mitigation matrix is the Kronecker product over the requested qubits",
  "mitigation_matrix(qubits) and assignment_matrix(qubits) return the Kronecker product of the listed qubits' own matrices, last listed qubit left-most, when the list is 0..m-1 or absent; the mitigation matrix is then the inverse of the assignment matrix. (Finding: for other lists the loop uses the position instead of the qubit: [1,0] yields qubit 1's matrix twice and [1,2] raises.)",
  "every m, every family of 2x2 matrices",
  "Only lists other than 0..k-1 show a wrong index.",
  [EV + "tensored_mitigator.py:TensoredExpvalMeasMitigator.mitigation_matrix", EV + "tensored_mitigator.py:TensoredExpvalMeasMitigator.assignment_matrix"])
p("Tensored gamma is the 1-norm of the inverse noise",
  "For error rates e0,e1 with e0+e1<1 the per-qubit gamma equals the largest absolute column sum of the inverse of the 2x2 assignment matrix, and mitigation_overhead's gamma for several qubits is the product, which equals the 1-norm of the Kronecker product.",
  "all admissible error rates, every number of qubits",
  "Continuous inputs and every n.",
  [EV + "tensored_mitigator.py:TensoredExpvalMeasMitigator._compute_gamma"])
p("CTMP generators generate stochastic noise",
  "For every set of generators with non-negative rates the generator matrix has non-negative off-diagonal entries and columns adding up to zero, and the sampling matrix I + G/gamma is column stochastic with non-negative entries.",
  "every n, every generator list, all rates",
  "All generator lists.",
  [EV + "ctmp_mitigator.py:CTMPExpvalMeasMitigator", EV + "ctmp_generator_set.py:Generator"])
p("CTMP quasi-probability sampling is unbiased",
  "The signed Poisson mixture of powers of the sampling matrix that the CTMP expectation value samples from equals the exact inverse exp(-G) of the noise exp(G): exp(-G) = e^{2 gamma} sum_a Poisson(gamma;a) (-1)^a B^a.",
  "every dimension and generator matrix",
  "An identity of infinite series over all matrices.",
  [EV + "ctmp_mitigator.py:CTMPExpvalMeasMitigator._ctmp_inverse"])
p("CTMP random walk stays inside the support",
  "Every step of the sampled Markov chain moves from a column to a row index with a stored entry of that column, chosen by the cumulative rule, so all sampled outcomes are valid; the number of samples drawn over all shots equals the requested number and exactly sum(alphas) random numbers are consumed; with uniform random numbers the state after a steps is distributed as the a-th power of the sampling matrix.",
  "all chains, all random draws",
  "All random draws.",
  [EV + "ctmp_mitigator.py:_choice", EV + "ctmp_mitigator.py:_markov_chain_compiled"])
p("Standard CTMP generator set",
  "standard_generator_set(n) has exactly 2 n^2 pairwise distinct generators: two per qubit and four per unordered pair of qubits, all acting on valid qubits with different source and target strings; n <= 0 is rejected. (Finding: the pairs argument is rejected for every proper selection of pairs.)",
  "every n",
  "Every n.",
  [EV + "ctmp_generator_set.py:standard_generator_set"])
p("CTMP fitted rates belong to their transition",
  "The rate the CTMP fitter assigns to a two-qubit generator taking a to b is the entry from a to b (not from b to a) of the logarithm of those two qubits' calibrated assignment matrix, cut off at zero. (Findings: one-qubit generators get the averaged rate of the opposite transition; a single qubit has no rate at all; assignment_matrix reverses the generator matrix.)",
  "all generators and calibration data",
  "Symmetric noise hides a swap.",
  [EV + "ctmp_fitter.py:_ctmp_err_rate_1_q", EV + "ctmp_fitter.py:_ctmp_err_rate_2_q"])
# ---------------- accreditation
p("Quantum one-time pad is undone by the recorded key",
  "For every circuit of single-qubit gates, CX gates and barriers that ends by measuring each qubit into the classical bit of the same index, for either choice of two-qubit gate and every random key, each circuit returned by QOTP followed by the classical XOR with its recorded post-processing string produces exactly the outcome statistics of the original circuit. (For circuits that measure into other classical bits the claim fails, and measurements in the middle of a circuit are moved to its end; both are proved as findings.)",
  "all circuits, all numbers of qubits and layers, all random Pauli keys",
  "Keys and circuits are unbounded; a wrong propagation rule shows only for some key.",
  [AC + "qotp.py:QOTP", AC + "qotp.py:layer_parser", AC + "qotp.py:QOTP_fromlayers", AC + "qotp.py:QOTPCorrectCounts"])
p("QOTP correction is an involution on counts",
  "QOTPCorrectCounts relabels outcomes bijectively for keys of the full width: applying it twice restores the counts and the total number of shots is unchanged.",
  "all counts and keys",
  "All keys.",
  [AC + "qotp.py:QOTPCorrectCounts"])
p("Trap circuits return all zeros without noise",
  "For every target circuit that measures each qubit into the classical bit of the same index, every trap circuit generated by AccreditationCircuits gives, in the absence of noise, the all-zero outcome with certainty after its one-time pad correction, for every choice of random gates, and the circuit at the returned target position has the statistics of the target.",
  "all layouts of CZ gates, all random choices",
  "Random choices and layouts are unbounded.",
  [AC + "circuits.py:AccreditationCircuits._routine_two", AC + "circuits.py:AccreditationCircuits.generate_circuits"])
p("Accreditation accepts exactly the runs whose traps are all zero",
  "single_protocol_run accepts a run iff every trap outcome, corrected with its own key, is all zeros; over the history of the first fitter of a process the number of accepted runs equals the number of recorded outputs; the bound on variation distance is at most 1 and, when first computed, does not increase when the share of accepted runs grows. (A second fitter shares the outputs of the first, and a bound computed earlier is kept when it should return to 1; both are proved as findings.)",
  "all histories of protocol runs",
  "Histories of runs.",
  [AC + "fitters.py:AccreditationFitter"])
# ---------------- dihedral
p("Phase polynomial term addressing is exact",
  "For every number of variables, the table positions used for linear, quadratic and cubic terms are in range and different terms use different positions, so set_term followed by get_term returns the stored value and leaves every other term unchanged.",
  "every n and all strictly increasing index tuples up to length 3",
  "Closed index formulas over all n.",
  [DI + ":SpecialPolynomial.get_term", DI + ":SpecialPolynomial.set_term"])
p("Phase polynomial arithmetic agrees with evaluation",
  "The value of a sum of polynomials at every 0/1 point is the sum of the values mod 8, and multiplying by a monomial (when accepted) multiplies the value by the monomial's value mod 8, provided no term of the polynomial has more than three variables together with the monomial (longer terms are dropped silently, proved as a finding). On up to eight variables every increasing monomial is accepted; from nine variables on CPython's set order makes mul_monomial raise (finding).",
  "all n, all polynomials, all points",
  "All polynomials.",
  [DI + ":SpecialPolynomial.__add__", DI + ":SpecialPolynomial.mul_monomial", DI + ":SpecialPolynomial.evaluate"])
p("CNOT-dihedral gate updates implement the gates",
  "Applying cnot, phase or flip to an element changes the operator it represents exactly by composing with that gate: |x> -> w^p(x)|Bx+c> followed by CX, T^k or X, up to global phase.",
  "all n, all elements, all gates",
  "All elements and qubit pairs.",
  [DI + ":CNOTDihedral.cnot", DI + ":CNOTDihedral.phase", DI + ":CNOTDihedral.flip"])
p("CNOT-dihedral composition is operator composition",
  "Whenever compose or dot of two valid elements returns, the result has the entries of a valid element (is_cnotdihedral itself raises on it, see C136) and represents the composed operator, in the right order, up to global phase, whatever order sets are enumerated in. With CPython's set order they return for all valid elements on up to eight qubits; on nine qubits they may raise (finding).",
  "all n, all pairs of valid elements, both values of front, all set enumeration orders",
  "Group elements are exponentially many.",
  [DI + ":CNOTDihedral.__mul__", DI + ":CNOTDihedral.compose", DI + ":CNOTDihedral.dot"])
p("CNOT-dihedral decomposition round-trips",
  "to_circuit of a valid element returns a circuit of CNOT-dihedral gates that rebuilds the same element with from_circuit and implements its operator up to a global phase.",
  "all elements of the 1-qubit, 2-qubit and n-qubit groups",
  "The n-qubit group is unbounded.",
  [DI + ":decompose_cnotdihedral", DI + ":CNOTDihedral.to_circuit", DI + ":CNOTDihedral.from_circuit"])
p("Equality of CNOT-dihedral elements is equality of operators",
  "Two valid elements compare equal iff they act identically up to global phase on all basis states.",
  "all n and pairs of elements",
  "Uniqueness of the polynomial representation for all n.",
  [DI + ":CNOTDihedral.__eq__", DI + ":SpecialPolynomial.__eq__"])
# ---------------- RB
p("RB sequences compose to the identity",
  "For documented arguments randomized_benchmarking_seq returns, and every circuit applies, on each pattern subset, a product of length*multiplier random group elements followed by the inverse of that product (interleaved: the given element after each; X basis: Hadamards around), so without noise the outcome before the purity rotations is all zeros, for every length, pattern, multiplier and random draw.",
  "all seeds, patterns, length vectors, multipliers, alignments",
  "Random sequences of any length.",
  [RB + "circuits.py:randomized_benchmarking_seq"])
p("RB circuit family is complete and uniquely named",
  "For strictly increasing length vectors randomized_benchmarking_seq returns for each seed one circuit per length, in order, each prolonging the previous one, with names that identify type, length index and seed and never collide. (Findings: other length vectors lose circuits silently; rand_seed=0 draws every element with seed 0; a generator as rand_seed raises.)",
  "all nseeds, length vectors",
  "All lists.",
  [RB + "circuits.py:randomized_benchmarking_seq"])
p("RB pattern validation",
  "check_pattern accepts exactly the patterns with at least one qubit in which no qubit occurs twice (purity: equal sizes; interleaved: matching sizes) and returns the qubits in order, the largest qubit and the largest subset size; handle_length_multiplier accepts a list exactly if it has one positive multiplier per subset and no purity is asked for, and copies a scalar to every subset. (Findings: scalars are not checked; None raises.)",
  "all patterns and multipliers",
  "All lists of lists.",
  [RB + "circuits.py:check_pattern", RB + "circuits.py:handle_length_multiplier"])
p("RB group selection by name",
  "RBgroup accepts every documented group name and maps it to the documented group; every other name is rejected, apart from 'clifford' and 'NonCliffordCNOTDihedral' (finding: a missing comma merged two names).",
  "all strings",
  "All strings.",
  [RB + "rb_groups.py:RBgroup"])
p("EPG to EPC conversion formulas invert each other",
  "One-qubit gate errors returned by calculate_1q_epg add up, weighted with the gate counts, to the error per Clifford; calculate_1q_epc maps gate errors in [0,1] into [0,1] and calculate_2q_epc maps gate errors up to 1/2 (one qubit) and 3/4 (two qubits) into [0,3/4]; calculate_2q_epg of calculate_2q_epc with the same counts returns the two-qubit gate error exactly if there is one such gate per Clifford, a lower value for more and a higher value for fewer. (Finding: with two gates per Clifford a gate error of 3/8 comes back as 9/32.)",
  "all error rates and gate counts",
  "Real inputs.",
  [RB + "rb_utils.py:calculate_1q_epg", RB + "rb_utils.py:calculate_2q_epg", RB + "rb_utils.py:calculate_1q_epc", RB + "rb_utils.py:calculate_2q_epc"])
p("RB data does not depend on batching",
  "RBFitter's raw success probability for a pattern, seed and length is the share of all recorded shots of the circuit of that name with zeros in the bits of the pattern; it is in [0,1], does not depend on how the results are split over add_data calls or on their order, and is unchanged when the same results are added twice.",
  "all histories of add_data",
  "Histories.",
  [RB + "fitters.py:RBFitter.add_data", RB + "fitters.py:RBFitter.calc_data"])
p("Error formulas of the RB fitters",
  "The error per Clifford (2^n-1)/2^n(1-alpha) lies in [0,1-2^-n] for a decay in [0,1], decreases with the decay and is zero exactly for decay one; the interleaved estimate is zero exactly if both decays agree, non-negative exactly if interleaving does not slow the decay, decreases with the interleaved decay and is enclosed by the systematic error bounds, which collapse for a perfect reference; the CNOT-dihedral decay lies between the two measured ones and its error is zero exactly if both are one; the purity error is the error per Clifford of the square root of the fitted decay. (Finding: the error bar of the purity decay divides by the fourth root instead of the square root.)",
  "all decay parameters and n >= 1",
  "Real inputs.",
  [RB + "fitters.py:RBFitter.fit_data_pattern", RB + "fitters.py:InterleavedRBFitter.fit_data", RB + "fitters.py:CNOTDihedralRBFitter.fit_data", RB + "fitters.py:PurityRBFitter.fit_data"])
p("Tomography circuit families are complete and distinct",
  "State tomography on n qubits yields exactly one circuit per Pauli basis label, 3^n in total, process tomography 4^n*3^n, pairwise distinct names; each measured qubit j gets basis label j and classical bit j.",
  "every n, every qubit list",
  "Every n.",
  [TO + "basis/circuits.py:_tomography_circuits", TO + "basis/circuits.py:_operator_tuples"])
p("Tomography circuits agree with their matrices",
  "For each label of the Pauli and SIC bases the preparation circuit prepares exactly the state whose matrix the fitter uses and the measurement circuit followed by a computational measurement implements exactly the POVM element matrices.",
  "all labels, outcomes and input states",
  "All input states.",
  [TO + "basis/paulibasis.py", TO + "basis/sicbasis.py"])
p("POVM completeness and order",
  "The measurement operators the fitter assigns to a basis label on n qubits are listed in the order of the outcome strings of count_keys(n), add up to the identity, and the operator of an outcome is the tensor product of the single-qubit projectors in qubit order.",
  "every n and label",
  "Every n.",
  [TO + "fitters/base_fitter.py:TomographyFitter._measurement_ops"])
p("Tomography data identifies the state",
  "The Pauli measurement operators of all 3^n labels span the operator space: two operators with the same expectation values for all of them are equal, so linear inversion of exact frequencies returns the true state.",
  "every n",
  "Every n and all states.",
  [TO + "fitters/base_fitter.py:TomographyFitter._fitter_data", TO + "fitters/lstsq_fit.py:lstsq_fit"])
p("Rescaling to a positive semidefinite matrix",
  "make_positive_semidefinite leaves matrices with non-negative eigenvalues unchanged, otherwise returns non-negative eigenvalues in the same order with the same sum (trace) whenever the trace is non-negative, and the result is the closest such spectrum in Euclidean distance.",
  "every dimension and spectrum",
  "Optimality over all candidates.",
  [TO + "fitters/lstsq_fit.py:make_positive_semidefinite"])
p("Tomography weights are finite and positive",
  "The weights of the tomography data are positive and finite, one per outcome of every label, for beta >= 0 with two or more outcomes and at least one shot (the hedged frequencies used are strictly between 0 and 1); negative beta is rejected. Finding: a counts dictionary given directly to the weight function is not padded with zero counts, so a single observed outcome gives an infinite weight.",
  "all counts, beta",
  "All counts.",
  [TO + "fitters/base_fitter.py:TomographyFitter._binomial_weights"])
p("Partial trace constraint matrix",
  "partial_trace_super(dim1, dim2) applied to the column-vectorisation of an operator on the tensor product gives the vectorisation of its partial trace.",
  "all dimensions and operators",
  "All dimensions.",
  [TO + "fitters/cvx_fit.py:partial_trace_super"])
p("Gate set linear inversion is exact up to gauge",
  "From exact probabilities with an invertible Gram matrix, linear inversion returns every gate conjugated by one common invertible matrix, the measurement effect and state transformed by the same matrix, so that every predicted probability of every gate sequence equals the true one. A singular Gram matrix is rejected. (This needs that no gate is called 'E' or 'rho': such a gate's result is overwritten.)",
  "all gate sets, SPAM lists, sequences",
  "All sequences of gates.",
  [TO + "fitters/gateset_fitter.py:GatesetTomographyFitter.linear_inversion"])
p("Gate set optimisation vector round-trips",
  "The vector representation of a gate set used by the maximum likelihood step is lossless: cutting a list at given sizes succeeds exactly if the sizes add up and then concatenation restores the list; packing and unpacking complex matrices are inverse and other lengths are rejected; and a gate set with positive semidefinite effect and state matrices and completely positive gates is recovered exactly from its vector.",
  "all lists and sizes",
  "All sizes.",
  [TO + "fitters/gateset_fitter.py:GaugeOptimize", TO + "fitters/gateset_fitter.py:GST_Optimize"])
p("Tomography fitter pools repeated experiments",
  "TomographyFitter.add_data called on several result sets accumulates counts of the same circuit label by summation, independent of the order of the calls; a call without circuits or with a circuit no result knows is rejected. (Results given together in one call are not pooled: the last one wins; with several classical registers only one bit of a state label is kept.)",
  "all histories of add_data",
  "Histories.",
  [TO + "fitters/base_fitter.py:TomographyFitter.add_data"])
# ---------------- QV
p("Heavy output statistics",
  "The heavy outputs of a quantum volume circuit are exactly the outcomes with ideal probability above the median, at most half of all outcomes; heavy counts never exceed shots, the heavy output probability is in [0,1], and success is reported iff the mean exceeds 2/3 and the lower two-sigma bound is above 2/3.",
  "all ideal distributions and counts",
  "All distributions.",
  [QV + "fitters.py:QVFitter._heavy_strings", QV + "fitters.py:QVFitter.calc_statistics", QV + "fitters.py:QVFitter.qv_success"])
p("QV data accumulation",
  "Heavy counts and shots for each trial and width are the sums over all results added; two histories that hand over the same results in different batches or orders give the same counts, statistics and verdict; the number of trials never decreases; quantum_volume is two to the number of qubits of each list. (Finding: a recomputing add_data raises ZeroDivisionError unless every width has shots in every trial up to the largest trial seen, so the widths of a trial cannot be added one after the other.)",
  "all histories of add_data",
  "Histories.",
  [QV + "fitters.py:QVFitter.add_data", QV + "fitters.py:QVFitter.calc_data" ])
p("QV circuits act on the listed qubits",
  "qv_circuits returns, for every trial and every increasing qubit list whose largest entry is not its length, a circuit in which the model circuit's qubit i is the i-th listed qubit and is measured into classical bit i, named so that the fitter reads back width and trial. (Findings: in a list such as [1, 0] the classical bits follow the physical order, not the list; a list such as [1, 2], whose largest entry equals its length, is not mapped at all: the circuit acts on qubits 0 and 1; a qubit no gate acts on is not measured; two lists of the same length share their circuit names.)",
  "all qubit lists and trials",
  "All lists.",
  [QV + "circuits.py:qv_circuits"])
# ---------------- discriminator
p("Discrimination filter counts every shot once",
  "DiscriminationFilter.count turns the predicted states of a result (strings of one width over one base between 2 and 36) into a counts dictionary whose values add up to the number of shots, in which every state has its number of shots and different states have different keys.  The inferred base is one more than the largest digit of the expected states and accepts all of them unless all digits are 0 (finding: base 1, on which count raises for any prediction); it is used if no base or the base 0 is given, any other base is used as given.  apply returns every level 1 experiment with single-shot data under its name with the predictions of its own shots.  Findings: states of different widths share keys; with averaged data the predictions are handed to the wrong experiments; experiments of other levels are dropped.",
  "all lists of state strings of one width over one base",
  "All lists.",
  [DS + "filters.py:DiscriminationFilter.count", DS + "filters.py:DiscriminationFilter.get_base", DS + "filters.py:DiscriminationFilter.apply"])
p("Discriminator training data aligns with labels",
  "After the constructor, and after any sequence of add_data calls, with single-shot data in which every used schedule name occurs once among all results, the discriminator's feature rows and expected-state labels have equal length, and row i carries the label of the schedule it was measured with; the rows are exactly the shots of the schedules of the last call.  If expected states are given to the constructor, schedules may be objects or names, in any mixture, with the same training data.  Findings: without expected states a Schedule object raises; add_data replaces the earlier training data; a schedule measured in two results, or averaged data of several qubits, gives different numbers of rows and labels.",
  "all histories",
  "Histories.",
  [DS + "discriminators.py:BaseDiscriminationFitter.add_data", DS + "iq_discriminators.py:IQDiscriminationFitter.get_xdata"])
# ---------------- entanglement
p("Parallel GHZ schedule is a valid spanning tree",
  "For every connected coupling map without repeated pairs that contains qubit 0 and has at most 52 qubits, with or without sorting by CNOT errors, the tier dictionary used to build the GHZ state entangles each qubit exactly once, from a qubit entangled in an earlier tier, along a coupling, and no two CNOTs in the same tier share a qubit. (Without qubit 0 the code raises; it gives up after 51 rounds, leaving far qubits out; a repeated pair entangles a qubit twice; the work doubles with each round.)",
  "all connected coupling maps, all error tables",
  "All graphs.",
  [EN + "parallelize.py:BConfig.get_tier_dict"])
p("GHZ circuits prepare the GHZ state",
  "get_ghz_simple(n) for n >= 1 and the parallel layout for 2 <= n <= the number of qubits prepare (|0..0> + |1..1>)/sqrt(2) on n qubits and measure qubit i into bit i; the layout places the register on distinct device qubits so that every CNOT acts along a coupling. (With n = 1 the parallel layout raises; with n larger than the number of qubits it silently returns a circuit that leaves qubits in |0>.)",
  "every n and schedule",
  "Every n.",
  [EN + "linear.py:get_ghz_simple", EN + "parallelize.py:BConfig.get_ghz_layout"])
p("MQC and parity oscillation signals",
  "Without noise get_ghz_mqc(n, delta) returns all zeros with probability (1+cos(n delta))/2, only qubit 0 set with probability (1-cos(n delta))/2 and nothing else, and the parity expectation value of get_ghz_po(n, delta) is (-1)^n cos(n delta), for the linear and the parallel circuits.",
  "every n, delta and schedule",
  "Every n and real angle.",
  [EN + "linear.py:get_ghz_mqc", EN + "linear.py:get_ghz_po", EN + "parallelize.py:BConfig.get_ghz_mqc", EN + "parallelize.py:BConfig.get_ghz_po"])
p("Composite Pauli Z expectation",
  "composite_pauli_z_expvalue equals the sum over the n-bit outcomes of the count times (-1)^(number of ones), ignores all other keys, and is bounded by the total in absolute value. (Keys with spaces between registers are therefore ignored.)",
  "every n >= 1 and counts",
  "Every n.",
  [EN + "analysis.py:composite_pauli_z_expvalue"])
# ---------------- characterization
p("Characterisation success probabilities",
  "The y value of a characterisation fitter for a qubit and circuit is the share of pooled shots in which that qubit's classical bit equals the expected state; it is in [0,1], its standard deviation is the square root of p(1-p)/shots (1e-4 where that is zero), and does not depend on how the shots were split over jobs or on the order of add_data.",
  "all histories of results and all qubits",
  "Histories.",
  [CH + "fitters.py:BaseFitter._calc_data", CH + "fitters.py:BaseFitter.add_data"])
p("Coherence circuits give the expected state without noise",
  "On a device without relaxation, even with any detuning of each qubit, t1_circuits read 1 with certainty and t2_circuits with an odd number of non-alternating echoes read the state 0 that T2Fitter expects, on all qubits, lengths and echo counts. (With an even number of echoes, or alternating echoes whose count is 0 or 3 modulo 4, they read 1 with certainty while the fitter expects 0.)",
  "all lengths, qubit lists, numbers of echoes",
  "All numbers of echoes.",
  [CH + "coherence/circuits.py:t1_circuits", CH + "coherence/circuits.py:t2_circuits", CH + "coherence/fitters.py:T2Fitter"])
p("Delay bookkeeping",
  "The delay reported for a coherence circuit is gate_time times the number of identity gates that circuit contains per qubit, and time_to_ngates converts a time to the nearest number of gates.",
  "all lengths, echoes, times",
  "All lists.",
  [CH + "coherence/circuits.py", CH + "characterization_utils.py:time_to_ngates"])
# ---------------- logging
p("Log reader returns exactly the matching rows",
  "For log files written by any history of log_to_file calls with keys and values free of white space, IgnisLogReader.read_values returns, in file order, exactly the rows whose timestamp lies in the closed requested interval, restricted to the requested keys, and rows left without keys are dropped. A bound that does not parse is refused once there is a line to compare with (with no lines it goes unnoticed, and a blank line makes a bounded read fail).",
  "all histories, numbers of files, key lists, intervals given as times or texts",
  "All files.",
  [B + "logging/ignis_logging.py:IgnisLogReader.read_values", B + "logging/ignis_logging.py:IgnisLogReader._filter_by_datetime"])
p("Logged values can be read back",
  "Key/value pairs written by log_to_file are returned by read_values as the same pairs, for keys and values without white space and keys without colon and without quotes at their ends. (Values with blanks, as the list in the documentation's example, come back in fragments; a line break in a value passes for another entry; a key with a colon is never found.)",
  "all histories of calls, all such keys and values",
  "All strings.",
  [B + "logging/ignis_logging.py:IgnisLogger.log_to_file", B + "logging/ignis_logging.py:IgnisLogReader.read_values"])
# ---------------- added while the model grew
p("Every syndrome has an even number of non-trivial nodes",
  "Whatever bits a backend reports for the classical registers of a repetition code, the processed string has an even number of non-trivial nodes, counting the two boundary nodes relative to either logical value.",
  "every d >= 2, T >= 1, both logical values, every raw outcome (any number of errors)",
  "All raw outcomes.",
  [RC + ":RepetitionCode.process_results", RF + ":GraphDecoder.make_error_graph"])
p("Adjoint, conjugate and transpose of CNOT-dihedral elements",
  "adjoint, conjugate and transpose of a valid element return valid elements; the adjoint is inverse to the element on both sides, and the matrices of the others are the conjugated and the transposed matrix, all up to a global phase.",
  "all n >= 1, all valid elements",
  "The group is infinite over all n.",
  [DI + ":CNOTDihedral.adjoint", DI + ":CNOTDihedral.conjugate", DI + ":CNOTDihedral.transpose"])
p("Tensor products of CNOT-dihedral elements",
  "tensor and expand of valid elements return valid elements whose operator is the product of the two operators on disjoint blocks of qubits: a.tensor(b) puts a on the first qubits, a.expand(b) puts b there. (Elements that came out of compose, dot or * are excepted: they keep their shift in a list, and tensor and expand fail on them, see C136.) (This is the reverse of the tensor convention of qiskit operators, shown on an example.)",
  "all sizes, all pairs of valid elements whose shift is an array",
  "All sizes and elements.",
  [DI + ":CNOTDihedral._tensor", DI + ":CNOTDihedral.tensor", DI + ":CNOTDihedral.expand"])
p("Random CNOT-dihedral elements are valid and uniform on the group",
  "For every outcome of the random draws random_cnotdihedral returns a valid element, and every valid element is returned for the same number of outcomes, so the elements are uniform on the group; the loop over candidate matrices ends with probability 1.",
  "all n, all draws, all valid elements",
  "All draws.",
  [DI + ":random_cnotdihedral"])
p("Gates per Clifford are exact averages",
  "gates_per_clifford returns for every requested qubit and basis gate the number of times the gate acts on the qubit in all circuits, divided by the number of seeds times the sum of the lengths plus one, and nothing else. (Finding: a gate listed twice in the basis is divided twice.) count_gates returns for every experiment, listed qubit and basis gate the number of instructions of that name that act on the qubit, and the two functions agree. (Finding: of a gate listed twice in the basis the earlier column is 0.)",
  "all circuit lists, length vectors, distinct basis gates and qubits",
  "All circuits.",
  [RB + "rb_utils.py:gates_per_clifford", RB + "rb_utils.py:count_gates"])
p("Coherence limit is an error rate",
  "For positive T1 and T2 coherence_limit is zero for a gate of length zero, grows with the gate length, and stays in [0,1/2] for one qubit and [0,3/4] for two; T2 defaults to 2 T1; lists of the wrong length and other numbers of qubits are rejected.",
  "all positive times and gate lengths",
  "Real inputs.",
  [RB + "rb_utils.py:coherence_limit"])
p("The two two-qubit error estimates agree",
  "twoQ_clifford_error with the errors listed as u1,u2,u3 of the lower qubit, u1,u2,u3 of the higher qubit and cx returns what calculate_2q_epc returns for the same errors and counts, whatever the order of the qubits in the dictionary.",
  "all gate counts and errors up to the depolarizing limit",
  "Real inputs.",
  [RB + "rb_utils.py:twoQ_clifford_error", RB + "rb_utils.py:calculate_2q_epc"])
p("The RB fit starts at the solution for exact data",
  "If the mean success probabilities follow A alpha^m + 1/2^n exactly, with 0 < alpha < 1, the starting point of the fit is exactly (A, alpha, 1/2^n), whatever the first two lengths. (Findings: for other data the starting point may leave the bounds of the fit - a negative decay or an amplitude above one - which makes curve_fit raise.)",
  "all A > 0, alpha, n, lengths",
  "Real inputs.",
  [RB + "fitters.py:RBFitter.fit_data"])
p("Purity RB measures every Pauli string",
  "The index that PurityRBFitter gives to the correlator of a set of qubits in a purity circuit is the Pauli string with the identity outside the set and the measured letter inside; all 4^n strings are covered by the 3^n circuits, the observables are the products of signs over the set, and the reported purity is 2^-n times the sum of the squares of all 4^n expectation values, however often each string was measured.",
  "every n, all expectation values",
  "All sizes.",
  [RB + "fitters.py:PurityRBFitter.F234", RB + "fitters.py:PurityRBFitter.add_zdict_ops", RB + "fitters.py:PurityRBFitter.calc_data"])
p("Error bounds and shot requirements of the mitigated estimates",
  "For observables with values in [-1,1] the mitigated expectation value is at most gamma in modulus and its reported variance at most gamma^2/shots, for the complete and the tensored mitigator; required_shots(delta) is exactly the least number of shots for which the standard deviation bound is at most delta/2; the overhead factor times the unmitigated requirement suffices.",
  "every n, all counts, all calibrations, all delta > 0",
  "Continuous inputs and every size.",
  [EV + "base_meas_mitigator.py:BaseExpvalMeasMitigator.required_shots", EV + "base_meas_mitigator.py:BaseExpvalMeasMitigator.stddev_upper_bound", EV + "base_meas_mitigator.py:BaseExpvalMeasMitigator.mitigation_overhead"])
p("Assignment fidelity of product noise",
  "The tensored mitigator's assignment_fidelity for any list of qubits is the average success probability (trace over dimension) of the Kronecker product of their assignment matrices.",
  "every list of qubits, all 2x2 matrices",
  "Every number of qubits.",
  [EV + "tensored_mitigator.py:TensoredExpvalMeasMitigator.assignment_fidelity", EV + "base_meas_mitigator.py:BaseExpvalMeasMitigator.assignment_fidelity"])
p("Calibration data pools all circuits with the same label",
  "calibration_data sums, for each calibration label, the counts of exactly the circuits whose metadata names that label, ignores all other circuits, and takes the number of qubits and method from the first calibration circuit.",
  "all results and metadata lists",
  "All interleavings of circuits.",
  [EV + "utils.py:calibration_data"])

p("Process tomography returns the true channel",
  "From exact frequencies of all pairs of preparation labels (default Pauli or SIC) and Pauli measurement labels, least squares process tomography, with or without weights, returns exactly the Choi matrix of the completely positive trace preserving map applied.",
  "every number of qubits, channel, data order, beta and shots",
  "Every n and all channels.",
  [TO + "fitters/process_fitter.py:ProcessTomographyFitter.fit", TO + "fitters/base_fitter.py:TomographyFitter._fitter_data", TO + "fitters/lstsq_fit.py:lstsq_fit"])

p("Convex tomography program is the intended one",
  "The constraints of cvx_fit describe exactly the Hermitian positive semidefinite matrices with the requested trace (and, for process data, trace preservation), its objective is the weighted squared residual of the data, and on exact data of a complete set of settings the only optimum is the true state or Choi matrix.",
  "every dimension, data, weights, trace value",
  "All matrices and data.",
  [TO + "fitters/cvx_fit.py:cvx_fit", TO + "fitters/cvx_fit.py:partial_trace_super"])

p("Gate set tomography circuits are complete and distinct",
  "For a gate set with n SPAM circuits and m gates, gateset_tomography_circuits returns m n^2 + n^2 + n circuits with distinct names; there is one for every key (F), (F, F') and (F, G, F'), and its name reads back as that key and its instructions are F, then G, then F', then the measurement of the qubit. (A gate label added twice yields repeated names.)",
  "every gate set basis with distinct names without quotes, every qubit",
  "All gate sets.",
  [TO + "basis/gatesetbasis.py:GateSetBasis", TO + "basis/circuits.py:gateset_tomography_circuits"])
p("Gauge freedom and gauge optimisation in gate set tomography",
  "Changing the gauge by any invertible matrix leaves all predicted probabilities of all sequences unchanged; the gauge objective is never negative, is zero at a gauge in which the gates are the ideal ones, and on exact data of an ideal device every gauge with value zero yields exactly the ideal gates. (The start value given to the optimiser is not such a gauge, and the SPAM matrix multiplies gates in the opposite order to the circuits.)",
  "every invertible matrix, gate set and sequence",
  "Continuous inputs, all sequences.",
  [TO + "fitters/gateset_fitter.py:GaugeOptimize._x_to_gateset", TO + "fitters/gateset_fitter.py:GaugeOptimize._obj_fn", TO + "fitters/gateset_fitter.py:GaugeOptimize.optimize", TO + "basis/gatesetbasis.py:GateSetBasis.spam_matrix"])

p("Objective of the maximum likelihood step of gate set tomography",
  "The objective at a vector is the sum over all pairs of SPAM circuits and all gates of the squared difference between the probability predicted by the gate set of the vector for F_j, G_k, F_i and the measured one; it is never negative, is zero exactly when all predictions match, and on exact data it is zero at the vector of the true device when that device can be represented.",
  "every gate set, data and vector",
  "Continuous inputs, all gate sets.",
  [TO + "fitters/gateset_fitter.py:GST_Optimize._compute_objective_function_data", TO + "fitters/gateset_fitter.py:GST_Optimize._obj_fn"])
p("Constraints of the maximum likelihood step of gate set tomography",
  "Every vector stands for completely positive gates; the equality constraints hold exactly when all gates preserve the trace; the inequality constraints bound the entries of the last three rows of the transfer matrices and follow from the equality constraints; the state constraint holds exactly when the reported initial state has trace one. (The state is not otherwise constrained: it can violate positivity, and the states |1> and |+> cannot be represented at all.)",
  "every number of gates, every vector",
  "Continuous inputs.",
  [TO + "fitters/gateset_fitter.py:GST_Optimize._bounds_eq_constraint", TO + "fitters/gateset_fitter.py:GST_Optimize._bounds_ineq_constraint", TO + "fitters/gateset_fitter.py:GST_Optimize._rho_trace_constraint", TO + "fitters/gateset_fitter.py:GST_Optimize._split_input_vector"])

p("Fidelity from a density matrix",
  "rho_to_fidelity of a density matrix on any number of qubits is the largest fidelity with a state (|0..0> + e^(i phi)|1..1>)/sqrt(2).",
  "every dimension >= 2, every positive matrix",
  "Continuous inputs, every dimension.",
  [EN + "analysis.py:rho_to_fidelity"])
p("Fourier analysis of GHZ signals",
  "For a signal that is a trigonometric polynomial sampled at N equidistant phases, entry n of the transform used by get_fourier_info is the coefficient of frequency n when all frequencies are below N/2; the noise-free MQC and parity signals give fidelity 1 (and both MQC bounds 1). (The raw MQC fidelity uses the mitigated populations; with N = 2n phases the parity fidelity comes out as 3/2.)",
  "every N, n and trigonometric polynomial",
  "All lengths and signals.",
  [EN + "analysis.py:Plotter.get_fourier_info"])

# ---------------- characterization, continued
p("Ramsey fringes",
  "On a device whose qubits are detuned, the probability of reading 0 in every t2star_circuits circuit is exactly the oscillation T2StarFitter fits, at the induced frequency returned with the circuits plus the detuning of the qubit.",
  "all lengths, qubit lists, numbers of oscillations and detunings",
  "Continuous inputs, all lists.",
  [CH + "coherence/circuits.py:t2star_circuits", CH + "coherence/fitters.py:T2StarFitter"])
p("ZZ interaction",
  "On a device with a ZZ coupling between each qubit and its spectator, the two series of zz_circuits oscillate as ZZFitter fits them and the difference of the fitted frequencies reported by ZZ_rate is the coupling; qubits and spectators that overlap or differ in number are refused. This needs the numbers of gates as a numpy array: with a list, which is what is documented, a float gate time raises and an integer gate time g gives the delays as the g-fold repeated list and a frequency g times too large (proved as a finding).",
  "all lengths, qubit and spectator lists, detunings and couplings",
  "Continuous inputs, all lists.",
  [CH + "hamiltonian/circuits.py:zz_circuits", CH + "hamiltonian/fitters.py:ZZFitter"])
p("Characterisation circuits are found by their fitter",
  "The names of the circuits a characterisation circuit function returns are exactly the names its fitter looks up in the results, in the same order, and they are distinct.",
  "all eight circuit/fitter pairs, all lists",
  "All sizes.",
  [CH + "fitters.py:BaseFitter._calc_data", CH + "coherence/circuits.py", CH + "hamiltonian/circuits.py", CH + "gates/circuits.py"])
p("Amplitude error curves",
  "On a device whose U2 gates (or whose CX) rotate by a wrong angle, the probability of reading 1 in each ampcal_1Q_circuits (ampcal_cx_circuits) circuit is exactly the curve AmpCalFitter (AmpCalCXFitter) fits, with the rotation error as its parameter, and reading 1 is the outcome that these fitters count.",
  "all numbers of repetitions, qubit and control lists, errors",
  "Continuous errors, all repetition counts.",
  [CH + "gates/circuits.py:ampcal_1Q_circuits", CH + "gates/circuits.py:ampcal_cx_circuits", CH + "gates/fitters.py:AmpCalFitter", CH + "gates/fitters.py:AmpCalCXFitter"])
p("Angle error curves",
  "On a device whose X pulse (or whose CX) turns about a tilted axis, the probability of reading 1 in each anglecal_1Q_circuits (anglecal_cx_circuits) circuit is exactly the curve AngleCalFitter (AngleCalCXFitter) fits; reading 1 is the outcome that these fitters count; for CX the reported angle error is the tilt plus the artificial error. (The artificial error of anglecal_1Q_circuits does not produce the curve of the error it stands for.)",
  "all numbers of repetitions, qubit and control lists, tilts and artificial errors",
  "Continuous errors, all repetition counts.",
  [CH + "gates/circuits.py:anglecal_1Q_circuits", CH + "gates/circuits.py:anglecal_cx_circuits", CH + "gates/fitters.py:AngleCalFitter", CH + "gates/fitters.py:AngleCalCXFitter"])
p("Where a logger's output goes",
  "For a logger obtained once from IgnisLogging.get_logger and then used in any way, each ordinary message appears on the console exactly once and in order and nothing else does; the log file receives exactly the lines logged with log_to_file while file logging was on; at most one warning is issued for refused lines. (Obtaining the same logger twice duplicates console output and sends file lines to the console.)",
  "all sequences of log, log_to_file, enable_file_logging and disable_file_logging calls",
  "All histories.",
  [B + "logging/ignis_logging.py:IgnisLogger.log_to_file", B + "logging/ignis_logging.py:IgnisLogging.get_logger"])
p("Logging configuration",
  "The last line of the configuration file that mentions a setting decides it, whatever the blanks and comments around it, and settings not mentioned keep their defaults, for lower-case values without colon or '#'. (Paths are changed to lower case and cut at a colon.)",
  "all configuration files of such lines",
  "All texts.",
  [B + "logging/ignis_logging.py:IgnisLogging._load_config_file", B + "logging/ignis_logging.py:IgnisLogging._initialize"])
p("Pooling of IQ data",
  "For averaged level-1 data split over any number of jobs, the value a calibration fitter uses for a schedule and a qubit is the average over all shots taken for it, however schedules are spread over jobs; other measurement levels, and averaged mixed with single-shot data, are refused. (Single-shot data are accepted and then always fail; a schedule twice in one job counts its first memory twice; a fitter for n qubits always reads the first n memory slots, whatever its qubits are.)",
  "all lists of job results, shot numbers and memories",
  "All batchings.",
  [CH + "fitters.py:IQFitter"])
p("Projection of IQ data",
  "For readout values on a line in the IQ plane along which both components grow together, the fitter's signal is the position along the line up to one positive scale, sign and an offset; equal data give no signal. (On the other diagonal the two projections cancel and the signal vanishes for every input.)",
  "all data sets on a line, all offsets and angles",
  "Continuous data.",
  [CH + "fitters.py:IQFitter._calc_data"])
p("Calibration start values and amplitudes",
  "For samples of a cosine with a whole number of periods the start values of RabiFitter are its amplitude, frequency and phase; for samples of a parabola over a symmetric scan the start values of DragFitter find its vertex and curvature sign; the reported π and π/2 amplitudes rotate a device with amplitude-proportional angle by π and π/2; the reported DRAG amplitude is the extremum of the fitted curve. (With the vertex at the edge of the scan the DRAG guess picks the opposite edge.)",
  "all frequencies, amplitudes, phases, scans",
  "Continuous data, all scan sizes.",
  [CH + "calibrations/fitters.py:RabiFitter", CH + "calibrations/fitters.py:DragFitter"])
p("Calibration schedules",
  "rabi_schedules and drag_schedules return one schedule per scanned value, under the names the fitters look up; each qubit's drive channel gets exactly its pulse (for DRAG: the pulse and then its opposite), all qubits simultaneously from time 0, with the scanned parameter, and the measurement begins when the last pulse ends.",
  "all scans, qubit lists, pulse widths and measurement schedules not using the drive channels",
  "All scans and qubit lists.",
  [CH + "calibrations/pulse_schedules.py:rabi_schedules", CH + "calibrations/pulse_schedules.py:drag_schedules"])
p("Gates from a calibrated pulse",
  "If the calibrated pulse is a rotation by π/2 about X, then the schedules update_u_gates installs perform exactly U2(P0, P1) and U3(P0, P1, P2) up to a global phase, for all parameters; all channels that share the drive channel's frame in the device's own gate get the same phase shifts at the same times.",
  "all gate parameters, pulses, devices' channel groups",
  "Continuous parameters.",
  [CH + "calibrations/ibmq_utils.py:update_u_gates", CH + "calibrations/ibmq_utils.py:_find_channel_groups"])

p("The repetition code corrects errors up to half its distance",
  "For a repetition code with d code qubits and T rounds, a run with any combination of at most (d-1)/2 faults — Pauli errors on any qubits at any places in the circuit, wrong readouts of any syndrome or code bits — is decoded by GraphDecoder.matching to the encoded logical value; get_logical_prob of counts made of such outcomes is 0. The decoder's syndrome graph joins exactly the pairs of nodes a single error can light. More than half of the code bits read wrongly are decoded to the other value.",
  "all d ≥ 2, T ≥ 1, logical values, lists of faults; every optimal matching networkx may return",
  "All fault combinations, distances and rounds.",
  [RF + ":GraphDecoder._make_syndrome_graph", RF + ":GraphDecoder.make_error_graph", RF + ":GraphDecoder.matching", RF + ":GraphDecoder.get_logical_prob"])
p("Weights of the syndrome graph",
  "weight_syndrome_graph gives every edge a non-negative distance that does not depend on the edge's direction; if single lit ends are balanced and the edge's error is less likely than not, it is -log(p/(1-p)) with p the share of outcomes with both ends lit. (The smallest of four ratios is used, so one outcome that lights a single end, without its mirror image, makes the distance infinite.) It raises exactly when the results hold no shots.",
  "all counts, edges",
  "All counts.",
  [RF + ":GraphDecoder.weight_syndrome_graph"])
p("Decay curves of the coherence experiments",
  "On a device whose qubits relax with times T1, dephase with times T2 and are detuned, the probabilities of the circuits of t1_circuits, t2star_circuits and t2_circuits lie exactly on the curves that T1Fitter, T2StarFitter and T2Fitter fit, at the delays returned with the circuits: the decay constants are the qubit's own T1 and T2, the T2* frequency is the returned one plus the detuning, and the T2 decay does not depend on the detuning. (The T2 curve falls for an odd number of Y echoes and rises for an even number.)",
  "all T1, T2, detunings, gate times, lengths, qubit lists, numbers of echoes and oscillations",
  "Continuous parameters, all lists.",
  [CH + "coherence/circuits.py:t1_circuits", CH + "coherence/circuits.py:t2star_circuits", CH + "coherence/circuits.py:t2_circuits", CH + "fitters.py:BaseFitter._exp_fit_fun", CH + "fitters.py:BaseFitter._osc_fit_fun"])

p("Tables of CNOT-dihedral elements by CNOT count",
  "With dicts = [make_dict_0(n)] followed by m times dicts.append(make_dict_next(n, dicts)), table k holds every CNOT-dihedral element whose cheapest circuit has exactly k CNOT gates, once, under its own key, with a circuit that makes it and has k CNOT gates; no circuit of CNOT-dihedral gates with the same operator up to a global phase has fewer (a CZ gate counting as two). Every element of the group turns up after enough steps. The first table has 16^n elements, each next at most 4(n^2-n) times as many as the one before.",
  "all n, m, elements, circuits",
  "All circuits of any length are competitors of the stored ones.",
  [DI + ":make_dict_0", DI + ":make_dict_next"])

p("Benchmarking decays under depolarising noise",
  "On a device that applies depolarising noise of strength 1-p to a subset of rb_pattern after each random group element on it, the success probability of the circuits of randomized_benchmarking_seq lies exactly on the curve A alpha^x + B that RBFitter fits, x being the returned length of the subset: alpha = p and B = 2^-n, A the same for all seeds and lengths. Interleaved circuits decay with alpha = p r, where 1-r is the strength after the interleaved element, and the interleaved estimate is the error of that element; the X basis circuits of the CNOT-dihedral group have the same alpha; the purities of purity circuits decay with p^2 and the purity estimate is the error per element. What happens on the other subsets, noise included, has no influence. epc is the loss of fidelity of one noisy element, for every element and input state.",
  "all arguments, seeds, subsets, lengths, noise strengths, interleavings of the events on different subsets",
  "Continuous noise parameters, all random draws.",
  [RB + "circuits.py:randomized_benchmarking_seq", RB + "fitters.py:RBFitter.fit_data", RB + "fitters.py:InterleavedRBFitter.fit_data", RB + "fitters.py:PurityRBFitter.fit_data", RB + "fitters.py:CNOTDihedralRBFitter.fit_data"])

p("Accreditation bounds the distance of accepted outputs from the ideal ones",
  "Let the circuits of generate_circuits, with a uniformly random target position and random bits, run on a device whose noise after preparation, after each two-qubit gate and before measurement is arbitrary and may remember everything that happened before, but flips no qubit at preparation or none at measurement. Then, for every target and number v of traps, the distribution of the target strings recorded in accepted runs is within 1.6875/(v+1)/P(accept) in variation distance of the noiseless one; so bound_variation_distance(theta) reports a valid bound whenever the share of accepted runs exceeds the acceptance probability by at most theta. Without noise every run is accepted and the recorded strings have the target's probabilities. (If qubits are flipped at preparation and at measurement the bound fails: fixed Pauli errors can pass every trap and make the distance 1. The reported confidence uses exp(-2 theta N^2) and can exceed the actual probability.)",
  "all targets of one-qubit gates, CX and barriers with straight measurements; all noise operations, environments, numbers of traps, both gate sets",
  "All noise processes with memory; probabilities over all random choices.",
  [AC + "circuits.py:AccreditationCircuits.generate_circuits", AC + "fitters.py:AccreditationFitter.single_protocol_run", AC + "fitters.py:AccreditationFitter.bound_variation_distance", AC + "qotp.py:QOTP_fromlayers"])

p("Error bars of the RB fitters",
  "The error bars of InterleavedRBFitter are the first-order propagation of the errors of the two decays through the formula of the estimate. The bars of RBFitter, CNOTDihedralRBFitter and PurityRBFitter are never below the propagated ones and equal them at decay 1. (They are relative errors scaled by the wrong quantity: at decay 1/2 the bar of epc is twice, and the bars of the CNOT-dihedral estimate are twice, the propagated one. The error reported for the decay itself by PurityRBFitter is too small.)",
  "all decays, errors, numbers of qubits",
  "Continuous parameters.",
  [RB + "fitters.py:RBFitter.fit_data_pattern", RB + "fitters.py:InterleavedRBFitter.fit_data", RB + "fitters.py:PurityRBFitter.fit_data", RB + "fitters.py:CNOTDihedralRBFitter.fit_data"])
p("Data and fits of the interleaved and CNOT-dihedral fitters after any history",
  "After any sequence of add_data calls with re-running of the fit at the end, both sub-experiments of InterleavedRBFitter and CNOTDihedralRBFitter hold, for every pattern, seed and length, the share of shots with the correct outcome among all shots recorded for that circuit, and every fit entry is made from the curve fits of the means of these values for the same pattern. The rates are those of the batches however they were split. (The results given to the constructor are added twice, so after a later batch they count with double weight. Without rb_pattern the constructor raises.)",
  "all histories of add_data, results, patterns, seeds, lengths, fit routines",
  "All histories.",
  [RB + "fitters.py:InterleavedRBFitter.add_data", RB + "fitters.py:InterleavedRBFitter.fit_data", RB + "fitters.py:CNOTDihedralRBFitter.add_data", RB + "fitters.py:CNOTDihedralRBFitter.fit_data"])
p("Purity data and fits of PurityRBFitter",
  "If the results come in the order seed, purity circuit, then for every pattern, seed and length the purity of PurityRBFitter is 2^-n times the sum over all Pauli operators of the square of its expectation value, estimated as the mean, over the purity circuits that measure it, of its correlator among all recorded shots. Every pattern gets the curve fit of the means of these values; the reported decay is the square root of the fitted one and pepc the error per Clifford of the reported decay. (Circuits are told apart by the position of their result: with two results exchanged the purity of the same data differs, and with all circuits in one result the constructor raises. The entry epc belongs to the squared decay and is larger than pepc.)",
  "all results, numbers of qubits, patterns, seeds, lengths, fit routines",
  "All data.",
  [RB + "fitters.py:PurityRBFitter.add_data", RB + "fitters.py:PurityRBFitter.calc_data", RB + "fitters.py:PurityRBFitter.fit_data"])

p("Benchmarking decays under arbitrary gate-independent noise",
  "On a device that applies any fixed quantum channel to a subset of rb_pattern after each random group element on it, the success probability of a circuit of randomized_benchmarking_seq depends on the random elements of that subset only, whatever happens on the other subsets, noise included. If the elements are independent and uniform on the Clifford group, its expected value is exactly A alpha^x + B at every length, A and B the same for all lengths, whatever the errors of preparation, inverse and measurement; epc computed from alpha is the average infidelity of the channel, that is one minus its fidelity averaged over the Clifford images of any pure state. For the CNOT-dihedral group the Z-basis curve has the decay of the populations and the X-basis curve the decay of the coherences, and CNOTDihedralRBFitter's combination of the two is the alpha and the error of the same channel. Interleaved sequences decay with the alpha of the composite channel, and the interleaved estimate is the infidelity of the interleaved gate if the noise of the random elements is depolarising. (For coherent errors it need not be, and the systematic error interval need not contain it: the estimate can be 0, the interval within 2/15, for a gate with infidelity 6/25.)",
  "all channels given by Kraus operators, arguments, seeds, subsets, lengths, initial mixed states, interleavings of events on different subsets",
  "Continuous families of noise, expectation over all random draws, every length.",
  [RB + "circuits.py:randomized_benchmarking_seq", RB + "fitters.py:RBFitter.fit_data", RB + "fitters.py:InterleavedRBFitter.fit_data", RB + "fitters.py:CNOTDihedralRBFitter.fit_data"])
p("Purity benchmarking measures the unitarity of arbitrary gate-independent noise",
  "On a device that applies any fixed quantum channel to a subset after each random Clifford on it, the purity that PurityRBFitter computes from exact correlators of the purity circuits of one sequence is the purity tr(rho^2) of the subset after that sequence, for all channels (also after the inverse) and whatever happens on the other subsets. If the elements are independent and uniform on the Clifford group and the inverse is perfect, unitarily wrong or depolarised, the expected purity is exactly A u^x + B at every length, u being the unitarity of the channel, that is the mean purity of the images of pure states with the identity part removed. u lies between alpha^2 and 1, alpha being the decay parameter of ordinary benchmarking, so pepc computed from u is between 0 and the error per Clifford; it equals the error per Clifford for depolarising noise and is 0 for any unitary error.",
  "all channels given by Kraus operators, arguments, seeds, subsets, lengths, initial mixed states, interleavings of events on different subsets",
  "Continuous families of noise, expectation over all random draws, every length.",
  [RB + "circuits.py:randomized_benchmarking_seq", RB + "fitters.py:PurityRBFitter.calc_data", RB + "fitters.py:PurityRBFitter.fit_data"])

p("The default measurement filter returns the best physical counts",
  "MeasurementFilter.apply and TensoredFilter.apply with method='least_squares' (the default), on a counts dictionary, a Result or (MeasurementFilter only) a list of one or more count vectors, return counts that are non-negative, have the same total as the data and, among all such counts, fit the data best: what the calibrated noise (for the tensored filter the Kronecker product of the group matrices) makes of them is as close to the data in squared distance as for any other such counts, up to the tolerance of the optimiser. Zero values are left out of dictionaries. With an exact optimiser and an invertible calibration the result is therefore unique (it does not depend on the random starting point), it gives back the true counts from exact noisy data, it is after the noise never farther from any physical truth than the data are, and it equals the pseudo-inverse result whenever the latter has no negative value. A state that was not calibrated and an unknown method raise. (Two findings: method=None raises although it is documented to mean least_squares, and the method is biased: two data sets whose average is exactly the noisy truth give corrected counts whose average is not the truth, while the pseudo-inverse gives the truth on average.)",
  "all calibration matrices, counts, label lists, qubit groups, random starts, optimisers that meet the stated tolerance",
  "Continuous families of matrices and counts; a minimum over a continuum of candidates.",
  [ML + ":MeasurementFilter.apply", ML + ":TensoredFilter.apply"])

p("Logical error rate of the repetition code decoder and what get_logical_prob estimates",
  "For every repetition code circuit and every list of noisy shots (Pauli errors before any instructions, wrongly read bits), the counts pass through process_results and the matching decoder without raising, every decoded string is a repeated logical bit, and get_logical_prob reports exactly the share of the shots whose decoded bit is not the encoded one. For independent shots its expected value is the probability that the decoder fails on one shot, for every number of shots. If faults at any k given places coincide with probability at most p^k (correlations allowed; independent faults are a special case), that probability is at most C(N, m) p^m with m = (d+1)/2 rounded down and N the number of places; the circuit has at most 10 d T places, so the probability is at most (20 e T p)^m and below p = 1/(20 e T) it decreases exponentially with the distance d.",
  "all distances, numbers of rounds, logical values, locally stochastic noise, numbers of shots, minimum weight matching routines",
  "Distributions over all fault patterns and all distances.",
  [RF + ":GraphDecoder.matching", RF + ":GraphDecoder.get_logical_prob", RC + ":RepetitionCode"])

p("Postselection detects faults up to the distance; lookup tables are optimal on their data",
  "A run of a repetition code circuit with fewer than d faults (Pauli errors before instructions, wrongly read bits) whose syndrome is trivial gives exactly the string of a run without faults, so postselection_decoding reports 0 for such data; with d faults a wrong value can pass. Under noise in which faults at k given places coincide with probability at most p^k, a wrong value passes with probability at most C(N, d) p^d and a run is kept with probability at least 1 - N p, N being the number of places. On its own training data, with equal numbers of shots for both logical values, lookuptable_decoding reports no more errors in total than any decoder makes, in particular no more than get_logical_prob; if no string was seen equally often for both values, what it reports is what the decoder makes that picks the value seen more often. (Two findings: a string seen equally often for both values, and one never seen in training, count as right for both values, so identical data for both values are reported with error probabilities 0 and 0 although every decoder is wrong half of the time.)",
  "all distances, numbers of rounds, logical values, faults, locally stochastic noise, counts dictionaries, decoders",
  "All fault patterns of all distances; comparison with all decoders.",
  [RF + ":postselection_decoding", RF + ":lookuptable_decoding", RC + ":RepetitionCode"])

p("State tomography from finitely many shots: accuracy of the least-squares fit",
  "For any counts of the 3^n Pauli measurement circuits, the least-squares problem that StateTomographyFitter.fit(method='lstsq', standard_weights=False) sets up has exactly one solution; it is Hermitian with trace 1 and has a closed form. fit returns the density matrix that is closest to it in the Frobenius norm, and this is at least as close to every density matrix (in particular the true state) as the unconstrained solution. If each circuit is run N times on copies of a state rho, the unconstrained solution is rho on average, the expected squared Frobenius distance from the returned state to rho is at most (5/3)^n / N, and a distance of eps or more has probability at most (5/3)^n / (N eps^2), for every state. With the default weights the solution is still unique and Hermitian, and for one qubit the same. For one qubit and no weights the returned state fits the data best among all density matrices. (One finding: for two qubits it need not, another density matrix can fit the same data strictly better, although the documentation of fit describes the constrained minimisation.)",
  "all numbers of qubits, states, numbers of shots, outcomes, counts dictionaries",
  "Expectation over all outcomes of all experiments, continuous families of states, every number of qubits.",
  [TO + "fitters/base_fitter.py:TomographyFitter.fit", TO + "fitters/lstsq_fit.py:lstsq_fit", TO + "fitters/lstsq_fit.py:make_positive_semidefinite", TO + "fitters/state_fitter.py:StateTomographyFitter.fit"])

p("Process tomography from finitely many shots: accuracy of the least-squares fit",
  "For any counts of the 12^n circuits of process tomography (Pauli measurements; Pauli or SIC preparations), the least-squares problem that ProcessTomographyFitter.fit(method='lstsq', standard_weights=False) sets up has exactly one solution; it is Hermitian and its partial trace over the output is the identity, whatever the counts. fit returns the positive semidefinite matrix of trace 2^n that is closest to it in the Frobenius norm, and this is at least as close to the Choi matrix of every channel (in particular the true one) as the unconstrained solution. If each circuit is run N times on uses of a channel, the unconstrained solution is the Choi matrix of the channel on average, the expected squared Frobenius distance from the returned matrix to it is at most (40/3)^n / N with Pauli and (25/3)^n / N with SIC preparations, and a distance of eps or more has probability at most that bound divided by eps^2, for every channel. For one qubit the default weights change nothing, so all of this holds for the default call. (One finding: the returned matrix need not be trace preserving, although the unconstrained solution is and the documentation of fit lists this constraint.)",
  "all numbers of qubits, channels, preparation bases, numbers of shots, outcomes, counts dictionaries",
  "Expectation over all outcomes of all experiments, continuous families of channels, every number of qubits.",
  [TO + "fitters/process_fitter.py:ProcessTomographyFitter.fit", TO + "fitters/base_fitter.py:TomographyFitter", TO + "fitters/lstsq_fit.py:lstsq_fit", TO + "fitters/lstsq_fit.py:make_positive_semidefinite", TO + "basis/sicbasis.py", TO + "basis/paulibasis.py"])

p("What the quantum volume mean, error bar and verdict say about the device",
  "For n trials of N shots each, the reported mean is the share of shots with a heavy output and the error bar is the binomial one for n trials, so success is reported exactly if that share is above 2/3 + 4 / (3 (1 + sqrt(2n + 9))). If the circuits are drawn at random and the shots are independent, the mean is on average the heavy output probability h of the device, its variance is at most h (1 - h) / n however the circuits differ and however many shots are taken, and the squared error bar is on average at least (1 - 1/n) times the variance. If h is at most 2/3, success is reported with probability at most exp(-4n / (1 + sqrt(2n + 9))^2) for every device and family of circuits; if h is above the threshold, success is missed with probability at most h (1 - h) / (n (h - threshold)^2). (One finding: the documented confidence level of 0.977 is not guaranteed, a device with h exactly 2/3 passes 100 trials with probability above 0.028.)",
  "all depths, numbers of trials and shots, families of circuits, devices, histories of fitter calls",
  "Probability over all outcomes of all experiments, continuous families of devices.",
  [QV + "fitters.py:QVFitter.calc_statistics", QV + "fitters.py:QVFitter.qv_success", QV + "fitters.py:QVFitter.calc_z_value", QV + "fitters.py:QVFitter.calc_confidence_level"])

p("Mitigated expectation values from finitely many shots: bias, error bar, failure probability",
  "Let a device be run N times independently and let |diagonal| be at most 1. Without mitigation expectation_value estimates the expectation of the observable without bias; the square of the standard deviation it reports is on average (1 - 1/N) times the actual variance. With a complete or tensored mitigator whose calibrated noise differs from the true readout noise by at most eta in every column (sum of absolute differences), the bias is at most gamma*eta, the variance is at most gamma^2/N, the reported variance is again on average (1 - 1/N) times the actual one, and an error of gamma*eta + eps or more has probability at most gamma^2/(N eps^2) and at most 2 exp(-N eps^2/(2 gamma^2)), where gamma is the value of mitigator.gamma(). With at least required_shots(delta) shots an error of gamma*eta + delta or more has probability at most 1/4. End to end for the complete method on n qubits: if every calibration circuit is run K times, ExpvalMeasMitigatorFitter.fit returns a matrix whose columns are all within eta of the true noise, except with probability 4^n/(K eta^2); and if the true noise has an inverse of one-norm at most g with g*eta < 1, the mitigated value is within g (eta + eps)/(1 - g eta) of the true value, except with probability 4^n/(K eta^2) + 2 exp(-N eps^2/2). End to end for the tensored method on n qubits that are misread independently: if each of the two default calibration circuits is run K times and a calibration shot has no error outside a given qubit with probability at least c0 (the fit drops the other shots), all fitted error matrices are within eta of the true ones entry by entry, except with probability 2n (4(1-c0) + 1/eta^2)/(K c0); and if e0 + e1 + 2 eta < 1 on every qubit, the mitigated value is within G (2n eta + eps) of the true value, except with that probability plus 2 exp(-N eps^2/2), where G is the product of (1 + |e0-e1| + 2 eta)/(1 - e0 - e1 - 2 eta) over the qubits.",
  "all numbers of qubits and shots, readout noises, states, diagonals, subsets of qubits and classical bits, outcomes",
  "Probability over all outcomes of the calibration and of the experiment, continuous families of devices, every number of qubits.",
  [EV + "utils.py:expectation_value", EV + "utils.py:calibration_data", EV + "utils.py:assignment_matrix", EV + "fitter.py:ExpvalMeasMitigatorFitter.fit", EV + "complete_mitigator.py:CompleteExpvalMeasMitigator", EV + "tensored_mitigator.py:TensoredExpvalMeasMitigator", EV + "base_meas_mitigator.py:BaseExpvalMeasMitigator.required_shots"])

p("Fitting an expectation value mitigator is exact, and the fitter has no memory",
  "If the calibration results have exactly the frequencies of the readout noise of the device (any number of shots per circuit, repeated labels, other circuits among them), fit('complete') on data with all labels returns that noise matrix, and fit('tensored') returns the error matrix of each qubit if the errors of the qubits are independent, for any set of labels in which each qubit is prepared in both states (so also after the circuits of another method). For any history of fit calls: what a call returns or whether it raises depends on the calibration data and its own arguments only; without a method argument it uses the method of the first calibration circuit; an unknown method raises; mitigator is what the last successful call returned and raises before it. (Finding: since shots with an error on another qubit are dropped, the tensored fit reports no error at all for two qubits that always flip together with probability 1/2.)",
  "all numbers of qubits, error rates, calibration sets, numbers of shots, histories of fit calls",
  "All label sets and noises; all histories.",
  [EV + "fitter.py:ExpvalMeasMitigatorFitter", EV + "utils.py:calibration_data", EV + "utils.py:assignment_matrix"])

p("Gate set tomography as a whole returns channels that fit the data",
  "If GatesetTomographyFitter.fit returns, its dictionary has an effect, a state and one transfer matrix for each gate and nothing else; every gate is completely positive, and with an optimiser that respects the constraints every gate is a quantum channel and the state has trace one. If the optimiser finds the best admissible point, no representable gate set of channels is closer (sum of squares over all circuits F_j, G, F_i) to the measured probabilities than the one returned. On exact data of any one-qubit device with four informationally complete SPAM circuits, if the gate set after gauge optimisation is representable and the optimiser never ends worse than it starts, the returned gate set gives every circuit F_j, G, F_i exactly its true probability. On exact data of an ideal device, with optimisers that find and keep an optimum, fit succeeds and returns exactly the device. (The restriction to representable gate sets is the finding of C89. No gate may be called 'E' or 'rho'.)",
  "all data, gate sets, SPAM circuits, devices, optimisers",
  "All data and all behaviours of the optimisers allowed by their specification.",
  [TO + "fitters/gateset_fitter.py:GatesetTomographyFitter.fit", TO + "fitters/gateset_fitter.py:GaugeOptimize.optimize", TO + "fitters/gateset_fitter.py:GST_Optimize"])

p("Which fit state and process tomography run, whatever was fitted before",
  "The search for a convex solver is remembered on the classes, but with the installation unchanged every fit of a state, process or base fitter makes, after any history of fits of any of them, the call it would make as the first one. 'auto' does exactly what 'cvx' does if a solver is there (for processes CVXOPT, MOSEK or a working SCS, otherwise CVXOPT or MOSEK) and what 'lstsq' does otherwise; any other method name raises and runs nothing. Every state fit that runs asks for a positive semidefinite matrix of trace one; every process fit that runs is for a matrix with d^4 columns and asks for trace d, with the convex program also for a trace preserving map, positive semidefinite unless the caller says psd=False. (Findings: psd and trace, documented for the state fit, always raise a TypeError there, as do trace and trace_preserving for processes; with SCS alone the same default runs the least squares fit for states and the convex program for processes.)",
  "all installations, histories of fits, arguments",
  "All histories of calls sharing class attributes.",
  [TO + "fitters/base_fitter.py:TomographyFitter.fit", TO + "fitters/base_fitter.py:TomographyFitter._check_for_sdp_solver", TO + "fitters/state_fitter.py:StateTomographyFitter.fit", TO + "fitters/process_fitter.py:ProcessTomographyFitter.fit"])


p("CTMP mitigated expectation values from finitely many shots and random numbers are accurate",
  "Let the device read outcomes through a noise matrix that differs by at most eta per column (sum of absolute differences) from exp(G), G the sum of the calibrated CTMP generators on the measured qubits, and let gamma be the largest rate of leaving a state. For N > 0 independent shots, every observable with values in [-1, 1], every choice of qubits and classical bits, and every possible answer of the random number generator, CTMPExpvalMeasMitigator.expectation_value returns a value and the error bar e^{2 gamma}/sqrt(N). Over shots, Poisson numbers, starting points and uniform numbers together, the mean of the value differs from the noiseless expectation by at most e^{2 gamma} eta (it is exact for an exact calibration), its variance is at most (e^{4 gamma} + e^{2 gamma})/N, hence its standard deviation at most sqrt(2) times the error bar, and a deviation of e^{2 gamma} eta + eps or more has probability at most (e^{4 gamma} + e^{2 gamma})/(N eps^2) and at most 4 exp(-N eps^2/(8 e^{4 gamma})). Finding: the comment in the code calls the error bar an upper bound of the standard deviation; it is not: without noise, for every N >= 1600, the variance of a fair coin's value is (2 - 1/N)/N, while the square of the error bar is 1/N.",
  "all sets of generators with non-negative rates, all numbers of shots, all distributions of the outcomes, all observables, qubits and classical bits, all sequences of random numbers",
  "the statement is about the joint distribution of the shots, unboundedly many Poisson steps and uniform numbers; a test sees a few seeds",
  [EV+"ctmp_mitigator.py:CTMPExpvalMeasMitigator.expectation_value", EV+"ctmp_mitigator.py:CTMPExpvalMeasMitigator._ctmp_inverse", EV+"ctmp_mitigator.py:CTMPExpvalMeasMitigator.noise_strength"])

p("Counts corrected by the measurement filters from finitely many shots are accurate",
  "Let the readout noise of the device differ by at most eta per column (sum of absolute differences) from the invertible calibration matrix, and let g bound the absolute column sums of its inverse (for the tensored filter: the product of such bounds of the groups, and the noise may act on all groups together). For N > 0 independent shots, MeasurementFilter.apply and TensoredFilter.apply with method='pseudo_inverse' return counts with total N whose mean frequencies differ from the noiseless probabilities by at most g eta in total (not at all for an exact calibration); the frequencies are g(eta + eps) or more off in total with probability at most d/(N eps^2), d the number of states, and the average of any observable with values in [-1, 1] is g eta + eps or more off with probability at most 2 exp(-N eps^2/(2 g^2)). With the default least squares method (exact solver) the corrected counts are non-negative with total N and their frequencies are g sqrt(d) (eta + eps) or more off with probability at most 1/(N eps^2). The matrix of a group fitted from K shots per label differs from the noise by eta or more in some column with probability at most d^2/(K eta^2), and the errors of the groups add up if the noise acts on every group by itself.",
  "all label sets and groups, noises, distributions of the outcomes, numbers of shots, observables, random starting points of the solver",
  "the statement is about the distribution of the results over all sequences of shots",
  [ML + ":MeasurementFilter.apply", ML + ":TensoredFilter.apply", MF + ":TensoredMeasFitter._build_calibration_matrices"])

p("Purities computed from finitely many shots are slightly too large on average and rarely far off",
  "Let the 3^m purity circuits of a pattern of m qubits, for one seed and length, each be run with N > 0 independent shots on a device in which every correlator is the expectation value x_c of its Pauli string c. The purity that PurityRBFitter reports has the mean sum_c x_c^2 / 2^m + sum_c (1 - x_c^2)/(N 3^{i(c)}) / 2^m, i(c) the number of qubits on which c is the identity (c is measured by 3^{i(c)} circuits); the second term is between 0 and (5/3)^m/N, and the reported value differs from the purity by eps or more with probability at most 4 (10/3)^m/(N eps^2). Finding: for every state with a Pauli string whose outcome is not certain the mean is strictly larger than the purity (1/2 + 3/(2N) for a maximally mixed qubit); the code does not correct for it. For one qubit the mean is (1 - 1/N) times the purity plus 2/N, so purities that decay as A u^l + B still decay with the same u on average.",
  "all numbers of qubits and shots, all states and distributions of the outcomes, all sequences of shots, patterns, seeds and lengths",
  "the statement is about the distribution of the result over all sequences of shots; a test with one simulated run cannot see a bias of order 1/N",
  [RB + "fitters.py:PurityRBFitter.calc_data", RB + "fitters.py:PurityRBFitter.F234", RB + "fitters.py:PurityRBFitter.add_data"])

p("Benchmarking data from finitely many sequences and shots scatter around the decay curve",
  "Let K >= 1 seeds be drawn independently, the sequence of each length consisting of uniformly drawn group elements (sequences of different lengths of one seed may share elements, as in randomized_benchmarking_seq), and let every circuit be run with N > 0 independent shots. The means over the seeds that RBFitter reports for a pattern are on average the success probabilities averaged over all sequences of that length; their variance is at most 1/(4K), whatever N; all of them are within eps except with probability at most 2 n exp(-2 K eps^2), n the number of lengths; and the reported variances over the seeds are on average K - 1 times the variances of the means (with one seed none is reported). With gate-independent noise, in Clifford and interleaved benchmarking, the averages are A alpha^m + B with alpha the decay of the noise (of the composite noise), so the reported points scatter around the curve that is fitted.",
  "all groups, noises, numbers of seeds, lengths and shots, patterns, sequences and outcomes",
  "the statement is about the joint distribution of random sequences and shots; a test sees one seeded run",
  [RB + "fitters.py:RBFitter.calc_data", RB + "fitters.py:RBFitter.calc_statistics", RB + "fitters.py:RBFitterBase.add_data", RB + "circuits.py:randomized_benchmarking_seq"])

p("Standardising a discriminator makes no difference to linear and quadratic discriminant analysis",
  "For every history of a constructor and add_data calls, a discriminator with standardize=True holds the training data of the same discriminator without it, mapped feature by feature by one affine map: the one that gives the data passed to the constructor mean zero and variance one (features that are the same in all shots become zero). The same map is applied to everything that is discriminated later, by discriminate(get_xdata(...)) or a DiscriminationFilter, and applying a filter changes nothing. Hence LinearIQDiscriminator and QuadraticIQDiscriminator (with scikit-learn's classifiers by their specification, covariances not singular, last call refitted) give the same labels, counts and memories with and without standardisation. Findings: after add_data the training data of a standardising discriminator no longer have mean zero or variance one, as the scaler is fitted once; add_data with the list of schedules that was passed to the constructor uses every new shot twice, because it extends that list before reading it.",
  "all histories of calls, results, masks, schedules and labels, all measured data",
  "All histories and all data; the two findings need a second call.",
  [DS + "discriminators.py:BaseDiscriminationFitter._scale_data", DS + "discriminators.py:BaseDiscriminationFitter.add_data", DS + "iq_discriminators.py:LinearIQDiscriminator", DS + "iq_discriminators.py:QuadraticIQDiscriminator", DS + "filters.py:DiscriminationFilter.apply"])

p("The GHZ fidelities are right for imperfect states, but the coherence bounds only under symmetric noise",
  "Let the circuits be run at N > 2n equally spaced phases on n qubits and let the populations of 0...0 and 1...1 be exact. (a) Parity oscillations: whatever state the imperfect preparation leaves, the fidelity that get_fourier_info reports is the largest fidelity of that state with (|0...0> + e^{i phi} |1...1>)/sqrt(2), for get_ghz_po as for BConfig.get_ghz_po. (b) Multiple quantum coherences, get_ghz_mqc and BConfig.get_ghz_mqc: when the inverse of the preparation is as imperfect as the preparation (as for any mixture of Pauli errors that strikes after the preparation and before the inverse), the fidelity reported is that same largest fidelity, and it lies between the reported lower and upper bounds. Finding: when only the preparation is imperfect the bounds are not bounds: for the GHZ state with probability p and another basis state otherwise the fidelity is p, but the reported lower bound is sqrt(p) and the reported fidelity (p + sqrt(p))/2.",
  "all numbers of qubits and phases, all mixed states, all Kraus operators before the inverse, all coupling maps",
  "ranges over all mixed states and noises; the tests only use the ideal signal",
  [EN + "analysis.py:get_fourier_info", EN + "linear.py:get_ghz_mqc", EN + "linear.py:get_ghz_po", EN + "parallelize.py:BConfig.get_ghz_mqc", EN + "parallelize.py:BConfig.get_ghz_po"])

p("GHZ fidelities from finitely many shots: rarely far from the truth, but too large on average",
  "Let S shots be taken of each of the circuits at N > 2n equally spaced phases, and S0 shots of the preparation circuit, which leaves any mixed state; let F be the largest fidelity of that state with (|0...0> + e^{i phi} |1...1>)/sqrt(2). (a) Parity oscillations: the raw fidelity that get_fourier_info reports from composite_pauli_z_expvalue of the counts divided by S, and from the shares of 0...0 and 1...1, lies on average between F and F + 1/sqrt(N S), and differs from F by eps or more with probability at most 4/(N S eps^2) + 1/(4 S0 eps^2). It is not unbiased: for the state without coherence (F = 1/2) its average is at least 1/2 + 1/(N S). (b) Multiple quantum coherences, when the inverse is as imperfect as the preparation: the raw fidelity reported from the shares of 0...0 differs from F by eps or more with probability at most 4/(N S eps^4) + 1/(4 S0 eps^2).",
  "all numbers of qubits, phases and shots, all mixed states, all symmetric noises, all coupling maps, all outcomes of the shots",
  "a statement on the distribution of the reported number over all outcomes of the shots; a test sees one draw",
  [EN + "analysis.py:get_fourier_info", EN + "analysis.py:composite_pauli_z_expvalue", EN + "linear.py:get_ghz_mqc", EN + "linear.py:get_ghz_po", EN + "parallelize.py:BConfig.get_ghz_mqc", EN + "parallelize.py:BConfig.get_ghz_po"])

p("A gate set basis stays coherent whatever is added to it, unless it shares its dictionary",
  "Whatever dictionaries of gates a program makes, whatever GateSetBasis objects it builds from them and whatever add_gate calls it makes, in any order and with failing calls in between: if no two gate sets are built from one dictionary and every gate has a transfer matrix, then in every gate set gate_labels lists exactly the gates add_gate_to_circuit accepts, and gate_matrices holds for each the transfer matrix of what it adds to a circuit. One add_gate changes exactly its own name in its own gate set; it raises exactly for a function without a name (nothing changed) or a gate without a transfer matrix. A new name without quotes keeps a gate set fit for tomography: gateset_tomography_circuits again gives one circuit of distinct name per SPAM circuit, per pair, and per gate between a pair. spam_matrix is the transfer matrix of the circuit with the gates of the SPAM specification in reverse order. Findings: a name already in use is listed twice, so circuits get equal names; two gate sets built from one dictionary share it, and adding to one makes the circuits and the matrices of the other disagree; a gate without transfer matrix is listed and recorded although add_gate raised; the matrices of get_tomography_basis cannot be used: measurement_matrix always raises, preparation_matrix raises for every SPAM label that is not a gate name.",
  "all histories of dictionary creations, constructions and add_gate calls, all gates (objects or functions), all names and SPAM specifications",
  "The aliasing and the half-done calls appear only in histories of several calls; every history must keep labels, circuits and matrices together.",
  [TO + "basis/gatesetbasis.py:GateSetBasis.__init__", TO + "basis/gatesetbasis.py:GateSetBasis.add_gate", TO + "basis/gatesetbasis.py:GateSetBasis.spam_matrix", TO + "basis/gatesetbasis.py:GateSetBasis.get_tomography_basis", TO + "basis/tomographybasis.py:TomographyBasis.measurement_matrix", TO + "basis/tomographybasis.py:TomographyBasis.preparation_matrix", TO + "basis/circuits.py:gateset_tomography_circuits"])

p("The parallel GHZ schedule takes the CNOT errors of the backend into account",
  "For every coupling map without repeated pairs that contains qubit 0 and every list of gate properties in which all two-qubit gates have an error and every coupled pair is listed in at least one direction: get_tier_dict with sorting returns a valid parallel schedule (as in C63) in which every control makes its CNOTs in the order of the tabled errors of the reversed CNOTs. The tabled value of a pair, for errors as for lengths, is the last one listed for it or, if there is none, the first one listed for the reversed pair, and no other pair has a value. If the qubit with the most neighbours has a neighbour listed in neither direction, sorting raises. Without sorting the properties make no difference. Findings: the error of the wrong direction decides (a control can use its worst CNOT first); every two-qubit gate counts as a CNOT, so with a second kind of gate the two directions of one pair get the errors of different gates.",
  "all coupling maps, all lists of gate properties",
  "All graphs and error tables; the loops interact across rounds.",
  [EN + "parallelize.py:BConfig._get_cx_error", EN + "parallelize.py:BConfig._get_cx_length", EN + "parallelize.py:BConfig._child_sorter", EN + "parallelize.py:BConfig.get_tier_dict"])

p("A measurement calibration fitter after any history, and its filters as snapshots",
  "Whatever add_data calls, assignments to cal_matrix and state_labels, and filters a program makes on a new CompleteMeasFitter, in any order and with failing calls in between: the matrix is the one last assigned or, if the last such call was an add_data with rebuild, the one a new fitter with the original labels computes from all results ever passed at once; that call raises exactly if they cannot be used at once. A filter can be taken exactly if the fitter has a matrix; it holds the matrix and the labels of that moment and keeps them, whatever happens later to the fitter or to other filters, until its own setters are used. So, as long as the labels are not assigned, a filter taken after any number of add_data calls is the filter of a new fitter given all results at once. Findings: a result that cannot be used is recorded although the call raised, so every later rebuild raises too; assigning state_labels renames the rows and columns without moving them, and a rebuild keeps the original order, so the filter corrects with the wrong readout errors.",
  "all histories of calls on a fitter and its filters, all results, labels and matrices",
  "Depends on the whole history of calls, failing ones included; tests use one or two calls.",
  [MF + ":CompleteMeasFitter.add_data", MF + ":CompleteMeasFitter.filter", MF + ":CompleteMeasFitter.cal_matrix", MF + ":CompleteMeasFitter.state_labels", MF + ":TensoredMeasFitter.add_data", ML + ":MeasurementFilter"])

p("Calibrating and correcting counts from end to end: the probability of a wrong result",
  "Run the circuits of complete_meas_cal K times each on a device with any readout noise R on n qubits (d = 2^n states) whose inverse has absolute column sums of at most g; pass the results to a CompleteMeasFitter in any number of jobs and add_data calls; take its filter; and apply it to the counts of N shots of any circuit on the same device. Let eta > 0 with g eta < 1 and eps > 0, and G = g/(1 - g eta). With method='pseudo_inverse' the corrected counts have total N and their frequencies differ in total by less than G(eta + eps) from the noiseless probabilities, except with probability at most d^2/(K eta^2) + d/(N eps^2), the probability being over the calibration shots and the shots of the circuit; for the average of an observable with values in [-1, 1] the exception is at most d^2/(K eta^2) + 2 exp(-N eps^2/2). With the default method and an exact solver the corrected counts are non-negative with total N and differ by less than G sqrt(d) (eta + eps), except with probability at most d^2/(K eta^2) + 1/(N eps^2).",
  "all numbers of qubits and shots, all invertible readout noises, all distributions, all ways to split the jobs and calls, all observables, all outcomes of the shots",
  "A statement on the joint distribution of the calibration and the experiment; a test sees one draw, and the calibrated matrix need not even be invertible in all of them.",
  [B + "mitigation/measurement/circuits.py:complete_meas_cal", MF + ":CompleteMeasFitter.add_data", MF + ":CompleteMeasFitter.filter", ML + ":MeasurementFilter.apply"])

p("Programs with CNOT-dihedral elements: no element changes behind the program's back",
  "Whatever CNOTDihedral elements a program creates, multiplies, copies, inverts and changes in place, in any order and with failing calls in between: a call leaves every attribute of every element as it is, except of the one element it is meant to change in place, and a call that raises changes nothing (append_circuit excepted). If the elements are used properly (circuits of CNOT-dihedral gates on existing, distinct qubits; compose and dot on equal numbers of qubits, at most eight; tensor and expand not on products), every call returns, every element represents up to a global phase the operator the calls prescribe for it, two elements compare equal exactly if their operators agree up to a global phase, and is_cnotdihedral returns True on elements that are not products. Findings: is_cnotdihedral raises on every product; tensor and expand of a product and another element raise; tensor of two products raises or returns an element equal to none; CNOTDihedral(element) always raises; append_circuit that raises has applied the instructions before the bad one.",
  "all programs: all sequences of constructions, in-place gates, append_circuit, compose, dot, *, tensor, expand, copy, adjoint, conjugate and transpose",
  "Sharing of arrays and the storage of attributes depend on how an element came about; tests build elements in a few ways and compare single results.",
  [DI + ":CNOTDihedral", DI + ":CNOTDihedral.__mul__", DI + ":CNOTDihedral._tensor", DI + ":CNOTDihedral.is_cnotdihedral", DI + ":CNOTDihedral.__eq__", DI + ":append_circuit"])

p("Gate set tomography from finitely many shots: how accurate linear inversion is",
  "Run every circuit of gateset_tomography_circuits N times on any device (any state, measurement and matrices of the gates with probabilities as results of these circuits) whose n SPAM circuits are informationally complete; let g bound the absolute row sums of the inverse of its Gram matrix, eps >= 0 with g n eps < 1, and L = g eps (1 + n g)/(1 - g n eps). Except with probability at most 2 exp(-2 N eps^2) times the number of circuits: linear_inversion returns a gate set; in one and the same gauge its measurement is within eps of the device's, its state within L and the rows of each gate within n L; and for every sequence of m gates the gate set predicts the probability of outcome 0 within (1+eps) (n (g+L))^(m+1) - (n g)^(m+1). So with enough shots the predictions for all sequences of at most m gates are as accurate, and as certainly so, as one likes.",
  "all gate sets and devices, all numbers of shots, all outcomes of the shots, all sequences of gates",
  "A statement on the distribution of the data; a test sees one draw, and in some draws the measured Gram matrix is singular.",
  [TO + "basis/gatesetbasis.py:GateSetBasis", TO + "basis/circuits.py:gateset_tomography_circuits", TO + "fitters/gateset_fitter.py:GatesetTomographyFitter.linear_inversion"])

p("What can be read back from the log files after rotation, restarts and crashes",
  "Let processes log any lines through one logger, restart, and be killed at any step of any call, in particular in the middle of a rollover. If time passes from call to call and no file that looks like a log file existed before, then IgnisLogReader finds, for every order in which the directory lists its files, a suffix of the lines written, complete and in the order of writing, in at most log_file_rotations + 1 files; the line logged last is read last; with no size limit or no rotations nothing is ever lost, for any number of loggers. read_values returns the rows of exactly these entries, filtered as asked. A file with more than one line stays below log_file_size. If no process was killed, lines are lost only when all backups are in use and each is full, so with lines of at most m characters at least log_file_rotations * (log_file_size - m) bytes are kept. Findings: with rotation two loggers lose lines and mix up their order, since each has its own handler; files last changed at the same time are read in the order of the directory; files such as ignis.log_2020 are taken for backups; and a rollover interrupted by a crash leaves holes that cost lines later.",
  "all histories of calls, restarts and crash points, all settings, all orders of the directory",
  "Depends on where a process dies and on how many rollovers came before; the tests of the repository log a few lines and never kill a process.",
  [B + "logging/ignis_logging.py:IgnisLogging.get_file_handler", B + "logging/ignis_logging.py:IgnisLogReader.get_log_files", B + "logging/ignis_logging.py:IgnisLogger.log_to_file", B + "logging/ignis_logging.py:IgnisLogReader.read_values"])

p("Expectation value mitigators have no memory, and which arrays they share",
  "Take any program that makes arrays, makes complete, tensored and CTMP mitigators from them, and calls their methods (mitigation_matrix, assignment_matrix, expectation_value, gamma, generator_matrix, noise_strength) in any order, on any qubits, including calls that raise. If it never changes in place an array a mitigator uses, every call gives the answer that follows from what that mitigator was constructed from: the caches are invisible, the order of calls does not matter, equal calls give equal answers, and objects made from the same arrays do not interfere. No call changes an array that exists already. The arrays a mitigator uses are exactly those given to its constructor and those returned by mitigation_matrix of a complete mitigator, its assignment_matrix without qubits, both matrices of a tensored mitigator for one qubit, and generator_matrix; every other returned array is new and may be changed freely. Findings: changing one of the shared arrays in place changes later answers, and leaves objects whose assignment and mitigation matrices, or whose matrices and gamma factors, do not belong together.",
  "all programs: all sequences of constructions, calls and changes of arrays, all matrices, qubits, counts and generators",
  "Depends on the whole history of the program; the tests of the repository call each method on a new object.",
  [B + "mitigation/expval/complete_mitigator.py:CompleteExpvalMeasMitigator.mitigation_matrix", B + "mitigation/expval/complete_mitigator.py:CompleteExpvalMeasMitigator.assignment_matrix", B + "mitigation/expval/tensored_mitigator.py:TensoredExpvalMeasMitigator.mitigation_matrix", B + "mitigation/expval/ctmp_mitigator.py:CTMPExpvalMeasMitigator.generator_matrix", B + "mitigation/expval/ctmp_mitigator.py:CTMPExpvalMeasMitigator.noise_strength", B + "mitigation/expval/ctmp_mitigator.py:CTMPExpvalMeasMitigator._sampling_matrix"])

p("The printed form of a CNOT-dihedral element says exactly what the element is",
  "str() of a CNOT-dihedral element on one or more qubits, or of a phase polynomial, never raises. Read as ordinary arithmetic, the line of the phase polynomial has, for all bits x, the value of the polynomial modulo 8, and the components of the affine function have modulo 2 the bits of the basis state to which x is mapped. Two elements, products included, have the same text exactly if they have the same number of qubits and are equal; two valid elements of one size have the same text exactly if they stand for the same operator up to a global phase. The text of a polynomial alone does not say how many variables it has: this is a finding.",
  "all numbers of qubits, all polynomials and elements, all values of the variables",
  "A statement on all elements; the number of elements grows faster than exponentially with the number of qubits, and no test of the repository prints one.",
  [RB + "dihedral.py:SpecialPolynomial.__str__", RB + "dihedral.py:CNOTDihedral.__str__"])

p("Tensored calibration and correction of counts from end to end: the probability of a wrong result",
  "Divide n qubits into r groups of sizes k_1, ..., k_r. Run the circuits of tensored_meas_cal (which calibrate all groups at the same time) K times each on a device whose readout noise acts on each group separately, by any noise whose inverse has absolute column sums of at most g; make a TensoredMeasFitter from the results, in any number of jobs; and apply its filter to the counts of N shots of any circuit on the same device, entangled or not. Let eta > 0 with g eta < 1 and eps > 0, and G = (g/(1 - g eta))^r. With method='pseudo_inverse' the corrected counts have total N and their frequencies differ in total by less than G(r eta + eps) from the noiseless probabilities, except with probability at most (4^k_1 + ... + 4^k_r)/(K eta^2) + 2^n/(N eps^2); for the average of an observable with values in [-1, 1] the second term is 2 exp(-N eps^2/2). With the default method and an exact solver the corrected counts are non-negative with total N and differ by less than G sqrt(2^n) (r eta + eps), with second term 1/(N eps^2). The number of calibration shots needed does not depend on n but on the sizes and the number of the groups.",
  "all divisions into groups, all numbers of shots, all invertible noises of the groups, all distributions, all ways to split the jobs, all observables, all outcomes of the shots",
  "A statement on the joint distribution of the calibration and the experiment; the groups are calibrated by the same shots, smaller groups by several circuits at once; a test sees one draw.",
  [B + "mitigation/measurement/circuits.py:tensored_meas_cal", B + "mitigation/measurement/fitters.py:TensoredMeasFitter._build_calibration_matrices", B + "mitigation/measurement/fitters.py:TensoredMeasFitter.filter", B + "mitigation/measurement/filters.py:TensoredFilter.apply"])

p("Error graphs of the decoder",
  "make_error_graph returns exactly the graphs named in subgraphs (or one graph '0' if it is not given). The nodes of a graph are the lit syndrome elements and all logical elements of the types assigned to it, each once; every two different nodes are joined with minus their distance in the syndrome graph as weight, and there are no other edges. It raises exactly when a node's type has no entry in subgraphs or two nodes of a graph have no distance; for a repetition code this never happens, whatever is read out.",
  "all outcome strings, assignments of types to graphs, symmetric distance functions; all d >= 2, T >= 1 and readouts",
  "All strings, assignments and code sizes.",
  [RF + ":GraphDecoder.make_error_graph"])

if __name__ == "__main__":
    here = os.path.dirname(os.path.dirname(os.path.abspath(__file__)))
    with open(os.path.join(here, "properties.jsonl"), "w") as f:
        for x in P:
            f.write(json.dumps(x) + "\n")
    print(len(P))
