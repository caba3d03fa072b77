{"id": "C01", "title": "Integer <-> bitstring conversion is a bijection for either endianness", "statement": "For every n_qubits >= 1, every integer k with 0 <= k < 2**n_qubits and either endianness e, int_to_basis(k, n_qubits, e) is a string of exactly n_qubits bits and basis_to_int of it (same e) returns k; conversely for every non-empty bitstring s, int_to_basis(basis_to_int(s, e), len(s), e) returns s. A k that does not fit in n_qubits bits is rejected, never truncated.", "quantifier": "all register sizes, all integers, all bitstrings, both endianness conventions", "why_tests_cant": "The domain doubles with every qubit; a test samples a few widths, and off-by-one padding errors appear only at power-of-two boundaries.", "anchors": ["qadence/utils.py:basis_to_int", "qadence/utils.py:int_to_basis"]}
{"id": "C02", "title": "Default width of int_to_basis is the minimal one", "statement": "Calling int_to_basis(k) without n_qubits never fails the size check and returns the shortest bitstring representing k (one character for k = 0, otherwise the bit length of k), with no leading zero for k >= 1.", "quantifier": "all non-negative integers k (real-number logarithm)", "why_tests_cant": "The width is computed through a logarithm with an ad-hoc 0.6 offset; whether the offset is right at every power of two cannot be sampled.", "anchors": ["qadence/utils.py:int_to_basis"]}
{"id": "C03", "title": "nqubits_to_basis enumerates the computational basis", "statement": "For every n >= 1 nqubits_to_basis(n, endianness=e) returns exactly 2**n distinct strings, the k-th of which reads back as k under e, every n-bit string occurs in it, and the little-endian list is the big-endian list with every string reversed.", "quantifier": "all n, both endianness conventions, every index k", "why_tests_cant": "Exponential domain; completeness and absence of duplicates are universally quantified.", "anchors": ["qadence/utils.py:nqubits_to_basis"]}
{"id": "C04", "title": "Endianness inversion of wave functions is an involutive basis relabelling", "statement": "For a batch of wave functions on n qubits, invert_endianness moves the amplitude of basis state |b_0 ... b_{n-1}> to |b_{n-1} ... b_0>, applying it twice gives back the original tensor, and it preserves norms and inner products.", "quantifier": "all n, all amplitudes, all batch sizes", "why_tests_cant": "Needs every n and every amplitude vector; symmetric test states hide wrong permutations.", "anchors": ["qadence/transpile/invert.py:invert_endianness"]}
{"id": "C05", "title": "Endianness inversion of sample counters loses no shots", "statement": "For any counter of bitstrings, invert_endianness maps the count of s to the reversed string, keeps the total number of shots, and is an involution; samples_to_integers keeps the total number of shots and the count of every outcome for samples of a common length.", "quantifier": "all counters, all bitstring lengths", "why_tests_cant": "Key collisions that silently drop counts depend on combinations of keys that tests do not enumerate.", "anchors": ["qadence/transpile/invert.py:invert_endianness", "qadence/utils.py:samples_to_integers"]}
{"id": "C06", "title": "Counting samples is lossless", "statement": "Turning a list of sampled basis-state indices into a Counter of bitstrings gives every bitstring the number of times its index occurs, keys of width n, total equal to the number of samples, and contains only outcomes which were drawn, for either endianness.", "quantifier": "all sample sequences, all n, both endianness conventions", "why_tests_cant": "The histogram must be right for each multiset of samples.", "anchors": ["qadence/backends/utils.py:count_bitstrings"]}
{"id": "C07", "title": "Block arithmetic denotes operator arithmetic", "statement": "For blocks a, b and numbers c the expressions a*b, c*a, a*c, a/c, a+b, a-b, -a, +a, a**k, a@b (disjoint supports), in-place *=, +=, -=, @=, and sum([...]) evaluate to blocks whose operators are, respectively, the operator product with the right factor applied last, the scalar multiple, the sum, the difference, the k-fold product and the tensor product of the operands' operators.", "quantifier": "all blocks, all scalars (numeric or symbolic under any assignment), all powers, all register sizes", "why_tests_cant": "The overloaded operators special-case nested scaled, chained and added blocks; the special cases interact and only an induction over block expressions covers them.", "anchors": ["qadence/blocks/abstract.py:AbstractBlock.__mul__", "qadence/blocks/abstract.py:AbstractBlock.__sub__", "qadence/blocks/abstract.py:AbstractBlock.__isub__", "qadence/blocks/abstract.py:AbstractBlock.__pow__", "qadence/blocks/primitive.py:ScaleBlock"]}
{"id": "C08", "title": "block_to_tensor computes the operator of a block", "statement": "For every block whose gates are single-qubit gates, rotations, (multi-)controlled gates, swaps and scaled, chained, tensored or added combinations of them, on any register containing its support, block_to_tensor returns the matrix of the operator: entry (i, j) is the matrix element between the basis states whose big-endian bitstrings encode i and j; chains multiply with the last block leftmost.", "quantifier": "all blocks in the fragment, all register sizes, all parameter values, all basis states", "why_tests_cant": "Matrix construction pads identities and expands controls by arithmetic on supports; the number of placements is unbounded.", "anchors": ["qadence/blocks/block_to_tensor.py:_block_to_tensor_embedded", "qadence/blocks/block_to_tensor.py:_fill_identities", "qadence/blocks/block_to_tensor.py:_controlled_block_with_params", "qadence/blocks/block_to_tensor.py:_swap_block"]}
{"id": "C09", "title": "flatten preserves the operator and removes nesting", "statement": "flatten(block, types) returns a block denoting the same operator, in which no composite block of a listed type is directly nested in one of the same type, and flattening again with the same types changes nothing.", "quantifier": "all blocks, all subsets of {chain, kron, add}, all register sizes", "why_tests_cant": "Arbitrary nesting depth and arity.", "anchors": ["qadence/transpile/flatten.py:flatten", "qadence/transpile/flatten.py:_flat_blocks"]}
{"id": "C10", "title": "scale_primitive_blocks_only preserves the operator and pushes scales to leaves", "statement": "scale_primitive_blocks_only(block) denotes the same operator as block and the result contains no scale factor applied to a chain, kron, add or scaled block.", "quantifier": "all blocks, all scale expressions, all parameter assignments", "why_tests_cant": "Scale must hit exactly one factor of each product and every summand of each sum at arbitrary depth.", "anchors": ["qadence/transpile/block.py:scale_primitive_blocks_only"]}
{"id": "C11", "title": "fill_identities preserves the operator", "statement": "Padding a block with identities for a start/stop qubit range yields a block with the same operator whose every chain/kron layer covers the requested qubits.", "quantifier": "all blocks, all qubit ranges", "why_tests_cant": "Arbitrary nesting and gaps in the support.", "anchors": ["qadence/transpile/block.py:fill_identities"]}
{"id": "C12", "title": "chain_single_qubit_ops preserves the operator", "statement": "Regrouping a chain of krons of single-qubit blocks into a kron of single-qubit chains does not change the operator.", "quantifier": "all chains of krons over any number of qubits and layers", "why_tests_cant": "Transposition of a ragged two-dimensional structure of unbounded size.", "anchors": ["qadence/transpile/block.py:chain_single_qubit_ops", "qadence/transpile/block.py:is_chain_of_primitivekrons"]}
{"id": "C13", "title": "Expanding an observable into weighted Pauli terms is exact", "statement": "unroll_block_with_scaling(block) returns terms and coefficients whose weighted sum is the operator of block, and no term is itself a sum.", "quantifier": "all observables made of scaled, added, chained and tensored blocks", "why_tests_cant": "Distribution of products over nested sums has unbounded size.", "anchors": ["qadence/blocks/utils.py:unroll_block_with_scaling"]}
{"id": "C14", "title": "dagger is the adjoint", "statement": "block.dagger() denotes the conjugate transpose of block's operator, and block.dagger().dagger() denotes block's operator again.", "quantifier": "all blocks, all parameter values, all register sizes", "why_tests_cant": "Each gate class overrides dagger and composite blocks recurse.", "anchors": ["qadence/blocks/primitive.py:ParametricBlock.dagger", "qadence/blocks/primitive.py:ScaleBlock.dagger", "qadence/blocks/composite.py:CompositeBlock.dagger", "qadence/operations/parametric.py:U", "qadence/operations/ham_evo.py:HamEvo.dagger"]}
{"id": "C15", "title": "Relabelling qubits conjugates the operator", "statement": "reassign(block, map) for an injective map denotes the operator with qubits renamed accordingly; in particular invert_endianness(block, n) denotes the operator with bit-reversed basis states, is an involution on blocks, and keeps tags.", "quantifier": "all blocks, all injective qubit maps, all register sizes", "why_tests_cant": "All permutations and all nestings of blocks.", "anchors": ["qadence/transpile/invert.py:reassign", "qadence/transpile/invert.py:invert_endianness"]}
{"id": "C16", "title": "A Hamiltonian reported as commuting is commuting", "statement": "When block_is_commuting_hamiltonian(h) returns True all pairs of terms of h commute as operators.", "quantifier": "all qubit Hamiltonians over X, Y, Z, N, I with scales, products and sums", "why_tests_cant": "A syntactic test of unbounded many Pauli strings must imply operator commutation.", "anchors": ["qadence/blocks/utils.py:block_is_commuting_hamiltonian", "qadence/blocks/utils.py:_check_commutation"]}
{"id": "C17", "title": "transpile applies its passes in the given order", "statement": "transpile(f1, ..., fk)(x) applies the passes in the documented order, the empty list of passes is the identity, concatenating pass lists composes them, and a pipeline of operator-preserving passes preserves the operator.", "quantifier": "all pass lists, all blocks and circuits", "why_tests_cant": "Higher-order property over all functions.", "anchors": ["qadence/transpile/transpile.py:transpile", "qadence/transpile/transpile.py:blockfn_to_circfn"]}
{"id": "C18", "title": "Support and size of blocks are sound", "statement": "block.qubit_support contains every qubit on which the operator acts non-trivially, support of a composite is the sorted union of its parts', n_qubits is a register size large enough to hold the block, kron refuses parts with overlapping supports and accepts disjoint ones, and QuantumCircuit rejects a register smaller than the block needs.", "quantifier": "all blocks, all registers", "why_tests_cant": "Support is computed structurally; soundness is a statement about all operators.", "anchors": ["qadence/blocks/composite.py:CompositeBlock.qubit_support", "qadence/blocks/composite.py:KronBlock.__init__", "qadence/circuit.py:QuantumCircuit.__init__", "qadence/blocks/primitive.py:ParametricControlBlock.n_qubits"]}
{"id": "C19", "title": "Adding qubit supports behaves like union", "statement": "The sum of two QubitSupports is their ordered duplicate-free union (global absorbing), is commutative, associative and idempotent on local supports, and is_disjoint is exactly emptiness of the intersection.", "quantifier": "all supports", "why_tests_cant": "Algebraic laws over all tuples.", "anchors": ["qadence/qubit_support.py:QubitSupport.__add__", "qadence/qubit_support.py:QubitSupport.is_disjoint"]}
{"id": "C20", "title": "Equality of blocks implies equality of operators", "statement": "If two blocks compare equal they denote the same operator under every parameter assignment, and comparison is reflexive and symmetric.", "quantifier": "all pairs of blocks", "why_tests_cant": "Quadratic unbounded domain; containment-based equality hides multiplicity errors.", "anchors": ["qadence/blocks/composite.py:CompositeBlock.__eq__", "qadence/blocks/composite.py:KronBlock.__eq__", "qadence/blocks/primitive.py:PrimitiveBlock.__eq__"]}
{"id": "C21", "title": "Serialization round trip", "statement": "Serializing a block or circuit to its dictionary form and loading it again gives back an equal block (same gates, qubits, parameters, tags).", "quantifier": "all blocks and circuits", "why_tests_cant": "Recursive format with one special case per gate class.", "anchors": ["qadence/blocks/primitive.py:PrimitiveBlock._from_dict", "qadence/blocks/composite.py:CompositeBlock._from_dict", "qadence/circuit.py:QuantumCircuit._from_dict", "qadence/serialization.py"]}
{"id": "C22", "title": "Looking up blocks by tag finds all and only the tagged blocks", "statement": "QuantumCircuit.get_blocks_by_tag(t) returns exactly the sub-blocks reachable through composite blocks whose tag is t, each once per occurrence, in depth-first order.", "quantifier": "all circuits, all tags", "why_tests_cant": "Arbitrary depth and repetition.", "anchors": ["qadence/circuit.py:QuantumCircuit.get_blocks_by_tag"]}
{"id": "C23", "title": "Noise handlers stay valid under any history", "statement": "Whatever sequence of constructions and appends is performed, a NoiseHandler which exists satisfies: non-empty, one option record per protocol, every non-readout protocol has its error definition, digital and analog noise are never mixed, analog and readout are never mixed, at most one analog protocol, at most one readout and it is last. A rejected append leaves the handler unchanged, and an accepted one is exactly the concatenation.", "quantifier": "all histories of constructions and appends, including failing ones", "why_tests_cant": "Unbounded histories of operations with failures.", "anchors": ["qadence/noise/protocols.py:NoiseHandler.__init__", "qadence/noise/protocols.py:NoiseHandler.append", "qadence/noise/protocols.py:NoiseHandler.verify_all_protocols"]}
{"id": "C24", "title": "Filtering noise keeps exactly the requested protocols", "statement": "NoiseHandler.filter(kind) returns the sub-handler with all and only the protocols of that kind in original order with their own options, or None when there is none; the result is itself valid.", "quantifier": "all valid handlers, all protocol kinds", "why_tests_cant": "All handler shapes.", "anchors": ["qadence/noise/protocols.py:NoiseHandler.filter"]}
{"id": "C25", "title": "Noise handler equality is an equivalence and respects content", "statement": "Two noise handlers compare equal exactly if they have the same protocols with the same options; serialization to dict and back gives an equal handler.", "quantifier": "all pairs of handlers", "why_tests_cant": "zip-based comparison truncates; only a universally quantified statement exposes it.", "anchors": ["qadence/noise/protocols.py:NoiseHandler.__eq__", "qadence/noise/protocols.py:NoiseHandler._from_dict"]}
{"id": "C26", "title": "Readout mitigation solves the constrained least-squares problem", "statement": "For every vector of quasi-probabilities summing to one, the maximum-likelihood correction returns a vector that is non-negative, sums to one, and is the closest (Euclidean) such vector to the input; probability vectors are left unchanged.", "quantifier": "all real vectors with unit sum, all dimensions", "why_tests_cant": "Optimality against all competitors and all dimensions.", "anchors": ["qadence/mitigations/readout.py:mle_solve"]}
{"id": "C27", "title": "Mitigated counts are consistent with the number of shots", "statement": "Renormalising mitigated probabilities to integer counts returns non-negative counts whose total is the requested number of shots.", "quantifier": "all probability vectors and shot numbers", "why_tests_cant": "Rounding interactions over all vectors.", "anchors": ["qadence/mitigations/readout.py:renormalize_counts"]}
{"id": "C28", "title": "Parameter-shift rule is exact for single-gap generators", "statement": "For every expectation function of the form a + b cos(g x / 2) + c sin(g x / 2) (a generator with eigenvalue gap g, gates being exp(-i x G / 2)), every shift s with sin(g s / 2) non-zero, the single-gap shift rule returns exactly the derivative at every point, including for nested (second-order) application.", "quantifier": "all real coefficients, spectral gaps, shifts and evaluation points", "why_tests_cant": "Real-valued identity over a continuum.", "anchors": ["qadence/backends/parameter_shift_rules.py:single_gap_psr"]}
{"id": "C29", "title": "Generalised parameter-shift rule is exact for multi-gap generators", "statement": "For every trigonometric expectation function with gaps g_1..g_k and every choice of shifts for which the linear system is solvable, the multi-gap rule returns exactly the derivative.", "quantifier": "all numbers of gaps, coefficients, shifts and points", "why_tests_cant": "Continuum and unbounded number of gaps.", "anchors": ["qadence/backends/parameter_shift_rules.py:multi_gap_psr"]}
{"id": "C30", "title": "Central finite differences are exact on low-degree polynomials", "statement": "finitediff of order 1, 2 and 3 in one variable returns the exact derivative for all polynomials up to degree 2, 3 and 4 at any point and step, mixed second derivatives in two variables are exact on bilinear functions.", "quantifier": "all polynomials of the degree, all points, all steps", "why_tests_cant": "Continuum of inputs.", "anchors": ["qadence/backends/utils.py:finitediff"]}
{"id": "C31", "title": "Parity estimate of a Pauli string is its expectation", "statement": "For a counter over n-qubit outcomes, the empirical average over a set of measured qubits equals the frequency-weighted mean of (-1)^(number of ones on these qubits), lies in [-1, 1], and equals the exact expectation value if frequencies equal the Born probabilities.", "quantifier": "all counters, all supports, all n", "why_tests_cant": "All histograms and supports.", "anchors": ["qadence/measurements/utils.py:empirical_average", "qadence/measurements/utils.py:get_counts"]}
{"id": "C32", "title": "Marginal counts preserve shots", "statement": "Restricting samples to a support sums the counts of outcomes agreeing on the support and keeps the total number of shots.", "quantifier": "all counters and supports", "why_tests_cant": "All histograms.", "anchors": ["qadence/measurements/utils.py:get_counts"]}
{"id": "C33", "title": "Basis rotations diagonalise Pauli observables", "statement": "The measurement rotations appended for a Pauli string map it to the Z-string on the same qubits, so that the parity estimate of the rotated circuit estimates the original observable, for all Pauli strings.", "quantifier": "all Pauli strings on any number of qubits", "why_tests_cant": "3^n observables.", "anchors": ["qadence/measurements/utils.py:rotate", "qadence/measurements/tomography.py", "qadence/measurements/utils.py:iterate_pauli_decomposition"]}
{"id": "C34", "title": "Pauli-exponential decomposition is exact", "statement": "decompose_pauli_exp(exp(-i t P)) denotes exactly exp(-i t P) for every Pauli string P.", "quantifier": "all Pauli strings, supports, times", "why_tests_cant": "All supports including those with gaps.", "anchors": ["qadence/decompose.py:decompose_pauli_exp", "qadence/decompose.py:change_to_z_basis"]}
{"id": "C35", "title": "Product-formula coefficients are consistent", "statement": "For each supported order the time slices of the Lie-Trotter-Suzuki recursion sum to the total time for each term, the sequence is palindromic for even orders, and for commuting terms the product formula is exact.", "quantifier": "all numbers of terms and times", "why_tests_cant": "Recursive schedule over unbounded number of terms.", "anchors": ["qadence/decompose.py:lie_trotter_suzuki", "qadence/decompose.py:time_discretisation"]}
{"id": "C36", "title": "Embedding delivers each gate its parameter value", "statement": "For any circuit, any assignment of feature values and any trainable values, the embedding returns for each gate parameter the value of its expression under the assignment, user-supplied values win over stored ones, and parameters of the same expression get the same value.", "quantifier": "all circuits, expressions and assignments", "why_tests_cant": "All expressions and assignments.", "anchors": ["qadence/blocks/embedding.py:embedding", "qadence/parameters.py:ParamMap"]}
{"id": "C37", "title": "Batched parameters are split faithfully", "statement": "Splitting a dictionary of batched parameter values into a list of dictionaries gives one dictionary per batch element, scalar (length-one) entries are broadcast, and each element keeps its order.", "quantifier": "all dictionaries, all batch sizes", "why_tests_cant": "All sizes.", "anchors": ["qadence/backends/utils.py:to_list_of_dicts", "qadence/backends/utils.py:infer_batchsize"]}
{"id": "C38", "title": "Constant parameters never alias", "statement": "Two constant parameters with different values get different embedded names, so that a circuit with constants a != b uses a and b.", "quantifier": "all pairs of constants", "why_tests_cant": "All pairs of numbers; hash collisions are not found by sampling.", "anchors": ["qadence/parameters.py:stringify", "qadence/parameters.py:Parameter"]}
{"id": "C39", "title": "Register geometry respects spacing", "statement": "Register constructors with a spacing produce registers in which the smallest distance between atoms equals spacing times the unit-lattice distance, and rescale_coords multiplies all pairwise distances by the given factor; distances are symmetric and cover each unordered pair once.", "quantifier": "all register sizes, spacings, scale factors", "why_tests_cant": "All sizes and real factors.", "anchors": ["qadence/register.py:Register.rescale_coords", "qadence/register.py:Register.min_distance", "qadence/register.py:Register.all_node_pairs", "qadence/register.py:_scale_node_positions"]}
{"id": "C40", "title": "Hamiltonian factory builds the documented sum", "statement": "hamiltonian_factory(register, interaction, detuning, strengths) has the operator sum_i d_i D_i + sum_(ij) c_ij I_ij over exactly the nodes and edges (or all pairs), and rejects strength arrays of the wrong length.", "quantifier": "all registers, interaction types, detunings and strengths", "why_tests_cant": "All graphs.", "anchors": ["qadence/constructors/hamiltonians.py:hamiltonian_factory", "qadence/constructors/hamiltonians.py:_preprocess_strengths"]}
{"id": "C41", "title": "Generated parameter names are distinct", "statement": "The variational parameters generated by hea, ala, hamiltonian_factory with string strengths and identity_initialized_ansatz are pairwise distinct for distinct gates, so that gates train independently.", "quantifier": "all register sizes and depths, all prefixes", "why_tests_cant": "Name collisions appear only at multi-digit indices.", "anchors": ["qadence/constructors/hea.py:_rotations_digital", "qadence/constructors/ala.py", "qadence/constructors/iia.py:_rotations", "qadence/constructors/hamiltonians.py:_preprocess_strengths"]}
{"id": "C42", "title": "Entangling layers act on valid disjoint pairs", "statement": "Every entangling layer of hea and ala acts on pairs of different qubits of the register, every kron layer consists of disjoint pairs, non-periodic layers link all neighbours exactly once and periodic ones additionally link last to first.", "quantifier": "all register sizes (even and odd), block sizes and boundary conditions", "why_tests_cant": "Parity-dependent index arithmetic over all sizes.", "anchors": ["qadence/constructors/hea.py:_entanglers_digital", "qadence/constructors/ala.py:_entanglers_ala_block_digital"]}
{"id": "C43", "title": "Identity-initialised ansatz starts as identity", "statement": "identity_initialized_ansatz with its initial parameter values denotes the identity operator for all depths, sizes, rotation choices and entanglers.", "quantifier": "all register sizes, depths, operation lists", "why_tests_cant": "All depths.", "anchors": ["qadence/constructors/iia.py:identity_initialized_ansatz", "qadence/constructors/iia.py:_rotations"]}
{"id": "C44", "title": "QFT inverse and Fourier transform", "statement": "qft(n, inverse=True) denotes the adjoint of qft(n) with the same options, so their composition is the identity, and qft(n, swaps_out=True) denotes the discrete Fourier matrix.", "quantifier": "all n, all option combinations, all basis states", "why_tests_cant": "Exponential matrices for all n.", "anchors": ["qadence/constructors/qft.py:qft", "qadence/constructors/qft.py:_qft_layer_digital"]}
{"id": "C45", "title": "DAQC transform reproduces the target evolution", "statement": "daqc_transform from a ZZ build Hamiltonian yields a sequence whose effective generator integrated over the slices equals the target Hamiltonian times the target time whenever the sign matrix is invertible, and the pair index map enumerates the pairs bijectively.", "quantifier": "all n, all couplings, all times", "why_tests_cant": "Linear algebra identity over all register sizes.", "anchors": ["qadence/constructors/daqc/daqc.py:daqc_transform", "qadence/constructors/daqc/utils.py:_build_matrix_M", "qadence/constructors/daqc/utils.py:_ix_map"]}
{"id": "C46", "title": "Feature maps map the feature range onto the target range", "statement": "The default feature scaling is the affine bijection from feature_range to target_range, and parallel multivariate encoding splits the register into disjoint contiguous blocks inside the register.", "quantifier": "all ranges, all numbers of features and qubits", "why_tests_cant": "Continuum and all sizes.", "anchors": ["qadence/constructors/feature_maps.py:fm_parameter_scaling", "qadence/ml_tools/constructors.py", "qadence/constructors/utils.py:get_fm_qubits"]}
{"id": "C47", "title": "Overlap protocols return the squared overlap", "statement": "The compute-uncompute, swap-test and Hadamard-test circuits' outcome probabilities combine to |<a|b>|^2 for all circuits a, b and lie in [0, 1].", "quantifier": "all states of all sizes", "why_tests_cant": "All states.", "anchors": ["qadence/overlap.py:overlap_swap_test", "qadence/overlap.py:overlap_hadamard_test", "qadence/overlap.py:overlap_compute_uncompute", "qadence/overlap.py:_select_overlap_method"]}
{"id": "C48", "title": "State preparation circuits produce the advertised states", "statement": "product_block/zero/one/ghz/uniform blocks prepare from |0..0> exactly the vectors returned by the corresponding state functions, which are normalised.", "quantifier": "all n and all bitstrings", "why_tests_cant": "Exponential dimension.", "anchors": ["qadence/states.py:product_block", "qadence/states.py:product_state", "qadence/states.py:ghz_block", "qadence/states.py:ghz_state", "qadence/states.py:uniform_state"]}
{"id": "C49", "title": "Callbacks fire on the documented schedule", "statement": "During training for N iterations a callback registered on an event with called_every = k runs at exactly the iterations divisible by k (and never if k = 0), with callback conditions respected.", "quantifier": "all schedules, iteration counts, event sequences", "why_tests_cant": "Histories of unbounded length.", "anchors": ["qadence/ml_tools/callbacks/callback.py:Callback._should_call", "qadence/ml_tools/callbacks/callbackmanager.py:CallbacksManager.run_callbacks"]}
{"id": "C50", "title": "Early stopping and best checkpoint follow the metric history", "statement": "EarlyStopping requests a stop exactly when the best monitored value has not improved in the last `patience` calls, and the best-checkpoint callback saves exactly at strict improvements under the criterion, so that the last saved checkpoint holds the best accepted loss.", "quantifier": "all metric histories, patience values and modes", "why_tests_cant": "Histories of unbounded length.", "anchors": ["qadence/ml_tools/callbacks/callback.py:EarlyStopping.run_callback", "qadence/ml_tools/callbacks/callback.py:SaveBestCheckpoint.run_callback"]}
{"id": "C51", "title": "Learning-rate schedules stay within their limits", "statement": "The cyclic schedule always yields a rate between base_lr and max_lr, periodic with 2*step_size and reaching the limits; step decay after k calls is lr*gamma^k; cosine annealing follows the documented cosine curve from the initial rate to min_lr.", "quantifier": "all iterations and settings", "why_tests_cant": "All iterations; state carried between calls.", "anchors": ["qadence/ml_tools/callbacks/callback.py:LRSchedulerCyclic.run_callback", "qadence/ml_tools/callbacks/callback.py:LRSchedulerStepDecay.run_callback", "qadence/ml_tools/callbacks/callback.py:LRSchedulerCosineAnnealing.run_callback"]}
{"id": "C52", "title": "Resuming picks the newest checkpoint of the right kind", "statement": "get_latest_checkpoint_name returns the checkpoint of the requested kind with the highest iteration, or nothing when none exists.", "quantifier": "all directory contents", "why_tests_cant": "All sets of file names.", "anchors": ["qadence/ml_tools/callbacks/saveload.py:get_latest_checkpoint_name", "qadence/ml_tools/callbacks/saveload.py:write_checkpoint"]}
{"id": "C53", "title": "Flat parameter vectors round trip", "statement": "set_parameters(model, v) followed by get_parameters(model) returns v, get then set leaves the model unchanged, only trainable parameters are touched, and a vector of the wrong size is not accepted silently.", "quantifier": "all models (lists of parameter shapes) and vectors", "why_tests_cant": "All shapes.", "anchors": ["qadence/ml_tools/parameters.py:get_parameters", "qadence/ml_tools/parameters.py:set_parameters", "qadence/ml_tools/parameters.py:num_parameters"]}
{"id": "C54", "title": "Training runs the configured number of epochs", "statement": "fit with max_iter = N performs N training epochs unless stopped, never starts an epoch after a stop request, and validates on the configured schedule.", "quantifier": "all N, all stop schedules", "why_tests_cant": "Histories with interruption at any point.", "anchors": ["qadence/ml_tools/trainer.py:Trainer._train", "qadence/ml_tools/trainer.py:Trainer._train_epochs"]}
{"id": "C55", "title": "Analog composites are validated", "statement": "Analog chains concatenate durations, analog krons accept only parts with disjoint local supports and equal durations, and the total duration is the sum over a chain and the common value over a kron.", "quantifier": "all analog composites", "why_tests_cant": "Arbitrary nesting.", "anchors": ["qadence/blocks/analog.py:AnalogChain", "qadence/blocks/analog.py:AnalogKron"]}
{"id": "C56", "title": "Rydberg Hamiltonians have the documented form", "statement": "The interaction and drive Hamiltonians added to analog blocks equal the documented sums for every register, each unordered pair counted once, and the van-der-Waals strength scales with the inverse sixth power of distance.", "quantifier": "all registers, devices and drives", "why_tests_cant": "All geometries.", "anchors": ["qadence/analog/hamiltonian_terms.py:rydberg_interaction_hamiltonian", "qadence/analog/hamiltonian_terms.py:rydberg_drive_hamiltonian"]}
{"id": "C57", "title": "Gate matrices satisfy the standard identities", "statement": "Rotation, phase and U gates are unitary for all angles with the documented Euler decomposition, rotations compose additively, SWAP equals three CNOTs, and the constant gate matrices are unitary, Hermitian where documented, with the dagger variants being adjoints.", "quantifier": "all angles", "why_tests_cant": "Continuum of angles.", "anchors": ["qadence/blocks/block_to_tensor.py:_rot_matrices", "qadence/blocks/block_to_tensor.py:_u_matrix", "qadence/blocks/block_to_tensor.py:OPERATIONS_DICT"]}
{"id": "C58", "title": "Zero-noise extrapolation is exact on polynomials", "statement": "If the noisy expectation as a function of noise level is a polynomial of degree smaller than the number of distinct levels then the extrapolated value is its value at zero noise.", "quantifier": "all polynomials, all level sets", "why_tests_cant": "Continuum.", "anchors": ["qadence/mitigations/analog_zne.py:zne"]}
{"id": "C59", "title": "Information content is normalised", "statement": "The information content computed from a loss walk lies between 0 and 1, transition frequencies are non-negative and sum to at most one, and the discretisation is exclusive.", "quantifier": "all walks and thresholds", "why_tests_cant": "Continuum of walks.", "anchors": ["qadence/ml_tools/information/information_content.py:InformationContent"]}
{"id": "C60", "title": "Median-of-means shadow estimator", "statement": "Shadow grouping uses every snapshot at most once per group, the estimator of a Pauli string is unbiased under uniformly random measurement bases, and the number of snapshots requested meets the documented bound.", "quantifier": "all observables, shadow sizes and accuracies", "why_tests_cant": "Expectation over all random outcomes.", "anchors": ["qadence/measurements/shadow.py"]}
{"id": "C61", "title": "Parameter-shift derivatives of circuits are exact at default settings", "statement": "For every circuit in which a parameter is the angle of one rotation, controlled rotation or U gate, and all observables, initial states and values of the other parameters, the parameter-shift rule selected for that gate from its declared eigenvalues with default settings succeeds and returns exactly the derivative of the expectation values; the same holds for the duration of an evolution with a Hermitian generator when its eigenvalue differences survive rounding and the default shifts are admissible.", "quantifier": "all circuits, register sizes, observables, states, parameter values", "why_tests_cant": "Continuum of states and values, unbounded circuits; depends on the declared spectra covering the real ones.", "anchors": ["qadence/backends/parameter_shift_rules.py", "qadence/engines/torch/differentiable_expectation.py", "qadence/operations/parametric.py", "qadence/operations/control_ops.py"]}
{"id": "C64", "title": "Expectation values from given samples", "statement": "The samples protocol returns the exact expectation value of every diagonal observable when the frequencies are the Born probabilities, for every batch and list of observables, and refuses observables which are not diagonal with a TypeError.", "quantifier": "all diagonal observables, states, batches, numbers of shots", "why_tests_cant": "Unbounded observables; tests use sampled states with tolerances and few observables.", "anchors": ["qadence/measurements/samples.py:13-39", "qadence/measurements/utils.py:83-104", "qadence/blocks/abstract.py:315-344"]}
{"id": "C65", "title": "Strategy and operation of a feature map configuration fit together", "statement": "After construction, a FeatureMapConfig with a given operation keeps that operation and has the strategy which can use it: analog operations the analog strategy, digital rotations the digital strategy; a missing operation is filled in according to the strategy.", "quantifier": "all strategies, operations, numbers of features", "why_tests_cant": "The adaptation only logs a warning; tests construct matching pairs.", "anchors": ["qadence/ml_tools/config.py:393-437", "qadence/constructors/feature_maps.py:169-173"]}
{"id": "C66", "title": "Digitalization preserves the operator", "statement": "digitalize returns a block with the same operator as the given one, on the same qubits, in which every evolution and every U gate has been replaced by digital gates; it does not raise for valid blocks of Pauli evolutions.", "quantifier": "all blocks, register sizes, parameter values, orders with commuting terms", "why_tests_cant": "Unbounded nesting and generators; tests compare few circuits with tolerances.", "anchors": ["qadence/transpile/digitalize.py:31-45", "qadence/operations/ham_evo.py:207-267", "qadence/operations/parametric.py:197-203"]}
{"id": "C67", "title": "Circuits of gates are unitary", "statement": "Every block built from gates by chain, kron and factors of modulus one denotes a unitary operator for all real parameter values, so running it preserves the norm of every state.", "quantifier": "all blocks of any nesting, all register sizes, all real parameter values", "why_tests_cant": "Unbounded nesting and continuous parameters; tests compare few circuits with tolerances.", "anchors": ["qadence/blocks/composite.py", "qadence/operations/primitive.py", "qadence/operations/parametric.py", "qadence/operations/control_ops.py", "qadence/operations/ham_evo.py"]}
{"id": "C68", "title": "Divergences of counters", "statement": "js_divergence of two counters of samples is the Jensen-Shannon divergence of their frequencies: symmetric, between 0 and ln 2, 0 exactly for equal frequencies; the overlap derived from it is symmetric and 1 exactly for equal frequencies; norm_difference is the Euclidean distance of the frequencies.", "quantifier": "all counters with positive counts, any number of outcomes and shots", "why_tests_cant": "Unbounded counters and real-valued inequalities; the equality cases need the strict convexity of x log x.", "anchors": ["qadence/divergences.py:8-50", "qadence/overlap.py:174-184"]}
{"id": "C69", "title": "Batches of overlaps", "statement": "Overlap.forward returns the matrix of overlaps of every bra with every ket if they have different feature parameters, and the column of overlaps of corresponding bras and kets if they share one, for each method.", "quantifier": "all batch sizes, all values, all methods", "why_tests_cant": "Values of any number are repeated, merged and reshaped; only some combinations of methods, parameters and batch sizes are tested.", "anchors": ["qadence/overlap.py:303-445", "qadence/overlap.py:61-154"]}
{"id": "C70", "title": "Expressions in serialised form", "statement": "An expression of parameters which is serialised and deserialised is the same expression with the same parameter values, and the grammar lets through exactly the nested calls of names with literal arguments, so that no other code reaches eval.", "quantifier": "all expressions of any size, all strings", "why_tests_cant": "Expressions are nested arbitrarily and the check is a recursive grammar; tests try a few expressions and a few forbidden strings.", "anchors": ["qadence/serialization.py:71-110", "qadence/serialization.py:203-216", "qadence/serialization.py:286-293", "qadence/serial_expr_grammar.peg:1-11"]}
{"id": "C71", "title": "Addressing patterns stay within their limits", "statement": "An addressing pattern is accepted exactly if its numeric weights lie in [0, 1]; its Hamiltonian is the sum over the qubits of Omega_i/2 X_i + |delta_i| N_i, where Omega_i and delta_i are amplitude and detuning times the weight of the qubit, qubits without weight feel nothing, weights in effect lie in [0, 1], and whatever the values of the parameters no qubit exceeds the local and the register never exceeds the global limits.", "quantifier": "all patterns, registers and parameter values", "why_tests_cant": "The limits are enforced by products of step functions of symbolic expressions; tests evaluate a few values.", "anchors": ["qadence/analog/addressing.py:28-161", "qadence/analog/hamiltonian_terms.py:75-101"]}
{"id": "C62", "title": "Functions on the leaves of blocks", "statement": "apply_fn_to_blocks replaces every leaf by its image and keeps the composite structure around them; set_noise sets the noise of exactly the gates of the target class and changes nothing else, in particular not the operator.", "quantifier": "all blocks of any depth, all functions, all noise, all target classes", "why_tests_cant": "Blocks are nested arbitrarily and the noise is set in place through a reconstruction that is thrown away; tests try a few shallow blocks.", "anchors": ["qadence/transpile/apply_fn.py:8-40", "qadence/transpile/noise.py:11-53"]}
{"id": "C63", "title": "Pulse stretching leaves the noiseless evolution unchanged", "statement": "Stretching the pulses and the register of an analog circuit, as done by zero-noise extrapolation to amplify the noise, keeps the operator of the noiseless circuit for every stretch factor.", "quantifier": "all analog circuits, registers and stretch factors", "why_tests_cant": "Tests look at the extrapolated expectation with a tolerance, not at the evolution for every register and factor.", "anchors": ["qadence/mitigations/analog_zne.py:42-82", "qadence/register.py:320-329"]}
{"id": "C72", "title": "Conversion to PyQTorch preserves the operator", "statement": "For every block the backend accepts, the native PyQTorch operation built by convert_block (after the default passes of the backend) applies exactly the operator of the block for every assignment of values to its parameters, no matter whether parameters are passed as unique ids or as expressions; digital noise is attached to exactly the gates which have it, and exactly the gates PyQTorch lacks are refused.", "quantifier": "all blocks of any depth, all gates, parameters, scale factors and noise handlers, both parameter modes, with and without single-qubit composition", "why_tests_cant": "Tests convert a handful of blocks and compare one random state; scale factors that go through strings and the sympy parser depend on names, signs and hashes of the values.", "anchors": ["qadence/backends/pyqtorch/convert_ops.py:46-368", "qadence/backends/pyqtorch/config.py:22-38", "qadence/backends/pyqtorch/backend.py:104-155", "qadence/backend.py:89-105"]}
{"id": "C73", "title": "Named Hamiltonians and configured observables", "statement": "total_magnetization, zz_hamiltonian and ising_hamiltonian are the sums of Z, of ZZ over all pairs and of X operators with exactly the given coefficients; create_observable gives shift times the identity plus scale times the Hamiltonian of the configuration, so that its expectation value is shift + scale times the one of the Hamiltonian; the prepared configurations give the Hamiltonians of the same name.", "quantifier": "all numbers of qubits, coefficients, couplings, scales, shifts (numbers, names, parameters, expressions) and normalised states", "why_tests_cant": "Tests evaluate a few small registers with fixed coefficients; the interaction of the Ising configuration treats single indices specially, which goes wrong for one and two qubits only.", "anchors": ["qadence/constructors/hamiltonians.py:210-364", "qadence/ml_tools/constructors.py:710-743", "qadence/parameters.py:66-128"]}
{"id": "C74", "title": "Purity, entropy, fidelity and equivalence of states", "statement": "purity of order k is the trace of the k-th power (at most 1 for states, 1 exactly for projectors); von_neumann_entropy is the entropy in bits of the normalised matrix up to at most -eps log2 eps per eigenvalue below eps; fidelity is the trace of the square root of sqrt(rho) sigma sqrt(rho), symmetric, between 0 and 1, 1 for equal states and the absolute scalar product for pure states; equivalent_state without tolerance holds for normalised states exactly if they agree up to a phase, for whole batches with broadcasting.", "quantifier": "all dimensions, batches, orders, positive matrices, tolerances; every eigendecomposition torch may return", "why_tests_cant": "Tests use a few random states; degenerate spectra, singular matrices and batches of different sizes are a measure-zero set of inputs.", "anchors": ["qadence/states.py:567-722", "qadence/overlap.py:157-167"]}
{"id": "C75", "title": "Workloads on Pasqal Cloud", "statement": "get_result asks for the status until the first answer which is not PENDING, RUNNING or PAUSED, at most as many times as whole refresh times fit in the timeout; it returns the result iff that answer is DONE, raises WorkloadStoppedError or ValueError for the other answers and TimeoutError if there is none. A workload is accepted iff an observable is given when an expectation is requested, every parameter value has dimension 0 or 1 and all arrays have the same length; the uploaded configuration holds the circuit, the result types in order, all parameter values under their names and the observable.", "quantifier": "all sequences of statuses reported by the remote side, all timeouts and refresh times, all workloads and shapes of parameter values", "why_tests_cant": "Tests mock a few fixed sequences of statuses; the timing of a remote service and the combinations of shapes are unbounded.", "anchors": ["qadence/pasqal_cloud_connection.py:16-235"]}
{"id": "C76", "title": "Data loaders, batches and results of epochs", "statement": "An infinite dataset yields, for every random shuffle and after every history of iterations, one order of all samples again and again (every window of the length of the dataset holds every sample exactly once), tensors staying aligned. An epoch over a finite dataset sees every sample exactly once in full batches except the last, or the first max_batches batches. A dictionary of loaders yields the dictionaries of the batches with equal numbers until one loader is exhausted. test() uses the given loader or the test loader of the trainer. The result of an epoch is the mean of losses and metrics of its batches, metrics carry the name of the phase, data_to_device moves every tensor and keeps the structure, and without gradients every loss is told to the optimizer together with the parameters it belongs to.", "quantifier": "all tensors, sizes, batch sizes, limits, shuffles, dictionaries of loaders, histories of loaders, losses, metrics, nested data and optimizers", "why_tests_cant": "Tests use small tensors and a handful of batches; coverage of all samples over all shuffles, sizes and histories is unbounded.", "anchors": ["qadence/ml_tools/data.py:43-161", "qadence/ml_tools/train_utils/base_trainer.py:225-336", "qadence/ml_tools/trainer.py:577-673", "qadence/ml_tools/trainer.py:713-799", "qadence/ml_tools/optimize_step.py:59-88"]}
{"id": "C77", "title": "Pulses implement the rotations of the block", "statement": "For the Pulser backend, every digital rotation becomes a pulse on the right atom whose evolution is that rotation (z: up to a global phase) by the absolute value of the angle, up to an explicit error from the clock period, the minimum duration and the amplitude levels; amplitudes never exceed the maximum, durations are at least the minimum and on the clock; circuits of rotations with angles that are not negative become sequences doing these rotations in order. Analog rotations with phase at most 0 become the documented Rydberg drive with exactly the given amplitude and detuning. Unsupported blocks are refused. Refuted: negative angles, positive phases, negative detunings and RZ(0) get a different evolution.", "quantifier": "all real angles, amplitudes, detunings, phases; all clock periods, minimum durations, maximal amplitudes and detunings; all configurations; all nestings of blocks; all register sizes", "why_tests_cant": "The rounding to the clock and the search over amplitudes depend on real parameters; tests compare a few angles on one device with a loose tolerance and no negative angles or phases.", "anchors": ["qadence/backends/pulser/waveforms.py:SquareWaveform.from_area", "qadence/backends/pulser/waveforms.py:SquareWaveform.from_duration", "qadence/backends/pulser/pulses.py:add_pulses", "qadence/backends/pulser/pulses.py:analog_rot_pulse", "qadence/backends/pulser/pulses.py:entangle_pulse", "qadence/backends/pulser/pulses.py:digital_xy_rot_pulse", "qadence/backends/pulser/pulses.py:digital_z_rot_pulse"]}
{"id": "C78", "title": "Models under sequences of calls", "statement": "After any sequence of runs, samples, expectations, resets, loads and changes of trainability, the trainable parameters of a QuantumModel are exactly the trainable symbols of its circuit and observables, its other parameters are the constants, and a run is possible exactly if all other symbols are given values. Values given in a call take precedence over parameters. reset_vparams assigns in order and touches nothing else; load_params_from_dict refuses exactly differing names when strict and otherwise changes only the named values. Saved and reloaded models pass the same values to the backend. Settings given to a call affect that call only. The last claim is false for noise: the noise of an expectation stays for all later calls.", "quantifier": "all circuits and observables (by their symbols and constants), all values, settings and sequences of method calls, including calls that raise", "why_tests_cant": "The defects appear only after particular sequences of calls; tests call one method on a fresh model.", "anchors": ["qadence/model.py:QuantumModel", "qadence/model.py:QuantumModel.expectation", "qadence/model.py:QuantumModel.reset_vparams", "qadence/model.py:QuantumModel.set_as_variational", "qadence/model.py:QuantumModel.set_as_fixed", "qadence/model.py:QuantumModel.load_params_from_dict", "qadence/model.py:QuantumModel._to_dict", "qadence/model.py:QuantumModel._from_dict", "qadence/backend.py:Backend.convert", "qadence/transpile/block.py:set_trainable"]}
{"id": "C79", "title": "Inputs of a QNN", "statement": "A QNN called with a matrix gives its j-th input the j-th column, entry by entry, for any order of the inputs; a vector counts as one column; a matrix of another width is refused. A QNN needs an observable and as many named inputs as feature parameters. The expectation uses the settings given. Reloading keeps the order of inputs and the values. False: an observable or mitigation given in the call is ignored, wrong names of inputs are accepted, the differentiation mode is lost on reload.", "quantifier": "all numbers and orders of inputs, all matrices and vectors, all circuits and settings", "why_tests_cant": "Order of columns and names must agree for every number and order of inputs; tests use one or two inputs in the order of the circuit.", "anchors": ["qadence/ml_tools/models.py:format_to_dict_fn", "qadence/ml_tools/models.py:QNN", "qadence/ml_tools/models.py:QNN.expectation", "qadence/ml_tools/models.py:QNN._from_dict"]}
{"id": "C80", "title": "Gradients of the parameter-shift engine", "statement": "With diff_mode GPSR and the default configuration, every angle of a rotation, controlled rotation or U gate and every duration of an evolution with a fixed generator has a parameter-shift rule, the backward pass succeeds and returns the derivative of the expectation values contracted with the incoming gradient over all observables; parameters which need no gradient get none; contributions of several gates add up to the derivative with respect to the user's parameter. False: parameters inside of the generator of an evolution get a wrong gradient without any error, trainable parameters of observables are refused or dropped, adjoint differentiation of several observables returns a column.", "quantifier": "all circuits of chains, krons and scale blocks, all observables, states, values, incoming gradients and choices of parameters that need gradients", "why_tests_cant": "The gradient has to be right for every circuit, value and incoming gradient; tests compare a few circuits with automatic differentiation up to a tolerance and none has a parameter inside of a generator.", "anchors": ["qadence/engines/torch/differentiable_expectation.py:PSRExpectation", "qadence/engines/torch/differentiable_expectation.py:DifferentiableExpectation.psr", "qadence/engines/torch/differentiable_expectation.py:DifferentiableExpectation.construct_rules", "qadence/engines/torch/differentiable_expectation.py:DifferentiableExpectation.adjoint", "qadence/blocks/utils.py:uuid_to_eigen"]}
{"id": "C81", "title": "Calls of the Pulser backend and its expectation values", "statement": "A noiseless run of the Pulser backend with parameter values returns one state per batch element, the evolution applied to the given initial state, and any sequence of such runs and samples leaves circuit and backend unchanged. Expectation values equal those of the observable for real symmetric observables. False: observables with an odd number of Y per term get the opposite sign in every state, a run with noise leaves its noise in the backend for all later calls and starts from the initial state with 0 and 1 exchanged, the second run of a circuit without parameters raises, and with little endianness observables are read on the reversed qubits.", "quantifier": "all emulators, sequences of calls, batches, initial states, noise rates, observables built of Pauli gates with real coefficients, numbers of qubits", "why_tests_cant": "The repository's tests for this backend use Z and X observables, new backends and initial states of zeros; no finite set of calls shows what every sequence of calls leaves behind.", "anchors": ["qadence/backends/pulser/backend.py:Backend.run", "qadence/backends/pulser/backend.py:Backend._run_noisy", "qadence/backends/pulser/backend.py:Backend.sample", "qadence/backends/pulser/backend.py:Backend.expectation", "qadence/backends/pulser/backend.py:Backend.assign_parameters", "qadence/backends/pulser/convert_ops.py:PulserObservable"]}
{"id": "C82", "title": "The Rydberg hardware efficient ansatz", "statement": "For every register without loops, rydberg_hea succeeds and its operator is the product over the layers of the evolution under drive plus interaction, the evolution under the interaction and the evolution under the detuning, with the drive scaling * (cos(phase) sum w_j X_j - sin(phase) sum w_j Y_j); the last two evolutions commute; durations of different layers and prefixes are different parameters. False: the interaction does not depend on the positions of the atoms, the prefix is not attached to the trainable patterns and the phase, these are shared by all layers, and drives act on qubits 0..n-1 whatever the labels of the register are.", "quantifier": "all registers without loops, weights, phases, durations, numbers of layers, parameter values, prefixes", "why_tests_cant": "The tests build the ansatz for some registers and check that the result is not NaN; equality of operators for all parameter values and registers cannot be tested.", "anchors": ["qadence/constructors/rydberg_hea.py:rydberg_hea", "qadence/constructors/rydberg_hea.py:rydberg_hea_layer", "qadence/constructors/rydberg_hea.py:_amplitude_map"]}
{"id": "C83", "title": "AnalogSWAP exchanges its qubits", "statement": "AnalogSWAP(control, target) with its default parameter 3*PI/4 has, on every register and for every pair of different qubits, the operator -SWAP(control, target): the exchange of the two qubits up to the global phase -1. For other parameters it is the evolution under the same generator; the parameter 3*PI/2 gives the identity; the generator is symmetric in control and target; control = target is refused with an AssertionError.", "quantifier": "all numbers of qubits, all pairs of qubits, all parameters", "why_tests_cant": "A test compares floating point matrices for some pair of qubits up to a tolerance; that the constants 2/3 sqrt 2, 1 + sqrt 5 / 3 and 3 PI / 4 give an exact exchange is an identity of real numbers.", "anchors": ["qadence/operations/analog.py:AnalogSWAP"]}
{"id": "C84", "title": "Feature maps for neutral atoms", "statement": "rydberg_feature_map is built exactly if there is a qubit, the detuning is not zero, no weight is the number zero and numeric weights do not add up to zero (with IndexError, ZeroDivisionError and ValueError otherwise). Run by the pyqtorch backend without background Hamiltonian it multiplies each basis state by exp(-i x sum_j w_j s_j), independent of max_abs_detuning; the tower has w_j = j + 1; default weights are distinct parameters. With a diagonal background of energies E(s) there is the further phase exp(-i k x sum(w)/max_abs_detuning E(s)) for k qubits. analog_feature_map passes multiplier * transformed feature to the operation or to a callable scaling and refuses other scalings. False: independence of max_abs_detuning for interacting atoms; convertibility by add_background_hamiltonian alone (kron over a generator makes a KronBlock, whose converted parts overlap).", "quantifier": "all numbers of qubits, weights (numbers or parameters), detunings, features, parameter values, diagonal backgrounds", "why_tests_cant": "The test runs four qubits with one random feature and checks that gradients exist; phases for all weights and features, and the influence of the interaction, are not observable there.", "anchors": ["qadence/constructors/rydberg_feature_maps.py:rydberg_feature_map", "qadence/constructors/rydberg_feature_maps.py:rydberg_tower_feature_map", "qadence/constructors/rydberg_feature_maps.py:analog_feature_map"]}
{"id": "C85", "title": "Processes of a distributed training", "statement": "A script which fits a Trainer from a fresh environment starts, on one node, exactly nprocs processes with ranks 0..nprocs-1, the same meeting place and world size nprocs, each on its own device; on K Slurm nodes with g GPUs each and nprocs = K g, and under torchrun with GPUs, all processes together form such a group. On one node finite datasets are split: parts of equal size, all indices covered, each once if nprocs divides the size. Models are wrapped with the device of the process. all_reduce_dict gives each process the reduction of the values under each key if the keys agree in order; all processes stop as soon as one wants to; aggregated losses are means. More processes than GPUs and missing GPUs are refused. False: groups on CPUs over several nodes or under torchrun (ranks collide); with fewer processes per node than GPUs; with nprocs not divisible by the nodes; splitting of data over several nodes (local rank); a second training in the same process; batches of other types; metrics in different orders or named loss.", "quantifier": "all environments, machines, numbers of nodes, GPUs and processes, datasets, values of metrics", "why_tests_cant": "The tests mock the environment of a single machine; ranks of several nodes, GPUs and launchers together are never observed.", "anchors": ["qadence/ml_tools/train_utils/execution.py:DefaultExecution", "qadence/ml_tools/train_utils/execution.py:TorchRunexecution", "qadence/ml_tools/train_utils/execution.py:detect_execution", "qadence/ml_tools/train_utils/distribution.py:Distributor.setup_process_rank_environment", "qadence/ml_tools/train_utils/accelerator.py:Accelerator._spawn_method", "qadence/ml_tools/train_utils/accelerator.py:Accelerator._prepare_dataloader", "qadence/ml_tools/train_utils/accelerator.py:Accelerator._prepare_model", "qadence/ml_tools/train_utils/accelerator.py:Accelerator.all_reduce_dict", "qadence/ml_tools/trainer.py:Trainer.stop_training"]}
{"id": "C86", "title": "Quantum convolutional networks keep their layers apart, their parameters distinct and their inputs on separate qubits", "statement": "QCNN builds its circuit, for positive depths and a feature map that can be built, exactly when the number of qubits is even and at least four, all depths are odd, the entangler takes two qubits and no parameter, every layer i has at least two qubits left (2^(i+1) <= n), and the second layer is only repeated with eight qubits or more. The operator of layer i acts only on the qubits q with 2^i dividing q + 1, so everything from layer i on commutes with any operation on the other qubits and measuring them may be deferred. Unless is_corr is set no parameter is used twice; the cells of a repetition take 4k + 3 consecutive parameters each for k operations. With is_corr a layer has at most nine parameters, and gates with the same number in cells j and j' of a repetition share a parameter iff 9 divides (j' - j)(4k + 3). The feature map gives every input its own consecutive qubits, uses all qubits, and its sizes differ by at most one; it needs 1 <= inputs <= qubits. The observable is the sum of Z over all qubits, weighted by w0, w1, ... if random_meas.", "quantifier": "all numbers of qubits and inputs, all lists of depths, operations, entanglers, all parameter values and registers, all layers, repetitions and cells", "why_tests_cant": "The tests build a few networks of fixed size; which sizes and depths are refused, overlaps of padded cells and shared parameters depend on all sizes, and commuting with every operation on dropped qubits is a statement about all operators.", "anchors": ["qadence/ml_tools/qcnn_model.py:77-158", "qadence/ml_tools/constructors.py:820-1076"]}
{"id": "C87", "title": "Circuits built from configurations consist of the configured feature map and ansatz, with separate parameters", "statement": "build_qnn_from_configs builds, if there are features, a chain of the feature map blocks in their order with one ansatz layer between two neighbours (2k - 1 blocks), followed by the ansatz; without features only the ansatz. Layer j has the type, strategy and arguments of the ansatz, depth one and the prefix fm_j. The parameters of all layers and of the ansatz are pairwise distinct for digital and digital-analog hardware efficient ansaetze, unless the prefix of the ansatz is fm_j or fm_j followed by the word of the entanglers. AnsatzConfig accepts exactly the documented combinations; given arguments reach the constructors and missing ones have the documented defaults; with enough qubits and a suitable entangler the circuit is built.", "quantifier": "all registers, depths, prefixes, operations, entanglers, tags, numbers of features and lists of feature map blocks", "why_tests_cant": "Tests build a few configurations and look at shapes of outputs. Shared names only reduce the number of trainable parameters, arguments without effect are not visible in the output, and the failing combinations are not among the tested ones.", "anchors": ["qadence/ml_tools/constructors.py:374-707", "qadence/ml_tools/constructors.py:745-817", "qadence/ml_tools/config.py:489-581"]}
{"id": "C88", "title": "Expectation values of the PyQTorch backend do not depend on whether the batch is looped, and respect states and endianness", "statement": "Without an initial state, expectation returns one row per element of the batch and one column per observable; row i consists of the values of the observables with the parameters of element i in the final state of the circuit with the parameters of element i. The looped expectation is the same as the batched one if circuit and observables have the same batch size. run inverts the bitstrings of every state for little endianness. A given initial state must have 2**n amplitudes, the loop accepts only one state, and missing parameters, lengths which do not fit and an empty list of observables are refused.", "quantifier": "all circuits and observables (as functions of parameter values and one state), numbers of qubits, parameter dictionaries of vectors of length one or m, batch sizes, initial states and endiannesses", "why_tests_cant": "One test runs the loop, with one circuit and one flat dictionary; separate dictionaries are only tested without the loop, and no test found passes little endianness to expectation. Truncation by zip, the ignored endianness, and the permuted batch of one qubit give tensors which look right.", "anchors": ["qadence/backends/pyqtorch/backend.py:158-253", "qadence/backends/utils.py:98-184", "qadence/transpile/invert.py:95-109"]}
{"id": "C89", "title": "Circuits, registers with blocks, and blocks are executed alike", "statement": "run, sample and expectation of a block alone, of a number of qubits or a register with the block, and of the circuit on as many qubits as the block has, give the same result. Larger registers are used as given and smaller ones refused; a composite block alone is run on the smallest register containing its qubits. Blocks with global support and other arguments raise ValueError. run of a list should concatenate the results of its elements. expectation computes gradients exactly if a differentiation mode is given, run never.", "quantifier": "all blocks, register sizes, backends (as functions of circuits), lists and differentiation modes", "why_tests_cant": "Tests call each form for a few blocks. A search of the tests, docs and examples found no call with a literal list of circuits, which is the form that always fails.", "anchors": ["qadence/execution.py:24-300", "qadence/extensions.py:119-137"]}
{"id": "C90", "title": "Derivatives of models by automatic differentiation are the partial derivatives at every row", "statement": "For a model with one output which treats the rows of its input separately, derivative(model, x, indices) with automatic differentiation has at row b the iterated partial derivatives of the model at row b with respect to the indices in their order. It does not depend on the other rows or the size of the batch. Models with another number of outputs are refused.", "quantifier": "all functions of a row (differentiable or not, with the convention that a missing derivative is zero), batch sizes, numbers of inputs, non-empty lists of indices and inputs", "why_tests_cant": "The test compares with finite differences for one function and some indices, up to 1e-3.", "anchors": ["qadence/ml_tools/models.py:27-80"]}
