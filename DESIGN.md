# Formal model of qadence in Lean 4

`/verif/lean` holds a Lean 4 model of parts of the Python package in `/repo/qadence` and theorems about it.
`properties.jsonl` lists the properties; `MANIFEST.json` says which theorem covers which property.

## Layout

* `Verif/Model/*.lean`: the model. Small total functions which mirror the Python functions branch by branch.
  Every definition cites the file and lines it models. Python exceptions are values (`Except`/`Option`).
* `Verif/Spec/*.lean`: independent specifications (operators on qubit registers as complex matrices, parity, ...).
* `Verif/Proofs/*.lean`: helper lemmas.
* `Verif/Props/*.lean`: the property theorems and, beside each, an `example` showing that its hypotheses are met.

## Trusted base

* Lean's kernel, and the axioms `propext`, `Classical.choice`, `Quot.sound` which Mathlib uses.
  No theorem uses `sorry`, `native_decide`, `bv_decide` or an axiom of ours. `Verif/Axioms.lean` fails to compile if one does.
* The reading of the Python code: the model was written by hand from the text of `/repo`; nothing was executed.
* Floating point is replaced by exact real/complex arithmetic everywhere.
  Sympy expressions are replaced by a small expression language with exact evaluation.
* Torch, numpy, networkx, pulser, pyqtorch and horqrux are not modelled, only their documented meaning where used
  (matrix product, Kronecker product, counting, `polyfit` = least squares).

## Semantic domain

A register of `n` qubits has basis states `Fin n → Bool`; operators are
`Matrix (Fin n → Bool) (Fin n → Bool) ℂ`. A gate on qubits `qs` with local matrix `U` acts as `U` on the bits `qs`
and as identity on the others (`Spec/Operator.lean`). This is the specification every block transformation is measured by.

## Plan per property

| id | what is modelled | how proved |
|----|------------------|------------|
| C01-C03 | `utils.py` bitstring functions on lists of bits; real logarithm for the default width | induction on the width / bit lists, `Nat.log` bounds |
| C04-C06 | `invert_endianness` on vectors and counters, `count_bitstrings` | permutation is involutive; fold invariants on counters |
| C07 | `AbstractBlock` operators over a block AST | case analysis against the matrix semantics |
| C08 | `block_to_tensor`, `_fill_identities`, `_controlled_block_with_params`, `_swap_block` with index arithmetic on `2^n` matrices | refinement to the operator semantics |
| C09-C13 | `flatten`, `scale_primitive_blocks_only`, `fill_identities`, `chain_single_qubit_ops`, `unroll_block_with_scaling` | structural induction, commutation of operators with disjoint support |
| C14 | `dagger` of each class | structural induction, negation with witness for classes where it is wrong |
| C15 | `reassign`, `invert_endianness` on blocks | structural induction, permutation conjugation |
| C16 | `_check_commutation` | Pauli commutation on tensor factors |
| C17 | `transpile` | fold lemmas |
| C18, C19 | supports | structural induction / list lemmas |
| C20, C21 | `__eq__`, `_to_dict`/`_from_dict` | induction; negations with witnesses |
| C22 | `get_blocks_by_tag` | induction |
| C23-C25 | `NoiseHandler` as a state machine | invariant by induction over operation histories |
| C26, C27 | `mle_solve`, `renormalize_counts` over ℝ | loop invariant, KKT/variational inequality |
| C28-C30 | shift rules, finite differences over ℝ | trigonometric identities, linear algebra, `HasDerivAt` |
| C31-C33, C64 | counters, parity, basis rotations | fold lemmas, matrix identities |
| C34, C35 | `decompose.py` | matrix exponential identities, recursion on the order |
| C36-C38 | `embedding`, `ParamMap`, `to_list_of_dicts`, `stringify` | induction on expressions and dictionaries |
| C39 | register coordinates | metric identities |
| C40-C43 | constructors | list lemmas, decimal printing injectivity, operator identities |
| C44 | `qft` | induction on layers, operator identities |
| C45 | `daqc_transform` | finite sums, index bijection |
| C46 | feature maps | affine algebra |
| C47 | overlap circuits | inner product identities |
| C48 | `states.py` | operator action on basis vectors |
| C49-C54 | ml_tools callbacks, checkpoints, parameters, trainer loop | invariants over event histories |
| C55, C56 | analog blocks, Rydberg terms | induction, finite sums |
| C57 | gate matrices | trigonometric identities |
| C58 | `zne` with least-squares `polyfit` | uniqueness of interpolation |
| C59 | information content | counting and concavity |
| C60 | shadow estimator | finite expectation over bases |
| C62, C63 | functions on leaves, pulse stretching | induction over blocks, matrix exponentials |

Details, deviations and defects found are recorded below as the model grows.

## Blocks (C07, C09-C13, C17, C22)

* Blocks are `leaf | scale | comp kind parts` with an optional tag (`Model/Block.lean`), generic in the leaf type.
  Kinds are chain, kron and add. `PutBlock` and analog composites are not part of this type.
* The meaning of a block (`Spec/BlockSem.lean`) is an operator on `n` qubits, given the operator of each leaf, which
  must act on the support of the leaf only. Noise annotations have no influence on the operator.
* Expressions (`Model/Expr.lean`) stand for sympy expressions. Sympy's automatic simplification is not modelled; it is
  trusted to preserve values. Python numbers are exact rationals.
* Python sets are lists without duplicates in an arbitrary order; theorems quantify over the order function `ord`.

Deviations from the properties (all with a counterexample theorem):

* C07: `Zero() ** 0` is `Zero()`.
* C09: `flatten` builds new composites and drops the tags of the old ones.
* C10: `scale_primitive_blocks_only` on a scaled empty chain returns the empty chain and loses the scale.
* C11: `fill_identities` raises `AssertionError` on a kron of parts with interleaved or gapped supports.
* C12: `chain_single_qubit_ops` uses `zip(*blocks)` where a block is its own iterator source; if the same Python object
  occurs twice in the chain of krons its parts are consumed by a shared iterator and gates are lost.
* C13: `unroll_block_with_scaling` does not open sums below a scale of a scale.

## Dagger and relabelling (C14, C15)

* `Model/Dagger.lean` models `dagger` of each class over the concrete leaves of `Model/Gate.lean` (`Gate`, and `Prim` which
  adds noise annotations and Hamiltonian evolutions with a block generator). The adjoint is the conjugate transpose of the
  operator, under a parameter assignment with real angles.
* C14 is false for `U` with different outer angles, `Projector` with ket ≠ bra and non-Hermitian `MatrixBlock`. Tags of
  composites are lost by `dagger`, so the involution theorem compares blocks up to tags. `S`/`T` daggers drop noise.
* `Model/Reassign.lean` models `reassign` and `invert_endianness`. The specification is a permutation of the register
  acting on basis states (`Spec.relabel`). A map which is not injective on the qubits is out of the scope of C15.
* C15 is false for `HamEvo`: `reassign` changes its `qubit_support`, but not the generator, and the operator is computed
  from the generator. The attributes `control`/`target` of control blocks stay stale; no code reads them.

## Supports, matrices of blocks, gate matrices (C08, C18, C57)

* C18: `Model/Circuit.lean` models `qubit_support`, `n_qubits` and the constructor of `QuantumCircuit`. `n_qubits` of
  parametric controls, `S`/`T` and `Toffoli` is overridden with the number of qubits of the gate instead of the largest
  index plus one, so circuits which are too small for their block are accepted; the support of a composite is the order of
  a Python set, which need not be sorted.
* C08: `Model/Tensor.lean` models `_block_to_tensor_embedded` with matrices as functions on natural numbers with a
  dimension; parameter values come from `Spec.eval`. `Spec/Tensor.lean` says what it means to be the matrix of an operator
  in a basis ordered by a list of qubits; the operators are those of `Spec/GateSem.lean`. Only matrices (no batches) and
  no `diag_only`/`block_to_diagonal`.
* Defects found in C08: `TDagger` raises TypeError since its name `T_dagger` is not a key of `OPERATIONS_DICT`; `N(q, "0")`
  gives the matrix of `N(q, "1")`; `Projector` is transposed; matrices on several qubits are placed as if their qubits were
  ascending and adjacent, and are not reversed for little endian; a gate outside of the given support becomes an identity.
* C57: the entry `TDagger` of `OPERATIONS_DICT` is the matrix of `T`.

## Bitstrings, noise handlers, qubit supports (C01-C06, C19, C23-C25)

* Bitstrings are lists of `Bool`; the default width uses the real logarithm with `ceil`.
* C19: `QubitSupport` addition with `"global"` is not associative.
* C25: `NoiseHandler.__eq__` zips the protocol lists and ignores the length: a handler equals each of its extensions.

## Training tools (C49–C54)

Model: `Model/Training.lean`, `Model/Callbacks.lean`, `Model/Checkpoint.lean`, `Model/FlatParams.lean`.

- **C49, C54** The training loop is a machine emitting events (stage, current epoch, iteration seen by callbacks). The outside
  world — callbacks setting the stop flag, Ctrl-C — is an arbitrary function from histories to reactions. Proved by an
  invariant of the loop (`LoopInv`) for every world; the exact schedules are proved for the world that never interferes.
  Not modelled: several processes, the `test` stage, data loaders, exceptions other than `KeyboardInterrupt`.
  Defects: (a) `max_iter = N` runs N+1 epochs; (b) `called_every = 0` still fires on `train_start`/`train_end`, where conditions
  are ignored as well; (c) at `*_start` events the iteration is the one of the previous event.
- **C50** Floats are `FVal` (rationals, infinities, NaN; comparisons exact). Specification: position `i` *improves* if it is better
  than every number before. The theorem ties the stop requests to this notion, not to the counter.
- **C51** Real arithmetic. Defect: cosine annealing reads the current learning rate as the maximum, so calls compound.
- **C52** Regular expressions are modelled by suffix stripping and trailing digits (equivalent for names ending in `.pt` and
  devices without special characters; Unicode digits are left out). Defect: `type in f` matches anywhere in the name, and a
  single candidate is returned without looking at its device.
- **C53** Tensors are shape + row-major values. Defects: long vectors are accepted; a failure leaves the model half updated.

## Parameters and embedding (C36–C38)

Model: `Model/Embedding.lean`.

- **C38** `stringify` names constants by Python's `hash`. The hash of ints and floats is modelled by the documented formula
  modulo 2^61 - 1 on dyadic numbers `m / 2^e`. Defect: hashes collide, most visibly `hash(-1) == hash(-2)`; a circuit with
  both constants runs with one of them (see `C36_counterexample_alias`).
- **C36** A block is reduced to its tree of parameters (`PBlock`); the specification `Spec.Slot` says which id/expression
  pairs occur in it. What sympy and torch do is a record `ParamWorld`; `evalBatch` models elementwise evaluation with
  broadcasting in exact arithmetic. Keys of `embedded_params` which are expressions never equal string keys.
  Defects: aliasing of constants; `.` is replaced by `_` in names, so `a.b` and `a_b` alias at expression level.
  Not modelled: constant matrices (`sympy.Array`), gradients, the jax engine.
- **C37** Tensors have shape `(n,)`, `(n, m)` or `()`. An entry of length one becomes a tensor of shape `(1,)` in each element
  while an entry of full length becomes one of shape `()`; the specification compares the values only. Lengths other than
  one and the batch size are accepted and every element gets the whole vector.

## Registers and Hamiltonians (C16, C39, C40)

Model: `Model/Register.lean`, `Model/Hamiltonian.lean`.

- **C39** A register is its graph: nodes with optional positions, edges. Coordinates are real numbers. Layout algorithms of
  networkx (spring, circular, lattice) are not modelled, their positions are inputs; only `line_graph` is built in the model.
  `Planar r P` says that all nodes have two coordinates, given by `P`. Since `Register.__init__` divides by the smallest
  distance, the smallest distance afterwards is the spacing itself. Remarks: two coincident nodes switch the rescaling off;
  `Register(graph, spacing)` changes the positions of the caller's graph in place (not modelled).
- **C16** `_check_commutation` collects the Pauli names per qubit. The specification says that any two parts (`Spec.Part`) commute
  as operators. Chains make the function raise TypeError, as in the code.
- **C40** Strengths are expressions. `Spec.strengthAt` says which number belongs to the k-th node or pair, `detuningSum` and
  `interactionSum` are the documented sums. Torch tensors of strengths are lists.

## Ansätze (C41–C43)

Model: `Model/Ansatz.lean`. Specification: `Spec/Params.lean` (names, linked pairs and gates of a block, in order, read off the
tree independently of the constructors).

- **C41** Names are strings, so the proofs go through the decimal notation (`Proofs/Names.lean`). Parameters inside a generator
  given by the caller are not counted. Defects: `hamiltonian_factory` numbers pairs by gluing the two indices
  (`J_111` is both (1,11) and (11,1)…) and shares prefixes with user names; `iia` glues layer and index
  (`_{layer}{n}`), so layers 1 and 11 clash from depth 12 on. The left and right entanglers of `iia` share their parameter
  on purpose. `ala` passes a prefix already ending in `_ent`, giving `_ent_ent`.
- **C42** Defects: `hea` with `periodic=True` on an odd number of qubits (or on two) never links the last to the first qubit,
  and on one qubit `hea` raises NotImplementedError (empty kron). `ala` raises on odd layers if the
  register is not longer than a block.
- **C43** The ansatz is the identity at the initial values. Symbols are cached by sympy under their name (and the truth value of
  the `value` assumption); the model takes the value created last (`lastValue`). With clashing names the values are still
  inverse to each other, so the identity holds for every depth. Angles drawn as exactly `0.0` together with clashing names
  (a second cache entry) are not modelled. Periodic on one qubit (`CNOT(0, 0)`) is excluded. SDAQC: the generator is any
  block, evolution for time zero.

## Differentiation (C28, C29, C61)

`Model/PSR.lean` has `single_gap_psr`, `multi_gap_psr`, `general_psr`, the computation of the gaps from a spectrum
(including rounding to four decimals), the declared spectra of the gates and the factor for evolutions. Floating point
numbers are reals; `calculate_optimal_shifts` (used only with `shift_prefac=None`) is an arbitrary function.

* Convention: gates are exp(-i x G / 2), so an eigenvalue gap g of G gives the frequency g / 2. The first version of C28
  in `properties.jsonl` had cos(g x); with that reading the rule would be wrong for every gap, the statement was corrected.
* Specification (`Spec/Trig.lean`): the span of 1, cos(g x / 2), sin(g x / 2). A rule is characterised as a combination of
  symmetric differences (`Rule`), from which exactness, second order and mixed derivatives follow.
* C28 is about an arbitrary shift; with the default shift the rule divides by zero for gap 16, e.g. HamEvo(4 Z)
  (`C28_counterexample_default_shift`).
* C29 holds for `multi_gap_psr` as stated. `general_psr` rounds gaps to four decimals: it is exact on spectra whose
  differences are multiples of 0.0001 (`C29_general`), inexact otherwise (`C29_counterexample_rounding`), and raises
  UnboundLocalError if all gaps round to zero (`C29_counterexample_small_gap`).
* C61 (`Spec/Circuit.lean`, `Proofs/Circuit.lean`, `Props/PSRCircuit.lean`): `OnlyIn u l b` says that the parameter occurs
  in one primitive block only, under chains, krons and scale blocks. The operator of the circuit is then A D(x) B, D(x) has
  a spectral form, so the expectation values are trigonometric polynomials whose frequencies are differences of the real
  eigenvalues. The declared `eigenvalues_generator` of every gate contains these differences and the default shifts make
  the linear system solvable. Evolutions use the spectral theorem. Not modelled: the chain rule from gate parameters to
  user parameters (done by torch), noise, the `observable` function built by `construct_rules`.

## Numerics and mitigation (C26, C27, C30, C58)

Model: `Model/Readout.lean`, `Model/FiniteDiff.lean`, `Model/ZNE.lean`. Floating point numbers are reals.

* **C26** The loop of `mle_solve` runs over the sorted vector; `argsort` is any permutation that sorts (`C26_argsort` shows
  one exists). Closest vector: the inequality for projections on the simplex, over all competitors.
* **C27** False. `renormalize_counts` shifts every count by the surplus of the total (not by the surplus divided by the number
  of outcomes), clips and rescales with rounding: the total can be 0 for 2 shots, and for 12 shots on 8 outcomes it divides by
  zero (numpy goes on with undefined integers; the model raises). The caller then subtracts the difference from the largest
  count; this can make it negative, it is then dropped from the counter, whose total is wrong. Proved: non-negativity, a bound on the
  total and the exact total if the largest count is at least the difference.
* **C30** Functions are arbitrary along other coordinates. Inner calls of `finitediff` do not get `eps`, they use the default step of
  their own order; this is modelled. Negative indices count from the end and compare as different from the positive ones.
* **C58** `np.polyfit` is a relation: a best fit with least scaled coefficients, without truncation of small singular values.
  The degree is always the number of levels minus one. With repeated levels the extrapolation is wrong even on constants.

## Measurements (C31–C33, C64)

Model: `Model/Measure.lean` (`measurements/utils.py`, `tomography.py`, `samples.py`). Counters are dictionaries of bit lists; the
backend's `sample` and sympy's `evaluate` are arguments. Specification: `Spec/Measure.lean` (parity, expectation value,
`BornCounter`: frequencies equal to the Born probabilities, `PauliString`).

* **C31** The mean parity of every counter, its range, the exact value of the Z string for exact frequencies, and unbiasedness for
  independent shots. The number of shots is taken from the first counter only: with different totals the other means are
  wrong (`C31_counterexample_unequal_shots`). numpy's nan for zero shots is an error in the model.
* **C32** Marginals of counters: every count, the total, no repeated keys. An empty counter raises a TypeError (`reduce`).
* **C33** `C33_rotate`: the appended gates R are unitary and R P R† is the Z string, for every Pauli string with any number of X,
  Y, Z. `C33_tomography_partial`: exact values for every sum of scaled Pauli strings, batch, circuit. False in general
  (counterexample theorems): an identity or N inside a string is measured as Z; of a nested kron (what `Z(0) @ Z(1) @ Z(2)`
  builds) only one qubit is measured; a factor inside a kron is dropped; an identity term with a batch larger than one
  raises. Coefficients are evaluated with default values of their parameters, whatever values the caller supplies; this
  is the hypothesis `hvalue`. Little endian sampling is not modelled.
* **C64** The samples protocol: exact on sums of scaled Z strings with exact frequencies, refuses everything which is not diagonal
  and the identity alone. Identities inside sums are measured as Z (`C64_counterexample_identity`). N is refused although diagonal.

## Digital-analog transform (C45)

- Model: `Model/DAQC.lean`. Function by function: `_ix_map`, `_build_matrix_M` (the four nested loops, an assignment per
  step), `_parse_generator`, `_check_compatibility`, `_nn_phase_and_detunings`, `daqc_transform`. Couplings and times are
  rational numbers; `torch.linalg.solve` is the exact inverse and raises for a singular matrix; `evaluate` of a coefficient
  is an argument. The warning about long times is not modelled.
- Specification: `Spec/DAQC.lean`. `TwoBody` lists the terms `(j, k, c)` of a Hamiltonian, `coupling` is the total coupling
  of a pair, `pairSign` the sign which two X gates give to `Z Z`. The claim compares the operator of the circuit with
  `evolution tf (sem target)` (matrix exponential).
- Theorems: `C45_ix_map` (bijection onto 1..n(n-1)/2 for every n), `C45_invertible` and `C45_singular_four` (the sign
  matrix is singular for 4 qubits only), `C45_exact`, `C45_ignore_phases` (equality up to a phase), `C45_error_bound`
  (without a hypothesis on the times), `C45_uncovered`, `C45_refuses`, `C45_refuses_parameter`, `C45_default_build`.
  All four combinations of ZZ and NN targets and builds are covered.
- Hypotheses of `C45_exact`: no slice time in `0 < |t| ≤ zero_tol` (such slices are dropped by the code; the error bound
  covers them), build coupling 0 only where the target coupling is 0 (the code accepts target couplings up to `zero_tol`
  there and ignores them), pairs iterated in ascending order.
- Defects:
  - `C45_counterexample_set_order`: the position of a coupling is computed from `block.qubit_support`, whose order comes from
    a Python set. `{1, 8}` is iterated as 8, 1 in CPython, so that for registers of at least 9 qubits the coupling of
    (1, 8) is stored at the position of (4, 7), and the circuit evolves under the wrong Hamiltonian.
  - `C45_counterexample_N_state`: `N(i, state="0")` is treated like `N(i)`.
  - Not a theorem: coefficients which are single parameters are refused (`C45_refuses_parameter`), but expressions like
    `2 * theta` are silently evaluated at the initial value of the parameter (in the model: the argument `value`, required to
    agree with the environment in `TwoBody`).

## Feature maps (C46, C65)

- Model: `Model/FeatureMap.lean`. Ranges are rational, the float `PI` is an argument, `math.isclose` is its formula with the
  default tolerances; `np.array_split` is modelled by the list of section sizes; the dictionary `num_uploads` by a function
  which is updated step by step. `FeatureMapConfig` after the replacement of single values by dictionaries.
- Specification: `Spec/FeatureMap.lean` (`affine`, `interval`, `Splits`), and `encoding` in `Props/FeatureMapGates.lean`.
- Theorems: `C46_scaling_affine_partial`, `C46_scaling_bijection_partial` (increasing bijection between the ranges, factor
  equal to one or not within `1e-9` of it), `C46_scaling_error` (all factors), `C46_scaling_degenerate`,
  `C46_scaling_defaults`, `C46_scaling_identity`, `C46_feature_map_accepts` (exact conditions), `C46_feature_map_operator`
  (one rotation per qubit, all angles), `C46_exp_fourier`, `C46_parallel_split`, `C46_series_support`, `C46_uploads`,
  `C46_encode_parallel`, `C46_encode_series`, `C46_fm_qubits_parallel`, `C46_fm_qubits_rest`, `C46_build_idx_fms`, `C46_build_idx_operator`.
- Defects:
  - `C46_counterexample_isclose`: a factor within `1e-9` of one is replaced by one, so that the image of the feature range is
    not the target range. The deviation is bounded by `C46_scaling_error`.
  - `C46_fm_qubits_rest`: `get_fm_qubits` leaves the remainder of the register idle, and with fewer qubits than features
    `build_idx_fms` fails with an unrelated NotImplementedError (`C46_build_idx_fms`).
  - `C65_counterexample_strategy`: the tests `isinstance(self.operation, AnalogBlock)` in `FeatureMapConfig.__post_init__` are
    applied to a class and are always false. An analog operation with the digital or the Rydberg strategy ends up with the
    digital strategy and is refused later; the announced adaptation never happens.
- Not modelled: `analog_feature_map`, `rydberg_feature_map`, `rydberg_tower_feature_map`.

## Quantum Fourier transform (C44)

- Model: `Model/QFT.lean`, function by function; `gen_build` is resolved in every layer as in the code. The float `PI` is an
  argument: the symbol π for exact statements about the digital circuit, a rational number in the digital-analog circuit
  (whose couplings are rational in `Model/DAQC.lean`).
- Specification: `Spec/QFT.lean`, the Fourier matrix with and without reversal of the bits of the result.
- Theorems: `C44_fourier` (every n, every support of any register, all combinations of `inverse`, `reverse_in`,
  `swaps_out`: the operator is the Fourier matrix on the qubits of the support in the given order, or its adjoint),
  `C44_dft` (the default call), `C44_inverse` (adjoint, composition is the identity), `C44_refuses`.
  `C44_sdaqc`: the digital-analog circuit has the same operator as the digital one, for every n except 4, all options and
  all covering ZZ or NN build Hamiltonians; `C44_sdaqc_default` for the default interactions; `C44_sdaqc_refuses` and
  `C44_sdaqc_four` for what is refused.
- Hypotheses of `C44_sdaqc`: those of `C45_exact` (ascending pairs, no slice in the dropped range). From about 25 qubits on
  the smallest angles are below the tolerance and slices are dropped; the deviation is bounded by `C45_error_bound`.
- Proof: the layers are multiplied from the right; after k layers the matrix is a product of one phase per pair and one
  Hadamard entry per qubit (`prefixMat`); for k = n the phases add up to the product of the two numbers modulo 2^n.
- Defect: `C44_counterexample_short_support`. The assertion admits supports shorter than `n_qubits`; the construction then
  stops with an IndexError.

## Digital decompositions (C34, C35, C66)

- Model: `Model/Decompose.lean`. Times and angles are exact expressions; the float `p2` of order 4 is an arbitrary rational
  number; the evaluation of the time for the warning in `time_discretisation` is left out. `change_to_z_basis` and
  `decompose_pauli_exp` are modelled for arbitrary blocks (nested, with exceptions), `digitalize` on blocks. `digitalize` on
  circuits is not modelled separately; it rebuilds the circuit from the number of qubits and forgets the register.
- Specification: `Spec/Decompose.lean`. `Plain` terms are those for which the decomposition is right; `productFormula` is
  the product of evolutions of a schedule of pairs (term, fraction of the time), `share` the total fraction of a term.
- Proofs: basis changes, CNOT ladder and rotation form `B (c 1 + s Z) A` with `B A = 1`; `A P = Z A` for the string P
  (`sandwich`); P squares to one, so the exponential is `c 1 + s P`.
- Theorems: `C34_filled` (exact description of what the gates do for all letters X, Y, Z, I, N and all supports),
  `C34_pauli_exp_partial`, `C35_schedule_partial` (one schedule per order and number of terms, shares add up to one,
  palindromes), `C35_commuting_partial`, `C35_digital_decomposition_partial`, `C35_order_ignored`, `C66_digitalize_partial`
  (any nesting; also: no exception, no new qubits).
- Defects:
  - `C34_counterexample_gap`: the ladder runs over all qubits between the lowest and the highest one, so idle qubits get a Z.
  - `C34_counterexample_identity`, `C34_counterexample_number`: I and N are exponentiated like Z.
  - `C34_counterexample_one_part`, `C34_counterexample_nested`: a kron with one part or with composite parts: the letters
    inside are not seen.
  - `C35_counterexample_odd_y`: `reversed(outer)` reverses the gates, not the terms. The reversed gates of a term with an
    odd number of Y evolve backwards in time; in `Y(0) + Z(1)` the first term disappears.
  - `C35_order_ignored`, `C35_counterexample_order_ignored`: the result of `block_is_commuting_hamiltonian` is not used, so
    that non-commuting generators without chains are decomposed by one step of order 1 whatever order is asked for.
  - `C66_counterexample_u`: `U.digital_decomposition` applies RY(theta) twice.
  - `C66_counterexample_scale`: evolutions in scale blocks are left as they are. `C66_counterexample_kron`: a kron next to an
    evolution with a gap raises an AssertionError.

## States (C48) and unitarity (C67)

- Model: `Model/States.lean`, the block constructors, the state functions, `normalize`, `is_normalized`, `pmf`, `density_mat`
  and `overlap_exact`. Wave functions are lists of rows of exact complex numbers. Random numbers are arguments. The
  simulation used by `product_state` is an argument `native`; the theorems about it assume that it returns the amplitudes of
  the specified operator (`ExactSimulation`). Not modelled: `_rand_haar_slow`, `random_state` with RANDOM_ROTATIONS,
  entropies, the choice of dtype.
- Specification: `Spec/States.lean`. `Tabulates e row φ` says which entry of the row belongs to which basis state.
- Theorems: `C48_product_block`, `C48_zero_block`, `C48_one_block`, `C48_uniform_block`, `C48_ghz_block` (block prepares the
  vector which the state function returns, for every n and every bitstring, both endiannesses), `C48_unit_vectors`,
  `C48_is_normalized`, `C48_normalize`, `C48_pmf`, `C48_product_state`, `C48_product_states`, `C48_no_qubits`,
  `C48_rand_product_state`, `C48_rand_haar_fast`, `C48_density_mat`, `C48_overlap`.
- `C67_circuit_unitary`, `C67_gates_unitary`, `C67_norm_preserved`: hypothesis `IsCircuit` (no sums, factors of modulus one,
  no projectors, `Zero` or `N`, real angles, Hermitian generators). `C67_not_unitary` shows that the exclusions are needed.
- `Proofs/Place.lean` embeds a register into a larger one; `reassign` with the table of the embedding denotes the embedded
  operator (`C15_reassign_embeds_partial`).

## Overlaps of circuits (C47)

- Model: `Model/Overlap.lean`, the circuits of compute-uncompute, swap test and Hadamard test (built by the models of `reassign`,
  `dagger`, `kron` and `QuantumCircuit`), the formulas on wave functions and on counters. Simulation and sampling are
  arguments; `ExactBatch` says that the simulation returns the amplitudes of the specified operator for each set of parameter
  values. Blocks of gates only: for Hamiltonian evolutions `reassign` does not rename the generator (C15).
- Specification: `overlapOf` in `Spec/Overlap.lean`, the squared modulus of the inner product of the two states.
- Proof: the operators of the three circuits are computed for every N (`Proofs/OverlapCircuits.lean`), the probability of
  measuring 0 on the ancilla is computed for any two unitaries (`Proofs/OverlapTests.lean`: the product of the controlled
  swaps exchanges the halves of the register by induction over the qubits), and the formulas of the code are related to that
  probability (`Proofs/OverlapProb.lean`).
- Theorems: `C47_exact`, `C47_swap_test`, `C47_compute_uncompute_partial`, `C47_hadamard_test_partial` (wave functions),
  `..._counts` (counters with Born frequencies), `C47_unit_interval`, `C47_methods_agree_partial`, `C47_counts_range`.
- Defects:
  - `C47_counterexample_u`: compute-uncompute uses the wrong dagger of `U` and returns 0 for a state with itself.
  - `C47_counterexample_size`: the Hadamard test of a block which is a single `T`, `U` or parametric control gate on a higher
    qubit raises a KeyError, because `n_qubits` of these gates is wrong.
  - `C47_counterexample_counts`: estimates from counters can be negative (swap test) or up to 2 (Hadamard test).

## Divergences (C68) and batches of overlaps (C69)

- Model: `Model/Divergence.lean`, `divergences.py` with exact real numbers, `none` for nan; `Counter.__add__` drops counts which
  are not positive, as in the standard library. `Model/OverlapBatch.lean`, `_process_param_values` and `forward` of `Overlap`,
  with the values of the overlaps as arguments (`Circuits`): which value is computed for which pair of parameter values is
  what is proved here, the values themselves are C47 and C68. Tensors of parameter values have zero or one dimension.
- Specification: `Spec/Divergence.lean`: relative entropy and Jensen-Shannon divergence over a finite set of outcomes.
- Theorems: `C68_js_divergence` (value, symmetry, range, both equality cases), `C68_overlap`, `C68_norm_difference_partial`;
  `C69_grid`, `C69_pairs`, `C69_sizes`, `C69_bra_only`, `C69_many`.
- Defects:
  - `C68_counterexample_orthogonal`: the Jensen-Shannon overlap of two orthogonal basis states is 1 - ln 2, not 0;
    `C68_counterexample_phase`: that of two orthogonal states with the same frequencies is 1. It is not a squared inner product.
  - `C68_counterexample_zero_count`: an entry with count zero makes the divergence nan.
  - `C68_counterexample_norm_difference`, `C68_counterexample_norm_shape`: `norm_difference` compares by position, not by
    bitstring: all shots on 0 and all shots on 1 have distance 0, different numbers of outcomes raise a ValueError.
  - `C69_counterexample_shared`: compute-uncompute and swap test ignore the values of the ket if bra and ket share the name of
    their feature parameter. `C69_counterexample_hadamard`: the Hadamard test mixes the values of bra and ket.
  - `C69_counterexample_ket_only`, `C69_counterexample_bra_only`: KeyError if only one side has a feature parameter.
  - `C69_counterexample_zip`: Jensen-Shannon drops all but the first value if only the bra has a feature parameter.
  - `C69_counterexample_scalar`: values without batch dimension raise a TypeError for two feature parameters.

## Equality of blocks (C20)

- Model: `Model/Equality.lean`, `__eq__` of primitive, parametric, control, scale and composite blocks, `__contains__` of
  composite blocks, and the rule of Python that the reflected method of a subclass is tried first. `Expr.pyEq` is structural
  equality of expressions with `Parameter.__eq__` (a parameter equals every expression it occurs in). What sympy can show with
  `equals` beyond that is an argument `simp`, assumed to be sound (`SimpSound`). Not modelled: `PutBlock`, analog blocks, and
  the equality of circuits (`circuit.py:54-61`, graph isomorphism of the registers).
- Specification: `Spec/Equality.lean`: `Same`, the same tree up to the order of the parts of krons and sums.
- Proof: `pyEq_sound` and `pyEq_complete` by strong induction over the size of the blocks; a map from the parts of one block to
  equal parts of the other is a bijection, because distinct parts cannot have the same image; `same_sem` gives the operator.
- Theorems: `C20_equal_partial` (equal blocks are the same and denote the same operator), `C20_symmetric_partial`,
  `C20_same_equal`, `C20_reflexive`, `C20_no_exception`. `Faithful` lists what has to be excluded, one item per defect.
- Defects:
  - `C20_counterexample_multiplicity`: `X(0) + X(0) + Y(0) == X(0) + Y(0) + Y(0)`.
  - `C20_counterexample_deep`: `kron(X(0), X(1)) == kron(chain(X(0), X(1)), X(2))`, and not in the other direction.
  - `C20_counterexample_number`, `..._projector`, `..._matrix`, `..._generator`: state of `N`, bra and ket of projectors, the
    matrix of matrix blocks and the generator of evolutions are not compared.
  - `C20_counterexample_parameter`: `RX(0, x) == RX(0, 2*x)`, and not in the other direction.
  - `C20_counterexample_u`: comparing two `U` on the same qubit raises an AttributeError, so `==` is not reflexive.
  - Noise is not compared either; it does not change the operator specified here.

## Dictionaries of blocks and circuits (C21)

* `Model/Serialize`: `_to_dict` and `_from_dict` per class family (`PrimitiveBlock`, `ParametricBlock`, `ControlBlock`,
  `ParametricControlBlock`, `ScaleBlock`, `CompositeBlock`), the search of the class by its name, `deserialize` for blocks,
  `QuantumCircuit._from_dict` with the register. The constructors which `_from_dict` calls are modelled by their result for the
  arguments given there (including the exceptions). Writing and reading of expressions are arguments (`ser`, `des`); what they do is C70.
  Uuids, the device of the register, `PutBlock`, analog blocks, json and files are not modelled. Dictionaries which no `_to_dict`
  writes are answered by a KeyError, python may do something else.
* Specification: `untag` (what is lost), `LoadableGate` (the classes which can be loaded), `BuiltGate` (what constructors give).
* `C21_round_trip_partial`: induction over blocks; `C21_loads_iff`: exactly the blocks made of the classes listed are read back, for
  all nested blocks. `C21_same_operator`, `C21_equal` (the `==` of C20 does not see the loss), `C21_second_trip`.
* `C21_register_iff`: a register survives iff its smallest distance is 1 or 0.

Defects found: `N`, `Zero`, `Projector`, `MatrixBlock`, `PHASE`, `U`, `HamEvo`, `MCZ`, `Toffoli`, `CSWAP` and all controlled rotations can be
written but not loaded (`C21_counterexample_classes`); tags of gates and scale blocks are lost
(`C21_counterexample_gate_tag`), in circuits also the one of the root (`C21_counterexample_circuit_tag`); a register with spacing 8
becomes one with spacing 1 (`C21_counterexample_register`), which changes the physics of analog blocks.

## Analog blocks (C55), Rydberg Hamiltonians (C56), addressing patterns (C71)

Model: `Model/Analog.lean` — analog blocks with their supports, durations and constructors; `AnalogRX/RY/RZ`; `AddressingPattern`;
`rydberg_interaction_hamiltonian` on top of `hamiltonian_factory` (C40), `rydberg_drive_hamiltonian`, `rydberg_pattern_hamiltonian`,
`add_background_hamiltonian` with `apply_fn_to_blocks`.

* Strengths are real numbers, constants of expressions are rational: `num` turns the former into expressions; the theorems assume
  that it does so for the strengths which occur (for a register with rational strengths this can be met, see the example).
* The table of C6 coefficients is an argument. Warnings, colours, eigenvalues of analog blocks, `AnalogEntanglement` are not modelled. Weights are
  numbers or parameters, not tensors.
* Specification: `Spec/Analog.lean` (regions and times of blocks), `Spec/AnalogHam.lean` (documented Hamiltonians; `Runs` says which evolution
  a block documents), `Spec/AnalogPattern.lean` (what a qubit feels of a pattern).
* C55: acceptance of chains and krons is characterised; supports of the parts of a kron built by the constructors are disjoint;
  durations add up, by induction over nested blocks.
* C56: `C56_van_der_waals`, `C56_dipolar`, `C56_drive` (equalities of operators for all registers in the plane), `C56_scaling`,
  `C56_rescaled_register`, `C56_execution_partial` and `C56_device_partial` (induction over the block), `C56_analog_rotations`.
* C71: `C71_operator` is the equality of operators, for all parameter values; `C71_limits` and `C71_within_limits` say what the factors made of
  Heaviside functions do; `C71_device_partial` joins it with C56.

Defects found. C55: durations only need to be close (`np.isclose`), parameters are compared at the values they have when the block is
built, a kron may contain a chain which contains a global block, chains may leave gaps. C56: parts of an `AnalogKron` are run one
after the other, each under the interaction of all atoms, so that a kron of two rotations takes twice its duration
(`C56_counterexample_kron`: different operators); interaction blocks in a kron are dropped, a kron of interaction blocks only raises
UnboundLocalError; interaction blocks with a local support act on the whole register. C71: at the limit the factor is Heaviside(0) = 1/2, so
the *default* amplitude and detuning with weight 1 count half (`C71_counterexample_default`); a parameter with value 1 counts
less than 1/2 and a negative one as its absolute value, contrary to the comment (`C71_counterexample_soft_weight`); the check for weights of
non-existing qubits looks at the augmented dictionary and never fires (`C71_counterexample_foreign_qubit`).
Documentation: the docstring of `rydberg_drive_hamiltonian` lacks the factor Ω/2 of the sine term.

## Functions on leaves, noise (C62); stretched pulses (C63)

Model: `Model/ApplyFn.lean`, `Model/Stretch.lean`, on top of the models of blocks and of analog blocks.

* C62: `set_noise` rebuilds the block, throws the result away and returns the block changed in place; the model does both. A gate
  object which occurs twice in a block is one object in python; here leaves are values, which is the same since all of them are
  treated alike. The noise attribute of evolutions and scale blocks is not modelled.
* `C62_replaced`, `C62_total`, `C62_operator`: for all functions and blocks, by induction over blocks. `C62_set_noise_partial` for blocks without scale
  blocks, `C62_noise_operator` for all.
* C63: `stretchedRun` is the circuit of one experiment, from `mutate_params` and `rescale_coords` through the conversion of C56. `C63_rotation` says
  what the stretched pulse does on any register: the drive acts as before, the interaction is multiplied by `s / s^6`.
  `C63_noiseless_partial`: unchanged for chains of rotations of a single atom. `C63_sixth_root`: with the sixth root of the stretch as factor of the
  coordinates it would be unchanged for chains of rotations on every register. Noise and the fit (C58) are not part of C63.

Defects found. C62: gates below a scale block keep their old noise (`C62_counterexample_scaled`); tags of composite blocks are lost by every
`apply_fn_to_blocks` (`C62_counterexample_tag`). C63: coordinates are multiplied by the stretch and not by its sixth root, so that interacting
atoms evolve differently for every stretch (`C63_counterexample_interacting`) and the extrapolation mixes this with the noise;
interaction blocks raise AttributeError although they are asked for; krons are not stretched at all; `add_pattern=False` is forgotten.

## Information content (C59)

Model: `Model/InfoContent.lean` — all methods of `InformationContent`, over the reals. The random variations are an argument, the loss is an
arbitrary function of the parameters. `NormalDist().inv_cdf` is an arbitrary function of which only order and symmetry are assumed
(`IsInvCdf`); `torch.linspace` and `argmin` are exact. Not modelled: floats, devices, the warning for a small content, `lru_cache`.

* Specification: `Spec/InfoContent.lean` — direction of a step at a resolution, frequency of a turn, entropy of the turns. The content is compared with
  this entropy (`C59_content`): the cut at 1e-4 changes it by less than 0.0031.
* `C59_q_value`: the function inverted by `q_value` is strictly increasing on the grid, so that the value found is within one step of the solution.

Defects found: a parameter of shape `()` gives a float size and the slice raises TypeError (`C59_counterexample_scalar_parameter`); negative thresholds: a step can count as both up and down
(`C59_negative_threshold`); the grid of `q_value` ends at 0.16667 > 1/6, so that at content 1 the lower bound is above the upper one
(`C59_counterexample_crossed_bounds`); the sensitivity bound exists only for 0 < eta < 2/3 other than 1/3 and is negative above 1/3.

## Classical shadows (C60)

Model: `Model/Shadow.lean` — all of `measurements/shadow.py`. Rotation indices and outcomes are arguments; outcomes are 0/1 lists of the register, one per
snapshot and element of the batch. Estimates are rational. numpy broadcasting in the comparison of columns is modelled. Not modelled: noise,
floats, sympy arithmetic of coefficients (they are given by a function), `endianness`.

* Specification: `Spec/Shadow.lean` — words (Pauli strings with identities), which bases measure a word, mean over the matching snapshots of a group, lower median.
* Probability: bases are uniform and independent, outcomes are independent with the Born probabilities of the circuit which `snapshotCircuit`
  builds. All expectation values are finite sums over bases and outcomes (`Proofs/Shadow.lean`).
* `C60_mean_partial` is an equality for all states, words, `N`, `K`; together with `C60_conditional` it says exactly how far the estimator is from
  unbiased. The guarantee of median of means (accuracy with probability 1 - δ) is not proved, and does not follow from the group size used.

Defects found: groups without a matching snapshot contribute 0, which biases the estimate towards 0 (`C60_counterexample_biased`); letters are taken in
the order in which they are written, columns in the order of the support: `kron(Z(1), X(0))` is estimated as `kron(Z(0), X(1))`
(`C60_counterexample_order`); letters repeated on a qubit count once; nested scale factors raise ValueError and count as weight 0; circuits with a single
qubit raise AttributeError (`C60_counterexample_one_qubit`); `shadow_size` without `accuracy` raises TypeError although documented — the `KeyError`s
are created but not raised; `N` is divided into `K` groups although the cited bound is for groups of size `N` (`C60_counterexample_group_size`).

## Conversion to PyQTorch (C72)

Model: `Model/PyqConvert.lean` — `convert_block` with everything it calls, `get_param_name`, and the default passes of the backend. The result is a
tree of constructor calls (`Native`). Not modelled: time-dependent generators, noise operators of evolutions, generators which are tensors or
symbols, dropout, rounding of complex constants to single precision.

* PyQTorch is not part of the repository. `Spec/Pyq.lean` states what its operations do (documented meaning) and belongs to the trusted base, as
  does the reading of strings by `sympy.parse_expr` (`parseName`, `reread`).
* `Delivers`: the dictionary given to the native operation has the value of every parameter under its id (or its string and symbols). That the
  embedding does this is C36.
* `C72_operator_partial`: induction over blocks; in both parameter modes, with merged single-qubit chains or without. `C72_circuit_partial` adds
  the passes. Its conditions on parameters are conditions on the block after the passes, which is what the embedding is built from.
* `C72_converted`: exactly which blocks are accepted when ids are used.

Defects found: the state of `N` is dropped (`C72_counterexample_n_state`); with expressions as parameters (the default, automatic differentiation)
scale factors are turned into strings and parsed again: constants with negative hash in front of a block with parameters raise KeyError, e.g.
`HamEvo(-1 * (x * Z(0) + X(1)), t)` (`C72_counterexample_negative_constant`), so do imaginary factors (`C72_counterexample_imaginary`); a parameter named `pi`
silently becomes the number (`C72_counterexample_pi`), one named like a function of sympy (`beta`, `gamma`, ...) raises TypeError
(`C72_counterexample_function_name`). `TDagger` is refused; noise on `Zero` is ignored.

## Named Hamiltonians and observables (C73)

Model: `Model/Observable.lean` (on top of `Model/Hamiltonian.lean`); specification: `Spec/Observable.lean`, with sums over
`Fin n`. A number of qubits stands for the complete graph (positions of the nodes are arbitrary). `zz_terms` is the
indexing function of the array. Scale and shift are a number (types listed in `is_numeric`), another number (tensor),
a name, a `Parameter` with its trainability, or an expression. Not modelled: tensors with several elements, values of parameters.

Findings:

* `ising_hamiltonian_config` builds the Z terms inside the interaction: Z(j) for the pairs (0, j), and Z(0) for the
  pair (1, 2). With one or two qubits there is no pair (1, 2) (and none at all with one qubit), so the Z operator of qubit
  0 is missing (`C73_counterexample_ising_config`).
* `trainable_transform` has no effect on a `Parameter` given as scale or shift: `Parameter(Parameter(..), trainable=t)`
  keeps the trainability of its argument (`C73_counterexample_trainable`).

## Density matrices (C74)

Model: `Model/Density.lean`; specification: `Spec/Density.lean` (positive square roots, eigenvalues of Mathlib, projectors).
`torch.linalg.eigh` and `eigvalsh` are fields of a structure `LinAlg`; the theorems assume (`TorchOk`) that for Hermitian
matrices they return real eigenvalues and a unitary matrix which reconstruct the matrix, in any order and with any
choice of eigenvectors. Nothing is assumed for other matrices. Arithmetic is exact. A batch is a list of matrices; for `fidelity` the second
batch is indexed as in the code, for `equivalent_state` torch broadcasting is modelled. `partial_trace` is a call of pyqtorch and not
modelled.

Findings: `equivalent_state` compares the overlap with 1 without checking norms, so vectors which are not normalised may be called
equivalent (`C74_counterexample_norm`); `fidelity` ignores surplus matrices of its second argument (`C74_fidelity_batch`).

## Expression strings (C70)

Model: `Model/ExprString.lean` — `srepr` of sympy as far as it is used, the grammar `serial_expr_grammar.peg` as a recursive
descent parser on lists of characters (ordered choice, greedy repetition, whitespace skipped before every terminal as arpeggio
does), `eval` of an accepted string as evaluation of the tree of calls, `serialize`/`deserialize` of expressions.

* sympy expressions are trees with heads and arguments; that calling the head on the arguments of an existing expression gives
  back this expression is assumed of sympy (it is how `srepr` is specified). Floats are their digits.
* The recursion has a depth argument; `C70_fuel` shows that it has no effect.
* `Spec/ExprString.lean` defines the language by an inductive relation `Written tree text`, independent of the parser.
  `C70_language` is an equivalence: it says which strings reach `eval`, and that nothing legal is refused. `C70_unambiguous` and
  `C70_characters` follow.
* `C70_round_trip_partial`: induction over the tree shows that what `srepr` writes is in the language with the tree expected;
  decimal notation is proved to be read back for all integers.

Defects found: `pi`, `I` and all other constants are written as bare names, which the grammar does not have, so that *no*
expression containing one can be loaded (`C70_constants_rejected`); the same for floats with an exponent, `TimeParameter`
(`is_time` has an underscore), names with `-` or blanks; values of two parameters with the same name are mixed up; contrary to the
docstring calls such as `exit(0)` or `open('f', 'w')` are accepted and evaluated.

## Pasqal Cloud (C75)

Model: `Model/Cloud.lean`. The remote side is an arbitrary function from the number of the request to the status reported; time is
rational and passes only in `time.sleep`. The specification (`Spec` in `Props/Cloud.lean`) classifies statuses and shapes as in the
docstrings. Serialisation of circuits and observables is a parameter (C21 covers it). Network errors are not modelled.

Findings: `_validate_parameter_values` tests `all(len(size) > 1)` where the documentation needs `any`, so a matrix is
accepted as soon as another parameter exists and `{}` is refused; with `timeout < refresh_time` a finished workload is
reported as timed out without a single request.

## Data loaders and batches (C76)

Model: `Model/Data.lean`. A tensor is the list of its entries along the first dimension, a sample the list of the entries of all tensors
at one index, a batch the list of its samples. `DataLoader` of torch (without workers, sampler, shuffling) is modelled as
documented: consecutive samples in batches. `random.shuffle` is an arbitrary function of which the theorems assume that it
permutes. The Nevergrad optimizer is an arbitrary function of what it was told. The losses are rational numbers.

The `while True` loop of the infinite dataset is modelled by its first `m` samples for every `m`; an empty dataset, for which the
real loop never yields, is excluded by hypothesis.

Findings: see the counterexamples of C76; `test()` without an argument evaluates the loss with `None` as batch even though a
test loader was given to the trainer, and `test(loader)` is cut at the number of *training* batches.

## C77 Pulses of the Pulser backend

Model: `Model/Pulses.lean` follows `waveforms.py` and `pulses.py` with real arithmetic: rounding half to even, the durations and amplitudes of `SquareWaveform`, the search loop with fuel, the pulses for x/y, z and analog rotations, the delay of the entangling pulse, and `add_pulses` as the list of items added to a sequence. Parametrised pulses are built by the same functions once the variables have values. The ramp of `AnalogEntanglement` is not modelled.

Specification: the Hamiltonian documented by Pulser for one driven atom, written in qadence's basis (ground 0, Rydberg 1), evolved for the duration by the matrix exponential, compared with the rotation matrices of `Spec/GateSem.lean` and with the analog drive documented by qadence. That Pulser does what it documents is trusted.

Proved: the area of a waveform is right up to half a clock period or a tenth of the minimum duration at full amplitude and the search loop never repeats; RX, RY, RZ pulses are rotations by the absolute value of the angle up to this error; a whole digital circuit becomes a product of such rotations in order; analog rotations are exact in amplitude and detuning.

Findings, as counterexample theorems: `abs(angle)` makes RX(-t) the pulse of RX(t); `abs(phase)` gives the right axis only for phases at most 0, because Pulser turns the phase the other way; a negative detuning passed to `from_duration` comes out at least 1000 times too large; RZ(0) rotates by the minimum duration times the maximal detuning; a configured amplitude changes the angle of analog rotations.

## C78 Models under sequences of calls

Model: `Model/QModel.lean` is a transition system for `QuantumModel`. The state has the symbols (name, flag, initial value), the constants, the parameters with their `requires_grad` flags, the inputs and the settings. `step` gives for each method call the next state and either the call passed on to the backend or the exception. Values are opaque; what gates do with them is C36.

Proved over all histories by an invariant (`Shape`): parameters follow the flags of the symbols. The noise of a model is characterised exactly as that of the last expectation called with noise.

Findings: `expectation(noise=...)` overwrites the noise of the model, so later samples and expectations are noisy; `set_as_fixed` turns a parameter into an input without a default and does not update `inputs`; both setters reset all parameters to their initial values; `_from_dict(as_torch=True)` makes constants trainable; a model without observable cannot be loaded.

## C79 Inputs of a QNN

Model: in `Model/QModel.lean`, a QNN is a model over columns of numbers with the order of its inputs; `formatToDict` turns dictionaries, vectors and matrices into values; `qnnExpectation` passes on what the code passes on. The forward pass is proved end to end: column `j` reaches the backend under the name of input `j`, for any permutation.

Findings: `QNN.expectation` drops `observable` and `mitigation`; only the number of inputs is checked, not their names; `_from_dict` does not restore `input_diff_mode`.

## C80 Gradients of the parameter-shift engine

Model: `Model/PSREngine.lean` has `uuid_to_block`, `uuid_to_eigen`, `construct_rules`, and the forward and backward passes of `PSRExpectation`; the rules are those of C28/C29. `C80_backward` joins them with the circuit semantics of C61, so it covers the path from blocks to gradients; `C80_chain` is the step from gate parameters to user parameters, with joint differentiability of the expectation as a hypothesis.

Findings: `uuid_to_block` descends into generators of evolutions, where a scale block reports the spectrum of the scaled block, so HamEvo(a Z, 1) is differentiated with the gap of Z: -sqrt(2) sin(2a) instead of -2 sin(2a), silently. The function for parameters of observables takes one argument and is called with three (TypeError if it needs a gradient); a parameter scaling a composite observable has an empty spectrum, is dropped from `param_values` and the backend does not find it. `adjoint` stacks observables vertically. With a measurement protocol, `psr` does not pass the backend and the mitigation on, `ad` does (not modelled).

## C81 Calls of the Pulser backend

Model: `Model/PulserRun.lean`; the emulator is an arbitrary function of the assigned values, the pattern, the simulation settings and the initial state, calls return a result and the state of circuit and backend they leave behind. `C81_value_*` are about `PulserObservable.forward`; `C81_value_block` is stated on the semantics of blocks (C08 relates the matrix of a block to it).

Findings: `matmul(state, block_mat) * state.conj()` is the expectation value of the transpose, so each Y has the opposite sign; the density-matrix branch is right, so the same observable has different signs with and without noise. `_run_noisy` assigns `self.config.sim_config` and nothing resets it; it passes the initial state without the flip done in `run`, does not add the addressing pattern. `assign_parameters` returns the circuit's own sequence for an empty dictionary; `run` measures it, the next run fails. `endianness` inverts states while the observable stays as it is. Trusted: Pulser raises for a second measurement and for a channel name in use.

## C82 The Rydberg hardware efficient ansatz

Model: `Model/RydbergHEA.lean`, on top of `hamiltonian_factory` (C40) and the arithmetic of blocks (C07). Specification: sums over qubits and edges of embedded one-qubit matrices, evolution operators; names through `vars`.

Findings: `hamiltonian_factory(register, Interaction.NN)` is called without strengths, so every edge has strength 1; the documentation promises C6/r^6 from the positions (`C82_counterexample_positions`). `additional_prefix` is missing in `detmap_j`, `drivemap_j`, `phase`; the same weights are used in all layers. `_amplitude_map` counts qubits from 0, the interaction uses the labels of the register. The documentation writes n = (1+Z)/2, the code uses N = (1-Z)/2.

## C83 AnalogSWAP exchanges its qubits

Model: `Model/AnalogSwap.lean`, the generator built with the arithmetic of blocks (C07) and `kron`, evolved as `HamEvo`. Real square roots are assumed for `np.sqrt` (`SqrtEnv`); rounding is not modelled. Specification: `-swapOp c t`, the permutation of basis states.

Proof: with K = 3/4 of the generator on two qubits and S the exchange, K S = K and K^3 - 3K^2 - K + 3 = (3/2)(1 - S), so K has eigenvalues 3, 1, -1 on the symmetric states and 0 on the antisymmetric one, and exp(-i pi K) = -S. `place` (Proofs/Place.lean) moves this to any two qubits of a register.

## C84 Feature maps for neutral atoms

Model: `Model/RydbergFM.lean` on top of the analog blocks (C55, C56) and the scaling of features (C46). Specification: diagonal operators with explicit phases, `occ s q` the bit of a qubit.

Findings: `kron(generator)` in `rydberg_feature_map` does not meet the test for analog blocks in `kron`, so the result is a `KronBlock`. `add_background_hamiltonian` applied to it fails for two or more interacting atoms (`C84_counterexample_conversion`); the backend works because `transpile` runs the passes from last to first and `scale_primitive_blocks_only` rebuilds the block as an `AnalogKron`. The rotations are then run one after the other, each with the interaction of the whole register, so the interaction acts k times for the time x/Delta and the encoded phases depend on `max_abs_detuning` (`C84_counterexample_detuning`).

## C85 Processes of a distributed training

Model: `Model/Distributed.lean`. `os.environ` is a record of the variables used, texts are numbers or other texts; the machine gives the number of GPUs, the answer of scontrol, random ports and whether they are free. `script` is making a Trainer and calling fit: the list of all processes with what they hand to `init_process_group`, and the environment of the head afterwards. `DistributedSampler` is modelled as documented by torch, the shuffled order being an arbitrary list common to all processes. Reductions are functions of the values of all processes; hanging is `none`.

Specification: `Group` (ranks are a permutation of 0..n-1, everyone expects n, same address and port), `Split` of a dataset.

Findings, as counterexample theorems: on CPU `get_rank` returns the index of the spawned process, so ranks collide on several nodes and are all 0 under torchrun; the rank of a node is offset by its number of GPUs, so fewer processes than GPUs leave gaps; `nprocs // num_nodes` drops the remainder while WORLD_SIZE keeps it; the sampler gets `local_rank`, so several nodes see the same samples; `setup_process` leaves WORLD_SIZE and LOCAL_RANK=None in the environment of the head, so a second trainer runs one process and a later GPU training fails; `prepare_batch` returns None for other types; metrics are reduced by position and a metric named loss replaces the loss.

## C86: quantum convolutional networks

Model: `Verif/Model/QCNN.lean` (`qcnn_circuit`, `qcnn_deferred_obs`, `_create_conv_layer`, `_create_single_W`,
`_get_block_params`, `_create_feature_map_qcnn`), on top of the models of blocks, ansatz entanglers and `feature_map`.
Theorems: `Verif/Props/QCNN.lean` (qubits and cells of the layers, acceptance, operators) and `Verif/Props/QCNNNames.lean`
(parameters, feature map, observable).

- The dictionary `params` is modelled by passing the counter from cell to cell: its keys contain layer and repetition, and a
  repetition is built in one go. A parameter is its name.
- Depths are integers; for depths below zero no repetition is built (they are odd or even like others), acceptance is
  stated for positive ones.
- `layerQubits` is the closed form of the repeated slice `[1::2]`: the last qubit of every group of `2 ^ i`.
- `Gathers` says what the primitive blocks of a block are, for all functions on leaves; supports, names and operators follow
  from it.
- Operators use the specification of block semantics; `C86_layer_acts` shows that the padding identities do nothing and
  `C86_deferred` is the deferred measurement of pooled qubits.
- Findings: `is_corr` reduces the running number modulo 9 while a cell has `4 k + 3` parameters, so corresponding gates of
  the cells do not share a parameter, but unrelated ones do; the second layer cannot be repeated on four or six qubits
  (empty kron); the test for zero repetitions cannot be reached; more inputs than qubits fail with an empty kron.
- Trusted: blocks of other classes as entangler or operations are not covered.

## C87: circuits built from configurations

Model: `Verif/Model/QNNConfig.lean` (`AnsatzConfig.__post_init__`, `create_ansatz` and the functions it dispatches to,
`_ansatz_layer`, `_interleave_ansatz_in_fm`, the circuit of `build_qnn_from_configs`), on top of the models of the ansatz
constructors (C41, C42, C82). Theorems: `Verif/Props/QNNConfig.lean`.

- `strategy_args` is a structure with an optional field for every key read by the code, including the mistaken key
  `operation` of the alternating ansatz. An entangler is a class or a block.
- The blocks of the feature map are an arbitrary list (`create_fm_blocks` is modelled for C46 and C65).
- The register is a number or a register; the graph of `Register.circle` is an argument.
- `C87_circuit` is the structure, `C87_names` and `C87_rotations` are the parameters, `C87_defaults` and `C87_arguments` what
  reaches the constructors, `C87_hea_digital`, `C87_hea_sdaqc`, `C87_iia_digital`, `C87_iia_sdaqc` and `C87_ala` that
  construction succeeds, `C87_wrong_entangler` and `C87_strategies` what is refused.
- Findings: see the counterexamples; furthermore the connectivity of a register has no effect on the default generator of
  the digital-analog ansatz (`C87_register_ignored`), and strategies that no ansatz has are only refused by `create_ansatz`.
- Trusted: values of other types under the keys of `strategy_args` are not covered; parameters inside a given generator are
  not counted by `names`.

## C88: calls of the PyQTorch backend

Model: `Verif/Model/PyqRun.lean` (`run`, `_batched_expectation`, `_looped_expectation`, `validate_state`), on top of
`to_list_of_dicts` and `infer_batchsize` (C37) and `invert_endianness` (C04). Theorems: `Verif/Props/PyqRun.lean`.

- A batch of states is a list of states. `pyqify` and `unpyqify` change only the layout, so that they are the identity here;
  what depends on the layout (`invert_endianness` on the shape `[2] * n + [batch]`) is modelled by the axis it acts on.
- Native circuits and observables are arbitrary functions of the values of their parameters and one state. Trusted: PyQTorch
  applies them elementwise and broadcasts batches of one; only parameters used by the circuit or observable count.
- `expRow` says what the row of an element is; `C88_batched`, `C88_batched_state` and `C88_looped` are proved against it and
  give `C88_looped_eq_batched`. `C88_looped` has separate batch sizes for the two dictionaries and shows the truncation.
  The sizes differ only with gate parameters, so not for `diff_mode="ad"`, where `embedding_fn` adds all inputs to both.
- Trusted: a `torch.Size` compares like a tuple and is never equal to a list. `C88_counterexample_pyq_shape` depends on it; it
  could not be run here.
- Left out: noise, measurement protocols, density matrices, tensors of two dimensions as values in the theorems.

## C89: run, sample and expectation

Model: `Verif/Model/Execution.lean`, on top of the models of circuits and sizes of blocks (C18). Theorems:
`Verif/Props/Execution.lean`.

- The backend is an arbitrary function of the circuit. Values, initial states, noise and the other keyword arguments are passed
  on unchanged and belong to this function.
- Registers are given by their number of qubits, assumed positive. Analog blocks appear only as blocks with global support.
- Trusted: `() + tensor` is a `TypeError` and `torch.concat(())` a `RuntimeError`. Both are facts about Python and torch which
  could not be run here; `C89_counterexample_list` depends on them.
- `C89_parameters_run` and `C89_parameters_expectation` say which functions use gate parameters; by default `expectation` does,
  so that it is concerned by `C88_counterexample_loop_truncates`.

## C90: derivatives of models

Model: `Verif/Model/TorchDeriv.lean` (`_torch_derivative`, `derivative`). Theorems: `Verif/Props/TorchDeriv.lean`.

- `torch.autograd.grad(y, x, torch.ones_like(y))` is modelled as what it is documented to compute, the gradient of the sum of
  the entries of `y`; that it does so, exactly and for higher orders with `create_graph=True`, is trusted.
- Mathlib's `deriv` is zero where there is no derivative, so that the theorems need no hypothesis on differentiability; for
  functions which are not differentiable they say nothing about torch.
- Each row has its own derivative because the other rows are constant summands; `C90_counterexample_mixed` shows what
  happens to models such as batch normalisation. Indices are in range and there is at least one.
