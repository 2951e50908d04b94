# DESIGN — a Lean 4 model of XanaduAI/MrMustard

## Approach
Each part of `/repo/mrmustard` has a shallow model in `lean/Verif/`: ordinary Lean functions following the code function by function
(every definition cites file and lines; simplifications are stated there). Exceptions are values (`Option`, `Except`, or an error type
where the kind matters); random choices, hash orders, pop orders, crash points and uninitialised memory are arguments over which the theorems quantify.
Specifications do not use the model's helpers: Fock amplitudes are Taylor coefficients (`FockSpec`), contractions are Lebesgue integrals
(`ContractDef.IsContraction`, `CGIProps`), einsums are finite sums over label assignments, sampling laws are probabilities, and so on.
Arithmetic is exact (ℕ, ℤ, ℝ, ℂ or any field); thresholds the code compares against (1e-12 in the Gaussian integral) are modelled as they are.

Where a property a user would expect is false of the code, the property in `properties.jsonl` states the strongest true version (mentioning the finding),
and the manifest lists, besides the positive theorems, the theorem that exhibits the disagreement.

## What is modelled where, and how each property is proved

| property | modules | method |
|---|---|---|
| C01–C07 wires: order, composition, associativity, labels, adjoint/dual, addition | `Wires`, `WiresSpec`, `WiresLemmas`, `WiresMatmul*`, `WiresProps`, `WiresLabels` | wires as records, sorting key, list permutations; witnesses by evaluation |
| C08, C09, C44 components: axes of adjoint/dual, `>>`, `on` | `WiresComp` | block decomposition of the standard order, case analysis |
| C10, C11 circuits: paths | `Circuits` | induction on the path, counterexamples by evaluation |
| C12–C14 path optimiser, Fock-shape propagation | `PathGraph`, `PathSearch`, `PathOptimal`, `PathShapes` | branch-and-bound invariant for arbitrary pop order, well-founded termination |
| C15 `mm_einsum` on arrays | `Einsum`, `EinsumProps`, `EinsumPath`, `EinsumMain`, `EinsumEx` | induction on the path, finite sums |
| C16 `PolyExpAnsatz.contract` | `Contract`, `ContractJoin`, `ContractProps`, `ContractMain`, `ContractThm`, `ContractDef`, `ContractEx`, `ContractBad`, `ContractGauss` | join + Gaussian integral; measure theory of `Gauss*` |
| C17, C18, C48 `complex_gaussian_integral_1`, `trace` | `GaussReal`, `GaussStein`, `GaussComplex`, `GaussSymm`, `Herm`, `HermPull`, `CGI`, `CGIProps`, `CGIStages`, `*Ex` | Gaussian integrals over ℂ^m with symmetric complex matrices, Schur complements, Stein's identity for the polynomial part |
| C19, C20, C22–C24 Fock recursions | `FockSpec`, `FockRec`, `Vanilla`, `AmpRename`, `Binomial`, `FockGates`, `Beamsplitter` | recursion of Taylor coefficients, induction on the flat index |
| C21, C25 lattice paths, neighbours, pivots | `Paths` | structural induction |
| C26–C28, C46, C47 PolyExp algebra | `PolyExp`, `PolyExpProps`, `PolyExpEval`, `PolyExpJoin`, `PolyExpAnd`, `PolyExpDecomp`, `Argsort`, `Simplify`, `SimplifyEq` | list induction, multi-index sums |
| C29, C30, C49 Fock array algebra | `ArrayAnsatz`, `ArrayAlg` | index arithmetic |
| C31–C33 settings, caches | `Settings`, `Caches` | invariants over histories |
| C34, C35 serialisation | `Serialize`, `CircuitSer` | round trip over an abstract file system with crash points and interleavings |
| C36 parameters; C38 optimiser loop; C39, C45 manifold updates; C40 symplectic matrices | `Params`, `Optimizer`, `Manifold`, `Symplectics` | induction over histories; matrix algebra, matrix exponential |
| C37, C50 samplers | `Samplers`, `SamplersLaw`, `SamplersSeed` | chain rule of probabilities; generators as state machines |
| C41 autoshape; C42 fast diagonal | `AutoShape`, `AutoShapeMarg`, `FastDiag*` | loop invariants against the amplitude specification |
| C43 batch strings | `Batch` | list induction |
| C51 oscillator eigenstates | `Oscillator` | Hermite recursion, orthogonality by integration by parts |
| C52–C55, C57 built-in triples: action, laws, norms | `Kernel`, `ContractKernel`, `Triples`, `TriplesAct`, `TriplesGates`, `TriplesLaws`, `TriplesOne`, `TriplesNorm`, `TriplesTrace`, `TriplesKraus`, `TriplesEx` | contraction with a kernel is a substitution; one- and two-pair integrals in closed form |
| C56 Fock amplitudes of the triples | `AmpClosed`, `TriplesFock` | closed forms satisfying the Taylor recursion |
| C58 Fock array = Taylor series | `FockSeries`, `FockJoint`, `FockArray`, `FockUnique` | absolutely convergent double series, identity theorem |
| C59 Fock ↔ Bargmann | `ToBargmann` | amplitudes of the identity kernel |
| C60 Wigner functions | `Wigner` | recursions for the Weyl transform of \|m⟩⟨n\|, Clenshaw invariants |
| C61, C62 gradients | `AmpDeriv`, `Gradients`, `GateGrads`, `Displacement` | derivative of the amplitudes along a family of triples, by induction on the index |
| C63 dedicated Fock arrays | `Displacement`, `TriplesOverride` | Laguerre recursion = amplitude recursion; C23, C24 |
| C64 symplectic matrices and unitaries | `BargmannSymp`, `BargmannHeis`, `GaussOverlap`, `BargmannUnit`, `BargmannGates` | block algebra in the complex basis; first-order system of the quadratures; Gaussian integral |
| C65 phase-space moments | `GaussMoments`, `PhaseSpace`, `PhaseMoments`, `PhaseHusimi`, `PhaseEx` | rotation to real quadratures, Gaussian moments; identity theorem for entire functions |
| C66 pure and physical states | `PhasePure`, `PhasePos`, `PhaseUncert`, `PhaseEx` | block inverse of the Husimi matrix; exponential kernel is positive (power series); Schur complement |
| C67 overlap, purity, fidelity | `PhaseOverlap`, `PhasePurity`, `PhaseFidelity`, `SympEigs`, `PhaseEx2` | complex Gaussian integral in rotated coordinates; determinant identities |
| C68 symplectic spectrum and entropy | `Williamson`, `SympEigs`, `Entropy`, `PhaseEx2` | Williamson normal form from the spectral theorem; geometric distributions |
| C69 gates on phase space | `PhaseEvolve`, `PhaseShift`, `PhaseEx2` | Husimi function of the evolved state by the overlap formula; identity theorem |
| C70 photon-number distribution | `FockDist` | induction over the modes, ravel/unravel bijection |
| C71 `phase_space(s)` | `PhaseChar` | overlap formula with the displacement operator; matrix identities for the rotation to quadratures |
| C72 reduced states, separability | `PhaseReduced`, `Separable` | Gaussian marginals by Schur complements; block-diagonal symplectic matrices; kernel vectors of the uncertainty matrix |
| C73 `Channel.from_XY` | `Channel`, `ChannelAct` | the triple in phase space coordinates; Gaussian integral and Woodbury identities |
| C74 `is_CP` | `ChannelCP`, `ChannelIdle` | eigenvalues of Hermitian matrices; congruence of the Choi matrix; a pair state on a doubled system for the converse |
| C75 `XY`, `is_TP` | `ChannelXY`, `ChannelTP` | every Hermitian triple in phase space coordinates; trace integral; kernels of two Schur complements of one matrix |
| C76 named channels | `ChannelNamed`, `ChannelEx` | the triples as `from_XY` of multiples of the identity; the spectrum of `i Omega` |
| C77 `PhaseNoise` | `PhaseNoise` | the in-place loop on Fock arrays and on a store; characteristic function of the Gaussian law, product measures |
| C78 stellar decompositions | `Reproduce`, `Stellar`, `StellarPhys`, `StellarEx` | the triples of the code as Bargmann functions; the reproducing property of the Gaussian measure; the operator is a displaced Gaussian unitary (C64) times the exponential of a linear form |
| C79 compact diagonal | `Compact`, `CompactProps`, `CompactEx` | the double loop over the five arrays as a fold over states; invariant: every entry written is the amplitude it stands for, and everything read was written; generic in what is computed |
| C80 gradient of the compact diagonal | `CompactGrad`, `CompactEx` | the same invariant for the arrays of gradients, with the recursion differentiated (C61) |
| C81 one leftover mode | `CompactLeft`, `CompactLeftEx` | the arrays of C79 hold blocks; the invariant of C79 for the relation "every entry of the block is the amplitude it stands for"; the first block by the loops over its column and rows |
| C82 gradient, one leftover mode | `CompactLeftGrad`, `CompactLeftEx` | the same invariant for blocks of gradients, each written entry shown equal to one step of C80 on all variables |
| C83 | GaussState | `gket`, `gdm` (matrix form of the contraction, with the 1e-12 guard of the Gaussian integral) and `randomSymplectic` are functions of the symplectic matrix; compared with `fromSymplectic` (C64), `evolve` and `dmFromPhaseSpace` (C65, C69) through the double Gaussian integral; the branch of the square root by positivity of the vacuum amplitude; finiteness by monotonicity of the determinant |
| C84 | Sauron | `sauron` is built from the linspace phases, normalised by the sum over the outer product of the modelled `contract` (C16); amplitudes by `fockArray` (C58) and the orthogonality of roots of unity; fidelity by comparing the series of the norm with the exponential series |
| C85 | homodyne / `BtoQ` | the kernel Abc of `bargmann_to_quadrature_Abc` and the contraction with a state as the complex Gaussian integral (C19/C64); Gaussian states through the expectation value of a Gaussian effect (`Effects.lean`), Fock states through the linear functional `amp` of the kernel and the Hermite generating function (C51) |
| C86 | `BtoPS`, `State.wigner` | the block matrix of `bargmann_to_wigner_Abc`, its contraction with the state by the block inverse used for every contraction, and `PS` entry by entry; closed forms of `A`, `b`, `c` by matrix algebra in the rotated basis, compared with the normal density |
| C87 | `beamsplitter_schwinger`, `apply_BS_schwinger` | the loops, the index ranges and the subset logic as written; `np.linalg.eig`/`eigh` by their contracts; the amplitudes solve the differential equation of the tridiagonal generator, whose eigenvalues are shown to be distinct, so that `V exp(E) V†` is the block of amplitudes |
| C88 | values of `contract`, `>>`, `adjoint`, `dual`, `Circuit.contract` | components = wires + array; labels of `contracted_labels`, `ArrayAnsatz.contract`/`reorder`/`conj` as modelled for C15/C49; the operator of a component is a separate specification (`Ker`, `Ker.seq` in CompSem.lean); associativity through a faithful action on functions of stacks of photon numbers |
| C89 | `X >> TraceOut(modes)` in the Fock representation | both branches of `__custom_rrshift__` with the labels and axes of the code on top of `Arr.contract`/`Arr.trace`; the orders of iteration over Python sets are parameters; compared with a separately defined partial trace of the operator of the component (`trK`) |
| C90 | `_validate_operator`, `DM.expectation`, `Ket.expectation` | the code path for operators already in the Fock representation, composed from the models of `dual`, `adjoint`, `contract` and `TraceOut`; compared with explicit sums over photon numbers (`dmExp`, `ketExp`) |
| C91 | `L2_norm`, `probability`, `purity`, `normalize` in the Fock representation | composed from the models of `dual`, `contract` and `trace`; compared with explicit sums over photon numbers; the purity bound is Cauchy-Schwarz for positive semidefinite matrices with its equality case |
| C92 | `fidelity` (fock_utils), the array branch of `DM.fidelity`, `Ket.fidelity` | matrices over an arbitrary finite index type with Mathlib's square root; polar decomposition gives symmetry and bounds; the branch in `DM.fidelity` (common shape, `reduce`, `reshape`) on the component model |
| C93 | `DM.formal_stellar_decomposition` | block matrices over arbitrary finite mode types; a Gaussian map applied to an exponential is the map evaluated at the exponents (`applyCh_exp`, from the reproducing kernel), the rest is completing blocks |
| C94 | `DM.physical_stellar_decomposition` | the code over block matrices of any finite mode type; traces and actions are Gaussian integrals (`tr_integral`, `act_core`); positivity by the off-diagonal block criterion of C66; trace preservation of the map and invariance of the reduced state fix the constant; failure condition by positive definiteness of `1 - X A` |
| C95 | `DM.physical_stellar_decomposition_mixed` | as C94; positivity of the core state is the Schur complement of the off-diagonal block, complete positivity what remains of it; a shape model of `math.block` shows that the split must be even |
| C96 | `Transformation.inverse`, wires of the result | block algebra of A and its inverse gives exponent and determinant of the composition; the sign of the square root from continuity of the Gaussian constant (one wire, Hermiticity preserving); disagreements `C96_minus`, `C96_wires` |
| C97 | `to_quadrature`, `from_quadrature`, `BtoQ` and its inverse | each contraction is a canonical transformation of position and gradient with a scalar factor (`Rel`), composed by induction over the sides; the Gaussian integral over the quadratures at its stationary point; signs from the cone of principal square roots; disagreement `C97_wrong_sign` |
| C98 | `from_ansatz`, `from_bargmann`, `from_fock` of the six classes, `CircuitComponent.__init__` | wires of the constructor in standard order (C01), kernel of the component read off the sorted wires; disagreement `C98_from_fock` |
| C99 | `PolyExpAnsatz`/`ArrayAnsatz` `from_function`, `_generate_ansatz`, `_should_regenerate`, data properties, `batch_shape` | state machine; invariant over every history; disagreement `C99_stale` |
| C100 | `HomodyneSampler.sample`, `probabilities`, `sample_prob_dist`, `_validate_probs` | chain of validated conditionals on the grid; the product telescopes; exceptions `C100_raises` |
| C101 | `c_in_PS`, `gamma_matrix`, `c_ps_matrix` | the assignments as a list with distinct keys; binomial expansion; exact behaviour for every shape, exception characterised |
| C102 | `math.hermite_renormalized`, `vanilla_batch_numba`, `vanilla_batch_vjp_numba` | every position is stored once, so every order of the stores gives the same array; then C19/C20/C61 per batch index |
| C103 | `real_gaussian_integral`, `join_Abc_real` | Gaussian integral with complex symmetric matrix (GaussReal) and Schur complement; block sums; disagreement cases by evaluation |
| C104 | `_tree_flatten`/`_tree_unflatten` of parameters, ansatze, components, circuits; labels of the optimizer | sorted dictionaries as lists, positions as counts of smaller keys, induction over the sorted list |
| C105 | `estimate_quadrature_axis`, `estimate_dx`, `estimate_xmax` | ceiling bounds and the sum of an arithmetic progression |
| C106 | `fock_state` | case analysis of numpy indexing, induction over the batch |
| C107 | `CircuitComponent.__add__`, `__sub__`, `__mul__`, `__truediv__`, `_from_attributes`, signatures of the built-in classes | invariant of the components reachable by construction, addition and assignment; C27 for the data |
| C108 | `BackendManager` | invariant over histories with failing imports |
| C109 | `hermite_renormalized_binomial` of both backends | from C22 |
| C110 | `CircuitComponent.quadrature` for arrays: einsum labels | sum over assignments of the letters, bijection with photon numbers |
| C111 | `CircuitComponent.contract` of an array with a Bargmann triple, both default representations | integral of the kernel with a zero block, derivatives as deltas, einsum |
| C112 | `scalar` of both ansatz classes, `__rrshift__` | series at zero (C58), array entry at the vacuum |
| C113 | `Wires.args`, `__eq__`, `__hash__` | membership of slots, sorted lists determined by their elements, C02 and C04 |
| C114 | `mm_einsum` on mixed operands with given Fock dimensions | simulation of the loop on arrays (C15), conversion by C59 |
| C115 | `ua_to_linear` | simulation: list of sets, list of operands, groups with representatives; C15 |
| C116 | `update_tensor`, `update_add_tensor` of both back ends | folds over updates against sums over indices |
| C117 | `create_logger`, `logging_handler_defined` | registry over names as lists; induction over ancestors and histories |
| C118 | `vanilla_step_jacobian`, `vanilla_step_batch`, `binomial_numba` | directional derivatives of the two tensors by induction over the path; the numba loop against `binomial` of C22 |
| C119 | `sqrtm` of both back ends, `fock_utils.fidelity` | the shortcut for small matrices on top of the matrices of C92 |
| C120 | `_light_copy`, `on`, `adjoint`, `dual`, `manual_shape`, `name` of components, cached properties of `Wires` | a heap of objects with references; invariants over all programs: references are never redirected, and which components own their wires |
| C121 | `Circuit.__repr__` | layers, rows as lists of pieces, chunks; invariants of the loops |

## Trusted base
* Lean 4.33.0's kernel; axioms of every theorem are among `propext`, `Classical.choice`, `Quot.sound`. No axioms of our own, no compiled evaluation.
* Mathlib's definitions (Lebesgue integral, `Complex.exp`, matrices, `MvPolynomial`, …).
* The reading of the Python code recorded in the comments of the definitions, and the meaning of the numpy primitives used
  (indexing, einsum, reshape in C order, `broadcast`, `pad`, `transpose`, `linalg.solve/inv/det`, the principal square root).

### Not modelled
* Floating point: rounding, overflow, NaN, and `allclose` tolerances (equality instead). JAX tracing/jit (the backward passes of C61, C62 are modelled as functions; that of the binomial strategy calls a function that does not exist), numba compilation.
* The Julia/JAX back ends; only the numpy code path and the defaults of `settings` unless a property says otherwise.
* Lazy generation of ansätze (`_fn`), parameter batching through `Variable`s, names, docstrings, `_repr_html_`, visualisation, widgets.
* Phase space: quadrature conversions, homodyne sampling.
* `hermite_renormalized` batched variants (a batch is modelled as independent elements), random state generators.
* Contents of files as bytes (archives are maps from names to arrays), process scheduling below file-system operations, CPython object identity
  except where a finding depends on it.

## Findings (disagreements between the code and what one would expect; each is a theorem)
Wires and circuits: wire ids that repeat break the permutation (C03); acceptance of `@` is not associative (C05); `+` of wires of different representation
at the same place is accepted (C07); a path may contract a component with itself (C10); `scalar >> component` loses the component, and skip paths reorder (C11);
`optimize_fock_shapes` writes into user components, heuristics never fire (C13, C14).
Bargmann: `join_Abc`/`reshape_args` reshape where a transpose is needed for some batch strings; `__add__` of ansätze with different numbers of derived variables,
of batched superpositions, `&` of two superpositions with derived variables (C27); `==` broadcasts and ignores batch order (C47); the principal square root makes the sign
of Gaussian integrals over two or more pairs wrong in general, right for Hermitian pairings (C16, C17, C48); `contract` mispairs labels given in different orders (C16);
the determinant threshold 1e-12 makes norms of strongly squeezed states, traces of hot thermal states and of strong amplifiers infinite (C57).
Fock: `binomial_dict` misses a corner (C22); the default beam splitter misses entries when `p ≥ N` (C23); `==` of arrays is not transitive, trace over no axes is an error (C49);
`contract` truncates mismatched batch axes; the planner sums a cutoff axis instead of the terms of a superposition, and component `to_bargmann` turns batch axes into variables (C59);
quadrature eigenstates lack the factor ħ^{-1/4} (C56).
Measurements: sampled rows are sorted by first mode (C37), seed 0 ignored and seeds not passed on (C50); `autoshape` retains one photon number fewer than asked for and swaps a pair for mixed displaced states (C41);
the fast diagonal strategy leaves outcomes at zero for small cutoffs and fails without detectors (C42).
Phase space: Clenshaw's Wigner method doubles the value at cutoff one, and arrays indexed [bra, ket] give the Wigner function mirrored in p (C60);
`is_positive` ignores the linear part and the diagonal blocks, so that a non-Hermitian operator is reported physical (C66);
`Ket.from_phase_space(atol_purity=0)` disables the purity check, and a mixed covariance matrix then gives a ket that is not normalised (C67);
`DM.fidelity` ignores the coefficients of both states (C67);
`fock_distribution` of a separable density matrix lists the modes in reverse order (C70), and raises for linear superpositions and for multi-mode Fock-array density matrices because it asks `is_separable` first;
`phase_space(s)`: `s = 1` is Glauber and `s = -1` Husimi, the docstring says the reverse (C71);
`is_separable` is false for classically correlated separable mixed states (C72);
`Channel.from_XY` with a displacement has the wrong sign in the input part of `b`: the mean is not `X mu + d` and the trace is not preserved, though `is_TP` is true (C73, C75); an array `d` raises because of `d if d else`;
`is_CP` compares strictly, so with `ATOL = 0` every unitary and every pure-loss channel is rejected (C74);
`is_TP` ignores `b` and `c`, rejects every trace preserving map with different numbers of input and output modes, and raises `LinAlgError` for `X = 0`, e.g. `Attenuator(0, 0.0)` (C75);
`PhaseNoise` uses mode labels as axis positions, overwrites a Fock operand in place (also when it raises), and on a channel damps differences between output and input axes (C77);
`Ket.physical_stellar_decomposition` raises `LinAlgError` when the core block of `A` is singular (e.g. a coherent core mode), and for two or more core modes its `bu_in` has the transposes on the wrong factor, so that the returned `Unitary` need not be unitary (C78);
`math.hermite_renormalized_1leftoverMode(..., reorderedAB=False)`: the numpy back end receives the flag as `stable` and always reorders, the JAX back end honours it, so the results differ (C81);
`gdm_state_Abc` takes `math.prod` over the whole array, so with a batch of symplectic matrices the constant of every element is the product over the batch (physics/triples.py:278); the docstring of `GDM` says `U rho` where `U rho U^dagger` is computed (C83);
`Sauron(mode, n, epsilon=0)` with `n >= 1` divides by a zero norm (NaN) instead of being the limit state `Number(n)` (C84);
The docstring example of `BtoQ` (`psi >> QuadratureEigenstate(0, x=1).dual == (psi >> BtoQ(0)).ansatz(1)`) is false by the factor `ħ^{1/4}` unless `ħ = 1`; the array branch of `quadrature` ignores angles with `|φ| ≤ 1e-9` (C85);
`PolyExpAnsatz.PS` transforms the vector `b` with `W` instead of `Wᵀ`: `State.wigner` of every Gaussian state with non-zero mean is complex-valued and not its Wigner function (C86_real_iff); for centred states it is the Wigner function reflected in `p` (C86_mirror);
`beamsplitter_schwinger` bounds the loop on `i` by `c1` where `c2` is meant: for `c1 < c2` entries are silently zero, for `c1 > c2` it raises `IndexError`, although its docstring promises all shapes `(i,k,i,k)` (C87_wide, C87_errors); `apply_BS_schwinger` raises for every pair of axes of different sizes (C87_apply_errors);
`TraceOut` pairs ket and bra axes by zipping two independently iterated Python sets (trace_out.py:105-106); for modes whose hashes collide (0 and 8) the iteration orders depend on the insertion order, so the ket of one mode may silently be traced against the bra of another (C89_orders);
`TraceOut` of a one-sided linear superposition uses `ansatz.batch_dims`, which counts the superposition dimension (trace_out.py:90); equal numbers of different traced ket and bra modes are paired with each other (not modelled);
`expectation` of a density-matrix-like operator that is not Hermitian returns Tr[rho O^dagger], the conjugate of the documented value for Hermitian states (C90_not_hermitian);
`apply_BS_schwinger` overwrites the caller's array when (i, j) are the last two axes;
`DM.fidelity` (array branch) reshapes to (side, side) with the side computed from the bra cutoffs only: if the common cutoffs of bra and ket differ but have the same product (e.g. (2, 3) and (3, 2)) the matrices are silently misaligned (not covered by C92_fock, whose hypothesis excludes it);
C94: `DM.physical_stellar_decomposition` ignores `c`: for a state that is not normalised, `core >> phi` is the normalised state, although the docstring asserts `rho == core >> phi`;
C94: `DM.physical_stellar_decomposition` (and `physical_stellar_decomposition_mixed`) pair `core_modes[i]` in the order given by the user with displacement components in increasing order of the modes: with unsorted `core_modes` the returned core is not a core state (`C94_unsorted_not_core`);
C94: `DM.physical_stellar_decomposition` inverts a singular matrix for product states and, more generally, whenever the coupling block is singular (`C94_fails`); the documentation only mentions the number of modes;
C95: `DM.physical_stellar_decomposition_mixed` is documented for any split satisfying a rank condition, but slices `R[M:]` where the other modes start at `N`, and builds `R_c` with a zero block of the transposed shape: it raises for every split with a different number of core and other modes (`C95_shapes`), and where it works the rank condition holds trivially;
C95: `DM.physical_stellar_decomposition_mixed` inverts `alpha_m`, so it fails for every pure state (`C95_pure`);
C96: `Transformation.inverse` returns the wires of the transformation itself; if input and output modes differ, `T >> T.inverse()` raises ValueError (`C96_wires`);
C96: `Transformation.inverse` takes a principal square root and the contraction another one; if (-1)^m det(g)^2/det(A) is a negative real number the product is minus the identity (`C96_minus`, e.g. A = [[2, 1], [1, 2]]);
C97: `Ket.from_quadrature` takes one principal square root of a determinant; for three or more modes the returned ket can be minus the Bargmann transform of the given wave function (`C97_wrong_sign`: exp(-(1+6i)|x|^2/2), hbar = 1);
C97: `from_quadrature(to_quadrature(ket))` is minus the ket if det(1 + exp(-2 i phi) A) is a negative real number (`C97_ket`);
C98: `Transformation.from_fock(modes_out, modes_in, ...)` calls `from_ansatz(modes_in, modes_out, ...)`: outputs and inputs are exchanged whenever the two mode arguments differ (`C98_from_fock`, `C98_example`);
C98: `from_ansatz` of a transformation does not compare the number of variables with the number of wires; an array with more axes than wires is accepted (`C98_transformation`);
C99: `batch_shape`, `batch_dims`, `batch_size` are stale after an assignment to a `Variable` until `A`, `b` or `c` is read (`C99_batch`, `C99_stale`);
C99: with no variables an inconsistent triple raises on the first read only; later reads return it silently (`C99_inconsistent`);
C99: an array assigned to `ArrayAnsatz.array` is lost at the next read if a `Variable` is among the parameters (`C99_array`);
C100: `HomodyneSampler.sample` raises for every multi-mode density matrix: only one of the two variables of the measured mode is evaluated, so `from_bargmann` gets an odd number of variables (`C100_raises`);
C100: `HomodyneSampler.sample` raises for every multi-mode linear superposition (e.g. two-mode cat states): `from_bargmann` is called without `lin_sup`, the terms become a batch and `rng.choice` gets a two-dimensional `p` (`C100_raises`);
C101: `gamma_matrix` computes the column as `m * c.shape[0] + n` instead of `m * c.shape[1] + n`: IndexError for more rows than columns, silently dropped entries for two or more rows and more columns (`C101_raises`, `C101_not_rectangular`);
C102: `check_out_shape` compares `out.shape` with the needed shape through `zip`, so an `out` with too few axes passes; in the unbatched case the compiled strategy then writes outside the buffer (modelled as a failure);
C102: a batched `A` and `b` with a scalar `c` is sent to the unbatched strategy, which refuses it (`C102_defined`);
Backward pass of `hermite_renormalized_binomial` (jax): it calls `strategies.vanilla_vjp`, which does not exist (`vanilla_vjp_numba` does), so every gradient through it raises AttributeError (not modelled);
C103: `join_Abc_real` exchanges the two off-diagonal blocks when all variables of one triple are fused: ValueError unless the sizes agree, otherwise a silently wrong function unless the cross block is its own transpose (`C103_join_wrong`); it also ignores the listed order of the completely fused triple (`C103_join_order`), and raises UnboundLocalError when both triples are fused completely;
C103: `real_gaussian_integral` takes a square root of the whole determinant, so with three or more complex variables the sign of the result can be wrong (`C103_sign_wrong`);
C104: `Optimizer.minimize` raises AttributeError for a component or circuit whose ansatz has a plain argument (`Identity`, `MZgate`, `Number`, `BtoQ`, ...): plain values are leaves without `update_fn` (`C104_labels`, `C104_identity`);
C104: a `Variable` shared by two components of a circuit is optimized as two independent variables (`C104_shared`);
C104: a component made with an ansatz that has a `Variable` which is not in the component's parameter set (for instance `Ket(PolyExpAnsatz.from_function(f, x=Variable(...)), wires)`) raises KeyError in every jax transformation (`C104_key_error`);
C106: negative photon numbers are accepted and wrap around: `Number(0, -1, cutoff=4)` is the state with 3 photons (`C106_negative`);
C107: `Attenuator(0, .5) + Attenuator(0, .3)` raises AttributeError, because `__add__` looks up the keyword arguments of the generating function (`eta`) in the parameter set (`transmissivity`); likewise Amplifier, FockDamping, GDM, Identity, BtoQ, BtoPS, BtoCH, two `DM.from_phase_space` states, and `G + G` for one Ggate or Interferometer object (`C107_never`, `C107_attribute`, `C107_plain`); `GKet + GKet` concatenates the symplectic matrices by rows (`C107_matrix`); `+` of one class forgets `manual_shape`;
C109: `math.hermite_renormalized_binomial` with jax: `global_cutoff=None` raises TypeError (`range(1, None)`), `max_l2=None` never stops early although the documentation says that AUTOSHAPE_PROBABILITY is used, and its backward pass calls `strategies.vanilla_vjp`, which does not exist (the name is `vanilla_vjp_numba`), so differentiating raises AttributeError; with numpy, `max_l2=0` and `global_cutoff=0` count as not given (`C109_zero`, `C109_jax`);
C110: `quadrature` of a Fock component uses the letters `chr(97 + n_modes + axis)` for the array and `chr(97 + mode)` for the grids, which coincide if a mode number is in [n_modes, n_modes + number of wires): `Number(1, n=2).quadrature(q)` raises ValueError, or returns one term of the sum if `len(q)` equals the cutoff (`C110_mode_one`); `quadrature_distribution` and `HomodyneSampler` on Fock states are affected;
C111: with `DEFAULT_REPRESENTATION = "Bargmann"` (the default) a Fock component made by `to_fock` is contracted with a Bargmann one as the triple it was converted from, that is without the truncation (`C59_remembers`), while an equal array given by the user is contracted as it is; batched arrays are converted wrongly (`C59_batched_wrong`);
C112: `number >> component` returns a number, the number times the vacuum amplitude, also for components with open wires (`2.0 >> Vacuum(0)` is `2.0`), while `component >> number` returns a component;
C113: equal `Wires` (equality ignores the representation) can have different hashes and behave differently in `@` (`C113_repr`); the hash also depends on the iteration order of sets (`C113_order`). `CircuitComponent` defines `__eq__` without `__hash__`, so components are unhashable;
C114: a step of `mm_einsum` between operands sharing no core label takes the Bargmann branch (`all([])` is true), so an outer product of Fock arrays is converted to Bargmann form with derived variables, whatever the given Fock dimensions. Two Bargmann ansätze sharing a label without given dimension get the dimension 10⁹ instead of the documented ValueError (`C114_unset`);
C115: ids that a union-assignment path does not name shift the meaning of the others (`C115_unnamed`); `mm_einsum` then ends with the error "More than one ansatz left" (`C115_named`);
C116: `update_add_tensor` with an index out of range raises in numpy (leaving earlier updates in the argument) and is silently ignored in JAX; one value with several indices updates only the first in numpy and all in JAX (`C116_range`, `C116_one_value`);
C109: the backward pass of `hermite_renormalized_binomial_jax` calls `strategies.vanilla_vjp`, which does not exist (only `vanilla_vjp_numba` is exported), so differentiating through it raises AttributeError;
C117: a logger created by `create_logger` after one of its descendants also gets the default handler, so that the descendant's records are printed twice (`C117_duplicates`);
C118: `binomial_numba` has the default global cutoff `sum(cutoffs) - len(cutoffs)` with `range(1, global_cutoff)`, so that the highest weight is never computed (`C118_numba_corner`), as in `binomial_dict`;
C119: because `sqrtm` returns zero for matrices with entries up to 1e-8, the Fock fidelity is not symmetric for nearly orthogonal states (`C119_asymmetric`) and is 0 for some states whose fidelity is not;
C120: `manual_shape` is lost by `_light_copy` and `on` (so in every `Circuit`); `Wires.adjoint`/`Wires.dual` are cached, so all adjoints of a component share one `Wires` object and its cutoffs date from the first adjoint (`C120_adjoint_stale`, `C120_adjoint_aliased`); `on` accepts repeated modes (`C120_on_repeated`); the automatic name of a moved component depends on earlier reads (`C120_name_history`);
C121: in `Circuit.__repr__` the loop that draws the line between control and target has the range the wrong way round and never runs (`C121_between`); components with batched parameters cannot be printed (`C121_batched`); rows are in the order of iteration of a set of modes, not sorted.
Gradients: the backward passes of squeezer, squeezed state and beam splitter return twice the gradient, that of the displacement is right (C62); displacements below 1e-15 become the identity (C63).
State: nested or failed settings contexts are not restored (C31); the oscillator cache ignores `HBAR`, cached arrays are shared (C33);
crashes mix archives (C34); serialised circuits lose superpositions and internal data (C35); `to_dict` clashes, `getitem` reorders (C36).

## Testing the theorems
`seeded/LOG.jsonl` records the wrong programs tried: each edits one definition of the model in a scratch copy, and lists the theorems whose proofs fail
and those that were tightened as a result.
