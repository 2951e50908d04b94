import json
P=[]
def p(title, statement, quantifier, why, anchors):
    P.append(dict(id="C%02d"%(len(P)+1), title=title, statement=statement, quantifier=quantifier, why_tests_cant=why, anchors=anchors))

W="mrmustard/physics/wires.py"
p("Wires are always listed in standard order",
  "Listing the wires of any Wires object (iteration, .indices, .ids) yields bra-out, bra-in, ket-out, ket-in, classical-out, classical-in, each block sorted by mode, every wire exactly once, as long as all mode numbers are non-negative and below 20000; for a freshly constructed Wires the indices read 0..n-1. Beyond mode 20000 the order (and hence the constructor's indices) breaks.",
  "every six-tuple of mode sets, every number of wires",
  "The sort key packs (side, direction, mode) in one integer; whether blocks can collide depends on arithmetic over unboundedly many mode values and wire sets.",
  [W+":QuantumWire._order", W+":ClassicalWire._order", W+":Wires.sorted_wires", W+":Wires.__init__"])
p("Composition of wires has exactly the documented open modes and rejects exactly the overlaps",
  "w1 @ w2 succeeds iff no open wire appears twice (per side and for classical wires: outputs of w2 disjoint from outputs of w1 not consumed, inputs of w1 disjoint from inputs of w2 not fed); on success the result's outputs are out(w2) + (out(w1) - in(w2)), its inputs in(w1) + (in(w2) - out(w1)) on each of bra/ket/classical, otherwise ValueError.",
  "every pair of Wires objects whose wires carry one representation",
  "ranges over all pairs of arbitrary finite mode sets on six sides",
  [W+":Wires.__matmul__", W+":Wires.__add__", W+":Wires.__sub__"])
p("The permutation returned by wires @ standardises the leftover wires",
  "In w1 @ w2 the returned perm is a permutation of the uncontracted wires (those of w1 in order followed by those of w2 in order), and applying it gives precisely the wires of the result in standard order; contracted_indices pairs, position by position, an output of w1 with the input of w2 of the same mode and side, once each.",
  "every composable pair of quantum Wires with distinct wire ids",
  "a wrong permutation only shows on particular interleavings of modes; the space of interleavings is unbounded",
  [W+":Wires.__matmul__", W+":Wires.contracted_indices", W+":Wires.overlap"])
p("adjoint and dual of wires",
  "adjoint and dual are involutions, commute with each other, exchange ket/bra (resp. output/input) mode sets, leave classical sides as documented, and re-index the result 0..n-1 in standard order.",
  "every Wires object with modes in [0, 20000)",
  "algebraic law over all wire sets", [W+":Wires.adjoint", W+":Wires.dual", W+":Wires._reindex"])
p("Composition of wires is associative",
  "Whenever (w1 @ w2) @ w3 and w1 @ (w2 @ w3) are both accepted they have the same wires on every side; and one bracketing may be rejected only with ValueError.",
  "every triple of Wires objects",
  "unbounded triples of mode sets; counterexamples to acceptance need particular overlaps",
  [W+":Wires.__matmul__"])
p("contracted_labels labels contracted wires equally and every open wire exactly once",
  "contracted_labels(w1,w2) returns labels for w1, w2 and output such that two positions carry the same label iff they are a contracted pair, and the output labels list each uncontracted wire exactly once in the standard order of w1 @ w2.",
  "every composable pair of Wires", "label bookkeeping over unbounded wire sets", [W+":Wires.contracted_labels"])
p("Adding wires rejects any duplicated (mode, side, direction)",
  "w1 + w2 raises ValueError iff some wire with the same mode, side, direction and representation occurs in both, and otherwise has the wires of both; in particular for objects whose wires have equal representation on each side, iff a (mode, side, direction) occurs in both. Disagreement (theorem): two wires in the same place that differ only in representation are not recognised as overlapping, and the sum has two wires in one place.",
  "every pair of Wires objects with arbitrary representations",
  "needs particular histories (a to_fock before the addition)", [W+":QuantumWire.__eq__", W+":Wires.__add__"])
p("Data of a component's adjoint and dual stays attached to its wire",
  "CircuitComponent.adjoint and .dual reorder the ansatz so that the axis at standard position i of the new component is the axis of the original component that belonged to the same wire (with bra/ket, resp. in/out, exchanged).",
  "every component with any wire layout", "axis bookkeeping over all wire layouts",
  ["mrmustard/lab/circuit_components.py:CircuitComponent.adjoint","mrmustard/lab/circuit_components.py:CircuitComponent.dual"])
p(">> adds the missing adjoint side and nothing else",
  "A >> B behaves as A @ B after replacing exactly one operand by operand @ operand.adjoint when the other operand needs both sides; it raises ValueError exactly when the operands occupy incompatible sides or the (completed) composition would have an open wire twice.",
  "every pair of components, classified by which quantum sides their wires occupy",
  "case analysis over all wire layouts", ["mrmustard/lab/circuit_components.py:CircuitComponent.__rshift__"])
p("Contracting a circuit along the default path is the left-to-right >> of its components",
  "Circuit(components).contract() with the default path equals components[0] >> components[1] >> ..., including which exception is raised; contract() raises the path ValueError iff the path length is not len(components)-1; every path whose steps join two different available indices computes a bracketed product with every component exactly once; check_contraction accepts every prefix of a path that contract() can follow and rejects one with a missing index. Disagreement (theorem): a path pairing an index with itself is accepted and returns another component untouched.",
  "every component list (any length) and any associative or non-associative >>",
  "unbounded list length; error branch depends on the path", ["mrmustard/lab/circuits.py:Circuit.contract","mrmustard/lab/circuits.py:Circuit.__init__"])
p("Any path accepted by a circuit yields the same component",
  "All successful contractions of a circuit along paths that only merge neighbouring segments, without scalar intermediate results, leave the same open wires on the same sides, and group all components in circuit order. Disagreements (theorems): a path that skips over a component reorders the circuit and can change the open wires; after a scalar intermediate result (scalar >> component) the component is lost.",
  "every circuit of components with equal bra and ket modes, every pair of neighbour-merging paths", "exponentially many paths over unbounded circuits",
  ["mrmustard/lab/circuits.py:Circuit.contract","mrmustard/path/branch_and_bound.py:contract"])
p("The contraction-path optimiser returns a complete path of minimum cost",
  "optimal_contraction terminates and returns a complete contraction whose total cost is minimal among all complete edge-contraction sequences of the graph, whatever the queue's tie-breaking, set iteration order and the random initial solutions, provided every first contraction has positive cost; it raises only what contracting some edge raises. optimal_path, for components with positive shapes, returns a path of length n-1 that always joins two different still available components, with minimal cost for the optimised shapes, and reports 'disconnected' exactly when the circuit's graph is not connected.",
  "every graph, every priority-queue pop order, every n_init and random choice",
  "schedules (tie-breaking, set order, randomness) and graphs are unbounded",
  ["mrmustard/path/branch_and_bound.py:optimal_contraction","mrmustard/path/branch_and_bound.py:children","mrmustard/path/branch_and_bound.py:grandchildren","mrmustard/path/branch_and_bound.py:contract"])
p("Fock-shape optimisation terminates and only ever shrinks shapes",
  "optimize_fock_shapes terminates for every graph, never increases any (non-zero) dimension, leaves connected wires with equal dimension and every beamsplitter with each leg at most the sum of the two opposite legs; the result is a fixed point, it is the largest assignment with these properties below the initial one, and every photon-number assignment that is allowed by the initial shapes and conserves photon number in all beamsplitters is still inside the final shapes (nothing is lost).",
  "every graph with any positive shapes", "termination over all graphs cannot be tested",
  ["mrmustard/path/branch_and_bound.py:optimize_fock_shapes"])
p("The path heuristics leave optimality intact",
  "The default heuristics in optimal_contraction contract nodes only when the first letters of the ansatz names match the code; because ansatz names are PolyExpAnsatz/ArrayAnsatz they never match B/F, so the heuristics phase returns the graph unchanged.",
  "every graph and every heuristics code made of a digit and letters B/F", "over all graphs",
  ["mrmustard/path/branch_and_bound.py:reduce_first","mrmustard/path/branch_and_bound.py:heuristic"])
p("mm_einsum on Fock arrays computes the full contraction for every path",
  "For Fock arrays, whenever mm_einsum returns - for whatever non-empty contraction path, each step of which joins operands sharing a core label - its entries are the sum over all values of the non-output labels of the product of all inputs, entries missing in an input counting as zero; each axis has the requested Fock dimension or else the smallest cutoff among the axes with that label. So any two paths return the same array. With no Fock dimensions prescribed it does return for every such path.",
  "every number of inputs, labels, arrays and every complete pairwise contraction path",
  "paths are exponentially many and arrays unbounded", ["mrmustard/physics/mm_einsum.py:mm_einsum","mrmustard/physics/mm_einsum.py:prepare_idx_out"])
p("PolyExp contraction is the Bargmann integral over the shared labels",
  "PolyExpAnsatz.contract(other, idx1, idx2, idx_out) returns the ansatz whose value at every output batch index and every point is the Bargmann integral, over one complex variable w per shared label with weight exp(-|w|^2)/pi, of self (shared variables set to w) times other (set to conj(w)), whenever the integral converges, for batches, linear superpositions and derived variables; it raises nothing on consistent labels and reports an infinite result exactly when a determinant is (numerically) zero. (The code departs from this when the shared labels occur in different relative orders in the operands, since positions are sorted independently; and the overall sign may be wrong for three or more shared labels when the operands are not conjugate or Hermitian symmetric, because of the principal square root.)",
  "every pair of ansatze and every consistent choice of label lists, any number of shared labels, batch axes and variables", "continuum of inputs in every dimension; label orders and batch layouts are unbounded", ["mrmustard/physics/ansatz/polyexp_ansatz.py:PolyExpAnsatz.contract","mrmustard/physics/gaussian_integrals.py:complex_gaussian_integral_2","mrmustard/physics/gaussian_integrals.py:join_Abc"])
p("Complex Gaussian integrals can be done in any grouping",
  "Integrating out pairs of variables of exp(z^T A z/2 + b z) c in two stages gives the same (A, b) and the same c up to the branch of the square root as integrating them all at once; the closed form is the Schur complement.",
  "every dimension, every complex symmetric A with invertible blocks, every b, c",
  "continuum of inputs in every dimension", ["mrmustard/physics/gaussian_integrals.py:complex_gaussian_integral_1"])
p("The prefactor of Gaussian contraction does not depend on the order of contraction",
  "When the integral over all the pairs converges and the integrand is a Hermitian pairing (A on the conjugated variables is the complex conjugate of A on the variables), integrating some pairs first and the others afterwards yields exactly the same scalar c as integrating all at once. In general the two agree only up to sign (C17): c uses the principal square root of the determinant, and for the two-mode trace of lambda^n with lambda = 1/2 + 3i/4 the joint result is minus the sequential (correct) one.",
  "every A, c and every grouping", "sign flips occur only on particular determinant arguments",
  ["mrmustard/physics/gaussian_integrals.py:complex_gaussian_integral_1"])
p("The Fock amplitude recursion returns the amplitudes of exp(z^T A z/2 + b z)c",
  "vanilla (flat-index numba loop) returns at every multi-index k the value c·k!^{1/2}·[z^k]exp(...): it satisfies the two-term recurrence at every pivot, although it reads flat memory with wrap-around and chooses the first available pivot.",
  "every shape, every symmetric A, every b, c and every multi-index", "unbounded shapes and a continuum of entries",
  ["mrmustard/math/lattice/strategies/vanilla/core.py:vanilla_numba","mrmustard/math/lattice/steps.py:vanilla_step"])
p("All Fock strategies agree",
  "vanilla and stable (averaging over all pivots) and the dictionary strategies return equal amplitudes in exact arithmetic for symmetric A.",
  "every shape, A, b, c", "continuum of inputs", ["mrmustard/math/lattice/strategies/vanilla/core.py:stable_numba","mrmustard/math/lattice/strategies/binomial.py:binomial"])
p("binomial_subspace_basis enumerates each weight sector exactly",
  "binomial_subspace_basis(cutoffs, weight) lists every multi-index within the cutoffs whose total photon number is the weight, each exactly once, and nothing else; the cached wrapper returns the same.",
  "every cutoffs tuple and weight", "unbounded cutoffs", ["mrmustard/math/lattice/paths.py:binomial_subspace_basis"])
p("binomial strategy fills every amplitude up to the global cutoff",
  "binomial and binomial_dict compute the exact amplitude of every index inside local_cutoffs whose total photon number is below the global cutoff, leave every other entry zero (absent), stop early exactly at the first weight at which the accumulated norm exceeds the requested one, report that norm, and do not depend on the order in which the parallel loop visits a sector. (The default global cutoff of binomial_dict, sum(cutoffs)-len(cutoffs), misses the top corner although its documentation says it is derived from the local cutoffs: shown as a disagreement theorem.)",
  "every local cutoffs, A, b, c", "depends on the last corner of each shape", ["mrmustard/math/lattice/strategies/binomial.py:binomial_dict","mrmustard/math/lattice/strategies/binomial.py:binomial"])
p("Beamsplitter tensors conserve photon number and are complete",
  "The beamsplitter Fock tensors are zero unless m+n=p+q; stable_beamsplitter equals the Fock amplitudes of the gate's Bargmann triple at every index of every shape; beamsplitter does so at every index with p below the second output cutoff and leaves all other entries at zero (so it is complete when shape[2] <= shape[1], and incomplete e.g. for shape (2,2,3,3): shown as a disagreement theorem).",
  "every shape and angle", "unbounded shapes", ["mrmustard/math/lattice/strategies/beamsplitter.py:beamsplitter","mrmustard/math/lattice/strategies/beamsplitter.py:stable_beamsplitter"])
p("Squeezer tensors conserve photon parity",
  "squeezer and squeezed return at every index inside any shape the Fock amplitude of the gate's (state's) Bargmann triple; entries with odd index sum are exactly zero.",
  "every cutoff and parameters","unbounded cutoffs",["mrmustard/math/lattice/strategies/squeezer.py:squeezer","mrmustard/math/lattice/strategies/squeezer.py:squeezed"])
p("Lattice neighbours and pivots",
  "lower/upper/all neighbours enumerate exactly the indices at distance one in the respective direction; a pivot is the index with one positive entry lowered; first_available_pivot returns the first, smallest_pivot the one lowering a smallest positive entry.",
  "every index of every length","unbounded index lengths",["mrmustard/math/lattice/pivots.py","mrmustard/math/lattice/neighbors.py"])
p("simplify preserves the function and removes all duplicate Gaussians",
  "PolyExpAnsatz.simplify leaves evaluation at every point unchanged and leaves no two terms with equal (A,b); it is idempotent and preserves the canonical order. It succeeds exactly for non-empty superpositions without further batch axes.",
  "every batch of terms","unbounded batches",["mrmustard/physics/ansatz/polyexp_ansatz.py:PolyExpAnsatz.simplify","mrmustard/utils/argsort.py:argsort_gen"])
p("Linear superposition algebra of PolyExp ansatz",
  "(f+g)(z)=f(z)+g(z), (a f)(z)=a f(z), (-f), (f/a), (f & g)(z,w)=f(z)g(w), conj, on the level of evaluation of the linear superposition. (Findings: + is wrong or fails when the operands have different non-zero numbers of derived variables; & fails, or is silently wrong, when both operands are superpositions and one has derived variables; proved in all other cases.)",
  "every pair of batches and every point","unbounded batches",["mrmustard/physics/ansatz/polyexp_ansatz.py:PolyExpAnsatz.__add__","mrmustard/physics/ansatz/polyexp_ansatz.py:PolyExpAnsatz.__and__","mrmustard/physics/ansatz/polyexp_ansatz.py:PolyExpAnsatz.__mul__"])
p("Partial evaluation agrees with full evaluation",
  "Evaluating some of an ansatz's variables and later the rest equals evaluating all at once.",
  "every A,b,c, every split of variables, every point","continuum",["mrmustard/physics/ansatz/polyexp_ansatz.py:PolyExpAnsatz._partial_eval"])
p("Array ansatz cutoff changes are lossless on the overlap",
  "reduce(shape) keeps every entry inside both shapes and is zero elsewhere; reducing twice to smaller shapes is reducing once; it fails exactly if the number of axes is wrong or the request enlarges one axis while shrinking another",
  "every array and shape","unbounded shapes",["mrmustard/physics/ansatz/array_ansatz.py:ArrayAnsatz.reduce"])
p("Reordering axes composes",
  "ansatz.reorder(p).reorder(q) == ansatz.reorder([p[i] for i in q]); reordering by the inverse permutation restores the ansatz.",
  "every permutation pair","unbounded permutations",["mrmustard/physics/ansatz/array_ansatz.py:ArrayAnsatz.reorder","mrmustard/physics/ansatz/polyexp_ansatz.py:PolyExpAnsatz.reorder"])
p("Settings context restores previous values",
  "After a non-nested `with settings(**kw): body` that was entered successfully exits, normally or by exception, every setting named in kw reads as before and every other setting reads as the body left it; the body's exception is propagated. Disagreements, each shown as a theorem: nested contexts never restore the outer settings, a failing entry is not rolled back, and the random generator's position is not restored with SEED.",
  "every sequence of nested contexts and assignments","unbounded histories",["mrmustard/utils/settings.py:Settings.__call__","mrmustard/utils/settings.py:Settings.__enter__","mrmustard/utils/settings.py:Settings.__exit__"])
p("Unknown settings are never created",
  "Assigning an unknown setting raises AttributeError and changes nothing; entering a context with an unknown setting raises AttributeError before the body runs and leaves the value of every setting unchanged; after any program the settings object has exactly the attributes it was created with.",
  "every sequence of operations","unbounded histories",["mrmustard/utils/settings.py:Settings.__setattr__"])
p("Caches are transparent",
  "A cached function returns what the uncached function would, for every call history and any cache size, as long as no result is modified in place and the cache is cleared after each change of a setting the function reads. (Findings: oscillator_eigenstate reads settings.HBAR, which is not part of the key, so changing HBAR leaves stale wave functions; and results are returned by reference, so in-place changes of a result corrupt the cache.)",
  "every call history, every cache size",
  "unbounded histories with eviction",
  ["mrmustard/math/caching.py:tensor_int_cache", "mrmustard/physics/fock_utils.py:oscillator_eigenstate"])

p("Save and load, with crashes and concurrent processes",
  "load(save(...)) returns the same class arguments and arrays for every data whose names are not class, version, backend or file; names that clash between arrays and data raise ValueError before anything is written; loading under another backend raises TypeError and leaves no temporary files. If a zipped save stops at any point (even mid-write), files of other saves are untouched and the archive is either the old one, torn or the complete new one; a stopped load never loses the archive; any interleaving of processes that use different file names gives each the result of running alone. Disagreements (theorems): a crash while overwriting an unzipped save can mix old data with new arrays; remove_after deletes the files before the object is rebuilt; a zipped save deletes an unzipped save of the same name.",
  "every data dictionary, array dictionary, file system state, crash point and interleaving","unbounded contents, crash points and schedules",["mrmustard/utils/serialize.py:save","mrmustard/utils/serialize.py:load"])
p("A serialized circuit deserializes to the same components",
  "Saving any nonempty circuit of library components succeeds and loading it gives back every component with its own data and arrays, in order, and the same path, for any iteration order of mode sets and of the stored arrays, except that the linear-superposition marker and name of an ansatz and non-parameter options (internal of MZgate) come back as defaults; if some component has a variable for which its constructor has no _trainable/_bounds keywords (Ggate, GKet, GDM, GaussRandNoise, Interferometer, RealInterferometer) loading raises TypeError; the empty circuit raises ValueError on saving.",
  "every list of components, every path, every set iteration order","unbounded",["mrmustard/lab/circuits.py:Circuit.serialize","mrmustard/lab/circuits.py:Circuit.deserialize","mrmustard/lab/circuit_components.py:CircuitComponent._serialize"])
p("ParameterSet bookkeeping",
  "A parameter set has unique names, keeps insertion order, and adding a duplicate name raises and changes nothing; every stored parameter is constant xor variable; to_dict contains exactly each parameter's value under its name and, for variables, x_trainable and x_bounds (unless a parameter has such a name itself: disagreement theorem); indexing keeps every parameter with its kind and bounds, slicing arrays, but lists constants before variables (disagreement theorem).",
  "every sequence of add operations","unbounded histories",["mrmustard/math/parameter_set.py:ParameterSet"])
p("Samplers realise the joint distribution",
  "PNRSampler.sample(state, n): a successful call returns exactly n rows, one column per mode, each entry below the cutoff; for a normalised state inside the cutoff it never fails and the multiset of rows is distributed as n independent draws from the joint photon-number distribution, on any number of modes; a state with more than the tolerance outside the cutoff is rejected. (Finding: on several modes the rows come sorted by the first mode, so as a sequence they are not independent.)",
  "every n, every number of modes, every distribution, every generator",
  "a statement about probability distributions and all generators",
  ["mrmustard/lab/samplers.py:Sampler.sample", "mrmustard/lab/samplers.py:Sampler._validate_probs"])

p("The optimizer stops when promised",
  "minimize returns after exactly the first number of steps at which the step limit (if non-zero) is reached or at least 20 steps were made and the last 20 losses vary by less than the threshold in total, returning the parameters after these steps; with max_steps=n>0 it therefore terminates within n steps, with max_steps=0 it stops only on stability.",
  "every cost history","histories unbounded",["mrmustard/training/optimizer.py:Optimizer.should_stop"])
p("Manifold updates stay on the manifold",
  "The orthogonal, unitary and symplectic parameter updates map orthogonal/unitary/symplectic matrices to orthogonal/unitary/symplectic matrices in exact arithmetic.",
  "every dimension, matrix, Euclidean gradient and learning rate","continuum",["mrmustard/training/parameter_update.py:update_orthogonal","mrmustard/training/parameter_update.py:update_unitary","mrmustard/training/parameter_update.py:update_symplectic"])
p("Gate matrices are symplectic",
  "The matrices produced for the CX, CZ, P, MZ, interferometer and real interferometer gates satisfy S Omega S^T = Omega (for interferometers: exactly when the given matrix is unitary); the MZ matrices are those of the two documented arrangements of balanced beamsplitters and phases; composing gates multiplies the matrices.",
  "every parameter value and dimension","continuum",["mrmustard/physics/symplectics.py"])
p("Automatic Fock shapes",
  "autoshape stays inside [min_shape, max_shape] on every mode for every A, b, c; and for one-mode marginals with real A, b it returns the least k (up to max_shape) such that the photon numbers 0..k carry at least max_prob. (Findings: an array of that shape holds only 0..k-1, so it retains less than max_prob, contrary to the documentation; and for complex displacements the loop multiplies A with a swapped pair and computes wrong probabilities.)",
  "every A, b, c, bounds and probability",
  "the loop length is data dependent and unbounded; the failing cases need complex displacements of mixed states",
  ["mrmustard/math/lattice/autoshape.py:autoshape_numba"])

p("Fock-state measurement probabilities: fast diagonal strategy fills its whole output",
  "For every symmetric Bargmann triple of an L-mode density matrix, every output cutoff and every non-empty tuple of detector cutoffs, fast_diagonal (stable or not) never raises a KeyError and the matrix it returns for outcome p has at (r, s) exactly the Fock amplitude at bra (r,p), ket (s,p), for every p with 2*sum(p) < 2*output_cutoff + 2*sum(pnr_cutoffs) - L (or p = 0); the other outcomes are left at zero. In particular every outcome is right when L + 1 <= 2*output_cutoff; when it is smaller the highest outcomes are silently reported as zero.",
  "every cutoff tuple","unbounded cutoffs",["mrmustard/math/lattice/strategies/fast_diagonal.py:fast_diagonal"])
p("Batch-string helpers produce distinct labels and correct output structure",
  "outer_product_batch_str, zip_batch_strings and lin_sup_batch_str give einsum strings in which distinct batch dimensions never share a letter and the output lists them in order, linear-superposition dimensions last.",
  "every number of dimensions (within the alphabet)","unbounded",["mrmustard/physics/utils.py"])
p("on(modes) renames the i-th mode to modes[i]",
  "component.on(modes) succeeds iff all its occupied wire groups live on one set of modes with len(modes) elements (else ValueError); the result occupies the same groups on the new modes, and if these are all different every axis stays in place with its i-th smallest mode replaced by the i-th smallest new mode, hence by modes[i] when modes is increasing. Disagreement (theorem): for a non-increasing list it is not modes[i], and a list with repetitions is accepted and loses wires.",
  "every component whose wires share their modes, every list of new modes","unbounded modes",["mrmustard/lab/circuit_components.py:CircuitComponent.on"])

p("Manifold updates go downhill",
  "To first order in the learning rate, the orthogonal, unitary and symplectic updates change any differentiable loss by minus the squared norm of the Riemannian gradient computed from the (conjugated) gradient they are given; in particular never upwards.",
  "every dimension, every loss differentiable at the current value and its gradient",
  "derivative statement over all losses",
  ["mrmustard/training/parameter_update.py:update_symplectic", "mrmustard/math/backend_manager.py:euclidean_to_symplectic"])
p("Decomposing an ansatz does not change the function",
  "PolyExpAnsatz.decompose_ansatz returns an ansatz with the same batch shape and the same continuous variables that evaluates to the same value at every point, for every ansatz whose blocks coupling continuous and derived variables are transposes of each other; when it decomposes, the result has as many derived variables as continuous ones, each of length the sum of the original derived lengths.",
  "every A, b, c, every number of continuous and derived variables, every derived shape, every point",
  "identity between infinite families of Hermite polynomials",
  ["mrmustard/physics/ansatz/polyexp_ansatz.py:PolyExpAnsatz.decompose_ansatz"])
p("Equality of PolyExp ansatz is equality of terms up to order",
  "f == g for two ansatze with equally many terms holds exactly when their terms (A, b, c) agree up to reordering. (Findings: the order is ignored also for plain batches, where it matters; and the comparison broadcasts, so f == f + f is True for every unbatched f.)",
  "every pair of ansatze with equal numbers of variables",
  "quantifies over all batches; the failing cases need operands of different batch size",
  ["mrmustard/physics/ansatz/polyexp_ansatz.py:PolyExpAnsatz.__eq__", "mrmustard/physics/ansatz/polyexp_ansatz.py:PolyExpAnsatz._order_batch", "mrmustard/utils/argsort.py:argsort_gen"])
p("Tracing a PolyExp ansatz is the Gaussian integral",
  "Whenever PolyExpAnsatz.trace(idx_z, idx_zconj, measure) returns finite arrays, the result at every point of the remaining variables is the integral, with weight exp(measure |w|^2) / pi^m, of the original function with the paired variables set to w and its conjugate, derived (polynomial) variables included. Exact for one pair, for Hermitian pairing (partial trace of a density operator) and for linear superpositions thereof; for two or more arbitrary pairs it is exact up to a sign that does not depend on the remaining variables. It raises exactly for mismatched, repeated or out-of-range indices and returns infinities exactly when |det M| <= 1e-12 for some batch element. (Finding: the sign can be wrong: the trace of l^n x l^n with l = 1/2 + 3/4 i comes out negated.)",
  "every ansatz with symmetric A, every set of pairs for which the integral converges absolutely, every measure, every point",
  "the statement is about an improper integral over C^m for every quadratic form",
  ["mrmustard/physics/gaussian_integrals.py:complex_gaussian_integral_1", "mrmustard/physics/ansatz/polyexp_ansatz.py:PolyExpAnsatz.trace"])
p("Fock array algebra is the algebra of zero-extended arrays",
"For Fock arrays: a + b (cutoffs comparable) has the larger cutoffs and adds entries, missing ones counting as zero, and is an error for incomparable cutoffs; a & b multiplies entries batch element by batch element; trace sums the entries with equal index on both axes of each pair up to the smaller cutoff and keeps the other axes in order; == is reflexive and symmetric, and equality of all entries for arrays of the same shape. (Disagreements: == compares only the common part and is not transitive; tracing over no axes is an error.)",
"every array, batch shape, cutoffs and index tuples",
"unbounded shapes and ranks",
["mrmustard/physics/ansatz/array_ansatz.py:ArrayAnsatz.__add__","mrmustard/physics/ansatz/array_ansatz.py:ArrayAnsatz.__and__","mrmustard/physics/ansatz/array_ansatz.py:ArrayAnsatz.trace","mrmustard/physics/ansatz/array_ansatz.py:ArrayAnsatz.__eq__"])
p("Seeds make sampling reproducible",
"sample(state, n, seed) with a non-zero seed returns, on one mode, a result that does not depend on the state of the global generator and leaves it unchanged; on several modes the first column is fixed by the seed. (Findings: the other columns are not, because the recursive calls pass no seed; and seed 0 is ignored.)",
"every generator, every seed, state and number of samples",
"quantifies over all generator states",
["mrmustard/lab/samplers.py:Sampler.sample", "mrmustard/lab/samplers.py:Sampler.sample_prob_dist"])
p("Oscillator eigenstates are the Hermite functions",
"oscillator_eigenstate(q, cutoff) returns the Hermite functions (2^n n!)^{-1/2} (pi hbar)^{-1/4} exp(-q^2/2hbar) H_n(q/sqrt(hbar)); they are orthonormal on the real line, and quadrature_distribution of any one-mode ket or density matrix at any angle integrates to its squared norm or trace.",
"every cutoff, photon number, point, angle, hbar > 0 and state",
"integrals over the real line for every n",
["mrmustard/physics/fock_utils.py:oscillator_eigenstate", "mrmustard/physics/fock_utils.py:quadrature_basis", "mrmustard/physics/fock_utils.py:quadrature_distribution"])
p("Gates act on states by their defining substitution",
"Contracting any ansatz (batched, with polynomial part or superposition) with a displacement, rotation, damping, beam splitter, identity or amplifier triple over the gate's input labels succeeds and gives the function obtained by the defining substitution: a rotation multiplies the variable by exp(i theta), a displacement shifts it by -conj(alpha) and multiplies by exp(alpha z - |alpha|^2/2), a beam splitter mixes the two variables by the rotation matrix, and so on.",
"every ansatz, every parameter value, every batch layout and every compatible labelling",
"an identity between functions of complex variables for all Gaussian-polynomial ansatze",
["mrmustard/physics/triples.py:displacement_gate_Abc","mrmustard/physics/triples.py:rotation_gate_Abc","mrmustard/physics/triples.py:beamsplitter_gate_Abc","mrmustard/physics/triples.py:identity_Abc","mrmustard/physics/triples.py:amplifier_Abc","mrmustard/physics/triples.py:fock_damping_Abc","mrmustard/physics/ansatz/polyexp_ansatz.py:PolyExpAnsatz.contract"])
p("State constructors are gates applied to the vacuum",
"vacuum >> Dgate(alpha) is the coherent state, vacuum >> Sgate(r, phi) the squeezed vacuum, vacuum >> S2gate(r, phi) the two-mode squeezed vacuum and SqueezedVacuum >> Dgate the displaced squeezed vacuum (global phase included); a displaced, rotated or beam-split coherent state is the coherent state with the transformed amplitudes, up to the known phase.",
"every real or complex parameter value, every batch shape",
"equality of functions for all parameter values",
["mrmustard/physics/triples.py:coherent_state_Abc","mrmustard/physics/triples.py:squeezed_vacuum_state_Abc","mrmustard/physics/triples.py:displaced_squeezed_vacuum_state_Abc","mrmustard/physics/triples.py:two_mode_squeezed_vacuum_state_Abc","mrmustard/physics/triples.py:squeezing_gate_Abc","mrmustard/physics/triples.py:twomode_squeezing_gate_Abc"])
p("Composition laws of gates",
"Composing two displacements gives the displacement by the sum times the phase exp((conj(a) b - a conj(b))/2); rotations, dampings, beam splitters of equal phase, squeezers and two-mode squeezers of equal phase add their parameters (squeezers: as long as the determinant cosh(r+r')/(cosh r cosh r') exceeds 1e-12, its square for the two-mode squeezer).",
"every parameter value, every batch layout",
"group laws quantify over all parameters",
["mrmustard/physics/triples.py:displacement_gate_Abc","mrmustard/physics/triples.py:rotation_gate_Abc","mrmustard/physics/triples.py:squeezing_gate_Abc","mrmustard/physics/triples.py:twomode_squeezing_gate_Abc","mrmustard/physics/triples.py:beamsplitter_gate_Abc"])
p("Attenuators and amplifiers form semigroups",
"Two attenuators compose to the attenuator with the product of the efficiencies, two amplifiers to the amplifier with the product of the gains; an attenuated coherent state is the coherent state with amplitude sqrt(eta) alpha; an attenuator followed by any component substitutes its input variables as documented.",
"every efficiency in [0,1], every gain >= 1, every batch layout",
"semigroup laws quantify over all parameters",
["mrmustard/physics/triples.py:attenuator_Abc","mrmustard/physics/triples.py:amplifier_Abc"])
p("Fock amplitudes of states, gates and channels",
"fock_array of every built-in state, gate and channel has, at every index, the textbook amplitude: Poissonian for coherent states, photon pairs for squeezed vacuum, Schmidt form for two-mode squeezed vacuum, geometric for thermal states, diagonal phases for rotations, Laguerre sums for displacements, the finite sums for squeezers and beam splitters, binomial for attenuators and amplifiers, Hermite functions for quadrature eigenstates (times hbar^(1/4), a normalisation the code omits).",
"every cutoff and index, every parameter value, every batch element",
"infinitely many matrix elements for all parameters",
["mrmustard/lab/circuit_components.py:CircuitComponent.fock_array","mrmustard/physics/triples.py"])
p("Normalisation and traces",
"The squared norm of coherent, squeezed, displaced squeezed and two-mode squeezed states computed by contraction is 1; thermal states have trace 1 and purity 1/(2 nbar + 1); attenuator and amplifier are trace preserving. (Findings: because of the determinant threshold 1e-12 the norm of a displaced squeezed state is returned infinite exactly if cosh(r)^2 >= 1e12, the trace of a thermal state exactly if nbar >= 999999 and that of an amplified state exactly if g >= 1e6.)",
"every parameter value, every batch shape",
"the exact thresholds are outside any test grid",
["mrmustard/physics/triples.py","mrmustard/physics/gaussian_integrals.py:complex_gaussian_integral_1","mrmustard/physics/ansatz/polyexp_ansatz.py:PolyExpAnsatz.trace"])
p("The Fock array is the Taylor expansion, and is determined by the function",
"fock_array(shape) raises exactly for a zero cutoff or a wrong number of cutoffs; its entries do not depend on the cutoffs; the series F(z) = sum_k F_k z^k / sqrt(k!) converges to the value of the ansatz at every point, derived variables and superpositions included; two ansatze with the same values (however represented) have the same Fock arrays.",
"every ansatz with symmetric A, every shape, every point",
"convergence of an infinite series at every point",
["mrmustard/lab/circuit_components.py:CircuitComponent.fock_array"])
p("Round trips between Fock and Bargmann representation",
"to_bargmann of an unbatched Fock array stands for the polynomial with these coefficients, and its Fock array of any shape is the array padded with zeros or cut; to_fock then to_bargmann returns an equal ansatz for plain ansatze whatever the cutoffs, and the truncated series otherwise; the contraction planner's conversions keep batches and agree with fock_array for plain ansatze. (Findings: to_bargmann of a component with a batched Fock array turns batch axes into polynomial variables; the planner's to_fock of a superposition sums over the first cutoff instead of the terms.)",
"every array, shape, batch and ansatz",
"quantifies over all arrays and shapes",
["mrmustard/lab/circuit_components.py:CircuitComponent.to_bargmann","mrmustard/lab/circuit_components.py:CircuitComponent.to_fock","mrmustard/physics/mm_einsum.py:to_fock","mrmustard/physics/mm_einsum.py:to_bargmann"])
p("Wigner functions",
"For a Hermitian density matrix indexed [ket, bra], wigner_discretized returns at every grid point the Weyl transform (1/(pi hbar)) * integral of <q-y|rho|q+y> exp(2ipy/hbar) dy, with either method, and the two methods return the same value for every matrix. (Findings: with cutoff 1 Clenshaw's method returns twice the value; for MrMustard's own arrays, indexed [bra, ket], the result is the Wigner function at (q,-p), which the 2D plot compensates and the 3D plot does not.)",
"every cutoff, matrix, hbar > 0 and grid point",
"an integral identity for all matrices and points",
["mrmustard/physics/wigner.py:wigner_discretized","mrmustard/physics/wigner.py:_wigner_discretized_iterative","mrmustard/physics/wigner.py:_wigner_discretized_clenshaw"])
p("Gradients of Fock arrays with respect to the Bargmann triple",
"The backward pass of hermite_renormalized (default and stable) returns dL/dA, dL/db, dL/dc such that, along every differentiable family of triples with symmetric A, the derivative of sum_k g_k G_k is sum dLdA A' + sum dLdb b' + dLdc c'; dL/dA is symmetric.",
"every shape, every differentiable family of triples with c nonzero, every cotangent",
"a derivative identity for all families and shapes; finite differences only approximate it at points",
["mrmustard/math/lattice/strategies/vanilla/core.py:vanilla_vjp_numba","mrmustard/math/jax_vjps/hermite.py:hermite_renormalized_jax_bwd"])
p("Gradients of gate Fock arrays with respect to gate parameters",
"The backward pass of the displacement returns the cotangent of alpha whose real pairing with alpha' is the derivative of Re sum g D; grad_displacement returns the entrywise derivatives in r and phi. (Finding: the backward passes of squeezer, squeezed state and beam splitter return exactly twice the derivative of Re sum g G in each parameter, in the convention in which the displacement's is right.)",
"every cutoff, every parameter value, every cotangent",
"a derivative identity for all parameters, cutoffs and cotangents",
["mrmustard/math/lattice/strategies/displacement.py:jacobian_displacement","mrmustard/math/lattice/strategies/displacement.py:grad_displacement","mrmustard/math/lattice/strategies/squeezer.py:squeezer_vjp","mrmustard/math/lattice/strategies/squeezer.py:squeezed_vjp","mrmustard/math/lattice/strategies/beamsplitter.py:beamsplitter_vjp","mrmustard/math/jax_vjps/fock_utils.py"])
p("The dedicated fock_array of built-in gates is the generic one",
"Dgate, Sgate, BSgate and SqueezedVacuum compute their Fock arrays with dedicated recursions (Laguerre polynomials for Dgate); for every batch, shape and index these return the array the generic fock_array computes from the Bargmann triple. (Finding: a Dgate with 0 < |alpha| <= 1e-15 is returned as the identity.)",
"every batch shape, cutoffs, index and parameter values (alpha zero or above the tolerance)",
"equality of two algorithms on all shapes and parameters",
["mrmustard/lab/transformations/dgate.py:Dgate.fock_array","mrmustard/lab/transformations/sgate.py:Sgate.fock_array","mrmustard/lab/transformations/bsgate.py:BSgate.fock_array","mrmustard/lab/states/squeezed_vacuum.py:SqueezedVacuum.fock_array","mrmustard/math/lattice/strategies/displacement.py:displacement"])
p("Unitary.from_symplectic builds the unitary of a symplectic matrix",
"For every real symplectic S, Unitary.from_symplectic(modes, S) is a unitary operator (U^dagger U = 1) that transforms the quadratures by S (U^dagger r U = S r), its vacuum amplitude is positive, and any operator acting on the quadratures by S is a multiple of it; its symplectic property returns S, and conversely every symmetric unitary A with an invertible output-input block is recovered from its symplectic. from_symplectic(S^-1) is the adjoint, products compose up to a constant phase, Interferometer(U) has Bargmann function exp(z^T U w), and Rgate, Sgate, BSgate and S2gate have exactly the Bargmann function built from their symplectic matrices.",
"every number of modes, every symplectic matrix, every gate parameter and batch index",
"operator identities for all symplectic matrices and mode counts; tests compare a few random matrices at finite cutoff",
["mrmustard/physics/bargmann_utils.py:symplectic2Au","mrmustard/physics/bargmann_utils.py:au2Symplectic","mrmustard/lab/transformations/base.py:Unitary.from_symplectic","mrmustard/lab/transformations/base.py:Unitary.symplectic","mrmustard/lab/transformations/ggate.py:Ggate"])
p("from_phase_space builds the state with the given moments",
"For every real symmetric covariance matrix cov with cov + (hbar/2) I positive definite, every mean vector mu and coefficient, DM.from_phase_space(modes, (cov, mu, coeff)) is the operator with trace coeff, quadrature means coeff*mu, and second moments sqrt(hbar)^2 Tr(r_i r_j rho) = coeff*(cov_ij + mu_i mu_j + i hbar/2 Omega_ij), whose Husimi function is the Gaussian with covariance cov + hbar/2 and mean mu; it is the only operator with that Husimi function. number_means(cov, mu) are its mean photon numbers. The vacuum covariance with mean point(alpha) gives the coherent state.",
"every number of modes, covariance matrix, mean vector, coefficient and value of hbar",
"an operator identity for all covariance matrices and mode counts; tests compare a few random states",
["mrmustard/physics/bargmann_utils.py:wigner_to_bargmann_rho","mrmustard/physics/bargmann_utils.py:cayley","mrmustard/physics/utils.py:complex_pq_basis","mrmustard/lab/states/dm.py:DM.from_phase_space","mrmustard/physics/gaussian.py:number_means"])
p("Pure, mixed and unphysical covariance matrices",
"For S symplectic, DM.from_phase_space with cov = (hbar/2) S S^T is the projector on the state of Ket.from_phase_space with the same data, and that state (zero means) is Unitary.from_symplectic(S) applied to the vacuum. The operator of DM.from_phase_space with positive coefficient is positive exactly if cov + i(hbar/2) Omega >= 0 (the uncertainty relation), in which case is_positive returns True at every tolerance; for every Hermitian Gaussian triple with positive constant, is_positive at tolerance ATOL is positivity of the operator times exp(ATOL z.w), so at tolerance 0 it is positivity. The linear part and the diagonal blocks are not looked at: there is a non-Hermitian operator of trace one that is reported physical.",
"every number of modes, symplectic or covariance matrix, mean vector, coefficient, tolerance and value of hbar; every Hermitian Gaussian triple",
"positivity quantifies over all vectors of an infinite-dimensional space and all covariance matrices; tests try random states",
["mrmustard/physics/bargmann_utils.py:wigner_to_bargmann_psi","mrmustard/lab/states/ket.py:Ket.from_phase_space","mrmustard/lab/states/dm.py:DM.from_phase_space","mrmustard/lab/states/dm.py:DM.is_positive","mrmustard/lab/states/dm.py:DM.is_physical"])
p("Overlap, purity and fidelity from covariance matrices",
"For Gaussian states given by phase-space data (cov positive definite), Tr(rho1 rho2) = k1 k2 hbar^n / sqrt(det(cov1+cov2)) exp(-1/2 d^T (cov1+cov2)^-1 d); gaussian.purity(cov) is Tr(rho^2)/Tr(rho)^2; for physical covariance matrices it lies in (0,1] and is 1 exactly for the covariance matrices (hbar/2) S S^T. Ket.from_phase_space with every positive tolerance accepts exactly those; with atol_purity None or 0 it accepts everything. gaussian.fidelity(mu1, cov1, mu2, cov2) equals Tr(rho1 rho2) whenever one of the states is pure.",
"every number of modes, every pair of covariance matrices, means, coefficients and value of hbar",
"an identity between determinants and integrals over all states; tests compare a few random states at numerical tolerance",
["mrmustard/physics/gaussian.py:purity","mrmustard/physics/gaussian.py:fidelity","mrmustard/lab/states/ket.py:Ket.from_phase_space","mrmustard/lab/states/dm.py:DM.fidelity"])
p("Symplectic eigenvalues and von Neumann entropy",
"Every positive definite covariance matrix is (hbar/2) Z diag(nu,nu) Z^T with Z symplectic, and symplectic_eigenvals returns exactly the numbers nu in increasing order, one per mode; they do not change under symplectic transformations; the purity is the inverse of their product; the uncertainty relation holds exactly if they are all >= 1. Every physical Gaussian state is D U tau U+ D+ with tau = sum_k P(k)|k><k| for a probability distribution P over photon numbers, and von_neumann_entropy is the Shannon entropy of P up to 1e-9 per mode; it is >= 0, and zero exactly for pure states.",
"every number of modes, covariance matrix, mean vector and value of hbar",
"existence of the normal form and an infinite sum over photon numbers for all covariance matrices",
["mrmustard/physics/gaussian.py:symplectic_eigenvals","mrmustard/physics/gaussian.py:von_neumann_entropy"])
p("Gaussian unitaries act on phase space by their symplectic matrix",
"For S symplectic, U = Unitary.from_symplectic(S), and every Gaussian state with positive definite covariance matrix cov and mean mu, U rho U+ is the Gaussian state with moments (S cov S^T, S mu) and the same coefficient. D(beta) rho D(beta)+ has the same covariance and its mean moved by sqrt(2 hbar)(Re beta, Im beta). Hence Rgate, Sgate, BSgate, S2gate and Dgate act on means and covariances by their documented matrices, with the signs and the hbar convention of phase_space.",
"every number of modes, symplectic matrix, state, displacement, gate parameters and value of hbar",
"an operator identity for all states and parameters; tests compare a few random states",
["mrmustard/lab/transformations/base.py:Unitary.from_symplectic","mrmustard/physics/bargmann_utils.py:symplectic2Au","mrmustard/physics/triples.py:displacement_gate_Abc","mrmustard/physics/triples.py:squeezing_gate_Abc","mrmustard/physics/triples.py:beamsplitter_gate_Abc","mrmustard/physics/bargmann_utils.py:wigner_to_bargmann_rho"])
p("Photon-number distribution",
"State.fock_distribution(c): for a ket on n modes, entry number sum_j k_j c^(n-1-j) of the result is |<k|psi>|^2; for a density matrix that is not reported separable it is <k|rho|k>, in the same order. For a density matrix reported separable the entry at the position of (k_1,...,k_n) is the one of the reversed tuple (k_n,...,k_1): the two paths agree exactly when the distribution is symmetric under reversal of the modes.",
"every number of modes, cutoff, batch, amplitude array and photon-number tuple",
"an index bijection for all sizes; the tests only use states with equal amplitudes in all modes, for which the reversed order cannot be seen",
["mrmustard/lab/states/base.py:State.fock_distribution"])
p("Phase-space representation of a state",
"For the Gaussian state with positive definite covariance matrix cov, mean mu and coefficient k, contracting with BtoChar(s) gives the function of gamma equal to exp(s|gamma|^2/2) Tr(rho D(gamma)), and state.phase_space(s) returns exactly (cov - (s hbar/2) 1, mu, k): it inverts DM.from_phase_space at s = 0. In particular s = 1 is the Glauber and s = -1 the Husimi representation (the docstring says the reverse).",
"every number of modes, covariance matrix, mean, coefficient, real s and hbar > 0",
"an identity of Gaussian integrals for all states and all real s",
["mrmustard/lab/states/base.py:State.phase_space","mrmustard/physics/bargmann_utils.py:bargmann_Abc_to_phasespace_cov_means","mrmustard/physics/triples.py:displacement_map_s_parametrized_Abc"])
p("Reduced states and the separability test",
"Tracing out modes of a Gaussian state gives the Gaussian state with the corresponding parts of cov and mu. State.is_separable is true for every product state; for pure states the quantity it tests (sum of the entropies of the modes minus the total entropy) is >= 0 and zero exactly for product states. For mixed states it is not a test of separability: there is a Gaussian mixture of products of coherent states for which it is false; every state with cov > (hbar/2) 1 is such a mixture.",
"every number of modes, covariance matrix, mean and hbar",
"a statement about all states; an integral representation over all coherent states is needed to show that a state is separable",
["mrmustard/lab/states/base.py:State.is_separable","mrmustard/physics/gaussian.py:von_neumann_entropy"])
p("Gaussian channels from X and Y",
"Channel.from_XY(X, Y) with Y >= 0 and no displacement takes the Gaussian state with covariance matrix cov and mean mu to the one with X cov X^T + Y and X mu, with the same coefficient. With a displacement d it does not take the mean to X mu + d as documented: the exact output mean and coefficient are given; they involve a wrong sign of the input part of b.",
"every number of input and output modes, X, Y >= 0, d, positive definite cov, mu, coefficient and hbar > 0",
"an identity of Gaussian integrals for all states and all X, Y; the tests only compare X and Y read back from the triple",
["mrmustard/lab/transformations/base.py:Channel.from_XY","mrmustard/physics/triples.py:XY_to_channel_Abc"])
p("Complete positivity test",
"Channel.is_CP is true for every positive tolerance exactly if the Choi operator of the channel is positive; for a channel of from_XY exactly if Y + (i hbar/2)(Omega - X Omega X^T) >= 0, and exactly if it takes physical Gaussian states of its input modes and as many further modes to physical states. With tolerance zero the strict comparison rejects every channel on the boundary (among them all unitaries).",
"every Hermitian Gaussian channel, number of modes, X and Y",
"ranges over all states of all larger systems",
["mrmustard/lab/transformations/base.py:Channel.is_CP"])
p("Channel.XY and the trace test",
"Channel.XY returns the X and Y with which from_XY has built a channel, and for every Hermitian, completely positive, trace preserving Gaussian map with finite output trace it returns X and Y >= 0 such that the map takes (cov, mu) to (X cov X^T + Y, X mu + d) for a fixed d. Channel.is_TP, where it does not raise and with equal numbers of input and output modes, is true exactly if some b and c make the map with this A trace preserving; it does not look at b and c. With different numbers of input and output modes every trace preserving map is rejected. It raises on all channels with X = 0. from_XY with a displacement is trace preserving only if X^T xi^-1 d = 0, though is_TP accepts it.",
"every number of input and output modes, every Hermitian triple, X, Y, d, hbar > 0",
"a statement about all maps and all states; the wrong verdicts appear on channels no test builds",
["mrmustard/lab/transformations/base.py:Channel.XY","mrmustard/lab/transformations/base.py:Channel.is_TP","mrmustard/physics/bargmann_utils.py:XY_of_channel"])
p("Attenuator, amplifier and Gaussian noise in phase space",
"Attenuator(eta) takes (cov, mu) to (eta cov + (1-eta) hbar/2, sqrt(eta) mu), Amplifier(g) to (g cov + (g-1) hbar/2, sqrt(g) mu), GaussRandNoise(Y) to (cov + Y, mu); all accepted parameters give completely positive trace preserving maps, and Channel.XY returns these matrices. GaussRandNoise accepts a symmetric Y for all tolerances exactly if Y >= 0. Scaling all quadratures by s with noise y is accepted by is_CP exactly if y >= (hbar/2)|1 - s^2|. Channels compose as X2 X1, X2 Y1 X2^T + Y2.",
"every accepted parameter, batch element, positive definite cov, mu, coefficient, hbar > 0, number of modes (noise channel)",
"the action on all states and the exact boundary of what is physical",
["mrmustard/physics/triples.py:attenuator_Abc","mrmustard/physics/triples.py:amplifier_Abc","mrmustard/physics/triples.py:gaussian_random_noise_Abc","mrmustard/lab/transformations/gaussrandnoise.py:GaussRandNoise"])
p("Phase noise",
"state >> PhaseNoise(modes, sigma), on a state of the modes 0..n-1 given by its Fock array, is the average of the density matrix over independent Gaussian random phases of mean zero and standard deviation sigma on those modes. It keeps the trace and the photon number distribution, Hermiticity and positivity; noises in a row add their variances, noises on disjoint modes commute and combine; sigma = 0 does nothing. The mode label is used as the position of the axis, so for a state on other labels the wrong mode is affected or IndexError is raised; and a state that is already in the Fock representation is overwritten by the operation, so that repeating the same line applies the noise twice.",
"every number of modes, cutoffs, batch index, set of noisy modes, sigma, array",
"an average over a continuum of phases, and an effect on the operand that no test of the result sees",
["mrmustard/lab/transformations/phasenoise.py:PhaseNoise.__custom_rrshift__"])
p("Stellar decompositions of kets",
"For a Gaussian ket and any set of core modes, formal_stellar_decomposition returns a core state (projected on the vacuum of the other modes it is a multiple of the vacuum) and an operation on the core modes that maps the core state to the ket. physical_stellar_decomposition does the same for every normalisable ket whose core block of A is invertible; when that block is singular (a vacuum or coherent core mode) it raises. The operator it returns is unitary when there is one core mode, when the core block commutes with its conjugate, or when the ket has no linear term on the core modes; in general it is unitary exactly when the input part of its linear term is -gamma^-T (conj(b) + conj(A) b), and there are two-mode cores for which it is not.",
"every numbers of core and other modes, every symmetric A (normalisable for the physical one), b and c, every eigendecomposition eigh may return",
"an identity between Gaussian integrals over any number of modes, and a failure of unitarity that only complex two-mode cores with displacement show",
["mrmustard/lab/states/ket.py:Ket.formal_stellar_decomposition", "mrmustard/lab/states/ket.py:Ket.physical_stellar_decomposition"])
p("The compact diagonal of a Fock array",
"math.hermite_renormalized_diagonal returns, for every photon pattern n below the cutoffs, the amplitude with n photons in the first half of the variables and n in the second half, that is the entry of hermite_renormalized at (n, n), although it visits only the amplitudes near the diagonal; a matrix A that is not symmetric is refused.",
"every number of modes, all cutoffs (including cutoffs 1), every symmetric A, b and c",
"the strategy reads and writes five arrays in an order that has to be right for every number of modes, every cutoff and every photon pattern",
["mrmustard/math/lattice/strategies/compactFock/diagonal_amps.py:fock_representation_diagonal_NUMBA", "mrmustard/math/lattice/strategies/compactFock/inputValidation.py:hermite_multidimensional_diagonal"])
p("Gradient of the compact diagonal",
"The backward pass of the compact diagonal returns dL/dA, dL/dB and dL/dC such that, along every differentiable family of triples with symmetric A, the derivative of sum_n g_n out_n is sum dLdA A' + sum dLdB B' + dLdC C'.",
"every number of modes, all cutoffs, every differentiable family of triples with c nonzero, every cotangent",
"a derivative identity for all families and cutoffs; finite differences only approximate it at points",
["mrmustard/math/lattice/strategies/compactFock/diagonal_grad.py:fock_representation_diagonal_grad_NUMBA", "mrmustard/math/jax_vjps/hermite.py:hermite_renormalized_diagonal_jax_bwd"])
p("Conditional density matrices of one leftover mode (JAX back end)",
"math.hermite_renormalized_1leftoverMode of the JAX back end returns, for every detector outcome p and all m, n up to the output cutoff, the amplitude with (m, p) photons in the first half of the variables and (n, p) in the second half. It agrees with the numpy back end whenever reorderedAB is True and the output cutoff is large enough for the numpy recursion; with reorderedAB=False the JAX back end takes the variables as interleaved, while the numpy back end reorders them all the same (the flag is received as `stable`), so the two then differ. A call with no detected mode, or with a matrix that is not symmetric, is refused.",
"every number of detected modes, all cutoffs, every symmetric A, b and c, both values of the flag",
"the strategy reads and writes five arrays of blocks in an order that has to be right for every number of modes, every cutoff and every outcome; tests sample a few cutoffs and never pass the flag through both back ends",
["mrmustard/math/lattice/strategies/compactFock/singleLeftoverMode_amps.py:fock_representation_1leftoverMode_NUMBA", "mrmustard/math/lattice/strategies/compactFock/inputValidation.py:hermite_multidimensional_1leftoverMode", "mrmustard/math/backend_numpy.py:hermite_renormalized_1leftoverMode"])
p("Gradient of the conditional density matrices of one leftover mode",
"The backward pass of hermite_renormalized_1leftoverMode returns dL/dA, dL/dB and dL/dC such that, along every differentiable family of triples with symmetric A, the derivative of sum_{m,n,p} g_{m,n,p} out_{m,n,p} is sum dLdA A' + sum dLdB B' + dLdC C'.",
"every number of detected modes, all cutoffs, every differentiable family of triples with c nonzero, every cotangent",
"a derivative identity for all families and cutoffs; finite differences only approximate it at points",
["mrmustard/math/lattice/strategies/compactFock/singleLeftoverMode_grad.py:fock_representation_1leftoverMode_grad_NUMBA", "mrmustard/math/jax_vjps/hermite.py:hermite_renormalized_1leftoverMode_jax_bwd"])

p("GKet, GDM and random_symplectic: the Gaussian state of a symplectic matrix",
  "For every symplectic matrix S on any number of modes, GKet(modes, S) is exactly U|0> for the unitary U that the library associates with S: |psi><psi| is the trace-one Gaussian state with covariance (hbar/2) S S^T and mean zero. For all inverse temperatures beta > 0, GDM(modes, beta, S), when its Gaussian integral is not reported infinite, is exactly U rho U^dagger with rho the product of thermal states (1-e^-beta) sum e^(-beta k)|k><k|, i.e. the positive trace-one Gaussian state with covariance (hbar/2) S diag(coth(beta/2)) S^T; it is never reported infinite when prod(1-e^-beta) > 1e-6, however strong the squeezing. Every matrix random_symplectic can return is symplectic, whatever unitaries and squeezings were sampled; unitary_to_orthogonal is multiplicative and maps unitaries to orthogonal symplectic matrices; the second sampled unitary has no effect on the GKet made from it, which has sum sinh^2 r photons on average.",
  "all numbers of modes, all real symplectic matrices, all positive inverse temperatures, all unitaries and squeezing parameters, all arguments of the Bargmann functions",
  "tests compare a few random matrices numerically; the identities (including the branch of two complex square roots and one fourth root) must hold for all symplectic matrices and temperatures",
  ["mrmustard/physics/triples.py:gket_state_Abc", "mrmustard/physics/triples.py:gdm_state_Abc", "mrmustard/lab/states/gaussian_state.py:GKet", "mrmustard/lab/states/gaussian_state.py:GDM", "mrmustard/math/backend_manager.py:random_symplectic", "mrmustard/math/backend_manager.py:unitary_to_orthogonal"])

p("Sauron states approximate Fock states",
  "For every n and every radius epsilon != 0, Sauron(mode, n, epsilon) has norm exactly 1, its Fock amplitudes vanish except at photon numbers congruent to n modulo n+1, where they are proportional to epsilon^k/sqrt(k!), and its fidelity with the Fock state n is at least exp(-epsilon^(2(n+1))); for epsilon > 0 the amplitude at n is real and positive, so the state converges to Number(n) as epsilon goes to 0. At epsilon = 0 with n >= 1 the normalization constant is zero (division by zero).",
  "all photon numbers n, all radii, all cutoffs and Fock indices",
  "tests check the overlap for n = 1, 2, 3 with radius 0.1; the claim is for every n and radius, and about a limit",
  ["mrmustard/physics/triples.py:sauron_state_Abc", "mrmustard/lab/states/sauron.py:Sauron"])

p("Homodyne statistics and the quadrature representation",
  "For every Gaussian state, any number of modes and any angle phi, quadrature_distribution is the normal density whose mean and covariance are those of cos(phi) x + sin(phi) p, so it integrates to one; for a pure state it is the squared modulus of the wave function and agrees with the value computed from its density matrix. The quadrature representation of the Fock state k is the product of the oscillator eigenfunctions with the phases exp(-i k phi), hence the Bargmann and Fock-array branches of quadrature agree (for phi = 0 or |phi| > 1e-9), and the distribution of an array integrates to its squared norm. The overlap with QuadratureEigenstate is hbar^(1/4) times the value of the wave function.",
  "all Gaussian states, angles, numbers of modes, photon numbers, cutoffs, quadrature values and hbar",
  "tests evaluate a few states on small grids and angles; the claim is an identity of functions, and includes integrals over all of R^n",
  ["mrmustard/physics/triples.py:bargmann_to_quadrature_Abc", "mrmustard/lab/circuit_components_utils/b_to_q.py:BtoQ", "mrmustard/lab/circuit_components.py:CircuitComponent.quadrature", "mrmustard/lab/states/base.py:State.quadrature_distribution", "mrmustard/physics/fock_utils.py:oscillator_eigenstate"])

p("Phase space quasi-probabilities",
  "For every Gaussian state and every s < 1 for which it exists, state >> BtoPS(modes, s), evaluated at gamma on the bra wires and conj(gamma) on the ket wires, is (2 hbar)^m times the s-ordered quasi-probability: the normal density with the mean of the state and covariance cov - s hbar/2 (s = -1: the Husimi function <gamma|rho|gamma>/pi^m); with the two arguments exchanged it is the quasi-probability at the point with reflected momenta. State.wigner of a state with zero mean is its Wigner function at the point with reflected momenta and integrates to the trace of the state; for a state with non-zero mean State.wigner is not real-valued (the linear term is transformed with the wrong matrix), so it is not the Wigner function.",
  "all Gaussian states, numbers of modes, ordering parameters s < 1, phase space points and hbar",
  "tests compare a few centred states on a grid; the claim is an identity of functions on all of phase space for all states, and about integrals",
  ["mrmustard/physics/triples.py:bargmann_to_wigner_Abc", "mrmustard/lab/circuit_components_utils/b_to_ps.py:BtoPS", "mrmustard/physics/ansatz/polyexp_ansatz.py:PolyExpAnsatz.PS", "mrmustard/lab/states/base.py:State.wigner"])

p("Schwinger method for beamsplitters",
  "With method='schwinger' and shape (c, c, c, c), every entry of the Fock array of a beamsplitter is the amplitude of the gate, the same number the vanilla recursion computes, for every angle, phase and cutoff; with max_N the entries of more than max_N photons are zero. For shape (c1, c2, c1, c2) with c1 < c2 the entries whose second index is at least c1 are silently zero; for c1 > c2, and for shapes not of the form (i, k, i, k), the function raises. apply_BS_schwinger on two axes of the same size acts as the gate cut off at that size; on two axes of different sizes it raises.",
  "all angles, phases, cutoffs, limits on the photon number, arrays, pairs of axes and every result that np.linalg.eig and np.linalg.eigh may return within their contracts",
  "tests compare a few shapes and angles; the claim is an identity between a matrix exponential and a recursion in every photon number sector",
  ["mrmustard/math/lattice/strategies/beamsplitter.py:beamsplitter_schwinger", "mrmustard/math/lattice/strategies/beamsplitter.py:sector_idx", "mrmustard/math/lattice/strategies/beamsplitter.py:sector_u", "mrmustard/math/lattice/strategies/beamsplitter.py:apply_BS_schwinger"])

p("Fock components compose as operators",
  "In the Fock representation `A.contract(B)` (and `A @ B`) raises exactly when a wire would be open twice; otherwise the array it returns is the array of the composed operator: photon numbers on joined wires are summed, all others are kept, on the open wires. Composition is associative, the dual of a composition is the composition of the duals in the opposite order and the adjoint that of the adjoints in the same order. `A >> B` returns if and only if the wires allow it and is the composition in which a one-sided component meeting a two-sided one takes part together with its adjoint. All contractions of a circuit along paths that merge neighbouring segments and return give the same operator on the same open wires.",
  "all components in the Fock representation without batch dimensions (any modes, sides, shapes and entries), all circuits and all paths merging neighbours",
  "tests contract a few circuits along a few paths; the claim is an identity of multilinear sums over every set of wires, every assignment of shapes and every path",
  ["mrmustard/lab/circuit_components.py:contract", "mrmustard/lab/circuit_components.py:__rshift__", "mrmustard/lab/circuit_components.py:adjoint", "mrmustard/lab/circuit_components.py:dual", "mrmustard/lab/circuits.py:contract"])

p("Tracing out modes is the partial trace",
  "In the Fock representation `X >> TraceOut(modes)` returns the component whose array sums the photon numbers of the ket and the bra of each traced mode set equal, on the remaining wires. For a component on one side it is the trace of the component next to its adjoint, so for a ket it is the trace of `ket.dm()`. Tracing some modes and then others gives the same operator as tracing all of them. For components on both sides this holds whenever the two sets of modes are iterated over in the same order; Python does not promise that, and with different orders the bra of one mode is paired with the ket of another (the trace of |0,1><0,1| on modes 0 and 8 becomes 0).",
  "all components in the Fock representation without batch dimensions (any modes, shapes, entries), all sets of traced output modes",
  "tests trace a few states of a few modes; the claim ranges over all arrays, all shapes and all sets of modes, and over the orders of iteration of Python sets",
  ["mrmustard/lab/circuit_components_utils/trace_out.py:__custom_rrshift__", "mrmustard/lab/states/ket.py:dm", "mrmustard/physics/ansatz/array_ansatz.py:trace"])
p("Expectation values",
  "In the Fock representation `state.expectation(op)` raises exactly for components that are neither kets, density matrices nor operators with equal input and output modes, and for operators with modes the state does not have. Otherwise it returns the number Tr[rho (|phi><phi| x 1)] for a ket, Tr[rho (O^dagger x 1)] for a density-matrix-like O, and Tr[(U x 1) rho] for an operator U. For a ket it is the expectation value in its density matrix. For Hermitian O this is Tr[rho (O x 1)] and it is real; for other density-matrix-like O it is the conjugate of the documented Tr[rho O]: |0><1| in |0>+i|1> gives -i instead of i.",
  "all unbatched kets and density matrices and all operators in the Fock representation, any modes and shapes",
  "tests compare a few states and operators; the claim is an identity of sums over all arrays and all subsets of modes, and non-Hermitian density-matrix-like operators are never tested",
  ["mrmustard/lab/states/base.py:_validate_operator", "mrmustard/lab/states/dm.py:expectation", "mrmustard/lab/states/ket.py:expectation"])

p("Norm, probability, purity and normalisation of Fock states",
  "In the Fock representation `ket.probability` and `L2_norm` are the sum of the squared moduli of the amplitudes, `dm.probability` is the real part of the trace and `dm.purity` the sum of the squared moduli divided by the squared probability. `ket.dm()` has the probability of the ket and purity 1. The purity of a positive density matrix of nonzero trace lies in (0, 1] and is 1 exactly for pure states. `normalize()` returns a multiple of the state with probability 1, and normalising commutes with `dm()`.",
  "all unbatched kets and density matrices in the Fock representation: any modes, shapes and entries (nonzero norm or trace where divided by it)",
  "tests look at a few states; the claims are identities and inequalities over all arrays and all shapes, and 'purity 1 exactly for pure states' is an equality case of an inequality",
  ["mrmustard/lab/states/base.py:L2_norm", "mrmustard/lab/states/base.py:normalize", "mrmustard/lab/states/ket.py:probability", "mrmustard/lab/states/dm.py:probability", "mrmustard/lab/states/dm.py:purity"])
p("Fidelity in the Fock representation",
  "For positive density matrices in the Fock representation `dm1.fidelity(dm2)` is the Jozsa fidelity (Tr sqrt(sqrt(rho) sigma sqrt(rho)))^2 of the whole density matrices, although both are transposed and cut to common cutoffs (the same for bra and ket). It does not depend on the order of the states nor on a unitary applied to both, lies between 0 and the product of the traces, and for normalised states it is 1 exactly if they are equal. With a ket, `dm.fidelity(ket)`, `ket.fidelity(dm)` and `dm.fidelity(ket.dm())` are all <psi|rho|psi>; for two kets it is |<phi|psi>|^2, at most the product of the probabilities.",
  "all pairs of unbatched states in the Fock representation on the same modes, any shapes (possibly different), any positive density matrices",
  "tests compare a few states of equal shapes; symmetry, bounds, the equality case and the exactness of the truncation are statements about square roots of all positive matrices",
  ["mrmustard/physics/fock_utils.py:fidelity", "mrmustard/lab/states/dm.py:fidelity", "mrmustard/lab/states/ket.py:fidelity"])

p("Formal stellar decomposition of density matrices",
  "`core, phi = dm.formal_stellar_decomposition(core_modes)` writes every Gaussian density matrix as `core >> phi`, where `phi` acts on the core modes only and `core`, projected on the vacuum of the other modes, is a multiple of the vacuum of the core modes.",
  "all density matrices given by a Bargmann triple (any symmetric A, any b and c), any numbers of core and other modes, including none",
  "the claim is an identity between functions of all complex arguments, over all triples and all splits of the modes; a test compares one triple at a time",
  ["mrmustard/lab/states/dm.py:formal_stellar_decomposition"])

p("Physical stellar decomposition of density matrices",
  "`core, phi = dm.physical_stellar_decomposition(core_modes)` writes a Gaussian density matrix on twice as many modes as core modes as a normalised ket followed by a channel (completely positive and trace preserving) on the core modes: `core >> phi` is the density matrix divided by its trace. The call fails exactly if the block of A coupling core modes and other modes is singular (for instance for product states). With core modes in increasing order the ket is a core state (projected on the vacuum of the other modes it is the vacuum); in another order it is one exactly if the reordered displacement is the same.",
  "all Gaussian density matrices (Hermitian, positive, finite trace, normalised or not, any displacement), any number of modes, every eigendecomposition that `math.eigh` may return, every order of core_modes",
  "the claims are about operators on an infinite-dimensional space, over a continuum of states in any number of modes; random tests never meet the singular states and use sorted core modes",
  ["mrmustard/lab/states/dm.py:physical_stellar_decomposition"])

p("Mixed physical stellar decomposition of density matrices",
  "`core, phi = dm.physical_stellar_decomposition_mixed(core_modes)` writes a Gaussian density matrix as a density matrix (positive, trace one) followed by a channel (completely positive and trace preserving) on the core modes: `core >> phi` is the density matrix divided by its trace. The call only succeeds if there are as many other modes as core modes, and then it fails exactly if the block of A coupling core modes and other modes or the ket-bra block of the core modes is singular (for instance for pure states). With core modes in increasing order `core` is a core state; in another order it is one exactly if the reordered displacement is the same.",
  "all Gaussian density matrices (Hermitian, positive, finite trace, normalised or not, any displacement), any number of modes, every eigendecomposition that `math.eigh` may return, every order of core_modes",
  "the claims are about operators on an infinite-dimensional space, over a continuum of states in any number of modes; random tests never meet pure or uncorrelated states, other splits of the modes or unsorted core modes",
  ["mrmustard/lab/states/dm.py:physical_stellar_decomposition_mixed"])

p("Transformation.inverse",
  "For a Gaussian transformation (operation, map or channel) with as many input as output wires and the same modes at input and output, `T.inverse()` is the inverse: wherever the contraction integral converges, `T >> T.inverse()` and `T.inverse() >> T` are the identity, exactly for one wire and for Hermiticity-preserving maps, in general up to a sign; the closed form that the code evaluates, converging or not, gives the identity with the sign -1 exactly if (-1)^m det(g)^2/det(A) is a negative real number (g the input-output block). The call fails exactly if A or g is singular. For the unitary of a symplectic matrix the result is the adjoint exactly. If an output mode is not an input mode, contracting the transformation with its inverse raises ValueError.",
  "all symmetric A of any size, all b, all non-zero c, every order of the wires in the ansatz; all symplectic matrices; all wire configurations",
  "the inverse is an unbounded operator given by a complex Gaussian kernel; the tests compose a few random channels, where the sign of the square roots and the exchange of input and output modes do not show",
  ["mrmustard/lab/transformations/base.py:Transformation.inverse", "mrmustard/physics/gaussian_integrals.py:true_branch_complex_gaussian_integral_1"])

p("Quadrature wave functions",
  "For a Gaussian component with any wires (bra or ket, input or output), `from_quadrature` of a symmetric triple with negative definite real part is defined and returns the Bargmann transform of the wave function at the angle phi (with the conjugate kernel on bra outputs and ket inputs), up to the sign of c; for kets the sign is that of the real part of the Gaussian integral of the wave function against exp(-x^2/(2 hbar)), hence right for one and two modes and for every real A, and wrong for some three-mode wave functions. `to_quadrature` and `from_quadrature` are mutually inverse up to a sign of c, whatever the order of the contractions; for kets, `from_quadrature` after `to_quadrature` returns A and b exactly and c with a sign that is -1 exactly if det(1 + exp(-2 i phi) A) is a negative real number; `to_quadrature` of a ket is defined exactly if that determinant is non-zero, `from_quadrature` exactly if det(1 - hbar A) is.",
  "all hbar > 0, all angles, all finite sets of wires on the four sides in any order of contraction, all symmetric triples",
  "the statement is an identity of functions of continuous variables for every size; the tests do one round trip on random one- and two-mode states, where the sign never shows",
  ["mrmustard/lab/circuit_components.py:CircuitComponent.from_quadrature", "mrmustard/lab/circuit_components.py:CircuitComponent.to_quadrature", "mrmustard/lab/circuit_components_utils/b_to_q.py:BtoQ", "mrmustard/lab/states/base.py:State.from_quadrature", "mrmustard/lab/transformations/base.py:Transformation.from_quadrature"])

p("Constructors put data on the documented wires",
  "`from_ansatz`, `from_bargmann` and `from_fock` of kets and density matrices, and `from_ansatz` and `from_bargmann` of operations, unitaries, maps and channels, return a component of the class whose k-th variable or array axis is the k-th wire in the documented order (output bra, input bra, output ket, input ket, each by increasing mode); an unsorted sequence of modes raises ValueError (a set is always accepted), a state with a wrong number of variables raises ValueError, a transformation whose array has too few axes raises IndexError, and nothing else fails. `Transformation.from_fock` exchanges the output and input modes: the result has the documented wires exactly if both arguments name the same modes.",
  "all mode arguments (sets and sequences, with repetitions, modes below 20000), all arrays and triples of any size, all six classes",
  "the tests build transformations on equal input and output modes, where the exchanged arguments do not show",
  ["mrmustard/lab/transformations/base.py:Transformation.from_fock", "mrmustard/lab/transformations/base.py:Operation.from_ansatz", "mrmustard/lab/transformations/base.py:Channel.from_ansatz", "mrmustard/lab/states/ket.py:Ket.from_ansatz", "mrmustard/lab/states/dm.py:DM.from_ansatz", "mrmustard/lab/states/base.py:State.from_fock", "mrmustard/lab/circuit_components.py:CircuitComponent.__init__"])

p("Ansatze generated from parameters are fresh over every history",
  "For an ansatz made by `PolyExpAnsatz.from_function` or `ArrayAnsatz.from_function` whose arguments are plain values, constants and variables: after every sequence of assignments to variables and reads, reading `A`, `b`, `c` (or `array`) returns exactly what the function returns on the present values of the parameters, and raises exactly if the function raises. `batch_shape` is the batch shape of the triple read last (of the present one if none was read). Without variables a failing consistency check raises only on the first read. An array assigned to `ArrayAnsatz.array` is returned by later reads exactly if no variable is among the parameters.",
  "all functions, parameter lists, and finite histories of assignments and reads",
  "the tests read an ansatz once or twice after building it; staleness depends on the history",
  ["mrmustard/physics/ansatz/polyexp_ansatz.py:PolyExpAnsatz._generate_ansatz", "mrmustard/physics/ansatz/polyexp_ansatz.py:PolyExpAnsatz._should_regenerate", "mrmustard/physics/ansatz/polyexp_ansatz.py:PolyExpAnsatz.batch_shape", "mrmustard/physics/ansatz/polyexp_ansatz.py:PolyExpAnsatz.from_function", "mrmustard/physics/ansatz/array_ansatz.py:ArrayAnsatz.array", "mrmustard/physics/ansatz/array_ansatz.py:ArrayAnsatz._generate_ansatz"])

p("The homodyne sampler",
  "`HomodyneSampler.sample` on a ket of any number of modes: if no call can raise, the rows it returns are, as a bag, n independent draws from one distribution on the grid, and this distribution equals the joint probability density at the grid point times the volume of a grid cell up to the relative tolerance of the validation - the tolerance does not accumulate with the number of modes. A call that does not raise returns exactly n rows with one grid point per mode. On two or more modes every call with at least one sample raises for density matrices and for linear superpositions.",
  "all continuous densities, grids, tolerances, numbers of modes and samples, seeds and random generators",
  "the tests sample two-mode product kets and compare means; they never sample a multi-mode density matrix or superposition",
  ["mrmustard/lab/samplers.py:HomodyneSampler.sample", "mrmustard/lab/samplers.py:HomodyneSampler.probabilities", "mrmustard/lab/samplers.py:Sampler.sample_prob_dist", "mrmustard/lab/samplers.py:Sampler._validate_probs"])

p("Change of variables of the polynomial of an ansatz",
  "`c_in_PS` on a square coefficient array, or one with a single row, returns the square array of size rows + columns - 1 whose polynomial (coefficients divided by the square roots of factorials) is that of the input with its two variables replaced by sqrt(hbar/2) (x + i y) and sqrt(hbar/2) (x - i y). On any other array with more rows than columns it raises IndexError, and when it returns the result is the polynomial of the entries read with the number of rows as row length, so that for two or more rows and more columns entries are dropped.",
  "all sizes of the coefficient array, all complex coefficients, all points and all values of hbar",
  "the tests compare with one numerically differentiated square example; non-square arrays never occur",
  ["mrmustard/physics/fock_utils.py:c_in_PS", "mrmustard/physics/fock_utils.py:gamma_matrix", "mrmustard/physics/fock_utils.py:c_ps_matrix", "mrmustard/physics/ansatz/polyexp_ansatz.py:PolyExpAnsatz.PS"])

p("Batched Fock amplitudes and their gradients",
  "`math.hermite_renormalized` on batched triples (numpy or jax, default or stable strategy, with or without `out`) returns an array of shape batch + shape whose entry at batch index i and Fock index k is the Fock amplitude at k of the triple at i, for every order in which the threads of the parallel loop store their results; if only b is batched every batch index uses the same A and c. The batched backward pass returns, again for every schedule, gradients whose pairing with any differentiable variation of the batched triples is the derivative of the loss. The combinations of batch shapes and `out` for which the call returns are characterised exactly.",
  "all batch shapes, Fock shapes, triples with symmetric A, schedules of the parallel loops, output buffers and differentiable families",
  "thread schedules cannot be enumerated by tests, and shapes and triples form an infinite domain",
  ["mrmustard/math/backend_manager.py:BackendManager.hermite_renormalized", "mrmustard/math/lattice/strategies/vanilla/batch.py:vanilla_batch_numba", "mrmustard/math/lattice/strategies/vanilla/gradients.py:vanilla_batch_vjp_numba", "mrmustard/math/jax_vjps/hermite.py:hermite_renormalized_batched_jax_bwd", "mrmustard/math/backend_numpy.py:BackendNumpy.hermite_renormalized_batched"])

p("Integrals and joins over real variables",
  "`real_gaussian_integral` with symmetric A and a convergent integral returns, and the returned triple, evaluated at any point of the remaining variables, is the integral of the given Gaussian function over the listed variables, up to one sign that is + for real matrices and for at most two variables (for three complex variables it can be wrong, with an explicit case). `join_Abc_real` returns exactly when both triples keep a variable, or one is fused completely and the other has twice as many variables; in the first case its value is the product of the two functions with the listed variables identified (fused, remaining of the first, remaining of the second); in the second it is so if the completely fused triple is listed in its own order and the cross block of the other is its own transpose, and explicit cases show both conditions are needed.",
  "all triples (any number of variables, complex entries), index lists and evaluation points",
  "triples, index lists and integration domains are infinite, and the integral is not observable by finite evaluation",
  ["mrmustard/physics/gaussian_integrals.py:real_gaussian_integral", "mrmustard/physics/gaussian_integrals.py:join_Abc_real"])

p("Components survive jax transformations",
  "Taking a component or circuit apart into leaves and putting it together again (which every jit, grad, tree_map and optimizer step does) with any list of new leaves of the right length gives a component with the same wires, name, parameter names and constants, in which each variable has the leaf at its place (variables first, alphabetically) and otherwise the same name, bounds and update rule, and whose ansatz is bound to those variables: reading its data gives the function at the new parameter values. With its own leaves nothing observable changes. A circuit is put together component by component and keeps its path. The optimizer labels each leaf of a variable with its update rule, and can do so exactly if no argument of an ansatz is a plain value. A variable of the ansatz that is not a parameter of the component always raises; a variable shared by two components is not shared afterwards.",
  "all components (any parameters, functions, cached data), circuits and lists of new leaves",
  "components, leaf values and transformations form an infinite domain",
  ["mrmustard/lab/circuit_components.py:CircuitComponent._tree_flatten", "mrmustard/lab/circuit_components.py:CircuitComponent._tree_unflatten", "mrmustard/lab/circuits.py:Circuit._tree_unflatten", "mrmustard/math/parameter_set.py:ParameterSet._tree_unflatten", "mrmustard/math/parameters.py:Variable._tree_unflatten", "mrmustard/physics/ansatz/base.py:Ansatz._tree_flatten", "mrmustard/training/optimizer.py:Optimizer._optimization_loop"])

p("The quadrature axis fits the Fock cutoff",
  "For every cutoff, minimum and positive resolution `estimate_quadrature_axis` returns at least two points, equally spaced by `estimate_dx`, exactly symmetric about 0, whose last point is at least `estimate_xmax` and less than half a step beyond it; so the axis covers the given minimum and the classically allowed region of every Fock state up to the cutoff, and the step divides the period of the fastest oscillation into the given number of parts.",
  "all cutoffs, minima and resolutions",
  "infinitely many cutoffs and real arguments",
  ["mrmustard/physics/fock_utils.py:estimate_quadrature_axis", "mrmustard/physics/fock_utils.py:estimate_dx", "mrmustard/physics/fock_utils.py:estimate_xmax"])
p("Number states are the Fock basis",
  "`fock_state(n, cutoff)` (numpy backend), for every batch of integers, returns exactly if the cutoff is not negative and every n satisfies -cutoff <= n < cutoff; the row of n is then the basis vector n (n + cutoff for negative n, which is accepted silently). Without a cutoff and with non-negative n the cutoff is the largest n plus 1. Rows with photon numbers below the cutoff are orthonormal and have mean photon number n.",
  "all batches of integers and all cutoffs",
  "batches and cutoffs are unbounded",
  ["mrmustard/physics/fock_utils.py:fock_state", "mrmustard/lab/states/number.py:Number"])

p("Sums and multiples of circuit components",
  "`a + b` and `a - b` raise ValueError for different wires. Two components of one built-in class (instances with scalar parameters, their sums, and any later assignments to variables, in any order) can be added exactly if each parameter is a constant in both or a variable in both with equal bounds; the result is again a trainable instance of that class on the same wires whose parameters are the concatenations and whose Bargmann function is at every point, and after every later assignment, the sum of the functions of the terms; user-set cutoffs are forgotten. Otherwise the functions are added as data: the function is the sum, cutoffs are the maxima, and the type is the closest of Ket, DM, Unitary, Operation, Channel, Map. `-`, `*`, `/` act pointwise and keep wires, name and type. (Findings: Attenuator, Amplifier, FockDamping, GDM, Identity and BtoQ/BtoPS/BtoCH can never be added to each other; two DM.from_phase_space states cannot be added; matrix parameters, as in GKet or GaussRandNoise, are concatenated by rows instead of stacked.)",
  "all components built by any history of constructions, sums and assignments, all points",
  "arbitrary nesting of sums and assignments, all parameter values and points",
  ["mrmustard/lab/circuit_components.py:CircuitComponent.__add__", "mrmustard/lab/circuit_components.py:CircuitComponent.__sub__", "mrmustard/lab/circuit_components.py:CircuitComponent.__mul__", "mrmustard/lab/circuit_components.py:CircuitComponent._from_attributes"])

p("Backend selection over every history",
  "After every history of change_backend, get_backend, calls with an explicit backend name and further BackendManager() constructions, in which any import may fail, math.backend_name is the last name among numpy and jax that was selected successfully (numpy at the start), and math.float64, complex128 and the other type attributes are those of that backend. An unknown name raises ValueError, a failing import raises, and both leave everything as it was; selecting the backend in use keeps the object; get_backend and calls with an explicit backend name never change the backend in use; a function the backend lacks raises NotImplementedError; BackendManager() always gives the one manager and does not reset it.",
  "every sequence of operations, every pattern of import failures",
  "unbounded histories and failure points of a process-wide singleton",
  ["mrmustard/math/backend_manager.py:BackendManager.change_backend", "mrmustard/math/backend_manager.py:BackendManager.get_backend", "mrmustard/math/backend_manager.py:BackendManager._apply", "mrmustard/math/backend_manager.py:BackendManager.__new__"])
p("math.hermite_renormalized_binomial fills up to the norm or the global cutoff",
  "With the numpy backend the returned tensor holds the exact amplitude of every index whose total photon number is below W and zero elsewhere, where W is the first weight at which the accumulated squared norm exceeds max_l2 (default: the setting AUTOSHAPE_PROBABILITY), or the global cutoff (default: the one that reaches the last corner of the shape) if that comes first; if the norm of the whole tensor does not exceed max_l2 every entry is exact. With both arguments given the jax backend returns the same tensor, whatever the order of the parallel loops. (Findings: max_l2=0 and global_cutoff=0 count as not given; with jax global_cutoff=None raises and max_l2=None means no early stop.)",
  "every shape, A, b, c, norm, cutoff, and order of the parallel loops",
  "unbounded shapes, all schedules",
  ["mrmustard/math/backend_manager.py:BackendManager.hermite_renormalized_binomial", "mrmustard/math/backend_numpy.py:BackendNumpy.hermite_renormalized_binomial", "mrmustard/math/jax_vjps/hermite.py:hermite_renormalized_binomial_jax"])

p("Letters of the quadrature einsum",
  "quadrature(*quad) of a component in Fock representation returns, at every grid point, the sum over all photon numbers of the array entry times the (conjugated on bra wires) wave functions at the coordinates of the modes, for every set of mode numbers that avoids the interval from the number of modes to the number of modes plus the number of wires (exclusive); in particular for modes 0..n-1, and for a one-mode ket on any mode but 1, where it is the wave function of C85. A wrong number of grids raises. (Finding: inside that interval letters coincide; a one-mode ket on mode 1 raises ValueError, or, with as many points as the cutoff, returns a single term of the sum.)",
  "every array, shape, set of modes, grids, angle",
  "unbounded dimensions and mode numbers",
  ["mrmustard/lab/circuit_components.py:CircuitComponent.quadrature", "mrmustard/math/backend_manager.py:BackendManager.einsum"])

p("Contraction across representations",
  "Contracting (a >> b without adjoint completion, a.contract(b)) a component given by a Fock array with a Gaussian component given by a Bargmann triple, in either order, succeeds for both values of settings.DEFAULT_REPRESENTATION, and every amplitude of the result, at every photon numbers (below the result's shape in Fock representation; at every cutoff in Bargmann representation), is the sum over the photon numbers of the shared wires that the array has of the product of the amplitudes of the two components. So the choice of the default representation only changes where the result is cut off, not its amplitudes.",
  "every array and shape, every Gaussian triple with symmetric matrix, every pair of wire labellings with shared labels in the same order, every auto_shape",
  "unbounded dimensions and numbers of wires; the two code paths (Gaussian integral with derived variables, einsum after truncation) share no code",
  ["mrmustard/lab/circuit_components.py:CircuitComponent.contract", "mrmustard/lab/circuit_components.py:CircuitComponent.to_bargmann", "mrmustard/lab/circuit_components.py:CircuitComponent.to_fock", "mrmustard/physics/ansatz/polyexp_ansatz.py:PolyExpAnsatz.contract", "mrmustard/physics/ansatz/array_ansatz.py:ArrayAnsatz.contract"])

p("Scalar part of a component",
  "The scalar part of an ansatz (returned by contractions without leftover wires and by number >> component) is, for every Bargmann ansatz (with derived variables, batches, linear superposition), its value at zero and the amplitude of the vacuum, and is unchanged by to_fock with any cutoffs and by to_bargmann of an unbatched array; number >> component is the number times that amplitude, in both representations. (Finding: it is a number for components with open wires too, so number >> component is not component * number.)",
  "every ansatz, batch index, shape, number",
  "unbounded numbers of variables and cutoffs",
  ["mrmustard/physics/ansatz/polyexp_ansatz.py:PolyExpAnsatz.scalar", "mrmustard/physics/ansatz/array_ansatz.py:ArrayAnsatz.scalar", "mrmustard/lab/circuit_components.py:CircuitComponent.__rrshift__"])
p("Equality of wires",
  "w1 == w2 exactly when they have wires on the same (side, direction, mode), equivalently (modes below 20000) when their i-th wires in standard order agree for all i; it is an equivalence; adjoints and duals are equal exactly when the originals are; composing equal wires gives equal wires or an error in both cases if the operands' representations agree. Disagreement (theorems): equality ignores representations, so for mixed representations A == A' but A @ B succeeds and A' @ B raises, and equal wires have different hashes (the hash depends on representations and on the iteration order of the sets), against Python's contract for hashes.",
  "all sets of modes, all representations, all iteration orders",
  "unbounded sets of modes",
  ["mrmustard/physics/wires.py:Wires.__eq__", "mrmustard/physics/wires.py:Wires.__hash__", "mrmustard/physics/wires.py:Wires.args"])

p("Contraction planner on networks mixing both representations",
  "mm_einsum on any number of Fock arrays and Bargmann ansatze (without derived variables or superposition), with a positive Fock dimension for every core label, is mm_einsum on the arrays of Fock amplitudes: along every path both return the same array or both fail. If the arrays have the given dimensions and every step of the path joins operands with a common core label, it returns, and each entry is the sum over the labels not in the output of the products of the operands' Fock amplitudes; so the result does not depend on the path or on which operands were given in Bargmann form. A dimension that is not given is the smallest size of that axis in the arrays of the step. Disagreement (theorem): if two Bargmann operands share a label without given dimension, the dimension is 10^9 instead of an error.",
  "every list of operands, labels, Fock dimensions and contraction path",
  "unbounded networks, cutoffs and paths",
  ["mrmustard/physics/mm_einsum.py:mm_einsum", "mrmustard/physics/mm_einsum.py:get_shapes", "mrmustard/physics/mm_einsum.py:to_fock"])

p("Contraction paths with union ids",
  "For every path in the union-assignment format, mm_einsum contracts at each step the operands into which the operands named by the two ids have been merged (ids name operands by rank), whatever the order of earlier steps: ua_to_linear raises exactly when a pair names two ids already merged, otherwise the linear path leaves exactly the merged operands, and one if the path joins all ids. The result equals that of any other path, and mm_einsum returns only if the path names as many ids as there are operands. Disagreement (theorem): an id not named by the path shifts the others (with three operands the path (1, 2) contracts operands 0 and 1).",
  "every path, every list of operands, every commutative contraction",
  "unbounded numbers of operands and steps",
  ["mrmustard/physics/mm_einsum.py:ua_to_linear", "mrmustard/physics/mm_einsum.py:mm_einsum"])

p("Entry updates in both back ends",
  "math.update_add_tensor adds to every entry the sum of the values whose index is that entry (repeated and negative indices included), independent of the order, and both back ends agree, for any tensor, indices in range and one value per index; math.update_tensor sets each named row (the last value wins in numpy) and both back ends agree for distinct rows. Disagreements (theorems): at an index out of range numpy raises with its argument partly changed while JAX drops the update; with one value for several indices numpy updates the first only and JAX all.",
  "every tensor, list of indices and values",
  "unbounded shapes and numbers of updates",
  ["mrmustard/math/backend_numpy.py:update_add_tensor", "mrmustard/math/backend_jax.py:update_add_tensor", "mrmustard/math/backend_numpy.py:update_tensor", "mrmustard/math/backend_jax.py:update_tensor"])

p("Loggers are configured once",
  "create_logger configures the logger (given level, default handler as its only handler) exactly if its effective level is WARNING, its own level is not set and no handler receives its records; otherwise it changes nothing, and it never touches other loggers or propagation. Over every history of create_logger, addHandler, setLevel and propagate the default handler is on each logger at most once, so repeated construction of optimizers adds nothing; creating again, at any level, is a no-op. If loggers are created before their descendants every record reaches the default handler at most once. Disagreement (theorem): a logger created after its descendant makes the descendant's records appear twice.",
  "every registry of loggers, name, level and history",
  "unbounded histories and depths of names",
  ["mrmustard/utils/logger.py:create_logger", "mrmustard/utils/logger.py:logging_handler_defined", "mrmustard/training/optimizer.py:Optimizer.__init__"])

p("The Jacobian, batched and numba variants of the Fock recurrence",
  "vanilla_step_jacobian, run from zeros over the indices in any order in which every index comes after the ones below it (np.ndindex is one), gives in dGdA and dGdB the derivative of every entry of the array along any differentiable family A(t), b(t) with constant vacuum amplitude, A not necessarily symmetric; for symmetric A these are the derivatives of the Fock amplitudes. vanilla_step_batch gives for every batch entry what vanilla_step gives. binomial_numba, with a dictionary filled by any earlier calls, returns the amplitudes of all weights below some W and zeros elsewhere, stops before the global cutoff only if the probability exceeds the bound, and leaves the dictionary correct. Disagreement (theorem): with its default global cutoff the corner amplitude is always 0.",
  "every shape, family of triples, order of indices, dictionary, bound and cutoff",
  "unbounded shapes and all differentiable families",
  ["mrmustard/math/lattice/steps.py:vanilla_step_jacobian", "mrmustard/math/lattice/steps.py:vanilla_step_batch", "mrmustard/math/lattice/strategies/binomial.py:binomial_numba"])

p("The square root shortcut and the Fock fidelity",
  "math.sqrtm of a positive semidefinite matrix is positive semidefinite and is the exact square root unless all entries are at most atol = 1e-8, when it is zero, with squared Frobenius error at most N atol. The Fock fidelity computed with it is the exact fidelity or zero; for a normalised state of dimension N < 1e8 it never exceeds the exact one, differs from it by at most N^2 atol, stays between 0 and the product of the traces, and is symmetric up to N^2 atol. Disagreement (theorem): it is not symmetric; for two normalised pure states of dimension 3 it gives 1.5e-8 in one order and 0 in the other.",
  "all positive semidefinite matrices of all dimensions, and all tolerances",
  "all states; the error bound is over an uncountable set",
  ["mrmustard/math/backend_numpy.py:sqrtm", "mrmustard/math/backend_jax.py:sqrtm", "mrmustard/physics/fock_utils.py:fidelity"])

p("What a component shares with its copies, over every history",
  "A component of a Circuit and the result of .on hold, at all later times, the same ansatz and the same value of every parameter as the component they were made from, whichever of them is changed; an adjoint or dual keeps the parameters it had in common and the conjugate of the ansatz at the time it was taken; constants never change. The name and the wires of a component never change. The cutoffs (manual_shape) of a new component, of a component of a Circuit and of the result of .on change only when its own manual_shape is assigned; the last two start without cutoffs. .on puts a wire of every kind the component has on each of the given modes, whatever their order. Disagreements (theorems): cutoffs set on a component are lost in its copies; all adjoints of a component share their cutoffs, and a second adjoint has those of the time of the first; .on accepts repeated modes; the name of a copy depends on whether the name of the original was read before.",
  "all programs (finite sequences of creating, copying, moving, adjoint, dual, assigning parameters and cutoffs, adding parameters, reading names) on any number of components",
  "aliasing shows up only in particular histories; the claim is about all of them",
  ["mrmustard/lab/circuit_components.py:_light_copy", "mrmustard/lab/circuit_components.py:on", "mrmustard/lab/circuit_components.py:adjoint", "mrmustard/lab/circuit_components.py:dual", "mrmustard/lab/circuit_components.py:manual_shape", "mrmustard/lab/circuits.py:__init__", "mrmustard/physics/wires.py:adjoint"])

p("The drawing of a circuit",
  "repr of a Circuit: every component is in exactly one layer of the drawing, in the order of the circuit; components of one layer span disjoint ranges of modes, and a new layer is begun only when the component overlaps one in the layer before. The label of a component is found in the row of each of its modes, within its layer (for a controlled gate in the lowest of its rows, with the control dot in the highest). All rows have the same length in every layer, are broken into the same number of chunks at the same places, nothing is lost by the breaking, a chunk has fewer than 90 characters unless it is a single layer, the lines of a chunk have equal length, and every chunk of every row is in the text. Disagreements (theorems): nothing is drawn between control and target; a component with batched parameters makes repr raise an IndexError.",
  "all lists of components, on any modes, with any labels",
  "tests compare a few drawings",
  ["mrmustard/lab/circuits.py:__repr__"])
with open('/verif/properties.jsonl','w') as f:
    for x in P: f.write(json.dumps(x)+"\n")
print(len(P))
