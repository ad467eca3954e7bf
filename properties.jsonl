{"id": "C01", "title": "Expression operators preserve value", "statement": "Building an expression with +, -, *, / and unary minus and then evaluating it gives the same number as applying the same operation to the values of the operands, whatever constant folding or algebraic rewriting the operators perform on the way.", "quantifier": "all expression trees for the operands, all assignments of values to the parameters", "why_tests_cant": "The rewriting branches on the shape of both operands recursively; a test covers a handful of shapes out of infinitely many nestings.", "anchors": ["src/Expression.cpp: operator+, operator-, operator*, operator/, simplify_constant_addition, simplify_product_addition, simplify_multiplication", "AmpGen/Expression.h: Expression"]}
{"id": "C02", "title": "Generated source means the same as the expression", "statement": "The C++ source text emitted for an expression, read with C++ operator precedence and associativity, denotes the same value as evaluating the expression directly.", "quantifier": "all expression trees, all parameter values", "why_tests_cant": "Missing or superfluous brackets only show for particular nestings of operators; there are infinitely many nestings.", "anchors": ["src/BinaryExpression.cpp: Sum::to_string, Sub::to_string, Product::to_string, Divide::to_string, comparison to_string", "src/Expression.cpp: Ternary::to_string", "src/UnaryExpression.cpp"]}
{"id": "C03", "title": "Option-file expressions obey operator precedence", "statement": "A bracketed or unbracketed infix formula given in an options file is evaluated with the documented operator order (power, then division, multiplication, subtraction, addition, comparison, conjunction), operators of the same kind associating to the left.", "quantifier": "all token sequences", "why_tests_cant": "The reduction loop works on a mutable token list; its result for arbitrary lengths and operator patterns cannot be enumerated.", "anchors": ["src/ExpressionParser.cpp: ExpressionParser::processUnaryOperators, processBinaryOperators, parseTokens"]}
{"id": "C04", "title": "Common sub-expressions are defined before they are used", "statement": "In the emitted source every intermediate variable is declared exactly once and before any line that refers to it.", "quantifier": "all expression DAGs", "why_tests_cant": "Ordering faults appear only for particular sharing patterns of nested sub-expressions.", "anchors": ["src/ASTResolver.cpp: ASTResolver::getOrderedSubExpressions", "src/CompiledExpressionBase.cpp: addDependentExpressions"]}
{"id": "C05", "title": "External parameters never share storage", "statement": "Distinct external cache entries registered with a resolver occupy disjoint address ranges inside the external buffer, and re-registering the same entry yields the same address.", "quantifier": "all sequences of registrations of arbitrary sizes", "why_tests_cant": "Aliasing depends on the full history of registrations.", "anchors": ["src/ASTResolver.cpp, AmpGen/ASTResolver.h: addCacheFunction, nParams"]}
{"id": "C06", "title": "Function cache layout is a bijection", "statement": "In both cache layouts each (event block, field) pair owns its own cell inside the allocated buffer, so writing one value never disturbs another and reading back returns the last value written; registering further functors never moves the fields of earlier ones.", "quantifier": "all cache sizes, all sequences of functor registrations and writes", "why_tests_cant": "Overlap arises for particular combinations of sizes, field counts and layouts.", "anchors": ["AmpGen/Store.h: Store, FunctionCache::operator(), addFunctor, store, update, get"]}
{"id": "C07", "title": "SIMD event lists hold the same events as scalar event lists", "statement": "Packing a scalar event list into SIMD blocks and reading event i back returns event i unchanged, and the padding lanes of the last block carry zero weight so that sums over blocks equal sums over events.", "quantifier": "all event list lengths, event sizes and SIMD widths", "why_tests_cant": "Correct for lengths that are multiples of the width; faults only show in the tail block.", "anchors": ["AmpGen/simd/utils.h: gather, aligned_size", "AmpGen/EventListSIMD.h", "src/EventListSIMD.cpp: EventListSIMD::EventListSIMD, operator[], gather, scatter"]}
{"id": "C08", "title": "Thread pool runs every task exactly once", "statement": "Every task accepted by a pool with at least one worker is executed exactly once before the pool's destructor returns, and tasks are started in the order they were accepted.", "quantifier": "all interleavings of workers and client, all numbers of workers and tasks", "why_tests_cant": "Schedules cannot be enumerated by tests; races appear only under particular interleavings.", "anchors": ["AmpGen/ThreadPool.h: ThreadPool::enqueue", "src/ThreadPool.cpp: ThreadPool::ThreadPool, waitForStoppedThreads, ~ThreadPool"]}
{"id": "C09", "title": "Coherent sum is normalised on its integration sample", "statement": "After prepare, the weighted average over the integration sample of the returned probability density equals the configured weight, for any amplitudes and couplings, and the normalisation is non-negative when the event weights are.", "quantifier": "all integration samples, amplitudes, couplings and weights", "why_tests_cant": "The identity links a double sum over cached bilinears to a sum over events; a test checks single configurations up to rounding.", "anchors": ["src/CoherentSum.cpp: CoherentSum::norm, updateNorms, getVal, prepare", "src/Integrator.cpp: Integrator::integrateBlock", "AmpGen/Integrator.h"]}
{"id": "C10", "title": "Incremental amplitude updates equal a full recalculation", "statement": "After any history of parameter changes and prepare calls, the cached amplitudes, normalisation integrals and norm used to evaluate probabilities are those a freshly built sum with the current parameters would have.", "quantifier": "all histories of setting parameters, attaching events, attaching integration samples and calling prepare", "why_tests_cant": "Stale cache entries appear only after particular histories of changes.", "anchors": ["src/CoherentSum.cpp: prepare, updateNorms, reset, setEvents, setMC", "AmpGen/CompiledExpression.h: setExternal, hasExternalsChanged, resetExternals"]}
{"id": "C11", "title": "Queued integrals are all evaluated", "statement": "Whatever number of bilinear integrals is queued, after flush every queued destination holds the integral of its pair of amplitudes and the queue is empty.", "quantifier": "all queue lengths and destinations", "why_tests_cant": "Batching faults occur at particular remainders of the batch size.", "anchors": ["AmpGen/Integrator.h: queueIntegral, flush, Bilinears", "src/Integrator.cpp: integrateBlock"]}
{"id": "C12", "title": "Fit fractions and interference terms add up", "statement": "For amplitudes partitioned into components, the sum of the component fractions plus twice the sum of the pairwise interference fractions is one.", "quantifier": "all numbers of components, couplings and normalisation matrices", "why_tests_cant": "An algebraic identity over matrices of every size.", "anchors": ["AmpGen/FitFraction.h: FitFractionCalculator, getVal", "src/CoherentSum.cpp: fitFractions"]}
{"id": "C13", "title": "Component projections add up to the total", "statement": "The per-component weight functions returned for plotting sum, event by event, to the unnormalised probability of the whole coherent sum.", "quantifier": "all numbers of amplitudes, couplings and events", "why_tests_cant": "Algebraic identity over every size.", "anchors": ["src/CoherentSum.cpp: componentEvaluator"]}
{"id": "C14", "title": "Polarised sum is normalised on its integration sample", "statement": "After prepare, the norm used by a polarised sum equals the weighted average over the integration sample of the unnormalised polarised probability for the current polarisation parameters.", "quantifier": "all samples, amplitudes, couplings, polarisation vectors, numbers of final-state helicities", "why_tests_cant": "The index arithmetic decoding (m1,m2,f) and the conjugation shortcut must agree for every dimension.", "anchors": ["src/PolarisedSum.cpp: norm, updateNorms, densityMatrix, probExpression, transitionMatrix"]}
{"id": "C15", "title": "Phase-space events conserve four-momentum and are on shell", "statement": "Every event produced by the phase-space generator has total four-momentum equal to that of the decaying particle at rest and each particle has the mass it was configured with.", "quantifier": "all decays to two or more bodies (up to the generator's capacity of 18), masses within threshold and random numbers", "why_tests_cant": "The random numbers range over a continuum; a test draws finitely many.", "anchors": ["src/PhaseSpace.cpp: PhaseSpace::fill, q, setDecay"]}
{"id": "C16", "title": "Phase-space weights never exceed the declared maximum", "statement": "The weight used in the generator's accept/reject step never exceeds its maximum, so accepted events are distributed according to phase space.", "quantifier": "all masses within threshold and random numbers", "why_tests_cant": "A bound over a continuum of random numbers.", "anchors": ["src/PhaseSpace.cpp: fill, setDecay"]}
{"id": "C17", "title": "Discrete sampling is exact", "statement": "The alias-table sampler returns each outcome with exactly its normalised weight when its two uniform variates are exact.", "quantifier": "all weight vectors", "why_tests_cant": "A statement about probabilities for every weight vector; tests see finite samples.", "anchors": ["AmpGen/DiscreteDistribution.h"]}
{"id": "C18", "title": "Adaptive binning partitions events into populated bins", "statement": "Every event is assigned a bin number between zero and the number of bins, training events are assigned to the bin they were placed in, and every bin received at least the configured minimum of training events.", "quantifier": "all training samples, all dimensions, all minimum populations", "why_tests_cant": "Depends on recursive splitting of arbitrary samples.", "anchors": ["src/BinDT.cpp, AmpGen/BinDT.h: makeNodes, getBinNumber, Decision, EndNode"]}
{"id": "C19", "title": "Adaptive binning survives serialisation", "statement": "Writing a binning to a stream and reading it back yields a binning that assigns every event to the same bin number.", "quantifier": "all binning trees and all events", "why_tests_cant": "Reconstruction goes through node addresses; every tree shape must round-trip.", "anchors": ["src/BinDT.cpp: serialize, readFromStream"]}
{"id": "C20", "title": "Decay descriptors round-trip", "statement": "Printing a decay tree as a descriptor string and parsing that string gives back the same decay tree.", "quantifier": "all decay trees whose names and modifiers avoid the structural characters", "why_tests_cant": "Nesting and modifier combinations are unbounded.", "anchors": ["src/Particle.cpp: Particle::Particle(string), makeUniqueString, modifierString", "src/Utilities.cpp: getItems"]}
{"id": "C21", "title": "Final-state labels are assigned injectively", "statement": "When a decay tree is matched to an event type every final-state particle of the tree receives the position of a distinct external particle with the same name, or the tree is reported as not matching.", "quantifier": "all decay trees and event types", "why_tests_cant": "Repeated identical particles create unboundedly many assignment patterns.", "anchors": ["src/Particle.cpp: Particle::Particle, quasiStableTree, getFinalStateParticles"]}
{"id": "C22", "title": "Exchange parity of identical fermions", "statement": "Each symmetrised ordering of identical final-state particles enters the amplitude with the sign of the permutation when the particles are fermions and with plus one when they are bosons.", "quantifier": "all permutations of any number of identical particles", "why_tests_cant": "Permutations grow factorially and signs only differ on longer cycles.", "anchors": ["src/Utilities.cpp: minSwaps", "src/Particle.cpp: getExpression, identicalDaughterOrderings"]}
{"id": "C23", "title": "Option files: last assignment wins and order is kept", "statement": "After reading any sequence of option lines, looking up a key returns the arguments of the last line that set it and lookup of an unset key fails, with comments and blank space ignored.", "quantifier": "all sequences of option lines", "why_tests_cant": "Histories of overwrites and multi-line blocks are unbounded.", "anchors": ["src/OptionsParser.cpp: makeParsedStrings, addArg, import, find", "AmpGen/NamedParameter.h"]}
{"id": "C24", "title": "Parameter sets stay consistent under any sequence of edits", "statement": "After any sequence of add, rename, unregister and lookup operations every name resolves to the parameter carrying that name, names are unique, and positional order is the order of addition.", "quantifier": "all operation histories", "why_tests_cant": "Key map and vector can drift apart only after particular histories.", "anchors": ["src/MinuitParameterSet.cpp: addToEnd, add, addOrGet, rename, unregister, find"]}
{"id": "C25", "title": "Event format gives every variable its own slot", "statement": "The map from variable names to event positions is injective and every position lies inside the event record.", "quantifier": "all event types", "why_tests_cant": "Number of particles and options are unbounded.", "anchors": ["src/EventType.cpp: getEventFormat, eventSize"]}
{"id": "C26", "title": "Charge conjugation is an involution", "statement": "Conjugating an event type, a quark content or a decay tree twice gives back the original.", "quantifier": "all event types, quark contents and decay trees", "why_tests_cant": "Universal law over unbounded structures.", "anchors": ["src/EventType.cpp: conj", "src/QuarkContent.cpp: antiThis", "src/Particle.cpp: conj, conjThis"]}
{"id": "C27", "title": "Tensor indexing is a bijection", "statement": "For every tensor shape, converting a flat position to coordinates and back is the identity and distinct in-range coordinates address distinct elements.", "quantifier": "all ranks and dimensions", "why_tests_cant": "Shapes are unbounded.", "anchors": ["src/Tensor.cpp, AmpGen/Tensor.h: index, coords, nElements"]}
{"id": "C28", "title": "Index contraction follows the Einstein convention", "statement": "Contracting two tensors over repeated indices yields the sum over all values of the repeated indices of the products of the addressed elements, with a minus sign for every value other than 3 of an index that occurs once up and once down, and leaves the free indices in order.", "quantifier": "all ranks, shapes and index patterns", "why_tests_cant": "Index patterns and shapes are unbounded.", "anchors": ["src/Tensor.cpp: operator*(TensorProxy, TensorProxy), metricSgn"]}
{"id": "C29", "title": "Splitting and joining strings", "statement": "Splitting a string on delimiter characters never loses or reorders other characters; with delimiters kept the pieces concatenate to the original string.", "quantifier": "all strings and delimiter sets", "why_tests_cant": "Strings are unbounded.", "anchors": ["src/Utilities.cpp: split(string, char), split(string, vector<char>, bool)"]}
{"id": "C30", "title": "String replacement replaces every occurrence", "statement": "replaceAll returns the input with each non-overlapping occurrence of the pattern, scanned from the left, replaced, and terminates.", "quantifier": "all strings, patterns and replacements", "why_tests_cant": "Failures need particular overlaps between replacement and pattern.", "anchors": ["src/Utilities.cpp: replaceAll"]}
{"id": "C31", "title": "Wildcard matching", "statement": "A name matches a wildcard pattern exactly when the stars can be replaced by strings to give the name.", "quantifier": "all names and patterns", "why_tests_cant": "Unbounded strings; failures need particular repetitions.", "anchors": ["src/Utilities.cpp: stringMatchesWildcard"]}
{"id": "C32", "title": "Edit distance is the Levenshtein distance", "statement": "The reported distance is the least number of single-character insertions, deletions and substitutions, hence zero only for equal strings, symmetric and satisfying the triangle inequality.", "quantifier": "all pairs of strings", "why_tests_cant": "All strings of all lengths.", "anchors": ["src/Utilities.cpp: editDistance"]}
{"id": "C33", "title": "Enumeration of choices is complete and duplicate free", "statement": "nCr(n, r) lists every r-element subset of the first n numbers exactly once, and all_combinations lists every element of the Cartesian product exactly once.", "quantifier": "all n, r and input families", "why_tests_cant": "Unbounded sizes.", "anchors": ["AmpGen/Utilities.h, src/Utilities.cpp: nCr, all_combinations"]}
{"id": "C34", "title": "Compensated summation has no first-order error growth", "statement": "The value read from a compensated accumulator equals the exact sum of everything added to it up to one rounding of the result and terms of second order in the unit roundoff, however many numbers were added and with either of the two ways of adding.", "quantifier": "all sequences of additions and merges", "why_tests_cant": "All histories; merging uses a different sign convention from single additions.", "anchors": ["AmpGen/KahanSum.h"]}
{"id": "C35", "title": "Spin-orbit couplings obey the triangle rules", "statement": "The (L,S) pairs offered for a decay are exactly those with S between |s1-s2| and s1+s2 and J between |L-S| and L+S within the searched range.", "quantifier": "all spins", "why_tests_cant": "All spin values.", "anchors": ["src/Particle.cpp: spinOrbitCouplings, orbitalRange"]}
{"id": "C36", "title": "Clebsch-Gordan selection rules", "statement": "Clebsch-Gordan coefficients vanish unless the projections add up, each projection is within its spin and the three spins satisfy the triangle inequality.", "quantifier": "all spins and projections", "why_tests_cant": "All spin values.", "anchors": ["src/Wigner.cpp: CG"]}
{"id": "C37", "title": "Amplitude expansion forms every cascade", "statement": "Expanding a decay rule with the rules of its intermediate states yields every combination of sub-decays with the product of their couplings.", "quantifier": "all acyclic rule sets", "why_tests_cant": "Unbounded rule sets and depths.", "anchors": ["src/AmplitudeRules.cpp: expand, getMatchingRules"]}
{"id": "C38", "title": "Error propagation leaves parameters untouched and is exact for linear functions", "statement": "Calculating a propagated uncertainty restores every parameter to its value, and for a function linear in the parameters the result squared is gradient times covariance times gradient.", "quantifier": "all parameter sets, covariance matrices and functions", "why_tests_cant": "Universal over functions.", "anchors": ["AmpGen/ErrorPropagator.h: derivative", "src/ErrorPropagator.cpp: getError, getVectorError, covarianceMatrix, add"]}
{"id": "C39", "title": "Fit results survive being written and read", "statement": "Reading a fit result file written by the library gives the parameters, limits and covariance entries that were written.", "quantifier": "all fit results", "why_tests_cant": "Every combination of flags and limits.", "anchors": ["src/FitResult.cpp: writeToFile, readFile, writeOptions"]}
{"id": "C40", "title": "Event generation returns the requested number of accepted events", "statement": "Generation adds exactly the requested number of events, each a proposed event whose density exceeds the random threshold, in proposal order, unless a whole block yields nothing.", "quantifier": "all streams of proposals and random numbers, all block sizes", "why_tests_cant": "All random streams.", "anchors": ["AmpGen/Generator.h: fillEventList"]}
{"id": "C41", "title": "Splines interpolate their knots smoothly", "statement": "A spline takes the knot value at each knot inside its range and is continuous with continuous first and second derivative across interior knots.", "quantifier": "all knot values, knot counts and ranges", "why_tests_cant": "All real knot values.", "anchors": ["src/Spline.cpp: Spline::eval, SplineTransfer"]}
{"id": "C42", "title": "Boosts and rotations preserve invariant masses", "statement": "Boosting or rotating an event leaves every invariant mass unchanged and boosting back restores the event.", "quantifier": "all events, axes, velocities below one and angles", "why_tests_cant": "A continuum of inputs.", "anchors": ["src/Kinematics.cpp: boost, rotate, rotateBasis", "src/Transform.cpp"]}
{"id": "C43", "title": "Decay-chain sampling conserves momentum", "statement": "Events sampled along a decay chain have daughters whose momenta add up to their parent at every vertex, and sampled resonance masses stay inside the kinematic limits.", "quantifier": "all decay chains and random numbers", "why_tests_cant": "All trees and random streams.", "anchors": ["AmpGen/DecayChainStack.h: fill_from_state, proposal", "src/TreePhaseSpace.cpp"]}
{"id": "C44", "title": "Enumerations round-trip through text", "statement": "Converting an enumeration value to text and parsing the text gives the value, and parsing unknown text gives the invalid value.", "quantifier": "all enumerations declared with the library's macro", "why_tests_cant": "All declared lists of names.", "anchors": ["AmpGen/enum.h: make_enum, complete_enum"]}
{"id": "C45", "title": "Algebraic simplification preserves value", "statement": "Simplifying an expression does not change its value.", "quantifier": "all expressions", "why_tests_cant": "All expression trees.", "anchors": ["src/Simplify.cpp: Simplify, NormalOrderedExpression", "src/Expression.cpp: make_cse"]}
{"id": "C46", "title": "Parallel helpers agree with their sequential counterparts", "statement": "The parallel sort returns a sorted permutation of its input and the parallel accumulation returns the sum of its input, for any number of threads.", "quantifier": "all inputs and thread counts", "why_tests_cant": "All sizes and thread counts.", "anchors": ["AmpGen/Utilities.h: parallel_sort, parallel_accumulate"]}
{"id": "C47", "title": "Covariance matrix is mapped back onto the full parameter list", "statement": "The full covariance matrix contains the fitted covariance at the positions of the free parameters and zero elsewhere, and evaluating the fit function sets exactly the free parameters.", "quantifier": "all parameter sets and fits", "why_tests_cant": "All patterns of free and fixed parameters.", "anchors": ["src/Minimiser.cpp: prepare, operator(), covMatrixFull, covMatrix"]}
{"id": "C48", "title": "Regression-tree binning routes consistently", "statement": "The fast decision tree routes every event to exactly one bin and never visits a node twice.", "quantifier": "all trees and events", "why_tests_cant": "All trees.", "anchors": ["AmpGen/FastDT.h, src/FastDT.cpp: findNode, getBinNumber"]}
{"id": "C49", "title": "Container iteration visits every event once", "statement": "Iterating over a dynamically filled container visits exactly the declared number of events, in order, refilling at block boundaries.", "quantifier": "all block sizes and totals", "why_tests_cant": "All sizes.", "anchors": ["AmpGen/DynamicContainer.h"]}
{"id": "C50", "title": "Pade approximants interpolate", "statement": "When the linear system is regular the approximant takes the function's value at each of its sampling points where its denominator does not vanish.", "quantifier": "all functions, orders and intervals", "why_tests_cant": "All functions.", "anchors": ["src/Pade.cpp, AmpGen/Pade.h: Pade::operator(), solve_pade"]}
{"id": "C51", "title": "Polarisation density matrices are the expansion in spin operators", "statement": "The spin density matrix built from the polarisation parameters is Hermitian, its trace is the number of spin states, the two places that build it agree up to transposition, and it is 1 + P.sigma for spin one half and 1 + 3/2 P.S + sqrt(3/2) T_ij (S_i S_j + S_j S_i) for spin one.", "quantifier": "all polarisation vectors and alignment tensors", "why_tests_cant": "Continuum of parameters.", "anchors": ["src/PolarisedSum.cpp: densityMatrix, probExpression"]}
{"id": "C52", "title": "Component projections of the polarised sum add up to the total", "statement": "The per-component weight functions of the polarised sum add up, event by event, to its unnormalised probability.", "quantifier": "all numbers of amplitudes, spin states, couplings, polarisations and events", "why_tests_cant": "Algebraic identity over every size and dimension.", "anchors": ["src/PolarisedSum.cpp: componentEvaluator"]}
{"id": "C53", "title": "Decay-chain generator weights and densities", "statement": "The weight of a proposed event never exceeds the maximum the generator compares it with, for one chain and for a mixture of chains, and the generator density stored with an event is the density with which its resonance masses were drawn.", "quantifier": "all decay chains, mixtures of chains and random numbers", "why_tests_cant": "The bound must hold for every random stream and tree; saturation is silent.", "anchors": ["AmpGen/DecayChainStack.h: proposal, genPdf, maxWeight", "src/TreePhaseSpace.cpp: initialise_weights, fill_event"]}
{"id": "C54", "title": "Imposed tensor symmetry identifies exactly the exchanged coordinates", "statement": "After imposing a symmetry on two positions of a tensor, coordinates that differ by exchanging those two values read and write the same element, and all other pairs of coordinates keep separate elements.", "quantifier": "all shapes, positions, coordinates and contents", "why_tests_cant": "Shapes and positions are unbounded; the map is updated in place while it is read.", "anchors": ["src/Tensor.cpp: imposeSymmetry, symmetrisedIndex, operator[]"]}
{"id": "C55", "title": "Adding tensors with named indices adds the addressed elements", "statement": "The sum of two tensors carrying the same index names, in any order, has at each assignment of values to names the sum of the two elements addressed.", "quantifier": "all shapes, index orders and contents, with and without imposed symmetries", "why_tests_cant": "Index orders and shapes are unbounded.", "anchors": ["src/Tensor.cpp: operator+(TensorProxy, TensorProxy), uniqueElements"]}
{"id": "C56", "title": "The Levi-Civita tensor is the sign of the permutation", "statement": "The totally antisymmetric tensor of every rank has the sign of the permutation formed by its coordinates, and zero when a coordinate is repeated.", "quantifier": "all ranks and coordinates", "why_tests_cant": "Ranks are unbounded.", "anchors": ["src/Tensor.cpp: LeviCivita"]}
{"id": "C57", "title": "Parameters declared in option files are loaded as declared", "statement": "Loading the option settings into an empty parameter set gives exactly the declared parameters, with their flags, values, steps and limits, in order, each found by its name.", "quantifier": "all lists of settings", "why_tests_cant": "Every mix of real, complex, limited and expression lines, and every override.", "anchors": ["src/MinuitParameterSet.cpp: tryParameter, tryAlias, loadFromStream", "src/OptionsParser.cpp: getInputOrdered"]}
{"id": "C58", "title": "Weighted combinations are unbiased and as precise as possible", "statement": "The covariance-weighted combination of several estimates is a weighted mean whose weights add up to one, its reported variance is that of the weighted mean, and no other weights that add up to one have a smaller variance.", "quantifier": "all numbers of estimates, invertible covariance matrices and values", "why_tests_cant": "An optimum over all weights.", "anchors": ["src/ErrorPropagator.cpp: combinationCovWeighted, combinationWeights"]}
{"id": "C59", "title": "Adding error propagators adds covariances by name", "statement": "After adding one error propagator to another, the covariance of any two parameter names is the sum of the covariances in the two, each name still occurs once, and the parameters of the first keep their positions.", "quantifier": "all pairs of propagators", "why_tests_cant": "Every overlap of the two lists of names.", "anchors": ["src/ErrorPropagator.cpp: LinearErrorPropagator::add, posMap"]}
{"id": "C60", "title": "Gaussian perturbations have the given covariance and can be undone", "statement": "A perturbation moves the parameters from their starting values by the transposed Cholesky factor applied to independent normal numbers and leaves other parameters; reset restores all values after any number of perturbations.", "quantifier": "all parameters, factors, random numbers and numbers of perturbations", "why_tests_cant": "All histories of perturbations.", "anchors": ["src/ErrorPropagator.cpp: GaussErrorPropagator"]}
{"id": "C61", "title": "Options written from a fit can be loaded again", "statement": "A file of options written from a fit result, when used as an option file, declares exactly the parameters of the fit with their fitted values, errors as steps, flags and limits.", "quantifier": "all sets of parameters", "why_tests_cant": "Every combination of real and complex parameters, flags and limits.", "anchors": ["src/FitResult.cpp: writeOptions", "src/MinuitParameterSet.cpp: loadFromStream", "src/OptionsParser.cpp: import"]}
{"id": "C62", "title": "Clebsch-Gordan coefficients have the standard symmetries and normalisation", "statement": "Exchanging the two particles, or reversing all projections, multiplies a Clebsch-Gordan coefficient by a sign that depends only on the spins, and the coefficient of the state with the largest projections is one.", "quantifier": "all spins and projections", "why_tests_cant": "Infinitely many spins and projections; a table of a few values does not determine the sign convention.", "anchors": ["src/Wigner.cpp: CG"]}
{"id": "C63", "title": "Helicity cosines and momentum transfers are what they are called, in every frame", "statement": "A helicity cosine lies between -1 and 1, is the cosine of the angle between the two momenta in the rest frame of the reference, and does not change when the event is boosted or rotated. A momentum transfer is the momentum of either of two groups of particles in their rest frame.", "quantifier": "all events with a massive reference, all selections of particles, all axes, velocities below one and angles", "why_tests_cant": "A continuum of inputs.", "anchors": ["src/Kinematics.cpp: HelicityCosine, dotProduct, MomentumTransfer, pFromEvent"]}
{"id": "C64", "title": "Reordering particles permutes the kinematics of an event and nothing else", "statement": "Swapping or reordering the particles of an event moves their momenta and leaves all others; the invariant mass of a selection is the same for every overload and order of the arguments, and is found at the new addresses after reordering.", "quantifier": "all events, selections of particles and lists of distinct addresses", "why_tests_cant": "All permutations of all numbers of particles.", "anchors": ["src/Event.cpp: s, swap, reorder, set"]}
{"id": "C65", "title": "Frame transformations are Lorentz transformations in every representation", "statement": "A sequence of rotations and boosts, however it was put together, preserves scalar products of four-vectors, applies its transformations in the order in which they were added, and is undone by its inverse; its action on spinors and bispinors agrees with that on four-vectors.", "quantifier": "all sequences of transformations with unit axes, all angles and Lorentz factors, all vectors", "why_tests_cant": "Sequences of any length and a continuum of parameters.", "anchors": ["src/Transform.cpp: Transform, TransformSequence", "src/DiracMatrices.cpp: Sigma, Gamma"]}
{"id": "C66", "title": "Events are accepted with probabilities proportional to their densities", "statement": "In one generation every proposed event is accepted with a probability that is its density over one threshold, the same for all events; the threshold is one and a half times the greatest density of the first block, and an event above it is reported.", "quantifier": "all densities, thresholds, sequences of proposals and block sizes", "why_tests_cant": "A bias of the sample cannot be seen in single events.", "anchors": ["AmpGen/Generator.h: fillEventList, getMax"]}
{"id": "C67", "title": "The database of particles gives each name its particle, and each particle its antiparticle", "statement": "After reading any file of particles, a name finds the particle of that name; the antiparticle of a particle has the opposite identifier, charge, and quark content, the same mass, width and spin, and its own antiparticle is the particle itself; after any history of options that add aliases, copies or change properties, the names given find particles with the properties given.", "quantifier": "all files of particles, all histories of options", "why_tests_cant": "Files of any length and unbounded histories.", "anchors": ["src/ParticlePropertiesList.cpp: readLatexLabels, readFile, makeMappings, get, addParticle, makeAlias", "src/ParticleProperties.cpp: ParticleProperties, antiThis, name"]}
{"id": "C68", "title": "Flavour conservation is decided by quark numbers", "statement": "The quark content of a text is the number of quarks minus antiquarks of each flavour; the check of a decay accepts exactly when one of the states of the mother is a sum of states of the daughters, and gives the same answer for the conjugate decay.", "quantifier": "all texts, all quark contents and all numbers of daughters", "why_tests_cant": "Superpositions multiply without bound.", "anchors": ["src/QuarkContent.cpp: QuarkState, QuarkContent", "src/Particle.cpp: quarks, daughterQuarks"]}
{"id": "C69", "title": "Ranges and counts of an event type contain every physical event", "statement": "For every event of a decay at rest or in flight, with particles of the masses of the event type, the invariant mass squared of any selection of particles lies in the range the event type gives; the counts of a particle are those of identical particles before it and in total.", "quantifier": "all event types, all events on the mass shell, all selections", "why_tests_cant": "A continuum of events.", "anchors": ["src/EventType.cpp: minmax, count"]}
{"id": "C70", "title": "Symmetrisation permutes identical particles uniformly", "statement": "The symmetriser moves each particle to the position of an identical particle and changes nothing else, and every permutation of identical particles is the result of exactly one sequence of random numbers.", "quantifier": "all event types, all events, all random numbers, all permutations of identical particles", "why_tests_cant": "Factorially many permutations; bias cannot be seen in single events.", "anchors": ["src/EventType.cpp: symmetriser", "src/Event.cpp: swap"]}
{"id": "C71", "title": "Ordering by identifiers puts every particle in its place", "statement": "An event with the particles of the event type, or with all their antiparticles, in any order is rearranged so that each momentum is at a position with its identifier; any other event is refused and left as it is.", "quantifier": "all event types, all events and orders", "why_tests_cant": "All permutations with repeated identifiers.", "anchors": ["src/EventType.cpp: automaticOrdering", "src/Event.cpp: reorder"]}
{"id": "C72", "title": "Writing events to a tree and reading them again gives the same events", "statement": "Reading a tree that was written from a list gives the same numbers, weights and densities; reading from named branches gives the momenta in the units given, with energies of particles on the mass shell when only three components are named.", "quantifier": "all event types and lists of events, all branch names and units", "why_tests_cant": "Lists of any length; the buffer is shared by all entries.", "anchors": ["src/EventList.cpp: loadFromTree, tree", "src/TreeReader.cpp: getEntry", "AmpGen/TreeReader.h: Iterator"]}
{"id": "C73", "title": "Only selected entries of a tree are read", "statement": "With a filter or a list of entries exactly the entries that pass, or those of the list, are read, in their order.", "quantifier": "all trees, filters and lists", "why_tests_cant": "The empty selection is an input like any other.", "anchors": ["src/EventList.cpp: loadFromTree", "src/TreeReader.cpp: nEntries, getEntry"]}
{"id": "C74", "title": "The order of the decay products in a descriptor does not matter", "statement": "Descriptors of a decay that differ only in the order in which the decay products are written give the same decay tree.", "quantifier": "all decays with any number of decay products and all orders", "why_tests_cant": "The canonical order comes from sorting with a comparison of particles; every permutation must lead to the same order.", "anchors": ["src/Particle.cpp: sortDaughters, operator<, Particle::Particle(string)"]}
{"id": "C75", "title": "Ill-formed formulas are reported", "statement": "A formula in an options file that is not well formed, with a missing operand, a missing operator or an operator in the wrong place, is reported as an error.", "quantifier": "all token sequences", "why_tests_cant": "The reduction works on two separate lists; every order of operands and operators is an input.", "anchors": ["src/ExpressionParser.cpp: parseTokens, processBinaryOperators, processUnaryOperators"]}
{"id": "C76", "title": "Functions apply to what follows them", "statement": "In a formula a function name applies to the operand that follows it, before any operator, and functions written in front of each other are applied from the inside to the outside.", "quantifier": "all functions, operands and chains of functions", "why_tests_cant": "Chains of functions have no bound.", "anchors": ["src/ExpressionParser.cpp: processUnaryOperators, parseTokens"]}
{"id": "C77", "title": "Barrier factors are the Blatt-Weisskopf functions", "statement": "For every orbital angular momentum that is supported, the barrier factors are the Blatt-Weisskopf functions of the momentum: the ratio of the penetration polynomials, zero at threshold, growing with the momentum, and one at the reference momentum.", "quantifier": "all momenta and orbital angular momenta up to the largest supported", "why_tests_cant": "The formulas are typed in for each angular momentum; a single wrong term changes the shape for all momenta but one.", "anchors": ["src/Lineshapes.cpp: BlattWeisskopf, BlattWeisskopf_Norm", "src/Lineshapes/CoupledChannel.cpp: blatt_weisskopf_sq"]}
{"id": "C78", "title": "Running widths", "statement": "The momentum of two bodies in their rest frame follows from energy and momentum conservation; the running width is the nominal width times the ratio of the phase space and of the barrier factors, equals the nominal width at the nominal mass, and is zero below threshold.", "quantifier": "all masses, widths, radii and invariant masses", "why_tests_cant": "Statements about real functions of several variables.", "anchors": ["src/Lineshapes.cpp: Q2, width", "src/Lineshapes/BW.cpp: BW"]}
{"id": "C79", "title": "Breit-Wigner amplitudes have the phase of a resonance", "statement": "The phase of a Breit-Wigner amplitude goes through ninety degrees at the nominal mass, rises with the invariant mass, and the square of the simple form has its peak at the mass and half of it where the detuning equals mass times width.", "quantifier": "all masses, widths and invariant masses, all modifiers", "why_tests_cant": "Statements about functions of real numbers.", "anchors": ["src/Lineshapes/BW.cpp: BW, SBW"]}
{"id": "C80", "title": "The LASS amplitude is elastic", "statement": "The LASS amplitude for elastic scattering, times the phase space, has the form sin(d) exp(id) where the phase d is the sum of the phase of the effective range and that of the resonance; so its imaginary part is its square.", "quantifier": "all masses, widths, scattering lengths, effective ranges and invariant masses above threshold", "why_tests_cant": "Unitarity must hold at every mass for every set of parameters.", "anchors": ["src/Lineshapes/LASS.cpp"]}
{"id": "C81", "title": "Inverting a tensor gives the inverse matrix", "statement": "Inverting a square tensor of any size gives its inverse matrix whenever it is regular.", "quantifier": "all sizes and all regular matrices over any field", "why_tests_cant": "The elimination writes into the elements it reads; a test fixes size and elements.", "anchors": ["src/Tensor.cpp: Tensor::Invert"]}
{"id": "C82", "title": "K-matrix amplitudes are unitary", "statement": "The scattering amplitude built from a K-matrix with real masses and couplings is symmetric and conserves probability, for any number of channels and poles, whichever channels are open.", "quantifier": "all numbers of channels and poles, all couplings, masses and phase space factors", "why_tests_cant": "Unitarity is a relation between matrices for every set of parameters and every invariant mass.", "anchors": ["src/Lineshapes/kMatrix.cpp: getPropagator, constructKMatrix, kMatrix"]}
{"id": "C83", "title": "Production amplitudes of K-matrices", "statement": "The P-vector amplitude is the sum over channels of the propagator and the production vector, which is a sum over poles and one background term; the Q-vector amplitude is the elastic scattering amplitude; the Z-vector amplitude is the propagated coupling of one pole.", "quantifier": "all numbers of channels and poles and all parameters", "why_tests_cant": "The sums are accumulated in nested loops; the number of poles has no bound.", "anchors": ["src/Lineshapes/GenericKmatrix.cpp: GenericKmatrix"]}
{"id": "C84", "title": "Projection operators of spin are projections onto physical states", "statement": "For every timelike or spacelike momentum, the projection operators of spin 1, 2, 1/2 and 3/2 give states that satisfy the conditions of their spin (transverse, symmetric, traceless, Dirac equation), and leave every such state as it is; the Dirac matrices satisfy their algebra.", "quantifier": "all momenta with P.P other than zero and all states", "why_tests_cant": "An identity between polynomials in all momentum and state components.", "anchors": ["src/Vertex.cpp: Spin1Projector, Spin2Projector, Spin1hProjector, Spin3hProjector, Spin1hbProjector, Spin3hbProjector", "src/DiracMatrices.cpp"]}
{"id": "C85", "title": "Orbital tensors", "statement": "The orbital tensors for L = 1 and L = 2 are pure states of orbital angular momentum: transverse to the momentum of the decaying particle, symmetric and traceless, and in the rest frame they depend on the breakup momentum only, as the vector and as q_i q_j - |q|^2 delta_ij / 3.", "quantifier": "all momenta", "why_tests_cant": "Must hold for every momentum; a test fixes a few.", "anchors": ["src/Vertex.cpp: Orbital_PWave, Orbital_DWave"]}
{"id": "C86", "title": "Vertices give physical states", "statement": "The spin tensor of every decaying particle, for every vertex of the catalogue, is a state of its spin: transverse for spin 1, transverse, symmetric and traceless for spin 2, a solution of the Dirac equation for spin 1/2 and of the Rarita-Schwinger equations for spin 3/2 (with the sign of antiparticles for antiparticles).", "quantifier": "all vertices, momenta and states of the decay products", "why_tests_cant": "A wrong state is a wrong angular distribution at every point; no test can range over momenta and states.", "anchors": ["src/Vertex.cpp: DECLARE_VERTEX / DEFINE_VERTEX catalogue"]}
{"id": "C87", "title": "Vertices do not depend on the frame", "statement": "Changing the frame of all momenta and states changes the result of every vertex by the same change of frame: scalars stay the same (up to the sign of a reflection for pseudoscalar couplings), vectors, tensors and spinors change as vectors, tensors and spinors.", "quantifier": "all Lorentz transformations, vertices, momenta and states", "why_tests_cant": "The transformations are a continuous group.", "anchors": ["src/Vertex.cpp: DECLARE_VERTEX / DEFINE_VERTEX catalogue", "src/Tensor.cpp: LeviCivita"]}
{"id": "C88", "title": "Vertices are linear in the states of the decay products", "statement": "The result of every vertex is linear in the spin state of each decay product, so that the amplitude of a cascade is the product of the amplitudes of its decays.", "quantifier": "all vertices, momenta and states", "why_tests_cant": "Linearity is a statement about all states and factors.", "anchors": ["src/Vertex.cpp: DECLARE_VERTEX / DEFINE_VERTEX catalogue"]}
{"id": "C89", "title": "The rule for boxes integrates polynomials exactly", "statement": "In two to fifteen dimensions the rule applied to a box gives the integral of every polynomial of degree at most seven, up to the digits of its literal weights, gives no uncertainty to polynomials of degree at most five, evaluates the function in the box only, and chooses the axis along which the function varies most.", "quantifier": "all dimensions two to fifteen, boxes, polynomials and functions", "why_tests_cant": "Polynomials and boxes are infinite families; a wrong digit in a table of weights for one dimension shows up as a small bias only.", "anchors": ["AmpGen/simd/integrate_fp.h: integrate_fp_scalar", "AmpGen/simd/integrate_fp.h: integrate_fp_constants"]}
{"id": "C90", "title": "Adaptive integration partitions the box, ends and stays in its budget", "statement": "The integral over a box of two dimensions or more ends for every function; its value is the sum of the rule over a partition obtained by cutting a piece of largest uncertainty again and again, with at most a million evaluations, all in the box; it stops only when the uncertainty is below the requested one or the budget is used; polynomials of degree at most seven are integrated exactly; the array of pieces is never left.", "quantifier": "all functions, boxes and dimensions two to fifteen, any number of cuts", "why_tests_cant": "The course of the loop depends on the function at every point; the heap of pieces has unbounded shape.", "anchors": ["AmpGen/NumericalIntegration.h: integrate", "AmpGen/NumericalIntegration.h: integral"]}
{"id": "C91", "title": "Integrals over one dimension return the integral", "statement": "The integral over one dimension returns the value of the integral, whether the function takes a number or an array of one number.", "quantifier": "all functions and intervals", "why_tests_cant": "Functions are an infinite family; the two signatures are compiled separately.", "anchors": ["AmpGen/NumericalIntegration.h: integrate", "AmpGen/NumericalIntegration.h: integrate_1d"]}
{"id": "C92", "title": "Incoherent sums are normalised", "statement": "After any history and a call of prepare, the density of an incoherent sum is the sum of the squared moduli of its amplitudes, normalised so that its average over the integration sample is the yield; its fit fractions are the averages of its elements over the average of their sum and add up to one; its component projections add up to the unnormalised density.", "quantifier": "all sets of amplitudes, parameters, samples and histories", "why_tests_cant": "The density depends on everything that happened before through caches and a normalisation kept by the base class; tests look at a few samples.", "anchors": ["src/IncoherentSum.cpp: prob, norm, fitFractions, evaluator, componentEvaluator", "AmpGen/IncoherentSum.h: norm"]}
{"id": "C93", "title": "The likelihood is that of the attached data at the current parameters", "statement": "After any history of parameter changes, changes of data and integration samples and evaluations, a sum of densities returns minus twice the sum over the attached data of the weight times the logarithm of the sum of the densities of its components at the current parameters; samples taken together add their values, and the order of events does not matter.", "quantifier": "all components, histories, data and integration samples, any block width", "why_tests_cant": "Every component has its own caches with their own history; a stale one changes the value only for some histories.", "anchors": ["AmpGen/SumPDF.h: getVal, fill_likelihood, operator(), setEvents"]}
{"id": "C94", "title": "A fit to data distributed like the model finds the model", "statement": "If the data are distributed exactly like the model at some point in parameter space, no other point with the same total yield has a smaller value of minus twice the log likelihood.", "quantifier": "all sums of densities, parameters, samples and histories", "why_tests_cant": "The statement compares the value at all points in parameter space.", "anchors": ["AmpGen/SumPDF.h: getVal", "src/CoherentSum.cpp: prepare, norm", "src/IncoherentSum.cpp: prob"]}
{"id": "C95", "title": "Constraints pull the fit towards their targets", "statement": "A constraint added to a fit increases the minimised function as the constrained quantity moves away from its target, by the squared deviation in units of its uncertainty for a Gaussian constraint; the constrained ratio of partial widths is the ratio of the averages of the squared moduli of the selected amplitudes.", "quantifier": "all values of the parameters, targets and strengths, all histories", "why_tests_cant": "The sign and the size of a penalty matter at every point in parameter space.", "anchors": ["src/ExtendLikelihoodBase.cpp: GaussianConstraint::operator()", "src/PartialWidthConstraint.cpp: PartialWidthConstraint::operator()", "src/LASSO.cpp: LASSO::operator()", "src/Minimiser.cpp: operator()"]}
{"id": "C96", "title": "Decay products are listed by spin, those that decay first", "statement": "Everywhere in a decay chain built from a descriptor, whatever the order in which the decay products were written, those of higher spin come first, and among those of equal spin those that decay further come before those that are stable; the vertices are written for this order.", "quantifier": "all descriptors, databases and lineshapes, any depth", "why_tests_cant": "Chains have any depth, and the products of an antiparticle are sorted by way of their antiparticles.", "anchors": ["src/Particle.cpp: sortDaughters, operator<, conjThis"]}
{"id": "C97", "title": "Asymmetric errors do not disturb the fitted values", "statement": "Determining asymmetric errors, for one parameter on request or for all parameters as part of the fit, sets the errors of these parameters and leaves every fitted value as it was, whatever points the minimisation library evaluates meanwhile.", "quantifier": "all parameter sets, all points the library evaluates, all results it returns", "why_tests_cant": "Depends on where the library happens to evaluate the function last; all behaviours of the library.", "anchors": ["src/Minimiser.cpp: doFit (RunMinos), minos"]}
{"id": "C98", "title": "A scan samples the function on a regular grid and restores the parameter", "statement": "Scanning a parameter returns the points min, min+step, ... below max with the value there of the function that is minimised, all other parameters unchanged, and leaves the parameter as it was.", "quantifier": "all functions, parameter sets, limits and steps", "why_tests_cant": "All limits and steps, including those for which the loop does not end.", "anchors": ["src/Minimiser.cpp: scan"]}
{"id": "C99", "title": "The fit result lists every free parameter with its value, error and covariance", "statement": "The result object of a fit has one entry for each free or blind parameter in the order of the set: name, value, error, asymmetric errors where they differ, and the packed covariance matrix; values of blind parameters are shifted by their offset.", "quantifier": "all parameter sets and all results of the library", "why_tests_cant": "All patterns of flags and sizes.", "anchors": ["src/Minimiser.cpp: fitResult, detail::FitResult"]}
{"id": "C100", "title": "Printed results do not reveal blind parameters", "statement": "The table printed after a fit is the same for all true values of the blind parameters for which the shifted values are the same.", "quantifier": "all pairs of parameter sets", "why_tests_cant": "A statement about pairs of runs.", "anchors": ["src/Minimiser.cpp: doFit (printing)"]}
{"id": "C101", "title": "Fixed parameters are not changed by a fit", "statement": "A parameter that is fixed when a fit starts has the same value and errors afterwards; a parameter constructed with a value has that value.", "quantifier": "all parameter sets, histories of flags, and behaviours of the library", "why_tests_cant": "All behaviours of the library; parameters may be fixed at any time.", "anchors": ["src/Minimiser.cpp: prepare, doFit", "src/MinuitParameter.cpp: fix, constructors"]}
{"id": "C102", "title": "The function minimised includes every constraint", "statement": "The function given to the minimisation library is the fit function less twice the sum of all constraints, up to a constant; with Minimiser::Normalise it is zero at the start.", "quantifier": "all functions, constraints and parameter sets", "why_tests_cant": "All functions and constraints.", "anchors": ["src/Minimiser.cpp: operator(), doFit", "AmpGen/Minimiser.h: setFunction"]}
{"id": "C103", "title": "The rotation functions are the rotations of every spin", "statement": "The function wigner_d is the rotation matrix of a state of the given spin: it acts on a product of spinors by rotating each of them. So it is the identity at angle zero, two rotations compose to the rotation by the sum of the angles, and rows and columns are orthonormal.", "quantifier": "all spins, integer or half-integer, all projections, all angles", "why_tests_cant": "There are infinitely many spins and angles; a test checks a few entries of a few matrices.", "anchors": ["src/Wigner.cpp: wigner_d, expandedBinomial, binomialCoefficient, fact", "src/Expression.cpp: fpow"]}
{"id": "C104", "title": "Rotations to the direction of a momentum are unitary and defined for every direction", "statement": "The function wigner_D with the angles of a momentum is the rotation that takes the axis to the direction of the momentum, for every spin, and its matrix is unitary, for every momentum that is not zero.", "quantifier": "all momenta, spins and projections", "why_tests_cant": "All directions: the exceptional ones have measure zero and are never hit by random tests.", "anchors": ["src/Wigner.cpp: wigner_D, angCoordinates"]}
{"id": "C105", "title": "Clebsch-Gordan coefficients are a change of basis", "statement": "The states of definite total spin and projection built with the Clebsch-Gordan coefficients are orthonormal and complete, for all pairs of spins, and exchanging the total spin with the spin of one particle changes a coefficient only by the square root of the numbers of states and a sign.", "quantifier": "all spins and projections, integer or half-integer", "why_tests_cant": "An identity between sums for every pair of spins; tables cover small spins only.", "anchors": ["src/Wigner.cpp: CG, fact"]}
{"id": "C106", "title": "Helicity couplings of different orbital angular momenta are orthonormal", "statement": "The helicity couplings used for an orbital angular momentum and a total spin of the decay products have total strength one, and those of different pairs are orthogonal, so fit fractions of partial waves of one decay do not overlap in the helicity basis.", "quantifier": "all spins of the mother and its two decay products, all pairs (L,S) allowed by the triangle rules", "why_tests_cant": "All spins and couplings.", "anchors": ["src/Wigner.cpp: calculate_recoupling_constants"]}
{"id": "C107", "title": "Events of decays in several steps are consistent", "statement": "Each event of the generator for decays with quasi-stable products has, at each place of the event type, the momentum of a particle of that name, each particle of the chain once; the total momentum is that of the decaying particle at rest; and the momenta of the products of every intermediate particle sum to a momentum of its mass. Chains of two-body decays always give an event.", "quantifier": "all decay chains of any depth whose final states are those of the event type in some order, all masses for which the decays are possible, all random numbers", "why_tests_cant": "All shapes of chains, orders of final states and random numbers.", "anchors": ["src/RecursivePhaseSpace.cpp: RecursivePhaseSpace, makeEvent, getFinalStates", "src/Kinematics.cpp: boost"]}
{"id": "C108", "title": "Coordinates of the square Dalitz plot are one-to-one with kinematics", "statement": "Every point of the unit square is an event with the masses of the decay and the mass of the pair that belongs to the point; the coordinates of that event are the point; and every physical event of the decay, in any frame, has coordinates whose event has the same masses of all pairs.", "quantifier": "all masses for which the decay is possible, all points inside the square, all physical events", "why_tests_cant": "A continuum of kinematics with exceptional points at the boundary.", "anchors": ["src/DalitzIntegrator.cpp: setEvent, getMAB, sqDp1, sqDp2, setMother"]}
{"id": "C109", "title": "The Dalitz integral is the integral over phase space", "statement": "The integral over the unit square of a function of an event, with the weight used by the integrator, is the integral of the function over the Dalitz plot, bounded by the kinematic limits, for the mass of the decaying particle that is asked for.", "quantifier": "all masses, all continuous functions of the masses of pairs", "why_tests_cant": "An identity of integrals for every function.", "anchors": ["AmpGen/DalitzIntegrator.h: integrateDP", "src/DalitzIntegrator.cpp: J, setEvent"]}
{"id": "C110", "title": "Running widths are those of the masses asked for", "statement": "Whatever has been calculated before, the width at a mass is the sum over final states of the width at that mass; updating the running width sets the knots, at equal steps from the first to the last place, to the ratio of the widths at the knot and at the nominal mass, and no other parameter; graphs cover the range they are asked for; the running mass follows from the widths.", "quantifier": "all histories of calls, all final states and axes", "why_tests_cant": "Histories of calls on objects that keep state.", "anchors": ["src/ThreeBodyCalculators.cpp: getWidth, setNorm, setAxis, updateRunningWidth, widthGraph, runningMass"]}
{"id": "C111", "title": "The Flatte amplitude is finite and meets the optical theorem", "statement": "Above the lowest threshold the Flatte amplitude of f0(980) and a0(980) has a value, its imaginary part is its square times the mass and the sum of the couplings times the phase space of the open channels, and it is continuous where a channel opens. Resonances of other names have a width too.", "quantifier": "all masses, positive couplings and squares of the mass above the lowest threshold, all names", "why_tests_cant": "Real-valued parameters and masses, and the behaviour at thresholds.", "anchors": ["src/Lineshapes/Flatte.cpp: Flatte, fSqrtTerm, aSqrtTerm", "AmpGen/Lineshapes.h: Flatte"]}
{"id": "C112", "title": "Amplitudes given by phase shifts or K-matrices are unitary", "statement": "The isotensor amplitude is sin(delta) exp(i delta) with the documented phase in degrees and vanishes at threshold; an amplitude given by an inelasticity and a phase has a scattering matrix of that modulus and phase, and keeps unitarity exactly if the inelasticity is at most one; the K pi S-waves of PALANO and FOCUS solve T = K + i K rho T and meet unitarity in two channels, and the isospin 3/2 wave in one.", "quantifier": "all real K-matrices, zeros, phases and masses above threshold", "why_tests_cant": "Continuous parameters.", "anchors": ["src/Lineshapes/Isotensor.cpp: Isotensor", "src/Lineshapes/SplineShapes.cpp: InelasticSpline", "src/Lineshapes/PALANO.cpp: PALANO", "src/Lineshapes/FOCUS.cpp: FOCUS"]}
{"id": "C113", "title": "The Gounaris-Sakurai shape is the published one", "statement": "The running mass is that of Gounaris and Sakurai, with the loop function and its derivative; at the mass of the resonance it is the mass, its slope is zero, and the amplitude is imaginary with the width given.", "quantifier": "all masses, widths, radii, squares of the mass above threshold, and angular momenta up to four", "why_tests_cant": "An identity of functions of a real variable, including a derivative.", "anchors": ["src/Lineshapes/GounarisSakurai.cpp: GounarisSakurai, q2, q, logTerm"]}
{"id": "C114", "title": "The phase of a resonance rises", "statement": "The phase of a Breit-Wigner amplitude rises with the mass, whichever of the two lineshapes is chosen; the square of the non-relativistic amplitude is a distribution of Breit and Wigner with integral one.", "quantifier": "all masses, widths and pairs of masses of the system", "why_tests_cant": "A statement about all pairs of real numbers, and an integral.", "anchors": ["src/Lineshapes/NonRelBW.cpp: NonRelBW", "src/Lineshapes/BW.cpp: SBW"]}
{"id": "C115", "title": "GLASS is the documented generalisation of LASS", "statement": "The amplitude is R sin(dR) exp(i(dR + 2 dF)) + F sin(dF) exp(i dF) over the phase space, with the documented phases; phases are in degrees; with the default parameters it is the amplitude of LASS.", "quantifier": "all parameters, masses of the products and squares of the mass above threshold", "why_tests_cant": "Continuous parameters.", "anchors": ["src/Lineshapes/GLASS.cpp: GLASS", "AmpGen/Lineshapes.h: GLASS"]}
{"id": "C116", "title": "Phase spaces are those of two bodies", "statement": "Whichever parametrisation is chosen, the real part of the phase space of a channel is that of two bodies, with the same normalisation, zero below threshold and continuous.", "quantifier": "all masses of the products and all squares of the mass", "why_tests_cant": "Continuous arguments on both sides of two thresholds.", "anchors": ["src/Lineshapes/CoupledChannel.cpp: phaseSpace, rho_twoBody, Hr", "src/Lineshapes/kMatrix.cpp: phsp_twoBody, phsp_FOCUS, phsp_fourPi"]}
{"id": "C117", "title": "Coupled channels meet the optical theorem and have the width given", "statement": "The amplitude is finite when a channel is open, and its imaginary part is its square times the mass and the sum of the widths of the open channels; with the modifier norm it is imaginary at the mass of the resonance, with the width given, and still meets the optical theorem.", "quantifier": "all lists of channels, masses and couplings", "why_tests_cant": "Lists of channels of any length and continuous parameters.", "anchors": ["src/Lineshapes/CoupledChannel.cpp: CoupledChannel"]}
{"id": "C118", "title": "The sigma amplitude of Bugg is finite, meets the optical theorem and has the zero of Adler", "statement": "Above the threshold of two pions the amplitude is finite and its imaginary part is its square times the sum of the widths to two pions, kaons, etas and four pions; with the modifier Az it vanishes at the zero of Adler.", "quantifier": "all parameters that make sense and all squares of the mass", "why_tests_cant": "Continuous parameters.", "anchors": ["src/Lineshapes/Bugg.cpp: Bugg, Gamma_4pi, rho_2"]}
{"id": "C119", "title": "Shapes of a decay to three bodies are the documented densities", "statement": "The square of the shape of eta -> pi+ pi- pi0 is the documented function of the kinetic energies and positive, over the whole of the Dalitz plot; the polynomial shape is the documented root of a polynomial in the masses of two pairs.", "quantifier": "all momenta on the mass shell, all degrees and coefficients", "why_tests_cant": "All events, and polynomials of any degree.", "anchors": ["src/Lineshapes/EtaDalitz.cpp: EtaDalitz", "src/Lineshapes/PolyNR.cpp: PolyNR", "AmpGen/Lineshapes.h: EtaDalitz, PolyNR"]}
{"id": "C120", "title": "The density stored with an event of a mixture of decay chains is that of the mixture, through any re-weighting", "statement": "A generator made from a list of decays has each chain once. The density it stores with an event is the sum over chains of the probability that the chain is chosen times the density of the chain. Re-weighting with generated events always works, keeps all chains possible, moves the probabilities by the square root of the importance of the chain, and leaves them alone exactly when all are equally important.", "quantifier": "all lists of decays, all events, and all sequences of re-weightings", "why_tests_cant": "Lists of chains of any length, real densities and an unbounded history.", "anchors": ["src/TreePhaseSpace.cpp: TreePhaseSpace, fill_event, get_gen_pdf, calculate_weights, recalculate_weights", "AmpGen/DecayChainStack.h: operator==, genPdf"]}
{"id": "C121", "title": "A generator of decay chains can be made without a random generator, for any number of products, and copied", "statement": "Without a random generator the global one is used; events are filled for any number of products; destroying a generator releases its chains once, also after it has been copied.", "quantifier": "all lists of decays, numbers of products and numbers drawn", "why_tests_cant": "All numbers of products and all streams of random numbers.", "anchors": ["src/TreePhaseSpace.cpp: TreePhaseSpace, makeEvent, recalculate_weights, setRandom, ~TreePhaseSpace", "AmpGen/Generator.h: phsp"]}
{"id": "C122", "title": "The states of a massive particle of spin one are a basis of its states, for every momentum", "statement": "In the basis of Dirac, which is the default, the three states are orthogonal to the momentum and to each other, of length one, and complete; at rest they are the states of definite spin along z.", "quantifier": "all momenta on the mass shell and all positive masses", "why_tests_cant": "Momenta are real numbers; the sum over polarisations of any decay rests on completeness.", "anchors": ["src/Particle.cpp: externalSpinTensor"]}
{"id": "C123", "title": "In the basis of Weyl, the states of a particle of spin one have definite helicity and are a basis", "statement": "For every momentum, the three states are orthogonal to the momentum and to each other, of length one, complete, and of spin along the momentum equal to the polarisation.", "quantifier": "all momenta on the mass shell and all positive masses", "why_tests_cant": "Momenta are real numbers, with thresholds in the code that change the formula.", "anchors": ["src/Particle.cpp: externalSpinTensor"]}
{"id": "C124", "title": "The states of a massive fermion are a basis of the solutions of Dirac's equation, for every momentum", "statement": "In the basis of Dirac, the two states of a fermion (antifermion) solve Dirac's equation with mass m (-m), are orthogonal, of length one (minus one), and their sum is the projection onto the solutions; at rest they are the states of definite spin along z.", "quantifier": "all momenta on the mass shell, all positive masses, fermions and antifermions", "why_tests_cant": "Momenta are real numbers.", "anchors": ["src/Particle.cpp: externalSpinTensor", "src/Vertex.cpp: Bar"]}
{"id": "C125", "title": "In the basis of Weyl, the states of a fermion have definite helicity and solve Dirac's equation", "statement": "For every momentum, the two states solve Dirac's equation, are orthogonal and complete, and have spin along the momentum equal to half of the polarisation.", "quantifier": "all momenta on the mass shell, all positive masses, fermions and antifermions", "why_tests_cant": "Momenta are real numbers, with a threshold in the code that changes the formula.", "anchors": ["src/Particle.cpp: externalSpinTensor"]}
{"id": "C126", "title": "The frame in which the amplitude of a decay product is evaluated is its rest frame", "statement": "In the helicity formalism, for every event, the frame made for a decay product is a Lorentz transformation that brings the product to rest, with the mother, if she is at rest in her frame, flying along the negative axis; this holds along chains of any length.", "quantifier": "all chains of decays, all momenta of massive particles whose direction is along the axis or clearly away from it, first and second products", "why_tests_cant": "Momenta are real numbers and chains have any length.", "anchors": ["src/Wigner.cpp: wickTransform, helicityAmplitude", "src/Transform.cpp: TransformSequence"]}
{"id": "C127", "title": "Keeping the frames of particles in a map does not change the amplitude", "statement": "The amplitude computed with frames that are kept in a map by the indices of the particles is the amplitude in which each frame is made anew from that of the mother.", "quantifier": "all decays with distinct indices, all options and momenta", "why_tests_cant": "The map is filled while the decay is walked through, once for each helicity; decays have any shape.", "anchors": ["src/Wigner.cpp: index_string, helicityAmplitude"]}
{"id": "C128", "title": "The states of external particles are expressed completely in the states of the decay", "statement": "For every particle that does not decay and every frame of its mother, the amplitudes between its polarisation states and its spin states along the axis of its frame in the decay form a unitary matrix, so that no probability is lost or gained.", "quantifier": "all chains of frames, momenta on the mass shell, positive masses, spins zero, one half and one", "why_tests_cant": "Momenta are real numbers, frames come from chains of any length.", "anchors": ["src/Wigner.cpp: basisSpinor, basisVector, helicityAmplitude", "src/Particle.cpp: externalSpinTensor"]}
{"id": "C129", "title": "The intensity of a decay does not depend on the orientation of the event", "statement": "In the helicity formalism, the square of the amplitude summed over all polarisations does not change when all momenta of the event are rotated, for decay chains of any depth and couplings of any kind; for a mother that moves this is so for each of her helicities.", "quantifier": "all decay trees with two products at each step, all couplings, all proper rotations, all events with products away from the axis", "why_tests_cant": "Rotations, momenta and couplings are real numbers and the trees have any shape.", "anchors": ["src/Wigner.cpp: helicityAmplitude, wickTransform, wigner_D, angCoordinates"]}
{"id": "C130", "title": "Two-body decays in the helicity formalism are normalised", "statement": "For a decay to two particles that do not decay and any orbital angular momentum and spin that are allowed, given or chosen by default, the intensity summed over all polarisations is one for every direction.", "quantifier": "all spins of the mother, all products of spin zero, one half and one, all allowed couplings, all directions away from the axis", "why_tests_cant": "Spins, couplings and directions have no bound.", "anchors": ["src/Wigner.cpp: helicityAmplitude, recouplingConstants", "src/Particle.cpp: spinOrbitCouplings"]}
{"id": "C131", "title": "Compiled code for vectors of events gives the numbers of the code for single events", "statement": "An expression compiled for vectors of events (AVX2 with doubles or floats, ARM) gives in every lane the number that the same expression compiled for single events gives for the event of that lane: arithmetic, roots, exponentials, logarithms, comparisons, choices and remainders, of real and complex numbers and of both mixed.", "quantifier": "all expressions that can be compiled, all events, all lanes", "why_tests_cant": "Expressions and events have no bound, and tests run on one instruction set.", "anchors": ["AmpGen/simd/avx2d_types.h", "AmpGen/simd/avx2f_types.h", "AmpGen/simd/arm128d_types.h", "AmpGen/Complex.h", "src/CompiledExpressionBase.cpp: to_stream"]}
{"id": "C132", "title": "Arrays and splines in vectorised code", "statement": "An element of an array and the value of a spline in code for vectors are in every lane those of the code for single events: the element at the offset without its fraction, the first element for an offset outside the array.", "quantifier": "all arrays, splines, offsets and lanes", "why_tests_cant": "Offsets are real numbers; only some of them are rounded differently.", "anchors": ["src/Array.cpp: to_string", "src/Spline.cpp: eval", "AmpGen/simd/avx2d_types.h: gather, to_int", "AmpGen/simd/avx2f_types.h: gather, to_int", "AmpGen/simd/arm128d_types.h: gather, to_int"]}
{"id": "C133", "title": "Normalisation integrals accumulated in vectors", "statement": "An integral of a pair of amplitudes accumulated in the lanes of vectors is the sum over all events of weight times amplitude times conjugate amplitude, divided by the norm.", "quantifier": "all numbers of blocks, all weights and amplitudes, all instruction sets", "why_tests_cant": "The number of events has no bound.", "anchors": ["src/Integrator.cpp: integrateBlock", "AmpGen/simd/utils.h: sum_elements", "AmpGen/simd/avx2d_types.h: fmadd", "AmpGen/simd/arm128d_types.h: fmadd"]}
{"id": "C134", "title": "The logarithm of AVX512 vectors", "statement": "With AVX512 the logarithm of a positive number is right to within 3e-9 for every positive double that is not denormal, and has no value for zero and negative numbers.", "quantifier": "all patterns of 64 bits", "why_tests_cant": "There are 2^64 numbers.", "anchors": ["AmpGen/simd/avx512d_types.h: log, frexp"]}
{"id": "C135", "title": "Histograms of projections", "statement": "The histogram of a projection has the range set last, and each bin holds the sum of the weights of the events that pass the selection and have the quantity in that bin, multiplied by weight function over density of generation if a weight function is given; together with the events below and above the range all selected events are counted exactly once. The same for two quantities. The bin number of an event is that of the histogram.", "quantifier": "all quantities, numbers of bins, ranges and changes of the range, lists of events, selections and weight functions", "why_tests_cant": "Events, weights and edges are real numbers without bound.", "anchors": ["src/Projection.cpp: plot, binFunctor, projInternal", "AmpGen/Projection.h: setRange"]}
{"id": "C136", "title": "Stacked projections", "statement": "A stack holds the histogram of every component, all scaled by the same factor, which makes the integrals add up to the norm that was asked for (nothing is scaled for the norm -1 or when the sum is zero); the components are in ascending order, and components that add up to one function give a stack that adds up to its histogram in every bin.", "quantifier": "all components, events, selections, norms, every result that sorting may give", "why_tests_cant": "Lists and weights have no bound.", "anchors": ["src/Projection.cpp: projInternal (keyedFunctors)", "AmpGen/KeyedFunctors.h"]}
{"id": "C137", "title": "Comparison of data and simulation in bins", "statement": "The chi squared is the sum over bins of the squared difference of data and simulation, scaled to the sum of weights of the data, over the sum of squared weights; it is not negative, zero exactly when both agree in every bin, and depends neither on the normalisation of the model nor on the order of events.", "quantifier": "all binnings, samples, weights and models", "why_tests_cant": "Samples have no bound.", "anchors": ["src/Chi2Estimator.cpp: doChi2, Moment"]}
{"id": "C138", "title": "Sign of a decay chain under CP", "statement": "The sign of a decay chain under CP is the product of (-1)^(J-L-s1-s2) over its decays and of the C-parities of the particles below the head that have one; a decay chain and its conjugate have the same sign.", "quantifier": "all decay chains and particle tables with the same numbers for antiparticles", "why_tests_cant": "Decay chains have no bound on depth.", "anchors": ["src/Particle.cpp: finalStateParity, C, CP, conj"]}
{"id": "C139", "title": "CP-conjugate parameters", "statement": "AddCPConjugate keeps all parameters and names unique; for every process given by two parameters the conjugate process gets the coupling times the sign of the process under CP for all values the parameters take afterwards, in cartesian and polar coordinates; properties of particles are shared with their antiparticles; a second call adds nothing.", "quantifier": "all sets of parameters, processes, values and coordinates", "why_tests_cant": "The relation must hold at every step of a fit.", "anchors": ["src/AddCPConjugate.cpp: AddCPConjugate", "src/AmplitudeRules.cpp: Coupling, TotalCoupling", "src/ExpressionParser.cpp: MinuitParameterLink"]}
{"id": "C140", "title": "Comparison of decay chains", "statement": "Two decay chains match exactly if and only if they are equal; otherwise the answer tells whether somewhere particles differ, a particle decays in one chain only, or angular momenta or polarisations differ. The channel found in a list is the first equal one.", "quantifier": "all pairs of decay chains and lists of channels", "why_tests_cant": "Decay chains have no bound on depth.", "anchors": ["src/Particle.cpp: matches", "AmpGen/Particle.h: MatchState", "src/Lineshapes/GenericKmatrix.cpp: find_channel_index"]}
{"id": "C141", "title": "Exported code", "statement": "The source code exported for a fitted model defines functions that give the amplitude and the density of the model for every event, with the sign of the amplitudes of odd parity under the control of the caller; the numbers in it are those of the fit.", "quantifier": "all models, events, parameters, couplings and signs; coherent and polarised sums", "why_tests_cant": "Statement about every number a fit can end with and every event.", "anchors": ["src/CoherentSum.cpp: generateSourceCode", "src/PolarisedSum.cpp: generateSourceCode, probExpression", "src/CompiledExpressionBase.cpp: compileWithParameters", "src/Expression.cpp: Constant::to_string"]}
{"id": "C142", "title": "Symbols of generated functions", "statement": "The symbol of a generated function is a valid identifier, and functions with different names have different symbols.", "quantifier": "all names", "why_tests_cant": "There is no bound on names of decay chains.", "anchors": ["src/CompiledExpressionBase.cpp: programatic_name"]}
{"id": "C143", "title": "Reuse of compiled libraries", "statement": "Over every history of compilations, restarts, crashes and removed files, a compiled expression calls its own code.", "quantifier": "all histories of compilations by all programs sharing a directory", "why_tests_cant": "Which library is used depends on the whole history, and on the point at which an earlier program ended.", "anchors": ["src/CompilerWrapper.cpp: compile, compileSource, generateFilename", "AmpGen/CompiledExpression.h: link", "AmpGen/DynamicFCN.h: set", "src/Utilities.cpp: FNV1a_hash"]}
{"id": "C144", "title": "Amplitudes of an event type", "statement": "The amplitudes used for an event type are the expansions of the rules for its mother, with the prefix asked for, that have its final state: each decay once, in the order of the options, and the amplitude is the sum of all of them.", "quantifier": "all sets of rules, all event types and prefixes", "why_tests_cant": "Any set of rules can be given, with decays repeated in any order of the products and any depth.", "anchors": ["src/AmplitudeRules.cpp: getMatchingRules", "AmpGen/AmplitudeRules.h: AmplitudeRules"]}
{"id": "C145", "title": "Tables of fit fractions", "statement": "The table of fit fractions has, for every particle, one line for each of its decays that some but not all amplitudes with the particle use, ordered by size, with their sum; for the mother, fractions and interference fractions add up to one.", "quantifier": "all sums of amplitudes, rules, couplings and normalisation integrals", "why_tests_cant": "Which lines appear depends on the names of all amplitudes and rules, and the sum on all couplings.", "anchors": ["src/CoherentSum.cpp: fitFractions", "src/PolarisedSum.cpp: fitFractions", "AmpGen/FitFraction.h: FitFractionCalculator", "src/MatrixElement.cpp: processIndex, findIndices", "src/AmplitudeRules.cpp: rulesForDecay"]}
{"id": "C146", "title": "Derivatives of functions", "statement": "The derivative an expression of a function returns is, at every value of its argument, the derivative of that function.", "quantifier": "all functions, all arguments and all values of the parameters at which the function is differentiable", "why_tests_cant": "The argument is any expression, and the derivative is built by the operators that simplify.", "anchors": ["src/UnaryExpression.cpp: d", "AmpGen/Expression.h: IUnaryExpression"]}
{"id": "C147", "title": "Lineshapes given by splines", "statement": "A model-independent amplitude takes the given complex numbers at its knots and is smooth in between; a resonance with a width from a spline is a Breit-Wigner with the width and mass of the resonance, and only the shape of the splines matters.", "quantifier": "all knots, ranges, modifiers, masses and widths", "why_tests_cant": "Holds for every mass in the continuous range, every number of knots and every value of the parameters.", "anchors": ["src/Lineshapes/SplineShapes.cpp: MIPWA, GSpline, FormFactorSpline, DecaySpline", "src/Spline.cpp: getSpline"]}
{"id": "C148", "title": "Errors and correlations from a fit result", "statement": "The errors computed from a fit result use the covariance of exactly the parameters that were floating, and covariances and correlations by name are those of the parameters with these names.", "quantifier": "all parameter sets, covariance matrices and linear functions", "why_tests_cant": "The parameters that float, their order and the covariance matrix are arbitrary.", "anchors": ["src/FitResult.cpp: floating, getReducedCovariance, getErrorPropagator, correlation", "AmpGen/FitResult.h: FitResult"]}
{"id": "C149", "title": "The amplitude of one decay chain", "statement": "The amplitude of a decay chain is the product of the lineshapes of all its decays, each once, and its spin factor, summed over the orderings of identical particles with the sign of the exchange of fermions and divided by the square root of their number; marked incoherent it is the root mean square over the orderings; without symmetrisation it is that of the given ordering. Exchanging identical particles does not change the density.", "quantifier": "all decay chains of any depth, lineshapes, spin factors, momenta, final states with any number of identical particles, and combinations of modifiers", "why_tests_cant": "Chains of any depth and width and any number of identical particles are allowed; lineshapes and spin factors are arbitrary functions.", "anchors": ["src/Particle.cpp: propagator, getExpression, identicalDaughterOrderings"]}
{"id": "C150", "title": "Angles between decay planes", "statement": "The angle between two pairs of particles is the oriented angle between their decay planes in the rest frame of the four; it does not depend on the frame or orientation of the event, changes sign in the mirrored event, turns by half a turn when the particles of a pair are exchanged, and is symmetric in the pairs; the acoplanarity is its magnitude.", "quantifier": "all events with four or more particles, choices of pairs, axes and velocities of boosts", "why_tests_cant": "Holds for every configuration of momenta and every Lorentz transformation.", "anchors": ["src/Kinematics.cpp: acoplanarity, PHI, phi", "AmpGen/Kinematics.h"]}
{"id": "C151", "title": "Lists of events", "statement": "Appending events or lists keeps what is there and adds the new events unchanged in their order; filtering removes exactly the events that satisfy the condition and keeps the others in order; setting a weight changes one event; the integral of a list is the sum of its weights; after any history of calls the index of an event is its position, so that it finds its own value in a table with one value per event.", "quantifier": "all lists of events, conditions, weights and histories of calls", "why_tests_cant": "Any sequence of calls on lists of any length is allowed.", "anchors": ["AmpGen/EventList.h: EventList", "src/EventList.cpp: add, resize, push_back, erase, integral"]}
{"id": "C152", "title": "Matrix element summed over polarisations", "statement": "The matrix element from which the width of a resonance of integer spin is computed is the contraction of the sum of the currents of all its decay chains and orderings of identical particles with its complex conjugate, with the sign of the spin. It is real, independent of the order of the chains and the frame, never negative, and zero only if the sum of the currents vanishes; chains interfere, so that widths of chains do not add up.", "quantifier": "all integer spins, decay chains, couplings, propagators, orderings, transverse spin tensors and frames", "why_tests_cant": "Ranks, numbers of chains and complex values are unbounded, and positivity is a property of all transverse tensors.", "anchors": ["src/ThreeBodyCalculators.cpp: ThreeBodyCalculator::PartialWidth::spinAverageMatrixElement", "src/Tensor.cpp: dot, Tensor::conjugate, operator*"]}
{"id": "C153", "title": "Variables of the environment in paths", "statement": "In the path of an imported options file or an output file every variable of the environment, written with a dollar in front of its name or in braces, is replaced by its value and nothing else is changed; AMPGENROOT defaults to the directory of the sources; the expansion ends for every path and environment.", "quantifier": "all environments and paths, with any number of variables", "why_tests_cant": "Paths, names and values are arbitrary strings.", "anchors": ["src/Utilities.cpp: expandGlobals, find_next_of", "src/OptionsParser.cpp: Import"]}
{"id": "C154", "title": "Lists of files", "statement": "Listing a directory with a pattern gives the names in it that match, each with the path of the directory, without the entries for the directory itself and its parent; a wildcard in the path stands for all entries that match it.", "quantifier": "all trees of files, paths and patterns", "why_tests_cant": "Trees of files and patterns are arbitrary.", "anchors": ["src/Utilities.cpp: getListOfFiles, isDir"]}
{"id": "C155", "title": "The spin tensor of a decay chain is a state of its spin", "statement": "For every decay chain of bosons, however deep, the spin tensor that is computed is a state of its rank for the momentum of the decaying particle: transverse, and for rank two symmetric and without trace. Its rank is the spin of the decaying particle, and there is one unless a decay to two products has no vertex.", "quantifier": "all decay chains of bosons, momenta and spin tensors of the final state", "why_tests_cant": "Chains can be of any depth and any combination of vertices; the conditions at one vertex are met only because the vertices below it gave states.", "anchors": ["src/Particle.cpp: Particle::spinTensor, Particle::P, Particle::Q", "src/Vertex.cpp: Vertex::Factory::getSpinFactor, getSpinFactorNBody", "src/ParticleProperties.cpp: spinName"]}
{"id": "C156", "title": "The amplitude of a decay chain does not depend on the frame", "statement": "With all momenta and spin tensors of the final state in another frame of reference, the spin tensor of a decay chain of bosons is the old one in the new frame; for a particle without spin it is the same number. A reflection gives in addition one sign for each decay in which the sum of the spins and the orbital angular momentum is odd.", "quantifier": "all decay chains of bosons, Lorentz transformations, momenta and spin tensors", "why_tests_cant": "The transformations are a continuous group and chains have any depth.", "anchors": ["src/Particle.cpp: Particle::spinTensor", "src/Vertex.cpp: Vertex::Factory::getSpinFactor"]}
{"id": "C157", "title": "A decay chain of a fermion gives a solution of the Dirac equation", "statement": "The spin tensor of a whole decay chain of a fermion obeys the Dirac equation for the momentum and mass of the decaying fermion, with the other sign for antifermions, or the equations of Rarita and Schwinger for spin 3/2. It exists if and only if every decay has a vertex, and then a fermion never decays to an antifermion.", "quantifier": "all decay chains of fermions (to two products and of any depth, with decay chains of bosons in them), momenta, spinors and couplings", "why_tests_cant": "Chains have any depth and their momenta and spinors are complex numbers.", "anchors": ["src/Particle.cpp: Particle::spinTensor", "src/Vertex.cpp: Vertex::Factory::getSpinFactor, Spin1hProjector, Spin1hbProjector", "src/FermionVertices.cpp: DEFINE_VERTEX"]}
{"id": "C158", "title": "The amplitude of a decay chain of a fermion does not depend on the frame", "statement": "With all momenta, spin tensors and spinors of the final state in another frame of reference, which is rotated or moves, the spin tensor of a decay chain of a fermion is the old one in the new frame, and its product with a state of polarisation is the same number.", "quantifier": "all decay chains of fermions, Lorentz transformations with their matrices for spinors, momenta and spinors", "why_tests_cant": "The transformations are a continuous group and chains have any depth.", "anchors": ["src/Particle.cpp: Particle::spinTensor", "src/Vertex.cpp: Vertex::Factory::getSpinFactor", "src/FermionVertices.cpp: DEFINE_VERTEX"]}
{"id": "C159", "title": "The simple K-matrix is the solution of the equations of rescattering", "statement": "The lineshape kMatrixSimple with modifier k gives, above all thresholds, the amplitude to the first channel after the production of pole number k+1, as the only solution of the equations of rescattering through all poles and channels. With one pole it is a Breit-Wigner amplitude whose widths are those in the options at the mass of the pole. The coupling of a pole to every channel is real.", "quantifier": "all numbers of channels and poles, masses, widths, energies and divisions that are right for divisors other than zero", "why_tests_cant": "Masses, widths and energies are real numbers, and the number of channels is an option.", "anchors": ["src/Lineshapes/kMatrixSimple.cpp: kMatrixSimple", "src/Lineshapes/kMatrix.cpp: phsp_twoBody, gFromGamma, constructKMatrix, getPropagator"]}
{"id": "C160", "title": "The generic K-matrix is symmetric and unitary", "statement": "The K-matrix of the lineshape GenericKmatrix has in each element the sum over the poles and the smooth term of the pair of channels, with the same options for a pair in both orders. With real parameters and open channels the scattering amplitudes are symmetric and unitary, and the production amplitude QVec is the elastic one of the first channel, within the circle of unitarity.", "quantifier": "all numbers of channels and poles, couplings, options of pairs of channels, energies and divisions that are right for divisors other than zero", "why_tests_cant": "Parameters and energies are real numbers, and the numbers of channels and poles are options.", "anchors": ["src/Lineshapes/GenericKmatrix.cpp: GenericKmatrix", "src/Lineshapes/kMatrix.cpp: constructKMatrix, getPropagator"]}
{"id": "C161", "title": "Numbers and flags in the text of options are read exactly", "statement": "A word that is the numeral of an integer, with white space and a sign in front, is read as this integer if the type can hold it, and the flag that reports errors is left as it was; so the text of every integer is read back as itself. Every word that is not a numeral is reported. A truth value is 1, true, 0 or false, and every other word is reported.", "quantifier": "all words, integers, and earlier states of the flag, for signed and unsigned integers of 32 and 64 bits", "why_tests_cant": "Words have any length; tests read a few numbers.", "anchors": ["src/Utilities.cpp: lexical_cast"]}
{"id": "C162", "title": "The adaptive binning of two samples finds the best cut", "statement": "When two samples with positive weights are compared, the cut chosen on a coordinate is the one with the largest chi-squared of the two bins it makes, among the midpoints of neighbouring target events that leave at least the smallest number of events of each sample on each side (and, for the fast tree, are far enough from the first source event); the chi-squared returned is that of the cut, and no cut is reported only if there is none.", "quantifier": "all samples sorted by the coordinate, weights, smallest numbers of events and smallest steps", "why_tests_cant": "Samples have any number of events with arbitrary coordinates and weights; the loop keeps running sums.", "anchors": ["src/FastDT.cpp: FastDT::bestCut_ls", "src/BinDT.cpp: bestCut_lineSearch"]}
{"id": "C163", "title": "The symbols of a compiled expression stand for what their names say", "statement": "In a compiled expression a named parameter is the variable of the event with its name, or else the current value of the fit parameter with its name, or else its default value; a link to a fit parameter is its current value; a function is its current value, and a spline is the list of its values at the knots. This holds whatever other symbols the expression contains and in whatever order they are visited.", "quantifier": "all lists of symbols with any names and addresses, event layouts, sets of fit parameters, current values and earlier contents of the external buffer", "why_tests_cant": "Which storage a symbol gets depends on all symbols visited before it, and names may coincide.", "anchors": ["src/ASTResolver.cpp: ASTResolver::resolve, addResolvedParameter, resolvedParameter", "AmpGen/ASTResolver.h: addCacheFunction", "src/CompiledExpressionBase.cpp: resolve, prepare"]}
{"id": "C164", "title": "An options file is updated with the result of a fit", "statement": "Writing options from a fit result with a given input file copies the input, keeps every line that is no declaration of a parameter, and gives every declaration the current flag, value, error and limits; no other file changes and updating the result again changes nothing.", "quantifier": "all parameter sets with different names, all number formats and all input files", "why_tests_cant": "The lines of options files and the names of parameters are arbitrary; tests use a few files.", "anchors": ["src/FitResult.cpp: FitResult::writeOptions", "AmpGen/Utilities.h: processFile"]}
{"id": "C165", "title": "Parameter values can be copied by name and reset after a fit", "statement": "Setting a parameter set from another one gives every parameter the current value of the parameter of the same name there and changes nothing else; resetting after any fit gives every parameter its declared value and step again; a parameter built from a value, a step and limits has them.", "quantifier": "all pairs of parameter sets, all fits with any points tried and any results", "why_tests_cant": "Any set of names may be missing in the other set, and any sequence of values may be written during the fit.", "anchors": ["src/MinuitParameterSet.cpp: MinuitParameterSet::set, resetToInit, operator[]", "src/MinuitParameter.cpp: MinuitParameter::MinuitParameter, resetToInit", "src/Minimiser.cpp: prepare, doFit"]}
{"id": "C166", "title": "The words of a formula stand for numbers, constants and parameters", "statement": "In a formula a number stands for itself, pi, e and i for the constants, the name of a parameter for its current value, and the name of a complex parameter for the number with its real and imaginary part, or with its modulus and angle if polar coordinates are chosen, with angles in the chosen units; any other word is a symbol of that name.", "quantifier": "all words, parameter sets, current values and choices of coordinates and units", "why_tests_cant": "Names of parameters are arbitrary and may coincide with anything.", "anchors": ["src/ExpressionParser.cpp: ExpressionParser::ExpressionParser, processEndPoint", "AmpGen/ExpressionParser.h: getMe"]}
{"id": "C167", "title": "Decision trees survive being written and read", "statement": "A decision tree written to a file and read back has the same nodes in the same order, with the cuts rounded to the digits that are written; reading stops at an empty line or the end and leaves what follows, so that several trees can be in one file; an event is in the same bin as before; a line that is no node ends the program.", "quantifier": "all trees, number formats, events and texts that follow", "why_tests_cant": "Trees have any size and cuts are arbitrary numbers.", "anchors": ["src/FastDT.cpp: FastDT::serialise, FastDT::readFromStream, FastDT::findNode"]}
{"id": "C168", "title": "Clones of decay chains are independent of the chain", "statement": "A clone of a decay chain has the same particles; expanding it with a particle replaces the first stable particle of that name, or changes nothing and says so; no other decay chain that existed before changes.", "quantifier": "all decay chains in any memory, with any sharing of daughters, and all particles", "why_tests_cant": "Decay chains have any depth and share daughters through pointers with any other chain.", "anchors": ["src/Particle.cpp: Particle::clone, Particle::setDaughter, Particle::expand", "AmpGen/Particle.h: Particle"]}
{"id": "C169", "title": "The sampler for the propagation of large errors keeps its distribution", "statement": "If the point the sampler starts from has the likelihood as its density, so does the point after any number of turns; a point that is at least as likely as the present one is always taken, and the sampler never goes to an impossible point.", "quantifier": "all likelihoods, step sizes, numbers of parameters and turns, and all random numbers", "why_tests_cant": "The claim is about a probability distribution over all points and random numbers; tests see a few samples.", "anchors": ["src/ErrorPropagator.cpp: MetropolisHastings"]}
{"id": "C170", "title": "Polarisations are assigned by the place of a particle in the event", "statement": "Setting the polarisations of a decay chain from a list gives the head the first one and the particle at each place in the event the one for this place, whatever the order in the descriptor; the polarisations listed for a particle are the projections of its spin; states that are none are refused.", "quantifier": "all decay chains, spins, arrangements and lists of states", "why_tests_cant": "The places of the particles in a descriptor are an arbitrary permutation, for any number of particles.", "anchors": ["src/Particle.cpp: Particle::setPolarisationState, Particle::getFinalStateParticles", "src/ParticleProperties.cpp: ParticleProperties::polarisations, isFermion"]}
{"id": "C171", "title": "Numbered options are read in order until the first default", "statement": "Asking for a list of options with a common name returns the values of name0, name1, ... in order, up to the first one that is not set; values that are the empty word or zero are left out; the reading ends for every file of options.", "quantifier": "all names, files of options, types of values and defaults", "why_tests_cant": "Whether the loop ends and which values it returns depends on every number of options and on all their values.", "anchors": ["AmpGen/NamedParameter.h: NamedParameter::getVectorArgument, getVal, setFromOptionsParser"]}
{"id": "C172", "title": "The default projections cover every group of particles once", "statement": "The default projections of an event type are one for each group of at least two particles that are not all of them; the function is the (squared) invariant mass of the group; every event with the masses of the event type falls inside the range of the histogram; and different projections have different names.", "quantifier": "all event types, numbers of particles, masses, groups and events", "why_tests_cant": "The number of groups grows with the number of particles, and the range must hold for a continuum of events.", "anchors": ["src/EventType.cpp: EventType::defaultProjections, EventType::projection, EventType::minmax", "AmpGen/Utilities.h: nCr, vectorToString"]}
{"id": "C173", "title": "An attribute of a particle is the value its first modifier gives", "statement": "Asking a particle for an attribute returns the value of the first modifier key=value with this key, whatever the other modifiers are, and nothing if there is none.", "quantifier": "all lists of modifiers, keys and values", "why_tests_cant": "The modifiers are arbitrary text in any number and order.", "anchors": ["src/Particle.cpp: Particle::attribute", "src/Utilities.cpp: split"]}
