# Formal model of GooFit/AmpGen in Lean 4

## Method

The C++ sources in `/repo` are read as text and re-expressed, function by
function, as small total Lean functions under `lean/Verif/`.  Each subsystem has

* `Verif/<Area>/Model.lean`: the model. Every definition cites the file and
  lines it models and lists the simplifications made.
* `Verif/<Area>/Spec.lean` (where the property needs one): a short
  specification written without reference to the model's helpers.
* `Verif/<Area>/Lemmas.lean`: helper lemmas.
* `Verif/<Area>/Props.lean`: the property theorems, each followed by an
  `example` exhibiting a concrete non-trivial instance of its hypotheses.

Conventions:

* Undefined behaviour, exceptions (`FATAL`), and non-termination are explicit
  outcomes (`Option`, an error constructor, or a relation with no result), never
  a default value.
* `double` and `std::complex<double>` are modelled by an arbitrary field, by
  `ℚ`, `ℝ` or `ℂ`. Rounding, overflow, NaN and infinities are *not* modelled.
  Every theorem about numerical code is therefore a statement about the
  algorithm in exact arithmetic.
* Machine integers are `Nat`/`Int` unless a property is about wrap-around.
* Where the code violates the stated property the violation is proved
  (`..._counterexample` / `not_...` theorems), the property keeps its full
  English statement, the theorem that does hold carries the suffix `_partial`,
  and the disagreement is listed below.

## Trusted base

* Lean 4.33.0's kernel (and the elaborator's faithful translation of the
  displayed statements into kernel terms).
* The axioms `propext`, `Classical.choice`, `Quot.sound`, and no others: no
  axioms are declared, no `sorry`, no `native_decide`, no `bv_decide`.
* Mathlib (its definitions of `ℝ`, `ℂ`, `Finset.sum`, matrices, ... are used in
  statements).
* The reading of the C++ source: that each definition is a faithful rendering
  of the cited lines. Nothing is extracted or executed.

## Plan per property

- **C01 Expression operators preserve value** — Model the tree type and the smart constructors over an arbitrary field with the exact (epsilon = 0) constant comparisons; prove by structural induction that the evaluation of the constructed tree is the operation applied to the evaluations; division under the no-zero-denominator condition the folding needs. Epsilon > 0 (the real code) is covered by a negation witness.
- **C02 Generated source means the same as the expression** — Model to_string as a token printer and give an independent C++ expression grammar (precedence climbing) evaluator as the specification; prove evaluate(parse(print e)) = eval e by induction over e, for every fragment where the brackets suffice; negation witness where they do not.
- **C03 Option-file expressions obey operator precedence** — Model the token list reduction passes; specify by a recursive split on the lowest precedence operator; prove agreement for every well-formed token list.
- **C04 Common sub-expressions are defined before they are used** — Model the resolver's repeated expansion over trees with shared keyed nodes; prove the output list has no duplicate keys and that each body mentions only keys earlier in the list.
- **C05 External parameters never share storage** — Invariant by induction over the registration history.
- **C06 Function cache layout is a bijection** — Model the index arithmetic for AoS and SoA, prove bounds and injectivity with nonlinear arithmetic, and refine the buffer to a map (block, field) -> value over arbitrary operation histories.
- **C07 SIMD event lists hold the same events as scalar event lists** — Model blocks as lists of lanes; prove the read-back law for every index; prove the padding claim where it holds and its negation where gather pads with the last element.
- **C08 Thread pool runs every task exactly once** — Small-step transition system with one mutex-protected state; inductive invariant over all executions (safety), plus a variant showing the destructor's wait is reached (no deadlock) and negations for misuse (double wait, zero workers).
- **C09 Coherent sum is normalised on its integration sample** — Model over the complex numbers: bilinears as the weighted sums the integrator writes, norm as the double loop; prove norm = (sum_e w_e |sum_i g_i A_i(e)|^2)/(sum_e w_e) and the normalisation law for any sample.
- **C10 Incremental amplitude updates equal a full recalculation** — State machine over external buffers with changed-flags; invariant by induction over operation lists; refinement to the function 'recompute everything from the current parameters'.
- **C11 Queued integrals are all evaluated** — Model the fixed-size batch buffer with batch size 8; induct over the list of queued requests.
- **C12 Fit fractions and interference terms add up** — Model the double loops with Hermitian bilinears; prove by induction over the component list.
- **C13 Component projections add up to the total** — Sum over i <= j with the factor two of real parts equals the squared modulus of the sum; induction over the amplitude list.
- **C14 Polarised sum is normalised on its integration sample** — Model the flattened index loop and the density matrices over the complex numbers and compare with trace(rho T T^dagger); negation when a polarisation fraction is supplied with more than one initial state.
- **C15 Phase-space events conserve four-momentum and are on shell** — Model the algorithm over the reals with the random numbers as arguments; induct over the boost chain with invariant: the first i particles have total momentum (0, p, 0, E).
- **C16 Phase-space weights never exceed the declared maximum** — Monotonicity of the two-body momentum in the parent mass and in the daughter masses, then a product bound.
- **C17 Discrete sampling is exact** — Model the table construction over the rationals; prove the measure of the set of variates leading to outcome i is w_i / sum w.
- **C18 Adaptive binning partitions events into populated bins** — Model the recursive construction; induct over the recursion to obtain the partition, population and routing invariants.
- **C19 Adaptive binning survives serialisation** — Model the stream as records keyed by node identity and prove the round trip by induction over the tree.
- **C20 Decay descriptors round-trip** — Model getItems and the constructor's splitting on character lists; prove parse (print t) = t by induction over trees.
- **C21 Final-state labels are assigned injectively** — Model the greedy assignment loop; prove injectivity, name agreement, completeness, and that success is equivalent to multiset inclusion.
- **C22 Exchange parity of identical fermions** — Model the cycle walk; prove the swap count equals n minus the number of cycles; prove the sign law for involutive permutations (partial) and its failure for three-cycles (negation).
- **C23 Option files: last assignment wins and order is kept** — Refinement of the ordered map to a last-write-wins map by induction over the input lines.
- **C24 Parameter sets stay consistent under any sequence of edits** — State machine with the vector and the key map; invariant by induction; negations for unregister and duplicate add.
- **C25 Event format gives every variable its own slot** — Model the map; prove injectivity with energies stored, and negation for the combination that collides.
- **C26 Charge conjugation is an involution** — Structural induction.
- **C27 Tensor indexing is a bijection** — Mixed-radix arithmetic by induction over the dimension list.
- **C28 Index contraction follows the Einstein convention** — Model the loops over coordinate vectors; compare with a specification that quantifies over assignments of values to index names.
- **C29 Splitting and joining strings** — Model on character lists; induct over the string.
- **C30 String replacement replaces every occurrence** — Model the loop with explicit positions; prove agreement with the leftmost specification when replacement and pattern have equal length (partial); negations for skipped occurrences and for non-termination.
- **C31 Wildcard matching** — Model; prove the law for patterns with at most the shapes where it holds; negations for the general claim.
- **C32 Edit distance is the Levenshtein distance** — Model the two-row dynamic programme and prove it equals the minimum over edit scripts, an independently defined inductive relation.
- **C33 Enumeration of choices is complete and duplicate free** — Model the permutation mask and the mixed-radix counter; prove membership and no-duplicate theorems.
- **C34 Compensated summation has no first-order error growth** — Model every operation as exact operation followed by a rounding parameter; prove the error bound for every rounding to nearest with an unbounded exponent range (including exactness of the two-sum correction), exactness in exact arithmetic, and the failure of the free operator+.
- **C35 Spin-orbit couplings obey the triangle rules** — Model with doubled spins; prove both inclusions.
- **C36 Clebsch-Gordan selection rules** — Model the Racah sum over rationals for the squared prefactor and the alternating sum; prove emptiness of the sum outside the allowed region.
- **C37 Amplitude expansion forms every cascade** — Model the textual expansion; prove the cascade law when intermediate names are distinct, negations for repeated intermediate states and cyclic rules.
- **C38 Error propagation leaves parameters untouched and is exact for linear functions** — Model the parameter store as a function updated by set calls.
- **C39 Fit results survive being written and read** — Model the token records; negation for the limits; partial for name, flag, value and errors.
- **C40 Event generation returns the requested number of accepted events** — Model the block loop over streams; invariant over blocks.
- **C41 Splines interpolate their knots smoothly** — Model piecewise cubic with curvature solving the tridiagonal system; prove continuity; negation at the lower edge.
- **C42 Boosts and rotations preserve invariant masses** — Polynomial identities over the reals.
- **C43 Decay-chain sampling conserves momentum** — Model the tree walk; invariant over nodes.
- **C44 Enumerations round-trip through text** — Model parse and to_string over name lists.
- **C45 Algebraic simplification preserves value** — Model bracket expansion, term collection and grouping over the expression trees of C01 with arbitrary texts and any sorting; prove that every step keeps the sum of the values for expressions made of the four operations (no quotient inside a divisor) when equal texts mean equal values; negations for powers, nested quotients and constants that agree in the printed digits.
- **C46 Parallel helpers agree with their sequential counterparts** — Model chunking and merging; prove against Mathlib's Sorted/Perm and sum.
- **C47 Covariance matrix is mapped back onto the full parameter list** — Model the mapping vector; prove the reindexing law.
- **C48 Regression-tree binning routes consistently** — Nodes stored children-first; well-founded descent.
- **C49 Container iteration visits every event once** — Model the iterator; prove the visited sequence.
- **C50 Pade approximants interpolate** — Linear algebra over a field.
- **C51 Polarisation density matrices are the expansion in spin operators** — Compare the entries with the operator expansion built from the Pauli and spin one matrices; negation for transverse polarisation of spin one.
- **C52 Component projections of the polarised sum add up to the total** — Same index decoding as the norm; negation when a polarisation fraction is given.
- **C53 Decay-chain generator weights and densities** — Monotonicity of the phase-space factor over the sampled ranges; distribution function of each node; the mixture's maximum.
- **C54 Imposed tensor symmetry identifies exactly the exchanged coordinates** — Invariant of the in-place loop: the map reads the ordered coordinates whether or not they were visited already.
- **C55 Adding tensors with named indices adds the addressed elements** — Fold over the unique elements; negation when only the left operand is symmetrised.
- **C56 The Levi-Civita tensor is the sign of the permutation** — The product of differences is a Vandermonde determinant; permuting its rows gives the sign.
- **C57 Parameters declared in option files are loaded as declared** — Fold of additions over the settings; negation for settings made twice, through the option parser model.
- **C58 Weighted combinations are unbiased and as precise as possible** — Matrix algebra over sums, with the inverse as an argument.
- **C59 Adding error propagators adds covariances by name** — Loop invariants for the placement of parameters and the additive updates.
- **C60 Gaussian perturbations have the given covariance and can be undone** — Model the in-place transposition loop and the assignments.
- **C61 Options written from a fit can be loaded again** — Compose the model of writeOptions with the models of the options parser and of loading parameters.
- **C62 Clebsch-Gordan coefficients have the standard symmetries and normalisation** — Model the sum; reflect the order of summation for the symmetries.
- **C63 Helicity cosines and momentum transfers are what they are called, in every frame** — Lorentz invariance of the products; Cauchy-Schwarz for the scalar product in the rest frame.
- **C64 Reordering particles permutes the kinematics of an event and nothing else** — Model the assignments position by position; show that momenta determine an event.
- **C65 Frame transformations are Lorentz transformations in every representation** — Model the matrices; prove agreement with Dirac's operator for one transformation by Pauli algebra and by induction for sequences; negation for empty sequences and spinors.
- **C66 Events are accepted with probabilities proportional to their densities** — Lebesgue measure of the accepted random numbers; invariant of the loop over blocks for the threshold and the warnings.
- **C67 The database of particles gives each name its particle, and each particle its antiparticle** — Database as heap of objects with two maps; invariant of all reachable databases; lookups as last element with a key; negations for particles with format B and charge zero and for shared identifiers.
- **C68 Flavour conservation is decided by quark numbers** — Count characters by induction over the text; induction over the daughters.
- **C69 Ranges and counts of an event type contain every physical event** — Reversed triangle inequality of Minkowski space by induction over the selection; negation for repeated particles.
- **C70 Symmetrisation permutes identical particles uniformly** — Permutation of positions as invariant of the loop; unique decomposition of a permutation by induction; disjoint groups.
- **C71 Ordering by identifiers puts every particle in its place** — Invariant of the assignment of addresses by counting free particles of each identifier; negation for a conjugate event whose identifiers all occur in the event type.
- **C72 Writing events to a tree and reading them again gives the same events** — Invariant over the entries for the shared event; negations for the decay time as a further branch and for its units.
- **C73 Only selected entries of a tree are read** — Model the selection; negations for filters nothing passes, for a filter together with a list, and for the access behind the list.
- **C74 The order of the decay products in a descriptor does not matter** — Model the sorting with the conjugation of antiparticles; prove that a strictly ordered result is the only one; negations for particles the comparison does not tell apart and for cycles of the comparison.
- **C75 Ill-formed formulas are reported** — Characterise the outcome for all sequences without brackets by the numbers of operands and operators; negations for misplaced operators, signs and empty brackets.
- **C76 Functions apply to what follows them** — Prove the first part for every operand; the order of chains is characterised for every length, which is the negation of the second part.
- **C77 Barrier factors are the Blatt-Weisskopf functions** — Define the penetration by the recurrence of the Hankel polynomials, independent of the typed formulas; negations for the two cases with wrong terms.
- **C78 Running widths** — Real numbers; the momentum is specified by two-body kinematics; negations for L = 4 and below the pseudo-threshold.
- **C79 Breit-Wigner amplitudes have the phase of a resonance** — Real and imaginary part of the model's amplitude as functions of the invariant mass.
- **C80 The LASS amplitude is elastic** — Algebra of the two terms as fractions of linear factors; the phases with the arc tangent.
- **C81 Inverting a tensor gives the inverse matrix** — Model the loops as ordered writes into an array; invariants give the triangular factors; leading minors give the pivots. Negations for a regular matrix with a zero pivot and for tensors with imposed symmetry.
- **C82 K-matrix amplitudes are unitary** — Matrix algebra over the complex numbers on top of the inversion; regularity from the positive phase space. Negation for the imaginary part that is added to the masses by default.
- **C83 Production amplitudes of K-matrices** — Closed form of the accumulated sums by induction over the poles; negation for two or more poles, where the background is counted more than once.
- **C84 Projection operators of spin are projections onto physical states** — Tensors as functions of indices over any field; the Clifford algebra; projections characterised by range and fixed points.
- **C85 Orbital tensors** — Algebra over any field of characteristic zero.
- **C86 Vertices give physical states** — Every vertex as a function; reduction to the projections, cross products and Dirac algebra; negations for two antifermion vertices that use the projection of the fermion and one vector vertex without projection.
- **C87 Vertices do not depend on the frame** — General Lorentz matrices, characterised by the metric they keep; spinor matrices by their action on the Dirac matrices.
- **C88 Vertices are linear in the states of the decay products** — IsLinearMap in each argument; negations for four vertices that drop the amplitude of the scalar and two that read the scalar in place of the spinor.
- **C89 The rule for boxes integrates polynomials exactly** — The rule on products of powers (sums over the points by the parity of the exponents), then on polynomials by linearity; the exact constants as roots and rational functions of the dimension; the literals by exact rational arithmetic for every dimension with a table entry.
- **C90 Adaptive integration partitions the box, ends and stays in its budget** — The loop with its heap in an array refines an inductively defined adaptive partition; heap invariants with a hole; termination by the count of evaluations; additivity of the Lebesgue integral over the two halves of a box.
- **C91 Integrals over one dimension return the integral** — The library's integral as an argument; negation for functions of a number, whose integral is computed and dropped.
- **C92 Incoherent sums are normalised** — On top of the state machine of the coherent sum; negation for the normalisation, which is that of the coherent sum, because prepare is inherited and norm is not virtual.
- **C93 The likelihood is that of the attached data at the current parameters** — A history of the sum projects to a history of each component (C10); sums over lanes and blocks.
- **C94 A fit to data distributed like the model finds the model** — Gibbs' inequality from C93 and the normalisation of the densities (C09); negation for incoherent sums, which are not normalised (C92).
- **C95 Constraints pull the fit towards their targets** — The minimised function from its terms; negations for the partial width constraint and the LASSO, whose sign is that of a reward; the lower triangle of the matrix of integrals is never written (invariant of all histories), so that interference counts once instead of twice.
- **C96 Decay products are listed by spin, those that decay first** — Sorted lists from the insertion sort that stands for the library's; charge conjugation keeps spins and stability; induction on the chain.
- **C97 Asymmetric errors do not disturb the fitted values** — Library as an arbitrary sequence of evaluations; prove what is left in the parameters. False for the errors determined within the fit.
- **C98 A scan samples the function on a regular grid and restores the parameter** — Loop with a bound on its turns; closed form of the graph for positive steps. False for other steps and where there are constraints.
- **C99 The fit result lists every free parameter with its value, error and covariance** — Invariant of the loop over the mapping; packed triangle by induction.
- **C100 Printed results do not reveal blind parameters** — Non-interference between two sets; counterexample where the offset itself is printed.
- **C101 Fixed parameters are not changed by a fit** — Frame property of the loops over the mapping; false for parameters fixed after the minimiser is made.
- **C102 The function minimised includes every constraint** — Closed form of the objective; false for functions with a gradient and for the offset.
- **C103 The rotation functions are the rotations of every spin** — Closed form of the double sum; generating function of the homogeneous polynomials of two spinors; coefficients of polynomials compared.
- **C104 Rotations to the direction of a momentum are unitary and defined for every direction** — Phases times the real matrix; false along the axis, where the phase is zero divided by zero.
- **C105 Clebsch-Gordan coefficients are a change of basis** — The coefficients are those of polynomials in two pairs of variables; Cayley's derivative is adjoint to multiplication with the determinant; induction with its commutator; Vandermonde's identity; square matrices.
- **C106 Helicity couplings of different orbital angular momenta are orthonormal** — From C105 by summing over the projections of the decay products first and crossing the orbital coefficient.
- **C107 Events of decays in several steps are consistent** — Induction over the chain: matching of names with the first unused place, boost of the rest frame to the momentum of the particle, linearity of boosts.
- **C108 Coordinates of the square Dalitz plot are one-to-one with kinematics** — Energies and momenta in the rest frame of the pair; Gram determinant and Cauchy-Schwarz in that frame for the converse.
- **C109 The Dalitz integral is the integral over phase space** — Substitution in the iterated integral; fails for a mass that is not the one set before.
- **C110 Running widths are those of the masses asked for** — Induction over calls and knots; the constructor with 999 knots, the graph with a range and the running mass are counterexamples.
- **C111 The Flatte amplitude is finite and meets the optical theorem** — Values of the expressions over the complex numbers; a generic lemma about propagators. Charged a0(980) is a counterexample.
- **C112 Amplitudes given by phase shifts or K-matrices are unitary** — Complex algebra: T = K w with w = e1 + i rho T.
- **C113 The Gounaris-Sakurai shape is the published one** — The specification has the derivative of the loop function; it is calculated, and both forms are compared by algebra.
- **C114 The phase of a resonance rises** — The argument of the amplitude as an arc cosine that is monotonic. The phase of NonRelBW falls: a counterexample.
- **C115 GLASS is the documented generalisation of LASS** — Complex algebra with exp of arctan. The phase of the resonance and the units are counterexamples.
- **C116 Phase spaces are those of two bodies** — The function of Kaellen factorised; the logarithm of Chew and Mandelstam on its cut. Unequal masses, the pseudo-threshold, the missing 16 pi and four pions are counterexamples.
- **C117 Coupled channels meet the optical theorem and have the width given** — Induction over the channels, then the lemma about propagators. With norm a channel that is closed at the mass is a counterexample.
- **C118 The sigma amplitude of Bugg is finite, meets the optical theorem and has the zero of Adler** — The lemma about propagators; below threshold the widths are imaginary.
- **C119 Shapes of a decay to three bodies are the documented densities** — The largest kinetic energy follows from the inequality for the product of two momenta. The missing root is a counterexample.
- **C120 The density stored with an event of a mixture of decay chains is that of the mixture, through any re-weighting** — The densities of chains are positive everywhere; an invariant on the probabilities by induction over the history, with the exactness of the discrete distribution (C17).
- **C121 A generator of decay chains can be made without a random generator, for any number of products, and copied** — Cases of the constructors. The null generator, more than ten products and copies are counterexamples.
- **C122 The states of a massive particle of spin one are a basis of its states, for every momentum** — The states are circular combinations of the axes boosted to the momentum; orthogonality and completeness of these by algebra.
- **C123 In the basis of Weyl, the states of a particle of spin one have definite helicity and are a basis** — The states are circular combinations of the axes turned to the momentum. Momenta opposite to z and slow ones are counterexamples.
- **C124 The states of a massive fermion are a basis of the solutions of Dirac's equation, for every momentum** — Any basis of two-component spinors gives a basis of solutions; by algebra.
- **C125 In the basis of Weyl, the states of a fermion have definite helicity and solve Dirac's equation** — The two-component spinors are a basis of eigenstates. Momenta opposite to z are a counterexample.
- **C126 The frame in which the amplitude of a decay product is evaluated is its rest frame** — Every sequence is a product of proper rotations and boosts; the rotation to the axis is explicit and the boost is by the energy over the mass. By induction on the chain.
- **C127 Keeping the frames of particles in a map does not change the amplitude** — Invariant: what is in the map for a particle of the decay is its frame. The index strings differ if the indices have one digit; with more digits there is a counterexample.
- **C128 The states of external particles are expressed completely in the states of the decay** — The states are bases (C122, C124), and proper transformations keep the inner products in which they are.
- **C129 The intensity of a decay does not depend on the orientation of the event** — Frames of the event and of the rotated event differ by a rotation about the axis, which changes the sums over polarisations by a phase; by induction on the tree. The rotation functions of the mother are unitary.
- **C130 Two-body decays in the helicity formalism are normalised** — Orthonormality of the couplings (C106), unitarity of rotation functions (C104) and of the alignment of spins (C128).
- **C131 Compiled code for vectors of events gives the numbers of the code for single events** — Lane by lane semantics of the vector types, and induction on the expression against the semantics of C++ on ordinary numbers.
- **C132 Arrays and splines in vectorised code** — Model of gather and of the conversion to integers of each instruction set; equality with the spline model of C41 in each lane.
- **C133 Normalisation integrals accumulated in vectors** — Induction on the blocks with the accumulated numbers of all lanes as invariant.
- **C134 The logarithm of AVX512 vectors** — Decoding of the bits by the operations of the code, and a bound of the polynomial against the series of the logarithm.
- **C135 Histograms of projections** — Model of the loops over events with histograms as ROOT documents them; induction on the events, with sums over bins given by inequalities. Refuted for the bin number of events just below the range.
- **C136 Stacked projections** — Induction on events and components; sorting is any permutation in ascending order of integrals.
- **C137 Comparison of data and simulation in bins** — Induction on both loops. A bin without weights divides zero by zero (refuted).
- **C138 Sign of a decay chain under CP** — Induction on decay chains, against inductive predicates for both products; the conjugate chain of C74 carries the same numbers.
- **C139 CP-conjugate parameters** — Parameters are functions of the state of the fit. Proved for processes without prefix; names that are no process add a parameter without name, prefixes stop the program, couplings given as expressions lose the imaginary part (refuted).
- **C140 Comparison of decay chains** — Induction on both chains together; bits are related to places in the chains.
- **C141 Exported code** — Loops against sums, rounding of numbers as functions on the reals. Numbers are written with six digits (bounds proved, equality for such numbers); small parameters become zero and cancelling couplings give zero; a polarisation given by the caller reads beyond a vector for spin one and ignores the final state fraction (refuted).
- **C142 Symbols of generated functions** — By characters. Identifiers are kept; two different decay chains can have the same symbol (refuted).
- **C143 Reuse of compiled libraries** — Invariant over histories: a library comes from an expression with the hash of the path. Stale libraries, rebuilds in the same program, failures of the compiler, interrupted compilations and equal hashes are refuted.
- **C144 Amplitudes of an event type** — Induction over rules and expansions. An expansion whose descriptor has been seen is lost with its coupling (refuted: the sum of all).
- **C145 Tables of fit fractions** — Sets of indices are characterised by names; the sum by a permutation of the amplitudes. Rules with a prefix and names that are parts of others are counterexamples.
- **C146 Derivatives of functions** — The value of the expression built is compared with the derivative of the real function. The inverse sine and cosine have the wrong sign, and some functions return zero (refuted).
- **C147 Lineshapes given by splines** — From C41 and the linearity of splines in their knots. Outside the range the amplitude is that of the last knot also below the first, and Polar with another modifier is not polar (refuted).
- **C148 Errors and correlations from a fit result** — The reduced matrix is characterised by indices; quadratic forms are compared. Parameters with errors below 1e-6 are left out and copies lose the names (refuted).
- **C149 The amplitude of one decay chain** — Mutual induction over the chain; the loop over orderings is a sum over the permutations that keep the names (C22), and an exchange permutes its terms. With three identical fermions the signs are wrong (C22), and a sum that simplifies to the constant zero gives a density of 1e-10 (refuted).
- **C150 Angles between decay planes** — Scalar and triple products after the boost to the rest frame are shown to be Lorentz invariants; the sine and cosine used are functions of these and their squares add up to one.
- **C151 Lists of events** — Loops are related to list functions by induction; the numbering is an invariant of histories. Filtering and erasing leave the old indices, resizing loses the events, the integral is summed as an integer and a list cannot be added to itself (refuted).
- **C152 Matrix element summed over polarisations** — The double loop over currents is shown to be the square of their sum; positivity by induction on the rank, with Lagrange's identity for the index that is split off; invariance by the same induction. Half-integer spins give not a number and tensors that are not transverse a negative value (refuted).
- **C153 Variables of the environment in paths** — A path is a list of text and variables; induction on it, with what is expanded in front. The character after a brace is lost, a brace that is not closed gives results that depend on its position, and a variable that refers to itself is expanded for ever (refuted).
- **C154 Lists of files** — The loops are related to filters on the entries of directories. Files that match the wildcard are listed whatever the pattern, what follows the wildcard is ignored, a path with no slash before the wildcard is looked up for ever, and a directory that cannot be opened ends the list (refuted).
- **C155 The spin tensor of a decay chain is a state of its spin** — The tree of a decay chain with the recursion of spinTensor, the choice of the vertex by its name, and the vertices of C86; induction over the tree.
- **C156 The amplitude of a decay chain does not depend on the frame** — Induction over the tree, with the covariance and linearity of each vertex (C87, C88).
- **C157 A decay chain of a fermion gives a solution of the Dirac equation** — Induction over the tree, with the Dirac equation for each vertex (C86) and the spins and signs in the name of a vertex.
- **C158 The amplitude of a decay chain of a fermion does not depend on the frame** — Induction over the tree, with the covariance of each vertex with fermions (C87) and of the decay chains of the bosons (C156).
- **C159 The simple K-matrix is the solution of the equations of rescattering** — The inverse is right since the K-matrix is real and symmetric (C81, C82); with one pole the solution of the equations is known.
- **C160 The generic K-matrix is symmetric and unitary** — The elements are real and symmetric, so that C82 applies; the circle follows from the imaginary part of the first element.
- **C161 Numbers and flags in the text of options are read exactly** — strtol and strtoul are functions of lists of characters; numerals are stated with the digits of Mathlib. Empty words, numbers out of range and a character zero in a word are not reported (counterexamples). Decimal fractions are not modelled.
- **C162 The adaptive binning of two samples finds the best cut** — An invariant of the loop relates the running sums to the events on either side of the cut. Needs distinct coordinates in the target sample (counterexample).
- **C163 The symbols of a compiled expression stand for what their names say** — An invariant over the visited symbols, on top of the disjoint layout of C05. Symbols with the same name and another meaning are exceptions (counterexample), as are constants of the compiled code, which have six decimals.
- **C164 An options file is updated with the result of a fit** — The function applied to each line over the model of split and of the lines of a file; files are a function from names to texts; the specification relates lines through their words. Induction over the lines.
- **C165 Parameter values can be copied by name and reset after a fit** — On the model of parameter sets and fits of C24 and C47: an invariant says that a fit changes neither names, flags, limits nor declared values. A name missing in the other set is read beyond the end of the map, and the constructor without a flag ignores its arguments (counterexamples).
- **C166 The words of a formula stand for numbers, constants and parameters** — The meaning of a word is a small type with a value; the parts of the value are computed from cosine and sine. Parameters with the name of a constant or of a number are not reached, and later choices of coordinates have no effect (counterexample).
- **C167 Decision trees survive being written and read** — Text and stream state with the behaviour of getline after the end of the file; the loop is run for any number of turns, so that not ending is an outcome. Induction over the nodes. A last line without an end is read for ever, and rounding moves events between bins (counterexample).
- **C168 Clones of decay chains are independent of the chain** — Memory as a list of particles, chains as addresses; a relation says which tree the addresses stand for and which addresses are used. Induction over the steps with a frame argument. Copies share daughters, and a particle used for an expansion is shared with the result (counterexample).
- **C169 The sampler for the propagation of large errors keeps its distribution** — The step as a function of its random numbers; averages are Lebesgue integrals over independent draws. One turn is balanced by exchanging the start and the end of a move, which is a change of variables; induction over the turns.
- **C170 Polarisations are assigned by the place of a particle in the event** — Stable particles as a list in the order of the descriptor with their places; sorting is any function that sorts. Induction over the sorted list. States below the smallest projection and even states of fermions are accepted (counterexample).
- **C171 Numbered options are read in order until the first default** — The loop with an allowance of turns over the parser of C23. Induction over the values before the first default; the end from the names with different numbers being different. A default that is not the empty value is returned too, and a value equal to the default hides the ones after it (counterexample).
- **C172 The default projections cover every group of particles once** — Uses the enumeration of C33 and the range of masses of C69; induction over the sizes of the groups. With more than twelve particles two projections have the same name (counterexample).
- **C173 An attribute of a particle is the value its first modifier gives** — The search over the modifiers with the splitting of C29; induction over the list. With two equals signs the value is lost or belongs to another key (counterexample).

## What is modelled

Per area, the source files whose functions have a definition in the model. The comment at each definition gives the lines and the simplifications.

- `Verif/Amplitude`: `AmpGen/Particle.h`, `src/Particle.cpp`
- `Verif/Angles`: `src/Kinematics.cpp`
- `Verif/Assembly`: `AmpGen/AmplitudeRules.h`, `AmpGen/FitFraction.h`, `AmpGen/MatrixElement.h`, `src/AmplitudeRules.cpp`, `src/CoherentSum.cpp`, `src/MatrixElement.cpp`, `src/PolarisedSum.cpp`
- `Verif/Binning`: `AmpGen/BinDT.h`, `AmpGen/FastDT.h`, `src/BinDT.cpp`, `src/FastDT.cpp`
- `Verif/CP`: `AmpGen/Particle.h`, `src/AddCPConjugate.cpp`, `src/AmplitudeRules.cpp`, `src/ExpressionParser.cpp`, `src/Lineshapes/GenericKmatrix.cpp`, `src/MinuitExpression.cpp`, `src/Particle.cpp`
- `Verif/Cascade`: `AmpGen/ParticleProperties.h`, `AmpGen/Tensor.h`, `AmpGen/Vertex.h`, `src/Particle.cpp`, `src/ParticleProperties.cpp`, `src/Vertex.cpp`
- `Verif/Cast`: `src/Utilities.cpp`
- `Verif/Coherent`: `AmpGen/CoherentSum.h`, `AmpGen/CompiledExpression.h`, `AmpGen/FitFraction.h`, `AmpGen/Integrator.h`, `AmpGen/MatrixElement.h`, `AmpGen/MinuitParameter.h`, `AmpGen/Store.h`, `AmpGen/simd/utils.h`, `src/CacheTransfer.cpp`, `src/CoherentSum.cpp`, `src/CompiledExpressionBase.cpp`, `src/Integrator.cpp`
- `Verif/Comb`: `AmpGen/Utilities.h`, `src/Particle.cpp`, `src/Utilities.cpp`
- `Verif/Container`: `AmpGen/DynamicContainer.h`
- `Verif/Cubature`: `AmpGen/NumericalIntegration.h`, `AmpGen/simd/integrate_fp.h`
- `Verif/Dalitz`: `AmpGen/DalitzIntegrator.h`, `src/DalitzIntegrator.cpp`, `src/Kinematics.cpp`, `src/ThreeBodyCalculators.cpp`
- `Verif/DecayChain`: `AmpGen/DecayChainStack.h`, `src/Particle.cpp`, `src/TreePhaseSpace.cpp`
- `Verif/Discrete`: `AmpGen/DiscreteDistribution.h`, `src/DiscreteDistribution.cpp`
- `Verif/Enum`: `AmpGen/enum.h`
- `Verif/Errors`: `AmpGen/ErrorPropagator.h`, `src/ErrorPropagator.cpp`
- `Verif/EventLists`: `AmpGen/Event.h`, `AmpGen/EventList.h`, `AmpGen/Utilities.h`, `src/CoherentSum.cpp`, `src/EventList.cpp`, `src/IncoherentSum.cpp`, `src/PolarisedSum.cpp`
- `Verif/EventType`: `AmpGen/Event.h`, `AmpGen/EventType.h`, `AmpGen/TreeReader.h`, `src/EventList.cpp`, `src/EventType.cpp`, `src/TreeReader.cpp`
- `Verif/Export`: `AmpGen/CompiledExpression.h`, `AmpGen/DynamicFCN.h`, `src/CoherentSum.cpp`, `src/CompiledExpressionBase.cpp`, `src/CompilerWrapper.cpp`, `src/Expression.cpp`, `src/PolarisedSum.cpp`, `src/Utilities.cpp`
- `Verif/Expr`: `AmpGen/Expression.h`, `src/BinaryExpression.cpp`, `src/Expression.cpp`, `src/UnaryExpression.cpp`
- `Verif/External`: `AmpGen/ASTResolver.h`, `AmpGen/CacheTransfer.h`, `AmpGen/CompiledExpression.h`, `src/ASTResolver.cpp`, `src/CacheTransfer.cpp`, `src/CompiledExpressionBase.cpp`, `src/Spline.cpp`
- `Verif/Fit`: `src/Minimiser.cpp`, `src/MinuitParameter.cpp`
- `Verif/FitErrors`: `AmpGen/FitResult.h`, `src/FitResult.cpp`
- `Verif/FitFile`: `AmpGen/FitResult.h`, `AmpGen/MinuitParameter.h`, `src/FitResult.cpp`, `src/MinuitParameter.cpp`, `src/Utilities.cpp`
- `Verif/Generator`: `AmpGen/Event.h`, `AmpGen/Generator.h`, `src/EventList.cpp`
- `Verif/Helicity`: `src/Particle.cpp`, `src/ParticleProperties.cpp`, `src/Transform.cpp`, `src/Wigner.cpp`
- `Verif/KMatrix`: `AmpGen/kMatrix.h`, `src/Lineshapes/GenericKmatrix.cpp`, `src/Lineshapes/kMatrix.cpp`, `src/Tensor.cpp`
- `Verif/Kahan`: `AmpGen/KahanSum.h`
- `Verif/Kinematics`: `AmpGen/Event.h`, `src/Event.cpp`, `src/Kinematics.cpp`
- `Verif/Likelihood`: `AmpGen/FitFraction.h`, `AmpGen/IncoherentSum.h`, `AmpGen/Integrator.h`, `AmpGen/SumPDF.h`, `src/CoherentSum.cpp`, `src/ExtendLikelihoodBase.cpp`, `src/IncoherentSum.cpp`, `src/LASSO.cpp`, `src/Minimiser.cpp`, `src/PartialWidthConstraint.cpp`
- `Verif/Lineshapes`: `src/Expression.cpp`, `src/Lineshapes.cpp`, `src/Lineshapes/BW.cpp`, `src/Lineshapes/CoupledChannel.cpp`, `src/Lineshapes/LASS.cpp`
- `Verif/Options`: `AmpGen/NamedParameter.h`, `AmpGen/OptionsParser.h`, `AmpGen/Utilities.h`, `src/OptionsParser.cpp`
- `Verif/PDG`: `AmpGen/ParticleProperties.h`, `AmpGen/ParticlePropertiesList.h`, `AmpGen/QuarkContent.h`, `AmpGen/Units.h`, `AmpGen/Utilities.h`, `src/Particle.cpp`, `src/ParticleProperties.cpp`, `src/ParticlePropertiesList.cpp`, `src/QuarkContent.cpp`
- `Verif/Pade`: `AmpGen/Pade.h`, `src/Pade.cpp`
- `Verif/Params`: `AmpGen/Minimiser.h`, `AmpGen/MinuitParameter.h`, `AmpGen/MinuitParameterSet.h`, `src/Minimiser.cpp`, `src/MinuitExpression.cpp`, `src/MinuitParameter.cpp`, `src/MinuitParameterSet.cpp`
- `Verif/Parser`: `src/ExpressionParser.cpp`
- `Verif/Particle`: `AmpGen/Particle.h`, `src/Lineshapes.cpp`, `src/Particle.cpp`, `src/Utilities.cpp`
- `Verif/Paths`: `src/Utilities.cpp`
- `Verif/PhaseSpace`: `AmpGen/PhaseSpace.h`, `src/PhaseSpace.cpp`
- `Verif/Plots`: `AmpGen/Projection.h`, `src/Chi2Estimator.cpp`, `src/EventList.cpp`, `src/Projection.cpp`
- `Verif/PolStates`: `AmpGen/Particle.h`, `src/Particle.cpp`, `src/ParticleProperties.cpp`
- `Verif/Polarisation`: `AmpGen/Particle.h`, `src/Particle.cpp`, `src/Vertex.cpp`
- `Verif/Polarised`: `AmpGen/PolarisedSum.h`, `AmpGen/Store.h`, `src/DiracMatrices.cpp`, `src/PolarisedSum.cpp`, `src/Tensor.cpp`
- `Verif/Pool`: `AmpGen/ThreadPool.h`, `src/ThreadPool.cpp`
- `Verif/Recursive`: `AmpGen/RecursivePhaseSpace.h`, `src/Kinematics.cpp`, `src/RecursivePhaseSpace.cpp`
- `Verif/Resolve`: `AmpGen/ASTResolver.h`, `AmpGen/CompiledExpression.h`, `src/ASTResolver.cpp`, `src/BinaryExpression.cpp`, `src/CacheTransfer.cpp`, `src/CompiledExpressionBase.cpp`, `src/Expression.cpp`, `src/UnaryExpression.cpp`
- `Verif/Rules`: `AmpGen/AmplitudeRules.h`, `src/AmplitudeRules.cpp`
- `Verif/Sampler`: `src/ErrorPropagator.cpp`
- `Verif/Shapes`: `src/Expression.cpp`, `src/Lineshapes/Bugg.cpp`, `src/Lineshapes/CoupledChannel.cpp`, `src/Lineshapes/EtaDalitz.cpp`, `src/Lineshapes/FOCUS.cpp`, `src/Lineshapes/Flatte.cpp`, `src/Lineshapes/GLASS.cpp`, `src/Lineshapes/GounarisSakurai.cpp`, `src/Lineshapes/Isotensor.cpp`, `src/Lineshapes/NonRelBW.cpp`, `src/Lineshapes/PALANO.cpp`, `src/Lineshapes/Photon.cpp`, `src/Lineshapes/PolyNR.cpp`, `src/Lineshapes/SplineShapes.cpp`, `src/Lineshapes/kMatrix.cpp`, `src/Particle.cpp`, `src/Tensor.cpp`
- `Verif/Sharing`: `AmpGen/Particle.h`, `src/Particle.cpp`
- `Verif/Simd`: `AmpGen/Complex.h`, `AmpGen/Expression.h`, `AmpGen/simd/arm128d_types.h`, `AmpGen/simd/avx2d_types.h`, `AmpGen/simd/avx2f_types.h`, `AmpGen/simd/utils.h`, `src/Array.cpp`, `src/BinaryExpression.cpp`, `src/CompiledExpressionBase.cpp`, `src/Expression.cpp`, `src/Integrator.cpp`, `src/Spline.cpp`, `src/UnaryExpression.cpp`
- `Verif/Simplify`: `AmpGen/Simplify.h`, `src/Expression.cpp`, `src/Simplify.cpp`
- `Verif/Spin`: `AmpGen/Wigner.h`, `src/Particle.cpp`, `src/Wigner.cpp`
- `Verif/SpinAverage`: `src/Tensor.cpp`, `src/ThreeBodyCalculators.cpp`
- `Verif/Spline`: `src/Array.cpp`, `src/Spline.cpp`
- `Verif/SplineShapes`: `src/Lineshapes/SplineShapes.cpp`, `src/Spline.cpp`
- `Verif/Store`: `AmpGen/Store.h`, `AmpGen/simd/utils.h`, `src/CompiledExpressionBase.cpp`
- `Verif/Strings`: `AmpGen/Utilities.h`, `src/Utilities.cpp`
- `Verif/Symbols`: `AmpGen/ASTResolver.h`, `src/ASTResolver.cpp`, `src/CacheTransfer.cpp`, `src/CompiledExpressionBase.cpp`, `src/Expression.cpp`, `src/Spline.cpp`
- `Verif/Tensor`: `AmpGen/Tensor.h`, `src/Tensor.cpp`
- `Verif/Transform`: `AmpGen/Transform.h`, `src/DiracMatrices.cpp`, `src/Transform.cpp`
- `Verif/Vertex`: `src/DiracMatrices.cpp`, `src/FermionVertices.cpp`, `src/Tensor.cpp`, `src/Vertex.cpp`
- `Verif/Wigner`: `src/Expression.cpp`, `src/Wigner.cpp`

Not modelled:

- the compiler and the dynamic linker beyond which library a program gets, and the generated C++ beyond its text and value (the bodies of
  `CompiledExpression` that call code), the vector types of AVX512 except its logarithm, and the vector functions of the mathematics libraries (taken to be exact), OpenMP beyond the schedules of the loops that are modelled;
- ROOT: files, trees (beyond the values read for an entry), histograms, `Minuit2` (its calls and results are arguments), random generators (the
  numbers are arguments), GSL and `TDecompChol`;
- the file system beyond its contents, environment variables, messages, timing, progress bars, titles and files of plots, `ProfileClock`, `MsgService`;
- the programs in `apps`, but for the library calls they make;
- rounding, overflow and special values of floating point numbers except where a model says so (`Kahan`, `Generator`, `Errors`);
- weak memory, and data races other than those between the tasks of a loop.


## Status of each property, and where the code disagrees with it

"partial" means that the property as stated is not proved of the code: in most cases because it is false of the code, which is then proved by a theorem with the suffix `_counterexample` (or a name that says what happens instead); the remark says which.

- **C01 Expression operators preserve value** (partial): Termination and value of every operator for all trees, over an exact field; partial because the code's epsilon tests drop tiny constants (counterexample proved) and rounding is not modelled.
- **C02 Generated source means the same as the expression** (partial): Printed text of every tree has exactly one reading in the C++ grammar, with the value of the tree; partial: literals not reproduced by %g, fmod, lgamma and Function nodes are excluded (counterexamples proved for the first two).
- **C03 Option-file expressions obey operator precedence** (proved): For every formula with brackets, braces, functions and the nine operators, over arbitrary operations; the end points and the operations themselves are parameters.
- **C04 Common sub-expressions are defined before they are used** (partial): Declared once, before use, and the emitted program has the value of the expression, for all DAGs whose equal keys carry equal expressions; partial because keys are 64 bit hashes (collision counterexample proved).
- **C05 External parameters never share storage** (partial): Disjoint, gap free, stable addresses for all registration histories, and transfers leave every cell holding its current value; the last theorem shows that re-registering a name with a larger size does overlap the next entry.
- **C06 Function cache layout is a bijection** (partial): Layout bijection, registration and full update histories (any block order) for both layouts; partial because sizes at or above 2^32 wrap and because growing an event-by-event cache moves stored values (counterexamples proved).
- **C07 SIMD event lists hold the same events as scalar event lists** (partial): Round trip and in-place transformation for all lengths and widths; zero weight padding holds when reading a tree, and is refuted for the constructor from an event list.
- **C08 Thread pool runs every task exactly once** (proved): Every interleaving including spurious wake-ups, for the documented use (queue tasks, then one wait or destruction) with at least one worker; the further theorems show what goes wrong with no worker, after a wait, or with two waits.
- **C09 Coherent sum is normalised on its integration sample** (partial): For every history, sample, amplitudes and couplings in exact arithmetic, on blocks and on event lists whose padding lanes carry no weight; partial because the vectorised event list pads with a weighted copy of the last event, for which the claim is false (proved).
- **C10 Incremental amplitude updates equal a full recalculation** (partial): For every history of tracked calls and distinctly named amplitudes; the counterexamples show that repeated names and setExternals break it.
- **C100 Printed results do not reveal blind parameters** (partial): Proved where offsets exist, are not zero and are hidden; an offset with the flag Fix is printed in the same table.
- **C101 Fixed parameters are not changed by a fit** (partial): Proved for parameters fixed when the minimiser is made. A parameter fixed later is changed by the fit. The constructor without a flag reads its own uninitialised members.
- **C102 The function minimised includes every constraint** (partial): Proved for functions without a gradient, up to a constant. Functions with a gradient are minimised without the constraints; the offset of Minimiser::Normalise is set after the function has been copied.
- **C103 The rotation functions are the rotations of every spin** (proved): Real numbers; angles between zero and pi.
- **C104 Rotations to the direction of a momentum are unitary and defined for every direction** (partial): Proved for momenta that are not along the axis. Along the axis, for different projections, the phase is zero divided by zero.
- **C105 Clebsch-Gordan coefficients are a change of basis** (proved): Real numbers.
- **C106 Helicity couplings of different orbital angular momenta are orthonormal** (proved): Real numbers.
- **C107 Events of decays in several steps are consistent** (proved): Real numbers; masses are functions of names. A decaying particle exactly at rest has no outcome in the model (the boost is zero by zero).
- **C108 Coordinates of the square Dalitz plot are one-to-one with kinematics** (proved): Real numbers; the first two particles are not both massless; away from the ends of the range of the pair mass, where the angle is not defined.
- **C109 The Dalitz integral is the integral over phase space** (partial): Proved for the exact integral (the cubature rule is C89-C91) at the mass that has been set. For another mass given to integrateDP the events still have the mass that has been set.
- **C11 Queued integrals are all evaluated** (proved): Every number of requests, every write order within a batch; requests sharing a destination must ask for the same integral.
- **C110 Running widths are those of the masses asked for** (partial): Widths and knots proved for every history. With 999 knots the constructor does not set the axis; the graph with a range starts at the axis of the calculator; the running mass is constant.
- **C111 The Flatte amplitude is finite and meets the optical theorem** (partial): Proved for the two names the code knows; any other name, such as a(0)(980)+, has no width: a pole on the real axis.
- **C112 Amplitudes given by phase shifts or K-matrices are unitary** (proved): Real numbers; the parameters of the K-matrices and the values of the splines are arguments.
- **C113 The Gounaris-Sakurai shape is the published one** (proved): Real numbers.
- **C114 The phase of a resonance rises** (partial): The phase of NonRelBW falls where that of the Breit-Wigner rises: its denominator has the opposite sign.
- **C115 GLASS is the documented generalisation of LASS** (partial): Proved without a production phase of the resonance, away from the mass and from zeros of the effective range. The code multiplies by exp(i phiR) instead of adding phiR to the phase, and uses the phases as radians.
- **C116 Phase spaces are those of two bodies** (partial): Proved for the parametrisation of Chew and Mandelstam without angular momentum, for the default above the difference of the masses, and for the K-matrix with equal masses.
- **C117 Coupled channels meet the optical theorem and have the width given** (partial): The optical theorem holds without norm, for channels of two bodies without angular momentum; with norm it fails for a channel closed at the mass of the resonance.
- **C118 The sigma amplitude of Bugg is finite, meets the optical theorem and has the zero of Adler** (proved): Real numbers; positive couplings, and the zero of Adler below threshold.
- **C119 Shapes of a decay to three bodies are the documented densities** (partial): The code returns the polynomial and not its root.
- **C12 Fit fractions and interference terms add up** (proved): In full.
- **C120 The density stored with an event of a mixture of decay chains is that of the mixture, through any re-weighting** (proved): Real numbers; masses that leave energy for motion; one to ten products; events one by one.
- **C121 A generator of decay chains can be made without a random generator, for any number of products, and copied** (partial): Proved for one to ten products and a generator that is given, or one decay. A generator made from a list without a random generator has none; more than ten products are not filled; a copy shares the chains and both release them.
- **C122 The states of a massive particle of spin one are a basis of its states, for every momentum** (proved): Real numbers.
- **C123 In the basis of Weyl, the states of a particle of spin one have definite helicity and are a basis** (partial): Proved for momenta with a transverse component above the threshold of the code, along z and at rest. For a particle that moves opposite to z the states of helicity one and minus one are exchanged, and a particle with a small transverse momentum has states of the wrong length.
- **C124 The states of a massive fermion are a basis of the solutions of Dirac's equation, for every momentum** (proved): Real numbers.
- **C125 In the basis of Weyl, the states of a fermion have definite helicity and solve Dirac's equation** (partial): Proved for momenta at rest or not opposite to z. For a fermion that moves opposite to z the state does not solve Dirac's equation.
- **C126 The frame in which the amplitude of a decay product is evaluated is its rest frame** (proved): Real numbers; a direction that the thresholds of the code do not change.
- **C127 Keeping the frames of particles in a map does not change the amplitude** (partial): Proved for indices with one digit; with two digits two resonances can have the same index string, and the amplitude of one is taken in the frame of the other.
- **C128 The states of external particles are expressed completely in the states of the decay** (proved): Real numbers; the basis of Dirac, with or without alignment of the spins of fermions.
- **C129 The intensity of a decay does not depend on the orientation of the event** (proved): Real numbers; the basis of Dirac, massive particles, products away from the axis as far as the code tells it; indices with one digit.
- **C13 Component projections add up to the total** (proved): For the coherent sum.
- **C130 Two-body decays in the helicity formalism are normalised** (proved): Real numbers; the basis of Dirac.
- **C131 Compiled code for vectors of events gives the numbers of the code for single events** (partial): Proved away from roots of negative real numbers of the complex type, where the vector root has the opposite sign, and on ARM without >=, which is <= there. A function with a complex result stores no imaginary part if its expression is of the real type. Real numbers; AVX512 is not included.
- **C132 Arrays and splines in vectorised code** (partial): Proved for AVX2 with doubles. With floats the offset is rounded to the nearest integer; on ARM only the first element is found for offsets of one and above.
- **C133 Normalisation integrals accumulated in vectors** (partial): Proved for AVX2; on ARM the arguments of fmadd are exchanged.
- **C134 The logarithm of AVX512 vectors** (partial): Exact arithmetic on the numbers given by the bits. The bound is proved for all normal positive doubles; the logarithm of 1 is off by more than 3e-10; zero and negative numbers have finite logarithms.
- **C135 Histograms of projections** (partial): Everything is proved except the bin number of events outside of the range: less than one bin below it the number is that of the first bin.
- **C136 Stacked projections** (proved): Real numbers.
- **C137 Comparison of data and simulation in bins** (partial): A value exists when every bin has data of some weight; a bin without events gives none.
- **C138 Sign of a decay chain under CP** (proved): For decays to two particles at most, with spins that add up; conjugation has the hypotheses of C74.
- **C139 CP-conjugate parameters** (partial): Proved for processes without prefix given by two parameters, if the names of the conjugate are free. A name that is no process adds a parameter without name, a prefix stops the program, and a coupling given as one expression is conjugated to its real part.
- **C14 Polarised sum is normalised on its integration sample** (partial): Every history, sample, dimension, coupling and polarisation in exact arithmetic; a polarisation fraction is covered for a spinless initial state with two final helicities. For an initial state with spin the claim is false with a polarisation fraction (proved).
- **C140 Comparison of decay chains** (partial): The answers are proved bit by bit; an answer can have the bit for different particles without being equal to None.
- **C141 Exported code** (partial): exported_functions holds for all numbers, with the numbers as written; equality with the model is proved for numbers with six digits and refuted for others.
- **C142 Symbols of generated functions** (partial): Symbols are valid identifiers; different decay chains can share one.
- **C143 Reuse of compiled libraries** (partial): linked_code_origin holds for all histories; the right code is proved for undisturbed histories without changed definitions and equal hashes, and refuted for others.
- **C144 Amplitudes of an event type** (partial): Which amplitudes are used is proved for all rules; the sum is that of all expansions only if their descriptors differ, otherwise later ones are lost with their couplings.
- **C145 Tables of fit fractions** (partial): Entries, order and sum of every block are proved. The table of the mother adds up to one if every amplitude uses exactly one of its processes and no rules with a prefix are mixed in. Names are compared as parts of descriptors, so Delta(1232)++ counts as Delta(1232)+. Lines with equal values may be printed in another order.
- **C146 Derivatives of functions** (partial): Real arguments; exact tests on constants. ASin and ACos have the opposite sign; Abs, Norm, Real, Conj and LGamma return zero.
- **C147 Lineshapes given by splines** (partial): Real numbers. The first knot has the value of the last (as C41), continue has no effect, and Polar is recognised only on its own.
- **C148 Errors and correlations from a fit result** (partial): Proved for linear functions of parameters with an error above 1e-6; a parameter with a smaller error is taken to be exact. A copy of a fit result has no covariances by name, and all its correlations are minus one.
- **C149 The amplitude of one decay chain** (partial): The coherent sum is proved for at most two identical fermions of each species (with three the signs are wrong, C22); the other claims hold for any number. An amplitude that simplifies to the constant zero has density 1e-10. Spin factor and lineshapes are arbitrary functions of the momenta.
- **C15 Phase-space events conserve four-momentum and are on shell** (proved): Exact arithmetic; random numbers strictly between 0 and 1; any previous content of the output and of the scratch arrays.
- **C150 Angles between decay planes** (proved): Real numbers; the functions of the ROOT vectors are modelled after their definition. Without two planes there is no angle (0/0).
- **C151 Lists of events** (partial): Real numbers. Indices are positions only until events are removed; the integral truncates the running sum to an int.
- **C152 Matrix element summed over polarisations** (partial): Exact complex numbers; propagators and spin tensors are arbitrary functions. Half-integer spins are excluded: the sign is then not a number.
- **C153 Variables of the environment in paths** (partial): Values without a dollar. Variables in braces are right only at the end of the path: elsewhere the next character is lost.
- **C154 Lists of files** (partial): Directories and stat are arbitrary functions that do not change. The wildcard must follow a slash and what follows its name is ignored.
- **C155 The spin tensor of a decay chain is a state of its spin** (partial): The state is proved for every chain. The rank fails for decays to three products of spin two and to four of spin one, which get the constant one.
- **C156 The amplitude of a decay chain does not depend on the frame** (partial): Rotations and boosts are proved for every chain; the sign under reflections fails for the one vertex (V to T S in a D wave) which leaves out the amplitude of its second decay product.
- **C157 A decay chain of a fermion gives a solution of the Dirac equation** (partial): Exact complex numbers; the square root is any function whose square is its argument. The equation fails for antifermions with the couplings F_FS_S1 and F_VF_D1, which use the projector of fermions. Decays of fermions to three products and of bosons to fermions are not modelled.
- **C158 The amplitude of a decay chain of a fermion does not depend on the frame** (proved): Rotations and boosts (determinant one); reflections are not covered. The spin tensors of bosons in the final state are states of their spin.
- **C159 The simple K-matrix is the solution of the equations of rescattering** (partial): Exact numbers; s other than the squared masses of the poles. A modifier without a number, or with the number of the last pole, uses a pole that does not exist. A pole below the threshold of a channel gets a coupling that is not real.
- **C16 Phase-space weights never exceed the declared maximum** (proved): The acceptance probability is exactly proportional to the product of break-up momenta and never above one; the sampled masses are those of the returned event. No measure theory is modelled.
- **C160 The generic K-matrix is symmetric and unitary** (proved): Exact numbers; the phase space of each channel is any number that is not negative. Production amplitudes PVec and ZVec: C83.
- **C161 Numbers and flags in the text of options are read exactly** (partial): strtol and strtoul are modelled after the C standard (base 10, 64 bits). The empty word is read as zero without a report, as are numbers out of range with another value and what follows a character zero. Decimal fractions (strtod) are not modelled.
- **C162 The adaptive binning of two samples finds the best cut** (partial): Exact numbers, positive weights, at least one event as the smallest number. With equal coordinates in the target sample the running sum does not belong to the cut, and a side can be left without target events. Source events may have equal coordinates.
- **C163 The symbols of a compiled expression stand for what their names say** (partial): Needs that nodes of the same name have the same meaning: the second of two parameters with the same name reads the default value of the first, and a parameter called lxpr_1 is read by a function. Constants of the compiled code (an option) have six decimals. Code for graphics cards is not modelled.
- **C164 An options file is updated with the result of a fit** (partial): For all input files whose lines are declarations of whole parameters, equalities or about something else, and an output that is not the input. An output that is the input loses all lines, a final newline becomes an empty line, the line of half a complex parameter is dropped, a lone name reads a missing word, and lines with tabs are not updated (proved).
- **C165 Parameter values can be copied by name and reset after a fit** (partial): Resetting is proved for all fits; copying for all sets whose names exist in the other set. A missing name reads beyond the end of a map, and the constructor without a flag ignores its arguments (proved). Parameters that are expressions are not modelled.
- **C166 The words of a formula stand for numbers, constants and parameters** (partial): For all words that are neither numbers nor names of constants; reading a word as a number is an argument. Parameters named like a constant or a number are hidden, and the coordinates are fixed when the first formula is read (proved).
- **C167 Decision trees survive being written and read** (partial): For files whose last line ends, and for events with no cut between the number and its written digits. Otherwise the last node is read for ever, and events change bins (proved). Reading single numbers is an argument.
- **C168 Clones of decay chains are independent of the chain** (partial): For one expansion of a clone, with any sharing before. Expanding a copy changes the chain it was copied from, and expanding a clone twice changes the particle used first (proved). Pointers to parents and the string kept in each particle are not modelled.
- **C169 The sampler for the propagation of large errors keeps its distribution** (partial): For all targets that are measurable and not negative and all moves as likely as their opposites, with exact numbers. How close 500 turns bring another start to the target is not stated. The matrices computed from the samples are not modelled.
- **C17 Discrete sampling is exact** (proved): Lebesgue measure of the set of uniform numbers giving each outcome, in exact arithmetic.
- **C170 Polarisations are assigned by the place of a particle in the event** (partial): For lists of projections with one entry for each particle. Too small states and even states of fermions are accepted, and lists that are too short are read beyond their end (proved). Pointers to particles are modelled by their number in the descriptor.
- **C171 Numbered options are read in order until the first default** (partial): For the value-initialised default; with another one it is returned after the values that were set, and a value equal to the default hides the later ones (proved). Reading a word as a value is an argument, and the counter does not overflow.
- **C172 The default projections cover every group of particles once** (partial): The groups and the ranges are proved for every event type; the names for at most ten particles, and with thirteen two names are equal (proved). Titles of axes and units are not modelled; exact numbers.
- **C173 An attribute of a particle is the value its first modifier gives** (partial): For modifiers with at most one equals sign. With two the value is lost or taken for another key (proved).
- **C18 Adaptive binning partitions events into populated bins** (partial): Partition, range and population for all one-sample binnings of at least two events; training events get their own bin if no two agree in a coordinate (counterexample otherwise). For two samples partition, range and placement hold without exception, the minimum population does not (counterexample).
- **C19 Adaptive binning survives serialisation** (proved): For all trees with distinct node addresses and all faithful number formats.
- **C20 Decay descriptors round-trip** (partial): For every tree constructed from a text whose modifiers can be written; negations for a named vertex together with an orbital state and for lineshapes with an equals sign.
- **C21 Final-state labels are assigned injectively** (partial): Up to 999 particles. A tree with more particles than the events can be reported as matching (proved).
- **C22 Exchange parity of identical fermions** (partial): Swap count and orderings in full; sign and (anti)symmetry of the amplitude for any number of identical bosons and up to two identical fermions of each species; the code gives the wrong sign for a cyclic permutation of three fermions (proved).
- **C23 Option files: last assignment wins and order is kept** (partial): For every file system and every text made of statements, imports included; a comment attached to a word removes the word as well and a file that imports itself is never finished (both proved).
- **C24 Parameter sets stay consistent under any sequence of edits** (partial): For all histories without removals and refused additions; in all histories lookups never give a parameter of another name. Refused additions are appended to the list all the same and removed parameters are still found (both proved).
- **C25 Event format gives every variable its own slot** (partial): With energies and the default names for all event types with different extensions; negations for alternative names, for a decay time without energies and for an extension given twice.
- **C26 Charge conjugation is an involution** (partial): Event types of a database that was read from a file with unique names, without extensions (lost, proved), particles of the database, and decay trees whose particles and antiparticles agree in the database; a particle that is its own antiparticle must have decay products the comparison tells apart.
- **C27 Tensor indexing is a bijection** (proved): Every shape; unsigned overflow not modelled.
- **C28 Index contraction follows the Einstein convention** (partial): Every shape, index pattern and metric placement, with or without imposed symmetries, provided both factors carry an index; a factor without indices makes the code write outside an empty array (proved).
- **C29 Splitting and joining strings** (proved): Both split functions, plus findAll, trim and swapChars.
- **C30 String replacement replaces every occurrence** (partial): Holds when the replacement is at least as long as the pattern and the excess does not contain the pattern's first character; the two counterexample theorems show the general claim is false of the code.
- **C31 Wildcard matching** (partial): Exact for literals, 'text*' and '*text*'; complete for every pattern ending in a star; the general claim is false of the code.
- **C32 Edit distance is the Levenshtein distance** (proved): Dynamic programme equals the minimum over edit sequences.
- **C33 Enumeration of choices is complete and duplicate free** (proved): For r <= n (beyond that the code is undefined) and counters that fit an int.
- **C34 Compensated summation has no first-order error growth** (partial): Error bounds for += and the second-order algorithm in binary floating point with arbitrary precision and ties; the free operator+ uses the opposite sign convention (counterexample proved). Overflow and underflow are outside the model.
- **C35 Spin-orbit couplings obey the triangle rules** (proved): For decays to two particles; which orbital angular momenta conserve parity is an argument.
- **C36 Clebsch-Gordan selection rules** (proved): In full.
- **C37 Amplitude expansion forms every cascade** (partial): For rules without cycles in which no particle with rules is mentioned twice in a cascade or carries modifiers, the result is exactly the set of complete cascades with the products of couplings. As stated the property fails: repeated intermediate states are all replaced by the same decay with its coupling counted once, names contained in other names are replaced inside them, modifiers of expanded particles are lost, and a rule that mentions its own particle never ends.
- **C38 Error propagation leaves parameters untouched and is exact for linear functions** (partial): Restoration holds for all functions; exactness for linear functions with positive variances. A parameter without variance makes every uncertainty NaN, and the sampling propagator neither restores the parameters nor normalises its result.
- **C39 Fit results survive being written and read** (partial): For all results without blind parameters and all faithful number formats; the limits are read wrongly for every parameter, and blinding offsets shift the covariance matrix (proved).
- **C40 Event generation returns the requested number of accepted events** (proved): For generators whose events are numbered inside their block; both in the code are. Exact arithmetic with NaN; infinite densities are not modelled.
- **C41 Splines interpolate their knots smoothly** (partial): Everything between the knots and at all knots but the first, where the value of the last knot is returned (proved). Exact arithmetic; the inverse matrix is an argument, shown to exist.
- **C42 Boosts and rotations preserve invariant masses** (proved): In exact arithmetic. The transformations of expressions are C65.
- **C43 Decay-chain sampling conserves momentum** (proved): Every two-body decay tree as laid out by the constructor (index bookkeeping included), exact arithmetic. The option AggressiveOptimisation is not modelled.
- **C44 Enumerations round-trip through text** (partial): For every declared list of different names. The text of an invalid value that is not in the list is read as the first value and every numeral is accepted as a value (proved).
- **C45 Algebraic simplification preserves value** (partial): Value kept for every expression built with + - * / (no quotient inside a divisor) from constants, variables, functions, conditionals and common sub-expressions, when equal texts mean equal values; like terms are collected. As stated the property fails: powers and comparisons are dropped from products, sums that reach a numerator through a nested quotient are dropped, and constants equal in six digits are merged; keys of common sub-expressions collide in consequence.
- **C46 Parallel helpers agree with their sequential counterparts** (partial): Accumulation in full for every schedule; sorting for grain sizes of at least two (grain size one does not terminate, proved).
- **C47 Covariance matrix is mapped back onto the full parameter list** (proved): For all sets in which no object is listed twice and all results reported by the library.
- **C48 Regression-tree binning routes consistently** (partial): Search ends in one existing bin visiting strictly decreasing addresses, for all trees with at least one node; a tree that was not divided has no node and the search reads outside the array (counterexample). Training events need not be assigned the bin they were put in (counterexample); with two samples they are.
- **C49 Container iteration visits every event once** (partial): For the first loop and generators of blocks of one size; later loops repeat the last block, blocks of different sizes skip elements, and constant iterators never refill (proved).
- **C50 Pade approximants interpolate** (proved): The inverse matrix is an argument of the model; exact arithmetic.
- **C51 Polarisation density matrices are the expansion in spin operators** (partial): Everything except the transverse polarisation of spin one, which the code scales by 1/sqrt(3) relative to the longitudinal one (proved).
- **C52 Component projections of the polarised sum add up to the total** (partial): Without a polarisation fraction; with one the component functions ignore it (proved).
- **C53 Decay-chain generator weights and densities** (partial): In full for one chain. For a mixture the code takes the smallest of the maxima, so the bound fails (proved).
- **C54 Imposed tensor symmetry identifies exactly the exchanged coordinates** (proved): One pair of positions on a tensor without earlier symmetries.
- **C55 Adding tensors with named indices adds the addressed elements** (partial): In full unless the left operand has an imposed symmetry the right operand does not share, in which case it is false (proved).
- **C56 The Levi-Civita tensor is the sign of the permutation** (proved): Unbounded integers; every order of visiting the permutations.
- **C57 Parameters declared in option files are loaded as declared** (partial): For all settings with different names; a setting that is overridden gives two parameters of the same name (proved through the option parser model).
- **C58 Weighted combinations are unbiased and as precise as possible** (proved): The inverse matrix is an argument of the model.
- **C59 Adding error propagators adds covariances by name** (proved): In full.
- **C60 Gaussian perturbations have the given covariance and can be undone** (proved): The decomposition and the random numbers are arguments of the model.
- **C61 Options written from a fit can be loaded again** (partial): For all lists of real parameters, through the models of the options parser and of loading; a limit of zero drops both limits, and a complex parameter with limits for one part is not loaded (proved).
- **C62 Clebsch-Gordan coefficients have the standard symmetries and normalisation** (proved): In exact arithmetic.
- **C63 Helicity cosines and momentum transfers are what they are called, in every frame** (proved): In exact arithmetic.
- **C64 Reordering particles permutes the kinematics of an event and nothing else** (proved): In full.
- **C65 Frame transformations are Lorentz transformations in every representation** (partial): For two-component spinors only sequences with at least one transformation: the empty sequence has a matrix of the wrong size, and joining it loses the matrix (proved).
- **C66 Events are accepted with probabilities proportional to their densities** (partial): For densities up to the threshold, which holds in the first block; greater densities in later blocks are accepted with probability one and reported (proved).
- **C67 The database of particles gives each name its particle, and each particle its antiparticle** (partial): Antiparticles found by identifier when identifiers are unique; negations for shared identifiers, for neutral particles of format B, for properties of the antiparticle and for an odd number of arguments.
- **C68 Flavour conservation is decided by quark numbers** (proved): Agreement of two contents is not transitive (proved); nothing else in the claim needs it.
- **C69 Ranges and counts of an event type contain every physical event** (partial): For selections of different particles; negation for repeated ones.
- **C70 Symmetrisation permutes identical particles uniformly** (proved): Uniformity as uniqueness of the random numbers of each permutation.
- **C71 Ordering by identifiers puts every particle in its place** (partial): For the conjugate decay only when one of its particles is not in the event type; negation otherwise. Up to 999 particles.
- **C72 Writing events to a tree and reading them again gives the same events** (partial): Weights only with the branch of the weights; a decay time cannot be read from a named branch and is scaled with the units of momenta (proved).
- **C73 Only selected entries of a tree are read** (partial): For filters that an entry passes, without a list; negations otherwise.
- **C74 The order of the decay products in a descriptor does not matter** (partial): For decay products the comparison tells apart; negations for equal names with different lineshapes and for cycles of the comparison.
- **C75 Ill-formed formulas are reported** (partial): Outcome for all sequences without brackets; errors inside brackets and lists are reported for the whole; negations for misplaced operators and missing operands.
- **C76 Functions apply to what follows them** (partial): Functions in front of one operand; chains are applied in the opposite order (proved for every length).
- **C77 Barrier factors are the Blatt-Weisskopf functions** (partial): L up to 4 for the factor normalised at one, up to 3 for the factor normalised at a momentum. As stated the property fails: for L = 4 the normalised factor uses the wrong momentum in the numerator, and the coupled-channel factor for L = 2 has a product in place of a sum.
- **C78 Running widths** (partial): L up to 3; between pseudo-threshold and threshold. Negations for L = 4 and below the pseudo-threshold of unequal masses.
- **C79 Breit-Wigner amplitudes have the phase of a resonance** (proved): Real numbers; all modifiers.
- **C80 The LASS amplitude is elastic** (proved): Above threshold, for a resonance above threshold.
- **C81 Inverting a tensor gives the inverse matrix** (partial): For every size, when all leading minors are other than zero. As stated the property fails: there is no search for a pivot, and a tensor with imposed symmetry is not inverted.
- **C82 K-matrix amplitudes are unitary** (partial): For every number of channels and poles with real parameters; no pivot vanishes with real phase space. With the default option that adds an imaginary part to the masses unitarity is violated (proved).
- **C83 Production amplitudes of K-matrices** (partial): P-vector for one pole; with N poles the background comes N(N+1)/2 times (proved for every N).
- **C84 Projection operators of spin are projections onto physical states** (proved): Any field for integer spin; complex numbers with any root m of P.P for spinors.
- **C85 Orbital tensors** (proved): Any field of characteristic zero.
- **C86 Vertices give physical states** (partial): All vertices of the catalogue but F_FS_S1, F_VF_D1 (which project onto the states of the antiparticle's opposite) and V_fF_S1 (not transverse), for which the property is refuted.
- **C87 Vertices do not depend on the frame** (partial): General Lorentz matrices; determinant one for fermion vertices. Missing: f_fS_SL and f_fS_SR, which read the scalar in place of the spinor (see C88).
- **C88 Vertices are linear in the states of the decay products** (partial): V_TS_D, f_fS_P, r_fS_P and r_fS_D do not contain the amplitude of the scalar; f_fS_SL and f_fS_SR do not contain the fermion (all refuted); every other vertex is linear.
- **C89 The rule for boxes integrates polynomials exactly** (proved): Exact for the constants the literals stand for; literals within 1e-15 of the sum of the sizes of the terms. The version for four lanes is not modelled.
- **C90 Adaptive integration partitions the box, ends and stays in its budget** (proved): Real numbers; fifteen dimensions at most, as the tables allow.
- **C91 Integrals over one dimension return the integral** (partial): Functions of an array of one number. As stated the property fails: for functions of a number the integral is dropped and zero is returned.
- **C92 Incoherent sums are normalised** (partial): The density is divided by the normalisation of the coherent sum, so it is normalised exactly when the interference averages to zero (refuted in general). Norm, fractions and components hold as stated.
- **C93 The likelihood is that of the attached data at the current parameters** (partial): Any block width; the list of events is counted once each if the unused lanes of the last block weigh zero (refuted if they repeat an event). The compensated sum is a sum.
- **C94 A fit to data distributed like the model finds the model** (partial): Coherent sums. As stated the property fails for incoherent sums.
- **C95 Constraints pull the fit towards their targets** (partial): Holds for Gaussian constraints. The partial width constraint and the LASSO have the wrong sign, and the ratio of partial widths contains half of the interference (refuted).
- **C96 Decay products are listed by spin, those that decay first** (proved): For databases in which antiparticles have the spin of their particles.
- **C97 Asymmetric errors do not disturb the fitted values** (partial): Errors of one parameter on request: proved for all behaviours of the library. Errors of all parameters within the fit (Minimiser::RunMinos): the errors are right, but the values left in the parameters are those of the last evaluation, not the fitted ones; the counterexample shows it.
- **C98 A scan samples the function on a regular grid and restores the parameter** (partial): Proved for positive steps, including blind parameters. Steps that are not positive never end; constraints are not part of the curve.
- **C99 The fit result lists every free parameter with its value, error and covariance** (partial): Proved whenever every blind parameter has its offset parameter; otherwise a null pointer is used.

## Axioms of each theorem

As printed by `#print axioms`. No theorem of the project depends on any other axiom.

- no axioms (3): `External.externals_size_counterexample`, `EventType.entry_list_selects`, `EventType.filter_list_counterexample`
- `propext` (11): `Expr.roundG_small`, `Store.aligned_size_counterexample`, `Store.aoS_grow_counterexample`, `Export.interrupted_compilation_counterexample`, `Options.named_parameter_values`, `Strings.splitDelims_keep_concat`, `Strings.trim_correct`, `Strings.replaceAll_shorter_counterexample`, `Container.container_second_loop_counterexample`, `Container.container_block_size_counterexample`, `Tensor.tensor_addition_counterexample`
- `Quot.sound`, `propext` (59): `Expr.fcn1_value`, `Expr.fcnIsqrt_value`, `Expr.fcnConj_value`, `Expr.fcnSafeSqrt_value`, `Expr.makeCse_value`, `Resolve.key_collision_counterexample`, `External.resize_length`, `Store.batch_update_eq`, `Store.batch_value_update_eq`, `Store.soA_grow_keeps`, `Pool.pool_tasks_fifo_once`, `Pool.pool_wait_completes`, `Pool.pool_steps_bounded`, `Pool.pool_no_workers_counterexample`, `Pool.pool_after_wait_runs_nothing`, `Pool.pool_reuse_counterexample`, `Pool.pool_double_wait_counterexample`, `Fit.fixed_stays_counterexample`, `Fit.constructor_counterexample`, `CP.mixed_answer_counterexample`, `Export.linked_code_origin`, `Export.library_rebuilt`, `Export.cached_library_partial`, `Cast.cast_accepts_partial`, `Params.copy_values_partial`, `Params.reset_after_fit`, `Sharing.expand_clone_partial`, `Options.numbered_options_partial`, `Options.numbered_options_default`, `Particle.Attribute.attribute_partial`, `Binning.binning_serialisation`, `Params.parameter_set_partial`, `Params.parameter_lookup_name`, `Params.parameter_set_duplicate_counterexample`, `Params.parameter_set_unregister_counterexample`, `Params.parameter_rename`, `PDG.antiparticle_involution`, `Strings.splitDelims_drop_concat`, `Strings.splitDelims_pieces`, `Strings.splitDelims_drop_eq_filter`, `Strings.split_concat`, `Strings.split_join_roundtrip`, `Strings.swapChars_involutive`, `Strings.replaced_exists_unique`, `Comb.all_combinations_product`, `Comb.all_combinations_enumerates`, `Particle.Rules.total_coupling`, `Generator.generation_without_generator`, `Generator.phase_space_generation`, `Enum.enum_round_trip_partial`, `Simplify.simplify_collects`, `Comb.parallel_sort_counterexample`, `Comb.parallel_accumulate_sum`, `Container.container_const_iterator_counterexample`, `PDG.antiparticle_properties`, `EventType.filter_selects_partial`, `EventType.entry_list_access_counterexample`, `KMatrix.qvector_elastic`, `Fit.run_minos_counterexample`
- `Classical.choice`, `Quot.sound`, `propext` (631): `Expr.operators_value_partial`, `Expr.formula_value_partial`, `Expr.exactTests_exactOn`, `Expr.epsTests_exactOn`, `Expr.epsilon_counterexample`, `Expr.fcnPow_value_partial`, `Expr.fcnComplexSqrt_value_partial`, `Expr.fpow_value_partial`, `Expr.cxx_grammar_unambiguous`, `Expr.print_value_partial`, `Expr.print_digits_counterexample`, `Expr.print_fmod_counterexample`, `Parser.formula_value`, `Parser.formula_unique`, `Parser.usual_value`, `Resolve.cse_declared_before_use`, `Resolve.cse_all_declared`, `Resolve.program_value_partial`, `External.externals_disjoint_partial`, `External.externals_address_stable`, `External.externals_prepare`, `External.externals_prepare_idempotent`, `Store.aligned_size_correct`, `Store.cells_bijective`, `Store.functor_fields`, `Store.cache_history`, `Store.simd_roundtrip`, `Store.simd_block_sums_partial`, `Store.simd_padding`, `Store.simd_padding_counterexample`, `Store.load_roundtrip`, `Store.load_block_sums`, `Store.load_out_of_bounds_counterexample`, `Store.simd_transform`, `Store.simd_iterator_past_end_counterexample`, `Pool.pool_no_deadlock`, `Pool.pool_can_finish`, `Coherent.coherent_normalised_partial`, `Coherent.coherent_normalised_events_partial`, `Coherent.coherent_padding_counterexample`, `Coherent.incremental_update_exact_partial`, `Coherent.history_independent_partial`, `Coherent.duplicate_names_counterexample`, `Coherent.set_externals_counterexample`, `Fit.blind_table_partial`, `Fit.blind_table_counterexample`, `Fit.fixed_stays_partial`, `Fit.fit_objective_partial`, `Fit.fit_objective_gradient_counterexample`, `Fit.fit_objective_normalise_counterexample`, `Wigner.wigner_d_rotates_states`, `Wigner.wigner_d_identity`, `Wigner.wigner_d_composition`, `Wigner.wigner_d_orthogonal`, `Wigner.wigner_d_exchange`, `Wigner.wigner_D_rotates_states`, `Wigner.wigner_D_unitary`, `Wigner.wigner_D_axis_counterexample`, `Spin.cg_orthonormal`, `Spin.cg_complete`, `Spin.cg_crossing`, `Spin.helicity_couplings_orthonormal`, `Recursive.cascade_event`, `Recursive.cascade_two_body_returns`, `Dalitz.dalitz_event`, `Dalitz.dalitz_coordinates`, `Dalitz.dalitz_covers`, `Dalitz.dalitz_integral`, `Dalitz.dalitz_mass_counterexample`, `Coherent.queued_integrals_evaluated`, `Coherent.integral_is_average`, `Dalitz.width_history`, `Dalitz.running_width_partial`, `Dalitz.knots_999_counterexample`, `Dalitz.width_graph_counterexample`, `Dalitz.running_mass_counterexample`, `Shapes.flatte_f0`, `Shapes.flatte_a0`, `Shapes.flatte_continuous`, `Shapes.flatte_charged_counterexample`, `Shapes.isotensor_elastic`, `Shapes.isotensor_threshold`, `Shapes.inelastic_modulus`, `Shapes.swave_unitary`, `Shapes.swave_elastic`, `Shapes.gs_published`, `Shapes.gs_mass`, `Shapes.gs_at_mass`, `Shapes.sbw_phase_rises`, `Shapes.nonrel_density`, `Shapes.nonrel_phase_counterexample`, `Shapes.glass_documented_partial`, `Shapes.glass_default`, `Shapes.glass_phase_counterexample`, `Shapes.glass_degrees_counterexample`, `Shapes.phase_space_default_partial`, `Shapes.phase_space_default_counterexample`, `Shapes.phase_space_CM`, `Shapes.phase_space_AS_counterexample`, `Shapes.phsp_focus_partial`, `Shapes.phsp_kmatrix_partial`, `Shapes.phsp_kmatrix_counterexample`, `Shapes.phsp_fourpi_counterexample`, `Shapes.coupled_width`, `Shapes.coupled_unitary`, `Shapes.coupled_norm_at_mass`, `Shapes.coupled_norm_counterexample`, `Shapes.bugg_unitary`, `Shapes.bugg_adler`, `Shapes.eta_density`, `Shapes.polynr_sum`, `Shapes.polynr_root_counterexample`, `Coherent.fit_fractions_add_up`, `Coherent.fit_fractions_total`, `Coherent.fit_fraction_meaning`, `DecayChain.mixture_chains`, `DecayChain.mixture_density`, `DecayChain.reweighting`, `DecayChain.reweighting_history`, `DecayChain.reweighting_fixed_point`, `DecayChain.generator_used_partial`, `DecayChain.no_generator_counterexample`, `DecayChain.many_products_counterexample`, `DecayChain.release_once`, `DecayChain.copy_counterexample`, `Polarisation.vector_dirac`, `Polarisation.vector_weyl_partial`, `Polarisation.vector_weyl_backward_counterexample`, `Polarisation.vector_weyl_slow_counterexample`, `Polarisation.spinor_dirac`, `Polarisation.spinor_weyl_partial`, `Polarisation.spinor_weyl_backward_counterexample`, `Helicity.product_at_rest`, `Helicity.amplitude_without_cache`, `Helicity.index_string_counterexample`, `Helicity.spin_alignment_unitary`, `Helicity.rotated_intensity`, `Helicity.rotated_helicity_intensity`, `Coherent.components_add_up`, `Coherent.components_total`, `Helicity.two_body_normalised`, `Simd.vector_code_matches_scalar_code_partial`, `Simd.vector_complex_result_partial`, `Simd.vector_root_counterexample`, `Simd.vector_greater_or_equal_counterexample`, `Simd.vector_real_result_counterexample`, `Simd.vector_array_partial`, `Simd.vector_spline_partial`, `Simd.vector_array_float_counterexample`, `Simd.vector_array_arm_counterexample`, `Simd.vector_integral_partial`, `Simd.vector_integral_arm_counterexample`, `Simd.avx512_log_partial`, `Simd.avx512_log_of_one_counterexample`, `Simd.avx512_log_not_positive_counterexample`, `Plots.projection_content`, `Plots.projection_total`, `Plots.projection2_content`, `Plots.binFunctor_bin`, `Plots.binFunctor_below_counterexample`, `Plots.stack_normalised`, `Plots.stack_not_scaled`, `Plots.stack_adds_up`, `Plots.chi2_value`, `Plots.chi2_defined_partial`, `Plots.chi2_empty_bin_counterexample`, `Plots.chi2_nonneg`, `Plots.chi2_scale`, `Plots.chi2_order`, `Plots.chi2_zero_iff`, `CP.final_state_parity`, `CP.charge_parity`, `CP.cp_conjugate`, `CP.parameters_kept`, `CP.conjugate_coupling_partial`, `CP.conjugate_setting`, `CP.conjugate_lineshape_setting`, `CP.forbidden_process`, `CP.conjugate_twice`, `CP.cascade_coupling`, `CP.nameless_parameter_counterexample`, `CP.prefix_counterexample`, `CP.expression_coupling_counterexample`, `Polarised.polarised_normalised_partial`, `Polarised.polarised_norm_general`, `Polarised.polarised_fraction_counterexample`, `Polarised.polarised_density_nonneg`, `CP.exact_match`, `CP.match_bits`, `CP.match_range`, `CP.channel_found`, `Export.exported_numbers`, `Export.exported_functions`, `Export.exported_density_partial`, `Export.exported_density_counterexample`, `Export.exported_cancellation_counterexample`, `Export.exported_polarised_partial`, `Export.exported_given_polarisation_partial`, `Export.exported_given_polarisation_counterexample`, `Export.exported_fraction_counterexample`, `Export.symbol_valid`, `Export.symbols_distinct_partial`, `Export.symbols_counterexample`, `Export.stale_library_counterexample`, `Export.forced_rebuild_counterexample`, `Export.failed_compiler_counterexample`, `Export.temporary_name_counterexample`, `Export.hash_collision_counterexample`, `Assembly.matching_rules`, `Assembly.matching_amplitude_partial`, `Assembly.matching_rules_counterexample`, `Assembly.fraction_entries`, `Assembly.fraction_lines`, `Assembly.fraction_table`, `Assembly.mother_table_partial`, `Assembly.polarised_interference`, `Assembly.interference_prefix_counterexample`, `Assembly.fraction_name_counterexample`, `Expr.derivative_partial`, `Expr.inverse_derivative_counterexample`, `Expr.zero_derivative_counterexample`, `SplineShapes.spline_affine`, `SplineShapes.mipwa_partial`, `SplineShapes.mipwa_outside_counterexample`, `SplineShapes.mipwa_polar_counterexample`, `SplineShapes.gspline`, `SplineShapes.gspline_units`, `SplineShapes.gspline_form_factor_partial`, `SplineShapes.form_factor_splines`, `SplineShapes.spline_options`, `FitErrors.reduced_covariance`, `FitErrors.fit_error_partial`, `FitErrors.small_error_counterexample`, `FitErrors.correlation_by_name`, `FitErrors.copied_correlation_counterexample`, `FitErrors.copied_errors`, `FitErrors.degrees_of_freedom`, `Amplitude.lineshape_product`, `Amplitude.incoherent_amplitude`, `Amplitude.incoherent_exchange`, `Amplitude.coherent_amplitude_partial`, `Amplitude.coherent_exchange_partial`, `Amplitude.coherent_swap_partial`, `Amplitude.unsymmetrised_amplitude`, `Amplitude.vanishing_amplitude_counterexample`, `PhaseSpace.phase_space_event`, `PhaseSpace.phase_space_returns`, `Angles.dihedral_angle`, `Angles.dihedral_frame`, `Angles.dihedral_parity`, `Angles.dihedral_exchange`, `Angles.acoplanarity_angle`, `Angles.no_dihedral`, `EventLists.append_contents`, `EventLists.add_itself_counterexample`, `EventLists.filter_removes`, `EventLists.resize_contents`, `EventLists.resize_counterexample`, `EventLists.set_weight`, `EventLists.index_is_position_partial`, `EventLists.stale_index_counterexample`, `EventLists.integral_partial`, `EventLists.integral_bounds`, `EventLists.integral_counterexample`, `SpinAverage.spin_average_value`, `SpinAverage.spin_average_nonneg`, `SpinAverage.spin_average_frame`, `SpinAverage.spin_average_order`, `SpinAverage.spin_average_interference`, `SpinAverage.not_transverse_counterexample`, `SpinAverage.spin_average_half_integer_counterexample`, `Paths.expand_variables_partial`, `Paths.lookup_value`, `Paths.expand_missing`, `Paths.expand_braces_partial`, `Paths.braces_counterexample`, `Paths.unclosed_brace`, `Paths.expand_forever_counterexample`, `Paths.list_directory`, `Paths.list_wildcard_partial`, `Paths.after_wildcard_counterexample`, `Paths.relative_wildcard_counterexample`, `Paths.unreadable_counterexample`, `Cascade.cascade_state`, `Cascade.cascade_spin_partial`, `Cascade.cascade_spin_counterexample`, `Cascade.cascade_frame`, `Cascade.cascade_reflection_partial`, `Cascade.cascade_reflection_counterexample`, `Cascade.fermion_chain_state_partial`, `Cascade.fermion_chain_spin`, `Cascade.fermion_chain_state_counterexample`, `Cascade.fermion_chain_frame`, `Cascade.fermion_chain_product`, `KMatrix.simple_amplitude`, `KMatrix.simple_one_pole`, `KMatrix.simple_number`, `KMatrix.simple_threshold_counterexample`, `PhaseSpace.phase_space_acceptance`, `PhaseSpace.phase_space_masses`, `KMatrix.generic_element`, `KMatrix.generic_unitary`, `Cast.cast_value`, `Cast.cast_text`, `Cast.cast_overflow`, `Cast.cast_bool`, `Cast.cast_counterexample`, `Binning.line_search_partial`, `Binning.line_search_slow_partial`, `Binning.line_search_counterexample`, `Symbols.symbols_partial`, `Symbols.symbol_constant`, `Symbols.symbols_counterexample`, `FitFile.update_options_partial`, `FitFile.update_options_counterexample`, `Params.copy_values_counterexample`, `Parser.word_meaning_partial`, `Parser.word_constants`, `Parser.word_meaning_counterexample`, `FastTree.tree_file_partial`, `FastTree.tree_file_rejects`, `FastTree.tree_file_counterexample`, `Sharing.expand_copy_counterexample`, `Sampler.sampler_invariant_partial`, `Sampler.sampler_moves`, `Discrete.discrete_sampling_exact`, `Discrete.discrete_no_small_left`, `PolStates.polarisation_partial`, `PolStates.polarisation_refused`, `PolStates.polarisation_lists`, `PolStates.polarisation_counterexample`, `Options.numbered_options_end`, `Options.numbered_options_counterexample`, `EventType.default_projections`, `EventType.projection_range`, `EventType.projection_names_partial`, `EventType.projection_names_counterexample`, `Particle.Attribute.attribute_counterexample`, `Binning.binning_partition_partial`, `Binning.binning_partition_counterexample`, `Binning.binning_two_samples`, `Binning.binning_two_samples_counterexample`, `Particle.items_split`, `Particle.constructor_terminates`, `Particle.descriptor_round_trip_partial`, `Particle.descriptor_round_trip_counterexample`, `Particle.descriptor_growth_counterexample`, `Particle.label_assignment`, `Particle.label_good`, `Particle.label_matching_partial`, `Particle.label_matching_counterexample`, `Comb.identical_orderings`, `Comb.swaps_sign`, `Comb.exchange_parity_partial`, `Comb.exchange_symmetry_partial`, `Comb.exchange_parity_counterexample`, `Comb.exchange_symmetry_counterexample`, `Options.options_last_wins_partial`, `Options.options_comment_counterexample`, `Options.options_import_cycle_counterexample`, `Options.command_line_last_wins`, `EventType.event_format_partial`, `EventType.event_format_alternative_partial`, `EventType.event_format_without_energy_partial`, `EventType.event_format_alternative_counterexample`, `EventType.event_format_without_energy_counterexample`, `EventType.event_format_extension_counterexample`, `EventType.event_type_conj_partial`, `EventType.event_type_conj_counterexample`, `Particle.tree_conjugation_partial`, `Tensor.tensor_index_bijection`, `Tensor.tensor_write_read`, `Tensor.einstein_contraction_partial`, `Tensor.einstein_contraction_counterexample`, `Strings.splitDelims_maximal`, `Strings.split_ignore_blank`, `Strings.findAll_correct`, `Strings.replaceAll_correct_partial`, `Strings.replaceAll_nonterminating`, `Strings.matchesWildcard_exact_partial`, `Strings.matchesWildcard_complete_partial`, `Strings.matchesWildcard_suffix_sound_partial`, `Strings.matchesWildcard_incomplete_counterexample`, `Strings.matchesWildcard_unsound_counterexample`, `Strings.editDistance_minimal`, `Strings.editDistance_metric`, `Comb.nCr_enumerates`, `Kahan.kahan_exact`, `Kahan.kahan_error_bound_partial`, `Kahan.kbk_error_bound_partial`, `Kahan.correction_exact`, `Kahan.kahan_plus_counterexample`, `Spin.spin_orbit_couplings`, `Spin.spin_orbit_integral`, `Spin.cg_selection_rules`, `Particle.Rules.expand_cascades_partial`, `Particle.Rules.expand_repeated_counterexample`, `Particle.Rules.expand_contained_counterexample`, `Particle.Rules.expand_modifier_counterexample`, `Particle.Rules.expand_cyclic_counterexample`, `Particle.Rules.replace_forever`, `Errors.error_propagation_restores`, `Errors.error_propagation_linear_partial`, `Errors.error_of_parameters`, `Errors.error_zero_variance_counterexample`, `Errors.nonlinear_propagator_counterexample`, `Errors.correlation_diagonal`, `FitFile.fit_result_round_trip_partial`, `FitFile.fit_result_limits_counterexample`, `FitFile.fit_result_blind_counterexample`, `Generator.generation_result`, `Generator.generate_result`, `Spline.spline_smooth_partial`, `Spline.spline_system_solvable`, `Spline.spline_first_knot_counterexample`, `Kinematics.boost_masses`, `Kinematics.boost_velocities`, `Kinematics.boost_back`, `Kinematics.boost_at_rest`, `Kinematics.rotate_masses`, `Kinematics.rotate_angles`, `Kinematics.rotate_back`, `Kinematics.rotate_action`, `Kinematics.basis_masses`, `DecayChain.decay_chain_event`, `Enum.enum_round_trip_counterexample`, `Simplify.simplify_value_partial`, `Simplify.expand_ne_nil`, `Simplify.simplify_power_counterexample`, `Simplify.cse_key_counterexample`, `Simplify.simplify_quotient_counterexample`, `Simplify.simplify_digits_counterexample`, `Comb.parallel_sort_sorted_partial`, `Params.fit_evaluation`, `Params.fit_result`, `Params.gradient_test_restores`, `Binning.fast_binning_partial`, `Binning.fast_binning_counterexample`, `Binning.fast_binning_placement_counterexample`, `Binning.fast_binning_two_samples`, `Container.container_visits_partial`, `Pade.pade_interpolates`, `Polarised.density_matrices_agree`, `Polarised.density_hermitian`, `Polarised.density_trace`, `Polarised.density_spin_half`, `Polarised.density_spin_one_partial`, `Polarised.density_spin_one_counterexample`, `Polarised.polarised_components_partial`, `Polarised.polarised_components_counterexample`, `DecayChain.decay_chain_weight`, `DecayChain.decay_chain_density`, `DecayChain.mixture_maximum`, `DecayChain.mixture_maximum_counterexample`, `Tensor.imposed_symmetry`, `Tensor.imposed_symmetry_read`, `Tensor.tensor_addition_partial`, `Tensor.tensor_addition_plain`, `Tensor.levi_civita`, `Params.load_parameters_partial`, `Params.load_parameters_counterexample`, `Errors.combination_weighted`, `Errors.propagators_add`, `Errors.gauss_propagator`, `FitFile.options_round_trip_partial`, `FitFile.options_zero_limit_counterexample`, `FitFile.options_complex_counterexample`, `Spin.cg_exchange`, `Spin.cg_reversal`, `Spin.cg_stretched`, `Kinematics.helicity_bounds`, `Kinematics.helicity_frame`, `Kinematics.helicity_angle`, `Kinematics.transfer_momentum`, `Kinematics.mass_overloads`, `Kinematics.swap_particles`, `Kinematics.reorder_particles`, `Transform.transform_lorentz`, `Transform.transform_spinor_partial`, `Transform.transform_order`, `Transform.transform_rotation`, `Transform.transform_boost`, `Transform.transform_empty_counterexample`, `Generator.acceptance_probability_partial`, `Generator.generation_warnings`, `Generator.first_block_threshold`, `Generator.acceptance_probability_counterexample`, `PDG.antiparticle_name`, `PDG.database_read`, `PDG.database_comments`, `PDG.database_line`, `PDG.database_lookup`, `PDG.database_antiparticle_partial`, `PDG.database_alias`, `PDG.database_properties`, `PDG.database_antiparticle_counterexample`, `PDG.database_name_counterexample`, `PDG.database_properties_counterexample`, `PDG.database_odd_counterexample`, `PDG.quark_numbers`, `PDG.quark_content_total`, `PDG.quark_content_neutral`, `PDG.flavour_conservation`, `PDG.flavour_conjugation`, `PDG.flavour_agreement`, `PDG.flavour_agreement_counterexample`, `EventType.mass_range`, `EventType.mass_range_counterexample`, `EventType.identical_particles`, `EventType.symmetriser_permutes`, `EventType.symmetriser_uniform`, `EventType.symmetriser_groups`, `EventType.ordering_particles`, `EventType.ordering_antiparticles_partial`, `EventType.ordering_rejects`, `EventType.ordering_counterexample`, `EventType.write_read`, `EventType.write_read_default`, `EventType.read_momenta`, `EventType.read_four_momenta`, `EventType.read_decay_time_counterexample`, `EventType.read_units_counterexample`, `EventType.filter_selects_counterexample`, `Particle.products_order_partial`, `Particle.products_order_counterexample`, `Particle.comparison_counterexample`, `Parser.flat_formula_partial`, `Parser.bracket_errors`, `Parser.list_errors`, `Parser.misplaced_operator_counterexample`, `Parser.missing_operand_counterexample`, `Parser.function_argument_partial`, `Parser.function_order`, `Parser.function_order_counterexample`, `Lineshapes.barrier_normalised`, `Lineshapes.barrier_monotone`, `Lineshapes.barrier_ratio_partial`, `Lineshapes.barrier_at_reference`, `Lineshapes.barrier_ratio_counterexample`, `Lineshapes.coupled_barrier_partial`, `Lineshapes.coupled_barrier_counterexample`, `Lineshapes.Q2_momentum`, `Lineshapes.Q2_of_momentum`, `Lineshapes.running_width_partial`, `Lineshapes.running_width_counterexample`, `Lineshapes.width_at_mass`, `Lineshapes.width_below_threshold_partial`, `Lineshapes.width_below_threshold_counterexample`, `Lineshapes.sbw_peak`, `Lineshapes.bw_phase`, `Lineshapes.bw_belle_peak`, `Lineshapes.lass_unitary`, `Lineshapes.lass_phase`, `KMatrix.invert_partial`, `KMatrix.invert_counterexample`, `KMatrix.invert_symmetric_counterexample`, `KMatrix.kmatrix_unitary`, `KMatrix.kmatrix_unitary_general`, `KMatrix.lineshape_kmatrix`, `KMatrix.lineshape_unitary_partial`, `KMatrix.lineshape_unitary_counterexample`, `KMatrix.pvector_partial`, `KMatrix.pvector_value`, `KMatrix.pvector_counterexample`, `KMatrix.zvector_value`, `Vertex.spin1_projector`, `Vertex.spin2_projector`, `Vertex.spin1h_projector`, `Vertex.spin3h_projector`, `Vertex.dirac_matrices`, `Vertex.spin_matrices`, `Vertex.orbital_states`, `Vertex.orbital_rest_frame`, `Vertex.vector_vertices`, `Vertex.tensor_vertices`, `Vertex.three_body_vector`, `Vertex.half_vertices_partial`, `Vertex.three_half_vertices`, `Vertex.fermion_vector_vertices_partial`, `Vertex.half_vertices_counterexample`, `Vertex.fermion_vector_counterexample`, `Vertex.scalar_vertices_frame`, `Vertex.vector_vertices_frame`, `Vertex.tensor_vertices_frame`, `Vertex.three_body_frame`, `Vertex.half_vertices_frame_partial`, `Vertex.three_half_vertices_frame`, `Vertex.fermion_pair_frame`, `Vertex.vertices_linear_first`, `Vertex.vertices_linear_second_partial`, `Vertex.vertices_linear_second_counterexample`, `Vertex.half_vertices_linear_spinor_partial`, `Vertex.half_vertices_linear_boson_partial`, `Vertex.half_vertices_linear_counterexample`, `Cubature.rule_exact`, `Cubature.rule_literal`, `Cubature.rule_inside`, `Cubature.rule_axis`, `Cubature.integrate_adaptive`, `Cubature.integrate_error`, `Cubature.integrate_polynomial`, `Cubature.integrate_inside`, `Cubature.integrate_array`, `Cubature.integrateOne_array_partial`, `Cubature.integrateOne_counterexample`, `Likelihood.inco_density`, `Likelihood.inco_normalised_partial`, `Likelihood.inco_normalised_counterexample`, `Likelihood.inco_norm`, `Likelihood.inco_fractions`, `Likelihood.inco_components`, `Likelihood.likelihood_value`, `Likelihood.likelihood_packed_partial`, `Likelihood.likelihood_packed_counterexample`, `Likelihood.likelihood_additive`, `Likelihood.fit_consistent`, `Likelihood.fit_incoherent_counterexample`, `Likelihood.fcn_value`, `Likelihood.gaussian_constraints_partial`, `Likelihood.partial_width_sign_counterexample`, `Likelihood.width_sum_partial`, `Likelihood.width_ratio_counterexample`, `Likelihood.lasso_sign_counterexample`, `Particle.daughters_ordered`, `Fit.run_minos_partial`, `Fit.minos_restores`, `Fit.scan_curve`, `Fit.scan_endless_counterexample`, `Fit.scan_terms_counterexample`, `Fit.fit_result_object`, `Fit.fit_result_counterexample`
