{
 "claims": [
  {
   "property": "C01",
   "status": "partial",
   "theorems": [
    "AmpGen.Expr.operators_value_partial",
    "AmpGen.Expr.formula_value_partial",
    "AmpGen.Expr.exactTests_exactOn",
    "AmpGen.Expr.epsTests_exactOn",
    "AmpGen.Expr.epsilon_counterexample",
    "AmpGen.Expr.fcn1_value",
    "AmpGen.Expr.fcnIsqrt_value",
    "AmpGen.Expr.fcnConj_value",
    "AmpGen.Expr.fcnPow_value_partial",
    "AmpGen.Expr.fcnSafeSqrt_value",
    "AmpGen.Expr.makeCse_value",
    "AmpGen.Expr.fcnComplexSqrt_value_partial",
    "AmpGen.Expr.fpow_value_partial"
   ],
   "note": "Termination and value of every operator for all trees, over an exact field; partial because the code's epsilon tests drop tiny constants (counterexample proved) and rounding is not modelled."
  },
  {
   "property": "C02",
   "status": "partial",
   "theorems": [
    "AmpGen.Expr.cxx_grammar_unambiguous",
    "AmpGen.Expr.print_value_partial",
    "AmpGen.Expr.roundG_small",
    "AmpGen.Expr.print_digits_counterexample",
    "AmpGen.Expr.print_fmod_counterexample"
   ],
   "note": "Printed text of every tree has exactly one reading in the C++ grammar, with the value of the tree; partial: literals not reproduced by %g, fmod, lgamma and Function nodes are excluded (counterexamples proved for the first two)."
  },
  {
   "property": "C03",
   "status": "proved",
   "theorems": [
    "AmpGen.Parser.formula_value",
    "AmpGen.Parser.formula_unique",
    "AmpGen.Parser.usual_value"
   ],
   "note": "For every formula with brackets, braces, functions and the nine operators, over arbitrary operations; the end points and the operations themselves are parameters."
  },
  {
   "property": "C04",
   "status": "partial",
   "theorems": [
    "AmpGen.Resolve.cse_declared_before_use",
    "AmpGen.Resolve.cse_all_declared",
    "AmpGen.Resolve.program_value_partial",
    "AmpGen.Resolve.key_collision_counterexample"
   ],
   "note": "Declared once, before use, and the emitted program has the value of the expression, for all DAGs whose equal keys carry equal expressions; partial because keys are 64 bit hashes (collision counterexample proved)."
  },
  {
   "property": "C05",
   "status": "partial",
   "theorems": [
    "AmpGen.External.externals_disjoint_partial",
    "AmpGen.External.externals_address_stable",
    "AmpGen.External.externals_prepare",
    "AmpGen.External.externals_prepare_idempotent",
    "AmpGen.External.resize_length",
    "AmpGen.External.externals_size_counterexample"
   ],
   "note": "Disjoint, gap free, stable addresses for all registration histories, and transfers leave every cell holding its current value; the last theorem shows that re-registering a name with a larger size does overlap the next entry."
  },
  {
   "property": "C06",
   "status": "partial",
   "theorems": [
    "AmpGen.Store.aligned_size_correct",
    "AmpGen.Store.aligned_size_counterexample",
    "AmpGen.Store.cells_bijective",
    "AmpGen.Store.functor_fields",
    "AmpGen.Store.cache_history",
    "AmpGen.Store.batch_update_eq",
    "AmpGen.Store.batch_value_update_eq",
    "AmpGen.Store.soA_grow_keeps",
    "AmpGen.Store.aoS_grow_counterexample"
   ],
   "note": "Layout bijection, registration and full update histories (any block order) for both layouts; partial because sizes at or above 2^32 wrap and because growing an event-by-event cache moves stored values (counterexamples proved)."
  },
  {
   "property": "C07",
   "status": "partial",
   "theorems": [
    "AmpGen.Store.simd_roundtrip",
    "AmpGen.Store.simd_block_sums_partial",
    "AmpGen.Store.simd_padding",
    "AmpGen.Store.simd_padding_counterexample",
    "AmpGen.Store.load_roundtrip",
    "AmpGen.Store.load_block_sums",
    "AmpGen.Store.load_out_of_bounds_counterexample",
    "AmpGen.Store.simd_transform",
    "AmpGen.Store.simd_iterator_past_end_counterexample"
   ],
   "note": "Round trip and in-place transformation for all lengths and widths; zero weight padding holds when reading a tree, and is refuted for the constructor from an event list."
  },
  {
   "property": "C08",
   "status": "proved",
   "theorems": [
    "AmpGen.Pool.pool_tasks_fifo_once",
    "AmpGen.Pool.pool_wait_completes",
    "AmpGen.Pool.pool_no_deadlock",
    "AmpGen.Pool.pool_steps_bounded",
    "AmpGen.Pool.pool_can_finish",
    "AmpGen.Pool.pool_no_workers_counterexample",
    "AmpGen.Pool.pool_after_wait_runs_nothing",
    "AmpGen.Pool.pool_reuse_counterexample",
    "AmpGen.Pool.pool_double_wait_counterexample"
   ],
   "note": "Every interleaving including spurious wake-ups, for the documented use (queue tasks, then one wait or destruction) with at least one worker; the further theorems show what goes wrong with no worker, after a wait, or with two waits."
  },
  {
   "property": "C09",
   "status": "partial",
   "theorems": [
    "AmpGen.Coherent.coherent_normalised_partial",
    "AmpGen.Coherent.coherent_normalised_events_partial",
    "AmpGen.Coherent.coherent_padding_counterexample"
   ],
   "note": "For every history, sample, amplitudes and couplings in exact arithmetic, on blocks and on event lists whose padding lanes carry no weight; partial because the vectorised event list pads with a weighted copy of the last event, for which the claim is false (proved)."
  },
  {
   "property": "C10",
   "status": "partial",
   "theorems": [
    "AmpGen.Coherent.incremental_update_exact_partial",
    "AmpGen.Coherent.history_independent_partial",
    "AmpGen.Coherent.duplicate_names_counterexample",
    "AmpGen.Coherent.set_externals_counterexample"
   ],
   "note": "For every history of tracked calls and distinctly named amplitudes; the counterexamples show that repeated names and setExternals break it."
  },
  {
   "property": "C100",
   "status": "partial",
   "theorems": [
    "AmpGen.Fit.blind_table_partial",
    "AmpGen.Fit.blind_table_counterexample"
   ],
   "note": "Proved where offsets exist, are not zero and are hidden; an offset with the flag Fix is printed in the same table."
  },
  {
   "property": "C101",
   "status": "partial",
   "theorems": [
    "AmpGen.Fit.fixed_stays_partial",
    "AmpGen.Fit.fixed_stays_counterexample",
    "AmpGen.Fit.constructor_counterexample"
   ],
   "note": "Proved for parameters fixed when the minimiser is made. A parameter fixed later is changed by the fit. The constructor without a flag reads its own uninitialised members."
  },
  {
   "property": "C102",
   "status": "partial",
   "theorems": [
    "AmpGen.Fit.fit_objective_partial",
    "AmpGen.Fit.fit_objective_gradient_counterexample",
    "AmpGen.Fit.fit_objective_normalise_counterexample"
   ],
   "note": "Proved for functions without a gradient, up to a constant. Functions with a gradient are minimised without the constraints; the offset of Minimiser::Normalise is set after the function has been copied."
  },
  {
   "property": "C103",
   "status": "proved",
   "theorems": [
    "AmpGen.Wigner.wigner_d_rotates_states",
    "AmpGen.Wigner.wigner_d_identity",
    "AmpGen.Wigner.wigner_d_composition",
    "AmpGen.Wigner.wigner_d_orthogonal",
    "AmpGen.Wigner.wigner_d_exchange"
   ],
   "note": "Real numbers; angles between zero and pi."
  },
  {
   "property": "C104",
   "status": "partial",
   "theorems": [
    "AmpGen.Wigner.wigner_D_rotates_states",
    "AmpGen.Wigner.wigner_D_unitary",
    "AmpGen.Wigner.wigner_D_axis_counterexample"
   ],
   "note": "Proved for momenta that are not along the axis. Along the axis, for different projections, the phase is zero divided by zero."
  },
  {
   "property": "C105",
   "status": "proved",
   "theorems": [
    "AmpGen.Spin.cg_orthonormal",
    "AmpGen.Spin.cg_complete",
    "AmpGen.Spin.cg_crossing"
   ],
   "note": "Real numbers."
  },
  {
   "property": "C106",
   "status": "proved",
   "theorems": [
    "AmpGen.Spin.helicity_couplings_orthonormal"
   ],
   "note": "Real numbers."
  },
  {
   "property": "C107",
   "status": "proved",
   "theorems": [
    "AmpGen.Recursive.cascade_event",
    "AmpGen.Recursive.cascade_two_body_returns"
   ],
   "note": "Real numbers; masses are functions of names. A decaying particle exactly at rest has no outcome in the model (the boost is zero by zero)."
  },
  {
   "property": "C108",
   "status": "proved",
   "theorems": [
    "AmpGen.Dalitz.dalitz_event",
    "AmpGen.Dalitz.dalitz_coordinates",
    "AmpGen.Dalitz.dalitz_covers"
   ],
   "note": "Real numbers; the first two particles are not both massless; away from the ends of the range of the pair mass, where the angle is not defined."
  },
  {
   "property": "C109",
   "status": "partial",
   "theorems": [
    "AmpGen.Dalitz.dalitz_integral",
    "AmpGen.Dalitz.dalitz_mass_counterexample"
   ],
   "note": "Proved for the exact integral (the cubature rule is C89-C91) at the mass that has been set. For another mass given to integrateDP the events still have the mass that has been set."
  },
  {
   "property": "C11",
   "status": "proved",
   "theorems": [
    "AmpGen.Coherent.queued_integrals_evaluated",
    "AmpGen.Coherent.integral_is_average"
   ],
   "note": "Every number of requests, every write order within a batch; requests sharing a destination must ask for the same integral."
  },
  {
   "property": "C110",
   "status": "partial",
   "theorems": [
    "AmpGen.Dalitz.width_history",
    "AmpGen.Dalitz.running_width_partial",
    "AmpGen.Dalitz.knots_999_counterexample",
    "AmpGen.Dalitz.width_graph_counterexample",
    "AmpGen.Dalitz.running_mass_counterexample"
   ],
   "note": "Widths and knots proved for every history. With 999 knots the constructor does not set the axis; the graph with a range starts at the axis of the calculator; the running mass is constant."
  },
  {
   "property": "C111",
   "status": "partial",
   "theorems": [
    "AmpGen.Shapes.flatte_f0",
    "AmpGen.Shapes.flatte_a0",
    "AmpGen.Shapes.flatte_continuous",
    "AmpGen.Shapes.flatte_charged_counterexample"
   ],
   "note": "Proved for the two names the code knows; any other name, such as a(0)(980)+, has no width: a pole on the real axis."
  },
  {
   "property": "C112",
   "status": "proved",
   "theorems": [
    "AmpGen.Shapes.isotensor_elastic",
    "AmpGen.Shapes.isotensor_threshold",
    "AmpGen.Shapes.inelastic_modulus",
    "AmpGen.Shapes.swave_unitary",
    "AmpGen.Shapes.swave_elastic"
   ],
   "note": "Real numbers; the parameters of the K-matrices and the values of the splines are arguments."
  },
  {
   "property": "C113",
   "status": "proved",
   "theorems": [
    "AmpGen.Shapes.gs_published",
    "AmpGen.Shapes.gs_mass",
    "AmpGen.Shapes.gs_at_mass"
   ],
   "note": "Real numbers."
  },
  {
   "property": "C114",
   "status": "partial",
   "theorems": [
    "AmpGen.Shapes.sbw_phase_rises",
    "AmpGen.Shapes.nonrel_density",
    "AmpGen.Shapes.nonrel_phase_counterexample"
   ],
   "note": "The phase of NonRelBW falls where that of the Breit-Wigner rises: its denominator has the opposite sign."
  },
  {
   "property": "C115",
   "status": "partial",
   "theorems": [
    "AmpGen.Shapes.glass_documented_partial",
    "AmpGen.Shapes.glass_default",
    "AmpGen.Shapes.glass_phase_counterexample",
    "AmpGen.Shapes.glass_degrees_counterexample"
   ],
   "note": "Proved without a production phase of the resonance, away from the mass and from zeros of the effective range. The code multiplies by exp(i phiR) instead of adding phiR to the phase, and uses the phases as radians."
  },
  {
   "property": "C116",
   "status": "partial",
   "theorems": [
    "AmpGen.Shapes.phase_space_default_partial",
    "AmpGen.Shapes.phase_space_default_counterexample",
    "AmpGen.Shapes.phase_space_CM",
    "AmpGen.Shapes.phase_space_AS_counterexample",
    "AmpGen.Shapes.phsp_focus_partial",
    "AmpGen.Shapes.phsp_kmatrix_partial",
    "AmpGen.Shapes.phsp_kmatrix_counterexample",
    "AmpGen.Shapes.phsp_fourpi_counterexample"
   ],
   "note": "Proved for the parametrisation of Chew and Mandelstam without angular momentum, for the default above the difference of the masses, and for the K-matrix with equal masses."
  },
  {
   "property": "C117",
   "status": "partial",
   "theorems": [
    "AmpGen.Shapes.coupled_width",
    "AmpGen.Shapes.coupled_unitary",
    "AmpGen.Shapes.coupled_norm_at_mass",
    "AmpGen.Shapes.coupled_norm_counterexample"
   ],
   "note": "The optical theorem holds without norm, for channels of two bodies without angular momentum; with norm it fails for a channel closed at the mass of the resonance."
  },
  {
   "property": "C118",
   "status": "proved",
   "theorems": [
    "AmpGen.Shapes.bugg_unitary",
    "AmpGen.Shapes.bugg_adler"
   ],
   "note": "Real numbers; positive couplings, and the zero of Adler below threshold."
  },
  {
   "property": "C119",
   "status": "partial",
   "theorems": [
    "AmpGen.Shapes.eta_density",
    "AmpGen.Shapes.polynr_sum",
    "AmpGen.Shapes.polynr_root_counterexample"
   ],
   "note": "The code returns the polynomial and not its root."
  },
  {
   "property": "C12",
   "status": "proved",
   "theorems": [
    "AmpGen.Coherent.fit_fractions_add_up",
    "AmpGen.Coherent.fit_fractions_total",
    "AmpGen.Coherent.fit_fraction_meaning"
   ],
   "note": ""
  },
  {
   "property": "C120",
   "status": "proved",
   "theorems": [
    "AmpGen.DecayChain.mixture_chains",
    "AmpGen.DecayChain.mixture_density",
    "AmpGen.DecayChain.reweighting",
    "AmpGen.DecayChain.reweighting_history",
    "AmpGen.DecayChain.reweighting_fixed_point"
   ],
   "note": "Real numbers; masses that leave energy for motion; one to ten products; events one by one."
  },
  {
   "property": "C121",
   "status": "partial",
   "theorems": [
    "AmpGen.DecayChain.generator_used_partial",
    "AmpGen.DecayChain.no_generator_counterexample",
    "AmpGen.DecayChain.many_products_counterexample",
    "AmpGen.DecayChain.release_once",
    "AmpGen.DecayChain.copy_counterexample"
   ],
   "note": "Proved for one to ten products and a generator that is given, or one decay. A generator made from a list without a random generator has none; more than ten products are not filled; a copy shares the chains and both release them."
  },
  {
   "property": "C122",
   "status": "proved",
   "theorems": [
    "AmpGen.Polarisation.vector_dirac"
   ],
   "note": "Real numbers."
  },
  {
   "property": "C123",
   "status": "partial",
   "theorems": [
    "AmpGen.Polarisation.vector_weyl_partial",
    "AmpGen.Polarisation.vector_weyl_backward_counterexample",
    "AmpGen.Polarisation.vector_weyl_slow_counterexample"
   ],
   "note": "Proved for momenta with a transverse component above the threshold of the code, along z and at rest. For a particle that moves opposite to z the states of helicity one and minus one are exchanged, and a particle with a small transverse momentum has states of the wrong length."
  },
  {
   "property": "C124",
   "status": "proved",
   "theorems": [
    "AmpGen.Polarisation.spinor_dirac"
   ],
   "note": "Real numbers."
  },
  {
   "property": "C125",
   "status": "partial",
   "theorems": [
    "AmpGen.Polarisation.spinor_weyl_partial",
    "AmpGen.Polarisation.spinor_weyl_backward_counterexample"
   ],
   "note": "Proved for momenta at rest or not opposite to z. For a fermion that moves opposite to z the state does not solve Dirac's equation."
  },
  {
   "property": "C126",
   "status": "proved",
   "theorems": [
    "AmpGen.Helicity.product_at_rest"
   ],
   "note": "Real numbers; a direction that the thresholds of the code do not change."
  },
  {
   "property": "C127",
   "status": "partial",
   "theorems": [
    "AmpGen.Helicity.amplitude_without_cache",
    "AmpGen.Helicity.index_string_counterexample"
   ],
   "note": "Proved for indices with one digit; with two digits two resonances can have the same index string, and the amplitude of one is taken in the frame of the other."
  },
  {
   "property": "C128",
   "status": "proved",
   "theorems": [
    "AmpGen.Helicity.spin_alignment_unitary"
   ],
   "note": "Real numbers; the basis of Dirac, with or without alignment of the spins of fermions."
  },
  {
   "property": "C129",
   "status": "proved",
   "theorems": [
    "AmpGen.Helicity.rotated_intensity",
    "AmpGen.Helicity.rotated_helicity_intensity"
   ],
   "note": "Real numbers; the basis of Dirac, massive particles, products away from the axis as far as the code tells it; indices with one digit."
  },
  {
   "property": "C13",
   "status": "proved",
   "theorems": [
    "AmpGen.Coherent.components_add_up",
    "AmpGen.Coherent.components_total"
   ],
   "note": "For the coherent sum."
  },
  {
   "property": "C130",
   "status": "proved",
   "theorems": [
    "AmpGen.Helicity.two_body_normalised"
   ],
   "note": "Real numbers; the basis of Dirac."
  },
  {
   "property": "C131",
   "status": "partial",
   "theorems": [
    "AmpGen.Simd.vector_code_matches_scalar_code_partial",
    "AmpGen.Simd.vector_complex_result_partial",
    "AmpGen.Simd.vector_root_counterexample",
    "AmpGen.Simd.vector_greater_or_equal_counterexample",
    "AmpGen.Simd.vector_real_result_counterexample"
   ],
   "note": "Proved away from roots of negative real numbers of the complex type, where the vector root has the opposite sign, and on ARM without >=, which is <= there. A function with a complex result stores no imaginary part if its expression is of the real type. Real numbers; AVX512 is not included."
  },
  {
   "property": "C132",
   "status": "partial",
   "theorems": [
    "AmpGen.Simd.vector_array_partial",
    "AmpGen.Simd.vector_spline_partial",
    "AmpGen.Simd.vector_array_float_counterexample",
    "AmpGen.Simd.vector_array_arm_counterexample"
   ],
   "note": "Proved for AVX2 with doubles. With floats the offset is rounded to the nearest integer; on ARM only the first element is found for offsets of one and above."
  },
  {
   "property": "C133",
   "status": "partial",
   "theorems": [
    "AmpGen.Simd.vector_integral_partial",
    "AmpGen.Simd.vector_integral_arm_counterexample"
   ],
   "note": "Proved for AVX2; on ARM the arguments of fmadd are exchanged."
  },
  {
   "property": "C134",
   "status": "partial",
   "theorems": [
    "AmpGen.Simd.avx512_log_partial",
    "AmpGen.Simd.avx512_log_of_one_counterexample",
    "AmpGen.Simd.avx512_log_not_positive_counterexample"
   ],
   "note": "Exact arithmetic on the numbers given by the bits. The bound is proved for all normal positive doubles; the logarithm of 1 is off by more than 3e-10; zero and negative numbers have finite logarithms."
  },
  {
   "property": "C135",
   "status": "partial",
   "theorems": [
    "AmpGen.Plots.projection_content",
    "AmpGen.Plots.projection_total",
    "AmpGen.Plots.projection2_content",
    "AmpGen.Plots.binFunctor_bin",
    "AmpGen.Plots.binFunctor_below_counterexample"
   ],
   "note": "Everything is proved except the bin number of events outside of the range: less than one bin below it the number is that of the first bin."
  },
  {
   "property": "C136",
   "status": "proved",
   "theorems": [
    "AmpGen.Plots.stack_normalised",
    "AmpGen.Plots.stack_not_scaled",
    "AmpGen.Plots.stack_adds_up"
   ],
   "note": "Real numbers."
  },
  {
   "property": "C137",
   "status": "partial",
   "theorems": [
    "AmpGen.Plots.chi2_value",
    "AmpGen.Plots.chi2_defined_partial",
    "AmpGen.Plots.chi2_empty_bin_counterexample",
    "AmpGen.Plots.chi2_nonneg",
    "AmpGen.Plots.chi2_scale",
    "AmpGen.Plots.chi2_order",
    "AmpGen.Plots.chi2_zero_iff"
   ],
   "note": "A value exists when every bin has data of some weight; a bin without events gives none."
  },
  {
   "property": "C138",
   "status": "proved",
   "theorems": [
    "AmpGen.CP.final_state_parity",
    "AmpGen.CP.charge_parity",
    "AmpGen.CP.cp_conjugate"
   ],
   "note": "For decays to two particles at most, with spins that add up; conjugation has the hypotheses of C74."
  },
  {
   "property": "C139",
   "status": "partial",
   "theorems": [
    "AmpGen.CP.parameters_kept",
    "AmpGen.CP.conjugate_coupling_partial",
    "AmpGen.CP.conjugate_setting",
    "AmpGen.CP.conjugate_lineshape_setting",
    "AmpGen.CP.forbidden_process",
    "AmpGen.CP.conjugate_twice",
    "AmpGen.CP.cascade_coupling",
    "AmpGen.CP.nameless_parameter_counterexample",
    "AmpGen.CP.prefix_counterexample",
    "AmpGen.CP.expression_coupling_counterexample"
   ],
   "note": "Proved for processes without prefix given by two parameters, if the names of the conjugate are free. A name that is no process adds a parameter without name, a prefix stops the program, and a coupling given as one expression is conjugated to its real part."
  },
  {
   "property": "C14",
   "status": "partial",
   "theorems": [
    "AmpGen.Polarised.polarised_normalised_partial",
    "AmpGen.Polarised.polarised_norm_general",
    "AmpGen.Polarised.polarised_fraction_counterexample",
    "AmpGen.Polarised.polarised_density_nonneg"
   ],
   "note": "Every history, sample, dimension, coupling and polarisation in exact arithmetic; a polarisation fraction is covered for a spinless initial state with two final helicities. For an initial state with spin the claim is false with a polarisation fraction (proved)."
  },
  {
   "property": "C140",
   "status": "partial",
   "theorems": [
    "AmpGen.CP.exact_match",
    "AmpGen.CP.match_bits",
    "AmpGen.CP.match_range",
    "AmpGen.CP.channel_found",
    "AmpGen.CP.mixed_answer_counterexample"
   ],
   "note": "The answers are proved bit by bit; an answer can have the bit for different particles without being equal to None."
  },
  {
   "property": "C141",
   "status": "partial",
   "theorems": [
    "AmpGen.Export.exported_numbers",
    "AmpGen.Export.exported_functions",
    "AmpGen.Export.exported_density_partial",
    "AmpGen.Export.exported_density_counterexample",
    "AmpGen.Export.exported_cancellation_counterexample",
    "AmpGen.Export.exported_polarised_partial",
    "AmpGen.Export.exported_given_polarisation_partial",
    "AmpGen.Export.exported_given_polarisation_counterexample",
    "AmpGen.Export.exported_fraction_counterexample"
   ],
   "note": "exported_functions holds for all numbers, with the numbers as written; equality with the model is proved for numbers with six digits and refuted for others."
  },
  {
   "property": "C142",
   "status": "partial",
   "theorems": [
    "AmpGen.Export.symbol_valid",
    "AmpGen.Export.symbols_distinct_partial",
    "AmpGen.Export.symbols_counterexample"
   ],
   "note": "Symbols are valid identifiers; different decay chains can share one."
  },
  {
   "property": "C143",
   "status": "partial",
   "theorems": [
    "AmpGen.Export.linked_code_origin",
    "AmpGen.Export.library_rebuilt",
    "AmpGen.Export.cached_library_partial",
    "AmpGen.Export.stale_library_counterexample",
    "AmpGen.Export.forced_rebuild_counterexample",
    "AmpGen.Export.failed_compiler_counterexample",
    "AmpGen.Export.temporary_name_counterexample",
    "AmpGen.Export.interrupted_compilation_counterexample",
    "AmpGen.Export.hash_collision_counterexample"
   ],
   "note": "linked_code_origin holds for all histories; the right code is proved for undisturbed histories without changed definitions and equal hashes, and refuted for others."
  },
  {
   "property": "C144",
   "status": "partial",
   "theorems": [
    "AmpGen.Assembly.matching_rules",
    "AmpGen.Assembly.matching_amplitude_partial",
    "AmpGen.Assembly.matching_rules_counterexample"
   ],
   "note": "Which amplitudes are used is proved for all rules; the sum is that of all expansions only if their descriptors differ, otherwise later ones are lost with their couplings."
  },
  {
   "property": "C145",
   "status": "partial",
   "theorems": [
    "AmpGen.Assembly.fraction_entries",
    "AmpGen.Assembly.fraction_lines",
    "AmpGen.Assembly.fraction_table",
    "AmpGen.Assembly.mother_table_partial",
    "AmpGen.Assembly.polarised_interference",
    "AmpGen.Assembly.interference_prefix_counterexample",
    "AmpGen.Assembly.fraction_name_counterexample"
   ],
   "note": "Entries, order and sum of every block are proved. The table of the mother adds up to one if every amplitude uses exactly one of its processes and no rules with a prefix are mixed in. Names are compared as parts of descriptors, so Delta(1232)++ counts as Delta(1232)+. Lines with equal values may be printed in another order."
  },
  {
   "property": "C146",
   "status": "partial",
   "theorems": [
    "AmpGen.Expr.derivative_partial",
    "AmpGen.Expr.inverse_derivative_counterexample",
    "AmpGen.Expr.zero_derivative_counterexample"
   ],
   "note": "Real arguments; exact tests on constants. ASin and ACos have the opposite sign; Abs, Norm, Real, Conj and LGamma return zero."
  },
  {
   "property": "C147",
   "status": "partial",
   "theorems": [
    "AmpGen.SplineShapes.spline_affine",
    "AmpGen.SplineShapes.mipwa_partial",
    "AmpGen.SplineShapes.mipwa_outside_counterexample",
    "AmpGen.SplineShapes.mipwa_polar_counterexample",
    "AmpGen.SplineShapes.gspline",
    "AmpGen.SplineShapes.gspline_units",
    "AmpGen.SplineShapes.gspline_form_factor_partial",
    "AmpGen.SplineShapes.form_factor_splines",
    "AmpGen.SplineShapes.spline_options"
   ],
   "note": "Real numbers. The first knot has the value of the last (as C41), continue has no effect, and Polar is recognised only on its own."
  },
  {
   "property": "C148",
   "status": "partial",
   "theorems": [
    "AmpGen.FitErrors.reduced_covariance",
    "AmpGen.FitErrors.fit_error_partial",
    "AmpGen.FitErrors.small_error_counterexample",
    "AmpGen.FitErrors.correlation_by_name",
    "AmpGen.FitErrors.copied_correlation_counterexample",
    "AmpGen.FitErrors.copied_errors",
    "AmpGen.FitErrors.degrees_of_freedom"
   ],
   "note": "Proved for linear functions of parameters with an error above 1e-6; a parameter with a smaller error is taken to be exact. A copy of a fit result has no covariances by name, and all its correlations are minus one."
  },
  {
   "property": "C149",
   "status": "partial",
   "theorems": [
    "AmpGen.Amplitude.lineshape_product",
    "AmpGen.Amplitude.incoherent_amplitude",
    "AmpGen.Amplitude.incoherent_exchange",
    "AmpGen.Amplitude.coherent_amplitude_partial",
    "AmpGen.Amplitude.coherent_exchange_partial",
    "AmpGen.Amplitude.coherent_swap_partial",
    "AmpGen.Amplitude.unsymmetrised_amplitude",
    "AmpGen.Amplitude.vanishing_amplitude_counterexample"
   ],
   "note": "The coherent sum is proved for at most two identical fermions of each species (with three the signs are wrong, C22); the other claims hold for any number. An amplitude that simplifies to the constant zero has density 1e-10. Spin factor and lineshapes are arbitrary functions of the momenta."
  },
  {
   "property": "C15",
   "status": "proved",
   "theorems": [
    "AmpGen.PhaseSpace.phase_space_event",
    "AmpGen.PhaseSpace.phase_space_returns"
   ],
   "note": "Exact arithmetic; random numbers strictly between 0 and 1; any previous content of the output and of the scratch arrays."
  },
  {
   "property": "C150",
   "status": "proved",
   "theorems": [
    "AmpGen.Angles.dihedral_angle",
    "AmpGen.Angles.dihedral_frame",
    "AmpGen.Angles.dihedral_parity",
    "AmpGen.Angles.dihedral_exchange",
    "AmpGen.Angles.acoplanarity_angle",
    "AmpGen.Angles.no_dihedral"
   ],
   "note": "Real numbers; the functions of the ROOT vectors are modelled after their definition. Without two planes there is no angle (0/0)."
  },
  {
   "property": "C151",
   "status": "partial",
   "theorems": [
    "AmpGen.EventLists.append_contents",
    "AmpGen.EventLists.add_itself_counterexample",
    "AmpGen.EventLists.filter_removes",
    "AmpGen.EventLists.resize_contents",
    "AmpGen.EventLists.resize_counterexample",
    "AmpGen.EventLists.set_weight",
    "AmpGen.EventLists.index_is_position_partial",
    "AmpGen.EventLists.stale_index_counterexample",
    "AmpGen.EventLists.integral_partial",
    "AmpGen.EventLists.integral_bounds",
    "AmpGen.EventLists.integral_counterexample"
   ],
   "note": "Real numbers. Indices are positions only until events are removed; the integral truncates the running sum to an int."
  },
  {
   "property": "C152",
   "status": "partial",
   "theorems": [
    "AmpGen.SpinAverage.spin_average_value",
    "AmpGen.SpinAverage.spin_average_nonneg",
    "AmpGen.SpinAverage.spin_average_frame",
    "AmpGen.SpinAverage.spin_average_order",
    "AmpGen.SpinAverage.spin_average_interference",
    "AmpGen.SpinAverage.not_transverse_counterexample",
    "AmpGen.SpinAverage.spin_average_half_integer_counterexample"
   ],
   "note": "Exact complex numbers; propagators and spin tensors are arbitrary functions. Half-integer spins are excluded: the sign is then not a number."
  },
  {
   "property": "C153",
   "status": "partial",
   "theorems": [
    "AmpGen.Paths.expand_variables_partial",
    "AmpGen.Paths.lookup_value",
    "AmpGen.Paths.expand_missing",
    "AmpGen.Paths.expand_braces_partial",
    "AmpGen.Paths.braces_counterexample",
    "AmpGen.Paths.unclosed_brace",
    "AmpGen.Paths.expand_forever_counterexample"
   ],
   "note": "Values without a dollar. Variables in braces are right only at the end of the path: elsewhere the next character is lost."
  },
  {
   "property": "C154",
   "status": "partial",
   "theorems": [
    "AmpGen.Paths.list_directory",
    "AmpGen.Paths.list_wildcard_partial",
    "AmpGen.Paths.after_wildcard_counterexample",
    "AmpGen.Paths.relative_wildcard_counterexample",
    "AmpGen.Paths.unreadable_counterexample"
   ],
   "note": "Directories and stat are arbitrary functions that do not change. The wildcard must follow a slash and what follows its name is ignored."
  },
  {
   "property": "C155",
   "status": "partial",
   "theorems": [
    "AmpGen.Cascade.cascade_state",
    "AmpGen.Cascade.cascade_spin_partial",
    "AmpGen.Cascade.cascade_spin_counterexample"
   ],
   "note": "The state is proved for every chain. The rank fails for decays to three products of spin two and to four of spin one, which get the constant one."
  },
  {
   "property": "C156",
   "status": "partial",
   "theorems": [
    "AmpGen.Cascade.cascade_frame",
    "AmpGen.Cascade.cascade_reflection_partial",
    "AmpGen.Cascade.cascade_reflection_counterexample"
   ],
   "note": "Rotations and boosts are proved for every chain; the sign under reflections fails for the one vertex (V to T S in a D wave) which leaves out the amplitude of its second decay product."
  },
  {
   "property": "C157",
   "status": "partial",
   "theorems": [
    "AmpGen.Cascade.fermion_chain_state_partial",
    "AmpGen.Cascade.fermion_chain_spin",
    "AmpGen.Cascade.fermion_chain_state_counterexample"
   ],
   "note": "Exact complex numbers; the square root is any function whose square is its argument. The equation fails for antifermions with the couplings F_FS_S1 and F_VF_D1, which use the projector of fermions. Decays of fermions to three products and of bosons to fermions are not modelled."
  },
  {
   "property": "C158",
   "status": "proved",
   "theorems": [
    "AmpGen.Cascade.fermion_chain_frame",
    "AmpGen.Cascade.fermion_chain_product"
   ],
   "note": "Rotations and boosts (determinant one); reflections are not covered. The spin tensors of bosons in the final state are states of their spin."
  },
  {
   "property": "C159",
   "status": "partial",
   "theorems": [
    "AmpGen.KMatrix.simple_amplitude",
    "AmpGen.KMatrix.simple_one_pole",
    "AmpGen.KMatrix.simple_number",
    "AmpGen.KMatrix.simple_threshold_counterexample"
   ],
   "note": "Exact numbers; s other than the squared masses of the poles. A modifier without a number, or with the number of the last pole, uses a pole that does not exist. A pole below the threshold of a channel gets a coupling that is not real."
  },
  {
   "property": "C16",
   "status": "proved",
   "theorems": [
    "AmpGen.PhaseSpace.phase_space_acceptance",
    "AmpGen.PhaseSpace.phase_space_masses"
   ],
   "note": "The acceptance probability is exactly proportional to the product of break-up momenta and never above one; the sampled masses are those of the returned event. No measure theory is modelled."
  },
  {
   "property": "C160",
   "status": "proved",
   "theorems": [
    "AmpGen.KMatrix.generic_element",
    "AmpGen.KMatrix.generic_unitary"
   ],
   "note": "Exact numbers; the phase space of each channel is any number that is not negative. Production amplitudes PVec and ZVec: C83."
  },
  {
   "property": "C161",
   "status": "partial",
   "theorems": [
    "AmpGen.Cast.cast_value",
    "AmpGen.Cast.cast_text",
    "AmpGen.Cast.cast_overflow",
    "AmpGen.Cast.cast_accepts_partial",
    "AmpGen.Cast.cast_bool",
    "AmpGen.Cast.cast_counterexample"
   ],
   "note": "strtol and strtoul are modelled after the C standard (base 10, 64 bits). The empty word is read as zero without a report, as are numbers out of range with another value and what follows a character zero. Decimal fractions (strtod) are not modelled."
  },
  {
   "property": "C162",
   "status": "partial",
   "theorems": [
    "AmpGen.Binning.line_search_partial",
    "AmpGen.Binning.line_search_slow_partial",
    "AmpGen.Binning.line_search_counterexample"
   ],
   "note": "Exact numbers, positive weights, at least one event as the smallest number. With equal coordinates in the target sample the running sum does not belong to the cut, and a side can be left without target events. Source events may have equal coordinates."
  },
  {
   "property": "C163",
   "status": "partial",
   "theorems": [
    "AmpGen.Symbols.symbols_partial",
    "AmpGen.Symbols.symbol_constant",
    "AmpGen.Symbols.symbols_counterexample"
   ],
   "note": "Needs that nodes of the same name have the same meaning: the second of two parameters with the same name reads the default value of the first, and a parameter called lxpr_1 is read by a function. Constants of the compiled code (an option) have six decimals. Code for graphics cards is not modelled."
  },
  {
   "property": "C164",
   "status": "partial",
   "theorems": [
    "AmpGen.FitFile.update_options_partial",
    "AmpGen.FitFile.update_options_counterexample"
   ],
   "note": "For all input files whose lines are declarations of whole parameters, equalities or about something else, and an output that is not the input. An output that is the input loses all lines, a final newline becomes an empty line, the line of half a complex parameter is dropped, a lone name reads a missing word, and lines with tabs are not updated (proved)."
  },
  {
   "property": "C165",
   "status": "partial",
   "theorems": [
    "AmpGen.Params.copy_values_partial",
    "AmpGen.Params.copy_values_counterexample",
    "AmpGen.Params.reset_after_fit"
   ],
   "note": "Resetting is proved for all fits; copying for all sets whose names exist in the other set. A missing name reads beyond the end of a map, and the constructor without a flag ignores its arguments (proved). Parameters that are expressions are not modelled."
  },
  {
   "property": "C166",
   "status": "partial",
   "theorems": [
    "AmpGen.Parser.word_meaning_partial",
    "AmpGen.Parser.word_constants",
    "AmpGen.Parser.word_meaning_counterexample"
   ],
   "note": "For all words that are neither numbers nor names of constants; reading a word as a number is an argument. Parameters named like a constant or a number are hidden, and the coordinates are fixed when the first formula is read (proved)."
  },
  {
   "property": "C167",
   "status": "partial",
   "theorems": [
    "AmpGen.FastTree.tree_file_partial",
    "AmpGen.FastTree.tree_file_rejects",
    "AmpGen.FastTree.tree_file_counterexample"
   ],
   "note": "For files whose last line ends, and for events with no cut between the number and its written digits. Otherwise the last node is read for ever, and events change bins (proved). Reading single numbers is an argument."
  },
  {
   "property": "C168",
   "status": "partial",
   "theorems": [
    "AmpGen.Sharing.expand_clone_partial",
    "AmpGen.Sharing.expand_copy_counterexample"
   ],
   "note": "For one expansion of a clone, with any sharing before. Expanding a copy changes the chain it was copied from, and expanding a clone twice changes the particle used first (proved). Pointers to parents and the string kept in each particle are not modelled."
  },
  {
   "property": "C169",
   "status": "partial",
   "theorems": [
    "AmpGen.Sampler.sampler_invariant_partial",
    "AmpGen.Sampler.sampler_moves"
   ],
   "note": "For all targets that are measurable and not negative and all moves as likely as their opposites, with exact numbers. How close 500 turns bring another start to the target is not stated. The matrices computed from the samples are not modelled."
  },
  {
   "property": "C17",
   "status": "proved",
   "theorems": [
    "AmpGen.Discrete.discrete_sampling_exact",
    "AmpGen.Discrete.discrete_no_small_left"
   ],
   "note": "Lebesgue measure of the set of uniform numbers giving each outcome, in exact arithmetic."
  },
  {
   "property": "C170",
   "status": "partial",
   "theorems": [
    "AmpGen.PolStates.polarisation_partial",
    "AmpGen.PolStates.polarisation_refused",
    "AmpGen.PolStates.polarisation_lists",
    "AmpGen.PolStates.polarisation_counterexample"
   ],
   "note": "For lists of projections with one entry for each particle. Too small states and even states of fermions are accepted, and lists that are too short are read beyond their end (proved). Pointers to particles are modelled by their number in the descriptor."
  },
  {
   "property": "C171",
   "status": "partial",
   "theorems": [
    "AmpGen.Options.numbered_options_partial",
    "AmpGen.Options.numbered_options_default",
    "AmpGen.Options.numbered_options_end",
    "AmpGen.Options.numbered_options_counterexample"
   ],
   "note": "For the value-initialised default; with another one it is returned after the values that were set, and a value equal to the default hides the later ones (proved). Reading a word as a value is an argument, and the counter does not overflow."
  },
  {
   "property": "C172",
   "status": "partial",
   "theorems": [
    "AmpGen.EventType.default_projections",
    "AmpGen.EventType.projection_range",
    "AmpGen.EventType.projection_names_partial",
    "AmpGen.EventType.projection_names_counterexample"
   ],
   "note": "The groups and the ranges are proved for every event type; the names for at most ten particles, and with thirteen two names are equal (proved). Titles of axes and units are not modelled; exact numbers."
  },
  {
   "property": "C173",
   "status": "partial",
   "theorems": [
    "AmpGen.Particle.Attribute.attribute_partial",
    "AmpGen.Particle.Attribute.attribute_counterexample"
   ],
   "note": "For modifiers with at most one equals sign. With two the value is lost or taken for another key (proved)."
  },
  {
   "property": "C18",
   "status": "partial",
   "theorems": [
    "AmpGen.Binning.binning_partition_partial",
    "AmpGen.Binning.binning_partition_counterexample",
    "AmpGen.Binning.binning_two_samples",
    "AmpGen.Binning.binning_two_samples_counterexample"
   ],
   "note": "Partition, range and population for all one-sample binnings of at least two events; training events get their own bin if no two agree in a coordinate (counterexample otherwise). For two samples partition, range and placement hold without exception, the minimum population does not (counterexample)."
  },
  {
   "property": "C19",
   "status": "proved",
   "theorems": [
    "AmpGen.Binning.binning_serialisation"
   ],
   "note": "For all trees with distinct node addresses and all faithful number formats."
  },
  {
   "property": "C20",
   "status": "partial",
   "theorems": [
    "AmpGen.Particle.items_split",
    "AmpGen.Particle.constructor_terminates",
    "AmpGen.Particle.descriptor_round_trip_partial",
    "AmpGen.Particle.descriptor_round_trip_counterexample",
    "AmpGen.Particle.descriptor_growth_counterexample"
   ],
   "note": "For every tree constructed from a text whose modifiers can be written; negations for a named vertex together with an orbital state and for lineshapes with an equals sign."
  },
  {
   "property": "C21",
   "status": "partial",
   "theorems": [
    "AmpGen.Particle.label_assignment",
    "AmpGen.Particle.label_good",
    "AmpGen.Particle.label_matching_partial",
    "AmpGen.Particle.label_matching_counterexample"
   ],
   "note": "Up to 999 particles. A tree with more particles than the events can be reported as matching (proved)."
  },
  {
   "property": "C22",
   "status": "partial",
   "theorems": [
    "AmpGen.Comb.identical_orderings",
    "AmpGen.Comb.swaps_sign",
    "AmpGen.Comb.exchange_parity_partial",
    "AmpGen.Comb.exchange_symmetry_partial",
    "AmpGen.Comb.exchange_parity_counterexample",
    "AmpGen.Comb.exchange_symmetry_counterexample"
   ],
   "note": "Swap count and orderings in full; sign and (anti)symmetry of the amplitude for any number of identical bosons and up to two identical fermions of each species; the code gives the wrong sign for a cyclic permutation of three fermions (proved)."
  },
  {
   "property": "C23",
   "status": "partial",
   "theorems": [
    "AmpGen.Options.options_last_wins_partial",
    "AmpGen.Options.options_comment_counterexample",
    "AmpGen.Options.options_import_cycle_counterexample",
    "AmpGen.Options.command_line_last_wins",
    "AmpGen.Options.named_parameter_values"
   ],
   "note": "For every file system and every text made of statements, imports included; a comment attached to a word removes the word as well and a file that imports itself is never finished (both proved)."
  },
  {
   "property": "C24",
   "status": "partial",
   "theorems": [
    "AmpGen.Params.parameter_set_partial",
    "AmpGen.Params.parameter_lookup_name",
    "AmpGen.Params.parameter_set_duplicate_counterexample",
    "AmpGen.Params.parameter_set_unregister_counterexample",
    "AmpGen.Params.parameter_rename"
   ],
   "note": "For all histories without removals and refused additions; in all histories lookups never give a parameter of another name. Refused additions are appended to the list all the same and removed parameters are still found (both proved)."
  },
  {
   "property": "C25",
   "status": "partial",
   "theorems": [
    "AmpGen.EventType.event_format_partial",
    "AmpGen.EventType.event_format_alternative_partial",
    "AmpGen.EventType.event_format_without_energy_partial",
    "AmpGen.EventType.event_format_alternative_counterexample",
    "AmpGen.EventType.event_format_without_energy_counterexample",
    "AmpGen.EventType.event_format_extension_counterexample"
   ],
   "note": "With energies and the default names for all event types with different extensions; negations for alternative names, for a decay time without energies and for an extension given twice."
  },
  {
   "property": "C26",
   "status": "partial",
   "theorems": [
    "AmpGen.EventType.event_type_conj_partial",
    "AmpGen.EventType.event_type_conj_counterexample",
    "AmpGen.PDG.antiparticle_involution",
    "AmpGen.Particle.tree_conjugation_partial"
   ],
   "note": "Event types of a database that was read from a file with unique names, without extensions (lost, proved), particles of the database, and decay trees whose particles and antiparticles agree in the database; a particle that is its own antiparticle must have decay products the comparison tells apart."
  },
  {
   "property": "C27",
   "status": "proved",
   "theorems": [
    "AmpGen.Tensor.tensor_index_bijection",
    "AmpGen.Tensor.tensor_write_read"
   ],
   "note": "Every shape; unsigned overflow not modelled."
  },
  {
   "property": "C28",
   "status": "partial",
   "theorems": [
    "AmpGen.Tensor.einstein_contraction_partial",
    "AmpGen.Tensor.einstein_contraction_counterexample"
   ],
   "note": "Every shape, index pattern and metric placement, with or without imposed symmetries, provided both factors carry an index; a factor without indices makes the code write outside an empty array (proved)."
  },
  {
   "property": "C29",
   "status": "proved",
   "theorems": [
    "AmpGen.Strings.splitDelims_keep_concat",
    "AmpGen.Strings.splitDelims_drop_concat",
    "AmpGen.Strings.splitDelims_pieces",
    "AmpGen.Strings.splitDelims_maximal",
    "AmpGen.Strings.splitDelims_drop_eq_filter",
    "AmpGen.Strings.split_concat",
    "AmpGen.Strings.split_ignore_blank",
    "AmpGen.Strings.split_join_roundtrip",
    "AmpGen.Strings.findAll_correct",
    "AmpGen.Strings.trim_correct",
    "AmpGen.Strings.swapChars_involutive"
   ],
   "note": "Both split functions, plus findAll, trim and swapChars."
  },
  {
   "property": "C30",
   "status": "partial",
   "theorems": [
    "AmpGen.Strings.replaceAll_correct_partial",
    "AmpGen.Strings.replaced_exists_unique",
    "AmpGen.Strings.replaceAll_shorter_counterexample",
    "AmpGen.Strings.replaceAll_nonterminating"
   ],
   "note": "Holds when the replacement is at least as long as the pattern and the excess does not contain the pattern's first character; the two counterexample theorems show the general claim is false of the code."
  },
  {
   "property": "C31",
   "status": "partial",
   "theorems": [
    "AmpGen.Strings.matchesWildcard_exact_partial",
    "AmpGen.Strings.matchesWildcard_complete_partial",
    "AmpGen.Strings.matchesWildcard_suffix_sound_partial",
    "AmpGen.Strings.matchesWildcard_incomplete_counterexample",
    "AmpGen.Strings.matchesWildcard_unsound_counterexample"
   ],
   "note": "Exact for literals, 'text*' and '*text*'; complete for every pattern ending in a star; the general claim is false of the code."
  },
  {
   "property": "C32",
   "status": "proved",
   "theorems": [
    "AmpGen.Strings.editDistance_minimal",
    "AmpGen.Strings.editDistance_metric"
   ],
   "note": "Dynamic programme equals the minimum over edit sequences."
  },
  {
   "property": "C33",
   "status": "proved",
   "theorems": [
    "AmpGen.Comb.nCr_enumerates",
    "AmpGen.Comb.all_combinations_product",
    "AmpGen.Comb.all_combinations_enumerates"
   ],
   "note": "For r <= n (beyond that the code is undefined) and counters that fit an int."
  },
  {
   "property": "C34",
   "status": "partial",
   "theorems": [
    "AmpGen.Kahan.kahan_exact",
    "AmpGen.Kahan.kahan_error_bound_partial",
    "AmpGen.Kahan.kbk_error_bound_partial",
    "AmpGen.Kahan.correction_exact",
    "AmpGen.Kahan.kahan_plus_counterexample"
   ],
   "note": "Error bounds for += and the second-order algorithm in binary floating point with arbitrary precision and ties; the free operator+ uses the opposite sign convention (counterexample proved). Overflow and underflow are outside the model."
  },
  {
   "property": "C35",
   "status": "proved",
   "theorems": [
    "AmpGen.Spin.spin_orbit_couplings",
    "AmpGen.Spin.spin_orbit_integral"
   ],
   "note": "For decays to two particles; which orbital angular momenta conserve parity is an argument."
  },
  {
   "property": "C36",
   "status": "proved",
   "theorems": [
    "AmpGen.Spin.cg_selection_rules"
   ],
   "note": ""
  },
  {
   "property": "C37",
   "status": "partial",
   "theorems": [
    "AmpGen.Particle.Rules.expand_cascades_partial",
    "AmpGen.Particle.Rules.total_coupling",
    "AmpGen.Particle.Rules.expand_repeated_counterexample",
    "AmpGen.Particle.Rules.expand_contained_counterexample",
    "AmpGen.Particle.Rules.expand_modifier_counterexample",
    "AmpGen.Particle.Rules.expand_cyclic_counterexample",
    "AmpGen.Particle.Rules.replace_forever"
   ],
   "note": "For rules without cycles in which no particle with rules is mentioned twice in a cascade or carries modifiers, the result is exactly the set of complete cascades with the products of couplings. As stated the property fails: repeated intermediate states are all replaced by the same decay with its coupling counted once, names contained in other names are replaced inside them, modifiers of expanded particles are lost, and a rule that mentions its own particle never ends."
  },
  {
   "property": "C38",
   "status": "partial",
   "theorems": [
    "AmpGen.Errors.error_propagation_restores",
    "AmpGen.Errors.error_propagation_linear_partial",
    "AmpGen.Errors.error_of_parameters",
    "AmpGen.Errors.error_zero_variance_counterexample",
    "AmpGen.Errors.nonlinear_propagator_counterexample",
    "AmpGen.Errors.correlation_diagonal"
   ],
   "note": "Restoration holds for all functions; exactness for linear functions with positive variances. A parameter without variance makes every uncertainty NaN, and the sampling propagator neither restores the parameters nor normalises its result."
  },
  {
   "property": "C39",
   "status": "partial",
   "theorems": [
    "AmpGen.FitFile.fit_result_round_trip_partial",
    "AmpGen.FitFile.fit_result_limits_counterexample",
    "AmpGen.FitFile.fit_result_blind_counterexample"
   ],
   "note": "For all results without blind parameters and all faithful number formats; the limits are read wrongly for every parameter, and blinding offsets shift the covariance matrix (proved)."
  },
  {
   "property": "C40",
   "status": "proved",
   "theorems": [
    "AmpGen.Generator.generation_result",
    "AmpGen.Generator.generation_without_generator",
    "AmpGen.Generator.generate_result",
    "AmpGen.Generator.phase_space_generation"
   ],
   "note": "For generators whose events are numbered inside their block; both in the code are. Exact arithmetic with NaN; infinite densities are not modelled."
  },
  {
   "property": "C41",
   "status": "partial",
   "theorems": [
    "AmpGen.Spline.spline_smooth_partial",
    "AmpGen.Spline.spline_system_solvable",
    "AmpGen.Spline.spline_first_knot_counterexample"
   ],
   "note": "Everything between the knots and at all knots but the first, where the value of the last knot is returned (proved). Exact arithmetic; the inverse matrix is an argument, shown to exist."
  },
  {
   "property": "C42",
   "status": "proved",
   "theorems": [
    "AmpGen.Kinematics.boost_masses",
    "AmpGen.Kinematics.boost_velocities",
    "AmpGen.Kinematics.boost_back",
    "AmpGen.Kinematics.boost_at_rest",
    "AmpGen.Kinematics.rotate_masses",
    "AmpGen.Kinematics.rotate_angles",
    "AmpGen.Kinematics.rotate_back",
    "AmpGen.Kinematics.rotate_action",
    "AmpGen.Kinematics.basis_masses"
   ],
   "note": "In exact arithmetic. The transformations of expressions are C65."
  },
  {
   "property": "C43",
   "status": "proved",
   "theorems": [
    "AmpGen.DecayChain.decay_chain_event"
   ],
   "note": "Every two-body decay tree as laid out by the constructor (index bookkeeping included), exact arithmetic. The option AggressiveOptimisation is not modelled."
  },
  {
   "property": "C44",
   "status": "partial",
   "theorems": [
    "AmpGen.Enum.enum_round_trip_partial",
    "AmpGen.Enum.enum_round_trip_counterexample"
   ],
   "note": "For every declared list of different names. The text of an invalid value that is not in the list is read as the first value and every numeral is accepted as a value (proved)."
  },
  {
   "property": "C45",
   "status": "partial",
   "theorems": [
    "AmpGen.Simplify.simplify_value_partial",
    "AmpGen.Simplify.simplify_collects",
    "AmpGen.Simplify.expand_ne_nil",
    "AmpGen.Simplify.simplify_power_counterexample",
    "AmpGen.Simplify.cse_key_counterexample",
    "AmpGen.Simplify.simplify_quotient_counterexample",
    "AmpGen.Simplify.simplify_digits_counterexample"
   ],
   "note": "Value kept for every expression built with + - * / (no quotient inside a divisor) from constants, variables, functions, conditionals and common sub-expressions, when equal texts mean equal values; like terms are collected. As stated the property fails: powers and comparisons are dropped from products, sums that reach a numerator through a nested quotient are dropped, and constants equal in six digits are merged; keys of common sub-expressions collide in consequence."
  },
  {
   "property": "C46",
   "status": "partial",
   "theorems": [
    "AmpGen.Comb.parallel_sort_sorted_partial",
    "AmpGen.Comb.parallel_sort_counterexample",
    "AmpGen.Comb.parallel_accumulate_sum"
   ],
   "note": "Accumulation in full for every schedule; sorting for grain sizes of at least two (grain size one does not terminate, proved)."
  },
  {
   "property": "C47",
   "status": "proved",
   "theorems": [
    "AmpGen.Params.fit_evaluation",
    "AmpGen.Params.fit_result",
    "AmpGen.Params.gradient_test_restores"
   ],
   "note": "For all sets in which no object is listed twice and all results reported by the library."
  },
  {
   "property": "C48",
   "status": "partial",
   "theorems": [
    "AmpGen.Binning.fast_binning_partial",
    "AmpGen.Binning.fast_binning_counterexample",
    "AmpGen.Binning.fast_binning_placement_counterexample",
    "AmpGen.Binning.fast_binning_two_samples"
   ],
   "note": "Search ends in one existing bin visiting strictly decreasing addresses, for all trees with at least one node; a tree that was not divided has no node and the search reads outside the array (counterexample). Training events need not be assigned the bin they were put in (counterexample); with two samples they are."
  },
  {
   "property": "C49",
   "status": "partial",
   "theorems": [
    "AmpGen.Container.container_visits_partial",
    "AmpGen.Container.container_second_loop_counterexample",
    "AmpGen.Container.container_block_size_counterexample",
    "AmpGen.Container.container_const_iterator_counterexample"
   ],
   "note": "For the first loop and generators of blocks of one size; later loops repeat the last block, blocks of different sizes skip elements, and constant iterators never refill (proved)."
  },
  {
   "property": "C50",
   "status": "proved",
   "theorems": [
    "AmpGen.Pade.pade_interpolates"
   ],
   "note": "The inverse matrix is an argument of the model; exact arithmetic."
  },
  {
   "property": "C51",
   "status": "partial",
   "theorems": [
    "AmpGen.Polarised.density_matrices_agree",
    "AmpGen.Polarised.density_hermitian",
    "AmpGen.Polarised.density_trace",
    "AmpGen.Polarised.density_spin_half",
    "AmpGen.Polarised.density_spin_one_partial",
    "AmpGen.Polarised.density_spin_one_counterexample"
   ],
   "note": "Everything except the transverse polarisation of spin one, which the code scales by 1/sqrt(3) relative to the longitudinal one (proved)."
  },
  {
   "property": "C52",
   "status": "partial",
   "theorems": [
    "AmpGen.Polarised.polarised_components_partial",
    "AmpGen.Polarised.polarised_components_counterexample"
   ],
   "note": "Without a polarisation fraction; with one the component functions ignore it (proved)."
  },
  {
   "property": "C53",
   "status": "partial",
   "theorems": [
    "AmpGen.DecayChain.decay_chain_weight",
    "AmpGen.DecayChain.decay_chain_density",
    "AmpGen.DecayChain.mixture_maximum",
    "AmpGen.DecayChain.mixture_maximum_counterexample"
   ],
   "note": "In full for one chain. For a mixture the code takes the smallest of the maxima, so the bound fails (proved)."
  },
  {
   "property": "C54",
   "status": "proved",
   "theorems": [
    "AmpGen.Tensor.imposed_symmetry",
    "AmpGen.Tensor.imposed_symmetry_read"
   ],
   "note": "One pair of positions on a tensor without earlier symmetries."
  },
  {
   "property": "C55",
   "status": "partial",
   "theorems": [
    "AmpGen.Tensor.tensor_addition_partial",
    "AmpGen.Tensor.tensor_addition_plain",
    "AmpGen.Tensor.tensor_addition_counterexample"
   ],
   "note": "In full unless the left operand has an imposed symmetry the right operand does not share, in which case it is false (proved)."
  },
  {
   "property": "C56",
   "status": "proved",
   "theorems": [
    "AmpGen.Tensor.levi_civita"
   ],
   "note": "Unbounded integers; every order of visiting the permutations."
  },
  {
   "property": "C57",
   "status": "partial",
   "theorems": [
    "AmpGen.Params.load_parameters_partial",
    "AmpGen.Params.load_parameters_counterexample"
   ],
   "note": "For all settings with different names; a setting that is overridden gives two parameters of the same name (proved through the option parser model)."
  },
  {
   "property": "C58",
   "status": "proved",
   "theorems": [
    "AmpGen.Errors.combination_weighted"
   ],
   "note": "The inverse matrix is an argument of the model."
  },
  {
   "property": "C59",
   "status": "proved",
   "theorems": [
    "AmpGen.Errors.propagators_add"
   ],
   "note": ""
  },
  {
   "property": "C60",
   "status": "proved",
   "theorems": [
    "AmpGen.Errors.gauss_propagator"
   ],
   "note": "The decomposition and the random numbers are arguments of the model."
  },
  {
   "property": "C61",
   "status": "partial",
   "theorems": [
    "AmpGen.FitFile.options_round_trip_partial",
    "AmpGen.FitFile.options_zero_limit_counterexample",
    "AmpGen.FitFile.options_complex_counterexample"
   ],
   "note": "For all lists of real parameters, through the models of the options parser and of loading; a limit of zero drops both limits, and a complex parameter with limits for one part is not loaded (proved)."
  },
  {
   "property": "C62",
   "status": "proved",
   "theorems": [
    "AmpGen.Spin.cg_exchange",
    "AmpGen.Spin.cg_reversal",
    "AmpGen.Spin.cg_stretched"
   ],
   "note": "In exact arithmetic."
  },
  {
   "property": "C63",
   "status": "proved",
   "theorems": [
    "AmpGen.Kinematics.helicity_bounds",
    "AmpGen.Kinematics.helicity_frame",
    "AmpGen.Kinematics.helicity_angle",
    "AmpGen.Kinematics.transfer_momentum"
   ],
   "note": "In exact arithmetic."
  },
  {
   "property": "C64",
   "status": "proved",
   "theorems": [
    "AmpGen.Kinematics.mass_overloads",
    "AmpGen.Kinematics.swap_particles",
    "AmpGen.Kinematics.reorder_particles"
   ],
   "note": ""
  },
  {
   "property": "C65",
   "status": "partial",
   "theorems": [
    "AmpGen.Transform.transform_lorentz",
    "AmpGen.Transform.transform_spinor_partial",
    "AmpGen.Transform.transform_order",
    "AmpGen.Transform.transform_rotation",
    "AmpGen.Transform.transform_boost",
    "AmpGen.Transform.transform_empty_counterexample"
   ],
   "note": "For two-component spinors only sequences with at least one transformation: the empty sequence has a matrix of the wrong size, and joining it loses the matrix (proved)."
  },
  {
   "property": "C66",
   "status": "partial",
   "theorems": [
    "AmpGen.Generator.acceptance_probability_partial",
    "AmpGen.Generator.generation_warnings",
    "AmpGen.Generator.first_block_threshold",
    "AmpGen.Generator.acceptance_probability_counterexample"
   ],
   "note": "For densities up to the threshold, which holds in the first block; greater densities in later blocks are accepted with probability one and reported (proved)."
  },
  {
   "property": "C67",
   "status": "partial",
   "theorems": [
    "AmpGen.PDG.antiparticle_properties",
    "AmpGen.PDG.antiparticle_name",
    "AmpGen.PDG.database_read",
    "AmpGen.PDG.database_comments",
    "AmpGen.PDG.database_line",
    "AmpGen.PDG.database_lookup",
    "AmpGen.PDG.database_antiparticle_partial",
    "AmpGen.PDG.database_alias",
    "AmpGen.PDG.database_properties",
    "AmpGen.PDG.database_antiparticle_counterexample",
    "AmpGen.PDG.database_name_counterexample",
    "AmpGen.PDG.database_properties_counterexample",
    "AmpGen.PDG.database_odd_counterexample"
   ],
   "note": "Antiparticles found by identifier when identifiers are unique; negations for shared identifiers, for neutral particles of format B, for properties of the antiparticle and for an odd number of arguments."
  },
  {
   "property": "C68",
   "status": "proved",
   "theorems": [
    "AmpGen.PDG.quark_numbers",
    "AmpGen.PDG.quark_content_total",
    "AmpGen.PDG.quark_content_neutral",
    "AmpGen.PDG.flavour_conservation",
    "AmpGen.PDG.flavour_conjugation",
    "AmpGen.PDG.flavour_agreement",
    "AmpGen.PDG.flavour_agreement_counterexample"
   ],
   "note": "Agreement of two contents is not transitive (proved); nothing else in the claim needs it."
  },
  {
   "property": "C69",
   "status": "partial",
   "theorems": [
    "AmpGen.EventType.mass_range",
    "AmpGen.EventType.mass_range_counterexample",
    "AmpGen.EventType.identical_particles"
   ],
   "note": "For selections of different particles; negation for repeated ones."
  },
  {
   "property": "C70",
   "status": "proved",
   "theorems": [
    "AmpGen.EventType.symmetriser_permutes",
    "AmpGen.EventType.symmetriser_uniform",
    "AmpGen.EventType.symmetriser_groups"
   ],
   "note": "Uniformity as uniqueness of the random numbers of each permutation."
  },
  {
   "property": "C71",
   "status": "partial",
   "theorems": [
    "AmpGen.EventType.ordering_particles",
    "AmpGen.EventType.ordering_antiparticles_partial",
    "AmpGen.EventType.ordering_rejects",
    "AmpGen.EventType.ordering_counterexample"
   ],
   "note": "For the conjugate decay only when one of its particles is not in the event type; negation otherwise. Up to 999 particles."
  },
  {
   "property": "C72",
   "status": "partial",
   "theorems": [
    "AmpGen.EventType.write_read",
    "AmpGen.EventType.write_read_default",
    "AmpGen.EventType.read_momenta",
    "AmpGen.EventType.read_four_momenta",
    "AmpGen.EventType.read_decay_time_counterexample",
    "AmpGen.EventType.read_units_counterexample"
   ],
   "note": "Weights only with the branch of the weights; a decay time cannot be read from a named branch and is scaled with the units of momenta (proved)."
  },
  {
   "property": "C73",
   "status": "partial",
   "theorems": [
    "AmpGen.EventType.filter_selects_partial",
    "AmpGen.EventType.entry_list_selects",
    "AmpGen.EventType.filter_selects_counterexample",
    "AmpGen.EventType.filter_list_counterexample",
    "AmpGen.EventType.entry_list_access_counterexample"
   ],
   "note": "For filters that an entry passes, without a list; negations otherwise."
  },
  {
   "property": "C74",
   "status": "partial",
   "theorems": [
    "AmpGen.Particle.products_order_partial",
    "AmpGen.Particle.products_order_counterexample",
    "AmpGen.Particle.comparison_counterexample"
   ],
   "note": "For decay products the comparison tells apart; negations for equal names with different lineshapes and for cycles of the comparison."
  },
  {
   "property": "C75",
   "status": "partial",
   "theorems": [
    "AmpGen.Parser.flat_formula_partial",
    "AmpGen.Parser.bracket_errors",
    "AmpGen.Parser.list_errors",
    "AmpGen.Parser.misplaced_operator_counterexample",
    "AmpGen.Parser.missing_operand_counterexample"
   ],
   "note": "Outcome for all sequences without brackets; errors inside brackets and lists are reported for the whole; negations for misplaced operators and missing operands."
  },
  {
   "property": "C76",
   "status": "partial",
   "theorems": [
    "AmpGen.Parser.function_argument_partial",
    "AmpGen.Parser.function_order",
    "AmpGen.Parser.function_order_counterexample"
   ],
   "note": "Functions in front of one operand; chains are applied in the opposite order (proved for every length)."
  },
  {
   "property": "C77",
   "status": "partial",
   "theorems": [
    "AmpGen.Lineshapes.barrier_normalised",
    "AmpGen.Lineshapes.barrier_monotone",
    "AmpGen.Lineshapes.barrier_ratio_partial",
    "AmpGen.Lineshapes.barrier_at_reference",
    "AmpGen.Lineshapes.barrier_ratio_counterexample",
    "AmpGen.Lineshapes.coupled_barrier_partial",
    "AmpGen.Lineshapes.coupled_barrier_counterexample"
   ],
   "note": "L up to 4 for the factor normalised at one, up to 3 for the factor normalised at a momentum. As stated the property fails: for L = 4 the normalised factor uses the wrong momentum in the numerator, and the coupled-channel factor for L = 2 has a product in place of a sum."
  },
  {
   "property": "C78",
   "status": "partial",
   "theorems": [
    "AmpGen.Lineshapes.Q2_momentum",
    "AmpGen.Lineshapes.Q2_of_momentum",
    "AmpGen.Lineshapes.running_width_partial",
    "AmpGen.Lineshapes.running_width_counterexample",
    "AmpGen.Lineshapes.width_at_mass",
    "AmpGen.Lineshapes.width_below_threshold_partial",
    "AmpGen.Lineshapes.width_below_threshold_counterexample"
   ],
   "note": "L up to 3; between pseudo-threshold and threshold. Negations for L = 4 and below the pseudo-threshold of unequal masses."
  },
  {
   "property": "C79",
   "status": "proved",
   "theorems": [
    "AmpGen.Lineshapes.sbw_peak",
    "AmpGen.Lineshapes.bw_phase",
    "AmpGen.Lineshapes.bw_belle_peak"
   ],
   "note": "Real numbers; all modifiers."
  },
  {
   "property": "C80",
   "status": "proved",
   "theorems": [
    "AmpGen.Lineshapes.lass_unitary",
    "AmpGen.Lineshapes.lass_phase"
   ],
   "note": "Above threshold, for a resonance above threshold."
  },
  {
   "property": "C81",
   "status": "partial",
   "theorems": [
    "AmpGen.KMatrix.invert_partial",
    "AmpGen.KMatrix.invert_counterexample",
    "AmpGen.KMatrix.invert_symmetric_counterexample"
   ],
   "note": "For every size, when all leading minors are other than zero. As stated the property fails: there is no search for a pivot, and a tensor with imposed symmetry is not inverted."
  },
  {
   "property": "C82",
   "status": "partial",
   "theorems": [
    "AmpGen.KMatrix.kmatrix_unitary",
    "AmpGen.KMatrix.kmatrix_unitary_general",
    "AmpGen.KMatrix.lineshape_kmatrix",
    "AmpGen.KMatrix.lineshape_unitary_partial",
    "AmpGen.KMatrix.lineshape_unitary_counterexample"
   ],
   "note": "For every number of channels and poles with real parameters; no pivot vanishes with real phase space. With the default option that adds an imaginary part to the masses unitarity is violated (proved)."
  },
  {
   "property": "C83",
   "status": "partial",
   "theorems": [
    "AmpGen.KMatrix.pvector_partial",
    "AmpGen.KMatrix.pvector_value",
    "AmpGen.KMatrix.pvector_counterexample",
    "AmpGen.KMatrix.qvector_elastic",
    "AmpGen.KMatrix.zvector_value"
   ],
   "note": "P-vector for one pole; with N poles the background comes N(N+1)/2 times (proved for every N)."
  },
  {
   "property": "C84",
   "status": "proved",
   "theorems": [
    "AmpGen.Vertex.spin1_projector",
    "AmpGen.Vertex.spin2_projector",
    "AmpGen.Vertex.spin1h_projector",
    "AmpGen.Vertex.spin3h_projector",
    "AmpGen.Vertex.dirac_matrices",
    "AmpGen.Vertex.spin_matrices"
   ],
   "note": "Any field for integer spin; complex numbers with any root m of P.P for spinors."
  },
  {
   "property": "C85",
   "status": "proved",
   "theorems": [
    "AmpGen.Vertex.orbital_states",
    "AmpGen.Vertex.orbital_rest_frame"
   ],
   "note": "Any field of characteristic zero."
  },
  {
   "property": "C86",
   "status": "partial",
   "theorems": [
    "AmpGen.Vertex.vector_vertices",
    "AmpGen.Vertex.tensor_vertices",
    "AmpGen.Vertex.three_body_vector",
    "AmpGen.Vertex.half_vertices_partial",
    "AmpGen.Vertex.three_half_vertices",
    "AmpGen.Vertex.fermion_vector_vertices_partial",
    "AmpGen.Vertex.half_vertices_counterexample",
    "AmpGen.Vertex.fermion_vector_counterexample"
   ],
   "note": "All vertices of the catalogue but F_FS_S1, F_VF_D1 (which project onto the states of the antiparticle's opposite) and V_fF_S1 (not transverse), for which the property is refuted."
  },
  {
   "property": "C87",
   "status": "partial",
   "theorems": [
    "AmpGen.Vertex.scalar_vertices_frame",
    "AmpGen.Vertex.vector_vertices_frame",
    "AmpGen.Vertex.tensor_vertices_frame",
    "AmpGen.Vertex.three_body_frame",
    "AmpGen.Vertex.half_vertices_frame_partial",
    "AmpGen.Vertex.three_half_vertices_frame",
    "AmpGen.Vertex.fermion_pair_frame"
   ],
   "note": "General Lorentz matrices; determinant one for fermion vertices. Missing: f_fS_SL and f_fS_SR, which read the scalar in place of the spinor (see C88)."
  },
  {
   "property": "C88",
   "status": "partial",
   "theorems": [
    "AmpGen.Vertex.vertices_linear_first",
    "AmpGen.Vertex.vertices_linear_second_partial",
    "AmpGen.Vertex.vertices_linear_second_counterexample",
    "AmpGen.Vertex.half_vertices_linear_spinor_partial",
    "AmpGen.Vertex.half_vertices_linear_boson_partial",
    "AmpGen.Vertex.half_vertices_linear_counterexample"
   ],
   "note": "V_TS_D, f_fS_P, r_fS_P and r_fS_D do not contain the amplitude of the scalar; f_fS_SL and f_fS_SR do not contain the fermion (all refuted); every other vertex is linear."
  },
  {
   "property": "C89",
   "status": "proved",
   "theorems": [
    "AmpGen.Cubature.rule_exact",
    "AmpGen.Cubature.rule_literal",
    "AmpGen.Cubature.rule_inside",
    "AmpGen.Cubature.rule_axis"
   ],
   "note": "Exact for the constants the literals stand for; literals within 1e-15 of the sum of the sizes of the terms. The version for four lanes is not modelled."
  },
  {
   "property": "C90",
   "status": "proved",
   "theorems": [
    "AmpGen.Cubature.integrate_adaptive",
    "AmpGen.Cubature.integrate_error",
    "AmpGen.Cubature.integrate_polynomial",
    "AmpGen.Cubature.integrate_inside",
    "AmpGen.Cubature.integrate_array"
   ],
   "note": "Real numbers; fifteen dimensions at most, as the tables allow."
  },
  {
   "property": "C91",
   "status": "partial",
   "theorems": [
    "AmpGen.Cubature.integrateOne_array_partial",
    "AmpGen.Cubature.integrateOne_counterexample"
   ],
   "note": "Functions of an array of one number. As stated the property fails: for functions of a number the integral is dropped and zero is returned."
  },
  {
   "property": "C92",
   "status": "partial",
   "theorems": [
    "AmpGen.Likelihood.inco_density",
    "AmpGen.Likelihood.inco_normalised_partial",
    "AmpGen.Likelihood.inco_normalised_counterexample",
    "AmpGen.Likelihood.inco_norm",
    "AmpGen.Likelihood.inco_fractions",
    "AmpGen.Likelihood.inco_components"
   ],
   "note": "The density is divided by the normalisation of the coherent sum, so it is normalised exactly when the interference averages to zero (refuted in general). Norm, fractions and components hold as stated."
  },
  {
   "property": "C93",
   "status": "partial",
   "theorems": [
    "AmpGen.Likelihood.likelihood_value",
    "AmpGen.Likelihood.likelihood_packed_partial",
    "AmpGen.Likelihood.likelihood_packed_counterexample",
    "AmpGen.Likelihood.likelihood_additive"
   ],
   "note": "Any block width; the list of events is counted once each if the unused lanes of the last block weigh zero (refuted if they repeat an event). The compensated sum is a sum."
  },
  {
   "property": "C94",
   "status": "partial",
   "theorems": [
    "AmpGen.Likelihood.fit_consistent",
    "AmpGen.Likelihood.fit_incoherent_counterexample"
   ],
   "note": "Coherent sums. As stated the property fails for incoherent sums."
  },
  {
   "property": "C95",
   "status": "partial",
   "theorems": [
    "AmpGen.Likelihood.fcn_value",
    "AmpGen.Likelihood.gaussian_constraints_partial",
    "AmpGen.Likelihood.partial_width_sign_counterexample",
    "AmpGen.Likelihood.width_sum_partial",
    "AmpGen.Likelihood.width_ratio_counterexample",
    "AmpGen.Likelihood.lasso_sign_counterexample"
   ],
   "note": "Holds for Gaussian constraints. The partial width constraint and the LASSO have the wrong sign, and the ratio of partial widths contains half of the interference (refuted)."
  },
  {
   "property": "C96",
   "status": "proved",
   "theorems": [
    "AmpGen.Particle.daughters_ordered"
   ],
   "note": "For databases in which antiparticles have the spin of their particles."
  },
  {
   "property": "C97",
   "status": "partial",
   "theorems": [
    "AmpGen.Fit.run_minos_partial",
    "AmpGen.Fit.run_minos_counterexample",
    "AmpGen.Fit.minos_restores"
   ],
   "note": "Errors of one parameter on request: proved for all behaviours of the library. Errors of all parameters within the fit (Minimiser::RunMinos): the errors are right, but the values left in the parameters are those of the last evaluation, not the fitted ones; the counterexample shows it."
  },
  {
   "property": "C98",
   "status": "partial",
   "theorems": [
    "AmpGen.Fit.scan_curve",
    "AmpGen.Fit.scan_endless_counterexample",
    "AmpGen.Fit.scan_terms_counterexample"
   ],
   "note": "Proved for positive steps, including blind parameters. Steps that are not positive never end; constraints are not part of the curve."
  },
  {
   "property": "C99",
   "status": "partial",
   "theorems": [
    "AmpGen.Fit.fit_result_object",
    "AmpGen.Fit.fit_result_counterexample"
   ],
   "note": "Proved whenever every blind parameter has its offset parameter; otherwise a null pointer is used."
  }
 ]
}