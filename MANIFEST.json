{
 "claims": [
  {
   "property": "C01",
   "status": "proved",
   "theorems": [
    "Gopf.Props.c01_pos_then_nodeIdx",
    "Gopf.Props.c01_nodeIdx_then_pos",
    "Gopf.Props.c01_panics",
    "Gopf.Props.c01_mirrored",
    "Gopf.Props.c01_any_number"
   ],
   "note": "`NodeIdx`, `Pos` over `List Int` with panics as `none`; proved by Euclidean division. `Props/IndexAll.lean`: integers that are not node numbers, with the truncating division of Go."
  },
  {
   "property": "C02",
   "status": "proved",
   "theorems": [
    "Gopf.Props.c02_wrap",
    "Gopf.Props.c02_wrap_inside"
   ],
   "note": "`Wrap` with truncated division; specification: unique representative modulo the side length."
  },
  {
   "property": "C03",
   "status": "proved",
   "theorems": [
    "Gopf.Props.c03_product",
    "Gopf.Props.c03_loop_terminates",
    "Gopf.Props.c03_again",
    "Gopf.Props.c03_not_sticky"
   ],
   "note": "`Product` as a state machine; trace of calls proved equal to the lexicographic list of tuples by induction on the dimensions."
  },
  {
   "property": "C04",
   "status": "proved",
   "theorems": [
    "Gopf.Props.c04_get_set",
    "Gopf.Props.c04_history",
    "Gopf.Props.c04_newGrid"
   ],
   "note": "`Grid` as dims + list; proved from C01's injectivity."
  },
  {
   "property": "C05",
   "status": "proved",
   "theorems": [
    "Gopf.Props.c05_sum",
    "Gopf.Props.c05_constant",
    "Gopf.Props.c05_bounds",
    "Gopf.Props.c05_pointwise"
   ],
   "note": "`Blur` over the reals with an arbitrary kernel; translation invariance of sums over the torus."
  },
  {
   "property": "C06",
   "status": "proved",
   "theorems": [
    "Gopf.Props.c06_box_contract",
    "Gopf.Props.c06_box_is_average",
    "Gopf.Props.c06_box_zero"
   ],
   "note": "`BoxKernel` instance of C05's model, witness for width 3."
  },
  {
   "property": "C07",
   "status": "proved",
   "theorems": [
    "Gopf.Props.c07_distance",
    "Gopf.Props.c07_voronoi",
    "Gopf.Props.c07_dist_exists",
    "Gopf.Props.c07_far_generators_wrong"
   ],
   "note": "`closestPoint` as a left fold; specification with the minimum over all lattice translations."
  },
  {
   "property": "C08",
   "status": "proved",
   "theorems": [
    "Gopf.Props.c08_freq",
    "Gopf.Props.c08_conjugate",
    "Gopf.Props.c08_freq_injective",
    "Gopf.Props.c08_conjugate_unique"
   ],
   "note": "`Freq`, `ConjugateNode` over ℚ and ℤ."
  },
  {
   "property": "C09",
   "status": "proved",
   "theorems": [
    "Gopf.Props.c09_transform",
    "Gopf.Props.c09_plane_wave",
    "Gopf.Props.c09_noncubic_fails"
   ],
   "note": "FFTW as row-major DFT over ℂ; orthogonality of roots of unity; counterexample for a 3D box with unequal sides."
  },
  {
   "property": "C10",
   "status": "proved",
   "theorems": [
    "Gopf.Props.c10_round_trip",
    "Gopf.Props.c10_real_spectrum",
    "Gopf.Props.c10_noncubic_fails",
    "Gopf.Props.c10_exact"
   ],
   "note": "DFT inversion and conjugation with the same DFT. `c10_exact` (`Props/LayoutExact.lean`): a node of unit value has the spectrum of one wave, so the conjugate bins of the library and of the transform must agree; comparing them for the first bin along an axis gives the sides."
  },
  {
   "property": "C11",
   "status": "proved",
   "theorems": [
    "Gopf.Props.c11_append",
    "Gopf.Props.c11_append_plane_fails",
    "Gopf.Props.c11_accepted",
    "Gopf.Props.c11_monoid",
    "Gopf.Props.c11_translation",
    "Gopf.Props.c11_scaling",
    "Gopf.Props.c11_planar",
    "Gopf.Props.c11_short_scaling",
    "Gopf.Props.c11_rotations",
    "Gopf.Props.c11_isometry",
    "Gopf.Props.c11_angles"
   ],
   "note": "4×4 real matrices."
  },
  {
   "property": "C12",
   "status": "proved",
   "theorems": [
    "Gopf.Props.c12_draw",
    "Gopf.Props.c12_leak",
    "Gopf.Props.c12_box",
    "Gopf.Props.c12_nil"
   ],
   "note": "`Draw` as a fold carrying the scratch vector; counterexample with a shear into z."
  },
  {
   "property": "C13",
   "status": "proved",
   "theorems": [
    "Gopf.Props.c13_split"
   ],
   "note": "`SplitOnMany` on `List Char` with its work queue; result is a permutation of the specification list."
  },
  {
   "property": "C14",
   "status": "proved",
   "theorems": [
    "Gopf.Props.c14_no_terms",
    "Gopf.Props.c14_second_sign_dropped",
    "Gopf.Props.c14_panics"
   ],
   "note": "Same model; refutation for all operand texts. Texts without terms: induction over the size of the work queue (`c14_no_terms`)."
  },
  {
   "property": "C15",
   "status": "proved",
   "theorems": [
    "Gopf.Props.c15_lossless",
    "Gopf.Props.c15_complete",
    "Gopf.Props.c15_meaning"
   ],
   "note": "Prefix peeling by well-founded recursion on the string length; `constructFunc` as a function on terms."
  },
  {
   "property": "C16",
   "status": "proved",
   "theorems": [
    "Gopf.Props.c16_sorted",
    "Gopf.Props.c16_factors_exist",
    "Gopf.Props.c16_canonical",
    "Gopf.Props.c16_idempotent"
   ],
   "note": "Split/sort/join on `List Char`, sortedness and permutation."
  },
  {
   "property": "C17",
   "status": "proved",
   "theorems": [
    "Gopf.Props.c17_classification",
    "Gopf.Props.c17_shortened_name",
    "Gopf.Props.c17_one_letter"
   ],
   "note": "Mini regular expression matcher (leftmost, greedy) for the patterns the parser uses; `isBilinear` modelled on top of it. The theorem quantifies over all well-named models, all products of well-formed items, and all lists of known names made of fields, functions and derived products. The refutations cover every name violating the proviso in the way described."
  },
  {
   "property": "C18",
   "status": "proved",
   "theorems": [
    "Gopf.Props.c18_meaning",
    "Gopf.Props.c18_factor",
    "Gopf.Props.c18_product",
    "Gopf.Props.c18_scalar_between",
    "Gopf.Props.c18_scalar_after",
    "Gopf.Props.c18_attached_laplacian",
    "Gopf.Props.c18_repeated_field",
    "Gopf.Props.c18_laplacian_of_scalar"
   ],
   "note": "Readable: at most one Laplacian, items with fields adjacent in the alphabetical order of the items, only the first of them with an attached Laplacian."
  },
  {
   "property": "C19",
   "status": "proved",
   "theorems": [
    "Gopf.Props.c19_spectrum",
    "Gopf.Props.c19_equation",
    "Gopf.Props.c19_constant",
    "Gopf.Props.c19_function_times_field",
    "Gopf.Props.c19_function_lost",
    "Gopf.Props.c19_function_simulated"
   ],
   "note": "Hypotheses: well-named model, readable monomials with each field written once, no term registered by the user under the same text."
  },
  {
   "property": "C20",
   "status": "proved",
   "theorems": [
    "Gopf.Props.c20_all_names_yield_last",
    "Gopf.Props.c20_reachable_iff",
    "Gopf.Props.c20_old_names_kept",
    "Gopf.Props.c20_one_at_a_time"
   ],
   "note": "Registry with explicit cells for loop variables."
  },
  {
   "property": "C21",
   "status": "proved",
   "theorems": [
    "Gopf.Props.c21_rhs",
    "Gopf.Props.c21_denum",
    "Gopf.Props.c21_add_source",
    "Gopf.Props.c21_add_modifier"
   ],
   "note": "`GetRHS` as folds over registries."
  },
  {
   "property": "C22",
   "status": "proved",
   "theorems": [
    "Gopf.Props.c22_euler",
    "Gopf.Props.c22_single_equation",
    "Gopf.Props.c22_chain_fails"
   ],
   "note": "Stepper as a state transformer on a store; witness for the coupled case."
  },
  {
   "property": "C23",
   "status": "proved",
   "theorems": [
    "Gopf.Props.c23_mean",
    "Gopf.Props.c23_laplacian"
   ],
   "note": "Invariant by induction on the number of steps."
  },
  {
   "property": "C24",
   "status": "proved",
   "theorems": [
    "Gopf.Props.c24_exact",
    "Gopf.Props.c24_real",
    "Gopf.Props.c24_prefixes",
    "Gopf.Props.c24_noncubic_fails"
   ],
   "note": "Invariant with conjugate symmetry. `c24_exact`: on the other domains an equation `du/dt = A u`, with `A` non-zero on a bin and its conjugate in the sense of the library, makes the first node complex."
  },
  {
   "property": "C25",
   "status": "proved",
   "theorems": [
    "Gopf.Props.c25_step",
    "Gopf.Props.c25_stable"
   ],
   "note": "Induction on steps with a per-bin contraction factor."
  },
  {
   "property": "C26",
   "status": "proved",
   "theorems": [
    "Gopf.Props.c26_implicit_euler",
    "Gopf.Props.c26_sdd",
    "Gopf.Props.c26_euler",
    "Gopf.Props.c26_rk4_stuck",
    "Gopf.Props.c26_rk4_propagate"
   ],
   "note": "Step counter of each stepper, solver loop."
  },
  {
   "property": "C27",
   "status": "proved",
   "theorems": [
    "Gopf.Props.c27_rk4",
    "Gopf.Props.c27_linear",
    "Gopf.Props.c27_time_frozen"
   ],
   "note": "RK4 stages on the same store model."
  },
  {
   "property": "C28",
   "status": "proved",
   "theorems": [
    "Gopf.Props.c28_schedule"
   ],
   "note": "Solver as an event trace generator."
  },
  {
   "property": "C29",
   "status": "proved",
   "theorems": [
    "Gopf.Props.c29_notifications",
    "Gopf.Props.c29_times"
   ],
   "note": "Same trace model."
  },
  {
   "property": "C30",
   "status": "proved",
   "theorems": [
    "Gopf.Props.c30_projection",
    "Gopf.Props.c30_reflection",
    "Gopf.Props.c30_torque",
    "Gopf.Props.c30_unit_invariant",
    "Gopf.Props.c30_initial"
   ],
   "note": "Finite sums over ℝ in arbitrary dimension."
  },
  {
   "property": "C31",
   "status": "proved",
   "theorems": [
    "Gopf.Props.c31_solves",
    "Gopf.Props.c31_sdd",
    "Gopf.Props.c31_well_posed"
   ],
   "note": "Finite sums over a field."
  },
  {
   "property": "C32",
   "status": "proved",
   "theorems": [
    "Gopf.Props.c32_length",
    "Gopf.Props.c32_required_time"
   ],
   "note": "Reals with exp/log/pow."
  },
  {
   "property": "C33",
   "status": "proved",
   "theorems": [
    "Gopf.Props.c33_shifts",
    "Gopf.Props.c33_step",
    "Gopf.Props.c33_endpoints"
   ],
   "note": "Pointwise algebra."
  },
  {
   "property": "C34",
   "status": "proved",
   "theorems": [
    "Gopf.Props.c34_single_field",
    "Gopf.Props.c34_first_field_force",
    "Gopf.Props.c34_second_field_ignored"
   ],
   "note": "Index arithmetic on concatenated vectors."
  },
  {
   "property": "C35",
   "status": "proved",
   "theorems": [
    "Gopf.Props.c35_load",
    "Gopf.Props.c35_save_succeeds",
    "Gopf.Props.c35_load_last"
   ],
   "note": "Tables as lists; induction over histories of operations."
  },
  {
   "property": "C36",
   "status": "proved",
   "theorems": [
    "Gopf.Props.c36_crash"
   ],
   "note": "Transactions as committed prefixes; all crash points."
  },
  {
   "property": "C37",
   "status": "proved",
   "theorems": [
    "Gopf.Props.c37_table",
    "Gopf.Props.c37_join",
    "Gopf.Props.c37_export"
   ],
   "note": "Row ids of the position table."
  },
  {
   "property": "C38",
   "status": "proved",
   "theorems": [
    "Gopf.Props.c38_once",
    "Gopf.Props.c38_one_node"
   ],
   "note": "Histories of saves."
  },
  {
   "property": "C39",
   "status": "proved",
   "theorems": [
    "Gopf.Props.c39_layout",
    "Gopf.Props.c39_round_trip",
    "Gopf.Props.c39_partial_word"
   ],
   "note": "Big-endian encoding of 64-bit words."
  },
  {
   "property": "C40",
   "status": "proved",
   "theorems": [
    "Gopf.Props.c40_number",
    "Gopf.Props.c40_signs",
    "Gopf.Props.c40_table",
    "Gopf.Props.c40_round_trip"
   ],
   "note": "Records of texts; %f as rounding to a multiple of 10^-6."
  },
  {
   "property": "C41",
   "status": "proved",
   "theorems": [
    "Gopf.Props.c41_grey",
    "Gopf.Props.c41_out_of_bounds"
   ],
   "note": "Reals with floor."
  },
  {
   "property": "C42",
   "status": "proved",
   "theorems": [
    "Gopf.Props.c42_distinct",
    "Gopf.Props.c42_prefixes_collide",
    "Gopf.Props.c42_meta_file",
    "Gopf.Props.c42_shape",
    "Gopf.Props.c42_restart"
   ],
   "note": "Strings; injectivity via the last underscore."
  },
  {
   "property": "C43",
   "status": "proved",
   "theorems": [
    "Gopf.Props.c43_unique"
   ],
   "note": "Iterator state machine on C08's frequencies."
  },
  {
   "property": "C44",
   "status": "proved",
   "theorems": [
    "Gopf.Props.c44_real_amplitude"
   ],
   "note": "Same."
  },
  {
   "property": "C45",
   "status": "proved",
   "theorems": [
    "Gopf.Props.c45_range",
    "Gopf.Props.c45_monotone",
    "Gopf.Props.c45_backward_forward",
    "Gopf.Props.c45_forward_backward"
   ],
   "note": "Mathlib's arctan."
  },
  {
   "property": "C46",
   "status": "proved",
   "theorems": [
    "Gopf.Props.c46_odd",
    "Gopf.Props.c46_even"
   ],
   "note": "`HasDerivAt`."
  },
  {
   "property": "C47",
   "status": "proved",
   "theorems": [
    "Gopf.Props.c47_value",
    "Gopf.Props.c47_symmetric",
    "Gopf.Props.c47_iff",
    "Gopf.Props.c47_isotropic"
   ],
   "note": "Polynomial identity over ℝ."
  },
  {
   "property": "C48",
   "status": "proved",
   "theorems": [
    "Gopf.Props.c48_noise",
    "Gopf.Props.c48_div_grad",
    "Gopf.Props.c48_charge",
    "Gopf.Props.c48_pair_correlation",
    "Gopf.Props.c48_weighted_laplacian"
   ],
   "note": "Zero-bin evaluation of each term."
  },
  {
   "property": "C49",
   "status": "proved",
   "theorems": [
    "Gopf.Props.c49_current",
    "Gopf.Props.c49_documented_order",
    "Gopf.Props.c49_voigt_order",
    "Gopf.Props.c49_two_dimensions"
   ],
   "note": "Index tables."
  },
  {
   "property": "C50",
   "status": "proved",
   "theorems": [
    "Gopf.Props.c50_ends",
    "Gopf.Props.c50_peak",
    "Gopf.Props.c50_negative_iff",
    "Gopf.Props.c50_not_monotone",
    "Gopf.Props.c50_amplifies"
   ],
   "note": "Reals."
  },
  {
   "property": "C51",
   "status": "proved",
   "theorems": [
    "Gopf.Props.c51_index",
    "Gopf.Props.c51_history"
   ],
   "note": "`Fin 3` indices."
  },
  {
   "property": "C52",
   "status": "proved",
   "theorems": [
    "Gopf.Props.c52_identity",
    "Gopf.Props.c52_compose",
    "Gopf.Props.c52_symmetries",
    "Gopf.Props.c52_energy"
   ],
   "note": "Sums over `Fin 3`."
  },
  {
   "property": "C53",
   "status": "proved",
   "theorems": [
    "Gopf.Props.c53_invariant",
    "Gopf.Props.c53_symmetries",
    "Gopf.Props.c53_energy",
    "Gopf.Props.c53_shear"
   ],
   "note": "Kronecker deltas and orthogonality."
  },
  {
   "property": "C54",
   "status": "proved",
   "theorems": [
    "Gopf.Props.c54_value",
    "Gopf.Props.c54_symmetries",
    "Gopf.Props.c54_contract",
    "Gopf.Props.c54_too_long"
   ],
   "note": "Index tables."
  },
  {
   "property": "C55",
   "status": "proved",
   "theorems": [
    "Gopf.Props.c55_minor",
    "Gopf.Props.c55_voigt",
    "Gopf.Props.c55_shear_stress"
   ],
   "note": "Counterexample and exact characterisation."
  },
  {
   "property": "C56",
   "status": "proved",
   "theorems": [
    "Gopf.Props.c56_orthogonal",
    "Gopf.Props.c56_group",
    "Gopf.Props.c56_axis",
    "Gopf.Props.c56_other_axis",
    "Gopf.Props.c56_handedness"
   ],
   "note": "Trigonometric identities."
  },
  {
   "property": "C57",
   "status": "proved",
   "theorems": [
    "Gopf.Props.c57_positive_definite",
    "Gopf.Props.c57_displacement"
   ],
   "note": "Quadratic form estimate."
  },
  {
   "property": "C58",
   "status": "proved",
   "theorems": [
    "Gopf.Props.c58_equivalent"
   ],
   "note": "In-place duplicate removal as a loop with invariant."
  },
  {
   "property": "C59",
   "status": "proved",
   "theorems": [
    "Gopf.Props.c59_three_dimensions",
    "Gopf.Props.c59_two_dimensions",
    "Gopf.Props.c59_other_dimension"
   ],
   "note": "Case analysis on absolute values."
  },
  {
   "property": "C60",
   "status": "proved",
   "theorems": [
    "Gopf.Props.c60_dual",
    "Gopf.Props.c60_unique",
    "Gopf.Props.c60_involution",
    "Gopf.Props.c60_volume",
    "Gopf.Props.c60_hkl_three",
    "Gopf.Props.c60_hkl_two"
   ],
   "note": "Matrix inverse."
  },
  {
   "property": "C61",
   "status": "proved",
   "theorems": [
    "Gopf.Props.c61_first_order",
    "Gopf.Props.c61_transpose",
    "Gopf.Props.c61_hkl"
   ],
   "note": "Matrix algebra."
  },
  {
   "property": "C62",
   "status": "proved",
   "theorems": [
    "Gopf.Props.c62_derivative",
    "Gopf.Props.c62_unit_prefactor",
    "Gopf.Props.c62_right_iff",
    "Gopf.Props.c62_energy",
    "Gopf.Props.c62_missing_field"
   ],
   "note": "Polynomial derivative; total spectrum of the mixed term via linearity and injectivity of the transform."
  },
  {
   "property": "C63",
   "status": "proved",
   "theorems": [
    "Gopf.Props.c63_octants",
    "Gopf.Props.c63_empty",
    "Gopf.Props.c63_single"
   ],
   "note": "On top of C03."
  },
  {
   "property": "C64",
   "status": "proved",
   "theorems": [
    "Gopf.Props.c64_keys",
    "Gopf.Props.c64_trailing_zero"
   ],
   "note": "String injectivity."
  },
  {
   "property": "C65",
   "status": "proved",
   "theorems": [
    "Gopf.Props.c65_constructed",
    "Gopf.Props.c65_drawn",
    "Gopf.Props.c65_transposed",
    "Gopf.Props.c65_right_iff"
   ],
   "note": "`NewHeatMapData` with checked slice access on the rows in the order of C37; exact characterisation of the domain sizes with a right picture."
  },
  {
   "property": "C66",
   "status": "proved",
   "theorems": [
    "Gopf.Props.c66_short",
    "Gopf.Props.c66_full_line_panics",
    "Gopf.Props.c66_two_lines",
    "Gopf.Props.c66_rest_is_line",
    "Gopf.Props.c66_end_lost",
    "Gopf.Props.c66_long_word_panics",
    "Gopf.Props.c66_printed_twice"
   ],
   "note": "Refuted in general; exact behaviour for comments below 192 characters with the position of the last blank as parameter."
  },
  {
   "property": "C67",
   "status": "proved",
   "theorems": [
    "Gopf.Props.c67_printList",
    "Gopf.Props.c67_attributeTables"
   ],
   "note": "Padding and borders of the tables are not modelled."
  },
  {
   "property": "C68",
   "status": "proved",
   "theorems": [
    "Gopf.Props.c68_ball",
    "Gopf.Props.c68_box"
   ],
   "note": "Truncation as floor/ceiling of reals."
  },
  {
   "property": "C79",
   "status": "proved",
   "theorems": [
    "Gopf.Props.c79_equilibrium",
    "Gopf.Props.c79_cubic_fails",
    "Gopf.Props.c79_cubic_iff"
   ],
   "note": "Per Fourier bin; the linear solver is multiplication by the inverse matrix. Counterexample with `CubicMaterial(2,1,1)`."
  },
  {
   "property": "C80",
   "status": "proved",
   "theorems": [
    "Gopf.Props.c80_perturbed_force",
    "Gopf.Props.c80_isotropic_fails"
   ],
   "note": "Per Fourier bin of a three dimensional domain; exact characterisation of agreement."
  },
  {
   "property": "C81",
   "status": "proved",
   "theorems": [
    "Gopf.Props.c81_build",
    "Gopf.Props.c81_degree",
    "Gopf.Props.c81_energy",
    "Gopf.Props.c81_max",
    "Gopf.Props.c81_truncation"
   ],
   "note": "Association list for the term map; quadrature rules of gonum are an arbitrary finite rule, its order 32 as in the code. The sum over index tuples is expanded by induction (`allTuples_sum`)."
  },
  {
   "property": "C82",
   "status": "proved",
   "theorems": [
    "Gopf.Props.c82_gradient",
    "Gopf.Props.c82_hessian"
   ],
   "note": "`HasDerivAt` of the polynomial along each coordinate."
  },
  {
   "property": "C83",
   "status": "proved",
   "theorems": [
    "Gopf.Props.c83_gradient",
    "Gopf.Props.c83_widths",
    "Gopf.Props.c83_start"
   ],
   "note": "`HasDerivAt`; the start vector as a list with checked indexing."
  },
  {
   "property": "C84",
   "status": "proved",
   "theorems": [
    "Gopf.Props.c84_voigt",
    "Gopf.Props.c84_squared_length",
    "Gopf.Props.c84_nonneg",
    "Gopf.Props.c84_bulk_invariant",
    "Gopf.Props.c84_shear_depends_on_choice"
   ],
   "note": "The documentation calls the weights Reuss averages."
  },
  {
   "property": "C88",
   "status": "proved",
   "theorems": [
    "Gopf.Props.c88_fcc",
    "Gopf.Props.c88_bcc",
    "Gopf.Props.c88_volumes",
    "Gopf.Props.c88_triangular_lengths",
    "Gopf.Props.c88_triangular_is_square"
   ],
   "note": "Integer combinations of the columns."
  },
  {
   "property": "C89",
   "status": "proved",
   "theorems": [
    "Gopf.Props.c89_value",
    "Gopf.Props.c89_right_iff"
   ],
   "note": "Sorting via insertion sort; real square roots."
  },
  {
   "property": "C90",
   "status": "proved",
   "theorems": [
    "Gopf.Props.c90_representative",
    "Gopf.Props.c90_periodic",
    "Gopf.Props.c90_cubic_symmetry",
    "Gopf.Props.c90_maximum",
    "Gopf.Props.c90_two_dimensions"
   ],
   "note": "Permutation of the list of equivalent indices (C58) under the symmetry operations."
  },
  {
   "property": "C91",
   "status": "proved",
   "theorems": [
    "Gopf.Props.c91_best"
   ],
   "note": "Fold over the start vectors; the minimiser of gonum is an arbitrary function."
  },
  {
   "property": "C72",
   "status": "proved",
   "theorems": [
    "Gopf.Props.c72_explicit",
    "Gopf.Props.c72_gradient"
   ],
   "note": "Energy rewritten with Parseval's identity as a real quadratic form in Fourier space."
  },
  {
   "property": "C85",
   "status": "proved",
   "theorems": [
    "Gopf.Props.c85_maximum",
    "Gopf.Props.c85_range",
    "Gopf.Props.c85_at_peak",
    "Gopf.Props.c85_temperature",
    "Gopf.Props.c85_order",
    "Gopf.Props.c85_square"
   ],
   "note": "Fold over the peaks; real exponentials."
  },
  {
   "property": "C86",
   "status": "proved",
   "theorems": [
    "Gopf.Props.c86_interpolation",
    "Gopf.Props.c86_pure_phase",
    "Gopf.Props.c86_overwrites_argument",
    "Gopf.Props.c86_two_functions"
   ],
   "note": "The transform works in place, so the result is paired with the final content of the argument."
  },
  {
   "property": "C87",
   "status": "proved",
   "theorems": [
    "Gopf.Props.c87_derivative",
    "Gopf.Props.c87_smooth",
    "Gopf.Props.c87_shape"
   ],
   "note": "One sided derivatives glued at 0 and 1."
  },
  {
   "property": "C92",
   "status": "proved",
   "theorems": [
    "Gopf.Props.c92_not_triangular",
    "Gopf.Props.c92_height",
    "Gopf.Props.c92_not_library_cell"
   ],
   "note": "Irrationality-free: an integer equation modulo 4 and 2."
  },
  {
   "property": "C93",
   "status": "proved",
   "theorems": [
    "Gopf.Props.c93_x_line",
    "Gopf.Props.c93_y_line",
    "Gopf.Props.c93_z_line",
    "Gopf.Props.c93_accepts_iff"
   ],
   "note": "Permutation of lists; membership of nodes from C03."
  },
  {
   "property": "C94",
   "status": "proved",
   "theorems": [
    "Gopf.Props.c94_export",
    "Gopf.Props.c94_recorded",
    "Gopf.Props.c94_missing_is_zero"
   ],
   "note": "Hypothesis: recorded time steps are not negative (otherwise the command panics)."
  },
  {
   "property": "C95",
   "status": "proved",
   "theorems": [
    "Gopf.Props.c95_all_steps"
   ],
   "note": "Injectivity of the decimal representation (C42)."
  },
  {
   "property": "C96",
   "status": "proved",
   "theorems": [
    "Gopf.Props.c96_shown",
    "Gopf.Props.c96_own_comment",
    "Gopf.Props.c96_stale"
   ],
   "note": "Loop with the variable carried over; exact characterisation by induction."
  },
  {
   "property": "C69",
   "status": "proved",
   "theorems": [
    "Gopf.Props.c69_point_source"
   ],
   "note": "`Source.eval` compared with the transform of a delta at the node; the phases agree up to integers."
  },
  {
   "property": "C70",
   "status": "proved",
   "theorems": [
    "Gopf.Props.c70_plane_wave",
    "Gopf.Props.c70_linear"
   ],
   "note": "`gradCalculate` in terms of the modelled transform; frequencies are within 1e-10 of one half only if they equal it (sides up to 10^9)."
  },
  {
   "property": "C71",
   "status": "proved",
   "theorems": [
    "Gopf.Props.c71_real",
    "Gopf.Props.c71_keep_nyquist",
    "Gopf.Props.c71_sum"
   ],
   "note": "Conjugate symmetry of the factor; the zero bin of the factor vanishes."
  },
  {
   "property": "C73",
   "status": "proved",
   "theorems": [
    "Gopf.Props.c73_divergence",
    "Gopf.Props.c73_constant",
    "Gopf.Props.c73_dissipation",
    "Gopf.Props.c73_not_real",
    "Gopf.Props.c73_even_side"
   ],
   "note": "`divGradTerm` puts together the derived fields registered by `PrepareModel` and the closure of `Construct`; integration by parts through Parseval."
  },
  {
   "property": "C74",
   "status": "proved",
   "theorems": [
    "Gopf.Props.c74_value",
    "Gopf.Props.c74_constant",
    "Gopf.Props.c74_real",
    "Gopf.Props.c74_total"
   ],
   "note": "`advection` puts together the derived field registered by `PrepareModel` and the closure of `Construct`."
  },
  {
   "property": "C78",
   "status": "proved",
   "theorems": [
    "Gopf.Props.c78_relaxation",
    "Gopf.Props.c78_factor",
    "Gopf.Props.c78_ohm"
   ],
   "note": "`chargeTransport` for constant isotropic conductivity computed bin by bin; `currentOf` for constant density."
  },
  {
   "property": "C97",
   "status": "proved",
   "theorems": [
    "Gopf.Props.c97_step",
    "Gopf.Props.c97_euler",
    "Gopf.Props.c97_first",
    "Gopf.Props.c97_wrong_order"
   ],
   "note": "Registered functions read fields and scalars only; for equations that use an earlier field linearly see C22."
  },
  {
   "property": "C75",
   "status": "proved",
   "theorems": [
    "Gopf.Props.c75_start",
    "Gopf.Props.c75_total",
    "Gopf.Props.c75_tail",
    "Gopf.Props.c75_antitone",
    "Gopf.Props.c75_symmetry",
    "Gopf.Props.c75_order_one",
    "Gopf.Props.c75_negative",
    "Gopf.Props.c75_close",
    "Gopf.Props.c75_modal_weak",
    "Gopf.Props.c75_mean"
   ],
   "note": "Filter strength on grids: refuted for 2D (never more than half is removed)."
  },
  {
   "property": "C76",
   "status": "proved",
   "theorems": [
    "Gopf.Props.c76_bin",
    "Gopf.Props.c76_step",
    "Gopf.Props.c76_linear",
    "Gopf.Props.c76_converse",
    "Gopf.Props.c76_not_backward_euler"
   ],
   "note": "The solver (gononlin Newton-Krylov) is a parameter; the hypothesis is that it returns a zero."
  },
  {
   "property": "C77",
   "status": "proved",
   "theorems": [
    "Gopf.Props.c77_field_free",
    "Gopf.Props.c77_affine",
    "Gopf.Props.c77_difference",
    "Gopf.Props.c77_one_frequency",
    "Gopf.Props.c77_scalar_rejected",
    "Gopf.Props.c77_init"
   ],
   "note": "Exact characterisation for affine terms; the intended property is refuted in both directions."
  },
  {
   "property": "C98",
   "status": "proved",
   "theorems": [
    "Gopf.Props.c98_accepted",
    "Gopf.Props.c98_hidden_laplacian",
    "Gopf.Props.c98_overlap"
   ],
   "note": "Through the prefix reader of C15; the parser model for the hidden Laplacian."
  },
  {
   "property": "C99",
   "status": "proved",
   "theorems": [
    "Gopf.Props.c99_number",
    "Gopf.Props.c99_contains",
    "Gopf.Props.c99_not_field_number"
   ],
   "note": "The hidden mismatch is shown with a two field model."
  },
  {
   "property": "C100",
   "status": "proved",
   "theorems": [
    "Gopf.Props.c100_change",
    "Gopf.Props.c100_bounded",
    "Gopf.Props.c100_constant",
    "Gopf.Props.c100_minus"
   ],
   "note": "Hypotheses (structure `VolumeSetting`): derived fields are functions of the fields, the equation reads no field updated before it, has no modifiers, no filter."
  },
  {
   "property": "C101",
   "status": "proved",
   "theorems": [
    "Gopf.Props.c101_explicit",
    "Gopf.Props.c101_implicit",
    "Gopf.Props.c101_mixed",
    "Gopf.Props.c101_implicit_wins",
    "Gopf.Props.c101_other_powers"
   ],
   "note": "Accepted names that do not begin with `^`; additional derived fields of a registration are the subject of C20."
  },
  {
   "property": "C102",
   "status": "proved",
   "theorems": [
    "Gopf.Props.c102_value",
    "Gopf.Props.c102_real",
    "Gopf.Props.c102_energy",
    "Gopf.Props.c102_zero_iff"
   ],
   "note": "`squaredGradient` models the closure; compared with the gradient calculator (C70, C71); Parseval for the zero bin."
  },
  {
   "property": "C103",
   "status": "proved",
   "theorems": [
    "Gopf.Props.c103_initial",
    "Gopf.Props.c103_update",
    "Gopf.Props.c103_variational_quiet",
    "Gopf.Props.c103_variational",
    "Gopf.Props.c103_isotropic"
   ],
   "note": "With even sides the displacement equation keeps the components of the highest frequency that the strain drops. There the theorem needs an indicator without content in those bins; in general it fails, the term need not even be real (`c154_even_not`)."
  },
  {
   "property": "C104",
   "status": "proved",
   "theorems": [
    "Gopf.Props.c104_upper",
    "Gopf.Props.c104_even",
    "Gopf.Props.c104_energy",
    "Gopf.Props.c104_bounds",
    "Gopf.Props.c104_quiet_iff",
    "Gopf.Props.c104_blocks"
   ],
   "note": "The loops over strain components are reduced to the strain of C103. On every domain the calculated strain is that of a real displacement field (`Proofs/ElasticAny.lean`), so the returned energy is one of those over which the elastic energy is the minimum; the minimum exists because the least displacement is written down bin by bin (`leastDisp`) and has no virtual work. `c104_even` calculates both energies for stripes on a 4 times 2 grid. `Props/QuietLines.lean`: bins of the highest frequency of an axis are alternating sums along the lines of the axis; the other waves cancel along each line (shift by one node), which gives the converse."
  },
  {
   "property": "C105",
   "status": "proved",
   "theorems": [
    "Gopf.Props.c105_rotate",
    "Gopf.Props.c105_values",
    "Gopf.Props.c105_zero",
    "Gopf.Props.c105_quarter",
    "Gopf.Props.c105_full_turn",
    "Gopf.Props.c105_panics",
    "Gopf.Props.c105_tilt"
   ],
   "note": "`Grid.rotate2D` and `Pfc.tiltGB` over the reals; the index arithmetic of C01-C04 gives the content node by node."
  },
  {
   "property": "C106",
   "status": "proved",
   "theorems": [
    "Gopf.Props.c106_origins",
    "Gopf.Props.c106_left_handed",
    "Gopf.Props.c106_swapped",
    "Gopf.Props.c106_square",
    "Gopf.Props.c106_value",
    "Gopf.Props.c106_small_kernel",
    "Gopf.Props.c106_gaussian",
    "Gopf.Props.c106_circle"
   ],
   "note": "Distances are those of the untruncated position; the position of the node is cut towards zero."
  },
  {
   "property": "C107",
   "status": "proved",
   "theorems": [
    "Gopf.Props.c107_euler_converges",
    "Gopf.Props.c107_text"
   ],
   "note": "Exact arithmetic; the error of the discretisation in space is not the subject. Existence of the solution u on [0,T] is a hypothesis here; it is the subject of C112."
  },
  {
   "property": "C108",
   "status": "proved",
   "theorems": [
    "Gopf.Props.c108_listing",
    "Gopf.Props.c108_zero",
    "Gopf.Props.c108_unique"
   ],
   "note": "Map traversal orders are arbitrary permutations (one for the ids, the same in all tables). The padding of the cells is not modelled."
  },
  {
   "property": "C109",
   "status": "proved",
   "theorems": [
    "Gopf.Props.c109_output",
    "Gopf.Props.c109_text_only"
   ],
   "note": "`Scan` converts column by column and stops at the first failure; this is how the stale id arises."
  },
  {
   "property": "C110",
   "status": "proved",
   "theorems": [
    "Gopf.Props.c110_last",
    "Gopf.Props.c110_shown",
    "Gopf.Props.c110_update",
    "Gopf.Props.c110_lost"
   ],
   "note": "Induction over the history. The wrapped listing of all comments is C66."
  },
  {
   "property": "C111",
   "status": "proved",
   "theorems": [
    "Gopf.Props.c111_converges",
    "Gopf.Props.c111_fourth_order",
    "Gopf.Props.c111_only_implicit",
    "Gopf.Props.c111_time_dependent",
    "Gopf.Props.c111_solver",
    "Gopf.Props.c111_solver_time_dependent",
    "Gopf.Props.c111_text",
    "Gopf.Props.c111_text_fourth_order",
    "Gopf.Props.c111_scheme"
   ],
   "note": "Exact arithmetic; existence of the solution u on [0,T] is a hypothesis (see C112). The fourth order statement is for the spectrum as a real differentiable function of all bins."
  },
  {
   "property": "C112",
   "status": "proved",
   "theorems": [
    "Gopf.Props.c112_unique",
    "Gopf.Props.c112_exists",
    "Gopf.Props.c112_euler_bounded",
    "Gopf.Props.c112_rk4_bounded",
    "Gopf.Props.c112_steppers_agree",
    "Gopf.Props.c112_blow_up",
    "Gopf.Props.c112_text"
   ],
   "note": "Exact arithmetic."
  },
  {
   "property": "C113",
   "status": "proved",
   "theorems": [
    "Gopf.Props.c113_monitor",
    "Gopf.Props.c113_derived",
    "Gopf.Props.c113_panics",
    "Gopf.Props.c113_split",
    "Gopf.Props.c113_choice",
    "Gopf.Props.c113_new",
    "Gopf.Props.c113_time",
    "Gopf.Props.c113_next",
    "Gopf.Props.c113_choose_again",
    "Gopf.Props.c113_choose_again_time"
   ],
   "note": "Callbacks, and the bookkeeping of registered terms at the end of a step, are in C26."
  },
  {
   "property": "C114",
   "status": "proved",
   "theorems": [
    "Gopf.Props.c114_exists",
    "Gopf.Props.c114_euler",
    "Gopf.Props.c114_rk4",
    "Gopf.Props.c114_session",
    "Gopf.Props.c114_text",
    "Gopf.Props.c114_equations",
    "Gopf.Props.c114_source"
   ],
   "note": "On the domains where the frequencies agree with the bins of the transform (all 2D and all cubic 3D domains, C10)."
  },
  {
   "property": "C115",
   "status": "proved",
   "theorems": [
    "Gopf.Props.c115_symmetric",
    "Gopf.Props.c115_uniform",
    "Gopf.Props.c115_free",
    "Gopf.Props.c115_euler"
   ],
   "note": "As C114."
  },
  {
   "property": "C116",
   "status": "proved",
   "theorems": [
    "Gopf.Props.c116_euler",
    "Gopf.Props.c116_rk4",
    "Gopf.Props.c116_session",
    "Gopf.Props.c116_text"
   ],
   "note": "Terms registered by the user and modifiers are in C23."
  },
  {
   "property": "C117",
   "status": "proved",
   "theorems": [
    "Gopf.Props.c117_euler",
    "Gopf.Props.c117_rk4",
    "Gopf.Props.c117_session",
    "Gopf.Props.c117_text",
    "Gopf.Props.c117_root"
   ],
   "note": "On the domains where `ConjugateNode` is the conjugate bin (all 2D and all cubic 3D domains, C10)."
  },
  {
   "property": "C118",
   "status": "proved",
   "theorems": [
    "Gopf.Props.c118_whole_numbers",
    "Gopf.Props.c118_read",
    "Gopf.Props.c118_axis_name",
    "Gopf.Props.c118_contour",
    "Gopf.Props.c118_line_x",
    "Gopf.Props.c118_line_y",
    "Gopf.Props.c118_line_z"
   ],
   "note": "For fields that are not constant (gonum's colour map is taken to accept every value inside a proper range). That pixel (c, r) shows node r*N+c means that the picture is right only on domains one node thick (C65). Line plots: names that are different, not empty and not X, Y or Z."
  },
  {
   "property": "C119",
   "status": "proved",
   "theorems": [
    "Gopf.Props.c119_scaling",
    "Gopf.Props.c119_homogeneous_quiet",
    "Gopf.Props.c119_homogeneous",
    "Gopf.Props.c119_upper",
    "Gopf.Props.c119_inclusion_quiet",
    "Gopf.Props.c119_inclusion",
    "Gopf.Props.c119_proportional",
    "Gopf.Props.c119_same",
    "Gopf.Props.c119_empty",
    "Gopf.Props.c119_defined",
    "Gopf.Props.c119_ellipsoid"
   ],
   "note": "The value for even domain sizes needs an ellipsoid without content at the highest frequencies, as C104. It is without correction; what the correction does to the force is C80."
  },
  {
   "property": "C120",
   "status": "proved",
   "theorems": [
    "Gopf.Props.c120_info_table",
    "Gopf.Props.c120_info_distinct",
    "Gopf.Props.c120_times",
    "Gopf.Props.c120_newest_first",
    "Gopf.Props.c120_listed",
    "Gopf.Props.c120_remark",
    "Gopf.Props.c120_newest",
    "Gopf.Props.c120_newest_empty",
    "Gopf.Props.c120_same_second",
    "Gopf.Props.c120_set_back",
    "Gopf.Props.c120_time",
    "Gopf.Props.c120_drawn_again",
    "Gopf.Props.c120_info",
    "Gopf.Props.c120_info_empty",
    "Gopf.Props.c120_info_lines",
    "Gopf.Props.c120_info_list"
   ],
   "note": "Years 0 to 9999. The printed table of `info` is modelled character by character (names as characters, not bytes), the others by their rows."
  },
  {
   "property": "C121",
   "status": "proved",
   "theorems": [
    "Gopf.Props.c121_advection_same_name",
    "Gopf.Props.c121_divgrad",
    "Gopf.Props.c121_prepare",
    "Gopf.Props.c121_divgrad_same_field",
    "Gopf.Props.c121_advection",
    "Gopf.Props.c121_velocity_replaced",
    "Gopf.Props.c121_advection_twice",
    "Gopf.Props.c121_noise",
    "Gopf.Props.c121_noise_one_at_a_time",
    "Gopf.Props.c121_text",
    "Gopf.Props.c121_step",
    "Gopf.Props.c121_diffusion",
    "Gopf.Props.c121_conserved",
    "Gopf.Props.c121_scalar",
    "Gopf.Props.c121_field"
   ],
   "note": "What F is for a brick that is a derived field registered later is not claimed (it is the transform left by the step before, as in `c121_advection_twice`). The random numbers of the noise are one arbitrary array per component and step. `DivGrad` and `Advection` do not satisfy the interface of `RegisterExplicitTerm` (their `OnStepFinished` has another signature), so a caller has to wrap them; the theorems are about `Construct` registered in such a wrapper."
  },
  {
   "property": "C122",
   "status": "proved",
   "theorems": [
    "Gopf.Props.c122_restart",
    "Gopf.Props.c122_monitor",
    "Gopf.Props.c122_text",
    "Gopf.Props.c122_time",
    "Gopf.Props.c122_files",
    "Gopf.Props.c122_epoch_files",
    "Gopf.Props.c122_database"
   ],
   "note": "Numbers are exact, so `bits` and `value` are arbitrary functions that agree on the numbers saved. Monitors of derived fields are excluded (they read the transforms left by the last step). A database must have at least two nodes and, for the read back, no crashed save."
  },
  {
   "property": "C123",
   "status": "proved",
   "theorems": [
    "Gopf.Props.c123_field",
    "Gopf.Props.c123_saddle",
    "Gopf.Props.c123_turning",
    "Gopf.Props.c123_orientation",
    "Gopf.Props.c123_stationary"
   ],
   "note": "The rates are real and equal for a wave and its conjugate (`Hermitian`), as for every equation given as text with real scalars and even operators. For `dt lam = 1` the code divides by zero in the intermediate diagonal inverse although the system it solves is regular. Several fields are excluded (C34)."
  },
  {
   "property": "C124",
   "status": "proved",
   "theorems": [
    "Gopf.Props.c124_max_force",
    "Gopf.Props.c124_power",
    "Gopf.Props.c124_power_zero",
    "Gopf.Props.c124_max_torque",
    "Gopf.Props.c124_torque",
    "Gopf.Props.c124_ready",
    "Gopf.Props.c124_norm",
    "Gopf.Props.c124_settles",
    "Gopf.Props.c124_log",
    "Gopf.Props.c124_save",
    "Gopf.Props.c124_reload"
   ],
   "note": "`%f` of the log is an arbitrary function of the number; the orientation written to the file is rational. The doc comment calls ForcePowerSpectrum the real space integral of the force and FieldNorm an L2 norm; it is a root mean square and a squared norm."
  },
  {
   "property": "C125",
   "status": "proved",
   "theorems": [
    "Gopf.Props.c125_waves",
    "Gopf.Props.c125_real",
    "Gopf.Props.c125_shrinks",
    "Gopf.Props.c125_above",
    "Gopf.Props.c125_dies",
    "Gopf.Props.c125_text",
    "Gopf.Props.c125_growth_lost"
   ],
   "note": "`growthRate` is written from the equation alone. The condition dt r != 1 excludes a division by zero, after which the Go program continues with infinities."
  },
  {
   "property": "C126",
   "status": "proved",
   "theorems": [
    "Gopf.Props.c126_unstable",
    "Gopf.Props.c126_leaves",
    "Gopf.Props.c126_demixing",
    "Gopf.Props.c126_waves",
    "Gopf.Props.c126_stable",
    "Gopf.Props.c126_conserved",
    "Gopf.Props.c126_limit",
    "Gopf.Props.c126_cahn_hilliard",
    "Gopf.Props.c126_spinodal"
   ],
   "note": "No filter. `linearisedRate` and `implicitRate` are written from the equation alone. The neighbourhood is not quantified (exists delta)."
  },
  {
   "property": "C127",
   "status": "proved",
   "theorems": [
    "Gopf.Props.c127_solution",
    "Gopf.Props.c127_fluctuations",
    "Gopf.Props.c127_stationary",
    "Gopf.Props.c127_vanishes",
    "Gopf.Props.c127_corrected",
    "Gopf.Props.c127_walk"
   ],
   "note": "Euler stepper, no filter, one field and one noise function. `rand.NormFloat64` is idealised as independent standard normal numbers. The statement about the documented correlation function is false of the code; the theorems give what the code does and how the strength has to be scaled."
  },
  {
   "property": "C128",
   "status": "proved",
   "theorems": [
    "Gopf.Props.c128_spectrum",
    "Gopf.Props.c128_step",
    "Gopf.Props.c128_conserved",
    "Gopf.Props.c128_operator_in_front",
    "Gopf.Props.c128_coupled"
   ],
   "note": "Registered functions are stateless. `RegisteredAs` says which map wins if a name is registered more than once. No filter in `c128_step`; it asks that the equation reads no field that was stepped earlier (C22); `c128_coupled` has no such condition and no condition on the filter, and says which values the terms see instead (used for a program with two fields in C146)."
  },
  {
   "property": "C129",
   "status": "proved",
   "theorems": [
    "Gopf.Props.c129_text",
    "Gopf.Props.c129_step",
    "Gopf.Props.c129_fluctuations",
    "Gopf.Props.c129_stationary",
    "Gopf.Props.c129_power",
    "Gopf.Props.c129_shared",
    "Gopf.Props.c129_diffusion",
    "Gopf.Props.c129_equilibrium",
    "Gopf.Props.c129_others"
   ],
   "note": "Euler stepper, no filter, one noise term. `rand.NormFloat64` is idealised as independent standard normal numbers. The documented correlation function (delta in time) would need a strength divided by the time step, as for C127."
  },
  {
   "property": "C130",
   "status": "proved",
   "theorems": [
    "Gopf.Props.c130_monitors",
    "Gopf.Props.c130_xml",
    "Gopf.Props.c130_series",
    "Gopf.Props.c130_files",
    "Gopf.Props.c130_big_endian",
    "Gopf.Props.c130_orientation",
    "Gopf.Props.c130_scrambled",
    "Gopf.Props.c130_times",
    "Gopf.Props.c130_geometry",
    "Gopf.Props.c130_mesh",
    "Gopf.Props.c130_session"
   ],
   "note": "Texts of floats in JSON are a parameter that yields JSON numbers; infinities and NaN (which encoding/json refuses) do not occur. Non-ASCII line separators and invalid UTF-8 in JSON are not modelled. The orientation in three dimensions and the time item are wrong in the code; the theorems say what is written."
  },
  {
   "property": "C131",
   "status": "proved",
   "theorems": [
    "Gopf.Props.c131_step",
    "Gopf.Props.c131_rest",
    "Gopf.Props.c131_gradient",
    "Gopf.Props.c131_cahn_hilliard"
   ],
   "note": "Euler stepper, no filter, one field, natural powers. The time step of the statement about all steps is not computed; the one-step limit is explicit."
  },
  {
   "property": "C132",
   "status": "proved",
   "theorems": [
    "Gopf.Props.c132_step",
    "Gopf.Props.c132_rest",
    "Gopf.Props.c132_wave",
    "Gopf.Props.c132_energy",
    "Gopf.Props.c132_bounded",
    "Gopf.Props.c132_unstable",
    "Gopf.Props.c132_simultaneous",
    "Gopf.Props.c132_time_step",
    "Gopf.Props.c132_wave_bounded",
    "Gopf.Props.c132_wave_unstable"
   ],
   "note": "Euler stepper."
  },
  {
   "property": "C133",
   "status": "proved",
   "theorems": [
    "Gopf.Props.c133_second_order",
    "Gopf.Props.c133_first_order",
    "Gopf.Props.c133_found",
    "Gopf.Props.c133_found_first_order",
    "Gopf.Props.c133_text",
    "Gopf.Props.c133_time_dependent",
    "Gopf.Props.c133_pair"
   ],
   "note": "The solver (package gononlin) is a parameter; what it leaves over is measured entry by entry. Exact real arithmetic."
  },
  {
   "property": "C134",
   "status": "proved",
   "theorems": [
    "Gopf.Props.c134_step",
    "Gopf.Props.c134_unique",
    "Gopf.Props.c134_diverges",
    "Gopf.Props.c134_cycles",
    "Gopf.Props.c134_bounded",
    "Gopf.Props.c134_large_steps",
    "Gopf.Props.c134_repels",
    "Gopf.Props.c134_solution"
   ],
   "note": "The solver is a parameter that returns a zero whenever there is one; such a solver exists."
  },
  {
   "property": "C135",
   "status": "proved",
   "theorems": [
    "Gopf.Props.c135_euler",
    "Gopf.Props.c135_rk4",
    "Gopf.Props.c135_rk4_fourth_order",
    "Gopf.Props.c135_best_step",
    "Gopf.Props.c135_sharp"
   ],
   "note": "delta is a hypothesis: it is not derived from the float64 format, because the errors of FFTW are not modelled."
  },
  {
   "property": "C136",
   "status": "proved",
   "theorems": [
    "Gopf.Props.c136_gradient",
    "Gopf.Props.c136_scheme",
    "Gopf.Props.c136_step",
    "Gopf.Props.c136_run",
    "Gopf.Props.c136_exists",
    "Gopf.Props.c136_constants",
    "Gopf.Props.c136_too_large"
   ],
   "note": "Euler stepper, no filter. The random start is any start."
  },
  {
   "property": "C137",
   "status": "proved",
   "theorems": [
    "Gopf.Props.c137_explicit",
    "Gopf.Props.c137_explicit_limit",
    "Gopf.Props.c137_energy",
    "Gopf.Props.c137_small_steps",
    "Gopf.Props.c137_implicit",
    "Gopf.Props.c137_unique",
    "Gopf.Props.c137_several"
   ],
   "note": "The RK4 runs of the program are not covered. Explicit boundedness above the energy limits is shown for uniform starts only."
  },
  {
   "property": "C138",
   "status": "proved",
   "theorems": [
    "Gopf.Props.c138_length",
    "Gopf.Props.c138_displacement",
    "Gopf.Props.c138_limit",
    "Gopf.Props.c138_limit_dimer"
   ],
   "note": "One field: with several fields the force of the first is used for all (C34). That runs converge is a hypothesis; for linear equations near a saddle point it is proved in C123."
  },
  {
   "property": "C139",
   "status": "proved",
   "theorems": [
    "Gopf.Props.c139_rest",
    "Gopf.Props.c139_force",
    "Gopf.Props.c139_limit",
    "Gopf.Props.c139_weight",
    "Gopf.Props.c139_orientation",
    "Gopf.Props.c139_droplet",
    "Gopf.Props.c139_small_grids",
    "Gopf.Props.c139_size"
   ],
   "note": "That the weighted energy of the documentation has other critical points than the homogeneous one is not proved. Division by the length zero gives NaN in Go; in the model only the length is stated."
  },
  {
   "property": "C140",
   "status": "proved",
   "theorems": [
    "Gopf.Props.c140_observer",
    "Gopf.Props.c140_gradient",
    "Gopf.Props.c140_assembles",
    "Gopf.Props.c140_step",
    "Gopf.Props.c140_energy",
    "Gopf.Props.c140_program",
    "Gopf.Props.c140_rest",
    "Gopf.Props.c140_uniform",
    "Gopf.Props.c140_files"
   ],
   "note": "Euler stepper, no filter. The random start is any start. That the density stays between -1 and 2 is a hypothesis of the statement with the program's time step. The energies appended to the csv file are not modelled."
  },
  {
   "property": "C141",
   "status": "proved",
   "theorems": [
    "Gopf.Props.c141_assembles",
    "Gopf.Props.c141_converges",
    "Gopf.Props.c141_power",
    "Gopf.Props.c141_reciprocal",
    "Gopf.Props.c141_least",
    "Gopf.Props.c141_unique",
    "Gopf.Props.c141_bounds",
    "Gopf.Props.c141_monotone",
    "Gopf.Props.c141_sharp"
   ],
   "note": "Exact arithmetic; the conductivity is given per node (C142 models the function of the example that produces it). `lo` and `hi` bound the quadratic form of the tensor as `ChargeTransport` reads it (C49). The regularisation 1e-16 and the omitted Nyquist components are kept."
  },
  {
   "property": "C142",
   "status": "proved",
   "theorems": [
    "Gopf.Props.c142_fields",
    "Gopf.Props.c142_empty",
    "Gopf.Props.c142_range",
    "Gopf.Props.c142_covered",
    "Gopf.Props.c142_mixture",
    "Gopf.Props.c142_two_grains",
    "Gopf.Props.c142_one_grain",
    "Gopf.Props.c142_rotated",
    "Gopf.Props.c142_conducting",
    "Gopf.Props.c142_labels",
    "Gopf.Props.c142_weights",
    "Gopf.Props.c142_program"
   ],
   "note": "The fields are kept as real lists. The labels are given as a list of the length of the grid. 0/0 (NaN in Go) is modelled as no value."
  },
  {
   "property": "C143",
   "status": "proved",
   "theorems": [
    "Gopf.Props.c143_assembles",
    "Gopf.Props.c143_total",
    "Gopf.Props.c143_spreads",
    "Gopf.Props.c143_converges",
    "Gopf.Props.c143_peak",
    "Gopf.Props.c143_undershoot",
    "Gopf.Props.c143_monitor"
   ],
   "note": "Exact arithmetic; Euler stepper without filter. For larger time steps than 2/pi^2 the sign is not decided. The files of the program are C39 to C42."
  },
  {
   "property": "C144",
   "status": "proved",
   "theorems": [
    "Gopf.Props.c144_inside",
    "Gopf.Props.c144_uniform",
    "Gopf.Props.c144_empty",
    "Gopf.Props.c144_rows",
    "Gopf.Props.c144_columns",
    "Gopf.Props.c144_limit",
    "Gopf.Props.c144_writer",
    "Gopf.Props.c144_program"
   ],
   "note": "Exact arithmetic, in which the argument of the root is never negative inside the grid; 0/0 is modelled as no value. The database is C35 to C38."
  },
  {
   "property": "C145",
   "status": "proved",
   "theorems": [
    "Gopf.Props.c145_third",
    "Gopf.Props.c145_steepens",
    "Gopf.Props.c145_assembles",
    "Gopf.Props.c145_step",
    "Gopf.Props.c145_mean",
    "Gopf.Props.c145_real",
    "Gopf.Props.c145_shift",
    "Gopf.Props.c145_growth",
    "Gopf.Props.c145_small",
    "Gopf.Props.c145_noise",
    "Gopf.Props.c145_strength"
   ],
   "note": "Exact arithmetic; the noise is a parameter of the steps, and its law is assumed for the statements about mean and mean square. The files the program writes are not part of it."
  },
  {
   "property": "C146",
   "status": "proved",
   "theorems": [
    "Gopf.Props.c146_elastic_real",
    "Gopf.Props.c146_elastic_none",
    "Gopf.Props.c146_solvable",
    "Gopf.Props.c146_reaction",
    "Gopf.Props.c146_run",
    "Gopf.Props.c146_unique",
    "Gopf.Props.c146_conc_total",
    "Gopf.Props.c146_conc_volume",
    "Gopf.Props.c146_first",
    "Gopf.Props.c146_volume",
    "Gopf.Props.c146_interface",
    "Gopf.Props.c146_pure",
    "Gopf.Props.c146_real",
    "Gopf.Props.c146_square",
    "Gopf.Props.c146_program"
   ],
   "note": "Exact arithmetic: 0/0 is zero in the model of the multiplier, NaN in Go. `CubicMaterial` leaves out C_ijji (C79), so the variational theorem of C103 does not apply to this program. Files and `Summarize` are not modelled."
  },
  {
   "property": "C147",
   "status": "proved",
   "theorems": [
    "Gopf.Props.c147_assembles",
    "Gopf.Props.c147_step",
    "Gopf.Props.c147_total",
    "Gopf.Props.c147_energy",
    "Gopf.Props.c147_rest",
    "Gopf.Props.c147_stripes",
    "Gopf.Props.c147_widths",
    "Gopf.Props.c147_spinodal",
    "Gopf.Props.c147_mixes",
    "Gopf.Props.c147_program"
   ],
   "note": "Exact arithmetic; Euler stepper without filter, as in the program. That no run from values in [-1,1) leaves [-1.97,1.97] is not proved. Random numbers and files are not modelled."
  },
  {
   "property": "C148",
   "status": "proved",
   "theorems": [
    "Gopf.Props.c148_chain",
    "Gopf.Props.c148_box",
    "Gopf.Props.c148_ball",
    "Gopf.Props.c148_figures",
    "Gopf.Props.c148_example_figures",
    "Gopf.Props.c148_disjoint",
    "Gopf.Props.c148_program"
   ],
   "note": "Exact arithmetic (no node lies on an edge of the turned figures, so rounding matters only for edges along the axes). Writing the file (`saveCsv`) is C40, not repeated here."
  },
  {
   "property": "C149",
   "status": "proved",
   "theorems": [
    "Gopf.Props.c149_order",
    "Gopf.Props.c149_value",
    "Gopf.Props.c149_program",
    "Gopf.Props.c149_dents",
    "Gopf.Props.c149_half_node"
   ],
   "note": "Exact arithmetic. The format of the files is not modelled."
  },
  {
   "property": "C150",
   "status": "proved",
   "theorems": [
    "Gopf.Props.c150_nodes",
    "Gopf.Props.c150_restores",
    "Gopf.Props.c150_drives_away",
    "Gopf.Props.c150_default"
   ],
   "note": "Exact arithmetic; Euler stepper without filter. The penalty together with other terms is not treated (each step is C97)."
  },
  {
   "property": "C151",
   "status": "proved",
   "theorems": [
    "Gopf.Props.c151_from",
    "Gopf.Props.c151_round_trip",
    "Gopf.Props.c151_view",
    "Gopf.Props.c151_view_length",
    "Gopf.Props.c151_file",
    "Gopf.Props.c151_three",
    "Gopf.Props.c151_two",
    "Gopf.Props.c151_other"
   ],
   "note": "Files are lists of records as in C40; complex numbers are pairs of rationals. That `NewField` keeps the array it is given without copying is not expressed."
  },
  {
   "property": "C152",
   "status": "proved",
   "theorems": [
    "Gopf.Props.c152_rest",
    "Gopf.Props.c152_only",
    "Gopf.Props.c152_width",
    "Gopf.Props.c152_thickness",
    "Gopf.Props.c152_energy",
    "Gopf.Props.c152_cahn_hilliard"
   ],
   "note": "A statement about the differential equations whose right-hand sides the model spells (C19, C97), on an unbounded line, not about a periodic grid."
  },
  {
   "property": "C153",
   "status": "proved",
   "theorems": [
    "Gopf.Props.c153_real",
    "Gopf.Props.c153_source",
    "Gopf.Props.c153_step",
    "Gopf.Props.c153_steps",
    "Gopf.Props.c153_drift",
    "Gopf.Props.c153_exact",
    "Gopf.Props.c153_filter",
    "Gopf.Props.c153_start",
    "Gopf.Props.c153_text"
   ],
   "note": "The non-linear solver is a parameter, as in C76 and C133; nothing is assumed about it except, where said, the size of what it leaves."
  },
  {
   "property": "C154",
   "status": "proved",
   "theorems": [
    "Gopf.Props.c154_mirror",
    "Gopf.Props.c154_isotropic",
    "Gopf.Props.c154_cubic",
    "Gopf.Props.c154_odd",
    "Gopf.Props.c154_even_not"
   ],
   "note": "Exact arithmetic; singular linear systems as in C57."
  },
  {
   "property": "C155",
   "status": "proved",
   "theorems": [
    "Gopf.Props.c155_spreads",
    "Gopf.Props.c155_exact",
    "Gopf.Props.c155_breaks",
    "Gopf.Props.c155_text",
    "Gopf.Props.c155_time_steps",
    "Gopf.Props.c155_example"
   ],
   "note": "A complex number is finite or both parts are not finite, which is what Go's complex division by zero gives and what transforms keep. Overflow is not modelled. What terms do with numbers that are not finite is left open (`Extends` only fixes it for finite ones)."
  },
  {
   "property": "C156",
   "status": "proved",
   "theorems": [
    "Gopf.Props.c156_euler",
    "Gopf.Props.c156_rk4",
    "Gopf.Props.c156_foreign",
    "Gopf.Props.c156_run",
    "Gopf.Props.c156_shared",
    "Gopf.Props.c156_new_field",
    "Gopf.Props.c156_copy",
    "Gopf.Props.c156_user",
    "Gopf.Props.c156_overlap",
    "Gopf.Props.c156_shared_diffusion",
    "Gopf.Props.c156_shared_uniform"
   ],
   "note": "The steps of the other properties are therefore those of fields with separate memory. Slices may overlap partly; calculators of derived fields are taken to read before they write."
  },
  {
   "property": "C157",
   "status": "proved",
   "theorems": [
    "Gopf.Props.c157_values",
    "Gopf.Props.c157_unique",
    "Gopf.Props.c157_history",
    "Gopf.Props.c157_seen",
    "Gopf.Props.c157_seen_rk4",
    "Gopf.Props.c157_right_order",
    "Gopf.Props.c157_wrong_order",
    "Gopf.Props.c157_text",
    "Gopf.Props.c157_in_order"
   ],
   "note": "for RK4 the values seen are those of the last stage (`c157_seen_rk4`); the example is for Euler"
  },
  {
   "property": "C158",
   "status": "proved",
   "theorems": [
    "Gopf.Props.c158_function",
    "Gopf.Props.c158_out",
    "Gopf.Props.c158_refines",
    "Gopf.Props.c158_fields_only",
    "Gopf.Props.c158_history",
    "Gopf.Props.c158_left_behind"
   ],
   "note": ""
  },
  {
   "property": "C159",
   "status": "proved",
   "theorems": [
    "Gopf.Props.c159_waves",
    "Gopf.Props.c159_stable",
    "Gopf.Props.c159_conserved",
    "Gopf.Props.c159_leaves",
    "Gopf.Props.c159_limit",
    "Gopf.Props.c159_euler",
    "Gopf.Props.c159_gain",
    "Gopf.Props.c159_cahn_hilliard",
    "Gopf.Props.c159_worse"
   ],
   "note": "One field, no functions, no filter, whole powers. Exact arithmetic."
  },
  {
   "property": "C160",
   "status": "proved",
   "theorems": [
    "Gopf.Props.c160_all_steps",
    "Gopf.Props.c160_limit",
    "Gopf.Props.c160_large",
    "Gopf.Props.c160_every_step",
    "Gopf.Props.c160_shortcut",
    "Gopf.Props.c160_cahn_hilliard",
    "Gopf.Props.c160_cahn_hilliard_leaves",
    "Gopf.Props.c160_well",
    "Gopf.Props.c160_factor",
    "Gopf.Props.c160_stable",
    "Gopf.Props.c160_conserved",
    "Gopf.Props.c160_leaves"
   ],
   "note": "One field, no functions, whole real powers, real parameters. The solver is a parameter: any that returns a zero of the residual within ε of the state if there is one. If the implicit rate of the uniform wave is between 0 and 1e-5 in modulus and the state is not zero, the short formula moves the state of rest; this is excluded."
  },
  {
   "property": "C161",
   "status": "proved",
   "theorems": [
    "Gopf.Props.c161_pair_multiplier",
    "Gopf.Props.c161_pair_stable",
    "Gopf.Props.c161_pair_leaves",
    "Gopf.Props.c161_pair_small",
    "Gopf.Props.c161_stable",
    "Gopf.Props.c161_leaves",
    "Gopf.Props.c161_exact",
    "Gopf.Props.c161_predator_prey",
    "Gopf.Props.c161_trail"
   ],
   "note": "No functions, no filter, whole powers, 1 - dt a not zero for the implicit rates a. The multipliers are those of a stepwise evaluation; the determinant is written out for two equations (`c161_pair_multiplier`) only, where the signs of the coefficients decide (`c161_pair_stable`, `c161_pair_leaves`, `c161_pair_small`)."
  },
  {
   "property": "C162",
   "status": "proved",
   "theorems": [
    "Gopf.Props.c162_equation",
    "Gopf.Props.c162_no_effect",
    "Gopf.Props.c162_well",
    "Gopf.Props.c162_effect"
   ],
   "note": "The solver is a parameter; no claim about which solution gononlin finds from another starting point."
  },
  {
   "property": "C163",
   "status": "proved",
   "theorems": [
    "Gopf.Props.c163_waves",
    "Gopf.Props.c163_harmless",
    "Gopf.Props.c163_reaction",
    "Gopf.Props.c163_turing",
    "Gopf.Props.c163_alike"
   ],
   "note": "Terms with a Laplacian of the other field or of a product are covered by C161 only. At product zero nothing is claimed."
  },
  {
   "property": "C164",
   "status": "proved",
   "theorems": [
    "Gopf.Props.c164_settles",
    "Gopf.Props.c164_leaves",
    "Gopf.Props.c164_reaction",
    "Gopf.Props.c164_alike",
    "Gopf.Props.c164_ring_settles",
    "Gopf.Props.c164_ring_leaves"
   ],
   "note": "How short the steps have to be is not computed. Nothing is claimed if the largest real part is zero."
  },
  {
   "property": "C165",
   "status": "proved",
   "theorems": [
    "Gopf.Props.c165_settles",
    "Gopf.Props.c165_leaves",
    "Gopf.Props.c165_reaction",
    "Gopf.Props.c165_alike",
    "Gopf.Props.c165_ring_settles",
    "Gopf.Props.c165_ring_leaves"
   ],
   "note": "How short the steps have to be is not computed. Nothing is claimed if the largest real part is zero."
  },
  {
   "property": "C166",
   "status": "proved",
   "theorems": [
    "Gopf.Props.c166_lorenz_rest",
    "Gopf.Props.c166_lorenz_onset",
    "Gopf.Props.c166_lorenz_convection",
    "Gopf.Props.c166_lorenz_unsteady",
    "Gopf.Props.c166_settles",
    "Gopf.Props.c166_leaves",
    "Gopf.Props.c166_alike",
    "Gopf.Props.c166_reaction"
   ],
   "note": "How short the steps have to be is not computed. Nothing is claimed if an inequality is an equality. That perturbations beyond the bound never settle (chaos) is not claimed."
  },
  {
   "property": "C167",
   "status": "proved",
   "theorems": [
    "Gopf.Props.c167_pair",
    "Gopf.Props.c167_waves",
    "Gopf.Props.c167_turing",
    "Gopf.Props.c167_alike"
   ],
   "note": "How short the steps have to be is not computed. Nothing is claimed on the boundary."
  },
  {
   "property": "C168",
   "status": "proved",
   "theorems": [
    "Gopf.Props.c168_dominant",
    "Gopf.Props.c168_diffusing",
    "Gopf.Props.c168_leaves",
    "Gopf.Props.c168_reaction",
    "Gopf.Props.c168_ring",
    "Gopf.Props.c168_lorenz"
   ],
   "note": "Sufficient conditions only: for states that meet neither nothing is claimed here; C163, C166 and C167 decide for two and three equations."
  }
 ]
}