# Formal model of gopf in Lean 4

This directory holds a machine-checked model of the phase-field library
`davidkleiven/gopf` (Go sources under `/repo`) and proofs of the properties in
`properties.jsonl`. `MANIFEST.json` maps every property to its theorems.

## Layout

* `lean/Verif/Model/*.lean` – the code, function by function. Every definition
  cites the Go file and lines it models and says where it is simplified.
* `lean/Verif/Spec/*.lean` – small specifications, written without using the
  model's helper functions.
* `lean/Verif/Proofs/*.lean` – lemmas.
* `lean/Verif/Props/*.lean` – the property theorems (named `cNN_...`), each with
  an `example` showing that its hypotheses are met by a concrete non-trivial case.
* `seeded/LOG.jsonl` – mutation tests: deliberate bugs put into a scratch copy of
  the model, and the theorems that stopped proving.

## Trusted base

* Lean 4.33.0's kernel and the three standard axioms `propext`,
  `Classical.choice`, `Quot.sound` (checked with `#print axioms`; no own axioms,
  no `sorry`, no `native_decide`, no `bv_decide`).
* That the definitions in `Model/` transcribe the Go code. The Go code is not
  executed or parsed here.
* The statements in `Spec/` and `Props/` saying what we mean.

## Idealisations (apply everywhere unless a definition says otherwise)

* `float64`/`complex128` are exact: `ℚ`, `ℝ` or `ℂ`, or an arbitrary field. Division by zero gives zero, unless a
  definition says otherwise; C155 says for which time steps the steppers never divide by zero and what happens if they do.
  Rounding, overflow, NaN and infinities are not modelled. Consequence: the
  theorems are about the algorithm, not about its round-off error. Where the
  bit pattern is what matters (raw files) words of 64 bits are used.
* Go `int` is `ℤ` (or `ℕ` where the code only produces non-negative values);
  64-bit wrap-around is not modelled. Go's truncated `/` and `%` are
  `Int.tdiv` and `Int.tmod`.
* Run-time panics (index out of range, division by an integer zero, explicit
  `panic`) are the value `none` of `Option`, so a theorem that ends in `some`
  also proves the absence of panics.
* Slices are lists; where aliasing matters (brick registry, in-place stepping)
  an explicit store with addresses is used.
* FFTW is its documentation: the row-major unnormalised discrete Fourier
  transform with sign -1 (forward) or +1 (backward). SQLite is a set of tables
  with the documented semantics of the statements used.
* `go.mod` says `go 1.13`, so loop variables are shared by all iterations.

## Not modelled

Plotting, command line flag parsing, logging, progress output, random number
generation (random values are arbitrary inputs), goroutine-free code only
(the library starts no goroutines), gonum's optimisers and ODE/Newton solvers,
the text templates of the CLI, JSON state of the SDD monitor.

## Per property: what is modelled and how it is proved

* **C01 Node numbers and grid positions are in bijection.** `NodeIdx`, `Pos` over `List Int` with panics as `none`; proved by Euclidean division. `Props/IndexAll.lean`: integers that are not node numbers, with the truncating division of Go.
  Theorems: `c01_pos_then_nodeIdx`, `c01_nodeIdx_then_pos`, `c01_panics`, `c01_mirrored`, `c01_any_number`. Status: proved.
* **C02 Periodic wrap is the canonical representative.** `Wrap` with truncated division; specification: unique representative modulo the side length.
  Theorems: `c02_wrap`, `c02_wrap_inside`. Status: proved.
* **C03 Product iterator enumerates the index box exactly once.** `Product` as a state machine; trace of calls proved equal to the lexicographic list of tuples by induction on the dimensions.
  Theorems: `c03_product`, `c03_loop_terminates`, `c03_again`, `c03_not_sticky`. Status: proved.
* **C04 Grid reads see exactly the last write.** `Grid` as dims + list; proved from C01's injectivity.
  Theorems: `c04_get_set`, `c04_history`, `c04_newGrid`. Status: proved.
* **C05 Blurring on a periodic grid is an average.** `Blur` over the reals with an arbitrary kernel; translation invariance of sums over the torus.
  Theorems: `c05_sum`, `c05_constant`, `c05_bounds`, `c05_pointwise`. Status: proved.
* **C06 Support of the box blur kernel.** `BoxKernel` instance of C05's model, witness for width 3.
  Theorems: `c06_box_contract`, `c06_box_is_average`, `c06_box_zero`. Status: proved.
* **C07 Voronoi labels are nearest periodic generators.** `closestPoint` as a left fold; specification with the minimum over all lattice translations.
  Theorems: `c07_distance`, `c07_voronoi`, `c07_dist_exists`, `c07_far_generators_wrong`. Status: proved.
* **C08 Frequencies and conjugate nodes.** `Freq`, `ConjugateNode` over ℚ and ℤ.
  Theorems: `c08_freq`, `c08_conjugate`, `c08_freq_injective`, `c08_conjugate_unique`. Status: proved.
* **C09 Reported frequency is the frequency of the transform bin.** FFTW as row-major DFT over ℂ; orthogonality of roots of unity; counterexample for a 3D box with unequal sides.
  Theorems: `c09_transform`, `c09_plane_wave`, `c09_noncubic_fails`. Status: proved.
* **C10 Transform round trip and conjugate symmetry.** DFT inversion and conjugation with the same DFT. `c10_exact` (`Props/LayoutExact.lean`): a node of unit value has the spectrum of one wave, so the conjugate bins of the library and of the transform must agree; comparing them for the first bin along an axis gives the sides.
  Theorems: `c10_round_trip`, `c10_real_spectrum`, `c10_noncubic_fails`, `c10_exact`. Status: proved.
* **C11 Affine maps compose in call order.** 4×4 real matrices.
  Theorems: `c11_append`, `c11_append_plane_fails`, `c11_accepted`, `c11_monoid`, `c11_translation`, `c11_scaling`, `c11_planar`, `c11_short_scaling`, `c11_rotations`, `c11_isometry`, `c11_angles`. Status: proved.
* **C12 Drawing a shape writes exactly its pixels.** `Draw` as a fold carrying the scratch vector; counterexample with a shear into z.
  Theorems: `c12_draw`, `c12_leak`, `c12_box`, `c12_nil`. Status: proved.
* **C13 Right-hand sides are split into their signed terms.** `SplitOnMany` on `List Char` with its work queue; result is a permutation of the specification list.
  Theorems: `c13_split`. Status: proved.
* **C14 Signs following an operator.** Same model; refutation for all operand texts. Texts without terms: induction over the size of the work queue (`c14_no_terms`).
  Theorems: `c14_no_terms`, `c14_second_sign_dropped`, `c14_panics`. Status: proved.
* **C15 Operator prefixes are peeled completely and losslessly.** Prefix peeling by well-founded recursion on the string length; `constructFunc` as a function on terms.
  Theorems: `c15_lossless`, `c15_complete`, `c15_meaning`. Status: proved.
* **C16 Factor order does not matter.** Split/sort/join on `List Char`, sortedness and permutation.
  Theorems: `c16_sorted`, `c16_factors_exist`, `c16_canonical`, `c16_idempotent`. Status: proved.
* **C17 Which terms are treated implicitly.** Mini regular expression matcher (leftmost, greedy) for the patterns the parser uses; `isBilinear` modelled on top of it. The theorem quantifies over all well-named models, all products of well-formed items, and all lists of known names made of fields, functions and derived products. The refutations cover every name violating the proviso in the way described.
  Theorems: `c17_classification`, `c17_shortened_name`, `c17_one_letter`. Status: proved.
* **C18 Parsed terms evaluate to the product they spell.** `ConcreteTerm` split in parsing to a record and evaluation of it; the specification gives the meaning of a product as a list of items, independent of the text. The theorem quantifies over all well-named models and all readable products; refutations show what happens outside. Readable: at most one Laplacian, items with fields adjacent in the alphabetical order of the items, only the first of them with an attached Laplacian.
  Theorems: `c18_meaning`, `c18_factor`, `c18_product`, `c18_scalar_between`, `c18_scalar_after`, `c18_attached_laplacian`, `c18_repeated_field`, `c18_laplacian_of_scalar`. Status: proved.
* **C19 Equation text means the differential equation it spells.** The specification describes equations as lists of items; the proof goes through the registration of derived fields (invariant over all added equations), the splitting (C13), the classification (C17) and the term meaning (C18). The transform is an arbitrary linear map with a right inverse. The loss of functions in products is proved for every product of this kind (c19_function_lost): the parser looks for one known name after whose removal no known name is left; the name of the function and the name of the other factor cannot both be removed by a known name, because names of derived fields are products of fields only. Hypotheses: well-named model, readable monomials with each field written once, no term registered by the user under the same text.
  Theorems: `c19_spectrum`, `c19_equation`, `c19_constant`, `c19_function_times_field`, `c19_function_lost`, `c19_function_simulated`. Status: proved.
* **C20 Registered derived fields are reachable under their own names.** Registry with explicit cells for loop variables.
  Theorems: `c20_all_names_yield_last`, `c20_reachable_iff`, `c20_old_names_kept`, `c20_one_at_a_time`. Status: proved.
* **C21 Right-hand side assembly.** `GetRHS` as folds over registries.
  Theorems: `c21_rhs`, `c21_denum`, `c21_add_source`, `c21_add_modifier`. Status: proved.
* **C22 Semi-implicit Euler step.** Stepper as a state transformer on a store; witness for the coupled case.
  Theorems: `c22_euler`, `c22_single_equation`, `c22_chain_fails`. Status: proved.
* **C23 Conserved mean.** Invariant by induction on the number of steps.
  Theorems: `c23_mean`, `c23_laplacian`. Status: proved.
* **C24 Real fields stay real.** Invariant with conjugate symmetry. `c24_exact`: on the other domains an equation `du/dt = A u`, with `A` non-zero on a bin and its conjugate in the sense of the library, makes the first node complex.
  Theorems: `c24_exact`, `c24_real`, `c24_prefixes`, `c24_noncubic_fails`. Status: proved.
* **C25 Implicit diffusion is unconditionally stable.** Induction on steps with a per-bin contraction factor.
  Theorems: `c25_step`, `c25_stable`. Status: proved.
* **C26 Simulated time.** Step counter of each stepper, solver loop.
  Theorems: `c26_implicit_euler`, `c26_sdd`, `c26_euler`, `c26_rk4_stuck`, `c26_rk4_propagate`. Status: proved.
* **C27 RK4 step on explicit equations.** RK4 stages on the same store model.
  Theorems: `c27_rk4`, `c27_linear`, `c27_time_frozen`. Status: proved.
* **C28 Solver schedule.** Solver as an event trace generator.
  Theorems: `c28_schedule`. Status: proved.
* **C29 Step-finished notifications.** Same trace model.
  Theorems: `c29_notifications`, `c29_times`. Status: proved.
* **C30 Householder projection of the dimer torque.** Finite sums over ℝ in arbitrary dimension.
  Theorems: `c30_projection`, `c30_reflection`, `c30_torque`, `c30_unit_invariant`, `c30_initial`. Status: proved.
* **C31 Rank-one corrected inverse.** Finite sums over a field.
  Theorems: `c31_solves`, `c31_sdd`, `c31_well_posed`. Status: proved.
* **C32 Dimer length schedule.** Reals with exp/log/pow.
  Theorems: `c32_length`, `c32_required_time`. Status: proved.
* **C33 Dimer shifts cancel.** Pointwise algebra.
  Theorems: `c33_shifts`, `c33_step`, `c33_endpoints`. Status: proved.
* **C34 Weighted dimer force for several fields.** Index arithmetic on concatenated vectors.
  Theorems: `c34_single_field`, `c34_first_field_force`, `c34_second_field_ignored`. Status: proved.
* **C35 Database load returns the last saved values.** Tables as lists; induction over histories of operations.
  Theorems: `c35_load`, `c35_save_succeeds`, `c35_load_last`. Status: proved.
* **C36 Crash during a save.** Transactions as committed prefixes; all crash points.
  Theorems: `c36_crash`. Status: proved.
* **C37 Position ids of stored nodes.** Row ids of the position table.
  Theorems: `c37_table`, `c37_join`, `c37_export`. Status: proved.
* **C38 Position table is filled once.** Histories of saves.
  Theorems: `c38_once`, `c38_one_node`. Status: proved.
* **C39 Raw binary files round trip.** Big-endian encoding of 64-bit words.
  Theorems: `c39_layout`, `c39_round_trip`, `c39_partial_word`. Status: proved.
* **C40 CSV files round trip to six decimals.** Records of texts; %f as rounding to a multiple of 10^-6.
  Theorems: `c40_number`, `c40_signs`, `c40_table`, `c40_round_trip`. Status: proved.
* **C41 Grey-scale export.** Reals with floor.
  Theorems: `c41_grey`, `c41_out_of_bounds`. Status: proved.
* **C42 Output files are distinct and referenced.** Strings; injectivity via the last underscore.
  Theorems: `c42_distinct`, `c42_prefixes_collide`, `c42_meta_file`, `c42_shape`, `c42_restart`. Status: proved.
* **C43 One representative per conjugate frequency pair.** Iterator state machine on C08's frequencies.
  Theorems: `c43_unique`. Status: proved.
* **C44 Real amplitude nodes.** Same.
  Theorems: `c44_real_amplitude`. Status: proved.
* **C45 Bound transform.** Mathlib's arctan.
  Theorems: `c45_range`, `c45_monotone`, `c45_backward_forward`, `c45_forward_backward`. Status: proved.
* **C46 Negative value penalty is a derivative.** `HasDerivAt`.
  Theorems: `c46_odd`, `c46_even`. Status: proved.
* **C47 Anisotropic Hessian term.** Polynomial identity over ℝ.
  Theorems: `c47_value`, `c47_symmetric`, `c47_iff`, `c47_isotropic`. Status: proved.
* **C48 Flux terms conserve.** Zero-bin evaluation of each term.
  Theorems: `c48_noise`, `c48_div_grad`, `c48_charge`, `c48_pair_correlation`, `c48_weighted_laplacian`. Status: proved.
* **C49 Conductivity component order.** Index tables.
  Theorems: `c49_current`, `c49_documented_order`, `c49_voigt_order`, `c49_two_dimensions`. Status: proved.
* **C50 Spectral viscosity interpolation.** Reals.
  Theorems: `c50_ends`, `c50_peak`, `c50_negative_iff`, `c50_not_monotone`, `c50_amplifies`. Status: proved.
* **C51 Rank-4 tensor storage.** `Fin 3` indices.
  Theorems: `c51_index`, `c51_history`. Status: proved.
* **C52 Tensor rotation is a group action.** Sums over `Fin 3`.
  Theorems: `c52_identity`, `c52_compose`, `c52_symmetries`, `c52_energy`. Status: proved.
* **C53 Isotropic tensors are isotropic.** Kronecker deltas and orthogonality.
  Theorems: `c53_invariant`, `c53_symmetries`, `c53_energy`, `c53_shear`. Status: proved.
* **C54 Voigt conversion.** Index tables.
  Theorems: `c54_value`, `c54_symmetries`, `c54_contract`, `c54_too_long`. Status: proved.
* **C55 Cubic material.** Counterexample and exact characterisation.
  Theorems: `c55_minor`, `c55_voigt`, `c55_shear_stress`. Status: proved.
* **C56 Rotation matrices.** Trigonometric identities.
  Theorems: `c56_orthogonal`, `c56_group`, `c56_axis`, `c56_other_axis`, `c56_handedness`. Status: proved.
* **C57 Mechanical equilibrium is solvable.** Quadratic form estimate.
  Theorems: `c57_positive_definite`, `c57_displacement`. Status: proved.
* **C58 Miller families.** In-place duplicate removal as a loop with invariant.
  Theorems: `c58_equivalent`. Status: proved.
* **C59 Multiplicity formulas.** Case analysis on absolute values.
  Theorems: `c59_three_dimensions`, `c59_two_dimensions`, `c59_other_dimension`. Status: proved.
* **C60 Reciprocal lattice.** Matrix inverse.
  Theorems: `c60_dual`, `c60_unique`, `c60_involution`, `c60_volume`, `c60_hkl_three`, `c60_hkl_two`. Status: proved.
* **C61 Strain response of the reciprocal cell.** Matrix algebra.
  Theorems: `c61_first_order`, `c61_transpose`, `c61_hkl`. Status: proved.
* **C62 Ideal mixing energy.** Polynomial derivative; total spectrum of the mixed term via linearity and injectivity of the transform.
  Theorems: `c62_derivative`, `c62_unit_prefactor`, `c62_right_iff`, `c62_energy`, `c62_missing_field`. Status: proved.
* **C63 Octant exploration.** On top of C03.
  Theorems: `c63_octants`, `c63_empty`, `c63_single`. Status: proved.
* **C64 Mode expansion keys.** String injectivity.
  Theorems: `c64_keys`, `c64_trailing_zero`. Status: proved.
* **C65 Heat map orientation.** `NewHeatMapData` with checked slice access on the rows in the order of C37; exact characterisation of the domain sizes with a right picture.
  Theorems: `c65_constructed`, `c65_drawn`, `c65_transposed`, `c65_right_iff`. Status: proved.
* **C66 Wrapped comments.** Slices and indexing with panics, loop over the lines with the carried start. Refuted in general; exact behaviour for comments below 192 characters with the position of the last blank as parameter.
  Theorems: `c66_short`, `c66_full_line_panics`, `c66_two_lines`, `c66_rest_is_line`, `c66_end_lost`, `c66_long_word_panics`, `c66_printed_twice`. Status: proved.
* **C67 Wrapped lists are lossless.** List chunks. Padding and borders of the tables are not modelled.
  Theorems: `c67_printList`, `c67_attributeTables`. Status: proved.
* **C68 Bounding boxes contain their shapes.** Truncation as floor/ceiling of reals.
  Theorems: `c68_ball`, `c68_box`. Status: proved.
* **C79 Stress balance of the elastic solution.** Per Fourier bin; the linear solver is multiplication by the inverse matrix. Counterexample with `CubicMaterial(2,1,1)`.
  Theorems: `c79_equilibrium`, `c79_cubic_fails`, `c79_cubic_iff`. Status: proved.
* **C80 First order perturbation force.** Per Fourier bin of a three dimensional domain; exact characterisation of agreement.
  Theorems: `c80_perturbed_force`, `c80_isotropic_fails`. Status: proved.
* **C81 Mode energies are cell averages.** Association list for the term map; quadrature rules of gonum are an arbitrary finite rule, its order 32 as in the code. The sum over index tuples is expanded by induction (`allTuples_sum`).
  Theorems: `c81_build`, `c81_degree`, `c81_energy`, `c81_max`, `c81_truncation`. Status: proved.
* **C82 Derivatives handed to the minimiser.** `HasDerivAt` of the polynomial along each coordinate.
  Theorems: `c82_gradient`, `c82_hessian`. Status: proved.
* **C83 Derivative of the elastic fit.** `HasDerivAt`; the start vector as a list with checked indexing.
  Theorems: `c83_gradient`, `c83_widths`, `c83_start`. Status: proved.
* **C84 Elastic weights of a mode.** Algebra over `Fin 3`/`Fin 2`. The documentation calls the weights Reuss averages.
  Theorems: `c84_voigt`, `c84_squared_length`, `c84_nonneg`, `c84_bulk_invariant`, `c84_shear_depends_on_choice`. Status: proved.
* **C88 Predefined cells span the lattices they are named after.** Integer combinations of the columns.
  Theorems: `c88_fcc`, `c88_bcc`, `c88_volumes`, `c88_triangular_lengths`, `c88_triangular_is_square`. Status: proved.
* **C89 Plane density.** Sorting via insertion sort; real square roots.
  Theorems: `c89_value`, `c89_right_iff`. Status: proved.
* **C90 Mode densities have the symmetry of the lattice.** Permutation of the list of equivalent indices (C58) under the symmetry operations.
  Theorems: `c90_representative`, `c90_periodic`, `c90_cubic_symmetry`, `c90_maximum`, `c90_two_dimensions`. Status: proved.
* **C91 Best local minimum is reported.** Fold over the start vectors; the minimiser of gonum is an arbitrary function.
  Theorems: `c91_best`. Status: proved.
* **C72 Pair correlation term is the functional derivative of its energy.** Energy rewritten with Parseval's identity as a real quadratic form in Fourier space.
  Theorems: `c72_explicit`, `c72_gradient`. Status: proved.
* **C85 Reciprocal space pair correlation.** Fold over the peaks; real exponentials.
  Theorems: `c85_maximum`, `c85_range`, `c85_at_peak`, `c85_temperature`, `c85_order`, `c85_square`. Status: proved.
* **C86 Two phase correlation function.** The transform works in place, so the result is paired with the final content of the argument.
  Theorems: `c86_interpolation`, `c86_pure_phase`, `c86_overwrites_argument`, `c86_two_functions`. Status: proved.
* **C87 Indicator function.** One sided derivatives glued at 0 and 1.
  Theorems: `c87_derivative`, `c87_smooth`, `c87_shape`. Status: proved.
* **C92 Peak of the triangular lattice.** Irrationality-free: an integer equation modulo 4 and 2.
  Theorems: `c92_not_triangular`, `c92_height`, `c92_not_library_cell`. Status: proved.
* **C93 Line plots.** Permutation of lists; membership of nodes from C03.
  Theorems: `c93_x_line`, `c93_y_line`, `c93_z_line`, `c93_accepts_iff`. Status: proved.
* **C94 Export of time series.** Fold over the table with checked slice access, invariant by induction from the right. Hypothesis: recorded time steps are not negative (otherwise the command panics).
  Theorems: `c94_export`, `c94_recorded`, `c94_missing_is_zero`. Status: proved.
* **C95 Export of all time steps.** Injectivity of the decimal representation (C42).
  Theorems: `c95_all_steps`. Status: proved.
* **C96 List of comments.** Loop with the variable carried over; exact characterisation by induction.
  Theorems: `c96_shown`, `c96_own_comment`, `c96_stale`. Status: proved.
* **C69 Point sources act at their node.** `Source.eval` compared with the transform of a delta at the node; the phases agree up to integers.
  Theorems: `c69_point_source`. Status: proved.
* **C70 The gradient calculator differentiates plane waves exactly.** `gradCalculate` in terms of the modelled transform; frequencies are within 1e-10 of one half only if they equal it (sides up to 10^9).
  Theorems: `c70_plane_wave`, `c70_linear`. Status: proved.
* **C71 Gradients of real fields.** Conjugate symmetry of the factor; the zero bin of the factor vanishes.
  Theorems: `c71_real`, `c71_keep_nyquist`, `c71_sum`. Status: proved.
* **C73 Div F Grad u.** `divGradTerm` puts together the derived fields registered by `PrepareModel` and the closure of `Construct`; integration by parts through Parseval.
  Theorems: `c73_divergence`, `c73_constant`, `c73_dissipation`, `c73_not_real`, `c73_even_side`. Status: proved.
* **C74 Advection.** `advection` puts together the derived field registered by `PrepareModel` and the closure of `Construct`.
  Theorems: `c74_value`, `c74_constant`, `c74_real`, `c74_total`. Status: proved.
* **C78 Charge relaxation and Ohm's law.** `chargeTransport` for constant isotropic conductivity computed bin by bin; `currentOf` for constant density.
  Theorems: `c78_relaxation`, `c78_factor`, `c78_ohm`. Status: proved.
* **C97 A time step advances the equations as written.** `assemble` connects the parsed equations with the stepper model of C22; look-up of bricks by name; the spectral Laplacian is defined by its symbol. Registered functions read fields and scalars only; for equations that use an earlier field linearly see C22.
  Theorems: `c97_step`, `c97_euler`, `c97_first`, `c97_wrong_order`. Status: proved.
* **C75 The Vandeven filter.** Table and linear interpolation over the reals; symmetry and monotonicity of the trapezoidal sums by induction over the table, error of the trapezoidal rule for the comparison with the integral. Filter strength on grids: refuted for 2D (never more than half is removed).
  Theorems: `c75_start`, `c75_total`, `c75_tail`, `c75_antitone`, `c75_symmetry`, `c75_order_one`, `c75_negative`, `c75_close`, `c75_modal_weak`, `c75_mean`. Status: proved.
* **C76 The implicit stepper is an exact integrator with interpolated right-hand side.** The function handed to the solver is modelled with the nested copy loops (positions of the vector proved to be a bijection); the solver itself is a parameter. Hermitian symmetry of all parts shows that the real part the function returns loses nothing. The specification is an ordinary differential equation. The solver (gononlin Newton-Krylov) is a parameter; the hypothesis is that it returns a zero.
  Theorems: `c76_bin`, `c76_step`, `c76_linear`, `c76_converse`, `c76_not_backward_euler`. Status: proved.
* **C77 Check of implicit terms.** A term is a function of the bricks; the check compares two evaluations. Exact characterisation for affine terms; the intended property is refuted in both directions.
  Theorems: `c77_field_free`, `c77_affine`, `c77_difference`, `c77_one_frequency`, `c77_scalar_rejected`, `c77_init`. Status: proved.
* **C98 Reserved names.** Through the prefix reader of C15; the parser model for the hidden Laplacian.
  Theorems: `c98_accepted`, `c98_hidden_laplacian`, `c98_overlap`. Status: proved.
* **C99 Equation numbers.** Leftmost lazy match of the pattern, first equation with the name. The hidden mismatch is shown with a two field model.
  Theorems: `c99_number`, `c99_contains`, `c99_not_field_number`. Status: proved.
* **C100 Volume conserving multiplier.** `volumeStep` is one Euler step (C22) followed by the update of the multiplier; induction over the steps. Hypotheses (structure `VolumeSetting`): derived fields are functions of the fields, the equation reads no field updated before it, has no modifiers, no filter.
  Theorems: `c100_change`, `c100_bounded`, `c100_constant`, `c100_minus`. Status: proved.
* **C101 Registered terms in equations.** Induction over the operators with the reader of C15. Accepted names that do not begin with `^`; additional derived fields of a registration are the subject of C20.
  Theorems: `c101_explicit`, `c101_implicit`, `c101_mixed`, `c101_implicit_wins`, `c101_other_powers`. Status: proved.
* **C102 Squared gradient term.** `squaredGradient` models the closure; compared with the gradient calculator (C70, C71); Parseval for the zero bin.
  Theorems: `c102_value`, `c102_real`, `c102_energy`, `c102_zero_iff`. Status: proved.
* **C103 The elastic term is the driving force of the elastic energy.** `HomoLinElast` models the state and the closure. The specification is an energy: a minimum over all displacement fields. The proof shows the principle of virtual work for the calculated strain (equilibrium C79 in every bin, Parseval), hence the calculated strain is the minimiser, and the energy lies between two functions with the same derivative: the energy of the fixed displacement above, the tangent of the convex joint energy below. With even sides the displacement equation keeps the components of the highest frequency that the strain drops. There the theorem needs an indicator without content in those bins; in general it fails, the term need not even be real (`c154_even_not`).
  Theorems: `c103_initial`, `c103_update`, `c103_variational_quiet`, `c103_variational`, `c103_isotropic`. Status: proved.
* **C104 Elastic energy of a region.** The loops over strain components are reduced to the strain of C103. On every domain the calculated strain is that of a real displacement field (`Proofs/ElasticAny.lean`), so the returned energy is one of those over which the elastic energy is the minimum; the minimum exists because the least displacement is written down bin by bin (`leastDisp`) and has no virtual work. `c104_even` calculates both energies for stripes on a 4 times 2 grid. `Props/QuietLines.lean`: bins of the highest frequency of an axis are alternating sums along the lines of the axis; the other waves cancel along each line (shift by one node), which gives the converse.
  Theorems: `c104_upper`, `c104_even`, `c104_energy`, `c104_bounds`, `c104_quiet_iff`, `c104_blocks`. Status: proved.
* **C105 Rotation of grids and tilt grain boundaries.** `Grid.rotate2D` and `Pfc.tiltGB` over the reals; the index arithmetic of C01-C04 gives the content node by node.
  Theorems: `c105_rotate`, `c105_values`, `c105_zero`, `c105_quarter`, `c105_full_turn`, `c105_panics`, `c105_tilt`. Status: proved.
* **C106 Building a crystal.** The scaled coordinates of a point of the domain lie between those of the corners (each coordinate is linear), so the loop over integer vectors misses none; the product iterator of C03 visits each once. The drawing loops are flattened to one history of writes (C04). Distances are those of the untruncated position; the position of the node is cut towards zero.
  Theorems: `c106_origins`, `c106_left_handed`, `c106_swapped`, `c106_square`, `c106_value`, `c106_small_kernel`, `c106_gaussian`, `c106_circle`. Status: proved.
* **C107 The default stepper converges to the solution of the equations.** Abstract theorem in `Proofs/Converge.lean`: regularity of the solution, error of one step by induction over the equations, then over the steps (discrete Gronwall). The step of the model is a step of the abstract method (the store seen by each equation is determined exactly). For texts, every built term is a fixed coefficient times one brick and every derived field is a monomial, hence Lipschitz on bounded sets; C19 identifies the sum with the transform of the written right-hand side. Exact arithmetic; the error of the discretisation in space is not the subject. Existence of the solution u on [0,T] is a hypothesis here; it is the subject of C112.
  Theorems: `c107_euler_converges`, `c107_text`. Status: proved.
* **C108 Listing of simulation attributes.** `Model/Attr.lean` models both tables and the loops over their rows. The specification looks for the last call that stores the name; the proof follows the rows of the calls through the filters and the maps. Map traversal orders are arbitrary permutations (one for the ids, the same in all tables). The padding of the cells is not modelled.
  Theorems: `c108_listing`, `c108_zero`, `c108_unique`. Status: proved.
* **C109 Listing of one attribute.** `Scan` converts column by column and stops at the first failure; this is how the stale id arises.
  Theorems: `c109_output`, `c109_text_only`. Status: proved.
* **C110 Comments of a simulation.** Induction over the history. The wrapped listing of all comments is C66.
  Theorems: `c110_last`, `c110_shown`, `c110_update`, `c110_lost`. Status: proved.
* **C111 The RK4 stepper converges, with the order its equations allow.** `Proofs/ConvergeRk.lean`: every stage is within a multiple of error plus time step of the solution, then as for C107. `Proofs/ConvergeRk4.lean`: the solution is five times differentiable because the right-hand side is four times so; Taylor expansions of the solution and the slopes, the stage errors up to third order and their cancellation in the weighted sum give an error of fifth order in one step; stability of the step gives the rest. For texts the model is identified as in C107. Exact arithmetic; existence of the solution u on [0,T] is a hypothesis (see C112). The fourth order statement is for the spectrum as a real differentiable function of all bins.
  Theorems: `c111_converges`, `c111_fourth_order`, `c111_only_implicit`, `c111_time_dependent`, `c111_solver`, `c111_solver_time_dependent`, `c111_text`, `c111_text_fourth_order`, `c111_scheme`. Status: proved.
* **C112 The solution the steppers converge to exists and is unique.** `Proofs/ConvergeExists.lean`: Picard-Lindelof of Mathlib with an existence time that depends only on a bound of the initial value, joining of solutions on adjacent intervals, and continuation as long as a bound is known. Uniqueness and the bound come from the convergence of the computed fields (C107, C111). For texts the correspondence of C107 is used in both directions. Exact arithmetic.
  Theorems: `c112_unique`, `c112_exists`, `c112_euler_bounded`, `c112_rk4_bounded`, `c112_steppers_agree`, `c112_blow_up`, `c112_text`. Status: proved.
* **C113 Sessions with one solver: monitors, time and steppers.** `Model/Session.lean`: the state of the solver and one function per call. Induction over the calls; the specification lists the states at the ends of the epochs independently of the monitors. Callbacks, and the bookkeeping of registered terms at the end of a step, are in C26.
  Theorems: `c113_monitor`, `c113_derived`, `c113_panics`, `c113_split`, `c113_choice`, `c113_new`, `c113_time`, `c113_next`, `c113_choose_again`, `c113_choose_again_time`. Status: proved.
* **C114 The steppers respect the symmetries of the grid.** A symmetry acts on positions (`Spec/Symmetry.lean`); it permutes nodes and, with a phase, the bins of the transform (`Proofs/Symmetry.lean`). Terms multiply a spectrum by a number that depends on the square of the frequency only, so every step takes spectra related in this way to spectra related in this way. For texts the shape of the built right-hand sides of C107 is used. On the domains where the frequencies agree with the bins of the transform (all 2D and all cubic 3D domains, C10).
  Theorems: `c114_exists`, `c114_euler`, `c114_rk4`, `c114_session`, `c114_text`, `c114_equations`, `c114_source`. Status: proved.
* **C115 Symmetric fields stay symmetric; uniform fields follow the equations without Laplacians.** C114 with the same fields on both sides; translations reach every node from every node. The value is the zero bin of C97. As C114.
  Theorems: `c115_symmetric`, `c115_uniform`, `c115_free`, `c115_euler`. Status: proved.
* **C116 Equations in divergence form conserve the sum of the field.** What every step keeps, every session keeps (`kept_session`). The text determines the shape of the built right-hand sides (`text_shape`): coefficients times powers of the Laplacian symbol, which vanishes in the zero bin; the zero bin is the sum. C23 is the same for one stepper and models given by terms. Terms registered by the user and modifiers are in C23.
  Theorems: `c116_euler`, `c116_rk4`, `c116_session`, `c116_text`. Status: proved.
* **C117 Real fields stay real through any session.** Spectra of real fields are conjugate symmetric and back (C24); every stage of both steppers keeps the symmetry because the coefficients of the text are real and the Laplacian symbol is even. On the domains where `ConjugateNode` is the conjugate bin (all 2D and all cubic 3D domains, C10).
  Theorems: `c117_euler`, `c117_rk4`, `c117_session`, `c117_text`, `c117_root`. Status: proved.
* **C118 From saved fields to pictures.** `Model/Plot.lean`: both commands from the records of the file to pixels and points, with an arbitrary colour map and `strconv.Atoi`. What a request means is specified by `Selects`. The file is the one of C40, the picture the one of C65 and the lines those of C93. For fields that are not constant (gonum's colour map is taken to accept every value inside a proper range). That pixel (c, r) shows node r*N+c means that the picture is right only on domains one node thick (C65). Line plots: names that are different, not empty and not X, Y or Z.
  Theorems: `c118_whole_numbers`, `c118_read`, `c118_axis_name`, `c118_contour`, `c118_line_x`, `c118_line_y`, `c118_line_z`. Status: proved.
* **C119 Strain energy of an ellipsoidal inclusion.** `Model/StrainEnergy.lean`, with an arbitrary transform and arbitrary places of the voxels. The value for the discrete Fourier transform is reduced to the strains of C104 and the minimum property proved there; scaling is proved stage by stage (force, displacement, correction, strain, energy). `c119_upper`: on even grids the result is the energy of some displacement field, hence not below the elastic energy. The value for even domain sizes needs an ellipsoid without content at the highest frequencies, as C104. It is without correction; what the correction does to the force is C80.
  Theorems: `c119_scaling`, `c119_homogeneous_quiet`, `c119_homogeneous`, `c119_upper`, `c119_inclusion_quiet`, `c119_inclusion`, `c119_proportional`, `c119_same`, `c119_empty`, `c119_defined`, `c119_ellipsoid`. Status: proved.
* **C120 Overview of a database: newest simulations first.** `Model/Overview.lean`. The result of `ORDER BY ... DESC LIMIT` is any arrangement SQL allows, so ties are not decided by the model. Numbers with leading zeros are compared digit by digit (`padDigits_lt`); the ordered arrangement of rows with different times is unique. The dimensions use the position table of C37/C38. `Props/InfoTable.lean`: the columns of the lines of `info` read by position. Years 0 to 9999. The printed table of `info` is modelled character by character (names as characters, not bytes), the others by their rows.
  Theorems: `c120_info_table`, `c120_info_distinct`, `c120_times`, `c120_newest_first`, `c120_listed`, `c120_remark`, `c120_newest`, `c120_newest_empty`, `c120_same_second`, `c120_set_back`, `c120_time`, `c120_drawn_again`, `c120_info`, `c120_info_empty`, `c120_info_lines`, `c120_info_list`. Status: proved.
* **C121 Diffusion, advection and noise terms: from preparation to the step.** `Model/Prepare.lean`: `Bricks` as a map in which the last entry of a name counts, calculators that read captured pointers and names. Derived fields are computed one after the other, so the value of one after `SyncDerivedFields` is its calculator applied to the synced fields if it reads only earlier ones (`synced_value`); the preparations are shown to register in that order. The spectral formulas are those of C73, C74 and C20, texts are read as in C13-C15, steps as in C22 and sessions as in C116. `Props/AdvectionNames.lean`: which advection terms share a name. What F is for a brick that is a derived field registered later is not claimed (it is the transform left by the step before, as in `c121_advection_twice`). The random numbers of the noise are one arbitrary array per component and step. `DivGrad` and `Advection` do not satisfy the interface of `RegisterExplicitTerm` (their `OnStepFinished` has another signature), so a caller has to wrap them; the theorems are about `Construct` registered in such a wrapper.
  Theorems: `c121_advection_same_name`, `c121_divgrad`, `c121_prepare`, `c121_divgrad_same_field`, `c121_advection`, `c121_velocity_replaced`, `c121_advection_twice`, `c121_noise`, `c121_noise_one_at_a_time`, `c121_text`, `c121_step`, `c121_diffusion`, `c121_conserved`, `c121_scalar`, `c121_field`. Status: proved.
* **C122 Continuing a run from saved fields.** Sessions of C113 on two solver states related by a simulation relation (`Twin`: same fields, stepper up to its clock, monitors); each call preserves it. That a step depends on the derived fields only through the fields is `sync_congr`. Files are those of C39/C42, the database that of C35, texts those of C117. Numbers are exact, so `bits` and `value` are arbitrary functions that agree on the numbers saved. Monitors of derived fields are excluded (they read the transforms left by the last step). A database must have at least two nodes and, for the read back, no crashed save.
  Theorems: `c122_restart`, `c122_monitor`, `c122_text`, `c122_time`, `c122_files`, `c122_epoch_files`, `c122_database`. Status: proved.
* **C123 Shrinking dimer: finding the saddle point.** `SDD.step` of C30-C34 for one field. The linear solve of a step is inverted by Parseval and the uniqueness part of C31; the spectrum of the torque is computed exactly; the orientation is followed by the ratio of each coefficient to the fastest one. The rates are real and equal for a wave and its conjugate (`Hermitian`), as for every equation given as text with real scalars and even operators. For `dt lam = 1` the code divides by zero in the intermediate diagonal inverse although the system it solves is regular. Several fields are excluded (C34).
  Theorems: `c123_field`, `c123_saddle`, `c123_turning`, `c123_orientation`, `c123_stationary`. Status: proved.
* **C124 Shrinking dimer: what is reported.** `Model/SddMonitor.lean`: the assignments to the monitor, the checks, the log and the file with the orientation. Parseval for the power spectrum; the maximum loops by induction. `%f` of the log is an arbitrary function of the number; the orientation written to the file is rational. The doc comment calls ForcePowerSpectrum the real space integral of the force and FieldNorm an L2 norm; it is a root mean square and a squared norm.
  Theorems: `c124_max_force`, `c124_power`, `c124_power_zero`, `c124_max_torque`, `c124_torque`, `c124_ready`, `c124_norm`, `c124_settles`, `c124_log`, `c124_save`, `c124_reload`. Status: proved.
* **C125 Waves of linear equations grow and decay at the rate the text spells.** The text machinery of C97/C116 (`text_shape`) shows that all terms are implicit, so the explicit part vanishes and both steppers divide by `1 - dt r`; induction over the steps; Parseval for the sum of squares. `growthRate` is written from the equation alone. The condition dt r != 1 excludes a division by zero, after which the Go program continues with infinities.
  Theorems: `c125_waves`, `c125_real`, `c125_shrinks`, `c125_above`, `c125_dies`, `c125_text`, `c125_growth_lost`. Status: proved.
* **C126 Small perturbations of a uniform state.** The step of a one-field polynomial equation is a polynomial map of the nodes (`polynomialStep`, through `fft_multiplier`); it is differentiated with Mathlib's Frechet derivative, the derivative is diagonal in Fourier space, and a linear map with modulus below one attracts (`attraction`, in the norm of the sum of squares, by Parseval). `Props/Instability.lean` proves instability with a cone argument: the part in the waves with the largest factor grows by a fixed factor per step and stays larger than the rest as long as the field is within a ball, so it leaves the ball (`repulsion`). No filter. `linearisedRate` and `implicitRate` are written from the equation alone. The neighbourhood is not quantified (exists delta).
  Theorems: `c126_unstable`, `c126_leaves`, `c126_demixing`, `c126_waves`, `c126_stable`, `c126_conserved`, `c126_limit`, `c126_cahn_hilliard`, `c126_spinodal`. Status: proved.
* **C127 White noise: fluctuations of a driven field.** `Model/WhiteNoise.lean`: a step is given the numbers drawn in it. The parsed equation gives the recursion of each wave (`noise_step`, from the spectra of C19), solved by induction; expected values with Mathlib's independent Gaussian variables; the sum of the geometric series and the limit of (1 + x/n)^n. Euler stepper, no filter, one field and one noise function. `rand.NormFloat64` is idealised as independent standard normal numbers. The statement about the documented correlation function is false of the code; the theorems give what the code does and how the strength has to be scaled.
  Theorems: `c127_solution`, `c127_fluctuations`, `c127_stationary`, `c127_vanishes`, `c127_corrected`, `c127_walk`. Status: proved.
* **C128 Equations may mix products and registered terms.** `Spec/Mixed.lean` describes equations as sums of products and registered names. The proof follows the parser term by term: `update_mixed` for the derived fields, `build_mixed` for the right-hand side (products by `buildTerm_spec` of C19, registered terms by `read_operators` of C101), then C22 for the step and C116 for conservation. Registered functions are stateless. `RegisteredAs` says which map wins if a name is registered more than once. No filter in `c128_step`; it asks that the equation reads no field that was stepped earlier (C22); `c128_coupled` has no such condition and no condition on the filter, and says which values the terms see instead (used for a program with two fields in C146).
  Theorems: `c128_spectrum`, `c128_step`, `c128_conserved`, `c128_operator_in_front`, `c128_coupled`. Status: proved.
* **C129 Fluctuations caused by conservative noise.** `Model/Currents.lean`: a step is given what every component of the current draws in it. C121 says which calculator fills which current; the recursion of each wave is solved by induction; expected values with the independent Gaussian variables of C127; Jordan's inequality for the bounds on the sine. `Props/CurrentsOthers.lean`: the other derived fields. Euler stepper, no filter, one noise term. `rand.NormFloat64` is idealised as independent standard normal numbers. The documented correlation function (delta in time) would need a strength divided by the time step, as for C127.
  Theorems: `c129_text`, `c129_step`, `c129_fluctuations`, `c129_stationary`, `c129_power`, `c129_shared`, `c129_diffusion`, `c129_equilibrium`, `c129_others`. Status: proved.
* **C130 Meta files and monitor texts mean the same to other programs.** `Model/Markup.lean` writes the texts character by character as encoding/xml and encoding/json do; `Spec/Markup.lean` has readers for both formats written from the format alone, and says what a viewer looks up in the document. The round trips are by induction over documents and lists; the rest is computed from the document and C42, C113. Texts of floats in JSON are a parameter that yields JSON numbers; infinities and NaN (which encoding/json refuses) do not occur. Non-ASCII line separators and invalid UTF-8 in JSON are not modelled. The orientation in three dimensions and the time item are wrong in the code; the theorems say what is written.
  Theorems: `c130_monitors`, `c130_xml`, `c130_series`, `c130_files`, `c130_big_endian`, `c130_orientation`, `c130_scrambled`, `c130_times`, `c130_geometry`, `c130_mesh`, `c130_session`. Status: proved.
* **C131 Simulations of gradient flows lose energy and come to rest.** The energy is written from the terms of the equation (`Props/Energy.lean`); `c131_gradient` proves that its gradient is the right-hand side. The step is the polynomial map of C126; in it every wave moves by -dt x^q (force before + g times wave after), so Taylor's inequality at the nodes and Parseval's identity give the loss. Small steps: bounds by compactness; rest: the losses are summable. Euler stepper, no filter, one field, natural powers. The time step of the statement about all steps is not computed; the one-step limit is explicit.
  Theorems: `c131_step`, `c131_rest`, `c131_gradient`, `c131_cahn_hilliard`. Status: proved.
* **C132 What coupled equations see of each other during a step.** `Props/Coupled.lean`: the value an equation sees is written from its text with two sets of values, one for terms with a bare field and one for all others. The builder of C19 is followed once more with bricks that hold new fields but old products; the step is the loop over the fields of `Model/Stepper.lean`. States at rest by induction over the fields; the wave equation by a conserved quadratic form and an eigenvector. Euler stepper.
  Theorems: `c132_step`, `c132_rest`, `c132_wave`, `c132_energy`, `c132_bounded`, `c132_unstable`, `c132_simultaneous`, `c132_time_step`, `c132_wave_bounded`, `c132_wave_unstable`. Status: proved.
* **C133 Order of convergence of the implicit stepper.** `Proofs/ConvergeImplicit.lean`: the exact solution makes a step of the method up to dt^3 (variation of constants, quadratic interpolation error, and for the bins with a very small linear coefficient the error of the trapezoidal rule); two runs drift apart by a factor 1 + K dt; the step equation is solved by a contraction on the conjugate symmetric states. `Props/ConvergeImplicit.lean` connects this with the function given to the solver. The solver (package gononlin) is a parameter; what it leaves over is measured entry by entry. Exact real arithmetic.
  Theorems: `c133_second_order`, `c133_first_order`, `c133_found`, `c133_found_first_order`, `c133_text`, `c133_time_dependent`, `c133_pair`. Status: proved.
* **C134 The implicit stepper is not stable for all time steps.** `Props/ImplicitStability.lean`: from the text of the equation the implicit part is one for all waves and the explicit part is the transform of -conc^3, so a zero of the function given to the solver is a step at every node (inverse transform of the bins). `Proofs/Well.lean`: the cubic map of one node. Growth without bound: the amplitudes increase and a limit would be a fixed point of the turning map, which has none beyond the limit. The solution of the equation is given in closed form. The solver is a parameter that returns a zero whenever there is one; such a solver exists.
  Theorems: `c134_step`, `c134_unique`, `c134_diverges`, `c134_cycles`, `c134_bounded`, `c134_large_steps`, `c134_repels`, `c134_solution`. Status: proved.
* **C135 Rounding errors in simulations.** `Proofs/ConvergeRounded.lean`: the one step estimates of C107 and C111 with an additional error in every step, as long as the sum of all errors stays below one. `Props/Rounded.lean` states it for runs whose steps are within delta of the steps of the model. delta is a hypothesis: it is not derived from the float64 format, because the errors of FFTW are not modelled.
  Theorems: `c135_euler`, `c135_rk4`, `c135_rk4_fourth_order`, `c135_best_step`, `c135_sharp`. Status: proved.
* **C136 The Kim-Kim-Suzuki example keeps the concentration and loses energy.** `Model/Kks.lean`: the functions, constants and equations of the program. `Props/Kks.lean`: the equations are read by the parser (C17, C19) and advanced as C132 says, so every wave of both fields moves by -dt times mobility times (derivative of the explicit part of the energy before + implicit part after). The explicit part of the energy density is linear in conc and has bounded curvature in phi where the excess is bounded; the mixed term is paid half by the implicit part of conc. The energy bounds the excess, so the limit holds in all later steps. Euler stepper, no filter. The random start is any start.
  Theorems: `c136_gradient`, `c136_scheme`, `c136_step`, `c136_run`, `c136_exists`, `c136_constants`, `c136_too_large`. Status: proved.
* **C137 What limits the time step in the example that compares the steppers.** `Model/SolverStability.lean`: the function, the constant and the equation of the program. `Props/SolverStability.lean`: the equation is read by the parser (C17, C19); a registered function goes to the explicit part, so only gamma LAP conc is implicit. Explicit stepper: uniform fields follow a cubic map, whose invariant interval and growth are computed; the energy by the estimate of C131. Implicit stepper: wave by wave the step says that a kept quantity a u + (u^3) after it equals b u - r (u^3) before it, with |r| at most one, equal to one for the uniform wave only. `Proofs/Cubic.lean`: for large fields the kept quantity is larger than what the step gives (homogeneous functions of degree 6, 4 and 2 on a compact sphere), hence the common bound; existence by minimising a coercive function; uniqueness by monotonicity of the cube. The RK4 runs of the program are not covered. Explicit boundedness above the energy limits is shown for uniform starts only.
  Theorems: `c137_explicit`, `c137_explicit_limit`, `c137_energy`, `c137_small_steps`, `c137_implicit`, `c137_unique`, `c137_several`. Status: proved.
* **C138 Where runs of the shrinking dimer stepper end.** `Props/SddLimit.lean`: the step in real space (C34) moves the field by dt times the reflected force, and a reflection keeps the sum of squares; so the force tends to zero along a convergent run, and the force is continuous. The direction has length one in all steps (C30) and the length of the dimer tends to the minimal length. One field: with several fields the force of the first is used for all (C34). That runs converge is a hypothesis; for linear equations near a saddle point it is proved in C123.
  Theorems: `c138_length`, `c138_displacement`, `c138_limit`, `c138_limit_dimer`. Status: proved.
* **C139 The heterogeneous nucleation example: the weight does not matter, and the default start is not a droplet.** `Model/Nucleation.lean`: the functions, the model and the start of the program. `Props/Nucleation.lean`: the equation is read as C128 says; what the registered term computes is the Laplacian times weight and gamma; limits by C138; positions and radii by arithmetic. `Props/NucleationRest.lean`: the states of rest with the constants of the program: the force against the deviation from the mean, Parseval, and the lowest wave number of the grid. That the weighted energy of the documentation has other critical points than the homogeneous one is not proved. Division by the length zero gives NaN in Go; in the model only the length is stated.
  Theorems: `c139_rest`, `c139_force`, `c139_limit`, `c139_weight`, `c139_orientation`, `c139_droplet`, `c139_small_grids`, `c139_size`. Status: proved.
* **C140 The phase field crystal example: what a step does, when the energy falls, and which files are overwritten.** `Model/PfcPhases.lean`: the registrations, the equation, the energy observer and the file names of the program. `Props/PfcPhases.lean`: the model is built by the parser (computed step by step, since the derived name contains the field name); its parts give a gradient flow with mobility k^2 and implicit weights 1 - C(k), between zero and one by C85. Energy by the estimate of C131, restated for gradient flows with any density (`flow_small`, `flow_rest`); confinement by completing squares in the quartic. Euler stepper, no filter. The random start is any start. That the density stays between -1 and 2 is a hypothesis of the statement with the program's time step. The energies appended to the csv file are not modelled.
  Theorems: `c140_observer`, `c140_gradient`, `c140_assembles`, `c140_step`, `c140_energy`, `c140_program`, `c140_rest`, `c140_uniform`, `c140_files`. Status: proved.
* **C141 In a heterogeneous anisotropic conductor the charges settle, and the current at rest obeys the laws of circuits.** The model of the program is assembled from its text (`conduction_model`); the term is shown to be minus the divergence of the Ohm current in the external field plus the field of the charges (`transport_div`, `current_ohm`), both written out as specifications. The divergence is minus the adjoint of the map from charges to their field in the energy norm of the field (`div_pairing`, Parseval), so a step reduces that norm of any difference (`relaxation_step`); the finitely many waves that the field sees have a gap, which gives geometric convergence (`charges_converge`). The laws at rest follow from the same pairing. Exact arithmetic; the conductivity is given per node (C142 models the function of the example that produces it). `lo` and `hi` bound the quadratic form of the tensor as `ChargeTransport` reads it (C49). The regularisation 1e-16 and the omitted Nyquist components are kept.
  Theorems: `c141_assembles`, `c141_converges`, `c141_power`, `c141_reciprocal`, `c141_least`, `c141_unique`, `c141_bounds`, `c141_monotone`, `c141_sharp`. Status: proved.
* **C142 The conductivity example: which grains get a field, and that its conductivity is always admissible.** `Model/ElectricConductivity.lean`: GetFields, Conductivity, the rotations and the points of the program, on top of the models of Blur and Voronoi. `Props/Grains.lean`: the loop over the grains by induction with C06 for each blur; positivity because two windows of half width 5 reach every node of a torus of at most 21 nodes; the mean by induction over the grains; the labels of the program are computed by the kernel (`exampleChecked`), a statement about this one program. The fields are kept as real lists. The labels are given as a list of the length of the grid. 0/0 (NaN in Go) is modelled as no value.
  Theorems: `c142_fields`, `c142_empty`, `c142_range`, `c142_covered`, `c142_mixture`, `c142_two_grains`, `c142_one_grain`, `c142_rotated`, `c142_conducting`, `c142_labels`, `c142_weights`, `c142_program`. Status: proved.
* **C143 Diffusion from a single node: the total stays, the field evens out, and the first step makes concentrations negative.** `Model/DiffusionExample.lean`: the equation, the start and the calls of the program. `Props/Diffusion.lean`: every wave is multiplied by 1/(1 + dt k^2) (`diffusion_model`, from the text by C19); Parseval gives the contraction; the value at the starting node is the mean of the powers of these factors; the negative value because the mean against a real wave pattern that is at most the one of the starting node would otherwise be too large. Exact arithmetic; Euler stepper without filter. For larger time steps than 2/pi^2 the sign is not decided. The files of the program are C39 to C42.
  Theorems: `c143_assembles`, `c143_total`, `c143_spreads`, `c143_converges`, `c143_peak`, `c143_undershoot`, `c143_monitor`. Status: proved.
* **C144 What the circle monitors of the database example report.** `Model/DiffusionExample.lean`: Eval with its loops, the writer and the monitors of the program. `Props/CircleMonitor.lean`: the loops visit the pairs of a square without repetition; inside the grid pairs and nodes correspond one to one, so the sums are sums over the disc, which is specified by coordinates; outside, NodeIdx is negative or too large for rows and belongs to the next row for columns. Exact arithmetic, in which the argument of the root is never negative inside the grid; 0/0 is modelled as no value. The database is C35 to C38.
  Theorems: `c144_inside`, `c144_uniform`, `c144_empty`, `c144_rows`, `c144_columns`, `c144_limit`, `c144_writer`, `c144_program`. Status: proved.
* **C145 What the Kardar-Parisi-Zhang example computes.** `Model/Kpz.lean`: the model and the equation of the program. `Props/Kpz.lean` parses the equation and gives one step in Fourier space (an explicit term, a noise function and an implicit Laplacian). `Props/KpzRun.lean`: runs as sequences of surfaces; the waves of a flat surface shrink geometrically because the squared slope is bounded by the square of the largest wave; the noise by the second moments of independent normal draws. `Props/KpzBlowup.lean`: surfaces that repeat after p nodes stay such surfaces; for p = 3 the depth follows a scalar recursion, for p = 8 three amplitudes have an invariant region in which one grows geometrically. Exact arithmetic; the noise is a parameter of the steps, and its law is assumed for the statements about mean and mean square. The files the program writes are not part of it.
  Theorems: `c145_third`, `c145_steepens`, `c145_assembles`, `c145_step`, `c145_mean`, `c145_real`, `c145_shift`, `c145_growth`, `c145_small`, `c145_noise`, `c145_strength`. Status: proved.
* **C146 What the strained precipitate example computes: relaxation, elastic force and an almost conserved volume.** `Model/Precipitate.lean`: the functions, the registrations, the equations, the start and a round (a step and `OnStepFinished` of both terms) of the program. `Props/Precipitate.lean`: the equations are read by `c128_coupled`, which gives a step of coupled equations with registered terms. `Props/CubicElast.lean`: the displacement for frequencies with some signs flipped is the displacement with these signs flipped, so strains along the axes have conjugate symmetric spectra. `Props/PrecipitateRun.lean`: runs, totals by the zeroth wave, volume by the recursion of the multiplier, positive interface because diffusion lowers the sum of squares (Parseval). Exact arithmetic: 0/0 is zero in the model of the multiplier, NaN in Go. `CubicMaterial` leaves out C_ijji (C79), so the variational theorem of C103 does not apply to this program. Files and `Summarize` are not modelled.
  Theorems: `c146_elastic_real`, `c146_elastic_none`, `c146_solvable`, `c146_reaction`, `c146_run`, `c146_unique`, `c146_conc_total`, `c146_conc_volume`, `c146_first`, `c146_volume`, `c146_interface`, `c146_pure`, `c146_real`, `c146_square`, `c146_program`. Status: proved.
* **C147 What the Cahn-Hilliard example computes: material kept, energy lowered, and stripes that grow without bound.** `Model/CahnHilliardExample.lean`: scalars, field, equation and the range of the start. `Props/CahnHilliard.lean`: the equation is read as three products (`mixture_polynomial`); step, energy and rest from the theory of C131, small waves from C126; stripes are fields of plus and minus one with a single wave number, so the cube is the field itself and the amplitude follows a scalar recursion, which is bounded from below or above by a geometric sequence. Exact arithmetic; Euler stepper without filter, as in the program. That no run from values in [-1,1) leaves [-1.97,1.97] is not proved. Random numbers and files are not modelled.
  Theorems: `c147_assembles`, `c147_step`, `c147_total`, `c147_energy`, `c147_rest`, `c147_stripes`, `c147_widths`, `c147_spinodal`, `c147_mixes`, `c147_program`. Status: proved.
* **C148 Where drawn figures end up, and what the drawing example writes.** `Model/DrawingExample.lean`: the figures and the calls of the program, on top of the models of C11, C12, C68 and C05. `Props/Drawing.lean`: the chain of transformations is computed (`c148_chain`, specification `Placed`), undoing the turn gives the figure; lists of figures by induction from `c12_draw`; for the program the real inequalities become integer ones (multiples of half the root of two against 15), the figures are separated by their bounding boxes, and the window is that of C06. The number of covered nodes is counted by the kernel. Exact arithmetic (no node lies on an edge of the turned figures, so rounding matters only for edges along the axes). Writing the file (`saveCsv`) is C40, not repeated here.
  Theorems: `c148_chain`, `c148_box`, `c148_ball`, `c148_figures`, `c148_example_figures`, `c148_disjoint`, `c148_program`. Status: proved.
* **C149 What the crystal example writes: atoms that cut pieces out of each other.** `Model/BuildCrystals.lean`: the program on top of the model of C106 and C105. `Props/BuildCrystals.lean`: cells are drawn in the lexicographic order of the product iterator (`c149_order`), so the list of atoms is strictly ordered by cell and kind; the nodes an atom reaches along an axis are worked out including the cut towards zero and wrapping (`near_iff`, `near_reached`); with `c106_value` the last of the atoms that reach a node decides. Exact arithmetic. The format of the files is not modelled.
  Theorems: `c149_order`, `c149_value`, `c149_program`, `c149_dents`, `c149_half_node`. Status: proved.
* **C150 What the penalty for negative values does in a simulation.** `Model/Penalty.lean`: `Evaluate`, the default and a model with the penalty. `Props/Penalty.lean`: the equation is read by `c97_euler` for arbitrary names; its implicit part is zero, so a step is the same at every node (`c150_nodes`); the step of the penalty is a scalar recursion (`penaltyStep`), monotone and bounded below the threshold, so its limit is a fixed point; the rate for exponent 3 by induction on the reciprocals. Exact arithmetic; Euler stepper without filter. The penalty together with other terms is not treated (each step is C97).
  Theorems: `c150_nodes`, `c150_restores`, `c150_drives_away`, `c150_default`. Status: proved.
* **C151 Grids as complex arrays and as files.** `Model/GridIO.lean`: conversions, the view of the real part and `Grid.SaveCsv`. `Props/GridIO.lean`: induction over the loops; the file of a grid with three dimensions has the records of `SaveCsv` of package pf except for the case of the header, which `LoadCSV` does not look at; with two dimensions the header has three columns, which `LoadCSV` takes for coordinates. Files are lists of records as in C40; complex numbers are pairs of rationals. That `NewField` keeps the array it is given without copying is not expressed.
  Theorems: `c151_from`, `c151_round_trip`, `c151_view`, `c151_view_length`, `c151_file`, `c151_three`, `c151_two`, `c151_other`. Status: proved.
* **C152 The interface between the phases in the Kim-Kim-Suzuki and Cahn-Hilliard examples.** `Props/Interface.lean`, on top of the models of C136 and C147: the equations on a line, with the reaction terms and scalars of the model and second derivatives in place of `LAP`. The profile is differentiated; uniqueness from the first integral of the equation, which is zero because the slope vanishes along a sequence found with the mean value theorem, then separation of variables; the energy with the fundamental theorem of calculus. A statement about the differential equations whose right-hand sides the model spells (C19, C97), on an unbounded line, not about a periodic grid.
  Theorems: `c152_rest`, `c152_only`, `c152_width`, `c152_thickness`, `c152_energy`, `c152_cahn_hilliard`. Status: proved.
* **C153 What the implicit stepper does to the sum of a field.** `Props/ImplicitTotal.lean`: the sum over the nodes of the residual vector is the zero bin of the spectrum of the residual (`leftTotal_eq`), where the integral is the trapezoidal rule and the exponential is one; induction over the steps; `text_noUniform` from the text as in C116. The filter is seen not to occur in `problem_eq`. The non-linear solver is a parameter, as in C76 and C133; nothing is assumed about it except, where said, the size of what it leaves.
  Theorems: `c153_real`, `c153_source`, `c153_step`, `c153_steps`, `c153_drift`, `c153_exact`, `c153_filter`, `c153_start`, `c153_text`. Status: proved.
* **C154 When the elastic term keeps a real field real.** `Props/ElasticReal.lean`: reversing axes conjugates the matrix of the linear system by a diagonal matrix of signs, so the strain along an axis has a conjugate symmetric spectrum (`mirror_strain`), the only ones used without shear; with odd sides opposite bins have opposite wave vectors. The counterexample solves the linear systems of the 4 times 2 grid in closed form (`mixed_displacement`) and sums the eight bins (`even_im`). Exact arithmetic; singular linear systems as in C57.
  Theorems: `c154_mirror`, `c154_isotropic`, `c154_cubic`, `c154_odd`, `c154_even_not`. Status: proved.
* **C155 Division by zero in the time steppers.** `Model/NonFinite.lean`: the Euler and RK4 steppers once more, on numbers that may be not finite (`none`); a division by zero gives `none`, sums and products with `none` are `none`, and a transform of data with a `none` is `none` everywhere. `Props/NonFinite.lean`: as long as no denominator is zero the steps refine those of `Model/Stepper.lean` (`eulerStepE_fin`, `rk4StepE_fin`); a field with a `none` is `none` everywhere after a step because both steppers add to the old field (`c155_spreads`); texts by `text_shape` and `implicit_eq`. A complex number is finite or both parts are not finite, which is what Go's complex division by zero gives and what transforms keep. Overflow is not modelled. What terms do with numbers that are not finite is left open (`Extends` only fixes it for finite ones).
  Theorems: `c155_spreads`, `c155_exact`, `c155_breaks`, `c155_text`, `c155_time_steps`, `c155_example`. Status: proved.
* **C156 Whose memory the fields live in.** `Model/Memory.lean`: the memory is a sequence of cells, a slice is the number of its first cell, and the steppers of `pf/euler.go` and `pf/rk4.go` are written once more as programs that overwrite slices in place. `Props/Memory.lean`: if the slices are disjoint, reading the memory after a step is the step of `Model/Stepper.lean` on what was read before (`c156_euler`, `c156_rk4`, a refinement by `List.foldl_hom`); cells outside of the slices are a frame (`c156_foreign`). `c156_shared`: two transforms in a row are the reflection of the grid, so the division acts on node values. The steps of the other properties are therefore those of fields with separate memory. Slices may overlap partly; calculators of derived fields are taken to read before they write.
  Theorems: `c156_euler`, `c156_rk4`, `c156_foreign`, `c156_run`, `c156_shared`, `c156_new_field`, `c156_copy`, `c156_user`, `c156_overlap`, `c156_shared_diffusion`, `c156_shared_uniform`. Status: proved.
* **C157 Functions that use other functions.** `Props/DerivedOrder.lean`, on `Model/Prepare.lean` and `Model/Stepper.lean`: `sync_derived` says what a calculator sees in the middle of `SyncDerivedFields`; an Euler step leaves the transforms of the derived fields behind. `c157_values` and `c157_unique` are by induction on the number of the derived field, `c157_wrong_order` by induction on the number of steps, `c157_text` reads the equation with the model of the parser. for RK4 the values seen are those of the last stage (`c157_seen_rk4`); the example is for Euler
  Theorems: `c157_values`, `c157_unique`, `c157_history`, `c157_seen`, `c157_seen_rk4`, `c157_right_order`, `c157_wrong_order`, `c157_text`, `c157_in_order`. Status: proved.
* **C158 The equation the implicit stepper solves does not change while it is being solved.** `Model/ImplicitSolver.lean`: the solver is a program (a tree) that evaluates its function at points depending on earlier results; it works on the memory of the model. `Props/ImplicitSolver.lean`: with `c157_unique` an evaluation does not depend on the memory (`c158_function`), induction over the program and over the steps gives the refinement of `Model/ImplicitEuler.lean` (`c158_refines`); the exception is calculated (`c158_history`). `Props/LeftBehind.lean`: what is in memory after a run of the solver, by induction over its program.
  Theorems: `c158_function`, `c158_out`, `c158_refines`, `c158_fields_only`, `c158_history`, `c158_left_behind`. Status: proved.
* **C159 How stable the Runge-Kutta stepper is compared with the Euler stepper.** `Props/RungeKuttaStability.lean`: the slopes of the model built from the text (C97, C19), the RK4 step as a map of the field in real space (C111), its derivative at a uniform state by closure under sums, multipliers and composition, then the arguments of C126 for stability and instability; the sign of 1 - factor and 1 + factor as polynomials. One field, no functions, no filter, whole powers. Exact arithmetic.
  Theorems: `c159_waves`, `c159_stable`, `c159_conserved`, `c159_leaves`, `c159_limit`, `c159_euler`, `c159_gain`, `c159_cahn_hilliard`, `c159_worse`. Status: proved.
* **C160 For which time steps the implicit stepper is stable.** `Props/ImplicitWaves.lean`: the step as the solution of after(y1) = before(y0) in real space; the inverse function theorem for the map after at the uniform state gives a smooth step map near it, and the only zeros of the residual that the code gives to the solver near the state are its values; then the arguments of C126. `Props/ImplicitFactor.lean`: the signs of 1 - phi and 1 + phi for real rates. One field, no functions, whole real powers, real parameters. The solver is a parameter: any that returns a zero of the residual within ε of the state if there is one. If the implicit rate of the uniform wave is between 0 and 1e-5 in modulus and the state is not zero, the short formula moves the state of rest; this is excluded.
  Theorems: `c160_all_steps`, `c160_limit`, `c160_large`, `c160_every_step`, `c160_shortcut`, `c160_cahn_hilliard`, `c160_cahn_hilliard_leaves`, `c160_well`, `c160_factor`, `c160_stable`, `c160_conserved`, `c160_leaves`. Status: proved.
* **C161 Small perturbations of uniform states of coupled equations.** `Proofs/LinearStability.lean`: a map of a finite dimensional space near a fixed point is attracting if the spectral radius of its derivative is less than one (Gelfand's formula), and some of given directions leave if it is larger. `Props/CoupledStability.lean`: the step of C132 as a smooth map of all fields, its derivative at a uniform state by the product rule, the eigenvectors of the derivative as waves. `Props/PredatorPrey.lean`: the two cases. `Props/CoupledPair.lean`: two equations, with the criterion for the roots of a quadratic polynomial to lie in the unit disc. No functions, no filter, whole powers, 1 - dt a not zero for the implicit rates a. The multipliers are those of a stepwise evaluation; the determinant is written out for two equations (`c161_pair_multiplier`) only, where the signs of the coefficients decide (`c161_pair_stable`, `c161_pair_leaves`, `c161_pair_small`).
  Theorems: `c161_pair_multiplier`, `c161_pair_stable`, `c161_pair_leaves`, `c161_pair_small`, `c161_stable`, `c161_leaves`, `c161_exact`, `c161_predator_prey`, `c161_trail`. Status: proved.
* **C162 Whether a filter has an effect with the implicit stepper.** `Props/ImplicitFilter.lean`: the function given to the solver does not see the filter (C158 for the memory of the predictor), induction over the steps; for the effect both filtered and unfiltered predictor are computed by the transform of uniform fields and are solutions. The solver is a parameter; no claim about which solution gononlin finds from another starting point.
  Theorems: `c162_equation`, `c162_no_effect`, `c162_well`, `c162_effect`. Status: proved.
* **C163 What diffusion does to the stability of two coupled equations.** `Props/Turing.lean`: the rates of the waves (C161) split into the derivative of the reaction and the diffusivity times the squared wave number; trace and determinant as polynomials of that number; `c163_turing` and `c163_alike` are the concrete activator-inhibitor pair. Terms with a Laplacian of the other field or of a product are covered by C161 only. At product zero nothing is claimed.
  Theorems: `c163_waves`, `c163_harmless`, `c163_reaction`, `c163_turing`, `c163_alike`. Status: proved.
* **C164 For short time steps the growth rates of the linearised equations decide.** `Proofs/SmallSteps.lean`: eigenvalues of `(mu - 1)(1 - dt K) w = dt A w` for short steps, by compactness for the one direction and by the roots of the characteristic polynomial for the other. `Props/GrowthRates.lean`: the multipliers of C161 as such eigenvalues, with `A` the linearised equations and `K` the part that sees new values. `Props/RingOscillator.lean`: the ring of three fields. How short the steps have to be is not computed. Nothing is claimed if the largest real part is zero.
  Theorems: `c164_settles`, `c164_leaves`, `c164_reaction`, `c164_alike`, `c164_ring_settles`, `c164_ring_leaves`. Status: proved.
* **C165 For short time steps the RK4 stepper keeps and leaves the same uniform states as the equations.** `Proofs/NearIdentity.lean`: eigenvalues of `1 + dt G(dt)` with `G` continuous at zero, and the matrix of a Runge-Kutta step in that form. `Props/RungeKuttaSystem.lean`: the RK4 step as a smooth map of the fields (from C111 and the text), its derivative at a uniform state wave by wave, and the claims by the lemmas on smooth maps that C161 uses too. How short the steps have to be is not computed. Nothing is claimed if the largest real part is zero.
  Theorems: `c165_settles`, `c165_leaves`, `c165_reaction`, `c165_alike`, `c165_ring_settles`, `c165_ring_leaves`. Status: proved.
* **C166 Three signs decide whether three coupled equations stay at a uniform state.** `Proofs/RouthHurwitz.lean`: the Routh-Hurwitz criterion for real cubics in both directions, and the eigenvalues of a real matrix with three rows as the roots of such a cubic. `Props/ThreeFields.lean`: growth rates of three equations as those roots, and the claims from C164 and C165. `Props/Lorenz.lean`: the Lorenz equations from their text. How short the steps have to be is not computed. Nothing is claimed if an inequality is an equality. That perturbations beyond the bound never settle (chaos) is not claimed.
  Theorems: `c166_lorenz_rest`, `c166_lorenz_onset`, `c166_lorenz_convection`, `c166_lorenz_unsteady`, `c166_settles`, `c166_leaves`, `c166_alike`, `c166_reaction`. Status: proved.
* **C167 The RK4 stepper shows the same diffusion driven instabilities of two coupled equations.** `Props/TuringRungeKutta.lean`: the growth rates of two equations as the roots of a quadratic, where those have negative or positive real parts, and the claims from C165. How short the steps have to be is not computed. Nothing is claimed on the boundary.
  Theorems: `c167_pair`, `c167_waves`, `c167_turing`, `c167_alike`. Status: proved.
* **C168 Fields that restrain themselves more than the others move them settle.** `Proofs/Dominance.lean`: Gershgorin's discs, and the trace as the sum of the eigenvalues. `Props/Dominance.lean`: the matrix of a wave (C164) and the claims from C164 and C165; the Laplacian of the own field takes from the balance. Sufficient conditions only: for states that meet neither nothing is claimed here; C163, C166 and C167 decide for two and three equations.
  Theorems: `c168_dominant`, `c168_diffusing`, `c168_leaves`, `c168_reaction`, `c168_ring`, `c168_lorenz`. Status: proved.

## Which parts of the code are modelled

346 of 406 functions of the library are modelled (fully, or partly as the comments of the definitions say).

* `cmd/attr.go`: modelled: `listUniqueAttributes`, `listAttributes`, `listSingleAttribute`; not modelled: `init`, `set2slice`.
* `cmd/comment.go`: modelled: `printAllComments`; not modelled: `init`.
* `cmd/contour.go`: modelled: `NewHeatMapData`, `index`, `HeatMapData.Z`, `getColIndex`, `readData`, `dataRange`, `fillImage`; not modelled: `init`, `HeatMapData.Dims`, `HeatMapData.X`, `HeatMapData.Y`, `readHeader`.
* `cmd/db.go`: not modelled: `init`.
* `cmd/elast.go`: not modelled: `init`.
* `cmd/energy.go`: not modelled: `init`.
* `cmd/export.go`: modelled: `exportTimeseries`, `exportFieldData`, `largestTimestep`, `allTimeSteps`; not modelled: `init`, `appendFileExtension`.
* `cmd/info.go`: modelled: `dimString`, `printList`; not modelled: `init`.
* `cmd/lineplot.go`: modelled: `numSet`, `init`, `includeRow`, `absissaIndex`, `lineData`.
* `cmd/list.go`: modelled: `showSimulationIds`, `showComments`; not modelled: `init`.
* `cmd/root.go`: not modelled: `Execute`, `init`, `initConfig`.
* `cmd/template.go`: not modelled: `init`.
* `cmd/time.go`: not modelled: `init`.
* `cmd/util.go`: modelled: `singleLine`, `newestSimulationID`, `closestWhiteSpace`.
* `elasticity/effectiveForce.go`: modelled: `NewEffectiveForceFromMisfit`, `EffectiveForce.Get`.
* `elasticity/linearElasticity.go`: modelled: `DisplacementMatrixElement`, `Displacements`, `Strain`, `EnergyDensity`, `HomogeneousModulusEnergy`.
* `elasticity/perturbation.go`: modelled: `PerturbedForce`.
* `elasticity/rank4.go`: modelled: `NewRank4`, `Rank4.index`, `Rank4.At`, `Rank4.Set`, `Rank4.Rotate`, `Rank4.ContractLast`, `Shear`, `Isotropic`, `CubicMaterial`, `FromFlatVoigt`, `RotationMatrix`.
* `elasticity/shapes.go`: modelled: `Ellipsoid`.
* `elasticity/strainEnergyCLI.go`: modelled: `CalculateStrainEnergy`.
* `pf/advection.go`: modelled: `Advection.GradName`, `Advection.GetName`, `Advection.AllFieldsExist`, `Advection.PrepareModel`, `Advection.Construct`; not modelled: `Advection.OnStepFinished`.
* `pf/boundTransform.go`: modelled: `BoundTransform.Forward`, `BoundTransform.Backward`.
* `pf/chargeTransport.go`: modelled: `ChargeTransport.current`, `ChargeTransport.Construct`, `ChargeTransport.Current`, `voigtIndex3D`, `voigtIndex2D`, `voigtIndex`; not modelled: `ChargeTransport.OnStepFinished`.
* `pf/database.go`: modelled: `FieldDB.initialize`, `FieldDB.positionTableIsPopulated`, `FieldDB.populatePositionsTable`, `FieldDB.insertRealPart`, `FieldDB.SaveFields`, `FieldDB.Comment`, `FieldDB.SetAttr`, `FieldDB.SetTextAttr`, `FieldDB.TimeSeries`, `FieldDB.domainSizeOk`, `FieldDB.Load`, `FieldDB.LoadLast`.
* `pf/diffOp.go`: modelled: `LaplacianN.Eval`.
* `pf/euler.go`: modelled: `Euler.Step`, `Euler.GetTime`, `Euler.Propagate`, `Euler.SetFilter`.
* `pf/fileIO.go`: modelled: `Uint8IO.SaveFields`, `Float64IO.SaveFields`, `LoadFloat64`, `SaveFloat64`, `CsvIO.SaveFields`, `LoadCSV`, `SaveCsv`; not modelled: `NewUint8IO`, `NewFloat64IO`.
* `pf/gradientCalculator.go`: modelled: `GradientCalculator.Calculate`, `GradientCalculator.ToDerivedField`, `DivGrad.FuncName`, `DivGrad.GradName`, `DivGrad.PrepareModel`, `DivGrad.Construct`, `WeightedLaplacian.Construct`; not modelled: `DivGrad.OnStepFinished`.
* `pf/homoLinElast.go`: modelled: `Indicator`, `IndicatorDeriv`, `HomogeneousModulusLinElast.Construct`, `HomogeneousModulusLinElast.Freq`, `HomogeneousModulusLinElast.Force`, `HomogeneousModulusLinElast.OnStepFinished`, `NewHomogeneousModolus`.
* `pf/implicitEuler.go`: modelled: `ImplicitEuler.fields2vec`, `ImplicitEuler.fieldData2vec`, `ImplicitEuler.vec2fields`, `ImplicitEuler.updateEquation`, `ImplicitEuler.GetTime`, `ImplicitEuler.fft`, `ImplicitEuler.nonlinearIntegral`, `ImplicitEuler.Step`; not modelled: `ImplicitEuler.isImag`, `ImplicitEuler.ifft`, `ImplicitEuler.homotopyUpdate`, `ImplicitEuler.defaultNumHomotopy`, `ImplicitEuler.defaultTol`, `ImplicitEuler.SetFilter`, `DefaultNonLinSolver`.
* `pf/model.go`: modelled: `Field.Get`, `Field.Copy`, `Field.SaveReal`, `NewField`, `DerivedField.Get`, `DerivedField.Update`, `NewScalar`, `Scalar.SetFloat`, `Scalar.Get`, `NewModel`, `Model.AddField`, `Model.AddScalar`, `Model.AddSource`, `Model.AddEquation`, `Model.UpdateDerivedFields`, `Model.AllFieldNames`, `Model.IsFieldName`, `Model.IsBrickName`, `Model.SyncDerivedFields`, `Model.Init`, `Model.GetRHS`, `Model.GetDenum`, `Model.registerTerm`, `Model.registerDerivedFields`, `Model.RegisterImplicitTerm`, `Model.RegisterExplicitTerm`, `Model.RegisterMixedTerm`, `Model.IsUserDefinedTerm`, `Model.RegisterFunction`, `Model.RegisterDerivedField`, `Model.EqNumber`, `Model.RegisterRHSModifier`, `panicOnPrefixInName`; not modelled: `Model.NumNodes`, `Model.AllVariableNames`, `Model.IsImplicitTerm`, `Model.IsExplicitTerm`, `Model.IsMixedTerm`, `Model.Summarize`.
* `pf/monitor.go`: modelled: `NewPointMonitor`, `PointMonitor.Add`.
* `pf/negative_value_penalty.go`: modelled: `NegativeValuePenalty.Penalty`, `NegativeValuePenalty.Evaluate`, `NewDefaultNegativeValuePenalty`.
* `pf/noise.go`: modelled: `WhiteNoise.Generate`, `ConservativeNoise.GetCurrentName`, `ConservativeNoise.CurrentFieldsAreRegistered`, `ConservativeNoise.Construct`, `ConservativeNoise.RequiredDerivedFields`; not modelled: `NewConservativeNoise`, `ConservativeNoise.OnStepFinished`.
* `pf/pairCorrelationTerm.go`: modelled: `PairCorrlationTerm.Construct`, `PairCorrlationTerm.GetEnergy`, `ExplicitPairCorrelationTerm.Construct`, `IdealMixtureTerm.Eval`, `IdealMixtureTerm.ConstructLinear`, `IdealMixtureTerm.nonLinearDerivedFieldName`, `IdealMixtureTerm.DerivedField`, `IdealMixtureTerm.ConstructNonLinear`, `IdealMixtureTerm.GetEnergy`; not modelled: `PairCorrlationTerm.evaluate`, `PairCorrlationTerm.OnStepFinished`, `IdealMixtureTerm.OnStepFinished`.
* `pf/rhsBuilder.go`: modelled: `Build`, `fieldNameFromLeibniz`, `isBilinear`, `ValidName`, `ConcreteTerm`, `flipSign`, `constructFunc`, `knownPrefixes`, `removeKnownPrefixes`, `getKnownPrefixes`, `recursiveRemove`.
* `pf/rk4.go`: modelled: `RK4.Step`, `RK4.PrepareNextCorrection`, `RK4.firstCorrection`, `RK4.correction`, `RK4.Propagate`, `RK4.SetFilter`, `RK4.GetTime`.
* `pf/sdd.go`: modelled: `SDDMonitor.Log`, `NewSDD`, `SDD.checkTimeStep`, `SDD.fft`, `SDD.Step`, `SDD.extractRHS`, `SDD.householder`, `SDD.householderDenum`, `SDD.ShiftFieldsAlongDimer`, `SDD.GetTime`, `SDD.DimerLength`, `SDD.RequiredDimerLengthTime`, `SDD.FieldNorm`, `SDD.Init`, `SDD.SetInitialOrientation`, `SDD.SetFilter`, `SDD.SaveOrientation`, `diagonalShermannMorrison.dot`; not modelled: `SDD.ifft`.
* `pf/solver.go`: modelled: `NewSolver`, `Solver.Propagate`, `Solver.SetStepper`, `Solver.Solve`, `Solver.AddMonitor`, `Solver.JSONifyMonitors`; not modelled: `Solver.AddCallback`.
* `pf/sourceTerm.go`: modelled: `Source.Eval`; not modelled: `NewSource`.
* `pf/spectralViscosity.go`: modelled: `interpolant`, `SpectralViscosity.Construct`; not modelled: `SpectralViscosity.OnStepFinished`.
* `pf/squareGradientTerm.go`: modelled: `SquaredGradient.Construct`; not modelled: `NewSquareGradient`, `SquaredGradient.OnStepFinished`.
* `pf/tensorialHessian.go`: modelled: `TensorialHessian.Construct`, `TensorialHessian.GetCoeff`; not modelled: `BrickPlaceholder.Get`, `TensorialHessian.OnStepFinished`.
* `pf/userDefinedTerm.go`: modelled: `isImplicit`, `perturbedBrick.Get`.
* `pf/util.go`: modelled: `GetNonLinearFieldExpressions`, `DerivedFieldCalcFromDesc`, `GetPower`, `GetFieldName`, `RealPartAsUint8`, `ApplyModalFilter`, `getFirstDelimiter`, `SplitOnMany`, `removeEmpty`, `UniqueFreqIterator.Next`, `includeFreq`, `RealAmplitudeIterator.Next`, `SortFactors`; not modelled: `UniqueFreqIterator.firstFreqsAreNyquistOrZero`.
* `pf/vandeven.go`: modelled: `NewVandeven`, `Vandeven.Eval`.
* `pf/volumeConserving.go`: modelled: `VolumeConservingLP.Construct`, `VolumeConservingLP.OnStepFinished`, `NewVolumeConservingLP`.
* `pf/xdmf.go`: modelled: `CreateXDMF`, `WriteXDMF`.
* `pfc/ideal.go`: modelled: `IdealMix.Eval`, `IdealMix.Deriv`, `IdealMix.QuadraticPrefactor`, `IdealMix.ThirdOrderPrefactor`, `IdealMix.FourthOrderPrefactor`.
* `pfc/initialGuessExplorer.go`: modelled: `HyperOctantExplorer.Next`, `SinglePointExplorer.Next`; not modelled: `HyperOctantExplorer.OnMinimizationFinished`, `SinglePointExplorer.OnMinimizationFinished`.
* `pfc/lattice.go`: modelled: `Cell.Volume`, `ReciprocalCell.HKLVector`, `ReciprocalCell.CellChange`, `ReciprocalCell.ChangeHKLVector`, `Cell.Reciprocal`, `FCC`, `SC3D`, `BCC`, `SC2D`, `Triangular2D`, `CubicUnitCellDensity`.
* `pfc/miller.go`: modelled: `Miller.At`, `factorial`, `abs`, `NumEquivalent3D`, `NumEquivalent2D`, `NumEquivalent`, `EquivalentMiller`, `EquivalentMillerNoPermutations`; not modelled: `Miller.Equal`.
* `pfc/mode_solver.go`: modelled: `ModeSolver.ModeDensity`, `ModeSolver.UnitcellIntegral`, `freeEnergyTerm.Power`, `power2key`, `ModeSolver.build`, `mergeTerms`, `ModeSolver.Solve`, `ModeSolver.MatchElasticProp`, `BulkModWeight`, `ShearModWeight`, `AreaModulusWeight`, `XYPlaneShearWeight`, `ModeSolver.PeakWidths`.
* `pfc/pairCorrelation.go`: modelled: `ReciprocalSpacePairCorrelation.Eval`, `SquareLattice2D`, `TriangularLattice2D`.
* `pfc/periodicFieldInit.go`: modelled: `CornersScaledCrd`, `isInsideBox`, `GaussianKernel.Cutoff`, `GaussianKernel.Eval`, `CircleKernel.Cutoff`, `CircleKernel.Eval`, `BuildCrystal`, `TiltGB`; not modelled: `CircleKernel.Area`.
* `pfc/quadrature.go`: modelled: `QuadSquare`, `QuadCube`.
* `pfc/twoPhaseCorrFunc.go`: modelled: `Indicator`, `IndicatorDeriv`, `TwoPhaseCorrFunc.Evaluate`, `TwoPhaseCorrFunc.EvaluateFT`; not modelled: `Dot`.
* `pfutil/affine.go`: modelled: `Affine.Apply`, `Affine.Append`, `Identity`, `Translation`, `Scaling`, `RotZ`, `RotY`, `RotX`; not modelled: `NewAffine`.
* `pfutil/blur.go`: modelled: `BoxKernel.Cutoff`, `BoxKernel.Value`, `Blur`.
* `pfutil/fftWrap.go`: modelled: `NewFFTW`, `FFTWWrapper.FFT`, `FFTWWrapper.IFFT`, `FFTWWrapper.col`, `FFTWWrapper.row`, `FFTWWrapper.depth`, `FFTWWrapper.Freq`, `FFTWWrapper.ConjugateNode`.
* `pfutil/grid.go`: modelled: `NewGrid`, `Grid.Copy`, `Grid.Index`, `Grid.Pos`, `Grid.Set`, `Grid.Get`, `Grid.ToComplex`, `Grid.FromComplex`, `Grid.SaveCsv`, `Grid.Rotate2D`.
* `pfutil/indexPositionConversion.go`: modelled: `nodeIdx2`, `nodeIdx3`, `NodeIdx`, `pos3`, `pos2`, `Pos`.
* `pfutil/iterators.go`: modelled: `NewProduct`, `Product.Next`.
* `pfutil/shapes.go`: modelled: `BoundingBox.check`, `Box.InteriorPoint`, `Box.BBox`, `Ball.InteriorPoint`, `Ball.BBox`, `Draw`.
* `pfutil/sliceOperations.go`: modelled: `CmplxEqualApprox`, `ElemwiseAdd`, `DivRealScalar`, `ProdInt`, `Dot`, `MaxReal`, `MinReal`, `Wrap`; not modelled: `ElemwiseMul`, `Clear`.
* `pfutil/sliceWrappers.go`: modelled: `RealSlice.Get`, `RealSlice.Set`, `RealSlice.Len`, `RealPartSlice.Get`, `RealPartSlice.Set`, `RealPartSlice.Len`.
* `pfutil/voronoi.go`: modelled: `Voronoi`, `pointDistSq`, `absInt`, `closestPoint`.

## Where the code disagrees with its documentation

Proved (the theorem of the named property contains the counterexample or the exact behaviour):

* C03 The product iterator starts again after it has reported the end.
* C06 The box blur kernel is not zero everywhere beyond its reported cutoff.
* C07 Voronoi labels are 0 for nodes whose generators all lie at a squared distance of 2^31-1 or more.
* C09 For 3D domains with unequal sides the frequency reported for a bin is not that of the transform.
* C12 Drawing on a 2D grid reads a stale z coordinate if the transformation has a z component.
* C14 A sign that follows an operator is lost by the splitting of right-hand sides. An empty right-hand side, or one of signs only, panics with an index error (`c14_no_terms`).
* C17 Linear terms are recognised by a pattern made of the field name with its last letter repeated; short names make the classification wrong.
* C18 Scalars that sort between fields, Laplacians attached to a later field, repeated fields and Laplacians in front of scalars silently change the value of a term.
* C19 A constant term is added to every Fourier bin; a function times a field or another function is always dropped (c19_function_lost).
* C20 All derived fields registered in one call end up as the last of them (shared loop variable).
* C22 The Euler step updates the fields one after the other, so later equations see new values of earlier fields.
* C34 The several-field dimer force reads the right-hand sides of the first field for all fields.
* C37, C38 Row ids of positions start at one, position ids at zero; the population of the position table is detected by more than one row.
* C41 Grey-scale export gives zero for ranges below 1e-10.
* C42 Different prefix/field combinations can give the same file name.
* C46 The negative value penalty is not a derivative for even exponents.
* C47 Only the upper triangle of the Hessian coefficients is used.
* C49 The documented order of the off-diagonal conductivities is swapped.
* C50 The spectral viscosity is -1 at the peak and negative in a range below it, where its documentation has values between 0 and 1.
* C55 The tensor of the cubic material has the minor symmetries, and agrees with the usual 6x6 matrix, only if C44 = 0.
* C56 The rotation about axis 1 has the opposite handedness; an invalid axis gives the zero matrix.
* C59 The multiplicity formula is twice too big if |h| = |l| differs from |k|.
* C61 The change of the reciprocal cell lacks a transposition.
* C62 The non-linear part of the ideal mixture term ignores the prefactor.
* C65 The heat map reader ignores the index it has computed.
* C66, C67 Wrapped comments are truncated, duplicated or panic; wrapped tables have an empty one at the end.
* C73 Inner and outer derivative of div F grad treat the Nyquist frequency differently.
* C75 The modal filter is never evaluated beyond the middle of its range.
* C76 The implicit stepper is not the documented backward Euler scheme.
* C77 The test for implicit terms accepts field dependent terms and rejects scalar coefficients.
* C80 The perturbed force uses the wave vector component of the direction of the force where the formula sums over all components.
* C84 Weights documented as Reuss averages are Voigt averages and depend on the chosen equivalent index.
* C88 The predefined triangular cell spans a square lattice.
* C92 The peak of the triangular lattice is not at the length of any of its reciprocal lattice vectors.
* C94 Exported time series have no time column and show missing values as zero.
* C96 A simulation without a comment is listed with the comment of another one.
* C97, C99 Equation i always advances field i, whatever its left-hand side says.
* C98 Names with LAP inside are accepted although they turn terms into Laplacians.
* C100 The volume multiplier never recovers what is lost in the first two steps.
* C103 The elastic term is zero in the first time step, because its copy of the field is filled only after a step.
* C105 `Rotate2D` turns the content by minus the angle, opposite to `RotZ`.
* C106 Kernels of overlapping atoms overwrite each other; in 2D the margin is V^(1/3)/2; a kernel with cutoff below 1/2 makes `BuildCrystal` loop for ever; the circle kernel reaches one further than its radius.
* C106 The circle kernel is one beyond its cutoff.
* C108, C109 The listing for simulation 0 shows numbers of all simulations but no texts; the listing of one attribute never prints texts and can show them under a wrong simulation.
* C110 A new comment for a simulation without one is lost, with a message of success; the help text promises the newest simulation when no id is given, all comments are listed instead.
- pf/solver.go:70 drives the RK4 stepper through `Step`, which never advances its time: with a source 2t the field stays at its initial value for ever (`c111_solver_time_dependent`). RK4 is documented to be much more stable than Euler, but with implicit terms only it is the Euler step (`c111_only_implicit`).
* C113 A point monitor of a derived field records a Fourier coefficient of the derived field from before the last step (`c113_derived`), not its value. `SetStepper` in the middle of a run silently restarts the time at zero and removes the filter (`c113_choice`).
* A field named X, Y or Z cannot be plotted: the plotting commands find the coordinate column of that name first (`c118_axis_name`).
* `lineplot -d` has no effect: the command reads a flag `fields` that does not exist and plots all fields (`c118_line_x`); the loop that would split the list starts at the fifth name.
* C119 `CalculateStrainEnergy` adds the energy of the difference of the moduli at every voxel, not only inside the inclusion (`c119_inclusion`), because line 121 asks whether there are moduli of the matrix, not whether the voxel is inside. `"MatPropInc": []` is not the same as leaving it out: it gives energy zero (`c119_empty`).
* C120 Creation times have a resolution of one second and are local times: of two simulations created in the same second either is "the newest" (`c120_same_second`), and after the end of daylight saving an older one is (`c120_set_back`). `gopf db list -m -1` lists everything below the line "Showing -1 of n rows" (`c120_remark`). The dimensions of an empty database are shown as (1, 1, 1).
* `gopf db export --all` without `-o` writes files named like `fd_3.csv0.csv`.
* C121 Two `DivGrad` terms for the same field share the names of their derived fields: both use the function prepared last (`c121_divgrad_same_field`). `Advection` overwrites a brick called `<field>_0`, `<field>_1` or `<field>_2` by a derivative, also if it is a velocity (`c121_velocity_replaced`). With two `Advection` terms for one field the first one multiplies its velocities with *transforms* of the derivatives of the previous step (`c121_advection_twice`). The name of an `Advection` term is the names of its velocities in a row: terms with velocities `v`, `xx` and `vx`, `x` both use the velocities prepared last (`c121_advection_same_name`). The currents of `ConservativeNoise` registered as documented, through `RegisterExplicitTerm(name, &noise, noise.RequiredDerivedFields(n))`, are all equal to the last one (`c121_noise`).
* C122 A run continued from saved fields restarts its clock at zero, nothing stores the time: equations with an explicit time dependence go on differently (`c122_time`). `Load` and `LoadLast` return the fields ordered by name, so they must be matched by name, not by position (`c122_database`).
- C123: for `dt lam = 1`, `lam` a growth rate, `householderDenum` divides by zero although `I - dt (I - 2 o o^T) A` is regular for a dimer along that wave; nearby time steps work.
- C124: `FieldNormChange` is the fall of the norm, not its change, and after the first step minus the norm; both norms are those before the step. `ForcePowerSpectrum` is divided by the number of nodes twice and square-rooted, so it is a root mean square, not the integral its comment promises. Setting a saved orientation again sets the dimer length to one.
- C125: for an equation that is linear in its own field the RK4 stepper does exactly what the Euler stepper does (all terms are implicit and there is no explicit slope), so it is of first order. A growing wave with dt r > 2 dies out in the simulation, without any warning.
- C126: the semi-implicit Euler step treats only the terms linear in the field implicitly, so for nonlinear equations there is a limit on the time step, exactly `dt |r| < 2 (1 - dt a)`; beyond it a stable state is left although the equation says it attracts.
- C127: `WhiteNoise` draws numbers with variance 2 Strength whatever the time step is, so the fluctuations it causes are proportional to the time step and vanish as it is refined; the documented correlation function needs Strength/dt (`c127_walk`, `c127_vanishes`, `c127_corrected`). The same holds for the currents of `ConservativeNoise`.
- C128: `UpdateDerivedFields` compares the whole term with the registered names, operators included, while `Build` removes the operators first. `LAP conc_chem` with a registered `conc_chem` in the equation of another field than `conc` therefore creates a derived field that reads a field that does not exist (`c128_operator_in_front`); the first step then reads a nil pointer (pf/util.go:57-63).
- C129: registered as documented, the components of the current of `ConservativeNoise` share their random numbers, so the noise is not isotropic: in 2D waves with frequency (f,-f) get no noise and waves (f,f) twice as much (`c129_shared`). Also with own random numbers the fluctuations are proportional to the time step (`c129_equilibrium`), and waves with only zero and Nyquist components get none (`c129_power`).
- C130: the meta file gives the sides of a three dimensional domain as `d0 d1 d2`, but the nodes are numbered with the third axis slowest (`d2 d0 d1` would be right). With different sides a viewer scrambles the picture (`c130_scrambled`), with equal sides it exchanges the axes.
- C130: the time item of the meta file is a HyperSlab with n+1 numbers instead of start, stride and count, and origin and spacing declare two numbers but hold three in two dimensions.
- C132: the documentation of the Euler step has N(y_n), all fields before the step. The code advances the fields one after the other in the same arrays, so that equations see the new values of earlier fields in terms with one bare field and the old values in products (`c132_step`). Results depend on the order of the fields; states at rest do not (`c132_rest`).
- C133: the implicit stepper evaluates the right-hand side after the step at the time before the step (`updateEquation` uses `GetTime`), so that with explicit time dependence it is of first order only (`c133_time_dependent`).
- C134: the documentation of the implicit stepper says that it is stable for all time steps provided that the solver finds the solution. For dconc/dt = conc - conc^3 and any such solver runs grow without bound from large values at every time step (`c134_diverges`) and from 1/2 at time steps of six or more (`c134_large_steps`). The update formula in the same comment (y_n + dt L y_n+1 + N(y_n+1)) is not what is computed either (`c134_step`).
- C137: the implicit stepper treats the same differential equation differently depending on how it is spelled. As `conc - conc^3` the linear part goes to the implicit part and every large start grows without bound, for all time steps (C134); with a registered function for conc - conc^3 all runs stay bounded, for all time steps. The example program uses the latter spelling and so does not show the former. Above dt = 2 the step equation has several solutions and the program takes whichever the solver finds.
- C139: the documentation of the shrinking dimer example says that the critical droplet is affected by the inhomogeneity. The program multiplies the whole force by the weight theta (it drops grad theta . grad phi, which the derivative of the weighted energy contains), so theta acts as a mobility: the states of rest are exactly those of the homogeneous system (`c139_rest`, `c139_limit`).
- C139: with the default radii 4 and 8 of the example, in a domain of side one, the initial orientation is zero and is divided by zero, and the initial droplet is a half plane (`c139_orientation`, `c139_droplet`).
- C140: the phase field crystal example names its data files after `int(temp)*1000`, so all temperatures below one share their files and overwrite each other, although the meta file is named after `int(temp*1000)`. With `-start` it reads from `data/` whatever folder it writes to (`c140_files`).
- C142: `GetFields` of examples/electricConductivity takes the largest label as the number of grains, so the last grain is dropped (with two grains only the first orientation counts; with one grain every conductivity is 0/0), and it does not clear its work array, so every field contains the fields before it. Six of the seven Voronoi points lie outside the 16 x 16 domain (they were written for a larger one); four of them own no node.
- C141: `ChargeTransport` is stable with the Euler stepper exactly up to dt times the largest conductivity of 2; nothing checks this.
- C143: the diffusion example produces negative concentrations in its first step (`c143_undershoot`), because the Laplacian is spectral and the start is a single node.
- C144: the circle monitors of the database example are not periodic although the grid is: a disc over the first or last row panics (`c144_rows`), one over the last column silently reads nodes of the next row (`c144_columns`).
- C145: in the Kardar-Parisi-Zhang example waves that are too short for the grid are folded back, so that surfaces with slopes that are large enough steepen without bound for every time step (`c145_third`, `c145_steepens`), although the equation they discretise flattens everything; the program divides the strength of its noise by the root of the time step, so that the noise disappears when the time step is made smaller (`c145_strength`); dividing by the time step would keep it (C127).
- C146: the strained precipitate example does not conserve the concentration (`c146_conc_total`), and its volume constraint corrects with the rate of the step before, so the volume drifts by the change of the rate (`c146_volume`); started with a single phase (also with the square of the program on a domain with fewer than five or with six nodes per side, `c146_square`), the multiplier becomes 0/0 in the second step (`c146_pure`).
- C147: the Cahn-Hilliard example treats the term -LAP conc implicitly and the cube explicitly. Its scheme is only safe for values of moderate size: with the constants of the program stripes two nodes wide and 3.5 high grow without bound (`c147_program`).
- C148: `BoxKernel{Width: 3}` of the drawing example averages over windows of 5 x 5 nodes, not 3 x 3 (C06), and figures with sides of 30 cover 31 nodes; `Scaling{1, 2}` halves the figure instead of doubling it (as the comment of `Draw` says, the transformation acts on pixels).
- C149: `BuildCrystal` overwrites nodes instead of adding contributions. In its own example the reach of the atoms overlaps, so that every atom has pieces cut out where the value is up to 1000 times too small (`c149_dents`); the result depends on the order of drawing. Decimals are cut towards zero, so atoms on the first row or column are centred on a node and all others half a node off (`c149_half_node`).
- C150: `NegativeValuePenalty` is documented as a term that adds a penalty, but `Evaluate` returns plus the derivative of the penalty, so an equation that adds it drives negative values to minus infinity (`c150_drives_away`); it has to be subtracted, and for even exponents added. With the default prefactor the time step must be below 1/(9000 |x|), else the value jumps far above zero (`c150_default`; -1 becomes 899 for dt = 0.1).
- C151: `Grid.SaveCsv` writes two coordinates for grids with two dimensions while `LoadCSV` and the plotting commands take the first three columns for coordinates: loading such a file returns no fields and no error (`c151_two`).
- C152: `examples/kks/main.go` calls the constant `l` the interface thickness and sets the gradient coefficient to `2 w / l`. The thickness that results is `4/√l`: raising `l` makes interfaces thinner (`c152_thickness`).
- C153: the comment on `SetFilter` of the implicit stepper says it has no effect; it does not change the equation that is solved, but the point the solver starts from (`c153_filter`, `c153_start`), so a solver that stops early returns something else.
- C154: `Strain` drops the highest frequency but `Displacements` and `Force` do not, so on grids with an even side the elastic term of a misfit strain with dilatation and shear makes real fields complex.
* C106 `math.Pow` of a negative volume is not a number, so for left-handed cells (for example two swapped cell vectors) `isInsideBox` does not check the far sides and cells outside the domain are drawn, wrapped into it (`c106_left_handed`, `c106_swapped`).
- C155: nothing checks the denominator 1 - dt r; for isolated time steps (dt = 1 for `dconc/dt = conc`) all numbers of a field become infinite or NaN in the first step. Theorems on runs with growing waves (C23, C116, C126, ...) take x/0 = 0 there and speak about the program only for other time steps.
* C104 On grids with even sides `HomogeneousModulusEnergy` can return almost twice the elastic energy (`c104_even`): `Displacements` uses the highest frequency of an even axis with its sign, `Strain` drops it, so that the displacement is the best one for a different strain than the one that is integrated. It never returns less (`c104_upper`).
- C156: `NewField` does not copy the data. If the same slice is given for two fields, each step transforms it twice and divides node values instead of wave amplitudes (`c156_shared`, `c156_shared_uniform`); nothing reports it.
- C157: a function that uses a function registered after it gets the Fourier transform of the values of the step before (`c157_wrong_order`), because the steppers transform derived fields in place and nothing sorts the functions; nothing reports it.
- C158: with functions registered in an order in which one uses a later one, the equation the implicit stepper asks its solver to solve changes with every evaluation (`c158_history`).
- C159: the documentation of the RK4 stepper promises much better stability than the Euler scheme; for waves with dt times the implicit rate above 2/3 it is worse, and there is a simulation that is stable with Euler and not with RK4 (`c159_worse`).
- C160: the promise of C134 (stable for all time steps) fails for small perturbations too, exactly for the waves that the implicit part alone would make grow; with the Cahn-Hilliard equation these are the waves with 0 < q < 1 (`c160_cahn_hilliard_leaves`). The short formula for implicit rates below 1e-5 loses the property also for waves that the implicit part damps (`c160_shortcut`).
- C161: not an error of the code but of the method: the Euler stepper leaves the coexistence state of the predator-prey equations for every time step, also in the semi-implicit form the code uses, because the product conc*eta is explicit in both equations (`c161_predator_prey`, `c161_exact`).
- C162: the documentation of `ImplicitEuler.SetFilter` says that the filter has no effect (pf/implicitEuler.go:209-210); it is passed to the explicit step that gives the solver its starting point (line 184), and where the equation has several solutions the result can depend on it (`c162_effect`).

Noticed while reading, without a theorem:

* The bound transform's documentation has +1 where the code has +0.5 (the theorems of C45 are about the code).
* The product iterator panics when it is created without dimensions.
* `Scalar.SetFloat` has a value receiver and changes nothing.
* `firstFreqsAreNyquistOrZero` always returns false.
* `LoadLast` reads NULL as zero; `domainSizeOk` accepts a 2D simulation into a 3D database.
* `ConservativeNoise` drops the Nyquist frequency with a tolerance of 1e-6 while other terms use 1e-10.
* `DivGrad` and `Advection` have an `OnStepFinished` with another signature than the term interface asks for, so they cannot be passed to `RegisterExplicitTerm` without a wrapper.
* `appendFileExtension` panics for file names shorter than four characters.
* `MatchElasticProp` panics with a single mode; `HyperOctantExplorer` panics for an empty start vector.
* `homotopyUpdate` and `isImag` are never called.
