{
 "claims": [
  {
   "property": "C01",
   "status": "proved",
   "theorems": [
    "Verif.Props.C01_divisors",
    "Verif.Props.C01_divisors_nonpos"
   ],
   "note": ""
  },
  {
   "property": "C02",
   "status": "proved",
   "theorems": [
    "Verif.Props.C02_hnf_from_diag"
   ],
   "note": ""
  },
  {
   "property": "C03",
   "status": "proved",
   "theorems": [
    "Verif.Props.C03_hnf_from_det",
    "Verif.Props.C03_hnf_from_det_errors"
   ],
   "note": ""
  },
  {
   "property": "C04",
   "status": "proved",
   "theorems": [
    "Verif.Props.C04_sublattices"
   ],
   "note": ""
  },
  {
   "property": "C05",
   "status": "proved",
   "theorems": [
    "Verif.Props.C05_hnfd"
   ],
   "note": ""
  },
  {
   "property": "C06",
   "status": "proved",
   "theorems": [
    "Verif.Props.C06_hnfd_canonical",
    "Verif.Props.C06_hnfd_recovers",
    "Verif.Props.C06_hnfd_idempotent"
   ],
   "note": ""
  },
  {
   "property": "C07",
   "status": "proved",
   "theorems": [
    "Verif.Props.C07_hnfd_singular",
    "Verif.Props.C07_dimension_one_fails"
   ],
   "note": "C07_dimension_one_fails shows that the restriction to dimension >= 2 in the statement is needed"
  },
  {
   "property": "C08",
   "status": "partial",
   "theorems": [
    "Verif.Props.C08_python2_fails",
    "Verif.Props.C08_hnfd_partial"
   ],
   "note": "False of the code under Python 2 (C08_python2_fails). C08_hnfd_partial keeps what holds under both interpreters; the range of sub-diagonal entries is missing there. Under Python 3 the property is C05."
  },
  {
   "property": "C09",
   "status": "proved",
   "theorems": [
    "Verif.Props.C09_reduce_hnfs",
    "Verif.Props.C09_python2_fails",
    "Verif.Props.C09_nothing_lost"
   ],
   "note": "Under Python 3, the interpreter of the property. Under Python 2 a class may be kept more than once (C09_python2_fails); C09_nothing_lost proves for both interpreters that it ends, repeats nothing and loses no class."
  },
  {
   "property": "C10",
   "status": "proved",
   "theorems": [
    "Verif.Props.C10_divide_work",
    "Verif.Props.C10_groups",
    "Verif.Props.C10_groups_fails",
    "Verif.Props.C10_reduce_twice",
    "Verif.Props.C10_parallel",
    "Verif.Props.C10_same_count",
    "Verif.Props.C10_plain_worker_fails",
    "Verif.Props.C10_parallel_nothing_lost"
   ],
   "note": "Under Python 3; C10_parallel_nothing_lost proves for both interpreters that the parallel branch ends and loses no class. C10_plain_worker_fails: reduce_hnfs itself cannot be the worker. C10_groups: at most as many chunks as processors under Python 3, at least as many under Python 2; C10_groups_fails: the printed number of groups is not always the number made."
  },
  {
   "property": "C11",
   "status": "proved",
   "theorems": [
    "Verif.Props.C11_lattice_new"
   ],
   "note": ""
  },
  {
   "property": "C12",
   "status": "partial",
   "theorems": [
    "Verif.Props.C12_eq_is_containment",
    "Verif.Props.C12_same_lattice_partial",
    "Verif.Props.C12_same_volume_partial",
    "Verif.Props.C12_sublattice_fails",
    "Verif.Props.C12_tolerance_fails"
   ],
   "note": "== is proved to be containment of the right operand's lattice in the left one's (exact comparison), and to be equality of lattices for cells of equal volume. False in general: C12_sublattice_fails; with the code's tolerances also C12_tolerance_fails."
  },
  {
   "property": "C13",
   "status": "proved",
   "theorems": [
    "Verif.Props.C13_inpointgroup",
    "Verif.Props.C13_tolerant_complete"
   ],
   "note": ""
  },
  {
   "property": "C14",
   "status": "proved",
   "theorems": [
    "Verif.Props.C14_inlatticegroup",
    "Verif.Props.C14_tolerant_complete",
    "Verif.Props.C14_wrong_shape"
   ],
   "note": ""
  },
  {
   "property": "C15",
   "status": "partial",
   "theorems": [
    "Verif.Props.C15_laue_group_3d",
    "Verif.Props.C15_laue_group_2d",
    "Verif.Props.C15_other_dimensions",
    "Verif.Props.C15_tolerance_fails"
   ],
   "note": "Proved for exact comparison, and for the code's tolerances under the hypothesis Separated (no table matrix maps the lattice nearly but not exactly onto itself). Without it the result need not be a group: C15_tolerance_fails."
  },
  {
   "property": "C16",
   "status": "partial",
   "theorems": [
    "Verif.Props.C16_point_group_3d",
    "Verif.Props.C16_point_group_2d_partial",
    "Verif.Props.C16_contains_laue_2d_partial",
    "Verif.Props.C16_2d_fails",
    "Verif.Props.C16_full_2d_partial",
    "Verif.Props.C16_types_2d_partial",
    "Verif.Props.C16_full_2d_iff"
   ],
   "note": "3-D: proved. 2-D: group of symmetries proved; if diag(1,-1) is a symmetry the point group holds all symmetries of the lattice (C16_full_2d_partial), in particular for square, rectangular, centred rectangular and hexagonal lattices (C16_types_2d_partial); exactly when: C16_full_2d_iff (that reflection is a symmetry, or there are none but the half turn and the reflections in the diagonals); false in general (C16_2d_fails). With the code's tolerances under the hypothesis Separated, as for C15."
  },
  {
   "property": "C17",
   "status": "partial",
   "theorems": [
    "Verif.Props.C17_special_lattice_group_3d",
    "Verif.Props.C17_special_lattice_group_2d",
    "Verif.Props.C17_lattice_group_3d",
    "Verif.Props.C17_lattice_group_2d",
    "Verif.Props.C17_tolerance_fails"
   ],
   "note": "Proved for exact comparison, and for the code's tolerances under the hypothesis Separated of C15. False without it: C17_tolerance_fails."
  },
  {
   "property": "C18",
   "status": "partial",
   "theorems": [
    "Verif.Props.C18_bravais_accessors_partial",
    "Verif.Props.C18_toPrimitive_fails",
    "Verif.Props.C18_toConventional_fails",
    "Verif.Props.C18_lattice_accessors_partial",
    "Verif.Props.C18_getlatticegroup_fails"
   ],
   "note": "Proved for the accessors that work. False for getlatticegroup on every 3-D lattice (C18_getlatticegroup_fails) and for toPrimitive and toConventional, which always raise (C18_toPrimitive_fails, C18_toConventional_fails)."
  },
  {
   "property": "C19",
   "status": "proved",
   "theorems": [
    "Verif.Props.C19_cubic_complete",
    "Verif.Props.C19_cubic_two_folds",
    "Verif.Props.C19_cubic_group",
    "Verif.Props.C19_square_ext_complete",
    "Verif.Props.C19_square_complete",
    "Verif.Props.C19_square_groups",
    "Verif.Props.C19_hex_laue_group",
    "Verif.Props.C19_hex2d_group",
    "Verif.Props.C19_hex2d_ext_group"
   ],
   "note": ""
  },
  {
   "property": "C20",
   "status": "proved",
   "theorems": [
    "Verif.Props.C20_hassubgroup",
    "Verif.Props.C20_reflexive",
    "Verif.Props.C20_exact",
    "Verif.Props.C20_transitive"
   ],
   "note": ""
  },
  {
   "property": "C21",
   "status": "partial",
   "theorems": [
    "Verif.Props.C21_accepted",
    "Verif.Props.C21_rejected",
    "Verif.Props.C21_rejected_shape",
    "Verif.Props.C21_dimension",
    "Verif.Props.C21_nan_fails"
   ],
   "note": "Everything but non-degeneracy is proved. Impossible angles are accepted and give a base of NaNs: C21_nan_fails."
  },
  {
   "property": "C22",
   "status": "partial",
   "theorems": [
    "Verif.Props.C22_cell_3d_partial",
    "Verif.Props.C22_cell_2d",
    "Verif.Props.C22_python2_fails"
   ],
   "note": "Proved for 2-D, and for 3-D except integer parameters under Python 2, where it is false (C22_python2_fails)."
  },
  {
   "property": "C23",
   "status": "proved",
   "theorems": [
    "Verif.Props.C23_conventional_trans"
   ],
   "note": ""
  },
  {
   "property": "C24",
   "status": "partial",
   "theorems": [
    "Verif.Props.C24_index",
    "Verif.Props.C24_list_partial",
    "Verif.Props.C24_wrong_length",
    "Verif.Props.C24_single_fails"
   ],
   "note": "Proved for single indices and for lists of length other than one; a list of one index loses its list (C24_single_fails)."
  },
  {
   "property": "C25",
   "status": "partial",
   "theorems": [
    "Verif.Props.C25_rotation_partial",
    "Verif.Props.C25_unique",
    "Verif.Props.C25_compose_partial",
    "Verif.Props.C25_nan",
    "Verif.Props.C25_axis_fails"
   ],
   "note": "Proved for every axis except those along -e1, where the code returns NaNs (C25_axis_fails; C25_nan is the exact set of failing axes)."
  },
  {
   "property": "C26",
   "status": "proved",
   "theorems": [
    "Verif.Props.C26_euler",
    "Verif.Props.C26_unit",
    "Verif.Props.C26_rejected"
   ],
   "note": ""
  },
  {
   "property": "C27",
   "status": "partial",
   "theorems": [
    "Verif.Props.C27_screw_partial",
    "Verif.Props.C27_zero",
    "Verif.Props.C27_axis_fails",
    "Verif.Props.C27_python2_fails"
   ],
   "note": "Proved under Python 3 for lattice vectors not along -e1. False otherwise: C27_axis_fails (NaNs), C27_python2_fails (integer division drops the screw translation)."
  },
  {
   "property": "C28",
   "status": "proved",
   "theorems": [
    "Verif.Props.C28_nonneg",
    "Verif.Props.C28_zero_iff",
    "Verif.Props.C28_rotation",
    "Verif.Props.C28_lattice_groups",
    "Verif.Props.C28_class_function"
   ],
   "note": ""
  },
  {
   "property": "C29",
   "status": "proved",
   "theorems": [
    "Verif.Props.C29_batched"
   ],
   "note": ""
  },
  {
   "property": "C30",
   "status": "partial",
   "theorems": [
    "Verif.Props.C30_eric_nonneg",
    "Verif.Props.C30_eric_zero_iff",
    "Verif.Props.C30_eric_group_partial",
    "Verif.Props.C30_strain_nonneg",
    "Verif.Props.C30_strain_zero_iff",
    "Verif.Props.C30_strain_lattice_groups",
    "Verif.Props.C30_strain_2d_fails",
    "Verif.Props.C30_eric_group_fails"
   ],
   "note": "Non-negativity, zero set and (strain, 3D) symmetry invariance are proved. False in the code and proved so: the Ericksen distance is not invariant under the symmetries of the second lattice (C30_eric_group_fails), the strain distance in 2D is at least 1 (C30_strain_2d_fails)."
  },
  {
   "property": "C31",
   "status": "proved",
   "theorems": [
    "Verif.Props.C31_tensor",
    "Verif.Props.C31_tensor_real",
    "Verif.Props.C31_gradient"
   ],
   "note": ""
  },
  {
   "property": "C32",
   "status": "proved",
   "theorems": [
    "Verif.Props.C32_radius",
    "Verif.Props.C32_alpha_exists"
   ],
   "note": ""
  },
  {
   "property": "C33",
   "status": "proved",
   "theorems": [
    "Verif.Props.C33_ball_once"
   ],
   "note": ""
  },
  {
   "property": "C34",
   "status": "partial",
   "theorems": [
    "Verif.Props.C34_resume_partial",
    "Verif.Props.C34_resume_dim_one",
    "Verif.Props.C34_resume_fails",
    "Verif.Props.C34_outside_ball",
    "Verif.Props.C34_resume_iff"
   ],
   "note": "Exactly when it holds: resuming at a checkpoint in the ball gives the rest of the enumeration if and only if the positive coordinates of the checkpoint are followed by zeros only (C34_resume_iff, C34_resume_partial); in dimension 1 always. False in general: C34_resume_fails."
  },
  {
   "property": "C35",
   "status": "proved",
   "theorems": [
    "Verif.Props.C35_best_classes",
    "Verif.Props.C35_singular_first"
   ],
   "note": ""
  },
  {
   "property": "C36",
   "status": "proved",
   "theorems": [
    "Verif.Props.C36_order_independent",
    "Verif.Props.C36_batches"
   ],
   "note": ""
  },
  {
   "property": "C37",
   "status": "proved",
   "theorems": [
    "Verif.Props.C37_update_sol"
   ],
   "note": ""
  },
  {
   "property": "C38",
   "status": "partial",
   "theorems": [
    "Verif.Props.C38_examined",
    "Verif.Props.C38_optimal_partial",
    "Verif.Props.C38_terminates",
    "Verif.Props.C38_cauchy_optimal_partial",
    "Verif.Props.C38_cauchy_terminates",
    "Verif.Props.C38_missed_fails",
    "Verif.Props.C38_stop_iteration_fails",
    "Verif.Props.C38_candidates",
    "Verif.Props.C38_cauchy_candidates"
   ],
   "note": "Proved: termination; the answer is right for the examined candidates, and which candidates these are (C38_candidates: the accepted trial matrices and every round of the enumeration, the last one complete with the final radius); optimality for runs that end normally with harmless checkpoints. False in general: C38_missed_fails (a normal run with valid input that misses the optimum) and C38_stop_iteration_fails (StopIteration)."
  },
  {
   "property": "C39",
   "status": "proved",
   "theorems": [
    "Verif.Props.C39_report",
    "Verif.Props.C39_direct",
    "Verif.Props.C39_direct_run",
    "Verif.Props.C39_hnf"
   ],
   "note": ""
  },
  {
   "property": "C40",
   "status": "partial",
   "theorems": [
    "Verif.Props.C40_merge_partial",
    "Verif.Props.C40_underfull_fails"
   ],
   "note": "Proved when the first merged sublattice returns at least nsol inequivalent solutions (C40_merge_partial). False in general: C40_underfull_fails drops a solution although the list is not full."
  },
  {
   "property": "C41",
   "status": "partial",
   "theorems": [
    "Verif.Props.C41_merge_order",
    "Verif.Props.C41_invariant",
    "Verif.Props.C41_all_merged_once",
    "Verif.Props.C41_schedule_independent_partial",
    "Verif.Props.C41_schedule_fails",
    "Verif.Props.C41_poolsize_zero"
   ],
   "note": "Every task merged exactly once, bounded pool, termination under fairness: proved for all schedules. Independence of the schedule is proved for full result lists only; C41_schedule_fails is a counterexample for short ones. Whenever the polling in lat_cor_hnf ends, every sublattice has been merged once (C41_merge_order)."
  },
  {
   "property": "C42",
   "status": "proved",
   "theorems": [
    "Verif.Props.C42_sizes",
    "Verif.Props.C42_size_zero_fails"
   ],
   "note": ""
  },
  {
   "property": "C43",
   "status": "proved",
   "theorems": [
    "Verif.Props.C43_steepest",
    "Verif.Props.C43_descent",
    "Verif.Props.C43_cauchy",
    "Verif.Props.C43_ericksen",
    "Verif.Props.C43_strain"
   ],
   "note": ""
  },
  {
   "property": "C44",
   "status": "partial",
   "theorems": [
    "Verif.Props.C44_transparent_partial",
    "Verif.Props.C44_node_fails",
    "Verif.Props.C44_default_fails"
   ],
   "note": "The element and distance of the answer do not depend on the cache (C44_transparent_partial). The node object does (C44_node_fails: parent and grandpa of a cached answer differ), and the default cache raises KeyError on its first hit (C44_default_fails)."
  },
  {
   "property": "C45",
   "status": "partial",
   "theorems": [
    "Verif.Props.C45_any_run",
    "Verif.Props.C45_core",
    "Verif.Props.C45_core_best",
    "Verif.Props.C45_lat_opt_partial",
    "Verif.Props.C45_plane_fails"
   ],
   "note": "C45_lat_opt_partial covers three dimensions and bases for which LLL returns a base (the other case is C48_pair_fails). 'The first distance is at most that of any descent made' is proved for distances constant on equivalence classes (C45_core_best). False for plane lattices, although dim=2 is documented: every call raises (C45_plane_fails). A call that ends has one outcome whatever the number of steps allowed (C45_any_run)."
  },
  {
   "property": "C46",
   "status": "proved",
   "theorems": [
    "Verif.Props.C46_best_visited",
    "Verif.Props.C46_order_independent"
   ],
   "note": ""
  },
  {
   "property": "C47",
   "status": "partial",
   "theorems": [
    "Verif.Props.C47_reached_iff_partial",
    "Verif.Props.C47_square_fails",
    "Verif.Props.C47_order_fails"
   ],
   "note": "False of the code: C47_square_fails and C47_order_fails give products of two transvections that no depth reaches. C47_reached_iff_partial says exactly which products are in the tree up to each depth."
  },
  {
   "property": "C48",
   "status": "partial",
   "theorems": [
    "Verif.Props.C48_lattice_partial",
    "Verif.Props.C48_pair_partial",
    "Verif.Props.C48_pair_fails"
   ],
   "note": "Proved whenever LLL returns an array. C48_pair_fails: for some base it returns a pair (array, False), because line 68 tests Niter == 100. C84_reduces_partial and C84_cell_partial say for which bases an array is returned."
  },
  {
   "property": "C49",
   "status": "partial",
   "theorems": [
    "Verif.Props.C49_reduced_partial",
    "Verif.Props.C49_short_partial",
    "Verif.Props.C49_limit_fails",
    "Verif.Props.C49_size_fails"
   ],
   "note": "Proved when the loop stops by itself: Lovasz condition, coefficients next to the diagonal, short first vector. False of the code in general: C49_size_fails (another coefficient is -0.8), C49_limit_fails (iteration limit), C48_pair_fails (pair returned). C84 proves that the loop stops by itself, within the limit for the bases of C84_limit_partial."
  },
  {
   "property": "C50",
   "status": "proved",
   "theorems": [
    "Verif.Props.C50_gram_schmidt",
    "Verif.Props.C50_unique"
   ],
   "note": ""
  },
  {
   "property": "C51",
   "status": "partial",
   "theorems": [
    "Verif.Props.C51_accepts",
    "Verif.Props.C51_rejects_partial",
    "Verif.Props.C51_indefinite_fails",
    "Verif.Props.C51_many_fails"
   ],
   "note": "All symmetric positive definite stretches are accepted in every form; everything accepted is symmetric with positive determinant. False of the code: C51_indefinite_fails (diag(-1,-1,1) accepted), C51_many_fails (AttributeError for five numbers)."
  },
  {
   "property": "C52",
   "status": "partial",
   "theorems": [
    "Verif.Props.C52_variants_partial",
    "Verif.Props.C52_variants_exact",
    "Verif.Props.C52_getvariant",
    "Verif.Props.C52_tolerance_fails",
    "Verif.Props.C52_raises",
    "Verif.Props.C52_available_exact",
    "Verif.Props.C52_available"
   ],
   "note": "Full statement proved for exact comparisons (C52_variants_exact, C52_available_exact: the variants are returned if the Laue group of the lattice with base U is contained in the parent group, otherwise AttributeError) and, for the code's np.allclose, whenever distinct matrices Q U Q^T are told apart. C52_tolerance_fails: diag(1,1,1.000001) yields one variant."
  },
  {
   "property": "C53",
   "status": "partial",
   "theorems": [
    "Verif.Props.C53_reversible_partial",
    "Verif.Props.C53_reversible_exact_partial",
    "Verif.Props.C53_proper_fails"
   ],
   "note": "isreversible() is true iff the Laue group is a subgroup of the parent group (exactly, or up to np.allclose). C53_proper_fails: properness is not tested."
  },
  {
   "property": "C54",
   "status": "partial",
   "theorems": [
    "Verif.Props.C54_criterion",
    "Verif.Props.C54_symmetric",
    "Verif.Props.C54_istwinnable_partial",
    "Verif.Props.C54_tolerance_fails",
    "Verif.Props.C54_symmetry_fails"
   ],
   "note": "The exact criterion and its symmetry are proved (C54_criterion, C54_symmetric); istwinnable() is proved to be true for every connected pair differing by 1e-12. False of the code because of its tolerance 0.005: C54_tolerance_fails, C54_symmetry_fails (answer depends on the order)."
  },
  {
   "property": "C55",
   "status": "partial",
   "theorems": [
    "Verif.Props.C55_twinparam_partial",
    "Verif.Props.C55_exact",
    "Verif.Props.C55_rounding",
    "Verif.Props.C55_elementwise",
    "Verif.Props.C55_rounding_fails",
    "Verif.Props.C55_unrelated_fails"
   ],
   "note": "Proved before rounding (C55_exact) and up to 5e-11 per entry (C55_twinparam_partial, C55_rounding) for rank-one connected variants of the cubic group without near misses of the 1e-12 test. False of the code: C55_rounding_fails, C55_unrelated_fails (normals (1,1,1)); C55_elementwise: ValueError with numpy >= 1.13."
  },
  {
   "property": "C56",
   "status": "partial",
   "theorems": [
    "Verif.Props.C56_residual",
    "Verif.Props.C56_volumefrac_partial",
    "Verif.Props.C56_complete_partial",
    "Verif.Props.C56_half_fails",
    "Verif.Props.C56_zero_fails"
   ],
   "note": "Every returned fraction in [0,1] makes the determinant vanish up to snapping (C56_volumefrac_partial) and every fraction in (1/2, 1] is returned (C56_complete_partial), for exact solutions of the twinning equation of non-constant determinant. False of the code: C56_half_fails (fraction 1/2 is missed), C56_zero_fails (0 returned although no fraction exists). C116 bounds the effect of the rounding of twins for small stretches."
  },
  {
   "property": "C57",
   "status": "proved",
   "theorems": [
    "Verif.Props.C57_solve_rank1",
    "Verif.Props.C57_am_solver",
    "Verif.Props.C57_solve_am",
    "Verif.Props.C57_no_solution"
   ],
   "note": ""
  },
  {
   "property": "C58",
   "status": "partial",
   "theorems": [
    "Verif.Props.C58_compatible_partial",
    "Verif.Props.C58_fails",
    "Verif.Props.C58_not_array"
   ],
   "note": "Every rank-one connected pair gets True, and the answer compares the middle eigenvalue with 1 + 1e-5. False of the code: C58_fails (1/2 I against I gets True because the absolute value is missing)."
  },
  {
   "property": "C59",
   "status": "partial",
   "theorems": [
    "Verif.Props.C59_table",
    "Verif.Props.C59_order",
    "Verif.Props.C59_order_partial",
    "Verif.Props.C59_classes",
    "Verif.Props.C59_conventional_fails",
    "Verif.Props.C59_singular_fails"
   ],
   "note": "Order independence is proved for all call histories without isconventional calls for another group (C59_order_partial). C59_conventional_fails: a default isconventional() call poisons the cache. C59_singular_fails: a singular variant makes the table raise."
  },
  {
   "property": "C60",
   "status": "partial",
   "theorems": [
    "Verif.Props.C60_direction",
    "Verif.Props.C60_pairing",
    "Verif.Props.C60_compose",
    "Verif.Props.C60_inverse",
    "Verif.Props.C60_list_partial",
    "Verif.Props.C60_singleton_fails",
    "Verif.Props.C60_errors"
   ],
   "note": "Everything is proved except element-wise treatment of lists of one element, which come back as a bare vector (C60_singleton_fails)."
  },
  {
   "property": "C61",
   "status": "partial",
   "theorems": [
    "Verif.Props.C61_dot_partial",
    "Verif.Props.C61_transpose_partial",
    "Verif.Props.C61_det_partial",
    "Verif.Props.C61_trace_garbage",
    "Verif.Props.C61_trace_fails",
    "Verif.Props.C61_python3_fails"
   ],
   "note": "mat_dot, mat_T, mat_det proved for every dimension under Python 2. False: mat_trace adds to uninitialised memory (C61_trace_fails); under Python 3 all four raise NameError (C61_python3_fails)."
  },
  {
   "property": "C62",
   "status": "partial",
   "theorems": [
    "Verif.Props.C62_brute_cof",
    "Verif.Props.C62_cofactor_partial",
    "Verif.Props.C62_unique",
    "Verif.Props.C62_python3_fails",
    "Verif.Props.C62_shape"
   ],
   "note": "_brute_cof proved; cofactor proved under Python 2 and raises NameError under Python 3 (C62_python3_fails)."
  },
  {
   "property": "C63",
   "status": "partial",
   "theorems": [
    "Verif.Props.C63_vertex_3d",
    "Verif.Props.C63_vertex_2d",
    "Verif.Props.C63_vertex_errors",
    "Verif.Props.C63_bonds_partial",
    "Verif.Props.C63_bonds_2d_fails"
   ],
   "note": "vertex proved in 2-D and 3-D, bonds in 3-D; bonds always raises in 2-D (C63_bonds_2d_fails)."
  },
  {
   "property": "C64",
   "status": "partial",
   "theorems": [
    "Verif.Props.C64_projection_partial",
    "Verif.Props.C64_integer_disc",
    "Verif.Props.C64_scale_partial",
    "Verif.Props.C64_mirror_partial",
    "Verif.Props.C64_axis",
    "Verif.Props.C64_disc_fails",
    "Verif.Props.C64_scale_fails",
    "Verif.Props.C64_frame_fails"
   ],
   "note": "Proved outside the windows of the code's 1e-6 thresholds, and for all integer indices (disc); false inside them (C64_disc_fails, C64_scale_fails, C64_frame_fails). Also bounds the error of the rounding by |z|/1000."
  },
  {
   "property": "C65",
   "status": "proved",
   "theorems": [
    "Verif.Heap.C65_copies",
    "Verif.Heap.C65_fresh"
   ],
   "note": ""
  },
  {
   "property": "C66",
   "status": "partial",
   "theorems": [
    "Verif.Props.C66_evaluated_partial",
    "Verif.Props.C66_last_batch_fails",
    "Verif.Props.C66_second_fails",
    "Verif.Props.C66_singular_fails"
   ],
   "note": "Proved: for one requested solution and a threshold below 1 the evaluated batches lose nothing (C66_evaluated_partial). False of the code: the batch in which the generator ends is thrown away (C66_last_batch_fails), a slice offers only its best candidates (C66_second_fails), and none if the best one is singular (C66_singular_fails)."
  },
  {
   "property": "C67",
   "status": "proved",
   "theorems": [
    "Verif.Props.C67_search_space",
    "Verif.Props.C67_nothing_lost"
   ],
   "note": "Exactly one representative under Python 3; at least one under both interpreters (C67_nothing_lost)."
  },
  {
   "property": "C68",
   "status": "proved",
   "theorems": [
    "Verif.Props.C68_all_solutions"
   ],
   "note": ""
  },
  {
   "property": "C69",
   "status": "proved",
   "theorems": [
    "Verif.Props.C69_axes",
    "Verif.Props.C69_compound"
   ],
   "note": ""
  },
  {
   "property": "C70",
   "status": "partial",
   "theorems": [
    "Verif.Props.C70_middle",
    "Verif.Props.C70_habitplanes_partial",
    "Verif.Props.C70_one_fraction",
    "Verif.Props.C70_middle_fails"
   ],
   "note": "Proved for fractions for which one is the middle of three distinct principal stretches (C70_habitplanes_partial; C70_middle says when that is so). False of the code otherwise: C70_middle_fails (eight triples returned, no habit plane exists); C70_one_fraction: TypeError if exactly one fraction exists. C118 bounds the effect of rounding for small stretches."
  },
  {
   "property": "C71",
   "status": "partial",
   "theorems": [
    "Verif.Heap.C71_getvariants_fails",
    "Verif.Heap.C71_getvariant_fails",
    "Verif.Heap.C71_lat_param_fails",
    "Verif.Heap.C71_argument_fails",
    "Verif.Heap.C71_stale_fails",
    "Verif.Heap.C71_copying_constructors_partial",
    "Verif.Heap.C71_setU_partial"
   ],
   "note": "False of the code: Lattice, MatrixGroup, Martensite and TwinPair keep the ndarray they are given, and getvariants, getvariant, lat_param and conventional_trans return the stored array (C71_*_fails). What holds: objects built by Lattice(list), TwinSystem(array) and setU(array) are immune to later changes of the argument."
  },
  {
   "property": "C72",
   "status": "partial",
   "theorems": [
    "Verif.Props.C72_characterised",
    "Verif.Props.C72_init_partial",
    "Verif.Props.C72_few",
    "Verif.Props.C72_direct_partial",
    "Verif.Props.C72_square_fails",
    "Verif.Props.C72_scaled_fails"
   ],
   "note": "False of the code: if the trial matrices fall into at most nsol symmetry classes the initialisation draws for ever whatever the random numbers are (C72_few), e.g. a square lattice onto itself with nsol = 4 (C72_square_fails) or bases that differ by a factor of three or more (C72_scaled_fails). C72_characterised says exactly when it ends: nsol inequivalent trial matrices are strictly better than a further one, or there are 20 * nsol classes; then so does the search (C72_direct_partial). Trial matrices of determinant one, i.e. vol_th at most 1."
  },
  {
   "property": "C73",
   "status": "partial",
   "theorems": [
    "Verif.Props.C73_plane",
    "Verif.Props.C73_standard_partial",
    "Verif.Props.C73_types_fail",
    "Verif.Props.C73_hexagonal_setting_fails",
    "Verif.Props.C73_plane_lattice_group"
   ],
   "note": "Proved for every two-dimensional lattice (C73_plane, C73_plane_lattice_group) and for all parameters of six types of three-dimensional lattices (C73_standard_partial). False of the code for each of the other eight types: the tables hold only rotations about the cubic and hexagonal axes, and accepted parameters exist for which a rotation of the lattice is missing (C73_types_fail); also false for a lattice whose rotations are all tabulated (C73_hexagonal_setting_fails)."
  },
  {
   "property": "C74",
   "status": "partial",
   "theorems": [
    "Verif.Props.C74_all_fractions_partial",
    "Verif.Props.C74_parameters_partial",
    "Verif.Props.C74_sign_fails"
   ],
   "note": "Proved in exact arithmetic for variants under the cubic group whose axis tests have no near misses (C74_all_fractions_partial, C74_parameters_partial). The values have the opposite sign of the documented expression (C74_sign_fails)."
  },
  {
   "property": "C75",
   "status": "partial",
   "theorems": [
    "Verif.Props.C75_bravais_3d_partial",
    "Verif.Props.C75_bravais_2d",
    "Verif.Props.C75_triclinic_fails",
    "Verif.Props.C75_lattice",
    "Verif.Props.C75_text"
   ],
   "note": "Proved for all plane lattices (C75_bravais_2d), for all three-dimensional types but one (C75_bravais_3d_partial) and for plain lattices (C75_lattice). C75_text: for every accepted lattice the text of str(lattice), character by character, gives the dimension, the type and the named values, these with six significant digits. False for triclinic lattices: the value printed as alpha is the length b (C75_triclinic_fails). The vectors of plain lattices are printed by numpy and are modelled exactly."
  },
  {
   "property": "C76",
   "status": "partial",
   "theorems": [
    "Verif.Props.C76_rhombohedral_fails",
    "Verif.Props.C76_rhombohedral_rounding_fails",
    "Verif.Props.C76_system_partial",
    "Verif.Props.C76_arguments"
   ],
   "note": "Proved for thirteen of the fourteen types, with the tolerances of the code and exactly (C76_system_partial); arguments and the stretch in C76_arguments. False for the rhombohedral type: its parameters [2, 120] describe a flat cell, so that the call raises in exact arithmetic (C76_rhombohedral_fails), and with the cosine rounded the group found is the cubic one (C76_rhombohedral_rounding_fails)."
  },
  {
   "property": "C77",
   "status": "partial",
   "theorems": [
    "Verif.Props.C77_lat_cor_partial",
    "Verif.Props.C77_ends_partial",
    "Verif.Props.C77_symmetries_partial",
    "Verif.Props.C77_stop_iteration_fails",
    "Verif.Props.C77_same_solution_twice_fails",
    "Verif.Props.C77_symmetries_2d_partial"
   ],
   "note": "Proved: for lattices the constructor accepts and whose symmetry tests are reliable, a call of lat_cor, through all its steps, raises StopIteration, is still drawing or searching, or returns at least nsol solutions, sorted, inequivalent, each with the exact distance and consistent entries, and (if the checkpoints have the good form) no correspondence is closer than a returned one (C77_lat_cor_partial); the groups it uses are the complete ones for six types (C77_symmetries_partial); it ends if enough matrices can be drawn (C77_ends_partial). False in general: a call can raise StopIteration (C77_stop_iteration_fails), and returns correspondences that a symmetry of the lattice exchanges as different solutions when the symmetry is not among the candidates of the code (C77_same_solution_twice_fails)."
  },
  {
   "property": "C78",
   "status": "partial",
   "theorems": [
    "Verif.Props.C78_label_partial",
    "Verif.Props.C78_dist_ignored",
    "Verif.Props.C78_label_fails"
   ],
   "note": "The number printed is always the Cauchy distance (C78_label_partial), and the keyword has no effect on the solutions (C78_dist_ignored), so that the label is right for the default and for 'Cauchy' only; with dist='Ericksen' the number printed is not the Ericksen distance (C78_label_fails)."
  },
  {
   "property": "C79",
   "status": "partial",
   "theorems": [
    "Verif.Props.C79_slsqp_partial",
    "Verif.Props.C79_radius",
    "Verif.Props.C79_saddle_fails",
    "Verif.Props.C79_equations",
    "Verif.Props.C79_derivative",
    "Verif.Props.C79_jacobian_fails",
    "Verif.Props.C79_residual",
    "Verif.Props.C79_newton_partial",
    "Verif.Props.C79_singular_fails"
   ],
   "note": "Proved: with scipy the value returned is a value of the form on the sphere, hence never below the minimum, and equal to it exactly when a run ends at a minimiser (C79_slsqp_partial); a larger value makes the search radius smaller (C79_radius). Without scipy: the equations solved hold exactly at the critical points (C79_equations), and if the runs end below the tolerance the value is not below the minimum but for a factor (1-1e-4)^2 (C79_newton_partial, C79_residual). False in general: all starts at a critical point give a value three times the minimum and a radius that excludes the identity (C79_saddle_fails); the matrix the fallback inverts is not the derivative (C79_derivative, C79_jacobian_fails); the fallback can raise LinAlgError (C79_singular_fails)."
  },
  {
   "property": "C80",
   "status": "partial",
   "theorems": [
    "Verif.Props.C80_stretch",
    "Verif.Props.C80_same_as_martensite",
    "Verif.Props.C80_setLaue_fails",
    "Verif.Props.C80_setLaue_errors_fails",
    "Verif.Props.C80_history_partial",
    "Verif.Props.C80_last_stretch",
    "Verif.Props.C80_unchecked_fails",
    "Verif.Props.C80_constructor_fails",
    "Verif.Props.C80_count_fails"
   ],
   "note": "Proved: setU takes every stretch in the five forms and getU returns it (C80_stretch), the same as Martensite for all arguments both take (C80_same_as_martensite); over every history of calls getU returns the stretch of the last accepted setU (C80_last_stretch) and getLaue the group of the constructor (C80_history_partial). False: setLaue raises for every argument (C80_setLaue_fails, C80_setLaue_errors_fails); nothing is checked (C80_unchecked_fails); the constructor does not convert (C80_constructor_fails); a wrong number of arguments raises NameError (C80_count_fails)."
  },
  {
   "property": "C81",
   "status": "partial",
   "theorems": [
    "Verif.Props.C81_orthogonal_partial",
    "Verif.Props.C81_cell_partial",
    "Verif.Props.C81_oblique_fails",
    "Verif.Props.C81_plane_fails",
    "Verif.Props.C81_empty_fails",
    "Verif.Props.C81_errors"
   ],
   "note": "Proved: for cells with orthogonal edges box keeps, in order, exactly the points with coordinates in [0, 1.05) (C81_orthogonal_partial, C81_cell_partial); the exceptional cases (C81_errors). False: for oblique cells corners are dropped and outside points kept (C81_oblique_fails); in two dimensions points outside are kept (C81_plane_fails); with no point inside the result is the vector [0,0,0] (C81_empty_fails)."
  },
  {
   "property": "C82",
   "status": "partial",
   "theorems": [
    "Verif.Props.C82_unit_cell_fails"
   ],
   "note": "False: the constructor raises TypeError for all arguments (C82_unit_cell_fails), because it calls BravaisLattice with the keyword N. The methods of the class are therefore unreachable; the functions vertex, bonds and box they call are C63 and C81."
  },
  {
   "property": "C83",
   "status": "proved",
   "theorems": [
    "Verif.Props.C83_pointwise",
    "Verif.Props.C83_single",
    "Verif.Props.C83_integer",
    "Verif.Props.C83_shape"
   ],
   "note": "pole_figure is stereo_proj for each triple, in order, raising only if one of these does (C83_pointwise), also for a single triple (C83_single); with integer planes and zone axis it returns a point of the disc for each (C83_integer); other shapes return None (C83_shape)."
  },
  {
   "property": "C84",
   "status": "partial",
   "theorems": [
    "Verif.Props.C84_ends_partial",
    "Verif.Props.C84_limit_partial",
    "Verif.Props.C84_reduces_partial",
    "Verif.Props.C84_cell_partial"
   ],
   "note": "Proved, every dimension: the reduction always ends by itself (C84_ends_partial, by a potential argument); the 1000-iteration limit is not reached under an explicit bound on the columns (C84_limit_partial); under a tighter one LLL returns a reduced base of the same lattice and orientation with a short first vector (C84_reduces_partial), in 3 dimensions whenever no column is longer than ten times the cube root of the volume (C84_cell_partial). Missing: more elongated bases, for which it is false (C48_pair_fails, C49_limit_fails), and full size reduction (C49_size_fails)."
  },
  {
   "property": "C85",
   "status": "partial",
   "theorems": [
    "Verif.Props.C85_lat_cor_hnf_partial",
    "Verif.Props.C85_any_run",
    "Verif.Props.C85_sublattice_base_partial",
    "Verif.Props.C85_missed_fails",
    "Verif.Props.C85_reflected_fails"
   ],
   "note": "Proved (C85_lat_cor_hnf_partial), for the whole of lat_cor from the lattice parameters to the list of reports, with any fair process pool and under both interpreters: it ends, the solutions are sorted, pairwise inequivalent, with the distances and reports of their correspondences, within the volume threshold, fewer than nsol of them better than any other, and for two of the distances the first is at least as good as a local minimum in every sublattice of the window. Its hypothesis on LLL holds for all sublattices of moderate index (C85_sublattice_base_partial). Missing, because false: every equally good inequivalent correspondence is listed (C85_missed_fails), lattice parameters of a reflected base (C85_reflected_fails). A call that ends has one outcome, for all arguments and pools (C85_any_run)."
  },
  {
   "property": "C86",
   "status": "partial",
   "theorems": [
    "Verif.Props.C86_solutions_partial",
    "Verif.Props.C86_ends",
    "Verif.Props.C86_order",
    "Verif.Props.C86_rejected",
    "Verif.Props.C86_python3_fails",
    "Verif.Props.C86_square_fails"
   ],
   "note": "Proved: after every history of calls that contains load_input, initialize goes on drawing or returns at least nsol solutions, the best inequivalent ones of all acceptable matrices drawn, with the largest distance; update_sol keeps them the best of all candidates given to it, for any batches (C86_solutions_partial); exactly when it ends (C86_ends); without load_input AttributeError (C86_order); rejected lattices (C86_rejected). False: it can draw for ever (C86_square_fails); the module cannot be imported under Python 3 (C86_python3_fails)."
  },
  {
   "property": "C87",
   "status": "partial",
   "theorems": [
    "Verif.Props.C87_rounding_partial",
    "Verif.Props.C87_ends",
    "Verif.Props.C87_radius"
   ],
   "note": "Proved for every computed distance with error at most e*(1+distance) and every computed radius wide enough for e (C87_radius: relative error at most e/16): the search raises StopIteration, is not finished or returns at least nsol pairwise inequivalent non-singular correspondences sorted by computed distance, and with the checkpoints of C38 no class outside the list is better than a listed one by more than the errors of the two distances (C87_rounding_partial). With e < 1 it ends (C87_ends). Missing: other checkpoints and StopIteration as in C38; rounding of the determinant tests."
  },
  {
   "property": "C88",
   "status": "proved",
   "theorems": [
    "Verif.Props.C88_perturbed_3d",
    "Verif.Props.C88_perturbed_2d"
   ],
   "note": "C88_perturbed_3d, C88_perturbed_2d: for every base E whose candidates are symmetries or fail by the tolerances plus a margin, and every error E*F in the base that moves the coefficients by less than the margin, the four groups computed with the tolerances of the code are exactly those of E, as lists."
  },
  {
   "property": "C89",
   "status": "proved",
   "theorems": [
    "Verif.Props.C89_lll_similar"
   ],
   "note": "C89_lll_similar: for every non-singular base E in every dimension and every matrix S with S^T S = c 1, c > 0, LLL(S E) is S LLL(E), with the same outcome (an array or the pair of line 68)."
  },
  {
   "property": "C90",
   "status": "proved",
   "theorems": [
    "Verif.Props.C90_bravais",
    "Verif.Props.C90_laue_group",
    "Verif.Props.C90_point_group",
    "Verif.Props.C90_special_lattice_group",
    "Verif.Props.C90_lattice_group",
    "Verif.Props.C90_cauchy_dist",
    "Verif.Props.C90_strain_dist",
    "Verif.Props.C90_eric_dist",
    "Verif.Props.C90_lat_opt",
    "Verif.Props.C90_lat_cor",
    "Verif.Props.C90_lat_cor_hnf",
    "Verif.Props.C90_python2_integers_fails"
   ],
   "note": "C90_bravais: the constructor gives the scaled base; C90_laue_group, C90_point_group, C90_special_lattice_group, C90_lattice_group: the groups are the same lists; C90_cauchy_dist, C90_strain_dist, C90_eric_dist, C90_lat_opt: distances and the search in one sublattice; C90_lat_cor, C90_lat_cor_hnf: both searches return the same result or raise the same exception, for every tolerance, oracle and schedule of the process pool. C90_python2_integers_fails shows that the restriction on integer parameters under Python 2 is needed."
  },
  {
   "property": "C91",
   "status": "partial",
   "theorems": [
    "Verif.Props.C91_same_variants_partial",
    "Verif.Props.C91_same_variants_exact_partial",
    "Verif.Props.C91_available_partial",
    "Verif.Props.C91_fails"
   ],
   "note": "C91_same_variants_partial: whenever the variants of a stretch and of one of its variants can both be computed, the two lists have the same members (any tolerance that separates the variants; C91_same_variants_exact_partial without that condition). C91_available_partial: with exact comparisons both are reversible or neither is, if the parent group is a group of rotations of the cube and no rotation of the hexagonal table outside the cubic table preserves either lattice. C91_fails: for the stretch with rows (1, 2-sqrt 3, 0), (2-sqrt 3, 1, 0), (0, 0, 1) getvariants raises AttributeError, for a variant of it the list is returned, because Laue_group looks for hexagonal symmetry only about the z axis."
  },
  {
   "property": "C92",
   "status": "proved",
   "theorems": [
    "Verif.Props.C92_text",
    "Verif.Props.C92_direct",
    "Verif.Props.C92_hnf"
   ],
   "note": "C92_text: for all solutions the numbers in the printed text are, line by line, those of the solutions, with the rounding of the formats. C92_direct, C92_hnf: for every run of lat_cor that returns, the entries of the correspondences are multiples of one half, so that they are printed without rounding, and there are dim principal stretches. In C92_hnf the sublattices printed with the solutions are arbitrary. NaN and signed zeros are not modelled."
  },
  {
   "property": "C93",
   "status": "partial",
   "theorems": [
    "Verif.Props.C93_compatible",
    "Verif.Props.C93_twinnable_partial",
    "Verif.Props.C93_axes_partial",
    "Verif.Props.C93_solve_rank1",
    "Verif.Props.C93_am_solver",
    "Verif.Props.C93_fractions_partial",
    "Verif.Props.C93_solve_am",
    "Verif.Props.C93_twinnable_fails",
    "Verif.Props.C93_pairs_partial"
   ],
   "note": "Two eigenvalue routines that keep numpy's promises are used, one per frame, so that for Q = 1 the theorems also say that the choice of eigenvectors does not matter. C93_compatible, C93_solve_rank1, C93_am_solver, C93_solve_am: in full for the solvers (distinct eigenvalues). C93_twinnable_partial, C93_axes_partial: for variants whose difference has norm at least 3e-12; C93_twinnable_fails: without this the entrywise comparison with 1e-12 depends on the frame. C93_fractions_partial: pairs with one axis, whenever both calls return (the test _isvariant is tied to the cubic axes). C93_pairs_partial: all pairs, compound or not: the turned twins with the same fractions in some order, and the turned habit planes in some order where the laminates have distinct principal stretches. Missing: the rounding to ten decimals in twinparam() and laminates with repeated stretches."
  },
  {
   "property": "C94",
   "status": "partial",
   "theorems": [
    "Verif.Props.C94_eric_dist",
    "Verif.Props.C94_strain_dist",
    "Verif.Props.C94_cauchy_dist",
    "Verif.Props.C94_quartic",
    "Verif.Props.C94_equal",
    "Verif.Props.C94_special_lattice_group_partial",
    "Verif.Props.C94_lattice_group_partial",
    "Verif.Props.C94_plane",
    "Verif.Props.C94_axes",
    "Verif.Props.C94_lat_opt_partial",
    "Verif.Props.C94_groups_fails"
   ],
   "note": "C94_eric_dist, C94_strain_dist, C94_cauchy_dist, C94_quartic and C94_equal in full. C94_plane: the integer symmetries of every plane lattice. C94_axes: the same in space for the rotations of the cube, unless exactly four elements of the cubic table are kept. C94_special_lattice_group_partial and C94_lattice_group_partial: whenever the tables contain all symmetries in both positions. C94_lat_opt_partial: lat_opt, whenever the integer symmetries agree. C94_groups_fails: the simple cubic lattice turned by the 3-4-5 angle loses the quarter turn about its first base vector, because the tables hold only rotations about the axes of the frame."
  },
  {
   "property": "C95",
   "status": "partial",
   "theorems": [
    "Verif.Props.C95_point_groups_3d",
    "Verif.Props.C95_point_groups_2d",
    "Verif.Props.C95_distances",
    "Verif.Props.C95_lat_cor_partial",
    "Verif.Props.C95_chance",
    "Verif.Props.C95_one_perfect_match",
    "Verif.Props.C95_fails"
   ],
   "note": "C95_point_groups_3d and C95_point_groups_2d: two bases of one lattice have the same Laue_group and point_group. C95_distances: the distances of corresponding correspondences. C95_chance: two finished calls for the same bases return the same distances and classes, whatever the options and the random numbers. C95_lat_cor_partial: the same for different descriptions of the same crystals, if the program finds all symmetries in both (completeGroup_types: all plane types but the oblique one, six types in space). C95_one_perfect_match. C95_fails: a rhombic lattice described as an oblique and as a centred rectangular one. Finished runs are those with harmless checkpoints (C38)."
  },
  {
   "property": "C96",
   "status": "partial",
   "theorems": [
    "Verif.Props.C96_accepted",
    "Verif.Props.C96_reported",
    "Verif.Props.C96_equivalent",
    "Verif.Props.C96_variants_partial",
    "Verif.Props.C96_crystals",
    "Verif.Props.C96_variants_fails"
   ],
   "note": "C96_accepted, C96_reported: setU accepts the stretch of every solution and getU returns it (stretches as exact real matrices; the exact symmetry test of setU can fail for rounded ones). C96_equivalent: equivalent correspondences have the same principal stretches, and stretches that differ by a member of the Laue group. C96_variants_partial: hence the same variants, if those of both can be computed; C96_variants_fails: a pair of equivalent correspondences for which getvariants works for one stretch only. C96_crystals: of two finished calls for the same crystals, every solution of the one that is not worse than all of the other occurs there with the same distance, principal stretches and stretch up to a turn, without any condition on the groups found. Finished runs are those with harmless checkpoints (C38)."
  },
  {
   "property": "C97",
   "status": "proved",
   "theorems": [
    "Verif.Props.C97_distance",
    "Verif.Props.C97_volume",
    "Verif.Props.C97_bound",
    "Verif.Props.C97_zero",
    "Verif.Props.C97_lat_cor"
   ],
   "note": "C97_distance: the distance is the sum of (1/lambda^2 - 1)^2. C97_volume: the product of the principal stretches is the ratio of the cell volumes. C97_bound: each stretch is as close to one as the distance says. C97_zero: distance zero, all stretches one and stretch tensor equal to the identity are the same. C97_lat_cor: all this for every solution of every call that returns (nsol and slice size at least one, 0 < vol_th <= 1, symmetry tests without near misses as in C15; otherwise the representative chosen at the end need not have the distance of the solution found)."
  },
  {
   "property": "C98",
   "status": "proved",
   "theorems": [
    "Verif.Props.C98_sublattice",
    "Verif.Props.C98_same"
   ],
   "note": "C98_sublattice: the first distance is zero just if the second crystal, suitably turned, is a sublattice of the first. C98_same: zero in both directions just if the two crystals are the same up to a turn or reflection. Calls are those of Finished: options in their documented range, symmetry tests without near misses (C15), a run that returns and whose checkpoints are harmless (C38; runs with other checkpoints can miss correspondences)."
  },
  {
   "property": "C99",
   "status": "proved",
   "theorems": [
    "Verif.Props.C99_bain",
    "Verif.Props.C99_finished",
    "Verif.Props.C99_lat_cor"
   ],
   "note": "C99_lat_cor: a call with the lattice types 2 and 3 and one edge each, with stretch, principal stretches, distance and correspondence. C99_bain: stretch and distance for every finished call with these two bases. C99_finished: such calls exist for all edges with 2/3 a < b < sqrt(3)/2 a, with the tolerances of the code. The checkpoints of the run must be harmless (C38)."
  },
  {
   "property": "C100",
   "status": "proved",
   "theorems": [
    "Verif.Props.C100_cube_on_cube",
    "Verif.Props.C100_lat_cor",
    "Verif.Props.C100_finished"
   ],
   "note": "C100_cube_on_cube: every finished call with a cubic parent (square in two dimensions) and an orthogonal cell with edges close to the parent's. C100_lat_cor: a call with the lattice types 1 and 8. C100_finished: such calls exist. Close: (a/e)^2 within a quarter of one. The symmetry tests must not have near misses (C15) and the checkpoints of the run must be harmless (C38)."
  },
  {
   "property": "C101",
   "status": "proved",
   "theorems": [
    "Verif.Props.C101_bain",
    "Verif.Props.C101_variants",
    "Verif.Props.C101_twins",
    "Verif.Props.C101_setU"
   ],
   "note": "C101_variants, C101_setU: the three variants. C101_twins: every pair of them, through TwinPair. C101_bain: from lat_cor between face-centred and body-centred cubic to the three variants. The stretches must be at least 1/1000 and differ by 0.01 per cent (ClearlyTetragonal), so that the tolerances cannot confuse them; la.eig keeps its promise; numpy compares arrays with None by identity, as in the versions the code was written for (C55_elementwise). The returned vectors are those of the statement after np.round(., 10)."
  },
  {
   "property": "C102",
   "status": "partial",
   "theorems": [
    "Verif.Props.C102_criterion",
    "Verif.Props.C102_habitplanes_partial",
    "Verif.Props.C102_no_fraction",
    "Verif.Props.C102_not_middle_fails"
   ],
   "note": "C102_criterion: some laminate of two variants can meet the parent iff the condition of Ball and James holds, stated and proved without the code. C102_habitplanes_partial: under it volumefrac() returns the closed formula for both twins, iscompatible() is true and habitplanes() returns exactly the habit planes. C102_no_fraction: without such fractions iscompatible() is false. False where the stretch equal to one is not the middle one (C102_not_middle_fails): iscompatible() is true although no laminate can meet the parent. The effect of the rounding in twinparam() on fractions and habit planes is bounded in C116 and C118 for small stretches. Missing: the fraction 1/2 (C56_half_fails) and fractions within 1e-6 of 1."
  },
  {
   "property": "C103",
   "status": "partial",
   "theorems": [
    "Verif.Props.C103_rounded",
    "Verif.Props.C103_types",
    "Verif.Props.C103_habitplanes_rounded",
    "Verif.Props.C103_all_twins",
    "Verif.Props.C103_other_order_partial"
   ],
   "note": "C103_all_twins: with the rounding of twinparam(), the two returned solutions are rounded exact solutions with perpendicular planes, and every solution of the twinning equation is one of the two up to sign. C103_other_order_partial: TwinPair(Uj, Ui) has the same twins seen from the other side, the same volume fractions, the same iscompound() and a permutation of the same habit planes. C103_rounded: with the rounding, for every small stretch of a cubic lattice and without Clean, the twins of both orders approximate the same exact twins and the fractions of either order are accurate for those of the other. C103_types: both orders are of the same type. C103_habitplanes_rounded: the habit planes of both orders are the same up to a small angle, if they are well determined (WellDetermined in Spec/SwapPlanes; tetra_determined: for tetragonal stretches by inequalities). The first two are for pairs whose axis test has no false alarm (Clean), as in C55."
  },
  {
   "property": "C104",
   "status": "proved",
   "theorems": [
    "Verif.Props.C104_different_axes",
    "Verif.Props.C104_same_axis",
    "Verif.Props.C104_variants",
    "Verif.Props.C104_setU"
   ],
   "note": "C104_variants, C104_setU: six variants. C104_same_axis: the three pairs with the same cube axis are compound, with explicit planes and shears, and these are all solutions. C104_different_axes: the other twelve pairs are twinnable and not compound, the twin of type I has the plane e\u2096 - \u03c3\u03c3' e\u2096', the twin of type II the image of that vector as shear, and these are all solutions. For stretches between 0.8 and 1.25 that differ by 0.01 or more, with the tolerances of the code; the rounding of twinparam() is the parameter rnd."
  },
  {
   "property": "C105",
   "status": "proved",
   "theorems": [
    "Verif.Props.C105_half_turn",
    "Verif.Props.C105_same_axis",
    "Verif.Props.C105_threefold",
    "Verif.Props.C105_not_twinnable",
    "Verif.Props.C105_variants",
    "Verif.Props.C105_setU"
   ],
   "note": "C105_variants, C105_setU: twelve variants. C105_same_axis: the pairs with the same third axis are compound, with two twins on perpendicular planes that are all solutions. C105_half_turn: the pairs with one exchanged axis are twinnable and not compound, the twin of type I has a plane of the family 110, and the two twins are all solutions, if the stretch along the third axis is not nearly a repeated one. C105_threefold: the remaining pairs are rank-one connected only if that stretch is a repeated one. C105_not_twinnable: istwinnable() is false for them if it is clearly not repeated. The rounding of twinparam() is the parameter rnd."
  },
  {
   "property": "C106",
   "status": "proved",
   "theorems": [
    "Verif.Props.C106_tetragonal",
    "Verif.Props.C106_orthorhombic",
    "Verif.Props.C106_monoclinic"
   ],
   "note": "C106_tetragonal, C106_orthorhombic, C106_monoclinic: the lengths of the answers after any sequence of calls, and getConventional() as long as isconventional() is not called with another group (with one, C59_conventional_fails applies). Built on C59, C101, C104 and C105."
  },
  {
   "property": "C107",
   "status": "proved",
   "theorems": [
    "Verif.Props.C107_laue",
    "Verif.Props.C107_variants",
    "Verif.Props.C107_setU"
   ],
   "note": "C107_laue, C107_variants, C107_setU: for exact comparisons without further hypotheses, for the tolerances of the code when each rotation of the cube fixes the stretch or changes an entry by 1e-4. The example beside them is Ni-Ti."
  },
  {
   "property": "C108",
   "status": "proved",
   "theorems": [
    "Verif.Props.C108_variants",
    "Verif.Props.C108_edge_axis",
    "Verif.Props.C108_diagonal_axis",
    "Verif.Props.C108_compound",
    "Verif.Props.C108_connected",
    "Verif.Props.C108_not_twinnable",
    "Verif.Props.C108_system",
    "Verif.Props.C108_setU",
    "Verif.Props.C108_planes"
   ],
   "note": "C108_variants, C108_compound, C108_edge_axis, C108_diagonal_axis, C108_connected, C108_not_twinnable, C108_system, C108_setU. The numeric bounds exclude stretches for which the tolerances of the code (5e-3 on the middle eigenvalue, and that of the axis test) decide otherwise; Ni-Ti meets all of them."
  },
  {
   "property": "C109",
   "status": "proved",
   "theorems": [
    "Verif.Props.C109_variants",
    "Verif.Props.C109_twins",
    "Verif.Props.C109_system",
    "Verif.Props.C109_setU"
   ],
   "note": "C109_variants, C109_twins, C109_system, C109_setU. The numeric bounds exclude stretches so close to the identity that the tolerances of the code decide otherwise; the R-phase of Ni-Ti meets them. C108_planes in the same file names the planes of the compound twins of C108."
  },
  {
   "property": "C110",
   "status": "proved",
   "theorems": [
    "Verif.Props.C110_variants",
    "Verif.Props.C110_twins",
    "Verif.Props.C110_not_twinnable",
    "Verif.Props.C110_system",
    "Verif.Props.C110_setU"
   ],
   "note": "C110_variants, C110_twins, C110_not_twinnable, C110_system, C110_setU. The stretches have to be at least 0.01 apart, because the tolerance 5e-3 of istwinnable() decides otherwise for closer ones."
  },
  {
   "property": "C111",
   "status": "proved",
   "theorems": [
    "Verif.Props.C111_orthorhombic",
    "Verif.Props.C111_tetragonal",
    "Verif.Props.C111_bain"
   ],
   "note": "C111_orthorhombic, C111_tetragonal, C111_bain. Stretches as exact real matrices; the checkpoints of the run must be harmless as in C38. No hypothesis on the symmetry tests is left: slight_reliable proves them reliable for such lattices."
  },
  {
   "property": "C112",
   "status": "proved",
   "theorems": [
    "Verif.Props.C112_generic",
    "Verif.Props.C112_conventional",
    "Verif.Props.C112_table",
    "Verif.Props.C112_chain"
   ],
   "note": "C112_generic, C112_conventional, C112_table, C112_chain. The stretch must be small and clearly (a)symmetric as in C107. Solutions of the twinning equation are exact; the second, type II, solution follows from C103."
  },
  {
   "property": "C113",
   "status": "proved",
   "theorems": [
    "Verif.Props.C113_types",
    "Verif.Props.C113_compound"
   ],
   "note": "C113_types, C113_compound. Between the two cases, a direction within a millionth of a principal one but different from it, the 1e-12 test of ax() may go either way (see C69), and nothing is claimed."
  },
  {
   "property": "C114",
   "status": "proved",
   "theorems": [
    "Verif.Props.C114_cofactor",
    "Verif.Props.C114_parameters",
    "Verif.Props.C114_exact"
   ],
   "note": "C114_parameters, C114_exact (before rounding), C114_cofactor (with any rounding that changes no number by more than 5e-11). The sign of direct_cof() is the opposite of the documented one, as in C74_sign_fails."
  },
  {
   "property": "C115",
   "status": "proved",
   "theorems": [
    "Verif.Props.C115_bounds",
    "Verif.Props.C115_twinparam"
   ],
   "note": "Arithmetic is exact except for the rounding to ten decimals, for which any function that changes no number by more than 5e-11 may stand. C55_rounding_fails shows that the bounds cannot be zero."
  },
  {
   "property": "C116",
   "status": "proved",
   "theorems": [
    "Verif.Props.C116_volumefrac",
    "Verif.Props.C116_iscompatible",
    "Verif.Props.C116_tetragonal"
   ],
   "note": "C116_volumefrac: all pairs of variants of small stretches with a twin axis, with any rounding within 5e-11. C116_iscompatible: what the three kinds of iscompatible() ask for. C116_tetragonal: the closed formula of C102 with rounding. Fractions closer than d to 1/2 or 1 are excluded because the code misses or snaps them (C56_half_fails)."
  },
  {
   "property": "C117",
   "status": "proved",
   "theorems": [
    "Verif.Props.C117_solve_rank1",
    "Verif.Props.C117_am_solver",
    "Verif.Props.C117_solve_am"
   ],
   "note": "lengthError measures the error of squared lengths. C57 is the case of error zero. Outside of the hypothesis l1 <= 1 <= l3 the solvers use absolute values and the pairs mean nothing (C57_no_solution, C70_middle_fails)."
  },
  {
   "property": "C118",
   "status": "proved",
   "theorems": [
    "Verif.Props.C118_habitplanes",
    "Verif.Props.C118_tetragonal",
    "Verif.Props.C118_every_plane",
    "Verif.Props.C118_exact_planes"
   ],
   "note": "ApproxHabit is in Spec/HabitAccuracy. Both fractions have to be given: otherwise habitplanes() raises TypeError (C70_one_fraction). C118_every_plane: no plane on which the laminate nearly meets the parent is missed (FindsEveryPlane); C118_exact_planes: in the tetragonal case every exact habit plane of the exact laminates is near to a returned one, and every returned one is near to an exact one. The exact counterpart is C70_habitplanes_partial. Rounding to ten decimals is the only rounding in the model (DESIGN 1.1)."
  },
  {
   "property": "C119",
   "status": "partial",
   "theorems": [
    "Verif.Props.C119_pair_partial",
    "Verif.Props.C119_solvers_partial",
    "Verif.Props.C119_indefinite_fails",
    "Verif.Props.C119_no_pair",
    "Verif.Props.C119_axis"
   ],
   "note": "Proved: the exact condition under which each function refuses its argument (NearlyStretch in Spec/Refuse), that every stretch is accepted and that a matrix with clearly different opposite entries is refused. It fails for indefinite symmetric matrices with a positive determinant, which are accepted (C119_indefinite_fails); but no pair is returned for them (C119_no_pair: they give NaN, None or ValueError)."
  }
 ]
}