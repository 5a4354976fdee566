{
 "claims": [
  {
   "property": "C01",
   "status": "proved",
   "theorems": [
    "Verif.C01_complex",
    "Verif.C01_complex_affine",
    "Verif.C01_complex_spectral",
    "Verif.C01_l2convolve",
    "Verif.C01_envelopes",
    "Verif.C01_nonlinear",
    "Verif.C01_weighted_nuclear",
    "Verif.C01_simplex_engines",
    "Verif.C01_norms",
    "Verif.C01_indicators",
    "Verif.C01_nonconvex",
    "Verif.C01_matrices",
    "Verif.C01_stateful",
    "Verif.C01_vstack",
    "Verif.C01_derived",
    "Verif.C01_derived_accepts",
    "Verif.C01_classes_accept",
    "Verif.C01_array",
    "Verif.C01_keyword",
    "Verif.C01_tv"
   ],
   "note": "Every modelled class and every operator expression of any depth. A tau passed by keyword raises IndexError (C01_keyword); scaling by a non-positive number makes the inner guard reject every step (C05_scaling_nonpos). The array form is proved about the guard itself."
  },
  {
   "property": "C02",
   "status": "proved",
   "theorems": [
    "Verif.C02_moreau_inherited_proxdual",
    "Verif.C02_moreau_inherited_prox",
    "Verif.C02_moreau_test",
    "Verif.C02_moreau_test_sound",
    "Verif.C02_moreau_euclidean",
    "Verif.C02_moreau_l21",
    "Verif.C02_moreau_l1"
   ],
   "note": ""
  },
  {
   "property": "C03",
   "status": "proved",
   "theorems": [
    "Verif.C03_proxdual_conjugate",
    "Verif.C03_prox_conjugate",
    "Verif.C03_neither_method"
   ],
   "note": ""
  },
  {
   "property": "C04",
   "status": "proved",
   "theorems": [
    "Verif.C04_add_linear",
    "Verif.C04_sub_linear",
    "Verif.C04_add_linear_grad",
    "Verif.C04_indicator_value"
   ],
   "note": ""
  },
  {
   "property": "C05",
   "status": "proved",
   "theorems": [
    "Verif.C05_scaling",
    "Verif.C05_scaling_nonpos"
   ],
   "note": ""
  },
  {
   "property": "C06",
   "status": "proved",
   "theorems": [
    "Verif.C06_precomposition",
    "Verif.C06_precomposition_scalar",
    "Verif.C06_precomposition_grad",
    "Verif.C06_precomposition_zero"
   ],
   "note": ""
  },
  {
   "property": "C07",
   "status": "partial",
   "theorems": [
    "Verif.C07_adjoint_swap_partial",
    "Verif.C07_adjoint_conjugate",
    "Verif.C07_adjoint_call_refuted"
   ],
   "note": "The clause 'f.H evaluates the conjugate' is false of the code (f.H(x) returns f(x)): C07_adjoint_call_refuted. The other clauses are proved."
  },
  {
   "property": "C08",
   "status": "proved",
   "theorems": [
    "Verif.C08_moreau_gradient",
    "Verif.C08_moreau_gradient_lipschitz"
   ],
   "note": ""
  },
  {
   "property": "C09",
   "status": "partial",
   "theorems": [
    "Verif.C09_dispatch_partial",
    "Verif.C09_int_multiplier_refuted",
    "Verif.C09_chain"
   ],
   "note": "'every Python number' is false: int multipliers raise NotImplementedError (C09_int_multiplier_refuted). The rest of the dispatch table is proved."
  },
  {
   "property": "C10",
   "status": "proved",
   "theorems": [
    "Verif.C10_prox_unique",
    "Verif.C10_prox_firmly_nonexpansive",
    "Verif.C10_prox_fixed_points"
   ],
   "note": ""
  },
  {
   "property": "C11",
   "status": "proved",
   "theorems": [
    "Verif.C11_l1_prox",
    "Verif.C11_l1_prox_columns",
    "Verif.C11_l1_call",
    "Verif.C11_l1_call_columns",
    "Verif.C11_l1_formula",
    "Verif.C11_l1_proxdual"
   ],
   "note": ""
  },
  {
   "property": "C12",
   "status": "proved",
   "theorems": [
    "Verif.C12_euclidean_prox",
    "Verif.C12_euclidean_proxdual",
    "Verif.C12_euclidean_call",
    "Verif.C12_euclidean_grad",
    "Verif.C12_euclidean_sigma_zero",
    "Verif.C12_euclidean_grad_zero"
   ],
   "note": ""
  },
  {
   "property": "C13",
   "status": "proved",
   "theorems": [
    "Verif.C13_l21_prox",
    "Verif.C13_l21_proxdual",
    "Verif.C13_l21_call"
   ],
   "note": ""
  },
  {
   "property": "C14",
   "status": "partial",
   "theorems": [
    "Verif.C14_l21_plus_l1_prox_partial",
    "Verif.C14_l21_plus_l1_refuted",
    "Verif.C14_l21_plus_l1_call"
   ],
   "note": "False at rho=1 (NaN when a column is thresholded to zero): C14_l21_plus_l1_refuted. Proved for 0<=rho<1."
  },
  {
   "property": "C15",
   "status": "proved",
   "theorems": [
    "Verif.C15_huber_circular_prox",
    "Verif.C15_huber_circular_call"
   ],
   "note": ""
  },
  {
   "property": "C16",
   "status": "partial",
   "theorems": [
    "Verif.C16_huber_call",
    "Verif.C16_huber_prox_partial",
    "Verif.C16_huber_prox_refuted"
   ],
   "note": "False in the band alpha<|x_i|<alpha+tau: C16_huber_prox_refuted. Proved outside the band."
  },
  {
   "property": "C17",
   "status": "proved",
   "theorems": [
    "Verif.C17_l2_solvers",
    "Verif.C17_l2_prox_closed",
    "Verif.C17_l2_prox",
    "Verif.C17_l2_sigma_zero_raises"
   ],
   "note": ""
  },
  {
   "property": "C18",
   "status": "proved",
   "theorems": [
    "Verif.C18_l2_call",
    "Verif.C18_l2_grad"
   ],
   "note": ""
  },
  {
   "property": "C19",
   "status": "proved",
   "theorems": [
    "Verif.C19_l2_cache"
   ],
   "note": ""
  },
  {
   "property": "C20",
   "status": "partial",
   "theorems": [
    "Verif.C20_quadratic_call",
    "Verif.C20_quadratic_shape",
    "Verif.C20_quadratic_prox_partial",
    "Verif.C20_quadratic_prox_linear",
    "Verif.C20_quadratic_grad_partial",
    "Verif.C20_quadratic_grad_linear",
    "Verif.C20_quadratic_grad_refuted",
    "Verif.C20_quadratic_prox_refuted",
    "Verif.C20_quadratic_calls",
    "Verif.C20_quadratic_warm_calls"
   ],
   "note": "Proved for symmetric positive semidefinite Op and for the linear case (Op=None); for a non-symmetric Op both the gradient and prox differ from those of the evaluated function (refuted theorems). Several calls on one object: C20_quadratic_calls (the result of a call does not depend on the calls before it with warm=False, an explicit Op or no Op), C20_quadratic_warm_calls (the starting vector of the inner solver otherwise)."
  },
  {
   "property": "C21",
   "status": "proved",
   "theorems": [
    "Verif.C21_box_prox",
    "Verif.C21_box_call",
    "Verif.C21_box_idempotent"
   ],
   "note": ""
  },
  {
   "property": "C22",
   "status": "proved",
   "theorems": [
    "Verif.C22_halfspace_prox",
    "Verif.C22_halfspace_call"
   ],
   "note": ""
  },
  {
   "property": "C23",
   "status": "proved",
   "theorems": [
    "Verif.C23_ball_prox",
    "Verif.C23_ball_call"
   ],
   "note": ""
  },
  {
   "property": "C24",
   "status": "proved",
   "theorems": [
    "Verif.C24_affine_prox",
    "Verif.C24_affine_residual",
    "Verif.C24_affine_distance"
   ],
   "note": ""
  },
  {
   "property": "C25",
   "status": "proved",
   "theorems": [
    "Verif.C25_hankel_prox",
    "Verif.C25_hankel_call"
   ],
   "note": ""
  },
  {
   "property": "C26",
   "status": "proved",
   "theorems": [
    "Verif.C26_hyperplane_box_proj",
    "Verif.C26_hyperplane_box_exact",
    "Verif.C26_infeasible_never_returns",
    "Verif.C26_simplex_prox",
    "Verif.C26_simplex_rows_prox"
   ],
   "note": ""
  },
  {
   "property": "C27",
   "status": "partial",
   "theorems": [
    "Verif.C27_l1ball_prox_partial",
    "Verif.C27_l1ball_interior_refuted",
    "Verif.C27_l1ball_call"
   ],
   "note": "Every non-zero point strictly inside the ball is moved onto its boundary (C27_l1ball_interior_refuted); proved for points on or outside the ball."
  },
  {
   "property": "C28",
   "status": "partial",
   "theorems": [
    "Verif.C28_l0ball_prox_partial",
    "Verif.C28_l0ball_radius_zero_refuted",
    "Verif.C28_l0ball_call"
   ],
   "note": "radius=0 leaves the input unchanged because a[:-0] is empty (C28_l0ball_radius_zero_refuted); proved for radius>=1 and any tie-breaking."
  },
  {
   "property": "C29",
   "status": "partial",
   "theorems": [
    "Verif.C29_l0_prox_partial",
    "Verif.C29_l0_prox_refuted",
    "Verif.C29_l0_call_partial"
   ],
   "note": "The threshold is tau*sigma compared with |x| instead of sqrt(2 tau sigma) compared with |x| : C29_l0_prox_refuted shows a wrong answer for every tau*sigma != 2; proved where both thresholds agree and for the value."
  },
  {
   "property": "C30",
   "status": "partial",
   "theorems": [
    "Verif.C30_vstack_restr_call",
    "Verif.C30_empty_nn_refuted",
    "Verif.C30_init",
    "Verif.C30_vstack_prox_partial",
    "Verif.C30_vstack_concat",
    "Verif.C30_vstack_call",
    "Verif.C30_hasgrad_refuted",
    "Verif.C30_hasgrad_partial",
    "Verif.C30_vstack_rejects",
    "Verif.C30_vstack_restr_count",
    "Verif.C30_vstack_missing_ops_refuted",
    "Verif.C30_vstack_overlap_refuted",
    "Verif.C30_vstack_restr_prox_partial"
   ],
   "note": "Proved for nn lists and for disjoint exhaustive restr lists; two inputs the constructor accepts break it: fewer restr index sets than operators, and overlapping sets (refuted theorems). The hasgrad flag is True as soon as one block has a gradient (refuted)."
  },
  {
   "property": "C31",
   "status": "proved",
   "theorems": [
    "Verif.C31_orthogonal_semi",
    "Verif.C31_orthogonal_full",
    "Verif.C31_orthogonal_call"
   ],
   "note": ""
  },
  {
   "property": "C32",
   "status": "partial",
   "theorems": [
    "Verif.C32_scad_prox_partial",
    "Verif.C32_scad_call",
    "Verif.C32_scad_prox_refuted"
   ],
   "note": "False for tau>a-1 (C32 refuted theorem); proved for tau<=a-1."
  },
  {
   "property": "C33",
   "status": "partial",
   "theorems": [
    "Verif.C33_qec_is_envelope",
    "Verif.C33_qec_prox_partial",
    "Verif.C33_qec_call",
    "Verif.C33_qec_prox_refuted"
   ],
   "note": "False for every tau>1 (refuted theorem); proved for tau<=1."
  },
  {
   "property": "C34",
   "status": "partial",
   "theorems": [
    "Verif.C34_rms_prox_partial",
    "Verif.C34_rms_call",
    "Verif.C34_rms_prox_refuted"
   ],
   "note": "See the refuted theorem for the parameter range where the returned value is not a minimiser; proved on the complement stated in the partial theorem."
  },
  {
   "property": "C35",
   "status": "partial",
   "theorems": [
    "Verif.C35_l0",
    "Verif.C35_l0ball",
    "Verif.C35_l10ball",
    "Verif.C35_relaxedms",
    "Verif.C35_l1_g",
    "Verif.C35_l1",
    "Verif.C35_kth_prox",
    "Verif.C35_failed_call_refuted",
    "Verif.C35_documented_counter_refuted",
    "Verif.C35_l1_dual_refuted",
    "Verif.C35_l2_niter",
    "Verif.C35_tv"
   ],
   "note": "Proved for L0, L0Ball, L10Ball, RelaxedMumfordShah, TV (niter) and L1 (with and without g): the parameter is the one at the number of executions of prox so far. Refuted: a rejected call advances the counter, the counter starts at 1 although documented as the number of earlier calls, and L1.proxdual keeps sigma(0)."
  },
  {
   "property": "C36",
   "status": "partial",
   "theorems": [
    "Verif.C36_l2_solvers_input_partial",
    "Verif.C36_intersection_input_refuted",
    "Verif.C36_l2_input_partial",
    "Verif.C36_l2_input_refuted"
   ],
   "note": "L2.prox overwrites the caller's array when q is given and there is no data, or with solver='cgls' and a non-explicit operator (C36_l2_input_refuted); in all other configurations it is unchanged. Intersection.prox works on a view of the array it is given and overwrites it as well (C36_intersection_input_refuted)."
  },
  {
   "property": "C37",
   "status": "proved",
   "theorems": [
    "Verif.C37_two_conserved",
    "Verif.C37_two_stationary",
    "Verif.C37_two_error_bound",
    "Verif.C37_two_converges",
    "Verif.C37_cyclic_conserved",
    "Verif.C37_cyclic_stationary",
    "Verif.C37_cyclic_projection",
    "Verif.C37_cyclic_converges",
    "Verif.C37_cyclic_projection_converges",
    "Verif.C37_weighted_conserved",
    "Verif.C37_weighted_stationary",
    "Verif.C37_weighted_converges",
    "Verif.C37_two_converges_closed",
    "Verif.C37_weighted_converges_closed"
   ],
   "note": ""
  },
  {
   "property": "C38",
   "status": "proved",
   "theorems": [
    "Verif.C38_default_converges_closed",
    "Verif.C38_weighted_converges_closed",
    "Verif.C38_original_tau_converges_closed",
    "Verif.C38_intersection_converges_closed",
    "Verif.C38_sum_call",
    "Verif.C38_sum_evaluates",
    "Verif.C38_empty_rejected",
    "Verif.C38_sum_rejects",
    "Verif.C38_single",
    "Verif.C38_default_converges",
    "Verif.C38_weighted_converges",
    "Verif.C38_original_tau_converges",
    "Verif.C38_intersection_call",
    "Verif.C38_intersection_small",
    "Verif.C38_intersection_converges"
   ],
   "note": ""
  },
  {
   "property": "C39",
   "status": "partial",
   "theorems": [
    "Verif.C39_repeat_partial",
    "Verif.C39_later_calls_partial",
    "Verif.C39_repeat_refuted"
   ],
   "note": "Refuted for weights given as a float array not summing to one: the array is normalised in place and the steps of the next call change. Proved for lists, arrays summing to one and the serial routine, and for all calls after the first."
  },
  {
   "property": "C40",
   "status": "proved",
   "theorems": [
    "Verif.C40_point_returns",
    "Verif.C40_point_descent",
    "Verif.C40_point_fejer",
    "Verif.C40_point_rate",
    "Verif.C40_point_converges"
   ],
   "note": ""
  },
  {
   "property": "C41",
   "status": "proved",
   "theorems": [
    "Verif.C41_pg_returns",
    "Verif.C41_pg_descent",
    "Verif.C41_pg_rate",
    "Verif.C41_pg_converges"
   ],
   "note": ""
  },
  {
   "property": "C42",
   "status": "proved",
   "theorems": [
    "Verif.C42_lasso",
    "Verif.C42_accelerated_rate",
    "Verif.C42_accelerated_rate_backtracking",
    "Verif.C42_accelerated_rate_tau_none"
   ],
   "note": ""
  },
  {
   "property": "C43",
   "status": "proved",
   "theorems": [
    "Verif.C43_backtracking",
    "Verif.C43_backtracking_step_le",
    "Verif.C43_backtracking_no_trials",
    "Verif.C43_backtracking_exhausted",
    "Verif.C43_pg_backtracking_descent",
    "Verif.C43_pg_tau_none"
   ],
   "note": ""
  },
  {
   "property": "C44",
   "status": "proved",
   "theorems": [
    "Verif.C44_dr_converges_slater",
    "Verif.C44_dr_returns",
    "Verif.C44_dr_fejer",
    "Verif.C44_dr_stationary",
    "Verif.C44_dr_converges"
   ],
   "note": ""
  },
  {
   "property": "C45",
   "status": "proved",
   "theorems": [
    "Verif.C45_admm_converges_slater",
    "Verif.C45_admm_stationary",
    "Verif.C45_admm_stationary_of_min",
    "Verif.C45_admm_converges"
   ],
   "note": ""
  },
  {
   "property": "C46",
   "status": "proved",
   "theorems": [
    "Verif.C46_linadmm_returns",
    "Verif.C46_linadmm_stationary",
    "Verif.C46_linadmm_converges",
    "Verif.C46_linadmm_converges_slater"
   ],
   "note": ""
  },
  {
   "property": "C47",
   "status": "partial",
   "theorems": [
    "Verif.C47_admml2_returns",
    "Verif.C47_admml2_stationary",
    "Verif.C47_admml2_converges_partial",
    "Verif.C47_admml2_gfirst_refuted",
    "Verif.C47_admml2_converges_slater_partial"
   ],
   "note": "Stationarity is proved for both orders, convergence for gfirst=False. Refuted for gfirst=True: the dual update uses the previous A x, and an explicit family cycles with period six."
  },
  {
   "property": "C48",
   "status": "partial",
   "theorems": [
    "Verif.C48_ppxa_returns",
    "Verif.C48_ppxa_stationary_tilted",
    "Verif.C48_ppxa_stationary_partial",
    "Verif.C48_ppxa_converges_tilted",
    "Verif.C48_ppxa_converges_partial",
    "Verif.C48_ppxa_default_weights",
    "Verif.C48_ppxa_list_start_refuted",
    "Verif.C48_ppxa_converges_slater_partial"
   ],
   "note": "Convergence and stationarity are proved for one common starting point (or a start whose weighted mean is the array start). Refuted for a list of different starting points, where the limit minimises a tilted objective; the tilted statements are proved for every start."
  },
  {
   "property": "C49",
   "status": "proved",
   "theorems": [
    "Verif.C49_cons_returns",
    "Verif.C49_cons_dual_sum",
    "Verif.C49_cons_stationary",
    "Verif.C49_cons_converges",
    "Verif.C49_cons_converges_slater"
   ],
   "note": ""
  },
  {
   "property": "C50",
   "status": "proved",
   "theorems": [
    "Verif.C50_pd_returns",
    "Verif.C50_pd_stationary",
    "Verif.C50_pd_fejer",
    "Verif.C50_pd_converges",
    "Verif.C50_pd_converges_slater"
   ],
   "note": ""
  },
  {
   "property": "C51",
   "status": "proved",
   "theorems": [
    "Verif.C51_apd_histories",
    "Verif.C51_apd_steps",
    "Verif.C51_apd_returns"
   ],
   "note": ""
  },
  {
   "property": "C52",
   "status": "proved",
   "theorems": [
    "Verif.C52_hqs_descent",
    "Verif.C52_hqs_returns"
   ],
   "note": ""
  },
  {
   "property": "C53",
   "status": "partial",
   "theorems": [
    "Verif.C53_gpg_rejects",
    "Verif.C53_gpg_weighted_sum",
    "Verif.C53_gpg_returns",
    "Verif.C53_gpg_stationary",
    "Verif.C53_gpg_y_eq_x",
    "Verif.C53_gpg_converges",
    "Verif.C53_sum_order",
    "Verif.C53_dyadic_weights",
    "Verif.C53_default_power_of_two",
    "Verif.C53_sum_short",
    "Verif.C53_default_pairwise_refuted",
    "Verif.C53_weightsNp_checked",
    "Verif.C53_default_weights_refuted",
    "Verif.C53_weights_order_refuted",
    "Verif.C53_weights64_checked"
   ],
   "note": "The weights are compared exactly, in double precision: C53_default_weights_refuted (the default weights of six and of seven functions are rejected with ValueError, those of one to five are accepted), C53_default_pairwise_refuted (eight to twelve accepted; thirteen, fourteen and fifteen rejected), C53_weights_order_refuted (0.1, 0.2, 0.7 are accepted and 0.7, 0.2, 0.1 are not), C53_weights64_checked, C53_weightsNp_checked. np.sum is modelled with numpy's pairwise order for every number of functions (C53_sum_order, C53_sum_short); the default weights of 2^k functions and all weights that are multiples of 2^-k are accepted (C53_default_power_of_two, C53_dyadic_weights). Everything else holds over the reals."
  },
  {
   "property": "C54",
   "status": "partial",
   "theorems": [
    "Verif.C54_descent_partial",
    "Verif.C54_descent_convex_partial",
    "Verif.C54_stationary",
    "Verif.C54_outcome",
    "Verif.C54_steps_vanish",
    "Verif.C54_backtracking_refuted",
    "Verif.C54_backtracking_descent_partial",
    "Verif.C54_small_gamma_refuted",
    "Verif.C54_stored_y_refuted",
    "Verif.C54_lowrank_exact"
   ],
   "note": "Descent and stationarity are proved for given gamma (>= 1 in general, >= 1/2 for convex f, g) once H stores the current y. Refuted: the first iteration uses the y stored in H instead of y0, gamma < 1/2 makes the objective grow, and backtracking on y uses the operator of x (the operator of y has no effect). Backtracking descent is proved when one operator is right for both blocks."
  },
  {
   "property": "C55",
   "status": "partial",
   "theorems": [
    "Verif.C55_runs_refuted",
    "Verif.C55_fixed_steps",
    "Verif.C55_runs_partial",
    "Verif.C55_zero_inertia",
    "Verif.C55_backtracking_refuted",
    "Verif.C55_stationary"
   ],
   "note": "Refuted for gammaf given and gammag=None: UnboundLocalError on every problem. All other combinations are proved to run, with explicit steps for given gammas and equality with PALM without inertia. With backtracking on y its inertia and operator are ignored (refuted)."
  },
  {
   "property": "C56",
   "status": "proved",
   "theorems": [
    "Verif.C56_x0z0",
    "Verif.C56_x0z0_op",
    "Verif.C56_solvers",
    "Verif.C56_solvers_op"
   ],
   "note": ""
  },
  {
   "property": "C57",
   "status": "proved",
   "theorems": [
    "Verif.C57_proximalpoint",
    "Verif.C57_proximalpoint_early",
    "Verif.C57_proximalgradient",
    "Verif.C57_proximalgradient_early",
    "Verif.C57_anderson",
    "Verif.C57_anderson_early",
    "Verif.C57_hqs",
    "Verif.C57_admm",
    "Verif.C57_admml2",
    "Verif.C57_linearizedadmm",
    "Verif.C57_twist",
    "Verif.C57_gpg",
    "Verif.C57_primaldual",
    "Verif.C57_palm",
    "Verif.C57_ipalm",
    "Verif.C57_douglasrachford",
    "Verif.C57_ppxa",
    "Verif.C57_consensusadmm",
    "Verif.C57_adaptiveprimaldual",
    "Verif.C57_bregman"
   ],
   "note": "All solvers of primal.py, primaldual.py, palm.py, bregman.py that take a callback. A run is compared with shorter runs of the same solver."
  },
  {
   "property": "C58",
   "status": "proved",
   "theorems": [
    "Verif.C58_fista_parameters",
    "Verif.C58_vandenberghe_weights",
    "Verif.C58_fista_run"
   ],
   "note": ""
  },
  {
   "property": "C59",
   "status": "partial",
   "theorems": [
    "Verif.C59_history",
    "Verif.C59_lengths",
    "Verif.C59_aligned_partial",
    "Verif.C59_start_refuted"
   ],
   "note": "Lengths, alignment and exact contents are proved. Refuted for the first nhistory-1 iterations: the starting fixed-point value is put in the residual list and the starting residual in the other list."
  },
  {
   "property": "C60",
   "status": "proved",
   "theorems": [
    "Verif.C60_nuclear_prox",
    "Verif.C60_nuclear_call"
   ],
   "note": ""
  },
  {
   "property": "C61",
   "status": "partial",
   "theorems": [
    "Verif.C61_simplex_call_partial",
    "Verif.C61_simplex_rows_call_partial",
    "Verif.C61_simplex_rows_refuted"
   ],
   "note": "The dims variant only tests the upper side of the sum and call=False rejects everything (C61_simplex_rows_refuted); proved exactly for single vectors, and what dims accepts is characterised."
  },
  {
   "property": "C62",
   "status": "proved",
   "theorems": [
    "Verif.C62_bisect_jit",
    "Verif.C62_bisect_jit_maxiter_zero",
    "Verif.C62_simplex_numba_prox"
   ],
   "note": ""
  },
  {
   "property": "C63",
   "status": "proved",
   "theorems": [
    "Verif.C63_call",
    "Verif.C63_calls_keep_state",
    "Verif.C63_gradx",
    "Verif.C63_grady",
    "Verif.C63_lipschitz",
    "Verif.C63_lipschitz_op",
    "Verif.C63_matvec",
    "Verif.C63_grad",
    "Verif.C63_grad_needs_stored_blocks"
   ],
   "note": ""
  },
  {
   "property": "C64",
   "status": "proved",
   "theorems": [
    "Verif.C64_stationary",
    "Verif.C64_limit",
    "Verif.C64_default_parameters",
    "Verif.C64_ist"
   ],
   "note": ""
  },
  {
   "property": "C65",
   "status": "proved",
   "theorems": [
    "Verif.C65_subgradient",
    "Verif.C65_stopping",
    "Verif.C65_descent",
    "Verif.C65_rate",
    "Verif.C65_int_alpha"
   ],
   "note": ""
  },
  {
   "property": "C66",
   "status": "partial",
   "theorems": [
    "Verif.C66_l10ball_prox_partial",
    "Verif.C66_l10ball_refuted"
   ],
   "note": "Columns are ranked by L1 norm while the projection needs the Euclidean norm (C66_l10ball_refuted); proved when both orders agree."
  },
  {
   "property": "C67",
   "status": "proved",
   "theorems": [
    "Verif.C67_log_prox",
    "Verif.C67_log_call"
   ],
   "note": ""
  },
  {
   "property": "C68",
   "status": "partial",
   "theorems": [
    "Verif.C68_log1_stationary_partial",
    "Verif.C68_log1_prox_refuted",
    "Verif.C68_log1_zero_refuted",
    "Verif.C68_log1_call_partial"
   ],
   "note": "prox solves the stationarity equation of half the penalty and moves the origin for large delta; value ignores sigma. Refuted in general, the equation it does solve is proved."
  },
  {
   "property": "C69",
   "status": "proved",
   "theorems": [
    "Verif.C69_etp_prox",
    "Verif.C69_etp_call"
   ],
   "note": ""
  },
  {
   "property": "C70",
   "status": "proved",
   "theorems": [
    "Verif.C70_geman_prox",
    "Verif.C70_geman_call"
   ],
   "note": ""
  },
  {
   "property": "C71",
   "status": "partial",
   "theorems": [
    "Verif.C71_nuclearball_prox_partial",
    "Verif.C71_nuclearball_interior_refuted",
    "Verif.C71_nuclearball_call"
   ],
   "note": "Inherits the L1 ball defect: matrices strictly inside the ball are moved (refuted theorem); proved on and outside the ball."
  },
  {
   "property": "C72",
   "status": "proved",
   "theorems": [
    "Verif.C72_singular_value_penalty",
    "Verif.C72_spectral_function_exists",
    "Verif.C72_singular_value_call"
   ],
   "note": ""
  },
  {
   "property": "C73",
   "status": "partial",
   "theorems": [
    "Verif.C73_apd_residuals_partial",
    "Verif.C73_apd_z_nonsquare_refuted",
    "Verif.C73_apd_z_square_refuted",
    "Verif.C73_apd_one_residual_refuted",
    "Verif.C73_apd_stops_early_refuted"
   ],
   "note": "Refuted when z is given (non-square operators fail, the residual of a square one is wrong) and for the stopping rule, which accepts one small residual. Proved for the residuals without z."
  },
  {
   "property": "C74",
   "status": "partial",
   "theorems": [
    "Verif.C74_original_tau_refuted",
    "Verif.C74_weights_refuted",
    "Verif.C74_default_partial"
   ],
   "note": "Refuted with use_original_tau (the limit is the prox of the weighted average) and for weights that do not sum to one. With weights summing to one and default steps the stationary point is proved to be the prox of the sum; convergence is in C38."
  },
  {
   "property": "C75",
   "status": "partial",
   "theorems": [
    "Verif.C75_proximalpoint_truncates",
    "Verif.C75_proximalpoint_refuted",
    "Verif.C75_proximalpoint_l1_refuted",
    "Verif.C75_proximalpoint_partial",
    "Verif.C75_proximalgradient",
    "Verif.C75_anderson_partial",
    "Verif.C75_anderson_refuted"
   ],
   "note": "ProximalPoint: truncation proved; ZeroDivisionError when an iterate has value 0.0 and tol is set (refuted), returns otherwise (partial). ProximalGradient: proved. AndersonProximalGradient: proved without safeguard; with safeguard the tolerance test overwrites the value the safeguard compares with (refuted)."
  },
  {
   "property": "C76",
   "status": "partial",
   "theorems": [
    "Verif.C76_lines",
    "Verif.C76_proximalpoint",
    "Verif.C76_proximalgradient",
    "Verif.C76_anderson_partial",
    "Verif.C76_anderson_refuted"
   ],
   "note": "ProximalPoint and ProximalGradient proved. AndersonProximalGradient: proved without safeguard or with a tolerance; with safeguard and tol=None show=True changes the iterates (refuted). The loggers of the other solvers assign to no variable the solver reads."
  },
  {
   "property": "C77",
   "status": "proved",
   "theorems": [
    "Verif.C77_sr3_stop",
    "Verif.C77_sr3_bound"
   ],
   "note": "Proved for adaptive=False with the inner lsqr solve exact. Nothing of this holds for the default adaptive=True, see C78."
  },
  {
   "property": "C78",
   "status": "partial",
   "theorems": [
    "Verif.C78_sr3_terminates",
    "Verif.C78_adaptive_zero_residual_refuted",
    "Verif.C78_adaptive_identity_refuted"
   ],
   "note": "Proved for adaptive=False with an exact inner solve. Refuted for adaptive=True (the default): the inner loop divides by zero as soon as it has converged, so zero data with any operators, and any data with identity operators, give NaN (in exact arithmetic)."
  },
  {
   "property": "C79",
   "status": "partial",
   "theorems": [
    "Verif.C79_intersection_converges_partial",
    "Verif.C79_intersection_error",
    "Verif.C79_intersection_terminates",
    "Verif.C79_intersection_empty",
    "Verif.C79_intersection_mean",
    "Verif.C79_intersection_feasible",
    "Verif.C79_intersection_stationary_partial",
    "Verif.C79_intersection_infeasible_refuted",
    "Verif.C79_intersection_call",
    "Verif.C79_intersection_call_off",
    "Verif.C79_intersection_operator"
   ],
   "note": "Refuted literally: with two rows an infeasible input gives an infeasible output for every number of iterations, because of the 1e-10 in the denominator. Proved instead: the iterates converge to the exact projection onto a set with distances between sigma and sigma + 1e-10, with an explicit bound on the distance to the documented projection; a positive tolerance is always met; feasible points are fixed; column sums are conserved."
  },
  {
   "property": "C80",
   "status": "partial",
   "theorems": [
    "Verif.C80_relaxed_converges",
    "Verif.C80_relaxed_documented_partial",
    "Verif.C80_relaxed_ignores_acceleration",
    "Verif.C80_relaxed_momentum_refuted",
    "Verif.C80_relaxed_backtracking_refuted"
   ],
   "note": "Proved without acceleration and without backtracking: the code runs the documented recursion (C80_relaxed_documented_partial) and converges (C80_relaxed_converges, tau*L<2). Refuted otherwise: for eta != 1 the code relaxes from x instead of y, so the acceleration argument has no effect on x at all (C80_relaxed_ignores_acceleration, C80_relaxed_momentum_refuted), and with backtracking the relaxation is applied to a second, full step (C80_relaxed_backtracking_refuted)."
  },
  {
   "property": "C81",
   "status": "proved",
   "theorems": [
    "Verif.C81_denoise_value",
    "Verif.C81_pnp_prox",
    "Verif.C81_pnp_admm_minimises",
    "Verif.C81_pnp_admm_converges",
    "Verif.C81_pnp_pg_converges",
    "Verif.C81_pnp_strength",
    "Verif.C81_pnp_dims",
    "Verif.C81_pnp_needs_firm"
   ],
   "note": "C81_pnp_needs_firm shows that a merely non-expansive denoiser is not enough."
  },
  {
   "property": "C82",
   "status": "partial",
   "theorems": [
    "Verif.C82_gradtest_complete_partial",
    "Verif.C82_gradtest_sound_partial",
    "Verif.C82_gradtest_real_partial",
    "Verif.C82_gradtest_raises",
    "Verif.C82_gradtest_defaults_refuted",
    "Verif.C82_gradtest_imag_refuted",
    "Verif.C82_gradtest_negative_delta_refuted",
    "Verif.C82_gradtest_input_refuted",
    "Verif.C82_bilinear_passes",
    "Verif.C82_bilinear_state_refuted"
   ],
   "note": "Proved: completeness when L*delta/2 <= atol, soundness up to atol+L*delta/2, the raise rule, the exact pass condition for LowRankFactorizedMatrix. Refuted: the default tolerances reject the right gradient of half the squared norm at every draw; with a real array half of the draws perturb nothing and pass for any real gradient; negative delta divides by abs(delta); x is perturbed in place; the second-block test leaves the perturbed block in the operator. Random draws are parameters (all draws are quantified over)."
  },
  {
   "property": "C83",
   "status": "partial",
   "theorems": [
    "Verif.C83_blocks_raise",
    "Verif.C83_segment_probabilities",
    "Verif.C83_segment_converges_partial",
    "Verif.C83_segment_steps_refuted",
    "Verif.C83_segment_oscillates_refuted"
   ],
   "note": "Probabilities and classes proved for every number of axes. Convergence proved for one and two axes (the fixed mu = 1/8 is then within the bound of PrimalDual). Refuted beyond: with three or more axes of length four or more the steps break the documented condition tau*mu*lambda_max < 1, and with eight or more axes there are runs that flip every pixel at every iteration for ever. The simplex operator is a parameter with an exact projection (kwargs_simplex chooses its engine)."
  },
  {
   "property": "C84",
   "status": "partial",
   "theorems": [
    "Verif.C84_card_prox_partial",
    "Verif.C84_card_call_partial",
    "Verif.C84_card_call_refuted",
    "Verif.C84_card_prox_large_tau_partial",
    "Verif.C84_card_prox_large_tau_refuted",
    "Verif.C84_card_prox_zero_refuted"
   ],
   "note": "Proved for 0<tau<1 and r0>=1 (all lengths, all vectors, any tie-breaking): unique minimiser of the biconjugate-defined envelope; value exact for r0>=2 or at most r0 non-zeros. False: tau>=1 (hard thresholding with a fixed threshold; a vector with at most r0 non-zeros, which is its own unique prox, loses its small entries), r0<=1 in __call__ (ValueError) and r0=0 in prox (UnboundLocalError). For tau>=1 the positive cases are proved."
  },
  {
   "property": "C85",
   "status": "partial",
   "theorems": [
    "Verif.C85_rank_prox_partial",
    "Verif.C85_rank_prox_one_refuted",
    "Verif.C85_rank_prox_two_refuted",
    "Verif.C85_rank_prox_over_refuted",
    "Verif.C85_rank_call_partial",
    "Verif.C85_rank_call_refuted"
   ],
   "note": "Proved for every shape with at least three singular values and r0 <= n, and in the remaining cases n=2, n=1 except where refuted. False: IndexError for n=1,r0=1 (always) and n=2,r0=1 when (1+1/tau)s1<s0; wrong result for r0=n+1; __call__ adds the Frobenius norm unsquared, so its value differs from the documented one unless the norm is 0 or 1."
  },
  {
   "property": "C86",
   "status": "partial",
   "theorems": [
    "Verif.C86_coefficients",
    "Verif.C86_epsr_no_influence",
    "Verif.C86_line",
    "Verif.C86_zero_history_refuted",
    "Verif.C86_no_regularisation_refuted",
    "Verif.C86_minimiser_refuted"
   ],
   "note": "Proved for epsr > 0 and a history that is not all zero (np.linalg.pinv given by the Penrose equations); there the value of epsr is shown to have no influence on the result. Refuted: all-zero history gives NaN, so a run started at a minimiser returns NaN from iteration nhistory on (C86_minimiser_refuted); epsr = 0 does not give the minimising coefficients."
  },
  {
   "property": "C87",
   "status": "partial",
   "theorems": [
    "Verif.C87_safeguard_partial",
    "Verif.C87_smooth_partial",
    "Verif.C87_rejected_refuted",
    "Verif.C87_objective_refuted"
   ],
   "note": "Proved when a tolerance is given (and then descent for g = 0 and tau <= 1/L). Refuted for tol=None (the value of a rejected point is kept as the reference, so f can increase) and for the objective f + g (the safeguard looks at f only)."
  },
  {
   "property": "C88",
   "status": "partial",
   "theorems": [
    "Verif.C88_value",
    "Verif.C88_prox_rate_partial",
    "Verif.C88_prox_converges_partial",
    "Verif.C88_niter_zero",
    "Verif.C88_rtol_truncates_partial",
    "Verif.C88_five_axes_refuted",
    "Verif.C88_short_axis_refuted",
    "Verif.C88_sigma_zero_refuted",
    "Verif.C88_dims_none_refuted",
    "Verif.C88_rtol_large_refuted",
    "Verif.C88_rtol_refuted",
    "Verif.C88_small_weight_refuted"
   ],
   "note": "Proved: value for all shapes; with rtol=0, one to four axes of length >= 2, sigma > 0 and largest weight >= 1, distance to the proximal point at most 12 sigma tau w sqrt(axes*pixels)/niter and convergence; rtol only truncates the run. Refuted: dims=None (always ValueError), five or more axes (UnboundLocalError), an axis of length one (IndexError), sigma=0 (ZeroDivisionError or NaN), any rtol > 0 (a signal for which all niter give the same point away from the proximal point); nonzero weights with square at most 1/8 (a two-pixel signal for which every niter >= 1 gives a point at least sigma*tau/2 away from the proximal point). Not settled: weights between 1/sqrt(8) and 1."
  },
  {
   "property": "C89",
   "status": "partial",
   "theorems": [
    "Verif.C89_value_periodic",
    "Verif.C89_value_partial",
    "Verif.C89_grad_periodic",
    "Verif.C89_grad_partial",
    "Verif.C89_prox_periodic_partial",
    "Verif.C89_prox_padded_partial",
    "Verif.C89_long_refuted",
    "Verif.C89_prox_refuted",
    "Verif.C89_value_wrap_refuted",
    "Verif.C89_real"
   ],
   "note": "Proved: value and gradient of the linear misfit when nfft covers the convolution and the data, of the periodic misfit when it covers signal and kernel; prox exact for the periodic misfit if nfft equals the number of samples, and otherwise the restriction of the proximal point of the problem on nfft samples; real inputs give real results. Refuted: signals longer than nfft (grad raises, prox drops samples), short nfft (the value vanishes where the misfit does not), and prox for every signal shorter than nfft (C89_prox_refuted). Missing: nothing else is true of prox for nfft > len(x)."
  },
  {
   "property": "C90",
   "status": "proved",
   "theorems": [
    "Verif.C90_subproblem",
    "Verif.C90_prox_exact",
    "Verif.C90_proxdual_exact",
    "Verif.C90_cold_stateless",
    "Verif.C90_early",
    "Verif.C90_prox_residual",
    "Verif.C90_prox_residual_nonconvex",
    "Verif.C90_descent_rate",
    "Verif.C90_warm_tracks"
   ],
   "note": "optimize is a parameter that may read the whole object; gradient descent (tutorial and tests) is modelled as an instance, with its linear rate. Real arrays. The residual bound is proved for convex functions and, with tau*L<1, for any function with Lipschitz gradient."
  },
  {
   "property": "C91",
   "status": "partial",
   "theorems": [
    "Verif.C91_weighted_norm_exists",
    "Verif.C91_prox_ordered_partial",
    "Verif.C91_prox_nondescending_partial",
    "Verif.C91_prox_order_refuted",
    "Verif.C91_value_partial",
    "Verif.C91_value_wide_refuted",
    "Verif.C91_value_column_refuted",
    "Verif.C91_prox_short",
    "Verif.C91_single_weight"
   ],
   "note": "Proved: prox is a global minimiser for every matrix and step if the (non-negative) weights are non-descending, and for other weights whenever the shrunk singular values are still in descending order; the value is exact with one weight per column; a single weight is the scalar case. Refuted: if any weight exceeds the next one (in particular the non-ascending weights for which the docstring notes convexity) there are matrices of every shape for which prox does not minimise; with one weight per singular value the value of a matrix with more columns than rows raises ValueError; with a single column all weights are summed. np.linalg.svd and eigvalsh are parameters (exact decompositions, documented order)."
  },
  {
   "property": "C92",
   "status": "partial",
   "theorems": [
    "Verif.C92_bisect_cuda",
    "Verif.C92_row_cuda",
    "Verif.C92_prox_numpy_partial",
    "Verif.C92_prox_numba_partial",
    "Verif.C92_cuda_eq_numba",
    "Verif.C92_prox_cuda_partial",
    "Verif.C92_engines_agree",
    "Verif.C92_bad_engine",
    "Verif.C92_bad_dims",
    "Verif.C92_cuda_no_dims_refuted",
    "Verif.C92_axis_minus_two",
    "Verif.C92_axis_refuted",
    "Verif.C92_axis_mismatch_refuted",
    "Verif.C92_radius_refuted",
    "Verif.C92_radius_hangs_refuted",
    "Verif.C92_call_partial",
    "Verif.C92_int64",
    "Verif.C92_int64_rows",
    "Verif.C92_int64_lower_refuted",
    "Verif.C92_int64_upper_refuted",
    "Verif.C92_int64_cuda"
   ],
   "note": "Proved for axis 0, 1, -1, all shapes and inputs; compiled engines for radius <= 1e10; cuda = numba exactly for every schedule of the stores and ftol > 0. Refuted: axis=-2 projects rows instead of columns (square) or raises ValueError (not square); for every radius > 1e10 the compiled engines move a point of the simplex by at least radius-1e10, and hang when radius > 1e10*n; cuda with dims=None fails on every input; __call__ with dims accepts sums below the radius. The theorems above treat the ends of the bracket as unbounded integers; with dims the compiled code uses 64-bit integers, which makes no difference for entries between -2^62 and 2^62 (C92_int64, C92_int64_rows, C92_int64_cuda), and hangs on a row with an entry of 2^63 or more, or with all entries at or below -2^63 (C92_int64_upper_refuted, C92_int64_lower_refuted)."
  },
  {
   "property": "C93",
   "status": "partial",
   "theorems": [
    "Verif.C93_l1_prox",
    "Verif.C93_l1_call",
    "Verif.C93_l1_proxdual_iff",
    "Verif.C93_l1_proxdual_refuted",
    "Verif.C93_l1_proxdual_offset",
    "Verif.C93_l1ball_prox_partial",
    "Verif.C93_l1ball_interior_refuted",
    "Verif.C93_l0ball_prox_partial",
    "Verif.C93_l0ball_radius_zero_refuted",
    "Verif.C93_huber_call",
    "Verif.C93_huber_prox_partial",
    "Verif.C93_ball_calls",
    "Verif.C93_l21_call_iff",
    "Verif.C93_l21_prox_iff",
    "Verif.C93_l21_refuted",
    "Verif.C93_l21_proxdual_iff",
    "Verif.C93_l21_plus_l1_prox_partial",
    "Verif.C93_l21_plus_l1_call_iff",
    "Verif.C93_l2_prox",
    "Verif.C93_l2_grad",
    "Verif.C93_l2_consistent_iff",
    "Verif.C93_quadratic_call_refuted",
    "Verif.C93_nuclear_call_refuted",
    "Verif.C93_log1_refuted",
    "Verif.C93_log1_partial",
    "Verif.C93_backtracking_iterates",
    "Verif.C93_backtracking_refuted",
    "Verif.C93_scad_prox_partial",
    "Verif.C93_scad_call_iff",
    "Verif.C93_qec_prox_partial",
    "Verif.C93_log_prox",
    "Verif.C93_geman_prox",
    "Verif.C93_penalty_calls",
    "Verif.C93_l0_partial",
    "Verif.C93_rms_prox_partial",
    "Verif.C93_l10ball_prox_partial",
    "Verif.C93_scad_sign1_refuted",
    "Verif.C93_qec_sign1_refuted",
    "Verif.C93_log_sign1_refuted",
    "Verif.C93_geman_sign1_refuted",
    "Verif.C93_etp_prox_partial",
    "Verif.C93_etp_refuted",
    "Verif.C93_box_prox_partial",
    "Verif.C93_box_refuted",
    "Verif.C93_halfspace_prox_iff",
    "Verif.C93_halfspace_complex_refuted",
    "Verif.C93_nuclear_prox",
    "Verif.C93_nuclearball_prox_partial",
    "Verif.C93_nuclearball_interior_refuted",
    "Verif.C93_hankel_refuted"
   ],
   "note": "Proved: prox and value of L1 and Huber, prox and gradient of L2 (for Re<q,x>), L21_plus_L1.prox (0 <= rho < 1), L1Ball (points outside, exact bisection) and L0Ball. Violated and characterised exactly: L1.proxdual clips with complex np.minimum/np.maximum, which order lexicographically, so it is right iff each entry meets the stated condition; L21 squares without modulus, so value and prox are right iff real (value) or as stated; L2 and Quadratic use np.dot without conjugate; Nuclear uses X^T X; Log1 gives NaN; the line search of ProximalGradient accepts diverging steps for imaginary arrays. Euclidean, EuclideanBall, HuberCircular, L2 without q and every algorithm theorem stated for a general real inner product space already cover complex arrays. Penalties on moduli (SCAD, Log, Geman, QuadraticEnvelopeCard, L0, RelaxedMumfordShah, L10Ball) are right under the conditions of the real case with numpy 2, where np.sign(z) = z/|z|, and wrong for all parameters with numpy 1 where they use np.sign. ETP compares complex squares and returns 0 for imaginary entries; SCAD's value is right iff the entries in the quadratic part are real; Box is the projection onto no set and not Lipschitz; HalfSpace with a real normal is right iff w.x is real or x is returned, and gives NaN for normals with w.w = 0. With an exact SVD, Nuclear.prox is the proximal map of the complex nuclear norm and NuclearBall.prox the projection for matrices on or outside the ball up to the bisection tolerance; inside the ball it moves the matrix. Hankel raises TypeError on every complex matrix because np.bincount rejects complex weights. TV on complex images is C121; AffineSet and Orthogonal are covered through the general inner product space."
  },
  {
   "property": "C94",
   "status": "proved",
   "theorems": [
    "Verif.C94_apd_converges",
    "Verif.C94_apd_terminates",
    "Verif.C94_apd_residuals",
    "Verif.C94_apd_converges_slater"
   ],
   "note": "Finite dimension; existence of a saddle point, or of a minimiser under Slater's condition. With z the operator has to be square, since otherwise the call fails (C73). The wrong start Ax = 0 and the wrong residual with z do not affect convergence."
  },
  {
   "property": "C95",
   "status": "partial",
   "theorems": [
    "Verif.C95_hqs_converges",
    "Verif.C95_hqs_agree_iff",
    "Verif.C95_hqs_gap",
    "Verif.C95_hqs_solves_refuted",
    "Verif.C95_hqs_continuation",
    "Verif.C95_hqs_continuation_converges"
   ],
   "note": "C95_hqs_converges: with a constant step (x, z) converge to a minimiser of the penalised objective f(x)+g(z)+|x-z|^2/(2 tau). C95_hqs_agree_iff: x and z converge to each other exactly when f and g have a common minimiser. C95_hqs_gap: the objective of lim x exceeds the minimum by at most tau K^2/2 for K-Lipschitz g. C95_hqs_continuation(_converges): with steps tending to 0 with divergent sum the best x approaches the minimum of f+g. C95_hqs_solves_refuted: two squared distances, any weights, b != 0 and any step: the limits differ and neither minimises f+g, contrary to the docstring (primal.py:915-925, 990-993)."
  },
  {
   "property": "C96",
   "status": "partial",
   "theorems": [
    "Verif.C96_both_parameters",
    "Verif.C96_one_parameter_ignored",
    "Verif.C96_one_parameter_refuted",
    "Verif.C96_eigs_clamped",
    "Verif.C96_twist_converges",
    "Verif.C96_twist_eigs_refuted",
    "Verif.C96_twist_default_refuted",
    "Verif.C96_twist_cycle_refuted",
    "Verif.C96_twist_linear_rate"
   ],
   "note": "Refuted in three ways: C96_twist_cycle_refuted (documented parameters alpha = 13/9, beta = 25/9, box constraint: three-region cycle from a whole set of starting points, in any dimension), C96_twist_eigs_refuted (with eigs given the documented max(1, lambda_max) is not applied; divergence for every A, b, x0 != 0 with g the indicator of {0}), C96_twist_default_refuted (without eigs the eigenvalues of A are used instead of those of A^H A; divergence for A = sigma I, sigma > 2, g = 0; the values returned by A.eigs are an input of the model). Positive: C96_twist_converges (explicit region of alpha, beta in which TwIST converges for every convex g and every A with ||A||^2 <= L) and C96_twist_linear_rate (g = 0 and eigs of A^H A: error at most C (n+1) rho^n with the documented rho). C96_one_parameter_refuted, C96_one_parameter_ignored: if only one of alpha and beta is given its value is ignored; C96_both_parameters, C96_eigs_clamped: the use of eigs."
  },
  {
   "property": "C97",
   "status": "partial",
   "theorems": [
    "Verif.C97_proximalpoint_stops_partial",
    "Verif.C97_proximalpoint_never_stops_refuted",
    "Verif.C97_proximalgradient_stops_partial",
    "Verif.C97_accelerated_stops_partial",
    "Verif.C97_proximalgradient_never_stops_refuted",
    "Verif.C97_ppxa_stops",
    "Verif.C97_cons_stops"
   ],
   "note": "PPXA and ConsensusADMM always stop (hypotheses of their convergence theorems, any norm-bounded max). ProximalPoint and ProximalGradient stop within an explicit number of iterations if the minimum is positive; the refuted theorems show runs that never stop (quadratics with minimum zero) because the test is on the relative change. AdaptivePrimalDual is C94_apd_terminates."
  },
  {
   "property": "C98",
   "status": "partial",
   "theorems": [
    "Verif.C98_primaldual_identity",
    "Verif.C98_primaldual_identity_shifted",
    "Verif.C98_shift_precomposition",
    "Verif.C98_primaldual_identity_limit",
    "Verif.C98_primaldual_identity_refuted",
    "Verif.C98_adaptive_identity",
    "Verif.C98_adaptive_identity_first",
    "Verif.C98_adaptive_identity_stationary",
    "Verif.C98_adaptive_identity_refuted",
    "Verif.C98_orthogonal_call_refuted",
    "Verif.C98_proximalpoint_inplace",
    "Verif.C98_proximalgradient_inplace",
    "Verif.C98_admm_inplace",
    "Verif.C98_hqs_partial",
    "Verif.C98_dr_partial",
    "Verif.C98_ppxa_partial",
    "Verif.C98_hqs_refuted",
    "Verif.C98_hqs_initial_refuted",
    "Verif.C98_hqs_initial_z_refuted",
    "Verif.C98_hqs_initial_kept",
    "Verif.C98_dr_no_iterations",
    "Verif.C98_dr_refuted",
    "Verif.C98_ppxa_refuted",
    "Verif.C98_postcomposition",
    "Verif.C98_precomposition",
    "Verif.C98_affine_addition",
    "Verif.C98_adjoint",
    "Verif.C98_hqs_wrapped",
    "Verif.C98_dr_wrapped",
    "Verif.C98_moreau_partial",
    "Verif.C98_moreau_refuted",
    "Verif.C98_postcomposition_refuted"
   ],
   "note": "Stateful, in-place operators and solvers are modelled in Model/Mutable. Proved for ProximalPoint, ProximalGradient (with backtracking) and ADMM. The refuted theorems use L2(q=...) without Op and b, whose prox subtracts tau*alpha*q from its argument in place: HQS returns a wrong z and modifies the caller's x0, DouglasRachfordSplitting converges to a point that is not a minimiser, PPXA has unbounded iterates on a strongly convex sum. Model/MutCalculus adds the operator calculus and pyproximal.utils.moreau on such objects: f.precomposition(a, b), f + v and f.H protect the caller's array (so wrapping operators as f.precomposition(1.0, 0.0) is a way around the refuted cases), c * f does not, and utils.moreau rejects L2(q=...) although its prox and proxdual satisfy the identity (C98_moreau_refuted). Model/Aliasing adds the two solvers and the one operator that add in place to what a linear operator returned (ATy += z, y += self.b), for an identity that returns its argument: the run of PrimalDual is exactly that of the problem with g(x + z/mu) (C98_primaldual_identity_shifted), it converges to -(1+1/mu)z instead of -z on <z,x> + ||x||^2/2, and the solution is not a fixed point of AdaptivePrimalDual."
  },
  {
   "property": "C99",
   "status": "partial",
   "theorems": [
    "Verif.C99_proximalpoint_rerun",
    "Verif.C99_proximalgradient_rerun",
    "Verif.C99_admm_rerun",
    "Verif.C99_dr_rerun",
    "Verif.C99_ppxa_rerun",
    "Verif.C99_l2_state_independent",
    "Verif.C99_l2_point_rate",
    "Verif.C99_proximalpoint_schedule",
    "Verif.C99_proximalgradient_schedule",
    "Verif.C99_backtracking_refuted",
    "Verif.C99_rerun_refuted"
   ],
   "note": "The refuted theorems: with a callable sigma the counter goes on in a second run, so it uses other parameters and returns another result; with backtracking the counter advances at every trial, so the parameter does not follow the iterations."
  },
  {
   "property": "C100",
   "status": "proved",
   "theorems": [
    "Verif.C100_admm_dr_gfirst",
    "Verif.C100_admm_dr",
    "Verif.C100_dr_swap",
    "Verif.C100_linearized_admm",
    "Verif.C100_primaldual_dr",
    "Verif.C100_ppxa_point",
    "Verif.C100_consensus_point",
    "Verif.C100_generalized_pg"
   ],
   "note": "Simulations between the modelled loops. No convexity is needed, except that PrimalDual needs proxdual to satisfy the Moreau identity."
  },
  {
   "property": "C101",
   "status": "proved",
   "theorems": [
    "Verif.C101_proximalpoint_rate",
    "Verif.C101_proximalpoint_two_starts",
    "Verif.C101_proximalgradient_rate",
    "Verif.C101_proximalgradient_two_starts",
    "Verif.C101_dr_rate",
    "Verif.C101_admm_rate"
   ],
   "note": "ProximalGradient without acceleration and backtracking. The factor for DouglasRachfordSplitting is below 1 for 0<eta<2/(1+rho)."
  },
  {
   "property": "C102",
   "status": "proved",
   "theorems": [
    "Verif.C102_proximalpoint_inexact",
    "Verif.C102_proximalpoint_neighbourhood",
    "Verif.C102_proximalpoint_inexact_converges",
    "Verif.C102_proximalgradient_inexact",
    "Verif.C102_proximalgradient_inexact_converges",
    "Verif.C102_dr_inexact",
    "Verif.C102_dr_inexact_converges",
    "Verif.C102_admm_inexact_converges",
    "Verif.C102_admm_l2_schedule",
    "Verif.C102_l2_point_neighbourhood",
    "Verif.C102_constant_errors_diverge"
   ],
   "note": "On the model of operators with attributes (Model/Mutable). Errors are absolute: the bound d_k holds for every argument of call k."
  },
  {
   "property": "C103",
   "status": "proved",
   "theorems": [
    "Verif.C103_admm_scale",
    "Verif.C103_dr_scale",
    "Verif.C103_hqs_scale",
    "Verif.C103_linearized_admm_scale",
    "Verif.C103_ppxa_scale",
    "Verif.C103_consensus_scale",
    "Verif.C103_proximalpoint_scale",
    "Verif.C103_proximalgradient_scale",
    "Verif.C103_primaldual_scale",
    "Verif.C103_admm_precomposition",
    "Verif.C103_hqs_precomposition",
    "Verif.C103_dr_precomposition",
    "Verif.C103_proximalpoint_precomposition",
    "Verif.C103_proximalgradient_precomposition",
    "Verif.C103_consensus_precomposition",
    "Verif.C103_ppxa_precomposition",
    "Verif.C103_generalized_pg_scale",
    "Verif.C103_generalized_pg_precomposition",
    "Verif.C103_ppxa_order",
    "Verif.C103_consensus_order",
    "Verif.C103_generalized_pg_order",
    "Verif.C103_dykstra_order",
    "Verif.C103_admm_swap",
    "Verif.C103_hqs_swap"
   ],
   "note": "Steps and multipliers positive. For the tolerance of PPXA and ConsensusADMM, an absolute one, the change of variables multiplies tol by |a|. PrimalDual is covered for scaling when g has no proxdual of its own."
  },
  {
   "property": "C104",
   "status": "partial",
   "theorems": [
    "Verif.C104_agree_iff_partial",
    "Verif.C104_huber_partial",
    "Verif.C104_scad_partial",
    "Verif.C104_log_partial",
    "Verif.C104_log1_partial",
    "Verif.C104_etp_partial",
    "Verif.C104_geman_partial",
    "Verif.C104_qec_partial",
    "Verif.C104_simplex_partial",
    "Verif.C104_huber_refuted",
    "Verif.C104_scad_refuted",
    "Verif.C104_log_refuted",
    "Verif.C104_etp_refuted",
    "Verif.C104_geman_refuted",
    "Verif.C104_qec_refuted",
    "Verif.C104_log1_refuted",
    "Verif.C104_simplex_refuted",
    "Verif.C104_erases_blind",
    "Verif.C104_expression",
    "Verif.C104_l0",
    "Verif.C104_l0ball",
    "Verif.C104_l10ball",
    "Verif.C104_proximalpoint",
    "Verif.C104_admm",
    "Verif.C104_douglasrachford",
    "Verif.C104_dykstra_two",
    "Verif.C104_l2_q_refuted",
    "Verif.C104_gpg_refuted",
    "Verif.C104_sr3_refuted",
    "Verif.C104_gpg_partial",
    "Verif.C104_vstack_partial",
    "Verif.C104_vstack_refuted",
    "Verif.C104_intersection_partial",
    "Verif.C104_intersection_refuted",
    "Verif.C104_dykstra_cyclic_refuted",
    "Verif.C104_huber_call_partial",
    "Verif.C104_huber_call_refuted",
    "Verif.C104_scad_call_partial",
    "Verif.C104_storable_operators",
    "Verif.C104_storable_admm",
    "Verif.C104_storable_dykstra_two",
    "Verif.C104_storable_douglasrachford"
   ],
   "note": "True for operators computed by arithmetic expressions, for L0, L0Ball and L10Ball, and for ProximalPoint, ADMM, DouglasRachfordSplitting and dykstra_two with such operators. False for Huber, SCAD, Log, Log1, ETP, Geman, QuadraticEnvelopeCard, Simplex with dims and VStack with restrictions: every entry of the result loses its fractional part (the Simplex result is not on the simplex). False for Intersection and for GenericIntersection with more than two sets, which converge to a point that is not the projection. L2 with q and no data, GeneralizedProximalGradient and SR3 raise TypeError on integers. No operator or solver returns an array of integers with an entry that is not a whole number (C104_storable_*)."
  },
  {
   "property": "C105",
   "status": "partial",
   "theorems": [
    "Verif.C105_moreau_agrees",
    "Verif.C105_inf_penalty",
    "Verif.C105_l1_agrees",
    "Verif.C105_l1_call_agrees",
    "Verif.C105_box_agrees",
    "Verif.C105_l0_agrees",
    "Verif.C105_huber_agrees",
    "Verif.C105_huber_call_agrees",
    "Verif.C105_huberCircular_agrees",
    "Verif.C105_euclidean_agrees",
    "Verif.C105_euclidean_dual_agrees",
    "Verif.C105_euclidean_grad_agrees",
    "Verif.C105_euclideanBall_agrees",
    "Verif.C105_halfSpace_agrees",
    "Verif.C105_l21_agrees",
    "Verif.C105_l21_dual_agrees",
    "Verif.C105_l21plusl1_agrees",
    "Verif.C105_tests_agree",
    "Verif.C105_scad_agrees",
    "Verif.C105_qec_agrees",
    "Verif.C105_rms_agrees",
    "Verif.C105_log_agrees",
    "Verif.C105_log_call_agrees",
    "Verif.C105_log1_agrees",
    "Verif.C105_log1_call_agrees",
    "Verif.C105_etp_agrees",
    "Verif.C105_geman_agrees",
    "Verif.C105_l2_agrees",
    "Verif.C105_nan_kept",
    "Verif.C105_nan_spreads",
    "Verif.C105_nan_column",
    "Verif.C105_nan_other_columns",
    "Verif.C105_nan_lost_refuted",
    "Verif.C105_tests_reject_nan",
    "Verif.C105_simplex_test_refuted",
    "Verif.C105_inf_kept",
    "Verif.C105_inf_lost_refuted",
    "Verif.C105_euclidean_inf",
    "Verif.C105_inf_to_nan_refuted",
    "Verif.C105_l21plusl1_inf_refuted",
    "Verif.C105_box_inf",
    "Verif.C105_proximalPoint_agrees",
    "Verif.C105_admm_agrees",
    "Verif.C105_dr_agrees",
    "Verif.C105_proximalPoint_nan",
    "Verif.C105_admm_nan",
    "Verif.C105_dr_nan",
    "Verif.C105_admm_hides_nan_refuted"
   ],
   "note": "On finite arrays the computation with IEEE infinities and NaN is the real one, and where the real model reports a NaN an entry is not finite (the *_agrees theorems). L1, Box, L0, L2, Huber, SCAD, QuadraticEnvelopeCard, RelaxedMumfordShah and Log keep a NaN in its entry and do not let it touch others; Euclidean, HuberCircular, EuclideanBall and HalfSpace spread it over the array, L21 and L21_plus_L1 over its column; ProximalPoint, ADMM and DouglasRachfordSplitting carry it to every later iterate and no tolerance stops them. False for Log1, ETP and Geman, which replace NaN by zero (ADMM with ETP makes the iterates of the run from zeros instead), for the test of Simplex, which accepts arrays with NaN, for ETP and Geman on infinite entries (replaced by zero), and for EuclideanBall, the dual prox of Euclidean and L21_plus_L1, which make NaN out of an infinite entry."
  },
  {
   "property": "C106",
   "status": "proved",
   "theorems": [
    "Verif.C106_pd_gap",
    "Verif.C106_pd_objective",
    "Verif.C106_admm_gap",
    "Verif.C106_admm_rate",
    "Verif.C106_admm_objective",
    "Verif.C106_linadmm_gap",
    "Verif.C106_linadmm_rate",
    "Verif.C106_linadmm_objective",
    "Verif.C106_admml2_gap",
    "Verif.C106_admml2_rate",
    "Verif.C106_admml2_objective",
    "Verif.C106_hqs_rate",
    "Verif.C106_dr_residual",
    "Verif.C106_admm_residual",
    "Verif.C106_lasso_admm",
    "Verif.C106_lasso_pd"
   ],
   "note": "Averages are over the iterates 1..N as a callback sees them. C106_*_gap is the gap for every comparison point and multiplier, *_rate adds objective and constraint violation at a certified solution, *_objective gives the objective at the averaged x alone when g is Lipschitz. Steps: tau*mu*|A|^2 <= 1 (PrimalDual, theta = 1), mu/tau*|A|^2 <= 1 (LinearizedADMM), any positive tau (ADMM, ADMML2 with gfirst=False, HQS). ADMML2 with gfirst=True need not converge (C47). C106_lasso_admm and C106_lasso_pd instantiate the theorems with L2 and L1."
  },
  {
   "property": "C107",
   "status": "partial",
   "theorems": [
    "Verif.C107_tradeoff",
    "Verif.C107_bound",
    "Verif.C107_continuity",
    "Verif.C107_small_steps",
    "Verif.C107_large_steps",
    "Verif.C107_limit",
    "Verif.C107_huber",
    "Verif.C107_scad",
    "Verif.C107_qec",
    "Verif.C107_l0",
    "Verif.C107_relaxedms",
    "Verif.C107_log1_refuted",
    "Verif.C107_path",
    "Verif.C107_weight",
    "Verif.C107_admm",
    "Verif.C107_classes",
    "Verif.C107_nuclear"
   ],
   "note": "C107_tradeoff/_bound/_small_steps/_large_steps need only that prox is exact, C107_continuity and C107_limit convexity. C107_classes and C107_nuclear instantiate it; C107_huber, _scad, _qec, _l0 and _relaxedms prove it for operators whose prox is not the proximal map of the function for some steps. C107_weight, _path and _admm are the versions for a weight. C107_log1_refuted: at 0 Log1 with a step below delta^2/(2 sigma) returns a nonzero entry and with a larger step 0, for all sigma, delta > 0."
  },
  {
   "property": "C108",
   "status": "partial",
   "theorems": [
    "Verif.C108_calculus",
    "Verif.C108_admm",
    "Verif.C108_hqs",
    "Verif.C108_dr",
    "Verif.C108_proximalpoint",
    "Verif.C108_proximalgradient",
    "Verif.C108_generalized_pg",
    "Verif.C108_ppxa",
    "Verif.C108_consensus",
    "Verif.C108_linearized_admm",
    "Verif.C108_admml2",
    "Verif.C108_twist",
    "Verif.C108_primaldual",
    "Verif.C108_adaptive_primaldual",
    "Verif.C108_entrywise",
    "Verif.C108_l1",
    "Verif.C108_relaxedms",
    "Verif.C108_log1_partial",
    "Verif.C108_log1_sign_refuted",
    "Verif.C108_rotations",
    "Verif.C108_box",
    "Verif.C108_simplex",
    "Verif.C108_l1ball",
    "Verif.C108_l0ball_ties_refuted",
    "Verif.C108_l0ball_partial",
    "Verif.C108_convex",
    "Verif.C108_tv_mirror_refuted",
    "Verif.C108_groups",
    "Verif.C108_nuclear"
   ],
   "note": "SameOp says that call, prox, proxdual and grad of two objects agree through the isometry; C108_calculus closes it under sums, scalings, shifts, chains and adjoints, and one theorem per solver transports whole runs, errors included. C108_entrywise, _l1 (sigma >= 0), _relaxedms, _groups, _rotations, _box, _simplex, _l1ball, _nuclear and _convex provide the operators. Refuted: C108_log1_sign_refuted, C108_l0ball_ties_refuted (entries of the same size are told apart by their position; C108_l0ball_partial is the case without ties) and C108_tv_mirror_refuted (forward differences: a corner pixel counts sqrt 2 in one corner and 2 in the opposite one). C108_log1_partial: Log1 under reorderings."
  },
  {
   "property": "C109",
   "status": "partial",
   "theorems": [
    "Verif.C109_calculus",
    "Verif.C109_admm",
    "Verif.C109_hqs",
    "Verif.C109_dr",
    "Verif.C109_proximalpoint_partial",
    "Verif.C109_proximalgradient_partial",
    "Verif.C109_generalized_pg",
    "Verif.C109_ppxa_partial",
    "Verif.C109_consensus_partial",
    "Verif.C109_linearized_admm",
    "Verif.C109_admml2",
    "Verif.C109_twist_partial",
    "Verif.C109_primaldual",
    "Verif.C109_entrywise",
    "Verif.C109_l1_box",
    "Verif.C109_columns",
    "Verif.C109_vstack_nn",
    "Verif.C109_vstack_restr",
    "Verif.C109_backtracking_refuted",
    "Verif.C109_tolerance_refuted"
   ],
   "note": "PartOf says that whatever f returns on x, f' returns the part of it on the part of x. C109_vstack_nn and _vstack_restr establish it for the blocks of VStack from the list model of its slicing and scattering, C109_entrywise, _l1_box and _columns for the separable operators, C109_calculus for sums, scalings, shifts, chains and adjoints; one theorem per solver. Refuted: C109_backtracking_refuted (default ProximalGradient, every non-zero start and every niterback >= 2) and C109_tolerance_refuted (ProximalPoint). The _partial theorems are the cases without backtracking or tolerance; TwIST needs alpha and beta given and no monotone test. AdaptivePrimalDual and Anderson acceleration take their parameters from whole-array norms and are not claimed."
  },
  {
   "property": "C110",
   "status": "partial",
   "theorems": [
    "Verif.C110_proximalpoint",
    "Verif.C110_admm",
    "Verif.C110_hqs",
    "Verif.C110_dr",
    "Verif.C110_proximalgradient",
    "Verif.C110_proximalgradient_relaxed",
    "Verif.C110_anderson",
    "Verif.C110_linearized_admm",
    "Verif.C110_admml2",
    "Verif.C110_primaldual",
    "Verif.C110_adaptive",
    "Verif.C110_palm_partial",
    "Verif.C110_bregman",
    "Verif.C110_consensus_partial",
    "Verif.C110_ppxa_partial",
    "Verif.C110_gpg_partial",
    "Verif.C110_relaxation_refuted",
    "Verif.C110_average_refuted",
    "Verif.C110_gpg_acceleration_refuted",
    "Verif.C110_twist_refuted",
    "Verif.C110_palm_refuted",
    "Verif.C110_box",
    "Verif.C110_halfspace",
    "Verif.C110_euclidean_ball",
    "Verif.C110_l0ball_partial",
    "Verif.C110_l0ball_radius_zero_refuted",
    "Verif.C110_l10ball_partial",
    "Verif.C110_box_crossing_refuted",
    "Verif.C110_hankel_partial",
    "Verif.C110_hankel_refuted",
    "Verif.C110_affine_partial",
    "Verif.C110_simplex_partial",
    "Verif.C110_l1ball_partial",
    "Verif.C110_simplex_refuted",
    "Verif.C110_l1ball_refuted",
    "Verif.C110_simplex_call_off_refuted"
   ],
   "note": "Solvers (Props/Feasible): Lands f C says that prox returns only points of C; a postcondition carried through the loops gives one theorem per solver. Refuted: over-relaxed ProximalGradient leaves the interval it projects on after every number of iterations (C110_relaxation_refuted), PPXA and ConsensusADMM return an average (C110_average_refuted; _partial: convex sets all operators land in), accelerated GeneralizedProximalGradient, TwIST, PALM with a projection of the other block. Operators (Props/Feasible2): OwnTest for Box, HalfSpace, EuclideanBall, L0Ball and L10Ball with radius >= 1; Hankel and AffineSet up to the tolerance in their tests; Simplex and L1Ball pass their own test iff the number of entries times the tolerance of the search is below that of the test - with the defaults this fails from ten entries on for L1Ball and from two on for Simplex (C110_l1ball_refuted, C110_simplex_refuted)."
  },
  {
   "property": "C111",
   "status": "partial",
   "theorems": [
    "Verif.C111_proximal_point_partial",
    "Verif.C111_hqs",
    "Verif.C111_douglas_rachford",
    "Verif.C111_proximal_gradient_partial",
    "Verif.C111_primal_dual_partial",
    "Verif.C111_palm_partial",
    "Verif.C111_admm_refuted",
    "Verif.C111_linearized_admm_refuted",
    "Verif.C111_primal_dual_gfirst_refuted",
    "Verif.C111_accelerated_refuted",
    "Verif.C111_twist_refuted",
    "Verif.C111_generalized_refuted",
    "Verif.C111_ppxa_refuted",
    "Verif.C111_consensus_admm_refuted",
    "Verif.C111_proximal_point_tol",
    "Verif.C111_proximal_gradient_tol",
    "Verif.C111_tolerance_refuted"
   ],
   "note": "Equations between the long run and the two short runs in the exception monad, from a simulation of the second run by the rest of the first. With tolerances: the two calls together make the iterations of one run without a tolerance (C111_proximal_point_tol, C111_proximal_gradient_tol), but the previous value is forgotten, so that a stopped run which is continued makes at least two more iterations (C111_tolerance_refuted). Not covered: backtracking (the reduced step is forgotten). Refuted for the solvers named in the statement by closed forms of the first iterations for every start other than 0."
  },
  {
   "property": "C112",
   "status": "partial",
   "theorems": [
    "Verif.C112_primal_dual_arrays",
    "Verif.C112_proximal_point_partial",
    "Verif.C112_proximal_point_tol_partial",
    "Verif.C112_proximal_point_tol_refuted",
    "Verif.C112_admm",
    "Verif.C112_hqs",
    "Verif.C112_linearized_admm",
    "Verif.C112_admml2",
    "Verif.C112_douglas_rachford",
    "Verif.C112_ppxa",
    "Verif.C112_generalized",
    "Verif.C112_consensus_admm",
    "Verif.C112_proximal_gradient",
    "Verif.C112_proximal_gradient_backtracking",
    "Verif.C112_primal_dual",
    "Verif.C112_twist",
    "Verif.C112_adaptive_partial",
    "Verif.C112_bad_step",
    "Verif.C112_classes",
    "Verif.C112_adaptive"
   ],
   "note": "An equivalence per solver, from a calculus for the exception monad (which parts of a sequence of calls return) and an induction over the loop. C112_proximal_point_tol_refuted: with a tolerance of at most 1 and an operator whose value is the float 0, ProximalPoint raises ZeroDivisionError in its second iteration. AdaptivePrimalDual: C112_adaptive, an equivalence for alpha < 1, 0 <= eta <= 1 and delta != 0 (the documented parameters, with or without z)."
  },
  {
   "property": "C113",
   "status": "partial",
   "theorems": [
    "Verif.C113_l1",
    "Verif.C113_l1_order",
    "Verif.C113_l1_distance",
    "Verif.C113_l1_offset",
    "Verif.C113_l1_dual",
    "Verif.C113_box",
    "Verif.C113_l0",
    "Verif.C113_l2",
    "Verif.C113_huber",
    "Verif.C113_euclidean",
    "Verif.C113_euclidean_error",
    "Verif.C113_euclidean_ball_partial",
    "Verif.C113_euclidean_ball_origin",
    "Verif.C113_euclidean_ball_refuted",
    "Verif.C113_exact",
    "Verif.C113_l2_exact",
    "Verif.C113_l2_data"
   ],
   "note": "Model/Rounded writes a rounding after each operation of the code; Rounding states what is assumed of it and C113's file shows that truncation and rounding to nearest with any number of binary digits satisfy it. C113_euclidean_ball_refuted: a ball whose centre is not the origin need not return its own points: if x - c rounds to -c with x not zero the projection of x is zero."
  },
  {
   "property": "C114",
   "status": "partial",
   "theorems": [
    "Verif.C114_proximal_point_l1",
    "Verif.C114_proximal_point_l1_reaches_zero_partial",
    "Verif.C114_proximal_point_l1_stalls_refuted",
    "Verif.C114_proximal_point_l1_error",
    "Verif.C114_proximal_point_l2_partial",
    "Verif.C114_proximal_point_l2_stalls_refuted",
    "Verif.C114_admm_exact",
    "Verif.C114_admm_constraints",
    "Verif.C114_admm_box_l1",
    "Verif.C114_admm_error",
    "Verif.C114_admm_error_gfirst",
    "Verif.C114_admm_box_l1_error",
    "Verif.C114_admm_error_selfbounded",
    "Verif.C114_admm_box_l1_selfbounded",
    "Verif.C114_admm_box_l1_exact_bounded",
    "Verif.C114_admm_box_l1_unconditional",
    "Verif.C114_admm_error_selfbounded_gfirst",
    "Verif.C114_admm_box_l1_exact_bounded_gfirst",
    "Verif.C114_admm_box_l1_selfbounded_gfirst",
    "Verif.C114_admm_box_l1_unconditional_gfirst"
   ],
   "note": "Partial because of the two _refuted theorems (the stalls). C114_admm_error bounds the drift of ADMM while the computed run stays within norm R; C114_admm_error_selfbounded (both orders of the operators) replaces this by a bound B on the exact run and a number of iterations n with 10 n (4 delta + 44 u B) <= B. For Box and L1 nothing is supposed of either run: C114_admm_box_l1_exact_bounded bounds the exact run for every number of iterations, and C114_admm_box_l1_unconditional gives the drift for up to 1/(760 u) iterations. The proof compares the rounded step with the exact Douglas-Rachford step, which does not increase distances."
  },
  {
   "property": "C115",
   "status": "partial",
   "theorems": [
    "Verif.C115_l1",
    "Verif.C115_box",
    "Verif.C115_euclidean",
    "Verif.C115_euclidean_ball",
    "Verif.C115_halfspace",
    "Verif.C115_l21",
    "Verif.C115_l1_dual",
    "Verif.C115_proximalgradient",
    "Verif.C115_accelerated",
    "Verif.C115_proximalpoint",
    "Verif.C115_dr",
    "Verif.C115_admm",
    "Verif.C115_primaldual",
    "Verif.C115_hqs",
    "Verif.C115_accelerated_strong",
    "Verif.C115_lasso",
    "Verif.C115_degenerate_refuted",
    "Verif.C115_relaxation_refuted"
   ],
   "note": "Settles says what the operator returns for all inputs near a point; the operator theorems say which inputs settle what, the solver theorems that the inputs converge. C115_lasso puts both together. C115_degenerate_refuted: 0.5 (x-1)^2 + |x| (weight equal to the correlation), the iterates are (1-tau)^n x0; C115_relaxation_refuted: with eta < 1 they are (1-eta)^n x0 even in the strictly complementary case."
  },
  {
   "property": "C116",
   "status": "partial",
   "theorems": [
    "Verif.C116_proximalpoint",
    "Verif.C116_proximalgradient",
    "Verif.C116_admm",
    "Verif.C116_dr",
    "Verif.C116_primaldual",
    "Verif.C116_adaptive",
    "Verif.C116_consensus",
    "Verif.C116_proximalpoint_stopped",
    "Verif.C116_proximalgradient_stopped",
    "Verif.C116_proximalpoint_small_step_refuted",
    "Verif.C116_consensus_stopped_refuted",
    "Verif.C116_ppxa_stopped_refuted"
   ],
   "note": "The bounds compare the states returned by runs of n and n+1 iterations. C116_consensus_stopped_refuted and C116_ppxa_stopped_refuted: any two quadratics with different weights and centres have such a start; C116_proximalpoint_small_step_refuted: s/2 |x|^2 with 1-1/(1+tau s)^2 < tol."
  },
  {
   "property": "C117",
   "status": "partial",
   "theorems": [
    "Verif.C117_step",
    "Verif.C117_weight",
    "Verif.C117_linear",
    "Verif.C117_shift",
    "Verif.C117_sets",
    "Verif.C117_l1",
    "Verif.C117_box",
    "Verif.C117_euclidean",
    "Verif.C117_ball",
    "Verif.C117_halfspace",
    "Verif.C117_l2_data",
    "Verif.C117_proximalpoint",
    "Verif.C117_proximalpoint_strong",
    "Verif.C117_proximalgradient",
    "Verif.C117_proximalgradient_strong",
    "Verif.C117_dr",
    "Verif.C117_admm",
    "Verif.C117_lasso_limits",
    "Verif.C117_path",
    "Verif.C117_l0_refuted"
   ],
   "note": "C117_l0_refuted: L0 is discontinuous in its input and in sigma, for every sigma, tau > 0. The bounds on runs take the one-step difference of the two operators as a hypothesis (ProxNear), which the theorems on prox discharge. Acceleration and backtracking are not covered."
  },
  {
   "property": "C118",
   "status": "proved",
   "theorems": [
    "Verif.C118_add_add",
    "Verif.C118_sub_sub",
    "Verif.C118_mul_mul",
    "Verif.C118_mul_add",
    "Verif.C118_pre_pre",
    "Verif.C118_mul_pre",
    "Verif.C118_pre_add",
    "Verif.C118_chain_assoc",
    "Verif.C118_add_sub",
    "Verif.C118_mul_inv",
    "Verif.C118_pre_inv",
    "Verif.C118_dual_add",
    "Verif.C118_dual_mul",
    "Verif.C118_dual_pre",
    "Verif.C118_state_add_add",
    "Verif.C118_state_mul_mul",
    "Verif.C118_state_mul_add",
    "Verif.C118_state_pre_pre",
    "Verif.C118_state_mul_pre",
    "Verif.C118_negative_factors"
   ],
   "note": "Equations between the models' operator objects, so every method agrees and every solver run agrees. C118_negative_factors shows why sigma > 0 is needed: with two negative factors the nested form raises and the merged one works. The rules for proxdual are for operators that inherit it."
  },
  {
   "property": "C119",
   "status": "proved",
   "theorems": [
    "Verif.C119_proximalpoint",
    "Verif.C119_proximalgradient",
    "Verif.C119_dr",
    "Verif.C119_admm",
    "Verif.C119_hqs",
    "Verif.C119_ppxa",
    "Verif.C119_consensus",
    "Verif.C119_primaldual",
    "Verif.C119_linadmm",
    "Verif.C119_gpg",
    "Verif.C119_disjoint_dr",
    "Verif.C119_disjoint_admm",
    "Verif.C119_disjoint_no_solution"
   ],
   "note": "Finite dimension. No condition on the existence of solutions is assumed. The quantity that diverges is the returned y for DouglasRachford, the returned pair for PrimalDual, both outputs for HQS, x for the proximal point and gradient methods; for ADMM the outputs together with the accumulated difference of the reported pairs; for the others x together with auxiliary variables the function does not return. C119_disjoint_dr and C119_disjoint_admm give a problem without solution where x alone looks settled. Tolerance, acceleration and backtracking are not covered."
  },
  {
   "property": "C120",
   "status": "partial",
   "theorems": [
    "Verif.C120_anderson_real",
    "Verif.C120_anderson_weights_real",
    "Verif.C120_anderson_weights_sum",
    "Verif.C120_matrix",
    "Verif.C120_l1",
    "Verif.C120_l2",
    "Verif.C120_proximalgradient",
    "Verif.C120_admm",
    "Verif.C120_hqs",
    "Verif.C120_dr",
    "Verif.C120_linearized_admm",
    "Verif.C120_twist",
    "Verif.C120_admml2",
    "Verif.C120_l1_offset",
    "Verif.C120_primaldual_partial",
    "Verif.C120_adaptive_primaldual_partial",
    "Verif.C120_primaldual_refuted",
    "Verif.C120_anderson_weights_refuted",
    "Verif.C120_anderson_refuted",
    "Verif.C120_lasso"
   ],
   "note": "Proved: the complex matrix and its adjoint, L1 (value and prox) and the least squares term (all methods, exact inner solvers) are those of the real form; all the listed solvers step by step; FISTA rate for complex sparse recovery. Refuted: PrimalDual with the default L1 (its dual operator leaves imaginary parts alone), AndersonProximalGradient (unconjugated products: division by zero in the first iteration for every epsr). The backtracking refutation is C93_backtracking_refuted."
  },
  {
   "property": "C121",
   "status": "partial",
   "theorems": [
    "Verif.C121_value",
    "Verif.C121_prox_rate_partial",
    "Verif.C121_prox_converges_partial",
    "Verif.C121_phase",
    "Verif.C121_real",
    "Verif.C121_five_axes_refuted",
    "Verif.C121_short_axis_refuted"
   ],
   "note": "Proved: value, rate and convergence with rtol=0 for one to four axes of length at least two and weights whose largest is at least one, equivariance under rotations and reflections of the complex plane, and agreement with the real code on real images for every parameter (so the refutations of C88 apply to complex images too). Refuted: five or more axes, an axis of length one. Missing: as for C88, tolerances and weights all below one."
  },
  {
   "property": "C122",
   "status": "partial",
   "theorems": [
    "Verif.C122_lsqr_runs",
    "Verif.C122_lsqr_descends",
    "Verif.C122_sr3_descends",
    "Verif.C122_large_eps_refuted"
   ],
   "note": "C122_lsqr_runs describes every run: a sequence of points along which the residual falls strictly, which ends after at most dim E passes in an exact least-squares solution; the run returns the point at which its test was met first, or the point at the limit, or NaN if the limit lies beyond the end of the sequence. C122_sr3_descends lifts the descent to SR3. Refuted (C122_large_eps_refuted): for all operators, data and starting points, once eps is large and iter_lim_inner exceeds the number of unknowns the result is NaN, because the solver divides by the zero norms it meets at the solution instead of returning it."
  },
  {
   "property": "C123",
   "status": "partial",
   "theorems": [
    "Verif.C123_run_partial",
    "Verif.C123_stored_blocks",
    "Verif.C123_lowrank_gradient",
    "Verif.C123_steps",
    "Verif.C123_stationary",
    "Verif.C123_backtracking_descent",
    "Verif.C123_stored_refuted",
    "Verif.C123_acceleration_refuted",
    "Verif.C123_relaxed_backtracking_refuted"
   ],
   "note": "Model/BilinearPG: ProximalGradient with the stored blocks as state. C123_run_partial identifies the run with that on the joint function (all options except acceleration, and backtracking only with eta=1 or fixed step). Refuted: starting from blocks other than those stored (C123_stored_refuted: a run that does not move although the point is not stationary), acceleration (the gradient is taken at the extrapolated point in one block and with the last iterate in the other), relaxation combined with backtracking."
  },
  {
   "property": "C124",
   "status": "partial",
   "theorems": [
    "Verif.C124_wellformed",
    "Verif.C124_rejects",
    "Verif.C124_returns_iff",
    "Verif.C124_no_functions",
    "Verif.C124_extra_weights_refuted",
    "Verif.C124_tol_none_refuted"
   ],
   "note": "Model/PPXACall: lists of any length, broadcasting of numpy, tol None. C124_returns_iff and C124_wellformed give the exact set of accepted calls with at least two functions and identify them with the model used by C48 and C112. Refuted: with a single function extra weights are broadcast (two weights 1 move a minimiser), and tol=None raises TypeError in the first iteration of both solvers."
  },
  {
   "property": "C125",
   "status": "partial",
   "theorems": [
    "Verif.C125_fista_steps",
    "Verif.C125_vandenberghe_steps",
    "Verif.C125_vandenberghe_refuted",
    "Verif.C125_reading",
    "Verif.C125_proximalpoint",
    "Verif.C125_hqs_gfirst",
    "Verif.C125_gfirst_false_lost",
    "Verif.C125_dr_lost",
    "Verif.C125_proximalgradient_lost",
    "Verif.C125_proximalgradient_limit",
    "Verif.C125_relaxed",
    "Verif.C125_proximalgradient_refuted",
    "Verif.C125_kept",
    "Verif.C125_kept_refuted",
    "Verif.C125_admm_steps",
    "Verif.C125_hqs_steps",
    "Verif.C125_linearizedadmm_steps",
    "Verif.C125_admml2_steps",
    "Verif.C125_primaldual_steps",
    "Verif.C125_dr_y",
    "Verif.C125_consensus_steps"
   ],
   "note": "Reading callbacks: C125_reading (nine solvers). Writing: the edit is part of the iteration in ProximalPoint, HQS with gfirst=True, relaxed ProximalGradient and, written into y, DouglasRachfordSplitting (C125_dr_y); it is lost except for the last one in ADMM and HQS with gfirst=False, DouglasRachfordSplitting (x) and ProximalGradient without acceleration (C125_*_lost), so a callback that projects moves the limit of the unconstrained run onto the set (C125_proximalgradient_limit). ADMM, HQS, LinearizedADMM, ADMML2, PrimalDual and ConsensusADMM use the edit together with values computed before it: the recurrences are C125_*_steps. In accelerated ProximalGradient the edited point is only the old point of the next extrapolation (C125_fista_steps, C125_vandenberghe_steps), so an edit pushes the run the other way (C125_vandenberghe_refuted). Refuted: C125_proximalgradient_refuted. Keeping: C125_kept, refuted for L2(q=...) (C125_kept_refuted)."
  },
  {
   "property": "C126",
   "status": "partial",
   "theorems": [
    "Verif.C126_indicator_writes",
    "Verif.C126_indicator_assigned",
    "Verif.C126_radius_follows",
    "Verif.C126_ball_refuted",
    "Verif.C126_halfspace_refuted",
    "Verif.C126_halfspace_assigned",
    "Verif.C126_l1_partial",
    "Verif.C126_l1_dual_refuted",
    "Verif.C126_l1cols_refuted",
    "Verif.C126_huber_refuted",
    "Verif.C126_l2_call",
    "Verif.C126_l2_prox_partial",
    "Verif.C126_l2_stale",
    "Verif.C126_l2_refuted",
    "Verif.C126_l2_late_data_refuted",
    "Verif.C126_l2_result_refuted",
    "Verif.C126_quadratic_grad_refuted"
   ],
   "note": "Partial because the code keeps derived quantities: C126_*_refuted give the exact cases. C126_l2_stale says what a stale L2 computes: the prox of the present function with data (sigma0/sigma) b0. The parameters of the remaining operators (nonconvex penalties, TV, Nuclear and others read their attributes at each call) are not listed; L2 with an array returned by prox written into is covered for exact inner solvers and refuted for a solver that stops at its starting point."
  },
  {
   "property": "C127",
   "status": "partial",
   "theorems": [
    "Verif.C127_admm_partial",
    "Verif.C127_hqs_partial",
    "Verif.C127_dr_partial",
    "Verif.C127_ppxa_partial",
    "Verif.C127_consensus_partial",
    "Verif.C127_hqs_writing",
    "Verif.C127_dr_writing",
    "Verif.C127_ppxa_writing",
    "Verif.C127_ppxa_writing_refuted",
    "Verif.C127_admm_schedule",
    "Verif.C127_hqs_schedule",
    "Verif.C127_dr_schedule",
    "Verif.C127_consensus_schedule",
    "Verif.C127_ppxa_schedule",
    "Verif.C127_admm_refuted"
   ],
   "note": "Proved for objects whose answers do not depend on their attributes, for every repetition pattern, also when prox writes into its argument (C127_hqs_writing, C127_dr_writing, C127_ppxa_writing); with one L2 object that writes into its argument PPXA is unbounded (C127_ppxa_writing_refuted). The exact schedules are proved for ADMM and PPXA when the parameter is a function of the counter (C127_admm_schedule, C127_ppxa_schedule), and C127_admm_refuted shows that the result differs. An array kept by an object is not modified under another name in the model."
  },
  {
   "property": "C128",
   "status": "partial",
   "theorems": [
    "Verif.C128_l2_complete",
    "Verif.C128_l2_partial",
    "Verif.C128_l2_rerun_partial",
    "Verif.C128_l2_atomic_partial",
    "Verif.C128_l2_stale",
    "Verif.C128_l2_first_refuted",
    "Verif.C128_l2_refuted",
    "Verif.C128_nonlinear",
    "Verif.C128_counted",
    "Verif.C128_lowrank_partial",
    "Verif.C128_lowrank_refuted",
    "Verif.C128_lowrank_value_refuted"
   ],
   "note": "Partial because the code violates the property. Proved: L2 returns the proximal point (to the accuracy of the inner solver) after every history without a stop between the assignments of tausigma and cl in a call with the same step; exact atomicity for L2 without a stored factorization and a fixed number of inner iterations, for Nonlinear and for the classes with a counter; a later run of ADMM. Refuted: L2 with 'factorize' (wrong point, exact solvers; AttributeError on a fresh object), LowRankFactorizedMatrix called with a wrong size."
  },
  {
   "property": "C129",
   "status": "partial",
   "theorems": [
    "Verif.C129_call",
    "Verif.C129_gradx",
    "Verif.C129_grady",
    "Verif.C129_lipschitz",
    "Verif.C129_lipschitz_op",
    "Verif.C129_exact",
    "Verif.C129_gradtest",
    "Verif.C129_gradtest_noflag",
    "Verif.C129_gradtest_real_refuted",
    "Verif.C129_gradtest_state_refuted",
    "Verif.C129_fixed",
    "Verif.C129_descent_partial",
    "Verif.C129_backtracking_real",
    "Verif.C129_backtracking_partial",
    "Verif.C129_real_partial",
    "Verif.C129_backtracking_refuted"
   ],
   "note": "Proved: value, gradients, Lipschitz constants, the exact acceptance condition of the gradient test for both parts, equality of PALM and iPALM with given factors with the algorithms of C54/C55, and descent of PALM; on real data held in complex arrays PALM and iPALM, backtracking included, are the real algorithms (C129_real_partial). Refuted: the backtracking of PALM uses np.dot(g, x - y) without conjugation: on 1/2|xy - 3|^2 with y held at 3 every iteration multiplies the objective by 49/4 (C129_backtracking_refuted); what is left is that the criterion is the right one for real gradients and accepts every step the right one accepts (no operator), with an increase of at most 3/2 tau ||grad||^2. Refuted: complexflag does not make real blocks complex, so imaginary draws then pass vacuously; the test of the second block leaves the perturbed block in the object."
  },
  {
   "property": "C130",
   "status": "partial",
   "theorems": [
    "Verif.C130_prox",
    "Verif.C130_spectral_function_exists",
    "Verif.C130_call_real_partial",
    "Verif.C130_call_refuted",
    "Verif.C130_weighted_norm_exists",
    "Verif.C130_weighted_ordered_partial",
    "Verif.C130_weighted_nondescending_partial",
    "Verif.C130_weighted_order_refuted",
    "Verif.C130_weighted_short",
    "Verif.C130_weighted_call_real_partial"
   ],
   "note": "Exactness of prox is proved for both operators (von Neumann's trace inequality for complex matrices is proved here). Partial because the value is wrong off the real matrices (C130_call_refuted) and a weight array with a descent is not handled exactly (C130_weighted_order_refuted)."
  },
  {
   "property": "C131",
   "status": "proved",
   "theorems": [
    "Verif.C131_solvable_iff",
    "Verif.C131_affine_prox",
    "Verif.C131_affine_residual",
    "Verif.C131_affine_call",
    "Verif.C131_orthogonal_semi",
    "Verif.C131_orthogonal_full",
    "Verif.C131_orthogonal_call",
    "Verif.C131_orthogonal_twist"
   ],
   "note": "The operator is pylops.MatrixMult of a complex matrix; conjugate gradients is a parameter."
  },
  {
   "property": "C132",
   "status": "proved",
   "theorems": [
    "Verif.C132_exact",
    "Verif.C132_constraint",
    "Verif.C132_error",
    "Verif.C132_l2_l1",
    "Verif.C132_l2_box",
    "Verif.C132_l2_box_forever",
    "Verif.C132_l2_l1_solution",
    "Verif.C132_l2_l1_forever",
    "Verif.C132_error_forever",
    "Verif.C132_stalls"
   ],
   "note": "Scalar epsg, a given tau (no backtracking), eta=1, no tolerance; the error bound is for acceleration=None. The run is modelled with a rounding after each operation; no overflow and no underflow."
  },
  {
   "property": "C133",
   "status": "proved",
   "theorems": [
    "Verif.C133_exact",
    "Verif.C133_constraint",
    "Verif.C133_error",
    "Verif.C133_box_l1",
    "Verif.C133_l2_l1",
    "Verif.C133_stalls"
   ],
   "note": "The run is modelled with a rounding after each operation; no overflow and no underflow. The computed prox of each operator is a parameter with a stated accuracy, met by L1, L2 with data and Box."
  }
 ]
}