{
 "C07": "The clause 'f.H evaluates the conjugate' is false of the code (f.H(x) returns f(x)): C07_adjoint_call_refuted. The other clauses are proved.",
 "C09": "'every Python number' is false: int multipliers raise NotImplementedError (C09_int_multiplier_refuted). The rest of the dispatch table is proved.",
 "C14": "False at rho=1 (NaN when a column is thresholded to zero): C14_l21_plus_l1_refuted. Proved for 0<=rho<1.",
 "C16": "False in the band alpha<|x_i|<alpha+tau: C16_huber_prox_refuted. Proved outside the band.",
 "C27": "Every non-zero point strictly inside the ball is moved onto its boundary (C27_l1ball_interior_refuted); proved for points on or outside the ball.",
 "C28": "radius=0 leaves the input unchanged because a[:-0] is empty (C28_l0ball_radius_zero_refuted); proved for radius>=1 and any tie-breaking.",
 "C61": "The dims variant only tests the upper side of the sum and call=False rejects everything (C61_simplex_rows_refuted); proved exactly for single vectors, and what dims accepts is characterised.",
 "C66": "Columns are ranked by L1 norm while the projection needs the Euclidean norm (C66_l10ball_refuted); proved when both orders agree.",
 "C29": "The threshold is tau*sigma compared with |x| instead of sqrt(2 tau sigma) compared with |x| : C29_l0_prox_refuted shows a wrong answer for every tau*sigma != 2; proved where both thresholds agree and for the value.",
 "C32": "False for tau>a-1 (C32 refuted theorem); proved for tau<=a-1.",
 "C33": "False for every tau>1 (refuted theorem); proved for tau<=1.",
 "C34": "See the refuted theorem for the parameter range where the returned value is not a minimiser; proved on the complement stated in the partial theorem.",
 "C68": "prox solves the stationarity equation of half the penalty and moves the origin for large delta; value ignores sigma. Refuted in general, the equation it does solve is proved.",
 "C20": "Proved for symmetric positive semidefinite Op and for the linear case (Op=None); for a non-symmetric Op both the gradient and prox differ from those of the evaluated function (refuted theorems). Several calls on one object: C20_quadratic_calls (the result of a call does not depend on the calls before it with warm=False, an explicit Op or no Op), C20_quadratic_warm_calls (the starting vector of the inner solver otherwise).",
 "C30": "Proved for nn lists and for disjoint exhaustive restr lists; two inputs the constructor accepts break it: fewer restr index sets than operators, and overlapping sets (refuted theorems). The hasgrad flag is True as soon as one block has a gradient (refuted).",
 "C36": "L2.prox overwrites the caller's array when q is given and there is no data, or with solver='cgls' and a non-explicit operator (C36_l2_input_refuted); in all other configurations it is unchanged. Intersection.prox works on a view of the array it is given and overwrites it as well (C36_intersection_input_refuted).",
 "C71": "Inherits the L1 ball defect: matrices strictly inside the ball are moved (refuted theorem); proved on and outside the ball.",
 "C39": "Refuted for weights given as a float array not summing to one: the array is normalised in place and the steps of the next call change. Proved for lists, arrays summing to one and the serial routine, and for all calls after the first.",
 "C74": "Refuted with use_original_tau (the limit is the prox of the weighted average) and for weights that do not sum to one. With weights summing to one and default steps the stationary point is proved to be the prox of the sum; convergence is in C38.",
 "C47": "Stationarity is proved for both orders, convergence for gfirst=False. Refuted for gfirst=True: the dual update uses the previous A x, and an explicit family cycles with period six.",
 "C48": "Convergence and stationarity are proved for one common starting point (or a start whose weighted mean is the array start). Refuted for a list of different starting points, where the limit minimises a tilted objective; the tilted statements are proved for every start.",
 "C73": "Refuted when z is given (non-square operators fail, the residual of a square one is wrong) and for the stopping rule, which accepts one small residual. Proved for the residuals without z.",
 "C54": "Descent and stationarity are proved for given gamma (>= 1 in general, >= 1/2 for convex f, g) once H stores the current y. Refuted: the first iteration uses the y stored in H instead of y0, gamma < 1/2 makes the objective grow, and backtracking on y uses the operator of x (the operator of y has no effect). Backtracking descent is proved when one operator is right for both blocks.",
 "C55": "Refuted for gammaf given and gammag=None: UnboundLocalError on every problem. All other combinations are proved to run, with explicit steps for given gammas and equality with PALM without inertia. With backtracking on y its inertia and operator are ignored (refuted).",
 "C59": "Lengths, alignment and exact contents are proved. Refuted for the first nhistory-1 iterations: the starting fixed-point value is put in the residual list and the starting residual in the other list.",
 "C75": "ProximalPoint: truncation proved; ZeroDivisionError when an iterate has value 0.0 and tol is set (refuted), returns otherwise (partial). ProximalGradient: proved. AndersonProximalGradient: proved without safeguard; with safeguard the tolerance test overwrites the value the safeguard compares with (refuted).",
 "C76": "ProximalPoint and ProximalGradient proved. AndersonProximalGradient: proved without safeguard or with a tolerance; with safeguard and tol=None show=True changes the iterates (refuted). The loggers of the other solvers assign to no variable the solver reads.",
 "C57": "All solvers of primal.py, primaldual.py, palm.py, bregman.py that take a callback. A run is compared with shorter runs of the same solver.",
 "C01": "Every modelled class and every operator expression of any depth. A tau passed by keyword raises IndexError (C01_keyword); scaling by a non-positive number makes the inner guard reject every step (C05_scaling_nonpos). The array form is proved about the guard itself.",
 "C35": "Proved for L0, L0Ball, L10Ball, RelaxedMumfordShah, TV (niter) and L1 (with and without g): the parameter is the one at the number of executions of prox so far. Refuted: a rejected call advances the counter, the counter starts at 1 although documented as the number of earlier calls, and L1.proxdual keeps sigma(0).",
 "C77": "Proved for adaptive=False with the inner lsqr solve exact. Nothing of this holds for the default adaptive=True, see C78.",
 "C78": "Proved for adaptive=False with an exact inner solve. Refuted for adaptive=True (the default): the inner loop divides by zero as soon as it has converged, so zero data with any operators, and any data with identity operators, give NaN (in exact arithmetic).",
 "C79": "Refuted literally: with two rows an infeasible input gives an infeasible output for every number of iterations, because of the 1e-10 in the denominator. Proved instead: the iterates converge to the exact projection onto a set with distances between sigma and sigma + 1e-10, with an explicit bound on the distance to the documented projection; a positive tolerance is always met; feasible points are fixed; column sums are conserved.",
 "C80": "Proved without acceleration and without backtracking: the code runs the documented recursion (C80_relaxed_documented_partial) and converges (C80_relaxed_converges, tau*L<2). Refuted otherwise: for eta != 1 the code relaxes from x instead of y, so the acceleration argument has no effect on x at all (C80_relaxed_ignores_acceleration, C80_relaxed_momentum_refuted), and with backtracking the relaxation is applied to a second, full step (C80_relaxed_backtracking_refuted).",
 "C81": "C81_pnp_needs_firm shows that a merely non-expansive denoiser is not enough.",
 "C82": "Proved: completeness when L*delta/2 <= atol, soundness up to atol+L*delta/2, the raise rule, the exact pass condition for LowRankFactorizedMatrix. Refuted: the default tolerances reject the right gradient of half the squared norm at every draw; with a real array half of the draws perturb nothing and pass for any real gradient; negative delta divides by abs(delta); x is perturbed in place; the second-block test leaves the perturbed block in the operator. Random draws are parameters (all draws are quantified over).",
 "C83": "Probabilities and classes proved for every number of axes. Convergence proved for one and two axes (the fixed mu = 1/8 is then within the bound of PrimalDual). Refuted beyond: with three or more axes of length four or more the steps break the documented condition tau*mu*lambda_max < 1, and with eight or more axes there are runs that flip every pixel at every iteration for ever. The simplex operator is a parameter with an exact projection (kwargs_simplex chooses its engine).",
 "C84": "Proved for 0<tau<1 and r0>=1 (all lengths, all vectors, any tie-breaking): unique minimiser of the biconjugate-defined envelope; value exact for r0>=2 or at most r0 non-zeros. False: tau>=1 (hard thresholding with a fixed threshold; a vector with at most r0 non-zeros, which is its own unique prox, loses its small entries), r0<=1 in __call__ (ValueError) and r0=0 in prox (UnboundLocalError). For tau>=1 the positive cases are proved.",
 "C85": "Proved for every shape with at least three singular values and r0 <= n, and in the remaining cases n=2, n=1 except where refuted. False: IndexError for n=1,r0=1 (always) and n=2,r0=1 when (1+1/tau)s1<s0; wrong result for r0=n+1; __call__ adds the Frobenius norm unsquared, so its value differs from the documented one unless the norm is 0 or 1.",
 "C86": "Proved for epsr > 0 and a history that is not all zero (np.linalg.pinv given by the Penrose equations); there the value of epsr is shown to have no influence on the result. Refuted: all-zero history gives NaN, so a run started at a minimiser returns NaN from iteration nhistory on (C86_minimiser_refuted); epsr = 0 does not give the minimising coefficients.",
 "C87": "Proved when a tolerance is given (and then descent for g = 0 and tau <= 1/L). Refuted for tol=None (the value of a rejected point is kept as the reference, so f can increase) and for the objective f + g (the safeguard looks at f only).",
 "C88": "Proved: value for all shapes; with rtol=0, one to four axes of length >= 2, sigma > 0 and largest weight >= 1, distance to the proximal point at most 12 sigma tau w sqrt(axes*pixels)/niter and convergence; rtol only truncates the run. Refuted: dims=None (always ValueError), five or more axes (UnboundLocalError), an axis of length one (IndexError), sigma=0 (ZeroDivisionError or NaN), any rtol > 0 (a signal for which all niter give the same point away from the proximal point); nonzero weights with square at most 1/8 (a two-pixel signal for which every niter >= 1 gives a point at least sigma*tau/2 away from the proximal point). Not settled: weights between 1/sqrt(8) and 1.",
 "C89": "Proved: value and gradient of the linear misfit when nfft covers the convolution and the data, of the periodic misfit when it covers signal and kernel; prox exact for the periodic misfit if nfft equals the number of samples, and otherwise the restriction of the proximal point of the problem on nfft samples; real inputs give real results. Refuted: signals longer than nfft (grad raises, prox drops samples), short nfft (the value vanishes where the misfit does not), and prox for every signal shorter than nfft (C89_prox_refuted). Missing: nothing else is true of prox for nfft > len(x).",
 "C90": "optimize is a parameter that may read the whole object; gradient descent (tutorial and tests) is modelled as an instance, with its linear rate. Real arrays. The residual bound is proved for convex functions and, with tau*L<1, for any function with Lipschitz gradient.",
 "C91": "Proved: prox is a global minimiser for every matrix and step if the (non-negative) weights are non-descending, and for other weights whenever the shrunk singular values are still in descending order; the value is exact with one weight per column; a single weight is the scalar case. Refuted: if any weight exceeds the next one (in particular the non-ascending weights for which the docstring notes convexity) there are matrices of every shape for which prox does not minimise; with one weight per singular value the value of a matrix with more columns than rows raises ValueError; with a single column all weights are summed. np.linalg.svd and eigvalsh are parameters (exact decompositions, documented order).",
 "C92": "Proved for axis 0, 1, -1, all shapes and inputs; compiled engines for radius <= 1e10; cuda = numba exactly for every schedule of the stores and ftol > 0. Refuted: axis=-2 projects rows instead of columns (square) or raises ValueError (not square); for every radius > 1e10 the compiled engines move a point of the simplex by at least radius-1e10, and hang when radius > 1e10*n; cuda with dims=None fails on every input; __call__ with dims accepts sums below the radius. The theorems above treat the ends of the bracket as unbounded integers; with dims the compiled code uses 64-bit integers, which makes no difference for entries between -2^62 and 2^62 (C92_int64, C92_int64_rows, C92_int64_cuda), and hangs on a row with an entry of 2^63 or more, or with all entries at or below -2^63 (C92_int64_upper_refuted, C92_int64_lower_refuted).",
 "C93": "Proved: prox and value of L1 and Huber, prox and gradient of L2 (for Re<q,x>), L21_plus_L1.prox (0 <= rho < 1), L1Ball (points outside, exact bisection) and L0Ball. Violated and characterised exactly: L1.proxdual clips with complex np.minimum/np.maximum, which order lexicographically, so it is right iff each entry meets the stated condition; L21 squares without modulus, so value and prox are right iff real (value) or as stated; L2 and Quadratic use np.dot without conjugate; Nuclear uses X^T X; Log1 gives NaN; the line search of ProximalGradient accepts diverging steps for imaginary arrays. Euclidean, EuclideanBall, HuberCircular, L2 without q and every algorithm theorem stated for a general real inner product space already cover complex arrays. Penalties on moduli (SCAD, Log, Geman, QuadraticEnvelopeCard, L0, RelaxedMumfordShah, L10Ball) are right under the conditions of the real case with numpy 2, where np.sign(z) = z/|z|, and wrong for all parameters with numpy 1 where they use np.sign. ETP compares complex squares and returns 0 for imaginary entries; SCAD's value is right iff the entries in the quadratic part are real; Box is the projection onto no set and not Lipschitz; HalfSpace with a real normal is right iff w.x is real or x is returned, and gives NaN for normals with w.w = 0. With an exact SVD, Nuclear.prox is the proximal map of the complex nuclear norm and NuclearBall.prox the projection for matrices on or outside the ball up to the bisection tolerance; inside the ball it moves the matrix. Hankel raises TypeError on every complex matrix because np.bincount rejects complex weights. TV on complex images is C121; AffineSet and Orthogonal are covered through the general inner product space.",
 "C94": "Finite dimension; existence of a saddle point, or of a minimiser under Slater's condition. With z the operator has to be square, since otherwise the call fails (C73). The wrong start Ax = 0 and the wrong residual with z do not affect convergence.",
 "C95": "C95_hqs_converges: with a constant step (x, z) converge to a minimiser of the penalised objective f(x)+g(z)+|x-z|^2/(2 tau). C95_hqs_agree_iff: x and z converge to each other exactly when f and g have a common minimiser. C95_hqs_gap: the objective of lim x exceeds the minimum by at most tau K^2/2 for K-Lipschitz g. C95_hqs_continuation(_converges): with steps tending to 0 with divergent sum the best x approaches the minimum of f+g. C95_hqs_solves_refuted: two squared distances, any weights, b != 0 and any step: the limits differ and neither minimises f+g, contrary to the docstring (primal.py:915-925, 990-993).",
 "C96": "Refuted in three ways: C96_twist_cycle_refuted (documented parameters alpha = 13/9, beta = 25/9, box constraint: three-region cycle from a whole set of starting points, in any dimension), C96_twist_eigs_refuted (with eigs given the documented max(1, lambda_max) is not applied; divergence for every A, b, x0 != 0 with g the indicator of {0}), C96_twist_default_refuted (without eigs the eigenvalues of A are used instead of those of A^H A; divergence for A = sigma I, sigma > 2, g = 0; the values returned by A.eigs are an input of the model). Positive: C96_twist_converges (explicit region of alpha, beta in which TwIST converges for every convex g and every A with ||A||^2 <= L) and C96_twist_linear_rate (g = 0 and eigs of A^H A: error at most C (n+1) rho^n with the documented rho). C96_one_parameter_refuted, C96_one_parameter_ignored: if only one of alpha and beta is given its value is ignored; C96_both_parameters, C96_eigs_clamped: the use of eigs.",
 "C97": "PPXA and ConsensusADMM always stop (hypotheses of their convergence theorems, any norm-bounded max). ProximalPoint and ProximalGradient stop within an explicit number of iterations if the minimum is positive; the refuted theorems show runs that never stop (quadratics with minimum zero) because the test is on the relative change. AdaptivePrimalDual is C94_apd_terminates.",
 "C98": "Stateful, in-place operators and solvers are modelled in Model/Mutable. Proved for ProximalPoint, ProximalGradient (with backtracking) and ADMM. The refuted theorems use L2(q=...) without Op and b, whose prox subtracts tau*alpha*q from its argument in place: HQS returns a wrong z and modifies the caller's x0, DouglasRachfordSplitting converges to a point that is not a minimiser, PPXA has unbounded iterates on a strongly convex sum. Model/MutCalculus adds the operator calculus and pyproximal.utils.moreau on such objects: f.precomposition(a, b), f + v and f.H protect the caller's array (so wrapping operators as f.precomposition(1.0, 0.0) is a way around the refuted cases), c * f does not, and utils.moreau rejects L2(q=...) although its prox and proxdual satisfy the identity (C98_moreau_refuted). Model/Aliasing adds the two solvers and the one operator that add in place to what a linear operator returned (ATy += z, y += self.b), for an identity that returns its argument: the run of PrimalDual is exactly that of the problem with g(x + z/mu) (C98_primaldual_identity_shifted), it converges to -(1+1/mu)z instead of -z on <z,x> + ||x||^2/2, and the solution is not a fixed point of AdaptivePrimalDual.",
 "C99": "The refuted theorems: with a callable sigma the counter goes on in a second run, so it uses other parameters and returns another result; with backtracking the counter advances at every trial, so the parameter does not follow the iterations.",
 "C100": "Simulations between the modelled loops. No convexity is needed, except that PrimalDual needs proxdual to satisfy the Moreau identity.",
 "C101": "ProximalGradient without acceleration and backtracking. The factor for DouglasRachfordSplitting is below 1 for 0<eta<2/(1+rho).",
 "C102": "On the model of operators with attributes (Model/Mutable). Errors are absolute: the bound d_k holds for every argument of call k.",
 "C103": "Steps and multipliers positive. For the tolerance of PPXA and ConsensusADMM, an absolute one, the change of variables multiplies tol by |a|. PrimalDual is covered for scaling when g has no proxdual of its own.",
 "C104": "True for operators computed by arithmetic expressions, for L0, L0Ball and L10Ball, and for ProximalPoint, ADMM, DouglasRachfordSplitting and dykstra_two with such operators. False for Huber, SCAD, Log, Log1, ETP, Geman, QuadraticEnvelopeCard, Simplex with dims and VStack with restrictions: every entry of the result loses its fractional part (the Simplex result is not on the simplex). False for Intersection and for GenericIntersection with more than two sets, which converge to a point that is not the projection. L2 with q and no data, GeneralizedProximalGradient and SR3 raise TypeError on integers. No operator or solver returns an array of integers with an entry that is not a whole number (C104_storable_*).",
 "C105": "On finite arrays the computation with IEEE infinities and NaN is the real one, and where the real model reports a NaN an entry is not finite (the *_agrees theorems). L1, Box, L0, L2, Huber, SCAD, QuadraticEnvelopeCard, RelaxedMumfordShah and Log keep a NaN in its entry and do not let it touch others; Euclidean, HuberCircular, EuclideanBall and HalfSpace spread it over the array, L21 and L21_plus_L1 over its column; ProximalPoint, ADMM and DouglasRachfordSplitting carry it to every later iterate and no tolerance stops them. False for Log1, ETP and Geman, which replace NaN by zero (ADMM with ETP makes the iterates of the run from zeros instead), for the test of Simplex, which accepts arrays with NaN, for ETP and Geman on infinite entries (replaced by zero), and for EuclideanBall, the dual prox of Euclidean and L21_plus_L1, which make NaN out of an infinite entry.",
 "C106": "Averages are over the iterates 1..N as a callback sees them. C106_*_gap is the gap for every comparison point and multiplier, *_rate adds objective and constraint violation at a certified solution, *_objective gives the objective at the averaged x alone when g is Lipschitz. Steps: tau*mu*|A|^2 <= 1 (PrimalDual, theta = 1), mu/tau*|A|^2 <= 1 (LinearizedADMM), any positive tau (ADMM, ADMML2 with gfirst=False, HQS). ADMML2 with gfirst=True need not converge (C47). C106_lasso_admm and C106_lasso_pd instantiate the theorems with L2 and L1.",
 "C107": "C107_tradeoff/_bound/_small_steps/_large_steps need only that prox is exact, C107_continuity and C107_limit convexity. C107_classes and C107_nuclear instantiate it; C107_huber, _scad, _qec, _l0 and _relaxedms prove it for operators whose prox is not the proximal map of the function for some steps. C107_weight, _path and _admm are the versions for a weight. C107_log1_refuted: at 0 Log1 with a step below delta^2/(2 sigma) returns a nonzero entry and with a larger step 0, for all sigma, delta > 0.",
 "C108": "SameOp says that call, prox, proxdual and grad of two objects agree through the isometry; C108_calculus closes it under sums, scalings, shifts, chains and adjoints, and one theorem per solver transports whole runs, errors included. C108_entrywise, _l1 (sigma >= 0), _relaxedms, _groups, _rotations, _box, _simplex, _l1ball, _nuclear and _convex provide the operators. Refuted: C108_log1_sign_refuted, C108_l0ball_ties_refuted (entries of the same size are told apart by their position; C108_l0ball_partial is the case without ties) and C108_tv_mirror_refuted (forward differences: a corner pixel counts sqrt 2 in one corner and 2 in the opposite one). C108_log1_partial: Log1 under reorderings.",
 "C109": "PartOf says that whatever f returns on x, f' returns the part of it on the part of x. C109_vstack_nn and _vstack_restr establish it for the blocks of VStack from the list model of its slicing and scattering, C109_entrywise, _l1_box and _columns for the separable operators, C109_calculus for sums, scalings, shifts, chains and adjoints; one theorem per solver. Refuted: C109_backtracking_refuted (default ProximalGradient, every non-zero start and every niterback >= 2) and C109_tolerance_refuted (ProximalPoint). The _partial theorems are the cases without backtracking or tolerance; TwIST needs alpha and beta given and no monotone test. AdaptivePrimalDual and Anderson acceleration take their parameters from whole-array norms and are not claimed.",
 "C110": "Solvers (Props/Feasible): Lands f C says that prox returns only points of C; a postcondition carried through the loops gives one theorem per solver. Refuted: over-relaxed ProximalGradient leaves the interval it projects on after every number of iterations (C110_relaxation_refuted), PPXA and ConsensusADMM return an average (C110_average_refuted; _partial: convex sets all operators land in), accelerated GeneralizedProximalGradient, TwIST, PALM with a projection of the other block. Operators (Props/Feasible2): OwnTest for Box, HalfSpace, EuclideanBall, L0Ball and L10Ball with radius >= 1; Hankel and AffineSet up to the tolerance in their tests; Simplex and L1Ball pass their own test iff the number of entries times the tolerance of the search is below that of the test - with the defaults this fails from ten entries on for L1Ball and from two on for Simplex (C110_l1ball_refuted, C110_simplex_refuted).",
 "C111": "Equations between the long run and the two short runs in the exception monad, from a simulation of the second run by the rest of the first. With tolerances: the two calls together make the iterations of one run without a tolerance (C111_proximal_point_tol, C111_proximal_gradient_tol), but the previous value is forgotten, so that a stopped run which is continued makes at least two more iterations (C111_tolerance_refuted). Not covered: backtracking (the reduced step is forgotten). Refuted for the solvers named in the statement by closed forms of the first iterations for every start other than 0.",
 "C112": "An equivalence per solver, from a calculus for the exception monad (which parts of a sequence of calls return) and an induction over the loop. C112_proximal_point_tol_refuted: with a tolerance of at most 1 and an operator whose value is the float 0, ProximalPoint raises ZeroDivisionError in its second iteration. AdaptivePrimalDual: C112_adaptive, an equivalence for alpha < 1, 0 <= eta <= 1 and delta != 0 (the documented parameters, with or without z).",
 "C113": "Model/Rounded writes a rounding after each operation of the code; Rounding states what is assumed of it and C113's file shows that truncation and rounding to nearest with any number of binary digits satisfy it. C113_euclidean_ball_refuted: a ball whose centre is not the origin need not return its own points: if x - c rounds to -c with x not zero the projection of x is zero.",
 "C114": "Partial because of the two _refuted theorems (the stalls). C114_admm_error bounds the drift of ADMM while the computed run stays within norm R; C114_admm_error_selfbounded (both orders of the operators) replaces this by a bound B on the exact run and a number of iterations n with 10 n (4 delta + 44 u B) <= B. For Box and L1 nothing is supposed of either run: C114_admm_box_l1_exact_bounded bounds the exact run for every number of iterations, and C114_admm_box_l1_unconditional gives the drift for up to 1/(760 u) iterations. The proof compares the rounded step with the exact Douglas-Rachford step, which does not increase distances.",
 "C115": "Settles says what the operator returns for all inputs near a point; the operator theorems say which inputs settle what, the solver theorems that the inputs converge. C115_lasso puts both together. C115_degenerate_refuted: 0.5 (x-1)^2 + |x| (weight equal to the correlation), the iterates are (1-tau)^n x0; C115_relaxation_refuted: with eta < 1 they are (1-eta)^n x0 even in the strictly complementary case.",
 "C116": "The bounds compare the states returned by runs of n and n+1 iterations. C116_consensus_stopped_refuted and C116_ppxa_stopped_refuted: any two quadratics with different weights and centres have such a start; C116_proximalpoint_small_step_refuted: s/2 |x|^2 with 1-1/(1+tau s)^2 < tol.",
 "C117": "C117_l0_refuted: L0 is discontinuous in its input and in sigma, for every sigma, tau > 0. The bounds on runs take the one-step difference of the two operators as a hypothesis (ProxNear), which the theorems on prox discharge. Acceleration and backtracking are not covered.",
 "C118": "Equations between the models' operator objects, so every method agrees and every solver run agrees. C118_negative_factors shows why sigma > 0 is needed: with two negative factors the nested form raises and the merged one works. The rules for proxdual are for operators that inherit it.",
 "C119": "Finite dimension. No condition on the existence of solutions is assumed. The quantity that diverges is the returned y for DouglasRachford, the returned pair for PrimalDual, both outputs for HQS, x for the proximal point and gradient methods; for ADMM the outputs together with the accumulated difference of the reported pairs; for the others x together with auxiliary variables the function does not return. C119_disjoint_dr and C119_disjoint_admm give a problem without solution where x alone looks settled. Tolerance, acceleration and backtracking are not covered.",
 "C120": "Proved: the complex matrix and its adjoint, L1 (value and prox) and the least squares term (all methods, exact inner solvers) are those of the real form; all the listed solvers step by step; FISTA rate for complex sparse recovery. Refuted: PrimalDual with the default L1 (its dual operator leaves imaginary parts alone), AndersonProximalGradient (unconjugated products: division by zero in the first iteration for every epsr). The backtracking refutation is C93_backtracking_refuted.",
 "C121": "Proved: value, rate and convergence with rtol=0 for one to four axes of length at least two and weights whose largest is at least one, equivariance under rotations and reflections of the complex plane, and agreement with the real code on real images for every parameter (so the refutations of C88 apply to complex images too). Refuted: five or more axes, an axis of length one. Missing: as for C88, tolerances and weights all below one.",
 "C122": "C122_lsqr_runs describes every run: a sequence of points along which the residual falls strictly, which ends after at most dim E passes in an exact least-squares solution; the run returns the point at which its test was met first, or the point at the limit, or NaN if the limit lies beyond the end of the sequence. C122_sr3_descends lifts the descent to SR3. Refuted (C122_large_eps_refuted): for all operators, data and starting points, once eps is large and iter_lim_inner exceeds the number of unknowns the result is NaN, because the solver divides by the zero norms it meets at the solution instead of returning it.",
 "C123": "Model/BilinearPG: ProximalGradient with the stored blocks as state. C123_run_partial identifies the run with that on the joint function (all options except acceleration, and backtracking only with eta=1 or fixed step). Refuted: starting from blocks other than those stored (C123_stored_refuted: a run that does not move although the point is not stationary), acceleration (the gradient is taken at the extrapolated point in one block and with the last iterate in the other), relaxation combined with backtracking.",
 "C124": "Model/PPXACall: lists of any length, broadcasting of numpy, tol None. C124_returns_iff and C124_wellformed give the exact set of accepted calls with at least two functions and identify them with the model used by C48 and C112. Refuted: with a single function extra weights are broadcast (two weights 1 move a minimiser), and tol=None raises TypeError in the first iteration of both solvers.",
 "C53": "The weights are compared exactly, in double precision: C53_default_weights_refuted (the default weights of six and of seven functions are rejected with ValueError, those of one to five are accepted), C53_default_pairwise_refuted (eight to twelve accepted; thirteen, fourteen and fifteen rejected), C53_weights_order_refuted (0.1, 0.2, 0.7 are accepted and 0.7, 0.2, 0.1 are not), C53_weights64_checked, C53_weightsNp_checked. np.sum is modelled with numpy's pairwise order for every number of functions (C53_sum_order, C53_sum_short); the default weights of 2^k functions and all weights that are multiples of 2^-k are accepted (C53_default_power_of_two, C53_dyadic_weights). Everything else holds over the reals.",
 "C125": "Reading callbacks: C125_reading (nine solvers). Writing: the edit is part of the iteration in ProximalPoint, HQS with gfirst=True, relaxed ProximalGradient and, written into y, DouglasRachfordSplitting (C125_dr_y); it is lost except for the last one in ADMM and HQS with gfirst=False, DouglasRachfordSplitting (x) and ProximalGradient without acceleration (C125_*_lost), so a callback that projects moves the limit of the unconstrained run onto the set (C125_proximalgradient_limit). ADMM, HQS, LinearizedADMM, ADMML2, PrimalDual and ConsensusADMM use the edit together with values computed before it: the recurrences are C125_*_steps. In accelerated ProximalGradient the edited point is only the old point of the next extrapolation (C125_fista_steps, C125_vandenberghe_steps), so an edit pushes the run the other way (C125_vandenberghe_refuted). Refuted: C125_proximalgradient_refuted. Keeping: C125_kept, refuted for L2(q=...) (C125_kept_refuted).",
 "C126": "Partial because the code keeps derived quantities: C126_*_refuted give the exact cases. C126_l2_stale says what a stale L2 computes: the prox of the present function with data (sigma0/sigma) b0. The parameters of the remaining operators (nonconvex penalties, TV, Nuclear and others read their attributes at each call) are not listed; L2 with an array returned by prox written into is covered for exact inner solvers and refuted for a solver that stops at its starting point.",
 "C127": "Proved for objects whose answers do not depend on their attributes, for every repetition pattern, also when prox writes into its argument (C127_hqs_writing, C127_dr_writing, C127_ppxa_writing); with one L2 object that writes into its argument PPXA is unbounded (C127_ppxa_writing_refuted). The exact schedules are proved for ADMM and PPXA when the parameter is a function of the counter (C127_admm_schedule, C127_ppxa_schedule), and C127_admm_refuted shows that the result differs. An array kept by an object is not modified under another name in the model.",
 "C128": "Partial because the code violates the property. Proved: L2 returns the proximal point (to the accuracy of the inner solver) after every history without a stop between the assignments of tausigma and cl in a call with the same step; exact atomicity for L2 without a stored factorization and a fixed number of inner iterations, for Nonlinear and for the classes with a counter; a later run of ADMM. Refuted: L2 with 'factorize' (wrong point, exact solvers; AttributeError on a fresh object), LowRankFactorizedMatrix called with a wrong size.",
 "C129": "Proved: value, gradients, Lipschitz constants, the exact acceptance condition of the gradient test for both parts, equality of PALM and iPALM with given factors with the algorithms of C54/C55, and descent of PALM; on real data held in complex arrays PALM and iPALM, backtracking included, are the real algorithms (C129_real_partial). Refuted: the backtracking of PALM uses np.dot(g, x - y) without conjugation: on 1/2|xy - 3|^2 with y held at 3 every iteration multiplies the objective by 49/4 (C129_backtracking_refuted); what is left is that the criterion is the right one for real gradients and accepts every step the right one accepts (no operator), with an increase of at most 3/2 tau ||grad||^2. Refuted: complexflag does not make real blocks complex, so imaginary draws then pass vacuously; the test of the second block leaves the perturbed block in the object.",
 "C130": "Exactness of prox is proved for both operators (von Neumann's trace inequality for complex matrices is proved here). Partial because the value is wrong off the real matrices (C130_call_refuted) and a weight array with a descent is not handled exactly (C130_weighted_order_refuted).",
 "C131": "The operator is pylops.MatrixMult of a complex matrix; conjugate gradients is a parameter.",
 "C132": "Scalar epsg, a given tau (no backtracking), eta=1, no tolerance; the error bound is for acceleration=None. The run is modelled with a rounding after each operation; no overflow and no underflow.",
 "C133": "The run is modelled with a rounding after each operation; no overflow and no underflow. The computed prox of each operator is a parameter with a stated accuracy, met by L1, L2 with data and Box."
}