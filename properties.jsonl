{"id": "C01", "title": "Non-positive step sizes are always rejected", "statement": "Calling prox or proxdual of any operator with a step tau (passed by position) that is not positive (for an array tau: that has at least one non-positive entry) raises ValueError and returns nothing; with a positive tau this error is never raised by the guard, for derived operators (sum, positive scaling, precomposition with a non-zero factor, adjoint, chain, stacked) of any depth as well as for basic ones.", "quantifier": "every operator, every input vector, every real (or array) tau", "why_tests_cant": "tests try a few values of tau on a few operators; the guard has to hold for every sign of every entry and through every composition", "anchors": [{"file": "pyproximal/ProxOperator.py", "symbols": ["_check_tau", "ProxOperator.prox", "ProxOperator.proxdual"]}]}
{"id": "C02", "title": "Moreau decomposition between prox and proxdual", "statement": "For an operator that implements only one of prox/proxdual, the inherited other one satisfies x = prox(x,tau) + tau*proxdual(x/tau,1/tau) exactly, for every x and tau>0, and pyproximal.utils.moreau returns True on it; for operators that implement both (L1, Euclidean, L21) the two hand-written formulas satisfy the same identity.", "quantifier": "all x, all tau>0, all operators implementing one or both methods", "why_tests_cant": "a numerical check at random points cannot show an identity for all points and step sizes", "anchors": [{"file": "pyproximal/ProxOperator.py", "symbols": ["ProxOperator._prox_moreau", "ProxOperator._proxdual_moreau"]}, {"file": "pyproximal/utils/moreau.py", "symbols": ["moreau"]}, {"file": "pyproximal/proximal/L1.py", "symbols": ["L1.proxdual"]}, {"file": "pyproximal/proximal/Euclidean.py", "symbols": ["Euclidean.proxdual"]}, {"file": "pyproximal/proximal/L21.py", "symbols": ["L21.proxdual"]}]}
{"id": "C03", "title": "Inherited proxdual is the prox of the convex conjugate", "statement": "If prox computes the proximal map of a convex function f then the inherited proxdual computes the proximal map of its convex conjugate f*, for every point and step.", "quantifier": "all convex f (extended valued), all x, all tau>0", "why_tests_cant": "quantifies over all convex functions", "anchors": [{"file": "pyproximal/ProxOperator.py", "symbols": ["ProxOperator.proxdual", "ProxOperator.H"]}]}
{"id": "C04", "title": "Adding a linear term", "statement": "f + v (and f - v) has prox equal to the proximal map of x -> f(x) + <v,x> (resp. minus), evaluates to that sum when f evaluates to a float, and its gradient is grad f + v.", "quantifier": "all operators with correct prox, all v, x, tau>0", "why_tests_cant": "universally quantified over functions and vectors", "anchors": [{"file": "pyproximal/ProxOperator.py", "symbols": ["ProxOperator.affine_addition", "_SumOperator", "ProxOperator.__add__", "ProxOperator.__sub__"]}]}
{"id": "C05", "title": "Scaling a function", "statement": "sigma*f with float sigma>0 has prox equal to the proximal map of sigma*f; sigma<=0 makes prox raise ValueError.", "quantifier": "all operators with correct prox, all sigma, x, tau", "why_tests_cant": "universally quantified over functions and scalars", "anchors": [{"file": "pyproximal/ProxOperator.py", "symbols": ["ProxOperator.postcomposition", "_PostcompositionOperator"]}]}
{"id": "C06", "title": "Precomposition with x -> a x + b", "statement": "f.precomposition(a,b) with a != 0 has prox equal to the proximal map of x -> f(a x + b); a = 0 makes prox raise ValueError.", "quantifier": "all operators with correct prox, all a, b, x, tau", "why_tests_cant": "universally quantified over functions and scalars", "anchors": [{"file": "pyproximal/ProxOperator.py", "symbols": ["ProxOperator.precomposition", "_PrecompositionOperator"]}]}
{"id": "C07", "title": "Adjoint operator", "statement": "f.H swaps prox and proxdual, f.H.H behaves as f, and f.H evaluates the convex conjugate of f.", "quantifier": "all operators, all x, tau", "why_tests_cant": "universally quantified over functions", "anchors": [{"file": "pyproximal/ProxOperator.py", "symbols": ["_AdjointOperator", "ProxOperator.H"]}]}
{"id": "C08", "title": "Default gradient is the gradient of the Moreau envelope", "statement": "The inherited grad(x) is the gradient of the Moreau envelope of f with parameter sigmame, and is (1/sigmame)-Lipschitz, for every convex f.", "quantifier": "all convex f, all x, all sigmame>0", "why_tests_cant": "differentiability and Lipschitz bounds range over all points", "anchors": [{"file": "pyproximal/ProxOperator.py", "symbols": ["ProxOperator.grad"]}]}
{"id": "C09", "title": "Operator overload dispatch", "statement": "f+v and f-v accept exactly arrays; sigma*f accepts every Python number as a scalar multiplier; everything else is rejected with NotImplementedError or treated as a chain; construction never succeeds with an operand of the wrong kind.", "quantifier": "all operand kinds", "why_tests_cant": "the decision table ranges over all operand kinds, and chains of overloads", "anchors": [{"file": "pyproximal/ProxOperator.py", "symbols": ["ProxOperator.__add__", "ProxOperator.__sub__", "ProxOperator.__rmul__", "ProxOperator.affine_addition", "ProxOperator.postcomposition", "ProxOperator.precomposition"]}]}
{"id": "C10", "title": "Prox of a convex function is single valued, firmly non-expansive and its fixed points are minimisers", "statement": "For an operator whose prox computes the proximal map of a convex function: the returned point is the only minimiser, prox is firmly non-expansive (hence 1-Lipschitz) in x, and prox(x,tau)=x exactly when x minimises f, for any tau>0.", "quantifier": "all convex f, all pairs of points, all tau>0", "why_tests_cant": "quantifies over pairs of points and all functions", "anchors": [{"file": "pyproximal/ProxOperator.py", "symbols": ["ProxOperator.prox"]}]}
{"id": "C11", "title": "L1: soft thresholding is the prox of sigma*||x-g||_1", "statement": "L1.prox returns the unique minimiser of sigma*||y-g||_1 + ||y-x||^2/(2 tau), for scalar or per-entry sigma>=0 and with or without offset g.", "quantifier": "all dimensions, x, g, sigma>=0, tau>0", "why_tests_cant": "minimality over all y", "anchors": [{"file": "pyproximal/proximal/L1.py", "symbols": ["L1.prox", "_softthreshold"]}]}
{"id": "C12", "title": "Euclidean norm prox and dual prox", "statement": "Euclidean.prox returns the unique minimiser of sigma*||y|| + ||y-x||^2/(2 tau); proxdual is the projection onto the ball of radius sigma, for every x (including 0).", "quantifier": "all dimensions, x, sigma>0, tau>0", "why_tests_cant": "minimality over all y", "anchors": [{"file": "pyproximal/proximal/Euclidean.py", "symbols": ["Euclidean"]}]}
{"id": "C13", "title": "L21 prox", "statement": "L21.prox returns the unique minimiser of sigma*sum_j ||y_j|| + ||y-x||^2/(2 tau) where y_j are the columns of the reshaped input; zero columns are mapped to zero.", "quantifier": "all shapes, x, sigma>0, tau>0", "why_tests_cant": "minimality over all y", "anchors": [{"file": "pyproximal/proximal/L21.py", "symbols": ["L21"]}]}
{"id": "C14", "title": "L21_plus_L1 prox", "statement": "L21_plus_L1.prox returns the unique minimiser of rho*sigma*||y||_1 + (1-rho)*sigma*sum_j||y_j|| + ||y-x||^2/(2 tau) for 0<=rho<=1.", "quantifier": "all shapes, x, sigma, rho in [0,1], tau>0", "why_tests_cant": "minimality over all y", "anchors": [{"file": "pyproximal/proximal/L21_plus_L1.py", "symbols": ["L21_plus_L1"]}]}
{"id": "C15", "title": "HuberCircular prox", "statement": "HuberCircular.prox returns the unique minimiser of the circular Huber function plus ||y-x||^2/(2 tau).", "quantifier": "all dimensions, x, alpha>0, tau>0", "why_tests_cant": "minimality over all y", "anchors": [{"file": "pyproximal/proximal/Huber.py", "symbols": ["HuberCircular"]}]}
{"id": "C16", "title": "Huber prox", "statement": "Huber.prox returns the minimiser of the (separable) Huber function plus ||y-x||^2/(2 tau).", "quantifier": "all dimensions, x, alpha>0, tau>0", "why_tests_cant": "minimality over all y; the failing region is a thin band that random tests miss", "anchors": [{"file": "pyproximal/proximal/Huber.py", "symbols": ["Huber"]}]}
{"id": "C17", "title": "L2 prox in every configuration", "statement": "L2.prox returns the minimiser of sigma/2*||Op y - b||^2 + alpha*<q,y> + ||y-x||^2/(2 tau) in each of the configurations Op+b, b only, neither, with or without q; when the linear system is solved inexactly the returned point is within the residual of the solve of the exact minimiser.", "quantifier": "all linear operators, b, q, sigma>0, alpha, x, tau>0, any residual", "why_tests_cant": "minimality over all y and all operators", "anchors": [{"file": "pyproximal/proximal/L2.py", "symbols": ["L2.prox", "L2.__init__"]}]}
{"id": "C18", "title": "L2 gradient", "statement": "L2.grad is the gradient of the function evaluated by L2.__call__ at every point, for each configuration (including the linear term when qgrad is set).", "quantifier": "all operators, b, q, x", "why_tests_cant": "differentiability at all points", "anchors": [{"file": "pyproximal/proximal/L2.py", "symbols": ["L2.grad", "L2.__call__"]}]}
{"id": "C19", "title": "Cached factorization never goes stale", "statement": "With densesolver='factorize', after any history of prox calls with any sequence of steps, prox(x,tau) returns the same value as a freshly built L2 operator.", "quantifier": "all finite histories of prox calls", "why_tests_cant": "histories of calls are unbounded", "anchors": [{"file": "pyproximal/proximal/L2.py", "symbols": ["L2.prox"]}]}
{"id": "C20", "title": "Quadratic prox and gradient", "statement": "Quadratic.prox returns the minimiser of <y,Op y>/2+<b,y>+c + ||y-x||^2/(2 tau) and grad is the gradient of that function, for every square Op accepted by the constructor.", "quantifier": "all square operators, b, c, x, tau>0", "why_tests_cant": "minimality over all y and all operators", "anchors": [{"file": "pyproximal/proximal/Quadratic.py", "symbols": ["Quadratic"]}]}
{"id": "C21", "title": "Box projection", "statement": "Box.prox/BoxProj return the unique closest point of {lower<=y<=upper}, for scalar, array or infinite bounds; prox is idempotent, ignores tau, and Box(x) is True exactly on fixed points.", "quantifier": "all x, all bounds lower<=upper", "why_tests_cant": "closest among all feasible points", "anchors": [{"file": "pyproximal/projection/Box.py", "symbols": ["BoxProj"]}, {"file": "pyproximal/proximal/Box.py", "symbols": ["Box"]}]}
{"id": "C22", "title": "Half-space projection", "statement": "HalfSpace.prox returns the unique closest point of {y : <w,y> <= b} and the input itself when it is already feasible.", "quantifier": "all w != 0, b, x", "why_tests_cant": "closest among all feasible points", "anchors": [{"file": "pyproximal/projection/HalfSpace.py", "symbols": ["HalfSpaceProj"]}, {"file": "pyproximal/proximal/HalfSpace.py", "symbols": ["HalfSpace"]}]}
{"id": "C23", "title": "Euclidean ball projection", "statement": "EuclideanBall.prox returns the unique closest point of the ball with the given centre and radius>0.", "quantifier": "all centres, radii, x", "why_tests_cant": "closest among all feasible points", "anchors": [{"file": "pyproximal/projection/Euclidean.py", "symbols": ["EuclideanBallProj"]}, {"file": "pyproximal/proximal/Euclidean.py", "symbols": ["EuclideanBall"]}]}
{"id": "C24", "title": "Affine set projection", "statement": "AffineSet.prox returns the closest solution of Op y = b; with an inexact inner solve its distance to the set is controlled by the residual of the solve.", "quantifier": "all operators, b in the range, x", "why_tests_cant": "closest among all solutions", "anchors": [{"file": "pyproximal/projection/AffineSet.py", "symbols": ["AffineSetProj"]}]}
{"id": "C25", "title": "Hankel projection", "statement": "HankelProj returns the closest Hankel matrix (constant anti-diagonals) to any input matrix.", "quantifier": "all shapes and matrices", "why_tests_cant": "closest among all Hankel matrices, all shapes", "anchors": [{"file": "pyproximal/projection/Hankel.py", "symbols": ["HankelProj"]}]}
{"id": "C26", "title": "Hyperplane-box and simplex projection", "statement": "When the scalar root search returns a root mu, HyperPlaneBoxProj/SimplexProj return the unique closest point of {c.y = scalar, lower<=y<=upper}; when it returns an approximate root the point is in the box and within |mu-mu*|*||c|| of the projection. The bracketing loops end whenever the set is non-empty and both sides are attainable.", "quantifier": "all x, c, bounds, radius; any root finder", "why_tests_cant": "closest among all feasible points, for any accuracy of the root finder", "anchors": [{"file": "pyproximal/projection/Box.py", "symbols": ["HyperPlaneBoxProj"]}, {"file": "pyproximal/projection/Simplex.py", "symbols": ["SimplexProj"]}]}
{"id": "C27", "title": "L1 ball projection", "statement": "L1Ball.prox returns the closest point of {||y||_1 <= radius} for every input, in particular leaves interior points unchanged.", "quantifier": "all x, radius>0", "why_tests_cant": "closest among all feasible points", "anchors": [{"file": "pyproximal/projection/L1.py", "symbols": ["L1BallProj"]}, {"file": "pyproximal/proximal/L1.py", "symbols": ["L1Ball"]}]}
{"id": "C28", "title": "L0 ball projection", "statement": "L0Ball.prox returns a closest point with at most radius non-zeros, for every radius>=0 and any tie-breaking of the sort.", "quantifier": "all x, all radii, all sort orders", "why_tests_cant": "closest among all sparse vectors, under any tie order", "anchors": [{"file": "pyproximal/projection/L0.py", "symbols": ["L0BallProj"]}, {"file": "pyproximal/proximal/L0.py", "symbols": ["L0Ball"]}]}
{"id": "C29", "title": "L0 prox", "statement": "L0.prox returns a minimiser of sigma*||y||_0 + ||y-x||^2/(2 tau) and L0(x) evaluates that function.", "quantifier": "all x, sigma, tau>0", "why_tests_cant": "minimality over all y", "anchors": [{"file": "pyproximal/proximal/L0.py", "symbols": ["L0", "_hardthreshold"]}]}
{"id": "C30", "title": "VStack is separable", "statement": "VStack.prox of stacked operators is the proximal map of the sum of the block functions, keeps every element in its place, and its value/gradient are the sum/concatenation of those of the blocks, for any number and size of blocks; inconsistent sizes are rejected with ValueError; the stack announces a gradient exactly when all blocks have one.", "quantifier": "all numbers of blocks, all block sizes, all inputs", "why_tests_cant": "unbounded numbers and sizes of blocks", "anchors": [{"file": "pyproximal/proximal/VStack.py", "symbols": ["VStack"]}]}
{"id": "C31", "title": "Orthogonal composition", "statement": "Orthogonal.prox is the proximal map of y -> f(Q y + b) when Q Q^H = alpha I (partial) or Q is orthogonal (full).", "quantifier": "all f, Q, b, alpha>0, x, tau>0", "why_tests_cant": "minimality over all y and all f", "anchors": [{"file": "pyproximal/proximal/Orthogonal.py", "symbols": ["Orthogonal"]}]}
{"id": "C32", "title": "SCAD prox", "statement": "SCAD.prox returns a minimiser of the SCAD penalty plus ||y-x||^2/(2 tau) for every admissible sigma, a and every tau>0.", "quantifier": "all x, sigma>0, a>2, tau>0", "why_tests_cant": "minimality over all y of a non-convex function", "anchors": [{"file": "pyproximal/proximal/SCAD.py", "symbols": ["SCAD"]}]}
{"id": "C33", "title": "QuadraticEnvelopeCard prox", "statement": "QuadraticEnvelopeCard.prox returns a minimiser of the quadratic envelope of mu*||.||_0 plus ||y-x||^2/(2 tau) for tau<1 and tau>=1.", "quantifier": "all x, mu>=0, tau>0", "why_tests_cant": "minimality over all y of a non-convex function", "anchors": [{"file": "pyproximal/proximal/QuadraticEnvelope.py", "symbols": ["QuadraticEnvelopeCard"]}]}
{"id": "C34", "title": "Relaxed Mumford-Shah prox", "statement": "RelaxedMumfordShah.prox returns a minimiser of the function evaluated by __call__ plus ||y-x||^2/(2 tau).", "quantifier": "all x of every length, sigma, kappa, tau>0", "why_tests_cant": "minimality over all y of a non-convex function", "anchors": [{"file": "pyproximal/proximal/RelaxedMS.py", "symbols": ["RelaxedMumfordShah"]}]}
{"id": "C35", "title": "Iteration-dependent parameters follow the number of prox calls", "statement": "For operators whose sigma/radius is a function of an iteration counter, the k-th call of prox uses the parameter at k, for any interleaving of prox calls, and failed calls do not change later results.", "quantifier": "all finite histories of calls", "why_tests_cant": "histories are unbounded", "anchors": [{"file": "pyproximal/proximal/L0.py", "symbols": ["L0.prox"]}, {"file": "pyproximal/proximal/L1.py", "symbols": ["L1.prox", "_current_sigma"]}, {"file": "pyproximal/proximal/RelaxedMS.py", "symbols": ["RelaxedMumfordShah.prox"]}]}
{"id": "C36", "title": "prox does not modify its input", "statement": "After prox(x,tau) the caller's array x has the same contents as before.", "quantifier": "all operators, inputs", "why_tests_cant": "aliasing must be absent for every configuration", "anchors": [{"file": "pyproximal/proximal/L2.py", "symbols": ["L2.prox"]}, {"file": "pyproximal/projection/Intersection.py", "symbols": ["IntersectionProj"]}]}
{"id": "C37", "title": "Dykstra iterations: conserved quantity and correctness of what is returned", "statement": "Throughout Dykstra's two-operator loop and the cyclic and weighted parallel variants a conserved identity links the iterate and the corrections to the input; whenever the iteration is stationary, the returned point is exactly the proximal point of the sum (projection onto the intersection). For closed convex functions with a common point of finite value and a zero tolerance, the points computed converge to that proximal point as the number of iterations grows.", "quantifier": "all inputs, all operators, all numbers of iterations and operators", "why_tests_cant": "holds after every number of iterations for all operators", "anchors": [{"file": "pyproximal/proximal/_Dykstra.py", "symbols": ["dykstra_two", "parallel_dykstra_projection", "parallel_dykstra_prox"]}]}
{"id": "C38", "title": "Sum and GenericIntersection evaluate and dispatch correctly", "statement": "Sum.__call__ is False iff some indicator is violated, otherwise the sum of the numeric terms (True if there are none); prox uses the routine for one, two or more operators and rejects an empty list. With default options the points returned converge, as the number of iterations grows, to the proximal point of the sum (for GenericIntersection: to the projection onto the intersection), for any positive number of operators.", "quantifier": "all lists of operators and inputs", "why_tests_cant": "unbounded lists", "anchors": [{"file": "pyproximal/proximal/Sum.py", "symbols": ["Sum"]}, {"file": "pyproximal/proximal/_Dykstra.py", "symbols": ["_select_impl_by_arity"]}]}
{"id": "C39", "title": "Repeated Sum.prox calls give the same answer", "statement": "Calling Sum.prox twice with the same arguments gives the same result, and user-supplied weights are not modified.", "quantifier": "all weights, operators, inputs", "why_tests_cant": "needs every history and weight vector", "anchors": [{"file": "pyproximal/proximal/Sum.py", "symbols": ["Sum.prox"]}, {"file": "pyproximal/proximal/_Dykstra.py", "symbols": ["parallel_dykstra_prox"]}]}
{"id": "C40", "title": "ProximalPoint decreases the objective and converges", "statement": "For convex f with a minimiser, ProximalPoint's iterates never increase f, satisfy f(x_k)-min f <= ||x0-x*||^2/(2 tau k), never move away from any minimiser, and converge to a minimiser (finite dimension).", "quantifier": "all convex f, x0, tau>0, all iteration counts", "why_tests_cant": "asymptotic statement over all functions", "anchors": [{"file": "pyproximal/optimization/primal.py", "symbols": ["ProximalPoint"]}]}
{"id": "C41", "title": "ProximalGradient: descent and O(1/k)", "statement": "For f with L-Lipschitz gradient and convex g, ProximalGradient without acceleration and tau<=1/L decreases f+eps*g at every iteration and satisfies the O(1/k) bound for convex f; for convex f and g with a minimiser and any tau<2/L the iterates converge to a minimiser.", "quantifier": "all f,g,x0,tau, all iteration counts", "why_tests_cant": "asymptotic statement over all functions", "anchors": [{"file": "pyproximal/optimization/primal.py", "symbols": ["ProximalGradient"]}]}
{"id": "C42", "title": "Accelerated ProximalGradient: O(1/k^2)", "statement": "With acceleration 'fista' or 'vandenberghe' the iterates satisfy F(x_k)-F* <= 2||x0-x*||^2/(tau (k+1)^2) for tau<=1/L.", "quantifier": "all convex f,g,x0, all k", "why_tests_cant": "asymptotic statement over all functions", "anchors": [{"file": "pyproximal/optimization/primal.py", "symbols": ["ProximalGradient", "AcceleratedProximalGradient"]}]}
{"id": "C43", "title": "Backtracking", "statement": "The step returned by the backtracking search satisfies the sufficient-decrease condition whenever the search stops before its limit; it never exceeds the initial step, is initial*beta^j, and the search succeeds within its limit when that reaches 1/L.", "quantifier": "all f,g, initial steps, beta, limits", "why_tests_cant": "unbounded number of trials", "anchors": [{"file": "pyproximal/optimization/primal.py", "symbols": ["_backtracking"]}]}
{"id": "C44", "title": "DouglasRachfordSplitting converges", "statement": "For convex f,g and 0<eta<2 the iterates of DouglasRachfordSplitting are Fejer monotone, every fixed point gives a minimiser of f+g and (finite dimension) x converges to a minimiser whenever a fixed point exists, for either order. A fixed point exists as soon as f+g has a minimiser and Slater's condition holds (a point where both are finite, one of them in a neighbourhood).", "quantifier": "all convex f,g,x0,tau>0,eta in (0,2)", "why_tests_cant": "asymptotic statement over all functions", "anchors": [{"file": "pyproximal/optimization/primal.py", "symbols": ["DouglasRachfordSplitting"]}]}
{"id": "C45", "title": "ADMM converges", "statement": "For convex f,g ADMM's x and z converge to a common minimiser of f+g (finite dimension), for either order; stationarity of (x,z,u) is equivalent to optimality. The limit exists as soon as f+g has a minimiser and Slater's condition holds.", "quantifier": "all convex f,g,x0,tau>0", "why_tests_cant": "asymptotic statement over all functions", "anchors": [{"file": "pyproximal/optimization/primal.py", "symbols": ["ADMM"]}]}
{"id": "C46", "title": "LinearizedADMM", "statement": "For convex f,g and mu/tau*||A||^2<=1, stationary points of LinearizedADMM are minimisers of f(x)+g(Ax) and the iterates converge (finite dimension), with or without a user-supplied z0. A minimiser and Slater's condition (x finite for f with Ax inside the domain of g) are enough.", "quantifier": "all convex f,g, A, starting points", "why_tests_cant": "asymptotic statement over all functions", "anchors": [{"file": "pyproximal/optimization/primal.py", "symbols": ["LinearizedADMM"]}]}
{"id": "C47", "title": "ADMML2", "statement": "For every order of the two updates (gfirst True or False) ADMML2 converges to a minimiser of 1/2||Op x-b||^2+g(Ax).", "quantifier": "all Op, A, b, convex g", "why_tests_cant": "asymptotic statement, periodic orbits are invisible to short runs", "anchors": [{"file": "pyproximal/optimization/primal.py", "symbols": ["ADMML2"]}]}
{"id": "C48", "title": "PPXA", "statement": "PPXA's stationary points minimise sum_i f_i for every starting point (single vector or one per operator) and weights summing to one. The iterates converge when a minimiser and a Slater point exist.", "quantifier": "all lists of convex functions, weights, starts", "why_tests_cant": "quantifies over all lists and starts", "anchors": [{"file": "pyproximal/optimization/primal.py", "symbols": ["PPXA"]}]}
{"id": "C49", "title": "ConsensusADMM", "statement": "Throughout ConsensusADMM the dual variables sum to zero, and stationary points minimise sum_i f_i. The average converges to a minimiser when one exists together with a Slater point.", "quantifier": "all lists of convex functions, all iteration counts", "why_tests_cant": "unbounded lists and iterations", "anchors": [{"file": "pyproximal/optimization/primal.py", "symbols": ["ConsensusADMM"]}]}
{"id": "C50", "title": "PrimalDual", "statement": "For convex f,g, tau*mu*||A||^2<=1 and theta=1, stationary points of PrimalDual are saddle points of f(x)+<z,x>+g(Ax) (both orders), and the iterates are Fejer monotone in the Chambolle-Pock metric. The iterates converge when a minimiser and a Slater point exist.", "quantifier": "all convex f,g,A,z, all starting points and iteration counts", "why_tests_cant": "asymptotic statement over all functions", "anchors": [{"file": "pyproximal/optimization/primaldual.py", "symbols": ["PrimalDual"]}]}
{"id": "C51", "title": "AdaptivePrimalDual step sizes", "statement": "All through AdaptivePrimalDual the product tau*mu stays equal to its initial value, both steps stay positive and bounded, and the returned histories have equal lengths, one more than the number of iterations performed.", "quantifier": "all operators, histories and tolerances with 0<alpha<1, 0<eta<1", "why_tests_cant": "unbounded adaptive histories", "anchors": [{"file": "pyproximal/optimization/primaldual.py", "symbols": ["AdaptivePrimalDual"]}]}
{"id": "C52", "title": "HQS", "statement": "With a constant tau every HQS iteration does not increase f(x)+g(z)+||x-z||^2/(2 tau), in either order.", "quantifier": "all f,g (not only convex), all iteration counts", "why_tests_cant": "all histories, all functions", "anchors": [{"file": "pyproximal/optimization/primal.py", "symbols": ["HQS"]}]}
{"id": "C53", "title": "GeneralizedProximalGradient", "statement": "Rejects weights that do not match or do not sum to one and accepts all others, in particular the default weights 1/m for any number m of functions; stationary points minimise sum f_i + sum eps_i g_i; x is always the weighted sum of the auxiliary variables.", "quantifier": "all lists of convex functions and weights", "why_tests_cant": "unbounded lists and iterations", "anchors": [{"file": "pyproximal/optimization/primal.py", "symbols": ["GeneralizedProximalGradient"]}]}
{"id": "C54", "title": "PALM block descent", "statement": "Each PALM iteration (no backtracking) with step 1/(gamma*L) decreases f(x)+g(y)+H(x,y); with backtracking both blocks use their own proximal operator.", "quantifier": "all f,g,H,x0,y0", "why_tests_cant": "all histories and functions", "anchors": [{"file": "pyproximal/optimization/palm.py", "symbols": ["PALM", "_backtracking"]}]}
{"id": "C55", "title": "iPALM initialisation", "statement": "iPALM uses for each block the step size determined by that block's own gamma parameter and runs for every combination of gammaf/gammag (given or None).", "quantifier": "all parameter combinations", "why_tests_cant": "combination table plus all histories", "anchors": [{"file": "pyproximal/optimization/palm.py", "symbols": ["iPALM"]}]}
{"id": "C56", "title": "Initial guess handling", "statement": "_x0z0_init (used by HQS, ADMM, ADMML2, LinearizedADMM): raises ValueError iff both are missing or x0 is missing with an operator; otherwise returns the pair documented.", "quantifier": "all argument combinations", "why_tests_cant": "decision table over all inputs", "anchors": [{"file": "pyproximal/optimization/primal.py", "symbols": ["_x0z0_init"]}]}
{"id": "C57", "title": "Callbacks and early stopping", "statement": "Solvers call the callback exactly once per performed iteration, with the iterate of that iteration; they perform at most niter iterations and stop early only when the documented tolerance test holds.", "quantifier": "all niter, tolerances, operators", "why_tests_cant": "all histories", "anchors": [{"file": "pyproximal/optimization/primal.py", "symbols": ["ProximalPoint", "ProximalGradient", "PPXA", "ConsensusADMM"]}]}
{"id": "C58", "title": "Momentum parameter sequence", "statement": "The FISTA parameters t_k satisfy t_k>=(k+2)/2 and t_{k+1}^2-t_{k+1}=t_k^2, and the extrapolation weights lie in [0,1).", "quantifier": "all k", "why_tests_cant": "unbounded k", "anchors": [{"file": "pyproximal/optimization/primal.py", "symbols": ["ProximalGradient"]}]}
{"id": "C59", "title": "Anderson acceleration history", "statement": "In AndersonProximalGradient the residual history holds residuals and the fixed-point history holds fixed-point values, aligned pairwise and never longer than nhistory.", "quantifier": "all iterations and nhistory", "why_tests_cant": "all histories", "anchors": [{"file": "pyproximal/optimization/primal.py", "symbols": ["AndersonProximalGradient"]}]}
{"id": "C60", "title": "Nuclear norm prox", "statement": "Nuclear.prox returns the unique minimiser of sigma*||Y||_* + ||Y-X||_F^2/(2 tau), given an exact SVD.", "quantifier": "all shapes, matrices, sigma, tau>0", "why_tests_cant": "minimality over all matrices", "anchors": [{"file": "pyproximal/proximal/Nuclear.py", "symbols": ["Nuclear"]}]}
{"id": "C61", "title": "Simplex membership test", "statement": "Simplex(x) is True exactly when every row/column lies in the simplex up to tol.", "quantifier": "all inputs and layouts", "why_tests_cant": "all inputs", "anchors": [{"file": "pyproximal/proximal/Simplex.py", "symbols": ["_Simplex.__call__"]}]}
{"id": "C62", "title": "Compiled bisection", "statement": "The bisection used by the numba/cuda simplex projection returns a point within tolerance of a root (or with small residual) when the interval brackets a sign change.", "quantifier": "all functions, intervals, tolerances", "why_tests_cant": "unbounded iterations and inputs", "anchors": [{"file": "pyproximal/proximal/_Simplex_numba.py", "symbols": ["bisect_jit", "simplex_jit"]}]}
{"id": "C63", "title": "LowRankFactorizedMatrix gradients", "statement": "gradx and grady are the partial gradients of the value returned by calling the operator at the currently stored other block; calling the operator leaves the stored blocks unchanged.", "quantifier": "all matrices, operators", "why_tests_cant": "all points", "anchors": [{"file": "pyproximal/utils/bilinear.py", "symbols": ["LowRankFactorizedMatrix"]}]}
{"id": "C64", "title": "TwIST stationary points", "statement": "Stationary points of TwIST minimise 1/2||Ax-b||^2+g(x), for every alpha and beta != 0.", "quantifier": "all A,b,g,alpha,beta", "why_tests_cant": "all functions", "anchors": [{"file": "pyproximal/optimization/primal.py", "symbols": ["TwIST"]}]}
{"id": "C65", "title": "Bregman iterations", "statement": "With a smooth convex f, a convex g and an inner solver that returns a minimiser of the subproblem it is given, Bregman iterations with a positive float alpha keep q in the sub-differential of g at the current iterate, never increase f from one outer iteration to the next, approach the smallest value of f over the domain of g at rate 1/n, run at most niterouter outer iterations and stop early only when one of the two documented tests (tolx on the step, tolf on the value of f) holds.", "quantifier": "all f, g, inner solvers, alpha > 0, starting points, numbers of iterations, tolerances", "why_tests_cant": "quantifies over all functions, solvers and histories", "anchors": [{"file": "pyproximal/optimization/bregman.py", "symbols": ["Bregman"]}]}
{"id": "C66", "title": "L10 ball projection", "statement": "L10Ball.prox returns a closest matrix (Frobenius distance) among those with at most radius non-zero columns, for every input and any tie-breaking of the sort.", "quantifier": "all matrices, all radii >= 1, all sorts consistent with the keys used", "why_tests_cant": "The projection is over a union of exponentially many subspaces; a few arrays cannot show that the selected columns are the best ones for every input.", "anchors": ["pyproximal/proximal/L0.py:L10Ball", "pyproximal/projection/L0.py:L10BallProj"]}
{"id": "C67", "title": "Log penalty prox", "statement": "Log.prox returns a minimiser of the concave logarithmic penalty sigma/log(gamma+1)*sum log(gamma|y_i|+1) plus ||y-x||^2/(2 tau), for every sigma, gamma and tau>0, including the non-convex regime where two local minima must be compared.", "quantifier": "all x of every length, sigma>=0, gamma>0, tau>0", "why_tests_cant": "the penalty is non-convex; the global minimum over all y cannot be sampled", "anchors": [{"file": "pyproximal/proximal/Log.py", "symbols": ["Log"]}]}
{"id": "C68", "title": "Log1 penalty prox", "statement": "Log1.prox returns a minimiser of sigma*sum log(|y_i|+delta) plus ||y-x||^2/(2 tau), and Log1(x) evaluates that function.", "quantifier": "all x, sigma>0, delta>=0, tau>0", "why_tests_cant": "minimality over all y of a non-convex function", "anchors": [{"file": "pyproximal/proximal/Log.py", "symbols": ["Log1"]}]}
{"id": "C69", "title": "ETP penalty prox", "statement": "ETP.prox returns a minimiser of the exponential-type penalty sigma/(1-exp(-gamma))*sum (1-exp(-gamma|y_i|)) plus ||y-x||^2/(2 tau), given a correct Lambert W function.", "quantifier": "all x, sigma>=0, gamma>0, tau>0, every Lambert W principal branch", "why_tests_cant": "minimality over all y of a non-convex function; correctness of choosing between two candidates", "anchors": [{"file": "pyproximal/proximal/ETP.py", "symbols": ["ETP"]}]}
{"id": "C70", "title": "Geman penalty prox", "statement": "Geman.prox returns a minimiser of sigma*sum |y_i|/(|y_i|+gamma) plus ||y-x||^2/(2 tau): the trigonometric root of the cubic stationarity equation is the right one and the negative-discriminant branch may return 0.", "quantifier": "all x, sigma>=0, gamma>0, tau>0", "why_tests_cant": "minimality over all y; the choice of the cubic root must be right for all parameters", "anchors": [{"file": "pyproximal/proximal/Geman.py", "symbols": ["Geman"]}]}
{"id": "C71", "title": "Nuclear ball projection", "statement": "NuclearBall.prox returns the closest matrix (Frobenius norm) with nuclear norm at most radius, up to the tolerance of the root search, and the membership test accepts exactly the matrices with nuclear norm below radius+tol.", "quantifier": "all shapes, matrices, radii, tau>0", "why_tests_cant": "closest among all matrices of the ball", "anchors": [{"file": "pyproximal/proximal/Nuclear.py", "symbols": ["NuclearBall"]}, {"file": "pyproximal/projection/Nuclear.py", "symbols": ["NuclearBallProj"]}]}
{"id": "C72", "title": "Penalties on singular values", "statement": "SingularValuePenalty(dim, penalty).prox is the proximal map of Y -> penalty(singular values of Y) whenever the penalty's own prox is exact and the penalty ignores order and sign, and calling it sums the penalty over the singular values.", "quantifier": "all shapes, matrices, penalties, tau>0", "why_tests_cant": "minimality over all matrices and all penalties", "anchors": [{"file": "pyproximal/proximal/SingularValuePenalty.py", "symbols": ["SingularValuePenalty"]}]}
{"id": "C73", "title": "AdaptivePrimalDual residuals and stopping", "statement": "The primal and dual residuals AdaptivePrimalDual tests are the norms of the optimality residuals of f(x)+<z,x>+g(Ax) at the current point, also when z is given, and it stops before niter only when both are within tol.", "quantifier": "all f,g,A,z, starting points, tolerances and iteration counts", "why_tests_cant": "needs every problem and every history; a wrong residual only changes the adaptation or the stopping iteration", "anchors": [{"file": "pyproximal/optimization/primaldual.py", "symbols": ["AdaptivePrimalDual"]}]}
{"id": "C74", "title": "Sum.prox is the proximal map of what Sum evaluates", "statement": "For every list of operators, weights and options, prox(x, tau) of a Sum object approximates the proximal point, with step tau, of the function the object returns when called.", "quantifier": "all operator lists, weights, options, inputs, steps", "why_tests_cant": "minimality over all points, for every weight vector and option", "anchors": [{"file": "pyproximal/proximal/Sum.py", "symbols": ["Sum.prox", "Sum.__call__"]}]}
{"id": "C75", "title": "A tolerance only truncates a run", "statement": "For ProximalPoint, ProximalGradient and AndersonProximalGradient, a run with a tolerance returns what the run without tolerance returns after the number of iterations performed, and setting a tolerance never makes a run fail.", "quantifier": "all operators, starting points, steps, tolerances, numbers of iterations, histories", "why_tests_cant": "ranges over all objective functions and histories; a difference only shows up for particular sequences of objective values", "anchors": [{"file": "pyproximal/optimization/primal.py", "symbols": ["ProximalPoint", "ProximalGradient", "AndersonProximalGradient"]}]}
{"id": "C76", "title": "Logging does not change results", "statement": "For the solvers that keep the objective value between iterations (ProximalPoint, ProximalGradient, AndersonProximalGradient), show=True returns the same vector and makes the same callback calls as show=False.", "quantifier": "all operators, arguments, numbers of iterations", "why_tests_cant": "ranges over all objective functions and histories; a difference only shows up for particular sequences of objective values", "anchors": [{"file": "pyproximal/optimization/primal.py", "symbols": ["ProximalPoint", "ProximalGradient", "AndersonProximalGradient"]}]}
{"id": "C77", "title": "SR3 returns a near minimiser of the relaxed problem", "statement": "If SR3 stops before its outer limit, the returned x, paired with some z, minimises 1/2||Ax-b||^2 + eps||z||_1 + kappa/2||Lx-z||^2 up to an error bounded by kappa * 1e-6 * max(1,||z||) * ||Lx'-Lx|| against every competitor (x',z'). At any limit the result is never worse than any competitor with z'=0.", "quantifier": "all operators A and L, data, kappa>0, eps>=0, starting points, limits, and inner solvers that return a least squares solution", "why_tests_cant": "optimality against every competitor for every problem; a test compares with one reference solution", "anchors": [{"file": "pyproximal/optimization/sr3.py", "symbols": ["SR3", "_lsqr"]}]}
{"id": "C78", "title": "SR3 always meets its stopping test", "statement": "For every problem there is an outer limit beyond which SR3 stops by its own test, returning a finite vector which does not depend on the limit.", "quantifier": "all operators, data, kappa>0, eps>=0, starting points, adaptive or not", "why_tests_cant": "termination of an accelerated iteration with over-extrapolated momentum for all problems", "anchors": [{"file": "pyproximal/optimization/sr3.py", "symbols": ["SR3", "_lsqr"]}]}
{"id": "C79", "title": "Intersection projects onto the set of bounded differences", "statement": "IntersectionProj (and Intersection.prox) returns, for enough iterations, the orthogonal projection of every column onto the set of vectors whose pairwise differences are bounded by sigma: the result is feasible, feasible inputs are returned unchanged, column sums are kept, and the loop stops for every positive tolerance.", "quantifier": "all k, n >= 1, nonnegative distance matrices, inputs, tolerances and iteration counts", "why_tests_cant": "convergence of a Dykstra iteration with a regularised shrinkage (1e-10 in the denominator) over k(k-1)/2 pairs for all inputs", "anchors": [{"file": "pyproximal/projection/Intersection.py", "symbols": ["IntersectionProj.__call__"]}, {"file": "pyproximal/proximal/Intersection.py", "symbols": ["Intersection"]}]}
{"id": "C80", "title": "ProximalGradient with relaxation", "statement": "ProximalGradient with a relaxation weight eta runs the documented recursion x_{k+1} = y_k + eta(prox(y_k - tau grad f(y_k)) - y_k), y_{k+1} = x_{k+1} + omega_k(x_{k+1} - x_k), in every combination with acceleration and backtracking; for convex f and g, tau<2/L and 0<eta<=1 the iterates converge to a minimiser.", "quantifier": "all f, g, x0, tau, eta, acceleration modes, backtracking on or off, all iteration counts", "why_tests_cant": "the tests only use eta=1, and convergence is a limit over all convex f and g", "anchors": [{"file": "pyproximal/optimization/primal.py", "symbols": ["ProximalGradient"]}]}
{"id": "C81", "title": "PlugAndPlay", "statement": "PlugAndPlay hands the denoiser the image of shape dims, with the positive strength tau, and flattens the answer. If the denoiser is the prox of a convex G, ADMM converges to a minimiser of F+G; if it is any firmly non-expansive map, ADMM converges to an equilibrium (x = prox_F(x-u) = D(x+u)) and ProximalGradient with tau<2/L to a fixed point of 'gradient step, then denoise', whenever one exists. dims that do not fit are reported as ValueError.", "quantifier": "all data terms, denoisers, shapes, starting points, both orders of ADMM, all iteration counts", "why_tests_cant": "convergence over all denoisers of a class is an asymptotic statement; the tests run one denoiser", "anchors": [{"file": "pyproximal/optimization/pnp.py", "symbols": ["_Denoise", "PlugAndPlay"]}]}
{"id": "C82", "title": "Gradient tests", "statement": "gradtest_proximal returns True for every operator whose grad is the gradient of its call up to the accuracy of a one-sided difference, for every draw of the entry and of the real or imaginary part, and a draw that passes bounds the error of the tested entry; with raiseerror an AssertionError is raised exactly when it would have returned False. The verdict does not depend on the sign of delta, the default tolerances accept exact gradients, a real array tests a real entry, and the array passed as x and the bilinear operator passed as Op are left as they were.", "quantifier": "all operators with Lipschitz gradient, all points, entries, draws, delta, tolerances", "why_tests_cant": "the test is random and its soundness ranges over all wrong gradients and all draws", "anchors": [{"file": "pyproximal/utils/gradtest.py", "symbols": ["gradtest_proximal", "gradtest_bilinear"]}]}
{"id": "C83", "title": "Segment", "statement": "For every image, number of axes, shape, classes, weights and starting vector, Segment returns (after at least one iteration) class probabilities that are non-negative and sum to one at every pixel, together with the first most probable class of each pixel, and the probabilities converge to a minimiser of sigma/2 <x,f> + <x,z> + alpha/2 ||grad x||_{2,1} over the class probabilities.", "quantifier": "all images with any number of axes, classes, sigma, alpha>0, clsigmas, z, x0, niter", "why_tests_cant": "asymptotic statement over all images; failures need images with many axes and a particular start", "anchors": [{"file": "pyproximal/optimization/segmentation.py", "symbols": ["Segment"]}, {"file": "pyproximal/optimization/primaldual.py", "symbols": ["PrimalDual"]}]}
{"id": "C84", "title": "QuadraticEnvelopeCardIndicator", "statement": "For every vector and every positive integer r0, evaluating QuadraticEnvelopeCardIndicator(r0) returns the value of the quadratic envelope Q of the indicator of the vectors with at most r0 non-zero entries (Q + ||.||^2/2 is the biconjugate of the indicator + ||.||^2/2), and prox(y, tau) returns a minimiser of Q(x) + ||x-y||^2/(2 tau).", "quantifier": "all lengths, real vectors, r0, tau>0, any tie-breaking of argsort", "why_tests_cant": "the prox searches for a threshold in a sorted list and assigns the result only if a candidate is accepted; that some candidate is always accepted, and that the accepted one minimises a non-separable envelope, is a statement about all vectors", "anchors": [{"file": "pyproximal/proximal/QuadraticEnvelope.py", "symbols": ["QuadraticEnvelopeCardIndicator"]}]}
{"id": "C85", "title": "QuadraticEnvelopeRankL2", "statement": "For all matrices M and X and every r0 up to the number of singular values, QuadraticEnvelopeRankL2(dim, r0, M).prox(X, tau) returns the unique minimiser of R(Z) + ||Z-M||_F^2/2 + ||Z-X||_F^2/(2 tau), R being the quadratic envelope of the indicator of the matrices of rank at most r0, and evaluation returns R(X) + ||X-M||_F^2/2.", "quantifier": "all shapes, real matrices, r0, tau>0, exact decreasing SVD with any choice of singular vectors, any tie-breaking of argsort", "why_tests_cant": "the loop reads p[k+1] and accepts the first bracketing candidate; whether it is ever left without a candidate or runs past the end depends on the number of singular values and their ratios", "anchors": [{"file": "pyproximal/proximal/QuadraticEnvelope.py", "symbols": ["QuadraticEnvelopeRankL2"]}]}
{"id": "C86", "title": "Anderson mixing coefficients", "statement": "The coefficients AndersonProximalGradient uses to mix its history are numbers that sum to one and minimise the norm of the mixed residual among all coefficients summing to one, for every history; in particular a run started at a minimiser stays there.", "quantifier": "all histories (any length, any dimension), all epsr, all functions and starting points", "why_tests_cant": "the claim ranges over all histories, including degenerate ones that only appear after convergence, and compares with all other coefficients", "anchors": [{"file": "pyproximal/optimization/primal.py", "symbols": ["AndersonProximalGradient"]}]}
{"id": "C87", "title": "Anderson safeguard", "statement": "With safeguard=True every iteration of AndersonProximalGradient either is the plain proximal gradient step or decreases the smooth function by at least tau/2 times the squared gradient norm, whatever the accelerated points are, so acceleration can never increase the objective.", "quantifier": "all functions, steps, histories and numbers of iterations", "why_tests_cant": "needs all functions and whole histories of accepted and rejected steps", "anchors": [{"file": "pyproximal/optimization/primal.py", "symbols": ["AndersonProximalGradient"]}]}
{"id": "C88", "title": "Total variation", "statement": "TV(dims, sigma) evaluates to sigma times the isotropic total variation of the array, and prox(x, tau) approximates the unique proximal point of that function to any accuracy: the result tends to it as niter grows, with an explicit bound on the distance for each niter, for arrays of any shape that dims admits (None for signals).", "quantifier": "all arrays and shapes, sigma, tau, weights, niter, rtol", "why_tests_cant": "a limit over the number of iterations and a bound over all arrays of all sizes", "anchors": [{"file": "pyproximal/proximal/TV.py", "symbols": ["TV.__call__", "TV.prox"]}]}
{"id": "C89", "title": "Convolutional misfit", "statement": "L2Convolve(h, b, nfft, sigma) evaluates to sigma/2 times the squared norm of h * x - b for the convolution of signal and kernel, grad is its gradient, and prox(x, tau) is its unique proximal point; real inputs give results without imaginary part.", "quantifier": "all kernels, data and signals of all sizes, all nfft, sigma, tau", "why_tests_cant": "the proximal statement is a minimisation over all signals, and wrap-around and truncation depend on the relation between arbitrary sizes", "anchors": [{"file": "pyproximal/proximal/L2.py", "symbols": ["L2Convolve.__call__", "L2Convolve.prox", "L2Convolve.grad"]}]}
{"id": "C90", "title": "User-defined nonlinear functions", "statement": "For a subclass of Nonlinear that implements fun, its gradient and optimize, the functions handed to optimize are the objective of the proximal problem and its gradient; prox returns a proximal point whenever optimize solves that problem, and a point within tau*eps of it when optimize stops at a gradient of norm eps (convex fun), after any history of calls. Without warm start the answer does not depend on earlier calls; with warm start and a fixed number of gradient steps per call the answers converge to the proximal point of the limit of the inputs.", "quantifier": "all functions, optimizers, inputs, steps, histories of prox calls, iteration counts", "why_tests_cant": "quantifies over user code and over unbounded histories of calls on one object", "anchors": [{"file": "pyproximal/proximal/Nonlinear.py", "symbols": ["Nonlinear.prox", "Nonlinear._funprox", "Nonlinear._gradprox", "Nonlinear._fungradprox"]}, {"file": "tutorials/nonlinearconstrained.py", "symbols": ["Rosebrock.optimize"]}]}
{"id": "C91", "title": "Weighted nuclear norm", "statement": "Nuclear(dim, sigma) with an array sigma evaluates to the sum of sigma[i] times the i-th largest singular value, and prox(x, tau) is a global minimiser of that function plus the squared Frobenius distance over 2 tau.", "quantifier": "all matrix shapes, matrices, weights and steps", "why_tests_cant": "a global minimisation of a possibly non-convex function over all matrices, for all weights", "anchors": [{"file": "pyproximal/proximal/Nuclear.py", "symbols": ["Nuclear.__call__", "Nuclear.prox"]}]}
{"id": "C92", "title": "The three Simplex engines project every line of the matrix and agree with each other", "statement": "Simplex(n, radius, dims=(d0,d1), axis=a, engine=e) returns, for each engine (numpy, numba, cuda), an operator whose prox replaces every line of the matrix along axis a (numpy's meaning of axis) by its projection onto the simplex, up to the bisection tolerances; the cuda result does not depend on the order in which the threads run or on the previous content of the output array and equals the numba result; unknown engines raise KeyError, dims that are not two-dimensional ValueError, and without numba every engine falls back to numpy.", "quantifier": "all shapes, axes, inputs, radii, tolerances, iteration limits, thread schedules and initial contents of the output array", "why_tests_cant": "shapes, inputs and thread interleavings are unbounded; tests use axis 0/1 on one small shape and radius and do not run the cuda engine without a GPU.", "anchors": ["pyproximal/proximal/Simplex.py:Simplex", "pyproximal/proximal/Simplex.py:_Simplex", "pyproximal/proximal/Simplex.py:_Simplex_numba", "pyproximal/proximal/Simplex.py:_Simplex_cuda", "pyproximal/proximal/_Simplex_numba.py:simplex_jit", "pyproximal/proximal/_Simplex_cuda.py:simplex_jit_cuda"]}
{"id": "C93", "title": "Operators on complex arrays are the proximal maps of the documented functions", "statement": "Applied to a complex array, L1, L1Ball, L0Ball, Huber, L21, L21_plus_L1, L2, Log1, SCAD, Log, Geman, ETP, QuadraticEnvelopeCard, L0, RelaxedMumfordShah, L10Ball, Box, HalfSpace, Nuclear, NuclearBall and Hankel return the unique (for the non-convex ones, a) proximal point of the documented function with respect to Re<x,y>, and calling an operator gives the documented real value; proxdual is the proximal map of the convex conjugate; Quadratic and Nuclear evaluate to the documented value; ProximalGradient with backtracking accepts only steps for which its iterates descend. The results do not depend on which of the supported numpy versions is installed.", "quantifier": "all sizes, complex arrays, weights, radii and positive steps", "why_tests_cant": "complex inputs are a continuum of phases and magnitudes, and tests of these operators on complex arrays are few and use the operators only where real and complex rules coincide", "anchors": ["pyproximal/proximal/L1.py:_softthreshold", "pyproximal/proximal/L1.py:L1", "pyproximal/proximal/L21.py:L21", "pyproximal/proximal/L21_plus_L1.py:L21_plus_L1", "pyproximal/proximal/L2.py:L2", "pyproximal/proximal/Huber.py:Huber", "pyproximal/proximal/Quadratic.py:Quadratic", "pyproximal/proximal/Nuclear.py:Nuclear", "pyproximal/proximal/Log.py:Log1", "pyproximal/projection/L1.py:L1BallProj", "pyproximal/projection/L0.py:L0BallProj", "pyproximal/optimization/primal.py:_backtracking", "pyproximal/proximal/SCAD.py:SCAD", "pyproximal/proximal/Log.py:Log", "pyproximal/proximal/Geman.py:Geman", "pyproximal/proximal/ETP.py:ETP", "pyproximal/proximal/QuadraticEnvelope.py:QuadraticEnvelopeCard", "pyproximal/proximal/L0.py:L0", "pyproximal/proximal/RelaxedMS.py:RelaxedMumfordShah", "pyproximal/projection/L0.py:L10BallProj", "pyproximal/projection/Box.py:BoxProj", "pyproximal/projection/HalfSpace.py:HalfSpaceProj", "pyproximal/proximal/Nuclear.py:NuclearBall", "pyproximal/projection/Nuclear.py:NuclearBallProj", "pyproximal/proximal/Hankel.py:Hankel", "pyproximal/projection/Hankel.py:HankelProj"]}
{"id": "C94", "title": "AdaptivePrimalDual converges", "statement": "For convex functions with exact proximal operators, an operator A with tau*mu*||A||^2 < 1, 0 <= alpha < 1 and 0 <= eta < 1, the vector returned by AdaptivePrimalDual for niter = n (no stopping tolerance) converges, as n grows, to a minimiser of f(x) + <z,x> + g(Ax), from any starting vector and for any s and non-zero delta; both residuals tend to zero, and with a positive tolerance the number of iterations is bounded independently of niter.", "quantifier": "all convex problems with a solution, operators, starting vectors, step sizes within the bound, adaptivity parameters and iteration counts", "why_tests_cant": "convergence is about infinitely many iterations and the step sizes depend on the whole history of residuals; tests run one problem for a fixed number of iterations", "anchors": ["pyproximal/optimization/primaldual.py:AdaptivePrimalDual"]}
{"id": "C95", "title": "HQS converges to the documented problem's solution, and its two outputs to each other", "statement": "With a constant step, HQS(proxf, proxg, ...) returns x and z that converge, as niter grows, to each other and to a minimiser of f + g; with a decreasing array of steps (continuation) the best iterate approaches the minimum of f + g.", "quantifier": "every pair of convex functions with exact proximal maps, every positive step or array of positive steps, both values of gfirst, every starting point, every number of iterations", "why_tests_cant": "It concerns the limit over all numbers of iterations for every pair of functions; a test sees a finite number of iterations on one problem, where a small penalty bias looks like slow convergence.", "anchors": ["pyproximal/optimization/primal.py:HQS"]}
{"id": "C96", "title": "TwIST converges to a minimiser with the documented parameters", "statement": "TwIST(proxg, A, b, x0, ...) with alpha and beta left to the code (from eigs, or from A) converges to a minimiser of 1/2||Ax-b||^2 + g(x) for every convex g. A value given for alpha or beta is used.", "quantifier": "every convex g with an exact prox, every linear operator A, data b, starting point x0, and every pair of extreme eigenvalues of A^H A", "why_tests_cant": "Convergence is a statement about the infinite sequence of iterates for every g and A; runs of a few hundred iterations on L1 problems converge and hide the cycle and the divergence.", "anchors": ["pyproximal/optimization/primal.py:TwIST"]}
{"id": "C97", "title": "A tolerance eventually stops the run", "statement": "A solver that is given a positive tolerance stops by itself after finitely many iterations, however large niter is: from some number N on all runs with niter >= N return the same result after exactly N callbacks. PPXA and ConsensusADMM do, for every positive tol; ProximalPoint and ProximalGradient do within an explicit number of iterations (inversely proportional to tau, tol and the minimum of the objective; the square root of that with acceleration) if the minimum is positive, and need not if it is zero, because they test the relative change of the objective although the documentation says change.", "quantifier": "all convex functions with exact prox operators, all starting points, step sizes in the admissible range, tolerances and niter", "why_tests_cant": "a test runs a finite niter on a few problems; that the loop stops for every tolerance, problem and starting point is a statement about all infinite runs", "anchors": ["pyproximal/optimization/primal.py:ProximalPoint", "pyproximal/optimization/primal.py:ProximalGradient", "pyproximal/optimization/primal.py:PPXA", "pyproximal/optimization/primal.py:ConsensusADMM"]}
{"id": "C98", "title": "Results depend only on what the operators return, not on whether they work in place", "statement": "What a solver returns is determined by the values its operators return: an operator whose prox writes into the array it is given, or keeps attributes between calls, gives the same run as a pure operator that returns the same values. ProximalPoint, ProximalGradient and ADMM have this property for every operator; DouglasRachfordSplitting, PPXA and HQS have it only if the operator that is called on a live array leaves that array alone, and the array returned by HQS and passed to its callback, and the caller's x0, can be overwritten. Of the operator calculus, f + v, f.precomposition(a, b) and f.H hand a new array on and never change their argument; c * f hands its argument on. The Moreau test gives the verdict that the values of prox and proxdual imply and leaves its argument unchanged if the operator does. The same holds for linear operators that return the array they are given (pylops.Identity): PrimalDual and AdaptivePrimalDual are unaffected without z; with z, PrimalDual solves the problem with g(x + z/mu) in place of g(x); evaluating Orthogonal with b changes the caller's array.", "quantifier": "all operators (with any attributes, any in-place effect on the argument), starting points, step sizes, iteration counts and orders of the two functions", "why_tests_cant": "a test runs a few operators; the claim is about every possible in-place effect and every number of iterations, and the damage shows only for the operators that write into their argument", "anchors": ["pyproximal/optimization/primal.py:ProximalPoint", "pyproximal/optimization/primal.py:ProximalGradient", "pyproximal/optimization/primal.py:HQS", "pyproximal/optimization/primal.py:ADMM", "pyproximal/optimization/primal.py:DouglasRachfordSplitting", "pyproximal/optimization/primal.py:PPXA", "pyproximal/proximal/L2.py:L2.prox", "pyproximal/utils/moreau.py:moreau", "pyproximal/ProxOperator.py:_PrecompositionOperator", "pyproximal/ProxOperator.py:_PostcompositionOperator", "pyproximal/ProxOperator.py:_SumOperator", "pyproximal/ProxOperator.py:_AdjointOperator", "pyproximal/optimization/primaldual.py:PrimalDual", "pyproximal/optimization/primaldual.py:AdaptivePrimalDual", "pyproximal/proximal/Orthogonal.py:Orthogonal.__call__"]}
{"id": "C99", "title": "Reruns are reproducible and iteration-dependent parameters follow the iterations", "statement": "Running a solver a second time on the same operator objects returns what the first run returned if what the objects return does not depend on their attributes; L2 with exact inner solvers is such an object in all states its prox calls can leave it in. An operator with an iteration-dependent parameter uses the parameter with index k in iteration k of the first run of ProximalPoint and of ProximalGradient without backtracking.", "quantifier": "all operators and attribute states, solvers ProximalPoint, ProximalGradient, ADMM, DouglasRachfordSplitting and PPXA, all arguments and iteration counts; all parameter sequences", "why_tests_cant": "histories of calls are unbounded; a test can only rerun a few problems", "anchors": ["pyproximal/optimization/primal.py:ProximalPoint", "pyproximal/optimization/primal.py:ProximalGradient", "pyproximal/optimization/primal.py:ADMM", "pyproximal/optimization/primal.py:DouglasRachfordSplitting", "pyproximal/optimization/primal.py:PPXA", "pyproximal/proximal/L2.py:L2", "pyproximal/proximal/L1.py:L1"]}
{"id": "C100", "title": "Solvers that are special cases of one another return the same iterates", "statement": "On the same problem and with matching arguments, solvers that the literature presents as special cases of one another return the same iterates, log for log: ADMM and DouglasRachfordSplitting with eta=1 started at the first prox; LinearizedADMM with the identity operator and mu=tau and ADMM; PrimalDual with the identity operator, mu=1/tau and theta=1 and DouglasRachfordSplitting; PPXA and ConsensusADMM with one function and ProximalPoint; GeneralizedProximalGradient with one f, one g and no acceleration and ProximalGradient; DouglasRachfordSplitting with the two functions swapped and gfirst negated.", "quantifier": "all operators whose prox (and grad) return, all starting points, positive steps and numbers of iterations", "why_tests_cant": "the claim equates two loops for every operator and every number of iterations; a test compares a few runs on floating-point data", "anchors": ["pyproximal/optimization/primal.py:ADMM", "pyproximal/optimization/primal.py:DouglasRachfordSplitting", "pyproximal/optimization/primal.py:LinearizedADMM", "pyproximal/optimization/primal.py:PPXA", "pyproximal/optimization/primal.py:ConsensusADMM", "pyproximal/optimization/primal.py:ProximalPoint", "pyproximal/optimization/primal.py:GeneralizedProximalGradient", "pyproximal/optimization/primal.py:ProximalGradient", "pyproximal/optimization/primaldual.py:PrimalDual"]}
{"id": "C101", "title": "Linear convergence on strongly convex problems, and two runs never drift apart", "statement": "On a strongly convex problem the solver converges linearly with an explicit factor: ProximalPoint with 1/(1+tau*mu); ProximalGradient with (1-tau*mu)/(1+epsg*tau*nu) for tau(L+mu)<=2; DouglasRachfordSplitting with |1-eta/2|+eta/2*(1-gamma)/(1+gamma), where gamma<=tau*mu and gamma*tau*L<=1, for either order; ADMM with 1/(1+gamma). Two runs of ProximalPoint or ProximalGradient from different starting points stay within the same factor of their initial distance, also without strong convexity.", "quantifier": "all strongly convex functions with the stated modulus and Lipschitz constant, all operators with exact prox and grad, starting points, steps and iteration counts", "why_tests_cant": "a rate is a statement about every iteration count and every problem of the class", "anchors": ["pyproximal/optimization/primal.py:ProximalPoint", "pyproximal/optimization/primal.py:ProximalGradient", "pyproximal/optimization/primal.py:DouglasRachfordSplitting", "pyproximal/optimization/primal.py:ADMM"]}
{"id": "C102", "title": "Errors of inexact inner solvers are damped, and summable errors do no harm", "statement": "If call k of an operator's prox (or grad) returns a point within d_k of the exact one, because it solves an inner problem iteratively, the solver still returns; ProximalPoint, ProximalGradient and DouglasRachfordSplitting on strongly convex problems are within the exact linear rate plus the geometrically discounted errors of the minimiser (a neighbourhood of radius delta(1+tau*mu)/(tau*mu) for ProximalPoint with errors of at most delta); if the errors are summable, ProximalPoint, ProximalGradient, DouglasRachfordSplitting and ADMM converge to a minimiser on every convex problem that has one. In particular ADMM with L2 and an iteration-dependent number of inner iterations converges if the residuals along the schedule are summable. Without strong convexity, errors of constant size can drive the iterates to infinity.", "quantifier": "all convex problems, operators with any attributes, error sequences, schedules niter, configurations of the inner solver, starting points and iteration counts", "why_tests_cant": "the errors are adversarial and the claim is about the limit of infinitely many iterations", "anchors": ["pyproximal/optimization/primal.py:ProximalPoint", "pyproximal/optimization/primal.py:ProximalGradient", "pyproximal/optimization/primal.py:DouglasRachfordSplitting", "pyproximal/optimization/primal.py:ADMM", "pyproximal/proximal/L2.py:L2.prox"]}
{"id": "C103", "title": "Writing the same problem differently gives the same run", "statement": "Multiplying the functions of a solver by c and dividing its step by c, composing the functions with x -> a*x+b and dividing the step by a**2, giving the list of functions (with their weights) in another order, or exchanging the two functions of a splitting solver rewrites the run and changes nothing else: the same iterates (in the new variable) reach the callback, the run stops at the same iteration, the same point is returned and, except for reordered lists, the same exception is raised. The first two are stated with the library's own c*f and f.precomposition(a, b).", "quantifier": "all operators (whether or not their prox is exact), factors, starting points, steps, weights, acceleration, relaxation, backtracking and tolerance options, permutations and iteration counts", "why_tests_cant": "it compares complete runs for every operator and every option", "anchors": ["pyproximal/optimization/primal.py:ProximalPoint", "pyproximal/optimization/primal.py:ProximalGradient", "pyproximal/optimization/primal.py:GeneralizedProximalGradient", "pyproximal/optimization/primal.py:HQS", "pyproximal/optimization/primal.py:ADMM", "pyproximal/optimization/primal.py:LinearizedADMM", "pyproximal/optimization/primal.py:DouglasRachfordSplitting", "pyproximal/optimization/primal.py:PPXA", "pyproximal/optimization/primal.py:ConsensusADMM", "pyproximal/optimization/primaldual.py:PrimalDual", "pyproximal/ProxOperator.py:_PostcompositionOperator", "pyproximal/ProxOperator.py:_PrecompositionOperator", "pyproximal/utils/_Dykstra.py:parallel_dykstra_prox"]}
{"id": "C104", "title": "Whole numbers give the same result whether the array holds them as integers or as floats", "statement": "Calling an operator, or starting a solver, with whole numbers held in an integer array gives the values obtained with the same numbers held in an array of floats.", "quantifier": "all arrays of whole numbers, operators, parameters, steps and iteration counts", "why_tests_cant": "the fractional parts lost depend on the input, the parameters and the step, and are lost silently; tests use arrays of floats", "anchors": ["pyproximal/proximal/Huber.py:Huber", "pyproximal/proximal/SCAD.py:SCAD", "pyproximal/proximal/Log.py:Log", "pyproximal/proximal/Log.py:Log1", "pyproximal/proximal/ETP.py:ETP", "pyproximal/proximal/Geman.py:Geman", "pyproximal/proximal/QuadraticEnvelope.py:QuadraticEnvelopeCard", "pyproximal/proximal/Simplex.py:_Simplex", "pyproximal/proximal/L0.py:L0", "pyproximal/proximal/L0.py:L0Ball", "pyproximal/proximal/L0.py:L10Ball", "pyproximal/proximal/L2.py:L2", "pyproximal/proximal/VStack.py:VStack", "pyproximal/projection/Intersection.py:IntersectionProj", "pyproximal/proximal/_Dykstra.py:parallel_dykstra_projection", "pyproximal/proximal/_Dykstra.py:dykstra_two", "pyproximal/optimization/primal.py:ProximalPoint", "pyproximal/optimization/primal.py:ADMM", "pyproximal/optimization/primal.py:DouglasRachfordSplitting", "pyproximal/optimization/primal.py:GeneralizedProximalGradient", "pyproximal/optimization/sr3.py:SR3"]}
{"id": "C105", "title": "Infinities and NaN are neither created nor swallowed", "statement": "On arrays of finite numbers the operators and solvers give finite numbers (or raise), and an entry that is NaN or infinite in the argument can be seen in the result: it is not replaced by an ordinary number, a membership test does not accept it, and a solver started from it does not report a finite solution.", "quantifier": "all arrays of finite numbers, infinities and NaN, operators, parameters, steps, tolerances and iteration counts", "why_tests_cant": "comparisons with NaN are false, so a masked assignment or a negated test silently goes the other way; this depends on every comparison in every operator and tests use finite arrays", "anchors": ["pyproximal/proximal/L1.py:L1", "pyproximal/proximal/L0.py:L0", "pyproximal/proximal/L2.py:L2", "pyproximal/proximal/Box.py:Box", "pyproximal/proximal/Huber.py:Huber", "pyproximal/proximal/Huber.py:HuberCircular", "pyproximal/proximal/Euclidean.py:Euclidean", "pyproximal/proximal/Euclidean.py:EuclideanBall", "pyproximal/proximal/HalfSpace.py:HalfSpace", "pyproximal/proximal/Simplex.py:_Simplex", "pyproximal/proximal/L21.py:L21", "pyproximal/proximal/L21_plus_L1.py:L21_plus_L1", "pyproximal/proximal/SCAD.py:SCAD", "pyproximal/proximal/QuadraticEnvelope.py:QuadraticEnvelopeCard", "pyproximal/proximal/RelaxedMS.py:RelaxedMumfordShah", "pyproximal/proximal/Log.py:Log", "pyproximal/proximal/Log.py:Log1", "pyproximal/proximal/ETP.py:ETP", "pyproximal/proximal/Geman.py:Geman", "pyproximal/optimization/primal.py:ProximalPoint", "pyproximal/optimization/primal.py:ADMM", "pyproximal/optimization/primal.py:DouglasRachfordSplitting"]}
{"id": "C106", "title": "Splitting solvers reach a given accuracy in a number of iterations known beforehand", "statement": "For convex functions and exact proximal operators, after N iterations the averaged iterates of PrimalDual, ADMM, LinearizedADMM and ADMML2 (in its default order) have a duality gap, an objective and a constraint violation within a constant over N of the optimum, where the constant is an explicit expression of the distance from the start to the solution, the steps and the size of the multiplier; HQS with a constant step reaches its penalised objective at the same rate with its last iterate, and the change per iteration of DouglasRachfordSplitting and ADMM decreases like one over the square root of N.", "quantifier": "all convex functions, linear operators, starting points, comparison points, multipliers, admissible steps, both update orders and every number of iterations N >= 1", "why_tests_cant": "a test observes one decreasing curve; the bound must hold for every problem and every N, with a constant a user can compute before the run, and an averaged iterate is never inspected by tests", "anchors": ["pyproximal/optimization/primaldual.py:PrimalDual", "pyproximal/optimization/primal.py:ADMM", "pyproximal/optimization/primal.py:LinearizedADMM", "pyproximal/optimization/primal.py:ADMML2", "pyproximal/optimization/primal.py:HQS", "pyproximal/optimization/primal.py:DouglasRachfordSplitting"]}
{"id": "C107", "title": "A larger step or weight trades the penalty against the distance in the expected direction", "statement": "For one input, calling prox with a larger step gives a result whose penalty is not larger and whose distance to the input is not smaller; the same holds for a float times an operator when the float grows, and for the solutions of F + c G when c grows, also as found by ADMM. For convex penalties the result depends continuously on the step, with an explicit bound, tends to the input for small steps and to the minimiser closest to the input for large ones. Log1 is the exception: around zero a small step moves further than a large one.", "quantifier": "all inputs, all pairs of positive steps or weights, all operators with an exact prox, convex or not, and Huber, SCAD, QuadraticEnvelopeCard, L0 and RelaxedMumfordShah with all parameters, including the steps for which their prox is not exact", "why_tests_cant": "tuning a weight relies on the direction of its effect for every input and every pair of steps; tests compare a handful of steps on one input", "anchors": ["pyproximal/ProxOperator.py:ProxOperator.prox", "pyproximal/ProxOperator.py:ProxOperator.__rmul__", "pyproximal/proximal/Huber.py:Huber", "pyproximal/proximal/SCAD.py:SCAD", "pyproximal/proximal/QuadraticEnvelope.py:QuadraticEnvelopeCard", "pyproximal/proximal/L0.py:L0", "pyproximal/proximal/RelaxedMS.py:RelaxedMumfordShah", "pyproximal/proximal/Log.py:Log1", "pyproximal/optimization/primal.py:ADMM"]}
{"id": "C108", "title": "Results do not depend on the coordinates in which the problem is stored", "statement": "Storing the entries of the arrays in another order, changing their signs, or expressing the problem in rotated coordinates changes what the operators and solvers return in the same way and no further: every solver run on the transformed objects from the transformed start returns the transformed results, histories and errors, for the same number of iterations. The operators keep the symmetries of their functions: entrywise penalties, L1, L21 and L21_plus_L1 under reorderings and sign changes, boxes, simplex and L1 ball under reorderings, Euclidean norms, balls, half-spaces and the nuclear norm under rotations. Exceptions: Log1 under sign changes, L0Ball when entries tie, TV under mirror images.", "quantifier": "all real inner product spaces, all linear isometries between them, all operators commuting with them, all starting points, steps, numbers of iterations and options", "why_tests_cant": "a run with one array order says nothing about the others; an implementation that treats one index, sign or direction specially passes every test whose data do not touch it", "anchors": ["pyproximal/optimization/primal.py:ADMM", "pyproximal/optimization/primal.py:ProximalGradient", "pyproximal/optimization/primal.py:GeneralizedProximalGradient", "pyproximal/optimization/primal.py:LinearizedADMM", "pyproximal/optimization/primal.py:ADMML2", "pyproximal/optimization/primal.py:TwIST", "pyproximal/optimization/primal.py:PPXA", "pyproximal/optimization/primal.py:ConsensusADMM", "pyproximal/optimization/primaldual.py:PrimalDual", "pyproximal/optimization/primaldual.py:AdaptivePrimalDual", "pyproximal/ProxOperator.py:ProxOperator", "pyproximal/proximal/L1.py:L1", "pyproximal/proximal/L0.py:L0Ball", "pyproximal/proximal/Log.py:Log1", "pyproximal/proximal/TV.py:TV", "pyproximal/proximal/L21.py:L21", "pyproximal/proximal/Nuclear.py:Nuclear"]}
{"id": "C109", "title": "Independent parts of a problem are solved independently", "statement": "When the operators act on one part of the array without looking at the rest - entrywise penalties and boxes on any subset of the entries, L21 on any subset of the columns, VStack on each of its blocks - the solvers do so too: the part of what a solver returns, histories included, is what it returns for that part alone, whatever the rest of the array contains, provided the run on the whole returns. This holds for ADMM, HQS, Douglas-Rachford, generalized proximal gradient, linearized ADMM, ADMML2 and PrimalDual with any options. Exceptions: steps or stopping decisions taken from the whole array (backtracking, which is the default of ProximalGradient, and tolerances) make a part depend on the rest.", "quantifier": "all linear projections onto a part, all operators that respect it, all starting points, steps, numbers of iterations and options, all contents of the remaining entries", "why_tests_cant": "a leak from one part of the array into another shows only for particular contents of the other part; running a few stacked problems says nothing about the others", "anchors": ["pyproximal/proximal/VStack.py:VStack", "pyproximal/optimization/primal.py:ADMM", "pyproximal/optimization/primal.py:HQS", "pyproximal/optimization/primal.py:DouglasRachfordSplitting", "pyproximal/optimization/primal.py:ProximalPoint", "pyproximal/optimization/primal.py:ProximalGradient", "pyproximal/optimization/primal.py:GeneralizedProximalGradient", "pyproximal/optimization/primal.py:LinearizedADMM", "pyproximal/optimization/primal.py:ADMML2", "pyproximal/optimization/primal.py:TwIST", "pyproximal/optimization/primal.py:PPXA", "pyproximal/optimization/primal.py:ConsensusADMM", "pyproximal/optimization/primaldual.py:PrimalDual", "pyproximal/proximal/L21.py:L21", "pyproximal/proximal/Box.py:Box"]}
{"id": "C110", "title": "Constraints hold for what is returned", "statement": "When a constraint is given as an operator whose prox returns only points of a set, the array a solver returns satisfies the constraint after any number of iterations (at least one), converged or not: ProximalPoint, ADMM (x in one set, z in the other), HQS, Douglas-Rachford, ProximalGradient (with relaxation 1, or a convex set and relaxation between 0 and 1), AndersonProximalGradient, LinearizedADMM, ADMML2 (z), PrimalDual, AdaptivePrimalDual, PALM (each block), Bregman. The constraint operators agree with their own membership test: what prox returns passes the test, what passes is left unchanged, the step is irrelevant. Exceptions: over-relaxation, averages over several operators, acceleration of the generalized method, TwIST; searches whose tolerance exceeds that of the test.", "quantifier": "all sets, all operators whose prox lands in them, all other terms, starting points, steps, options and numbers of iterations >= 1; for the operators all inputs, bounds, radii, sizes and tolerances", "why_tests_cant": "a test sees the final array of a few runs; that every iterate of every run is feasible, whatever the other terms do, needs a proof over the loop", "anchors": ["pyproximal/optimization/primal.py:ProximalPoint", "pyproximal/optimization/primal.py:ProximalGradient", "pyproximal/optimization/primal.py:AndersonProximalGradient", "pyproximal/optimization/primal.py:GeneralizedProximalGradient", "pyproximal/optimization/primal.py:HQS", "pyproximal/optimization/primal.py:ADMM", "pyproximal/optimization/primal.py:ADMML2", "pyproximal/optimization/primal.py:LinearizedADMM", "pyproximal/optimization/primal.py:DouglasRachfordSplitting", "pyproximal/optimization/primal.py:TwIST", "pyproximal/optimization/primal.py:PPXA", "pyproximal/optimization/primal.py:ConsensusADMM", "pyproximal/optimization/primaldual.py:PrimalDual", "pyproximal/optimization/primaldual.py:AdaptivePrimalDual", "pyproximal/optimization/palm.py:PALM", "pyproximal/optimization/bregman.py:Bregman", "pyproximal/proximal/Box.py:Box", "pyproximal/proximal/HalfSpace.py:HalfSpace", "pyproximal/proximal/Euclidean.py:EuclideanBall", "pyproximal/proximal/L0.py:L0Ball", "pyproximal/proximal/L0.py:L10Ball", "pyproximal/proximal/L1.py:L1Ball", "pyproximal/proximal/Simplex.py:Simplex", "pyproximal/proximal/Hankel.py:Hankel", "pyproximal/proximal/AffineSet.py:AffineSet"]}
{"id": "C111", "title": "A run can be stopped and continued from what it returned", "statement": "n iterations followed by m iterations started from what the first call returned are n + m iterations: the same returned arrays, the same callback calls in the same order, the same exceptions. This holds for ProximalPoint, ProximalGradient with a given step and no acceleration (relaxation included), HQS, Douglas-Rachford (continued from the second returned vector), PrimalDual with gfirst=False or theta=0 (continued from x and y), PALM with given gammas, with arrays of steps continued where they were left. It does not hold for ADMM, LinearizedADMM, accelerated ProximalGradient, PrimalDual with gfirst=True and extrapolation, TwIST, PPXA, ConsensusADMM and GeneralizedProximalGradient, which lose part of their state.", "quantifier": "all operators, starting points, steps (constant or arrays), numbers of iterations n and m; for the exceptions all starting points other than 0", "why_tests_cant": "a test compares one split of one run; the statement is about all splits of all runs, including those that raise", "anchors": ["pyproximal/optimization/primal.py:ProximalPoint", "pyproximal/optimization/primal.py:ProximalGradient", "pyproximal/optimization/primal.py:HQS", "pyproximal/optimization/primal.py:ADMM", "pyproximal/optimization/primal.py:LinearizedADMM", "pyproximal/optimization/primal.py:DouglasRachfordSplitting", "pyproximal/optimization/primal.py:TwIST", "pyproximal/optimization/primal.py:PPXA", "pyproximal/optimization/primal.py:ConsensusADMM", "pyproximal/optimization/primal.py:GeneralizedProximalGradient", "pyproximal/optimization/primaldual.py:PrimalDual", "pyproximal/optimization/palm.py:PALM"]}
{"id": "C112", "title": "A solver returns exactly when its arguments are admissible", "statement": "With operators that return for every positive step and raise ValueError otherwise, a solver returns if and only if: a start is given where one is needed, every step used in the run exists and is positive (for PPXA and GeneralizedProximalGradient the quotients with the weights, which must not be 0), the weights have the right length and sum, the acceleration is known, there is a function (PPXA, ConsensusADMM), there is an iteration (Douglas-Rachford; ProximalGradient with a constant epsg), there is a trial when backtracking. Steps that are not positive raise ValueError. No data, starting point or number of iterations makes an admissible call fail, except the relative tolerance of ProximalPoint, which divides by the previous value.", "quantifier": "all guarded operators, data, starting points, steps and arrays of steps, weights, options, numbers of iterations", "why_tests_cant": "that no input makes a call fail is a statement about all inputs; the converse, that every inadmissible call fails instead of returning something, is as well", "anchors": ["pyproximal/optimization/primal.py:ProximalPoint", "pyproximal/optimization/primal.py:ProximalGradient", "pyproximal/optimization/primal.py:GeneralizedProximalGradient", "pyproximal/optimization/primal.py:HQS", "pyproximal/optimization/primal.py:ADMM", "pyproximal/optimization/primal.py:ADMML2", "pyproximal/optimization/primal.py:LinearizedADMM", "pyproximal/optimization/primal.py:TwIST", "pyproximal/optimization/primal.py:DouglasRachfordSplitting", "pyproximal/optimization/primal.py:PPXA", "pyproximal/optimization/primal.py:ConsensusADMM", "pyproximal/optimization/primaldual.py:PrimalDual", "pyproximal/optimization/primaldual.py:AdaptivePrimalDual"]}
{"id": "C113", "title": "The closed-form operators keep their guarantees in floating point arithmetic", "statement": "With every floating point operation rounded (any rounding that is monotone, odd, leaves numbers of the format alone and has relative error at most u; no overflow or underflow): L1.prox sets an entry to zero exactly when its magnitude is at most the computed threshold, never flips a sign, never increases a magnitude, keeps the order of the entries, and is within u(|x| + tau sigma) of the exact result; with an offset g it returns g for g; L1.proxdual stays in [-sigma, sigma] exactly. Box returns the exact projection. L0.prox zeroes exactly the entries up to the computed threshold and returns the others unchanged. L2, Huber and Euclidean never flip a sign nor increase a magnitude; the errors of L2 and Euclidean are at most about 3u (plus the error of the norm), with data about 6u. EuclideanBall returns a point of the ball up to rounding, and returns points of a ball centred at the origin unchanged.", "quantifier": "all roundings of that kind (in particular to any number of binary digits, to nearest or toward zero), all arrays of any length, all sigma and tau", "why_tests_cant": "a test runs one format on a few arrays; a sign flip or an entry that leaves the admissible set by one unit in the last place would show only for particular inputs", "anchors": ["pyproximal/proximal/L1.py:_softthreshold", "pyproximal/proximal/L1.py:L1", "pyproximal/proximal/Box.py:Box", "pyproximal/proximal/L0.py:L0", "pyproximal/proximal/L2.py:L2", "pyproximal/proximal/Huber.py:Huber", "pyproximal/proximal/Euclidean.py:Euclidean", "pyproximal/proximal/Euclidean.py:EuclideanBall", "pyproximal/projection/Euclidean.py:EuclideanBallProj"]}
{"id": "C114", "title": "The solvers in floating point arithmetic follow the exact run, and where they stall", "statement": "In rounded arithmetic, ProximalPoint on L1 never increases or flips an entry, is within n u (|x0| + tau sigma) of the exact run after n iterations, and reaches zero after M/c iterations when the threshold can be seen next to the largest entry M; if it cannot be seen the run never moves. On L2 the entries decrease geometrically; if 1 + tau sigma rounds to 1 the run never moves. ADMM returns vectors that satisfy the constraints of both operators exactly (x in the box, z as returned by the last prox), and while it stays within norm R it is within n(4 delta + 22 u R) of the exact run after n iterations, delta being the error of one prox; for Box and L1 that is n u (38 R + 4 tau sigma sqrt(d)). For a Box within [-m, m] and L1 nothing need be known of the run: for up to 1/(800 u) iterations the error is at most 80 n u (|x0| + |z0| + (3 m + tau sigma) sqrt(d)).", "quantifier": "all roundings, all starting points, steps, numbers of iterations, array lengths; for ADMM all pairs of convex functions", "why_tests_cant": "the accumulated error depends on the whole history of roundings; a test sees one history, and a stall shows only at sizes a test does not use", "anchors": ["pyproximal/optimization/primal.py:ProximalPoint", "pyproximal/optimization/primal.py:ADMM", "pyproximal/proximal/L1.py:L1", "pyproximal/proximal/L2.py:L2", "pyproximal/proximal/Box.py:Box"]}
{"id": "C115", "title": "The zeros and the active bounds of the solution are found exactly after finitely many iterations", "statement": "Under strict complementarity the iterates do not only converge: what the solution has exactly (zero entries with L1, zero columns with L21, the zero vector with Euclidean, entries on a bound with Box, points on the boundary with EuclideanBall and HalfSpace, saturated dual entries) every iterate has exactly from some iteration on. For ProximalGradient (plain; accelerated when the iterates converge, in particular when f is strongly convex), ProximalPoint, DouglasRachford, ADMM, PrimalDual (both variables) and HQS: whatever the operator's output satisfies for every input near the limit of its inputs holds for all but finitely many iterates. For the lasso: entries whose correlation with the residual is strictly below the weight become and stay exactly zero, nonzero entries of the solution get their sign, and if there is no other kind of entry the support is found. Without strict complementarity, or with relaxation (eta < 1), this fails.", "quantifier": "all convex f and g the solver's convergence theorem covers, all operators, data, steps within the limits, all starting points, both orders", "why_tests_cant": "it is a statement about all but finitely many iterations, from every starting point; a test stops after some iterations from one", "anchors": ["pyproximal/optimization/primal.py:ProximalGradient", "pyproximal/optimization/primal.py:ProximalPoint", "pyproximal/optimization/primal.py:ADMM", "pyproximal/optimization/primal.py:DouglasRachfordSplitting", "pyproximal/optimization/primal.py:HQS", "pyproximal/optimization/primaldual.py:PrimalDual", "pyproximal/proximal/L1.py:L1", "pyproximal/proximal/L21.py:L21", "pyproximal/proximal/Box.py:Box", "pyproximal/proximal/Euclidean.py:Euclidean", "pyproximal/proximal/Euclidean.py:EuclideanBall", "pyproximal/proximal/HalfSpace.py:HalfSpace"]}
{"id": "C116", "title": "What a run says about its own accuracy", "statement": "The change in the last iteration bounds how far the objective is from its minimum, so a user can tell from the iterates how accurate the result is: for ProximalPoint, ProximalGradient (any acceleration, any step), ADMM (primal and dual residual), DouglasRachford, ConsensusADMM (disagreement of the copies and change of the mean), PrimalDual (gap of the Lagrangian) and AdaptivePrimalDual (by the two norms on which it stops). A run of ProximalPoint or ProximalGradient that returns before its niter iterations are over, because of tol <= 1, has an objective within sqrt(tol |V|/tau) (sqrt(2 tol |V|/tau)) times the distance of the start from the minimiser. The tolerance of ConsensusADMM and PPXA guarantees nothing: there are starts that are returned after one iteration for every tol > 0 although they are not minimisers; and with a small enough step ProximalPoint returns almost its start.", "quantifier": "all convex functions, linear operators, steps, starting points, numbers of iterations, both orders of the updates, and every point the objective is compared with", "why_tests_cant": "it compares the objective at the returned point with its value at every other point, for every problem", "anchors": ["pyproximal/optimization/primal.py:ProximalPoint", "pyproximal/optimization/primal.py:ProximalGradient", "pyproximal/optimization/primal.py:ADMM", "pyproximal/optimization/primal.py:DouglasRachfordSplitting", "pyproximal/optimization/primal.py:ConsensusADMM", "pyproximal/optimization/primal.py:PPXA", "pyproximal/optimization/primaldual.py:PrimalDual", "pyproximal/optimization/primaldual.py:AdaptivePrimalDual"]}
{"id": "C117", "title": "Small changes of the arguments change the result by a known amount", "statement": "For a convex function, what prox returns changes by at most a stated multiple of the change of the input, the step, the weight in sigma*f, the linear term in f + q, the shift b in f(a x + b) and, for projections, the set; for L1, Box, Euclidean, EuclideanBall, HalfSpace and L2 the dependence on each parameter (weight, centre, bounds, radius, offset, data) is bounded explicitly. Two runs of ProximalPoint, ProximalGradient without acceleration, DouglasRachford or ADMM with different starting points and operators stay within the distance of the starts plus the sum of the one-step differences, and within a bound that does not depend on the number of iterations on strongly convex problems. Of the limits of two ProximalGradient runs on least squares with a regulariser, the predicted data are no further apart than the data; a larger epsg gives no larger regulariser and no smaller misfit. Not for L0: arbitrarily close inputs or weights give results a threshold apart.", "quantifier": "all convex functions, inputs, steps, parameters, starting points, numbers of iterations and both orders of the updates", "why_tests_cant": "it compares the results for every pair of inputs, parameters and histories", "anchors": ["pyproximal/ProxOperator.py:ProxOperator.affine_addition", "pyproximal/ProxOperator.py:ProxOperator.precomposition", "pyproximal/ProxOperator.py:ProxOperator.__rmul__", "pyproximal/proximal/L1.py:L1.prox", "pyproximal/proximal/L2.py:L2.prox", "pyproximal/proximal/Box.py:Box.prox", "pyproximal/proximal/Euclidean.py:Euclidean.prox", "pyproximal/proximal/Euclidean.py:EuclideanBall.prox", "pyproximal/proximal/HalfSpace.py:HalfSpace.prox", "pyproximal/proximal/L0.py:L0.prox", "pyproximal/optimization/primal.py:ProximalPoint", "pyproximal/optimization/primal.py:ProximalGradient", "pyproximal/optimization/primal.py:ADMM", "pyproximal/optimization/primal.py:DouglasRachfordSplitting"]}
{"id": "C118", "title": "Nested constructions can be merged, reordered and undone", "statement": "Operators built from operators obey the rules of the functions they stand for, in every method and every exception: (f + v) + w is f + (v + w), sigma * (rho * f) is (sigma rho) * f, sigma * (f + v) is sigma * f + sigma v, two precompositions merge into one, scaling and precomposition commute, precomposing f + v is adding a v to the precomposed f up to the constant <v, b> of its value, and chaining is associative. Subtracting what was added, dividing by the factor and precomposing with the inverse map give an operator with the prox, grad and values of the original. proxdual of f + v, sigma * f and f(a x + b) is the shifted, scaled proxdual of f. The same for objects with state, including the state and the contents of the caller's array after each call.", "quantifier": "all operators, vectors, factors sigma > 0 (any rho), a, c /= 0, inputs and steps, and all states of a stateful operator", "why_tests_cant": "it equates two programs on every operator, input and step", "anchors": ["pyproximal/ProxOperator.py:_SumOperator", "pyproximal/ProxOperator.py:_PostcompositionOperator", "pyproximal/ProxOperator.py:_PrecompositionOperator", "pyproximal/ProxOperator.py:_ChainOperator", "pyproximal/ProxOperator.py:ProxOperator.affine_addition", "pyproximal/ProxOperator.py:ProxOperator.__sub__", "pyproximal/ProxOperator.py:ProxOperator.__rmul__", "pyproximal/ProxOperator.py:ProxOperator.precomposition", "pyproximal/ProxOperator.py:ProxOperator.proxdual"]}
{"id": "C119", "title": "Either the result converges or there is no solution and the iterates diverge", "statement": "For ProximalPoint, ProximalGradient (plain or relaxed, tau < 2/L), DouglasRachford, ADMM, HQS, PPXA, ConsensusADMM, GeneralizedProximalGradient, LinearizedADMM and PrimalDual, from every start, exactly one of two things happens as niter grows: what is returned converges to a solution, or the problem has no (certified) solution and the iterates leave every bounded set for good. Hence a run that keeps coming back to a bounded region is converging to a solution, and an infeasible or unbounded problem cannot look like a bounded run that never settles.", "quantifier": "all convex functions with exact proxes, admissible steps, orders, starting points and iteration counts", "why_tests_cant": "it is about the limit of every run on every problem, with or without solution", "anchors": ["pyproximal/optimization/primal.py:ProximalPoint", "pyproximal/optimization/primal.py:ProximalGradient", "pyproximal/optimization/primal.py:DouglasRachford", "pyproximal/optimization/primal.py:ADMM", "pyproximal/optimization/primal.py:HQS", "pyproximal/optimization/primal.py:PPXA", "pyproximal/optimization/primal.py:ConsensusADMM", "pyproximal/optimization/primal.py:GeneralizedProximalGradient", "pyproximal/optimization/primal.py:LinearizedADMM", "pyproximal/optimization/primaldual.py:PrimalDual"]}
{"id": "C120", "title": "Complex problems are solved as their real form", "statement": "Running a solver on complex arrays with a complex matrix, complex data and an L1 penalty gives, at every iteration, exactly the iterates of the run on the real and imaginary parts with the matrix [[Re A, -Im A],[Im A, Re A]] and L21 with ndim=2: ProximalGradient with a given step, ADMM, HQS, DouglasRachfordSplitting, LinearizedADMM, ADMML2, TwIST, and PrimalDual and AdaptivePrimalDual when L1 is built with a zero offset. The accelerated proximal gradient method solves complex sparse recovery at the rate 2||x0-c||^2/(tau (n+1)^2). Exceptions: PrimalDual with the default L1 can only converge to zero for imaginary data whose solution is not zero; AndersonProximalGradient divides by zero on complex residuals because its products are not conjugated; backtracking (C93).", "quantifier": "all complex matrices and data of any size, all weights, steps, schedules, starting points, numbers of iterations and options", "why_tests_cant": "a test compares one complex run with one reference; the coincidence of every iterate with the real form, for every matrix and step, and the failures that need imaginary or isotropic residuals, are not seen by a sample", "anchors": ["pyproximal/optimization/primal.py:ProximalGradient", "pyproximal/optimization/primal.py:AndersonProximalGradient", "pyproximal/optimization/primal.py:ADMM", "pyproximal/optimization/primal.py:HQS", "pyproximal/optimization/primal.py:DouglasRachfordSplitting", "pyproximal/optimization/primal.py:LinearizedADMM", "pyproximal/optimization/primal.py:ADMML2", "pyproximal/optimization/primal.py:TwIST", "pyproximal/optimization/primaldual.py:PrimalDual", "pyproximal/optimization/primaldual.py:AdaptivePrimalDual", "pyproximal/proximal/L1.py:L1", "pyproximal/proximal/L21.py:L21", "pyproximal/proximal/L2.py:L2"]}
{"id": "C121", "title": "TV on complex images", "statement": "On complex images TV evaluates to sigma times the isotropic total variation (Euclidean norm of the complex differences at every pixel). With rtol=0 its prox is within 12 sigma tau w sqrt(axes*pixels)/niter of the proximal point of that function and converges to it. Multiplying every pixel by the same unit number, or conjugating the image, does the same to the result, whatever the parameters. A real image passed with complex type gives the same value, the same result and the same errors as the real image. Exceptions: five or more axes, and axes of length one (prox raises); the stopping test, as for real images (C88).", "quantifier": "all complex images with any number of pixels, all sigma, tau, weights, niter, rtol, all rotations of the complex plane", "why_tests_cant": "the rate and the invariances are about every image, every rotation and every number of iterations", "anchors": ["pyproximal/proximal/TV.py:TV.__call__", "pyproximal/proximal/TV.py:TV.prox"]}
{"id": "C122", "title": "The adaptive inner solver of SR3 descends to the least-squares solution", "statement": "SR3 with adaptive=True returns a finite vector. Each pass of its inner solver strictly lowers ||A x - b||^2 + kappa ||L x - v||^2, the points it visits do not depend on kappa's companion eps or on the limits, and after at most as many passes as there are unknowns it has reached an exact least-squares solution; a run stopped by its test or its limit returns the point reached there.", "quantifier": "all finite-dimensional operators A and L, data, starting points, weights, previous sparse variables and limits", "why_tests_cant": "a test runs a few systems in floating point, where the breakdown at the solution is hidden by rounding; the claim is about all systems, all starting points and every number of passes", "anchors": ["pyproximal/optimization/sr3.py:_lsqr", "pyproximal/optimization/sr3.py:SR3"]}
{"id": "C123", "title": "ProximalGradient on a bilinear operator", "statement": "Given a bilinear operator (for example LowRankFactorizedMatrix) as proxf and any proxg on the concatenated vector, ProximalGradient runs proximal gradient on the joint function of the two blocks: the gradient it uses is the gradient of the misfit in both blocks at the current point, every iterate is an exact proximal gradient step, a run that stops moving is at a stationary point, backtracking decreases the objective unless its trials run out, and afterwards the operator stores the blocks of the returned point. This holds for a run started from the blocks stored in the operator, without acceleration.", "quantifier": "all bilinear operators, proxg, starting points, step sizes, weights epsg, relaxation, iteration counts", "why_tests_cant": "a test runs one factorisation for a few iterations; the gradient is taken with blocks remembered from the previous iteration, and whether these are the current ones depends on every option of the solver", "anchors": ["pyproximal/optimization/primal.py:ProximalGradient", "pyproximal/utils/bilinear.py:BilinearOperator.updatexy", "pyproximal/utils/bilinear.py:LowRankFactorizedMatrix"]}
{"id": "C124", "title": "The shapes of PPXA's arguments", "statement": "PPXA accepts one weight and one starting point per function (or one vector for all of them) and computes the documented iteration; with two functions or more any other number of weights or starting points raises an exception, as do an empty list of functions and weights that are zero or make a step negative. PPXA and ConsensusADMM accept tol=None, meaning no early stop.", "quantifier": "all lists of operators, weights, starting points, steps, iteration counts, tolerances including None", "why_tests_cant": "numpy broadcasting silently accepts some mismatched shapes; which ones depends on the lengths of three lists, and a test tries a few", "anchors": ["pyproximal/optimization/primal.py:PPXA", "pyproximal/optimization/primal.py:ConsensusADMM"]}
{"id": "C125", "title": "Callbacks that write into the array they are given, or keep it", "statement": "callback(x) is given the solver's own array. A callback that only reads changes nothing; one that writes into the array has the effect of adding that change to every iteration; one that keeps the array (without copying) holds the iterates of the run afterwards.", "quantifier": "every callback (as a change of the array per iteration), all operators, starting points, parameters and numbers of iterations", "why_tests_cant": "The effect depends on which loop variables were computed before the callback and on which arrays are reused later; a test sees one callback and one solver.", "anchors": ["pyproximal/optimization/primal.py:ProximalPoint", "pyproximal/optimization/primal.py:ProximalGradient", "pyproximal/optimization/primal.py:HQS", "pyproximal/optimization/primal.py:ADMM", "pyproximal/optimization/primal.py:DouglasRachfordSplitting", "pyproximal/optimization/primaldual.py:PrimalDual"]}
{"id": "C126", "title": "Changing a parameter of an operator after it was built", "statement": "After assigning to an attribute of an operator (`f.sigma = ...`, `f.b = ...`, `f.radius = ...`), or writing into an array that was given to its constructor, the object behaves as one built from the present values: `__call__`, `prox`, `proxdual` and `grad` all use them. Writing into an array an operator returned does not change the operator. Holds for L2 in `__call__` and `grad` always and in `prox` without Op and b or with solver='cgls'; for L1 in `__call__` and `prox`; for Simplex with numba and L0Ball; and for writes into the arrays of Box, EuclideanBall and AffineSet. Fails elsewhere: the projections keep the old parameters while the membership test uses the new ones, HalfSpace keeps the squared norm of the old normal, L1.proxdual the old sigma, Huber the old alpha in its quadratic part, L2.prox the product Op^H b of construction, a linear Quadratic returns its own b as gradient, and a warm-started L2 keeps the array it returned.", "quantifier": "every parameter value, every sequence of assignments, in-place writes and calls in between, every point, every positive tau", "why_tests_cant": "a test builds an object and uses it; which derived quantity is stale after which sequence of changes, and by how much the result is off, depends on all histories and all values", "anchors": ["pyproximal/proximal/L1.py: L1.__init__, proxdual", "pyproximal/proximal/L2.py: L2.__init__, prox, grad", "pyproximal/proximal/Huber.py: Huber.__init__, prox", "pyproximal/proximal/HalfSpace.py: HalfSpace", "pyproximal/projection/HalfSpace.py: HalfSpaceProj", "pyproximal/proximal/Euclidean.py: EuclideanBall", "pyproximal/proximal/Box.py: Box", "pyproximal/proximal/Simplex.py: Simplex", "pyproximal/proximal/L0.py: L0Ball", "pyproximal/proximal/Quadratic.py: Quadratic.grad"]}
{"id": "C127", "title": "Giving a solver the same operator object several times", "statement": "A solver that is given one and the same operator object in several places (HQS, ADMM and DouglasRachfordSplitting with f as both operators, PPXA and ConsensusADMM with repeated entries in the list) returns what it returns for separate, equal objects. This holds for objects whose answers do not depend on what was called before (objects without attributes, L2 with an exact inner solver); for an object whose parameter is a function of its call counter the calls of all places advance the one counter, so each place sees an interleaved part of the schedule and the results differ.", "quantifier": "all operators and object states, all lists with arbitrary repetitions, starting points, step sizes, weights, relaxation values, tolerances and iteration numbers", "why_tests_cant": "Whether two places interfere depends on the whole call history of the object; a test fixes one list and one number of iterations.", "anchors": ["pyproximal/optimization/primal.py:HQS", "pyproximal/optimization/primal.py:ADMM", "pyproximal/optimization/primal.py:DouglasRachfordSplitting", "pyproximal/optimization/primal.py:PPXA", "pyproximal/optimization/primal.py:ConsensusADMM", "pyproximal/proximal/L1.py:L1.prox", "pyproximal/proximal/L2.py:L2.prox"]}
{"id": "C128", "title": "A prox call that is stopped midway does not change what later calls return", "statement": "When a call of prox (or of a bilinear function) is stopped by an exception at any point - a failing factorization, an interrupt from the keyboard, arguments of the wrong size - the object stays usable: later calls return the proximal point, and what they return is as if the stopped call had not been made or had been completed. L2 with the dense solver 'factorize' violates this: the step is recorded before the factorization is computed, so after a stop in between all later calls with this step use the factorization of another step, or raise AttributeError. LowRankFactorizedMatrix violates it too: evaluating it with a second argument of the wrong size leaves the first argument in place of the stored block.", "quantifier": "all operator objects, all histories of completed calls and calls stopped after any number of their attribute assignments, all later calls", "why_tests_cant": "The stop can come at any point of any call of an arbitrarily long history; tests stop at a few places at most", "anchors": ["pyproximal/proximal/L2.py:L2.prox", "pyproximal/proximal/Nonlinear.py:Nonlinear.prox", "pyproximal/utils/bilinear.py:LowRankFactorizedMatrix.__call__", "pyproximal/proximal/L1.py:L1.prox"]}
{"id": "C129", "title": "Low-rank factorization of complex matrices: gradients, gradient test, PALM", "statement": "LowRankFactorizedMatrix given complex blocks evaluates 1/2 ||Op(XY) - d||^2; gradx and grady are its gradients with respect to the real and imaginary parts of a block (the other one as stored), and without Op ly(y), lx(x) are Lipschitz constants of them, with Op they raise ValueError. gradtest_bilinear with complexflag=True passes exactly when the finite difference error delta/2 * ||change of Op(XY)||^2 is at most atol, for real and imaginary draws. PALM and iPALM with given gammaf, gammag behave on complex blocks as on real ones; in particular no iteration of PALM with factors at least 1 increases f(X) + g(Y) + H(X, Y). The same is expected of PALM with backtracking.", "quantifier": "all shapes, complex blocks, data, linear operators, steps and tolerances, drawn entries and parts, iteration counts; for PALM all exact proximal operators", "why_tests_cant": "the tests use real factorizations; the backtracking criterion drops a conjugate, which shows only on complex data and only in some runs, and diverging there takes unbounded many iterations", "anchors": ["pyproximal/utils/bilinear.py:LowRankFactorizedMatrix", "pyproximal/utils/gradtest.py:gradtest_bilinear", "pyproximal/optimization/palm.py:_backtracking", "pyproximal/optimization/palm.py:PALM", "pyproximal/optimization/palm.py:iPALM"]}
{"id": "C130", "title": "Penalties on the singular values are exact on complex matrices, but their values are not", "statement": "For a complex matrix, SingularValuePenalty.prox returns a global minimiser of phi(singular values of Y) + ||Y-X||^2/(2 tau) whenever the wrapped penalty's prox is exact for phi and phi ignores the order and the signs of the entries. Nuclear with an array sigma returns a global minimiser of sum sigma_i lambda_i(Y) + ||Y-X||^2/(2 tau) when the shrunk singular values stay in descending order, in particular for non-descending weights; for every array with a descent there is a complex matrix where it does not. Calling either operator gives the penalty of the singular values for complex arrays that hold a real matrix; for general complex matrices it does not, because X.T @ X is formed without conjugation: (t, i t) is valued as the zero matrix.", "quantifier": "every shape, complex matrix, penalty, weight array, step and exact decomposition routine", "why_tests_cant": "The claim ranges over all complex matrices, all penalties and all shapes, and compares the returned matrix with every other matrix.", "anchors": ["pyproximal/proximal/SingularValuePenalty.py:SingularValuePenalty", "pyproximal/proximal/Nuclear.py:Nuclear"]}
{"id": "C131", "title": "AffineSet and Orthogonal are exact for complex matrices", "statement": "For a complex matrix A and complex data, AffineSet.prox returns the unique closest point of {y : A y = b} whenever that set is not empty and the inner solver solves the systems that have a solution; the system it is given has a solution at every x exactly when the set is not empty; with an inexact solve the constraint is violated exactly by the residual of the solve. Calling AffineSet accepts exactly the points whose residual is within numpy's tolerances in every entry. Orthogonal with Q Q^H = alpha I (partial=True) or a unitary Q computes the proximal map of x -> f(Q x + b) for every f whose prox is exact.", "quantifier": "every shape, complex matrix, right hand side, point, step, solver, function with an exact prox, and alpha", "why_tests_cant": "The claim ranges over all complex matrices and all functions f, and compares the returned point with every other point.", "anchors": ["pyproximal/proximal/AffineSet.py:AffineSet", "pyproximal/projection/AffineSet.py:AffineSetProj", "pyproximal/proximal/Orthogonal.py:Orthogonal"]}
{"id": "C132", "title": "ProximalGradient in floating point arithmetic follows the exact run, keeps the constraint, and where it stalls", "statement": "In rounded arithmetic ProximalGradient with a given tau returns a vector that meets exactly every constraint the prox of g meets exactly, with any acceleration. Without acceleration and with tau L <= 2 its distance to the exact run grows at most linearly with the iterations, and no bound on the computed run need be supposed; for L2(b) and L1 the distance after n iterations is at most n u (324 B + 3 epsg tau sigma sqrt(d)) with B = |x0| + 2|b|, as long as that is at most B. The distance to the solution is then at most |1 - tau sigma|^n |x0 - c| plus that; for a Box it is at most |1 - tau sigma|^n |x0 - c| + 156 n u B. If tau sigma < 2 the errors do not add up for ever: n can be replaced by 1/(1 - |1 - tau sigma|), so the bound holds after any number of iterations. If the gradient step cannot be seen next to the entries of x0 and the prox of g keeps x0, the run returns x0 for every number of iterations and every acceleration. Without rounding the run is that of the exact solver.", "quantifier": "every monotone odd idempotent rounding of relative error u, every pair of operators, start, step, epsg and number of iterations; every acceleration for the constraint and the stall", "why_tests_cant": "A test sees the rounding errors of a few inputs in one precision; the bound must hold for every input, precision and number of iterations.", "anchors": ["pyproximal/optimization/primal.py: ProximalGradient", "pyproximal/proximal/L2.py: L2.grad", "pyproximal/proximal/L1.py: L1.prox"]}
{"id": "C133", "title": "DouglasRachfordSplitting in floating point arithmetic follows the exact run, keeps the constraint of the first operator, and where it stalls", "statement": "In rounded arithmetic the x returned by DouglasRachfordSplitting meets exactly every constraint that the prox applied first (g with gfirst, otherwise f) meets exactly. For convex f and g, either order and 0 < eta <= 2, both returned vectors are within n (8 delta + 766 u B) of those of the exact run after n iterations, as long as that is at most B, where delta is the error of one prox and B bounds the start, a stationary y and its x; no bound on the computed run need be supposed. For L1 and a Box containing zero this is n u (1118 |x0| + 8 tau sigma sqrt(d)). If the update of y cannot be seen next to its entries, every number of iterations returns the same vectors. Without rounding the run is that of the exact solver.", "quantifier": "every monotone odd idempotent rounding of relative error u, every pair of convex operators, start, tau, eta in (0, 2], order and number of iterations", "why_tests_cant": "A test sees the rounding errors of a few inputs in one precision; the bound must hold for every input, precision and number of iterations.", "anchors": ["pyproximal/optimization/primal.py: DouglasRachfordSplitting", "pyproximal/proximal/Box.py: Box", "pyproximal/proximal/L1.py: L1.prox"]}
