# Formal model of PyLops/pyproximal: design

## 1. What is modelled, and how

Python code in `/repo/pyproximal` is modelled by Lean 4 definitions under
`lean/Verif/Model`, file by file and function by function.  Every definition
cites the Python file and lines.  Conventions:

* **Numbers.** Python floats become real numbers (`ℝ`); rounding is modelled only
  in `Model/Rounded`, `Model/RoundedPG` and `Model/RoundedDR` (C113, C114, C132, C133), overflow not at all.  Where the code can divide by zero and numpy would return
  NaN/inf, the model does not use Lean's `x/0 = 0`: the result is an
  `Option`/`Except` value and the NaN branch is explicit.
* **Arrays.** 1-D arrays are elements of a real inner product space `E`
  (for elementwise code `EuclideanSpace ℝ ι` with `ι` any finite index type, so
  any length).  A 2-D array is indexed by a product type; `reshape`/`ravel` are
  index bijections (modelled explicitly in `Model/PnP`, implicit elsewhere).  A complex array is covered wherever `E` is a general real
  inner product space (`ℂⁿ` with the real part of the dot product).
* **Exceptions** are values: `Py α = Except PyErr α`.
* **Loops** are structural recursion over the number of remaining iterations
  (`range(niter)`), with `break` as a flag; unbounded `while` loops
  take fuel and the theorem says which fuel is enough (or that none is).
* **State** (`self.count`, cached factorizations, warm starts, stored blocks)
  is a value passed in and returned.  **Aliasing/in-place updates** that a caller can
  observe are modelled by also returning the final contents of the caller's array.
* **External code** (scipy bisect, lstsq/cg/lsqr solvers, cho_factor, SVD, argsort,
  pylops operators) is a parameter; what is assumed of it is a
  hypothesis of the theorem, written in the statement.
* Printing, timing, cupy back end selection, dtype handling are not modelled.

## 2. Specification

`lean/Verif/Spec` holds the small specification used in theorem statements: extended
valued functions (`XFun`: domain + value), `IsProx` (global minimiser of
`f(y)+‖y-x‖²/(2τ)`), `IsProj` (closest point), convexity, convex conjugate,
Moreau envelope, minimisers.  It does not mention the model.

## 3. Proofs

`lean/Verif/Lemmas` holds helper lemmas, `lean/Verif/Props` the property theorems
(names start with the property id), each followed by `example`s showing that its hypotheses
can be met by a concrete non-trivial case.  When the code violates a
property, the file has a theorem `..._refuted` with a concrete witness and
`..._partial` theorems covering the part that holds.

Most property files end with `example`s that meet the hypotheses of their theorems. The solver theorems share one concrete problem, `½‖x-b‖² + ‖x‖₁` on two
entries (`Verif/Witness/Kit.lean`); `Verif/Witness/Solvers.lean`, `Solvers2.lean` and `Dykstra.lean` apply each of those theorems to it and to two boxes.

## 4. Plan per property

| id | model | proof |
|----|-------|-------|
| C01 | `checkTau` decorator on every operator model | case split on the guard, for every operator and combinator |
| C02 | base-class `prox`/`proxdual` defaults, `utils.moreau` | algebra; for L1/Euclidean/L21 case analysis |
| C03 | same | sub-gradient characterisation of the prox of a convex function |
| C04-C07 | `_SumOperator`, `_PostcompositionOperator`, `_PrecompositionOperator`, `_AdjointOperator` | completing the square; C07's evaluation clause is false (evaluates f, not f*): refuted, partial |
| C08 | base `grad` | two-sided quadratic bound on the envelope |
| C09 | operand kinds as an inductive type | case analysis; `int * f` is rejected: refuted, partial |
| C10 | any operator whose prox is exact | strong convexity of the prox objective |
| C11-C15 | closed-form prox code | scalar lemmas lifted by separability; block lemma in inner product spaces |
| C16 | `Huber.prox` | refuted by a witness in the band α<|x|≤α+τ; partial theorem outside the band |
| C17-C19 | `L2` constructor, prox (all branches), grad, factorization cache | normal equations; invariant over call histories |
| C20 | `Quadratic` | normal equations for symmetric positive Op; non-symmetric Op refuted |
| C21-C26 | projections | variational inequality; bisection as a parameter; bracket loops with fuel |
| C27 | `L1BallProj` | refuted for interior points; partial outside |
| C28 | `L0BallProj` | exchange argument over any sort permutation; radius 0 refuted |
| C29 | `L0` | refuted (threshold), partial |
| C30-C31 | `VStack`, `Orthogonal` | separability; change of variables |
| C32-C34 | `SCAD`, `QuadraticEnvelopeCard`, `RelaxedMumfordShah` | scalar case analysis; out-of-range cases refuted |
| C35-C36 | counters, input mutation | induction over call histories; mutation refuted where present |
| C37-C39 | Dykstra loops, `Sum`, `GenericIntersection` (`Model/Dykstra`) | loop invariants by induction; convergence of Dykstra's algorithm for closed sets and closed functions (`Lemmas/Dykstra*`); weight mutation refuted |
| C40-C43 | `ProximalPoint`, `ProximalGradient`, `AcceleratedProximalGradient`, backtracking (`Model/Primal`) | descent lemma, Fejér monotonicity, Nesterov potential, induction over iterations |
| C44-C50 | `DouglasRachfordSplitting`, `ADMM`, `LinearizedADMM`, `ADMML2`, `PPXA`, `ConsensusADMM`, `PrimalDual` | Krasnoselskii-Mann / Fejér convergence to a saddle point; existence of the saddle point from Slater's condition (`Lemmas/Duality`, `Props/Slater`) |
| C51, C73 | `AdaptivePrimalDual` | step invariants by induction; residual formulas, refuted with `z` |
| C52-C53 | `HQS`, `GeneralizedProximalGradient`; the check of its weights in double precision (`Model/GPGWeights`, `Model/GPGSum`: numpy's pairwise summation) | descent / fixed point; binade and nearest integer of each partial sum; multiples of a power of two add exactly |
| C54-C55 | `PALM`, `iPALM` (`Model/Palm`, state of the bilinear operator) | block descent; refuted variants |
| C56-C58 | starts, callbacks, early stopping, momentum sequences of every solver | trajectories of the loop combinator |
| C59 | Anderson history | refuted (swapped initial history), partial |
| C60 | `Nuclear` with SVD as parameter | dual norm characterisation |
| C61 | `_Simplex.__call__` | refuted for dims, partial |
| C62 | `bisect_jit` | loop invariant |
| C63 | `LowRankFactorizedMatrix` | trace algebra, derivative |
| C64-C65 | TwIST, Bregman | fixed point / invariant |
| C66 | `L10BallProj` | refuted (columns ranked by the wrong norm), partial |
| C67-C70 | `Log`, `Log1`, `ETP`, `Geman` | monotone-derivative argument giving two candidate minimisers; Lambert W as a parameter; Log1 refuted |
| C71-C72 | `NuclearBall`, `SingularValuePenalty` with SVD as parameter | von Neumann trace inequality via Birkhoff's theorem, then the vector results |
| C74 | `Sum.prox` against what `Sum` evaluates | fixed points of the loops; refuted for unnormalised weights and `use_original_tau` |
| C75-C76 | `tol` and `show` arguments (`Model/Primal`, `Model/Show`) | simulation between the run with and without the argument; Anderson with safeguard refuted |
| C77-C78 | `SR3` (`Model/SR3`) | exact inner solve as hypothesis; Lipschitz gradient of the reduced problem; adaptive inner loop refuted |
| C79 | `IntersectionProj` (`Model/Intersection`) | cyclic projections onto pairs as Dykstra on halfspaces |
| C80 | relaxed `ProximalGradient` | averaged operators; refuted with acceleration or backtracking |
| C81 | `PlugAndPlay`, `_Denoise` (`Model/PnP`, reshape/ravel as index bijections) | fixed points of firmly non-expansive maps |
| C82 | `gradtest_proximal`, `gradtest_bilinear` (`Model/GradTest`) | descent lemma bounds on the difference quotient; defaults refuted |
| C83 | `Segment` (`Model/Segment`) | norm bound of the forward gradient, C50; oscillation beyond two axes refuted by an explicit run |
| C84 | `QuadraticEnvelopeCardIndicator` (`Model/Envelope`, sort as a parameter) | root search over the sorted magnitudes gives the prox of the envelope for small steps; refuted for large steps, `r0 = 0` and the value |
| C85 | `QuadraticEnvelopeRankL2` (`Model/Envelope`, SVD as a parameter) | spectral version of C84; refuted for one or two singular values |
| C86 | `andersonAlpha` (`Model/Anderson`, `np.linalg.pinv` as a parameter with the Penrose equations) | normal equations of the constrained least-squares problem; zero history and `epsr = 0` refuted |
| C87 | safeguard of `AndersonProximalGradient` | loop invariant on the stored value; `tol=None` and the objective `f + g` refuted by explicit runs |
| C88 | `TV` (`Model/TV`: differences, divergence, the accelerated dual loop with its stopping test, weights, counter) | summation by parts, dual problem on the unit balls, `fista_rate` with `t_k = 1 + k/2`, strong convexity of the primal; refutations by explicit runs |
| C89 | `L2Convolve` (`Model/Conv`: padded transforms through `ZMod.dft`, value, prox, grad, truncation) | convolution theorem, adjoint of padding and of circular convolution, normal equations; explicit kernels and signals for the refutations |
| C90 | `Nonlinear` (`Model/Nonlinear`: attributes as state, `optimize` as a parameter, gradient descent of the tutorial as an instance) | stationarity, monotone gradients, contraction, induction on the history |
| C91 | `Nuclear` with an array `sigma` (`NuclearW` in `Model/Nuclear`, numpy broadcasting) | von Neumann's inequality for sorted singular values plus scalar shrinkage; refutation by matrices with two equal singular values |
| C92 | Factory `Simplex` with its three classes, `dims`/`axis`, row loops, the cuda kernel as a list of stores in any order (`Model/SimplexEngines`), the 64-bit integers of its bracketing loops (`Model/SimplexInt64`) | per-row results of C26/C62; the grid covers every row; the two sign tests agree for `ftol > 0`; refutations for `axis = -2`, radii above 1e10, `dims=None` on cuda |
| C93 | Complex branches and complex values of `L1`, `L1Ball`, `L0Ball`, `Huber`, `L21`, `L21_plus_L1`, `L2`, `Quadratic`, `Nuclear.__call__`, `Log1`, `_backtracking` on `CVec` (`Model/Complex`); `SCAD`, `Log`, `Geman`, `ETP`, `QuadraticEnvelopeCard`, `L0`, `RelaxedMumfordShah`, `L10Ball`, `Box`, `HalfSpace` (`Model/ComplexPenalties`, with `np.sign` of numpy 1 and 2); `Nuclear.prox`, `NuclearBall`, `Hankel` on complex matrices (`Model/ComplexMatrix`, SVD as parameter); numpy's lexicographic order and principal square root as definitions | polar form of the soft threshold and separability over entries/columns; exact conditions (iff) where complex `np.maximum`, `x ** 2` or an unconjugated `np.dot` changes the result; divergence of the backtracked iterates computed in closed form; minimisers for moduli lifted to complex arrays along the phases; the complex nuclear norm as dual of the operator norm, so the SVD turns matrix problems into problems for singular values |
| C94 | The infinite sequence of states of `AdaptivePrimalDual` (`Model/PrimalDual`), of which every run is a prefix | Fejer monotonicity in the metric of the current steps (C50); the potential `exp(B alpha_n) * gauge_n` never increases because `alpha` shrinks by `eta` whenever the metric changes; closed graph of the subdifferential for the limit |
| C95 | Trajectories of `HQS` for any step specification (`Model/Primal`) | alternating proximal maps are a composition of firmly nonexpansive maps (Krasnoselskii-Mann); fixed points are minimisers of the penalised objective; closed-form limit for two squared distances refutes the docstring; telescoping three-point inequalities for continuation |
| C96 | Trajectories of `TwIST` (`Model/Primal`), its optional arguments (`Model/TwISTCall`); the values returned by `A.eigs` are inputs | Lyapunov function for the two-step iteration with a cocoercive map gives a region of `alpha`, `beta`; energy identity gives the rate `n ρ^n` for `g = 0`; three counterexamples (three-region cycle at the documented parameters, missing `max(1, ·)`, eigenvalues of `A` for those of `AᴴA`) |
| C97 | `ProximalPoint`, `ProximalGradient`, `PPXA`, `ConsensusADMM` with `tol` | a loop that never fails stops at its first break (`forRange_stop`); the rates C40–C42 bound the relative change of the objective once the gap is below `tol` times the minimum; `PPXA`/`ConsensusADMM`: a run that never breaks is a run with `tol=0`, which converges (C48, C49); refuted for quadratics with minimum zero |
| C98 | `Model/Mutable`, `Model/MutCalculus` and `Model/Aliasing` (linear operators that return their argument): operators with attributes and an in-place effect on their argument; `ProximalPoint`, `ProximalGradient`, `HQS`, `ADMM`, `DouglasRachfordSplitting`, `PPXA` on them | simulation of the loop by the loop on pure operators (`forRange_map`); refuted with `L2(q=...)`: explicit affine recursions and their limits |
| C99 | the same model; `L2.toMut`, `CountedClass.toMut` | two simulations by the same pure run; `C17_l2_prox` for the independence of the warm start; induction on the iterations for the counter; refuted for a second run and for backtracking |
| C100 | the solver loops of C03–C08, two at a time; no new model | simulation relations between the states of the two loops, by `forRange_sim`; the operators are arbitrary |
| C101 | the solver loops, functions with modulus of strong convexity and Lipschitz gradient | contraction factors of prox, forward step and reflection (`Lemmas/Strong`), iterated along the trajectory; ADMM through C100 |
| C102 | the solvers of `Model/Mutable` on objects whose prox and grad have errors `d k` in call `k` | trajectories with an invariant indexed by the iteration; contraction factors of C101 for the damped sums; comparison with exact orbits restarted at every iterate for summable errors; a drifting run of `Euclidean` for constant errors |
| C103 | the solvers of `Model/Primal` and `PrimalDual` on `postOp`, `preOp`, permuted lists and exchanged functions | simulation: the loop bodies commute with the map between the two states, so the runs do |
| C104 | arrays with a dtype (`Model/Dtype`): masked assignments and in-place arithmetic of the operators and solvers that allocate like their input | every method is shown to be the real-valued one on floats, and its truncation on integers; solvers by simulation; witnesses for the exceptions and the wrong limits |
| C105 | floats without rounding (`Model/Special`: real numbers, two infinities, NaN) and the operators, tests and three solvers on them | case analysis on the comparisons; simulation against the real models on finite arrays; invariants along the loops for NaN; witnesses for the operators that lose or make a NaN |
| C106 | the loops of C26, C45-C47, C49 and C50 again; averages of the iterates and the Lagrangian in `Spec/Rates` | one-step inequality against an arbitrary comparison point and multiplier from the subgradient inequalities, telescoping sum, Jensen for the averages; a subgradient bounded by the Lipschitz constant for the objective; Fejer sum and monotone change per iteration for the residuals |
| C107 | `prox` of the operators of C11-C15, C29, C32-C34, C60, C67, C68, `rmul`, the loop of ADMM | the two minimality inequalities added up; monotonicity of the subgradients for the continuity; a Cauchy argument on the distances for the limit; for the operators without exact prox, entrywise monotonicity of the shrinkage; a computation at zero for Log1 |
| C108 | the loops of all solvers, `ProxOp` and its calculus, the operators of C11-C16, C28-C34, C60, C88 | one step of each loop commutes with the isometry, then induction over the loop with exceptions and breaks; entrywise formulas under a permutation and signs; uniqueness of the minimiser for convex functions; concrete arrays for the exceptions |
| C109 | the loops of the solvers, `VStack` on lists, entrywise operators, `L21` | a relation "whenever this returns, that returns the projected value", closed under the monad and the loops; slices and scatters of lists for `VStack`; one iteration computed for the exceptions |
| C110 | the loops of the solvers with an operator that lands in a set; the constraint operators and their membership tests | a postcondition of the last `prox` carried through the monad and the loops; the projection theorems and the tests compared, with root searches that stop at the edge of their tolerance for the exceptions |
| C111 | the loops of the solvers, run once for `n + m` iterations and twice for `n` and `m` | the loop of `n + m` iterations is the loop of `n` followed by the loop of `m`; a simulation between the rest of the long run and the restarted one; the first iterations in closed form for the exceptions |
| C112 | the solvers with operators that accept exactly the positive steps | when a sequence of calls returns, as an equivalence for each construct of the exception monad; induction over the loops with the invariants of the steps |
| C113 | the closed-form operators with a rounding after each operation (`Model/Rounded`; any monotone odd idempotent rounding of relative error `u`) | case analysis with monotonicity and idempotence for what holds exactly, the relative error for the distances; binary formats of any precision shown to be such roundings |
| C114 | ProximalPoint and ADMM on those operators | induction over the iterations; the exact ADMM is a nonexpansive iteration, so the errors of the steps add up; a bound on the exact run is carried over to the computed one by induction |
| C115 | `L1`, `L21`, `Box`, `Euclidean`, `EuclideanBall`, `HalfSpace`, `L1.proxdual`; ProximalGradient, ProximalPoint, DouglasRachford, ADMM, PrimalDual, HQS | the arguments passed to the operators converge (C40, C41, C44, C45, C50, C95); at a limit strictly inside a region where the formula gives a constant, so do nearby arguments |
| C116 | ProximalPoint, ProximalGradient, ADMM, DouglasRachford, ConsensusADMM, PPXA, PrimalDual, AdaptivePrimalDual | the update leaves a subgradient at the new point whose norm is the change of the iterates; the loop that broke did so on the ratio test, which bounds the decrease and with it the change; explicit runs for the counterexamples |
| C117 | `prox` of any exact operator at two inputs, steps, weights, shifts or sets; the closed-form operators with two parameter values; pairs of solver runs | monotonicity of the subdifferential at the two results; closed forms (`soft = x - clip`, radial maps) with Lipschitz `min`/`max`; `inexact_bound` for runs, with ADMM rewritten as Douglas-Rachford; optimality conditions of the two minimisers; a jump of the hard threshold as the counterexample |
| C118 | the constructions of `Model/ProxOperator` and `Model/MutCalculus` applied to their own results | extensionality of operator objects, method by method, with the step checks of both levels compared; Moreau's identity for the inherited `proxdual` |
| C119 | the solvers of `Model/Primal` and `Model/PrimalDual` on problems with and without solution | orbits of averaged maps in finite dimension converge to a fixed point or go to infinity (`averaged_travel`: the distance travelled grows linearly unless the steps vanish; if they vanish a bounded subsequence ends in a fixed point). Two-point contraction of each solver's step is obtained from the existing one-point inequalities by shifting the output of a prox. |
| C120 | the solvers at complex arrays, `Model/ComplexSolve` (`MatrixMult` with a complex matrix, complex `AndersonProximalGradient`), `L1`, `L2` | the map to real and imaginary parts is an isometry that carries the complex objects to the real ones; then C108; explicit runs for the refutations |
| C121 | `TV` on complex arrays (`Model/ComplexTV`) | `Lemmas/DualFista`: accelerated projected gradient on the dual of a support function in any finite-dimensional space; the complex differences and divergence are adjoint because their real and imaginary parts are (C88); simulation of runs for rotations and for real images |
| C122 | `_lsqr` in `sr3.py` (`Model/SR3`) | invariant: the residual is `phi_bar` times a unit vector `q` with `A^T q = rho_bar v`; orthonormality of the bidiagonalisation bounds the number of passes by the dimension; zero norms mean that the normal equations hold |
| C123 | `ProximalGradient` with a bilinear operator as `proxf` (`Model/BilinearPG`): the stored blocks are part of the state | the stored blocks equal the current point (invariant), so the run is that on the joint function; gradient of the low-rank misfit by expansion; refuted with the scalar factorisation |
| C124 | `PPXA` on lists of any length, with `tol=None` (`Model/PPXACall`); `ConsensusADMM` with `tol=None` | an accepted iteration determines the lengths (induction over the list of functions); simulation by the typed model; refuted with the constant function |
| C125 | The solvers with a callback that changes the loop variables it is given; the arrays a callback has kept (`Model/CallbackEdit`) | simulation; a body that does not read what the callback writes sees only the last edit (induction over the loop); trajectories for the refuted cases |
| C126 | Attributes and the quantities derived from them at construction as separate fields, events (assignment, write into a shared array, call) as steps (`Model/Attributes`) | induction over the events; the stale objects are identified with objects of other parameters and the theorems C17, C21-C23 applied to those |
| C127 | The solvers with one object state threaded through all calls in the order of the code, lists as a table of objects and an index per entry (`Model/Shared`) | simulation of the loop by the pure one; for counters simulation by separate objects with strided schedules |
| C128 | the attribute assignments of `L2.prox`, `Nonlinear.prox`, the counters and `LowRankFactorizedMatrix.__call__` as lists; a stopped call does a prefix of them (Model/Interrupt) | Props/Interrupt: induction over histories with an invariant on the stored factorization; relation on the attributes later calls read; witnesses for the two violations |
| C129 | `LowRankFactorizedMatrix`, `gradtest_bilinear`, `PALM`, `iPALM` on complex blocks (`Model/ComplexBilinear`) | adjoints for the real part of the inner product, then the proofs of C54, C63, C82; backtracking refuted by a diverging 1 × 1 run computed for every iteration |
| C130 | `SingularValuePenalty` and `Nuclear` with an array `sigma` on complex matrices; SVD and `eigvalsh` as parameters | von Neumann trace inequality over the complex numbers; existence and uniqueness of the decomposition; the value refuted on `(t, i t)` |
| C131 | `AffineSet` and `Orthogonal` with a complex matrix; conjugate gradients as parameter | the conjugate transpose is the real adjoint; range of `A Aᴴ` is the range of `A`; then the variational inequality and the results over general inner product spaces |
| C132 | `ProximalGradient` and the gradient of `L2` with a rounding after each operation (`Model/RoundedPG`) | the forward step is nonexpansive for `tau L ≤ 2` and so is the prox, hence the errors of one iteration add up; a minimiser is a fixed point of the exact iteration, so the exact run stays in a ball and an induction keeps the computed run in twice that ball; stall by a fixed point of the rounded iteration |
| C133 | `DouglasRachfordSplitting` with a rounding after each operation (`Model/RoundedDR`) | the exact iteration is nonexpansive for `eta ≤ 2`, so the errors of one iteration add up; a stationary `y` keeps the exact run in a ball and an induction keeps the computed run in twice that ball |

## 5. Trusted base

* Lean 4.33.0 kernel and Mathlib.  Every theorem depends on at most the standard axioms
  `propext`, `Classical.choice`, `Quot.sound` (`#print axioms` on any of them lists a subset
  of these three); the project declares no axiom and uses neither `sorry` nor compiled evaluation.
* That the Lean definitions describe the Python code (checked by reading; each cites its lines).
* Exact real (or complex) arithmetic in place of floating point; no overflow, no rounding, except in `Model/Rounded`, `Model/RoundedPG` and
  `Model/RoundedDR` (C113, C114, C132, C133), where every operation is rounded.  There too there is no overflow or underflow; the computed norm of
  `Euclidean` and `EuclideanBall` is a parameter with a stated accuracy, and the values `__call__` returns are parameters.
* The assumptions on external code listed in the theorem hypotheses.

### Which code is modelled

| Python file | Lean module | Left out |
|---|---|---|
| `ProxOperator.py` | `Model/ProxOperator`, `Model/Counters` | `ncp`/dtype selection |
| `proximal/L0, L1, L2, L21, L21_plus_L1, Box, Euclidean, HalfSpace, Huber, Hankel, AffineSet, Quadratic, Orthogonal` | `Model/Proximal`, `Model/ProjOps`, `Model/L2`, `Model/Stack`, `Model/Conv`, `Model/Complex`, `Model/ComplexPenalties`, `Model/Special` (infinities and NaN), `Model/Rounded` (floating point: L0, L1, L2, Box, Huber, Euclidean), `Model/ComplexAffine`, `Model/Attributes` (parameters changed after construction) | the inner solvers themselves (parameters) |
| `proximal/Log, ETP, Geman, SCAD, RelaxedMS, QuadraticEnvelope, SingularValuePenalty, Nuclear` | `Model/NonConvex`, `Model/Envelope`, `Model/Nuclear`, `Model/ComplexPenalties`, `Model/ComplexMatrix`, `Model/ComplexSpectral` | the LAPACK routines themselves (parameters) |
| `proximal/TV` | `Model/TV`, `Model/ComplexTV` (complex images) | complex weights |
| `proximal/Nonlinear` | `Model/Nonlinear` | the body of a user's `optimize`, a parameter |
| `proximal/Sum, GenericIntersection, _Dykstra, Intersection, VStack` | `Model/Dykstra`, `Model/Intersection`, `Model/Stack` | |
| `proximal/Simplex, _Simplex_numba, _Simplex_cuda` | `Model/ProjOps`, `Model/SimplexEngines`, `Model/SimplexInt64`, `Model/Dtype` (integer arrays, without numba) | `dims=None` with numba beyond 64-bit integers; integer arrays with numba or cuda; out-of-bounds reads of the cuda kernel (`axis = -2`, not square) are one error value |
| `projection/*` | `Model/Projection`, `Model/Intersection`, `Model/Dykstra`, `Model/Nuclear`, `Model/ComplexMatrix` | |
| `optimization/primal` | `Model/Primal`, `Model/Special` (infinities and NaN, three solvers), `Model/Rounded`, `Model/RoundedPG`, `Model/RoundedDR` (floating point: ProximalPoint, ADMM, ProximalGradient, DouglasRachfordSplitting), `Model/Anderson`, `Model/Show`, `Model/Mutable` (operators that work in place) | the text printed by `show=True` apart from when it is printed |
| `optimization/primaldual` | `Model/PrimalDual` | printing |
| `optimization/pnp, bregman, sr3, palm, segmentation` | `Model/PnP`, `Model/Bregman`, `Model/SR3`, `Model/Palm`, `Model/Segment` | printing |
| `utils/moreau, bilinear, gradtest` | `Model/ProxOperator`, `Model/Palm`, `Model/BilinearPG`, `Model/ComplexBilinear`, `Model/GradTest` | random generation (the draws are arguments) |
| `utils/utils, utils/backend, utils/typing`, `__init__` files | none | version report, imports, type aliases: no behaviour to state |
