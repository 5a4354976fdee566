import Verif.Model.ProjOps
import Mathlib.Logic.Equiv.Fin.Basic

/-! # The engines of `Simplex`: numpy, numba and cuda, with `dims` and `axis` (`pyproximal/proximal/Simplex.py`) -/

open scoped RealInnerProductSpace

namespace Verif

variable {n : ℕ}

/-- `x.reshape(dims)` in row-major order: entry `(i, j)` is entry `i * d1 + j` of `x` (Simplex.py:81, 137, 182). -/
noncomputable def reshape2 (d0 d1 : ℕ) (h : d0 * d1 = n) (x : Vec (Fin n)) : Fin d0 → Vec (Fin d1) :=
  fun i => vmk fun j => x (Fin.cast h (finProdFinEquiv (i, j)))

/-- `y.ravel()` of a two-dimensional array, again in row-major order (Simplex.py:89, 152, 205). -/
noncomputable def ravel2 (d0 d1 : ℕ) (h : d0 * d1 = n) (y : Fin d0 → Vec (Fin d1)) : Vec (Fin n) :=
  vmk fun k => y (finProdFinEquiv.symm (Fin.cast h.symm k)).1 (finProdFinEquiv.symm (Fin.cast h.symm k)).2

/-- `x.T` of a two-dimensional array (Simplex.py:83, 88, 139, 151, 184, 204). -/
noncomputable def transpose2 {a b : ℕ} (y : Fin a → Vec (Fin b)) : Fin b → Vec (Fin a) := fun j => vmk fun i => y i j

/-- `y = zeros_like(x); for i in range(...): y[i] = f(x[i])`: the row loop of the numpy engine (Simplex.py:84-86) and of
`simplex_jit` (_Simplex_numba.py:112-132). -/
noncomputable def rowLoop {R C : ℕ} (f : Vec (Fin C) → Py (Vec (Fin C))) (x : Fin R → Vec (Fin C)) :
    Py (Fin R → Vec (Fin C)) :=
  (List.finRange R).foldlM (fun y i => do
    let v ← f (x i)
    pure (Function.update y i v)) (fun _ => 0)

open Classical in
/-- The test `fc / abs(fc) == fa / abs(fa)` of `bisect_jit_cuda` (_Simplex_cuda.py:28): a zero operand gives NaN, which
is equal to nothing. -/
def cudaSameSign (fc fa : ℝ) : Prop := fc ≠ 0 ∧ fa ≠ 0 ∧ fc / |fc| = fa / |fa|

open Classical in
/-- The loop of `bisect_jit_cuda` (_Simplex_cuda.py:19-33) with `k` iterations left. -/
noncomputable def bisectLoopCuda (f : ℝ → ℝ) (ftol xtol : ℝ) : ℕ → ℝ → ℝ → ℝ → ℝ → ℝ
  | 0, _, _, _, c => c
  | k + 1, a, b, fa, _ =>
    let c := (a + b) / 2
    if (b - a) / 2 < xtol then c
    else
      let fc := f c
      if |fc| < ftol then c
      else if cudaSameSign fc fa then bisectLoopCuda f ftol xtol k c b fc c
      else bisectLoopCuda f ftol xtol k a c fa c

/-- `bisect_jit_cuda` (_Simplex_cuda.py:15-33).  With `maxiter = 0` the returned variable is never assigned; on the device
its content is undefined, which is reported here as the error Python would raise. -/
noncomputable def bisectJitCuda (f : ℝ → ℝ) (lower upper : ℝ) (maxiter : ℕ) (ftol xtol : ℝ) : Py ℝ :=
  if maxiter = 0 then .error .unboundLocalError
  else .ok (bisectLoopCuda f ftol xtol maxiter lower upper (f lower) 0)

/-- `fun_jit_cuda` (_Simplex_cuda.py:6-11): the sum is accumulated entry by entry. -/
noncomputable def funCuda {C : ℕ} (coeffs : Vec (Fin C)) (scalar lower upper : ℝ) (x : Vec (Fin C)) (μ : ℝ) : ℝ :=
  (List.finRange C).foldl (fun p i => p + coeffs i * min (max (x i - μ * coeffs i) lower) upper) 0 - scalar

/-- What one thread of `simplex_jit_cuda` computes for its row (_Simplex_cuda.py:64-86): the two bracketing loops, the
bisection and the clipped entries. -/
noncomputable def simplexCudaProj {C : ℕ} (fuel : ℕ) (radius : ℝ) (maxiter : ℕ) (ftol xtol : ℝ) (x : Vec (Fin C)) :
    Py (Vec (Fin C)) := do
  let coeffs : Vec (Fin C) := vmk fun _ => 1
  let f := funCuda coeffs radius 0 10000000000 x
  let a ← bracketLower f fuel (-1)
  let b ← bracketUpper f fuel 1
  let c ← bisectJitCuda f a b maxiter ftol xtol
  pure (vmk fun j => min (max (x j - c * coeffs j) 0) 10000000000)

open Classical in
/-- One store `y[i][j] = ...` of thread `t` of block `b` (_Simplex_cuda.py:62-86): `i = t + b * blockDim`, and nothing
happens when `i` is not a row. -/
noncomputable def cudaStore {R C : ℕ} (f : Vec (Fin C) → Py (Vec (Fin C))) (x : Fin R → Vec (Fin C)) (T : ℕ)
    (y : Fin R → Fin C → ℝ) (e : ℕ × ℕ × Fin C) : Py (Fin R → Fin C → ℝ) :=
  let i := e.2.1 + e.1 * T
  if h : i < R then do
    let v ← f (x ⟨i, h⟩)
    pure (Function.update y ⟨i, h⟩ (Function.update (y ⟨i, h⟩) e.2.2 (v e.2.2)))
  else pure y

/-- All stores of a launch of `num_blocks = (rows + T - 1) // T` blocks of `T` threads (Simplex.py:189-191), each thread
storing `C` entries; listed block by block. -/
def cudaGrid (R C T : ℕ) : List (ℕ × ℕ × Fin C) :=
  (List.range ((R + T - 1) / T)).flatMap fun b => (List.range T).flatMap fun t => (List.finRange C).map fun j => (b, t, j)

/-- A launch of the kernel (Simplex.py:188-202): the stores happen in the order `sched`, starting from the uninitialised
array `junk` of `empty_like`. -/
noncomputable def cudaLoop {R C : ℕ} (f : Vec (Fin C) → Py (Vec (Fin C))) (T : ℕ) (sched : List (ℕ × ℕ × Fin C))
    (junk : Fin R → Fin C → ℝ) (x : Fin R → Vec (Fin C)) : Py (Fin R → Vec (Fin C)) := do
  let y ← sched.foldlM (cudaStore f x T) junk
  pure (fun i => vmk (y i))

/-- The `dims` branch of the three `prox` methods (Simplex.py:80-89, 136-152, 182-205); `loop` treats the rows of the
array it is given.  The coefficients have length `dims[axis]`; only for `axis = -2` (which does not transpose) this can
differ from the length of a row, and then the first row raises a `ValueError` in numpy and numba; cuda would read
outside the row, which is reported as `mism` too. -/
noncomputable def simplexDims (loop : ∀ R C : ℕ, (Fin R → Vec (Fin C)) → Py (Fin R → Vec (Fin C))) (mism : PyErr)
    (d0 d1 : ℕ) (axis : ℤ) (x : Vec (Fin n)) : Py (Vec (Fin n)) :=
  if h : d0 * d1 = n then
    if axis = 0 then do
      let y ← loop d1 d0 (transpose2 (reshape2 d0 d1 h x))
      pure (ravel2 d0 d1 h (transpose2 y))
    else if axis = -2 ∧ d0 ≠ d1 ∧ 0 < d0 then .error mism
    else do
      let y ← loop d0 d1 (reshape2 d0 d1 h x)
      pure (ravel2 d0 d1 h y)
  else .error .valueError

open Classical in
/-- The test of one row in `_Simplex.__call__` (Simplex.py:70-72). -/
noncomputable def simplexRowOk {C : ℕ} (radius tol : ℝ) (x : Vec (Fin C)) : Bool :=
  decide (¬ (|∑ j, x j| - radius > tol ∨ ∃ j, x j < 0))

open Classical in
/-- `_Simplex.__call__` with `dims` (Simplex.py:59-60, 64-74), inherited by the other two classes. -/
noncomputable def simplexDimsCall (radius tol : ℝ) (callFlag : Bool) (d0 d1 : ℕ) (axis : ℤ) (x : Vec (Fin n)) :
    Py CallVal :=
  if callFlag = false then .ok (.bool false)
  else if h : d0 * d1 = n then
    if axis = 0 then
      .ok (.bool ((List.finRange d1).all fun i => simplexRowOk radius tol (transpose2 (reshape2 d0 d1 h x) i)))
    else .ok (.bool ((List.finRange d0).all fun i => simplexRowOk radius tol (reshape2 d0 d1 h x i)))
  else .error .valueError

/-- The settings of the constructors that reach the computation (Simplex.py:28-56, 95-108, 162-177), together with what
is outside of Python: `bisect` is `scipy.optimize.bisect`, `fuel` bounds the bracketing loops, `sched` and `junk` are
the order of the stores and the uninitialised output array of a cuda launch. -/
structure SimplexEnv where
  bisect : (ℝ → ℝ) → ℝ → ℝ → ℝ
  fuel : ℕ
  radius : ℝ
  tol : ℝ
  callFlag : Bool
  maxiter : ℕ
  ftol : ℝ
  xtol : ℝ
  threads : ℕ
  sched : ∀ _R C : ℕ, List (ℕ × ℕ × Fin C)
  junk : ∀ R C : ℕ, Fin R → Fin C → ℝ

/-- The operator of a `_Simplex*` object with `dims = (d0, d1)` and row loop `loop` (Simplex.py:58-89, 110-152, 179-205). -/
noncomputable def SimplexMat (env : SimplexEnv) (loop : ∀ R C : ℕ, (Fin R → Vec (Fin C)) → Py (Fin R → Vec (Fin C)))
    (mism : PyErr) (d0 d1 : ℕ) (axis : ℤ) : ProxOp (Vec (Fin n)) where
  call := simplexDimsCall env.radius env.tol env.callFlag d0 d1 axis
  prox? := some fun x τ => checkTau τ (simplexDims loop mism d0 d1 axis x)
  proxdual? := none
  grad? := none
  hasgrad := false
  sigmame := 1

/-- The row loop of the numpy engine (Simplex.py:84-86). -/
noncomputable def numpyRows (env : SimplexEnv) (R C : ℕ) (x : Fin R → Vec (Fin C)) : Py (Fin R → Vec (Fin C)) :=
  rowLoop (simplexProj env.bisect env.fuel env.radius) x

/-- The row loop of the numba engine, `simplex_jit` (_Simplex_numba.py:80-133). -/
noncomputable def numbaRows (env : SimplexEnv) (R C : ℕ) (x : Fin R → Vec (Fin C)) : Py (Fin R → Vec (Fin C)) :=
  rowLoop (simplexNumbaProj env.fuel env.radius env.maxiter env.ftol env.xtol) x

/-- The row loop of the cuda engine, `simplex_jit_cuda` (_Simplex_cuda.py:37-86). -/
noncomputable def cudaRows (env : SimplexEnv) (R C : ℕ) (x : Fin R → Vec (Fin C)) : Py (Fin R → Vec (Fin C)) :=
  cudaLoop (simplexCudaProj env.fuel env.radius env.maxiter env.ftol env.xtol) env.threads (env.sched R C) (env.junk R C) x

/-- The operator that raises on every evaluation: `_Simplex_cuda` without `dims`, whose kernel does not accept a
one-dimensional array (Simplex.py:180-202). -/
noncomputable def SimplexCudaNoDims (env : SimplexEnv) : ProxOp (Vec (Fin n)) where
  call := (Simplex env.bisect env.fuel env.radius env.tol env.callFlag).call
  prox? := some fun _ τ => checkTau τ (.error .typeError)
  proxdual? := none
  grad? := none
  hasgrad := false
  sigmame := 1

/-- Constructor of the three classes (Simplex.py:28-56, 95-108, 162-177): `noDims` is the operator without `dims`. -/
noncomputable def simplexInit (env : SimplexEnv) (noDims : ProxOp (Vec (Fin n)))
    (loop : ∀ R C : ℕ, (Fin R → Vec (Fin C)) → Py (Fin R → Vec (Fin C))) (mism : PyErr)
    (dims : Option (List ℕ)) (axis : ℤ) : Py (ProxOp (Vec (Fin n))) :=
  match dims with
  | none => .ok noDims
  | some [d0, d1] => if -2 ≤ axis ∧ axis ≤ 1 then .ok (SimplexMat env loop mism d0 d1 axis) else .error .indexError
  | some _ => .error .valueError

/-- The function `Simplex` (Simplex.py:208-300): `jit` says whether numba could be imported.  The factory always uses 32
threads per block. -/
noncomputable def simplexFactory (env : SimplexEnv) (jit : Bool) (engine : String) (dims : Option (List ℕ)) (axis : ℤ) :
    Py (ProxOp (Vec (Fin n))) :=
  if engine ∉ ["numpy", "numba", "cuda"] then .error .keyError
  else if engine = "numba" ∧ jit = true then
    simplexInit env (SimplexNumba env.fuel env.radius env.tol env.maxiter env.ftol env.xtol env.callFlag)
      (numbaRows env) .valueError dims axis
  else if engine = "cuda" ∧ jit = true then
    simplexInit env (SimplexCudaNoDims env) (cudaRows { env with threads := 32 }) .runtimeError dims axis
  else
    simplexInit env (Simplex env.bisect env.fuel env.radius env.tol env.callFlag) (numpyRows env) .valueError dims axis

end Verif
