import Verif.Model.SimplexEngines

/-!
# The compiled bracketing loops of `Simplex` with 64-bit integers

In `simplex_jit` (_Simplex_numba.py:114-119) and `simplex_jit_cuda` (_Simplex_cuda.py:65-70) the ends of the bracket are compiled to integers of 64 bits: `-1` and `1` are int64, and so is their double,
which wraps around.
-/

open scoped RealInnerProductSpace

namespace Verif

/-- The value of a 64-bit integer after wrapping around. -/
def wrap64 (z : ℤ) : ℤ := (z + 2 ^ 63) % 2 ^ 64 - 2 ^ 63

open Classical in
/-- `while fun(bisect_lower) < 0: bisect_lower *= 2` (_Simplex_numba.py:115-116, _Simplex_cuda.py:66-67).  The loop is given fuel. -/
noncomputable def bracketLower64 (f : ℝ → ℝ) : ℕ → ℤ → Py ℝ
  | 0, _ => .error .outOfFuel
  | n + 1, m => if f m < 0 then bracketLower64 f n (wrap64 (m * 2)) else .ok m

open Classical in
/-- `while fun(bisect_upper) > 0: bisect_upper *= 2` (_Simplex_numba.py:118-119, _Simplex_cuda.py:69-70). -/
noncomputable def bracketUpper64 (f : ℝ → ℝ) : ℕ → ℤ → Py ℝ
  | 0, _ => .error .outOfFuel
  | n + 1, m => if f m > 0 then bracketUpper64 f n (wrap64 (m * 2)) else .ok m

/-- One row of `simplex_jit` (_Simplex_numba.py:114-132); `bisect_jit` starts from the integers and continues with floats. -/
noncomputable def simplexJitRow {C : ℕ} (fuel : ℕ) (radius : ℝ) (maxiter : ℕ) (ftol xtol : ℝ) (x : Vec (Fin C)) : Py (Vec (Fin C)) := do
  let coeffs : Vec (Fin C) := vmk fun _ => 1
  let lower : Fin C → Bound := fun _ => some 0
  let upper : Fin C → Bound := fun _ => some 10000000000
  let f := hpbFun coeffs radius lower upper x
  let a ← bracketLower64 f fuel (-1)
  let b ← bracketUpper64 f fuel 1
  let c ← bisectJit f a b maxiter ftol xtol
  pure (boxProj lower upper (x - c • coeffs))

/-- One thread of `simplex_jit_cuda` (_Simplex_cuda.py:64-86). -/
noncomputable def simplexCudaRow {C : ℕ} (fuel : ℕ) (radius : ℝ) (maxiter : ℕ) (ftol xtol : ℝ) (x : Vec (Fin C)) : Py (Vec (Fin C)) := do
  let coeffs : Vec (Fin C) := vmk fun _ => 1
  let f := funCuda coeffs radius 0 10000000000 x
  let a ← bracketLower64 f fuel (-1)
  let b ← bracketUpper64 f fuel 1
  let c ← bisectJitCuda f a b maxiter ftol xtol
  pure (vmk fun j => min (max (x j - c * coeffs j) 0) 10000000000)

/-- The row loop of `simplex_jit` (_Simplex_numba.py:80-133). -/
noncomputable def numbaRows64 (env : SimplexEnv) (R C : ℕ) (x : Fin R → Vec (Fin C)) : Py (Fin R → Vec (Fin C)) :=
  rowLoop (simplexJitRow env.fuel env.radius env.maxiter env.ftol env.xtol) x

end Verif
