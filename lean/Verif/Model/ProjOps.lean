import Verif.Model.ProxOperator
import Verif.Model.Projection

/-! # Operators of `pyproximal/proximal` that wrap a projection -/

open scoped RealInnerProductSpace

namespace Verif

variable {ι κ : Type} [Fintype ι] [Fintype κ]
variable {E : Type} [NormedAddCommGroup E] [InnerProductSpace ℝ E]
variable {F : Type} [NormedAddCommGroup F] [InnerProductSpace ℝ F]

/-- `np.allclose(a, b)` with numpy's default tolerances `rtol=1e-5`, `atol=1e-8`. -/
def npAllclose (a b : Vec ι) : Prop := ∀ i, |a i - b i| ≤ 1 / 10 ^ 8 + 1 / 10 ^ 5 * |b i|

open Classical in
/-- `_Simplex` (proximal/Simplex.py:25-87) with `dims=None`; `callFlag` is the constructor's `call`. -/
noncomputable def Simplex (bisect : (ℝ → ℝ) → ℝ → ℝ → ℝ) (fuel : ℕ) (radius tol : ℝ) (callFlag : Bool) :
    ProxOp (Vec ι) where
  call := fun x => if callFlag = false then .ok (.bool false) else .ok (.bool (decide (¬ ((∑ i, x i - radius > tol ∨ ∑ i, x i - radius < -tol) ∨ ∃ i, x i < 0))))
  prox? := some fun x τ => checkTau τ (simplexProj bisect fuel radius x)
  proxdual? := none
  grad? := none
  hasgrad := false
  sigmame := 1

open Classical in
/-- `_Simplex` (proximal/Simplex.py:25-87) with `dims` given: `ι` enumerates the rows (the columns when
`axis=0`), `κ` the entries of one of them. -/
noncomputable def SimplexRows (bisect : (ℝ → ℝ) → ℝ → ℝ → ℝ) (fuel : ℕ) (radius tol : ℝ) (callFlag : Bool) :
    ProxOp (Vec (ι × κ)) where
  call := fun x => if callFlag = false then .ok (.bool false) else .ok (.bool (decide (∀ i, ¬ (|∑ j, x (i, j)| - radius > tol ∨ ∃ j, x (i, j) < 0))))
  prox? := some fun x τ => checkTau τ (
    if ∃ i, simplexProj bisect fuel radius (vmk fun j : κ => x (i, j)) = .error .outOfFuel then .error .outOfFuel
    else .ok (vmk fun ij => match simplexProj bisect fuel radius (vmk fun j : κ => x (ij.1, j)) with
      | .ok y => y ij.2
      | .error _ => 0))
  proxdual? := none
  grad? := none
  hasgrad := false
  sigmame := 1

open Classical in
/-- `L1Ball` (proximal/L1.py:182-201). -/
noncomputable def L1Ball (bisect : (ℝ → ℝ) → ℝ → ℝ → ℝ) (fuel : ℕ) (radius tol : ℝ) : ProxOp (Vec ι) where
  call := fun x => .ok (.bool (decide (∑ i, |x i| - radius < tol)))
  prox? := some fun x τ => checkTau τ (l1BallProj bisect fuel radius x)
  proxdual? := none
  grad? := none
  hasgrad := false
  sigmame := 1

open Classical in
/-- `L0Ball` (proximal/L0.py:135-164) with a constant radius; `argsort x` is `np.argsort(np.abs(x))`. -/
noncomputable def L0Ball (argsort : Vec ι → List ι) (radius : ℕ) : ProxOp (Vec ι) where
  call := fun x => .ok (.bool (decide ((Finset.univ.filter fun i => x i ≠ 0).card ≤ radius)))
  prox? := some fun x τ => checkTau τ (.ok (l0BallProj radius (argsort x) x))
  proxdual? := none
  grad? := none
  hasgrad := false
  sigmame := 1

open Classical in
/-- `L10Ball` (proximal/L0.py:195-227) with a constant radius on the reshaped array; `argsort` sorts the L1 norms of the
columns. -/
noncomputable def L10Ball (argsort : (κ → ℝ) → List κ) (radius : ℕ) : ProxOp (Vec (ι × κ)) where
  call := fun x => .ok (.bool (decide ((Finset.univ.filter fun j => colL1 x j ≠ 0).card ≤ radius)))
  prox? := some fun x τ => checkTau τ (.ok (l10BallProj radius (argsort (colL1 x)) x))
  proxdual? := none
  grad? := none
  hasgrad := false
  sigmame := 1

open Classical in
/-- `AffineSet` (proximal/AffineSet.py:40-53). -/
noncomputable def AffineSet (cg : (Vec κ → Vec κ) → Vec κ → Vec κ) (Op : LinOp E (Vec κ)) (b : Vec κ) : ProxOp E where
  call := fun x => .ok (.bool (decide (npAllclose (Op.matvec x) b)))
  prox? := some fun x τ => checkTau τ (.ok (affineSetProj cg Op b x))
  proxdual? := none
  grad? := none
  hasgrad := false
  sigmame := 1

open Classical in
/-- `Hankel` (proximal/Hankel.py:26-38); the flat array is identified with the matrix. -/
noncomputable def Hankel {m n : ℕ} : ProxOp (Vec (Fin m × Fin n)) where
  call := fun x => .ok (.bool (decide (npAllclose x (hankelProj x))))
  prox? := some fun x τ => checkTau τ (.ok (hankelProj x))
  proxdual? := none
  grad? := none
  hasgrad := false
  sigmame := 1

/-- The loop of `bisect_jit` (proximal/_Simplex_numba.py:64-76) with `k` iterations left: `a`, `b` the current ends, `fa`
the value at `a`, `c` the last midpoint. -/
noncomputable def bisectLoop (f : ℝ → ℝ) (ftol xtol : ℝ) : ℕ → ℝ → ℝ → ℝ → ℝ → ℝ
  | 0, _, _, _, c => c
  | k + 1, a, b, fa, _ =>
    let c := (a + b) / 2
    if (b - a) / 2 < xtol then c
    else
      let fc := f c
      if |fc| < ftol then c
      else if npsign fc = npsign fa then bisectLoop f ftol xtol k c b fc c
      else bisectLoop f ftol xtol k a c fa c

/-- `bisect_jit` (proximal/_Simplex_numba.py:24-76) for the residual function `f`; with `maxiter = 0` the variable `c` is
unbound. -/
noncomputable def bisectJit (f : ℝ → ℝ) (lower upper : ℝ) (maxiter : ℕ) (ftol xtol : ℝ) : Py ℝ :=
  if maxiter = 0 then .error .unboundLocalError
  else .ok (bisectLoop f ftol xtol maxiter lower upper (f lower) 0)

/-- The projection computed by `_Simplex_numba.prox` for one vector (proximal/Simplex.py:111-136): the two bracketing
loops, `bisect_jit`, and the final clip between 0 and 1e10. -/
noncomputable def simplexNumbaProj (fuel : ℕ) (radius : ℝ) (maxiter : ℕ) (ftol xtol : ℝ) (x : Vec ι) : Py (Vec ι) := do
  let coeffs : Vec ι := vmk fun _ => 1
  let lower : ι → Bound := fun _ => some 0
  let upper : ι → Bound := fun _ => some 10000000000
  let f := hpbFun coeffs radius lower upper x
  let a ← bracketLower f fuel (-1)
  let b ← bracketUpper f fuel 1
  let c ← bisectJit f a b maxiter ftol xtol
  pure (boxProj lower upper (x - c • coeffs))

/-- `_Simplex_numba` (proximal/Simplex.py:92-152) with `dims=None`; `__call__` is inherited from `_Simplex`. -/
noncomputable def SimplexNumba (fuel : ℕ) (radius tol : ℝ) (maxiter : ℕ) (ftol xtol : ℝ) (callFlag : Bool) :
    ProxOp (Vec ι) where
  call := (Simplex (fun _ _ _ => 0) fuel radius tol callFlag).call
  prox? := some fun x τ => checkTau τ (simplexNumbaProj fuel radius maxiter ftol xtol x)
  proxdual? := none
  grad? := none
  hasgrad := false
  sigmame := 1

end Verif
