import Verif.Model.ProxOperator
import Verif.Model.Projection

/-! # Model of the closed-form operators of `pyproximal/proximal` -/

open scoped RealInnerProductSpace

namespace Verif

variable {ι κ : Type} [Fintype ι] [Fintype κ]
variable {E : Type} [NormedAddCommGroup E] [InnerProductSpace ℝ E]

/-- `_softthreshold` on one entry (proximal/L1.py:36); the complex branch is `cSoft` in `Model/Complex`. -/
noncomputable def softScalar (x thresh : ℝ) : ℝ := max (|x| - thresh) 0 * npsign x

/-- `_softthreshold` (proximal/L1.py:13-38) with a threshold per entry (a scalar one is constant). -/
noncomputable def softthreshold (x : Vec ι) (thresh : ι → ℝ) : Vec ι := vmk fun i => softScalar (x i) (thresh i)

/-- `L1` (proximal/L1.py:107-154) with a constant scalar `sigma` and real arrays of any shape.  The call counter has
no effect for constant `sigma` and is modelled in `Model/Counters.lean`. `g = none` is the default. -/
noncomputable def L1 (σ : ℝ) (g : Option (Vec ι)) : ProxOp (Vec ι) :=
  let pr : Vec ι → ℝ → Py (Vec ι) := fun x τ => checkTau τ (.ok (match g with
    | none => softthreshold x fun _ => τ * σ
    | some g => softthreshold (x - g) (fun _ => τ * σ) + g))
  { call := fun x => match g with
      | none => .ok (.num (σ * ∑ i, |x i|))
      | some g => .ok (.num (σ * ∑ i, |(x - g) i|))
    prox? := some pr
    proxdual? := some fun x τ => checkTau τ (match g with
      | none => .ok (boxProj (fun _ => some (-σ)) (fun _ => some σ) x)
      | some _ => ProxOp.moreauStep pr x τ)
    grad? := none
    hasgrad := false
    sigmame := 1 }

/-- `L1` (proximal/L1.py:107-154) for a 2-dimensional array (rows `ι`, columns `κ`) with one `sigma` per column. -/
noncomputable def L1cols (σ : κ → ℝ) (g : Option (Vec (ι × κ))) : ProxOp (Vec (ι × κ)) :=
  let pr : Vec (ι × κ) → ℝ → Py (Vec (ι × κ)) := fun x τ => checkTau τ (.ok (match g with
    | none => softthreshold x fun ij => τ * σ ij.2
    | some g => softthreshold (x - g) (fun ij => τ * σ ij.2) + g))
  { call := fun x => match g with
      | none => .ok (.num (∑ j, σ j * ∑ i, |x (i, j)|))
      | some g => .ok (.num (∑ j, σ j * ∑ i, |(x - g) (i, j)|))
    prox? := some pr
    proxdual? := some fun x τ => checkTau τ (match g with
      | none => .ok (boxProj (fun ij => some (-σ ij.2)) (fun ij => some (σ ij.2)) x)
      | some _ => ProxOp.moreauStep pr x τ)
    grad? := none
    hasgrad := false
    sigmame := 1 }

/-- `Euclidean` (proximal/Euclidean.py:42-62).  In `prox` both operands of the division are Python floats
(`ZeroDivisionError`), in `proxdual` and `grad` numpy divides an array (NaN). -/
noncomputable def Euclidean (σ : ℝ) : ProxOp E where
  call := fun x => .ok (.num (σ * ‖x‖))
  prox? := some fun x τ => checkTau τ (
    if max ‖x‖ (τ * σ) = 0 then .error .zeroDivisionError
    else .ok ((1 - (τ * σ) / max ‖x‖ (τ * σ)) • x))
  proxdual? := some fun x τ => checkTau τ (
    if max ‖x‖ σ = 0 then .error .nanResult
    else .ok ((1 / max ‖x‖ σ) • (σ • x)))
  grad? := some fun x => if ‖x‖ = 0 then .error .nanResult else .ok ((1 / ‖x‖) • (σ • x))
  hasgrad := true
  sigmame := 1

/-- `np.sqrt(np.sum(x**2, axis=0))`: the norms of the columns. -/
noncomputable def colNorm (x : Vec (ι × κ)) (j : κ) : ℝ := √(∑ i, (x (i, j)) ^ 2)

open Classical in
/-- `L21` (proximal/L21.py:61-85) on the reshaped array: `ι` the `ndim` rows, `κ` the columns.  The flat input and
output are identified with the matrix (row-major reshape and ravel). -/
noncomputable def L21 (σ : ℝ) : ProxOp (Vec (ι × κ)) where
  call := fun x => .ok (.num (σ * ∑ j, colNorm x j))
  prox? := some fun x τ => checkTau τ (
    if ∃ ij : ι × κ, max (colNorm x ij.2) (τ * σ) = 0 then .error .nanResult
    else .ok (vmk fun ij => (1 - (τ * σ) / max (colNorm x ij.2) (τ * σ)) * x ij))
  proxdual? := some fun x τ => checkTau τ (
    if ∃ ij : ι × κ, max (colNorm x ij.2) σ = 0 then .error .nanResult
    else .ok (vmk fun ij => σ * x ij / max (colNorm x ij.2) σ))
  grad? := none
  hasgrad := false
  sigmame := 1

/-- `np.maximum(1 - a / b, 0)` for `a, b >= 0` with numpy's division: `a / 0` is `inf` for `a > 0` (result 0) and NaN for
`a = 0` (reported as `nanResult`).  Used at proximal/L21_plus_L1.py:52. -/
noncomputable def shrinkFactor (a b : ℝ) : Py ℝ :=
  if b = 0 then (if a = 0 then .error .nanResult else if 0 < a then .ok 0 else .error .nanResult)
  else .ok (max (1 - a / b) 0)

/-- `np.nan_to_num(x / np.abs(x))` on one real entry (proximal/L21_plus_L1.py:53): `0/0` is NaN, replaced by 0. -/
noncomputable def signNan (x : ℝ) : ℝ := if x = 0 then 0 else x / |x|

/-- Entries of `l1` (proximal/L21_plus_L1.py:47). -/
noncomputable def l1Shrink (σ ρ τ : ℝ) (x : Vec (ι × κ)) : Vec (ι × κ) :=
  vmk fun ij => max (|x ij| - σ * τ * ρ) 0

open Classical in
/-- `L21_plus_L1` (proximal/L21_plus_L1.py:33-54) for real 2-dimensional input, `axis=0`.  A NaN in one column
makes the whole result `nanResult`. -/
noncomputable def L21plusL1 (σ ρ : ℝ) : ProxOp (Vec (ι × κ)) where
  call := fun x => .ok (.num (ρ * σ * ∑ ij, |x ij| + (1 - ρ) * σ * ∑ j, colNorm x j))
  prox? := some fun x τ => checkTau τ (
    let l1 := l1Shrink σ ρ τ x
    if ∃ ij : ι × κ, shrinkFactor (σ * τ * (1 - ρ)) (colNorm l1 ij.2) = .error .nanResult then .error .nanResult
    else .ok (vmk fun ij => signNan (x ij) * l1 ij *
      Py.get (shrinkFactor (σ * τ * (1 - ρ)) (colNorm l1 ij.2))))
  proxdual? := none
  grad? := none
  hasgrad := false
  sigmame := 1

open Classical in
/-- `HuberCircular` (proximal/Huber.py:109-124).  Calling it with `alpha = 0` at `x = 0` gives NaN (`0/0`), where the model has 0. -/
noncomputable def HuberCircular (α : ℝ) : ProxOp E where
  call := fun x => .ok (.num (if ‖x‖ ≤ α then ‖x‖ ^ 2 / (2 * α) else ‖x‖ - α / 2))
  prox? := some fun x τ => checkTau τ (
    if max ‖x‖ (τ + α) = 0 then .error .zeroDivisionError
    else .ok ((1 - τ / max ‖x‖ (τ + α)) • x))
  proxdual? := none
  grad? := none
  hasgrad := false
  sigmame := 1

/-- `Huber` (proximal/Huber.py:45-71): entries not above `alpha` go through `L2(sigma=1/alpha).prox`, which without `Op`,
`b`, `q` is division by `1 + tau*sigma` (proximal/L2.py), the others through `L1().prox`.
For `alpha = 0` the constructor raises `ZeroDivisionError` (Huber.py:48), so the model stands for `alpha` not zero. -/
noncomputable def Huber (α : ℝ) : ProxOp (Vec ι) where
  call := fun x => .ok (.num (∑ i, if |x i| > α then |x i| - α / 2 else |x i| ^ 2 / (2 * α)))
  prox? := some fun x τ => checkTau τ (.ok (vmk fun i =>
    if |x i| > α then softScalar (x i) (τ * 1) else x i / (1 + τ * (1 / α))))
  proxdual? := none
  grad? := none
  hasgrad := false
  sigmame := 1

open Classical in
/-- `Box` (proximal/Box.py:28-43). -/
noncomputable def Box (lower upper : ι → Bound) : ProxOp (Vec ι) where
  call := fun x => .ok (.bool (decide (∀ i, geLower (x i) (lower i) ∧ leUpper (x i) (upper i))))
  prox? := some fun x τ => checkTau τ (.ok (boxProj lower upper x))
  proxdual? := none
  grad? := none
  hasgrad := false
  sigmame := 1

open Classical in
/-- `HalfSpace` (proximal/HalfSpace.py:29-40). -/
noncomputable def HalfSpace (w : E) (b : ℝ) : ProxOp E where
  call := fun x => .ok (.bool (decide (⟪w, x⟫ ≤ b)))
  prox? := some fun x τ => checkTau τ (halfSpaceProj w b x)
  proxdual? := none
  grad? := none
  hasgrad := false
  sigmame := 1

open Classical in
/-- `EuclideanBall` (proximal/Euclidean.py:86-97). -/
noncomputable def EuclideanBall (center : E) (radius : ℝ) : ProxOp E where
  call := fun x => .ok (.bool (decide (‖x - center‖ ≤ radius)))
  prox? := some fun x τ => checkTau τ (euclideanBallProj center radius x)
  proxdual? := none
  grad? := none
  hasgrad := false
  sigmame := 1

end Verif
