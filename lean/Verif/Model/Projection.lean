import Verif.Model.Vec

/-! # Model of `pyproximal/projection` -/

open scoped RealInnerProductSpace

namespace Verif

variable {ι : Type} [Fintype ι]
variable {E : Type} [NormedAddCommGroup E] [InnerProductSpace ℝ E]
variable {F : Type} [NormedAddCommGroup F] [InnerProductSpace ℝ F]

/-- `BoxProj.__call__` on one entry (projection/Box.py:48-50). -/
noncomputable def boxClip (lower upper : Bound) (x : ℝ) : ℝ := minUpper (maxLower x lower) upper

/-- `BoxProj.__call__` (projection/Box.py:48-50); a scalar bound is the constant function. -/
noncomputable def boxProj (lower upper : ι → Bound) (x : Vec ι) : Vec ι :=
  vmk fun i => boxClip (lower i) (upper i) (x i)

/-- The residual `fun(mu)` of `HyperPlaneBoxProj.__call__` (projection/Box.py:131-134). -/
noncomputable def hpbFun (c : Vec ι) (scalar : ℝ) (lower upper : ι → Bound) (x : Vec ι) (μ : ℝ) : ℝ :=
  ⟪c, boxProj lower upper (x - μ • c)⟫ - scalar

open Classical in
/-- `bisect_lower = -1; while fun(bisect_lower) < 0: bisect_lower *= 2` (projection/Box.py:141-143).
The loop is given fuel. -/
noncomputable def bracketLower (f : ℝ → ℝ) : ℕ → ℝ → Py ℝ
  | 0, _ => .error .outOfFuel
  | n + 1, m => if f m < 0 then bracketLower f n (m * 2) else .ok m

open Classical in
/-- `bisect_upper = 1; while fun(bisect_upper) > 0: bisect_upper *= 2` (projection/Box.py:145-147). -/
noncomputable def bracketUpper (f : ℝ → ℝ) : ℕ → ℝ → Py ℝ
  | 0, _ => .error .outOfFuel
  | n + 1, m => if f m > 0 then bracketUpper f n (m * 2) else .ok m

/-- `HyperPlaneBoxProj.__call__` (projection/Box.py:121-160) with `scipy.optimize.bisect` as the parameter
`bisect f a b` and fuel for the two bracketing loops. -/
noncomputable def hyperPlaneBoxProj (bisect : (ℝ → ℝ) → ℝ → ℝ → ℝ) (fuel : ℕ)
    (c : Vec ι) (scalar : ℝ) (lower upper : ι → Bound) (x : Vec ι) : Py (Vec ι) := do
  let f := hpbFun c scalar lower upper x
  let a ← bracketLower f fuel (-1)
  let b ← bracketUpper f fuel 1
  let μ := bisect f a b
  pure (boxProj lower upper (x - μ • c))

/-- `SimplexProj` (projection/Simplex.py:36-56): coefficients all one, bounds 0 and inf. -/
noncomputable def simplexProj (bisect : (ℝ → ℝ) → ℝ → ℝ → ℝ) (fuel : ℕ) (radius : ℝ)
    (x : Vec ι) : Py (Vec ι) :=
  hyperPlaneBoxProj bisect fuel (vmk fun _ => 1) radius (fun _ => some 0) (fun _ => none) x

/-- `L1BallProj.__call__` for real input (projection/L1.py:51-55). -/
noncomputable def l1BallProj (bisect : (ℝ → ℝ) → ℝ → ℝ → ℝ) (fuel : ℕ) (radius : ℝ)
    (x : Vec ι) : Py (Vec ι) := do
  let s ← simplexProj bisect fuel radius (vmk fun i => |x i|)
  pure (vmk fun i => npsign (x i) * s i)

/-- `EuclideanBallProj.__call__` (projection/Euclidean.py:39-43).  Both operands of the division are Python
floats, so a zero denominator raises `ZeroDivisionError`. -/
noncomputable def euclideanBallProj (center : E) (radius : ℝ) (x : E) : Py E :=
  if max ‖x - center‖ radius = 0 then .error .zeroDivisionError
  else .ok (center + (radius / max ‖x - center‖ radius) • (x - center))

/-- `HalfSpaceProj.__call__` (projection/HalfSpace.py:46-53); for `w = 0` outside the (empty) half space numpy
divides by zero and the result is NaN. -/
noncomputable def halfSpaceProj (w : E) (b : ℝ) (x : E) : Py E :=
  if ⟪w, x⟫ ≤ b then .ok x
  else if ⟪w, w⟫ = 0 then .error .nanResult
  else .ok (x - ((⟪w, x⟫ - b) / ⟪w, w⟫) • w)

open Classical in
/-- `HankelProj.__call__` (projection/Hankel.py:23-29): `ind[i, j] = i + j`, `bincount` sums and counts the entries of
each anti-diagonal. -/
noncomputable def hankelProj {m n : ℕ} (X : Vec (Fin m × Fin n)) : Vec (Fin m × Fin n) :=
  let ind : Fin m × Fin n → ℕ := fun ij => ij.1.val + ij.2.val
  let sums : ℕ → ℝ := fun k => ∑ ij, if ind ij = k then X ij else 0
  let counts : ℕ → ℝ := fun k => ∑ ij, if ind ij = k then 1 else 0
  vmk fun ij => sums (ind ij) / counts (ind ij)

/-- `a[: -radius]` for an array of length `n` (Python slice semantics): the first `n - radius` entries for
`radius > 0`, and nothing for `radius = 0`, because `-0` is `0`. -/
def sliceMinus {α : Type} (l : List α) (radius : ℕ) : List α :=
  if radius = 0 then l.take 0 else l.take (l.length - radius)

open Classical in
/-- `L0BallProj.__call__` (projection/L0.py:34-38); `order` is `np.argsort(np.abs(xf))`. -/
noncomputable def l0BallProj (radius : ℕ) (order : List ι) (x : Vec ι) : Vec ι :=
  vmk fun i => if i ∈ sliceMinus order radius then 0 else x i

open Classical in
/-- `L10BallProj.__call__` (projection/L0.py:71-75) on a matrix indexed by (row, column);
`order` is the argsort of the L1 norms of the columns. -/
noncomputable def l10BallProj {κ : Type} [Fintype κ] (radius : ℕ) (order : List κ) (x : Vec (ι × κ)) :
    Vec (ι × κ) :=
  vmk fun ij => if ij.2 ∈ sliceMinus order radius then 0 else x ij

/-- `np.linalg.norm(x, axis=0, ord=1)` (projection/L0.py:73). -/
noncomputable def colL1 {κ : Type} [Fintype κ] (x : Vec (ι × κ)) (j : κ) : ℝ := ∑ i, |x (i, j)|

/-- `AffineSetProj.__call__` (projection/AffineSet.py:49-59); `cg A r` is the conjugate gradient solver. -/
noncomputable def affineSetProj (cg : (F → F) → F → F) (Op : LinOp E F) (b : F) (x : E) : E :=
  let xinv := cg (fun y => Op.matvec (Op.rmatvec y)) (Op.matvec x - b)
  x - Op.rmatvec xinv

end Verif
