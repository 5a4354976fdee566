import Verif.Model.ProxOperator
import Verif.Model.Vec

/-! # Intersection (projection/Intersection.py, proximal/Intersection.py) -/

namespace Verif

variable {k n : ℕ}

/-- Loop variables: the `k × n` array `x` and the `k × k × n` array `x12` (projection/Intersection.py:55-56). -/
structure InterState (k n : ℕ) where
  x : Vec (Fin k × Fin n)
  x12 : Fin k → Fin k → Fin n → ℝ

/-- `np.maximum(0, |t| - sigma) * t / (|t| + 1e-10)` (projection/Intersection.py:62-67), for one entry. -/
noncomputable def interShrink (σ t : ℝ) : ℝ := max 0 (|t| - σ) * t / (|t| + 1e-10)

/-- `xdtilde` (projection/Intersection.py:61-67). -/
noncomputable def interD (σ : Fin k → Fin k → ℝ) (s : InterState k n) (i1 i2 : Fin k) (j : Fin n) : ℝ :=
  interShrink (σ i1 i2) (s.x (i2, j) - s.x (i1, j) + s.x12 i1 i2 j)

/-- Body of the loop over the pairs (projection/Intersection.py:61-70), `i1 < i2`. -/
noncomputable def interPair (σ : Fin k → Fin k → ℝ) (s : InterState k n) (p : Fin k × Fin k) : InterState k n where
  x := vmk fun ij =>
    if ij.1 = p.1 then s.x ij + 0.5 * (interD σ s p.1 p.2 ij.2 - s.x12 p.1 p.2 ij.2)
    else if ij.1 = p.2 then s.x ij - 0.5 * (interD σ s p.1 p.2 ij.2 - s.x12 p.1 p.2 ij.2)
    else s.x ij
  x12 := fun a b j => if a = p.1 ∧ b = p.2 then interD σ s p.1 p.2 j else s.x12 a b j

/-- The pairs in the order of `for i1 in range(k - 1): for i2 in range(i1 + 1, k)` (projection/Intersection.py:59-60). -/
def interPairs (k : ℕ) : List (Fin k × Fin k) := ((List.finRange k).product (List.finRange k)).filter fun p => p.1 < p.2

/-- The two loops over pairs (projection/Intersection.py:59-70). -/
noncomputable def interSweep (σ : Fin k → Fin k → ℝ) (s : InterState k n) : InterState k n := (interPairs k).foldl (interPair σ) s

open Classical in
/-- Body of the outer loop (projection/Intersection.py:57-72): `max` of an empty array raises `ValueError`. -/
noncomputable def interBody (σ : Fin k → Fin k → ℝ) (tol : ℝ) (_i : ℕ) (s : InterState k n) : Py (InterState k n × Bool) :=
  if n = 0 then .error .valueError
  else
    let s' := interSweep σ s
    .ok (s', decide (∀ j : Fin n, ∑ i, |s'.x (i, j) - s.x (i, j)| < tol))

/-- `IntersectionProj.__call__` (projection/Intersection.py:54-73), with the final loop variables; the value returned is the field `x`.  The inputs are arrays of real
numbers of size `k n`, and `sigma` is a `k × k` array (a number stands for a constant one). -/
noncomputable def IntersectionProj (σ : Fin k → Fin k → ℝ) (niter : ℕ) (tol : ℝ) (x : Vec (Fin k × Fin n)) : Py (InterState k n) :=
  forRange (interBody σ tol) niter 0 ⟨x, fun _ _ _ => 0⟩

/-- The call of `IntersectionProj` together with the caller's array afterwards (projection/Intersection.py:55, 68-69): when `reshape` returns a view (a contiguous array) the assignments
to `x[i1]` and `x[i2]` write into the array of the caller.  After an exception the array is the one of the last sweep; none is reached before the exception here. -/
noncomputable def IntersectionProj.inPlace (view : Bool) (σ : Fin k → Fin k → ℝ) (niter : ℕ) (tol : ℝ) (x : Vec (Fin k × Fin n)) :
    Py (Vec (Fin k × Fin n)) × Vec (Fin k × Fin n) :=
  match IntersectionProj σ niter tol x with
  | .ok s => (.ok s.x, if view then s.x else x)
  | .error e => (.error e, x)

/-- `self.ic(x)` (proximal/Intersection.py:62-63): the array returned. -/
noncomputable def IntersectionProj.result (σ : Fin k → Fin k → ℝ) (niter : ℕ) (tol : ℝ) (x : Vec (Fin k × Fin n)) : Py (Vec (Fin k × Fin n)) := do
  let s ← IntersectionProj σ niter tol x
  pure s.x

open Classical in
/-- `Intersection` (proximal/Intersection.py:35-63); `callTol` is the argument `tol` of `__call__`. -/
noncomputable def Intersection (σ : Fin k → Fin k → ℝ) (niter : ℕ) (tol callTol : ℝ) (callFlag : Bool) : ProxOp (Vec (Fin k × Fin n)) where
  call := fun x =>
    if callFlag = false then .ok (.bool false)
    else .ok (.bool (decide (∀ (j : Fin n) (i1 i2 : Fin k), i1 < i2 → ¬ (|x (i1, j) - x (i2, j)| > σ i1 i2 + callTol))))
  prox? := some fun x τ => checkTau τ (IntersectionProj.result σ niter tol x)
  proxdual? := none
  grad? := none
  hasgrad := false
  sigmame := 1

end Verif
