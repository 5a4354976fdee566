import Verif.Model.ProxOperator
import Verif.Model.Vec
import Verif.Spec.Matrix
import Verif.Model.Projection
import Verif.Model.Proximal

/-!
# Model of `pyproximal/proximal/Nuclear.py`, `pyproximal/projection/Nuclear.py`, `pyproximal/proximal/SingularValuePenalty.py`

A matrix is indexed by pairs `(i, j)`.  `np.linalg.svd(X, full_matrices=False)` and `np.linalg.eigvalsh` are parameters.
-/

open scoped RealInnerProductSpace

namespace Verif

variable {ι κ ρ : Type} [Fintype ι] [Fintype κ] [Fintype ρ]

/-- What `np.linalg.svd(X, full_matrices=False)` returns: the columns of `U`, the singular values, the rows of `Vh`. -/
structure SVD (ι κ ρ : Type) [Fintype ι] [Fintype κ] where
  u : ρ → Vec ι
  s : ρ → ℝ
  v : ρ → Vec κ

/-- `np.dot(U * T, Vh)`, also `U @ np.diag(T) @ Vh` (Nuclear.py:79, SingularValuePenalty.py:58, projection/Nuclear.py:50). -/
noncomputable def recon (u : ρ → Vec ι) (t : ρ → ℝ) (v : ρ → Vec κ) : Vec (ι × κ) :=
  vmk fun ij => ∑ k, u k ij.1 * t k * v k ij.2

/-- `Nuclear` (Nuclear.py:58-80) with a scalar `sigma`; `eig X` is `np.linalg.eigvalsh(X.T @ X)`.  `_softthreshold` of the
non-negative singular values with threshold `tau * sigma`. -/
noncomputable def Nuclear (svd : Vec (ι × κ) → SVD ι κ ρ) (eig : Vec (ι × κ) → κ → ℝ) (σ : ℝ) : ProxOp (Vec (ι × κ)) where
  call := fun x => .ok (.num (∑ k, σ * √(if eig x k < 0 then 0 else eig x k)))
  prox? := some fun x τ => checkTau τ (
    let d := svd x
    .ok (recon d.u (fun k => softScalar (d.s k) (τ * σ)) d.v))
  proxdual? := none
  grad? := none
  hasgrad := false
  sigmame := 1

open Classical in
/-- `NuclearBall` (Nuclear.py:83-130) and `NuclearBallProj` (projection/Nuclear.py:39-50): the singular values are passed through
`L1BallProj`.  `nuc X` is `np.linalg.norm(X, ord="nuc")`. -/
noncomputable def NuclearBall (svd : Vec (ι × κ) → SVD ι κ ρ) (nuc : Vec (ι × κ) → ℝ) (bisect : (ℝ → ℝ) → ℝ → ℝ → ℝ) (fuel : ℕ)
    (radius tol : ℝ) : ProxOp (Vec (ι × κ)) where
  call := fun x => .ok (.bool (decide (nuc x - radius < tol)))
  prox? := some fun x τ => checkTau τ (do
    let d := svd x
    let t ← l1BallProj bisect fuel radius (vmk d.s)
    pure (recon d.u (fun k => t k) d.v))
  proxdual? := none
  grad? := none
  hasgrad := false
  sigmame := 1

/-- `SingularValuePenalty` (SingularValuePenalty.py:43-59): the penalty's `prox` applied to the singular values. -/
noncomputable def SingularValuePenalty (svd : Vec (ι × κ) → SVD ι κ ρ) (eig : Vec (ι × κ) → κ → ℝ) (penCall : Vec κ → Py CallVal)
    (pen : ProxOp (Vec ρ)) : ProxOp (Vec (ι × κ)) where
  call := fun x => penCall (vmk fun k => √(if eig x k < 0 then 0 else eig x k))
  prox? := some fun x τ => checkTau τ (do
    let d := svd x
    let t ← pen.prox (vmk d.s) τ
    pure (recon d.u (fun k => t k) d.v))
  proxdual? := none
  grad? := none
  hasgrad := false
  sigmame := 1

/-- Elementwise operation on two one-dimensional arrays with the rules of numpy: equal sizes, or one of them of size one. -/
def npBroadcast (f : ℝ → ℝ → ℝ) (a b : List ℝ) : Py (List ℝ) :=
  if a.length = b.length then .ok (List.zipWith f a b)
  else if a.length = 1 then .ok (b.map (f (a.getD 0 0)))
  else if b.length = 1 then .ok (a.map fun v => f v (b.getD 0 0))
  else .error .valueError

/-- `Nuclear` (Nuclear.py:58-80) with an array `sigma`, for `M × N` matrices.  `eig X` is `np.linalg.eigvalsh(X.T @ X)`.  `U * Sth` needs as many values as there are singular values. -/
noncomputable def NuclearW {M N r : ℕ} (svd : Vec (Fin M × Fin N) → SVD (Fin M) (Fin N) (Fin r)) (eig : Vec (Fin M × Fin N) → Fin N → ℝ) (sigma : List ℝ) :
    ProxOp (Vec (Fin M × Fin N)) where
  call := fun x => do
    let t ← npBroadcast (· * ·) sigma.reverse (List.ofFn fun k => √(if eig x k < 0 then 0 else eig x k))
    pure (.num t.sum)
  prox? := some fun x τ => checkTau τ (do
    let d := svd x
    let sg := if 1 < sigma.length then sigma.take r else sigma
    let t ← npBroadcast softScalar (List.ofFn d.s) (sg.map (τ * ·))
    if t.length = r then pure (recon d.u (fun k => t.getD k 0) d.v) else .error .valueError)
  proxdual? := none
  grad? := none
  hasgrad := false
  sigmame := 1

end Verif
