import Verif.Model.Complex
import Verif.Model.Nuclear

/-!
# Operators on complex matrices

`np.linalg.svd` of a complex matrix is a parameter.  `np.bincount(..., weights=X)` raises `TypeError` for complex `X`: the weights are cast to `float64` by the rule `safe`.
-/

namespace Verif

variable {ι κ ρ : Type} [Fintype ι] [Fintype κ] [Fintype ρ]

/-- What `np.linalg.svd(X, full_matrices=False)` returns for a complex matrix: the columns of `U`, the singular values, the rows of `Vh`. -/
structure SVDC (ι κ ρ : Type) [Fintype ι] [Fintype κ] where
  u : ρ → CVec ι
  s : ρ → ℝ
  vh : ρ → CVec κ

/-- `np.dot(U * T, Vh)` and `U @ np.diag(T) @ Vh` with real `T` (Nuclear.py:79, SingularValuePenalty.py:58, projection/Nuclear.py:51). -/
noncomputable def reconC (u : ρ → CVec ι) (t : ρ → ℝ) (vh : ρ → CVec κ) : CVec (ι × κ) := cmk fun ij => ∑ k, u k ij.1 * (t k : ℂ) * vh k ij.2

/-- `Nuclear.prox` (Nuclear.py:69-80) on complex matrices with a scalar `sigma`; for `Nuclear.__call__` see `nuclearCallc`, of which `eig X` stands for the eigenvalues it uses. -/
noncomputable def NuclearCx (svd : CVec (ι × κ) → SVDC ι κ ρ) (eig : CVec (ι × κ) → κ → ℝ) (σ : ℝ) : ProxOp (CVec (ι × κ)) where
  call := fun x => .ok (.num (∑ k, σ * √(if eig x k < 0 then 0 else eig x k)))
  prox? := some fun x τ => checkTau τ (
    let d := svd x
    .ok (reconC d.u (fun k => softScalar (d.s k) (τ * σ)) d.vh))
  proxdual? := none
  grad? := none
  hasgrad := false
  sigmame := 1

open Classical in
/-- `NuclearBall` (Nuclear.py:108-130) and `NuclearBallProj` (projection/Nuclear.py:41-51) on complex matrices: `L1BallProj` gets the real singular values. -/
noncomputable def NuclearBallCx (svd : CVec (ι × κ) → SVDC ι κ ρ) (nuc : CVec (ι × κ) → ℝ) (bisect : (ℝ → ℝ) → ℝ → ℝ → ℝ) (fuel : ℕ) (radius tol : ℝ) :
    ProxOp (CVec (ι × κ)) where
  call := fun x => .ok (.bool (decide (nuc x - radius < tol)))
  prox? := some fun x τ => checkTau τ (do
    let d := svd x
    let t ← l1BallProj bisect fuel radius (vmk d.s)
    pure (reconC d.u (fun k => t k) d.vh))
  proxdual? := none
  grad? := none
  hasgrad := false
  sigmame := 1

/-- `HankelProj.__call__` (projection/Hankel.py:23-29) on a complex matrix. -/
def hankelProjC {m n : ℕ} (_X : CVec (Fin m × Fin n)) : Py (CVec (Fin m × Fin n)) := .error .typeError

/-- `Hankel` (proximal/Hankel.py:26-38) on complex matrices. -/
noncomputable def HankelCx {m n : ℕ} : ProxOp (CVec (Fin m × Fin n)) where
  call := fun x => do
    let _ ← hankelProjC x
    pure (.bool true)
  prox? := some fun x τ => checkTau τ (hankelProjC x)
  proxdual? := none
  grad? := none
  hasgrad := false
  sigmame := 1

end Verif
