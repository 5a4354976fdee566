import Verif.Model.Complex
import Verif.Model.Projection
import Mathlib.LinearAlgebra.Matrix.ConjTranspose

/-!
# `AffineSet` on complex arrays

The operator is `pylops.MatrixMult(A)` for a complex matrix `A`.  The conjugate gradient solver is a parameter.
-/

open scoped RealInnerProductSpace

namespace Verif

variable {ι κ : Type} [Fintype ι] [Fintype κ]

/-- `A @ x` (pylops `MatrixMult`, used in projection/AffineSet.py:51, proximal/AffineSet.py:46, proximal/Orthogonal.py:79, 86). -/
noncomputable def cxMatvec (A : Matrix ι κ ℂ) (x : CVec κ) : CVec ι := cmk fun i => ∑ j, A i j * x j

/-- `A.conj().T @ y` (pylops `MatrixMult`, used in projection/AffineSet.py:51, 56, proximal/Orthogonal.py:90, 91, 97). -/
noncomputable def cxRmatvec (A : Matrix ι κ ℂ) (y : CVec ι) : CVec κ := cmk fun j => ∑ i, starRingEnd ℂ (A i j) * y i

/-- `AffineSetProj.__call__` (projection/AffineSet.py:49-59) for complex arrays; `cg T r` is the conjugate gradient solver. -/
noncomputable def affineSetProjCx (cg : (CVec ι → CVec ι) → CVec ι → CVec ι) (A : Matrix ι κ ℂ) (b : CVec ι) (x : CVec κ) : CVec κ :=
  let xinv := cg (fun y => cxMatvec A (cxRmatvec A y)) (cxMatvec A x - b)
  x - cxRmatvec A xinv

/-- `np.allclose(a, b)` for complex arrays, with numpy's default tolerances `rtol=1e-5`, `atol=1e-8`. -/
def cxAllclose (a b : CVec ι) : Prop := ∀ i, ‖a i - b i‖ ≤ 1 / 10 ^ 8 + 1 / 10 ^ 5 * ‖b i‖

open Classical in
/-- `AffineSet` (proximal/AffineSet.py:40-53) for complex arrays. -/
noncomputable def AffineSetCx (cg : (CVec ι → CVec ι) → CVec ι → CVec ι) (A : Matrix ι κ ℂ) (b : CVec ι) : ProxOp (CVec κ) where
  call := fun x => .ok (.bool (decide (cxAllclose (cxMatvec A x) b)))
  prox? := some fun x τ => checkTau τ (.ok (affineSetProjCx cg A b x))
  proxdual? := none
  grad? := none
  hasgrad := false
  sigmame := 1

/-- `Orthogonal` (Orthogonal.py:63-98) for complex arrays and a matrix `Q`; `b = None` is the zero vector.  `1.0 / alpha` is evaluated first. -/
noncomputable def OrthogonalCx (f : ProxOp (CVec ι)) (Q : Matrix ι κ ℂ) (isPartial : Bool) (b : CVec ι) (α : ℝ) : ProxOp (CVec κ) where
  call := fun x => f.call (cxMatvec Q x + b)
  prox? := some fun x τ => checkTau τ (
    let y := cxMatvec Q x
    if isPartial then
      if α = 0 then .error .zeroDivisionError else do
        let p ← f.prox (y + b) (α * τ)
        pure ((1 / α) • (α • x - cxRmatvec Q y + cxRmatvec Q (p - b)))
    else do
      let z ← f.prox (y + b) τ
      pure (cxRmatvec Q (z - b)))
  proxdual? := none
  grad? := none
  hasgrad := false
  sigmame := 1

end Verif
