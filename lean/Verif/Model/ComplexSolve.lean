import Verif.Model.Complex
import Verif.Model.Primal
import Mathlib.LinearAlgebra.Matrix.ConjTranspose
import Mathlib.Analysis.InnerProductSpace.PiL2

/-!
# Solvers on complex arrays

The solvers of `Model/Primal` and `Model/PrimalDual` are written for any real inner product space; complex arrays with the real part of the usual product are one.  The exceptions are
the lines that call `np.dot` or `@` without conjugation: `_backtracking` (`backtrackC` in `Model/Complex`) and the weights of `AndersonProximalGradient`, below.
-/

open scoped RealInnerProductSpace

namespace Verif

variable {m n ι : Type} [Fintype m] [Fintype n] [Fintype ι]

/-- A pylops `MatrixMult` with a complex matrix: `matvec` is `A @ x`, `rmatvec` is `A.conj().T @ y`.  As everywhere in the model linear operators are a parameter of the code (`LinOp`). -/
noncomputable def cMatrixMult (A : Matrix m n ℂ) : LinOp (CVec n) (CVec m) where
  matvec := { toFun := fun x => cmk (A.mulVec x), map_add' := fun x y => by ext i; simp [cmk, Matrix.mulVec_add], map_smul' := fun c x => by ext i; simp [cmk, Matrix.mulVec_smul] }
  rmatvec := { toFun := fun y => cmk (A.conjTranspose.mulVec y), map_add' := fun x y => by ext i; simp [cmk, Matrix.mulVec_add], map_smul' := fun c x => by ext i; simp [cmk, Matrix.mulVec_smul] }
  dot := fun x y => by
    simp only [LinearMap.coe_mk, AddHom.coe_mk, PiLp.inner_apply, cmk, Complex.inner, Matrix.mulVec, dotProduct, Matrix.conjTranspose_apply]
    simp only [map_sum, Finset.sum_mul, Finset.mul_sum, ← Complex.re_sum]
    rw [Finset.sum_comm]
    refine congrArg Complex.re (Finset.sum_congr rfl fun i _ => Finset.sum_congr rfl fun j _ => ?_)
    simp
    ring

/-- A pylops `MatrixMult` with a real matrix. -/
noncomputable def rMatrixMult (A : Matrix m n ℝ) : LinOp (Vec n) (Vec m) where
  matvec := { toFun := fun x => vmk (A.mulVec x), map_add' := fun x y => by ext i; simp [vmk, Matrix.mulVec_add], map_smul' := fun c x => by ext i; simp [vmk, Matrix.mulVec_smul] }
  rmatvec := { toFun := fun y => vmk (A.transpose.mulVec y), map_add' := fun x y => by ext i; simp [vmk, Matrix.mulVec_add], map_smul' := fun c x => by ext i; simp [vmk, Matrix.mulVec_smul] }
  dot := fun x y => by
    simp only [LinearMap.coe_mk, AddHom.coe_mk, PiLp.inner_apply, vmk, RCLike.inner_apply, conj_trivial, Matrix.mulVec, dotProduct, Matrix.transpose_apply]
    simp only [Finset.sum_mul, Finset.mul_sum]
    rw [Finset.sum_comm]
    exact Finset.sum_congr rfl fun i _ => Finset.sum_congr rfl fun j _ => by ring

/-- `Rstack @ Rstack.T + epsr * np.linalg.norm(Rstack) ** 2` (primal.py:654) on complex arrays: the products are not conjugated. -/
noncomputable def andersonMatrixC (epsr : ℝ) (R : List (CVec ι)) : Matrix (Fin R.length) (Fin R.length) ℂ :=
  Matrix.of fun i j => npDot (R.get i) (R.get j) + (epsr * ∑ k, ‖R.get k‖ ^ 2 : ℝ)

/-- `alpha` (primal.py:653-657) on complex arrays.  `pinv` is `np.linalg.pinv`.  As in `andersonAlpha`, a division by zero (infinities and NaN) is reported as `nanResult`. -/
noncomputable def andersonAlphaC (pinv : ∀ n, Matrix (Fin n) (Fin n) ℂ → Matrix (Fin n) (Fin n) ℂ) (epsr : ℝ) (R : List (CVec ι)) : Py (List ℂ) :=
  if R = [] then .error .valueError
  else
    let w : Fin R.length → ℂ := (pinv R.length (andersonMatrixC epsr R)).mulVec fun _ => 1
    if ∑ i, w i = 0 then .error .nanResult else .ok (List.ofFn fun i => w i / ∑ j, w j)

/-- `np.vstack(G).T @ alpha` (primal.py:661, 668) with complex `alpha`. -/
noncomputable def combineC (G : List (CVec ι)) (α : List ℂ) : CVec ι := (List.zipWith (fun a g => a • g) α G).sum

/-- Body of the loop of `AndersonProximalGradient` (primal.py:639-712) on complex arrays; `Anderson.body` with complex weights. -/
noncomputable def AndersonC.body (f g : ProxOp (CVec ι)) (solve : List (CVec ι) → Py (List ℂ)) (τ : ℝ) (epsg : StepSpec) (nhistory : ℕ) (safeguard : Bool)
    (tol : Option ℝ) (i : ℕ) (s : AndersonState (CVec ι)) : Py (AndersonState (CVec ι) × Bool) := do
  let gx ← f.grad s.x
  let gp := s.x - τ • gx
  let r := gp - s.y
  let R := histPush nhistory i r s.R
  let G := histPush nhistory i gp s.G
  let α ← solve R
  let e ← epsg.at i
  let yt := combineC G α
  let xt ← g.prox yt (e * τ)
  let (x, y, pf) ← (if safeguard then do
      let v ← f.call xt
      if v.toReal ≤ s.pf - τ * ‖gx‖ ^ 2 / 2 then pure (xt, yt, v.toReal)
      else do
        let xg ← g.prox gp (e * τ)
        pure (xg, gp, v.toReal)
    else pure (xt, yt, s.pf) : Py (CVec ι × CVec ι × ℝ))
  let log := s.log ++ [x]
  match tol with
  | none => pure (⟨x, y, R, G, pf, s.pfg, log⟩, false)
  | some tol => do
    let pf' ← f.call x
    let pg ← g.call x
    let pfg := pf'.toReal + e * pg.toReal
    pure (⟨x, y, R, G, pf'.toReal, some pfg, log⟩, npRatioTest pfg s.pfg tol)

/-- `AndersonProximalGradient` (primal.py:586-720) on complex arrays. -/
noncomputable def AndersonProximalGradientC (f g : ProxOp (CVec ι)) (solve : List (CVec ι) → Py (List ℂ)) (x0 : CVec ι) (τ : ℝ) (epsg : StepSpec) (niter nhistory : ℕ)
    (safeguard : Bool) (tol : Option ℝ) : Py (AndersonState (CVec ι)) := do
  epsg.printCheck niter
  let e0 ← epsg.at 0
  let s ← Anderson.init f g x0 τ e0
  forRange (AndersonC.body f g solve τ epsg nhistory safeguard tol) niter 0 s

end Verif
