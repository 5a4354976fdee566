import Verif.Model.Proximal
import Verif.Model.PrimalDual
import Mathlib.Analysis.InnerProductSpace.Adjoint

/-! # Model of `pyproximal/optimization/segmentation.py`

An image of shape `dims` is a function of its pixels: `A` indexes the axes (`ndims` of them), `n a` is the length of axis `a` and a pixel is a choice of one position per axis.
The flattened arrays of the code are indexed by pairs (class, pixel) and, for the gradient, (class, (axis, pixel)), in the order of the code. -/

namespace Verif

variable {A : Type} [Fintype A] [DecidableEq A] {n : A → ℕ} {m : ℕ} {β : Type} [Fintype β]

/-- Pixels of an image with shape `n`. -/
abbrev Pixel (n : A → ℕ) : Type := (a : A) → Fin (n a)

/-- One entry of `FirstDerivative(axis=a, sampling=1.0, kind="forward", edge=False)`: the difference to the next pixel, zero on the last one (segmentation.py:104-107). -/
def fwdDiff (x : Pixel n → ℝ) (a : A) (p : Pixel n) : ℝ :=
  if h : (p a : ℕ) + 1 < n a then x (Function.update p a ⟨p a + 1, h⟩) - x p else 0

/-- `BlockDiag([Gradient(dims, 1.0, edge=False, kind="forward")] * ncl)` as a linear map (segmentation.py:103-108). -/
noncomputable def segGradMap (n : A → ℕ) (ncl : ℕ) : Vec (Fin ncl × Pixel n) →ₗ[ℝ] Vec (Fin ncl × (A × Pixel n)) where
  toFun x := vmk fun q => fwdDiff (fun p => x (q.1, p)) q.2.1 q.2.2
  map_add' x y := by
    ext q
    simp only [vmk, PiLp.add_apply, fwdDiff]
    split <;> ring
  map_smul' c x := by
    ext q
    simp only [vmk, PiLp.smul_apply, fwdDiff, smul_eq_mul, RingHom.id_apply]
    split <;> ring

/-- The gradient operator; pylops' `rmatvec` is taken to be the adjoint of `matvec`. -/
noncomputable def segGrad (n : A → ℕ) (ncl : ℕ) : LinOp (Vec (Fin ncl × Pixel n)) (Vec (Fin ncl × (A × Pixel n))) where
  matvec := segGradMap n ncl
  rmatvec := LinearMap.adjoint (segGradMap n ncl)
  dot x y := (LinearMap.adjoint_inner_right _ x y).symm

/-- `x[xin[iop]:xend[iop]]` (VStack.py:101): the part of the vector of class `k`. -/
noncomputable def segBlock {ncl : ℕ} (x : Vec (Fin ncl × β)) (k : Fin ncl) : Vec β := vmk fun b => x (k, b)

/-- The exception of a block, if any. -/
def blockErr (r : Py (Vec β)) : Option PyErr :=
  match r with
  | .error e => some e
  | .ok _ => none

/-- The value of a block. -/
noncomputable def blockVal (r : Py (Vec β)) : Vec β :=
  match r with
  | .error _ => 0
  | .ok v => v

/-- `np.hstack` of a list comprehension (VStack.py:98-104): the first exception stops it. -/
noncomputable def hstackBlocks {ncl : ℕ} (r : Fin ncl → Py (Vec β)) : Py (Vec (Fin ncl × β)) :=
  match (List.finRange ncl).findSome? fun k => blockErr (r k) with
  | some e => .error e
  | none => .ok (vmk fun q => blockVal (r q.1) q.2)

/-- `VStack([op] * ncl, nn=[size] * ncl)` (VStack.py:50-128) for blocks of the right size; `proxdual` is inherited from `ProxOperator`. -/
noncomputable def VStackSame (op : ProxOp (Vec β)) (ncl : ℕ) : ProxOp (Vec (Fin ncl × β)) where
  call := fun x => .ok (.num (∑ k, match op.call (segBlock x k) with
    | .ok v => v.toReal
    | .error _ => 0))
  prox? := some fun x τ => checkTau τ (hstackBlocks fun k => op.prox (segBlock x k) τ)
  proxdual? := none
  grad? := some fun x => hstackBlocks fun k => op.grad (segBlock x k)
  hasgrad := op.hasgrad
  sigmame := 1

open Classical in
/-- The data term `g` (segmentation.py:98-101); a zero in `clsigmas` gives infinities or NaN, reported as `nanResult`. -/
noncomputable def segData {ncl : ℕ} (y : Vec (Pixel n)) (cl : Fin ncl → ℝ) (σ : ℝ) (clsigmas : Option (Fin ncl → ℝ)) : Py (Vec (Fin ncl × Pixel n)) :=
  match clsigmas with
  | none => .ok (vmk fun q => σ / 2 * (y q.2 - cl q.1) ^ 2)
  | some s => if ∃ k, s k = 0 then .error .nanResult else .ok (vmk fun q => σ / 2 * (y q.2 - cl q.1) ^ 2 / s q.1)

/-- `g if z is None else g + z` (segmentation.py:130). -/
noncomputable def segZ {E : Type} [Add E] (g : E) (z : Option E) : E :=
  match z with
  | none => g
  | some z => g + z

/-- `np.argmax` of a row: the scan keeps the first of the largest entries (segmentation.py:139). -/
noncomputable def argmaxScan (v : ℕ → ℝ) : ℕ → ℕ
  | 0 => 0
  | k + 1 => if v (argmaxScan v k) < v (k + 1) then k + 1 else argmaxScan v k

lemma argmaxScan_le (v : ℕ → ℝ) (k : ℕ) : argmaxScan v k ≤ k := by
  induction k with
  | zero => exact le_refl _
  | succ k ih => simp only [argmaxScan]; split <;> omega

/-- `np.argmax` over `m + 1` entries. -/
noncomputable def segArgmax (v : Fin (m + 1) → ℝ) : Fin (m + 1) :=
  ⟨argmaxScan (fun k => v (Fin.ofNat (m + 1) k)) m, Nat.lt_succ_of_le (argmaxScan_le _ _)⟩

/-- `tau = 1.0` (segmentation.py:120). -/
noncomputable def segTau : ℝ := 1

/-- `mu = 1.0 / (tau * L)` with `L = 8.0 / sampling**2` (segmentation.py:119, 121). -/
noncomputable def segMu : ℝ := 1 / (segTau * (8 / 1 ^ 2))

/-- `Segment` (segmentation.py:90-142) for `m + 1` classes.  `simp` is the operator `Simplex(dimsprod * ncl, radius=1, dims=(ncl, dimsprod), axis=0, **kwargs_simplex)`, whose engine and
accuracy depend on `kwargs_simplex`; `show` and `callback` are left out (see `PrimalDual` for the callback). -/
noncomputable def Segment (simp : ProxOp (Vec (Fin (m + 1) × Pixel n))) (y : Vec (Pixel n)) (cl : Fin (m + 1) → ℝ) (σ α : ℝ) (clsigmas : Option (Fin (m + 1) → ℝ))
    (z : Option (Vec (Fin (m + 1) × Pixel n))) (niter : ℕ) (x0 : Option (Vec (Fin (m + 1) × Pixel n))) :
    Py (Vec (Pixel n × Fin (m + 1)) × (Pixel n → Fin (m + 1))) := do
  let g ← segData y cl σ clsigmas
  let r ← PrimalDual simp (VStackSame (L21 (1 / 2 * α)) (m + 1)) (segGrad n (m + 1)) (x0.getD 0) none (some (segZ g z)) (.scalar segTau) (.scalar segMu) 1 niter true
  pure (vmk fun q => r.x (q.2, q.1), fun p => segArgmax fun k => r.x (k, p))

end Verif
