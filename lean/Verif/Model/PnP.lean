import Verif.Model.ProxOperator
import Verif.Model.Vec

/-! # Model of `pyproximal/optimization/pnp.py` -/

namespace Verif

variable {ι κ : Type} [Fintype ι] [Fintype κ]

/-- `x.reshape(dims)`: `κ` indexes an array of shape `dims`, `e` is the order of the entries. -/
noncomputable def reshapeTo (e : ι ≃ κ) (x : Vec ι) : Vec κ := vmk fun k => x (e.symm k)

/-- `xden.ravel()`. -/
noncomputable def ravelFrom (e : ι ≃ κ) (y : Vec κ) : Vec ι := vmk fun i => y (e i)

/-- The body of `prox` (pnp.py:39-42); `none` when `dims` does not fit the size of the array, where `reshape` raises `ValueError`. -/
noncomputable def denoiseBody (e : Option (ι ≃ κ)) (den : Vec κ → ℝ → Py (Vec κ)) (x : Vec ι) (τ : ℝ) : Py (Vec ι) :=
  match e with
  | none => .error .valueError
  | some e => do
    let y ← den (reshapeTo e x) τ
    pure (ravelFrom e y)

/-- `_Denoise` (pnp.py:10-42).  The denoiser is a function without state that returns an array of the shape it was given. -/
noncomputable def Denoise (e : Option (ι ≃ κ)) (den : Vec κ → ℝ → Py (Vec κ)) : ProxOp (Vec ι) where
  call := fun _ => .ok (.num 0)
  prox? := some fun x τ => checkTau τ (denoiseBody e den x τ)
  proxdual? := none
  grad? := none
  hasgrad := false
  sigmame := 1

/-- `PlugAndPlay` (pnp.py:45-130): `solver f g x0` is the solver with its keyword arguments. -/
noncomputable def PlugAndPlay {R : Type} (f : ProxOp (Vec ι)) (den : Vec κ → ℝ → Py (Vec κ)) (e : Option (ι ≃ κ)) (x0 : Vec ι)
    (solver : ProxOp (Vec ι) → ProxOp (Vec ι) → Vec ι → R) : R := solver f (Denoise e den) x0

end Verif
