import Verif.Model.Segment
import Verif.Model.Counters

/-!
# Model of `TV` (pyproximal/proximal/TV.py)

Arrays are functions of their pixels, as in `Model/Segment`: `A` indexes the axes and `n a` is the length of axis `a`.  `x.reshape(self.dims)` and `sol.ravel()` are identities in this
description; `tvReshape` models when the former fails.  Real arrays; the weights `wx`, `wy`, `wz`, `wt` are numbers.
-/

namespace Verif

variable {A : Type} [Fintype A] [DecidableEq A] {n : A → ℕ}

/-- `self.dims` and `x.reshape(self.dims)` for an array with `size` entries (TV.py:51, 60, 97). -/
def tvReshape (dims : Option (List ℕ)) (size : ℕ) : Py Unit :=
  if (dims.getD [0]).prod = size then .ok () else .error .valueError

/-- `FirstDerivative(..., edge=False, kind="forward")` and `Gradient(..., edge=False, kind="forward")` (TV.py:62-65, 69-71, 102-107, 317, 321, 328, 341): component `a` of the result at pixel `p`. -/
noncomputable def tvGrad (x : Vec (Pixel n)) : Vec (A × Pixel n) := vmk fun q => fwdDiff (fun p => x p) q.1 q.2

/-- `TV.__call__` (TV.py:59-75), by number of axes. -/
noncomputable def tvCall (σ : ℝ) (x : Vec (Pixel n)) : Py ℝ :=
  if Fintype.card A = 0 then .error .unboundLocalError
  else if Fintype.card A = 1 then .ok (σ * ∑ q, |tvGrad x q|)
  else .ok (σ * ∑ p, √(∑ a, |tvGrad x (a, p)| ^ 2))

/-- One of the terms of `div` (TV.py:188-298): `concatenate((rr[0], rr[1:-1] - rr[:-2], -rr[-2]))` along axis `a`. -/
noncomputable def tvDivAxis (r : Vec (A × Pixel n)) (a : A) (p : Pixel n) : ℝ :=
  if h0 : (p a : ℕ) = 0 then r (a, p)
  else if (p a : ℕ) + 1 < n a then r (a, p) - r (a, Function.update p a ⟨p a - 1, by omega⟩)
  else - r (a, Function.update p a ⟨p a - 1, by omega⟩)

/-- `div` (TV.py:188-298); an axis of length 1 has no entry `rr[-2]`. -/
noncomputable def tvDiv (r : Vec (A × Pixel n)) : Py (Vec (Pixel n)) :=
  if ∀ a, 2 ≤ n a then .ok (vmk fun p => ∑ a, tvDivAxis r a p) else .error .indexError

/-- `r / weights`, `s / weights`, ... with `weights = np.maximum(1, sqrt(|r|² + |s|² + ...))` (TV.py:316-356, 361-378). -/
noncomputable def tvClip (r : Vec (A × Pixel n)) : Vec (A × Pixel n) :=
  vmk fun q => r q / max 1 √(∑ a, |r (a, q.2)| ^ 2)

/-- Loop variables of `TV.prox`: `r` is the tuple `(r, s, k, u)` (of which `rr, ss, kk, uu` are copies), `old` the tuple `(pold, qold, oold, mold)`. -/
structure TVState (A : Type) [Fintype A] [DecidableEq A] (n : A → ℕ) where
  sol : Vec (Pixel n)
  r : Vec (A × Pixel n)
  old : Vec (A × Pixel n)
  told : ℝ
  obj : ℝ
  /-- the entries of `r` are NaN -/
  nan : Bool

/-- `rel_obj` (TV.py:305-308). -/
noncomputable def tvRel (rtol obj prev : ℝ) : ℝ := if 1e-10 < obj then |obj - prev| / obj else 2 * rtol

/-- One pass of the `while` loop (TV.py:186-383); the flag says whether it ends with `break`.  In the first pass `pold` is the same array as `r` and changes with it (TV.py:122-129, 318),
which has no effect since `told - 1` is then 0.  `mt` is the largest weight.  If the denominator of `1.0 / (4 * ndim * gamma * mt**2)` vanishes the division raises for one axis (Python
floats); for more axes `mt` is a numpy number, the quotient is infinite and all entries of `r` (`inf * 0`, `inf / inf`) become NaN, as does `sol` in the next pass. -/
noncomputable def TV.body (x : Vec (Pixel n)) (σ γ rtol mt : ℝ) (_ : ℕ) (s : TVState A n) : Py (TVState A n × Bool) := do
  let div ← tvDiv s.r
  if s.nan then .error .nanResult
  else
    let sol := x - γ • div
    let v ← tvCall σ sol
    let obj := 0.5 * ‖x - sol‖ ^ 2 + γ * v
    if tvRel rtol obj s.obj < rtol then pure (⟨sol, s.r, s.old, s.told, obj, false⟩, true)
    else if 4 * Fintype.card A * γ * mt ^ 2 = 0 ∧ Fintype.card A = 1 then .error .zeroDivisionError
    else
      let p := tvClip (s.r - (1 / (4 * Fintype.card A * γ * mt ^ 2)) • tvGrad sol)
      let t := (1 + √(4 * s.told ^ 2)) / 2
      pure (⟨sol, p + ((s.told - 1) / t) • (p - s.old), p, t, obj, decide (4 * Fintype.card A * γ * mt ^ 2 = 0)⟩, false)

/-- `mt` (TV.py:134-162): the largest of the weights, `1` for those that are not given. -/
noncomputable def tvMt (w : A → Option ℝ) : ℝ := ⨆ a, (w a).getD 1

/-- `TV.prox` after the check of `tau`, for the number of iterations `niter` (TV.py:90-385).  For more than four axes `r` is never assigned (an array without axes, for which pylops' `Gradient` cannot be built, is
given the same outcome).  The weights themselves only scale the zero arrays of the first pass (TV.py:164-183).  `while iter <= niter` makes `niter + 1` passes
(none if `niter < 0`). -/
noncomputable def tvProx (σ rtol : ℝ) (w : A → Option ℝ) (niter : ℤ) (x : Vec (Pixel n)) (τ : ℝ) : Py (Vec (Pixel n)) := do
  let γ := σ * τ
  if Fintype.card A = 0 ∨ 4 < Fintype.card A then .error .unboundLocalError
  else
    let s ← forRange (TV.body x σ γ rtol (tvMt w)) (niter + 1).toNat 0 ⟨x, 0, 0, 1, 0, false⟩
    pure s.sol

/-- `TV` (TV.py:13-385) with a number `niter`. -/
noncomputable def TV (σ rtol : ℝ) (w : A → Option ℝ) (niter : ℤ) : ProxOp (Vec (Pixel n)) where
  call := fun x => (tvCall σ x).map CallVal.num
  prox? := some fun x τ => checkTau τ (tvProx σ rtol w niter x τ)
  proxdual? := none
  grad? := none
  hasgrad := true
  sigmame := 1

/-- `TV` with a function `niter` (TV.py:77-93). -/
noncomputable def TVc (σ rtol : ℝ) (w : A → Option ℝ) (niter : ℕ → ℤ) : CountedClass (Vec (Pixel n)) where
  body := fun c x τ => tvProx σ rtol w (niter c) x τ
  callAt := fun _ x => (tvCall σ x).map CallVal.num
  ownDual := none

/-- `TV(None)` for a signal with `m` samples: `self.dims` is `(0,)`, and both methods begin with `x.reshape(self.dims)` (TV.py:51, 60, 100). -/
noncomputable def TVNone {m : ℕ} (σ rtol : ℝ) (w : Unit → Option ℝ) (niter : ℤ) : ProxOp (Vec (Fin m)) where
  call := fun _ => do
    tvReshape none m
    (TV σ rtol w niter).call (0 : Vec (Pixel fun _ : Unit => 0))
  prox? := some fun _ τ => checkTau τ (do
    tvReshape none m
    let _ ← tvProx σ rtol w niter (0 : Vec (Pixel fun _ : Unit => 0)) τ
    pure 0)
  proxdual? := none
  grad? := none
  hasgrad := true
  sigmame := 1

end Verif
