import Verif.Model.TV
import Verif.Model.Complex

/-!
# `TV` on complex images (pyproximal/proximal/TV.py)

The same lines as in `Model/TV` when the array is complex: the derivative operators are built with `dtype=x.dtype`, the fields `r`, `s`, ... are complex, and every size is taken with `np.abs`.
The `try`/`except` around `rr *= np.conjugate(wx)` (TV.py:164-183) acts on zero arrays, as in the real case.
-/

namespace Verif

variable {A : Type} [Fintype A] [DecidableEq A] {n : A → ℕ}

/-- One entry of `FirstDerivative(..., edge=False, kind="forward", dtype=x.dtype)` on a complex array (TV.py:62-65, 102-107). -/
def fwdDiffC (x : Pixel n → ℂ) (a : A) (p : Pixel n) : ℂ :=
  if h : (p a : ℕ) + 1 < n a then x (Function.update p a ⟨p a + 1, h⟩) - x p else 0

/-- `Gradient(..., edge=False, kind="forward", dtype=x.dtype)` on a complex array (TV.py:69-71, 102-107, 317, 321, 328, 341). -/
noncomputable def tvGradC (x : CVec (Pixel n)) : CVec (A × Pixel n) := cmk fun q => fwdDiffC (fun p => x p) q.1 q.2

/-- `TV.__call__` (TV.py:59-75) on a complex array. -/
noncomputable def tvCallC (σ : ℝ) (x : CVec (Pixel n)) : Py ℝ :=
  if Fintype.card A = 0 then .error .unboundLocalError
  else if Fintype.card A = 1 then .ok (σ * ∑ q, ‖tvGradC x q‖)
  else .ok (σ * ∑ p, √(∑ a, ‖tvGradC x (a, p)‖ ^ 2))

/-- One of the terms of `div` (TV.py:188-298) on complex fields. -/
noncomputable def tvDivAxisC (r : CVec (A × Pixel n)) (a : A) (p : Pixel n) : ℂ :=
  if h0 : (p a : ℕ) = 0 then r (a, p)
  else if (p a : ℕ) + 1 < n a then r (a, p) - r (a, Function.update p a ⟨p a - 1, by omega⟩)
  else - r (a, Function.update p a ⟨p a - 1, by omega⟩)

/-- `div` (TV.py:188-298) on complex fields; an axis of length 1 has no entry `rr[-2]`. -/
noncomputable def tvDivC (r : CVec (A × Pixel n)) : Py (CVec (Pixel n)) :=
  if ∀ a, 2 ≤ n a then .ok (cmk fun p => ∑ a, tvDivAxisC r a p) else .error .indexError

/-- `r / weights`, ... with `weights = np.maximum(1, sqrt(|r|² + |s|² + ...))` (TV.py:316-356, 361-378) on complex fields. -/
noncomputable def tvClipC (r : CVec (A × Pixel n)) : CVec (A × Pixel n) :=
  cmk fun q => r q / ((max 1 √(∑ a, ‖r (a, q.2)‖ ^ 2) : ℝ) : ℂ)

/-- Loop variables of `TV.prox` on a complex array, as in `TVState`. -/
structure TVStateC (A : Type) [Fintype A] [DecidableEq A] (n : A → ℕ) where
  sol : CVec (Pixel n)
  r : CVec (A × Pixel n)
  old : CVec (A × Pixel n)
  told : ℝ
  obj : ℝ
  /-- the entries of `r` are NaN -/
  nan : Bool

/-- One pass of the `while` loop (TV.py:186-383) on a complex array; see `TV.body`. -/
noncomputable def TV.bodyC (x : CVec (Pixel n)) (σ γ rtol mt : ℝ) (_ : ℕ) (s : TVStateC A n) : Py (TVStateC A n × Bool) := do
  let div ← tvDivC s.r
  if s.nan then .error .nanResult
  else
    let sol := x - γ • div
    let v ← tvCallC σ sol
    let obj := 0.5 * ‖x - sol‖ ^ 2 + γ * v
    if tvRel rtol obj s.obj < rtol then pure (⟨sol, s.r, s.old, s.told, obj, false⟩, true)
    else if 4 * Fintype.card A * γ * mt ^ 2 = 0 ∧ Fintype.card A = 1 then .error .zeroDivisionError
    else
      let p := tvClipC (s.r - (1 / (4 * Fintype.card A * γ * mt ^ 2)) • tvGradC sol)
      let t := (1 + √(4 * s.told ^ 2)) / 2
      pure (⟨sol, p + ((s.told - 1) / t) • (p - s.old), p, t, obj, decide (4 * Fintype.card A * γ * mt ^ 2 = 0)⟩, false)

/-- `TV.prox` after the check of `tau` on a complex array (TV.py:90-385); see `tvProx`. -/
noncomputable def tvProxC (σ rtol : ℝ) (w : A → Option ℝ) (niter : ℤ) (x : CVec (Pixel n)) (τ : ℝ) : Py (CVec (Pixel n)) := do
  let γ := σ * τ
  if Fintype.card A = 0 ∨ 4 < Fintype.card A then .error .unboundLocalError
  else
    let s ← forRange (TV.bodyC x σ γ rtol (tvMt w)) (niter + 1).toNat 0 ⟨x, 0, 0, 1, 0, false⟩
    pure s.sol

/-- `TV` (TV.py:13-385) with a number `niter`, on complex arrays. -/
noncomputable def TVCx (σ rtol : ℝ) (w : A → Option ℝ) (niter : ℤ) : ProxOp (CVec (Pixel n)) where
  call := fun x => (tvCallC σ x).map CallVal.num
  prox? := some fun x τ => checkTau τ (tvProxC σ rtol w niter x τ)
  proxdual? := none
  grad? := none
  hasgrad := true
  sigmame := 1

end Verif
