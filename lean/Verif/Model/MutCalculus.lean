import Verif.Model.Mutable

/-!
# The operator calculus and the Moreau test on operator objects that change

The wrappers of `ProxOperator.py` around an object that may write into the array it is given (`Model/Mutable`).  What matters is which of them hand their own argument
on to the wrapped object (`c * f`) and which make a new array first (`f + v`, `f.precomposition(a, b)`, `f.H`).
-/

namespace Verif

variable {S E : Type} [NormedAddCommGroup E] [InnerProductSpace ℝ E]

namespace MutOp

/-- `proxdual` of the base class (ProxOperator.py:104-108, 134-158): `x - tau * self.prox(x / tau, 1.0 / tau)`; `x / tau` is a new array. -/
noncomputable def proxdual (f : MutOp S E) (s : S) (x : E) (τ : ℝ) : S × Py E × E :=
  if τ ≤ 0 then (s, .error .valueError, x)
  else
    let r := f.prox s ((1 / τ) • x) (1 / τ)
    (r.1, r.2.1.map fun d => x - τ • d, x)

/-- `_PostcompositionOperator` (ProxOperator.py:376-394): `self.f.prox(x, self.sigma * tau)`, the caller's array itself. -/
noncomputable def post (f : MutOp S E) (σ : ℝ) : MutOp S E where
  call := fun s x => do pure (.num (σ * (← f.call s x).toReal))
  prox := fun s x τ => if τ ≤ 0 then (s, .error .valueError, x) else f.prox s x (σ * τ)
  grad := fun s x => ((f.grad s x).1, (f.grad s x).2.map (σ • ·))

/-- `_PrecompositionOperator` (ProxOperator.py:397-418): `(self.f.prox(self.a * x + self.b, self.a**2 * tau) - self.b) / self.a`. -/
noncomputable def pre (f : MutOp S E) (a : ℝ) (b : E) : MutOp S E where
  call := fun s x => f.call s (a • x + b)
  prox := fun s x τ => if τ ≤ 0 then (s, .error .valueError, x) else
    let r := f.prox s (a • x + b) (a ^ 2 * τ)
    (r.1, r.2.1.map fun p => (1 / a) • (p - b), x)
  grad := fun s x => ((f.grad s (a • x + b)).1, (f.grad s (a • x + b)).2.map (a • ·))

/-- `_SumOperator` (ProxOperator.py:336-355): `self.f.prox(x - tau * self.v, tau)`. -/
noncomputable def sum (f : MutOp S E) (v : E) : MutOp S E where
  call := fun s x => do pure (ProxOp.addCall (← f.call s x) (inner ℝ v x))
  prox := fun s x τ => if τ ≤ 0 then (s, .error .valueError, x) else
    let r := f.prox s (x - τ • v) τ
    (r.1, r.2.1, x)
  grad := fun s x => ((f.grad s x).1, (f.grad s x).2.map (· + v))

/-- `_AdjointOperator` (ProxOperator.py:319-333) of an object without a `proxdual` of its own; `grad` is the one of the base class (ProxOperator.py:160-184) with
`sigmame = 1`. -/
noncomputable def adjoint (f : MutOp S E) : MutOp S E where
  call := f.call
  prox := fun s x τ => f.proxdual s x τ
  grad := fun s x => ((f.proxdual s x 1).1, (f.proxdual s x 1).2.1.map fun p => (1 / (1 : ℝ)) • ((f.proxdual s x 1).2.2 - p))

open Classical in
/-- `pyproximal.utils.moreau` (utils/moreau.py:53-69): `prox.prox(x, tau)` gets the caller's array, which is then used for `x / tau` and in the comparison.  The result
with the contents of the caller's array afterwards. -/
noncomputable def moreauTest (f : MutOp S E) (s : S) (x : E) (τ tol : ℝ) (raiseerror : Bool) : Py (Bool × E) := do
  let r ← f.proxPy s x τ
  let d ← (f.proxdual r.1 ((1 / τ) • r.2.2) (1 / τ)).2.1
  if ‖r.2.2 - (r.2.1 + τ • d)‖ ≤ tol then pure (true, r.2.2)
  else if raiseerror then .error .valueError else pure (false, r.2.2)

end MutOp

end Verif
