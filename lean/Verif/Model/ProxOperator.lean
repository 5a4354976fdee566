import Verif.Model.Py
import Mathlib.Analysis.InnerProductSpace.Basic

/-!
# Model of `pyproximal/ProxOperator.py`
-/

open scoped RealInnerProductSpace

namespace Verif

/-- `_check_tau` (ProxOperator.py:13-27) for a scalar step: `ValueError` if `tau <= 0`, otherwise
the decorated function. -/
noncomputable def checkTau {α : Type} (τ : ℝ) (k : Py α) : Py α :=
  if τ ≤ 0 then .error .valueError else k

open Classical in
/-- `_check_tau` (ProxOperator.py:13-27) for an array step: `np.any(tau <= 0)`. -/
noncomputable def checkTauArr {α ι : Type} (τ : ι → ℝ) (k : Py α) : Py α :=
  if ∃ i, τ i ≤ 0 then .error .valueError else k

/-- The positional/keyword form of a call of a decorated method: the wrapper reads the step as
`args[2]` (ProxOperator.py:21-22), so passing `tau` by keyword raises `IndexError`. -/
noncomputable def checkTauCall {α : Type} (positional : Bool) (τ : ℝ) (k : Py α) : Py α :=
  if positional then checkTau τ k else .error .indexError

/-- An operator object: the methods its class defines itself (`none` when inherited from the base
class), its `hasgrad` flag and `sigmame` (ProxOperator.py:76-84). Stateful classes are
modelled separately; keyword arguments of `prox` are not modelled. -/
structure ProxOp (E : Type) where
  call : E → Py CallVal
  prox? : Option (E → ℝ → Py E)
  proxdual? : Option (E → ℝ → Py E)
  grad? : Option (E → Py E)
  hasgrad : Bool
  sigmame : ℝ

namespace ProxOp

variable {E : Type} [NormedAddCommGroup E] [InnerProductSpace ℝ E]

/-- `_prox_moreau`/`_proxdual_moreau` (ProxOperator.py:98-108): `x - tau * m(x / tau, 1 / tau)`
where `m` is the other method. -/
noncomputable def moreauStep (m : E → ℝ → Py E) (x : E) (τ : ℝ) : Py E :=
  checkTau τ (do
    let d ← m ((1 / τ) • x) (1 / τ)
    pure (x - τ • d))

/-- `prox` as resolved on the object: the class's own method, or the base class's
(ProxOperator.py:110-132), which calls `_prox_moreau` and through it `proxdual`.  When neither
method is implemented the two base methods call each other without end (`RecursionError`). -/
noncomputable def prox (f : ProxOp E) (x : E) (τ : ℝ) : Py E :=
  match f.prox? with
  | some m => m x τ
  | none => checkTau τ (moreauStep (fun y s =>
      match f.proxdual? with
      | some m => m y s
      | none => .error .recursionError) x τ)

/-- `_proxdual_moreau` (ProxOperator.py:104-108). -/
noncomputable def proxdualMoreau (f : ProxOp E) (x : E) (τ : ℝ) : Py E :=
  moreauStep f.prox x τ

/-- `proxdual` as resolved on the object (ProxOperator.py:134-158). -/
noncomputable def proxdual (f : ProxOp E) (x : E) (τ : ℝ) : Py E :=
  match f.proxdual? with
  | some m => m x τ
  | none => checkTau τ (moreauStep (fun y s =>
      match f.prox? with
      | some m => m y s
      | none => .error .recursionError) x τ)

/-- `grad` as resolved on the object; the base class's (ProxOperator.py:160-184) is the gradient of
the Moreau envelope, `(x - prox(x, sigmame)) / sigmame`. -/
noncomputable def grad (f : ProxOp E) (x : E) : Py E :=
  match f.grad? with
  | some g => g x
  | none => do
    let p ← f.prox x f.sigmame
    pure ((1 / f.sigmame) • (x - p))

/-- Python `a + b` of a `__call__` value and a float (a bool counts as 0/1). -/
def addCall (c : CallVal) (v : ℝ) : CallVal := .num (c.toReal + v)

/-- `_SumOperator` (ProxOperator.py:336-355): `f(x) + v.x`. -/
noncomputable def sumOp (f : ProxOp E) (v : E) : ProxOp E where
  call := fun x => do pure (addCall (← f.call x) ⟪v, x⟫)
  prox? := some fun x τ => checkTau τ (f.prox (x - τ • v) τ)
  proxdual? := none
  grad? := some fun x => do pure ((← f.grad x) + v)
  hasgrad := f.hasgrad
  sigmame := 1

/-- `_ChainOperator` (ProxOperator.py:358-373).  `__call__` feeds the number returned by `f` to `g`;
since `g` expects an array, it is not modelled (any call is reported as `typeError`); `grad` has
an empty body and returns `None`, reported as `typeError` when used. -/
noncomputable def chainOp (f g : ProxOp E) : ProxOp E where
  call := fun _ => .error .typeError
  prox? := some fun x τ => checkTau τ (do g.prox (← f.prox x τ) τ)
  proxdual? := none
  grad? := some fun _ => .error .typeError
  hasgrad := f.hasgrad && g.hasgrad
  sigmame := 1

/-- `_PostcompositionOperator` (ProxOperator.py:376-394). -/
noncomputable def postOp (f : ProxOp E) (σ : ℝ) : ProxOp E where
  call := fun x => do pure (.num (σ * (← f.call x).toReal))
  prox? := some fun x τ => checkTau τ (f.prox x (σ * τ))
  proxdual? := none
  grad? := some fun x => do pure (σ • (← f.grad x))
  hasgrad := f.hasgrad
  sigmame := 1

/-- `_PrecompositionOperator` (ProxOperator.py:397-418); a scalar `b` is the constant
vector.  Division by `a = 0` is preceded by the step check on `a**2 * tau`. -/
noncomputable def preOp (f : ProxOp E) (a : ℝ) (b : E) : ProxOp E where
  call := fun x => f.call (a • x + b)
  prox? := some fun x τ => checkTau τ (do
    let p ← f.prox (a • x + b) (a ^ 2 * τ)
    pure ((1 / a) • (p - b)))
  proxdual? := none
  grad? := some fun x => do pure (a • (← f.grad (a • x + b)))
  hasgrad := f.hasgrad
  sigmame := 1

/-- `_AdjointOperator` (ProxOperator.py:319-333), the `H` property. -/
noncomputable def adjoint (f : ProxOp E) : ProxOp E where
  call := f.call
  prox? := some fun x τ => checkTau τ (f.proxdual x τ)
  proxdual? := some fun x τ => checkTau τ (f.prox x τ)
  grad? := none
  hasgrad := f.hasgrad
  sigmame := 1

/-- The kinds of Python values that can stand next to an operator in `f + v`, `f - v`, `s * f`,
`f.precomposition(a, b)`. -/
inductive Operand (E : Type)
  | float (v : ℝ)
  | int (v : ℤ)
  | array (v : E)
  | op (g : ProxOp E)
  | other

/-- `affine_addition` / `__add__` (ProxOperator.py:186-214, 298-299): arrays only. -/
noncomputable def affineAddition (f : ProxOp E) : Operand E → Py (ProxOp E)
  | .array v => .ok (f.sumOp v)
  | _ => .error .notImplementedError

/-- `__sub__` (ProxOperator.py:301-302): `self.__add__(-v)`.  Negating an operator or an arbitrary
object raises `TypeError` before `__add__` is reached. -/
noncomputable def subOp (f : ProxOp E) : Operand E → Py (ProxOp E)
  | .array v => f.affineAddition (.array (-v))
  | .float v => f.affineAddition (.float (-v))
  | .int v => f.affineAddition (.int (-v))
  | .op _ => .error .typeError
  | .other => .error .typeError

/-- `postcomposition` (ProxOperator.py:216-243): Python floats only. -/
noncomputable def postcomposition (f : ProxOp E) : Operand E → Py (ProxOp E)
  | .float σ => .ok (f.postOp σ)
  | _ => .error .notImplementedError

/-- `precomposition` (ProxOperator.py:245-273): `a` a float, `b` a float or an array.  `const` turns
a scalar into the vector numpy broadcasts it to. -/
noncomputable def precomposition (const : ℝ → E) (f : ProxOp E) : Operand E → Operand E → Py (ProxOp E)
  | .float a, .float b => .ok (f.preOp a (const b))
  | .float a, .array b => .ok (f.preOp a b)
  | _, _ => .error .notImplementedError

/-- `__rmul__` (ProxOperator.py:304-308): int and float go to `postcomposition`, everything else to
`chain` without a check; the object put in the chain has no `prox`, so using the result fails.  This is
the method itself; numpy's own handling of `ndarray * f`, which may not reach it, is not modelled. -/
noncomputable def rmul (f : ProxOp E) : Operand E → Py (ProxOp E)
  | .int n => f.postcomposition (.int n)
  | .float σ => f.postcomposition (.float σ)
  | .op g => .ok (f.chainOp g)
  | .array _ => .ok (f.chainOp ⟨fun _ => .error .typeError, some fun _ _ => .error .attributeError,
      some fun _ _ => .error .attributeError, none, false, 1⟩)
  | .other => .ok (f.chainOp ⟨fun _ => .error .typeError, some fun _ _ => .error .attributeError,
      some fun _ _ => .error .attributeError, none, false, 1⟩)

end ProxOp

open Classical in
/-- `pyproximal.utils.moreau` (utils/moreau.py:10-69).  `np.allclose(x, p + pdual, atol=tol)` is modelled by
the bound `‖x - (p + pdual)‖ ≤ tol` (numpy's test is entrywise and adds a relative term). -/
noncomputable def moreauTest {E : Type} [NormedAddCommGroup E] [InnerProductSpace ℝ E]
    (f : ProxOp E) (x : E) (τ tol : ℝ) (raiseerror : Bool) : Py Bool := do
  let p ← f.prox x τ
  let d ← f.proxdual ((1 / τ) • x) (1 / τ)
  if ‖x - (p + τ • d)‖ ≤ tol then pure true
  else if raiseerror then .error .valueError else pure false

end Verif
