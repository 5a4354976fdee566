import Verif.Model.ProxOperator

/-!
# Model of `Nonlinear` (pyproximal/proximal/Nonlinear.py)

Real arrays.  A subclass provides `fun`, `grad` and `optimize`; `fungrad` is the one of the base class.  `optimize` may read every attribute of the object.
-/

open scoped RealInnerProductSpace

namespace Verif

variable {E : Type} [NormedAddCommGroup E] [InnerProductSpace ℝ E]

/-- The attributes that change (Nonlinear.py:61, 99-103): `y` and `tau` do not exist before the first call of `prox`. -/
structure NLState (E : Type) where
  x0 : E
  y : Option E
  tau : Option ℝ

/-- What a subclass and the arguments of the constructor fix (Nonlinear.py:54-75). -/
structure NLClass (E : Type) where
  fn : E → Py ℝ
  gradf : E → Py E
  optimize : NLState E → Py E
  warm : Bool

/-- Reading an attribute. -/
def getAttr {α : Type} : Option α → Py α
  | some v => .ok v
  | none => .error .attributeError

namespace NLClass

variable (C : NLClass E)

/-- The constructor (Nonlinear.py:54-62). -/
def init (x0 : E) : NLState E := ⟨x0, none, none⟩

/-- `__call__` (Nonlinear.py:77-78). -/
def call (x : E) : Py ℝ := C.fn x

/-- `_funprox` (Nonlinear.py:80-81). -/
noncomputable def funprox (s : NLState E) (x : E) (τ : ℝ) : Py ℝ := do
  let f ← C.fn x
  let y ← getAttr s.y
  pure (f + 1 / (2 * τ) * ⟪x - y, x - y⟫)

/-- `_gradprox` (Nonlinear.py:83-84). -/
noncomputable def gradprox (s : NLState E) (x : E) (τ : ℝ) : Py E := do
  let g ← C.gradf x
  let y ← getAttr s.y
  pure (g + (1 / τ) • (x - y))

/-- `fungrad` (Nonlinear.py:92-95). -/
def fungrad (x : E) : Py (ℝ × E) := do
  let f ← C.fn x
  let g ← C.gradf x
  pure (f, g)

/-- `_fungradprox` (Nonlinear.py:86-90). -/
noncomputable def fungradprox (s : NLState E) (x : E) (τ : ℝ) : Py (ℝ × E) := do
  let p ← C.fungrad x
  let y ← getAttr s.y
  pure (p.1 + 1 / (2 * τ) * ⟪x - y, x - y⟫, p.2 + (1 / τ) • (x - y))

/-- `prox` (Nonlinear.py:97-104), with the object afterwards. -/
noncomputable def prox (s : NLState E) (x : E) (τ : ℝ) : NLState E × Py E :=
  if τ ≤ 0 then (s, .error .valueError)
  else
    let s1 : NLState E := { s with y := some x, tau := some τ }
    match C.optimize s1 with
    | .error e => (s1, .error e)
    | .ok r => (if C.warm then { s1 with x0 := r } else s1, .ok r)

/-- `proxdual` of the base class (ProxOperator.py:104-108, 134-158), which calls `prox`. -/
noncomputable def proxdual (s : NLState E) (x : E) (τ : ℝ) : NLState E × Py E :=
  if τ ≤ 0 then (s, .error .valueError)
  else
    let p := C.prox s ((1 / τ) • x) (1 / τ)
    (p.1, p.2.map fun d => x - τ • d)

/-- A sequence of calls of `prox` on one object: the object at the end. -/
noncomputable def run : NLState E → List (E × ℝ) → NLState E
  | s, [] => s
  | s, a :: as => run (C.prox s a.1 a.2).1 as

/-- The loop of the gradient descent. -/
noncomputable def descentLoop (s : NLState E) (α : ℝ) : ℕ → E → Py E
  | 0, x => .ok x
  | n + 1, x => do
    let τ ← getAttr s.tau
    let d ← C.gradprox s x τ
    descentLoop s α n (x - α • d)

/-- The `optimize` of the tutorial and of the tests: gradient descent from `self.x0` with a fixed step on the function with gradient `_gradprox`
(tutorials/nonlinearconstrained.py:101-112, pytests/test_proximal.py:238-244). -/
noncomputable def descent (α : ℝ) (niter : ℕ) (s : NLState E) : Py E := C.descentLoop s α niter s.x0

end NLClass

end Verif
