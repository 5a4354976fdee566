import Mathlib.Data.Real.Basic
import Mathlib.Algebra.Order.Ring.Abs

/-!
# Python control flow

Exceptions as values, `for i in range(n)` with `break`.
-/

namespace Verif

/-- What a Python call can end with instead of a usable value.  `nanResult` is not an exception: numpy
returns an array with NaN/inf entries; real numbers have no such value, so the model
reports it as an outcome of its own.  `outOfFuel` is not a Python outcome either: a `while` loop did not end within
the fuel given to the model. -/
inductive PyErr
  | valueError
  | notImplementedError
  | unboundLocalError
  | recursionError
  | indexError
  | typeError
  | keyError
  | attributeError
  | zeroDivisionError
  | runtimeError
  | assertionError
  | outOfFuel
  | nanResult
  deriving DecidableEq

/-- Result of a Python call. -/
abbrev Py (α : Type) := Except PyErr α

/-- The number in a result known to be a number. -/
def Py.get : Py ℝ → ℝ
  | .ok v => v
  | .error _ => 0

/-- Value returned by the `__call__` of an operator: a float or a bool (indicator functions). -/
inductive CallVal
  | num (v : ℝ)
  | bool (b : Bool)

/-- The number Python uses when a `__call__` value enters arithmetic (`True` is 1, `False` is 0). -/
def CallVal.toReal : CallVal → ℝ
  | .num v => v
  | .bool b => if b then 1 else 0

/-- `for i in range(start, start+n): body`; the Boolean returned by the body says that a `break` was
executed at its end. -/
def forRange {S : Type} (body : ℕ → S → Py (S × Bool)) : (n start : ℕ) → S → Py S
  | 0, _, s => .ok s
  | n + 1, i, s =>
    match body i s with
    | .error e => .error e
    | .ok (s', brk) => if brk then .ok s' else forRange body n (i + 1) s'

end Verif
