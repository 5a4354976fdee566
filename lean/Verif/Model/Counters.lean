import Verif.Model.Proximal
import Verif.Model.NonConvex
import Verif.Model.ProjOps

/-!
# Operators whose parameter is a function of a call counter

`L0`, `L0Ball`, `L10Ball` (proximal/L0.py), `L1` (proximal/L1.py), `RelaxedMumfordShah` (proximal/RelaxedMS.py) and `TV` (proximal/TV.py) accept a function in
place of `sigma`/`radius`/`kappa`/`niter`.  It is evaluated at `self.count`, which the decorator `_increment_count` increments before every call of `prox`.
-/

open scoped RealInnerProductSpace

namespace Verif

variable {E : Type} [NormedAddCommGroup E] [InnerProductSpace ℝ E]

/-- What such a class provides: the body of `prox` and of `__call__` for a given value of the counter, and its own `proxdual` when it has one that does not use `prox`. -/
structure CountedClass (E : Type) where
  body : ℕ → E → ℝ → Py E
  callAt : ℕ → E → Py CallVal
  ownDual : Option (E → ℝ → E)

/-- A method call on the object. -/
inductive OpCall (E : Type)
  | prox (x : E) (τ : ℝ)
  | proxdual (x : E) (τ : ℝ)
  | grad (x : E)
  | call (x : E)

/-- What a method call gives back. -/
inductive Answer (E : Type)
  | vec (r : Py E)
  | val (r : Py CallVal)

namespace CountedClass

/-- `prox` (L0.py:97-111, 149-164, 211-227; L1.py:128-146; RelaxedMS.py:87-107; TV.py:77-93): `_increment_count` is the outer decorator, `_check_tau` the inner one.  Returns the new counter too. -/
noncomputable def prox (C : CountedClass E) (c : ℕ) (x : E) (τ : ℝ) : ℕ × Py E :=
  let c := c + 1
  (c, checkTau τ (C.body c x τ))

/-- `proxdual`: the class's own (L1.py:148-151 with `g=None`) or the one of the base class (ProxOperator.py:104-108, 134-158; also L1.py:152-153 with `g`), which calls `prox`. -/
noncomputable def proxdual (C : CountedClass E) (c : ℕ) (x : E) (τ : ℝ) : ℕ × Py E :=
  match C.ownDual with
  | some d => (c, checkTau τ (.ok (d x τ)))
  | none =>
    if τ ≤ 0 then (c, .error .valueError)
    else
      let p := C.prox c ((1 / τ) • x) (1 / τ)
      (p.1, p.2.map fun d => x - τ • d)

/-- `grad` of the base class with `sigmame = 1` (ProxOperator.py:160-184), which calls `prox`. -/
noncomputable def grad (C : CountedClass E) (c : ℕ) (x : E) : ℕ × Py E :=
  let p := C.prox c x 1
  (p.1, p.2.map fun d => (1 / (1 : ℝ)) • (x - d))

/-- One method call: the counter afterwards and the answer. -/
noncomputable def step (C : CountedClass E) (c : ℕ) : OpCall E → ℕ × Answer E
  | .prox x τ => ((C.prox c x τ).1, .vec (C.prox c x τ).2)
  | .proxdual x τ => ((C.proxdual c x τ).1, .vec (C.proxdual c x τ).2)
  | .grad x => ((C.grad c x).1, .vec (C.grad c x).2)
  | .call x => (c, .val (C.callAt c x))

/-- The answers to a sequence of method calls on one object. -/
noncomputable def history (C : CountedClass E) : ℕ → List (OpCall E) → List (Answer E)
  | _, [] => []
  | c, a :: as => (C.step c a).2 :: history C (C.step c a).1 as

end CountedClass

variable {ι κ : Type} [Fintype ι] [Fintype κ]

open Classical in
/-- `L0` with a function `sigma` (L0.py:86-111). -/
noncomputable def L0c (σ : ℕ → ℝ) : CountedClass (Vec ι) where
  body := fun c x τ => .ok <| hardthreshold x (τ * σ c)
  callAt := fun _ x => .ok <| .num ((Finset.univ.filter fun i => |x i| > 0).card : ℝ)
  ownDual := none

open Classical in
/-- `L0Ball` with a function `radius` (L0.py:135-164): `self.ball.radius` is set before the projection is used. -/
noncomputable def L0Ballc (argsort : Vec ι → List ι) (radius : ℕ → ℕ) : CountedClass (Vec ι) where
  body := fun c x _ => .ok <| l0BallProj (radius c) (argsort x) x
  callAt := fun c x => .ok <| .bool (decide ((Finset.univ.filter fun i => x i ≠ 0).card ≤ radius c))
  ownDual := none

open Classical in
/-- `L10Ball` with a function `radius` (L0.py:195-227). -/
noncomputable def L10Ballc (argsort : (κ → ℝ) → List κ) (radius : ℕ → ℕ) : CountedClass (Vec (ι × κ)) where
  body := fun c x _ => .ok <| l10BallProj (radius c) (argsort (colL1 x)) x
  callAt := fun c x => .ok <| .bool (decide ((Finset.univ.filter fun j => colL1 x j ≠ 0).card ≤ radius c))
  ownDual := none

/-- `L1` with a function `sigma` and `g=None` (L1.py:107-154): the box of `proxdual` is built once, from `sigma(0)`. -/
noncomputable def L1c (σ : ℕ → ℝ) : CountedClass (Vec ι) where
  body := fun c x τ => .ok <| softthreshold x fun _ => τ * σ c
  callAt := fun c x => .ok <| .num (σ c * ∑ i, |x i|)
  ownDual := some fun x _ => boxProj (fun _ => some (-σ 0)) (fun _ => some (σ 0)) x

/-- `L1` with a function `sigma` and `g` given (L1.py:107-154). -/
noncomputable def L1gc (σ : ℕ → ℝ) (g : Vec ι) : CountedClass (Vec ι) where
  body := fun c x τ => .ok <| softthreshold (x - g) (fun _ => τ * σ c) + g
  callAt := fun c x => .ok <| .num (σ c * ∑ i, |(x - g) i|)
  ownDual := none

/-- `RelaxedMumfordShah` with functions `sigma` and `kappa` (RelaxedMS.py:72-107). -/
noncomputable def RelaxedMSc (σ κ : ℕ → ℝ) : CountedClass (Vec ι) where
  body := fun c x τ => if σ c = 0 then .error .zeroDivisionError else .ok <| vmk fun i => if |x i| ≤ √(κ c / σ c * (1 + 2 * τ * σ c)) then 1 / (1 + 2 * (τ * σ c)) * x i else x i
  callAt := fun c x => .ok <| .num (min (σ c * ‖x‖ ^ 2) (κ c))
  ownDual := none

end Verif
