import Verif.Model.Primal
import Verif.Model.Proximal
import Mathlib.Algebra.Order.Round
import Mathlib.Data.Int.Log
import Mathlib.Tactic.Linarith
import Mathlib.Tactic.Positivity
import Mathlib.Tactic.FieldSimp

/-!
# The closed-form operators and two solvers in rounded arithmetic

Elsewhere the model computes with real numbers.  Here every floating point operation is followed by a rounding `rnd`,
written where the code has the operation.  Exact in floating point, hence not rounded: `np.abs`, `np.sign`, products
with a sign, `np.maximum`, `np.minimum`, `max`, comparisons, and writing zeros.
`Rounding` says what is assumed of `rnd`; it is the standard model of IEEE arithmetic without overflow and underflow.
`truncBits` and `nearBits` are roundings: to a given number of binary digits, toward zero and to the nearest.
-/

namespace Verif

variable {ι : Type} [Fintype ι]

/-- What is assumed of the rounding of one operation: it keeps the order and the sign, leaves a number of the format
alone, changes a value by at most the fraction `u` of it, and 1 is a number of the format. -/
structure Rounding (rnd : ℝ → ℝ) (u : ℝ) : Prop where
  mono : Monotone rnd
  odd : ∀ x, rnd (-x) = -rnd x
  idem : ∀ x, rnd (rnd x) = rnd x
  err : ∀ x, |rnd x - x| ≤ u * |x|
  one : rnd 1 = 1
  lt : u < 1

/-- `x` is a number of the format. -/
def IsFloat (rnd : ℝ → ℝ) (x : ℝ) : Prop := rnd x = x

/-- A positive number with its mantissa of `p + 1` binary digits made an integer by `ρ`. -/
noncomputable def fmtPos (ρ : ℝ → ℤ) (p : ℕ) (x : ℝ) : ℝ :=
  (2 : ℝ) ^ (Int.log 2 x - p) * ρ (x * (2 : ℝ) ^ (p - Int.log 2 x))

/-- Rounding to a binary format of `p + 1` digits with unbounded exponents. -/
noncomputable def fmtBits (ρ : ℝ → ℤ) (p : ℕ) (x : ℝ) : ℝ :=
  if 0 < x then fmtPos ρ p x else if x < 0 then -fmtPos ρ p (-x) else 0

/-- Truncation to the leading `p + 1` binary digits (IEEE `roundTowardZero`). -/
noncomputable def truncBits (p : ℕ) : ℝ → ℝ := fmtBits Int.floor p

/-- Rounding to the nearest number of `p + 1` binary digits (IEEE `roundTiesToAway`). -/
noncomputable def nearBits (p : ℕ) : ℝ → ℝ := fmtBits round p

/-- `_softthreshold` on one entry (proximal/L1.py:36): the subtraction is the only rounded operation. -/
noncomputable def softR (rnd : ℝ → ℝ) (x thresh : ℝ) : ℝ := max (rnd (|x| - thresh)) 0 * npsign x

/-- `L1` (proximal/L1.py:107-154) with a constant scalar `sigma`, real input; the threshold `tau * sigma`, the
difference `x - g` and the final sum are rounded.  The value `__call__` returns is the parameter `val`
(the order in which numpy sums is not modelled). -/
noncomputable def L1R (rnd : ℝ → ℝ) (val : Vec ι → Py CallVal) (σ : ℝ) (g : Option (Vec ι)) : ProxOp (Vec ι) where
  call := val
  prox? := some fun x τ => checkTau τ (.ok (match g with
    | none => vmk fun i => softR rnd (x i) (rnd (τ * σ))
    | some g => vmk fun i => rnd (softR rnd (rnd (x i - g i)) (rnd (τ * σ)) + g i)))
  proxdual? := some fun x τ => checkTau τ (match g with
    | none => .ok (boxProj (fun _ => some (-σ)) (fun _ => some σ) x)
    | some g =>
      -- `x - tau * prox(x / tau, 1.0 / tau)` (ProxOperator.py:105-108)
      checkTau (rnd (1 / τ)) (.ok (vmk fun i =>
        rnd (x i - rnd (τ * rnd (softR rnd (rnd (rnd (x i / τ) - g i)) (rnd (rnd (1 / τ) * σ)) + g i))))))
  grad? := none
  hasgrad := false
  sigmame := 1

/-- `L2` without `Op`, `b`, `q` (proximal/L2.py:290-294) or with `b` (proximal/L2.py:285-289). -/
noncomputable def L2R (rnd : ℝ → ℝ) (val : Vec ι → Py CallVal) (σ : ℝ) (b : Option (Vec ι)) : ProxOp (Vec ι) where
  call := val
  prox? := some fun x τ => checkTau τ (.ok (match b with
    | none => vmk fun i => rnd (x i / rnd (1 + rnd (τ * σ)))
    | some b => vmk fun i => rnd (rnd (x i + rnd (rnd (τ * σ) * b i)) / rnd (1 + rnd (τ * σ)))))
  proxdual? := none
  grad? := none
  hasgrad := true
  sigmame := 1

/-- `L0` with a constant `sigma` (proximal/L0.py:38-40 and 106-111): only the threshold is rounded. -/
noncomputable def L0R (rnd : ℝ → ℝ) (val : Vec ι → Py CallVal) (σ : ℝ) : ProxOp (Vec ι) where
  call := val
  prox? := some fun x τ => checkTau τ (.ok (vmk fun i => if |x i| ≤ rnd (τ * σ) then 0 else x i))
  proxdual? := none
  grad? := none
  hasgrad := false
  sigmame := 1

/-- `Euclidean.prox` (proximal/Euclidean.py:49-54); `nrm` is what `np.linalg.norm` returns. -/
noncomputable def EuclideanR (rnd : ℝ → ℝ) (nrm : Vec ι → ℝ) (val : Vec ι → Py CallVal) (σ : ℝ) : ProxOp (Vec ι) where
  call := val
  prox? := some fun x τ => checkTau τ (
    if max (nrm x) (rnd (τ * σ)) = 0 then .error .zeroDivisionError
    else .ok (vmk fun i => rnd (rnd (1 - rnd (rnd (τ * σ) / max (nrm x) (rnd (τ * σ)))) * x i)))
  proxdual? := none
  grad? := none
  hasgrad := true
  sigmame := 1

/-- `EuclideanBall` (proximal/Euclidean.py:86-97 and projection/Euclidean.py:39-43); `nrm` is what `np.linalg.norm`
returns.  Its own test rounds the difference only. -/
noncomputable def EuclideanBallR (rnd : ℝ → ℝ) (nrm : Vec ι → ℝ) (center : Vec ι) (radius : ℝ) : ProxOp (Vec ι) where
  call := fun x => .ok (.bool (decide (nrm (vmk fun i => rnd (x i - center i)) ≤ radius)))
  prox? := some fun x τ => checkTau τ (
    if max (nrm (vmk fun i => rnd (x i - center i))) radius = 0 then .error .zeroDivisionError
    else .ok (vmk fun i => rnd (center i +
      rnd (rnd (radius / max (nrm (vmk fun i => rnd (x i - center i))) radius) * rnd (x i - center i)))))
  proxdual? := none
  grad? := none
  hasgrad := false
  sigmame := 1

/-- `Huber.prox` (proximal/Huber.py:59-71): `L2(sigma=1/alpha)` below the bend, `L1()` above it. -/
noncomputable def HuberR (rnd : ℝ → ℝ) (val : Vec ι → Py CallVal) (α : ℝ) : ProxOp (Vec ι) where
  call := val
  prox? := some fun x τ => checkTau τ (.ok (vmk fun i =>
    if |x i| > α then softR rnd (x i) (rnd (τ * 1)) else rnd (x i / rnd (1 + rnd (τ * rnd (1 / α))))))
  proxdual? := none
  grad? := none
  hasgrad := false
  sigmame := 1

/-- The sum and the difference of two arrays, rounded entry by entry. -/
noncomputable def addR (rnd : ℝ → ℝ) (x y : Vec ι) : Vec ι := vmk fun i => rnd (x i + y i)
@[inherit_doc addR] noncomputable def subR (rnd : ℝ → ℝ) (x y : Vec ι) : Vec ι := vmk fun i => rnd (x i - y i)

/-- Body of ADMM (primal.py:1183-1197) with its additions and subtractions rounded; the operators bring their own
rounding.  `u + x - z` is evaluated from the left. -/
noncomputable def ADMMR.body (rnd : ℝ → ℝ) (f g : ProxOp (Vec ι)) (τ : ℝ) (gfirst : Bool) (_ : ℕ) (s : SplitState (Vec ι)) :
    Py (SplitState (Vec ι) × Bool) := do
  if gfirst then do
    let z ← g.prox (addR rnd s.x s.u) τ
    let x ← f.prox (subR rnd z s.u) τ
    pure (⟨x, z, subR rnd (addR rnd s.u x) z, s.log ++ [(x, z)]⟩, false)
  else do
    let x ← f.prox (subR rnd s.z s.u) τ
    let z ← g.prox (addR rnd x s.u) τ
    pure (⟨x, z, subR rnd (addR rnd s.u x) z, s.log ++ [(x, z)]⟩, false)

/-- `ADMM` (primal.py:1164-1210) in rounded arithmetic. -/
noncomputable def ADMMR (rnd : ℝ → ℝ) (f g : ProxOp (Vec ι)) (x0 z0 : Option (Vec ι)) (τ : ℝ) (niter : ℕ) (gfirst : Bool) :
    Py (SplitState (Vec ι)) := do
  let (x, z) ← x0z0Init x0 z0
  forRange (ADMMR.body rnd f g τ gfirst) niter 0 ⟨x, z, 0, []⟩

end Verif
