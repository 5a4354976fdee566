import Verif.Model.NonConvex
import Verif.Model.Projection
import Verif.Model.Primal
import Mathlib.Algebra.BigOperators.Group.Finset.Basic

/-!
# Numbers with infinities and NaN

The other modules take the entries of an array to be real numbers and report a division by zero as `nanResult`.  Here an entry is what a float can be apart from rounding:
a real number, an infinity or NaN, with the rules of IEEE 754 for them as numpy applies them (numpy does not raise).  Simplifications: no rounding and no overflow, and zero has no sign,
so `a / 0` has the sign of `a`.  The functions of the library are transcribed again on such arrays, expression by expression.
-/

namespace Verif

variable {ι κ : Type} [Fintype ι] [Fintype κ]

/-- The values of a float, without rounding. -/
inductive XF
  | fin (r : ℝ)
  | pinf
  | ninf
  | nan

namespace XF

/-- Addition: NaN is absorbing and `inf - inf` is NaN. -/
noncomputable def add : XF → XF → XF
  | fin a, fin b => fin (a + b)
  | nan, _ => nan
  | _, nan => nan
  | pinf, ninf => nan
  | ninf, pinf => nan
  | pinf, _ => pinf
  | _, pinf => pinf
  | ninf, _ => ninf
  | _, ninf => ninf

/-- Sign change. -/
noncomputable def neg : XF → XF
  | fin a => fin (-a)
  | pinf => ninf
  | ninf => pinf
  | nan => nan

/-- `np.sign`. -/
noncomputable def sign : XF → XF
  | fin a => fin (npsign a)
  | pinf => fin 1
  | ninf => fin (-1)
  | nan => nan

/-- `np.abs`. -/
noncomputable def abs : XF → XF
  | fin a => fin |a|
  | pinf => pinf
  | ninf => pinf
  | nan => nan

/-- An infinity with the sign of `a`; `0 * inf` is NaN. -/
noncomputable def infSign (a : ℝ) : XF := if a = 0 then nan else if 0 < a then pinf else ninf

/-- Multiplication. -/
noncomputable def mul : XF → XF → XF
  | fin a, fin b => fin (a * b)
  | nan, _ => nan
  | _, nan => nan
  | pinf, pinf => pinf
  | pinf, ninf => ninf
  | ninf, pinf => ninf
  | ninf, ninf => pinf
  | fin a, pinf => infSign a
  | fin a, ninf => infSign (-a)
  | pinf, fin a => infSign a
  | ninf, fin a => infSign (-a)

/-- Division of numpy numbers: `a / 0` is an infinity, `0 / 0` and `inf / inf` are NaN. -/
noncomputable def div : XF → XF → XF
  | fin a, fin b => if b = 0 then infSign a else fin (a / b)
  | nan, _ => nan
  | _, nan => nan
  | fin _, pinf => fin 0
  | fin _, ninf => fin 0
  | pinf, fin b => if b < 0 then ninf else pinf
  | ninf, fin b => if b < 0 then pinf else ninf
  | pinf, pinf => nan
  | pinf, ninf => nan
  | ninf, pinf => nan
  | ninf, ninf => nan

noncomputable instance : Add XF := ⟨add⟩
noncomputable instance : Neg XF := ⟨neg⟩
noncomputable instance : Sub XF := ⟨fun a b => add a (neg b)⟩
noncomputable instance : Mul XF := ⟨mul⟩
noncomputable instance : Div XF := ⟨div⟩
noncomputable instance : Zero XF := ⟨fin 0⟩

/-- `np.sqrt`. -/
noncomputable def sqrt : XF → XF
  | fin a => if a < 0 then nan else fin √a
  | pinf => pinf
  | ninf => nan
  | nan => nan

/-- `np.log`. -/
noncomputable def log : XF → XF
  | fin a => if a < 0 then nan else if a = 0 then ninf else fin (Real.log a)
  | pinf => pinf
  | ninf => nan
  | nan => nan

/-- `np.exp`. -/
noncomputable def exp : XF → XF
  | fin a => fin (Real.exp a)
  | pinf => pinf
  | ninf => fin 0
  | nan => nan

/-- `np.arccos`: NaN outside `[-1, 1]`. -/
noncomputable def arccos : XF → XF
  | fin a => if -1 ≤ a ∧ a ≤ 1 then fin (Real.arccos a) else nan
  | _ => nan

/-- `np.cos`. -/
noncomputable def cos : XF → XF
  | fin a => fin (Real.cos a)
  | _ => nan

/-- `x ** (1 / 3.)`: NaN for negative numbers. -/
noncomputable def cbrt : XF → XF
  | fin a => if a < 0 then nan else fin (a ^ ((1 : ℝ) / 3))
  | pinf => pinf
  | ninf => nan
  | nan => nan

/-- `<=`: false as soon as one side is NaN. -/
def le : XF → XF → Prop
  | fin a, fin b => a ≤ b
  | nan, _ => False
  | _, nan => False
  | ninf, _ => True
  | _, pinf => True
  | pinf, _ => False
  | _, ninf => False

/-- `<`: false as soon as one side is NaN. -/
def lt : XF → XF → Prop
  | fin a, fin b => a < b
  | nan, _ => False
  | _, nan => False
  | ninf, ninf => False
  | pinf, pinf => False
  | ninf, _ => True
  | _, pinf => True
  | pinf, _ => False
  | _, ninf => False

open Classical in
/-- `np.maximum`: NaN if one of the two is. -/
noncomputable def npmax (a b : XF) : XF := match a, b with
  | nan, _ => nan
  | _, nan => nan
  | a, b => if le b a then a else b

open Classical in
/-- `np.minimum`: NaN if one of the two is. -/
noncomputable def npmin (a b : XF) : XF := match a, b with
  | nan, _ => nan
  | _, nan => nan
  | a, b => if le a b then a else b

open Classical in
/-- The builtin `max(a, b)` of Python: `b` if `b > a`, otherwise `a`; so `max(nan, b)` is NaN and `max(a, nan)` is `a`. -/
noncomputable def pymax (a b : XF) : XF := if lt a b then b else a

/-- `np.nan_to_num`. -/
noncomputable def nanToNum : XF → XF
  | fin a => fin a
  | nan => fin 0
  | pinf => fin 1.7976931348623157e308
  | ninf => fin (-1.7976931348623157e308)

/-- Addition of such numbers is commutative and associative, so a sum does not depend on the order in which numpy adds. -/
noncomputable instance : AddCommMonoid XF where
  add_assoc a b c := by
    change add (add a b) c = add a (add b c)
    cases a <;> cases b <;> cases c <;> simp [add, add_assoc]
  add_comm a b := by
    change add a b = add b a
    cases a <;> cases b <;> simp [add, add_comm]
  zero_add a := by
    change add (fin 0) a = a
    cases a <;> simp [add]
  add_zero a := by
    change add a (fin 0) = a
    cases a <;> simp [add]
  nsmul := nsmulRec

end XF

open XF

/-- The array of real numbers `x` as an array of floats. -/
noncomputable def liftX (x : Vec ι) : ι → XF := fun i => fin (x i)

/-- `np.linalg.norm` of an array. -/
noncomputable def xnorm (x : ι → XF) : XF := (∑ i, x i * x i).sqrt

/-- `np.dot` of a finite weight array and an array. -/
noncomputable def xdot (w : Vec ι) (x : ι → XF) : XF := ∑ i, fin (w i) * x i

/-! ## Operators -/

/-- `_softthreshold` on one real entry (proximal/L1.py:36). -/
noncomputable def softX (x : XF) (t : ℝ) : XF := npmax (x.abs - fin t) (fin 0) * x.sign

/-- `L1.prox` (proximal/L1.py:137-145) without and with `g`. -/
noncomputable def L1X.prox (σ : ℝ) (g : Option (Vec ι)) (x : ι → XF) (τ : ℝ) : Py (ι → XF) :=
  checkTau τ (.ok fun i => match g with
    | none => softX (x i) (τ * σ)
    | some g => softX (x i - fin (g i)) (τ * σ) + fin (g i))

/-- `L1.__call__` (proximal/L1.py:122-126). -/
noncomputable def L1X.call (σ : ℝ) (g : Option (Vec ι)) (x : ι → XF) : XF :=
  fin σ * ∑ i, (match g with
    | none => x i
    | some g => x i - fin (g i)).abs

/-- A bound of a box as a float: absent bounds are `np.inf` (projection/Box.py:40-46). -/
noncomputable def lowerX : Bound → XF
  | none => ninf
  | some l => fin l

/-- The same for upper bounds. -/
noncomputable def upperX : Bound → XF
  | none => pinf
  | some u => fin u

/-- `BoxProj.__call__` (projection/Box.py:48-50), `Box.prox` (proximal/Box.py:41-43). -/
noncomputable def BoxX.prox (lower upper : ι → Bound) (x : ι → XF) (τ : ℝ) : Py (ι → XF) :=
  checkTau τ (.ok fun i => npmin (npmax (x i) (lowerX (lower i))) (upperX (upper i)))

/-- `Box.__call__` (proximal/Box.py:38-39). -/
def BoxX.call (lower upper : ι → Bound) (x : ι → XF) : Prop := ∀ i, le (lowerX (lower i)) (x i) ∧ le (x i) (upperX (upper i))

open Classical in
/-- `L0.prox` (proximal/L0.py:106-111) through `_hardthreshold` (proximal/L0.py:38-40). -/
noncomputable def L0X.prox (σ : ℝ) (x : ι → XF) (τ : ℝ) : Py (ι → XF) := checkTau τ (.ok fun i => if le (x i).abs (fin (τ * σ)) then fin 0 else x i)

/-- `L2.prox` without `Op` and `b` (proximal/L2.py:289-298): `x / (1 + tau*sigma)`, with `b` and with `q` in the numerator. -/
noncomputable def L2X.prox (σ : ℝ) (b : Option (Vec ι)) (qα : Option (Vec ι × ℝ)) (x : ι → XF) (τ : ℝ) : Py (ι → XF) :=
  let num := fun i => match b with
    | none => x i
    | some b => x i + fin (τ * σ * b i)
  let num := fun i => match qα with
    | none => num i
    | some qα => num i - fin (τ * qα.2 * qα.1 i)
  checkTau τ (.ok fun i => num i / fin (1 + τ * σ))

open Classical in
/-- `Huber.prox` (proximal/Huber.py:59-71): `~mask` holds for NaN entries. -/
noncomputable def HuberX.prox (α : ℝ) (x : ι → XF) (τ : ℝ) : Py (ι → XF) :=
  checkTau τ (.ok fun i => if lt (fin α) (x i).abs then softX (x i) (τ * 1) else x i / fin (1 + τ * (1 / α)))

open Classical in
/-- `Huber.__call__` (proximal/Huber.py:51-56). -/
noncomputable def HuberX.call (α : ℝ) (x : ι → XF) : XF :=
  ∑ i, if lt (fin α) (x i).abs then (x i).abs - fin (α / 2) else (x i).abs * (x i).abs / fin (2 * α)

open Classical in
/-- A division of two Python floats raises instead (`ZeroDivisionError`). -/
noncomputable def pyDivX (a b : XF) : Py XF := match b with
  | fin r => if r = 0 then .error .zeroDivisionError else .ok (a / fin r)
  | b => .ok (a / b)

/-- `HuberCircular.prox` (proximal/Huber.py:121-124): builtin `max`, division of Python floats. -/
noncomputable def HuberCircularX.prox (α : ℝ) (x : ι → XF) (τ : ℝ) : Py (ι → XF) :=
  checkTau τ (do
    let q ← pyDivX (fin τ) (pymax (xnorm x) (fin (τ + α)))
    pure fun i => (fin 1 - q) * x i)

/-- `Euclidean.prox` (proximal/Euclidean.py:49-54). -/
noncomputable def EuclideanX.prox (σ : ℝ) (x : ι → XF) (τ : ℝ) : Py (ι → XF) :=
  checkTau τ (do
    let q ← pyDivX (fin (τ * σ)) (pymax (xnorm x) (fin (τ * σ)))
    pure fun i => (fin 1 - q) * x i)

/-- `Euclidean.proxdual` (proximal/Euclidean.py:56-59): a numpy division. -/
noncomputable def EuclideanX.proxdual (σ : ℝ) (x : ι → XF) (τ : ℝ) : Py (ι → XF) :=
  checkTau τ (.ok fun i => fin σ * x i / pymax (xnorm x) (fin σ))

/-- `Euclidean.grad` (proximal/Euclidean.py:61-62). -/
noncomputable def EuclideanX.grad (σ : ℝ) (x : ι → XF) : Py (ι → XF) := .ok fun i => fin σ * x i / xnorm x

/-- `EuclideanBallProj.__call__` (projection/Euclidean.py:39-43). -/
noncomputable def EuclideanBallX.prox (center : Vec ι) (radius : ℝ) (x : ι → XF) (τ : ℝ) : Py (ι → XF) :=
  checkTau τ (do
    let q ← pyDivX (fin radius) (pymax (xnorm fun i => x i - fin (center i)) (fin radius))
    pure fun i => fin (center i) + q * (x i - fin (center i)))

/-- `EuclideanBall.__call__` (proximal/Euclidean.py:92-93). -/
noncomputable def EuclideanBallX.call (center : Vec ι) (radius : ℝ) (x : ι → XF) : Prop := le (xnorm fun i => x i - fin (center i)) (fin radius)

open Classical in
/-- `HalfSpaceProj.__call__` (projection/HalfSpace.py:46-53). -/
noncomputable def HalfSpaceX.prox (w : Vec ι) (b : ℝ) (x : ι → XF) (τ : ℝ) : Py (ι → XF) :=
  checkTau τ (.ok (if le (xdot w x) (fin b) then x
    else fun i => x i - (xdot w x - fin b) / xdot w (liftX w) * fin (w i)))

/-- `HalfSpace.__call__` (proximal/HalfSpace.py:35-36). -/
def HalfSpaceX.call (w : Vec ι) (b : ℝ) (x : ι → XF) : Prop := le (xdot w x) (fin b)

/-- `Simplex.__call__` with `dims=None` (proximal/Simplex.py:61-63). -/
def SimplexX.call (radius tol : ℝ) (x : ι → XF) : Prop :=
  ¬((lt (fin tol) ((∑ i, x i) - fin radius) ∨ lt ((∑ i, x i) - fin radius) (fin (-tol))) ∨ ∃ i, lt (x i) (fin 0))

/-- `L1Ball.__call__` (proximal/L1.py:196-197). -/
def L1BallX.call (radius tol : ℝ) (x : ι → XF) : Prop := lt ((∑ i, (x i).abs) - fin radius) (fin tol)

/-- `np.sqrt(np.sum(x**2, axis=0))` (proximal/L21.py:74). -/
noncomputable def colNormX (x : ι × κ → XF) (j : κ) : XF := (∑ i, x (i, j) * x (i, j)).sqrt

/-- `L21.prox` (proximal/L21.py:71-77). -/
noncomputable def L21X.prox (σ : ℝ) (x : ι × κ → XF) (τ : ℝ) : Py (ι × κ → XF) :=
  checkTau τ (.ok fun ij => (fin 1 - fin (τ * σ) / npmax (colNormX x ij.2) (fin (τ * σ))) * x ij)

/-- `L21.proxdual` (proximal/L21.py:79-85). -/
noncomputable def L21X.proxdual (σ : ℝ) (x : ι × κ → XF) (τ : ℝ) : Py (ι × κ → XF) :=
  checkTau τ (.ok fun ij => fin σ * x ij / npmax (colNormX x ij.2) (fin σ))

/-- `l1` (proximal/L21_plus_L1.py:47). -/
noncomputable def l1X (σ ρ τ : ℝ) (x : ι × κ → XF) (ij : ι × κ) : XF := npmax ((x ij).abs - fin (σ * τ * ρ)) (fin 0)

/-- `L21_plus_L1.prox` (proximal/L21_plus_L1.py:44-54) on a 2-dimensional array, `axis=0`. -/
noncomputable def L21plusL1X.prox (σ ρ : ℝ) (x : ι × κ → XF) (τ : ℝ) : Py (ι × κ → XF) :=
  checkTau τ (.ok fun ij => nanToNum (x ij / (x ij).abs) * l1X σ ρ τ x ij *
    npmax (fin 1 - fin (σ * τ * (1 - ρ)) / colNormX (l1X σ ρ τ x) ij.2) (fin 0))

/-! ## Non-convex penalties, one entry at a time -/

open Classical in
/-- `SCAD.prox` on one entry (proximal/SCAD.py:80-90): two masked assignments to a copy. -/
noncomputable def scadProxX (σ a τ : ℝ) (x : XF) : XF :=
  let first : XF := fin (σ * (a - 1 - τ + τ * a)) / fin (a - 1)
  let θ := if le x.abs first then x.sign * npmax (fin 0) (x.abs - fin (σ * τ)) else x
  if lt first x.abs ∧ le x.abs (fin (a * σ)) then (fin (a - 1) * x - x.sign * fin (a * σ * τ)) / fin (a - 1 - τ) else θ

open Classical in
/-- `QuadraticEnvelopeCard.prox` on one entry (proximal/QuadraticEnvelope.py:88-95). -/
noncomputable def qecProxX (μ τ : ℝ) (x : XF) : XF :=
  (if lt x.abs (sqrt (fin (2 * μ))) then
    (if τ ≥ 1 then fin 0 else npmax (fin 0) ((x.abs - fin τ * sqrt (fin (2 * μ))) / fin (1 - τ)))
  else x.abs) * x.sign

open Classical in
/-- `RelaxedMumfordShah.prox` on one entry (proximal/RelaxedMS.py:102-107), `sigma` not zero. -/
noncomputable def rmsProxX (σ κ τ : ℝ) (x : XF) : XF :=
  if le x.abs (sqrt (fin (κ / σ * (1 + 2 * τ * σ)))) then fin (1 / (1 + 2 * (τ * σ))) * x else x

/-- `Log.elementwise` on one entry (proximal/Log.py:87-88). -/
noncomputable def logElemX (σ γ : ℝ) (x : XF) : XF := fin σ / log (fin (γ + 1)) * log (fin γ * x.abs + fin 1)

open Classical in
/-- `np.argmin` of two numbers picks the second (a NaN counts as the minimum). -/
noncomputable def argminSecond (a b : XF) : Prop := match a, b with
  | nan, _ => False
  | _, nan => True
  | a, b => lt b a

open Classical in
/-- `Log.prox` on one entry (proximal/Log.py:91-104). -/
noncomputable def logProxX (σ γ τ : ℝ) (x : XF) : XF :=
  let k := fin (τ * σ) / log (fin (γ + 1))
  let b := fin γ * x.abs - fin 1
  let disc := b * b - fin (4 * γ) * (k * fin γ - x.abs)
  let r := (b + sqrt disc) / fin (2 * γ)
  let val := fun z : XF => fin τ * logElemX σ γ z + (z - x.abs) * (z - x.abs) / fin 2
  (if le (fin 0) disc then (if argminSecond (val (fin 0)) (val r) then r else fin 0) else fin 0) * x.sign

open Classical in
/-- `Log1.prox` on one real entry (proximal/Log.py:163-190): two masked assignments to zeros. -/
noncomputable def log1ProxX (σ δ τ : ℝ) (x : XF) : XF :=
  let thresh := sqrt (fin (2 * (σ * τ))) - fin δ
  let x1 := if lt thresh x then fin 0.5 * (x - fin δ + sqrt ((x + fin δ).abs * (x + fin δ).abs - fin (2 * (σ * τ)))) else fin 0
  if lt x (-thresh) then fin 0.5 * (x + fin δ - sqrt ((x - fin δ).abs * (x - fin δ).abs - fin (2 * (σ * τ)))) else x1

/-- `Log1.elementwise` on one entry (proximal/Log.py:159-160). -/
noncomputable def log1ElemX (δ : ℝ) (x : XF) : XF := log (x.abs + fin δ)

/-- `np.real(lambertw(t))`, with scipy's function on the reals as the parameter `lambertw`. -/
noncomputable def lambertX (lambertw : ℝ → ℝ) : XF → XF
  | fin a => fin (lambertw a)
  | pinf => pinf
  | ninf => ninf
  | nan => nan

/-- `ETP.elementwise` on one entry (proximal/ETP.py:65-70). -/
noncomputable def etpElemX (σ γ : ℝ) (x : XF) : XF := fin σ / (fin 1 - exp (fin (-γ))) * (fin 1 - exp (fin (-γ) * x.abs))

open Classical in
/-- `ETP.prox` on one entry (proximal/ETP.py:73-91). -/
noncomputable def etpProxX (lambertw : ℝ → ℝ) (σ γ τ : ℝ) (x : XF) : XF :=
  let k := fin (τ * σ) / (fin 1 - exp (fin (-γ)))
  let tmp := exp (-x.abs * fin γ) * k * fin (γ ^ 2)
  let stat := x.sign * lambertX lambertw (-tmp) / fin γ + x
  if le tmp (exp (fin (-1))) ∧ lt (fin τ * etpElemX σ γ stat + (stat - x) * (stat - x) / fin 2) (x * x / fin 2) then stat else fin 0

/-- `Geman.elementwise` on one entry (proximal/Geman.py:62-63). -/
noncomputable def gemanElemX (σ γ : ℝ) (x : XF) : XF := fin σ * x.abs / (x.abs + fin γ)

open Classical in
/-- `Geman.prox` with `_find_local_minima` on one entry (proximal/Geman.py:66-90). -/
noncomputable def gemanProxX (σ γ τ : ℝ) (x : XF) : XF :=
  let b := fin (2 * γ) - x.abs
  let c := fin (γ ^ 2) - fin (2 * γ) * x.abs
  let d := fin (γ * σ * τ) - fin (γ ^ 2) * x.abs
  let e := c - b * b / fin 3
  let f := -(e * e * e) / fin 27
  let g := (fin 2 * (b * b * b) - fin 9 * b * c + fin 27 * d) / fin 27
  let k := arccos (-(g / (fin 2 * sqrt f)))
  let r := fin 2 * cbrt (sqrt f) * cos (k / fin 3) - b / fin 3
  if le (g * g / fin 4 - f) (fin 0) ∧ lt (fin τ * gemanElemX σ γ r + (r - x.abs) * (r - x.abs) / fin 2) (x.abs * x.abs / fin 2)
  then x.sign * r else fin 0

/-- An operator that works entry by entry: `prox` with the check of the step (ProxOperator.py:13-27). -/
noncomputable def eachX (p : ℝ → XF → XF) (x : ι → XF) (τ : ℝ) : Py (ι → XF) := checkTau τ (.ok fun i => p τ (x i))

/-! ## Base class and solvers -/

/-- `_prox_moreau` and `_proxdual_moreau` (ProxOperator.py:98-108). -/
noncomputable def moreauStepX (m : (ι → XF) → ℝ → Py (ι → XF)) (x : ι → XF) (τ : ℝ) : Py (ι → XF) :=
  checkTau τ (do
    let d ← m (fun i => x i / fin τ) (1 / τ)
    pure fun i => x i - fin τ * d i)

/-- An operator on arrays of floats: value and `prox`. -/
structure XOp (ι : Type) where
  call : (ι → XF) → Py XF
  prox : (ι → XF) → ℝ → Py (ι → XF)

/-- The tolerance test `np.abs(1.0 - pf / pfold) < tol` with Python floats (primal.py:188), `pfold` starting from `np.inf`. -/
noncomputable def stopX (pf pfold : XF) (tol : ℝ) : Py Prop := do
  let q ← pyDivX pf pfold
  pure (lt (fin 1 - q).abs (fin tol))

/-- Loop variables of `ProximalPoint`. -/
structure PPX (ι : Type) where
  x : ι → XF
  pf : XF
  log : List (ι → XF)

open Classical in
/-- Body of `ProximalPoint` (primal.py:176-203). -/
noncomputable def ProximalPointX.body (f : XOp ι) (τ : ℝ) (tol : Option ℝ) (_ : ℕ) (s : PPX ι) : Py (PPX ι × Bool) := do
  let x ← f.prox s.x τ
  let log := s.log ++ [x]
  match tol with
  | none => pure (⟨x, s.pf, log⟩, false)
  | some t => do
    let v ← f.call x
    let r ← stopX v s.pf t
    pure (⟨x, v, log⟩, decide r)

/-- `ProximalPoint` (primal.py:106-206). -/
noncomputable def ProximalPointX (f : XOp ι) (x0 : ι → XF) (τ : ℝ) (niter : ℕ) (tol : Option ℝ) : Py (PPX ι) :=
  forRange (ProximalPointX.body f τ tol) niter 0 ⟨x0, pinf, []⟩

/-- Body of `ADMM` with `gfirst=False` (primal.py:1187-1190). -/
noncomputable def ADMMX.body (f g : XOp ι) (τ : ℝ) (_ : ℕ) (s : SplitState (ι → XF)) : Py (SplitState (ι → XF) × Bool) := do
  let x ← f.prox (fun i => s.z i - s.u i) τ
  let z ← g.prox (fun i => x i + s.u i) τ
  pure (⟨x, z, fun i => s.u i + x i - z i, s.log ++ [(x, z)]⟩, false)

/-- `ADMM` with `x0` and `gfirst=False` (primal.py:1056-1210): `z` starts as a copy of `x0`, `u` from zeros. -/
noncomputable def ADMMX (f g : XOp ι) (x0 : ι → XF) (τ : ℝ) (niter : ℕ) : Py (SplitState (ι → XF)) :=
  forRange (ADMMX.body f g τ) niter 0 ⟨x0, x0, fun _ => fin 0, []⟩

/-- Body of `DouglasRachfordSplitting` with `gfirst=False` (primal.py:1786-1799). -/
noncomputable def DRX.body (f g : XOp ι) (τ η : ℝ) (_ : ℕ) (s : DRState (ι → XF)) : Py (DRState (ι → XF) × Bool) := do
  let x ← f.prox s.y τ
  let p ← g.prox (fun i => fin 2 * x i - s.y i) τ
  let y := fun i => s.y i + fin η * (p i - x i)
  pure (⟨some x, y, s.log ++ [(x, y)]⟩, false)

/-- `DouglasRachfordSplitting` with `gfirst=False` (primal.py:1685-1811). -/
noncomputable def DRX (f g : XOp ι) (x0 : ι → XF) (τ η : ℝ) (niter : ℕ) : Py (DRState (ι → XF)) :=
  forRange (DRX.body f g τ η) niter 0 ⟨none, x0, []⟩

end Verif
