import Verif.Model.Py
import Verif.Model.ProxOperator
import Verif.Model.Vec
import Verif.Model.L2
import Mathlib.Data.Real.Sqrt

/-!
# Model of `pyproximal/optimization/primal.py`

Every solver is an initialisation and a loop body run by `forRange`.  The callback is modelled by the list of its arguments (`log`), in order.
Printing (`show=True`) is not modelled.
-/

open scoped RealInnerProductSpace

namespace Verif

variable {E F : Type} [NormedAddCommGroup E] [InnerProductSpace ℝ E] [NormedAddCommGroup F] [InnerProductSpace ℝ F]

/-- A parameter that can be a number or an array indexed by the iteration. -/
inductive StepSpec
  | scalar (t : ℝ)
  | arr (ts : List ℝ)

/-- `epsg[iiter]` after `epsg = np.asarray(epsg); if epsg.size == 1: epsg = epsg * np.ones(niter)`
(primal.py:324-327, 590-593, 1003-1007). -/
def StepSpec.at : StepSpec → ℕ → Py ℝ
  | .scalar t, _ => .ok t
  | .arr [t], _ => .ok t
  | .arr ts, i => match ts[i]? with
    | some t => .ok t
    | none => .error .indexError

/-- `arr[i]` for an array that is never broadcast (primaldual.py:139-145). -/
def StepSpec.atStrict : StepSpec → ℕ → Py ℝ
  | .scalar t, _ => .ok t
  | .arr ts, i => match ts[i]? with
    | some t => .ok t
    | none => .error .indexError

/-- `str(epsg[0])` of the broadcast array (primal.py:328, 594): `IndexError` when `niter = 0`. -/
def StepSpec.printCheck (e : StepSpec) (niter : ℕ) : Py Unit :=
  match e with
  | .scalar _ => if niter = 0 then .error .indexError else .ok ()
  | .arr [_] => if niter = 0 then .error .indexError else .ok ()
  | .arr _ => .ok ()

/-- `[h(i) for i in range(m)]`: evaluated in order, the first exception ends it. -/
def mapPy {α : Type} : {m : ℕ} → (Fin m → Py α) → Py (Fin m → α)
  | 0, _ => .ok Fin.elim0
  | _ + 1, h => match h 0 with
    | .error e => .error e
    | .ok a => match mapPy (fun i => h i.succ) with
      | .error e => .error e
      | .ok t => .ok (Fin.cons a t)

/-- `pf / pfold` for Python floats: `pfold = none` is `np.inf`; division by `0.0` raises `ZeroDivisionError`. -/
noncomputable def pyRatio (pf : ℝ) : Option ℝ → Py ℝ
  | none => .ok 0
  | some d => if d = 0 then .error .zeroDivisionError else .ok (pf / d)

/-- `np.abs(1.0 - pf / pfold) < tol` for numpy floats: a division by zero gives inf or NaN, and the comparison is `False`. -/
noncomputable def npRatioTest (pf : ℝ) (pfold : Option ℝ) (tol : ℝ) : Bool :=
  match pfold with
  | none => decide (|1 - 0| < tol)
  | some d => if d = 0 then false else decide (|1 - pf / d| < tol)

/-! ## `_x0z0_init` (primal.py:54-103) -/

/-- `_x0z0_init` without operator (primal.py:88-95). -/
def x0z0Init (x0 z0 : Option E) : Py (E × E) :=
  match x0, z0 with
  | none, none => .error .valueError
  | none, some z => .ok (z, z)
  | some x, none => .ok (x, x)
  | some x, some z => .ok (x, z)

/-- `_x0z0_init` with an operator (primal.py:88-90, 97-103). -/
def x0z0InitOp (A : LinOp E F) (x0 : Option E) (z0 : Option F) : Py (E × F) :=
  match x0, z0 with
  | none, _ => .error .valueError
  | some x, none => .ok (x, A.matvec x)
  | some x, some z => .ok (x, z)

/-! ## ProximalPoint (primal.py:171-206) -/

/-- Loop variables of `ProximalPoint`; `pf = none` is `np.inf`. -/
structure PPState (E : Type) where
  x : E
  pf : Option ℝ
  log : List E

/-- Body of the loop (primal.py:177-201). -/
noncomputable def ProximalPoint.body (f : ProxOp E) (τ : ℝ) (tol : Option ℝ) (_ : ℕ) (s : PPState E) : Py (PPState E × Bool) := do
  let x ← f.prox s.x τ
  let log := s.log ++ [x]
  match tol with
  | none => pure (⟨x, s.pf, log⟩, false)
  | some t => do
    let v ← f.call x
    let r ← pyRatio v.toReal s.pf
    pure (⟨x, some v.toReal, log⟩, decide (|1 - r| < t))

/-- `ProximalPoint` (primal.py:171-206): the returned point is the field `x`. -/
noncomputable def ProximalPoint (f : ProxOp E) (x0 : E) (τ : ℝ) (niter : ℕ) (tol : Option ℝ) : Py (PPState E) :=
  forRange (ProximalPoint.body f τ tol) niter 0 ⟨x0, none, []⟩

/-! ## Backtracking (primal.py:20-51) -/

/-- The `while` loop of `_backtracking` (primal.py:43-51) with `n` trials left; `z` is the last point tried. -/
noncomputable def backtrack (f g : ProxOp E) (x : E) (epsg β : ℝ) : ℕ → ℝ → Option E → Py (E × ℝ)
  | 0, τ, z => match z with
    | none => .error .unboundLocalError
    | some z => .ok (z, τ)
  | n + 1, τ, _ => do
    let gx ← f.grad x
    let z ← g.prox (x - τ • gx) (epsg * τ)
    let fx ← f.call x
    let fz ← f.call z
    if fz.toReal ≤ fx.toReal + ⟪gx, z - x⟫ + 1 / (2 * τ) * ‖z - x‖ ^ 2 then
      .ok (z, τ)
    else
      backtrack f g x epsg β n (τ * β) (some z)

/-! ## ProximalGradient (primal.py:324-449) -/

/-- The `acceleration` argument. -/
inductive Accel
  | none
  | vandenberghe
  | fista
  | other
  deriving DecidableEq

/-- Arguments of `ProximalGradient`. -/
structure PGArgs where
  tau : Option ℝ
  backtracking : Bool
  β : ℝ
  epsg : StepSpec
  niter : ℕ
  niterback : ℕ
  acceleration : Accel
  eta : ℝ
  tol : Option ℝ

/-- Loop variables of `ProximalGradient`. -/
structure PGState (E : Type) where
  x : E
  y : E
  t : ℝ
  tau : ℝ
  pfg : Option ℝ
  log : List E

/-- `omega` and the new `t` (primal.py:398-405). -/
noncomputable def momentum (a : Accel) (i : ℕ) (t : ℝ) : ℝ × ℝ :=
  match a with
  | .vandenberghe => ((i : ℝ) / (i + 3), t)
  | .fista =>
    let t' := (1 + √(1 + 4 * t ^ 2)) / 2
    ((t - 1) / t', t')
  | _ => (0, t)

open Classical in
/-- The proximal step (primal.py:374-392): the new `x` and `tau`. -/
noncomputable def PG.step (f g : ProxOp E) (a : PGArgs) (backtracking : Bool) (e : ℝ) (s : PGState E) : Py (E × ℝ) :=
  if backtracking then do
    let (x, τ) ← backtrack f g s.y e a.β a.niterback s.tau none
    if a.eta = 1 then
      pure (x, τ)
    else do
      let gx ← f.grad x
      let p ← g.prox (x - τ • gx) (e * τ)
      pure (x + a.eta • (p - x), τ)
  else if a.eta = 1 then do
    let gy ← f.grad s.y
    let x ← g.prox (s.y - s.tau • gy) (e * s.tau)
    pure (x, s.tau)
  else do
    let gx ← f.grad s.x
    let p ← g.prox (s.x - s.tau • gx) (e * s.tau)
    pure (s.x + a.eta • (p - s.x), s.tau)

/-- Body of the loop (primal.py:374-444).  The update of a bilinear `proxf` (primal.py:395-396) is in `Model/BilinearPG`. -/
noncomputable def PG.body (f g : ProxOp E) (a : PGArgs) (backtracking : Bool) (i : ℕ) (s : PGState E) : Py (PGState E × Bool) := do
  let e ← a.epsg.at i
  let (x, τ) ← PG.step f g a backtracking e s
  let (ω, t) := momentum a.acceleration i s.t
  let y := x + ω • (x - s.x)
  let log := s.log ++ [x]
  match a.tol with
  | none => pure (⟨x, y, t, τ, s.pfg, log⟩, false)
  | some tol => do
    let pf ← f.call x
    let pg ← g.call x
    let pfg := pf.toReal + e * pg.toReal
    pure (⟨x, y, t, τ, some pfg, log⟩, npRatioTest pfg s.pfg tol)

/-- `ProximalGradient` (primal.py:324-449): the returned point is the field `x`. -/
noncomputable def ProximalGradient (f g : ProxOp E) (x0 : E) (a : PGArgs) : Py (PGState E) := do
  a.epsg.printCheck a.niter
  if a.acceleration = .other then
    .error .notImplementedError
  else
    let (bt, τ) := match a.tau with
      | none => (true, 1)
      | some τ => (a.backtracking, τ)
    forRange (PG.body f g a bt) a.niter 0 ⟨x0, x0, 1, τ, none, []⟩

/-! ## HQS (primal.py:1000-1053) and ADMM (primal.py:1164-1210) -/

/-- Loop variables of the splitting solvers. -/
structure SplitState (E : Type) where
  x : E
  z : E
  u : E
  log : List (E × E)

/-- Body of HQS (primal.py:1023-1037); `u` is not used. -/
noncomputable def HQS.body (f g : ProxOp E) (tau : StepSpec) (gfirst : Bool) (i : ℕ) (s : SplitState E) : Py (SplitState E × Bool) := do
  let τ ← tau.at i
  if gfirst then do
    let z ← g.prox s.x τ
    let x ← f.prox z τ
    pure (⟨x, z, s.u, s.log ++ [(x, z)]⟩, false)
  else do
    let x ← f.prox s.z τ
    let z ← g.prox x τ
    pure (⟨x, z, s.u, s.log ++ [(x, z)]⟩, false)

/-- `HQS` (primal.py:1000-1053). -/
noncomputable def HQS (f g : ProxOp E) (x0 z0 : Option E) (tau : StepSpec) (niter : ℕ) (gfirst : Bool) : Py (SplitState E) := do
  let (x, z) ← x0z0Init x0 z0
  forRange (HQS.body f g tau gfirst) niter 0 ⟨x, z, 0, []⟩

/-- Body of ADMM (primal.py:1183-1197). -/
noncomputable def ADMM.body (f g : ProxOp E) (τ : ℝ) (gfirst : Bool) (_ : ℕ) (s : SplitState E) : Py (SplitState E × Bool) := do
  if gfirst then do
    let z ← g.prox (s.x + s.u) τ
    let x ← f.prox (z - s.u) τ
    pure (⟨x, z, s.u + x - z, s.log ++ [(x, z)]⟩, false)
  else do
    let x ← f.prox (s.z - s.u) τ
    let z ← g.prox (x + s.u) τ
    pure (⟨x, z, s.u + x - z, s.log ++ [(x, z)]⟩, false)

/-- `ADMM` (primal.py:1164-1210). -/
noncomputable def ADMM (f g : ProxOp E) (x0 z0 : Option E) (τ : ℝ) (niter : ℕ) (gfirst : Bool) : Py (SplitState E) := do
  let (x, z) ← x0z0Init x0 z0
  forRange (ADMM.body f g τ gfirst) niter 0 ⟨x, z, 0, []⟩

/-! ## ADMML2 (primal.py:1301-1378) and LinearizedADMM (primal.py:1469-1513) -/

/-- Loop variables of the splitting solvers with an operator. -/
structure SplitOpState (E F : Type) where
  x : E
  z : F
  u : F
  Ax : F
  log : List E

/-- Body of ADMML2 (primal.py:1318-1358).  `inv x0 d eps` is `regularized_inversion(Op, b, [A], x0=x0, dataregs=[d], epsRs=[eps])`. -/
noncomputable def ADMML2.body (inv : E → F → ℝ → E) (g : ProxOp F) (A : LinOp E F) (τ : ℝ) (gfirst : Bool) (_ : ℕ) (s : SplitOpState E F) :
    Py (SplitOpState E F × Bool) := do
  if gfirst then do
    let Ax := A.matvec s.x
    let z ← g.prox (Ax + s.u) τ
    let x := inv s.x (z - s.u) (1 / √τ)
    pure (⟨x, z, s.u + Ax - z, Ax, s.log ++ [x]⟩, false)
  else do
    let x := inv s.x (s.z - s.u) (1 / √τ)
    let Ax := A.matvec x
    let z ← g.prox (Ax + s.u) τ
    pure (⟨x, z, s.u + Ax - z, Ax, s.log ++ [x]⟩, false)

/-- `ADMML2` (primal.py:1301-1378); `sqrt(tau)` of a non-positive `tau` raises (`ValueError` or `ZeroDivisionError`). -/
noncomputable def ADMML2 (inv : E → F → ℝ → E) (g : ProxOp F) (A : LinOp E F) (x0 : Option E) (z0 : Option F) (τ : ℝ) (niter : ℕ)
    (gfirst : Bool) : Py (SplitOpState E F) := do
  let (x, z) ← x0z0InitOp A x0 z0
  if τ < 0 then .error .valueError
  else if τ = 0 then .error .zeroDivisionError
  else forRange (ADMML2.body inv g A τ gfirst) niter 0 ⟨x, z, 0, 0, []⟩

/-- Body of LinearizedADMM (primal.py:1491-1500); `mu / tau` with `tau = 0` raises. -/
noncomputable def LinearizedADMM.body (f : ProxOp E) (g : ProxOp F) (A : LinOp E F) (τ μ : ℝ) (_ : ℕ) (s : SplitOpState E F) :
    Py (SplitOpState E F × Bool) := do
  if τ = 0 then .error .zeroDivisionError else do
    let x ← f.prox (s.x - (μ / τ) • A.rmatvec (s.Ax - s.z + s.u)) μ
    let Ax := A.matvec x
    let z ← g.prox (Ax + s.u) τ
    pure (⟨x, z, s.u + Ax - z, Ax, s.log ++ [x]⟩, false)

/-- `LinearizedADMM` (primal.py:1469-1513): with a user `z0`, `Ax` starts from `z0` (primal.py:1471). -/
noncomputable def LinearizedADMM (f : ProxOp E) (g : ProxOp F) (A : LinOp E F) (x0 : Option E) (z0 : Option F) (τ μ : ℝ) (niter : ℕ) :
    Py (SplitOpState E F) := do
  let (x, z) ← x0z0InitOp A x0 z0
  let Ax := match z0 with
    | none => A.matvec x
    | some _ => z
  forRange (LinearizedADMM.body f g A τ μ) niter 0 ⟨x, z, 0, Ax, []⟩

/-! ## TwIST (primal.py:1611-1682) -/

/-- Loop variables of TwIST. -/
structure TwistState (E : Type) where
  x : E
  xold : E
  log : List E
  cost : List ℝ

/-- The gradient of `L2(Op=A, b=b)` used by TwIST (primal.py:1611; L2.py:297-306 with `sigma = 1`). -/
noncomputable def twistGrad (A : LinOp E F) (b : F) (x : E) : Py E :=
  L2.grad ⟨.opB A false b, none, 1, 1, true, .const 10, true, .legacy, .default⟩ x

/-- Body of TwIST (primal.py:1646-1663); the cost history is kept when `returncost`. -/
noncomputable def TwIST.body (g : ProxOp E) (A : LinOp E F) (b : F) (α β : ℝ) (returncost : Bool) (_ : ℕ) (s : TwistState E) :
    Py (TwistState E × Bool) := do
  let gx ← twistGrad A b s.x
  let p ← g.prox (s.x - gx) 1
  let xnew := (1 - α) • s.xold + (α - β) • s.x + β • p
  if returncost then do
    let v ← g.call xnew
    pure (⟨xnew, s.x, s.log ++ [xnew], s.cost ++ [1 / 2 * ‖A.matvec xnew - b‖ ^ 2 + v.toReal]⟩, false)
  else
    pure (⟨xnew, s.x, s.log ++ [xnew], s.cost⟩, false)

/-- `alpha`, `beta` from the extreme eigenvalues (primal.py:1614-1625). -/
noncomputable def twistParams (emax emin : ℝ) : Py (ℝ × ℝ) :=
  if emax = 0 then .error .zeroDivisionError
  else if emin / emax < 0 then .error .valueError
  else
    let k := emin / emax
    let rho := (1 - √k) / (1 + √k)
    let alpha := 1 + rho ^ 2
    if emax + emin = 0 then .error .zeroDivisionError else .ok (alpha, 2 * alpha / (emax + emin))

/-- `TwIST` (primal.py:1611-1682) with `eigs` given (or returned by `A.eigs`). -/
noncomputable def TwIST (g : ProxOp E) (A : LinOp E F) (b : F) (x0 : E) (αβ : Option (ℝ × ℝ)) (eigs : ℝ × ℝ) (niter : ℕ) (returncost : Bool) :
    Py (TwistState E) := do
  let (α, β) ← match αβ with
    | some p => pure p
    | none => twistParams eigs.1 eigs.2
  let g0 ← twistGrad A b x0
  let x ← g.prox (x0 - g0) 1
  forRange (TwIST.body g A b α β returncost) niter 0 ⟨x, x0, [], []⟩

/-! ## DouglasRachfordSplitting (primal.py:1785-1811) -/

/-- Loop variables of Douglas-Rachford; `x` is unbound before the first iteration. -/
structure DRState (E : Type) where
  x : Option E
  y : E
  log : List (E × E)

/-- Body of the loop (primal.py:1787-1799). -/
noncomputable def DR.body (f g : ProxOp E) (τ η : ℝ) (gfirst : Bool) (_ : ℕ) (s : DRState E) : Py (DRState E × Bool) := do
  if gfirst then do
    let x ← g.prox s.y τ
    let p ← f.prox ((2 : ℝ) • x - s.y) τ
    let y := s.y + η • (p - x)
    pure (⟨some x, y, s.log ++ [(x, y)]⟩, false)
  else do
    let x ← f.prox s.y τ
    let p ← g.prox ((2 : ℝ) • x - s.y) τ
    let y := s.y + η • (p - x)
    pure (⟨some x, y, s.log ++ [(x, y)]⟩, false)

/-- `DouglasRachfordSplitting` (primal.py:1785-1811): returns `(x, y)` and the callback log. -/
noncomputable def DouglasRachford (f g : ProxOp E) (x0 : E) (τ η : ℝ) (niter : ℕ) (gfirst : Bool) : Py (E × E × List (E × E)) := do
  let s ← forRange (DR.body f g τ η gfirst) niter 0 ⟨none, x0, []⟩
  match s.x with
  | none => .error .unboundLocalError
  | some x => pure (x, s.y, s.log)

/-! ## PPXA (primal.py:1929-1973) and ConsensusADMM (primal.py:2071-2107) -/

/-- Loop variables of PPXA. -/
structure PPXAState (E : Type) (m : ℕ) where
  x : E
  xold : E
  y : Fin m → E
  log : List E

/-- Body of PPXA (primal.py:1947-1965); `mx` is `np.abs(·).max()`.  A zero weight divides by zero (numpy inf), reported as `nanResult`. -/
noncomputable def PPXA.body {m : ℕ} (fs : Fin m → ProxOp E) (w : Fin m → ℝ) (τ η : ℝ) (tol : ℝ) (mx : E → ℝ) (_ : ℕ) (s : PPXAState E m) :
    Py (PPXAState E m × Bool) := do
  let p ← mapPy fun i => if w i = 0 then .error .nanResult else (fs i).prox (s.y i) (τ / w i)
  let pn := ∑ i, w i • p i
  let y := fun i => s.y i + η • ((2 : ℝ) • pn - s.x - p i)
  let x := s.x + η • (pn - s.x)
  if mx (x - s.xold) < tol then
    pure (⟨x, s.xold, y, s.log ++ [x]⟩, true)
  else
    pure (⟨x, x, y, s.log ++ [x]⟩, false)

/-- `PPXA` (primal.py:1929-1973); `y0` is the stacked start (`x0` repeated for a single vector), the mean of no rows is NaN.
The shapes `x0` may have, and calls without functions, are in `Model/PPXACall`. -/
noncomputable def PPXA {m : ℕ} (fs : Fin m → ProxOp E) (weights : Option (Fin m → ℝ)) (y0 : Fin m → E) (τ η : ℝ) (niter : ℕ) (tol : ℝ)
    (mx : E → ℝ) : Py (PPXAState E m) :=
  if m = 0 then .error .nanResult
  else
    let w := match weights with
      | none => fun _ => 1 / (m : ℝ)
      | some w => w
    let x := (1 / (m : ℝ)) • ∑ i, y0 i
    forRange (PPXA.body fs w τ η tol mx) niter 0 ⟨x, x, y0, []⟩

/-- Loop variables of ConsensusADMM. -/
structure ConsState (E : Type) (m : ℕ) where
  xbar : E
  xold : E
  x : Fin m → E
  y : Fin m → E
  log : List E

/-- Body of ConsensusADMM (primal.py:2082-2104). -/
noncomputable def ConsensusADMM.body {m : ℕ} (fs : Fin m → ProxOp E) (τ tol : ℝ) (mx : E → ℝ) (_ : ℕ) (s : ConsState E m) :
    Py (ConsState E m × Bool) := do
  let x ← mapPy fun i => (fs i).prox (s.xbar - s.y i) τ
  if m = 0 then .error .valueError else
    let xbar := (1 / (m : ℝ)) • ∑ i, x i
    let y := fun i => s.y i + x i - xbar
    if mx (xbar - s.xold) < tol then
      pure (⟨xbar, s.xold, x, y, s.log ++ [xbar]⟩, true)
    else
      pure (⟨xbar, xbar, x, y, s.log ++ [xbar]⟩, false)

/-- `ConsensusADMM` (primal.py:2071-2107); `np.stack` of no arrays raises `ValueError`. -/
noncomputable def ConsensusADMM {m : ℕ} (fs : Fin m → ProxOp E) (x0 : E) (τ : ℝ) (niter : ℕ) (tol : ℝ) (mx : E → ℝ) : Py (ConsState E m) :=
  forRange (ConsensusADMM.body fs τ tol mx) niter 0 ⟨x0, x0, fun _ => x0, fun _ => 0, []⟩

/-! ## GeneralizedProximalGradient (primal.py:805-902) -/

/-- Loop variables. -/
structure GPGState (E : Type) (m : ℕ) where
  x : E
  y : E
  t : ℝ
  zs : Fin m → E
  log : List E

/-- Body of the loop (primal.py:853-884).  A zero weight divides by zero, reported as `nanResult`. -/
noncomputable def GPG.body {l m : ℕ} (fs : Fin l → ProxOp E) (gs : Fin m → ProxOp E) (w : Fin m → ℝ) (eps : StepSpec) (τ η : ℝ) (acc : Accel)
    (i : ℕ) (s : GPGState E m) : Py (GPGState E m × Bool) := do
  let gr ← mapPy fun j => (fs j).grad s.x
  let grad := ∑ j, gr j
  let p ← mapPy fun j => (do
    let e ← eps.at j
    if w j = 0 then .error .nanResult
    else (gs j).prox ((2 : ℝ) • s.y - s.zs j - τ • grad) (τ * e / w j))
  let zs := fun j => s.zs j + η • (p j - s.y)
  let x := ∑ j, w j • zs j
  let (ω, t) := momentum acc i s.t
  pure (⟨x, x + ω • (x - s.x), t, zs, s.log ++ [x]⟩, false)

open Classical in
/-- `GeneralizedProximalGradient` (primal.py:805-902).  `weights` as given by the user (any length); `tau=None` is 1. -/
noncomputable def GeneralizedProximalGradient {l m : ℕ} (fs : Fin l → ProxOp E) (gs : Fin m → ProxOp E) (x0 : E) (tau : Option ℝ)
    (eps : StepSpec) (weights : Option (List ℝ)) (η : ℝ) (niter : ℕ) (acc : Accel) : Py (GPGState E m) :=
  let ws : List ℝ := match weights with
    | none => List.replicate m (1 / (m : ℝ))
    | some ws => ws
  if ws.length ≠ m ∨ ws.sum ≠ 1 then .error .valueError
  else if acc = .other then .error .notImplementedError
  else forRange (GPG.body fs gs (fun j => ws.getD j 0) eps (tau.getD 1) η acc) niter 0 ⟨x0, x0, 1, fun _ => x0, []⟩

/-! ## AndersonProximalGradient (primal.py:590-722) -/

/-- Loop variables; `R`, `G` are the histories, most recent first. -/
structure AndersonState (E : Type) where
  x : E
  y : E
  R : List E
  G : List E
  pf : ℝ
  pfg : Option ℝ
  log : List E

/-- `lst[:-1]` after `insert(0, a)` when the history is full (primal.py:648-652). -/
def histPush {α : Type} (nhistory i : ℕ) (a : α) (h : List α) : List α :=
  if (i : ℤ) ≥ (nhistory : ℤ) - 1 then (a :: h).dropLast else a :: h

/-- `np.vstack(G).T @ alpha`. -/
noncomputable def combine (G : List E) (α : List ℝ) : E := (List.zipWith (fun a g => a • g) α G).sum

/-- Body of the loop (primal.py:642-716).  `solve R` is the vector `alpha` computed from the residual history (primal.py:655-659, `andersonAlpha` in `Model/Anderson`). -/
noncomputable def Anderson.body (f g : ProxOp E) (solve : List E → Py (List ℝ)) (τ : ℝ) (epsg : StepSpec) (nhistory : ℕ) (safeguard : Bool)
    (tol : Option ℝ) (i : ℕ) (s : AndersonState E) : Py (AndersonState E × Bool) := do
  let gx ← f.grad s.x
  let gp := s.x - τ • gx
  let r := gp - s.y
  let R := histPush nhistory i r s.R
  let G := histPush nhistory i gp s.G
  let α ← solve R
  let e ← epsg.at i
  let yt := combine G α
  let xt ← g.prox yt (e * τ)
  let (x, y, pf) ← (if safeguard then do
      let v ← f.call xt
      if v.toReal ≤ s.pf - τ * ‖gx‖ ^ 2 / 2 then pure (xt, yt, v.toReal)
      else do
        let xg ← g.prox gp (e * τ)
        pure (xg, gp, v.toReal)
    else pure (xt, yt, s.pf) : Py (E × E × ℝ))
  let log := s.log ++ [x]
  match tol with
  | none => pure (⟨x, y, R, G, pf, s.pfg, log⟩, false)
  | some tol => do
    let pf' ← f.call x
    let pg ← g.call x
    let pfg := pf'.toReal + e * pg.toReal
    pure (⟨x, y, R, G, pf'.toReal, some pfg, log⟩, npRatioTest pfg s.pfg tol)

/-- The state before the loop (primal.py:623-639).  The histories start as `R, G = ([g], [r])`: the first residual goes into `G` and the
first fixed-point value into `R`. -/
noncomputable def Anderson.init (f g : ProxOp E) (x0 : E) (τ e0 : ℝ) : Py (AndersonState E) := do
  let gx ← f.grad x0
  let y := x0 - τ • gx
  let x ← g.prox y (e0 * τ)
  let pf ← f.call x
  pure ⟨x, y, [y], [y - x0], pf.toReal, none, []⟩

/-- `AndersonProximalGradient` (primal.py:590-722). -/
noncomputable def AndersonProximalGradient (f g : ProxOp E) (solve : List E → Py (List ℝ)) (x0 : E) (τ : ℝ) (epsg : StepSpec) (niter nhistory : ℕ)
    (safeguard : Bool) (tol : Option ℝ) : Py (AndersonState E) := do
  epsg.printCheck niter
  let e0 ← epsg.at 0
  let s ← Anderson.init f g x0 τ e0
  forRange (Anderson.body f g solve τ epsg nhistory safeguard tol) niter 0 s

end Verif
