import Verif.Model.Mutable
import Verif.Model.PrimalDual

/-!
# Callbacks that write into the array they are given, and callbacks that keep it

`callback(x)` is called with the array of the solver itself, not with a copy (primal.py:180-181, 410-411, 880-881, 1033-1037, 1191-1195, 1361-1362, 1496-1497, 1662-1663, 1795-1799, 1954-1955, 2086-2087,
primaldual.py:195-199).  `edit i x` is what that array holds after the call in iteration `i`.  In the other models of this development the callback only reads.
-/

namespace Verif

variable {E F SF : Type} [NormedAddCommGroup E] [InnerProductSpace ℝ E] [NormedAddCommGroup F] [InnerProductSpace ℝ F]

/-- The body of a loop whose last statement is the callback: the callback changes the loop variables by `edit i` (used for the solvers without a tolerance). -/
def editLast {S : Type} (body : ℕ → S → Py (S × Bool)) (edit : ℕ → S → S) (i : ℕ) (s : S) : Py (S × Bool) :=
  (body i s).map fun r => (edit i r.1, r.2)

/-- Body of `ProximalPoint` (primal.py:177-201); the objective is evaluated after the callback. -/
noncomputable def PPEdit.body (f : ProxOp E) (τ : ℝ) (tol : Option ℝ) (edit : ℕ → E → E) (i : ℕ) (s : PPState E) : Py (PPState E × Bool) := do
  let x ← f.prox s.x τ
  let log := s.log ++ [x]
  let x := edit i x
  match tol with
  | none => pure (⟨x, s.pf, log⟩, false)
  | some t => do
    let v ← f.call x
    let r ← pyRatio v.toReal s.pf
    pure (⟨x, some v.toReal, log⟩, decide (|1 - r| < t))

/-- `ProximalPoint` (primal.py:171-206).  The field `log` holds what the callback was given. -/
noncomputable def PPEdit (f : ProxOp E) (x0 : E) (τ : ℝ) (niter : ℕ) (tol : Option ℝ) (edit : ℕ → E → E) : Py (PPState E) :=
  forRange (PPEdit.body f τ tol edit) niter 0 ⟨x0, none, []⟩

/-- Body of `ProximalGradient` (primal.py:374-444): `y` is computed before the callback (line 407), the objective after it; `xold` of the next iteration is a copy of the edited `x` (line 375). -/
noncomputable def PGEdit.body (f g : ProxOp E) (a : PGArgs) (backtracking : Bool) (edit : ℕ → E → E) (i : ℕ) (s : PGState E) : Py (PGState E × Bool) := do
  let e ← a.epsg.at i
  let (x, τ) ← PG.step f g a backtracking e s
  let (ω, t) := momentum a.acceleration i s.t
  let y := x + ω • (x - s.x)
  let log := s.log ++ [x]
  let x := edit i x
  match a.tol with
  | none => pure (⟨x, y, t, τ, s.pfg, log⟩, false)
  | some tol => do
    let pf ← f.call x
    let pg ← g.call x
    let pfg := pf.toReal + e * pg.toReal
    pure (⟨x, y, t, τ, some pfg, log⟩, npRatioTest pfg s.pfg tol)

/-- `ProximalGradient` (primal.py:324-449). -/
noncomputable def PGEdit (f g : ProxOp E) (x0 : E) (a : PGArgs) (edit : ℕ → E → E) : Py (PGState E) := do
  a.epsg.printCheck a.niter
  if a.acceleration = .other then
    .error .notImplementedError
  else
    let (bt, τ) := match a.tau with
      | none => (true, 1)
      | some τ => (a.backtracking, τ)
    forRange (PGEdit.body f g a bt edit) a.niter 0 ⟨x0, x0, 1, τ, none, []⟩

/-- The callback of `HQS` and `ADMM` writes `edit i x z` into `x` and `z` (primal.py:1033-1037, 1191-1195); with `callbackz=False` it cannot reach `z`. -/
def SplitState.edited (edit : ℕ → E → E → E × E) (i : ℕ) (s : SplitState E) : SplitState E := ⟨(edit i s.x s.z).1, (edit i s.x s.z).2, s.u, s.log⟩

/-- `HQS` (primal.py:1000-1053). -/
noncomputable def HQSEdit (f g : ProxOp E) (x0 z0 : Option E) (tau : StepSpec) (niter : ℕ) (gfirst : Bool) (edit : ℕ → E → E → E × E) : Py (SplitState E) := do
  let (x, z) ← x0z0Init x0 z0
  forRange (editLast (HQS.body f g tau gfirst) (SplitState.edited edit)) niter 0 ⟨x, z, 0, []⟩

/-- `ADMM` (primal.py:1164-1210): `u` is updated before the callback. -/
noncomputable def ADMMEdit (f g : ProxOp E) (x0 z0 : Option E) (τ : ℝ) (niter : ℕ) (gfirst : Bool) (edit : ℕ → E → E → E × E) : Py (SplitState E) := do
  let (x, z) ← x0z0Init x0 z0
  forRange (editLast (ADMM.body f g τ gfirst) (SplitState.edited edit)) niter 0 ⟨x, z, 0, []⟩

/-- The callback of `LinearizedADMM` writes into `x` (primal.py:1496-1497); `Ax` is computed before. -/
def SplitOpState.edited (edit : ℕ → E → E) (i : ℕ) (s : SplitOpState E F) : SplitOpState E F := ⟨edit i s.x, s.z, s.u, s.Ax, s.log⟩

/-- `LinearizedADMM` (primal.py:1469-1513). -/
noncomputable def LADMMEdit (f : ProxOp E) (g : ProxOp F) (A : LinOp E F) (x0 : Option E) (z0 : Option F) (τ μ : ℝ) (niter : ℕ) (edit : ℕ → E → E) : Py (SplitOpState E F) := do
  let (x, z) ← x0z0InitOp A x0 z0
  let Ax := match z0 with
    | none => A.matvec x
    | some _ => z
  forRange (editLast (LinearizedADMM.body f g A τ μ) (SplitOpState.edited edit)) niter 0 ⟨x, z, 0, Ax, []⟩

/-- `ADMML2` (primal.py:1301-1378) with such a callback (primal.py:1361-1362). -/
noncomputable def ADMML2Edit (inv : E → F → ℝ → E) (g : ProxOp F) (A : LinOp E F) (x0 : Option E) (z0 : Option F) (τ : ℝ) (niter : ℕ) (gfirst : Bool) (edit : ℕ → E → E) :
    Py (SplitOpState E F) := do
  let (x, z) ← x0z0InitOp A x0 z0
  if τ < 0 then .error .valueError
  else if τ = 0 then .error .zeroDivisionError
  else forRange (editLast (ADMML2.body inv g A τ gfirst) (SplitOpState.edited edit)) niter 0 ⟨x, z, 0, 0, []⟩

/-- The callback of `DouglasRachfordSplitting` writes into `x`, or into `x` and `y` with `callbacky=True` (primal.py:1795-1799). -/
def DRState.edited (edit : ℕ → E → E → E × E) (i : ℕ) (s : DRState E) : DRState E :=
  match s.x with
  | none => s
  | some x => ⟨some (edit i x s.y).1, (edit i x s.y).2, s.log⟩

/-- `DouglasRachfordSplitting` (primal.py:1785-1811). -/
noncomputable def DREdit (f g : ProxOp E) (x0 : E) (τ η : ℝ) (niter : ℕ) (gfirst : Bool) (edit : ℕ → E → E → E × E) : Py (E × E × List (E × E)) := do
  let s ← forRange (editLast (DR.body f g τ η gfirst) (DRState.edited edit)) niter 0 ⟨none, x0, []⟩
  match s.x with
  | none => .error .unboundLocalError
  | some x => pure (x, s.y, s.log)

/-- The callback of `PrimalDual` writes into `x` (primaldual.py:195-199); `xhat` is computed before. -/
def PDState.edited (edit : ℕ → E → E) (i : ℕ) (s : PDState E F) : PDState E F := ⟨edit i s.x, s.y, s.xhat, s.log⟩

/-- `PrimalDual` (primaldual.py:136-221). -/
noncomputable def PDEdit (f : ProxOp E) (g : ProxOp F) (A : LinOp E F) (x0 : E) (y0 : Option F) (z : Option E) (tau mu : StepSpec) (θ : ℝ) (niter : ℕ) (gfirst : Bool) (edit : ℕ → E → E) :
    Py (PDState E F) :=
  forRange (editLast (PrimalDual.body f g A z tau mu θ gfirst) (PDState.edited edit)) niter 0 ⟨x0, y0.getD 0, x0, []⟩

/-- Body of `ConsensusADMM` (primal.py:2081-2101): `y` is computed before the callback, the test after it; `x_bar_old = x_bar` names the edited array. -/
noncomputable def ConsensusEdit.body {m : ℕ} (fs : Fin m → ProxOp E) (τ tol : ℝ) (mx : E → ℝ) (edit : ℕ → E → E) (i : ℕ) (s : ConsState E m) : Py (ConsState E m × Bool) := do
  let x ← mapPy fun j => (fs j).prox (s.xbar - s.y j) τ
  if m = 0 then .error .valueError else
    let xbar := (1 / (m : ℝ)) • ∑ j, x j
    let y := fun j => s.y j + x j - xbar
    let log := s.log ++ [xbar]
    let xbar := edit i xbar
    if mx (xbar - s.xold) < tol then
      pure (⟨xbar, s.xold, x, y, log⟩, true)
    else
      pure (⟨xbar, xbar, x, y, log⟩, false)

/-- `ConsensusADMM` (primal.py:2071-2107). -/
noncomputable def ConsensusEdit {m : ℕ} (fs : Fin m → ProxOp E) (x0 : E) (τ : ℝ) (niter : ℕ) (tol : ℝ) (mx : E → ℝ) (edit : ℕ → E → E) : Py (ConsState E m) :=
  forRange (ConsensusEdit.body fs τ tol mx edit) niter 0 ⟨x0, x0, fun _ => x0, fun _ => 0, []⟩

/-! ## Callbacks that keep the arrays -/

/-- `ProximalPoint` (primal.py:171-206, no tolerance) with the callback `lambda x: kept.append(x)` and an operator object that may write into its argument: the contents, after the iteration, of the
arrays in `kept`.  `x = prox.prox(x, tau)` gives the last array of the list to `prox`; a `prox` that returned that same array would appear twice in the list, which is not modelled. -/
noncomputable def PPKept.body (f : MutOp SF E) (τ : ℝ) (_ : ℕ) (s : SF × E × List E) : Py ((SF × E × List E) × Bool) := do
  let r ← f.proxPy s.1 s.2.1 τ
  pure ((r.1, r.2.1, (if s.2.2 = [] then [] else s.2.2.dropLast ++ [r.2.2]) ++ [r.2.1]), false)

/-- Attributes of the object, returned point and kept arrays. -/
noncomputable def PPKept (f : MutOp SF E) (sf : SF) (x0 : E) (τ : ℝ) (niter : ℕ) : Py (SF × E × List E) :=
  forRange (PPKept.body f τ) niter 0 (sf, x0, [])

end Verif
