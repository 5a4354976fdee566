import Verif.Model.Primal

/-!
# `show=True` in the solvers that keep the objective between iterations (primal.py)

Text output is not modelled, but the logger of these solvers assigns to variables of the solver.
-/

namespace Verif

variable {E : Type} [NormedAddCommGroup E] [InnerProductSpace ℝ E]

/-- `iiter < 10 or niter - iiter < 10 or iiter % (niter // 10) == 0` (primal.py:193, 424, 697). -/
def printed (niter i : ℕ) : Bool := decide (i < 10) || decide (niter - i < 10) || decide (i % (niter / 10) = 0)

/-- Body of `ProximalPoint` with the logger (primal.py:177-201): without `tol` it assigns `pf`. -/
noncomputable def ProximalPoint.bodyShow (f : ProxOp E) (τ : ℝ) (tol : Option ℝ) (niter i : ℕ) (s : PPState E) : Py (PPState E × Bool) := do
  let p ← ProximalPoint.body f τ tol i s
  if printed niter i && tol.isNone then do
    let v ← f.call p.1.x
    pure ({ p.1 with pf := some v.toReal }, p.2)
  else pure p

/-- `ProximalPoint(..., show=True)` (primal.py:158-206). -/
noncomputable def ProximalPointShow (f : ProxOp E) (x0 : E) (τ : ℝ) (niter : ℕ) (tol : Option ℝ) : Py (PPState E) :=
  forRange (ProximalPoint.bodyShow f τ tol niter) niter 0 ⟨x0, none, []⟩

/-- Body of `ProximalGradient` with the logger (primal.py:374-444): without `tol` it assigns `pf`, `pg`, `pfg`. -/
noncomputable def PG.bodyShow (f g : ProxOp E) (a : PGArgs) (backtracking : Bool) (i : ℕ) (s : PGState E) : Py (PGState E × Bool) := do
  let p ← PG.body f g a backtracking i s
  if printed a.niter i && a.tol.isNone then do
    let v ← f.call p.1.x
    let w ← g.call p.1.x
    let e ← a.epsg.at i
    pure ({ p.1 with pfg := some (v.toReal + e * w.toReal) }, p.2)
  else pure p

/-- `ProximalGradient(..., show=True)` (primal.py:324-449). -/
noncomputable def ProximalGradientShow (f g : ProxOp E) (x0 : E) (a : PGArgs) : Py (PGState E) := do
  a.epsg.printCheck a.niter
  if a.acceleration = .other then
    .error .notImplementedError
  else
    let (bt, τ) := match a.tau with
      | none => (true, 1)
      | some τ => (a.backtracking, τ)
    forRange (PG.bodyShow f g a bt) a.niter 0 ⟨x0, x0, 1, τ, none, []⟩

/-- Body of `AndersonProximalGradient` with the logger (primal.py:642-716): without `tol` it assigns `pf`, which the safeguard reads in the next iteration, and `pfg`. -/
noncomputable def Anderson.bodyShow (f g : ProxOp E) (solve : List E → Py (List ℝ)) (τ : ℝ) (epsg : StepSpec) (nhistory : ℕ) (safeguard : Bool)
    (tol : Option ℝ) (niter i : ℕ) (s : AndersonState E) : Py (AndersonState E × Bool) := do
  let p ← Anderson.body f g solve τ epsg nhistory safeguard tol i s
  if printed niter i && tol.isNone then do
    let v ← f.call p.1.x
    let w ← g.call p.1.x
    let e ← epsg.at i
    pure ({ p.1 with pf := v.toReal, pfg := some (v.toReal + e * w.toReal) }, p.2)
  else pure p

/-- `AndersonProximalGradient(..., show=True)` (primal.py:590-722). -/
noncomputable def AndersonProximalGradientShow (f g : ProxOp E) (solve : List E → Py (List ℝ)) (x0 : E) (τ : ℝ) (epsg : StepSpec) (niter nhistory : ℕ)
    (safeguard : Bool) (tol : Option ℝ) : Py (AndersonState E) := do
  epsg.printCheck niter
  let e0 ← epsg.at 0
  let s ← Anderson.init f g x0 τ e0
  forRange (Anderson.bodyShow f g solve τ epsg nhistory safeguard tol niter) niter 0 s

end Verif
