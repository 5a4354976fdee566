import Verif.Model.Primal

/-!
# Model of `pyproximal/optimization/primaldual.py`
-/

open scoped RealInnerProductSpace

namespace Verif

variable {E F : Type} [NormedAddCommGroup E] [InnerProductSpace ℝ E] [NormedAddCommGroup F] [InnerProductSpace ℝ F]

/-- Loop variables of `PrimalDual`. -/
structure PDState (E F : Type) where
  x : E
  y : F
  xhat : E
  log : List (E × F)

/-- `ATy = A.rmatvec(y); if z is not None: ATy += z` (primaldual.py:181-183, 187-189). -/
noncomputable def pdATy (A : LinOp E F) (z : Option E) (y : F) : E :=
  match z with
  | none => A.rmatvec y
  | some z => A.rmatvec y + z

/-- Body of the loop (primaldual.py:178-199); the callback receives `x` or `(x, y)`. -/
noncomputable def PrimalDual.body (f : ProxOp E) (g : ProxOp F) (A : LinOp E F) (z : Option E) (tau mu : StepSpec) (θ : ℝ) (gfirst : Bool)
    (i : ℕ) (s : PDState E F) : Py (PDState E F × Bool) := do
  let τ ← tau.atStrict i
  let μ ← mu.atStrict i
  if gfirst then do
    let y ← g.proxdual (s.y + μ • A.matvec s.xhat) μ
    let x ← f.prox (s.x - τ • pdATy A z y) τ
    pure (⟨x, y, x + θ • (x - s.x), s.log ++ [(x, y)]⟩, false)
  else do
    let x ← f.prox (s.x - τ • pdATy A z s.y) τ
    let xhat := x + θ • (x - s.x)
    let y ← g.proxdual (s.y + μ • A.matvec xhat) μ
    pure (⟨x, y, xhat, s.log ++ [(x, y)]⟩, false)

/-- `PrimalDual` (primaldual.py:136-221); `y0=None` is the zero vector. -/
noncomputable def PrimalDual (f : ProxOp E) (g : ProxOp F) (A : LinOp E F) (x0 : E) (y0 : Option F) (z : Option E) (tau mu : StepSpec) (θ : ℝ)
    (niter : ℕ) (gfirst : Bool) : Py (PDState E F) :=
  forRange (PrimalDual.body f g A z tau mu θ gfirst) niter 0 ⟨x0, y0.getD 0, x0, []⟩

/-! ## AdaptivePrimalDual (primaldual.py:342-420) -/

/-- Loop variables of `AdaptivePrimalDual`; `taus`, `mus`, `alphas` are the entries `0..iiter` of the three arrays. -/
structure APDState (E F : Type) where
  x : E
  y : F
  Ax : F
  ATy : E
  tau : ℝ
  mu : ℝ
  alpha : ℝ
  p : ℝ
  d : ℝ
  iiter : ℕ
  taus : List ℝ
  mus : List ℝ
  alphas : List ℝ
  log : List E

/-- Arguments of `AdaptivePrimalDual`.  `Az` is `A.rmatvec(z)`, which the code computes from a vector of the wrong space: `none` stands for the
`ValueError` raised when `A` is not square (primaldual.py:373-376). -/
structure APDArgs (E F : Type) where
  eta : ℝ
  s : ℝ
  delta : ℝ
  z : Option E
  Az : Option E
  niter : ℕ
  tol : ℝ

/-- The new steps and `alpha` (primaldual.py:381-388): `tau /= 1 - alpha` with `alpha = 1` raises `ZeroDivisionError`. -/
noncomputable def apdSteps (eta s delta p d tau mu alpha : ℝ) : Py (ℝ × ℝ × ℝ) :=
  if s * d * delta < p then
    if 1 - alpha = 0 then .error .zeroDivisionError else .ok (tau / (1 - alpha), mu * (1 - alpha), alpha * eta)
  else if delta = 0 then .error .zeroDivisionError
  else if p < s * d / delta then
    if 1 - alpha = 0 then .error .zeroDivisionError else .ok (tau * (1 - alpha), mu / (1 - alpha), alpha * eta)
  else .ok (tau, mu, alpha)

/-- `ATy` after `ATy += z` (primaldual.py:362-363). -/
def apdATy (z : Option E) (ATy : E) : E :=
  match z with
  | none => ATy
  | some z => ATy + z

/-- One pass through the loop (primaldual.py:355-398). -/
noncomputable def APD.body (f : ProxOp E) (g : ProxOp F) (A : LinOp E F) (a : APDArgs E F) (s : APDState E F) : Py (APDState E F) := do
  let x ← f.prox (s.x - s.tau • apdATy a.z s.ATy) s.tau
  let Ax := A.matvec x
  let y ← g.proxdual (s.y + s.mu • ((2 : ℝ) • Ax - s.Ax)) s.mu
  let ATy := A.rmatvec y
  let r := (1 / s.tau) • (s.x - x) - (s.ATy - ATy)
  let p ← match a.z with
    | none => .ok ‖r‖
    | some z => match a.Az with
      | none => .error .valueError
      | some Az => .ok ‖r - Az + z‖
  let d := ‖(1 / s.mu) • (s.y - y) - (s.Ax - Ax)‖
  let (tau, mu, alpha) ← apdSteps a.eta a.s a.delta p d s.tau s.mu s.alpha
  pure ⟨x, y, Ax, ATy, tau, mu, alpha, p, d, s.iiter + 1, s.taus ++ [tau], s.mus ++ [mu], s.alphas ++ [alpha], s.log ++ [x]⟩

open Classical in
/-- The `while` loop (primaldual.py:354): `fuel` bounds the number of passes of the model; the counter makes `niter` enough. -/
noncomputable def APD.loop (f : ProxOp E) (g : ProxOp F) (A : LinOp E F) (a : APDArgs E F) : ℕ → APDState E F → Py (APDState E F)
  | 0, s => if s.iiter < a.niter ∧ a.tol < s.p ∧ a.tol < s.d then .error .outOfFuel else .ok s
  | fuel + 1, s =>
    if s.iiter < a.niter ∧ a.tol < s.p ∧ a.tol < s.d then do
      let s' ← APD.body f g A a s
      APD.loop f g A a fuel s'
    else .ok s

/-- `AdaptivePrimalDual` (primaldual.py:342-420): the result is `x` and the three histories.  `y`, `Ax` and `ATy` start at zero, whatever `x0`. -/
noncomputable def AdaptivePrimalDual (f : ProxOp E) (g : ProxOp F) (A : LinOp E F) (x0 : E) (tau mu alpha : ℝ) (a : APDArgs E F) :
    Py (APDState E F) :=
  APD.loop f g A a a.niter ⟨x0, 0, 0, 0, tau, mu, alpha, a.tol + 1, a.tol + 1, 0, [tau], [mu], [alpha], []⟩

end Verif
