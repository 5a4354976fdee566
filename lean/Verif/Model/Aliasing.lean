import Verif.Model.PrimalDual
import Verif.Model.Stack

/-!
# Linear operators that return the array they are given

`pylops.Identity` works in place by default: `matvec(x)` and `rmatvec(y)` return `x` and `y` themselves (or views of them).  Two places of the package modify the result of `matvec`/`rmatvec` in place:
`ATy += z` in `PrimalDual` and `AdaptivePrimalDual` (primaldual.py:186-188, 192-194, 365-366) and `y += self.b` in `Orthogonal.__call__` (Orthogonal.py:80).  Here the linear operator is the identity
that returns its argument, so that these statements also change that argument.
-/

open scoped RealInnerProductSpace

namespace Verif

variable {E : Type} [NormedAddCommGroup E] [InnerProductSpace ℝ E]

/-- The array after `if z is not None: arr += z` (primaldual.py:182-183, 188-189, 362-363). -/
def addInPlace (z : Option E) (y : E) : E :=
  match z with
  | none => y
  | some z => y + z

/-- Body of the loop of `PrimalDual` (primaldual.py:178-199) for an operator `A` whose `matvec` and `rmatvec` return their argument: `ATy` is the array `y`, so `ATy += z` changes `y`. -/
noncomputable def PDAlias.body (f g : ProxOp E) (z : Option E) (tau mu : StepSpec) (θ : ℝ) (gfirst : Bool) (i : ℕ) (s : PDState E E) : Py (PDState E E × Bool) := do
  let τ ← tau.atStrict i
  let μ ← mu.atStrict i
  if gfirst then do
    let y ← g.proxdual (s.y + μ • s.xhat) μ
    let y := addInPlace z y
    let x ← f.prox (s.x - τ • y) τ
    pure (⟨x, y, x + θ • (x - s.x), s.log ++ [(x, y)]⟩, false)
  else do
    let y := addInPlace z s.y
    let x ← f.prox (s.x - τ • y) τ
    let xhat := x + θ • (x - s.x)
    let y ← g.proxdual (y + μ • xhat) μ
    pure (⟨x, y, xhat, s.log ++ [(x, y)]⟩, false)

/-- `PrimalDual` (primaldual.py:136-221) with such an operator; `x0` and `y0` are copied. -/
noncomputable def PDAlias (f g : ProxOp E) (x0 : E) (y0 : Option E) (z : Option E) (tau mu : StepSpec) (θ : ℝ) (niter : ℕ) (gfirst : Bool) : Py (PDState E E) :=
  forRange (PDAlias.body f g z tau mu θ gfirst) niter 0 ⟨x0, y0.getD 0, x0, []⟩

/-- One pass through the loop of `AdaptivePrimalDual` (primaldual.py:355-398) with such an operator.  In the first pass `ATy` is the array of zeros made before the loop; from the second on it is the
array `y`, so `ATy += z` changes the `y` that the dual step starts from (`yold` and `ATyold` are copies made before).  `A.rmatvec(z)` is `z`. -/
noncomputable def APDAlias.body (f g : ProxOp E) (a : APDArgs E E) (s : APDState E E) : Py (APDState E E) := do
  let x ← f.prox (s.x - s.tau • addInPlace a.z s.ATy) s.tau
  let y := if s.iiter = 0 then s.y else addInPlace a.z s.y
  let y ← g.proxdual (y + s.mu • ((2 : ℝ) • x - s.Ax)) s.mu
  let r := (1 / s.tau) • (s.x - x) - (s.ATy - y)
  let p := match a.z with
    | none => ‖r‖
    | some z => ‖r - z + z‖
  let d := ‖(1 / s.mu) • (s.y - y) - (s.Ax - x)‖
  let (tau, mu, alpha) ← apdSteps a.eta a.s a.delta p d s.tau s.mu s.alpha
  pure ⟨x, y, x, y, tau, mu, alpha, p, d, s.iiter + 1, s.taus ++ [tau], s.mus ++ [mu], s.alphas ++ [alpha], s.log ++ [x]⟩

open Classical in
/-- The `while` loop (primaldual.py:354); `fuel` bounds the number of passes of the model, as in `APD.loop`. -/
noncomputable def APDAlias.loop (f g : ProxOp E) (a : APDArgs E E) : ℕ → APDState E E → Py (APDState E E)
  | 0, s => if s.iiter < a.niter ∧ a.tol < s.p ∧ a.tol < s.d then .error .outOfFuel else .ok s
  | fuel + 1, s =>
    if s.iiter < a.niter ∧ a.tol < s.p ∧ a.tol < s.d then do
      let s' ← APDAlias.body f g a s
      APDAlias.loop f g a fuel s'
    else .ok s

/-- `AdaptivePrimalDual` (primaldual.py:342-420) with such an operator. -/
noncomputable def APDAlias (f g : ProxOp E) (x0 : E) (tau mu alpha : ℝ) (a : APDArgs E E) : Py (APDState E E) :=
  APDAlias.loop f g a a.niter ⟨x0, 0, 0, 0, tau, mu, alpha, a.tol + 1, a.tol + 1, 0, [tau], [mu], [alpha], []⟩

/-- `Orthogonal.__call__` (Orthogonal.py:78-82) when `Q.matvec` returns its argument and `b` is an array: the value and the caller's array afterwards. -/
def Orthogonal.callAlias (f : ProxOp E) (b : E) (x : E) : Py (CallVal × E) := do
  let y := x + b
  pure (← f.call y, y)

end Verif
