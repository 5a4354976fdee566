import Verif.Model.Primal

/-!
# Model of `pyproximal/optimization/bregman.py`
-/

open scoped RealInnerProductSpace

namespace Verif

variable {E : Type} [NormedAddCommGroup E] [InnerProductSpace ℝ E]

/-- Loop variables of `Bregman`. -/
structure BregState (E : Type) where
  x : E
  q : E
  log : List E

/-- The smooth term of the `i`-th subproblem (bregman.py:141-144): `proxf` the first time, `deepcopy(proxf) - alpha * q` afterwards. -/
noncomputable def Bregman.problem (f : ProxOp E) (α : ℝ) (q : E) (i : ℕ) : Py (ProxOp E) := if i = 0 then .ok f else f.subOp (.array (α • q))

/-- Body of the outer loop (bregman.py:138-174).  `solver f g x0` is the inner solver with its keyword arguments (and `A`, when given); a tuple result is its first component.
`deepcopy(proxf)` is `proxf`: operators of the model have no state. -/
noncomputable def Bregman.body (f g : ProxOp E) (solver : ProxOp E → ProxOp E → E → Py E) (x0 : E) (α : ℝ) (warm : Bool) (tolx tolf : ℝ) (i : ℕ) (s : BregState E) :
    Py (BregState E × Bool) := do
  let fq ← Bregman.problem f α s.q i
  let x ← solver fq g (if warm then s.x else x0)
  if α = 0 then .error .zeroDivisionError
  else do
    let gx ← f.grad x
    let pf ← f.call x
    pure (⟨x, s.q - (1 / α) • gx, s.log ++ [x]⟩, (open Classical in decide (‖x - s.x‖ < tolx ∨ pf.toReal < tolf)))

/-- `Bregman` (bregman.py:133-179): `alpha * proxg` is `__rmul__`, so an `alpha` that is a Python int is refused.  The arithmetic with an int `alpha` is not reached. -/
noncomputable def Bregman (f g : ProxOp E) (solver : ProxOp E → ProxOp E → E → Py E) (x0 : E) (alpha : ProxOp.Operand E) (niter : ℕ) (warm : Bool) (tolx tolf : ℝ) :
    Py (BregState E) := do
  let g' ← g.rmul alpha
  match alpha with
  | .float α => forRange (Bregman.body f g' solver x0 α warm tolx tolf) niter 0 ⟨x0, 0, []⟩
  | _ => .error .typeError

end Verif
