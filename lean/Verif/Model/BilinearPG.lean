import Verif.Model.Primal
import Verif.Model.Palm
import Mathlib.Analysis.InnerProductSpace.ProdL2

/-!
# `ProximalGradient` with a bilinear operator as `proxf` (primal.py:324-449 with lines 395-396)

The vector of the solver is the concatenation of the two blocks, an element of `WithLp 2 (E × F)`.
-/

open scoped RealInnerProductSpace

namespace Verif

variable {E F : Type} [NormedAddCommGroup E] [InnerProductSpace ℝ E] [NormedAddCommGroup F] [InnerProductSpace ℝ F]

/-- The two blocks of a concatenated vector: `x[:sizex]`, `x[sizex:]` (bilinear.py:84-85, 152-153, 256-258). -/
def blocks (z : WithLp 2 (E × F)) : E × F := (z.fst, z.snd)

/-- A bilinear operator object as long as its stored blocks are `s` (bilinear.py:150-165, 224-260): the value depends on the argument only, `grad` takes the gradient in each block with the *stored*
other block.  The class has no `prox`. -/
noncomputable def BilOp.stored (H : BilOp E F) (s : E × F) : ProxOp (WithLp 2 (E × F)) where
  call := fun z => .ok (.num (H.call (blocks z).1 (blocks z).2))
  prox? := some fun _ _ => .error .attributeError
  proxdual? := some fun _ _ => .error .attributeError
  grad? := some fun z => .ok (WithLp.toLp 2 (H.gradx s.2 (blocks z).1, H.grady s.1 (blocks z).2))
  hasgrad := true
  sigmame := 1

/-- Body of the loop (primal.py:374-440): the iteration of `ProximalGradient` with the current stored blocks, and `proxf.updatexy(x)` (primal.py:395-396, bilinear.py:82-85).  The update is placed after
the evaluation of the objective (primal.py:415-420), which does not read the stored blocks. -/
noncomputable def PGBil.body (H : BilOp E F) (g : ProxOp (WithLp 2 (E × F))) (a : PGArgs) (bt : Bool) (i : ℕ) (s : (E × F) × PGState (WithLp 2 (E × F))) :
    Py (((E × F) × PGState (WithLp 2 (E × F))) × Bool) := do
  let r ← PG.body (H.stored s.1) g a bt i s.2
  pure ((blocks r.1.x, r.1), r.2)

/-- `ProximalGradient` (primal.py:324-449) with a bilinear operator `H` storing the blocks `st` as `proxf`: the stored blocks afterwards and the loop variables (the returned point is the field `x`). -/
noncomputable def PGBil (H : BilOp E F) (g : ProxOp (WithLp 2 (E × F))) (st : E × F) (x0 : WithLp 2 (E × F)) (a : PGArgs) : Py ((E × F) × PGState (WithLp 2 (E × F))) := do
  a.epsg.printCheck a.niter
  if a.acceleration = .other then
    .error .notImplementedError
  else
    let (bt, τ) := match a.tau with
      | none => (true, 1)
      | some τ => (a.backtracking, τ)
    forRange (PGBil.body H g a bt) a.niter 0 (st, ⟨x0, x0, 1, τ, none, []⟩)

end Verif
