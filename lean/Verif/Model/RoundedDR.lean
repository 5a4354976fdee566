import Verif.Model.RoundedPG

/-!
# `DouglasRachfordSplitting` in rounded arithmetic

As in `Model/Rounded`, every floating point operation is followed by a rounding.
-/

namespace Verif

variable {ι : Type} [Fintype ι]

/-- Body of the loop (primal.py:1787-1799): `2 * x - y` and `y + eta * (... - x)` with each operation rounded; the operators
bring their own rounding. -/
noncomputable def DRR.body (rnd : ℝ → ℝ) (f g : ProxOp (Vec ι)) (τ η : ℝ) (gfirst : Bool) (_ : ℕ) (s : DRState (Vec ι)) :
    Py (DRState (Vec ι) × Bool) := do
  if gfirst then do
    let x ← g.prox s.y τ
    let p ← f.prox (subR rnd (smulR rnd 2 x) s.y) τ
    let y := addR rnd s.y (smulR rnd η (subR rnd p x))
    pure (⟨some x, y, s.log ++ [(x, y)]⟩, false)
  else do
    let x ← f.prox s.y τ
    let p ← g.prox (subR rnd (smulR rnd 2 x) s.y) τ
    let y := addR rnd s.y (smulR rnd η (subR rnd p x))
    pure (⟨some x, y, s.log ++ [(x, y)]⟩, false)

/-- `DouglasRachfordSplitting` (primal.py:1785-1811) in rounded arithmetic: returns `(x, y)` and the callback log. -/
noncomputable def DouglasRachfordR (rnd : ℝ → ℝ) (f g : ProxOp (Vec ι)) (x0 : Vec ι) (τ η : ℝ) (niter : ℕ) (gfirst : Bool) :
    Py (Vec ι × Vec ι × List (Vec ι × Vec ι)) := do
  let s ← forRange (DRR.body rnd f g τ η gfirst) niter 0 ⟨none, x0, []⟩
  match s.x with
  | none => .error .unboundLocalError
  | some x => pure (x, s.y, s.log)

end Verif
