import Verif.Model.Rounded

/-!
# `ProximalGradient` in rounded arithmetic

As in `Model/Rounded`, every floating point operation is followed by a rounding.  Modelled: a given `tau`, no backtracking,
`eta=1`, a scalar `epsg`, no tolerance, all accelerations.
-/

namespace Verif

variable {ι : Type} [Fintype ι]

/-- A scalar times an array, rounded entry by entry. -/
noncomputable def smulR (rnd : ℝ → ℝ) (c : ℝ) (x : Vec ι) : Vec ι := vmk fun i => rnd (c * x i)

/-- `omega` and the new `t` (primal.py:398-407) with each operation rounded; `iiter` is an integer, and the quotient of two
integers is rounded once. -/
noncomputable def momentumR (rnd : ℝ → ℝ) (a : Accel) (i : ℕ) (t : ℝ) : ℝ × ℝ :=
  match a with
  | .vandenberghe => (rnd ((i : ℝ) / (i + 3)), t)
  | .fista =>
    let t' := rnd (rnd (1 + rnd (√(rnd (1 + rnd (4 * rnd (t ^ 2)))))) / 2)
    (rnd (rnd (t - 1) / t'), t')
  | _ => (0, t)

/-- Body of the loop (primal.py:374-408): `y - tau * proxf.grad(y)`, `epsg[iiter] * tau` and
`y = x + omega * (x - xold)` with each operation rounded; the operators bring their own rounding. -/
noncomputable def PGR.body (rnd : ℝ → ℝ) (f g : ProxOp (Vec ι)) (τ ε : ℝ) (acc : Accel) (i : ℕ) (s : PGState (Vec ι)) :
    Py (PGState (Vec ι) × Bool) := do
  let gy ← f.grad s.y
  let x ← g.prox (subR rnd s.y (smulR rnd τ gy)) (rnd (ε * τ))
  let (ω, t) := momentumR rnd acc i s.t
  pure (⟨x, addR rnd x (smulR rnd ω (subR rnd x s.x)), t, τ, none, s.log ++ [x]⟩, false)

/-- `ProximalGradient` (primal.py:324-449) in rounded arithmetic. -/
noncomputable def ProximalGradientR (rnd : ℝ → ℝ) (f g : ProxOp (Vec ι)) (x0 : Vec ι) (τ ε : ℝ) (acc : Accel) (niter : ℕ) :
    Py (PGState (Vec ι)) := do
  (StepSpec.scalar ε).printCheck niter
  if acc = .other then
    .error .notImplementedError
  else
    forRange (PGR.body rnd f g τ ε acc) niter 0 ⟨x0, x0, 1, τ, none, []⟩

/-- `L2.grad` without `Op` and `q` (proximal/L2.py:300-303): `sigma * (x - b)` or `sigma * x`. -/
noncomputable def L2GradR (rnd : ℝ → ℝ) (val : Vec ι → Py CallVal) (σ : ℝ) (b : Option (Vec ι)) : ProxOp (Vec ι) :=
  { L2R rnd val σ b with
    grad? := some fun x => .ok (match b with
      | none => smulR rnd σ x
      | some b => smulR rnd σ (subR rnd x b)) }

end Verif
