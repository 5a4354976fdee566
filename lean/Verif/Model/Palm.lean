import Verif.Model.ProxOperator
import Verif.Model.Vec

/-! # Bilinear operators, PALM and iPALM (utils/bilinear.py, optimization/palm.py) -/

open scoped RealInnerProductSpace

namespace Verif

/-! ## Bilinear operators -/

/-- A bilinear operator (bilinear.py:11-85).  The object stores a current `x` and `y`; `gradx` uses the stored `y` and `grady` the stored `x`, which are passed here as
first arguments.  `__call__` depends on its arguments only and leaves the stored blocks as they were (see `LowRank.call`). -/
structure BilOp (E F : Type) where
  call : E → F → ℝ
  gradx : F → E → E
  grady : E → F → F
  lx : E → Py ℝ
  ly : F → Py ℝ

section lowrank
variable {ι κ μ : Type} [Fintype ι] [Fintype κ] [Fintype μ] {D : Type} [NormedAddCommGroup D] [InnerProductSpace ℝ D]

/-- `X @ Y`. -/
noncomputable def matMul (x : Vec (ι × κ)) (y : Vec (κ × μ)) : Vec (ι × μ) := vmk fun p => ∑ k, x (p.1, k) * y (k, p.2)

/-- `X.T`. -/
noncomputable def matT (x : Vec (ι × κ)) : Vec (κ × ι) := vmk fun p => x (p.2, p.1)

/-- The immutable part of a `LowRankFactorizedMatrix` (bilinear.py:133-148) over real numbers.  Without `Op` the field `Op` is the identity and `opGiven` is false.
Vectors are the flattened (row-major) matrices; `reshape` and `ravel` do nothing in this representation. -/
structure LowRank (ι κ μ D : Type) [Fintype ι] [Fintype κ] [Fintype μ] [NormedAddCommGroup D] [InnerProductSpace ℝ D] where
  d : D
  Op : LinOp (Vec (ι × μ)) D
  opGiven : Bool

/-- The mutable part: `self.x`, `self.y`. -/
structure LowRankState (ι κ μ : Type) [Fintype ι] [Fintype κ] [Fintype μ] where
  x : Vec (ι × κ)
  y : Vec (κ × μ)

namespace LowRank

/-- `updatex` (bilinear.py:74-76). -/
def updatex (s : LowRankState ι κ μ) (x : Vec (ι × κ)) : LowRankState ι κ μ := { s with x := x }

/-- `updatey` (bilinear.py:78-80). -/
def updatey (s : LowRankState ι κ μ) (y : Vec (κ × μ)) : LowRankState ι κ μ := { s with y := y }

/-- `_matvecx` (bilinear.py:167-174). -/
noncomputable def matvecx (H : LowRank ι κ μ D) (s : LowRankState ι κ μ) (x : Vec (ι × κ)) : D := H.Op.matvec (matMul x s.y)

/-- `_matvecy` (bilinear.py:176-183). -/
noncomputable def matvecy (H : LowRank ι κ μ D) (s : LowRankState ι κ μ) (y : Vec (κ × μ)) : D := H.Op.matvec (matMul s.x y)

/-- `__call__` (bilinear.py:150-165): `self.x` is replaced, used and put back.  Returns the value and the state afterwards.  The call with one concatenated vector is this one
applied to its two parts. -/
noncomputable def call (H : LowRank ι κ μ D) (s : LowRankState ι κ μ) (x : Vec (ι × κ)) (y : Vec (κ × μ)) : ℝ × LowRankState ι κ μ :=
  let xold := s.x
  let s1 := updatex s x
  let res := H.d - H.matvecy s1 y
  let s2 := updatex s1 xold
  (‖res‖ ^ 2 / 2, s2)

/-- `gradx` (bilinear.py:224-238). -/
noncomputable def gradx (H : LowRank ι κ μ D) (s : LowRankState ι κ μ) (x : Vec (ι × κ)) : Vec (ι × κ) :=
  let r := H.d - H.matvecx s x
  matMul (-H.Op.rmatvec r) (matT s.y)

/-- `grady` (bilinear.py:240-254). -/
noncomputable def grady (H : LowRank ι κ μ D) (s : LowRankState ι κ μ) (y : Vec (κ × μ)) : Vec (κ × μ) :=
  let r := H.d - H.matvecy s y
  matMul (-matT s.x) (H.Op.rmatvec r)

/-- `grad` (bilinear.py:256-260): the two parts of the stacked vector. -/
noncomputable def grad (H : LowRank ι κ μ D) (s : LowRankState ι κ μ) (x : Vec (ι × κ)) (y : Vec (κ × μ)) : Vec (ι × κ) × Vec (κ × μ) :=
  (H.gradx s x, H.grady s y)

/-- `lx` (bilinear.py:202-211). -/
noncomputable def lx (H : LowRank ι κ μ D) (x : Vec (ι × κ)) : Py ℝ := if H.opGiven then .error .valueError else .ok ‖matMul (matT x) x‖

/-- `ly` (bilinear.py:213-222). -/
noncomputable def ly (H : LowRank ι κ μ D) (y : Vec (κ × μ)) : Py ℝ := if H.opGiven then .error .valueError else .ok ‖matMul y (matT y)‖

/-- The argument of `matvec` (bilinear.py:185-200) is told apart by its length. -/
inductive Block (ι κ μ : Type) [Fintype ι] [Fintype κ] [Fintype μ]
  | x (x : Vec (ι × κ))
  | y (y : Vec (κ × μ))

/-- `matvec` (bilinear.py:185-200): refused when `n = m`, as the two blocks have the same length. -/
noncomputable def matvec (H : LowRank ι κ μ D) (s : LowRankState ι κ μ) (b : Block ι κ μ) : Py D :=
  if Fintype.card ι = Fintype.card μ then .error .notImplementedError
  else match b with
    | .x x => .ok (H.matvecx s x)
    | .y y => .ok (H.matvecy s y)

/-- The object as seen by the solvers. -/
noncomputable def bil (H : LowRank ι κ μ D) : BilOp (Vec (ι × κ)) (Vec (κ × μ)) where
  call := fun x y => (H.call ⟨x, y⟩ x y).1
  gradx := fun y x => H.gradx ⟨x, y⟩ x
  grady := fun x y => H.grady ⟨x, y⟩ y
  lx := H.lx
  ly := H.ly

end LowRank
end lowrank

variable {E F : Type} [NormedAddCommGroup E] [InnerProductSpace ℝ E] [NormedAddCommGroup F] [InnerProductSpace ℝ F]

/-! ## PALM -/

/-- `if proxf is not None: x = proxf.prox(x, tau)` (palm.py:49-50, 174-175, 187-188). -/
noncomputable def applyProx (p : Option (ProxOp E)) (x : E) (τ : ℝ) : Py E :=
  match p with
  | none => .ok x
  | some p => p.prox x τ

open Classical in
/-- The `while` loop of `_backtracking` (palm.py:46-57) with `n` trials left, for one block: `val` is `H` with the other block fixed, `grad` the gradient at `x`,
`z` the last point tried. -/
noncomputable def palmBacktrack (val : E → ℝ) (grad : E) (p : Option (ProxOp E)) (β : ℝ) (x : E) : ℕ → ℝ → E → Py (E × ℝ)
  | 0, τ, z => .ok (z, τ)
  | n + 1, τ, _ => do
    let z ← applyProx p (x - τ • grad) τ
    if τ = 0 then .error .zeroDivisionError
    else if val z ≤ val x + ⟪grad, z - x⟫ + 1 / (2 * τ) * ‖z - x‖ ^ 2 ∨ τ < 1e-12 then .ok (z, τ)
    else palmBacktrack val grad p β x n (τ * β) z

open Classical in
/-- A block step with given `gamma` (palm.py:172-175, 185-188): `c = gamma * L; z = z - (1/c) * grad; prox(z, 1/c)`. -/
noncomputable def palmFixed (l : Py ℝ) (γ : ℝ) (grad : E) (p : Option (ProxOp E)) (z : E) : Py E := do
  let l ← l
  let c := γ * l
  if c = 0 then .error .zeroDivisionError
  else applyProx p (z - (1 / c) • grad) (1 / c)

/-- Arguments of `PALM` and `iPALM`.  The operator passed as `proxf` also meets vectors of the size of `y` (palm.py:190-192): `proxfY` is its behaviour on those. -/
structure PalmArgs (E F : Type) where
  proxf : Option (ProxOp E)
  proxfY : Option (ProxOp F)
  proxg : Option (ProxOp F)
  gammaf : Option ℝ
  gammag : Option ℝ
  β : ℝ
  niterback : ℕ

/-- Loop variables of `PALM`, with the blocks stored in `H` and the arguments the callback was called with. -/
structure PalmState (E F : Type) where
  x : E
  y : F
  tauf : ℝ
  taug : ℝ
  hx : E
  hy : F
  log : List (E × F)

/-- A block step of `PALM` (palm.py:172-179, 184-192): `p` is the operator used with a given `gamma`, `pb` the one used when backtracking.  Returns the new block and step. -/
noncomputable def palmStep (γ : Option ℝ) (l : Py ℝ) (val : E → ℝ) (grad : E) (p pb : Option (ProxOp E)) (β : ℝ) (nb : ℕ) (z : E) (τ : ℝ) : Py (E × ℝ) :=
  match γ with
  | some γ => do
    let x ← palmFixed l γ grad p z
    pure (x, τ)
  | none => palmBacktrack val grad pb β z nb τ z

/-- Body of `PALM` (palm.py:169-198).  `_backtracking` is called with `proxf` for both blocks (palm.py:177-179, 190-192). -/
noncomputable def PALM.body (H : BilOp E F) (a : PalmArgs E F) (_ : ℕ) (s : PalmState E F) : Py (PalmState E F × Bool) := do
  let (x, tauf) ← palmStep a.gammaf (H.ly s.y) (fun x => H.call x s.y) (H.gradx s.hy s.x) a.proxf a.proxf a.β a.niterback s.x s.tauf
  let (y, taug) ← palmStep a.gammag (H.lx x) (fun y => H.call x y) (H.grady x s.y) a.proxg a.proxfY a.β a.niterback s.y s.taug
  pure (⟨x, y, tauf, taug, x, y, s.log ++ [(x, y)]⟩, false)

/-- `PALM` (palm.py:161-218): `hx`, `hy` are the blocks stored in `H` when the solver is called.  `tauf`, `taug` are only read when the corresponding `gamma` is `None`. -/
noncomputable def PALM (H : BilOp E F) (a : PalmArgs E F) (hx : E) (hy : F) (x0 : E) (y0 : F) (niter : ℕ) : Py (PalmState E F) :=
  forRange (PALM.body H a) niter 0 ⟨x0, y0, 1, 1, hx, hy, []⟩

/-! ## iPALM -/

/-- Loop variables of `iPALM`; `taug` is `none` while the Python variable is unbound. -/
structure IPalmState (E F : Type) where
  x : E
  y : F
  xold : E
  yold : F
  tauf : ℝ
  taug : Option ℝ
  hx : E
  hy : F
  log : List (E × F)

/-- The `y` step of `iPALM` (palm.py:361-377): the extrapolated point `w` is only used with a given `gammag`; backtracking reads the variable `taug` and starts from `y`. -/
noncomputable def ipalmYStep (γ : Option ℝ) (l : Py ℝ) (val : F → ℝ) (grady : F → F) (p pb : Option (ProxOp F)) (β : ℝ) (nb : ℕ) (w y : F) (taug : Option ℝ) : Py (F × Option ℝ) :=
  match γ, taug with
  | some γ, taug => do
    let y ← palmFixed l γ (grady w) p w
    pure (y, taug)
  | none, none => .error .unboundLocalError
  | none, some τ => do
    let (y, t) ← palmBacktrack val (grady y) pb β y nb τ y
    pure (y, some t)

/-- Body of `iPALM` (palm.py:348-383). -/
noncomputable def iPALM.body (H : BilOp E F) (a : PalmArgs E F) (ax ay : ℝ) (_ : ℕ) (s : IPalmState E F) : Py (IPalmState E F × Bool) := do
  let z := s.x + ax • (s.x - s.xold)
  let (x, tauf) ← palmStep a.gammaf (H.ly s.y) (fun x => H.call x s.y) (H.gradx s.hy z) a.proxf a.proxf a.β a.niterback z s.tauf
  let w := s.y + ay • (s.y - s.yold)
  let (y, taug) ← ipalmYStep a.gammag (H.lx x) (fun y => H.call x y) (H.grady x) a.proxg a.proxfY a.β a.niterback w s.y s.taug
  pure (⟨x, y, s.x, s.y, tauf, taug, x, y, s.log ++ [(x, y)]⟩, false)

/-- `iPALM` (palm.py:339-403).  `taug` is set under the condition on `gammaf` (palm.py:342-344). -/
noncomputable def iPALM (H : BilOp E F) (a : PalmArgs E F) (ax ay : ℝ) (hx : E) (hy : F) (x0 : E) (y0 : F) (niter : ℕ) : Py (IPalmState E F) :=
  forRange (iPALM.body H a ax ay) niter 0 ⟨x0, y0, x0, y0, 1, if a.gammaf.isNone then some 1 else none, hx, hy, []⟩

end Verif
