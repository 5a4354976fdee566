import Verif.Model.Complex
import Verif.Model.Palm

/-!
# Bilinear operators on complex matrices (utils/bilinear.py, utils/gradtest.py, optimization/palm.py)

`LowRankFactorizedMatrix` conjugates where its formulas ask for it; the acceptance test of the backtracking in optimization/palm.py does not.
-/

namespace Verif

section lowrank
variable {ι κ μ : Type} [Fintype ι] [Fintype κ] [Fintype μ] {D : Type} [NormedAddCommGroup D] [InnerProductSpace ℝ D]

/-- `X @ Y` for complex matrices. -/
noncomputable def matMulC (x : CVec (ι × κ)) (y : CVec (κ × μ)) : CVec (ι × μ) := cmk fun p => ∑ k, x (p.1, k) * y (k, p.2)

/-- `np.conj(X).T`, the same as `np.conj(X.T)`. -/
noncomputable def matH (x : CVec (ι × κ)) : CVec (κ × ι) := cmk fun p => (starRingEnd ℂ) (x (p.2, p.1))

/-- The immutable part of a `LowRankFactorizedMatrix` (bilinear.py:133-148) over complex numbers.  `Op` and `Op.H` are adjoint for the real part of the inner product, as a complex linear
operator and its conjugate transpose are.  Without `Op` the field `Op` is the identity and `opGiven` is false.  `reshape` and `ravel` do nothing in this representation. -/
structure LowRankC (ι κ μ D : Type) [Fintype ι] [Fintype κ] [Fintype μ] [NormedAddCommGroup D] [InnerProductSpace ℝ D] where
  d : D
  Op : LinOp (CVec (ι × μ)) D
  opGiven : Bool

/-- The mutable part: `self.x`, `self.y`. -/
structure LowRankStateC (ι κ μ : Type) [Fintype ι] [Fintype κ] [Fintype μ] where
  x : CVec (ι × κ)
  y : CVec (κ × μ)

namespace LowRankC

/-- `updatex` (bilinear.py:74-76). -/
def updatex (s : LowRankStateC ι κ μ) (x : CVec (ι × κ)) : LowRankStateC ι κ μ := { s with x := x }

/-- `updatey` (bilinear.py:78-80). -/
def updatey (s : LowRankStateC ι κ μ) (y : CVec (κ × μ)) : LowRankStateC ι κ μ := { s with y := y }

/-- `_matvecx` (bilinear.py:167-174). -/
noncomputable def matvecx (H : LowRankC ι κ μ D) (s : LowRankStateC ι κ μ) (x : CVec (ι × κ)) : D := H.Op.matvec (matMulC x s.y)

/-- `_matvecy` (bilinear.py:176-183). -/
noncomputable def matvecy (H : LowRankC ι κ μ D) (s : LowRankStateC ι κ μ) (y : CVec (κ × μ)) : D := H.Op.matvec (matMulC s.x y)

/-- `__call__` (bilinear.py:150-165): `self.x` is replaced, used and put back.  Returns the value and the state afterwards. -/
noncomputable def call (H : LowRankC ι κ μ D) (s : LowRankStateC ι κ μ) (x : CVec (ι × κ)) (y : CVec (κ × μ)) : ℝ × LowRankStateC ι κ μ :=
  let xold := s.x
  let s1 := updatex s x
  let res := H.d - H.matvecy s1 y
  let s2 := updatex s1 xold
  (‖res‖ ^ 2 / 2, s2)

/-- `gradx` (bilinear.py:224-238). -/
noncomputable def gradx (H : LowRankC ι κ μ D) (s : LowRankStateC ι κ μ) (x : CVec (ι × κ)) : CVec (ι × κ) :=
  let r := H.d - H.matvecx s x
  matMulC (-H.Op.rmatvec r) (matH s.y)

/-- `grady` (bilinear.py:240-254). -/
noncomputable def grady (H : LowRankC ι κ μ D) (s : LowRankStateC ι κ μ) (y : CVec (κ × μ)) : CVec (κ × μ) :=
  let r := H.d - H.matvecy s y
  matMulC (-matH s.x) (H.Op.rmatvec r)

/-- `lx` (bilinear.py:202-211). -/
noncomputable def lx (H : LowRankC ι κ μ D) (x : CVec (ι × κ)) : Py ℝ := if H.opGiven then .error .valueError else .ok ‖matMulC (matH x) x‖

/-- `ly` (bilinear.py:213-222). -/
noncomputable def ly (H : LowRankC ι κ μ D) (y : CVec (κ × μ)) : Py ℝ := if H.opGiven then .error .valueError else .ok ‖matMulC y (matH y)‖

/-- The object as seen by the solvers. -/
noncomputable def bil (H : LowRankC ι κ μ D) : BilOp (CVec (ι × κ)) (CVec (κ × μ)) where
  call := fun x y => (H.call ⟨x, y⟩ x y).1
  gradx := fun y x => H.gradx ⟨x, y⟩ x
  grady := fun x y => H.grady ⟨x, y⟩ y
  lx := H.lx
  ly := H.ly

end LowRankC

/-- `gradtest_bilinear` (gradtest.py:129-256) for a `LowRankFactorizedMatrix` with contiguous blocks: `rdx`, `rdy` say whether the blocks have a real dtype, and `rori` is the random draw of the
part, which is only made with `complexflag`.  As in `gradtestBilinear`, perturbing `x` is not seen by the object and perturbing `y` changes the stored block.  Returned: the outcome, the array that
was stored as `x` before the test, and the state of the object afterwards. -/
noncomputable def gradtestBilinearC (H : LowRankC ι κ μ D) (s : LowRankStateC ι κ μ) (rdx rdy : Bool) (a : GradTestArgs) (complexflag : Bool) (d : BilDraw ι κ μ) (rori : Bool) :
    Py Bool × CVec (ι × κ) × LowRankStateC ι κ μ :=
  let imag := complexflag && rori
  let r := H.call s s.x s.y
  let s1 := r.2
  let gx := H.gradx s1 s.x
  let gy := H.grady s1 s.y
  match d with
  | .x i =>
    let x' := storeAt rdx s.x i (s.x i + delta1 a imag)
    let r' := H.call s1 x' s.y
    (gradVerdict a r.1 r'.1 (gradPart imag (gx i)), x', r'.2)
  | .y i =>
    let y' := storeAt rdy s.y i (s.y i + delta1 a imag)
    let r' := H.call (LowRankC.updatey s1 y') s.x y'
    (gradVerdict a r.1 r'.1 (gradPart imag (gy i)), s.x, r'.2)

end lowrank

variable {ι κ : Type} [Fintype ι] [Fintype κ]

open Classical in
/-- The `while` loop of `_backtracking` (palm.py:46-57) on complex blocks: `np.dot(g, xy)` does not conjugate and `float` keeps the real part of the bound. -/
noncomputable def palmBacktrackC (val : CVec ι → ℝ) (grad : CVec ι) (p : Option (ProxOp (CVec ι))) (β : ℝ) (x : CVec ι) : ℕ → ℝ → CVec ι → Py (CVec ι × ℝ)
  | 0, τ, z => .ok (z, τ)
  | n + 1, τ, _ => do
    let z ← applyProx p (x - τ • grad) τ
    if τ = 0 then .error .zeroDivisionError
    else if val z ≤ ((val x : ℂ) + npDot grad (z - x) + (1 / (2 * τ) * ‖z - x‖ ^ 2 : ℝ)).re ∨ τ < 1e-12 then .ok (z, τ)
    else palmBacktrackC val grad p β x n (τ * β) z

/-- A block step of `PALM` (palm.py:172-179, 184-192) on a complex block. -/
noncomputable def palmStepC (γ : Option ℝ) (l : Py ℝ) (val : CVec ι → ℝ) (grad : CVec ι) (p pb : Option (ProxOp (CVec ι))) (β : ℝ) (nb : ℕ) (z : CVec ι) (τ : ℝ) : Py (CVec ι × ℝ) :=
  match γ with
  | some γ => do
    let x ← palmFixed l γ grad p z
    pure (x, τ)
  | none => palmBacktrackC val grad pb β z nb τ z

/-- Body of `PALM` (palm.py:169-198) on complex blocks. -/
noncomputable def PALMC.body (H : BilOp (CVec ι) (CVec κ)) (a : PalmArgs (CVec ι) (CVec κ)) (_ : ℕ) (s : PalmState (CVec ι) (CVec κ)) : Py (PalmState (CVec ι) (CVec κ) × Bool) := do
  let (x, tauf) ← palmStepC a.gammaf (H.ly s.y) (fun x => H.call x s.y) (H.gradx s.hy s.x) a.proxf a.proxf a.β a.niterback s.x s.tauf
  let (y, taug) ← palmStepC a.gammag (H.lx x) (fun y => H.call x y) (H.grady x s.y) a.proxg a.proxfY a.β a.niterback s.y s.taug
  pure (⟨x, y, tauf, taug, x, y, s.log ++ [(x, y)]⟩, false)

/-- `PALM` (palm.py:161-218) on complex blocks. -/
noncomputable def PALMC (H : BilOp (CVec ι) (CVec κ)) (a : PalmArgs (CVec ι) (CVec κ)) (hx : CVec ι) (hy : CVec κ) (x0 : CVec ι) (y0 : CVec κ) (niter : ℕ) :
    Py (PalmState (CVec ι) (CVec κ)) :=
  forRange (PALMC.body H a) niter 0 ⟨x0, y0, 1, 1, hx, hy, []⟩

/-- The `y` step of `iPALM` (palm.py:361-377) on a complex block. -/
noncomputable def ipalmYStepC (γ : Option ℝ) (l : Py ℝ) (val : CVec κ → ℝ) (grady : CVec κ → CVec κ) (p pb : Option (ProxOp (CVec κ))) (β : ℝ) (nb : ℕ) (w y : CVec κ) (taug : Option ℝ) :
    Py (CVec κ × Option ℝ) :=
  match γ, taug with
  | some γ, taug => do
    let y ← palmFixed l γ (grady w) p w
    pure (y, taug)
  | none, none => .error .unboundLocalError
  | none, some τ => do
    let (y, t) ← palmBacktrackC val (grady y) pb β y nb τ y
    pure (y, some t)

/-- Body of `iPALM` (palm.py:348-383) on complex blocks. -/
noncomputable def iPALMC.body (H : BilOp (CVec ι) (CVec κ)) (a : PalmArgs (CVec ι) (CVec κ)) (ax ay : ℝ) (_ : ℕ) (s : IPalmState (CVec ι) (CVec κ)) :
    Py (IPalmState (CVec ι) (CVec κ) × Bool) := do
  let z := s.x + ax • (s.x - s.xold)
  let (x, tauf) ← palmStepC a.gammaf (H.ly s.y) (fun x => H.call x s.y) (H.gradx s.hy z) a.proxf a.proxf a.β a.niterback z s.tauf
  let w := s.y + ay • (s.y - s.yold)
  let (y, taug) ← ipalmYStepC a.gammag (H.lx x) (fun y => H.call x y) (H.grady x) a.proxg a.proxfY a.β a.niterback w s.y s.taug
  pure (⟨x, y, s.x, s.y, tauf, taug, x, y, s.log ++ [(x, y)]⟩, false)

/-- `iPALM` (palm.py:339-403) on complex blocks. -/
noncomputable def iPALMC (H : BilOp (CVec ι) (CVec κ)) (a : PalmArgs (CVec ι) (CVec κ)) (ax ay : ℝ) (hx : CVec ι) (hy : CVec κ) (x0 : CVec ι) (y0 : CVec κ) (niter : ℕ) :
    Py (IPalmState (CVec ι) (CVec κ)) :=
  forRange (iPALMC.body H a ax ay) niter 0 ⟨x0, y0, x0, y0, 1, if a.gammaf.isNone then some 1 else none, hx, hy, []⟩

end Verif
