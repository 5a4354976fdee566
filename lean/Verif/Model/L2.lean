import Verif.Model.ProxOperator
import Verif.Model.Vec

/-!
# Model of `pyproximal/proximal/L2.py` (class `L2`) and `pyproximal/proximal/Quadratic.py`

Both classes carry state between calls (`count`, warm start `x0`, cached factorization), so a call of `prox` takes the state
and returns the next one.  `L2.prox` can also modify the caller's array, so its model returns the contents of
that array after the call as well.
-/

open scoped RealInnerProductSpace

namespace Verif

variable {E F C : Type} [NormedAddCommGroup E] [InnerProductSpace ℝ E] [NormedAddCommGroup F] [InnerProductSpace ℝ F]

/-- The data arguments of `L2` (L2.py:139-140): `Op` (with its `explicit` flag) and `b`.  `Op` without `b` is stored but never
used by any method. -/
inductive L2Data (E F : Type) [NormedAddCommGroup E] [InnerProductSpace ℝ E] [NormedAddCommGroup F] [InnerProductSpace ℝ F]
  | opB (Op : LinOp E F) (explicit : Bool) (b : F)
  | opOnly (Op : LinOp E F) (explicit : Bool)
  | bOnly (b : E)
  | nothing

/-- The `solver` argument (L2.py:166-177). -/
inductive L2Solver
  | legacy
  | cg
  | cgls
  | other
  deriving DecidableEq

/-- The `densesolver` argument: `None`, `"factorize"` or another name passed on to `MatrixMult.div`. -/
inductive DenseSolver
  | default
  | factorize
  | named (n : ℕ)
  deriving DecidableEq

/-- `niter`: an int or a function of the number of `prox` calls (L2.py:217-221). -/
inductive NIter
  | const (n : ℕ)
  | fn (f : ℕ → ℕ)

/-- The number of iterations used by the `count`-th call (L2.py:217-221). -/
def NIter.get : NIter → ℕ → ℕ
  | .const n, _ => n
  | .fn f, k => f k

/-- Arguments of the constructor other than `x0` (L2.py:137-151). -/
structure L2Args (E F : Type) [NormedAddCommGroup E] [InnerProductSpace ℝ E] [NormedAddCommGroup F]
    [InnerProductSpace ℝ F] where
  data : L2Data E F
  q : Option E
  σ : ℝ
  α : ℝ
  qgrad : Bool
  niter : NIter
  warm : Bool
  solver : L2Solver
  densesolver : DenseSolver

/-- Attributes that change between calls: `count`, `x0`, `tausigma`, `cl` (`none` before the first factorization). -/
structure L2State (E C : Type) where
  count : ℕ
  x0 : Option E
  tausigma : ℝ
  cl : Option C

/-- External solvers: `MatrixMult.div`, `cho_factor`, `cho_solve`, `lsqr` (`solver="legacy"`), `cg`, and
`regularized_inversion` applied to `(A, d, dataregs=[y])` with one identity regularisation. -/
structure L2Ext (E F C : Type) [NormedAddCommGroup E] [InnerProductSpace ℝ E] [NormedAddCommGroup F]
    [InnerProductSpace ℝ F] where
  div : DenseSolver → (E →ₗ[ℝ] E) → E → E
  choFactor : (E →ₗ[ℝ] E) → C
  choSolve : C → E → E
  lsqr : (E →ₗ[ℝ] E) → E → ℕ → Option E → E
  cg : (E →ₗ[ℝ] E) → E → ℕ → Option E → E
  regInv : LinOp E F → F → E → ℕ → Option E → E

/-- A scaled operator `s * Op` (pylops). -/
noncomputable def LinOp.scale (s : ℝ) (A : LinOp E F) : LinOp E F where
  matvec := s • A.matvec
  rmatvec := s • A.rmatvec
  dot := fun x y => by
    simp only [LinearMap.smul_apply, real_inner_smul_left, real_inner_smul_right, A.dot]

/-- `I + t * Op.H * Op` (L2.py:231-233, 245, 249-251). -/
noncomputable def LinOp.regNormal (A : LinOp E F) (t : ℝ) : E →ₗ[ℝ] E :=
  LinearMap.id + t • (A.rmatvec ∘ₗ A.matvec)

/-- `self.normaleqs` (L2.py:166-177). -/
def L2Solver.normaleqs : L2Solver → Bool
  | .legacy => true
  | .cg => true
  | _ => false

/-- Constructor (L2.py:137-192): `ValueError` for an unknown solver, otherwise the initial state.  `OpTb` and `ATA`, computed here
by the code, are recomputed by the model where they are used. -/
noncomputable def L2.init (a : L2Args E F) (x0 : Option E) : Py (L2State E C) :=
  if a.solver = .other then .error .valueError else .ok ⟨0, x0, 0, none⟩

/-- `__call__` (L2.py:194-203). -/
noncomputable def L2.call (a : L2Args E F) (x : E) : Py CallVal :=
  let f := match a.data with
    | .opB Op _ b => a.σ / 2 * ‖Op.matvec x - b‖ ^ 2
    | .bOnly b => a.σ / 2 * ‖x - b‖ ^ 2
    | _ => a.σ / 2 * ‖x‖ ^ 2
  .ok (.num (match a.q with
    | some q => f + a.α * ⟪q, x⟫
    | none => f))

/-- `v -= tau * alpha * q` when `q` is given. -/
noncomputable def L2.subQ (a : L2Args E F) (v : E) (τ : ℝ) : E :=
  match a.q with
  | some q => v - (τ * a.α) • q
  | none => v

/-- `v / d` for an array and a number (L2.py:289, 294): infinities or NaN for `d = 0`. -/
noncomputable def npDivBy {E : Type} [NormedAddCommGroup E] [InnerProductSpace ℝ E] (v : E) (d : ℝ) : Py E := if d = 0 then .error .nanResult else .ok ((1 / d) • v)

lemma npDivBy_ok {E : Type} [NormedAddCommGroup E] [InnerProductSpace ℝ E] (v : E) {d : ℝ} (h : d ≠ 0) : npDivBy v d = .ok ((1 / d) • v) := if_neg h

/-- The body of `prox` after the counter has been incremented and the step accepted (L2.py:217-295): new state, result, contents of the caller's
array `x` afterwards (`y = x` and `num = x` alias it, L2.py:266, 291). -/
noncomputable def L2.proxBody (ext : L2Ext E F C) (a : L2Args E F) (s : L2State E C) (x : E) (τ : ℝ) :
    L2State E C × Py E × E :=
  let niter := a.niter.get s.count
  match a.data with
  | .opB Op explicit b =>
    let y := L2.subQ a (x + τ • (a.σ • Op.rmatvec b)) τ
    let warm (s : L2State E C) (z : E) : L2State E C := if a.warm then { s with x0 := some z } else s
    if explicit then
      if a.densesolver ≠ .factorize then
        let z := ext.div a.densesolver (Op.regNormal (τ * a.σ)) y
        (warm s z, .ok z, x)
      else
        let s' := if s.tausigma ≠ τ * a.σ then
            { s with tausigma := τ * a.σ, cl := some (ext.choFactor (Op.regNormal (τ * a.σ))) }
          else s
        match s'.cl with
        | none => (s', .error .attributeError, x)
        | some cl =>
          let z := ext.choSolve cl y
          (warm s' z, .ok z, x)
    else if a.solver.normaleqs then
      let z := if a.solver = .legacy then ext.lsqr (Op.regNormal (τ * a.σ)) y niter s.x0
        else ext.cg (Op.regNormal (τ * a.σ)) y niter s.x0
      (warm s z, .ok z, x)
    else
      let y := L2.subQ a x τ
      let z := ext.regInv (Op.scale (√(τ * a.σ))) (√(τ * a.σ) • b) y niter s.x0
      (warm s z, .ok z, y)
  | .bOnly b =>
    let num := L2.subQ a (x + (τ * a.σ) • b) τ
    (s, npDivBy num (1 + τ * a.σ), x)
  | _ =>
    let num := L2.subQ a x τ
    (s, npDivBy num (1 + τ * a.σ), num)

/-- `prox` (L2.py:205-295): the counter is incremented first, then the step is checked. -/
noncomputable def L2.prox (ext : L2Ext E F C) (a : L2Args E F) (s : L2State E C) (x : E) (τ : ℝ) :
    L2State E C × Py E × E :=
  let s := { s with count := s.count + 1 }
  if τ ≤ 0 then (s, .error .valueError, x) else L2.proxBody ext a s x τ

/-- The state after a sequence of `prox` calls. -/
noncomputable def L2.after (ext : L2Ext E F C) (a : L2Args E F) (s : L2State E C) (calls : List (E × ℝ)) : L2State E C :=
  calls.foldl (fun s c => (L2.prox ext a s c.1 c.2).1) s

/-- `grad` (L2.py:297-306). -/
noncomputable def L2.grad (a : L2Args E F) (x : E) : Py E :=
  let g := match a.data with
    | .opB Op _ b => a.σ • Op.rmatvec (Op.matvec x - b)
    | .bOnly b => a.σ • (x - b)
    | _ => a.σ • x
  .ok (match a.q with
    | some q => if a.qgrad then g + a.α • q else g
    | none => g)

/-! ## Quadratic -/

/-- Arguments of `Quadratic` (Quadratic.py:72-80).  `Op` with `b = None` gets a zero `b` (Quadratic.py:87-88). -/
inductive QuadData (E : Type) [NormedAddCommGroup E] [InnerProductSpace ℝ E]
  | op (Op : LinOp E E) (explicit : Bool) (b : Option E)
  | bOnly (b : E)
  | nothing

/-- `self.b` after construction when `Op` is given (Quadratic.py:86-88). -/
def quadB : Option E → E
  | some b => b
  | none => 0

/-- The shape check of the constructor (Quadratic.py:81-84). -/
def quadShapeCheck (rows cols : ℕ) : Py Unit := if rows ≠ cols then .error .valueError else .ok ()

/-- External solvers used by `Quadratic`: `MatrixMult.div` and `lsqr`. -/
structure QuadExt (E : Type) [NormedAddCommGroup E] [InnerProductSpace ℝ E] where
  div : (E →ₗ[ℝ] E) → E → E
  lsqr : (E →ₗ[ℝ] E) → E → ℕ → Option E → E

/-- `__call__` (Quadratic.py:94-101). -/
noncomputable def Quadratic.call (d : QuadData E) (c : ℝ) (x : E) : Py CallVal :=
  .ok (.num (match d with
    | .op Op _ b => ⟪x, Op.matvec x⟫ / 2 + ⟪quadB b, x⟫ + c
    | .bOnly b => ⟪b, x⟫ + c
    | .nothing => c))

/-- `prox` (Quadratic.py:103-117): new `self.x0` and result. -/
noncomputable def Quadratic.prox (ext : QuadExt E) (d : QuadData E) (niter : ℕ) (warm : Bool) (x0 : Option E) (x : E) (τ : ℝ) :
    Option E × Py E :=
  if τ ≤ 0 then (x0, .error .valueError) else
    match d with
    | .op Op explicit b =>
      let y := x - τ • quadB b
      let z := if explicit then ext.div (LinearMap.id + τ • Op.matvec) y
        else ext.lsqr (LinearMap.id + τ • Op.matvec) y niter x0
      (if warm then some z else x0, .ok z)
    | .bOnly b => (x0, .ok (x - τ • b))
    | .nothing => (x0, .ok x)

/-- `grad` (Quadratic.py:119-139); the scalar `0.0` returned when neither `Op` nor `b` is given is the zero array. -/
noncomputable def Quadratic.grad (d : QuadData E) (x : E) : Py E :=
  .ok (match d with
    | .op Op _ b => Op.matvec x + quadB b
    | .bOnly b => b
    | .nothing => 0)

end Verif
