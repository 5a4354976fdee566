import Verif.Model.Primal
import Verif.Model.Counters

/-!
# Solvers running on operator objects that change

In `Model/Primal` an operator is a pure function.  The objects of the library have attributes that `prox` updates (`count`, the warm start and the cached
factorization of `L2`) and some write into the array they are given (`L2` with `q`, L2.py:266-268, 290-292).  Here a solver threads the state of the objects and
the contents of its arrays through the loop.  Two operators given to a solver are two different objects (one object given twice is in `Model/Shared`); an array returned by `prox` is a new array or the (already
modified) argument.  The state of the objects after an exception is in `Model/Interrupt`.
-/

open scoped RealInnerProductSpace

namespace Verif

variable {E SF SG : Type} [NormedAddCommGroup E] [InnerProductSpace ℝ E]

/-- An operator object with attributes in `S`: `prox` gives the new attributes, the result and the contents of the caller's array afterwards. -/
structure MutOp (S E : Type) where
  call : S → E → Py CallVal
  prox : S → E → ℝ → S × Py E × E
  grad : S → E → S × Py E

/-- A `prox` call inside a function: an exception ends the function. -/
def MutOp.proxPy {S : Type} (f : MutOp S E) (s : S) (x : E) (τ : ℝ) : Py (S × E × E) :=
  (f.prox s x τ).2.1.map fun p => ((f.prox s x τ).1, p, (f.prox s x τ).2.2)

/-- A `grad` call inside a function. -/
def MutOp.gradPy {S : Type} (f : MutOp S E) (s : S) (x : E) : Py (S × E) :=
  (f.grad s x).2.map fun g => ((f.grad s x).1, g)

/-- A pure operator as an object without attributes. -/
noncomputable def ProxOp.toMut (f : ProxOp E) : MutOp Unit E := ⟨fun _ => f.call, fun _ x τ => ((), f.prox x τ, x), fun _ x => ((), f.grad x)⟩

/-- An object whose parameter is a function of the number of `prox` calls (`Model/Counters`): the attribute is `count`; `grad` is the one of the base class. -/
noncomputable def CountedClass.toMut (C : CountedClass E) : MutOp ℕ E := ⟨C.callAt, fun c x τ => ((C.prox c x τ).1, (C.prox c x τ).2, x), C.grad⟩

/-- An `L2` object (L2.py:194-306): `Model/L2` already returns the attributes and the contents of the argument. -/
noncomputable def L2.toMut {F C : Type} [NormedAddCommGroup F] [InnerProductSpace ℝ F] (ext : L2Ext E F C) (a : L2Args E F) : MutOp (L2State E C) E :=
  ⟨fun _ => L2.call a, L2.prox ext a, fun s x => (s, L2.grad a x)⟩

/-! ## ProximalPoint (primal.py:171-206) -/

/-- Body of the loop: `x = prox.prox(x, tau)`; the array that `prox` may have modified is no longer used. -/
noncomputable def PPMut.body (f : MutOp SF E) (τ : ℝ) (tol : Option ℝ) (_ : ℕ) (s : SF × PPState E) : Py ((SF × PPState E) × Bool) := do
  let r ← f.proxPy s.1 s.2.x τ
  let log := s.2.log ++ [r.2.1]
  match tol with
  | none => pure ((r.1, ⟨r.2.1, s.2.pf, log⟩), false)
  | some t => do
    let v ← f.call r.1 r.2.1
    let q ← pyRatio v.toReal s.2.pf
    pure ((r.1, ⟨r.2.1, some v.toReal, log⟩), decide (|1 - q| < t))

/-- `ProximalPoint`: attributes of the object afterwards and the loop variables. -/
noncomputable def PPMut (f : MutOp SF E) (sf : SF) (x0 : E) (τ : ℝ) (niter : ℕ) (tol : Option ℝ) : Py (SF × PPState E) :=
  forRange (PPMut.body f τ tol) niter 0 (sf, ⟨x0, none, []⟩)

/-! ## ProximalGradient (primal.py:324-449) -/

/-- `_backtracking` (primal.py:43-51): every trial calls `grad` twice (line 45 and line 40) and `prox` of `g` once. -/
noncomputable def backtrackMut (f : MutOp SF E) (g : MutOp SG E) (x : E) (epsg β : ℝ) : ℕ → SF → SG → ℝ → Option E → Py (SF × SG × E × ℝ)
  | 0, sf, sg, τ, z => match z with
    | none => .error .unboundLocalError
    | some z => .ok (sf, sg, z, τ)
  | n + 1, sf, sg, τ, _ => do
    let gx ← f.gradPy sf x
    let z ← g.proxPy sg (x - τ • gx.2) (epsg * τ)
    let fx ← f.call gx.1 x
    let gx' ← f.gradPy gx.1 x
    let fz ← f.call gx'.1 z.2.1
    if fz.toReal ≤ fx.toReal + ⟪gx'.2, z.2.1 - x⟫ + 1 / (2 * τ) * ‖z.2.1 - x‖ ^ 2 then
      .ok (gx'.1, z.1, z.2.1, τ)
    else
      backtrackMut f g x epsg β n gx'.1 z.1 (τ * β) (some z.2.1)

open Classical in
/-- The proximal step (primal.py:374-392): the arguments of `prox` are temporaries. -/
noncomputable def PGMut.step (f : MutOp SF E) (g : MutOp SG E) (a : PGArgs) (backtracking : Bool) (e : ℝ) (sf : SF) (sg : SG) (s : PGState E) :
    Py (SF × SG × E × ℝ) :=
  if backtracking then do
    let b ← backtrackMut f g s.y e a.β a.niterback sf sg s.tau none
    if a.eta = 1 then
      pure b
    else do
      let gx ← f.gradPy b.1 b.2.2.1
      let p ← g.proxPy b.2.1 (b.2.2.1 - b.2.2.2 • gx.2) (e * b.2.2.2)
      pure (gx.1, p.1, b.2.2.1 + a.eta • (p.2.1 - b.2.2.1), b.2.2.2)
  else if a.eta = 1 then do
    let gy ← f.gradPy sf s.y
    let x ← g.proxPy sg (s.y - s.tau • gy.2) (e * s.tau)
    pure (gy.1, x.1, x.2.1, s.tau)
  else do
    let gx ← f.gradPy sf s.x
    let p ← g.proxPy sg (s.x - s.tau • gx.2) (e * s.tau)
    pure (gx.1, p.1, s.x + a.eta • (p.2.1 - s.x), s.tau)

/-- Body of the loop (primal.py:374-444). -/
noncomputable def PGMut.body (f : MutOp SF E) (g : MutOp SG E) (a : PGArgs) (backtracking : Bool) (i : ℕ) (s : SF × SG × PGState E) : Py ((SF × SG × PGState E) × Bool) := do
  let e ← a.epsg.at i
  let r ← PGMut.step f g a backtracking e s.1 s.2.1 s.2.2
  let x := r.2.2.1
  let m := momentum a.acceleration i s.2.2.t
  let y := x + m.1 • (x - s.2.2.x)
  let log := s.2.2.log ++ [x]
  match a.tol with
  | none => pure ((r.1, r.2.1, ⟨x, y, m.2, r.2.2.2, s.2.2.pfg, log⟩), false)
  | some tol => do
    let pf ← f.call r.1 x
    let pg ← g.call r.2.1 x
    let pfg := pf.toReal + e * pg.toReal
    pure ((r.1, r.2.1, ⟨x, y, m.2, r.2.2.2, some pfg, log⟩), npRatioTest pfg s.2.2.pfg tol)

/-- `ProximalGradient` (primal.py:324-449). -/
noncomputable def PGMut (f : MutOp SF E) (g : MutOp SG E) (sf : SF) (sg : SG) (x0 : E) (a : PGArgs) : Py (SF × SG × PGState E) := do
  a.epsg.printCheck a.niter
  if a.acceleration = .other then
    .error .notImplementedError
  else
    let (bt, τ) := match a.tau with
      | none => (true, 1)
      | some τ => (a.backtracking, τ)
    forRange (PGMut.body f g a bt) a.niter 0 (sf, sg, ⟨x0, x0, 1, τ, none, []⟩)

/-! ## HQS (primal.py:1000-1053) -/

/-- Body of the loop (primal.py:1023-1037): both `prox` calls get a loop variable as argument, and the one of the second call is handed out. -/
noncomputable def HQSMut.body (f : MutOp SF E) (g : MutOp SG E) (tau : StepSpec) (gfirst : Bool) (i : ℕ) (s : SF × SG × SplitState E) :
    Py ((SF × SG × SplitState E) × Bool) := do
  let τ ← tau.at i
  if gfirst then do
    let z ← g.proxPy s.2.1 s.2.2.x τ
    let x ← f.proxPy s.1 z.2.1 τ
    pure ((x.1, z.1, ⟨x.2.1, x.2.2, s.2.2.u, s.2.2.log ++ [(x.2.1, x.2.2)]⟩), false)
  else do
    let x ← f.proxPy s.1 s.2.2.z τ
    let z ← g.proxPy s.2.1 x.2.1 τ
    pure ((x.1, z.1, ⟨z.2.2, z.2.1, s.2.2.u, s.2.2.log ++ [(z.2.2, z.2.1)]⟩), false)

/-- `HQS` (primal.py:1000-1053). -/
noncomputable def HQSMut (f : MutOp SF E) (g : MutOp SG E) (sf : SF) (sg : SG) (x0 z0 : Option E) (tau : StepSpec) (niter : ℕ) (gfirst : Bool) :
    Py (SF × SG × SplitState E) := do
  let p ← x0z0Init x0 z0
  forRange (HQSMut.body f g tau gfirst) niter 0 (sf, sg, ⟨p.1, p.2, 0, []⟩)

/-- Contents of the caller's arrays `x0` and `z0`, both given, after a call of `HQS` with scalar `tau`: `_x0z0_init` returns them without a copy (primal.py:92-103), the
first `prox` call of the first iteration gets one of them, and all later calls get arrays made by the operators. -/
noncomputable def HQSMut.callerArrays (f : MutOp SF E) (g : MutOp SG E) (sf : SF) (sg : SG) (x0 z0 : E) (τ : ℝ) (niter : ℕ) (gfirst : Bool) : E × E :=
  if niter = 0 then (x0, z0)
  else if gfirst then ((g.prox sg x0 τ).2.2, z0)
  else (x0, (f.prox sf z0 τ).2.2)

/-! ## ADMM (primal.py:1164-1210) -/

/-- Body of ADMM (primal.py:1183-1197): the arguments of `prox` are temporaries. -/
noncomputable def ADMMMut.body (f : MutOp SF E) (g : MutOp SG E) (τ : ℝ) (gfirst : Bool) (_ : ℕ) (s : SF × SG × SplitState E) : Py ((SF × SG × SplitState E) × Bool) := do
  if gfirst then do
    let z ← g.proxPy s.2.1 (s.2.2.x + s.2.2.u) τ
    let x ← f.proxPy s.1 (z.2.1 - s.2.2.u) τ
    pure ((x.1, z.1, ⟨x.2.1, z.2.1, s.2.2.u + x.2.1 - z.2.1, s.2.2.log ++ [(x.2.1, z.2.1)]⟩), false)
  else do
    let x ← f.proxPy s.1 (s.2.2.z - s.2.2.u) τ
    let z ← g.proxPy s.2.1 (x.2.1 + s.2.2.u) τ
    pure ((x.1, z.1, ⟨x.2.1, z.2.1, s.2.2.u + x.2.1 - z.2.1, s.2.2.log ++ [(x.2.1, z.2.1)]⟩), false)

/-- `ADMM` (primal.py:1164-1210). -/
noncomputable def ADMMMut (f : MutOp SF E) (g : MutOp SG E) (sf : SF) (sg : SG) (x0 z0 : Option E) (τ : ℝ) (niter : ℕ) (gfirst : Bool) : Py (SF × SG × SplitState E) := do
  let p ← x0z0Init x0 z0
  forRange (ADMMMut.body f g τ gfirst) niter 0 (sf, sg, ⟨p.1, p.2, 0, []⟩)

/-! ## DouglasRachfordSplitting (primal.py:1785-1811) -/

/-- Body of the loop (primal.py:1787-1799): the first `prox` call gets the loop variable `y`, which is used again. -/
noncomputable def DRMut.body (f : MutOp SF E) (g : MutOp SG E) (τ η : ℝ) (gfirst : Bool) (_ : ℕ) (s : SF × SG × DRState E) : Py ((SF × SG × DRState E) × Bool) := do
  if gfirst then do
    let x ← g.proxPy s.2.1 s.2.2.y τ
    let p ← f.proxPy s.1 ((2 : ℝ) • x.2.1 - x.2.2) τ
    let y := x.2.2 + η • (p.2.1 - x.2.1)
    pure ((p.1, x.1, ⟨some x.2.1, y, s.2.2.log ++ [(x.2.1, y)]⟩), false)
  else do
    let x ← f.proxPy s.1 s.2.2.y τ
    let p ← g.proxPy s.2.1 ((2 : ℝ) • x.2.1 - x.2.2) τ
    let y := x.2.2 + η • (p.2.1 - x.2.1)
    pure ((x.1, p.1, ⟨some x.2.1, y, s.2.2.log ++ [(x.2.1, y)]⟩), false)

/-- `DouglasRachfordSplitting` (primal.py:1785-1811). -/
noncomputable def DRMut (f : MutOp SF E) (g : MutOp SG E) (sf : SF) (sg : SG) (x0 : E) (τ η : ℝ) (niter : ℕ) (gfirst : Bool) : Py (SF × SG × E × E × List (E × E)) := do
  let s ← forRange (DRMut.body f g τ η gfirst) niter 0 (sf, sg, ⟨none, x0, []⟩)
  match s.2.2.x with
  | none => .error .unboundLocalError
  | some x => pure (s.1, s.2.1, x, s.2.2.y, s.2.2.log)

/-! ## PPXA (primal.py:1929-1973) -/

/-- Body of PPXA (primal.py:1947-1965): `y[i]` is a view of `y`, so an operator that writes into its argument changes `y`. -/
noncomputable def PPXAMut.body {m : ℕ} (fs : Fin m → MutOp SF E) (w : Fin m → ℝ) (τ η : ℝ) (tol : ℝ) (mx : E → ℝ) (_ : ℕ) (s : (Fin m → SF) × PPXAState E m) :
    Py (((Fin m → SF) × PPXAState E m) × Bool) := do
  let r ← mapPy fun i => if w i = 0 then .error .nanResult else (fs i).proxPy (s.1 i) (s.2.y i) (τ / w i)
  let pn := ∑ i, w i • (r i).2.1
  let y := fun i => (r i).2.2 + η • ((2 : ℝ) • pn - s.2.x - (r i).2.1)
  let x := s.2.x + η • (pn - s.2.x)
  if mx (x - s.2.xold) < tol then
    pure ((fun i => (r i).1, ⟨x, s.2.xold, y, s.2.log ++ [x]⟩), true)
  else
    pure ((fun i => (r i).1, ⟨x, x, y, s.2.log ++ [x]⟩), false)

/-- `PPXA` with weights (primal.py:1929-1973). -/
noncomputable def PPXAMut {m : ℕ} (fs : Fin m → MutOp SF E) (sf : Fin m → SF) (w : Fin m → ℝ) (y0 : Fin m → E) (τ η : ℝ) (niter : ℕ) (tol : ℝ) (mx : E → ℝ) :
    Py ((Fin m → SF) × PPXAState E m) :=
  if m = 0 then .error .nanResult
  else forRange (PPXAMut.body fs w τ η tol mx) niter 0 (sf, ⟨(1 / (m : ℝ)) • ∑ i, y0 i, (1 / (m : ℝ)) • ∑ i, y0 i, y0, []⟩)

end Verif
