import Verif.Model.L2
import Verif.Model.Proximal
import Verif.Model.ProjOps

/-!
# Operators whose parameters are changed after they were built

The parameters of an operator are attributes of the object, so they can be assigned (`f.sigma = 2.`), and an array that was handed to the constructor
is kept by reference, so the caller can write into it (`b[:] = ...`).  The constructors derive other attributes from the parameters: a projection object, a box, the product `OpTb`.
Here an object is the record of its attributes, with a method reading exactly the attributes the code reads, and the events of its life are listed.  The other modules describe objects whose parameters do not change.
-/

open scoped RealInnerProductSpace

namespace Verif

variable {ι κ : Type} [Fintype ι] [Fintype κ]
variable {E F C : Type} [NormedAddCommGroup E] [InnerProductSpace ℝ E] [NormedAddCommGroup F] [InnerProductSpace ℝ F]

/-! ## Indicators: an operator and the projection object it builds -/

/-- A parameter that the constructor stores in the operator (`attr`, read by `__call__`) and hands to the projection object (`sub`, read by `prox`), as in proximal/Box.py:34-36, proximal/Euclidean.py:88-90,
proximal/AffineSet.py:41-43, proximal/HalfSpace.py:31-33, proximal/L1.py:191-194, proximal/Simplex.py:43-56.  `shared`: both still name the same array. -/
structure ParamObj (P : Type) where
  attr : P
  sub : P
  shared : Bool

/-- What can happen to a parameter: assignment of the attribute, or writing into the array the attribute names (arrays only). -/
inductive ParamEvent (P : Type)
  | assign (v : P)
  | write (v : P)

/-- After the constructor. -/
def ParamObj.init {P : Type} (p : P) : ParamObj P := ⟨p, p, true⟩

/-- An assignment binds the attribute of the operator to a new object and leaves the projection object alone; a write is seen through every name of the array. -/
def ParamObj.step {P : Type} (o : ParamObj P) : ParamEvent P → ParamObj P
  | .assign v => ⟨v, o.sub, false⟩
  | .write v => ⟨v, if o.shared then v else o.sub, o.shared⟩

/-- After a sequence of events. -/
def ParamObj.after {P : Type} (p : P) (evs : List (ParamEvent P)) : ParamObj P := evs.foldl ParamObj.step (ParamObj.init p)

/-- `Box` (proximal/Box.py:28-43): `__call__` reads `self.lower`, `self.upper`, `prox` calls `self.box`. -/
noncomputable def BoxObj (lower upper : ParamObj (ι → Bound)) : ProxOp (Vec ι) :=
  { Box lower.attr upper.attr with prox? := (Box lower.sub upper.sub).prox? }

/-- `EuclideanBall` (proximal/Euclidean.py:86-97): `prox` calls `self.ball`. -/
noncomputable def EuclideanBallObj (center : ParamObj E) (radius : ParamObj ℝ) : ProxOp E :=
  { EuclideanBall center.attr radius.attr with prox? := (EuclideanBall center.sub radius.sub).prox? }

/-- `AffineSet` (proximal/AffineSet.py:39-53): `prox` calls `self.affine`. -/
noncomputable def AffineSetObj (cg : (Vec κ → Vec κ) → Vec κ → Vec κ) (Op : LinOp E (Vec κ)) (b : ParamObj (Vec κ)) : ProxOp E :=
  { AffineSet cg Op b.attr with prox? := (AffineSet cg Op b.sub).prox? }

/-- `L1Ball` (proximal/L1.py:182-201): `prox` calls `self.ball`. -/
noncomputable def L1BallObj (bisect : (ℝ → ℝ) → ℝ → ℝ → ℝ) (fuel : ℕ) (tol : ℝ) (radius : ParamObj ℝ) : ProxOp (Vec ι) :=
  { L1Ball bisect fuel radius.attr tol with prox? := (L1Ball bisect fuel radius.sub tol : ProxOp (Vec ι)).prox? }

/-- `_Simplex` (proximal/Simplex.py:28-89, `dims=None`): `prox` calls `self.simplex`. -/
noncomputable def SimplexObj (bisect : (ℝ → ℝ) → ℝ → ℝ → ℝ) (fuel : ℕ) (tol : ℝ) (callFlag : Bool) (radius : ParamObj ℝ) : ProxOp (Vec ι) :=
  { Simplex bisect fuel radius.attr tol callFlag with prox? := (Simplex bisect fuel radius.sub tol callFlag : ProxOp (Vec ι)).prox? }

/-- `_Simplex_numba` (proximal/Simplex.py:92-135, `dims=None`): `prox` reads `self.radius`, `self.simplex` is not used. -/
noncomputable def SimplexNumbaObj (fuel : ℕ) (tol : ℝ) (maxiter : ℕ) (ftol xtol : ℝ) (callFlag : Bool) (radius : ParamObj ℝ) : ProxOp (Vec ι) :=
  SimplexNumba fuel radius.attr tol maxiter ftol xtol callFlag

/-- The radius of `L0Ball` (proximal/L0.py:135-164): `radius` and `self.ball.radius`. -/
structure L0BallObj where
  radius : ℕ
  ball : ℕ

/-- The constructor (proximal/L0.py:135-143). -/
def L0BallObj.init (r : ℕ) : L0BallObj := ⟨r, r⟩

/-- `prox` (proximal/L0.py:158-164): the radius is copied into the projection object before every use. -/
noncomputable def L0BallObj.prox (argsort : Vec ι → List ι) (o : L0BallObj) (x : Vec ι) (τ : ℝ) : L0BallObj × Py (Vec ι) :=
  if τ ≤ 0 then (o, .error .valueError) else
    let o : L0BallObj := ⟨o.radius, o.radius⟩
    (o, .ok (l0BallProj o.ball (argsort x) x))

/-- Events of an `L0Ball`. -/
inductive L0Event (ι : Type) [Fintype ι]
  | radius (r : ℕ)
  | prox (x : Vec ι) (τ : ℝ)

/-- One event. -/
noncomputable def L0BallObj.step (argsort : Vec ι → List ι) (o : L0BallObj) : L0Event ι → L0BallObj
  | .radius r => ⟨r, o.ball⟩
  | .prox x τ => (o.prox argsort x τ).1

/-- `HalfSpace` (proximal/HalfSpace.py:29-40) with its `HalfSpaceProj` (projection/HalfSpace.py:41-53), which stores `w_norm_sq` besides `w` and `b`. -/
structure HalfSpaceObj (E : Type) where
  w : ParamObj E
  b : ParamObj ℝ
  wNormSq : ℝ

/-- The constructors (proximal/HalfSpace.py:31-33, projection/HalfSpace.py:42-44). -/
noncomputable def HalfSpaceObj.init (w : E) (b : ℝ) : HalfSpaceObj E := ⟨.init w, .init b, ⟪w, w⟫⟩

/-- Events concerning `w` and `b`. -/
noncomputable def HalfSpaceObj.step (o : HalfSpaceObj E) : ParamEvent E ⊕ ℝ → HalfSpaceObj E
  | .inl e => { o with w := o.w.step e }
  | .inr v => { o with b := o.b.step (.assign v) }

open Classical in
/-- `HalfSpace.__call__` (proximal/HalfSpace.py:35-36). -/
noncomputable def HalfSpaceObj.call (o : HalfSpaceObj E) (x : E) : Py CallVal := .ok (.bool (decide (⟪o.w.attr, x⟫ ≤ o.b.attr)))

/-- `HalfSpace.prox` (proximal/HalfSpace.py:38-40, projection/HalfSpace.py:46-53): the stored square of the norm is used. -/
noncomputable def HalfSpaceObj.prox (o : HalfSpaceObj E) (x : E) (τ : ℝ) : Py E :=
  checkTau τ (if ⟪o.w.sub, x⟫ ≤ o.b.sub then .ok x
    else if o.wNormSq = 0 then .error .nanResult
    else .ok (x - ((⟪o.w.sub, x⟫ - o.b.sub) / o.wNormSq) • o.w.sub))

/-! ## L1 -/

/-- The attributes of `L1` (proximal/L1.py:107-120), constant scalar `sigma`: `isDual` says whether `self.gdual` is an array, `lo`, `up` are the bounds of `self.box`. -/
structure L1Obj (ι : Type) [Fintype ι] where
  sigma : ℝ
  g : Option (Vec ι)
  isDual : Bool
  lo : ℝ
  up : ℝ

/-- The constructor (proximal/L1.py:107-120). -/
def L1Obj.init (σ : ℝ) (g : Option (Vec ι)) : L1Obj ι := ⟨σ, g, g.isSome, -σ, σ⟩

/-- Assignments to `sigma` and `g`; writing into the array `g` has the effect of assigning it. -/
inductive L1Event (ι : Type) [Fintype ι]
  | sigma (v : ℝ)
  | g (v : Option (Vec ι))

/-- One event. -/
def L1Obj.step (o : L1Obj ι) : L1Event ι → L1Obj ι
  | .sigma v => { o with sigma := v }
  | .g v => { o with g := v }

/-- The methods (proximal/L1.py:122-154): `__call__` and `prox` read `sigma` and `g`, `proxdual` reads `gdual` and `box`. -/
noncomputable def L1Obj.op (o : L1Obj ι) : ProxOp (Vec ι) :=
  { L1 o.sigma o.g with
    proxdual? := some fun x τ => checkTau τ (if o.isDual then ProxOp.moreauStep (L1 o.sigma o.g).prox x τ
      else .ok (boxProj (fun _ => some o.lo) (fun _ => some o.up) x)) }

/-- `L1` with an array `sigma`, one value per column (proximal/L1.py:116-117): `self.box` holds `-sigma`, a new array, and `sigma` itself. -/
structure L1ColsObj (κ : Type) where
  sigma : κ → ℝ
  lo : κ → ℝ
  up : κ → ℝ

/-- The constructor (proximal/L1.py:107-120). -/
def L1ColsObj.init (σ : κ → ℝ) : L1ColsObj κ := ⟨σ, fun j => -σ j, σ⟩

/-- Writing into the array `sigma` (the object has not been assigned another one): the upper bounds are the same array. -/
def L1ColsObj.write (o : L1ColsObj κ) (v : κ → ℝ) : L1ColsObj κ := { o with sigma := v, up := v }

/-- `proxdual` without `g` (proximal/L1.py:148-154). -/
noncomputable def L1ColsObj.proxdual (o : L1ColsObj κ) (x : Vec (ι × κ)) (τ : ℝ) : Py (Vec (ι × κ)) :=
  checkTau τ (.ok (boxProj (fun ij => some (o.lo ij.2)) (fun ij => some (o.up ij.2)) x))

/-- `prox` without `g` (proximal/L1.py:137-146). -/
noncomputable def L1ColsObj.prox (o : L1ColsObj κ) (x : Vec (ι × κ)) (τ : ℝ) : Py (Vec (ι × κ)) := (L1cols o.sigma none).prox x τ

/-! ## Huber -/

/-- `Huber` (proximal/Huber.py:45-49): `alpha` and the `sigma` of `self.l2`. -/
structure HuberObj where
  alpha : ℝ
  l2sigma : ℝ

/-- The constructor (proximal/Huber.py:45-49), `alpha` not zero. -/
noncomputable def HuberObj.init (α : ℝ) : HuberObj := ⟨α, 1 / α⟩

/-- `f.alpha = v`. -/
def HuberObj.assign (o : HuberObj) (v : ℝ) : HuberObj := { o with alpha := v }

/-- `prox` (proximal/Huber.py:59-71): the mask reads `alpha`, the quadratic part the `sigma` of `self.l2`. -/
noncomputable def HuberObj.prox (o : HuberObj) (x : Vec ι) (τ : ℝ) : Py (Vec ι) :=
  checkTau τ (.ok (vmk fun i => if |x i| > o.alpha then softScalar (x i) (τ * 1) else x i / (1 + τ * o.l2sigma)))

/-! ## L2 -/

/-- `L2` (proximal/L2.py:137-192): its parameters, `OpTb` (absent unless `Op` and `b` are given and the system is solved through the normal equations or directly), the attributes that the calls change, and whether `x0` is the array returned by the
latest call (L2.py:283-284). -/
structure L2Obj (E F C : Type) [NormedAddCommGroup E] [InnerProductSpace ℝ E] [NormedAddCommGroup F] [InnerProductSpace ℝ F] where
  args : L2Args E F
  opTb : Option E
  st : L2State E C
  kept : Bool

/-- `OpTb` (L2.py:183-189). -/
noncomputable def L2Obj.dataTerm (a : L2Args E F) : Option E := match a.data with
  | .opB Op e b => if e || a.solver.normaleqs then some (a.σ • Op.rmatvec b) else none
  | _ => none

/-- The constructor (L2.py:137-192). -/
noncomputable def L2Obj.init (a : L2Args E F) (x0 : Option E) : Py (L2Obj E F C) := do
  let s ← L2.init a x0
  pure ⟨a, L2Obj.dataTerm a, s, false⟩

/-- `prox` (L2.py:205-295) with the stored `OpTb`; `AttributeError` when it was never computed.  For an explicit operator `self.ATA` is missing in the same cases. -/
noncomputable def L2Obj.prox (ext : L2Ext E F C) (o : L2Obj E F C) (x : E) (τ : ℝ) : L2Obj E F C × Py E × E :=
  let a := o.args
  let s := { o.st with count := o.st.count + 1 }
  if τ ≤ 0 then ({ o with st := s }, .error .valueError, x) else
  match a.data with
  | .opB Op explicit _ =>
    if explicit || a.solver.normaleqs then
      match o.opTb with
      | none => ({ o with st := s }, .error .attributeError, x)
      | some t =>
        let y := L2.subQ a (x + τ • t) τ
        let warm (s : L2State E C) (z : E) : L2State E C := if a.warm then { s with x0 := some z } else s
        if explicit then
          if a.densesolver ≠ .factorize then
            let z := ext.div a.densesolver (Op.regNormal (τ * a.σ)) y
            (⟨a, o.opTb, warm s z, a.warm⟩, .ok z, x)
          else
            let s' := if s.tausigma ≠ τ * a.σ then
                { s with tausigma := τ * a.σ, cl := some (ext.choFactor (Op.regNormal (τ * a.σ))) }
              else s
            match s'.cl with
            | none => ({ o with st := s' }, .error .attributeError, x)
            | some cl =>
              let z := ext.choSolve cl y
              (⟨a, o.opTb, warm s' z, a.warm⟩, .ok z, x)
        else
          let z := if a.solver = .legacy then ext.lsqr (Op.regNormal (τ * a.σ)) y (a.niter.get s.count) s.x0
            else ext.cg (Op.regNormal (τ * a.σ)) y (a.niter.get s.count) s.x0
          (⟨a, o.opTb, warm s z, a.warm⟩, .ok z, x)
    else
      let r := L2.proxBody ext a s x τ
      (⟨a, o.opTb, r.1, a.warm⟩, r.2)
  | _ =>
    let r := L2.proxBody ext a s x τ
    ({ o with st := r.1 }, r.2)

/-- `__call__` (L2.py:194-203): reads the parameters. -/
noncomputable def L2Obj.call (o : L2Obj E F C) (x : E) : Py CallVal := L2.call o.args x

/-- `grad` (L2.py:297-306): reads the parameters. -/
noncomputable def L2Obj.grad (o : L2Obj E F C) (x : E) : Py E := L2.grad o.args x

/-- Events of an `L2`: assignment of `sigma`, `alpha`, `q`, or of `b` (which lives in the data space `F` if `Op` was given and in the model space `E` if not), writing into the arrays `b` or `q` (same effect),
writing into the array returned by the latest call, and calls of `prox`. -/
inductive L2Event (E F : Type)
  | sigma (v : ℝ)
  | alpha (v : ℝ)
  | q (v : Option E)
  | dataF (b : F)
  | dataE (b : E)
  | writeResult (w : E)
  | prox (x : E) (τ : ℝ)

/-- The effect of assigning `b`. -/
def L2Data.setB (d : L2Data E F) (b : F) : L2Data E F := match d with
  | .opB Op e _ => .opB Op e b
  | .opOnly Op e => .opB Op e b
  | d => d

/-- The effect of assigning `b` for an operator without `Op`. -/
def L2Data.setBE (d : L2Data E F) (b : E) : L2Data E F := match d with
  | .bOnly _ => .bOnly b
  | .nothing => .bOnly b
  | d => d

/-- One event. -/
noncomputable def L2Obj.step (ext : L2Ext E F C) (o : L2Obj E F C) : L2Event E F → L2Obj E F C
  | .sigma v => { o with args := { o.args with σ := v } }
  | .alpha v => { o with args := { o.args with α := v } }
  | .q v => { o with args := { o.args with q := v } }
  | .dataF b => { o with args := { o.args with data := o.args.data.setB b } }
  | .dataE b => { o with args := { o.args with data := o.args.data.setBE b } }
  | .writeResult w => if o.kept then { o with st := { o.st with x0 := some w } } else o
  | .prox x τ => (o.prox ext x τ).1

/-- After a sequence of events. -/
noncomputable def L2Obj.after (ext : L2Ext E F C) (o : L2Obj E F C) (evs : List (L2Event E F)) : L2Obj E F C := evs.foldl (L2Obj.step ext) o

/-! ## Quadratic -/

/-- `Quadratic` without `Op` after its gradient was asked for and the caller wrote `w` into the array received: `grad` returns `self.b` itself (Quadratic.py:135-136). -/
def quadWriteGrad (d : QuadData E) (w : E) : QuadData E := match d with
  | .bOnly _ => .bOnly w
  | d => d

end Verif
