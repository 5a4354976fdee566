import Verif.Model.NonConvex
import Verif.Model.ProjOps
import Verif.Model.Intersection
import Verif.Model.Dykstra
import Verif.Model.Stack
import Verif.Model.SR3
import Mathlib.Algebra.Order.Round

/-!
# Arrays with a dtype

The other modules take the entries of an array to be real numbers.  A numpy array of integers differs in two operations: an assignment to entries, `a[mask] = v`, drops the
fractional part of `v` without a warning, and an in-place operation with an array of floats, `a += v`, raises `UFuncTypeError` (a `TypeError`).  Here an array carries its dtype, and
the functions of the library that allocate an array like their input, copy it, or work in place are followed with it.  Arithmetic expressions give a new array: of floats, unless all parts are integers.
-/

open scoped RealInnerProductSpace

namespace Verif

variable {ι κ : Type} [Fintype ι] [Fintype κ]

/-- The dtype of an array of real numbers: integers or floats. -/
inductive DT
  | int
  | float
  deriving DecidableEq

/-- numpy's promotion of two dtypes. -/
def DT.join : DT → DT → DT
  | .int, .int => .int
  | _, _ => .float

/-- The integer next to `v` in the direction of zero: the value stored when a float is assigned to an entry of an integer array. -/
noncomputable def truncZ (v : ℝ) : ℝ := if 0 ≤ v then (⌊v⌋ : ℝ) else (⌈v⌉ : ℝ)

/-- The value stored by an assignment to an entry. -/
noncomputable def DT.cast : DT → ℝ → ℝ
  | .int, v => truncZ v
  | .float, v => v

/-- A numpy array of real numbers with its dtype. -/
structure Arr (ι : Type) [Fintype ι] where
  dt : DT
  val : Vec ι

namespace Arr

/-- `np.zeros_like(a)`. -/
noncomputable def zerosLike (a : Arr ι) : Arr ι := ⟨a.dt, 0⟩

open Classical in
/-- `a[mask] = v[mask]`. -/
noncomputable def put (a : Arr ι) (mask : ι → Prop) (v : ι → ℝ) : Arr ι := ⟨a.dt, vmk fun i => if mask i then a.dt.cast (v i) else a.val i⟩

/-- `a + b`. -/
noncomputable def add (a b : Arr ι) : Arr ι := ⟨a.dt.join b.dt, a.val + b.val⟩

/-- `a - b`. -/
noncomputable def sub (a b : Arr ι) : Arr ι := ⟨a.dt.join b.dt, a.val - b.val⟩

/-- `2 * a`: a Python int does not change the dtype. -/
noncomputable def twice (a : Arr ι) : Arr ι := ⟨a.dt, (2 : ℝ) • a.val⟩

/-- `c * a` for a float `c`. -/
noncomputable def scale (c : ℝ) (a : Arr ι) : Arr ι := ⟨.float, c • a.val⟩

open Classical in
/-- `for b in bs: a += b`. -/
noncomputable def iaddAll {m : ℕ} (a : Arr ι) (bs : Fin m → Arr ι) : Py (Arr ι) :=
  if a.dt = .int ∧ ∃ j, (bs j).dt = .float then .error .typeError else .ok ⟨a.dt, a.val + ∑ j, (bs j).val⟩

/-- `a += b`. -/
noncomputable def iadd (a b : Arr ι) : Py (Arr ι) := a.iaddAll (m := 1) fun _ => b

/-- `a -= b`. -/
noncomputable def isub (a b : Arr ι) : Py (Arr ι) := a.iadd ⟨b.dt, -b.val⟩

end Arr

/-- An operator on arrays with a dtype. -/
structure TOp (ι : Type) [Fintype ι] where
  call : Arr ι → Py CallVal
  prox : Arr ι → ℝ → Py (Arr ι)
  grad : Arr ι → Py (Arr ι)

/-- The operator object of a class whose methods are arithmetic expressions with a float in them (for instance `L1.prox`, L1.py:116-124, or `L2.prox` without `q`, L2.py:290-294). -/
noncomputable def ProxOp.toT (f : ProxOp (Vec ι)) : TOp ι where
  call := fun a => f.call a.val
  prox := fun a τ => (f.prox a.val τ).map fun v => ⟨.float, v⟩
  grad := fun a => (f.grad a.val).map fun v => ⟨.float, v⟩

/-! ## Operators with masked assignments -/

/-- `Huber.__call__` (Huber.py:51-57): `h` has the dtype of `x`. -/
noncomputable def HuberT.call (α : ℝ) (a : Arr ι) : Py CallVal :=
  let mask := fun i => |a.val i| > α
  let h := (a.zerosLike.put (fun i => ¬ mask i) fun i => |a.val i| ^ 2 / (2 * α)).put mask fun i => |a.val i| - α / 2
  .ok (.num (∑ i, h.val i))

/-- `Huber.prox` (Huber.py:60-71): `y` has the dtype of `x`. -/
noncomputable def HuberT.prox (α : ℝ) (a : Arr ι) (τ : ℝ) : Py (Arr ι) :=
  let mask := fun i => |a.val i| > α
  checkTau τ (.ok ((a.zerosLike.put (fun i => ¬ mask i) fun i => a.val i / (1 + τ * (1 / α))).put mask fun i => softScalar (a.val i) (τ * 1)))

/-- `SCAD.elementwise` and `__call__` (SCAD.py:63-77): `f` has the dtype of `x`. -/
noncomputable def SCADT.call (σ a : ℝ) (x : Arr ι) : Py CallVal :=
  let f := ((x.zerosLike.put (fun i => |x.val i| ≤ σ) fun i => σ * |x.val i|).put
    (fun i => σ < |x.val i| ∧ |x.val i| ≤ a * σ) fun i => (-(x.val i ^ 2) + 2 * a * σ * |x.val i| - σ ^ 2) / (2 * (a - 1))).put
    (fun i => |x.val i| > a * σ) fun _ => (a + 1) * σ ^ 2 / 2
  .ok (.num (∑ i, f.val i))

/-- `SCAD.prox` (SCAD.py:80-90): `theta` is a copy of `x`. -/
noncomputable def SCADT.prox (σ a : ℝ) (x : Arr ι) (τ : ℝ) : Py (Arr ι) :=
  let first := σ * (a - 1 - τ + τ * a) / (a - 1)
  checkTau τ (.ok ((x.put (fun i => |x.val i| ≤ first) fun i => npsign (x.val i) * max 0 (|x.val i| - σ * τ)).put
    (fun i => first < |x.val i| ∧ |x.val i| ≤ a * σ) fun i => ((a - 1) * x.val i - npsign (x.val i) * a * σ * τ) / (a - 1 - τ)))

/-- The value written by `Log.prox` at a selected entry (Log.py:97-102), before the sign. -/
noncomputable def logPick (σ γ τ x : ℝ) : ℝ :=
  let disc := (γ * |x| - 1) ^ 2 - 4 * γ * (τ * σ / Real.log (γ + 1) * γ - |x|)
  let r := (γ * |x| - 1 + √disc) / (2 * γ)
  let val := fun z => τ * logElem σ γ z + (z - |x|) ^ 2 / 2
  if val 0 ≤ val r then 0 else r

/-- `Log.prox` (Log.py:91-104) for `gamma > 0`: `out` has the dtype of `x`; `out *= np.sign(x)` is a product of arrays of the same dtype. -/
noncomputable def LogT.prox (σ γ : ℝ) (x : Arr ι) (τ : ℝ) : Py (Arr ι) :=
  let out := x.zerosLike.put (fun i => (γ * |x.val i| - 1) ^ 2 - 4 * γ * (τ * σ / Real.log (γ + 1) * γ - |x.val i|) ≥ 0) fun i => logPick σ γ τ (x.val i)
  checkTau τ (.ok ⟨out.dt, vmk fun i => out.val i * npsign (x.val i)⟩)

/-- `Log1.prox` (Log.py:164-190) on real arrays, `sigma >= 0`: `x1` has the dtype of `x`. -/
noncomputable def Log1T.prox (σ δ : ℝ) (x : Arr ι) (τ : ℝ) : Py (Arr ι) :=
  let tau1 := σ * τ
  let thresh := √(2 * tau1) - δ
  checkTau τ (.ok ((x.zerosLike.put (fun i => x.val i > thresh) fun i => 0.5 * (x.val i - δ + √(|x.val i + δ| ^ 2 - 2 * tau1))).put
    (fun i => x.val i < -thresh) fun i => 0.5 * (x.val i + δ - √(|x.val i - δ| ^ 2 - 2 * tau1))))

/-- The stationary point of `ETP.prox` (ETP.py:80-82). -/
noncomputable def etpStat (lambertw : ℝ → ℝ) (σ γ τ x : ℝ) : ℝ :=
  npsign x * lambertw (-(Real.exp (-|x| * γ) * (τ * σ / (1 - Real.exp (-γ))) * γ ^ 2)) / γ + x

/-- `ETP.prox` (ETP.py:73-91): `out` has the dtype of `x`. -/
noncomputable def ETPT.prox (lambertw : ℝ → ℝ) (σ γ : ℝ) (x : Arr ι) (τ : ℝ) : Py (Arr ι) :=
  checkTau τ (.ok (x.zerosLike.put (fun i =>
      Real.exp (-|x.val i| * γ) * (τ * σ / (1 - Real.exp (-γ))) * γ ^ 2 ≤ Real.exp (-1) ∧
      τ * etpElem σ γ (etpStat lambertw σ γ τ (x.val i)) + (etpStat lambertw σ γ τ (x.val i) - x.val i) ^ 2 / 2 < x.val i ^ 2 / 2)
    fun i => etpStat lambertw σ γ τ (x.val i)))

/-- The local minimum found by `Geman.prox` for one entry (Geman.py:68-71). -/
noncomputable def gemanFound (σ γ τ x : ℝ) : Option ℝ :=
  gemanLocalMin (2 * γ - |x|) (γ ^ 2 - 2 * γ * |x|) (γ * σ * τ - γ ^ 2 * |x|)

/-- `Geman.prox` (Geman.py:66-78): `out` has the dtype of `x`. -/
noncomputable def GemanT.prox (σ γ : ℝ) (x : Arr ι) (τ : ℝ) : Py (Arr ι) :=
  checkTau τ (.ok (x.zerosLike.put (fun i => ∃ r, gemanFound σ γ τ (x.val i) = some r ∧ τ * gemanElem σ γ r + (r - |x.val i|) ^ 2 / 2 < |x.val i| ^ 2 / 2)
    fun i => npsign (x.val i) * (gemanFound σ γ τ (x.val i)).getD 0))

open Classical in
/-- `QuadraticEnvelopeCard.prox` (QuadraticEnvelope.py:88-95) for `mu >= 0`: `r = np.abs(x)` has the dtype of `x`; the product with `np.sign(x)` is a new array. -/
noncomputable def QECT.prox (μ : ℝ) (x : Arr ι) (τ : ℝ) : Py (Arr ι) :=
  let r : Arr ι := ⟨x.dt, vmk fun i => |x.val i|⟩
  let idx := fun i => |x.val i| < √(2 * μ)
  let r := if τ ≥ 1 then r.put idx fun _ => 0 else r.put idx fun i => max 0 ((|x.val i| - τ * √(2 * μ)) / (1 - τ))
  checkTau τ (.ok ⟨r.dt, vmk fun i => r.val i * npsign (x.val i)⟩)

/-- `_hardthreshold` (L0.py:37-40): a copy of `x`, zeros written to it. -/
noncomputable def hardthresholdT (x : Arr ι) (thresh : ℝ) : Arr ι := x.put (fun i => |x.val i| ≤ thresh) fun _ => 0

/-- `L0.prox` (L0.py:104-107) with a constant `sigma`. -/
noncomputable def L0T.prox (σ : ℝ) (x : Arr ι) (τ : ℝ) : Py (Arr ι) := checkTau τ (.ok (hardthresholdT x (τ * σ)))

/-- `L0Ball.prox` (L0.py:156-160, projection/L0.py:34-38): zeros are written at the first positions of the sorted indices of a copy. -/
noncomputable def L0BallT.prox (argsort : Vec ι → List ι) (radius : ℕ) (x : Arr ι) (τ : ℝ) : Py (Arr ι) :=
  checkTau τ (.ok (x.put (fun i => i ∈ sliceMinus (argsort x.val) radius) fun _ => 0))

/-- `L10Ball.prox` (L0.py:218-222, projection/L0.py:71-75): zeros are written to columns of a copy. -/
noncomputable def L10BallT.prox (argsort : (κ → ℝ) → List κ) (radius : ℕ) (x : Arr (ι × κ)) (τ : ℝ) : Py (Arr (ι × κ)) :=
  checkTau τ (.ok (x.put (fun ij => ij.2 ∈ sliceMinus (argsort (colL1 x.val)) radius) fun _ => 0))

open Classical in
/-- `_Simplex.prox` with `dims` (Simplex.py:80-89): `y` has the dtype of `x` and every row of it is assigned. -/
noncomputable def SimplexRowsT.prox (bisect : (ℝ → ℝ) → ℝ → ℝ → ℝ) (fuel : ℕ) (radius : ℝ) (x : Arr (ι × κ)) (τ : ℝ) : Py (Arr (ι × κ)) :=
  checkTau τ (
    if ∃ i, simplexProj bisect fuel radius (vmk fun j : κ => x.val (i, j)) = .error .outOfFuel then .error .outOfFuel
    else .ok (x.zerosLike.put (fun _ => True) fun ij => match simplexProj bisect fuel radius (vmk fun j : κ => x.val (ij.1, j)) with
      | .ok y => y ij.2
      | .error _ => 0))

/-- `L2.prox` with `q` and without `Op` and `b` (L2.py:290-294), `q` an array of floats: `num = x; num -= tau * alpha * q`. -/
noncomputable def L2qT.prox (σ α : ℝ) (q : Vec ι) (x : Arr ι) (τ : ℝ) : Py (Arr ι) :=
  checkTau τ (do
    let num ← x.isub ⟨.float, (τ * α) • q⟩
    if 1 + τ * σ = 0 then .error .nanResult else pure ⟨.float, (1 / (1 + τ * σ)) • num.val⟩)

/-! ## VStack with restrictions -/

/-- A 1-D array with its dtype. -/
structure LArr where
  dt : DT
  val : List ℝ

/-- An operator on 1-D arrays with a dtype, as seen by `VStack`. -/
structure TListOp where
  prox : LArr → ℝ → Py LArr

/-- A `ListOp` whose `prox` is an arithmetic expression with a float. -/
def ListOp.toT (op : ListOp) : TListOp := ⟨fun a τ => (op.prox a.val τ).map fun v => ⟨.float, v⟩⟩

/-- The loop over operators and restrictions (VStack.py:107-108): `f[restr.iava] = op.prox(restr.matvec(x), tau)`; `take` keeps the dtype. -/
noncomputable def VStackT.scatterLoop (x : LArr) (τ : ℝ) : List TListOp → List (List ℕ) → LArr → Py LArr
  | [], [], f => .ok f
  | op :: ops, iava :: iavas, f => do
    let v ← op.prox ⟨x.dt, VStack.gather iava x.val⟩ τ
    if v.val.length ≠ iava.length then .error .valueError
    else VStackT.scatterLoop x τ ops iavas ⟨f.dt, VStack.scatter f.val iava (v.val.map f.dt.cast)⟩
  | _, _, _ => .error .valueError

/-- `VStack.prox` built with `restr` (VStack.py:90-109). -/
noncomputable def VStackT.prox (ops : List TListOp) (iavas : List (List ℕ)) (x : LArr) (τ : ℝ) : Py LArr :=
  checkTau τ (if x.val.length ≠ (StackBy.restr iavas).nx then .error .valueError
    else VStackT.scatterLoop x τ ops iavas ⟨x.dt, List.replicate x.val.length 0⟩)

/-! ## The projection of Intersection -/

/-- Loop variables of `IntersectionProj`: `x` keeps the dtype of the argument (a view of it), `x12` is an array of floats (projection/Intersection.py:55-56). -/
noncomputable def interPairT {k n : ℕ} (d : DT) (σ : Fin k → Fin k → ℝ) (s : InterState k n) (p : Fin k × Fin k) : InterState k n where
  x := vmk fun ij =>
    if ij.1 = p.1 then d.cast (s.x ij + 0.5 * (interD σ s p.1 p.2 ij.2 - s.x12 p.1 p.2 ij.2))
    else if ij.1 = p.2 then d.cast (s.x ij - 0.5 * (interD σ s p.1 p.2 ij.2 - s.x12 p.1 p.2 ij.2))
    else s.x ij
  x12 := fun a b j => if a = p.1 ∧ b = p.2 then interD σ s p.1 p.2 j else s.x12 a b j

/-- The two loops over pairs (projection/Intersection.py:59-70). -/
noncomputable def interSweepT {k n : ℕ} (d : DT) (σ : Fin k → Fin k → ℝ) (s : InterState k n) : InterState k n := (interPairs k).foldl (interPairT d σ) s

open Classical in
/-- Body of the outer loop (projection/Intersection.py:57-72). -/
noncomputable def interBodyT {k n : ℕ} (d : DT) (σ : Fin k → Fin k → ℝ) (tol : ℝ) (_i : ℕ) (s : InterState k n) : Py (InterState k n × Bool) :=
  if n = 0 then .error .valueError
  else
    let s' := interSweepT d σ s
    .ok (s', decide (∀ j : Fin n, ∑ i, |s'.x (i, j) - s.x (i, j)| < tol))

/-- `IntersectionProj.__call__` (projection/Intersection.py:54-73). -/
noncomputable def IntersectionProjT {k n : ℕ} (σ : Fin k → Fin k → ℝ) (niter : ℕ) (tol : ℝ) (x : Arr (Fin k × Fin n)) : Py (Arr (Fin k × Fin n)) := do
  let s ← forRange (interBodyT x.dt σ tol) niter 0 ⟨x.val, fun _ _ _ => 0⟩
  pure ⟨x.dt, s.x⟩

/-! ## Solvers -/

/-- Body of ProximalPoint (primal.py:177-201). -/
noncomputable def ProximalPointT.body (f : TOp ι) (τ : ℝ) (tol : Option ℝ) (_ : ℕ) (s : PPState (Arr ι)) : Py (PPState (Arr ι) × Bool) := do
  let x ← f.prox s.x τ
  let log := s.log ++ [x]
  match tol with
  | none => pure (⟨x, s.pf, log⟩, false)
  | some t => do
    let v ← f.call x
    let r ← pyRatio v.toReal s.pf
    pure (⟨x, some v.toReal, log⟩, decide (|1 - r| < t))

/-- `ProximalPoint` (primal.py:171-206). -/
noncomputable def ProximalPointT (f : TOp ι) (x0 : Arr ι) (τ : ℝ) (niter : ℕ) (tol : Option ℝ) : Py (PPState (Arr ι)) :=
  forRange (ProximalPointT.body f τ tol) niter 0 ⟨x0, none, []⟩

/-- Body of ADMM (primal.py:1183-1197). -/
noncomputable def ADMMT.body (f g : TOp ι) (τ : ℝ) (gfirst : Bool) (_ : ℕ) (s : SplitState (Arr ι)) : Py (SplitState (Arr ι) × Bool) := do
  if gfirst then do
    let z ← g.prox (s.x.add s.u) τ
    let x ← f.prox (z.sub s.u) τ
    pure (⟨x, z, (s.u.add x).sub z, s.log ++ [(x, z)]⟩, false)
  else do
    let x ← f.prox (s.z.sub s.u) τ
    let z ← g.prox (x.add s.u) τ
    pure (⟨x, z, (s.u.add x).sub z, s.log ++ [(x, z)]⟩, false)

/-- `ADMM` (primal.py:1164-1210): `u = zeros_like(x)`. -/
noncomputable def ADMMT (f g : TOp ι) (x0 z0 : Option (Arr ι)) (τ : ℝ) (niter : ℕ) (gfirst : Bool) : Py (SplitState (Arr ι)) := do
  let (x, z) ← x0z0Init x0 z0
  forRange (ADMMT.body f g τ gfirst) niter 0 ⟨x, z, x.zerosLike, []⟩

/-- Body of DouglasRachfordSplitting (primal.py:1787-1799). -/
noncomputable def DRT.body (f g : TOp ι) (τ η : ℝ) (gfirst : Bool) (_ : ℕ) (s : DRState (Arr ι)) : Py (DRState (Arr ι) × Bool) := do
  if gfirst then do
    let x ← g.prox s.y τ
    let p ← f.prox (x.twice.sub s.y) τ
    let y := s.y.add ((p.sub x).scale η)
    pure (⟨some x, y, s.log ++ [(x, y)]⟩, false)
  else do
    let x ← f.prox s.y τ
    let p ← g.prox (x.twice.sub s.y) τ
    let y := s.y.add ((p.sub x).scale η)
    pure (⟨some x, y, s.log ++ [(x, y)]⟩, false)

/-- `DouglasRachfordSplitting` (primal.py:1785-1811), with the final loop variables. -/
noncomputable def DRT (f g : TOp ι) (x0 : Arr ι) (τ η : ℝ) (niter : ℕ) (gfirst : Bool) : Py (DRState (Arr ι)) :=
  forRange (DRT.body f g τ η gfirst) niter 0 ⟨none, x0, []⟩

open Classical in
/-- Body of `dykstra_two` (_Dykstra.py:48-57). -/
noncomputable def dykstraTwoT.body (step1 step2 : Arr ι → Py (Arr ι)) (tol : ℝ) (mx : Vec ι → ℝ) (_i : ℕ) (s : DykState (Arr ι)) : Py (DykState (Arr ι) × Bool) := do
  let y ← step1 (s.x.add s.p)
  let p := (s.p.add s.x).sub y
  let x ← step2 (y.add s.q)
  let q := (s.q.add y).sub x
  pure (⟨x, some y, p, q⟩, decide (max (mx (x.sub s.x).val) (mx (y.sub s.x).val) < tol))

/-- `dykstra_two` (_Dykstra.py:33-59): `p` and `q` are `zeros_like(x)`. -/
noncomputable def dykstraTwoT (x0 : Arr ι) (step1 step2 : Arr ι → Py (Arr ι)) (niter : ℕ) (tol : ℝ) (mx : Vec ι → ℝ) : Py (DykState (Arr ι)) :=
  forRange (dykstraTwoT.body step1 step2 tol mx) niter 0 ⟨x0, none, x0.zerosLike, x0.zerosLike⟩

/-- Body of the inner loop of `parallel_dykstra_projection` (_Dykstra.py:80-83) on `(u, z, u_prev)`: `u_prev` is one array, of dtype `d`, and `u` is written into a row of it. -/
noncomputable def cycT.inner {m : ℕ} (d : DT) (projs : Fin m → Arr ι → Py (Arr ι)) (i : ℕ) (s : Arr ι × (Fin m → Arr ι) × (Fin m → Vec ι)) :
    Py ((Arr ι × (Fin m → Arr ι) × (Fin m → Vec ι)) × Bool) :=
  if h : i < m then do
    let j : Fin m := ⟨i, h⟩
    let v : Arr ι := ⟨d, s.2.2 (prevIdx j)⟩
    let u ← projs j (v.add (s.2.1 j))
    pure ((u, Function.update s.2.1 j (((s.2.1 j).add v).sub u), Function.update s.2.2 j (vmk fun l => d.cast (u.val l))), false)
  else .error .indexError

open Classical in
/-- Body of the outer loop (_Dykstra.py:76-86): `u_prev = array([u.copy() ...])` has the dtype of `u`. -/
noncomputable def cycT.body {m : ℕ} (projs : Fin m → Arr ι → Py (Arr ι)) (tol : ℝ) (mx : Vec ι → ℝ) (_i : ℕ) (s : CycState (Arr ι) m) : Py (CycState (Arr ι) m × Bool) := do
  let r ← forRange (cycT.inner s.u.dt projs) m 0 (s.u, s.z, fun _ => s.u.val)
  pure (⟨r.1, r.2.1, some fun i => ⟨s.u.dt, r.2.2 i⟩⟩, decide (mx (s.u.val - r.1.val) < tol ∧ ∀ i, mx (r.2.2 i - r.1.val) < tol))

/-- `parallel_dykstra_projection` (_Dykstra.py:62-88). -/
noncomputable def parallelDykstraProjectionT {m : ℕ} (x0 : Arr ι) (projs : Fin m → Arr ι → Py (Arr ι)) (niter : ℕ) (tol : ℝ) (mx : Vec ι → ℝ) : Py (CycState (Arr ι) m) :=
  forRange (cycT.body projs tol mx) niter 0 ⟨x0, fun _ => x0.zerosLike, none⟩

/-- One pass of the loop over `proxgs` (primal.py:862-866): the new `zs[i]`. -/
noncomputable def GPGT.zstep {m : ℕ} (gs : Fin m → TOp ι) (w : Fin m → ℝ) (eps : StepSpec) (τ η : ℝ) (s : GPGState (Arr ι) m) (grad : Arr ι) (j : Fin m) : Py (Arr ι) := do
  let e ← eps.at j
  if w j = 0 then .error .nanResult
  else do
    let p ← (gs j).prox ((s.y.twice.sub (s.zs j)).sub (grad.scale τ)) (τ * e / w j)
    (s.zs j).iadd ((p.sub s.y).scale η)

/-- Body of GeneralizedProximalGradient (primal.py:853-884): `grad` and the new `x` are `zeros_like(x)`, then updated in place. -/
noncomputable def GPGT.body {l m : ℕ} (fs : Fin l → TOp ι) (gs : Fin m → TOp ι) (w : Fin m → ℝ) (eps : StepSpec) (τ η : ℝ) (acc : Accel)
    (i : ℕ) (s : GPGState (Arr ι) m) : Py (GPGState (Arr ι) m × Bool) := do
  let gr ← mapPy fun j => (fs j).grad s.x
  let grad ← s.x.zerosLike.iaddAll gr
  let zs ← mapPy (GPGT.zstep gs w eps τ η s grad)
  let x ← s.x.zerosLike.iaddAll fun j => (zs j).scale (w j)
  let (ω, t) := momentum acc i s.t
  pure (⟨x, x.add ((x.sub s.x).scale ω), t, zs, s.log ++ [x]⟩, false)

open Classical in
/-- `GeneralizedProximalGradient` (primal.py:805-902). -/
noncomputable def GeneralizedProximalGradientT {l m : ℕ} (fs : Fin l → TOp ι) (gs : Fin m → TOp ι) (x0 : Arr ι) (tau : Option ℝ)
    (eps : StepSpec) (weights : Option (List ℝ)) (η : ℝ) (niter : ℕ) (acc : Accel) : Py (GPGState (Arr ι) m) :=
  let ws : List ℝ := match weights with
    | none => List.replicate m (1 / (m : ℝ))
    | some ws => ws
  if ws.length ≠ m ∨ ws.sum ≠ 1 then .error .valueError
  else if acc = .other then .error .notImplementedError
  else forRange (GPGT.body fs gs (fun j => ws.getD j 0) eps (tau.getD 1) η acc) niter 0 ⟨x0, x0, 1, fun _ => x0, []⟩

/-! ## SR3 -/

variable {E F : Type} [NormedAddCommGroup E] [InnerProductSpace ℝ E] [NormedAddCommGroup F] [InnerProductSpace ℝ F]

/-- Body of the loop of `_lsqr` (sr3.py:72-92) when `x` has dtype `d`: `x += (phi / rho) * w` is in place. -/
noncomputable def LsqrT.body {D : Type} [NormedAddCommGroup D] [InnerProductSpace ℝ D] (d : DT) (AL : LinOp E D) (Reg : LinOp E (Vec ι)) (κ eps : ℝ) (i : ℕ)
    (st : LsqrState E D (Vec ι)) : Py (LsqrState E D (Vec ι) × Bool) :=
  match d with
  | .int => .error .typeError
  | .float => Lsqr.body AL Reg κ eps i st

/-- The inner solve (sr3.py:177-195) with the dtype of `x`: `_lsqr` keeps it, scipy's `lsqr` returns floats. -/
noncomputable def SR3T.inner (Op : LinOp E F) (Reg : LinOp E (Vec ι)) (data : F) (κ eps : ℝ) (lim : ℕ)
    (solve : Option (WithLp 2 (F × Vec ι) → E → E)) (v : Vec ι) (x : E) (d : DT) : Py (E × DT) :=
  let rhs : WithLp 2 (F × Vec ι) := WithLp.toLp 2 (data, Real.sqrt κ • v)
  match solve with
  | none => (forRange (LsqrT.body d (vstack2 Op (Real.sqrt κ) Reg) Reg κ eps) lim 0 (Lsqr.init (vstack2 Op (Real.sqrt κ) Reg) rhs v x)).map fun s => (s.x, d)
  | some f => .ok (f rhs x, .float)

/-- Body of the outer loop (sr3.py:175-203). -/
noncomputable def SR3T.body (Op : LinOp E F) (Reg : LinOp E (Vec ι)) (data : F) (κ eps : ℝ) (lim : ℕ) (solve : Option (WithLp 2 (F × Vec ι) → E → E))
    (_ : ℕ) (s : SR3State E (Vec ι) × DT) : Py ((SR3State E (Vec ι) × DT) × Bool) :=
  match SR3T.inner Op Reg data κ eps lim solve s.1.v s.1.x s.2 with
  | .error e => .error e
  | .ok (x, d) =>
    let w := sr3Threshold (Reg.matvec x) (1 / κ * eps)
    let err := ‖s.1.v - w‖ / max 1 ‖w‖
    if err < 1e-6 then .ok ((⟨x, s.1.v, w, s.1.θ, true⟩, d), true)
    else
      let θ := 2 / (1 + Real.sqrt (1 + 4 / s.1.θ ^ 2))
      .ok ((⟨x, w + (1 - θ) • (w - s.1.w), w, θ, false⟩, d), false)

/-- `SR3` (sr3.py:96-204) with a starting point of dtype `d`. -/
noncomputable def SR3T (Op : LinOp E F) (Reg : LinOp E (Vec ι)) (data : F) (κ eps : ℝ) (x0 : E) (d : DT) (solve : Option (WithLp 2 (F × Vec ι) → E → E))
    (limOuter limInner : ℕ) : Py (SR3State E (Vec ι) × DT) :=
  if κ = 0 then .error .zeroDivisionError
  else if κ < 0 ∧ 0 < limOuter then .error .nanResult
  else forRange (SR3T.body Op Reg data κ eps limInner solve) limOuter 0 (⟨x0, 0, 0, 1, false⟩, d)

end Verif
