import Verif.Model.Mutable

/-!
# Solvers given the same operator object more than once

`Model/Mutable` runs the solvers on operator objects with attributes, all of them different objects.  Here the same object is given several times: `ADMM(f, f, …)`,
`PPXA([f, g, f], …)`.  There is then one set of attributes, which every call updates in the order in which the solver makes the calls.  An array that an object keeps
(the warm start of `L2`) is not modified through another name here.
-/

open scoped RealInnerProductSpace

namespace Verif

variable {E S : Type} [NormedAddCommGroup E] [InnerProductSpace ℝ E]

/-! ## HQS (primal.py:1000-1053) -/

/-- Body of the loop (primal.py:1023-1037) when `proxf` and `proxg` are the same object. -/
noncomputable def HQSShared.body (f : MutOp S E) (tau : StepSpec) (gfirst : Bool) (i : ℕ) (s : S × SplitState E) : Py ((S × SplitState E) × Bool) := do
  let τ ← tau.at i
  if gfirst then do
    let z ← f.proxPy s.1 s.2.x τ
    let x ← f.proxPy z.1 z.2.1 τ
    pure ((x.1, ⟨x.2.1, x.2.2, s.2.u, s.2.log ++ [(x.2.1, x.2.2)]⟩), false)
  else do
    let x ← f.proxPy s.1 s.2.z τ
    let z ← f.proxPy x.1 x.2.1 τ
    pure ((z.1, ⟨z.2.2, z.2.1, s.2.u, s.2.log ++ [(z.2.2, z.2.1)]⟩), false)

/-- `HQS(f, f, …)` (primal.py:1000-1053). -/
noncomputable def HQSShared (f : MutOp S E) (sf : S) (x0 z0 : Option E) (tau : StepSpec) (niter : ℕ) (gfirst : Bool) : Py (S × SplitState E) := do
  let p ← x0z0Init x0 z0
  forRange (HQSShared.body f tau gfirst) niter 0 (sf, ⟨p.1, p.2, 0, []⟩)

/-! ## ADMM (primal.py:1164-1210) -/

/-- Body of ADMM (primal.py:1183-1197) when `proxf` and `proxg` are the same object. -/
noncomputable def ADMMShared.body (f : MutOp S E) (τ : ℝ) (gfirst : Bool) (_ : ℕ) (s : S × SplitState E) : Py ((S × SplitState E) × Bool) := do
  if gfirst then do
    let z ← f.proxPy s.1 (s.2.x + s.2.u) τ
    let x ← f.proxPy z.1 (z.2.1 - s.2.u) τ
    pure ((x.1, ⟨x.2.1, z.2.1, s.2.u + x.2.1 - z.2.1, s.2.log ++ [(x.2.1, z.2.1)]⟩), false)
  else do
    let x ← f.proxPy s.1 (s.2.z - s.2.u) τ
    let z ← f.proxPy x.1 (x.2.1 + s.2.u) τ
    pure ((z.1, ⟨x.2.1, z.2.1, s.2.u + x.2.1 - z.2.1, s.2.log ++ [(x.2.1, z.2.1)]⟩), false)

/-- `ADMM(f, f, …)` (primal.py:1164-1210). -/
noncomputable def ADMMShared (f : MutOp S E) (sf : S) (x0 z0 : Option E) (τ : ℝ) (niter : ℕ) (gfirst : Bool) : Py (S × SplitState E) := do
  let p ← x0z0Init x0 z0
  forRange (ADMMShared.body f τ gfirst) niter 0 (sf, ⟨p.1, p.2, 0, []⟩)

/-! ## DouglasRachfordSplitting (primal.py:1785-1811) -/

/-- Body of the loop (primal.py:1787-1799) when `proxf` and `proxg` are the same object; the two orders do the same calls. -/
noncomputable def DRShared.body (f : MutOp S E) (τ η : ℝ) (_ : ℕ) (s : S × DRState E) : Py ((S × DRState E) × Bool) := do
  let x ← f.proxPy s.1 s.2.y τ
  let p ← f.proxPy x.1 ((2 : ℝ) • x.2.1 - x.2.2) τ
  let y := x.2.2 + η • (p.2.1 - x.2.1)
  pure ((p.1, ⟨some x.2.1, y, s.2.log ++ [(x.2.1, y)]⟩), false)

/-- `DouglasRachfordSplitting(f, f, …)` (primal.py:1785-1811). -/
noncomputable def DRShared (f : MutOp S E) (sf : S) (x0 : E) (τ η : ℝ) (niter : ℕ) : Py (S × E × E × List (E × E)) := do
  let s ← forRange (DRShared.body f τ η) niter 0 (sf, ⟨none, x0, []⟩)
  match s.2.x with
  | none => .error .unboundLocalError
  | some x => pure (s.1, x, s.2.y, s.2.log)

/-! ## Lists of operators -/

/-- The list comprehension `[ops[i].prox(arg[i], step[i]) for i in range(m)]` (primal.py:1948, 2083): entry `i` of the list is the object `which i`, and the calls are
made in order.  Gives the attributes of all objects afterwards, and for every entry the result and the contents of its argument. -/
noncomputable def proxSeq {K : Type} [DecidableEq K] (obj : K → MutOp S E) : {m : ℕ} → (Fin m → K) → (Fin m → E) → (Fin m → Py ℝ) → (K → S) → Py ((K → S) × (Fin m → E × E))
  | 0, _, _, _, st => .ok (st, Fin.elim0)
  | _ + 1, which, arg, step, st => do
    let τ ← step 0
    let r ← (obj (which 0)).proxPy (st (which 0)) (arg 0) τ
    let t ← proxSeq obj (fun i => which i.succ) (fun i => arg i.succ) (fun i => step i.succ) (Function.update st (which 0) r.1)
    pure (t.1, Fin.cons r.2 t.2)

/-- Body of PPXA (primal.py:1947-1965) on a list in which objects may be repeated. -/
noncomputable def PPXAShared.body {K : Type} [DecidableEq K] {m : ℕ} (obj : K → MutOp S E) (which : Fin m → K) (w : Fin m → ℝ) (τ η : ℝ) (tol : ℝ) (mx : E → ℝ) (_ : ℕ)
    (s : (K → S) × PPXAState E m) : Py (((K → S) × PPXAState E m) × Bool) := do
  let r ← proxSeq obj which s.2.y (fun i => if w i = 0 then .error .nanResult else .ok (τ / w i)) s.1
  let pn := ∑ i, w i • (r.2 i).1
  let y := fun i => (r.2 i).2 + η • ((2 : ℝ) • pn - s.2.x - (r.2 i).1)
  let x := s.2.x + η • (pn - s.2.x)
  if mx (x - s.2.xold) < tol then
    pure ((r.1, ⟨x, s.2.xold, y, s.2.log ++ [x]⟩), true)
  else
    pure ((r.1, ⟨x, x, y, s.2.log ++ [x]⟩), false)

/-- `PPXA` with weights (primal.py:1929-1973) on a list in which objects may be repeated. -/
noncomputable def PPXAShared {K : Type} [DecidableEq K] {m : ℕ} (obj : K → MutOp S E) (which : Fin m → K) (st : K → S) (w : Fin m → ℝ) (y0 : Fin m → E) (τ η : ℝ) (niter : ℕ)
    (tol : ℝ) (mx : E → ℝ) : Py ((K → S) × PPXAState E m) :=
  if m = 0 then .error .nanResult
  else forRange (PPXAShared.body obj which w τ η tol mx) niter 0 (st, ⟨(1 / (m : ℝ)) • ∑ i, y0 i, (1 / (m : ℝ)) • ∑ i, y0 i, y0, []⟩)

/-- Body of ConsensusADMM (primal.py:2082-2104) on a list in which objects may be repeated; the arguments of `prox` are temporaries. -/
noncomputable def ConsensusShared.body {K : Type} [DecidableEq K] {m : ℕ} (obj : K → MutOp S E) (which : Fin m → K) (τ tol : ℝ) (mx : E → ℝ) (_ : ℕ)
    (s : (K → S) × ConsState E m) : Py (((K → S) × ConsState E m) × Bool) := do
  let r ← proxSeq obj which (fun i => s.2.xbar - s.2.y i) (fun _ => .ok τ) s.1
  if m = 0 then .error .valueError else
    let x := fun i => (r.2 i).1
    let xbar := (1 / (m : ℝ)) • ∑ i, x i
    let y := fun i => s.2.y i + x i - xbar
    if mx (xbar - s.2.xold) < tol then
      pure ((r.1, ⟨xbar, s.2.xold, x, y, s.2.log ++ [xbar]⟩), true)
    else
      pure ((r.1, ⟨xbar, xbar, x, y, s.2.log ++ [xbar]⟩), false)

/-- `ConsensusADMM` (primal.py:2071-2107) on a list in which objects may be repeated. -/
noncomputable def ConsensusShared {K : Type} [DecidableEq K] {m : ℕ} (obj : K → MutOp S E) (which : Fin m → K) (st : K → S) (x0 : E) (τ : ℝ) (niter : ℕ) (tol : ℝ) (mx : E → ℝ) :
    Py ((K → S) × ConsState E m) :=
  forRange (ConsensusShared.body obj which τ tol mx) niter 0 (st, ⟨x0, x0, fun _ => x0, fun _ => 0, []⟩)

end Verif
