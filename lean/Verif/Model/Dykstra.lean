import Verif.Model.ProxOperator
import Verif.Model.Primal

/-!
# Model of `proximal/_Dykstra.py`, `proximal/Sum.py`, `projection/GenericIntersection.py` and `proximal/GenericIntersection.py`

`mx v` stands for `abs(v).max()`.
-/

namespace Verif

variable {E : Type} [NormedAddCommGroup E] [InnerProductSpace ℝ E]

/-! ## dykstra_two (_Dykstra.py:33-59) -/

/-- Loop variables; `y` is unset before the first iteration. -/
structure DykState (E : Type) where
  x : E
  y : Option E
  p : E
  q : E

open Classical in
/-- Body of the loop (_Dykstra.py:48-57). -/
noncomputable def dykstraTwo.body (step1 step2 : E → Py E) (tol : ℝ) (mx : E → ℝ) (_i : ℕ) (s : DykState E) : Py (DykState E × Bool) := do
  let y ← step1 (s.x + s.p)
  let p := s.p + s.x - y
  let x ← step2 (y + s.q)
  let q := s.q + y - x
  pure (⟨x, some y, p, q⟩, decide (max (mx (x - s.x)) (mx (y - s.x)) < tol))

/-- `dykstra_two` (_Dykstra.py:33-59), with the final loop variables; the value returned is the field `x`. -/
noncomputable def dykstraTwo (x0 : E) (step1 step2 : E → Py E) (niter : ℕ) (tol : ℝ) (mx : E → ℝ) : Py (DykState E) :=
  forRange (dykstraTwo.body step1 step2 tol mx) niter 0 ⟨x0, none, 0, 0⟩

/-! ## parallel_dykstra_projection (_Dykstra.py:62-88) -/

/-- Loop variables; `up` (`u_prev`) is unset before the first iteration. -/
structure CycState (E : Type) (m : ℕ) where
  u : E
  z : Fin m → E
  up : Option (Fin m → E)

/-- The Python index `i - 1` into a sequence of length `m`: `-1` is the last position. -/
def prevIdx {m : ℕ} (i : Fin m) : Fin m := ⟨if i.1 = 0 then m - 1 else i.1 - 1, by have := i.2; split <;> omega⟩

/-- Body of the inner loop (_Dykstra.py:80-83), on `(u, z, u_prev)`. -/
noncomputable def cyc.inner {m : ℕ} (projs : Fin m → E → Py E) (i : ℕ) (s : E × (Fin m → E) × (Fin m → E)) :
    Py ((E × (Fin m → E) × (Fin m → E)) × Bool) :=
  if h : i < m then do
    let j : Fin m := ⟨i, h⟩
    let v := s.2.2 (prevIdx j)
    let u ← projs j (v + s.2.1 j)
    pure ((u, Function.update s.2.1 j (s.2.1 j + v - u), Function.update s.2.2 j u), false)
  else .error .indexError

open Classical in
/-- Body of the outer loop (_Dykstra.py:76-86). -/
noncomputable def cyc.body {m : ℕ} (projs : Fin m → E → Py E) (tol : ℝ) (mx : E → ℝ) (_i : ℕ) (s : CycState E m) : Py (CycState E m × Bool) := do
  let r ← forRange (cyc.inner projs) m 0 (s.u, s.z, fun _ => s.u)
  pure (⟨r.1, r.2.1, some r.2.2⟩, decide (mx (s.u - r.1) < tol ∧ ∀ i, mx (r.2.2 i - r.1) < tol))

/-- `parallel_dykstra_projection` (_Dykstra.py:62-88), with the final loop variables; the value returned is the field `u`. -/
noncomputable def parallelDykstraProjection {m : ℕ} (x0 : E) (projs : Fin m → E → Py E) (niter : ℕ) (tol : ℝ) (mx : E → ℝ) : Py (CycState E m) :=
  forRange (cyc.body projs tol mx) niter 0 ⟨x0, fun _ => 0, none⟩

/-! ## parallel_dykstra_prox (_Dykstra.py:91-118) -/

/-- Loop variables; `pz` (`prox_z`) is unset before the first iteration. -/
structure ParState (E : Type) (m : ℕ) where
  x : E
  z : Fin m → E
  pz : Option (Fin m → E)

open Classical in
/-- `proxs[i].prox(z[i], taus[i])` inside the loop (_Dykstra.py:112): too few steps raise `IndexError`. -/
def par.proxAt {m : ℕ} (proxs : Fin m → E → ℝ → Py E) (taus : List ℝ) (z : Fin m → E) (i : Fin m) : Py E :=
  match taus[i.1]? with
  | some t => proxs i (z i) t
  | none => .error .indexError

/-- Body of the loop (_Dykstra.py:109-116).  `taus[i]` past the end is an `IndexError`; a weight vector of another length than the number of operators
fails to broadcast. -/
noncomputable def par.body {m : ℕ} (proxs : Fin m → E → ℝ → Py E) (w taus : List ℝ) (tol : ℝ) (mx : E → ℝ) (_i : ℕ) (s : ParState E m) :
    Py (ParState E m × Bool) := do
  let pz ← mapPy (par.proxAt proxs taus s.z)
  if w.length ≠ m then .error .valueError
  else
    let x := ∑ i : Fin m, w.getD i 0 • pz i
    pure (⟨x, fun i => s.z i + x - pz i, some pz⟩, decide (mx (x - s.x) < tol))

/-- `w /= w.sum()` (_Dykstra.py:106-107). -/
noncomputable def normalise (w : List ℝ) : List ℝ := w.map fun a => a / w.sum

open Classical in
/-- `parallel_dykstra_prox` (_Dykstra.py:91-118), with the final loop variables; the value returned is the field `x`.  Weights summing to zero give NaN. -/
noncomputable def parallelDykstraProx {m : ℕ} (x0 : E) (proxs : Fin m → E → ℝ → Py E) (weights taus : List ℝ) (niter : ℕ) (tol : ℝ) (mx : E → ℝ) :
    Py (ParState E m) :=
  if weights.sum = 0 then .error .nanResult
  else forRange (par.body proxs (normalise weights) taus tol mx) niter 0 ⟨x0, fun _ => x0, none⟩

/-! ## Sum (Sum.py:111-234) -/

/-- The immutable part of a `Sum` object. -/
structure SumCfg (E : Type) (m : ℕ) where
  ops : Fin m → ProxOp E
  niter : ℕ
  tol : ℝ
  useParallel : Bool
  useOriginalTau : Bool

/-- The mutable part: `self.w`, and whether it is a numpy array of floats (which `asarray(weights, dtype=float)` does not copy, so that
`w /= w.sum()` writes into it) or something else (a list, an integer array), which is copied. -/
structure SumState where
  w : List ℝ
  isFloatArray : Bool

/-- `Sum.__init__` (Sum.py:111-138): the initial `self.w`, or the exception raised.  `weights=None` with no operators divides by zero before the
arity check. -/
noncomputable def Sum.init (m : ℕ) (weights : Option SumState) : Py SumState :=
  match weights with
  | none => if m = 0 then .error .zeroDivisionError else .ok ⟨List.replicate m (1 / (m : ℝ)), false⟩
  | some s => if m = 0 then .error .valueError else .ok s

/-- `is_bool` (Sum.py:158-159) and `bools.append(v)` (Sum.py:164-166). -/
def CallVal.asBool? : CallVal → Option Bool
  | .bool b => some b
  | .num _ => none

/-- `vals.append(float(v))` for the values that are not booleans (Sum.py:167-168). -/
def CallVal.asNum? : CallVal → Option ℝ
  | .num v => some v
  | .bool _ => none

/-- `Sum.__call__` (Sum.py:161-174): the answer from the values of the operators. -/
noncomputable def Sum.combine : List CallVal → CallVal := fun l =>
  let bools := l.filterMap CallVal.asBool?
  let vals := l.filterMap CallVal.asNum?
  if ¬ bools.all id then .bool false
  else if vals ≠ [] then .num vals.sum
  else .bool true

/-- `Sum.__call__` (Sum.py:140-174). -/
noncomputable def Sum.call {m : ℕ} (c : SumCfg E m) (x : E) : Py CallVal := do
  let vs ← mapPy fun i => (c.ops i).call x
  pure (Sum.combine (List.ofFn vs))

open Classical in
/-- `tau_policy` (Sum.py:216-221): a zero weight divides by zero (`ZeroDivisionError` in a list of Python floats, infinity in an array). -/
noncomputable def Sum.taus {m : ℕ} (c : SumCfg E m) (s : SumState) (τ : ℝ) : Py (List ℝ) :=
  if c.useOriginalTau then .ok (List.replicate s.w.length τ)
  else if (0 : ℝ) ∈ s.w then (if s.isFloatArray then .error .nanResult else .error .zeroDivisionError)
  else .ok (s.w.map fun a => τ / a)

/-- `_more_prox` (Sum.py:211-234): the result and the new state.  The weights are normalised in place before the loop starts. -/
noncomputable def Sum.moreProx {m : ℕ} (c : SumCfg E m) (mx : E → ℝ) (s : SumState) (x : E) (τ : ℝ) : Py E × SumState :=
  if m < 2 then (.error .valueError, s)
  else match Sum.taus c s τ with
    | .error e => (.error e, s)
    | .ok taus =>
      (do let r ← parallelDykstraProx x (fun i => (c.ops i).prox) s.w taus c.niter c.tol mx; pure r.x,
        if s.isFloatArray then ⟨normalise s.w, true⟩ else s)

/-- `_select_impl_by_arity` (_Dykstra.py:14-30), `_single_prox`, `_two_prox` (Sum.py:181-209). -/
noncomputable def Sum.dispatch : {m : ℕ} → SumCfg E m → (E → ℝ) → SumState → E → ℝ → Py E × SumState
  | 0, _, _, s, _, _ => (.error .valueError, s)
  | 1, c, _, s, x, τ => ((c.ops 0).prox x τ, s)
  | 2, c, mx, s, x, τ =>
    if c.useParallel then Sum.moreProx c mx s x τ
    else (do let r ← dykstraTwo x (fun v => (c.ops 0).prox v τ) (fun v => (c.ops 1).prox v τ) c.niter c.tol mx; pure r.x, s)
  | _ + 3, c, mx, s, x, τ => Sum.moreProx c mx s x τ

/-- `Sum.prox` (Sum.py:176-179): guarded by `_check_tau`.  Returns the result and the state after the call. -/
noncomputable def Sum.prox {m : ℕ} (c : SumCfg E m) (mx : E → ℝ) (s : SumState) (x : E) (τ : ℝ) : Py E × SumState :=
  if τ ≤ 0 then (.error .valueError, s) else Sum.dispatch c mx s x τ

/-! ## GenericIntersection (projection/GenericIntersection.py:101-159, proximal/GenericIntersection.py:40-68) -/

/-- `GenericIntersectionProj.__call__` (projection/GenericIntersection.py:101-159); the constructor raises `ValueError` on an empty list. -/
noncomputable def GenericIntersectionProj : {m : ℕ} → (Fin m → E → Py E) → ℕ → ℝ → Bool → (E → ℝ) → E → Py E
  | 0, _, _, _, _, _, _ => .error .valueError
  | 1, P, _, _, _, _, x => P 0 x
  | 2, P, niter, tol, par, mx, x =>
    if par then (do let r ← parallelDykstraProjection x P niter tol mx; pure r.u)
    else (do let r ← dykstraTwo x (P 0) (P 1) niter tol mx; pure r.x)
  | _ + 3, P, niter, tol, _, mx, x => do let r ← parallelDykstraProjection x P niter tol mx; pure r.u

open Classical in
/-- `GenericIntersectionProx` (proximal/GenericIntersection.py:40-68): every projection moves `x` by less than ten times the tolerance (all projections are evaluated here, while Python's `all` stops at the first that fails). -/
noncomputable def GenericIntersectionProx {m : ℕ} (P : Fin m → E → Py E) (niter : ℕ) (tol : ℝ) (par : Bool) (mx : E → ℝ) : ProxOp E where
  call := fun x => do
    let ps ← mapPy fun i => P i x
    pure (.bool (decide (∀ i, mx (x - ps i) < tol * 10)))
  prox? := some fun x τ => checkTau τ (GenericIntersectionProj P niter tol par mx x)
  proxdual? := none
  grad? := none
  hasgrad := false
  sigmame := 1

end Verif
