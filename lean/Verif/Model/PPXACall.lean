import Verif.Model.Primal

/-!
# `PPXA` and `ConsensusADMM` on whatever shapes they are given (primal.py:1929-1973, 2071-2107)

`PPXA` of `Model/Primal` has as many weights and starting points as functions.  The code does not check this; here the lists can have any length, the tolerance can be `None`, which the signatures
allow (`tol: float | None`), and the list of functions can be empty.
-/

namespace Verif

variable {E : Type} [NormedAddCommGroup E] [InnerProductSpace ℝ E]

/-- `x0`: one vector, or a list (or a two-dimensional array) of vectors (primal.py:1938-1941). -/
inductive PPXAStart (E : Type)
  | vec (x : E)
  | rows (ys : List E)

/-- Loop variables of `PPXA`. -/
structure PPXAListState (E : Type) where
  x : E
  xold : E
  y : List E
  log : List E

/-- `proxfs[i].prox(y[i], tau / w[i])` (primal.py:1948); a zero weight is reported as `nanResult`. -/
noncomputable def PPXA.proxRow (τ : ℝ) (f : ProxOp E) (y : E) (w : ℝ) : Py E := if w = 0 then .error .nanResult else f.prox y (τ / w)

/-- `[proxfs[i].prox(y[i], tau / w[i]) for i in range(m)]` (primal.py:1948): `y[i]` is read before `w[i]`. -/
noncomputable def PPXA.proxRows (τ : ℝ) : List (ProxOp E) → List E → List ℝ → Py (List E)
  | [], _, _ => .ok []
  | _ :: _, [], _ => .error .indexError
  | _ :: _, _ :: _, [] => .error .indexError
  | f :: fs, y :: ys, w :: ws => do
    let p ← PPXA.proxRow τ f y w
    let ps ← PPXA.proxRows τ fs ys ws
    pure (p :: ps)

/-- `ncp.sum(w[:, None] * p, axis=0)` (primal.py:1949): numpy broadcasts a single row against all weights; other lengths raise `ValueError`.  `ncp.stack` of no rows raises `ValueError`. -/
noncomputable def PPXA.weightedSum (ws : List ℝ) : List E → Py E
  | [] => .error .valueError
  | [p] => .ok (ws.map fun w => w • p).sum
  | ps => if ws.length = ps.length then .ok (List.zipWith (fun w p => w • p) ws ps).sum else .error .valueError

/-- `y + eta * (2 * pn - x - p)` (primal.py:1950): numpy broadcasts a single row against all rows of `y`; other lengths raise `ValueError`. -/
noncomputable def PPXA.updateRows (η : ℝ) (x pn : E) (ys : List E) : List E → Py (List E)
  | [p] => .ok (ys.map fun y => y + η • ((2 : ℝ) • pn - x - p))
  | ps => if ys.length = ps.length then .ok (List.zipWith (fun y p => y + η • ((2 : ℝ) • pn - x - p)) ys ps) else .error .valueError

/-- Body of the loop (primal.py:1947-1967).  Comparing with `None` raises `TypeError`, after the callback. -/
noncomputable def PPXA.listBody (fs : List (ProxOp E)) (ws : List ℝ) (τ η : ℝ) (tol : Option ℝ) (mx : E → ℝ) (_ : ℕ) (s : PPXAListState E) : Py (PPXAListState E × Bool) := do
  let ps ← PPXA.proxRows τ fs s.y ws
  let pn ← PPXA.weightedSum ws ps
  let y ← PPXA.updateRows η s.x pn s.y ps
  let x := s.x + η • (pn - s.x)
  match tol with
  | none => .error .typeError
  | some tol =>
    if mx (x - s.xold) < tol then
      pure (⟨x, s.xold, y, s.log ++ [x]⟩, true)
    else
      pure (⟨x, x, y, s.log ++ [x]⟩, false)

/-- `PPXA` (primal.py:1929-1973).  `1.0 / m` with no functions raises `ZeroDivisionError`.  The mean of no rows is NaN: it is returned if there is no iteration (reported as `nanResult`); otherwise the
first iteration stops at `y[0]` or at `ncp.stack`. -/
noncomputable def PPXACall (fs : List (ProxOp E)) (weights : Option (List ℝ)) (x0 : PPXAStart E) (τ η : ℝ) (niter : ℕ) (tol : Option ℝ) (mx : E → ℝ) : Py (PPXAListState E) := do
  let ws ← match weights with
    | none => if fs.length = 0 then .error .zeroDivisionError else .ok (List.replicate fs.length (1 / (fs.length : ℝ)))
    | some ws => .ok ws
  let ys := match x0 with
    | .vec x => List.replicate fs.length x
    | .rows ys => ys
  if ys.length = 0 then
    if niter = 0 then .error .nanResult else if fs.length = 0 then .error .valueError else .error .indexError
  else
    let x := (1 / (ys.length : ℝ)) • ys.sum
    forRange (PPXA.listBody fs ws τ η tol mx) niter 0 ⟨x, x, ys, []⟩

/-- `ConsensusADMM` (primal.py:2071-2107) with `tol: float | None`: the comparison with `None` raises `TypeError` at the end of the first iteration. -/
noncomputable def ConsensusCall {m : ℕ} (fs : Fin m → ProxOp E) (x0 : E) (τ : ℝ) (niter : ℕ) (tol : Option ℝ) (mx : E → ℝ) : Py (ConsState E m) :=
  match tol with
  | some tol => ConsensusADMM fs x0 τ niter tol mx
  | none => forRange (fun i s => do
      let _ ← ConsensusADMM.body fs τ 0 mx i s
      .error .typeError) niter 0 ⟨x0, x0, fun _ => x0, fun _ => 0, []⟩

end Verif
