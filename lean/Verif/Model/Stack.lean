import Verif.Model.ProxOperator
import Verif.Model.Vec

/-!
# Model of `pyproximal/proximal/VStack.py` and `pyproximal/proximal/Orthogonal.py`

`VStack` slices, concatenates and scatters 1-D arrays, so arrays are lists here.
-/

open scoped RealInnerProductSpace

namespace Verif

/-- An operator acting on 1-D arrays of any length, as seen by `VStack`. -/
structure ListOp where
  call : List ℝ → Py CallVal
  prox : List ℝ → ℝ → Py (List ℝ)
  grad : List ℝ → Py (List ℝ)
  hasgrad : Bool

/-- How the blocks are described (VStack.py:50-73): sizes `nn`, or the index lists `iava` of the restriction operators.  `nn` wins when both are
given. -/
inductive StackBy
  | nn (nn : List ℕ)
  | restr (iavas : List (List ℕ))

/-- Constructor (VStack.py:50-73); `cum_nn[-1]` raises `IndexError` for an empty `nn`. -/
def VStack.init (nn : Option (List ℕ)) (restr : Option (List (List ℕ))) : Py StackBy :=
  match nn, restr with
  | some [], _ => .error .indexError
  | some nn, _ => .ok (.nn nn)
  | none, some r => .ok (.restr r)
  | none, none => .error .valueError

/-- `self.nx` (VStack.py:66, 70). -/
def StackBy.nx : StackBy → ℕ
  | .nn ns => ns.sum
  | .restr iavas => (iavas.map List.length).sum

/-- `x[self.xin[iop] : self.xend[iop]]` (VStack.py:61-64, 84, 101, 120); `IndexError` when there are more operators than sizes. -/
def VStack.slice (nn : List ℕ) (i : ℕ) (x : List ℝ) : Py (List ℝ) :=
  if i < nn.length then .ok ((x.take (nn.take (i + 1)).sum).drop (nn.take i).sum) else .error .indexError

/-- The list comprehension over `enumerate(self.ops)` (VStack.py:99-104, 118-123), starting at index `i`, and `np.hstack`. -/
def VStack.hstack (nn : List ℕ) (m : ListOp → List ℝ → Py (List ℝ)) (x : List ℝ) : List ListOp → ℕ → Py (List ℝ)
  | [], _ => .ok []
  | op :: ops, i => do
    let xi ← VStack.slice nn i x
    let p ← m op xi
    let rest ← VStack.hstack nn m x ops (i + 1)
    pure (p ++ rest)

/-- `restr.matvec(x)`: the entries of `x` at `iava` (indices in range). -/
def VStack.gather (iava : List ℕ) (x : List ℝ) : List ℝ := iava.map fun i => x.getD i 0

/-- `f[iava] = v`: entries are written in order. -/
def VStack.scatter (f : List ℝ) (iava : List ℕ) (v : List ℝ) : List ℝ := (iava.zip v).foldl (fun f p => f.set p.1 p.2) f

/-- The loop `for op, restr in zip(self.ops, self.restr, strict=True)` (VStack.py:107-108, 126-127): `ValueError` at the end of the
shorter list, and when the shapes of the two sides of the assignment differ (numpy's broadcasting of a single value is not
modelled). -/
def VStack.scatterLoop (m : ListOp → List ℝ → Py (List ℝ)) (x : List ℝ) : List ListOp → List (List ℕ) → List ℝ → Py (List ℝ)
  | [], [], f => .ok f
  | op :: ops, iava :: iavas, f => do
    let v ← m op (VStack.gather iava x)
    if v.length ≠ iava.length then .error .valueError
    else VStack.scatterLoop m x ops iavas (VStack.scatter f iava v)
  | _, _, _ => .error .valueError

/-- The common body of `prox` and `grad` (VStack.py:90-109, 111-128); `np.hstack([])` raises `ValueError`. -/
def VStack.apply (m : ListOp → List ℝ → Py (List ℝ)) (ops : List ListOp) (b : StackBy) (x : List ℝ) : Py (List ℝ) :=
  if x.length ≠ b.nx then .error .valueError else
    match b with
    | .nn nn => if ops.isEmpty then .error .valueError else VStack.hstack nn m x ops 0
    | .restr iavas => VStack.scatterLoop m x ops iavas (List.replicate x.length 0)

/-- `prox` (VStack.py:90-109). -/
noncomputable def VStack.prox (ops : List ListOp) (b : StackBy) (x : List ℝ) (τ : ℝ) : Py (List ℝ) :=
  checkTau τ (VStack.apply (fun op v => op.prox v τ) ops b x)

/-- `grad` (VStack.py:111-128). -/
def VStack.grad (ops : List ListOp) (b : StackBy) (x : List ℝ) : Py (List ℝ) := VStack.apply (fun op v => op.grad v) ops b x

/-- The loop of `__call__` in the `nn` case (VStack.py:83-84). -/
noncomputable def VStack.callLoop (nn : List ℕ) (x : List ℝ) : List ListOp → ℕ → ℝ → Py ℝ
  | [], _, f => .ok f
  | op :: ops, i, f => do
    let xi ← VStack.slice nn i x
    let v ← op.call xi
    VStack.callLoop nn x ops (i + 1) (f + v.toReal)

/-- The loop of `__call__` in the `restr` case (VStack.py:86-87). -/
noncomputable def VStack.callLoopR (x : List ℝ) : List ListOp → List (List ℕ) → ℝ → Py ℝ
  | [], [], f => .ok f
  | op :: ops, iava :: iavas, f => do
    let v ← op.call (VStack.gather iava x)
    VStack.callLoopR x ops iavas (f + v.toReal)
  | _, _, _ => .error .valueError

/-- `__call__` (VStack.py:75-88). -/
noncomputable def VStack.call (ops : List ListOp) (b : StackBy) (x : List ℝ) : Py CallVal :=
  if x.length ≠ b.nx then .error .valueError else do
    let f ← match b with
      | .nn nn => VStack.callLoop nn x ops 0 0
      | .restr iavas => VStack.callLoopR x ops iavas 0
    pure (.num f)

/-- `hasgrad` of the stack (VStack.py:56). -/
def VStack.hasgrad (ops : List ListOp) : Bool := ops.any ListOp.hasgrad

variable {E F : Type} [NormedAddCommGroup E] [InnerProductSpace ℝ E] [NormedAddCommGroup F] [InnerProductSpace ℝ F]

/-- `Orthogonal` (Orthogonal.py:63-98); `b = None` is the zero vector.  `1.0 / alpha` is evaluated first. -/
noncomputable def Orthogonal (f : ProxOp F) (Q : LinOp E F) (isPartial : Bool) (b : F) (α : ℝ) : ProxOp E where
  call := fun x => f.call (Q.matvec x + b)
  prox? := some fun x τ => checkTau τ (
    let y := Q.matvec x
    if isPartial then
      if α = 0 then .error .zeroDivisionError else do
        let p ← f.prox (y + b) (α * τ)
        pure ((1 / α) • (α • x - Q.rmatvec y + Q.rmatvec (p - b)))
    else do
      let z ← f.prox (y + b) τ
      pure (Q.rmatvec (z - b)))
  proxdual? := none
  grad? := none
  hasgrad := false
  sigmame := 1

end Verif
