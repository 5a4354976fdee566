import Verif.Model.Primal

/-!
# The arguments of `TwIST` (primal.py:1516-1529, 1613-1625)

`TwIST` of `Model/Primal` takes `alpha` and `beta` as one optional pair and the eigenvalues as a pair.  Here are the three optional arguments of the call, and the result of `A.eigs` when `eigs` is not given.
-/

namespace Verif

variable {E F : Type} [NormedAddCommGroup E] [InnerProductSpace ℝ E] [NormedAddCommGroup F] [InnerProductSpace ℝ F]

/-- `TwIST` with its optional arguments (primal.py:1614-1625): unless both `alpha` and `beta` are given, both are computed.  `sm` and `lm` are the results of `A.eigs(neigs=1, which="SM")` and
`A.eigs(neigs=1, which="LM")`, used only if `eigs` is `None`. -/
noncomputable def TwISTCall (g : ProxOp E) (A : LinOp E F) (b : F) (x0 : E) (alpha beta : Option ℝ) (eigs : Option (ℝ × ℝ)) (sm lm : ℝ) (niter : ℕ) (returncost : Bool) :
    Py (TwistState E) :=
  let e : ℝ × ℝ := match eigs with
    | none => (max 1 lm, sm)
    | some e => e
  match alpha, beta with
  | some α, some β => TwIST g A b x0 (some (α, β)) e niter returncost
  | _, _ => TwIST g A b x0 none e niter returncost

end Verif
