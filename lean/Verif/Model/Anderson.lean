import Verif.Model.Primal
import Mathlib.LinearAlgebra.Matrix.Notation

/-!
# The mixing coefficients of `AndersonProximalGradient` (primal.py:653-657)
-/

namespace Verif

variable {E : Type} [NormedAddCommGroup E] [InnerProductSpace ℝ E]

open scoped InnerProductSpace

/-- `Rstack @ Rstack.T + epsr * np.linalg.norm(Rstack) ** 2` (primal.py:654): the second term is a number, so it is added to every entry. -/
noncomputable def andersonMatrix (epsr : ℝ) (R : List E) : Matrix (Fin R.length) (Fin R.length) ℝ :=
  Matrix.of fun i j => ⟪R.get i, R.get j⟫_ℝ + epsr * ∑ k, ‖R.get k‖ ^ 2

/-- `alpha` (primal.py:653-657).  `pinv` is `np.linalg.pinv`.  `np.vstack([])` raises.  `ones` has length `min(nhistory, iiter + 2)`, the length of the history (`C59_lengths`).
When the sum of `Rinv @ ones` is zero the division gives NaN or infinities, modelled by an error. -/
noncomputable def andersonAlpha (pinv : ∀ n, Matrix (Fin n) (Fin n) ℝ → Matrix (Fin n) (Fin n) ℝ) (epsr : ℝ) (R : List E) : Py (List ℝ) :=
  if R = [] then .error .valueError
  else
    let w : Fin R.length → ℝ := (pinv R.length (andersonMatrix epsr R)).mulVec fun _ => 1
    if ∑ i, w i = 0 then .error .nanResult else .ok (List.ofFn fun i => w i / ∑ j, w j)

end Verif
