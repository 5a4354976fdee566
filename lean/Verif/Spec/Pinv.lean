import Mathlib.LinearAlgebra.Matrix.Symmetric
import Mathlib.Data.Matrix.Mul
import Mathlib.Data.Real.Basic
import Mathlib.Data.Fintype.Basic

/-! # The Moore-Penrose inverse -/

namespace Verif

/-- The four Penrose equations. -/
def IsPinv {n : ℕ} (M P : Matrix (Fin n) (Fin n) ℝ) : Prop := M * P * M = M ∧ P * M * P = P ∧ (M * P).IsSymm ∧ (P * M).IsSymm

/-- `np.linalg.pinv` in exact arithmetic, on the symmetric matrices it is called with. -/
def PinvExact (pinv : ∀ n, Matrix (Fin n) (Fin n) ℝ → Matrix (Fin n) (Fin n) ℝ) : Prop := ∀ n M, M.IsSymm → IsPinv M (pinv n M)

end Verif
