import Verif.Model.Py
import Mathlib.Analysis.InnerProductSpace.PiL2

/-! # Arrays and scalar numpy functions -/

open scoped RealInnerProductSpace

namespace Verif

/-- A real array with index set `ι` (1-D of any length, or n-D when `ι` is a product). -/
abbrev Vec (ι : Type) [Fintype ι] := EuclideanSpace ℝ ι

/-- Build an array from its entries. -/
abbrev vmk {ι : Type} [Fintype ι] (f : ι → ℝ) : Vec ι := WithLp.toLp 2 f

/-- `np.sign` on real numbers. -/
noncomputable def npsign (x : ℝ) : ℝ := if 0 < x then 1 else if x < 0 then -1 else 0

/-- Lower/upper bound of a box: `none` is `-np.inf` (lower) or `np.inf` (upper). -/
abbrev Bound := Option ℝ

/-- `np.maximum(x, lower)`. -/
noncomputable def maxLower (x : ℝ) : Bound → ℝ
  | none => x
  | some l => max x l

/-- `np.minimum(x, upper)`. -/
noncomputable def minUpper (x : ℝ) : Bound → ℝ
  | none => x
  | some u => min x u

/-- `x >= lower`. -/
def geLower (x : ℝ) : Bound → Prop
  | none => True
  | some l => l ≤ x

/-- `x <= upper`. -/
def leUpper (x : ℝ) : Bound → Prop
  | none => True
  | some u => x ≤ u

/-- A pylops `LinearOperator`: forward, adjoint, and the assumption that they pass the dot test exactly. -/
structure LinOp (E F : Type) [NormedAddCommGroup E] [InnerProductSpace ℝ E]
    [NormedAddCommGroup F] [InnerProductSpace ℝ F] where
  matvec : E →ₗ[ℝ] F
  rmatvec : F →ₗ[ℝ] E
  dot : ∀ x y, ⟪matvec x, y⟫ = ⟪x, rmatvec y⟫

end Verif
