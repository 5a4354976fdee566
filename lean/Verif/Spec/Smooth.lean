import Verif.Spec.Basic

/-! # Specification vocabulary for smooth functions -/

namespace Verif

variable {E : Type*} [NormedAddCommGroup E] [InnerProductSpace ℝ E]

/-- The gradient of `φ` is `L`-Lipschitz. -/
def LipschitzGrad (φ : E → ℝ) (L : ℝ) : Prop :=
  ∀ x y gx gy, IsGrad φ x gx → IsGrad φ y gy → ‖gx - gy‖ ≤ L * ‖x - y‖

end Verif
