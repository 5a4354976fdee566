import Verif.Spec.TV

/-! # Total variation of complex images -/

namespace Verif

variable {A : Type} [Fintype A] [DecidableEq A] {n : A → ℕ}

/-- Isotropic total variation of a complex array: the sum over the pixels of the Euclidean norm of the (complex) differences to the next pixel along each axis. -/
noncomputable def complexTotalVariation (x : EuclideanSpace ℂ ((a : A) → Fin (n a))) : ℝ :=
  ∑ p, √(∑ a, ‖(nextPixel a p).elim 0 fun q => x q - x p‖ ^ 2)

end Verif
