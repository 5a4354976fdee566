import Verif.Spec.Basic
import Mathlib.Analysis.InnerProductSpace.PiL2

/-! # Total variation -/

namespace Verif

variable {A : Type} [Fintype A] [DecidableEq A] {n : A → ℕ}

/-- The pixel after `p` along axis `a`, if there is one. -/
def nextPixel (a : A) (p : (a : A) → Fin (n a)) : Option ((a : A) → Fin (n a)) :=
  if h : (p a : ℕ) + 1 < n a then some (Function.update p a ⟨p a + 1, h⟩) else none

/-- Isotropic total variation of an array with axes `A` of lengths `n`: the sum over the pixels of the Euclidean norm of the differences to the next pixel along each axis (zero at the end of
the axis). -/
noncomputable def totalVariation (x : EuclideanSpace ℝ ((a : A) → Fin (n a))) : ℝ :=
  ∑ p, √(∑ a, ((nextPixel a p).elim 0 fun q => x q - x p) ^ 2)

end Verif
