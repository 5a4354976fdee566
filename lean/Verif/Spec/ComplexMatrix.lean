import Verif.Spec.Basic
import Mathlib.Analysis.InnerProductSpace.PiL2
import Mathlib.Analysis.Complex.Basic

/-! # Specification vocabulary for complex matrices -/

namespace Verif

variable {ι κ ρ : Type} [Fintype ι] [Fintype κ] [Fintype ρ]

/-- `X v` for a complex matrix with entries `X (i, j)`. -/
noncomputable def cMatVec (x : EuclideanSpace ℂ (ι × κ)) (v : EuclideanSpace ℂ κ) : EuclideanSpace ℂ ι :=
  WithLp.toLp 2 fun i => ∑ j, x (i, j) * v j

/-- `(u, s, vh)` is a (thin) singular value decomposition of the complex matrix `X`: orthonormal columns `u`, orthonormal rows `vh`, non-negative singular values, `X = U diag(s) Vh`. -/
structure IsSVDC (x : EuclideanSpace ℂ (ι × κ)) (u : ρ → EuclideanSpace ℂ ι) (s : ρ → ℝ) (vh : ρ → EuclideanSpace ℂ κ) : Prop where
  left : Orthonormal ℂ u
  right : Orthonormal ℂ vh
  nonneg : ∀ k, 0 ≤ s k
  sum : ∀ i j, x (i, j) = ∑ k, u k i * s k * vh k j

/-- The nuclear norm of a complex matrix: the largest real part of the trace product with a matrix of spectral norm at most one. -/
noncomputable def cNucNorm (x : EuclideanSpace ℂ (ι × κ)) : ℝ :=
  sSup {t | ∃ w : EuclideanSpace ℂ (ι × κ), (∀ v, ‖cMatVec w v‖ ≤ ‖v‖) ∧ t = (∑ p, (starRingEnd ℂ) (w p) * x p).re}

/-- Complex Hankel matrices: constant along anti-diagonals. -/
def cHankelSet (m n : ℕ) : Set (EuclideanSpace ℂ (Fin m × Fin n)) := {X | ∀ a b, a.1.val + a.2.val = b.1.val + b.2.val → X a = X b}

end Verif
