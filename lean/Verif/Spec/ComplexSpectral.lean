import Verif.Spec.ComplexMatrix
import Mathlib.LinearAlgebra.Matrix.ConjTranspose

/-! # Specification vocabulary for functions of the singular values of a complex matrix -/

namespace Verif

variable {ι κ : Type} [Fintype ι] [Fintype κ]

/-- `f` is the weighted nuclear norm `f(X) = Σ_i w_i λ_i(X)` of complex matrices, where `λ_1(X) ≥ λ_2(X) ≥ …` are the singular values of `X`. -/
def IsWeightedNucC {r : ℕ} (w : Fin r → ℝ) (f : EuclideanSpace ℂ (ι × κ) → ℝ) : Prop :=
  ∀ x (u : Fin r → EuclideanSpace ℂ ι) (s : Fin r → ℝ) (vh : Fin r → EuclideanSpace ℂ κ), IsSVDC x u s vh → Antitone s → f x = ∑ k, w k * s k

/-- `lam` lists the eigenvalues of the matrix `A`, with multiplicity, for an orthonormal basis of eigenvectors. -/
def IsEigList (A : Matrix κ κ ℂ) (lam : κ → ℝ) : Prop :=
  ∃ q : κ → EuclideanSpace ℂ κ, Orthonormal ℂ q ∧ ∀ k i, ∑ j, A i j * q k j = lam k * q k i

/-- The entries of the matrix are real. -/
def RealEntries (x : EuclideanSpace ℂ (ι × κ)) : Prop := ∀ p, (x p).im = 0

end Verif
