import Verif.Spec.Basic
import Mathlib.Analysis.InnerProductSpace.PiL2

/-! # Specification vocabulary for matrices: singular value decompositions, eigen-decompositions, nuclear norm -/

open scoped RealInnerProductSpace

namespace Verif

variable {ι κ ρ : Type} [Fintype ι] [Fintype κ] [Fintype ρ]

/-- `X v` for a matrix with entries `X (i, j)`. -/
noncomputable def matVec (x : EuclideanSpace ℝ (ι × κ)) (v : EuclideanSpace ℝ κ) : EuclideanSpace ℝ ι :=
  WithLp.toLp 2 fun i => ∑ j, x (i, j) * v j

/-- `(u, s, v)` is a (thin) singular value decomposition of `X`: orthonormal families of left and right singular vectors,
non-negative singular values, and `X = Σ_k s_k u_k v_kᵀ`. -/
structure IsSVD (x : EuclideanSpace ℝ (ι × κ)) (u : ρ → EuclideanSpace ℝ ι) (s : ρ → ℝ) (v : ρ → EuclideanSpace ℝ κ) : Prop where
  left : Orthonormal ℝ u
  right : Orthonormal ℝ v
  nonneg : ∀ k, 0 ≤ s k
  sum : ∀ i j, x (i, j) = ∑ k, u k i * s k * v k j

/-- `lam` are the eigenvalues of `XᵀX` for some orthonormal basis of eigenvectors. -/
def IsEigGram (x : EuclideanSpace ℝ (ι × κ)) (lam : κ → ℝ) : Prop :=
  ∃ q : κ → EuclideanSpace ℝ κ, Orthonormal ℝ q ∧ ∀ k w, ⟪matVec x (q k), matVec x w⟫ = lam k * ⟪q k, w⟫

/-- The nuclear norm: the largest inner product with a matrix of spectral norm at most one. -/
noncomputable def nucNorm (x : EuclideanSpace ℝ (ι × κ)) : ℝ :=
  sSup {t | ∃ w : EuclideanSpace ℝ (ι × κ), (∀ v, ‖matVec w v‖ ≤ ‖v‖) ∧ t = ⟪w, x⟫}

/-- `f` is the weighted nuclear norm `f(X) = Σ_i w_i λ_i(X)`, where `λ_1(X) ≥ λ_2(X) ≥ …` are the singular values of `X`. -/
def IsWeightedNuc {r : ℕ} (w : Fin r → ℝ) (f : EuclideanSpace ℝ (ι × κ) → ℝ) : Prop :=
  ∀ x (u : Fin r → EuclideanSpace ℝ ι) (s : Fin r → ℝ) (v : Fin r → EuclideanSpace ℝ κ), IsSVD x u s v → Antitone s → f x = ∑ k, w k * s k

end Verif
