import Verif.Spec.Matrix
import Mathlib.LinearAlgebra.Matrix.Rank

/-! # Specification vocabulary: quadratic envelopes, sparse vectors, low rank matrices -/

open scoped RealInnerProductSpace

namespace Verif

section
variable {E : Type*} [NormedAddCommGroup E] [InnerProductSpace ℝ E]

/-- `F + ½‖·‖²`. -/
noncomputable def XFun.addHalfSq (F : XFun E) : XFun E := ⟨F.dom, fun x => F.val x + ‖x‖ ^ 2 / 2⟩

/-- The quadratic envelope `Q(F)`: `Q(F) + ½‖·‖²` is the biconjugate of `F + ½‖·‖²`. -/
noncomputable def XFun.quadEnvelope (F : XFun E) : XFun E where
  dom := F.addHalfSq.conj.conj.dom
  val := fun x => F.addHalfSq.conj.conj.val x - ‖x‖ ^ 2 / 2

/-- `F(X) + ½‖X - M‖²`. -/
noncomputable def XFun.addMisfit (F : XFun E) (M : E) : XFun E := ⟨F.dom, fun x => F.val x + ‖x - M‖ ^ 2 / 2⟩

end

/-- The number of non-zero entries times `mu`. -/
noncomputable def l0Fun (ι : Type) [Fintype ι] (μ : ℝ) : XFun (EuclideanSpace ℝ ι) := ⟨Set.univ, fun x => μ * ({i | x i ≠ 0}.ncard : ℝ)⟩

/-- Vectors with at most `r` non-zero entries. -/
def sparseSet (ι : Type) [Fintype ι] (r : ℕ) : Set (EuclideanSpace ℝ ι) := {x | {i | x i ≠ 0}.ncard ≤ r}

/-- Matrices of rank at most `r`. -/
def lowRankSet (ι κ : Type) [Fintype ι] [Fintype κ] (r : ℕ) : Set (EuclideanSpace ℝ (ι × κ)) :=
  {x | (Matrix.of fun i j => x (i, j)).rank ≤ r}

end Verif
