import Verif.Spec.Basic

/-! # Specification vocabulary for rates: averages of iterates and the Lagrangian of a composite problem -/

open scoped RealInnerProductSpace

namespace Verif

/-- The average of the first `N` terms of `v`. -/
noncomputable def avg {V : Type} [AddCommMonoid V] [Module ℝ V] (v : ℕ → V) (N : ℕ) : V := (1 / (N : ℝ)) • ∑ k ∈ Finset.range N, v k

/-- `F(x) + ⟪z, x⟫ + ⟪A x, y⟫ - G*(y)`, whose saddle points solve `min F(x) + ⟪z, x⟫ + G(A x)`. -/
noncomputable def lagrangian {E H : Type} [NormedAddCommGroup E] [InnerProductSpace ℝ E] [NormedAddCommGroup H] [InnerProductSpace ℝ H]
    (F : XFun E) (G : XFun H) (A : E → H) (z : E) (x : E) (y : H) : ℝ := F.val x + ⟪z, x⟫ + ⟪A x, y⟫ - G.conj.val y

end Verif
