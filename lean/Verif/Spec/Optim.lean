import Verif.Spec.Basic

/-! # Specification vocabulary for composite problems -/

open scoped RealInnerProductSpace

namespace Verif

variable {E : Type*} [NormedAddCommGroup E] [InnerProductSpace ℝ E] {H : Type*} [NormedAddCommGroup H] [InnerProductSpace ℝ H]

/-- Closed (lower semicontinuous) extended valued function: its epigraph is a closed set. -/
def XFun.Closed (F : XFun E) : Prop := IsClosed {p : E × ℝ | p.1 ∈ F.dom ∧ F.val p.1 ≤ p.2}

/-- `x` minimises `F + G` and the optimality condition `0 ∈ ∂F(x) + ∂G(x)` has the certificate `s`.  Every such `x` is a minimiser; conversely
a minimiser has a certificate under the usual qualification conditions (for instance if one of the functions is differentiable there). -/
def IsCertified (F G : XFun E) (x s : E) : Prop := IsSubgrad F x (-s) ∧ IsSubgrad G x s

/-- The composite objective `F(x) + ⟪z, x⟫ + G(A x)`. -/
noncomputable def compObj (F : XFun E) (G : XFun H) (A : E → H) (z : E) : XFun E where
  dom := {x | x ∈ F.dom ∧ A x ∈ G.dom}
  val := fun x => F.val x + ⟪z, x⟫ + G.val (A x)

/-- `(x, y)` is a saddle point of `F(x) + ⟪z, x⟫ + ⟪A x, y⟫ - G*(y)`. -/
def IsSaddle (F : XFun E) (G : XFun H) (A : E → H) (z : E) (x : E) (y : H) : Prop :=
  x ∈ F.dom ∧ y ∈ G.conj.dom ∧
    (∀ x' ∈ F.dom, F.val x + ⟪z, x⟫ + ⟪A x, y⟫ ≤ F.val x' + ⟪z, x'⟫ + ⟪A x', y⟫) ∧
    ∀ y' ∈ G.conj.dom, ⟪A x, y'⟫ - G.conj.val y' ≤ ⟪A x, y⟫ - G.conj.val y

/-- `y` certifies that `x` minimises `F(x) + ⟪z, x⟫ + G(A x)`: `-Aᵀy - z ∈ ∂F(x)` and `y ∈ ∂G(A x)`. -/
def IsCertifiedComp (F : XFun E) (G : XFun H) (A : E → H) (At : H → E) (z : E) (x : E) (y : H) : Prop :=
  IsSubgrad F x (-At y - z) ∧ IsSubgrad G (A x) y

/-- `∑ i, F i`. -/
noncomputable def sumObj {ι : Type*} [Fintype ι] (F : ι → XFun E) : XFun E where
  dom := {x | ∀ i, x ∈ (F i).dom}
  val := fun x => ∑ i, (F i).val x

/-- The subgradients `s i` of `F i` at `x` sum to `-v`: they certify that `x` minimises `∑ F i + ⟪v, ·⟫`. -/
def IsCertifiedSum {ι : Type*} [Fintype ι] (F : ι → XFun E) (v x : E) (s : ι → E) : Prop :=
  (∀ i, IsSubgrad (F i) x (s i)) ∧ ∑ i, s i = -v

end Verif
