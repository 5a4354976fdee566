import Mathlib.Analysis.InnerProductSpace.Basic
import Mathlib.Analysis.Convex.Function
import Mathlib.Analysis.Calculus.FDeriv.Basic
import Mathlib.Analysis.InnerProductSpace.LinearMap

/-!
# Specification vocabulary

Mathematical notions used to state the properties.  Nothing in this file refers to the
model of the code.
-/

open scoped RealInnerProductSpace

namespace Verif

/-- A function with values in `(-∞, +∞]`: finite value `val x` for `x ∈ dom`, `+∞` outside. -/
structure XFun (E : Type*) where
  dom : Set E
  val : E → ℝ

namespace XFun

variable {E : Type*}

/-- A real valued function (finite everywhere). -/
def ofReal (f : E → ℝ) : XFun E := ⟨Set.univ, f⟩

/-- The indicator function of a set: `0` on `C`, `+∞` outside. -/
def indicator (C : Set E) : XFun E := ⟨C, fun _ => 0⟩

/-- `c • F` for a (positive) scalar `c`. -/
def smul (c : ℝ) (F : XFun E) : XFun E := ⟨F.dom, fun x => c * F.val x⟩

/-- Pointwise sum. -/
def add (F G : XFun E) : XFun E := ⟨F.dom ∩ G.dom, fun x => F.val x + G.val x⟩

/-- `F ∘ A`. -/
def comp {E' : Type*} (F : XFun E) (A : E' → E) : XFun E' := ⟨{x | A x ∈ F.dom}, fun x => F.val (A x)⟩

/-- `x` minimises `F`. -/
def IsMin (F : XFun E) (x : E) : Prop := x ∈ F.dom ∧ ∀ y ∈ F.dom, F.val x ≤ F.val y

variable [NormedAddCommGroup E] [InnerProductSpace ℝ E]

/-- `F + ⟪v, ·⟫`. -/
def addLinear (F : XFun E) (v : E) : XFun E where
  dom := F.dom
  val := fun x => F.val x + ⟪v, x⟫

/-- Convexity of an extended valued function. -/
def Convex (F : XFun E) : Prop := ConvexOn ℝ F.dom F.val

/-- Convex conjugate `F*(u) = sup_y ⟪u,y⟫ - F(y)`, finite where the supremum is. -/
noncomputable def conj (F : XFun E) : XFun E where
  dom := {u | BddAbove ((fun y => ⟪u, y⟫ - F.val y) '' F.dom)}
  val := fun u => sSup ((fun y => ⟪u, y⟫ - F.val y) '' F.dom)

end XFun

section
variable {E : Type*} [NormedAddCommGroup E] [InnerProductSpace ℝ E]

/-- The objective minimised by the proximal map of `F` with step `τ` at `x`. -/
noncomputable def proxObj (F : XFun E) (τ : ℝ) (x y : E) : ℝ := F.val y + ‖y - x‖ ^ 2 / (2 * τ)

/-- `p = prox_{τF}(x)`: `p` is a global minimiser of `y ↦ F(y) + ‖y-x‖²/(2τ)`. -/
def IsProx (F : XFun E) (τ : ℝ) (x p : E) : Prop :=
  p ∈ F.dom ∧ ∀ y ∈ F.dom, proxObj F τ x p ≤ proxObj F τ x y

/-- `p` is the only global minimiser. -/
def IsUniqueProx (F : XFun E) (τ : ℝ) (x p : E) : Prop :=
  IsProx F τ x p ∧ ∀ q, IsProx F τ x q → q = p

/-- Moreau envelope `inf_y F(y) + ‖y-x‖²/(2σ)`. -/
noncomputable def moreauEnv (F : XFun E) (σ : ℝ) (x : E) : ℝ := sInf (proxObj F σ x '' F.dom)

/-- `p` is a closest point of `C` to `x`. -/
def IsProj (C : Set E) (x p : E) : Prop := p ∈ C ∧ ∀ y ∈ C, ‖x - p‖ ≤ ‖x - y‖

/-- `p` is the only closest point. -/
def IsUniqueProj (C : Set E) (x p : E) : Prop :=
  IsProj C x p ∧ ∀ q, IsProj C x q → q = p

/-- `s` is a sub-gradient of `F` at `p`. -/
def IsSubgrad (F : XFun E) (p s : E) : Prop :=
  p ∈ F.dom ∧ ∀ y ∈ F.dom, F.val p + ⟪s, y - p⟫ ≤ F.val y

/-- `g` is the gradient of the real valued function `f` at `x`: the derivative is `⟪g, ·⟫`. -/
def IsGrad (f : E → ℝ) (x g : E) : Prop := HasFDerivAt f (innerSL ℝ g) x

end

end Verif
