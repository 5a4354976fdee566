import Verif.Spec.Basic
import Verif.Model.ProxOperator

/-!
# What it means for an operator object to be correct

These predicates link the API of an operator object to the mathematical specification.
-/

namespace Verif

variable {E : Type} [NormedAddCommGroup E] [InnerProductSpace ℝ E]

/-- `prox(x, tau)` returns a minimiser of `F(y) + ‖y-x‖²/(2 tau)` for every `x` and `tau > 0`. -/
def ProxExact (f : ProxOp E) (F : XFun E) : Prop :=
  ∀ (x : E) (τ : ℝ), 0 < τ → ∃ p, f.prox x τ = .ok p ∧ IsProx F τ x p

/-- `proxdual(x, tau)` returns a minimiser of `G(y) + ‖y-x‖²/(2 tau)`. -/
def ProxdualExact (f : ProxOp E) (G : XFun E) : Prop :=
  ∀ (x : E) (τ : ℝ), 0 < τ → ∃ p, f.proxdual x τ = .ok p ∧ IsProx G τ x p

/-- `f(x)` returns the float `F(x)`. -/
def EvaluatesNum (f : ProxOp E) (F : E → ℝ) : Prop := ∀ x, f.call x = .ok (.num (F x))

/-- `f(x)` returns the bool `x ∈ C`. -/
def EvaluatesIndicator (f : ProxOp E) (C : Set E) : Prop :=
  ∀ x, ∃ b : Bool, f.call x = .ok (.bool b) ∧ (b = true ↔ x ∈ C)

/-- Both methods reject every non-positive step with `ValueError`. -/
def RejectsBadTau (f : ProxOp E) : Prop :=
  ∀ (x : E) (τ : ℝ), τ ≤ 0 → f.prox x τ = .error .valueError ∧ f.proxdual x τ = .error .valueError

/-- `grad(x)` returns the gradient of `F` at `x`. -/
def GradExact (f : ProxOp E) (F : E → ℝ) : Prop :=
  ∀ x, ∃ g, f.grad x = .ok g ∧ IsGrad F x g

end Verif
