import Verif.Props.HQSConv
import Verif.Props.AdaptivePD
import Verif.Props.LinearRate
import Mathlib.Analysis.InnerProductSpace.PiL2

/-! # A concrete problem that meets the hypotheses of the solver theorems

`f = L2(b=[3, 1])`, `g = L1()`, `A = 2 I` on arrays of two numbers.  The minimiser of `f + g` is `[2, 0]`, the one of `f + g(A ·)` is `[1, 0]`; neither is a
starting point of the runs below.  The files next to this one apply the theorems of `Verif/Props` to these objects. -/

open scoped RealInnerProductSpace
open Filter Topology

set_option linter.unnecessarySeqFocus false

namespace Verif
namespace Kit

/-- Arrays of two numbers. -/
abbrev V2 : Type := Vec (Fin 2)

/-- The data `[3, 1]`. -/
noncomputable def b : V2 := !₂[3, 1]

/-- Exact inner solvers (never called without an operator). -/
noncomputable def ext : L2Ext V2 V2 (V2 →ₗ[ℝ] V2) := (exists_exactExt (E := V2) (F := V2)).choose

lemma hext : L2ExtWithin ext 0 := (exists_exactExt (E := V2) (F := V2)).choose_spec

/-- The state of a fresh `L2` object. -/
noncomputable def st : L2State V2 (V2 →ₗ[ℝ] V2) := ⟨0, none, 0, none⟩

/-- `L2(b=[3, 1])`. -/
noncomputable def f : ProxOp V2 := L2.obj ext (l2Plain (.bOnly b) 1) st

/-- `½‖x - b‖²`. -/
noncomputable def φ : V2 → ℝ := fun x => 1 / 2 * ‖x - b‖ ^ 2

/-- The same as an extended function. -/
noncomputable def F : XFun V2 := XFun.ofReal φ

/-- `L1()`. -/
noncomputable def g : ProxOp V2 := L1 1 none

/-- `‖x‖₁`. -/
noncomputable def ψ : V2 → ℝ := fun x => 1 * ∑ i, |x i - (0 : V2) i|

/-- The same as an extended function. -/
noncomputable def G : XFun V2 := XFun.ofReal ψ

/-- The operator `2 I`. -/
noncomputable def A : LinOp V2 V2 := (idOp V2).scale 2

lemma spec_eq : l2Spec (l2Plain (E := V2) (F' := V2) (.bOnly b) 1) = φ := by
  funext x; simp [l2Spec, l2Plain, φ]

lemma hfc : EvaluatesNum f φ := spec_eq ▸ l2obj_call ext _ st
lemma hfg : GradExact f φ := spec_eq ▸ l2obj_grad ext _ rfl st
lemma hf : ProxExact f F := by
  have := l2Plain_exact ext (.bOnly b) (by simp) one_pos st
  rw [spec_eq] at this
  exact this
lemma hφ : ConvexOn ℝ Set.univ φ := spec_eq ▸ l2_convex _ zero_le_one
lemma hF : F.Convex := hφ
lemma hG : G.Convex := l1_convex
lemma hψ : ConvexOn ℝ Set.univ ψ := l1_convex
lemma hg : ProxExact g G := l1_proxExact
lemma hd : ProxdualExact g G.conj := l1_proxdualExact
lemma hgc : EvaluatesNum g ψ := fun x => by
  obtain h := C11_l1_call 1 (none : Option V2) x
  simpa [ψ, g] using h

lemma isGrad (x : V2) : IsGrad φ x (x - b) := by
  have := l2Spec_isGrad (l2Plain (E := V2) (F' := V2) (.bOnly b) 1) x
  rw [spec_eq] at this
  simpa [l2Grad, l2Plain] using this

lemma grad_unique {x u : V2} (h : IsGrad φ x u) : u = x - b := by
  have h3 := HasFDerivAt.unique (show HasFDerivAt φ (innerSL ℝ u) x from h) (isGrad x)
  exact ext_inner_right ℝ fun v => by simpa [inner_sub_left] using congrArg (fun l => l v) h3

lemma hL : LipschitzGrad φ 1 := fun x y gx gy hx hy => by
  rw [grad_unique hx, grad_unique hy, one_mul, sub_sub_sub_cancel_right]

lemma φ_above (x y : V2) : φ x + ⟪x - b, y - x⟫ + 1 / 2 * ‖y - x‖ ^ 2 = φ y := by
  have : y - b = (x - b) + (y - x) := by abel
  simp only [φ, this, norm_add_sq_real]
  ring

lemma strong : StrongConvexOn Set.univ 1 φ := by
  refine ⟨convex_univ, fun x _ y _ a c ha hc hac => ?_⟩
  have h1 := φ_above (a • x + c • y) x
  have h2 := φ_above (a • x + c • y) y
  have e1 : x - (a • x + c • y) = c • (x - y) := by
    rw [show a = 1 - c by linarith, sub_smul, one_smul, smul_sub]; abel
  have e2 : y - (a • x + c • y) = -(a • (x - y)) := by
    rw [show c = 1 - a by linarith, sub_smul, one_smul, smul_sub]; abel
  rw [e1, inner_smul_right, norm_smul, Real.norm_eq_abs, abs_of_nonneg hc] at h1
  rw [e2, inner_neg_right, inner_smul_right, norm_neg, norm_smul, Real.norm_eq_abs, abs_of_nonneg ha] at h2
  simp only [smul_eq_mul, ← h1, ← h2]
  have : c = 1 - a := by linarith
  subst this
  ring_nf
  linarith

lemma opA (v : V2) : ‖A.matvec v‖ ≤ 2 * ‖v‖ := by
  simp [A, idOp, LinOp.scale, norm_smul]

/-- The minimiser of `f + g` and the subgradient of `g` there. -/
noncomputable def xs : V2 := !₂[2, 0]
noncomputable def ss : V2 := !₂[1, 1]

/-- `s` is a subgradient of the 1-norm at `x` when `|sᵢ| ≤ 1` and `sᵢ xᵢ = |xᵢ|`. -/
lemma l1_subgrad {x s : V2} (h1 : ∀ i, |s i| ≤ 1) (h2 : ∀ i, s i * x i = |x i|) : IsSubgrad G x s := by
  refine ⟨trivial, fun y _ => ?_⟩
  simp only [G, ψ, XFun.ofReal, one_mul, PiLp.zero_apply, sub_zero, PiLp.inner_apply, RCLike.inner_apply, conj_trivial, PiLp.sub_apply,
    ← Finset.sum_add_distrib]
  refine Finset.sum_le_sum fun i _ => ?_
  have := h2 i
  have h3 : y i * s i ≤ |y i| := (le_abs_self _).trans (by rw [abs_mul]; exact mul_le_of_le_one_right (abs_nonneg _) (h1 i))
  nlinarith

lemma f_subgrad (x : V2) : IsSubgrad F x (x - b) := ⟨trivial, fun y _ => by
  have := φ_above x y
  simp only [F, XFun.ofReal]
  nlinarith [sq_nonneg ‖y - x‖]⟩

lemma xs_sub : xs - b = -ss := by
  ext i; fin_cases i <;> simp [xs, b, ss] <;> norm_num

lemma cert : IsCertified F G xs ss := by
  refine ⟨xs_sub ▸ f_subgrad xs, l1_subgrad ?_ ?_⟩ <;> intro i <;> fin_cases i <;> simp [xs, ss]

/-- The minimiser of `f + g(A ·)` and the dual solution. -/
noncomputable def xa : V2 := !₂[1, 0]
noncomputable def ya : V2 := !₂[1, 1 / 2]

lemma certA : IsCertifiedComp F G A.matvec A.rmatvec 0 xa ya := by
  have e : -A.rmatvec ya - 0 = xa - b := by
    ext i; fin_cases i <;> simp [A, idOp, LinOp.scale, xa, ya, b] <;> norm_num
  refine ⟨e ▸ f_subgrad xa, l1_subgrad ?_ ?_⟩ <;> intro i <;> fin_cases i <;> simp [A, idOp, LinOp.scale, xa, ya] <;> norm_num

lemma isMin : (compositeObj φ 1 G).IsMin xs := by
  refine ⟨⟨trivial, trivial⟩, fun y _ => ?_⟩
  have h1 := cert.1.2 y trivial
  have h2 := cert.2.2 y trivial
  simp only [compositeObj, XFun.add, XFun.smul, F, G, XFun.ofReal, one_mul, inner_neg_left] at h1 h2 ⊢
  linarith

end Kit
end Verif
