import Verif.Props.ProxGrad
import Verif.Props.L2
import Verif.Props.Closed

/-! # C41-C43 at work: least squares with an L1 penalty

The hypotheses of the proximal gradient theorems are met by the `L2` data term, with any operator and data, and the L1 norm. -/

open scoped RealInnerProductSpace
open Filter Topology

set_option linter.unusedSectionVars false

namespace Verif

variable {E F C : Type} [NormedAddCommGroup E] [InnerProductSpace ℝ E] [NormedAddCommGroup F] [InnerProductSpace ℝ F]

/-- An `L2` object in the state `st`, as the operator object a solver sees (L2.py:194-306); the state reached by earlier `prox` calls
is the parameter `st`. -/
noncomputable def L2.obj (ext : L2Ext E F C) (a : L2Args E F) (st : L2State E C) : ProxOp E where
  call := L2.call a
  prox? := some fun x τ => (L2.prox ext a st x τ).2.1
  proxdual? := none
  grad? := some (L2.grad a)
  hasgrad := true
  sigmame := 1

lemma l2obj_call (ext : L2Ext E F C) (a : L2Args E F) (st : L2State E C) : EvaluatesNum (L2.obj ext a st) (l2Spec a) := fun x => C18_l2_call a x

lemma l2obj_grad [FiniteDimensional ℝ E] (ext : L2Ext E F C) (a : L2Args E F) (hq : a.qgrad = true) (st : L2State E C) :
    GradExact (L2.obj ext a st) (l2Spec a) := by
  intro x
  obtain ⟨g, h1, h2, -⟩ := C18_l2_grad a x
  refine ⟨g, h1, ?_⟩
  have h3 := h2 hq
  have hcall : (fun y => (Except.toOption (L2.call a y)).elim 0 CallVal.toReal) = l2Spec a := by
    funext y; rw [C18_l2_call]; rfl
  rwa [hcall] at h3

lemma l2obj_prox [FiniteDimensional ℝ E] (ext : L2Ext E F C) (hext : L2ExtWithin ext 0) (a : L2Args E F) (hσ : 0 < a.σ) (x0 : Option E)
    (s : L2State E C) (hs : L2.init a x0 = .ok s) (calls : List (E × ℝ)) :
    ProxExact (L2.obj ext a (L2.after ext a s calls)) (XFun.ofReal (l2Spec a)) := by
  intro x τ hτ
  obtain ⟨z, p, h1, h2, h3⟩ := C17_l2_prox ext 0 hext a hσ x0 s hs calls x τ hτ
  have : z = p := sub_eq_zero.1 (norm_le_zero_iff.1 h3)
  exact ⟨z, h1, this ▸ h2.1⟩

/-- The gradient of the data term is `sigma ‖Op‖²`-Lipschitz. -/
lemma l2_lipschitz [FiniteDimensional ℝ E] (a : L2Args E F) (hσ : 0 ≤ a.σ) (Op : LinOp E F) (e : Bool) (b : F) (hd : a.data = .opB Op e b) {K : ℝ}
    (hK : 0 ≤ K) (hop : ∀ v, ‖Op.matvec v‖ ≤ K * ‖v‖) : LipschitzGrad (l2Spec a) (a.σ * K ^ 2) := by
  intro x y gx gy hgx hgy
  have uniq : ∀ {x g}, IsGrad (l2Spec a) x g → g = l2Grad a x := by
    intro x g hg
    have h1 : HasFDerivAt (l2Spec a) (innerSL ℝ g) x := hg
    have h2 : HasFDerivAt (l2Spec a) (innerSL ℝ (l2Grad a x)) x := l2Spec_isGrad a x
    have h3 := h1.unique h2
    exact ext_inner_right ℝ fun v => by simpa using congrArg (fun l => l v) h3
  rw [uniq hgx, uniq hgy]
  have e1 : l2Grad a x - l2Grad a y = a.σ • Op.rmatvec (Op.matvec (x - y)) := by
    simp only [l2Grad, hd, map_sub, smul_sub]
    abel
  have hadj : ∀ w, ‖Op.rmatvec w‖ ≤ K * ‖w‖ := by
    intro w
    by_cases h0 : ‖Op.rmatvec w‖ = 0
    · rw [h0]; positivity
    · have h1 : ‖Op.rmatvec w‖ ^ 2 = ⟪Op.matvec (Op.rmatvec w), w⟫ := by rw [Op.dot, real_inner_self_eq_norm_sq]
      have h2 := real_inner_le_norm (Op.matvec (Op.rmatvec w)) w
      have h3 := hop (Op.rmatvec w)
      have h4 : ‖Op.rmatvec w‖ * ‖Op.rmatvec w‖ ≤ ‖Op.rmatvec w‖ * (K * ‖w‖) := by
        nlinarith [norm_nonneg w, norm_nonneg (Op.rmatvec w)]
      exact le_of_mul_le_mul_left h4 (lt_of_le_of_ne (norm_nonneg _) (Ne.symm h0))
  rw [e1, norm_smul, Real.norm_eq_abs, abs_of_nonneg hσ]
  calc a.σ * ‖Op.rmatvec (Op.matvec (x - y))‖ ≤ a.σ * (K * (K * ‖x - y‖)) :=
        mul_le_mul_of_nonneg_left ((hadj _).trans (mul_le_mul_of_nonneg_left (hop _) hK)) hσ
    _ = a.σ * K ^ 2 * ‖x - y‖ := by ring

/-- A differentiable function above its linearisations is convex. -/
lemma convexOn_of_above {φ : E → ℝ} {G : E → E} (h : ∀ x y, φ x + ⟪G x, y - x⟫ ≤ φ y) : ConvexOn ℝ Set.univ φ := by
  refine ⟨convex_univ, fun x _ y _ a b ha hb hab => ?_⟩
  have h1 := h (a • x + b • y) x
  have h2 := h (a • x + b • y) y
  have e1 : x - (a • x + b • y) = b • (x - y) := by
    rw [show a = 1 - b by linarith, sub_smul, one_smul, smul_sub]; abel
  have e2 : y - (a • x + b • y) = -(a • (x - y)) := by
    rw [show b = 1 - a by linarith, sub_smul, one_smul, smul_sub]; abel
  rw [e1, inner_smul_right] at h1
  rw [e2, inner_neg_right, inner_smul_right] at h2
  simp only [smul_eq_mul]
  have h3 := mul_le_mul_of_nonneg_left h1 ha
  have h4 := mul_le_mul_of_nonneg_left h2 hb
  have : φ (a • x + b • y) = a * φ (a • x + b • y) + b * φ (a • x + b • y) := by rw [← add_mul, hab, one_mul]
  nlinarith

lemma l2_convex (a : L2Args E F) (hσ : 0 ≤ a.σ) : ConvexOn ℝ Set.univ (l2Spec a) := convexOn_of_above (l2Spec_above a hσ)

variable {ι : Type} [Fintype ι]

lemma l1_convex : (XFun.ofReal fun x : Vec ι => 1 * ∑ i, |x i - (0 : Vec ι) i|).Convex := by
  refine ⟨convex_univ, fun x _ y _ a b ha hb hab => ?_⟩
  simp only [XFun.ofReal, one_mul, smul_eq_mul, Finset.mul_sum, ← Finset.sum_add_distrib, PiLp.zero_apply, sub_zero]
  refine Finset.sum_le_sum fun i _ => (abs_add_le _ _).trans ?_
  simp [abs_mul, abs_of_nonneg ha, abs_of_nonneg hb]

lemma l1_proxExact : ProxExact (L1 1 (none : Option (Vec ι))) (XFun.ofReal fun x : Vec ι => 1 * ∑ i, |x i - (0 : Vec ι) i|) := by
  intro x τ hτ
  obtain ⟨p, h1, h2⟩ := C11_l1_prox 1 zero_le_one none x τ hτ
  exact ⟨p, h1, h2.1⟩

/-- C42 for `ProximalGradient(L2(Op, b), L1(), x0, epsg=ε, tau=τ, acceleration='fista')`, any operator with `‖Op v‖ ≤ K‖v‖`, `tau K² ≤ 1`: the
objective `½‖Op x - b‖² + ε‖x‖₁` exceeds its minimum by at most `2‖x0-c‖²/(tau (n+1)²)`. -/
theorem C42_lasso (ext : L2Ext (Vec ι) F C) (Op : LinOp (Vec ι) F) (e : Bool) (b : F) (niter : NIter) (warm : Bool) (sv : L2Solver) (ds : DenseSolver)
    (st : L2State (Vec ι) C) {K τ ε : ℝ} (hK : 0 ≤ K) (hop : ∀ v, ‖Op.matvec v‖ ≤ K * ‖v‖) (hτ : 0 < τ) (hτK : τ * K ^ 2 ≤ 1) (hε : 0 < ε)
    (x0 : Vec ι) (n : ℕ) (hn : 0 < n) (c : Vec ι)
    (hc : ∀ y : Vec ι, 1 / 2 * ‖Op.matvec c - b‖ ^ 2 + ε * ∑ i, |c i| ≤ 1 / 2 * ‖Op.matvec y - b‖ ^ 2 + ε * ∑ i, |y i|) :
    ∃ s, ProximalGradient (L2.obj ext ⟨.opB Op e b, none, 1, 1, true, niter, warm, sv, ds⟩ st) (L1 1 none) x0 (pgArgs τ ε .fista n) = .ok s ∧
      1 / 2 * ‖Op.matvec s.x - b‖ ^ 2 + ε * ∑ i, |s.x i| - (1 / 2 * ‖Op.matvec c - b‖ ^ 2 + ε * ∑ i, |c i|) ≤
        2 * ‖x0 - c‖ ^ 2 / (τ * (n + 1) ^ 2) := by
  set a : L2Args (Vec ι) F := ⟨.opB Op e b, none, 1, 1, true, niter, warm, sv, ds⟩ with ha
  have hval : ∀ y, (compositeObj (l2Spec a) ε (XFun.ofReal fun x : Vec ι => 1 * ∑ i, |x i - (0 : Vec ι) i|)).val y =
      1 / 2 * ‖Op.matvec y - b‖ ^ 2 + ε * ∑ i, |y i| := by
    intro y
    simp [compositeObj, XFun.add, XFun.ofReal, XFun.smul, l2Spec, ha]
  obtain ⟨s, hs⟩ := C41_pg_returns (l2obj_grad ext a rfl st) l1_proxExact hε hτ .fista (by decide) x0 n hn
  refine ⟨s, hs, ?_⟩
  have := C42_accelerated_rate (L := a.σ * K ^ 2) (l2obj_grad ext a rfl st) (l2_lipschitz a (by simp [ha]) Op e b rfl hK hop)
    (l2_convex a (by simp [ha])) l1_convex l1_proxExact hε hτ (by simpa [ha] using hτK) .fista (Or.inl rfl) x0 n hn s hs c
    ⟨⟨trivial, trivial⟩, fun y _ => by rw [hval, hval]; exact hc y⟩
  rwa [hval, hval] at this

end Verif
