import Verif.Model.Nonlinear
import Verif.Spec.Smooth
import Verif.Lemmas.Forward
import Verif.Lemmas.Prox
import Verif.Lemmas.Smooth
import Verif.Lemmas.Closed
import Verif.Lemmas.Calculus
import Mathlib.Topology.MetricSpace.Contracting

/-! # C90: `Nonlinear` -/

open scoped RealInnerProductSpace
open Filter Topology

namespace Verif

variable {E : Type} [NormedAddCommGroup E] [InnerProductSpace ℝ E]

/-- A subclass for the function `f` with gradient `G`. -/
structure NLClass.Implements (C : NLClass E) (f : E → ℝ) (G : E → E) : Prop where
  fn : ∀ x, C.fn x = .ok (f x)
  gradf : ∀ x, C.gradf x = .ok (G x)
  isGrad : ∀ x, IsGrad f x (G x)

lemma nl_normsq (x z : E) : HasFDerivAt (fun y : E => ‖y - x‖ ^ 2) ((2 : ℝ) • (innerSL ℝ (z - x))) z := by
  have : IsGrad (fun y : E => ‖y - x‖ ^ 2) z ((2 : ℝ) • (z - x)) := by
    refine isGrad_of_quad (C := 1) fun y => ?_
    have e : y - x = (y - z) + (z - x) := by abel
    rw [e, norm_add_sq_real, inner_smul_left, real_inner_comm (z - x)]
    simp only [conj_trivial]
    rw [abs_le]
    constructor <;> nlinarith [sq_nonneg ‖y - z‖]
  exact HasFDerivAt.congr_fderiv this (by ext v; simp [inner_smul_left])

/-- C90: the functions offered to `optimize` are the objective of the proximal problem and its gradient. -/
theorem C90_subproblem {C : NLClass E} {f : E → ℝ} {G : E → E} (hC : C.Implements f G) {s : NLState E} {x : E} (hs : s.y = some x) (τ : ℝ) (z : E) :
    C.funprox s z τ = .ok (proxObj (.ofReal f) τ x z) ∧
    ∃ g, C.gradprox s z τ = .ok g ∧ C.fungradprox s z τ = .ok (proxObj (.ofReal f) τ x z, g) ∧ IsGrad (proxObj (.ofReal f) τ x) z g := by
  have e : f z + 1 / (2 * τ) * ⟪z - x, z - x⟫ = proxObj (.ofReal f) τ x z := by
    rw [real_inner_self_eq_norm_sq]
    simp only [proxObj, XFun.ofReal]
    ring
  refine ⟨?_, G z + (1 / τ) • (z - x), ?_, ?_, ?_⟩
  · simp only [NLClass.funprox, hC.fn, hs, getAttr]
    rw [← e]; rfl
  · simp only [NLClass.gradprox, hC.gradf, hs, getAttr]; rfl
  · simp only [NLClass.fungradprox, NLClass.fungrad, hC.gradf, hC.fn, hs, getAttr]
    rw [← e]; rfl
  · have h1 := hC.isGrad z
    unfold IsGrad at *
    have h2 := nl_normsq x z
    have h3 := h1.add (h2.mul_const (1 / (2 * τ)))
    have : proxObj (.ofReal f) τ x = fun y => f y + ‖y - x‖ ^ 2 * (1 / (2 * τ)) := by
      ext y; simp only [proxObj, XFun.ofReal]; ring
    rw [this]
    refine h3.congr_fderiv ?_
    ext v
    by_cases hτ : τ = 0
    · simp [hτ]
    · simp [inner_add_left, inner_smul_left]
      field_simp

/-- `optimize` solves the problem it is given. -/
def NLClass.Exact (C : NLClass E) : Prop :=
  ∀ (s : NLState E) (x : E) (τ : ℝ), 0 < τ → s.y = some x → s.tau = some τ → ∃ r v, C.optimize s = .ok r ∧ C.funprox s r τ = .ok v ∧ ∀ z w, C.funprox s z τ = .ok w → v ≤ w

/-- C90: with an exact `optimize`, `prox` returns a proximal point after any history of calls. -/
theorem C90_prox_exact {C : NLClass E} {f : E → ℝ} {G : E → E} (hC : C.Implements f G) (ho : C.Exact) (x0 : E) (as : List (E × ℝ)) (x : E) {τ : ℝ} (hτ : 0 < τ) :
    ∃ r, (C.prox (C.run (NLClass.init x0) as) x τ).2 = .ok r ∧ IsProx (.ofReal f) τ x r := by
  generalize C.run (NLClass.init x0) as = s
  obtain ⟨r, v, h1, h2, h3⟩ := ho { s with y := some x, tau := some τ } x τ hτ rfl rfl
  refine ⟨r, ?_, trivial, fun z _ => ?_⟩
  · simp only [NLClass.prox, if_neg (not_le.2 hτ), h1]
  · have e := fun z => (C90_subproblem hC (s := { s with y := some x, tau := some τ }) (x := x) rfl τ z).1
    have := h3 z _ (e z)
    rw [e r] at h2
    cases h2
    exact this

lemma nl_run_prox {C : NLClass E} {s : NLState E} {x : E} {τ : ℝ} (hτ : 0 < τ) {r : E} (h : C.optimize { s with y := some x, tau := some τ } = .ok r) :
    C.prox s x τ = (if C.warm then ⟨r, some x, some τ⟩ else ⟨s.x0, some x, some τ⟩, .ok r) := by
  simp only [NLClass.prox, if_neg (not_le.2 hτ), h]

/-- C90: with an exact `optimize` and a convex function, `proxdual` returns the proximal point of the conjugate after any history. -/
theorem C90_proxdual_exact {C : NLClass E} {f : E → ℝ} {G : E → E} (hC : C.Implements f G) (ho : C.Exact) (hf : ConvexOn ℝ Set.univ f) (x0 : E) (as : List (E × ℝ)) (x : E)
    {τ : ℝ} (hτ : 0 < τ) : ∃ r, (C.proxdual (C.run (NLClass.init x0) as) x τ).2 = .ok r ∧ IsProx (XFun.ofReal f).conj τ x r := by
  obtain ⟨r, h1, h2⟩ := C90_prox_exact hC ho x0 as ((1 / τ) • x) (one_div_pos.2 hτ)
  have h3 := conj_isProx (F := .ofReal f) hf (one_div_pos.2 hτ) h2
  rw [one_div_one_div, smul_smul, mul_one_div_cancel hτ.ne', one_smul, smul_sub, smul_smul, mul_one_div_cancel hτ.ne', one_smul] at h3
  refine ⟨x - τ • r, ?_, h3⟩
  simp only [NLClass.proxdual, if_neg (not_le.2 hτ), h1]
  rfl

/-- C90: without warm start the answer does not depend on the earlier calls. -/
theorem C90_cold_stateless {C : NLClass E} (hw : C.warm = false) (x0 : E) (as : List (E × ℝ)) (x : E) (τ : ℝ) :
    (C.prox (C.run (NLClass.init x0) as) x τ).2 = (C.prox (NLClass.init x0) x τ).2 := by
  have key : ∀ s : NLState E, (C.run s as).x0 = s.x0 := by
    induction as with
    | nil => intro s; rfl
    | cons a as ih =>
      intro s
      rw [NLClass.run, ih]
      unfold NLClass.prox
      by_cases h : a.2 ≤ 0
      · rw [if_pos h]
      · rw [if_neg h]
        simp only
        split <;> simp [hw]
  unfold NLClass.prox
  by_cases h : τ ≤ 0
  · rw [if_pos h, if_pos h]
  · rw [if_neg h, if_neg h, key]

/-- C01 for `Nonlinear`: a call with a step that is not positive is rejected and leaves the object as it was. -/
theorem C01_nonlinear (C : NLClass E) (s : NLState E) (x : E) {τ : ℝ} (hτ : τ ≤ 0) :
    C.prox s x τ = (s, .error .valueError) ∧ C.proxdual s x τ = (s, .error .valueError) := by
  simp [NLClass.prox, NLClass.proxdual, hτ]

/-- C90: before the first call of `prox` the functions for `optimize` raise AttributeError. -/
theorem C90_early {C : NLClass E} {f : E → ℝ} {G : E → E} (hC : C.Implements f G) (x0 z : E) (τ : ℝ) :
    C.funprox (NLClass.init x0) z τ = .error .attributeError ∧ C.gradprox (NLClass.init x0) z τ = .error .attributeError := by
  constructor
  · simp only [NLClass.funprox, hC.fn, NLClass.init, getAttr]; rfl
  · simp only [NLClass.gradprox, hC.gradf, NLClass.init, getAttr]; rfl

/-! ## Inexact solves -/

/-- A proximal point is stationary. -/
lemma nl_stationary {f : E → ℝ} {x p g : E} {τ : ℝ} (hg : IsGrad f p g) (hp : IsProx (.ofReal f) τ x p) : g + (1 / τ) • (p - x) = 0 := by
  have h2 := nl_normsq x p
  unfold IsGrad at hg
  have h3 := hg.add (h2.mul_const (1 / (2 * τ)))
  have hm : IsLocalMin (fun y => f y + ‖y - x‖ ^ 2 * (1 / (2 * τ))) p := by
    refine Filter.Eventually.of_forall fun y => ?_
    have := hp.2 y trivial
    simp only [proxObj, XFun.ofReal] at this
    simp only [mul_one_div]
    exact this
  have h4 := hm.hasFDerivAt_eq_zero h3
  have h5 := congrArg (fun l => l (g + (1 / τ) • (p - x))) h4
  simp only [ContinuousLinearMap.add_apply, ContinuousLinearMap.smul_apply, innerSL_apply_apply, ContinuousLinearMap.zero_apply] at h5
  rw [← inner_self_eq_zero (𝕜 := ℝ), ← h5]
  rw [inner_add_left (g) ((1 / τ) • (p - x)), inner_smul_left]
  by_cases hτ : τ = 0
  · simp [hτ]
  · simp; field_simp

lemma nl_residual {f : E → ℝ} {G : E → E} {L : ℝ} {x p r : E} {τ : ℝ} (hτ : 0 < τ) (hG : ∀ x, IsGrad f x (G x)) (hmono : -(L * ‖r - p‖ ^ 2) ≤ ⟪G r - G p, r - p⟫)
    (hp : IsProx (.ofReal f) τ x p) : (1 - τ * L) * ‖r - p‖ ≤ τ * ‖G r + (1 / τ) • (r - x)‖ := by
  have h0 := nl_stationary (hG p) hp
  have e : G r + (1 / τ) • (r - x) = (G r - G p) + (1 / τ) • (r - p) := by
    rw [← sub_zero (G r + _), ← h0]; module
  have h1 : (1 / τ - L) * ‖r - p‖ ^ 2 ≤ ‖G r + (1 / τ) • (r - x)‖ * ‖r - p‖ := by
    refine le_trans ?_ (real_inner_le_norm _ _)
    rw [e, inner_add_left, inner_smul_left, real_inner_self_eq_norm_sq]
    simp only [conj_trivial]
    linarith
  rcases (norm_nonneg (r - p)).eq_or_lt with h | h
  · rw [← h]; simp; positivity
  · have h2 : (1 / τ - L) * ‖r - p‖ ≤ ‖G r + (1 / τ) • (r - x)‖ := by
      refine le_of_mul_le_mul_right ?_ h
      calc _ = (1 / τ - L) * ‖r - p‖ ^ 2 := by ring
        _ ≤ _ := h1
    calc (1 - τ * L) * ‖r - p‖ = τ * ((1 / τ - L) * ‖r - p‖) := by field_simp
      _ ≤ _ := mul_le_mul_of_nonneg_left h2 hτ.le

lemma nl_mono {f : E → ℝ} {G : E → E} (hf : ConvexOn ℝ Set.univ f) (hG : ∀ x, IsGrad f x (G x)) (r p : E) : 0 ≤ ⟪G r - G p, r - p⟫ := by
  have h1 := grad_ineq hf (hG r) p
  have h2 := grad_ineq hf (hG p) r
  rw [inner_sub_left]
  rw [show p - r = -(r - p) by abel, inner_neg_right] at h1
  linarith

lemma nl_prox_y {C : NLClass E} {s s' : NLState E} {x r : E} {τ : ℝ} (hτ : 0 < τ) (h : C.prox s x τ = (s', .ok r)) : s'.y = some x := by
  unfold NLClass.prox at h
  rw [if_neg (not_le.2 hτ)] at h
  simp only at h
  split at h
  · simp at h
  · have := congrArg Prod.fst h
    simp only at this
    rw [← this]
    split <;> rfl

/-- C90: if `optimize` stops where the function it is given has a gradient of norm at most `ε`, the result of `prox` is within `tau ε` of the proximal point of a convex function, after any history. -/
theorem C90_prox_residual {C : NLClass E} {f : E → ℝ} {G : E → E} (hC : C.Implements f G) (hf : ConvexOn ℝ Set.univ f) (x0 : E) (as : List (E × ℝ)) (x : E) {τ ε : ℝ} (hτ : 0 < τ)
    {r g p : E} {s' : NLState E} (hr : C.prox (C.run (NLClass.init x0) as) x τ = (s', .ok r)) (hg : C.gradprox s' r τ = .ok g) (he : ‖g‖ ≤ ε) (hp : IsProx (.ofReal f) τ x p) :
    ‖r - p‖ ≤ τ * ε := by
  have hy := nl_prox_y hτ hr
  have h1 := nl_residual (L := 0) hτ hC.isGrad (by simpa using nl_mono hf hC.isGrad r p) hp
  simp only [NLClass.gradprox, hC.gradf, hy, getAttr] at hg
  cases hg
  have := mul_le_mul_of_nonneg_left he hτ.le
  simp only [mul_zero, sub_zero, one_mul] at h1
  linarith

/-- C90: the same for a function with Lipschitz gradient that need not be convex, if `tau L < 1`. -/
theorem C90_prox_residual_nonconvex {C : NLClass E} {f : E → ℝ} {G : E → E} (hC : C.Implements f G) {L : ℝ} (hL : ∀ x y, ‖G x - G y‖ ≤ L * ‖x - y‖) (x0 : E) (as : List (E × ℝ)) (x : E)
    {τ ε : ℝ} (hτ : 0 < τ) (hτL : τ * L < 1)
    {r g p : E} {s' : NLState E} (hr : C.prox (C.run (NLClass.init x0) as) x τ = (s', .ok r)) (hg : C.gradprox s' r τ = .ok g) (he : ‖g‖ ≤ ε) (hp : IsProx (.ofReal f) τ x p) :
    ‖r - p‖ ≤ τ * ε / (1 - τ * L) := by
  have hy := nl_prox_y hτ hr
  have h1 := nl_residual (L := L) hτ hC.isGrad (by
    have a := abs_le.1 (abs_real_inner_le_norm (G r - G p) (r - p))
    have b := mul_le_mul_of_nonneg_right (hL r p) (norm_nonneg (r - p))
    nlinarith) hp
  simp only [NLClass.gradprox, hC.gradf, hy, getAttr] at hg
  cases hg
  have := mul_le_mul_of_nonneg_left he hτ.le
  rw [le_div_iff₀ (by linarith)]
  linarith

/-! ## Gradient descent as `optimize` -/

/-- One step. -/
noncomputable def nlStep (G : E → E) (x : E) (τ α : ℝ) (z : E) : E := z - α • (G z + (1 / τ) • (z - x))

lemma nl_step_contract {f : E → ℝ} {G : E → E} {L : ℝ} (hG : ∀ x, IsGrad f x (G x)) (hf : ConvexOn ℝ Set.univ f) (hL : ∀ x y, ‖G x - G y‖ ≤ L * ‖x - y‖) (hL0 : 0 < L)
    (x : E) {τ α : ℝ} (hτ : 0 < τ) (hα : 0 < α) (hαL : α * (L + 2 / τ) ≤ 2) (z w : E) : ‖nlStep G x τ α z - nlStep G x τ α w‖ ≤ (1 - α / τ) * ‖z - w‖ := by
  have hco := grad_cocoercive hG hL hf hL0 z w
  have hc : α * L ≤ 2 * (1 - α / τ) := by
    have : α * (L + 2 / τ) = α * L + 2 * (α / τ) := by ring
    linarith
  have hc0 : 0 ≤ 1 - α / τ := by nlinarith [mul_pos hα hL0]
  have e : nlStep G x τ α z - nlStep G x τ α w = (1 - α / τ) • (z - w) - α • (G z - G w) := by
    unfold nlStep
    have : (1 - α / τ) = 1 - α * (1 / τ) := by ring
    rw [this]
    module
  rw [e]
  generalize 1 - α / τ = c at *
  generalize G z - G w = g at *
  generalize z - w = d at *
  refine (pow_le_pow_iff_left₀ (by positivity) (by positivity) two_ne_zero).1 ?_
  rw [norm_sub_sq_real, norm_smul, norm_smul, Real.norm_of_nonneg hc0, Real.norm_of_nonneg hα.le, inner_smul_left, inner_smul_right, real_inner_comm]
  simp only [conj_trivial]
  have h1 : α * ‖g‖ ^ 2 ≤ 2 * c * ⟪g, d⟫ := by
    have h2 : 0 ≤ ⟪g, d⟫ := by
      by_contra h
      push Not at h
      nlinarith [sq_nonneg ‖g‖, mul_neg_of_pos_of_neg hL0 h]
    nlinarith
  nlinarith

lemma nl_descent_eq {C : NLClass E} {f : E → ℝ} {G : E → E} (hC : C.Implements f G) (s : NLState E) {x : E} {τ : ℝ} (hy : s.y = some x) (ht : s.tau = some τ) (α : ℝ) (n : ℕ) (z : E) :
    C.descentLoop s α n z = .ok ((nlStep G x τ α)^[n] z) := by
  induction n generalizing z with
  | zero => rfl
  | succ n ih =>
    simp only [NLClass.descentLoop, NLClass.gradprox, hC.gradf, hy, ht, getAttr, Function.iterate_succ_apply]
    exact ih _

lemma nl_fixed {f : E → ℝ} {G : E → E} (hG : ∀ x, IsGrad f x (G x)) {x p : E} {τ : ℝ} (hp : IsProx (.ofReal f) τ x p) (α : ℝ) : nlStep G x τ α p = p := by
  unfold nlStep
  rw [nl_stationary (hG p) hp]
  simp

/-- The problem of a convex function with Lipschitz gradient has a unique solution. -/
lemma nl_exists [CompleteSpace E] {f : E → ℝ} {G : E → E} {L : ℝ} (hG : ∀ x, IsGrad f x (G x)) (hf : ConvexOn ℝ Set.univ f) (hL : ∀ x y, ‖G x - G y‖ ≤ L * ‖x - y‖) (hL0 : 0 < L)
    (x : E) {τ : ℝ} (hτ : 0 < τ) : ∃ p, IsUniqueProx (.ofReal f) τ x p := by
  set α := 1 / (L + 2 / τ) with hα
  have hα0 : 0 < α := by positivity
  have hcon := nl_step_contract hG hf hL hL0 x hτ hα0 (by rw [hα]; field_simp; norm_num)
  have hq : 0 ≤ 1 - α / τ := by
    have : α / τ ≤ 1 := by
      rw [hα, div_div, div_le_one (by positivity)]
      have : (L + 2 / τ) * τ = L * τ + 2 := by field_simp
      nlinarith [mul_pos hL0 hτ]
    linarith
  have hC : ContractingWith ⟨1 - α / τ, hq⟩ (nlStep G x τ α) := by
    refine ⟨?_, LipschitzWith.of_dist_le_mul fun z w => ?_⟩
    · have : 1 - α / τ < 1 := by have : 0 < α / τ := by positivity
                                 linarith
      exact this
    · rw [dist_eq_norm, dist_eq_norm]
      exact hcon z w
  let p := ContractingWith.fixedPoint _ hC
  have hp : nlStep G x τ α p = p := hC.fixedPoint_isFixedPt
  refine ⟨p, isUniqueProx_of_subgrad hτ ⟨trivial, fun y _ => ?_⟩⟩
  have h0 : G p + (1 / τ) • (p - x) = 0 := by
    unfold nlStep at hp
    have : α • (G p + (1 / τ) • (p - x)) = 0 := by simpa using hp
    exact (smul_eq_zero.1 this).resolve_left hα0.ne'
  have h1 : G p = (1 / τ) • (x - p) := by
    rw [← sub_eq_zero, ← h0]; module
  have := grad_ineq hf (hG p) y
  rw [h1] at this
  exact this

lemma nl_iter {G : E → E} {x p : E} {τ α q : ℝ} (hq : 0 ≤ q) (hcon : ∀ z w, ‖nlStep G x τ α z - nlStep G x τ α w‖ ≤ q * ‖z - w‖) (hp : nlStep G x τ α p = p) (n : ℕ) (z : E) :
    ‖(nlStep G x τ α)^[n] z - p‖ ≤ q ^ n * ‖z - p‖ := by
  induction n generalizing z with
  | zero => simp
  | succ n ih =>
    rw [Function.iterate_succ_apply]
    refine (ih _).trans ?_
    have := hcon z p
    rw [hp] at this
    calc _ ≤ q ^ n * (q * ‖z - p‖) := mul_le_mul_of_nonneg_left this (by positivity)
      _ = _ := by ring

/-- C90: with gradient descent as `optimize` (step at most `2/(L + 2/tau)`), the distance of the result of `prox` to the proximal point of a convex function
is at most `(1 - alpha/tau)^niter` times the distance of the starting point. -/
theorem C90_descent_rate [CompleteSpace E] {C : NLClass E} {f : E → ℝ} {G : E → E} (hC : C.Implements f G) (hf : ConvexOn ℝ Set.univ f) {L : ℝ}
    (hL : ∀ x y, ‖G x - G y‖ ≤ L * ‖x - y‖) (hL0 : 0 < L) {α : ℝ} {niter : ℕ} (hopt : ∀ s, C.optimize s = C.descent α niter s) (s : NLState E) (x : E) {τ : ℝ} (hτ : 0 < τ)
    (hα : 0 < α) (hαL : α * (L + 2 / τ) ≤ 2) :
    ∃ r p, (C.prox s x τ).2 = .ok r ∧ IsUniqueProx (.ofReal f) τ x p ∧ ‖r - p‖ ≤ (1 - α / τ) ^ niter * ‖s.x0 - p‖ := by
  obtain ⟨p, hp⟩ := nl_exists hC.isGrad hf hL hL0 x hτ
  have h1 := nl_descent_eq hC { s with y := some x, tau := some τ } (x := x) (τ := τ) rfl rfl α niter s.x0
  refine ⟨_, p, by rw [nl_run_prox hτ (by rw [hopt, NLClass.descent]; exact h1)], hp, ?_⟩
  refine nl_iter ?_ (nl_step_contract hC.isGrad hf hL hL0 x hτ hα hαL) (nl_fixed hC.isGrad hp.1 α) niter s.x0
  have : α * (L + 2 / τ) = α * L + 2 * (α / τ) := by ring
  nlinarith [mul_pos hα hL0]

lemma nl_run_append (C : NLClass E) (s : NLState E) (as bs : List (E × ℝ)) : C.run s (as ++ bs) = C.run (C.run s as) bs := by
  induction as generalizing s with
  | nil => rfl
  | cons a as ih => exact ih _

/-- `e (k+1) ≤ q (e k + d k)` with `q < 1` and `d → 0` forces `e → 0`. -/
lemma nl_seq {e d : ℕ → ℝ} {q : ℝ} (hq0 : 0 ≤ q) (hq : q < 1) (he : ∀ k, 0 ≤ e k) (hd : Tendsto d atTop (𝓝 0)) (h : ∀ k, e (k + 1) ≤ q * (e k + d k)) : Tendsto e atTop (𝓝 0) := by
  have hb : ∀ ε > 0, ∀ᶠ k in atTop, e k < ε := by
    intro ε hε
    have h1 : ∀ᶠ k in atTop, d k < (1 - q) * (ε / 2) := hd.eventually (gt_mem_nhds (mul_pos (by linarith) (by linarith)))
    obtain ⟨K, hK⟩ := eventually_atTop.1 h1
    have h2 : ∀ n, e (K + n) ≤ q ^ n * e K + ε / 2 := by
      intro n
      induction n with
      | zero => simp; linarith
      | succ n ih =>
        have a := h (K + n)
        have b := hK (K + n) (by omega)
        have c : q * d (K + n) ≤ (1 - q) * (ε / 2) := by
          have h0 : 0 ≤ (1 - q) * (ε / 2) := mul_nonneg (by linarith) (by linarith)
          calc q * d (K + n) ≤ q * ((1 - q) * (ε / 2)) := mul_le_mul_of_nonneg_left b.le hq0
            _ ≤ 1 * ((1 - q) * (ε / 2)) := mul_le_mul_of_nonneg_right hq.le h0
            _ = _ := one_mul _
        have f := mul_le_mul_of_nonneg_left ih hq0
        rw [← add_assoc, pow_succ]
        nlinarith
    have h3 : Tendsto (fun n => q ^ n * e K + ε / 2) atTop (𝓝 (0 * e K + ε / 2)) := ((tendsto_pow_atTop_nhds_zero_of_lt_one hq0 hq).mul_const _).add_const _
    have h4 := h3.eventually (gt_mem_nhds (show 0 * e K + ε / 2 < ε by linarith))
    obtain ⟨M, hM⟩ := eventually_atTop.1 h4
    refine eventually_atTop.2 ⟨K + M, fun k hk => ?_⟩
    have := h2 (k - K)
    rw [show K + (k - K) = k by omega] at this
    exact this.trans_lt (hM _ (by omega))
  rw [Metric.tendsto_atTop]
  intro ε hε
  obtain ⟨N, hN⟩ := eventually_atTop.1 (hb ε hε)
  exact ⟨N, fun n hn => by rw [Real.dist_eq, sub_zero, abs_of_nonneg (he n)]; exact hN n hn⟩

/-- C90: with a warm start, `prox` called with inputs that converge and gradient descent as `optimize` (any positive number of iterations) returns results that converge to the proximal point of the limit. -/
theorem C90_warm_tracks [CompleteSpace E] {C : NLClass E} {f : E → ℝ} {G : E → E} (hC : C.Implements f G) (hf : ConvexOn ℝ Set.univ f) {L : ℝ}
    (hL : ∀ x y, ‖G x - G y‖ ≤ L * ‖x - y‖) (hL0 : 0 < L) {α : ℝ} {niter : ℕ} (hn : 0 < niter) (hw : C.warm = true) (hopt : ∀ s, C.optimize s = C.descent α niter s) (x0 : E) {τ : ℝ} (hτ : 0 < τ)
    (hα : 0 < α) (hαL : α * (L + 2 / τ) ≤ 2) {x : ℕ → E} {xs : E} (hx : Tendsto x atTop (𝓝 xs)) :
    ∃ (r : ℕ → E) (p : E), (∀ k, (C.prox (C.run (NLClass.init x0) ((List.range k).map fun i => (x i, τ))) (x k) τ).2 = .ok (r k)) ∧ IsUniqueProx (.ofReal f) τ xs p ∧ Tendsto r atTop (𝓝 p) := by
  have hex := fun y => nl_exists hC.isGrad hf hL hL0 y hτ
  choose P hP using hex
  set s : ℕ → NLState E := fun k => C.run (NLClass.init x0) ((List.range k).map fun i => (x i, τ)) with hs
  have hst : ∀ k, ∃ r, C.prox (s k) (x k) τ = (⟨r, some (x k), some τ⟩, .ok r) ∧ ‖r - P (x k)‖ ≤ (1 - α / τ) ^ niter * ‖(s k).x0 - P (x k)‖ := by
    intro k
    obtain ⟨r, p, h1, h2, h3⟩ := C90_descent_rate hC hf hL hL0 hopt (s k) (x k) hτ hα hαL
    have e := nl_descent_eq hC { s k with y := some (x k), tau := some τ } (x := x k) (τ := τ) rfl rfl α niter (s k).x0
    have e2 := nl_run_prox (C := C) (s := s k) hτ (by rw [hopt, NLClass.descent]; exact e)
    rw [e2] at h1
    cases h1
    rw [hw, if_pos rfl] at e2
    have : p = P (x k) := (hP (x k)).2 p h2.1
    subst this
    exact ⟨_, e2, h3⟩
  choose r hr1 hr2 using hst
  have hnext : ∀ k, (s (k + 1)).x0 = r k := by
    intro k
    have : s (k + 1) = (C.prox (s k) (x k) τ).1 := by
      simp only [hs, List.range_succ, List.map_append, nl_run_append, List.map_cons, List.map_nil, NLClass.run]
    rw [this, hr1]
  have hPn : ∀ y z, ‖P y - P z‖ ≤ ‖y - z‖ := fun y z => proxMap_nonexpansive (F := .ofReal f) hf hτ (fun y => (hP y).1) y z
  have hq1 : 0 ≤ 1 - α / τ ∧ 1 - α / τ < 1 := by
    have e : α * (L + 2 / τ) = α * L + 2 * (α / τ) := by ring
    have : 0 < α / τ := by positivity
    constructor <;> nlinarith [mul_pos hα hL0]
  have hd : Tendsto (fun k => ‖x k - x (k + 1)‖) atTop (𝓝 0) := by
    have := (hx.sub (hx.comp (tendsto_add_atTop_nat 1))).norm
    simpa using this
  have he : Tendsto (fun k => ‖r k - P (x k)‖) atTop (𝓝 0) := by
    refine nl_seq (q := (1 - α / τ) ^ niter) (pow_nonneg hq1.1 _) (pow_lt_one₀ hq1.1 hq1.2 hn.ne') (fun k => norm_nonneg _) hd fun k => ?_
    refine (hr2 (k + 1)).trans (mul_le_mul_of_nonneg_left ?_ (pow_nonneg hq1.1 _))
    rw [hnext]
    have a := norm_add_le (r k - P (x k)) (P (x k) - P (x (k + 1)))
    rw [sub_add_sub_cancel] at a
    exact a.trans (add_le_add le_rfl (hPn _ _))
  refine ⟨r, P xs, fun k => by rw [hr1], hP xs, ?_⟩
  have hPx : Tendsto (fun k => P (x k)) atTop (𝓝 (P xs)) := by
    rw [tendsto_iff_norm_sub_tendsto_zero]
    exact squeeze_zero (fun _ => norm_nonneg _) (fun k => hPn _ _) (tendsto_iff_norm_sub_tendsto_zero.1 hx)
  have := (tendsto_zero_iff_norm_tendsto_zero.2 he).add hPx
  simpa using this

/-- The subclass of half the squared norm, solved by gradient descent, meets the hypotheses: `L = 1`, `tau = 1`, `alpha = 1/2`. -/
noncomputable def nlHalf (E : Type) [NormedAddCommGroup E] [InnerProductSpace ℝ E] : NLClass E :=
  ⟨fun z => .ok (‖z‖ ^ 2 / 2), fun z => .ok z, NLClass.descent ⟨fun _ => .ok 0, fun z => .ok z, fun _ => .error .valueError, true⟩ (1 / 2) 3, true⟩

example : (nlHalf E).Implements (fun z => ‖z‖ ^ 2 / 2) id ∧ (∀ s, (nlHalf E).optimize s = (nlHalf E).descent (1 / 2) 3 s) ∧ ((1 : ℝ) / 2) * (1 + 2 / 1) ≤ 2 := by
  refine ⟨⟨fun _ => rfl, fun _ => rfl, fun x => ?_⟩, fun s => ?_, by norm_num⟩
  · have := nl_normsq 0 x
    simp only [sub_zero] at this
    exact (this.mul_const (1 / 2)).congr_fderiv (by ext v; simp) |>.congr_of_eventuallyEq (Filter.Eventually.of_forall fun y => by simp; ring)
  · unfold nlHalf NLClass.descent
    simp only
    have : ∀ n z, NLClass.descentLoop (E := E) ⟨fun _ => .ok 0, fun z => .ok z, fun _ => .error .valueError, true⟩ s (1 / 2) n z = NLClass.descentLoop (nlHalf E) s (1 / 2) n z := by
      intro n
      induction n with
      | zero => intro z; rfl
      | succ n ih =>
        intro z
        simp only [NLClass.descentLoop, ih]
        rfl
    exact this _ _

/-- An exact `optimize`: the proximal point of the function `0` is the input. -/
example : NLClass.Exact (E := E) ⟨fun _ => .ok 0, fun _ => .ok 0, fun s => getAttr s.y, true⟩ := by
  intro s x τ hτ hy ht
  refine ⟨x, 0, by simp [hy, getAttr], by simp [NLClass.funprox, hy, getAttr]; rfl, fun z w h => ?_⟩
  simp only [NLClass.funprox, hy, getAttr] at h
  cases h
  rw [real_inner_self_eq_norm_sq]
  positivity

end Verif
