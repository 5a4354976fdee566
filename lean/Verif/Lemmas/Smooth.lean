import Verif.Spec.Contract
import Verif.Lemmas.Prox
import Verif.Lemmas.Calculus
import Mathlib.Analysis.Calculus.Deriv.MeanValue
import Mathlib.Analysis.Calculus.Deriv.Comp
import Mathlib.Analysis.Calculus.Deriv.Pow
import Mathlib.Analysis.Calculus.Deriv.Add
import Mathlib.Analysis.Calculus.Deriv.Mul

/-! Helper lemmas: smooth functions, proximal maps as functions, minimisers as fixed points. -/

open scoped RealInnerProductSpace
open Filter Topology

set_option linter.unusedSectionVars false

namespace Verif

variable {E : Type} [NormedAddCommGroup E] [InnerProductSpace ℝ E]

lemma line_deriv {φ : E → ℝ} {G : E → E} (h : ∀ x, IsGrad φ x (G x)) (x d : E) (t : ℝ) :
    HasDerivAt (fun t : ℝ => φ (x + t • d)) ⟪G (x + t • d), d⟫ t := by
  have h1 : HasDerivAt (fun t : ℝ => x + t • d) d t := by
    have := ((hasDerivAt_id t).smul_const d).const_add x
    simpa using this
  have hx : HasFDerivAt φ (innerSL ℝ (G (x + t • d))) (x + t • d) := h _
  have h2 := hx.comp_hasDerivAt t h1
  exact h2

/-- The descent lemma. -/
lemma descent_lemma {φ : E → ℝ} {G : E → E} {L : ℝ} (h : ∀ x, IsGrad φ x (G x)) (hL : ∀ x y, ‖G x - G y‖ ≤ L * ‖x - y‖) (x y : E) :
    φ y ≤ φ x + ⟪G x, y - x⟫ + L / 2 * ‖y - x‖ ^ 2 := by
  set d := y - x with hd
  let p : ℝ → ℝ := fun t => φ (x + t • d) - t * ⟪G x, d⟫ - L / 2 * ‖d‖ ^ 2 * t ^ 2
  have hp : ∀ t, HasDerivAt p (⟪G (x + t • d), d⟫ - ⟪G x, d⟫ - L / 2 * ‖d‖ ^ 2 * (2 * t)) t := by
    intro t
    have h1 := line_deriv h x d t
    have h2 : HasDerivAt (fun t : ℝ => t * ⟪G x, d⟫) ⟪G x, d⟫ t := by
      simpa using (hasDerivAt_id t).mul_const (⟪G x, d⟫ : ℝ)
    have h3 : HasDerivAt (fun t : ℝ => L / 2 * ‖d‖ ^ 2 * t ^ 2) (L / 2 * ‖d‖ ^ 2 * (2 * t)) t := by
      simpa using (hasDerivAt_pow 2 t).const_mul (L / 2 * ‖d‖ ^ 2)
    exact (h1.sub h2).sub h3
  have hanti : AntitoneOn p (Set.Icc 0 1) := by
    refine antitoneOn_of_deriv_nonpos (convex_Icc 0 1) (fun t _ => (hp t).continuousAt.continuousWithinAt)
      (fun t _ => (hp t).differentiableAt.differentiableWithinAt) (fun t ht => ?_)
    rw [interior_Icc] at ht
    rw [(hp t).deriv, ← inner_sub_left]
    have h1 : ⟪G (x + t • d) - G x, d⟫ ≤ ‖G (x + t • d) - G x‖ * ‖d‖ := real_inner_le_norm _ _
    have h2 := hL (x + t • d) x
    rw [add_sub_cancel_left, norm_smul, Real.norm_of_nonneg ht.1.le] at h2
    have h3 : ‖G (x + t • d) - G x‖ * ‖d‖ ≤ L * (t * ‖d‖) * ‖d‖ := mul_le_mul_of_nonneg_right h2 (norm_nonneg _)
    nlinarith
  have := hanti (Set.left_mem_Icc.2 zero_le_one) (Set.right_mem_Icc.2 zero_le_one) zero_le_one
  simp only [p, zero_smul, add_zero, zero_mul, one_smul, one_mul, one_pow, mul_one, sub_zero] at this
  rw [hd, add_sub_cancel] at this
  norm_num at this
  rw [hd]
  linarith

/-- The gradient inequality of a convex function. -/
lemma grad_ineq {φ : E → ℝ} {g x : E} (hc : ConvexOn ℝ Set.univ φ) (h : IsGrad φ x g) (y : E) : φ x + ⟪g, y - x⟫ ≤ φ y := by
  set d := y - x with hd
  have h1 : HasDerivAt (fun t : ℝ => φ (x + t • d)) ⟪g, d⟫ 0 := by
    have e : HasDerivAt (fun t : ℝ => x + t • d) d 0 := by
      have := ((hasDerivAt_id (0 : ℝ)).smul_const d).const_add x
      simpa using this
    have hx : HasFDerivAt φ (innerSL ℝ g) (x + (0 : ℝ) • d) := by rw [zero_smul, add_zero]; exact h
    have := hx.comp_hasDerivAt (0 : ℝ) e
    exact this
  have h2 := h1.tendsto_slope_zero_right
  simp only [zero_add, zero_smul, add_zero, smul_eq_mul] at h2
  have h3 : ∀ᶠ t : ℝ in 𝓝[>] 0, t⁻¹ * (φ (x + t • d) - φ x) ≤ φ y - φ x := by
    filter_upwards [Ioo_mem_nhdsGT (zero_lt_one' ℝ)] with t ht
    have h4 := hc.2 (Set.mem_univ x) (Set.mem_univ y) (by linarith [ht.2] : 0 ≤ 1 - t) ht.1.le (by ring)
    have e : (1 - t) • x + t • y = x + t • d := by rw [hd, sub_smul, one_smul, smul_sub]; abel
    rw [e, smul_eq_mul, smul_eq_mul] at h4
    rw [inv_mul_le_iff₀ ht.1]
    linarith
  have := le_of_tendsto h2 h3
  linarith

lemma proxExact_map {f : ProxOp E} {F : XFun E} (h : ProxExact f F) {τ : ℝ} (hτ : 0 < τ) :
    ∃ P : E → E, (∀ x, f.prox x τ = .ok (P x)) ∧ ∀ x, IsProx F τ x (P x) := by
  choose P h1 h2 using fun x => h x τ hτ
  exact ⟨P, h1, h2⟩

lemma proxMap_nonexpansive {F : XFun E} (hF : F.Convex) {τ : ℝ} (hτ : 0 < τ) {P : E → E} (hP : ∀ x, IsProx F τ x (P x)) (x y : E) :
    ‖P x - P y‖ ≤ ‖x - y‖ := by
  have h := prox_firm hF hτ (hP x) (hP y)
  have : ‖P x - P y‖ ^ 2 ≤ ‖x - y‖ ^ 2 := by nlinarith [sq_nonneg ‖x - P x - (y - P y)‖]
  exact (pow_le_pow_iff_left₀ (norm_nonneg _) (norm_nonneg _) two_ne_zero).1 this

lemma continuous_of_nonexpansive {F' : Type*} [NormedAddCommGroup F'] {T : E → F'} {K : ℝ} (h : ∀ x y, ‖T x - T y‖ ≤ K * ‖x - y‖) : Continuous T := by
  rw [Metric.continuous_iff]
  intro b ε hε
  refine ⟨ε / (|K| + 1), by positivity, fun a ha => ?_⟩
  rw [dist_eq_norm] at ha ⊢
  have h1 := h a b
  have h2 : K * ‖a - b‖ ≤ (|K| + 1) * ‖a - b‖ := mul_le_mul_of_nonneg_right (by linarith [le_abs_self K]) (norm_nonneg _)
  have h3 : (|K| + 1) * ‖a - b‖ < ε := by
    rw [lt_div_iff₀ (by positivity)] at ha; linarith
  linarith

lemma proxMap_continuous {F : XFun E} (hF : F.Convex) {τ : ℝ} (hτ : 0 < τ) {P : E → E} (hP : ∀ x, IsProx F τ x (P x)) : Continuous P :=
  continuous_of_nonexpansive (K := 1) fun x y => by rw [one_mul]; exact proxMap_nonexpansive hF hτ hP x y

/-- Minimisers are the fixed points of the proximal map. -/
lemma isMin_iff_isProx_self {F : XFun E} (hF : F.Convex) {τ : ℝ} (hτ : 0 < τ) {c : E} : F.IsMin c ↔ IsProx F τ c c := by
  constructor
  · intro h
    refine ⟨h.1, fun y hy => ?_⟩
    unfold proxObj
    have := h.2 y hy
    have h2 : 0 ≤ ‖y - c‖ ^ 2 / (2 * τ) := by positivity
    rw [sub_self, norm_zero]
    simp only [ne_eq, OfNat.ofNat_ne_zero, not_false_eq_true, zero_pow, zero_div, add_zero]
    linarith
  · intro h
    have hs := subgrad_of_isProx hF hτ h
    refine ⟨h.1, fun y hy => ?_⟩
    have := hs.2 y hy
    simpa using this

lemma isMin_iff_fixed {F : XFun E} (hF : F.Convex) {τ : ℝ} (hτ : 0 < τ) {P : E → E} (hP : ∀ x, IsProx F τ x (P x)) {c : E} :
    F.IsMin c ↔ P c = c := by
  rw [isMin_iff_isProx_self hF hτ]
  constructor
  · intro h; exact IsProx.unique hF hτ h (hP c)
  · intro h; have := hP c; rwa [h] at this

/-- One proximal gradient step, measured against any point: the basic inequality, from the sufficient decrease condition. -/
lemma pg_step_suff {φ : E → ℝ} {g : E} {F : XFun E} (hF : F.Convex) {τ : ℝ} (hτ : 0 < τ) {y p : E} (hp : IsProx F τ (y - τ • g) p)
    (hsuff : φ p ≤ φ y + ⟪g, p - y⟫ + ‖p - y‖ ^ 2 / (2 * τ)) {z : E} (hz : z ∈ F.dom) :
    φ p + F.val p + ‖z - p‖ ^ 2 / (2 * τ) ≤ φ y + ⟪g, z - y⟫ + F.val z + ‖z - y‖ ^ 2 / (2 * τ) := by
  have h1 := prox_three_point hF hτ hp hz
  have e : ∀ w : E, ‖w - (y - τ • g)‖ ^ 2 = ‖w - y‖ ^ 2 + 2 * τ * ⟪g, w - y⟫ + τ ^ 2 * ‖g‖ ^ 2 := by
    intro w
    rw [show w - (y - τ • g) = (w - y) + τ • g by abel, norm_add_sq_real, real_inner_smul_right, norm_smul, mul_pow,
      Real.norm_eq_abs, sq_abs, real_inner_comm]; ring
  rw [e, e] at h1
  have e3 : ∀ a b c : ℝ, (a + 2 * τ * b + c) / (2 * τ) = a / (2 * τ) + b + c / (2 * τ) := by
    intro a b c; field_simp
  rw [e3, e3] at h1
  linarith

/-- With a Lipschitz gradient and `τ L ≤ 1` the sufficient decrease condition holds at every point. -/
lemma suff_of_lipschitz {φ : E → ℝ} {G : E → E} {L : ℝ} (hgrad : ∀ x, IsGrad φ x (G x)) (hL : ∀ x y, ‖G x - G y‖ ≤ L * ‖x - y‖)
    {τ : ℝ} (hτ : 0 < τ) (hτL : τ * L ≤ 1) (y p : E) : φ p ≤ φ y + ⟪G y, p - y⟫ + ‖p - y‖ ^ 2 / (2 * τ) := by
  have h2 := descent_lemma hgrad hL y p
  have h3 : L / 2 * ‖p - y‖ ^ 2 ≤ ‖p - y‖ ^ 2 / (2 * τ) := by
    rw [le_div_iff₀ (by positivity)]
    nlinarith [sq_nonneg ‖p - y‖]
  linarith

/-- One proximal gradient step, measured against any point: the basic inequality. -/
lemma pg_step {φ : E → ℝ} {G : E → E} {L : ℝ} (hgrad : ∀ x, IsGrad φ x (G x)) (hL : ∀ x y, ‖G x - G y‖ ≤ L * ‖x - y‖)
    {F : XFun E} (hF : F.Convex) {τ : ℝ} (hτ : 0 < τ) (hτL : τ * L ≤ 1) {y p : E} (hp : IsProx F τ (y - τ • G y) p) {z : E} (hz : z ∈ F.dom) :
    φ p + F.val p + ‖z - p‖ ^ 2 / (2 * τ) ≤ φ y + ⟪G y, z - y⟫ + F.val z + ‖z - y‖ ^ 2 / (2 * τ) :=
  pg_step_suff hF hτ hp (suff_of_lipschitz hgrad hL hτ hτL y p) hz

end Verif
