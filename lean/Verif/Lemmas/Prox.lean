import Verif.Spec.Basic
import Mathlib.Tactic.Linarith
import Mathlib.Tactic.FieldSimp
import Mathlib.Tactic.Ring
import Mathlib.Tactic.Positivity

/-! Helper lemmas about proximal maps. -/

open scoped RealInnerProductSpace

set_option linter.unusedSectionVars false

namespace Verif

variable {E : Type*} [NormedAddCommGroup E] [InnerProductSpace ℝ E]

lemma norm_sub_sq_expand (y x p : E) :
    ‖y - x‖ ^ 2 = ‖p - x‖ ^ 2 + ‖y - p‖ ^ 2 - 2 * ⟪x - p, y - p⟫ := by
  have : y - x = (y - p) - (x - p) := by abel
  rw [this, norm_sub_sq_real, real_inner_comm, norm_sub_rev p x]
  ring

/-- A sub-gradient certificate gives the strong form of optimality. -/
lemma prox_strong_of_subgrad {F : XFun E} {τ : ℝ} (hτ : 0 < τ) {x p : E}
    (h : IsSubgrad F p ((1 / τ) • (x - p))) {y : E} (hy : y ∈ F.dom) :
    proxObj F τ x p + ‖y - p‖ ^ 2 / (2 * τ) ≤ proxObj F τ x y := by
  have h1 := h.2 y hy
  rw [real_inner_smul_left] at h1
  unfold proxObj
  rw [norm_sub_sq_expand y x p]
  have : (‖p - x‖ ^ 2 + ‖y - p‖ ^ 2 - 2 * ⟪x - p, y - p⟫) / (2 * τ)
      = ‖p - x‖ ^ 2 / (2 * τ) + ‖y - p‖ ^ 2 / (2 * τ) - 1 / τ * ⟪x - p, y - p⟫ := by
    field_simp
  rw [this]; linarith

lemma isProx_of_subgrad {F : XFun E} {τ : ℝ} (hτ : 0 < τ) {x p : E}
    (h : IsSubgrad F p ((1 / τ) • (x - p))) : IsProx F τ x p := by
  refine ⟨h.1, fun y hy => ?_⟩
  have := prox_strong_of_subgrad hτ h hy
  have : 0 ≤ ‖y - p‖ ^ 2 / (2 * τ) := by positivity
  linarith

lemma isUniqueProx_of_subgrad {F : XFun E} {τ : ℝ} (hτ : 0 < τ) {x p : E}
    (h : IsSubgrad F p ((1 / τ) • (x - p))) : IsUniqueProx F τ x p := by
  refine ⟨isProx_of_subgrad hτ h, fun q hq => ?_⟩
  have h1 := prox_strong_of_subgrad hτ h hq.1
  have h2 := hq.2 p h.1
  have h3 : ‖q - p‖ ^ 2 / (2 * τ) ≤ 0 := by linarith
  have h4 : ‖q - p‖ ^ 2 ≤ 0 := by
    rw [div_le_iff₀ (by positivity)] at h3; linarith
  have h5 : ‖q - p‖ = 0 := by nlinarith [norm_nonneg (q - p)]
  exact sub_eq_zero.1 (norm_eq_zero.1 h5)

/-- For convex `F`, the optimality condition of the proximal map. -/
lemma subgrad_of_isProx {F : XFun E} (hF : F.Convex) {τ : ℝ} (hτ : 0 < τ) {x p : E}
    (h : IsProx F τ x p) : IsSubgrad F p ((1 / τ) • (x - p)) := by
  refine ⟨h.1, fun y hy => ?_⟩
  rw [real_inner_smul_left]
  -- compare with p + t (y - p)
  by_contra hcon
  push Not at hcon
  set d := F.val p + 1 / τ * ⟪x - p, y - p⟫ - F.val y with hd
  have hdpos : 0 < d := by rw [hd]; linarith
  set N := ‖y - p‖ ^ 2 / (2 * τ) with hN
  have hN0 : 0 ≤ N := by positivity
  -- choose t
  set t := min 1 (d / (N + d)) with ht
  have ht0 : 0 < t := lt_min one_pos (by positivity)
  have ht1 : t ≤ 1 := min_le_left _ _
  have ht2 : t ≤ d / (N + d) := min_le_right _ _
  have hz : (1 - t) • p + t • y ∈ F.dom := hF.1 h.1 hy (by linarith) ht0.le (by ring)
  have hconv := hF.2 h.1 hy (by linarith : 0 ≤ 1 - t) ht0.le (by ring)
  have hp := h.2 _ hz
  unfold proxObj at hp
  rw [norm_sub_sq_expand ((1 - t) • p + t • y) x p] at hp
  have e1 : (1 - t) • p + t • y - p = t • (y - p) := by
    rw [sub_smul, one_smul, smul_sub]; abel
  rw [e1, norm_smul, inner_smul_right, Real.norm_eq_abs, abs_of_pos ht0] at hp
  simp only [smul_eq_mul] at hconv
  have e2 : (‖p - x‖ ^ 2 + (t * ‖y - p‖) ^ 2 - 2 * (t * ⟪x - p, y - p⟫)) / (2 * τ)
      = ‖p - x‖ ^ 2 / (2 * τ) + t ^ 2 * N - t * (1 / τ * ⟪x - p, y - p⟫) := by
    rw [hN]; field_simp
  rw [e2] at hp
  have h3 : t * d ≤ t * (t * N) := by
    rw [hd]; nlinarith
  have h4 : d ≤ t * N := le_of_mul_le_mul_left h3 ht0
  have h5 : t * N ≤ d / (N + d) * N := mul_le_mul_of_nonneg_right ht2 hN0
  have h6 : d / (N + d) * N < d := by
    rw [div_mul_eq_mul_div, div_lt_iff₀ (by positivity)]
    nlinarith
  linarith

lemma isProx_iff_subgrad {F : XFun E} (hF : F.Convex) {τ : ℝ} (hτ : 0 < τ) {x p : E} :
    IsProx F τ x p ↔ IsSubgrad F p ((1 / τ) • (x - p)) :=
  ⟨subgrad_of_isProx hF hτ, isProx_of_subgrad hτ⟩

lemma IsProx.unique {F : XFun E} (hF : F.Convex) {τ : ℝ} (hτ : 0 < τ) {x p q : E}
    (hp : IsProx F τ x p) (hq : IsProx F τ x q) : q = p :=
  (isUniqueProx_of_subgrad hτ (subgrad_of_isProx hF hτ hp)).2 q hq

/-- The three-point (strong) inequality. -/
lemma prox_three_point {F : XFun E} (hF : F.Convex) {τ : ℝ} (hτ : 0 < τ) {x p y : E}
    (h : IsProx F τ x p) (hy : y ∈ F.dom) :
    F.val p + ‖p - x‖ ^ 2 / (2 * τ) + ‖y - p‖ ^ 2 / (2 * τ) ≤ F.val y + ‖y - x‖ ^ 2 / (2 * τ) :=
  prox_strong_of_subgrad hτ (subgrad_of_isProx hF hτ h) hy

lemma subgrad_mono {F : XFun E} {p q s t : E} (hp : IsSubgrad F p s) (hq : IsSubgrad F q t) :
    0 ≤ ⟪s - t, p - q⟫ := by
  have h1 := hp.2 q hq.1
  have h2 := hq.2 p hp.1
  have : ⟪s, q - p⟫ = -⟪s, p - q⟫ := by rw [← neg_sub, inner_neg_right]
  rw [inner_sub_left]; linarith

/-- Firm non-expansiveness. -/
lemma prox_firm {F : XFun E} (hF : F.Convex) {τ : ℝ} (hτ : 0 < τ) {x y p q : E}
    (hp : IsProx F τ x p) (hq : IsProx F τ y q) :
    ‖p - q‖ ^ 2 + ‖(x - p) - (y - q)‖ ^ 2 ≤ ‖x - y‖ ^ 2 := by
  have h := subgrad_mono (subgrad_of_isProx hF hτ hp) (subgrad_of_isProx hF hτ hq)
  rw [← smul_sub, real_inner_smul_left] at h
  have h' : 0 ≤ ⟪(x - p) - (y - q), p - q⟫ := by
    by_contra hc
    push Not at hc
    have := mul_neg_of_pos_of_neg (by positivity : 0 < 1 / τ) hc
    linarith
  have : x - y = ((x - p) - (y - q)) + (p - q) := by abel
  rw [this, norm_add_sq_real]
  linarith

lemma isProj_iff_isProx {C : Set E} {τ : ℝ} (hτ : 0 < τ) {x p : E} :
    IsProx (XFun.indicator C) τ x p ↔ IsProj C x p := by
  unfold IsProx IsProj proxObj XFun.indicator
  simp only [zero_add]
  refine and_congr_right fun _ => forall₂_congr fun y _ => ?_
  rw [div_le_div_iff_of_pos_right (by positivity), norm_sub_rev p x, norm_sub_rev y x]
  exact pow_le_pow_iff_left₀ (norm_nonneg _) (norm_nonneg _) two_ne_zero

lemma isUniqueProj_iff_isUniqueProx {C : Set E} {τ : ℝ} (hτ : 0 < τ) {x p : E} :
    IsUniqueProx (XFun.indicator C) τ x p ↔ IsUniqueProj C x p := by
  unfold IsUniqueProx IsUniqueProj
  simp only [isProj_iff_isProx hτ]

lemma isUniqueProj_of_variational {C : Set E} {x p : E} (hp : p ∈ C)
    (h : ∀ y ∈ C, ⟪x - p, y - p⟫ ≤ 0) : IsUniqueProj C x p := by
  rw [← isUniqueProj_iff_isUniqueProx one_pos]
  apply isUniqueProx_of_subgrad one_pos
  refine ⟨hp, fun y hy => ?_⟩
  have := h y hy
  simpa [XFun.indicator] using this

lemma indicator_convex {C : Set E} (hC : _root_.Convex ℝ C) : (XFun.indicator C).Convex := by
  refine ⟨hC, fun x _ y _ a b _ _ _ => ?_⟩
  simp [XFun.indicator]

end Verif
