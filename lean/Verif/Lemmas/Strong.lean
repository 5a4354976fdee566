import Verif.Lemmas.Forward
import Mathlib.Analysis.Convex.Strong
import Mathlib.Analysis.InnerProductSpace.Calculus

/-! Helper lemmas: strongly convex functions. -/

open scoped RealInnerProductSpace

namespace Verif

variable {E : Type} [NormedAddCommGroup E] [InnerProductSpace ℝ E] {φ : E → ℝ} {G : E → E} {F : XFun E} {L μ τ : ℝ}

lemma strong_xconvex (hF : StrongConvexOn F.dom μ F.val) (hμ : 0 ≤ μ) : F.Convex := by
  have := hF.mono hμ
  rwa [strongConvexOn_zero] at this

/-- The prox of a strongly convex function is the prox of what is left after subtracting the quadratic, at another point with another step. -/
lemma isProx_strong (hμ : 0 ≤ μ) (hτ : 0 < τ) {x p : E} (h : IsProx F τ x p) :
    IsProx ⟨F.dom, fun y => F.val y - μ / 2 * ‖y‖ ^ 2⟩ (τ / (1 + τ * μ)) ((1 / (1 + τ * μ)) • x) p := by
  have h1 : 0 < 1 + τ * μ := by positivity
  have e : ∀ y : E, F.val y - μ / 2 * ‖y‖ ^ 2 + ‖y - (1 / (1 + τ * μ)) • x‖ ^ 2 / (2 * (τ / (1 + τ * μ))) =
      F.val y + ‖y - x‖ ^ 2 / (2 * τ) + (1 / (1 + τ * μ) - 1) * ‖x‖ ^ 2 / (2 * τ) := fun y => by
    rw [norm_sub_sq_real, norm_sub_sq_real, norm_smul, inner_smul_right, mul_pow, Real.norm_eq_abs, sq_abs]
    field_simp
    ring
  refine ⟨h.1, fun y hy => ?_⟩
  have := h.2 y hy
  simp only [proxObj] at this ⊢
  rw [e, e]
  linarith

/-- The prox of a strongly convex function is a contraction. -/
lemma prox_contract (hF : StrongConvexOn F.dom μ F.val) (hμ : 0 ≤ μ) (hτ : 0 < τ) {x y p q : E} (hp : IsProx F τ x p) (hq : IsProx F τ y q) :
    ‖p - q‖ ≤ 1 / (1 + τ * μ) * ‖x - y‖ := by
  have h1 : 0 < 1 + τ * μ := by positivity
  have hc : (⟨F.dom, fun y => F.val y - μ / 2 * ‖y‖ ^ 2⟩ : XFun E).Convex := strongConvexOn_iff_convex.1 hF
  have h := prox_firm hc (div_pos hτ h1) (isProx_strong hμ hτ hp) (isProx_strong hμ hτ hq)
  rw [← smul_sub, norm_smul, Real.norm_of_nonneg (by positivity : 0 ≤ 1 / (1 + τ * μ))] at h
  refine (pow_le_pow_iff_left₀ (norm_nonneg _) (by positivity) two_ne_zero).1 ?_
  exact (le_add_of_nonneg_right (sq_nonneg _)).trans h

/-- A gradient step from below and above gives cocoercivity. -/
lemma coc_of_descent {K : ℝ} (hK : 0 < K) (hlow : ∀ x y, φ x + ⟪G x, y - x⟫ ≤ φ y) (hup : ∀ x y, φ y ≤ φ x + ⟪G x, y - x⟫ + K / 2 * ‖y - x‖ ^ 2) (x y : E) :
    ‖G x - G y‖ ^ 2 ≤ K * ⟪G x - G y, x - y⟫ := by
  have half : ∀ x y, φ x + ⟪G x, y - x⟫ + 1 / (2 * K) * ‖G y - G x‖ ^ 2 ≤ φ y := fun x y => by
    set d := G y - G x with hd
    set z := y - (1 / K) • d with hz
    have h1 := hup y z
    have h2 := hlow x z
    have e1 : z - y = -((1 / K) • d) := by rw [hz]; abel
    have e2 : z - x = (y - x) - (1 / K) • d := by rw [hz]; abel
    rw [e1, inner_neg_right, inner_smul_right, norm_neg, norm_smul, Real.norm_of_nonneg (by positivity : 0 ≤ 1 / K), mul_pow] at h1
    rw [e2, inner_sub_right, inner_smul_right] at h2
    have e3 : ⟪G y, d⟫ - ⟪G x, d⟫ = ‖d‖ ^ 2 := by rw [← inner_sub_left, ← hd, real_inner_self_eq_norm_sq]
    have e4 : K / 2 * ((1 / K) ^ 2 * ‖d‖ ^ 2) = 1 / (2 * K) * ‖d‖ ^ 2 := by field_simp
    have e5 : 1 / K * ⟪G y, d⟫ - 1 / K * ⟪G x, d⟫ = 2 * (1 / (2 * K) * ‖d‖ ^ 2) := by rw [← mul_sub, e3]; field_simp
    rw [e4] at h1
    linarith
  have h1 := half x y
  have h2 := half y x
  rw [norm_sub_rev] at h1
  have e : ⟪G x - G y, x - y⟫ = -⟪G x, y - x⟫ - ⟪G y, x - y⟫ := by
    rw [inner_sub_left, show y - x = -(x - y) by abel, inner_neg_right]; ring
  rw [e]
  have h3 : 1 / K * ‖G x - G y‖ ^ 2 ≤ -⟪G x, y - x⟫ - ⟪G y, x - y⟫ := by
    have : 1 / (2 * K) * ‖G x - G y‖ ^ 2 + 1 / (2 * K) * ‖G x - G y‖ ^ 2 = 1 / K * ‖G x - G y‖ ^ 2 := by field_simp; ring
    linarith
  have h4 := mul_le_mul_of_nonneg_left h3 hK.le
  rwa [← mul_assoc, mul_one_div_cancel hK.ne', one_mul] at h4

/-- The gradient of a strongly convex function. -/
lemma grad_ineq_mu (hφ : StrongConvexOn Set.univ μ φ) {g x : E} (h : IsGrad φ x g) (y : E) : φ x + ⟪g, y - x⟫ + μ / 2 * ‖y - x‖ ^ 2 ≤ φ y := by
  have hc := strongConvexOn_iff_convex.1 hφ
  have hg : IsGrad (fun x => φ x - μ / 2 * ‖x‖ ^ 2) x (g - μ • x) := by
    have h1 : HasFDerivAt (fun x : E => μ / 2 * ‖x‖ ^ 2) ((μ / 2) • (2 • innerSL ℝ x)) x := ((hasStrictFDerivAt_norm_sq x).hasFDerivAt).const_mul (μ / 2)
    have h2 := HasFDerivAt.sub h h1
    have e : innerSL ℝ (g - μ • x) = innerSL ℝ g - (μ / 2) • (2 • innerSL ℝ x) := by
      ext v
      simp
      ring
    unfold IsGrad
    rw [e]
    exact h2
  have := grad_ineq hc hg y
  rw [inner_sub_left, real_inner_smul_left] at this
  have e : ‖y‖ ^ 2 = ‖y - x‖ ^ 2 + 2 * ⟪x, y - x⟫ + ‖x‖ ^ 2 := by
    rw [show y = (y - x) + x by abel, norm_add_sq_real, real_inner_comm]; simp
  rw [e] at this
  linarith

/-- Gradients of a strongly convex function with Lipschitz gradient. -/
lemma grad_interp (hgrad : ∀ x, IsGrad φ x (G x)) (hL : ∀ x y, ‖G x - G y‖ ≤ L * ‖x - y‖) (hφ : StrongConvexOn Set.univ μ φ) (hμL : μ ≤ L) (x y : E) :
    0 ≤ ⟪(G x - G y) - μ • (x - y), L • (x - y) - (G x - G y)⟫ := by
  have key : ∀ ε : ℝ, 0 < ε → 0 ≤ ⟪(G x - G y) - μ • (x - y), L • (x - y) - (G x - G y)⟫ + ε * ⟪(G x - G y) - μ • (x - y), x - y⟫ := fun ε hε => by
    have hx : ∀ x y : E, ‖y‖ ^ 2 = ‖y - x‖ ^ 2 + 2 * ⟪x, y - x⟫ + ‖x‖ ^ 2 := fun x y => by
      conv_lhs => rw [show y = (y - x) + x by abel, norm_add_sq_real, real_inner_comm]
    have hK : 0 < L + ε - μ := by linarith
    have hc := coc_of_descent (φ := fun x => φ x - μ / 2 * ‖x‖ ^ 2) (G := fun x => G x - μ • x) hK (fun x y => by
      have := grad_ineq_mu hφ (hgrad x) y
      rw [inner_sub_left, real_inner_smul_left, hx x y]
      linarith) (fun x y => by
      have := descent_lemma hgrad hL x y
      rw [inner_sub_left, real_inner_smul_left, hx x y]
      have h3 : 0 ≤ ε * ‖y - x‖ ^ 2 := by positivity
      linarith) x y
    rw [show G x - μ • x - (G y - μ • y) = (G x - G y) - μ • (x - y) by rw [smul_sub]; abel] at hc
    set a := (G x - G y) - μ • (x - y) with ha
    rw [show L • (x - y) - (G x - G y) = (L - μ) • (x - y) - a by rw [ha, sub_smul]; abel, inner_sub_right, real_inner_self_eq_norm_sq, inner_smul_right]
    linarith
  by_contra hneg
  push Not at hneg
  set v := ⟪(G x - G y) - μ • (x - y), L • (x - y) - (G x - G y)⟫
  set w := ⟪(G x - G y) - μ • (x - y), x - y⟫
  have h1 := key (-v / (2 * (|w| + 1))) (by apply div_pos <;> [linarith; positivity])
  have h2 : -v / (2 * (|w| + 1)) * w ≤ -v / 2 := by
    rw [div_mul_eq_mul_div, div_le_div_iff₀ (by positivity) two_pos]
    nlinarith [le_abs_self w, abs_nonneg w]
  linarith

/-- A gradient step with a strongly convex function is a contraction. -/
lemma forward_contract (hgrad : ∀ x, IsGrad φ x (G x)) (hL : ∀ x y, ‖G x - G y‖ ≤ L * ‖x - y‖) (hφ : StrongConvexOn Set.univ μ φ) (hμL : μ ≤ L) (hτ : 0 < τ)
    (hτL : τ * (L + μ) ≤ 2) (x y : E) : ‖(x - τ • G x) - (y - τ • G y)‖ ≤ (1 - τ * μ) * ‖x - y‖ := by
  have h1 : 0 ≤ 1 - τ * μ := by nlinarith
  refine (pow_le_pow_iff_left₀ (norm_nonneg _) (mul_nonneg h1 (norm_nonneg _)) two_ne_zero).1 ?_
  have h := grad_interp hgrad hL hφ hμL x y
  rw [show (x - τ • G x) - (y - τ • G y) = (1 - τ * μ) • (x - y) - τ • ((G x - G y) - μ • (x - y)) by module]
  set d := x - y
  set a := (G x - G y) - μ • d with ha
  rw [show L • d - (G x - G y) = (L - μ) • d - a by rw [ha, sub_smul]; abel, inner_sub_right, inner_smul_right, real_inner_self_eq_norm_sq] at h
  have hp : 0 ≤ ⟪a, d⟫ := by
    rcases eq_or_lt_of_le hμL with h0 | h0
    · rw [h0, sub_self, zero_mul] at h
      have : a = 0 := by rw [← norm_eq_zero, ← sq_eq_zero_iff]; nlinarith [sq_nonneg ‖a‖]
      rw [this, inner_zero_left]
    · by_contra hc
      push Not at hc
      nlinarith [sq_nonneg ‖a‖, mul_neg_of_pos_of_neg (sub_pos.2 h0) hc]
  rw [norm_sub_sq_real, norm_smul, norm_smul, mul_pow, mul_pow, Real.norm_eq_abs, Real.norm_eq_abs, sq_abs, sq_abs, real_inner_smul_left, inner_smul_right, real_inner_comm a d, mul_pow]
  have e : τ ^ 2 * ‖a‖ ^ 2 ≤ τ ^ 2 * ((L - μ) * ⟪a, d⟫) := mul_le_mul_of_nonneg_left (by linarith) (sq_nonneg _)
  have e2 : 0 ≤ τ * (2 - τ * (L + μ)) * ⟪a, d⟫ := mul_nonneg (mul_nonneg hτ.le (by linarith)) hp
  nlinarith

/-- The reflection of the prox of a strongly convex function with Lipschitz gradient is a contraction. -/
lemma reflect_contract (hgrad : ∀ x, IsGrad φ x (G x)) (hL : ∀ x y, ‖G x - G y‖ ≤ L * ‖x - y‖) (hφ : StrongConvexOn Set.univ μ φ) (hμL : μ ≤ L) {γ : ℝ} (hγ : 0 < γ)
    (hτ : 0 < τ) (h1 : γ ≤ τ * μ) (h2 : γ * (τ * L) ≤ 1) {x y p q : E} (hp : x = p + τ • G p) (hq : y = q + τ • G q) :
    ‖((2 : ℝ) • p - x) - ((2 : ℝ) • q - y)‖ ≤ (1 - γ) / (1 + γ) * ‖x - y‖ := by
  have hg := grad_interp hgrad hL hφ hμL p q
  have hμ : 0 ≤ μ := by
    by_contra hc; push Not at hc; nlinarith [mul_neg_of_pos_of_neg hτ hc]
  have hγ1 : γ ≤ 1 := by
    by_contra hc
    push Not at hc
    have : τ * μ ≤ τ * L := mul_le_mul_of_nonneg_left hμL hτ.le
    nlinarith
  set u := p - q with hu
  set v := τ • (G p - G q) with hv
  have e1 : x - y = u + v := by rw [hp, hq, hu, hv, smul_sub]; abel
  have e2 : ((2 : ℝ) • p - x) - ((2 : ℝ) • q - y) = u - v := by rw [hp, hq, hu, hv]; module
  have hg' : 0 ≤ ⟪v - (τ * μ) • u, (τ * L) • u - v⟫ := by
    rw [show v - (τ * μ) • u = τ • ((G p - G q) - μ • u) by rw [hv]; module, show (τ * L) • u - v = τ • (L • u - (G p - G q)) by rw [hv]; module, real_inner_smul_left,
      inner_smul_right]
    positivity
  clear_value v
  rw [inner_sub_left, inner_sub_right, inner_sub_right, inner_smul_right, real_inner_smul_left, real_inner_smul_left, inner_smul_right, real_inner_self_eq_norm_sq,
    real_inner_self_eq_norm_sq, real_inner_comm u v] at hg'
  rw [e1, e2]
  rw [div_mul_eq_mul_div, le_div_iff₀ (by positivity)]
  refine (pow_le_pow_iff_left₀ (by positivity) (mul_nonneg (by linarith) (norm_nonneg _)) two_ne_zero).1 ?_
  rw [mul_pow, mul_pow, norm_sub_sq_real, norm_add_sq_real]
  set m := τ * μ
  set M := τ * L
  have hmM : m ≤ M := mul_le_mul_of_nonneg_left hμL hτ.le
  set a := ‖u‖ ^ 2
  set b := ‖v‖ ^ 2
  set c := ⟪u, v⟫
  have ha : 0 ≤ a := sq_nonneg _
  have hb : 0 ≤ b := sq_nonneg _
  have hcs : c ^ 2 ≤ a * b := by
    have := real_inner_mul_inner_self_le u v
    rw [real_inner_self_eq_norm_sq, real_inner_self_eq_norm_sq] at this
    nlinarith
  -- (M + m) c ≥ b + M m a
  have k0 : b + M * m * a ≤ (M + m) * c := by nlinarith
  -- m a ≤ c and c ≤ M a
  have kc : m * a ≤ c ∧ c ≤ M * a := by
    rcases eq_or_lt_of_le ha with h0 | h0
    · have hc0 : c = 0 := by
        have : c ^ 2 ≤ 0 := by rw [← h0] at hcs; linarith
        exact pow_eq_zero_iff two_ne_zero |>.1 (le_antisymm this (sq_nonneg _))
      rw [hc0, ← h0]; simp
    · have : (c - m * a) * (c - M * a) ≤ 0 := by nlinarith
      constructor
      · by_contra hcon
        push Not at hcon
        have : 0 < (m * a - c) * (M * a - c) := mul_pos (by linarith) (by nlinarith)
        nlinarith
      · by_contra hcon
        push Not at hcon
        have : 0 < (c - m * a) * (c - M * a) := mul_pos (by nlinarith) (by linarith)
        nlinarith
  -- γ (a + b) ≤ (1 + γ²) c
  have key : γ * (a + b) ≤ (1 + γ ^ 2) * c := by
    have k1 : 0 ≤ (1 - γ * M) * (c - m * a) := mul_nonneg (by linarith) (by linarith [kc.1])
    have k2 : 0 ≤ γ * (m - γ) * (M * a - c) := mul_nonneg (mul_nonneg hγ.le (by linarith)) (by linarith [kc.2])
    have k3 : 0 ≤ (m - γ) * (1 - γ * M) * a := mul_nonneg (mul_nonneg (by linarith) (by linarith)) ha
    have k4 : γ * (b + M * m * a) ≤ γ * ((M + m) * c) := mul_le_mul_of_nonneg_left k0 hγ.le
    nlinarith
  nlinarith

end Verif
