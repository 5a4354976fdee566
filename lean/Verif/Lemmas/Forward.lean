import Verif.Lemmas.Splitting
import Verif.Lemmas.Smooth
import Verif.Lemmas.Loop

/-! Helper lemmas: the forward-backward iteration with a firmly non-expansive backward step. -/

open scoped RealInnerProductSpace
open Filter Topology

set_option linter.unusedSectionVars false

namespace Verif

variable {E : Type} [NormedAddCommGroup E] [InnerProductSpace ℝ E] {φ : E → ℝ} {G P : E → E} {L τ η : ℝ}

lemma grad_ineq_strong (hgrad : ∀ x, IsGrad φ x (G x)) (hL : ∀ x y, ‖G x - G y‖ ≤ L * ‖x - y‖) (hφ : ConvexOn ℝ Set.univ φ) (hL0 : 0 < L) (x y : E) :
    φ x + ⟪G x, y - x⟫ + 1 / (2 * L) * ‖G y - G x‖ ^ 2 ≤ φ y := by
  set d := G y - G x with hd
  set z := y - (1 / L) • d with hz
  have h1 := descent_lemma hgrad hL y z
  have h2 := grad_ineq hφ (hgrad x) z
  have e1 : z - y = -((1 / L) • d) := by rw [hz]; abel
  have e2 : z - x = (y - x) - (1 / L) • d := by rw [hz]; abel
  rw [e1, inner_neg_right, inner_smul_right, norm_neg, norm_smul, Real.norm_of_nonneg (by positivity : 0 ≤ 1 / L), mul_pow] at h1
  rw [e2, inner_sub_right, inner_smul_right] at h2
  have e3 : ⟪G y, d⟫ - ⟪G x, d⟫ = ‖d‖ ^ 2 := by rw [← inner_sub_left, ← hd, real_inner_self_eq_norm_sq]
  have e4 : L / 2 * ((1 / L) ^ 2 * ‖d‖ ^ 2) = 1 / (2 * L) * ‖d‖ ^ 2 := by field_simp
  have e5 : 1 / L * ⟪G y, d⟫ - 1 / L * ⟪G x, d⟫ = 2 * (1 / (2 * L) * ‖d‖ ^ 2) := by rw [← mul_sub, e3]; field_simp
  rw [e4] at h1
  linarith

/-- Baillon-Haddad: a Lipschitz gradient of a convex function is grad_cocoercive. -/
lemma grad_cocoercive (hgrad : ∀ x, IsGrad φ x (G x)) (hL : ∀ x y, ‖G x - G y‖ ≤ L * ‖x - y‖) (hφ : ConvexOn ℝ Set.univ φ) (hL0 : 0 < L) (x y : E) :
    ‖G x - G y‖ ^ 2 ≤ L * ⟪G x - G y, x - y⟫ := by
  have h1 := grad_ineq_strong hgrad hL hφ hL0 x y
  have h2 := grad_ineq_strong hgrad hL hφ hL0 y x
  rw [norm_sub_rev] at h1
  have e : ⟪G x - G y, x - y⟫ = -⟪G x, y - x⟫ - ⟪G y, x - y⟫ := by
    rw [inner_sub_left, show y - x = -(x - y) by abel, inner_neg_right]; ring
  rw [e]
  have h3 : 1 / L * ‖G x - G y‖ ^ 2 ≤ -⟪G x, y - x⟫ - ⟪G y, x - y⟫ := by
    have : 1 / (2 * L) * ‖G x - G y‖ ^ 2 + 1 / (2 * L) * ‖G x - G y‖ ^ 2 = 1 / L * ‖G x - G y‖ ^ 2 := by field_simp; ring
    linarith
  have h4 := mul_le_mul_of_nonneg_left h3 hL0.le
  rwa [← mul_assoc, mul_one_div_cancel hL0.ne', one_mul] at h4

/-- The forward-backward map. -/
def fbMap (P G : E → E) (τ : ℝ) (x : E) : E := P (x - τ • G x)

/-- One forward-backward step brings every point closer to every fixed point. -/
lemma fb_fejer (hP : Firm P) (hco : ∀ x y, ‖G x - G y‖ ^ 2 ≤ L * ⟪G x - G y, x - y⟫) (hL0 : 0 < L) (hτ : 0 < τ) {c : E}
    (hc : fbMap P G τ c = c) (x : E) :
    ‖fbMap P G τ x - c‖ ^ 2 + (2 - τ * L) / 2 * ‖fbMap P G τ x - x‖ ^ 2 ≤ ‖x - c‖ ^ 2 := by
  have h1 := hP (x - τ • G x) (c - τ • G c)
  have hc' : P (c - τ • G c) = c := hc
  set T := fbMap P G τ x with hT
  have hT' : P (x - τ • G x) = T := rfl
  rw [hc', hT'] at h1
  set b := τ • (G x - G c) with hb
  set a := x - T with ha
  have e1 : x - τ • G x - (c - τ • G c) = (x - c) - b := by rw [hb, smul_sub]; abel
  have e2 : T - c = (x - c) - a := by rw [ha]; abel
  have e3 : T - x = -a := by rw [ha]; abel
  have hcoc : (2 / (τ * L)) * ‖b‖ ^ 2 ≤ 2 * ⟪b, x - c⟫ := by
    have := hco x c
    rw [hb, norm_smul, mul_pow, Real.norm_of_nonneg hτ.le, real_inner_smul_left]
    have e : 2 / (τ * L) * (τ ^ 2 * ‖G x - G c‖ ^ 2) = 2 * τ / L * ‖G x - G c‖ ^ 2 := by field_simp
    rw [e]
    calc 2 * τ / L * ‖G x - G c‖ ^ 2 ≤ 2 * τ / L * (L * ⟪G x - G c, x - c⟫) := mul_le_mul_of_nonneg_left this (by positivity)
      _ = _ := by field_simp
  set w := x - c with hw
  set K := 2 / (τ * L) with hK
  have hK1 : τ * L / 2 * K = 1 := by rw [hK]; field_simp
  have h0 : 0 ≤ τ * L / 2 * ‖a - K • b‖ ^ 2 := by positivity
  rw [norm_sub_sq_real, inner_smul_right, norm_smul, mul_pow, Real.norm_eq_abs, sq_abs] at h0
  have h5 : 0 ≤ τ * L / 2 * ‖a‖ ^ 2 - 2 * ⟪a, b⟫ + K * ‖b‖ ^ 2 := by
    have e : τ * L / 2 * (‖a‖ ^ 2 - 2 * (K * ⟪a, b⟫) + K ^ 2 * ‖b‖ ^ 2) =
        τ * L / 2 * ‖a‖ ^ 2 - 2 * (τ * L / 2 * K) * ⟪a, b⟫ + (τ * L / 2 * K) * K * ‖b‖ ^ 2 := by ring
    rw [e, hK1] at h0
    linarith
  rw [e2, e1] at h1
  clear_value a b w K
  rw [inner_sub_left, inner_sub_right, inner_sub_right, norm_sub_sq_real, real_inner_self_eq_norm_sq, real_inner_comm w a] at h1
  rw [e2, e3, norm_neg, norm_sub_sq_real]
  rw [real_inner_comm] at hcoc
  have e6 : (2 - τ * L) / 2 * ‖a‖ ^ 2 = ‖a‖ ^ 2 - τ * L / 2 * ‖a‖ ^ 2 := by ring
  rw [e6]
  linarith

/-- The same for the relaxed step `x + η (T x - x)`. -/
lemma fb_relaxed_fejer (hP : Firm P) (hco : ∀ x y, ‖G x - G y‖ ^ 2 ≤ L * ⟪G x - G y, x - y⟫) (hL0 : 0 < L) (hτ : 0 < τ)
    (hη : 0 < η) {c : E} (hc : fbMap P G τ c = c) (x : E) :
    ‖x + η • (fbMap P G τ x - x) - c‖ ^ 2 + (1 + (2 - τ * L) / 2 - η) / η * ‖x + η • (fbMap P G τ x - x) - x‖ ^ 2 ≤ ‖x - c‖ ^ 2 := by
  have h := fb_fejer hP hco hL0 hτ hc x
  set v := fbMap P G τ x - x with hv
  have e1 : fbMap P G τ x - c = (x - c) + v := by rw [hv]; abel
  have e2 : x + η • v - c = (x - c) + η • v := by abel
  have e3 : x + η • v - x = η • v := by abel
  rw [e1, norm_add_sq_real] at h
  rw [e2, e3, norm_add_sq_real, inner_smul_right, norm_smul, mul_pow, Real.norm_eq_abs, sq_abs]
  have e4 : (1 + (2 - τ * L) / 2 - η) / η * (η ^ 2 * ‖v‖ ^ 2) = (1 + (2 - τ * L) / 2 - η) * η * ‖v‖ ^ 2 := by field_simp
  rw [e4]
  nlinarith [mul_le_mul_of_nonneg_left h hη.le]

/-- Convergence of the relaxed forward-backward iteration. -/
lemma fb_converges [ProperSpace E] (hP : Firm P) (hgrad : ∀ x, IsGrad φ x (G x)) (hL : ∀ x y, ‖G x - G y‖ ≤ L * ‖x - y‖)
    (hφ : ConvexOn ℝ Set.univ φ) (hτ : 0 < τ) (hτL : τ * L < 2) (hη : 0 < η) (hη1 : η ≤ 1) (hfix : ∃ c, P (c - τ • G c) = c) (x : ℕ → E)
    (hx : ∀ n, x (n + 1) = x n + η • (P (x n - τ • G (x n)) - x n)) :
    ∃ c, P (c - τ • G c) = c ∧ Tendsto x atTop (𝓝 c) := by
  obtain ⟨L', hL'0, hL', hτL'⟩ : ∃ L', 0 < L' ∧ (∀ x y, ‖G x - G y‖ ≤ L' * ‖x - y‖) ∧ τ * L' < 2 := by
    by_cases h : 0 < L
    · exact ⟨L, h, hL, hτL⟩
    · refine ⟨1 / τ, by positivity, fun x y => (hL x y).trans (mul_le_mul_of_nonneg_right ?_ (norm_nonneg _)), ?_⟩
      · have : 0 < 1 / τ := by positivity
        linarith [not_lt.1 h]
      · rw [mul_one_div_cancel hτ.ne']; norm_num
  have hco := grad_cocoercive hgrad hL' hφ hL'0
  have hGc : Continuous G := continuous_of_nonexpansive hL'
  have hTc : Continuous (fbMap P G τ) := hP.continuous.comp (by fun_prop)
  have hiff : ∀ c, c + η • (fbMap P G τ c - c) = c ↔ fbMap P G τ c = c := fun c => by
    rw [add_eq_left, smul_eq_zero, sub_eq_zero]; simp [hη.ne']
  obtain ⟨c, hc, hlim⟩ := km_converges (fun x => x + η • (fbMap P G τ x - x)) (by fun_prop) (fun v => ‖v‖ ^ 2) (by fun_prop) (by simp) one_pos
    (β := (1 + (2 - τ * L') / 2 - η) / η) (div_pos (by linarith) hη) (fun v => by rw [one_mul])
    (fun x c hc => fb_relaxed_fejer hP hco hL'0 hτ hη ((hiff c).1 hc) x) (by obtain ⟨c, hc⟩ := hfix; exact ⟨c, (hiff c).2 hc⟩) x hx
  exact ⟨c, (hiff c).1 hc, hlim⟩

end Verif
