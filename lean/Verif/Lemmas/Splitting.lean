import Verif.Spec.Optim
import Verif.Lemmas.Loop
import Verif.Lemmas.Smooth

/-! # Firmly non-expansive maps and Douglas-Rachford -/

open scoped RealInnerProductSpace
open Filter Topology

namespace Verif

variable {E : Type} [NormedAddCommGroup E] [InnerProductSpace ℝ E]

/-- Firmly non-expansive maps. -/
def Firm (P : E → E) : Prop := ∀ x y, ‖P x - P y‖ ^ 2 ≤ ⟪P x - P y, x - y⟫

lemma Firm.nonexp {P : E → E} (h : Firm P) (x y : E) : ‖P x - P y‖ ≤ ‖x - y‖ := by
  have h1 := h x y
  have h2 := real_inner_le_norm (P x - P y) (x - y)
  by_cases h0 : ‖P x - P y‖ = 0
  · rw [h0]; exact norm_nonneg _
  · have hp : 0 < ‖P x - P y‖ := lt_of_le_of_ne (norm_nonneg _) (Ne.symm h0)
    have : ‖P x - P y‖ * ‖P x - P y‖ ≤ ‖P x - P y‖ * ‖x - y‖ := by nlinarith
    exact le_of_mul_le_mul_left this hp

lemma Firm.continuous {P : E → E} (h : Firm P) : Continuous P :=
  continuous_of_nonexpansive (K := 1) fun x y => by simpa using h.nonexp x y

lemma firm_prox {F : XFun E} (hF : F.Convex) {τ : ℝ} (hτ : 0 < τ) {P : E → E} (hP : ∀ x, IsProx F τ x (P x)) : Firm P := by
  intro x y
  have h := prox_firm hF hτ (hP x) (hP y)
  have e : ‖x - y‖ ^ 2 = ‖P x - P y‖ ^ 2 + ‖x - P x - (y - P y)‖ ^ 2 + 2 * ⟪P x - P y, x - P x - (y - P y)⟫ := by
    rw [show x - y = (P x - P y) + (x - P x - (y - P y)) by abel, norm_add_sq_real]; ring
  have e2 : ⟪P x - P y, x - y⟫ = ‖P x - P y‖ ^ 2 + ⟪P x - P y, x - P x - (y - P y)⟫ := by
    rw [show x - y = (P x - P y) + (x - P x - (y - P y)) by abel, inner_add_right, real_inner_self_eq_norm_sq]
  rw [e2]
  linarith

/-- One Douglas-Rachford step. -/
noncomputable def drStep (P₁ P₂ : E → E) (η : ℝ) (y : E) : E := y + η • (P₂ ((2 : ℝ) • P₁ y - y) - P₁ y)

lemma dr_fejer {P₁ P₂ : E → E} (h₁ : Firm P₁) (h₂ : Firm P₂) {η : ℝ} (hη : 0 < η) {c : E} (hc : drStep P₁ P₂ η c = c) (y : E) :
    ‖drStep P₁ P₂ η y - c‖ ^ 2 + (2 - η) / η * ‖drStep P₁ P₂ η y - y‖ ^ 2 ≤ ‖y - c‖ ^ 2 := by
  have hc' : P₂ ((2 : ℝ) • P₁ c - c) = P₁ c := by
    have : η • (P₂ ((2 : ℝ) • P₁ c - c) - P₁ c) = 0 := by
      have := hc; unfold drStep at this; exact add_eq_left.1 this
    exact sub_eq_zero.1 ((smul_eq_zero.1 this).resolve_left hη.ne')
  have f1 := h₁ y c
  have f2 := h₂ ((2 : ℝ) • P₁ y - y) ((2 : ℝ) • P₁ c - c)
  rw [hc'] at f2
  set a := P₁ y - P₁ c with ha
  set b := P₂ ((2 : ℝ) • P₁ y - y) - P₁ c with hb
  set w := y - c with hw
  have e1 : (2 : ℝ) • P₁ y - y - ((2 : ℝ) • P₁ c - c) = (2 : ℝ) • a - w := by rw [ha, hw, smul_sub]; abel
  rw [e1, inner_sub_right, inner_smul_right] at f2
  have e2 : drStep P₁ P₂ η y - y = -(η • (a - b)) := by
    unfold drStep; rw [ha, hb, add_sub_cancel_left, ← smul_neg]; congr 1; abel
  have e3 : drStep P₁ P₂ η y - c = w - η • (a - b) := by
    have : drStep P₁ P₂ η y - c = (drStep P₁ P₂ η y - y) + w := by rw [hw]; abel
    rw [this, e2]; abel
  rw [e2, e3, norm_neg, norm_sub_sq_real, inner_smul_right, norm_smul, mul_pow, Real.norm_eq_abs, sq_abs]
  have f3 : ‖a - b‖ ^ 2 ≤ ⟪w, a - b⟫ := by
    clear_value a b w
    rw [norm_sub_sq_real, inner_sub_right, real_inner_comm a w, real_inner_comm b w]
    rw [real_inner_comm a b] at f2
    linarith
  have e4 : (2 - η) / η * (η ^ 2 * ‖a - b‖ ^ 2) = (2 - η) * η * ‖a - b‖ ^ 2 := by field_simp
  rw [e4]
  nlinarith [mul_le_mul_of_nonneg_left f3 hη.le]

lemma dr_continuous {P₁ P₂ : E → E} (h₁ : Firm P₁) (h₂ : Firm P₂) (η : ℝ) : Continuous (drStep P₁ P₂ η) := by
  have c1 := h₁.continuous
  have c2 := h₂.continuous
  unfold drStep
  fun_prop

lemma dr_converges [ProperSpace E] {P₁ P₂ : E → E} (h₁ : Firm P₁) (h₂ : Firm P₂) {η : ℝ} (hη : 0 < η) (hη2 : η < 2)
    (hfix : ∃ c, drStep P₁ P₂ η c = c) (y : ℕ → E) (hy : ∀ n, y (n + 1) = drStep P₁ P₂ η (y n)) :
    ∃ c, drStep P₁ P₂ η c = c ∧ Tendsto y atTop (𝓝 c) :=
  km_converges (drStep P₁ P₂ η) (dr_continuous h₁ h₂ η) (fun v => ‖v‖ ^ 2) (by fun_prop) (by simp) one_pos
    (β := (2 - η) / η) (div_pos (by linarith) hη) (fun v => by rw [one_mul]) (fun x c hc => dr_fejer h₁ h₂ hη hc x) hfix y hy

lemma IsCertified.isMin {F G : XFun E} {x s : E} (h : IsCertified F G x s) : (F.add G).IsMin x := by
  refine ⟨⟨h.1.1, h.2.1⟩, fun y hy => ?_⟩
  have h1 := h.1.2 y hy.1
  have h2 := h.2.2 y hy.2
  rw [inner_neg_left] at h1
  simp only [XFun.add]
  linarith

lemma IsCertified.swap {F G : XFun E} {x s : E} (h : IsCertified F G x s) : IsCertified G F x (-s) :=
  ⟨by rw [neg_neg]; exact h.2, h.1⟩

/-- Fixed points of the Douglas-Rachford step and certified minimisers. -/
lemma dr_fixed_iff {F G : XFun E} (hF : F.Convex) (hG : G.Convex) {τ η : ℝ} (hτ : 0 < τ) (hη : η ≠ 0) {Pf Pg : E → E}
    (hPf : ∀ x, IsProx F τ x (Pf x)) (hPg : ∀ x, IsProx G τ x (Pg x)) (c : E) :
    drStep Pg Pf η c = c ↔ IsCertified F G (Pg c) ((1 / τ) • (c - Pg c)) := by
  have h0 : drStep Pg Pf η c = c ↔ Pf ((2 : ℝ) • Pg c - c) = Pg c := by
    unfold drStep
    rw [add_eq_left, smul_eq_zero]
    simp [hη, sub_eq_zero]
  rw [h0]
  constructor
  · intro h
    have h1 := subgrad_of_isProx hF hτ (hPf ((2 : ℝ) • Pg c - c))
    have h2 := subgrad_of_isProx hG hτ (hPg c)
    rw [h] at h1
    refine ⟨?_, h2⟩
    convert h1 using 1
    rw [← smul_neg, two_smul]; congr 1; abel
  · intro h
    have h1 : IsProx F τ ((2 : ℝ) • Pg c - c) (Pg c) := by
      refine isProx_of_subgrad hτ ?_
      convert h.1 using 1
      rw [← smul_neg, two_smul]; congr 1; abel
    exact IsProx.unique hF hτ h1 (hPf _)

lemma dr_fixed_exists {F G : XFun E} (hF : F.Convex) (hG : G.Convex) {τ η : ℝ} (hτ : 0 < τ) (hη : η ≠ 0) {Pf Pg : E → E}
    (hPf : ∀ x, IsProx F τ x (Pf x)) (hPg : ∀ x, IsProx G τ x (Pg x)) {x s : E} (h : IsCertified F G x s) :
    drStep Pg Pf η (x + τ • s) = x + τ • s ∧ Pg (x + τ • s) = x := by
  have h1 : Pg (x + τ • s) = x := by
    have : IsProx G τ (x + τ • s) x := by
      refine isProx_of_subgrad hτ ?_
      rw [add_sub_cancel_left, smul_smul, one_div, inv_mul_cancel₀ hτ.ne', one_smul]
      exact h.2
    exact IsProx.unique hG hτ this (hPg _)
  refine ⟨(dr_fixed_iff hF hG hτ hη hPf hPg _).2 ?_, h1⟩
  rw [h1, add_sub_cancel_left, smul_smul, one_div, inv_mul_cancel₀ hτ.ne', one_smul]
  exact h

end Verif
