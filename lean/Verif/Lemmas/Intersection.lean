import Verif.Model.Intersection
import Verif.Lemmas.Monotone
import Verif.Lemmas.Dykstra
import Mathlib.Order.Monotone.Odd

/-! # The scalar step of IntersectionProj -/

open scoped RealInnerProductSpace
open Filter Topology

namespace Verif

/-- The difference of the two entries after an update. -/
noncomputable def interT (σ t : ℝ) : ℝ := t - interShrink σ t

lemma interShrink_small {σ t : ℝ} (h : |t| ≤ σ) : interShrink σ t = 0 := by
  unfold interShrink
  rw [max_eq_left (by linarith), zero_mul, zero_div]

lemma interT_small {σ t : ℝ} (h : |t| ≤ σ) : interT σ t = t := by
  unfold interT; rw [interShrink_small h, sub_zero]

lemma interT_large {σ t : ℝ} (h : σ ≤ |t|) : interT σ t = (σ + 1e-10) * (t / (|t| + 1e-10)) := by
  unfold interT interShrink
  rw [max_eq_right (by linarith)]
  have : |t| + 1e-10 ≠ 0 := by positivity
  field_simp
  ring

lemma interShrink_odd (σ t : ℝ) : interShrink σ (-t) = -interShrink σ t := by
  unfold interShrink
  rw [abs_neg]; ring

lemma interT_odd (σ t : ℝ) : interT σ (-t) = -interT σ t := by
  unfold interT
  rw [interShrink_odd]; ring

lemma frac_mono {a b : ℝ} (ha : 0 ≤ a) (h : a ≤ b) : a / (a + 1e-10) ≤ b / (b + 1e-10) := by
  have hb : 0 ≤ b := ha.trans h
  rw [div_le_div_iff₀ (by positivity) (by positivity)]
  nlinarith

lemma interShrink_monotone {σ : ℝ} : Monotone (interShrink σ) := by
  refine monotone_of_odd_of_monotoneOn_nonneg (interShrink_odd σ) fun a ha b hb h => ?_
  have ha' : 0 ≤ a := ha
  have hb' : 0 ≤ b := hb
  unfold interShrink
  rw [abs_of_nonneg ha', abs_of_nonneg hb', mul_div_assoc, mul_div_assoc]
  exact mul_le_mul (max_le_max le_rfl (by linarith)) (frac_mono ha' h) (by positivity) (le_max_left _ _)

lemma interT_monotone {σ : ℝ} (hσ : 0 ≤ σ) : Monotone (interT σ) := by
  refine monotone_of_odd_of_monotoneOn_nonneg (interT_odd σ) fun a ha b hb h => ?_
  have ha' : 0 ≤ a := ha
  have hb' : 0 ≤ b := hb
  rcases le_total b σ with hbs | hbs
  · rw [interT_small (t := b) (by rwa [abs_of_nonneg hb']), interT_small (t := a) (by rw [abs_of_nonneg ha']; linarith)]; exact h
  rcases le_total a σ with has | has
  · rw [interT_small (by rwa [abs_of_nonneg ha'])]
    refine has.trans ?_
    have e : σ = interT σ σ := (interT_small (by rw [abs_of_nonneg hσ])).symm
    conv_lhs => rw [e]
    rw [interT_large (by rw [abs_of_nonneg hσ]), interT_large (by rwa [abs_of_nonneg hb']), abs_of_nonneg hσ, abs_of_nonneg hb']
    exact mul_le_mul_of_nonneg_left (frac_mono hσ hbs) (by positivity)
  · rw [interT_large (by rwa [abs_of_nonneg ha']), interT_large (by rwa [abs_of_nonneg hb']), abs_of_nonneg ha', abs_of_nonneg hb']
    exact mul_le_mul_of_nonneg_left (frac_mono ha' h) (by positivity)

lemma interT_shrink (σ : ℝ) : (fun t => t - interT σ t) = interShrink σ := by
  funext t; unfold interT; ring

lemma interT_lt {σ : ℝ} (hσ : 0 ≤ σ) (t : ℝ) : |interT σ t| < σ + 1e-10 := by
  rcases le_total |t| σ with h | h
  · rw [interT_small h]; linarith [show (0 : ℝ) < 1e-10 by norm_num]
  · rw [interT_large h, abs_mul, abs_of_nonneg (by positivity), abs_div, abs_of_nonneg (show 0 ≤ |t| + 1e-10 by positivity)]
    have : |t| / (|t| + 1e-10) < 1 := by rw [div_lt_one (by positivity)]; linarith [show (0 : ℝ) < 1e-10 by norm_num]
    exact mul_lt_of_lt_one_right (by positivity) this

/-- Beyond `σ` the step overshoots: the new difference is larger than `σ`. -/
lemma interT_gt {σ : ℝ} (hσ : 0 ≤ σ) {t : ℝ} (h : σ < |t|) : σ < |interT σ t| := by
  rw [interT_large h.le, abs_mul, abs_of_nonneg (by positivity), abs_div, abs_of_nonneg (show 0 ≤ |t| + 1e-10 by positivity), mul_div_assoc', lt_div_iff₀ (by positivity)]
  nlinarith

/-- Every difference below `σ + 1e-10` is the outcome of a step. -/
lemma interT_surj {σ : ℝ} {w : ℝ} (h1 : σ < |w|) (h2 : |w| < σ + 1e-10) : interT σ (w * 1e-10 / (σ + 1e-10 - |w|)) = w := by
  have h3 : 0 < σ + 1e-10 - |w| := by linarith
  have h4 : |w * 1e-10 / (σ + 1e-10 - |w|)| = |w| * 1e-10 / (σ + 1e-10 - |w|) := by
    rw [abs_div, abs_mul, abs_of_pos h3, abs_of_pos (show (0 : ℝ) < 1e-10 by norm_num)]
  have h0 : 0 < σ + 1e-10 := lt_of_le_of_lt (abs_nonneg w) h2
  have h5 : σ ≤ |w * 1e-10 / (σ + 1e-10 - |w|)| := by
    rw [h4, le_div_iff₀ h3]; nlinarith
  rw [interT_large h5, h4]
  have h6 : |w| * 1e-10 / (σ + 1e-10 - |w|) + 1e-10 = 1e-10 * (σ + 1e-10) / (σ + 1e-10 - |w|) := by
    field_simp; ring
  rw [h6]
  field_simp

lemma primitive_even {T : ℝ → ℝ} (hodd : ∀ t, T (-t) = -T t) (t : ℝ) : primitive T (-t) = primitive T t := by
  unfold primitive
  have := intervalIntegral.integral_comp_neg (f := T) (a := (0 : ℝ)) (b := t)
  simp only [hodd, neg_zero, intervalIntegral.integral_neg] at this
  rw [intervalIntegral.integral_symm, ← this, neg_neg]

lemma potential_even_dom {T : ℝ → ℝ} (hodd : ∀ t, T (-t) = -T t) {w : ℝ} (h : w ∈ (potential T).dom) : -w ∈ (potential T).dom := by
  obtain ⟨B, hB⟩ := h
  refine ⟨B, ?_⟩
  rintro _ ⟨t, rfl⟩
  refine le_trans (le_of_eq ?_) (hB ⟨-t, rfl⟩)
  simp only [primitive_even hodd]; ring

lemma potential_even {T : ℝ → ℝ} (hodd : ∀ t, T (-t) = -T t) (w : ℝ) : (potential T).val (-w) = (potential T).val w := by
  unfold potential
  simp only
  rw [neg_sq]
  congr 1
  refine (Equiv.iSup_congr (Equiv.neg ℝ) fun t => ?_)
  simp only [Equiv.neg_apply, primitive_even hodd]; ring

lemma potential_dom_bound {T : ℝ → ℝ} (hT : Monotone T) (hT' : Monotone fun t => t - T t) (hodd : ∀ t, T (-t) = -T t) {A : ℝ} (hA : ∀ t, |T t| ≤ A) {w : ℝ}
    (h : w ∈ (potential T).dom) : |w| ≤ A := by
  have hc := mono_continuous hT hT'
  have h0 : primitive T 0 = 0 := by simp [primitive]
  -- the positive half
  have pos : ∀ w ∈ (potential T).dom, w ≤ A := by
    rintro w ⟨B, hB⟩
    by_contra hw
    push Not at hw
    have hb : ∀ t, 0 < t → t * (w - A) ≤ B := by
      intro t ht
      have h1 := hB ⟨t, rfl⟩
      simp only at h1
      have h2 := primitive_ge hT hc t 0
      rw [h0] at h2
      have h3 := (abs_le.1 (hA t)).2
      nlinarith
    have h1 := hb ((|B| + 1) / (w - A)) (div_pos (by positivity) (by linarith))
    rw [div_mul_cancel₀ _ (by linarith)] at h1
    linarith [le_abs_self B]
  rw [abs_le]
  exact ⟨by linarith [pos _ (potential_even_dom hodd h)], pos w h⟩

/-- The potential of the step: it does not increase when the difference moves towards zero, or stays within `σ`. -/
lemma inter_potential_mono {σ : ℝ} (hσ : 0 ≤ σ) {w δ : ℝ} (hδ : δ ∈ (potential (interT σ)).dom) (h : |w| ≤ max σ |δ|) :
    w ∈ (potential (interT σ)).dom ∧ (potential (interT σ)).val w ≤ (potential (interT σ)).val δ := by
  have hT := interT_monotone hσ
  have hT' : Monotone fun t => t - interT σ t := by rw [interT_shrink]; exact interShrink_monotone
  have hodd := interT_odd σ
  rcases le_or_gt |w| σ with hw | hw
  · have h1 := potential_subgrad hT hT' w
    rw [interT_small hw, sub_self] at h1
    refine ⟨h1.1, ?_⟩
    have := h1.2 δ hδ
    simpa using this
  have hwd : |w| ≤ |δ| := by
    rcases max_cases σ |δ| with ⟨h1, h2⟩ | ⟨h1, h2⟩
    · rw [h1] at h; linarith
    · rwa [h1] at h
  have hdA := potential_dom_bound hT hT' hodd (fun t => (interT_lt hσ t).le) hδ
  -- the point with the sign of `w` and the size of `δ`
  obtain ⟨δ', hδ', hv, hs⟩ : ∃ δ' ∈ (potential (interT σ)).dom, (potential (interT σ)).val δ' = (potential (interT σ)).val δ ∧ |δ'| = |δ| ∧ 0 ≤ w * δ' := by
    rcases le_total 0 (w * δ) with h1 | h1
    · exact ⟨δ, hδ, rfl, rfl, h1⟩
    · exact ⟨-δ, potential_even_dom hodd hδ, potential_even hodd δ, abs_neg δ, by linarith [mul_neg w δ]⟩
  rw [← hv]
  rw [← hs.1] at hwd hdA
  have hsgn : (0 ≤ w ∧ 0 ≤ δ') ∨ (w ≤ 0 ∧ δ' ≤ 0) := by
    rcases lt_trichotomy w 0 with h1 | h1 | h1
    · right; refine ⟨h1.le, ?_⟩; by_contra hc; push Not at hc; nlinarith [hs.2]
    · rw [h1, abs_zero] at hw; linarith
    · left; refine ⟨h1.le, ?_⟩; by_contra hc; push Not at hc; nlinarith [hs.2]
  rcases hwd.lt_or_eq with hlt | heq
  · have hwA : |w| < σ + 1e-10 := lt_of_lt_of_le hlt hdA
    have h1 := potential_subgrad hT hT' (w * 1e-10 / (σ + 1e-10 - |w|))
    rw [interT_surj hw hwA] at h1
    refine ⟨h1.1, ?_⟩
    have h2 := h1.2 δ' hδ'
    have h3 : 0 < σ + 1e-10 - |w| := by linarith
    have h4 : w * 1e-10 / (σ + 1e-10 - |w|) - w = w * ((|w| - σ) / (σ + 1e-10 - |w|)) := by field_simp; ring
    rw [h4] at h2
    have h5 : 0 ≤ (|w| - σ) / (σ + 1e-10 - |w|) := div_nonneg (by linarith) h3.le
    have h6 : 0 ≤ ⟪w * ((|w| - σ) / (σ + 1e-10 - |w|)), δ' - w⟫ := by
      have e : ⟪w * ((|w| - σ) / (σ + 1e-10 - |w|)), δ' - w⟫ = ((|w| - σ) / (σ + 1e-10 - |w|)) * (w * (δ' - w)) := by simp; ring
      rw [e]
      refine mul_nonneg h5 ?_
      rcases hsgn with ⟨a, b⟩ | ⟨a, b⟩
      · rw [abs_of_nonneg a, abs_of_nonneg b] at hwd; exact mul_nonneg a (by linarith)
      · rw [abs_of_nonpos a, abs_of_nonpos b] at hwd; exact mul_nonneg_of_nonpos_of_nonpos a (by linarith)
    linarith
  · have e : w = δ' := by
      rcases hsgn with ⟨a, b⟩ | ⟨a, b⟩
      · rwa [abs_of_nonneg a, abs_of_nonneg b] at heq
      · rw [abs_of_nonpos a, abs_of_nonpos b] at heq; linarith
    rw [e]; exact ⟨hδ', le_rfl⟩

end Verif
