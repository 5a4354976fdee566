import Verif.Lemmas.Block
import Verif.Lemmas.Closed
import Mathlib.Analysis.Calculus.MeanValue
import Mathlib.Analysis.Calculus.Deriv.MeanValue

/-! # One-dimensional lemmas for even, non-convex penalties -/

open scoped RealInnerProductSpace

namespace Verif

lemma isProx_real_iff (φ : ℝ → ℝ) (τ x p : ℝ) :
    IsProx (XFun.ofReal φ) τ x p ↔ ∀ y, φ p + (p - x) ^ 2 / (2 * τ) ≤ φ y + (y - x) ^ 2 / (2 * τ) := by
  constructor
  · intro h y
    have := h.2 y trivial
    simpa only [proxObj, XFun.ofReal, Real.norm_eq_abs, sq_abs] using this
  · intro h
    refine ⟨trivial, fun y _ => ?_⟩
    simpa only [proxObj, XFun.ofReal, Real.norm_eq_abs, sq_abs] using h y

lemma npsign_sq {x : ℝ} (hx : x ≠ 0) : npsign x * npsign x = 1 := by
  unfold npsign
  rcases lt_or_gt_of_ne hx with h | h
  · simp [h, not_lt.2 h.le]
  · simp [h, not_lt.2 h.le]

lemma abs_npsign {x : ℝ} (hx : x ≠ 0) : |npsign x| = 1 := by
  unfold npsign
  rcases lt_or_gt_of_ne hx with h | h
  · simp [h, not_lt.2 h.le]
  · simp [h, not_lt.2 h.le]

/-- For an even function it is enough to minimise over the half line, at `|x|`. -/
lemma even_isProx (φ : ℝ → ℝ) (heven : ∀ t, φ t = φ |t|) {τ : ℝ} (hτ : 0 < τ) (x q : ℝ) (hq : 0 ≤ q) (h0 : x = 0 → q = 0)
    (h : ∀ y, 0 ≤ y → φ q + (q - |x|) ^ 2 / (2 * τ) ≤ φ y + (y - |x|) ^ 2 / (2 * τ)) :
    IsProx (XFun.ofReal φ) τ x (q * npsign x) := by
  rw [isProx_real_iff]
  intro y
  have e1 : φ (q * npsign x) + (q * npsign x - x) ^ 2 / (2 * τ) = φ q + (q - |x|) ^ 2 / (2 * τ) := by
    rcases eq_or_ne x 0 with hx | hx
    · rw [h0 hx, hx]; simp
    · rw [heven (q * npsign x), abs_mul, abs_npsign hx, mul_one, abs_of_nonneg hq]
      congr 2
      have e : x = |x| * npsign x := (npsign_mul_abs x).symm
      calc (q * npsign x - x) ^ 2 = (q * npsign x - |x| * npsign x) ^ 2 := by rw [← e]
        _ = (q - |x|) ^ 2 * (npsign x * npsign x) := by ring
        _ = _ := by rw [npsign_sq hx, mul_one]
  rw [e1, heven y]
  refine (h |y| (abs_nonneg y)).trans ?_
  have : (|y| - |x|) ^ 2 ≤ (y - x) ^ 2 := by
    rw [← sq_abs, ← sq_abs (y - x)]
    exact pow_le_pow_left₀ (abs_nonneg _) (abs_abs_sub_abs_le_abs_sub y x) 2
  gcongr

/-- Weak sub-gradient certificate (constant `1/c` with `tau <= c`). -/
lemma weak_cert (φ : ℝ → ℝ) {τ c : ℝ} (hτ : 0 < τ) (hc : τ ≤ c) {x q s : ℝ} (hs : x - q = τ * s) {y : ℝ}
    (h : φ q + s * (y - q) - (y - q) ^ 2 / (2 * c) ≤ φ y) :
    φ q + (q - x) ^ 2 / (2 * τ) ≤ φ y + (y - x) ^ 2 / (2 * τ) := by
  have h1 : (y - q) ^ 2 / (2 * c) ≤ (y - q) ^ 2 / (2 * τ) :=
    div_le_div_of_nonneg_left (sq_nonneg _) (by linarith) (by linarith)
  have e : (y - x) ^ 2 / (2 * τ) = (q - x) ^ 2 / (2 * τ) + (y - q) ^ 2 / (2 * τ) - s * (y - q) := by
    have : x = q + τ * s := by linarith
    rw [this]; field_simp; ring
  rw [e]; linarith

/-- A function on the half line whose derivative is non-positive exactly on an interval ending at `r` and non-negative
beyond it attains its minimum at `0` or at `r`. -/
lemma two_point_min (f g : ℝ → ℝ) (hder : ∀ z, 0 ≤ z → HasDerivAt f (g z) z) (r : ℝ)
    (hpos : ∀ z, 0 ≤ z → r ≤ z → 0 ≤ g z)
    (hup : ∀ w y, 0 ≤ w → w ≤ y → y ≤ r → g w ≤ 0 → g y ≤ 0) (y : ℝ) (hy : 0 ≤ y) :
    f 0 ≤ f y ∨ (0 ≤ r ∧ f r ≤ f y) := by
  have hc : ∀ a b, 0 ≤ a → ContinuousOn f (Set.Icc a b) := fun a b ha z hz =>
    (hder z (ha.trans hz.1)).continuousAt.continuousWithinAt
  have hd : ∀ a b, 0 ≤ a → DifferentiableOn ℝ f (interior (Set.Icc a b)) := fun a b ha z hz =>
    (hder z (ha.trans (interior_subset hz).1)).differentiableAt.differentiableWithinAt
  have mono : ∀ a b, 0 ≤ a → a ≤ b → (∀ z, a ≤ z → z ≤ b → 0 ≤ g z) → f a ≤ f b := by
    intro a b ha hab hg
    exact monotoneOn_of_deriv_nonneg (convex_Icc a b) (hc a b ha) (hd a b ha)
      (fun z hz => by
        have hz' := interior_subset hz
        rw [(hder z (ha.trans hz'.1)).deriv]; exact hg z hz'.1 hz'.2)
      (Set.left_mem_Icc.2 hab) (Set.right_mem_Icc.2 hab) hab
  have anti : ∀ a b, 0 ≤ a → a ≤ b → (∀ z, a ≤ z → z ≤ b → g z ≤ 0) → f b ≤ f a := by
    intro a b ha hab hg
    exact antitoneOn_of_deriv_nonpos (convex_Icc a b) (hc a b ha) (hd a b ha)
      (fun z hz => by
        have hz' := interior_subset hz
        rw [(hder z (ha.trans hz'.1)).deriv]; exact hg z hz'.1 hz'.2)
      (Set.left_mem_Icc.2 hab) (Set.right_mem_Icc.2 hab) hab
  rcases le_or_gt r y with h | h
  · rcases le_or_gt 0 r with hr | hr
    · exact Or.inr ⟨hr, mono r y hr h fun z hz _ => hpos z (hr.trans hz) hz⟩
    · exact Or.inl (mono 0 y le_rfl hy fun z hz _ => hpos z hz (hr.le.trans hz))
  · rcases le_or_gt (g y) 0 with hg | hg
    · exact Or.inr ⟨hy.trans h.le, anti y r hy h.le fun z hz hzr => hup y z hy hz hzr hg⟩
    · refine Or.inl (mono 0 y le_rfl hy fun z hz hzy => ?_)
      by_contra hneg
      push Not at hneg
      exact absurd (hup z y hz hzy h.le hneg.le) (not_le.2 hg)

end Verif
