import Verif.Lemmas.Block
import Verif.Lemmas.Calculus
import Verif.Model.Proximal

/-! Helper lemmas for the closed-form operators. -/

open scoped RealInnerProductSpace

set_option linter.unusedSectionVars false

namespace Verif

section radial
variable {E : Type*} [NormedAddCommGroup E] [InnerProductSpace ℝ E]

lemma norm_subgrad {σ : ℝ} {p s : E} (hs : ‖s‖ ≤ σ) (hp : ⟪s, p⟫ = σ * ‖p‖) :
    IsSubgrad (XFun.ofReal fun y => σ * ‖y‖) p s := by
  refine ⟨trivial, fun y _ => ?_⟩
  simp only [XFun.ofReal]
  rw [inner_sub_right, hp]
  have h1 := real_inner_le_norm s y
  have h2 : ‖s‖ * ‖y‖ ≤ σ * ‖y‖ := mul_le_mul_of_nonneg_right hs (norm_nonneg y)
  linarith

/-- The vector `x - prox` for the norm shrinkage, in the form used by certificates. -/
lemma shrink_cert {t : ℝ} (ht : 0 < t) (x : E) :
    let p := (1 - t / max ‖x‖ t) • x
    ‖x - p‖ ≤ t ∧ ⟪x - p, p⟫ = t * ‖p‖ := by
  intro p
  have hxp : x - p = (t / max ‖x‖ t) • x := by
    simp only [p]; rw [sub_smul, one_smul]; abel
  have hm : 0 < max ‖x‖ t := lt_max_of_lt_right ht
  constructor
  · rw [hxp, norm_smul, Real.norm_eq_abs, abs_of_nonneg (by positivity), div_mul_eq_mul_div, div_le_iff₀ hm]
    exact mul_le_mul_of_nonneg_left (le_max_left _ _) ht.le
  · rw [hxp]
    simp only [p]
    rw [real_inner_smul_left, real_inner_smul_right, real_inner_self_eq_norm_sq, norm_smul, Real.norm_eq_abs]
    rcases le_total ‖x‖ t with h | h
    · rw [max_eq_right h, div_self ht.ne']; simp
    · rw [max_eq_left h]
      have hx : 0 < ‖x‖ := lt_of_lt_of_le ht h
      have : 0 ≤ 1 - t / ‖x‖ := by
        rw [sub_nonneg, div_le_one hx]; exact h
      rw [abs_of_nonneg this]
      field_simp

lemma norm_isUniqueProx {σ τ : ℝ} (hσ : 0 < σ) (hτ : 0 < τ) (x : E) :
    IsUniqueProx (XFun.ofReal fun y : E => σ * ‖y‖) τ x ((1 - (τ * σ) / max ‖x‖ (τ * σ)) • x) := by
  have ht : 0 < τ * σ := by positivity
  obtain ⟨h1, h2⟩ := shrink_cert ht x
  apply isUniqueProx_of_subgrad hτ
  apply norm_subgrad
  · rw [norm_smul, Real.norm_eq_abs, abs_of_pos (by positivity), one_div_mul_eq_div, div_le_iff₀ hτ]
    linarith
  · rw [real_inner_smul_left, h2]; field_simp

lemma norm_convex {σ : ℝ} (hσ : 0 ≤ σ) : (XFun.ofReal fun y : E => σ * ‖y‖).Convex := by
  have : ConvexOn ℝ Set.univ fun y : E => σ • ‖y‖ := (convexOn_norm convex_univ).smul hσ
  exact this

/-- The circular Huber function. -/
lemma huber_isUniqueProx {α τ : ℝ} (hα : 0 < α) (hτ : 0 < τ) (x : E) :
    IsUniqueProx (XFun.ofReal fun y : E => if ‖y‖ ≤ α then ‖y‖ ^ 2 / (2 * α) else ‖y‖ - α / 2) τ x
      ((1 - τ / max ‖x‖ (τ + α)) • x) := by
  have hta : 0 < τ + α := by positivity
  have hm : 0 < max ‖x‖ (τ + α) := lt_max_of_lt_right hta
  have hxp : x - (1 - τ / max ‖x‖ (τ + α)) • x = (τ / max ‖x‖ (τ + α)) • x := by
    rw [sub_smul, one_smul]; abel
  apply isUniqueProx_of_subgrad hτ
  rw [hxp, smul_smul]
  have e : 1 / τ * (τ / max ‖x‖ (τ + α)) = 1 / max ‖x‖ (τ + α) := by field_simp
  rw [e]
  refine ⟨trivial, fun y _ => ?_⟩
  simp only [XFun.ofReal]
  -- the Huber function lies above ‖y‖ - α/2
  have hlow : ∀ r : ℝ, r - α / 2 ≤ if r ≤ α then r ^ 2 / (2 * α) else r - α / 2 := by
    intro r
    split_ifs
    · rw [le_div_iff₀ (by positivity)]; nlinarith [sq_nonneg (r - α)]
    · exact le_rfl
  rcases le_total ‖x‖ (τ + α) with h | h
  · rw [max_eq_right h]
    set p := (1 - τ / (τ + α)) • x with hp
    have hpx : p = (α / (τ + α)) • x := by
      rw [hp]; congr 1; field_simp; ring
    have hs : (1 / (τ + α)) • x = (1 / α) • p := by
      rw [hpx, smul_smul]; congr 1; field_simp
    have hpn : ‖p‖ ≤ α := by
      rw [hpx, norm_smul, Real.norm_eq_abs, abs_of_pos (by positivity), div_mul_eq_mul_div, div_le_iff₀ hta]
      exact mul_le_mul_of_nonneg_left h hα.le
    rw [hs, if_pos hpn, real_inner_smul_left, inner_sub_right, real_inner_self_eq_norm_sq]
    have hcs := real_inner_le_norm p y
    have hp0 := norm_nonneg p
    have hy0 := norm_nonneg y
    have goal1 : ‖p‖ ^ 2 / (2 * α) + 1 / α * (⟪p, y⟫ - ‖p‖ ^ 2)
        = (2 * ⟪p, y⟫ - ‖p‖ ^ 2) / (2 * α) := by field_simp; ring
    rw [goal1]
    split_ifs with hy
    · rw [div_le_div_iff_of_pos_right (by positivity)]
      nlinarith [sq_nonneg (‖p‖ - ‖y‖)]
    · push Not at hy
      rw [div_le_iff₀ (by positivity)]
      nlinarith [mul_nonneg (sub_nonneg.2 hpn) (by linarith : 0 ≤ 2 * ‖y‖ - α - ‖p‖)]
  · rw [max_eq_left h]
    have hx : 0 < ‖x‖ := lt_of_lt_of_le hta h
    set p := (1 - τ / ‖x‖) • x with hp
    have hc : 0 ≤ 1 - τ / ‖x‖ := by rw [sub_nonneg, div_le_one hx]; linarith
    have hpn : ‖p‖ = ‖x‖ - τ := by
      rw [hp, norm_smul, Real.norm_eq_abs, abs_of_nonneg hc]; field_simp
    have hval : (if ‖p‖ ≤ α then ‖p‖ ^ 2 / (2 * α) else ‖p‖ - α / 2) = ‖p‖ - α / 2 := by
      split_ifs with h1
      · have : ‖p‖ = α := le_antisymm h1 (by rw [hpn]; linarith)
        rw [this]; field_simp; ring
      · rfl
    rw [hval, inner_sub_right]
    have h1 : ⟪(1 / ‖x‖) • x, p⟫ = ‖p‖ := by
      rw [real_inner_smul_left, hpn, hp, real_inner_smul_right, real_inner_self_eq_norm_sq]
      field_simp
    have h2 : ⟪(1 / ‖x‖) • x, y⟫ ≤ ‖y‖ := by
      refine (real_inner_le_norm _ _).trans ?_
      rw [norm_smul, Real.norm_eq_abs, abs_of_pos (by positivity), one_div_mul_cancel hx.ne', one_mul]
    have := hlow ‖y‖
    rw [h1]; linarith

/-- Projection onto a ball centred at 0. -/
lemma ball_isUniqueProj {r : ℝ} (hr : 0 < r) (c x : E) :
    IsUniqueProj {y : E | ‖y - c‖ ≤ r} x (c + (r / max ‖x - c‖ r) • (x - c)) := by
  set d := x - c with hd
  have hm : 0 < max ‖d‖ r := lt_max_of_lt_right hr
  apply isUniqueProj_of_variational
  · rw [Set.mem_ofPred_eq, add_sub_cancel_left, norm_smul, Real.norm_eq_abs, abs_of_pos (by positivity),
      div_mul_eq_mul_div, div_le_iff₀ hm]
    exact mul_le_mul_of_nonneg_left (le_max_left _ _) hr.le
  · intro y hy
    rw [Set.mem_ofPred_eq] at hy
    have e1 : x - (c + (r / max ‖d‖ r) • d) = (1 - r / max ‖d‖ r) • d := by
      rw [sub_smul, one_smul, hd]; abel
    have e2 : y - (c + (r / max ‖d‖ r) • d) = (y - c) - (r / max ‖d‖ r) • d := by abel
    rw [e1, e2, real_inner_smul_left, inner_sub_right, real_inner_smul_right, real_inner_self_eq_norm_sq]
    rcases le_total ‖d‖ r with h | h
    · rw [max_eq_right h, div_self hr.ne']; simp
    · rw [max_eq_left h]
      have hd0 : 0 < ‖d‖ := lt_of_lt_of_le hr h
      have : 0 ≤ 1 - r / ‖d‖ := by rw [sub_nonneg, div_le_one hd0]; exact h
      apply mul_nonpos_of_nonneg_of_nonpos this
      have h1 := real_inner_le_norm d (y - c)
      have h2 : ‖d‖ * ‖y - c‖ ≤ ‖d‖ * r := mul_le_mul_of_nonneg_left hy hd0.le
      have h3 : r / ‖d‖ * ‖d‖ ^ 2 = ‖d‖ * r := by field_simp
      linarith

lemma halfspace_isUniqueProj {w x : E} {b : ℝ} (hw : w ≠ 0) (hx : ¬ ⟪w, x⟫ ≤ b) :
    IsUniqueProj {y : E | ⟪w, y⟫ ≤ b} x (x - ((⟪w, x⟫ - b) / ⟪w, w⟫) • w) := by
  have hww : 0 < ⟪w, w⟫ := real_inner_self_pos.2 hw
  push Not at hx
  have hwp : ⟪w, x - ((⟪w, x⟫ - b) / ⟪w, w⟫) • w⟫ = b := by
    rw [inner_sub_right, real_inner_smul_right]; field_simp; ring
  apply isUniqueProj_of_variational
  · exact hwp.le
  · intro y hy
    rw [Set.mem_ofPred_eq] at hy
    rw [sub_sub_cancel, real_inner_smul_left, inner_sub_right, hwp]
    exact mul_nonpos_of_nonneg_of_nonpos (div_nonneg (by linarith) hww.le) (by linarith)

end radial

section scalar

lemma npsign_mul_self (x : ℝ) : npsign x * x = |x| := by
  unfold npsign
  split_ifs with h1 h2
  · rw [one_mul, abs_of_pos h1]
  · rw [neg_one_mul, abs_of_neg h2]
  · have : x = 0 := le_antisymm (not_lt.1 h1) (not_lt.1 h2)
    simp [this]

lemma npsign_abs_le (x : ℝ) : |npsign x| ≤ 1 := by
  unfold npsign; split_ifs <;> simp

lemma npsign_mul_abs (x : ℝ) : |x| * npsign x = x := by
  unfold npsign
  split_ifs with h1 h2
  · rw [mul_one, abs_of_pos h1]
  · rw [mul_neg_one, abs_of_neg h2, neg_neg]
  · have : x = 0 := le_antisymm (not_lt.1 h1) (not_lt.1 h2)
    simp [this]

/-- The residual of soft thresholding is a scaled sub-gradient of the absolute value. -/
lemma soft_cert {t : ℝ} (ht : 0 ≤ t) (x : ℝ) :
    |x - softScalar x t| ≤ t ∧ (x - softScalar x t) * softScalar x t = t * |softScalar x t| := by
  unfold softScalar npsign
  rcases lt_trichotomy x 0 with h | h | h
  · rw [if_neg (not_lt.2 h.le), if_pos h, abs_of_neg h]
    rcases le_total (-x - t) 0 with h1 | h1
    · rw [max_eq_right h1]; simp [abs_of_neg h]; linarith
    · rw [max_eq_left h1]
      have e : x - (-x - t) * -1 = -t := by ring
      rw [e, abs_neg, abs_of_nonneg ht, abs_of_nonpos (by linarith : (-x - t) * -1 ≤ 0)]
      exact ⟨le_rfl, by ring⟩
  · subst h; simp [ht]
  · rw [if_pos h, abs_of_pos h]
    rcases le_total (x - t) 0 with h1 | h1
    · rw [max_eq_right h1]; simp [abs_of_pos h]; linarith
    · rw [max_eq_left h1, mul_one]
      have e : x - (x - t) = t := by ring
      rw [e, abs_of_nonneg ht, abs_of_nonneg h1]
      exact ⟨le_rfl, by ring⟩

lemma soft_isUniqueProx {σ τ : ℝ} (hσ : 0 ≤ σ) (hτ : 0 < τ) (x : ℝ) :
    IsUniqueProx (XFun.ofReal fun y : ℝ => σ * |y|) τ x (softScalar x (τ * σ)) := by
  obtain ⟨h1, h2⟩ := soft_cert (by positivity : 0 ≤ τ * σ) x
  refine scalar_isUniqueProx (φ := XFun.ofReal fun y : ℝ => σ * |y|) hτ (Set.mem_univ _) ?_
  intro y _
  simp only [XFun.ofReal]
  set p := softScalar x (τ * σ)
  have e : (x - p) / τ * (y - p) = ((x - p) * y - (x - p) * p) / τ := by ring
  rw [e, h2]
  have h3 : (x - p) * y ≤ τ * σ * |y| := by
    calc (x - p) * y ≤ |(x - p) * y| := le_abs_self _
      _ = |x - p| * |y| := abs_mul _ _
      _ ≤ τ * σ * |y| := mul_le_mul_of_nonneg_right h1 (abs_nonneg y)
  have h4 : ((x - p) * y - τ * σ * |p|) / τ ≤ (τ * σ * |y| - τ * σ * |p|) / τ :=
    div_le_div_of_nonneg_right (by linarith) hτ.le
  have h5 : (τ * σ * |y| - τ * σ * |p|) / τ = σ * |y| - σ * |p| := by field_simp
  linarith

/-- Shifting a function shifts its proximal map. -/
lemma shift_isUniqueProx {E : Type*} [NormedAddCommGroup E] [InnerProductSpace ℝ E] {F : XFun E} {τ : ℝ} {x p g : E}
    (h : IsUniqueProx F τ (x - g) p) : IsUniqueProx (F.comp fun y => y - g) τ x (p + g) := by
  have obj : ∀ y, proxObj (F.comp fun y => y - g) τ x y = proxObj F τ (x - g) (y - g) := by
    intro y; unfold proxObj XFun.comp; simp only; rw [sub_sub_sub_cancel_right]
  have iff : ∀ q, IsProx (F.comp fun y => y - g) τ x q ↔ IsProx F τ (x - g) (q - g) := by
    intro q
    unfold IsProx
    simp only [obj]
    refine and_congr Iff.rfl ⟨fun h y hy => ?_, fun h y hy => h _ hy⟩
    have := h (y + g) (by simpa [XFun.comp] using hy)
    simpa using this
  refine ⟨(iff _).2 (by simpa using h.1), fun q hq => ?_⟩
  have := h.2 _ ((iff q).1 hq)
  rw [← this]; abel

lemma clip_scalar {l u : Bound} (hlu : ∀ a b, l = some a → u = some b → a ≤ b) (x : ℝ) :
    geLower (boxClip l u x) l ∧ leUpper (boxClip l u x) u ∧
      ∀ y, geLower y l → leUpper y u → (x - boxClip l u x) * (y - boxClip l u x) ≤ 0 := by
  unfold boxClip
  cases l with
  | none =>
    cases u with
    | none => simp [maxLower, minUpper, geLower, leUpper]
    | some b =>
      simp only [maxLower, minUpper, geLower, leUpper, true_and, min_le_right, forall_true_left]
      intro y hy
      rcases le_total x b with h | h
      · simp [min_eq_left h]
      · rw [min_eq_right h]; nlinarith
  | some a =>
    cases u with
    | none =>
      simp only [maxLower, minUpper, geLower, leUpper, true_and, le_max_right, forall_true_left]
      intro y hy
      rcases le_total x a with h | h
      · rw [max_eq_right h]; nlinarith
      · simp [max_eq_left h]
    | some b =>
      have hab := hlu a b rfl rfl
      simp only [maxLower, minUpper, geLower, leUpper, min_le_right, true_and]
      refine ⟨le_min (le_max_right _ _) hab, fun y hy1 hy2 => ?_⟩
      rcases le_total x a with h | h
      · rw [max_eq_right h, min_eq_left hab]; nlinarith
      · rw [max_eq_left h]
        rcases le_total x b with h2 | h2
        · simp [min_eq_left h2]
        · rw [min_eq_right h2]; nlinarith

end scalar

section cols
variable {ι κ : Type} [Fintype ι] [Fintype κ]

lemma colNorm_eq (x : Vec (ι × κ)) (j : κ) : colNorm x j = ‖colMap j x‖ := by
  unfold colNorm
  rw [EuclideanSpace.norm_eq]
  simp

lemma colMap_vmk_smul (c : κ → ℝ) (x : Vec (ι × κ)) (j : κ) :
    colMap j (vmk fun ij : ι × κ => c ij.2 * x ij) = c j • colMap j x := by
  ext i; simp

end cols

end Verif
