import Verif.Lemmas.Closed

/-!
# C11-C16, C21-C23: closed-form proximal operators and projections
-/

open scoped RealInnerProductSpace

namespace Verif

variable {ι κ : Type} [Fintype ι] [Fintype κ]
variable {E : Type} [NormedAddCommGroup E] [InnerProductSpace ℝ E]

/-! ## C11 -/

/-- C11 (scalar `sigma`, any offset): `L1.prox` returns the unique minimiser. -/
theorem C11_l1_prox (σ : ℝ) (hσ : 0 ≤ σ) (g : Option (Vec ι)) (x : Vec ι) (τ : ℝ) (hτ : 0 < τ) :
    ∃ p, (L1 σ g).prox x τ = .ok p ∧
      IsUniqueProx (XFun.ofReal fun y : Vec ι => σ * ∑ i, |y i - (g.getD 0) i|) τ x p := by
  have base : ∀ x : Vec ι, IsUniqueProx (XFun.ofReal fun y : Vec ι => σ * ∑ i, |y i|) τ x
      (softthreshold x fun _ => τ * σ) := fun x =>
    sep_isUniqueProx_real (fun _ y => σ * |y|) _ (fun y => by simp only [Finset.mul_sum])
      (fun j => soft_isUniqueProx hσ hτ (x j))
  cases g with
  | none => exact ⟨softthreshold x fun _ => τ * σ, by simp only [ProxOp.prox, L1, checkTau_pos hτ], by simpa using base x⟩
  | some g => exact ⟨_, by simp only [ProxOp.prox, L1, checkTau_pos hτ], shift_isUniqueProx (base (x - g))⟩

/-- C11 (2-dimensional input, one `sigma` per column). -/
theorem C11_l1_prox_columns (σ : κ → ℝ) (hσ : ∀ j, 0 ≤ σ j) (g : Option (Vec (ι × κ))) (x : Vec (ι × κ))
    (τ : ℝ) (hτ : 0 < τ) :
    ∃ p, (L1cols σ g).prox x τ = .ok p ∧
      IsUniqueProx (XFun.ofReal fun y : Vec (ι × κ) => ∑ j, σ j * ∑ i, |y (i, j) - (g.getD 0) (i, j)|) τ x p := by
  have base : ∀ x : Vec (ι × κ), IsUniqueProx (XFun.ofReal fun y : Vec (ι × κ) => ∑ j, σ j * ∑ i, |y (i, j)|) τ x
      (softthreshold x fun ij => τ * σ ij.2) := fun x =>
    sep_isUniqueProx_real (fun ij y => σ ij.2 * |y|) _
      (fun y => by simp only [Finset.mul_sum]; rw [Fintype.sum_prod_type_right])
      (fun j => soft_isUniqueProx (hσ j.2) hτ (x j))
  cases g with
  | none => exact ⟨softthreshold x fun ij => τ * σ ij.2, by simp only [ProxOp.prox, L1cols, checkTau_pos hτ], by simpa using base x⟩
  | some g => exact ⟨_, by simp only [ProxOp.prox, L1cols, checkTau_pos hτ], shift_isUniqueProx (base (x - g))⟩

/-- C11: what `L1(x)` evaluates to is the function of which `prox` is the proximal map. -/
theorem C11_l1_call (σ : ℝ) (g : Option (Vec ι)) :
    EvaluatesNum (L1 σ g) fun y => σ * ∑ i, |y i - (g.getD 0) i| := by
  intro x
  cases g <;> simp [L1]

theorem C11_l1_call_columns (σ : κ → ℝ) (g : Option (Vec (ι × κ))) :
    EvaluatesNum (L1cols σ g) fun y => ∑ j, σ j * ∑ i, |y (i, j) - (g.getD 0) (i, j)| := by
  intro x
  cases g <;> simp [L1cols]

/-- C11: soft thresholding, entry by entry, as documented. -/
theorem C11_l1_formula (σ : ℝ) (hσ : 0 ≤ σ) (x : Vec ι) (τ : ℝ) (hτ : 0 < τ) :
    ∃ p, (L1 σ none).prox x τ = .ok p ∧ ∀ i,
      (x i < -(τ * σ) → p i = x i + τ * σ) ∧ (|x i| ≤ τ * σ → p i = 0) ∧ (τ * σ < x i → p i = x i - τ * σ) := by
  refine ⟨_, by simp only [ProxOp.prox, L1, checkTau_pos hτ]; rfl, fun i => ?_⟩
  have ht : 0 ≤ τ * σ := by positivity
  simp only [softthreshold, softScalar, npsign]
  refine ⟨fun h => ?_, fun h => ?_, fun h => ?_⟩
  · have : x i < 0 := by linarith
    rw [if_neg (not_lt.2 this.le), if_pos this, abs_of_neg this, max_eq_left (by linarith)]; ring
  · rw [max_eq_right (by linarith)]; simp
  · have : 0 < x i := by linarith
    rw [if_pos this, abs_of_pos this, max_eq_left (by linarith)]; ring

/-- The conjugate of `sigma*||.||_1` is the indicator of the box: `proxdual` of `L1` is its projection. -/
theorem C11_l1_proxdual (σ : ℝ) (hσ : 0 ≤ σ) (x : Vec ι) (τ : ℝ) (hτ : 0 < τ) :
    ∃ p, (L1 σ none).proxdual x τ = .ok p ∧ IsUniqueProj {y : Vec ι | ∀ i, |y i| ≤ σ} x p := by
  refine ⟨_, by simp only [ProxOp.proxdual, L1, checkTau_pos hτ]; rfl, ?_⟩
  have hc := fun i => clip_scalar (l := some (-σ)) (u := some σ) (by
    intro a b ha hb; cases ha; cases hb; linarith) (x i)
  apply isUniqueProj_of_variational
  · intro i
    obtain ⟨h1, h2, -⟩ := hc i
    exact abs_le.2 ⟨h1, h2⟩
  · intro y hy
    rw [PiLp.inner_apply]
    refine Finset.sum_nonpos fun i _ => ?_
    rw [inner_real]
    obtain ⟨a, b⟩ := abs_le.1 (hy i)
    exact (hc i).2.2 (y i) a b

example : (L1 (ι := Fin 2) 2 none).prox (vmk ![3, -1]) 1 = .ok (vmk ![1, 0]) := by
  simp only [ProxOp.prox, L1, checkTau_pos one_pos, softthreshold]
  congr 2
  funext i
  fin_cases i <;> simp [softScalar, npsign] <;> norm_num

/-! ## C12 -/

/-- C12: `Euclidean.prox`, every `x` including 0. -/
theorem C12_euclidean_prox (σ : ℝ) (hσ : 0 < σ) (x : E) (τ : ℝ) (hτ : 0 < τ) :
    ∃ p, (Euclidean σ).prox x τ = .ok p ∧ IsUniqueProx (XFun.ofReal fun y : E => σ * ‖y‖) τ x p := by
  have hm : max ‖x‖ (τ * σ) ≠ 0 := (lt_max_of_lt_right (by positivity)).ne'
  exact ⟨_, by simp only [ProxOp.prox, Euclidean, checkTau_pos hτ, if_neg hm], norm_isUniqueProx hσ hτ x⟩

/-- C12: `Euclidean.proxdual` projects on the ball of radius `sigma`, whatever `tau`. -/
theorem C12_euclidean_proxdual (σ : ℝ) (hσ : 0 < σ) (x : E) (τ : ℝ) (hτ : 0 < τ) :
    ∃ p, (Euclidean σ).proxdual x τ = .ok p ∧ IsUniqueProj {y : E | ‖y‖ ≤ σ} x p := by
  have hm : max ‖x‖ σ ≠ 0 := (lt_max_of_lt_right hσ).ne'
  refine ⟨_, by simp only [ProxOp.proxdual, Euclidean, checkTau_pos hτ, if_neg hm]; rfl, ?_⟩
  have := ball_isUniqueProj hσ (0 : E) x
  simp only [sub_zero, zero_add] at this
  rwa [smul_smul, one_div_mul_eq_div]

theorem C12_euclidean_call (σ : ℝ) : EvaluatesNum (Euclidean (E := E) σ) fun y => σ * ‖y‖ := fun _ => rfl

/-- C12: away from 0, `Euclidean.grad` is the gradient of the function. -/
theorem C12_euclidean_grad (σ : ℝ) (x : E) (hx : x ≠ 0) :
    ∃ g, (Euclidean σ).grad x = .ok g ∧ IsGrad (fun y : E => σ * ‖y‖) x g := by
  have hn : ‖x‖ ≠ 0 := norm_ne_zero_iff.2 hx
  refine ⟨_, by simp only [ProxOp.grad, Euclidean, if_neg hn]; rfl, ?_⟩
  have hpos : 0 < ‖x‖ := norm_pos_iff.2 hx
  apply isGrad_of_quad (C := |σ| * (1 / (2 * ‖x‖)) + |σ| * (1 / (2 * ‖x‖)))
  intro y
  have hid : ‖y‖ - ‖x‖ - (1 / ‖x‖) * ⟪x, y - x⟫ = (1 / (2 * ‖x‖)) * (‖y - x‖ ^ 2 - (‖y‖ - ‖x‖) ^ 2) := by
    have : ‖y - x‖ ^ 2 = ‖y‖ ^ 2 + ‖x‖ ^ 2 - 2 * ⟪x, y⟫ := by
      rw [norm_sub_sq_real, real_inner_comm]; ring
    rw [this, inner_sub_right, real_inner_self_eq_norm_sq]
    field_simp; ring
  have e : σ * ‖y‖ - σ * ‖x‖ - ⟪(1 / ‖x‖) • (σ • x), y - x⟫
      = σ * (‖y‖ - ‖x‖ - (1 / ‖x‖) * ⟪x, y - x⟫) := by
    rw [real_inner_smul_left, real_inner_smul_left]; ring
  rw [e, hid, abs_mul, abs_mul, abs_of_pos (by positivity : 0 < 1 / (2 * ‖x‖))]
  have h1 : (‖y‖ - ‖x‖) ^ 2 ≤ ‖y - x‖ ^ 2 := by
    rw [← sq_abs]
    exact pow_le_pow_left₀ (abs_nonneg _) (abs_norm_sub_norm_le y x) 2
  have h2 : |‖y - x‖ ^ 2 - (‖y‖ - ‖x‖) ^ 2| ≤ ‖y - x‖ ^ 2 := by
    rw [abs_of_nonneg (by linarith)]; nlinarith [sq_nonneg (‖y‖ - ‖x‖)]
  have h3 : |σ| * (1 / (2 * ‖x‖) * |‖y - x‖ ^ 2 - (‖y‖ - ‖x‖) ^ 2|) ≤ |σ| * (1 / (2 * ‖x‖)) * ‖y - x‖ ^ 2 := by
    rw [← mul_assoc]; exact mul_le_mul_of_nonneg_left h2 (by positivity)
  have h4 : 0 ≤ |σ| * (1 / (2 * ‖x‖)) * ‖y - x‖ ^ 2 := by positivity
  linarith

/-- C12, boundary: with `sigma = 0` the zero vector makes `prox` raise `ZeroDivisionError`. -/
theorem C12_euclidean_sigma_zero (τ : ℝ) (hτ : 0 < τ) :
    (Euclidean (E := E) 0).prox 0 τ = .error .zeroDivisionError := by
  simp [ProxOp.prox, Euclidean, checkTau_pos hτ]

/-- C12, boundary: `grad` at 0 is NaN. -/
theorem C12_euclidean_grad_zero (σ : ℝ) : (Euclidean (E := E) σ).grad 0 = .error .nanResult := by
  simp [ProxOp.grad, Euclidean]

example : (Euclidean (E := ℝ) 1).prox 3 1 = .ok 2 := by
  simp [ProxOp.prox, Euclidean]; norm_num

/-! ## C13 -/

/-- C13: `L21.prox`. -/
theorem C13_l21_prox (σ : ℝ) (hσ : 0 < σ) (x : Vec (ι × κ)) (τ : ℝ) (hτ : 0 < τ) :
    ∃ p, (L21 σ).prox x τ = .ok p ∧
      IsUniqueProx (XFun.ofReal fun y : Vec (ι × κ) => σ * ∑ j, √(∑ i, (y (i, j)) ^ 2)) τ x p ∧
      ∀ j, (∀ i, x (i, j) = 0) → ∀ i, p (i, j) = 0 := by
  have hm : ¬ ∃ ij : ι × κ, max (colNorm x ij.2) (τ * σ) = 0 := by
    rintro ⟨ij, h⟩
    exact (lt_max_of_lt_right (by positivity : 0 < τ * σ)).ne' h
  refine ⟨_, by simp only [ProxOp.prox, L21, checkTau_pos hτ, if_neg hm]; rfl, ?_, fun j h i => by simp [h i]⟩
  refine cols_isUniqueProx_real (fun _ y => σ * ‖y‖) _ (fun y => ?_) (fun j => ?_)
  · simp only [Finset.mul_sum]
    refine Finset.sum_congr rfl fun j _ => ?_
    rw [← colNorm_eq]; rfl
  · rw [colMap_vmk_smul (fun j => 1 - (τ * σ) / max (colNorm x j) (τ * σ)) x j, colNorm_eq]
    exact norm_isUniqueProx hσ hτ (colMap j x)

/-- C13: `L21.proxdual` projects every column on the ball of radius `sigma`. -/
theorem C13_l21_proxdual (σ : ℝ) (hσ : 0 < σ) (x : Vec (ι × κ)) (τ : ℝ) (hτ : 0 < τ) :
    ∃ p, (L21 σ).proxdual x τ = .ok p ∧
      IsUniqueProj {y : Vec (ι × κ) | ∀ j, √(∑ i, (y (i, j)) ^ 2) ≤ σ} x p := by
  have hm : ¬ ∃ ij : ι × κ, max (colNorm x ij.2) σ = 0 := by
    rintro ⟨ij, h⟩
    exact (lt_max_of_lt_right hσ).ne' h
  refine ⟨_, by simp only [ProxOp.proxdual, L21, checkTau_pos hτ, if_neg hm]; rfl, ?_⟩
  rw [← isUniqueProj_iff_isUniqueProx one_pos]
  refine block_isUniqueProx colMap col_norm_sq (fun _ => XFun.indicator {y : Vec ι | ‖y‖ ≤ σ})
      (XFun.indicator {y : Vec (ι × κ) | ∀ j, √(∑ i, (y (i, j)) ^ 2) ≤ σ})
      (fun y => forall_congr' fun j => ?_) (fun y _ => ?_) (fun j => ?_)
  · rw [show √(∑ i, (y (i, j)) ^ 2) = ‖colMap j y‖ from colNorm_eq y j]; rfl
  · simp [XFun.indicator]
  · rw [isUniqueProj_iff_isUniqueProx one_pos]
    have e : (vmk fun ij : ι × κ => σ * x ij / max (colNorm x ij.2) σ)
        = vmk fun ij : ι × κ => (σ / max (colNorm x ij.2) σ) * x ij := by
      congr 1; funext ij; ring
    rw [e, colMap_vmk_smul (fun j => σ / max (colNorm x j) σ) x j, colNorm_eq]
    have := ball_isUniqueProj hσ (0 : Vec ι) (colMap j x)
    simpa only [sub_zero, zero_add] using this

theorem C13_l21_call (σ : ℝ) :
    EvaluatesNum (L21 σ) fun y : Vec (ι × κ) => σ * ∑ j, √(∑ i, (y (i, j)) ^ 2) := fun _ => rfl

/-! ## C14 -/

/-- C14 for `0 <= rho < 1` (`rho = 1` is refuted below). -/
theorem C14_l21_plus_l1_prox_partial (σ ρ : ℝ) (hσ : 0 < σ) (hρ : 0 ≤ ρ) (hρ1 : ρ < 1) (x : Vec (ι × κ))
    (τ : ℝ) (hτ : 0 < τ) :
    ∃ p, (L21plusL1 σ ρ).prox x τ = .ok p ∧
      IsUniqueProx (XFun.ofReal fun y : Vec (ι × κ) =>
        ρ * σ * ∑ ij, |y ij| + (1 - ρ) * σ * ∑ j, √(∑ i, (y (i, j)) ^ 2)) τ x p := by
  have hb : 0 < σ * τ * (1 - ρ) := by have := sub_pos.2 hρ1; positivity
  have ha : 0 ≤ σ * τ * ρ := by positivity
  -- the factor is always finite, and is the one of the norm shrinkage
  have hfac : ∀ r : ℝ, 0 ≤ r → shrinkFactor (σ * τ * (1 - ρ)) r
      = .ok (1 - (σ * τ * (1 - ρ)) / max r (σ * τ * (1 - ρ))) := by
    intro r hr
    unfold shrinkFactor
    rcases hr.eq_or_lt with h0 | h0
    · subst h0
      rw [if_pos rfl, if_neg hb.ne', if_pos hb, max_eq_right hb.le, div_self hb.ne', sub_self]
    · rw [if_neg h0.ne']
      rcases le_total r (σ * τ * (1 - ρ)) with h | h
      · rw [max_eq_right h, div_self hb.ne', sub_self, max_eq_right]
        rw [sub_nonpos, le_div_iff₀ h0]; linarith
      · rw [max_eq_left h, max_eq_left]
        rw [sub_nonneg, div_le_one h0]; exact h
  have hcn : ∀ j, 0 ≤ colNorm (l1Shrink σ ρ τ x) j := fun _ => Real.sqrt_nonneg _
  have hm : ¬ ∃ ij : ι × κ, shrinkFactor (σ * τ * (1 - ρ)) (colNorm (l1Shrink σ ρ τ x) ij.2) = .error .nanResult := by
    rintro ⟨ij, h⟩
    rw [hfac _ (hcn _)] at h
    cases h
  refine ⟨_, by simp only [ProxOp.prox, L21plusL1, checkTau_pos hτ, if_neg hm]; rfl, ?_⟩
  refine cols_isUniqueProx_real (fun _ y => ρ * σ * ∑ i, |y i| + (1 - ρ) * σ * ‖y‖) _
      (fun y => ?_) (fun j => ?_)
  · simp only [Finset.sum_add_distrib, ← Finset.mul_sum]
    rw [Fintype.sum_prod_type_right]
    congr 2
    refine Finset.sum_congr rfl fun j _ => ?_
    rw [← colNorm_eq]; rfl
  · -- column j: z the soft thresholded column, p = c z
    set X := colMap j x with hX
    set z : Vec ι := vmk fun i => softScalar (X i) (σ * τ * ρ) with hz
    have hsoft : ∀ i, signNan (x (i, j)) * max (|x (i, j)| - σ * τ * ρ) 0 = z i := by
      intro i
      simp only [hz, softScalar]
      rw [mul_comm]
      congr 1
      simp only [signNan, npsign, hX, colMap_apply]
      rcases lt_trichotomy (x (i, j)) 0 with h | h | h
      · rw [if_neg h.ne, if_neg (not_lt.2 h.le), if_pos h, abs_of_neg h, div_neg, div_self h.ne]
      · simp [h]
      · rw [if_neg h.ne', if_pos h, abs_of_pos h, div_self h.ne']
    have habs : ∀ i, |z i| = max (|x (i, j)| - σ * τ * ρ) 0 := by
      intro i
      rw [← hsoft i, abs_mul, abs_of_nonneg (le_max_right (|x (i, j)| - σ * τ * ρ) 0)]
      simp only [signNan]
      by_cases h : x (i, j) = 0
      · rw [if_pos h, h]
        simp [ha]
      · rw [if_neg h, abs_div, abs_abs, div_self (abs_ne_zero.2 h), one_mul]
    have hnorm : colNorm (l1Shrink σ ρ τ x) j = ‖z‖ := by
      unfold colNorm
      rw [EuclideanSpace.norm_eq]
      congr 1
      refine Finset.sum_congr rfl fun i _ => ?_
      rw [Real.norm_eq_abs, habs i]; rfl
    set c := 1 - (σ * τ * (1 - ρ)) / max ‖z‖ (σ * τ * (1 - ρ)) with hc
    have hpj : colMap j (vmk fun ij : ι × κ => signNan (x ij) * l1Shrink σ ρ τ x ij *
        Py.get (shrinkFactor (σ * τ * (1 - ρ)) (colNorm (l1Shrink σ ρ τ x) ij.2))) = c • z := by
      ext i
      simp only [colMap_apply, hfac _ (hcn j), Py.get]
      rw [hnorm]
      simp only [l1Shrink]
      rw [hsoft i, mul_comm]
      rfl
    rw [hpj]
    have hmax : 0 < max ‖z‖ (σ * τ * (1 - ρ)) := lt_max_of_lt_right hb
    have hc0 : 0 ≤ c := by
      rw [hc, sub_nonneg, div_le_one hmax]; exact le_max_right _ _
    obtain ⟨hw1, hw2⟩ := shrink_cert hb z
    rw [← hc] at hw1 hw2
    apply isUniqueProx_of_subgrad hτ
    refine ⟨trivial, fun y _ => ?_⟩
    simp only [XFun.ofReal]
    have hsplit : X - c • z = (X - z) + (z - c • z) := by abel
    rw [real_inner_smul_left, hsplit, inner_add_left]
    -- l1 part
    have hl1 : ⟪X - z, y - c • z⟫ ≤ σ * τ * ρ * (∑ i, |y i| - ∑ i, |(c • z) i|) := by
      rw [PiLp.inner_apply, ← Finset.sum_sub_distrib, Finset.mul_sum]
      refine Finset.sum_le_sum fun i _ => ?_
      rw [inner_real]
      obtain ⟨s1, s2⟩ := soft_cert ha (X i)
      have e1 : (X - z) i = X i - softScalar (X i) (σ * τ * ρ) := rfl
      have e2 : (y - c • z) i = y i - c * softScalar (X i) (σ * τ * ρ) := rfl
      have e3 : (c • z) i = c * softScalar (X i) (σ * τ * ρ) := rfl
      rw [e1, e2, e3, mul_sub, abs_mul, abs_of_nonneg hc0]
      have h1 : (X i - softScalar (X i) (σ * τ * ρ)) * y i ≤ σ * τ * ρ * |y i| :=
        (le_abs_self _).trans (by rw [abs_mul]; exact mul_le_mul_of_nonneg_right s1 (abs_nonneg _))
      have h2 : (X i - softScalar (X i) (σ * τ * ρ)) * (c * softScalar (X i) (σ * τ * ρ))
          = σ * τ * ρ * (c * |softScalar (X i) (σ * τ * ρ)|) := by
        rw [mul_left_comm, s2]; ring
      rw [h2, mul_sub]; linarith
    have hl2 : ⟪z - c • z, y - c • z⟫ ≤ σ * τ * (1 - ρ) * (‖y‖ - ‖c • z‖) := by
      rw [inner_sub_right, hw2]
      have h1 := real_inner_le_norm (z - c • z) y
      have h2 : ‖z - c • z‖ * ‖y‖ ≤ σ * τ * (1 - ρ) * ‖y‖ := mul_le_mul_of_nonneg_right hw1 (norm_nonneg y)
      rw [mul_sub]; linarith
    have h3 : 1 / τ * (⟪X - z, y - c • z⟫ + ⟪z - c • z, y - c • z⟫)
        ≤ 1 / τ * (σ * τ * ρ * (∑ i, |y i| - ∑ i, |(c • z) i|) + σ * τ * (1 - ρ) * (‖y‖ - ‖c • z‖)) :=
      mul_le_mul_of_nonneg_left (by linarith) (by positivity)
    have h4 : 1 / τ * (σ * τ * ρ * (∑ i, |y i| - ∑ i, |(c • z) i|) + σ * τ * (1 - ρ) * (‖y‖ - ‖c • z‖))
        = ρ * σ * ∑ i, |y i| + (1 - ρ) * σ * ‖y‖ - (ρ * σ * ∑ i, |(c • z) i| + (1 - ρ) * σ * ‖c • z‖) := by
      field_simp; ring
    linarith

/-- C14 fails at `rho = 1`: whenever a column is thresholded to zero the result is NaN. -/
theorem C14_l21_plus_l1_refuted :
    ¬ ∀ (σ ρ : ℝ) (_ : 0 < σ) (_ : 0 ≤ ρ) (_ : ρ ≤ 1) (x : Vec (Fin 1 × Fin 1)) (τ : ℝ) (_ : 0 < τ),
      ∃ p, (L21plusL1 σ ρ).prox x τ = .ok p ∧
      IsProx (XFun.ofReal fun y : Vec (Fin 1 × Fin 1) =>
        ρ * σ * ∑ ij, |y ij| + (1 - ρ) * σ * ∑ j, √(∑ i, (y (i, j)) ^ 2)) τ x p := by
  intro h
  obtain ⟨p, hp, -⟩ := h 1 1 one_pos zero_le_one le_rfl 0 1 one_pos
  have : (L21plusL1 (ι := Fin 1) (κ := Fin 1) 1 1).prox 0 1 = .error .nanResult := by
    simp [ProxOp.prox, L21plusL1, checkTau_pos one_pos, shrinkFactor, colNorm, l1Shrink]
  rw [this] at hp
  cases hp

theorem C14_l21_plus_l1_call (σ ρ : ℝ) : EvaluatesNum (L21plusL1 σ ρ) fun y : Vec (ι × κ) =>
    ρ * σ * ∑ ij, |y ij| + (1 - ρ) * σ * ∑ j, √(∑ i, (y (i, j)) ^ 2) := fun _ => rfl

/-! ## C15, C16 -/

/-- C15: `HuberCircular.prox`. -/
theorem C15_huber_circular_prox (α : ℝ) (hα : 0 < α) (x : E) (τ : ℝ) (hτ : 0 < τ) :
    ∃ p, (HuberCircular α).prox x τ = .ok p ∧
      IsUniqueProx (XFun.ofReal fun y : E => if ‖y‖ ≤ α then ‖y‖ ^ 2 / (2 * α) else ‖y‖ - α / 2) τ x p := by
  have hm : max ‖x‖ (τ + α) ≠ 0 := (lt_max_of_lt_right (by positivity)).ne'
  exact ⟨_, by simp only [ProxOp.prox, HuberCircular, checkTau_pos hτ, if_neg hm], huber_isUniqueProx hα hτ x⟩

theorem C15_huber_circular_call (α : ℝ) : EvaluatesNum (HuberCircular (E := E) α)
    fun y => if ‖y‖ ≤ α then ‖y‖ ^ 2 / (2 * α) else ‖y‖ - α / 2 := by
  intro x; simp only [HuberCircular]

example : (HuberCircular (E := ℝ) 1).prox 4 1 = .ok 3 := by
  simp [ProxOp.prox, HuberCircular]; norm_num

/-- The documented Huber function. -/
noncomputable def huberSpec (α : ℝ) (y : Vec ι) : ℝ :=
  ∑ i, if |y i| ≤ α then |y i| ^ 2 / (2 * α) else |y i| - α / 2

theorem C16_huber_call (α : ℝ) : EvaluatesNum (Huber (ι := ι) α) (huberSpec α) := by
  intro x
  simp only [Huber, huberSpec]
  congr 3
  funext i
  by_cases h : |x i| ≤ α
  · rw [if_pos h, if_neg (not_lt.2 h)]
  · rw [if_neg h, if_pos (not_le.1 h)]

/-- C16 away from the band `alpha < |x_i| <= alpha + tau`: there `Huber.prox` is exact. -/
theorem C16_huber_prox_partial (α : ℝ) (hα : 0 < α) (x : Vec ι) (τ : ℝ) (hτ : 0 < τ)
    (hband : ∀ i, |x i| ≤ α ∨ α + τ ≤ |x i|) :
    ∃ p, (Huber α).prox x τ = .ok p ∧ IsUniqueProx (XFun.ofReal (huberSpec α)) τ x p := by
  refine ⟨_, by simp only [ProxOp.prox, Huber, checkTau_pos hτ]; rfl, ?_⟩
  refine sep_isUniqueProx_real (fun _ y => if ‖y‖ ≤ α then ‖y‖ ^ 2 / (2 * α) else ‖y‖ - α / 2) _
      (fun y => rfl) (fun j => ?_)
  have key := huber_isUniqueProx hα hτ (x j)
  convert key using 1
  simp only [Real.norm_eq_abs, smul_eq_mul]
  rcases hband j with h | h
  · rw [if_neg (not_lt.2 h), max_eq_right (by linarith)]
    field_simp
    ring
  · rw [if_pos (by linarith), max_eq_left (by linarith)]
    have h0 : 0 < |x j| := by linarith
    simp only [softScalar, mul_one]
    rw [max_eq_left (by linarith)]
    have : |x j| * npsign (x j) = x j := npsign_mul_abs _
    have h2 : npsign (x j) = x j / |x j| := by rw [eq_div_iff h0.ne', mul_comm]; exact this
    rw [h2]; field_simp

/-- C16 fails inside the band. -/
theorem C16_huber_prox_refuted :
    ¬ ∀ (α : ℝ) (_ : 0 < α) (x : Vec (Fin 1)) (τ : ℝ) (_ : 0 < τ),
      ∃ p, (Huber α).prox x τ = .ok p ∧ IsProx (XFun.ofReal (huberSpec α)) τ x p := by
  intro h
  obtain ⟨p, hp, hmin⟩ := h 1 one_pos (vmk fun _ => 3 / 2) 1 one_pos
  have hval : (Huber (ι := Fin 1) 1).prox (vmk fun _ => 3 / 2) 1 = .ok (vmk fun _ => 1 / 2) := by
    simp only [ProxOp.prox, Huber, checkTau_pos one_pos, softScalar, npsign]
    congr 2
    funext i
    norm_num [abs_of_pos]
  rw [hval] at hp
  cases hp
  have := hmin.2 (vmk fun _ => 3 / 4) (Set.mem_univ _)
  simp only [proxObj, XFun.ofReal, huberSpec, EuclideanSpace.norm_sq_eq] at this
  norm_num [abs_of_pos] at this

/-! ## C21 -/

/-- The box as a set: bounds apply where they are finite. -/
def boxSet (lower upper : ι → Option ℝ) : Set (Vec ι) :=
  {y | ∀ i, (∀ l, lower i = some l → l ≤ y i) ∧ (∀ u, upper i = some u → y i ≤ u)}

lemma mem_boxSet {lower upper : ι → Option ℝ} {y : Vec ι} :
    y ∈ boxSet lower upper ↔ ∀ i, geLower (y i) (lower i) ∧ leUpper (y i) (upper i) := by
  refine forall_congr' fun i => ?_
  cases h1 : lower i <;> cases h2 : upper i <;> simp [geLower, leUpper]

/-- C21: `Box.prox` is the projection onto the box (scalar, array, infinite bounds), for any `tau`. -/
theorem C21_box_prox (lower upper : ι → Option ℝ)
    (hne : ∀ i a b, lower i = some a → upper i = some b → a ≤ b) (x : Vec ι) (τ : ℝ) (hτ : 0 < τ) :
    ∃ p, (Box lower upper).prox x τ = .ok p ∧ IsUniqueProj (boxSet lower upper) x p := by
  refine ⟨_, by simp only [ProxOp.prox, Box, checkTau_pos hτ]; rfl, ?_⟩
  have hc := fun i => clip_scalar (hne i) (x i)
  apply isUniqueProj_of_variational
  · rw [mem_boxSet]
    exact fun i => ⟨(hc i).1, (hc i).2.1⟩
  · intro y hy
    rw [mem_boxSet] at hy
    rw [PiLp.inner_apply]
    refine Finset.sum_nonpos fun i _ => ?_
    rw [inner_real]
    exact (hc i).2.2 (y i) (hy i).1 (hy i).2

/-- C21: `Box(x)` tells whether `x` is in the box. -/
theorem C21_box_call (lower upper : ι → Option ℝ) : EvaluatesIndicator (Box lower upper) (boxSet lower upper) := by
  classical
  intro x
  refine ⟨_, rfl, ?_⟩
  rw [mem_boxSet, decide_eq_true_iff]

/-- C21: idempotence, independence of `tau`, and `Box(x)` is True exactly on fixed points. -/
theorem C21_box_idempotent (lower upper : ι → Option ℝ)
    (hne : ∀ i a b, lower i = some a → upper i = some b → a ≤ b) (x p : Vec ι) (τ τ' : ℝ) (hτ : 0 < τ) (hτ' : 0 < τ')
    (hp : (Box lower upper).prox x τ = .ok p) :
    (Box lower upper).prox x τ' = .ok p ∧ (Box lower upper).prox p τ' = .ok p ∧
      ((Box lower upper).call x = .ok (.bool true) ↔ p = x) := by
  obtain ⟨p', h1, h2⟩ := C21_box_prox lower upper hne x τ hτ
  rw [hp] at h1; cases h1
  have hfix : ∀ z ∈ boxSet lower upper, ∀ q, IsUniqueProj (boxSet lower upper) z q → q = z := by
    intro z hz q hq
    have := hq.1.2 z hz
    rw [sub_self, norm_zero] at this
    have := norm_eq_zero.1 (le_antisymm this (norm_nonneg _))
    exact (sub_eq_zero.1 this).symm
  refine ⟨?_, ?_, ?_⟩
  · rw [← hp]; simp only [ProxOp.prox, Box, checkTau_pos hτ, checkTau_pos hτ']
  · obtain ⟨q, hq1, hq2⟩ := C21_box_prox lower upper hne p τ' hτ'
    rw [hq1, hfix p h2.1.1 q hq2]
  · obtain ⟨b, hb1, hb2⟩ := C21_box_call lower upper x
    rw [hb1]
    constructor
    · intro h
      have : b = true := by simpa using h
      exact hfix x (hb2.1 this) p h2
    · intro h
      have : b = true := hb2.2 (h ▸ h2.1.1)
      rw [this]

example : (Box (ι := Fin 2) (fun _ => some 0) (fun _ => none)).prox (vmk ![3, -1]) 1 = .ok (vmk ![3, 0]) := by
  simp only [ProxOp.prox, Box, checkTau_pos one_pos, boxProj]
  congr 2
  funext i
  fin_cases i <;> simp [boxClip, maxLower, minUpper]

/-! ## C22 -/

/-- C22: `HalfSpace.prox` for a non-zero normal. -/
theorem C22_halfspace_prox (w : E) (hw : w ≠ 0) (b : ℝ) (x : E) (τ : ℝ) (hτ : 0 < τ) :
    ∃ p, (HalfSpace w b).prox x τ = .ok p ∧ IsUniqueProj {y : E | ⟪w, y⟫ ≤ b} x p ∧
      (⟪w, x⟫ ≤ b → p = x) := by
  by_cases hx : ⟪w, x⟫ ≤ b
  · refine ⟨x, by simp only [ProxOp.prox, HalfSpace, checkTau_pos hτ, halfSpaceProj, if_pos hx], ?_, fun _ => rfl⟩
    exact isUniqueProj_of_variational hx fun y _ => by simp
  · refine ⟨x - ((⟪w, x⟫ - b) / ⟪w, w⟫) • w, ?_, halfspace_isUniqueProj hw hx, fun h => absurd h hx⟩
    have hww : ¬ ⟪w, w⟫ = 0 := fun h => hw (inner_self_eq_zero.1 h)
    simp only [ProxOp.prox, HalfSpace, checkTau_pos hτ, halfSpaceProj, if_neg hx, if_neg hww]

theorem C22_halfspace_call (w : E) (b : ℝ) : EvaluatesIndicator (HalfSpace w b) {y | ⟪w, y⟫ ≤ b} := by
  classical
  intro x
  exact ⟨_, rfl, decide_eq_true_iff⟩

example : (HalfSpace (E := ℝ) 2 2).prox 5 1 = .ok 1 := by
  simp [ProxOp.prox, HalfSpace, checkTau_pos one_pos, halfSpaceProj]; norm_num

/-! ## C23 -/

/-- C23: `EuclideanBall.prox`. -/
theorem C23_ball_prox (c : E) (r : ℝ) (hr : 0 < r) (x : E) (τ : ℝ) (hτ : 0 < τ) :
    ∃ p, (EuclideanBall c r).prox x τ = .ok p ∧ IsUniqueProj {y : E | ‖y - c‖ ≤ r} x p := by
  have hm : max ‖x - c‖ r ≠ 0 := (lt_max_of_lt_right hr).ne'
  exact ⟨_, by simp only [ProxOp.prox, EuclideanBall, checkTau_pos hτ, euclideanBallProj, if_neg hm],
    ball_isUniqueProj hr c x⟩

theorem C23_ball_call (c : E) (r : ℝ) : EvaluatesIndicator (EuclideanBall c r) {y : E | ‖y - c‖ ≤ r} := by
  classical
  intro x
  exact ⟨_, rfl, decide_eq_true_iff⟩

example : (EuclideanBall (E := ℝ) 1 2).prox 6 1 = .ok 3 := by
  simp [ProxOp.prox, EuclideanBall, checkTau_pos one_pos, euclideanBallProj, abs_of_pos]; norm_num

end Verif
