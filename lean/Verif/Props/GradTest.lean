import Verif.Model.GradTest
import Verif.Lemmas.Smooth
import Verif.Props.LowRank

/-! # C82: the gradient tests -/

open scoped RealInnerProductSpace

set_option linter.unusedSectionVars false

namespace Verif

variable {ι : Type} [Fintype ι]

/-- The descent lemma in both directions. -/
lemma smooth_both {E : Type} [NormedAddCommGroup E] [InnerProductSpace ℝ E] {φ : E → ℝ} {G : E → E} {L : ℝ} (h : ∀ x, IsGrad φ x (G x))
    (hL : ∀ x y, ‖G x - G y‖ ≤ L * ‖x - y‖) (x y : E) : |φ y - φ x - ⟪G x, y - x⟫| ≤ L / 2 * ‖y - x‖ ^ 2 := by
  have h1 := descent_lemma h hL x y
  have h2 := descent_lemma (φ := fun x => -φ x) (G := fun x => -G x) (L := L)
    (fun x => by
      have h3 := HasFDerivAt.neg (h x)
      rw [← map_neg] at h3
      exact h3)
    (fun x y => by rw [← neg_sub', norm_neg]; exact hL x y) x y
  rw [inner_neg_left] at h2
  rw [abs_le]
  constructor <;> linarith

open Classical in
/-- The direction a draw perturbs: the real or the imaginary part of entry `i`. -/
noncomputable def drawDir (i : ι) (imag : Bool) : CVec ι := EuclideanSpace.single i (if imag then Complex.I else 1)

lemma inner_drawDir (g : CVec ι) (i : ι) (imag : Bool) : ⟪g, drawDir i imag⟫ = gradPart imag (g i) := by
  classical
  rw [PiLp.inner_apply, Finset.sum_eq_single i]
  · cases imag <;> simp [drawDir, gradPart, Complex.inner]
  · intro j _ hj; simp [drawDir, hj]
  · simp

lemma norm_drawDir (i : ι) (imag : Bool) : ‖drawDir i imag‖ = 1 := by
  classical
  cases imag <;> simp [drawDir]

lemma store_complex (a : GradTestArgs) (x : CVec ι) (i : ι) (imag : Bool) : storeAt false x i (x i + delta1 a imag) = x + a.δ • drawDir i imag := by
  classical
  ext j
  by_cases h : j = i
  · subst h; cases imag <;> simp [storeAt, delta1, drawDir]
  · simp [storeAt, drawDir, h]

lemma store_real (a : GradTestArgs) (x : CVec ι) (i : ι) (hx : (x i).im = 0) : storeAt true x i (x i + delta1 a false) = x + a.δ • drawDir i false := by
  classical
  ext j
  by_cases h : j = i
  · subst h
    apply Complex.ext <;> simp [storeAt, delta1, drawDir, hx]
  · simp [storeAt, drawDir, h]

/-- C82: a right gradient passes: if `Op.grad` is the gradient of `Op` and is `L`-Lipschitz, every draw passes as soon as `L * delta / 2 <= atol`. -/
theorem C82_gradtest_complete_partial {Op : ProxOp (CVec ι)} {φ : CVec ι → ℝ} {G : CVec ι → CVec ι} {L : ℝ} (hcall : ∀ x, Op.call x = .ok (.num (φ x)))
    (hgrad : ∀ x, Op.grad x = .ok (G x)) (hG : ∀ x, IsGrad φ x (G x)) (hL : ∀ x y, ‖G x - G y‖ ≤ L * ‖x - y‖) (a : GradTestArgs) (hδ : 0 < a.δ)
    (hatol : L * a.δ / 2 ≤ a.atol) (x : CVec ι) (i : ι) (imag : Bool) : (gradtestProximal Op false a x i imag).1 = .ok true := by
  have h := smooth_both hG hL x (x + a.δ • drawDir i imag)
  rw [add_sub_cancel_left, inner_smul_right, norm_smul, norm_drawDir, mul_one, inner_drawDir, Real.norm_eq_abs, abs_of_pos hδ] at h
  have h2 : |(φ (x + a.δ • drawDir i imag) - φ x) / a.δ - gradPart imag (G x i)| ≤ a.atol := by
    have e : (φ (x + a.δ • drawDir i imag) - φ x) / a.δ - gradPart imag (G x i) = (φ (x + a.δ • drawDir i imag) - φ x - a.δ * gradPart imag (G x i)) / a.δ := by
      field_simp
    rw [e, abs_div, abs_of_pos hδ, div_le_iff₀ hδ]
    nlinarith
  simp [gradtestProximal, hcall, hgrad, store_complex, gradVerdict, CallVal.toReal, abs_of_pos hδ, hδ.ne', h2]

/-- C82: passing means something: whatever `Op.grad` returned, if a draw passes, the tested part of its entry `i` is within `atol + L * delta / 2` of that of the gradient of `Op`. -/
theorem C82_gradtest_sound_partial {Op : ProxOp (CVec ι)} {φ : CVec ι → ℝ} {G : CVec ι → CVec ι} {L : ℝ} (hcall : ∀ x, Op.call x = .ok (.num (φ x)))
    (hG : ∀ x, IsGrad φ x (G x)) (hL : ∀ x y, ‖G x - G y‖ ≤ L * ‖x - y‖) (a : GradTestArgs) (hδ : 0 < a.δ) (x g : CVec ι) (hg : Op.grad x = .ok g) (i : ι)
    (imag : Bool) (hpass : (gradtestProximal Op false a x i imag).1 = .ok true) : |gradPart imag (g i) - gradPart imag (G x i)| ≤ a.atol + L * a.δ / 2 := by
  have h := smooth_both hG hL x (x + a.δ • drawDir i imag)
  rw [add_sub_cancel_left, inner_smul_right, norm_smul, norm_drawDir, mul_one, inner_drawDir, Real.norm_eq_abs, abs_of_pos hδ] at h
  have h2 : |(φ (x + a.δ • drawDir i imag) - φ x) / a.δ - gradPart imag (G x i)| ≤ L * a.δ / 2 := by
    have e : (φ (x + a.δ • drawDir i imag) - φ x) / a.δ - gradPart imag (G x i) = (φ (x + a.δ • drawDir i imag) - φ x - a.δ * gradPart imag (G x i)) / a.δ := by
      field_simp
    rw [e, abs_div, abs_of_pos hδ, div_le_iff₀ hδ]
    nlinarith
  have h3 : |(φ (x + a.δ • drawDir i imag) - φ x) / a.δ - gradPart imag (g i)| ≤ a.atol := by
    simp only [gradtestProximal, hcall, hg, store_complex, gradVerdict, CallVal.toReal, abs_of_pos hδ] at hpass
    split at hpass
    · cases hpass
    · simp only [Except.ok.injEq, decide_eq_true_eq, sub_zero, abs_zero, mul_zero, add_zero] at hpass
      exact hpass.2
  rw [abs_le] at *
  constructor <;> linarith [h2.1, h2.2, h3.1, h3.2]

/-- C82: for a real array and a draw of the real part the same two statements hold. -/
theorem C82_gradtest_real_partial {Op : ProxOp (CVec ι)} {φ : CVec ι → ℝ} {G : CVec ι → CVec ι} {L : ℝ} (hcall : ∀ x, Op.call x = .ok (.num (φ x)))
    (hG : ∀ x, IsGrad φ x (G x)) (hL : ∀ x y, ‖G x - G y‖ ≤ L * ‖x - y‖) (a : GradTestArgs) (hδ : 0 < a.δ) (x g : CVec ι) (hx : ∀ i, (x i).im = 0)
    (hg : Op.grad x = .ok g) (i : ι) :
    ((gradtestProximal Op true a x i false).1 = .ok true → |(g i).re - (G x i).re| ≤ a.atol + L * a.δ / 2) ∧
      (g = G x → L * a.δ / 2 ≤ a.atol → (gradtestProximal Op true a x i false).1 = .ok true) := by
  have e : (gradtestProximal Op true a x i false).1 = (gradtestProximal Op false a x i false).1 := by
    simp only [gradtestProximal, hcall, hg, store_complex, store_real a x i (hx i)]
  rw [e]
  refine ⟨fun h => C82_gradtest_sound_partial hcall hG hL a hδ x g hg i false h, fun hgG hat => ?_⟩
  have := C82_gradtest_complete_partial (Op := { Op with grad? := some fun x => .ok (G x) }) hcall (fun _ => rfl) hG hL a hδ hat x i false
  simp only [gradtestProximal, hcall, hg, hgG] at this ⊢
  exact this

/-- C82: `AssertionError` is raised exactly when the test without `raiseerror` returns `False`, and otherwise both return `True`. -/
theorem C82_gradtest_raises (Op : ProxOp (CVec ι)) (rd : Bool) (a : GradTestArgs) (x : CVec ι) (i : ι) (imag : Bool) {v w : CallVal} {g : CVec ι}
    (hv : Op.call x = .ok v) (hg : Op.grad x = .ok g) (hw : Op.call (storeAt rd x i (x i + delta1 a imag)) = .ok w) :
    ∃ b, (gradtestProximal Op rd { a with raiseerror := false } x i imag).1 = .ok b ∧
      (gradtestProximal Op rd { a with raiseerror := true } x i imag).1 = if b then .ok true else .error .assertionError := by
  have hw' : ∀ r, Op.call (storeAt rd x i (x i + delta1 { a with raiseerror := r } imag)) = .ok w := fun r => hw
  simp only [gradtestProximal, hv, hg, hw', gradVerdict, Bool.and_false, Bool.and_true, Bool.false_eq_true, if_false]
  refine ⟨_, rfl, ?_⟩
  cases hd : decide (a.δ ≠ 0 ∧ |(w.toReal - v.toReal) / |a.δ| - gradPart imag (g i) - 0| ≤ a.atol + a.rtol * |0|) <;> simp

/-- C82: with the default tolerances the right gradient of `½‖x‖²` is rejected, at every point, for every entry and every part: the finite difference is off by
`delta / 2 = 5e-7`, and `rtol` plays no role because the difference is compared with zero. -/
theorem C82_gradtest_defaults_refuted : ∃ (φ : CVec ι → ℝ) (G : CVec ι → CVec ι), (∀ x, IsGrad φ x (G x)) ∧ (∀ x y, ‖G x - G y‖ ≤ 1 * ‖x - y‖) ∧
    ∀ Op : ProxOp (CVec ι), (∀ x, Op.call x = .ok (.num (φ x))) → (∀ x, Op.grad x = .ok (G x)) → ∀ x i imag,
      (gradtestProximal Op false gradTestDefaults x i imag).1 = .error .assertionError := by
  refine ⟨fun x => ‖x‖ ^ 2 / 2, id, fun x => isGrad_of_quad (C := 1 / 2) fun y => ?_, fun x y => by simp, fun Op hcall hgrad x i imag => ?_⟩
  · have e : ‖y‖ ^ 2 / 2 - ‖x‖ ^ 2 / 2 - ⟪id x, y - x⟫ = 1 / 2 * ‖y - x‖ ^ 2 := by
      rw [norm_sub_sq_real, id, inner_sub_right, real_inner_self_eq_norm_sq, real_inner_comm]; ring
    rw [e, abs_of_nonneg (by positivity)]
  · have e : ‖x + gradTestDefaults.δ • drawDir i imag‖ ^ 2 / 2 - ‖x‖ ^ 2 / 2 = gradTestDefaults.δ * gradPart imag (x i) + gradTestDefaults.δ ^ 2 / 2 := by
      rw [norm_add_sq_real, inner_smul_right, norm_smul, norm_drawDir, inner_drawDir, Real.norm_eq_abs, mul_one, sq_abs]; ring
    simp only [gradtestProximal, hcall, hgrad, store_complex, gradVerdict, CallVal.toReal, e, id]
    rw [if_pos]
    have e2 : (gradTestDefaults.δ * gradPart imag (x i) + gradTestDefaults.δ ^ 2 / 2) / |gradTestDefaults.δ| - gradPart imag (x i) - 0 = 5e-7 := by
      simp only [gradTestDefaults]
      rw [abs_of_pos (by norm_num)]
      field_simp
      ring
    rw [e2]
    simp only [gradTestDefaults, abs_zero, mul_zero, add_zero, Bool.and_true, Bool.not_eq_true', decide_eq_false_iff_not]
    norm_num [abs_of_pos]

/-- C82: for a real array, half of the draws test nothing: whatever the real vector returned as gradient, a draw of the imaginary part passes. -/
theorem C82_gradtest_imag_refuted {Op : ProxOp (CVec ι)} (a : GradTestArgs) (hδ : a.δ ≠ 0) (hatol : 0 ≤ a.atol) (x g : CVec ι) {v : ℝ} (hx : ∀ i, (x i).im = 0)
    (hcall : Op.call x = .ok (.num v)) (hg : Op.grad x = .ok g) (hreal : ∀ i, (g i).im = 0) (i : ι) : (gradtestProximal Op true a x i true).1 = .ok true := by
  classical
  have e : storeAt true x i (x i + delta1 a true) = x := by
    ext j
    by_cases h : j = i
    · subst h
      apply Complex.ext <;> simp [storeAt, delta1, hx]
    · simp [storeAt, h]
  simp [gradtestProximal, hcall, hg, e, gradVerdict, CallVal.toReal, gradPart, hreal, hδ, hatol]

/-- C82: the quotient divides by `|delta|`: for a linear function, whose right gradient passes for every positive `delta`, a negative `delta` passes only if the tested
part is at most `atol / 2`. -/
theorem C82_gradtest_negative_delta_refuted (c : CVec ι) {Op : ProxOp (CVec ι)} (hcall : ∀ x, Op.call x = .ok (.num ⟪c, x⟫)) (hgrad : ∀ x, Op.grad x = .ok c)
    (a : GradTestArgs) (hδ : a.δ < 0) (x : CVec ι) (i : ι) (imag : Bool) :
    (∀ x, IsGrad (fun x => ⟪c, x⟫) x c) ∧ ((gradtestProximal Op false a x i imag).1 = .ok true ↔ 2 * |gradPart imag (c i)| ≤ a.atol) := by
  refine ⟨fun x => isGrad_of_quad (C := 0) fun y => by rw [inner_sub_right]; simp, ?_⟩
  have e : (⟪c, x + a.δ • drawDir i imag⟫ - ⟪c, x⟫) / |a.δ| - gradPart imag (c i) - 0 = -(2 * gradPart imag (c i)) := by
    rw [inner_add_right, inner_smul_right, inner_drawDir, abs_of_neg hδ]
    field_simp [hδ.ne]
    ring
  simp only [gradtestProximal, hcall, hgrad, store_complex, gradVerdict, CallVal.toReal, e]
  rw [abs_neg, abs_mul, abs_of_pos (two_pos : (0 : ℝ) < 2)]
  simp only [abs_zero, mul_zero, add_zero, ne_eq, hδ.ne, not_false_eq_true, true_and]
  by_cases h : 2 * |gradPart imag (c i)| ≤ a.atol
  · simp [h]
  · cases a.raiseerror <;> simp [h]

/-- C82: the array passed as `x` is changed by the test, whatever its outcome. -/
theorem C82_gradtest_input_refuted {Op : ProxOp (CVec ι)} (a : GradTestArgs) (hδ : a.δ ≠ 0) (x g : CVec ι) {v : CallVal} (hcall : Op.call x = .ok v)
    (hg : Op.grad x = .ok g) (i : ι) (imag : Bool) : (gradtestProximal Op false a x i imag).2 = x + a.δ • drawDir i imag ∧ (gradtestProximal Op false a x i imag).2 ≠ x := by
  have e : (gradtestProximal Op false a x i imag).2 = x + a.δ • drawDir i imag := by
    simp only [gradtestProximal, hcall, hg, store_complex]
    split <;> rfl
  refine ⟨e, ?_⟩
  rw [e, Ne, add_eq_left, smul_eq_zero]
  rintro (h | h)
  · exact hδ h
  · have := norm_drawDir i imag
    rw [h, norm_zero] at this
    exact zero_ne_one this

/-! ## Bilinear operators -/

section bil
variable {κ μ : Type} [Fintype κ] [Fintype μ] {D : Type} [NormedAddCommGroup D] [InnerProductSpace ℝ D]

lemma bumpAt_eq [DecidableEq ι] (v : Vec ι) (i : ι) (δ : ℝ) : bumpAt v i δ = v + δ • EuclideanSpace.single i (1 : ℝ) := by
  ext j
  by_cases h : j = i
  · subst h; simp [bumpAt]
  · simp [bumpAt, h]

lemma gradVerdict_pos (a : GradTestArgs) (hδ : 0 < a.δ) (f g q : ℝ) : gradVerdict a f (f + a.δ * g + a.δ ^ 2 / 2 * q ^ 2) g = .ok true ↔ a.δ / 2 * q ^ 2 ≤ a.atol := by
  have e : (f + a.δ * g + a.δ ^ 2 / 2 * q ^ 2 - f) / |a.δ| - g - 0 = a.δ / 2 * q ^ 2 := by
    rw [abs_of_pos hδ]; field_simp; ring
  simp only [gradVerdict, e, abs_of_nonneg (by positivity : 0 ≤ a.δ / 2 * q ^ 2), abs_zero, mul_zero, add_zero, ne_eq, hδ.ne', not_false_eq_true, true_and]
  by_cases h : a.δ / 2 * q ^ 2 ≤ a.atol
  · simp [h]
  · cases a.raiseerror <;> simp [h]

lemma lsq_bump {E : Type} [NormedAddCommGroup E] [InnerProductSpace ℝ E] (A : E →ₗ[ℝ] D) (At : D → E) (h : ∀ x y, ⟪A x, y⟫ = ⟪x, At y⟫) (d : D) (x e : E) (δ : ℝ) :
    ‖A (x + δ • e) - d‖ ^ 2 / 2 = ‖A x - d‖ ^ 2 / 2 + δ * ⟪At (A x - d), e⟫ + δ ^ 2 / 2 * ‖A e‖ ^ 2 := by
  rw [map_add, map_smul, show A x + δ • A e - d = (A x - d) + δ • A e by abel, norm_add_sq_real, inner_smul_right, norm_smul, mul_pow, Real.norm_eq_abs, sq_abs,
    real_inner_comm, h, real_inner_comm]
  ring

open Classical LowRank in
/-- C82: the test of a `LowRankFactorizedMatrix`, whose gradients are right (C63), passes exactly when `delta/2` times the squared norm of the change of `Op(XY)` per unit of the drawn entry
is at most `atol`; for every operator, shape and state. -/
theorem C82_bilinear_passes (H : LowRank ι κ μ D) (s : LowRankState ι κ μ) (a : GradTestArgs) (hδ : 0 < a.δ) :
    (∀ i, (gradtestBilinear H s a (.x i)).1 = .ok true ↔ a.δ / 2 * ‖H.Op.matvec (matMul (EuclideanSpace.single i (1 : ℝ)) s.y)‖ ^ 2 ≤ a.atol) ∧
      ∀ i, (gradtestBilinear H s a (.y i)).1 = .ok true ↔ a.δ / 2 * ‖H.Op.matvec (matMul s.x (EuclideanSpace.single i (1 : ℝ)))‖ ^ 2 ≤ a.atol := by
  constructor
  · intro i
    have h := lsq_bump (H.Op.matvec ∘ₗ mulRight ι s.y) (fun r => matMul (H.Op.rmatvec r) (matT s.y)) (fun v r => by
      show ⟪H.Op.matvec (matMul v s.y), r⟫ = _
      rw [H.Op.dot, matMul_adj_right]) H.d s.x (EuclideanSpace.single i (1 : ℝ)) a.δ
    have hg : H.gradx s s.x = matMul (H.Op.rmatvec (H.Op.matvec (matMul s.x s.y) - H.d)) (matT s.y) := by
      simp only [gradx, matvecx]
      rw [← map_neg, neg_sub]
    have hg2 : ⟪H.gradx s s.x, EuclideanSpace.single i (1 : ℝ)⟫ = H.gradx s s.x i := by simp [EuclideanSpace.inner_single_right]
    simp only [gradtestBilinear, C63_call, bumpAt_eq]
    rw [← gradVerdict_pos a hδ (‖H.Op.matvec (matMul s.x s.y) - H.d‖ ^ 2 / 2) (H.gradx s s.x i)]
    rw [← hg2, hg]
    exact Iff.of_eq (by congr 2)
  · intro i
    have h := lsq_bump (H.Op.matvec ∘ₗ mulLeft μ s.x) (fun r => matMul (matT s.x) (H.Op.rmatvec r)) (fun v r => by
      show ⟪H.Op.matvec (matMul s.x v), r⟫ = _
      rw [H.Op.dot, matMul_adj_left]) H.d s.y (EuclideanSpace.single i (1 : ℝ)) a.δ
    have hg : H.grady s s.y = matMul (matT s.x) (H.Op.rmatvec (H.Op.matvec (matMul s.x s.y) - H.d)) := by
      simp only [grady, matvecy]
      rw [matMul_neg_left]
      refine ((mulLeft μ (matT s.x)).map_neg _).symm.trans ?_
      show matMul _ (-_) = _
      rw [← map_neg, neg_sub]
    have hg2 : ⟪H.grady s s.y, EuclideanSpace.single i (1 : ℝ)⟫ = H.grady s s.y i := by simp [EuclideanSpace.inner_single_right]
    simp only [gradtestBilinear, C63_call, bumpAt_eq]
    rw [← gradVerdict_pos a hδ (‖H.Op.matvec (matMul s.x s.y) - H.d‖ ^ 2 / 2) (H.grady s s.y i)]
    rw [← hg2, hg]
    exact Iff.of_eq (by congr 2)

open LowRank in
/-- C82: a test of the first block leaves the object as it was; a test of the second block leaves the perturbed block stored in it. -/
theorem C82_bilinear_state_refuted (H : LowRank ι κ μ D) (s : LowRankState ι κ μ) (a : GradTestArgs) (hδ : a.δ ≠ 0) :
    (∀ i, (gradtestBilinear H s a (.x i)).2.2 = s) ∧ ∀ i, (gradtestBilinear H s a (.y i)).2.2.x = s.x ∧ (gradtestBilinear H s a (.y i)).2.2.y i = s.y i + a.δ ∧
      (gradtestBilinear H s a (.y i)).2.2 ≠ s := by
  refine ⟨fun i => by simp [gradtestBilinear, C63_call], fun i => ?_⟩
  have h : (gradtestBilinear H s a (.y i)).2.2.y i = s.y i + a.δ := by simp [gradtestBilinear, C63_call, updatey, bumpAt]
  refine ⟨by simp [gradtestBilinear, C63_call, updatey], h, fun he => ?_⟩
  rw [he] at h
  exact hδ (left_eq_add.1 h)

end bil

/-- `½‖x‖²` with `delta = 1e-6` and the `atol = 1e-3` used by the project's tests meets the hypotheses of the completeness theorem. -/
example : ∃ (Op : ProxOp (CVec ι)) (φ : CVec ι → ℝ) (G : CVec ι → CVec ι) (L : ℝ) (a : GradTestArgs), (∀ x, Op.call x = .ok (.num (φ x))) ∧ (∀ x, Op.grad x = .ok (G x)) ∧
    (∀ x, IsGrad φ x (G x)) ∧ (∀ x y, ‖G x - G y‖ ≤ L * ‖x - y‖) ∧ 0 < a.δ ∧ L * a.δ / 2 ≤ a.atol := by
  obtain ⟨φ, G, h1, h2, -⟩ := C82_gradtest_defaults_refuted (ι := ι)
  exact ⟨⟨fun x => .ok (.num (φ x)), none, none, some fun x => .ok (G x), true, 1⟩, φ, G, 1, ⟨1e-6, 1e-6, 1e-3, true⟩, fun _ => rfl, fun _ => rfl, h1, h2, by norm_num, by norm_num⟩

end Verif
