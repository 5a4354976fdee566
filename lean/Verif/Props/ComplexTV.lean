import Verif.Model.ComplexTV
import Verif.Spec.ComplexTV
import Verif.Lemmas.DualFista
import Verif.Lemmas.TV
import Verif.Lemmas.Loop
import Verif.Props.TV
import Verif.Props.InPlace

/-! # C121: `TV` on complex images -/

open scoped RealInnerProductSpace

namespace Verif

variable {A : Type} [Fintype A] [DecidableEq A] {n : A → ℕ}

/-- The forward differences as a linear map. -/
noncomputable def tvGradMapC (n : A → ℕ) : CVec (Pixel n) →ₗ[ℝ] CVec (A × Pixel n) where
  toFun x := tvGradC x
  map_add' x y := by
    ext q
    simp only [tvGradC, cmk, PiLp.add_apply, fwdDiffC]
    split <;> ring
  map_smul' c x := by
    ext q
    simp only [tvGradC, cmk, PiLp.smul_apply, fwdDiffC, RingHom.id_apply]
    split
    · rw [smul_sub]
    · rw [smul_zero]

/-- The divergence as a linear map. -/
noncomputable def tvDivMapC (n : A → ℕ) : CVec (A × Pixel n) →ₗ[ℝ] CVec (Pixel n) where
  toFun r := cmk fun p => ∑ a, tvDivAxisC r a p
  map_add' x y := by
    ext q
    simp only [cmk, PiLp.add_apply, ← Finset.sum_add_distrib]
    refine Finset.sum_congr rfl fun a _ => ?_
    simp only [tvDivAxisC, PiLp.add_apply]
    split_ifs <;> ring
  map_smul' c x := by
    ext q
    simp only [cmk, PiLp.smul_apply, RingHom.id_apply, Finset.smul_sum]
    refine Finset.sum_congr rfl fun a _ => ?_
    simp only [tvDivAxisC, PiLp.smul_apply]
    split_ifs <;> simp only [smul_sub, smul_neg]

lemma tvDivC_ok (hn : ∀ a, 2 ≤ n a) (r : CVec (A × Pixel n)) : tvDivC r = .ok (tvDivMapC n r) := by
  rw [tvDivC, if_pos hn]; rfl

omit [Fintype A] in
lemma fwdDiffC_re (x : Pixel n → ℂ) (a : A) (p : Pixel n) : (fwdDiffC x a p).re = fwdDiff (fun p => (x p).re) a p := by
  unfold fwdDiffC fwdDiff; split <;> simp

omit [Fintype A] in
lemma fwdDiffC_im (x : Pixel n → ℂ) (a : A) (p : Pixel n) : (fwdDiffC x a p).im = fwdDiff (fun p => (x p).im) a p := by
  unfold fwdDiffC fwdDiff; split <;> simp

lemma tvDivAxisC_re (r : CVec (A × Pixel n)) (a : A) (p : Pixel n) : (tvDivAxisC r a p).re = tvDivAxis (vmk fun q => (r q).re) a p := by
  unfold tvDivAxisC tvDivAxis; split_ifs <;> simp

lemma tvDivAxisC_im (r : CVec (A × Pixel n)) (a : A) (p : Pixel n) : (tvDivAxisC r a p).im = tvDivAxis (vmk fun q => (r q).im) a p := by
  unfold tvDivAxisC tvDivAxis; split_ifs <;> simp

lemma cvec_inner_reim {ι : Type} [Fintype ι] (x y : CVec ι) : ⟪x, y⟫ = ∑ i, ((x i).re * (y i).re + (x i).im * (y i).im) := by
  rw [PiLp.inner_apply]
  refine Finset.sum_congr rfl fun i _ => ?_
  rw [Complex.inner]
  simp
  ring

lemma cvec_norm_reim {ι : Type} [Fintype ι] (x : CVec ι) : ‖x‖ ^ 2 = ∑ i, ((x i).re ^ 2 + (x i).im ^ 2) := by
  rw [← real_inner_self_eq_norm_sq, cvec_inner_reim]
  exact Finset.sum_congr rfl fun i _ => by ring

lemma tvC_adjoint (hn : ∀ a, 2 ≤ n a) (x : CVec (Pixel n)) (r : CVec (A × Pixel n)) : ⟪tvGradMapC n x, r⟫ = - ⟪x, tvDivMapC n r⟫ := by
  rw [cvec_inner_reim, cvec_inner_reim, Fintype.sum_prod_type]
  have h : ∀ p, (x p).re * (tvDivMapC n r p).re + (x p).im * (tvDivMapC n r p).im
      = ∑ a, ((x p).re * tvDivAxis (vmk fun q => (r q).re) a p + (x p).im * tvDivAxis (vmk fun q => (r q).im) a p) := fun p => by
    rw [Finset.sum_add_distrib, ← Finset.mul_sum, ← Finset.mul_sum]
    simp only [tvDivMapC, LinearMap.coe_mk, AddHom.coe_mk, cmk, Complex.re_sum, Complex.im_sum, tvDivAxisC_re, tvDivAxisC_im]
  rw [Finset.sum_congr rfl fun p _ => h p, Finset.sum_comm (s := (Finset.univ : Finset (Pixel n))), ← Finset.sum_neg_distrib]
  refine Finset.sum_congr rfl fun a _ => ?_
  have h1 := tv_parts hn (fun p => (x p).re) (vmk fun q => (r q).re) a
  have h2 := tv_parts hn (fun p => (x p).im) (vmk fun q => (r q).im) a
  rw [Finset.sum_add_distrib, Finset.sum_add_distrib, neg_add, ← h1, ← h2]
  congr 1 <;> refine Finset.sum_congr rfl fun p _ => ?_
  · rw [← fwdDiffC_re]; rfl
  · rw [← fwdDiffC_im]; rfl

lemma tvGradC_norm_sq (x : CVec (Pixel n)) : ‖tvGradMapC n x‖ ^ 2 ≤ 4 * Fintype.card A * ‖x‖ ^ 2 := by
  rw [cvec_norm_reim, cvec_norm_reim, Fintype.sum_prod_type]
  calc ∑ a, ∑ p, ((tvGradMapC n x (a, p)).re ^ 2 + (tvGradMapC n x (a, p)).im ^ 2) ≤ ∑ _a : A, 4 * ∑ p, ((x p).re ^ 2 + (x p).im ^ 2) :=
        Finset.sum_le_sum fun a _ => by
          have h1 := fwdDiff_sq_sum (fun p => (x p).re) a
          have h2 := fwdDiff_sq_sum (fun p => (x p).im) a
          simp only [← fwdDiffC_re, ← fwdDiffC_im] at h1 h2
          rw [Finset.sum_add_distrib, Finset.sum_add_distrib, mul_add]
          exact add_le_add h1 h2
    _ = _ := by rw [Finset.sum_const, Finset.card_univ, nsmul_eq_mul]; ring

/-! ## The dual ball -/

/-- Complex fields whose norm is at most one at every pixel. -/
def tvBallC (n : A → ℕ) : Set (CVec (A × Pixel n)) := {r | ∀ p, ∑ a, ‖r (a, p)‖ ^ 2 ≤ 1}

lemma tvBallC_convex : Convex ℝ (tvBallC n) := by
  intro r hr s hs α β hα hβ hαβ p
  have h : ∀ a, ‖(α • r + β • s) (a, p)‖ ^ 2 ≤ α * ‖r (a, p)‖ ^ 2 + β * ‖s (a, p)‖ ^ 2 := fun a => by
    simp only [PiLp.add_apply, PiLp.smul_apply]
    have h1 : ‖α • r (a, p) + β • s (a, p)‖ ≤ α * ‖r (a, p)‖ + β * ‖s (a, p)‖ := by
      refine (norm_add_le _ _).trans ?_
      rw [norm_smul, norm_smul, Real.norm_of_nonneg hα, Real.norm_of_nonneg hβ]
    have h2 := pow_le_pow_left₀ (norm_nonneg _) h1 2
    obtain rfl : β = 1 - α := by linarith
    nlinarith [mul_nonneg (mul_nonneg hα hβ) (sq_nonneg (‖r (a, p)‖ - ‖s (a, p)‖))]
  calc _ ≤ ∑ a, (α * ‖r (a, p)‖ ^ 2 + β * ‖s (a, p)‖ ^ 2) := Finset.sum_le_sum fun a _ => h a
    _ = α * ∑ a, ‖r (a, p)‖ ^ 2 + β * ∑ a, ‖s (a, p)‖ ^ 2 := by rw [Finset.sum_add_distrib, Finset.mul_sum, Finset.mul_sum]
    _ ≤ α * 1 + β * 1 := by gcongr <;> [exact hr p; exact hs p]
    _ = 1 := by linarith

lemma tvBallC_zero : (0 : CVec (A × Pixel n)) ∈ tvBallC n := fun p => by simp

lemma tvBallC_norm {r : CVec (A × Pixel n)} (hr : r ∈ tvBallC n) : ‖r‖ ^ 2 ≤ Fintype.card (Pixel n) := by
  rw [EuclideanSpace.norm_sq_eq, Fintype.sum_prod_type, Finset.sum_comm]
  calc _ ≤ ∑ _p : Pixel n, (1 : ℝ) := Finset.sum_le_sum fun p _ => hr p
    _ = _ := by simp

lemma tvBallC_compact : IsCompact (tvBallC n) := by
  apply Metric.isCompact_of_isClosed_isBounded
  · have : tvBallC n = ⋂ p, {r | ∑ a, ‖r (a, p)‖ ^ 2 ≤ 1} := by
      ext r; simp [tvBallC]
    rw [this]
    refine isClosed_iInter fun p => isClosed_le ?_ continuous_const
    fun_prop
  · rw [isBounded_iff_forall_norm_le]
    refine ⟨√(Fintype.card (Pixel n)), fun r hr => ?_⟩
    exact Real.le_sqrt_of_sq_le (tvBallC_norm hr)

lemma tvClipC_apply (r : CVec (A × Pixel n)) (a : A) (p : Pixel n) : tvClipC r (a, p) = (max 1 √(∑ a, ‖r (a, p)‖ ^ 2))⁻¹ • r (a, p) := by
  rw [Complex.real_smul]
  simp only [tvClipC, cmk]
  rw [Complex.ofReal_inv]
  ring

lemma tvClipC_proj (r : CVec (A × Pixel n)) : IsProj (tvBallC n) r (tvClipC r) := by
  have hmem : tvClipC r ∈ tvBallC n := by
    intro p
    have e : ∀ a, ‖(tvClipC r) (a, p)‖ ^ 2 = ‖r (a, p)‖ ^ 2 / (max 1 √(∑ a, ‖r (a, p)‖ ^ 2)) ^ 2 := fun a => by
      rw [tvClipC_apply, norm_smul, mul_pow, norm_inv, Real.norm_of_nonneg (by positivity)]
      ring
    rw [Finset.sum_congr rfl fun a _ => e a, ← Finset.sum_div, div_le_one (by positivity)]
    rw [← Real.sqrt_le_left (by positivity)]
    exact le_max_right _ _
  refine (isUniqueProj_of_variational hmem fun y hy => ?_).1
  rw [PiLp.inner_apply, Fintype.sum_prod_type, Finset.sum_comm]
  refine Finset.sum_nonpos fun p _ => ?_
  have hy2 := hy p
  set N := √(∑ a, ‖r (a, p)‖ ^ 2) with hN
  have hN2 : N ^ 2 = ∑ a, ‖r (a, p)‖ ^ 2 := Real.sq_sqrt (Finset.sum_nonneg fun a _ => sq_nonneg _)
  have hcs : ∑ a, ⟪r (a, p), y (a, p)⟫ ≤ N := by
    calc _ ≤ ∑ a, ‖r (a, p)‖ * ‖y (a, p)‖ := Finset.sum_le_sum fun a _ => real_inner_le_norm _ _
      _ ≤ _ := Real.sum_mul_le_sqrt_mul_sqrt _ _ _
      _ ≤ N := by
        have : √(∑ a, ‖y (a, p)‖ ^ 2) ≤ 1 := Real.sqrt_le_one.2 hy2
        nlinarith [Real.sqrt_nonneg (∑ a, ‖r (a, p)‖ ^ 2)]
  simp only [PiLp.sub_apply, tvClipC_apply]
  rw [← hN]
  rcases le_total N 1 with h | h
  · rw [max_eq_left h]; simp
  · rw [max_eq_right h]
    have hpos : 0 < N := by linarith
    have e3 : ∀ a, ⟪r (a, p) - N⁻¹ • r (a, p), y (a, p) - N⁻¹ • r (a, p)⟫ = (1 - 1 / N) * ⟪r (a, p), y (a, p)⟫ - (1 - 1 / N) / N * ‖r (a, p)‖ ^ 2 :=
      fun a => by
        rw [show r (a, p) - N⁻¹ • r (a, p) = (1 - N⁻¹) • r (a, p) by module, real_inner_smul_left, inner_sub_right, real_inner_smul_right, real_inner_self_eq_norm_sq]
        ring
    rw [Finset.sum_congr rfl fun a _ => e3 a, Finset.sum_sub_distrib, ← Finset.mul_sum, ← Finset.mul_sum, ← hN2]
    have h1 : (0 : ℝ) ≤ 1 - 1 / N := by
      rw [sub_nonneg, div_le_one hpos]; exact h
    have h2 : (1 - 1 / N) / N * N ^ 2 = (1 - 1 / N) * N := by field_simp
    rw [h2, ← mul_sub]
    exact mul_nonpos_of_nonneg_of_nonpos h1 (by linarith)

/-! ## Total variation -/

lemma tvC_eq (x : CVec (Pixel n)) : complexTotalVariation x = ∑ p, √(∑ a, ‖tvGradC x (a, p)‖ ^ 2) := by
  unfold complexTotalVariation
  refine Finset.sum_congr rfl fun p _ => ?_
  congr 1
  refine Finset.sum_congr rfl fun a _ => ?_
  simp only [tvGradC, cmk, fwdDiffC, nextPixel]
  split <;> simp

lemma tvC_value (σ : ℝ) (x : CVec (Pixel n)) (hA : 0 < Fintype.card A) : tvCallC σ x = .ok (σ * complexTotalVariation x) := by
  unfold tvCallC
  rw [if_neg hA.ne', tvC_eq]
  split_ifs with h1
  · obtain ⟨a, ha⟩ := Fintype.card_eq_one_iff.1 h1
    have hu : (Finset.univ : Finset A) = {a} := by ext b; simp [ha b]
    rw [Fintype.sum_prod_type, hu]
    simp
  · rfl

lemma tvC_dual_le (x : CVec (Pixel n)) {r : CVec (A × Pixel n)} (hr : r ∈ tvBallC n) : - ⟪tvGradMapC n x, r⟫ ≤ complexTotalVariation x := by
  rw [PiLp.inner_apply, Fintype.sum_prod_type, Finset.sum_comm, tvC_eq, ← Finset.sum_neg_distrib]
  refine Finset.sum_le_sum fun p _ => ?_
  rw [← Finset.sum_neg_distrib]
  calc _ ≤ ∑ a, ‖tvGradC x (a, p)‖ * ‖r (a, p)‖ := Finset.sum_le_sum fun a _ => by
        have := neg_le_of_abs_le (abs_real_inner_le_norm (tvGradC x (a, p)) (r (a, p)))
        change - ⟪tvGradC x (a, p), r (a, p)⟫ ≤ _
        linarith
    _ ≤ √(∑ a, ‖tvGradC x (a, p)‖ ^ 2) * √(∑ a, ‖r (a, p)‖ ^ 2) := Real.sum_mul_le_sqrt_mul_sqrt _ _ _
    _ ≤ _ := by
      have h1 : √(∑ a, ‖r (a, p)‖ ^ 2) ≤ 1 := Real.sqrt_le_one.2 (hr p)
      nlinarith [Real.sqrt_nonneg (∑ a, ‖tvGradC x (a, p)‖ ^ 2)]

lemma tvC_dual_attained (x : CVec (Pixel n)) : ∃ r ∈ tvBallC n, - ⟪tvGradMapC n x, r⟫ = complexTotalVariation x := by
  let N : Pixel n → ℝ := fun p => √(∑ a, ‖tvGradC x (a, p)‖ ^ 2)
  refine ⟨cmk fun q => -(N q.2)⁻¹ • tvGradC x q, fun p => ?_, ?_⟩
  · have e : ∀ a, ‖(cmk fun q : A × Pixel n => -(N q.2)⁻¹ • tvGradC x q : CVec (A × Pixel n)) (a, p)‖ ^ 2 = ‖tvGradC x (a, p)‖ ^ 2 / N p ^ 2 := fun a => by
      rw [norm_smul, mul_pow, norm_neg, norm_inv, Real.norm_of_nonneg (Real.sqrt_nonneg _)]
      ring
    rw [Finset.sum_congr rfl fun a _ => e a, ← Finset.sum_div]
    simp only [N]
    rw [Real.sq_sqrt (Finset.sum_nonneg fun a _ => sq_nonneg _)]
    exact div_self_le_one _
  · rw [PiLp.inner_apply, Fintype.sum_prod_type, Finset.sum_comm, tvC_eq, ← Finset.sum_neg_distrib]
    refine Finset.sum_congr rfl fun p _ => ?_
    have e : ∀ a, ⟪(tvGradMapC n x) (a, p), (cmk fun q : A × Pixel n => -(N q.2)⁻¹ • tvGradC x q : CVec (A × Pixel n)) (a, p)⟫
        = - (‖tvGradC x (a, p)‖ ^ 2 / N p) := fun a => by
      change ⟪tvGradC x (a, p), -(N p)⁻¹ • tvGradC x (a, p)⟫ = _
      rw [real_inner_smul_right, real_inner_self_eq_norm_sq]
      ring
    rw [Finset.sum_congr rfl fun a _ => e a, Finset.sum_neg_distrib, neg_neg, ← Finset.sum_div]
    simp only [N]
    rw [Real.div_sqrt]

/-! ## The run -/

lemma tvC_body_ok (hn : ∀ a, 2 ≤ n a) (hA : 0 < Fintype.card A) (x : CVec (Pixel n)) {σ γ rtol mt : ℝ} (hγ : γ ≠ 0) (hmt : mt ≠ 0) (i : ℕ) {s : TVStateC A n}
    (hs : s.nan = false)
    (hr : ¬ tvRel rtol (0.5 * ‖x - dualPrimal (tvDivMapC n) x γ s.r‖ ^ 2 + γ * (σ * complexTotalVariation (dualPrimal (tvDivMapC n) x γ s.r))) s.obj < rtol) :
    ∃ s', TV.bodyC x σ γ rtol mt i s = .ok (s', false) ∧ s'.nan = false ∧ s'.sol = dualPrimal (tvDivMapC n) x γ s.r
      ∧ s'.old = tvClipC (s.r - (1 / (4 * Fintype.card A * γ * mt ^ 2)) • tvGradMapC n s'.sol) ∧ s'.told = (1 + √(4 * s.told ^ 2)) / 2
      ∧ s'.r = s'.old + ((s.told - 1) / s'.told) • (s'.old - s.old) := by
  have hden : (4 * Fintype.card A * γ * mt ^ 2 : ℝ) ≠ 0 := by
    have : (Fintype.card A : ℝ) ≠ 0 := by exact_mod_cast hA.ne'
    positivity
  let p := tvClipC (s.r - (1 / (4 * Fintype.card A * γ * mt ^ 2)) • tvGradMapC n (dualPrimal (tvDivMapC n) x γ s.r))
  refine ⟨⟨dualPrimal (tvDivMapC n) x γ s.r, p + ((s.told - 1) / ((1 + √(4 * s.told ^ 2)) / 2)) • (p - s.old), p, (1 + √(4 * s.told ^ 2)) / 2,
    0.5 * ‖x - dualPrimal (tvDivMapC n) x γ s.r‖ ^ 2 + γ * (σ * complexTotalVariation (dualPrimal (tvDivMapC n) x γ s.r)), false⟩, ?_, rfl, rfl, rfl, rfl, rfl⟩
  simp only [TV.bodyC, tvDivC_ok hn, hs, Bind.bind, Except.bind, Bool.false_eq_true, if_false]
  rw [show x - γ • tvDivMapC n s.r = dualPrimal (tvDivMapC n) x γ s.r from rfl, tvC_value σ _ hA]
  simp only
  rw [if_neg hr, if_neg fun h => hden h.1]
  simp only [hden, decide_false]
  rfl

/-- The run with `rtol = 0`. -/
lemma tvC_run (hn : ∀ a, 2 ≤ n a) (hA : 0 < Fintype.card A) (x : CVec (Pixel n)) {σ γ mt : ℝ} (hγ : γ ≠ 0) (hmt : mt ≠ 0) :
    ∃ T : ℕ → TVStateC A n, T 0 = ⟨x, 0, 0, 1, 0, false⟩ ∧
      (∀ k, forRange (TV.bodyC x σ γ 0 mt) k 0 ⟨x, 0, 0, 1, 0, false⟩ = .ok (T k)) ∧ ∀ k,
      (T (k + 1)).sol = dualPrimal (tvDivMapC n) x γ (T k).r ∧
      (T (k + 1)).old = tvClipC ((T k).r - (1 / (4 * Fintype.card A * γ * mt ^ 2)) • tvGradMapC n (dualPrimal (tvDivMapC n) x γ (T k).r)) ∧
      (T k).told = 1 + (k : ℝ) / 2 ∧
      (T (k + 1)).r = (T (k + 1)).old + (((T k).told - 1) / (T (k + 1)).told) • ((T (k + 1)).old - (T k).old) := by
  obtain ⟨T, h0, _, h2, h3⟩ := forRange_traj_nobreak (TV.bodyC x σ γ 0 mt) (fun s => s.nan = false)
    (fun _ s s' => s'.sol = dualPrimal (tvDivMapC n) x γ s.r
      ∧ s'.old = tvClipC (s.r - (1 / (4 * Fintype.card A * γ * mt ^ 2)) • tvGradMapC n s'.sol) ∧ s'.told = (1 + √(4 * s.told ^ 2)) / 2
      ∧ s'.r = s'.old + ((s.told - 1) / s'.told) • (s'.old - s.old))
    (fun i s hs => by
      obtain ⟨s', e1, e2, e3, e4, e5, e6⟩ := tvC_body_ok hn hA x hγ hmt i hs (tvRel_zero _ _)
      exact ⟨s', e1, e2, e3, e4, e5, e6⟩) ⟨x, 0, 0, 1, 0, false⟩ rfl
  refine ⟨T, h0, h3, fun k => ?_⟩
  obtain ⟨e1, e2, -, e4⟩ := h2 k
  rw [e1] at e2
  refine ⟨e1, e2, ?_, e4⟩
  clear e1 e2 e4
  induction k with
  | zero => rw [h0]; simp
  | succ k ih =>
    rw [(h2 k).2.2.1, ih, show (4 : ℝ) * (1 + (k : ℝ) / 2) ^ 2 = (2 * (1 + (k : ℝ) / 2)) ^ 2 by ring, Real.sqrt_sq (by positivity)]
    push_cast
    ring

lemma tvC_prox_eq (σ rtol : ℝ) (w : A → Option ℝ) (niter : ℤ) (x : CVec (Pixel n)) {τ : ℝ} (hτ : 0 < τ) (hA : 0 < Fintype.card A) (hA4 : Fintype.card A ≤ 4) :
    (TVCx σ rtol w niter).prox x τ
      = (forRange (TV.bodyC x σ (σ * τ) rtol (tvMt w)) (niter + 1).toNat 0 ⟨x, 0, 0, 1, 0, false⟩).map fun s => s.sol := by
  have : ¬ (Fintype.card A = 0 ∨ 4 < Fintype.card A) := by omega
  simp only [TVCx, ProxOp.prox, checkTau, tvProxC, if_neg (not_le.2 hτ), this, if_false]
  cases forRange (TV.bodyC x σ (σ * τ) rtol (tvMt w)) (niter + 1).toNat 0 ⟨x, 0, 0, 1, 0, false⟩ <;> rfl

/-- Distance of the primal points to the proximal point along the run. -/
lemma tvC_rate (hn : ∀ a, 2 ≤ n a) (hA : 0 < Fintype.card A) (x : CVec (Pixel n)) {σ τ mt : ℝ} (hσ : 0 < σ) (hτ : 0 < τ) (hmt : 1 ≤ mt) :
    ∃ u, IsUniqueProx (XFun.ofReal fun y => σ * complexTotalVariation y) τ x u ∧ ∀ T : ℕ → TVStateC A n, T 0 = ⟨x, 0, 0, 1, 0, false⟩ → (∀ k,
      (T (k + 1)).sol = dualPrimal (tvDivMapC n) x (σ * τ) (T k).r ∧
      (T (k + 1)).old = tvClipC ((T k).r - (1 / (4 * Fintype.card A * (σ * τ) * mt ^ 2)) • tvGradMapC n (dualPrimal (tvDivMapC n) x (σ * τ) (T k).r)) ∧
      (T k).told = 1 + (k : ℝ) / 2 ∧
      (T (k + 1)).r = (T (k + 1)).old + (((T k).told - 1) / (T (k + 1)).told) • ((T (k + 1)).old - (T k).old)) →
      ∀ k : ℕ, ‖(T (k + 2)).sol - u‖ ≤ 12 * (σ * τ) * mt * √(Fintype.card A * Fintype.card (Pixel n)) / (k + 1) := by
  have hA' : (0 : ℝ) < Fintype.card A := by exact_mod_cast hA
  obtain ⟨u, hu, h⟩ := dual_rate (tvC_adjoint hn) tvBallC_compact tvBallC_convex tvBallC_zero (fun x r hr => tvC_dual_le x hr) tvC_dual_attained
    (L := 4 * Fintype.card A) (by positivity) tvGradC_norm_sq (fun r hr => tvBallC_norm hr) tvClipC_proj x hσ hτ hmt
  refine ⟨u, hu, fun T h0 hT k => (h (fun k => (T k).sol) (fun k => (T k).old) (fun k => (T k).r) (fun k => (T k).told) (by rw [h0]) (by rw [h0]) hT k).trans
    (le_of_eq ?_)⟩
  rw [mul_assoc (4 : ℝ), Real.sqrt_mul (by norm_num : (0 : ℝ) ≤ 4), show √(4 : ℝ) = 2 by rw [show (4 : ℝ) = 2 ^ 2 by norm_num, Real.sqrt_sq (by norm_num)]]
  ring

/-! ## Property theorems -/

/-- C121: evaluating `TV` on a complex image returns `sigma` times its isotropic total variation, for every number of axes. -/
theorem C121_value (σ rtol : ℝ) (w : A → Option ℝ) (niter : ℤ) (x : CVec (Pixel n)) (hA : 0 < Fintype.card A) :
    (TVCx σ rtol w niter).call x = .ok (.num (σ * complexTotalVariation x)) := by
  simp only [TVCx, tvC_value σ x hA]
  rfl

/-- C121: with `rtol=0`, one to four axes of length at least 2 and weights whose largest is at least one and at most `ω` (in particular without weights), `prox` of a complex image
returns for every `niter ≥ 1` a point at distance at most `12 sigma tau ω √(number of axes · number of pixels) / niter` of the proximal point. -/
theorem C121_prox_rate_partial (hn : ∀ a, 2 ≤ n a) (hA : 0 < Fintype.card A) (hA4 : Fintype.card A ≤ 4) {σ τ ω : ℝ} (hσ : 0 < σ) (hτ : 0 < τ) {w : A → Option ℝ}
    (hw : ∃ a, 1 ≤ (w a).getD 1) (hω : ∀ a, (w a).getD 1 ≤ ω) (x : CVec (Pixel n)) :
    ∃ u, IsUniqueProx (XFun.ofReal fun y => σ * complexTotalVariation y) τ x u ∧ ∀ niter : ℕ, 1 ≤ niter → ∃ z, (TVCx σ 0 w niter).prox x τ = .ok z ∧
      ‖z - u‖ ≤ 12 * σ * τ * ω * √(Fintype.card A * Fintype.card (Pixel n)) / niter := by
  have : Nonempty A := Fintype.card_pos_iff.1 hA
  have hmt := tvMt_ge hw
  obtain ⟨u, hu, h⟩ := tvC_rate hn hA x hσ hτ hmt
  refine ⟨u, hu, fun niter h1 => ?_⟩
  obtain ⟨T, t0, t1, t2⟩ := tvC_run (σ := σ) hn hA x (mul_pos hσ hτ).ne' (show tvMt w ≠ 0 by linarith)
  obtain ⟨k, rfl⟩ : ∃ k, niter = k + 1 := ⟨niter - 1, by omega⟩
  refine ⟨(T (k + 2)).sol, ?_, (h T t0 t2 k).trans ?_⟩
  · rw [tvC_prox_eq σ 0 w _ x hτ hA hA4, show (((k + 1 : ℕ) : ℤ) + 1).toNat = k + 2 by omega, t1]
    rfl
  · push_cast
    have := tvMt_le hω
    rw [mul_assoc 12 σ τ]
    gcongr

/-- C121: with `rtol=0` the result on a complex image tends to the proximal point as `niter` grows. -/
theorem C121_prox_converges_partial (hn : ∀ a, 2 ≤ n a) (hA : 0 < Fintype.card A) (hA4 : Fintype.card A ≤ 4) {σ τ : ℝ} (hσ : 0 < σ) (hτ : 0 < τ) {w : A → Option ℝ}
    (hw : ∃ a, 1 ≤ (w a).getD 1) (x : CVec (Pixel n)) :
    ∃ u z, IsUniqueProx (XFun.ofReal fun y => σ * complexTotalVariation y) τ x u ∧ (∀ niter : ℕ, (TVCx σ 0 w niter).prox x τ = .ok (z niter)) ∧
      Filter.Tendsto z Filter.atTop (nhds u) := by
  have : Nonempty A := Fintype.card_pos_iff.1 hA
  have hmt := tvMt_ge hw
  obtain ⟨u, hu, h⟩ := tvC_rate hn hA x hσ hτ hmt
  obtain ⟨T, t0, t1, t2⟩ := tvC_run (σ := σ) hn hA x (mul_pos hσ hτ).ne' (show tvMt w ≠ 0 by linarith)
  refine ⟨u, fun k => (T (k + 1)).sol, hu, fun k => ?_, ?_⟩
  · rw [tvC_prox_eq σ 0 w _ x hτ hA hA4, show ((k : ℤ) + 1).toNat = k + 1 by omega, t1]
    rfl
  · rw [← Filter.tendsto_add_atTop_iff_nat 1]
    rw [tendsto_iff_norm_sub_tendsto_zero]
    refine squeeze_zero (fun _ => norm_nonneg _) (fun k => h T t0 t2 k) ?_
    refine ((tendsto_const_div_atTop_nhds_zero_nat (12 * (σ * τ) * tvMt w * √(Fintype.card A * Fintype.card (Pixel n)))).comp
      (Filter.tendsto_add_atTop_nat 1)).congr fun k => ?_
    simp only [Function.comp, Nat.cast_add, Nat.cast_one]

/-! ## Rotations of the complex plane -/

section
variable (u : ℂ →ₗᵢ[ℝ] ℂ)

/-- `u` applied to every entry. -/
noncomputable def mapEntries {ι : Type} [Fintype ι] (x : CVec ι) : CVec ι := cmk fun i => u (x i)

lemma mapEntries_apply {ι : Type} [Fintype ι] (x : CVec ι) (i : ι) : mapEntries u x i = u (x i) := rfl

lemma mapEntries_add {ι : Type} [Fintype ι] (x y : CVec ι) : mapEntries u (x + y) = mapEntries u x + mapEntries u y := by
  ext i; simp [mapEntries]

lemma mapEntries_sub {ι : Type} [Fintype ι] (x y : CVec ι) : mapEntries u (x - y) = mapEntries u x - mapEntries u y := by
  ext i; simp [mapEntries]

lemma mapEntries_smul {ι : Type} [Fintype ι] (c : ℝ) (x : CVec ι) : mapEntries u (c • x) = c • mapEntries u x := by
  ext i
  rw [mapEntries_apply, PiLp.smul_apply, PiLp.smul_apply, map_smul, mapEntries_apply]

lemma mapEntries_zero {ι : Type} [Fintype ι] : mapEntries u (0 : CVec ι) = 0 := by
  ext i; simp [mapEntries]

lemma mapEntries_norm {ι : Type} [Fintype ι] (x : CVec ι) : ‖mapEntries u x‖ = ‖x‖ := by
  rw [EuclideanSpace.norm_eq, EuclideanSpace.norm_eq]
  simp [mapEntries]

lemma tvGradC_map (x : CVec (Pixel n)) : tvGradC (mapEntries u x) = mapEntries u (tvGradC x) := by
  ext q
  simp only [tvGradC, mapEntries, cmk, fwdDiffC]
  split <;> simp

lemma tvDivC_map (r : CVec (A × Pixel n)) : tvDivC (mapEntries u r) = (tvDivC r).map (mapEntries u) := by
  unfold tvDivC
  split_ifs
  · simp only [Except.map]
    congr 1
    ext p
    simp only [mapEntries, cmk, map_sum]
    refine Finset.sum_congr rfl fun a _ => ?_
    simp only [tvDivAxisC]
    split_ifs <;> simp
  · rfl

lemma tvCallC_map (σ : ℝ) (x : CVec (Pixel n)) : tvCallC σ (mapEntries u x) = tvCallC σ x := by
  unfold tvCallC
  simp only [tvGradC_map, mapEntries_apply, LinearIsometry.norm_map]

lemma tvClipC_map (r : CVec (A × Pixel n)) : tvClipC (mapEntries u r) = mapEntries u (tvClipC r) := by
  ext ⟨a, p⟩
  rw [tvClipC_apply, mapEntries_apply, mapEntries_apply, tvClipC_apply, map_smul]
  simp only [mapEntries_apply, LinearIsometry.norm_map]

/-- `u` applied to the arrays of the state. -/
noncomputable def TVStateC.mapEntries (s : TVStateC A n) : TVStateC A n := ⟨Verif.mapEntries u s.sol, Verif.mapEntries u s.r, Verif.mapEntries u s.old, s.told, s.obj, s.nan⟩

lemma tvC_body_map (x : CVec (Pixel n)) (σ γ rtol mt : ℝ) (i : ℕ) (s : TVStateC A n) :
    TV.bodyC (mapEntries u x) σ γ rtol mt i (s.mapEntries u) = (TV.bodyC x σ γ rtol mt i s).map fun p => (p.1.mapEntries u, p.2) := by
  obtain ⟨sol, r, old, told, obj, nan⟩ := s
  simp only [TV.bodyC, Bind.bind, Except.bind, TVStateC.mapEntries, tvDivC_map]
  cases tvDivC r with
  | error e => rfl
  | ok d =>
    simp only [Except.map]
    cases nan
    · simp only [Bool.false_eq_true, if_false]
      rw [← mapEntries_smul, ← mapEntries_sub, tvCallC_map]
      cases tvCallC σ (x - γ • d) with
      | error e => rfl
      | ok v =>
        simp only [← mapEntries_sub, mapEntries_norm]
        split_ifs
        · rfl
        · rfl
        · simp only [tvGradC_map, ← mapEntries_sub, ← mapEntries_smul, tvClipC_map, ← mapEntries_add]
          rfl
    · rfl

/-- C121: rotating (or reflecting) the complex plane at every pixel rotates the result, whatever the parameters: phases are treated alike. -/
theorem C121_phase (σ rtol : ℝ) (w : A → Option ℝ) (niter : ℤ) (x : CVec (Pixel n)) (τ : ℝ) :
    (TVCx σ rtol w niter).prox (mapEntries u x) τ = ((TVCx σ rtol w niter).prox x τ).map (mapEntries u) ∧
      (TVCx σ rtol w niter).call (mapEntries u x) = (TVCx σ rtol w niter).call x := by
  refine ⟨?_, by simp only [TVCx, tvCallC_map]⟩
  simp only [TVCx, ProxOp.prox, checkTau, tvProxC]
  split_ifs
  · rfl
  · rfl
  · have h := (forRange_map (b1 := TV.bodyC x σ (σ * τ) rtol (tvMt w)) (b2 := TV.bodyC (mapEntries u x) σ (σ * τ) rtol (tvMt w)) (J := fun _ => True)
      (π := TVStateC.mapEntries u) (fun i s _ => by
        rw [tvC_body_map]
        cases TV.bodyC x σ (σ * τ) rtol (tvMt w) i s with
        | error e => exact .inl ⟨e, rfl, rfl⟩
        | ok p => exact .inr ⟨p.1, p.2, rfl, rfl, trivial⟩) (niter + 1).toNat 0 ⟨x, 0, 0, 1, 0, false⟩ trivial).1
    have e0 : (TVStateC.mapEntries u ⟨x, 0, 0, 1, 0, false⟩ : TVStateC A n) = ⟨mapEntries u x, 0, 0, 1, 0, false⟩ := by
      simp only [TVStateC.mapEntries, mapEntries_zero]
    rw [e0] at h
    rw [← h]
    cases forRange (TV.bodyC x σ (σ * τ) rtol (tvMt w)) (niter + 1).toNat 0 ⟨x, 0, 0, 1, 0, false⟩ <;> rfl
end

/-! ## Real images -/

/-- A real array as a complex array. -/
noncomputable def toComplex {ι : Type} [Fintype ι] (x : Vec ι) : CVec ι := cmk fun i => (x i : ℂ)

lemma toComplex_apply {ι : Type} [Fintype ι] (x : Vec ι) (i : ι) : toComplex x i = (x i : ℂ) := rfl

lemma toComplex_add {ι : Type} [Fintype ι] (x y : Vec ι) : toComplex (x + y) = toComplex x + toComplex y := by
  ext i; simp [toComplex]

lemma toComplex_sub {ι : Type} [Fintype ι] (x y : Vec ι) : toComplex (x - y) = toComplex x - toComplex y := by
  ext i; simp [toComplex]

lemma toComplex_smul {ι : Type} [Fintype ι] (c : ℝ) (x : Vec ι) : toComplex (c • x) = c • toComplex x := by
  ext i; simp [toComplex]

lemma toComplex_zero {ι : Type} [Fintype ι] : toComplex (0 : Vec ι) = 0 := by
  ext i; simp [toComplex]

lemma toComplex_norm {ι : Type} [Fintype ι] (x : Vec ι) : ‖toComplex x‖ = ‖x‖ := by
  rw [EuclideanSpace.norm_eq, EuclideanSpace.norm_eq]
  simp [toComplex]

lemma tvGradC_real (x : Vec (Pixel n)) : tvGradC (toComplex x) = toComplex (tvGrad x) := by
  ext q
  simp only [tvGradC, tvGrad, toComplex, cmk, vmk, fwdDiffC, fwdDiff]
  split <;> simp

lemma tvDivC_real (r : Vec (A × Pixel n)) : tvDivC (toComplex r) = (tvDiv r).map toComplex := by
  unfold tvDivC tvDiv
  split_ifs
  · simp only [Except.map]
    congr 1
    ext p
    simp only [toComplex, cmk, Complex.ofReal_sum]
    refine Finset.sum_congr rfl fun a _ => ?_
    simp only [tvDivAxisC, tvDivAxis]
    split_ifs <;> simp
  · rfl

lemma tvCallC_real (σ : ℝ) (x : Vec (Pixel n)) : tvCallC σ (toComplex x) = tvCall σ x := by
  unfold tvCallC tvCall
  simp only [tvGradC_real, toComplex_apply, Complex.norm_real, Real.norm_eq_abs]

lemma tvClipC_real (r : Vec (A × Pixel n)) : tvClipC (toComplex r) = toComplex (tvClip r) := by
  ext q
  simp [tvClipC, tvClip, toComplex, cmk, vmk]

/-- The arrays of the state made complex. -/
noncomputable def TVState.toComplex (s : TVState A n) : TVStateC A n := ⟨Verif.toComplex s.sol, Verif.toComplex s.r, Verif.toComplex s.old, s.told, s.obj, s.nan⟩

lemma tvC_body_real (x : Vec (Pixel n)) (σ γ rtol mt : ℝ) (i : ℕ) (s : TVState A n) :
    TV.bodyC (toComplex x) σ γ rtol mt i s.toComplex = (TV.body x σ γ rtol mt i s).map fun p => (p.1.toComplex, p.2) := by
  obtain ⟨sol, r, old, told, obj, nan⟩ := s
  simp only [TV.bodyC, TV.body, Bind.bind, Except.bind, TVState.toComplex, tvDivC_real]
  cases tvDiv r with
  | error e => rfl
  | ok d =>
    simp only [Except.map]
    cases nan
    · simp only [Bool.false_eq_true, if_false]
      rw [← toComplex_smul, ← toComplex_sub, tvCallC_real]
      cases tvCall σ (x - γ • d) with
      | error e => rfl
      | ok v =>
        simp only [← toComplex_sub, toComplex_norm]
        split_ifs
        · rfl
        · rfl
        · simp only [tvGradC_real, ← toComplex_sub, ← toComplex_smul, tvClipC_real, ← toComplex_add]
          rfl
    · rfl

/-- C121: a real image passed with complex type gives the same value and the same proximal point as the real image, whatever the parameters, and the same errors. -/
theorem C121_real (σ rtol : ℝ) (w : A → Option ℝ) (niter : ℤ) (x : Vec (Pixel n)) (τ : ℝ) :
    (TVCx σ rtol w niter).prox (toComplex x) τ = ((TV σ rtol w niter).prox x τ).map toComplex ∧
      (TVCx σ rtol w niter).call (toComplex x) = (TV σ rtol w niter).call x := by
  refine ⟨?_, by simp only [TVCx, TV, tvCallC_real]⟩
  simp only [TVCx, TV, ProxOp.prox, checkTau, tvProxC, tvProx]
  split_ifs
  · rfl
  · rfl
  · have h := (forRange_map (b1 := TV.body x σ (σ * τ) rtol (tvMt w)) (b2 := TV.bodyC (toComplex x) σ (σ * τ) rtol (tvMt w)) (J := fun _ => True)
      (π := TVState.toComplex) (fun i s _ => by
        rw [tvC_body_real]
        cases TV.body x σ (σ * τ) rtol (tvMt w) i s with
        | error e => exact .inl ⟨e, rfl, rfl⟩
        | ok p => exact .inr ⟨p.1, p.2, rfl, rfl, trivial⟩) (niter + 1).toNat 0 ⟨x, 0, 0, 1, 0, false⟩ trivial).1
    have e0 : (TVState.toComplex ⟨x, 0, 0, 1, 0, false⟩ : TVStateC A n) = ⟨toComplex x, 0, 0, 1, 0, false⟩ := by
      simp only [TVState.toComplex, toComplex_zero]
    rw [e0] at h
    rw [← h]
    cases forRange (TV.body x σ (σ * τ) rtol (tvMt w)) (niter + 1).toNat 0 ⟨x, 0, 0, 1, 0, false⟩ <;> rfl

/-! ## Where the documented behaviour fails -/

/-- C121: with five or more axes `prox` raises for every complex image, although the operator can be evaluated. -/
theorem C121_five_axes_refuted (hA : 5 ≤ Fintype.card A) (σ rtol : ℝ) (w : A → Option ℝ) (niter : ℤ) (x : CVec (Pixel n)) {τ : ℝ} (hτ : 0 < τ) :
    (TVCx σ rtol w niter).prox x τ = .error .unboundLocalError ∧ (TVCx σ rtol w niter).call x = .ok (.num (σ * complexTotalVariation x)) := by
  refine ⟨?_, C121_value σ rtol w niter x (by omega)⟩
  have : Fintype.card A = 0 ∨ 4 < Fintype.card A := by omega
  simp only [TVCx, ProxOp.prox, checkTau, tvProxC, if_neg (not_le.2 hτ), this, if_true]

/-- C121: with an axis of length one `prox` raises for every complex image. -/
theorem C121_short_axis_refuted {a : A} (ha : n a = 1) (hA4 : Fintype.card A ≤ 4) (σ rtol : ℝ) (w : A → Option ℝ) {niter : ℤ} (hniter : 0 ≤ niter)
    (x : CVec (Pixel n)) {τ : ℝ} (hτ : 0 < τ) :
    (TVCx σ rtol w niter).prox x τ = .error .indexError ∧ (TVCx σ rtol w niter).call x = .ok (.num (σ * complexTotalVariation x)) := by
  have hA : 0 < Fintype.card A := Fintype.card_pos_iff.2 ⟨a⟩
  refine ⟨?_, C121_value σ rtol w niter x hA⟩
  rw [tvC_prox_eq σ rtol w niter x hτ hA hA4]
  obtain ⟨m, hm⟩ : ∃ m, (niter + 1).toNat = m + 1 := ⟨niter.toNat, by omega⟩
  have : ¬ ∀ a, 2 ≤ n a := fun h => by have := h a; omega
  simp only [hm, forRange, TV.bodyC, tvDivC, if_neg this, Bind.bind, Except.bind, Except.map]

/-! ## Concrete cases -/

/-- A 2 x 3 complex image, with the default weights. -/
example (x : CVec (Pixel ![2, 3])) : ∃ u, IsUniqueProx (XFun.ofReal fun y => 1 * complexTotalVariation y) 1 x u ∧ ∀ niter : ℕ, 1 ≤ niter →
    ∃ z, (TVCx 1 0 (fun _ => none) niter).prox x 1 = .ok z ∧ ‖z - u‖ ≤ 12 * 1 * 1 * 1 * √(Fintype.card (Fin 2) * Fintype.card (Pixel ![2, 3])) / niter :=
  C121_prox_rate_partial (fun a => by fin_cases a <;> simp) (by simp) (by simp) one_pos one_pos ⟨0, le_rfl⟩ (fun _ => le_rfl) x

/-- Multiplication by `i` at every pixel is one of the rotations of `C121_phase`. -/
example (x : CVec (Pixel ![2, 3])) (τ : ℝ) : (TVCx 1 0 (fun _ => none) 5).prox (Complex.I • x) τ = ((TVCx 1 0 (fun _ => none) 5).prox x τ).map fun z => Complex.I • z := by
  let u : ℂ →ₗᵢ[ℝ] ℂ := ⟨(LinearMap.mulLeft ℝ Complex.I), fun z => by simp⟩
  have e : ∀ y : CVec (Pixel ![2, 3]), mapEntries u y = Complex.I • y := fun y => by
    ext i; simp [mapEntries, u]
  have h := (C121_phase u 1 0 (fun _ => none) 5 x τ).1
  rw [e] at h
  rw [h, show mapEntries u = fun y : CVec (Pixel ![2, 3]) => Complex.I • y from funext e]

/-- The two parts of a complex image are coupled: its total variation is not the sum of those of the parts. -/
example : complexTotalVariation (cmk fun p : Pixel fun _ : Unit => 2 => if p () = 0 then 0 else 3 + 4 * Complex.I) = 5 := by
  have hs : ∀ f : (Pixel fun _ : Unit => 2) → ℝ, ∑ p, f p = f (fun _ => 0) + f (fun _ => 1) := fun f => by
    rw [Fintype.sum_equiv (Equiv.funUnique Unit (Fin 2)) f (fun k => f fun _ => k) fun p => by congr 1, Fin.sum_univ_two]
  rw [tvC_eq, hs]
  have h5 : ‖(3 + 4 * Complex.I : ℂ)‖ = 5 := by
    rw [Complex.norm_def, Complex.normSq_apply]
    simp
    rw [show (3 * 3 + 4 * 4 : ℝ) = 5 ^ 2 by norm_num, Real.sqrt_sq (by norm_num)]
  simp [tvGradC, fwdDiffC, h5]

end Verif
