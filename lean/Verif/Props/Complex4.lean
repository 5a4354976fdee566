import Verif.Props.Complex3
import Verif.Model.NonConvex

/-!
# C93: complex arrays (sparse groups, quadratic functions, nuclear norm, line search)
-/

open scoped RealInnerProductSpace
open Filter Topology

namespace Verif

variable {ι κ : Type} [Fintype ι] [Fintype κ]

/-! ## L21_plus_L1 -/

lemma cSoft_cert {t : ℝ} (ht : 0 ≤ t) (z : ℂ) :
    ‖z - cSoft z t‖ ≤ t ∧ ⟪z - cSoft z t, cSoft z t⟫ = t * ‖cSoft z t‖ := by
  rcases ht.eq_or_lt with rfl | h
  · rw [cSoft_zero, sub_self]; simp
  · rw [cSoft_eq h]; exact shrink_cert h z

lemma cSignNan_mul (z : ℂ) {t : ℝ} (ht : 0 ≤ t) : cSignNan z * ((max (‖z‖ - t) 0 : ℝ) : ℂ) = cSoft z t := by
  unfold cSignNan
  split_ifs with h
  · rw [zero_mul]
    unfold cSoft
    rw [max_eq_right (by rw [h]; linarith)]; simp
  · unfold cSoft
    rw [mul_comm]
    congr 1
    have h' : (‖z‖ : ℂ) ≠ 0 := by exact_mod_cast h
    rw [div_eq_iff h', mul_comm, cphase_mul]

/-- C93 for `0 <= rho < 1` (as C14): on complex arrays `L21_plus_L1.prox` is the proximal map of the documented function.  Missing: `rho = 1` (C14) and the value, see
`C93_l21_plus_l1_call_iff`. -/
theorem C93_l21_plus_l1_prox_partial (σ ρ : ℝ) (hσ : 0 < σ) (hρ : 0 ≤ ρ) (hρ1 : ρ < 1) (x : CVec (ι × κ))
    (τ : ℝ) (hτ : 0 < τ) :
    ∃ p, (L21plusL1Cx σ ρ).prox x τ = .ok p ∧
      IsUniqueProx (XFun.ofReal fun y : CVec (ι × κ) =>
        ρ * σ * ∑ ij, ‖y ij‖ + (1 - ρ) * σ * ∑ j, √(∑ i, ‖y (i, j)‖ ^ 2)) τ x p := by
  have hb : 0 < σ * τ * (1 - ρ) := by have := sub_pos.2 hρ1; positivity
  have ha : 0 ≤ σ * τ * ρ := by positivity
  have hfac : ∀ r : ℝ, 0 ≤ r → shrinkFactor (σ * τ * (1 - ρ)) r
      = .ok (1 - (σ * τ * (1 - ρ)) / max r (σ * τ * (1 - ρ))) := by
    intro r hr
    unfold shrinkFactor
    rcases hr.eq_or_lt with h0 | h0
    · subst h0
      rw [if_pos rfl, if_neg hb.ne', if_pos hb, max_eq_right hb.le, div_self hb.ne', sub_self]
    · rw [if_neg h0.ne']
      rcases le_total r (σ * τ * (1 - ρ)) with h | h
      · rw [max_eq_right h, div_self hb.ne', sub_self, max_eq_right]
        rw [sub_nonpos, le_div_iff₀ h0]; linarith
      · rw [max_eq_left h, max_eq_left]
        rw [sub_nonneg, div_le_one h0]; exact h
  have hcn : ∀ j, 0 ≤ colNorm (cl1Shrink σ ρ τ x) j := fun _ => Real.sqrt_nonneg _
  have hm : ¬ ∃ ij : ι × κ, shrinkFactor (σ * τ * (1 - ρ)) (colNorm (cl1Shrink σ ρ τ x) ij.2) = .error .nanResult := by
    rintro ⟨ij, h⟩
    rw [hfac _ (hcn _)] at h
    cases h
  refine ⟨_, by simp only [ProxOp.prox, L21plusL1Cx, checkTau_pos hτ, if_neg hm]; rfl, ?_⟩
  refine ccols_isUniqueProx_real (fun _ y => ρ * σ * ∑ i, ‖y i‖ + (1 - ρ) * σ * ‖y‖) _
      (fun y => ?_) (fun j => ?_)
  · simp only [Finset.sum_add_distrib, ← Finset.mul_sum]
    rw [Fintype.sum_prod_type_right]
    congr 2
    refine Finset.sum_congr rfl fun j _ => ?_
    rw [← cColNorm_eq]; rfl
  · set X := cColMap j x with hX
    set z : CVec ι := cmk fun i => cSoft (X i) (σ * τ * ρ) with hz
    have hsoft : ∀ i, cSignNan (x (i, j)) * ((max (‖x (i, j)‖ - σ * τ * ρ) 0 : ℝ) : ℂ) = z i :=
      fun i => cSignNan_mul _ ha
    have hnorm : colNorm (cl1Shrink σ ρ τ x) j = ‖z‖ := by
      unfold colNorm
      rw [EuclideanSpace.norm_eq]
      congr 1
      refine Finset.sum_congr rfl fun i _ => ?_
      show (max (‖x (i, j)‖ - σ * τ * ρ) 0) ^ 2 = ‖cSoft (x (i, j)) (σ * τ * ρ)‖ ^ 2
      rw [norm_cSoft]
    set c := 1 - (σ * τ * (1 - ρ)) / max ‖z‖ (σ * τ * (1 - ρ)) with hc
    have hpj : cColMap j (cmk fun ij : ι × κ => cSignNan (x ij) * (cl1Shrink σ ρ τ x ij : ℂ) *
        (Py.get (shrinkFactor (σ * τ * (1 - ρ)) (colNorm (cl1Shrink σ ρ τ x) ij.2)) : ℂ)) = c • z := by
      ext i
      show cSignNan (x (i, j)) * (cl1Shrink σ ρ τ x (i, j) : ℂ) *
        (Py.get (shrinkFactor (σ * τ * (1 - ρ)) (colNorm (cl1Shrink σ ρ τ x) j)) : ℂ) = c • z i
      rw [hfac _ (hcn j), hnorm, Complex.real_smul, mul_comm]
      have := hsoft i
      simp only [Py.get]
      congr 1
    rw [hpj]
    have hmax : 0 < max ‖z‖ (σ * τ * (1 - ρ)) := lt_max_of_lt_right hb
    have hc0 : 0 ≤ c := by
      rw [hc, sub_nonneg, div_le_one hmax]; exact le_max_right _ _
    obtain ⟨hw1, hw2⟩ := shrink_cert hb z
    rw [← hc] at hw1 hw2
    apply isUniqueProx_of_subgrad hτ
    refine ⟨trivial, fun y _ => ?_⟩
    simp only [XFun.ofReal]
    have hsplit : X - c • z = (X - z) + (z - c • z) := by abel
    rw [real_inner_smul_left, hsplit, inner_add_left]
    have hl1 : ⟪X - z, y - c • z⟫ ≤ σ * τ * ρ * (∑ i, ‖y i‖ - ∑ i, ‖(c • z) i‖) := by
      rw [PiLp.inner_apply, ← Finset.sum_sub_distrib, Finset.mul_sum]
      refine Finset.sum_le_sum fun i _ => ?_
      obtain ⟨s1, s2⟩ := cSoft_cert ha (X i)
      have e1 : (X - z) i = X i - cSoft (X i) (σ * τ * ρ) := rfl
      have e2 : (y - c • z) i = y i - c • cSoft (X i) (σ * τ * ρ) := rfl
      have e3 : (c • z) i = c • cSoft (X i) (σ * τ * ρ) := rfl
      rw [e1, e2, e3, inner_sub_right, real_inner_smul_right, s2, norm_smul, Real.norm_eq_abs, abs_of_nonneg hc0]
      have h1 := (real_inner_le_norm (X i - cSoft (X i) (σ * τ * ρ)) (y i)).trans
        (mul_le_mul_of_nonneg_right s1 (norm_nonneg (y i)))
      linarith
    have hl2 : ⟪z - c • z, y - c • z⟫ ≤ σ * τ * (1 - ρ) * (‖y‖ - ‖c • z‖) := by
      rw [inner_sub_right, hw2]
      have h1 := real_inner_le_norm (z - c • z) y
      have h2 : ‖z - c • z‖ * ‖y‖ ≤ σ * τ * (1 - ρ) * ‖y‖ := mul_le_mul_of_nonneg_right hw1 (norm_nonneg y)
      rw [mul_sub]; linarith
    have h3 : 1 / τ * (⟪X - z, y - c • z⟫ + ⟪z - c • z, y - c • z⟫)
        ≤ 1 / τ * (σ * τ * ρ * (∑ i, ‖y i‖ - ∑ i, ‖(c • z) i‖) + σ * τ * (1 - ρ) * (‖y‖ - ‖c • z‖)) :=
      mul_le_mul_of_nonneg_left (by linarith) (by positivity)
    have h4 : 1 / τ * (σ * τ * ρ * (∑ i, ‖y i‖ - ∑ i, ‖(c • z) i‖) + σ * τ * (1 - ρ) * (‖y‖ - ‖c • z‖))
        = ρ * σ * ∑ i, ‖y i‖ + (1 - ρ) * σ * ‖y‖ - (ρ * σ * ∑ i, ‖(c • z) i‖ + (1 - ρ) * σ * ‖c • z‖) := by
      field_simp
      ring
    rw [h4] at h3
    linarith

/-- C93, exact extent of the defect: for `rho < 1` the value of `L21_plus_L1` is the documented one exactly for real arrays. -/
theorem C93_l21_plus_l1_call_iff (σ ρ : ℝ) (hσ : 0 < σ) (hρ1 : ρ < 1) (x : CVec (ι × κ)) :
    (L21plusL1Cx σ ρ).call x = .ok (.num (ρ * σ * ∑ ij, ‖x ij‖ + (1 - ρ) * σ * ∑ j, √(∑ i, ‖x (i, j)‖ ^ 2))) ↔
      ∀ i j, (x (i, j)).im = 0 := by
  have e : (L21plusL1Cx σ ρ).call x = .ok (.num (ρ * σ * ∑ ij, ‖x ij‖ + (1 - ρ) * σ * ∑ j, (cColAux x j).re)) := by
    simp only [L21plusL1Cx]
    congr 2
    rw [Complex.add_re, Complex.ofReal_re]
    congr 1
    have : (1 - (ρ : ℂ)) * σ = (((1 - ρ) * σ : ℝ) : ℂ) := by push_cast; rfl
    rw [this, Complex.re_ofReal_mul, Complex.re_sum]
  rw [e]
  have hle : ∀ j ∈ Finset.univ, (cColAux x j).re ≤ cColNorm x j :=
    fun j _ => (Complex.re_le_norm _).trans (norm_cColAux_le x j)
  have hpos : (1 - ρ) * σ ≠ 0 := (mul_pos (sub_pos.2 hρ1) hσ).ne'
  constructor
  · intro h i j
    have h1 : ρ * σ * ∑ ij, ‖x ij‖ + (1 - ρ) * σ * ∑ j, (cColAux x j).re
        = ρ * σ * ∑ ij, ‖x ij‖ + (1 - ρ) * σ * ∑ j, cColNorm x j := CallVal.num.inj (Except.ok.inj h)
    have h2 := mul_left_cancel₀ hpos (add_left_cancel h1)
    exact (cColAux_re_eq_iff x j).1 ((Finset.sum_eq_sum_iff_of_le hle).1 h2 j (Finset.mem_univ j)) i
  · intro h
    congr 4
    exact Finset.sum_congr rfl fun j _ => (cColAux_re_eq_iff x j).2 fun i => h i j

/-! ## L2 -/

/-- Entrywise conjugate. -/
noncomputable def cconj (q : CVec ι) : CVec ι := cmk fun i => (starRingEnd ℂ) (q i)

lemma npDot_re (q x : CVec ι) : (npDot q x).re = ⟪cconj q, x⟫ := by
  unfold npDot
  rw [PiLp.inner_apply, Complex.re_sum]
  refine Finset.sum_congr rfl fun i _ => ?_
  rw [Complex.inner]
  show _ = (x i * (starRingEnd ℂ) ((starRingEnd ℂ) (q i))).re
  rw [Complex.conj_conj, mul_comm]

lemma l2_linear_isUniqueProx {E : Type*} [NormedAddCommGroup E] [InnerProductSpace ℝ E] {σ τ : ℝ} (hσ : 0 ≤ σ) (hτ : 0 < τ) (b w x : E) :
    IsUniqueProx (XFun.ofReal fun y : E => σ / 2 * ‖y - b‖ ^ 2 + ⟪w, y⟫) τ x
      ((1 / (1 + τ * σ)) • (x + (τ * σ) • b - τ • w)) := by
  have h1 : 0 < 1 + τ * σ := by positivity
  set p := (1 / (1 + τ * σ)) • (x + (τ * σ) • b - τ • w) with hp
  have hpe : (1 + τ * σ) • p = x + (τ * σ) • b - τ • w := by
    rw [hp, smul_smul, mul_one_div_cancel h1.ne', one_smul]
  have hs : (1 / τ) • (x - p) = σ • (p - b) + w := by
    have : x - p = τ • (σ • (p - b) + w) := by
      have e : x = (1 + τ * σ) • p - (τ * σ) • b + τ • w := by rw [hpe]; abel
      rw [e]; module
    rw [this, smul_smul, one_div_mul_cancel hτ.ne', one_smul]
  apply isUniqueProx_of_subgrad hτ
  rw [hs]
  refine ⟨trivial, fun y _ => ?_⟩
  simp only [XFun.ofReal]
  have e : y - b = (p - b) + (y - p) := by abel
  have h2 : ‖y - b‖ ^ 2 = ‖p - b‖ ^ 2 + 2 * ⟪p - b, y - p⟫ + ‖y - p‖ ^ 2 := by rw [e, norm_add_sq_real]
  have h3 : ⟪w, y⟫ = ⟪w, p⟫ + ⟪w, y - p⟫ := by rw [← inner_add_right]; congr 1; abel
  rw [inner_add_left, real_inner_smul_left, h2, h3]
  have : 0 ≤ σ / 2 * ‖y - p‖ ^ 2 := by positivity
  nlinarith

/-- C93: `L2(b=b, q=q, sigma, alpha).prox` of a complex array is the proximal map of `sigma/2 ||y - b||^2 + alpha Re<q, y>`. -/
theorem C93_l2_prox (σ α : ℝ) (hσ : 0 ≤ σ) (b q : Option (CVec ι)) (qgrad : Bool) (x : CVec ι) (τ : ℝ) (hτ : 0 < τ) :
    ∃ p, (L2Cx σ α b q qgrad).prox x τ = .ok p ∧
      IsUniqueProx (XFun.ofReal fun y : CVec ι => σ / 2 * ‖y - b.getD 0‖ ^ 2 + α * ⟪q.getD 0, y⟫) τ x p := by
  have key := l2_linear_isUniqueProx hσ hτ (b.getD 0) (α • q.getD 0) x
  simp only [real_inner_smul_left] at key
  refine ⟨_, ?_, key⟩
  have hne : 1 + τ * σ ≠ 0 := by positivity
  cases b <;> cases q <;> simp [ProxOp.prox, L2Cx, checkTau_pos hτ, mul_smul, hne]

/-- C93: the gradient (with `qgrad=True`) is the gradient of the same function. -/
theorem C93_l2_grad (σ α : ℝ) (b q : Option (CVec ι)) (x : CVec ι) :
    ∃ g, (L2Cx σ α b q true).grad x = .ok g ∧
      IsGrad (fun y : CVec ι => σ / 2 * ‖y - b.getD 0‖ ^ 2 + α * ⟪q.getD 0, y⟫) x g := by
  refine ⟨σ • (x - b.getD 0) + α • q.getD 0, ?_, ?_⟩
  · cases b <;> cases q <;> simp [ProxOp.grad, L2Cx]
  · apply isGrad_of_quad (C := |σ| / 2)
    intro y
    have e : y - b.getD 0 = (x - b.getD 0) + (y - x) := by abel
    have h2 : ‖y - b.getD 0‖ ^ 2 = ‖x - b.getD 0‖ ^ 2 + 2 * ⟪x - b.getD 0, y - x⟫ + ‖y - x‖ ^ 2 := by
      rw [e, norm_add_sq_real]
    have h3 : ⟪q.getD 0, y⟫ = ⟪q.getD 0, x⟫ + ⟪q.getD 0, y - x⟫ := by rw [← inner_add_right]; congr 1; abel
    rw [inner_add_left, real_inner_smul_left, real_inner_smul_left, h2, h3]
    have e2 : σ / 2 * (‖x - b.getD 0‖ ^ 2 + 2 * ⟪x - b.getD 0, y - x⟫ + ‖y - x‖ ^ 2) + α * (⟪q.getD 0, x⟫ + ⟪q.getD 0, y - x⟫) -
        (σ / 2 * ‖x - b.getD 0‖ ^ 2 + α * ⟪q.getD 0, x⟫) - (σ * ⟪x - b.getD 0, y - x⟫ + α * ⟪q.getD 0, y - x⟫)
        = σ / 2 * ‖y - x‖ ^ 2 := by ring
    rw [e2, abs_mul, abs_div, abs_two, abs_of_nonneg (by positivity : 0 ≤ ‖y - x‖ ^ 2)]

/-- C93, exact extent of the defect: `L2(x)` contains `alpha * np.dot(q, x)`, without conjugation; the operator is the proximal operator of the function it evaluates to exactly when
`alpha * q` is real. -/
theorem C93_l2_consistent_iff (σ α : ℝ) (hσ : 0 ≤ σ) (b : Option (CVec ι)) (q : CVec ι) (qgrad : Bool) (x : CVec ι) (τ : ℝ) (hτ : 0 < τ) :
    ∃ (p : CVec ι) (F : CVec ι → ℝ), (L2Cx σ α b (some q) qgrad).prox x τ = .ok p ∧ EvaluatesNum (L2Cx σ α b (some q) qgrad) F ∧
      (IsProx (XFun.ofReal F) τ x p ↔ ∀ i, α * (q i).im = 0) := by
  obtain ⟨p, hp, hu⟩ := C93_l2_prox σ α hσ b (some q) qgrad x τ hτ
  refine ⟨p, fun y => σ / 2 * ‖y - b.getD 0‖ ^ 2 + ⟪α • cconj q, y⟫, hp, fun y => ?_, ?_⟩
  · have h := npDot_re q y
    beta_reduce
    rw [real_inner_smul_left, ← h]
    cases b
    · show Except.ok (CallVal.num (((σ / 2 * ‖y‖ ^ 2 : ℝ) : ℂ) + (α : ℂ) * npDot q y).re) = _
      rw [Complex.add_re, Complex.ofReal_re, Complex.re_ofReal_mul, Option.getD_none, sub_zero]
    · show Except.ok (CallVal.num (((σ / 2 * ‖y - _‖ ^ 2 : ℝ) : ℂ) + (α : ℂ) * npDot q y).re) = _
      rw [Complex.add_re, Complex.ofReal_re, Complex.re_ofReal_mul, Option.getD_some]
  · have key := l2_linear_isUniqueProx hσ hτ (b.getD 0) (α • cconj q) x
    have key2 := l2_linear_isUniqueProx hσ hτ (b.getD 0) (α • q) x
    simp only [real_inner_smul_left] at key2
    have hpe := key2.2 _ hu.1
    have h1 : 0 < 1 + τ * σ := by positivity
    have hconj : α • cconj q = α • q ↔ ∀ i, α * (q i).im = 0 := by
      constructor
      · intro h i
        have := congrArg (fun v : CVec ι => (v i).im) h
        have e1 : ((α • cconj q : CVec ι) i).im = -(α * (q i).im) := by
          show (α • (starRingEnd ℂ) (q i)).im = _
          rw [Complex.smul_im, Complex.conj_im, smul_eq_mul]; ring
        have e2 : ((α • q : CVec ι) i).im = α * (q i).im := by
          show (α • (q i)).im = _
          rw [Complex.smul_im, smul_eq_mul]
        simp only [e1, e2] at this
        linarith
      · intro h
        ext i
        show α • (starRingEnd ℂ) (q i) = α • q i
        apply Complex.ext
        · rw [Complex.smul_re, Complex.smul_re, Complex.conj_re]
        · rw [Complex.smul_im, Complex.smul_im, Complex.conj_im, smul_eq_mul, smul_eq_mul, mul_neg, h i, neg_zero]
    rw [← hconj]
    constructor
    · intro h
      have h2 := key.2 _ h
      rw [hpe] at h2
      have h3 := congrArg (fun v : CVec ι => (1 + τ * σ) • v) h2
      simp only [smul_smul, mul_one_div_cancel h1.ne', one_smul] at h3
      have h4 : (τ * α) • q = (τ * α) • cconj q := sub_right_injective h3
      rw [mul_smul, mul_smul] at h4
      exact (smul_right_injective _ hτ.ne' h4).symm
    · intro h
      rw [h]
      rw [h, ← hpe] at key
      exact key.1

/-- C93, refutation for `Quadratic`: with the identity as `Op` the value is unbounded below on complex arrays, though it documents `x^H A x / 2` with `A` positive definite. -/
theorem C93_quadratic_call_refuted [Nonempty ι] (C : ℝ) :
    ∃ (x : CVec ι) (v : ℝ), quadraticCallc id 0 0 x = .ok (.num v) ∧ v < C := by
  obtain ⟨i⟩ := ‹Nonempty ι›
  classical
  set t : ℝ := |C| + 1 with ht
  refine ⟨EuclideanSpace.single i ((t : ℂ) * (2 * Complex.I)), -(2 * t ^ 2), ?_, ?_⟩
  · unfold quadraticCallc npDot
    congr 2
    have e : ∑ j, (EuclideanSpace.single i ((t : ℂ) * (2 * Complex.I)) : CVec ι) j * (id (EuclideanSpace.single i ((t : ℂ) * (2 * Complex.I))) : CVec ι) j
        = ((-(4 * t ^ 2) : ℝ) : ℂ) := by
      rw [Finset.sum_eq_single i]
      · simp only [id, PiLp.single_apply, if_true]
        have : (t : ℂ) * (2 * Complex.I) * (t * (2 * Complex.I)) = 4 * t ^ 2 * (Complex.I ^ 2) := by ring
        rw [this, Complex.I_sq]; push_cast; ring
      · intro j _ hj
        simp [hj]
      · simp
    rw [e]
    have e2 : (((-(4 * t ^ 2) : ℝ) : ℂ) / 2 + ∑ j, (0 : CVec ι) j * (EuclideanSpace.single i ((t : ℂ) * (2 * Complex.I)) : CVec ι) j + ((0 : ℝ) : ℂ))
        = ((-(2 * t ^ 2) : ℝ) : ℂ) := by
      simp; ring
    rw [e2, Complex.ofReal_re]
  · have h1 := neg_abs_le C
    have h2 := abs_nonneg C
    nlinarith

/-! ## Nuclear norm -/

/-- C93, refutation for `Nuclear.__call__`: the `2 x 1` matrix `(t, i t)` has value 0 for every `t`, whatever the eigenvalue routine does with matrices other than zero; its nuclear norm is
`sqrt 2 * |t|`. -/
theorem C93_nuclear_call_refuted (eigvalsh : Matrix (Fin 1) (Fin 1) ℂ → Fin 1 → ℝ) (h0 : ∀ k, eigvalsh 0 k = 0) (σ : ℝ) (t : ℝ) :
    nuclearCallc eigvalsh σ (Matrix.of fun (i : Fin 2) (_ : Fin 1) => if i = 0 then (t : ℂ) else t * Complex.I) = .ok (.num 0) := by
  generalize hX : (Matrix.of fun (i : Fin 2) (_ : Fin 1) => if i = 0 then (t : ℂ) else t * Complex.I) = X
  have : X.transpose * X = 0 := by
    subst hX
    ext a b
    rw [Matrix.mul_apply, Fin.sum_univ_two]
    simp only [Matrix.transpose_apply, Matrix.zero_apply, Matrix.of_apply]
    rw [if_pos trivial, if_neg (by decide)]
    have : (t : ℂ) * t + t * Complex.I * (t * Complex.I) = t ^ 2 * (1 + Complex.I ^ 2) := by ring
    rw [this, Complex.I_sq]; simp
  simp only [nuclearCallc, this, h0, max_self, Real.sqrt_zero, mul_zero, Finset.sum_const_zero]

/-! ## Log1 -/

/-- C93, refutation for `Log1.prox`: for `0 < delta < 2 sqrt(2 sigma tau)` the number `-sqrt(2 sigma tau)` gives NaN in a complex array, and a finite non-zero value in a real array. -/
theorem C93_log1_refuted (σ δ τ : ℝ) (hσ : 0 < σ) (hτ : 0 < τ) (hδ : 0 < δ) (hδ2 : δ < 2 * √(2 * (σ * τ))) :
    log1Proxc σ δ τ ((-√(2 * (σ * τ)) : ℝ) : ℂ) = .error .nanResult ∧ log1Prox σ δ τ (-√(2 * (σ * τ))) < 0 := by
  have hst : 0 < σ * τ := by positivity
  set a := √(2 * (σ * τ)) with ha
  have ha0 : 0 < a := Real.sqrt_pos.2 (by positivity)
  have ha2 : a ^ 2 = 2 * (σ * τ) := Real.sq_sqrt (by positivity)
  constructor
  · unfold log1Proxc
    simp only
    rw [if_pos (by rw [Complex.norm_real, Real.norm_eq_abs, abs_neg, abs_of_pos ha0]; linarith), if_pos]
    rw [← Complex.ofReal_add, Complex.norm_real, Real.norm_eq_abs, sq_abs, ← ha2]
    nlinarith
  · unfold log1Prox
    simp only
    rw [if_pos (by rw [← ha]; linarith)]
    have h1 : 0 < √(|(-a) - δ| ^ 2 - 2 * (σ * τ)) := by
      apply Real.sqrt_pos.2
      rw [sq_abs, ← ha2]
      nlinarith
    have h2 : δ < √(|(-a) - δ| ^ 2 - 2 * (σ * τ)) := by
      apply Real.lt_sqrt_of_sq_lt
      rw [sq_abs, ← ha2]
      nlinarith
    nlinarith

/-- C93, partial: on non-negative numbers the complex path of `Log1.prox` agrees with the real one. -/
theorem C93_log1_partial (σ δ τ : ℝ) (hσ : 0 < σ) (hτ : 0 < τ) (hδ : 0 ≤ δ) (r : ℝ) (hr : 0 ≤ r) (hth : δ ≤ √(2 * (σ * τ))) :
    log1Proxc σ δ τ (r : ℂ) = .ok ((log1Prox σ δ τ r : ℝ) : ℂ) := by
  have hst : 0 < σ * τ := by positivity
  set a := √(2 * (σ * τ)) with ha
  have ha0 : 0 < a := Real.sqrt_pos.2 (by positivity)
  have ha2 : a ^ 2 = 2 * (σ * τ) := Real.sq_sqrt (by positivity)
  unfold log1Proxc log1Prox
  simp only
  rw [← ha, Complex.norm_real, Real.norm_eq_abs, abs_of_nonneg hr, if_neg (by linarith : ¬ r < -(a - δ)), ← Complex.ofReal_add,
    Complex.norm_real, Real.norm_eq_abs]
  split_ifs with h1 h2
  · exfalso
    rw [sq_abs, ← ha2] at h2
    nlinarith
  · congr 1
    have : cphase (r : ℂ) = 1 := by
      unfold cphase
      rw [Complex.arg_ofReal_of_nonneg hr]; simp
    rw [this]
    push_cast
    ring
  · simp

/-! ## Line search -/

/-- C93, refutation for `ProximalGradient` with `backtracking=True` on complex arrays: with `f = sigma/2 ||x||^2`, `g = 0` and a purely imaginary starting point the line search, whose
`np.dot` does not conjugate, accepts every step up to `5/sigma` unchanged, and the iterates are `(1 - tau sigma)^n x0`. -/
theorem C93_backtracking_iterates (σ : ℝ) (hσ : 0 < σ) (τ : ℝ) (hτ : 0 < τ) (hτσ : τ * σ ≤ 5) (epsg β : ℝ) (he : 0 < epsg)
    (niterback : ℕ) (hn : 1 ≤ niterback) (n : ℕ) (x : CVec ι) (hx : ∀ i, (x i).re = 0) :
    pgBacktrackC (L2Cx σ 1 none none false) (L1Cx 0 none) epsg β niterback n x τ = .ok ((1 - τ * σ) ^ n • x, τ) := by
  induction n generalizing x with
  | zero => simp [pgBacktrackC]
  | succ n ih =>
    obtain ⟨m, rfl⟩ : ∃ m, niterback = m + 1 := ⟨niterback - 1, by omega⟩
    have hstep : backtrackC (L2Cx σ 1 none none false) (L1Cx 0 none) x epsg β (m + 1) τ none = .ok ((1 - τ * σ) • x, τ) := by
      have hz : x - τ • σ • x = (1 - τ * σ) • x := by module
      have hg : (L1Cx 0 none).prox ((1 - τ * σ) • x) (epsg * τ) = .ok ((1 - τ * σ) • x) := by
        simp only [ProxOp.prox, L1Cx, checkTau_pos (mul_pos he hτ)]
        congr 1
        ext i
        show cSoft _ _ = _
        rw [mul_zero, cSoft_zero]
      have hf : (L2Cx (ι := ι) σ 1 none none false).grad x = .ok (σ • x) := rfl
      have hzx : (1 - τ * σ) • x - x = (-(τ * σ)) • x := by module
      have hdot : (npDot (σ • x) ((-(τ * σ)) • x)).re = τ * σ ^ 2 * ‖x‖ ^ 2 := by
        rw [npDot_re]
        have : cconj (σ • x) = -(σ • x) := by
          ext i
          show (starRingEnd ℂ) (σ • x i) = -(σ • x i)
          apply Complex.ext
          · rw [Complex.conj_re, Complex.neg_re, Complex.smul_re, hx i]; simp
          · rw [Complex.conj_im, Complex.neg_im]
        rw [this, inner_neg_left, real_inner_smul_left, real_inner_smul_right, real_inner_self_eq_norm_sq]
        ring
      have hcond : σ / 2 * ‖(1 - τ * σ) • x‖ ^ 2 ≤ (((σ / 2 * ‖x‖ ^ 2 : ℝ) : ℂ) + npDot (σ • x) ((1 - τ * σ) • x - x)
          + ((1 / (2 * τ) * ‖(1 - τ * σ) • x - x‖ ^ 2 : ℝ) : ℂ)).re := by
        rw [Complex.add_re, Complex.add_re, Complex.ofReal_re, Complex.ofReal_re, hzx, hdot, norm_smul, norm_smul, mul_pow, mul_pow,
          Real.norm_eq_abs, Real.norm_eq_abs, sq_abs, sq_abs]
        have e : 1 / (2 * τ) * ((-(τ * σ)) ^ 2 * ‖x‖ ^ 2) = τ * σ ^ 2 / 2 * ‖x‖ ^ 2 := by field_simp
        rw [e]
        have h5 : 0 ≤ (5 - τ * σ) * (τ * σ ^ 2 * ‖x‖ ^ 2) := mul_nonneg (by linarith) (by positivity)
        nlinarith
      unfold backtrackC
      simp only [hf, Bind.bind, Except.bind, hz, hg]
      exact if_pos hcond
    unfold pgBacktrackC
    simp only [hstep, Bind.bind, Except.bind]
    rw [ih]
    · rw [smul_smul, ← pow_succ]
    · intro i
      show ((1 - τ * σ) • x i).re = 0
      rw [Complex.smul_re, hx i, smul_zero]

/-- C93: hence for a step in `(2/sigma, 5/sigma]` the accepted iterates diverge, although the line search is documented to find a step that works. -/
theorem C93_backtracking_refuted (σ : ℝ) (hσ : 0 < σ) (τ : ℝ) (hτ : 2 < τ * σ) (hτσ : τ * σ ≤ 5) (hτ0 : 0 < τ) (epsg β : ℝ) (he : 0 < epsg)
    (niterback : ℕ) (hn : 1 ≤ niterback) (x : CVec ι) (hx : ∀ i, (x i).re = 0) (hx0 : x ≠ 0) :
    ∃ X : ℕ → CVec ι, (∀ n, pgBacktrackC (L2Cx σ 1 none none false) (L1Cx 0 none) epsg β niterback n x τ = .ok (X n, τ)) ∧
      Tendsto (fun n => ‖X n‖) atTop atTop := by
  refine ⟨fun n => (1 - τ * σ) ^ n • x, fun n => C93_backtracking_iterates σ hσ τ hτ0 hτσ epsg β he niterback hn n x hx, ?_⟩
  have e : (fun n : ℕ => ‖(1 - τ * σ) ^ n • x‖) = fun n => (τ * σ - 1) ^ n * ‖x‖ := by
    funext n
    rw [norm_smul, norm_pow, Real.norm_eq_abs, abs_of_neg (by linarith), neg_sub]
  rw [e]
  exact (tendsto_pow_atTop_atTop_of_one_lt (by linarith)).atTop_mul_const (norm_pos_iff.2 hx0)

/-- The hypotheses are met: `x = i`, `sigma = 1`, `tau = 4`. -/
example : ∃ X : ℕ → CVec (Fin 1), (∀ n, pgBacktrackC (L2Cx 1 1 none none false) (L1Cx 0 none) 1 (1 / 2) 10 n (cmk fun _ => Complex.I) 4 = .ok (X n, 4)) ∧
    Tendsto (fun n => ‖X n‖) atTop atTop :=
  C93_backtracking_refuted 1 one_pos 4 (by norm_num) (by norm_num) (by norm_num) 1 (1 / 2) one_pos 10 (by norm_num) _ (fun _ => by simp)
    (fun h => by have := congrArg (fun v : CVec (Fin 1) => v 0) h; simp at this)

/-- C01 for complex arrays: a non-positive step is rejected. -/
theorem C01_complex (σ α ρ radius tol δ : ℝ) (g b q : Option (CVec ι)) (qgrad : Bool) (bisect : (ℝ → ℝ) → ℝ → ℝ → ℝ) (fuel r : ℕ) (argsort : CVec ι → List ι) :
    RejectsBadTau (L1Cx σ g) ∧ RejectsBadTau (L1BallCx (ι := ι) bisect fuel radius tol) ∧ RejectsBadTau (L0BallCx argsort r) ∧
      RejectsBadTau (HuberCx (ι := ι) δ) ∧ RejectsBadTau (L21Cx (ι := ι) (κ := κ) σ) ∧ RejectsBadTau (L21plusL1Cx (ι := ι) (κ := κ) σ ρ) ∧
      RejectsBadTau (L2Cx σ α b q qgrad) := by
  refine ⟨?_, ?_, ?_, ?_, ?_, ?_, ?_⟩
  · exact rejects_of_guarded _ (fun m hm x τ hτ => by cases hm; exact checkTau_nonpos hτ _) (fun m hm x τ hτ => by cases hm; exact checkTau_nonpos hτ _)
  · exact rejects_of_guarded _ (fun m hm x τ hτ => by cases hm; exact checkTau_nonpos hτ _) (fun m hm _ _ _ => by cases hm)
  · exact rejects_of_guarded _ (fun m hm x τ hτ => by cases hm; exact checkTau_nonpos hτ _) (fun m hm _ _ _ => by cases hm)
  · exact rejects_of_guarded _ (fun m hm x τ hτ => by cases hm; exact checkTau_nonpos hτ _) (fun m hm _ _ _ => by cases hm)
  · exact rejects_of_guarded _ (fun m hm x τ hτ => by cases hm; exact checkTau_nonpos hτ _) (fun m hm x τ hτ => by cases hm; exact checkTau_nonpos hτ _)
  · exact rejects_of_guarded _ (fun m hm x τ hτ => by cases hm; exact checkTau_nonpos hτ _) (fun m hm _ _ _ => by cases hm)
  · exact rejects_of_guarded _ (fun m hm x τ hτ => by cases hm; exact checkTau_nonpos hτ _) (fun m hm _ _ _ => by cases hm)

end Verif
