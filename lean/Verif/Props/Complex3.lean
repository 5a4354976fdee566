import Verif.Props.Complex2

/-!
# C93: complex arrays (group norms, quadratic functions, line search)
-/

open scoped RealInnerProductSpace
open Filter Topology

namespace Verif

variable {ι κ : Type} [Fintype ι] [Fintype κ]

/-! ## L21 -/

/-- Euclidean norm of column `j` of a complex matrix. -/
noncomputable def cColNorm (x : CVec (ι × κ)) (j : κ) : ℝ := √(∑ i, ‖x (i, j)‖ ^ 2)

lemma cColNorm_eq (x : CVec (ι × κ)) (j : κ) : cColNorm x j = ‖cColMap j x‖ := by
  rw [EuclideanSpace.norm_eq]; rfl

lemma npCSqrt_sq (z : ℂ) : npCSqrt z ^ 2 = z := by
  unfold npCSqrt
  have := Complex.cpow_nat_inv_pow z (n := 2) two_ne_zero
  rwa [Nat.cast_ofNat, inv_eq_one_div] at this

lemma npCSqrt_ofReal {r : ℝ} (hr : 0 ≤ r) : npCSqrt (r : ℂ) = (√r : ℂ) := by
  unfold npCSqrt
  rw [Real.sqrt_eq_rpow, Complex.ofReal_cpow hr]
  norm_num

lemma norm_cColAux_le (x : CVec (ι × κ)) (j : κ) : ‖cColAux x j‖ ≤ cColNorm x j := by
  have h0 : 0 ≤ cColNorm x j := Real.sqrt_nonneg _
  refine (pow_le_pow_iff_left₀ (norm_nonneg _) h0 two_ne_zero).1 ?_
  rw [← norm_pow, cColAux, npCSqrt_sq, cColNorm, Real.sq_sqrt (Finset.sum_nonneg fun _ _ => by positivity)]
  refine (norm_sum_le _ _).trans (le_of_eq ?_)
  simp only [norm_pow]

lemma re_sq_le (z : ℂ) : (z ^ 2).re ≤ ‖z‖ ^ 2 := by
  rw [Complex.sq_norm, Complex.normSq_apply, sq, Complex.mul_re]
  nlinarith [sq_nonneg z.im]

/-- The code's "norm" of a column is its Euclidean norm exactly when the column is real. -/
lemma cColAux_re_eq_iff (x : CVec (ι × κ)) (j : κ) :
    (cColAux x j).re = cColNorm x j ↔ ∀ i, (x (i, j)).im = 0 := by
  constructor
  · intro h
    have h1 := norm_cColAux_le x j
    have h2 := Complex.abs_re_le_norm (cColAux x j)
    have h0 : 0 ≤ cColNorm x j := Real.sqrt_nonneg _
    have h3 : ‖cColAux x j‖ = cColNorm x j := by
      rw [h, abs_of_nonneg h0] at h2
      exact le_antisymm h1 h2
    have him : (cColAux x j).im = 0 := by
      have := Complex.sq_norm (cColAux x j)
      rw [Complex.normSq_apply, h3, h] at this
      nlinarith
    have h4 : cColAux x j = (cColNorm x j : ℂ) := by
      apply Complex.ext <;> simp [h, him]
    have h5 : ∑ i, x (i, j) ^ 2 = ((∑ i, ‖x (i, j)‖ ^ 2 : ℝ) : ℂ) := by
      have := congrArg (fun z : ℂ => z ^ 2) h4
      simp only [cColAux, npCSqrt_sq] at this
      rw [this, ← Complex.ofReal_pow, cColNorm, Real.sq_sqrt (Finset.sum_nonneg fun _ _ => by positivity)]
    have h6 : ∑ i, (x (i, j) ^ 2).re = ∑ i, ‖x (i, j)‖ ^ 2 := by
      have := congrArg Complex.re h5
      rwa [Complex.re_sum, Complex.ofReal_re] at this
    have h7 := (Finset.sum_eq_sum_iff_of_le fun i _ => re_sq_le (x (i, j))).1 h6
    intro i
    have := h7 i (Finset.mem_univ i)
    rw [Complex.sq_norm, Complex.normSq_apply, sq, Complex.mul_re] at this
    nlinarith
  · intro h
    have e : ∀ i, x (i, j) ^ 2 = ((‖x (i, j)‖ ^ 2 : ℝ) : ℂ) := by
      intro i
      have hz : x (i, j) = ((x (i, j)).re : ℂ) := by apply Complex.ext <;> simp [h i]
      rw [hz, Complex.norm_real, Real.norm_eq_abs, sq_abs]
      push_cast; rfl
    unfold cColAux cColNorm
    rw [Finset.sum_congr rfl fun i _ => e i, ← Complex.ofReal_sum, npCSqrt_ofReal (Finset.sum_nonneg fun _ _ => by positivity),
      Complex.ofReal_re]

lemma cColAux_eq_of_re {x : CVec (ι × κ)} {j : κ} (h : (cColAux x j).re = cColNorm x j) :
    cColAux x j = (cColNorm x j : ℂ) := by
  have h1 := norm_cColAux_le x j
  have him : (cColAux x j).im = 0 := by
    have h2 := Complex.sq_norm (cColAux x j)
    rw [Complex.normSq_apply, h] at h2
    have h3 : ‖cColAux x j‖ ^ 2 ≤ cColNorm x j ^ 2 := pow_le_pow_left₀ (norm_nonneg _) h1 2
    nlinarith
  apply Complex.ext <;> simp [h, him]

/-- The denominator used by `L21` is the right one exactly for columns that are short or real. -/
lemma lexMax_cColAux_iff (x : CVec (ι × κ)) (j : κ) {t : ℝ} :
    lexMax (cColAux x j) (t : ℂ) = ((max (cColNorm x j) t : ℝ) : ℂ) ↔ cColNorm x j ≤ t ∨ ∀ i, (x (i, j)).im = 0 := by
  have h1 := norm_cColAux_le x j
  have h2 := (Complex.re_le_norm (cColAux x j)).trans h1
  constructor
  · intro h
    by_contra hcon
    push Not at hcon
    obtain ⟨h3, h4⟩ := hcon
    rw [max_eq_left h3.le] at h
    rcases lexMax_or (cColAux x j) (t : ℂ) with e | e
    · rw [e] at h
      have h5 := (cColAux_re_eq_iff x j).1 (by rw [h, Complex.ofReal_re])
      obtain ⟨i, hi⟩ := h4
      exact hi (h5 i)
    · rw [e] at h
      have := Complex.ofReal_inj.1 h
      linarith
  · rintro (h | h)
    · rw [max_eq_right h]
      unfold lexMax
      split_ifs with hg
      · have hre : (cColAux x j).re = t := by
          rcases hg with hg | hg
          · simp only [Complex.ofReal_re] at hg; linarith
          · simpa using hg.1
        have hn : cColNorm x j = t := le_antisymm h (by rw [← hre]; exact h2)
        rw [cColAux_eq_of_re (by rw [hre, hn]), hn]
      · rfl
    · have e := cColAux_eq_of_re ((cColAux_re_eq_iff x j).2 h)
      rw [e]
      unfold lexMax lexGe
      simp only [Complex.ofReal_re, Complex.ofReal_im, le_refl, and_true]
      rcases lt_trichotomy (cColNorm x j) t with h | h | h
      · rw [if_neg (by push Not; exact ⟨h.le, h.ne⟩), max_eq_right h.le]
      · rw [if_pos (Or.inr h), h, max_self]
      · rw [if_pos (Or.inl h), max_eq_left h.le]

lemma lexMax_re_ge (a : ℂ) (t : ℝ) : t ≤ (lexMax a (t : ℂ)).re := by
  unfold lexMax
  split_ifs with h
  · rcases h with h | h
    · simpa using h.le
    · simpa using h.1.ge
  · simp

lemma lexMax_ne_zero (a : ℂ) {t : ℝ} (ht : 0 < t) : lexMax a (t : ℂ) ≠ 0 := by
  intro h
  have := lexMax_re_ge a t
  rw [h] at this
  simp at this
  linarith

/-- C93, exact extent of the defect: the value of `L21` is `sigma` times the sum of the Euclidean norms of the columns exactly for real arrays. -/
theorem C93_l21_call_iff (σ : ℝ) (hσ : 0 < σ) (x : CVec (ι × κ)) :
    (L21Cx σ).call x = .ok (.num (σ * ∑ j, √(∑ i, ‖x (i, j)‖ ^ 2))) ↔ ∀ i j, (x (i, j)).im = 0 := by
  have e : (L21Cx σ).call x = .ok (.num (σ * ∑ j, (cColAux x j).re)) := by
    simp only [L21Cx]
    rw [Complex.re_ofReal_mul, Complex.re_sum]
  rw [e]
  have hle : ∀ j ∈ Finset.univ, (cColAux x j).re ≤ cColNorm x j :=
    fun j _ => (Complex.re_le_norm _).trans (norm_cColAux_le x j)
  constructor
  · intro h i j
    have h1 : σ * ∑ j, (cColAux x j).re = σ * ∑ j, cColNorm x j := by
      have := Except.ok.inj h
      exact CallVal.num.inj this
    have h2 := mul_left_cancel₀ hσ.ne' h1
    exact (cColAux_re_eq_iff x j).1 ((Finset.sum_eq_sum_iff_of_le hle).1 h2 j (Finset.mem_univ j)) i
  · intro h
    congr 3
    exact Finset.sum_congr rfl fun j _ => (cColAux_re_eq_iff x j).2 fun i => h i j

lemma cL21_prox_spec {σ τ : ℝ} (hσ : 0 < σ) (hτ : 0 < τ) (x : CVec (ι × κ)) :
    IsUniqueProx (XFun.ofReal fun y : CVec (ι × κ) => σ * ∑ j, √(∑ i, ‖y (i, j)‖ ^ 2)) τ x
      (cmk fun ij => (1 - (τ * σ) / max (cColNorm x ij.2) (τ * σ)) • x ij) := by
  refine ccols_isUniqueProx_real (fun _ y => σ * ‖y‖) _ (fun y => ?_) (fun j => ?_)
  · rw [Finset.mul_sum]
    refine Finset.sum_congr rfl fun j _ => ?_
    rw [← cColNorm_eq]; rfl
  · have := norm_isUniqueProx hσ hτ (cColMap j x)
    rw [← cColNorm_eq] at this
    exact this

/-- C93, exact extent of the defect: `L21.prox` of a complex array is the proximal map exactly when every column that is not mapped to zero is real. -/
theorem C93_l21_prox_iff (σ : ℝ) (hσ : 0 < σ) (x : CVec (ι × κ)) (τ : ℝ) (hτ : 0 < τ) :
    ∃ p, (L21Cx σ).prox x τ = .ok p ∧
      (IsProx (XFun.ofReal fun y : CVec (ι × κ) => σ * ∑ j, √(∑ i, ‖y (i, j)‖ ^ 2)) τ x p ↔
        ∀ j, √(∑ i, ‖x (i, j)‖ ^ 2) ≤ τ * σ ∨ ∀ i, (x (i, j)).im = 0) := by
  have ht : 0 < τ * σ := by positivity
  have hm : ¬ ∃ ij : ι × κ, lexMax (cColAux x ij.2) (τ * σ : ℝ) = 0 := by
    rintro ⟨ij, h⟩
    exact lexMax_ne_zero _ ht h
  refine ⟨cmk fun ij => (1 - (τ * σ : ℝ) / lexMax (cColAux x ij.2) (τ * σ : ℝ)) * x ij,
    by simp only [ProxOp.prox, L21Cx, checkTau_pos hτ, if_neg hm], ?_⟩
  have hq := cL21_prox_spec hσ hτ x
  have hcol : ∀ j, (∀ i, (1 - ((τ * σ : ℝ) : ℂ) / lexMax (cColAux x j) (τ * σ : ℝ)) * x (i, j)
      = (1 - (τ * σ) / max (cColNorm x j) (τ * σ)) • x (i, j)) ↔ (cColNorm x j ≤ τ * σ ∨ ∀ i, (x (i, j)).im = 0) := by
    intro j
    rw [← lexMax_cColAux_iff x j]
    have hmax : 0 < max (cColNorm x j) (τ * σ) := lt_max_of_lt_right ht
    constructor
    · intro h
      by_cases hz : ∀ i, x (i, j) = 0
      · have : cColAux x j = 0 := by
          have h1 := norm_cColAux_le x j
          have h2 : cColNorm x j = 0 := by unfold cColNorm; simp [hz]
          rw [h2] at h1
          exact norm_le_zero_iff.1 h1
        exact (lexMax_cColAux_iff x j).2 (Or.inl (by unfold cColNorm; simp [hz]; positivity))
      · push Not at hz
        obtain ⟨i, hi⟩ := hz
        have h1 := h i
        rw [Complex.real_smul] at h1
        have h2 := mul_right_cancel₀ hi h1
        push_cast at h2
        have h3 : ((τ * σ : ℝ) : ℂ) / lexMax (cColAux x j) ((τ * σ : ℝ) : ℂ)
            = ((τ * σ : ℝ) : ℂ) / ((max (cColNorm x j) (τ * σ) : ℝ) : ℂ) := by
          push_cast
          exact sub_right_injective h2
        rw [div_eq_div_iff (lexMax_ne_zero _ ht) (by exact_mod_cast hmax.ne')] at h3
        exact (mul_left_cancel₀ (by exact_mod_cast ht.ne') h3).symm
    · intro h i
      rw [h, Complex.real_smul]
      push_cast
      rfl
  constructor
  · intro h j
    have := hq.2 _ h
    exact (hcol j).1 fun i => congrArg (fun v : CVec (ι × κ) => v (i, j)) this
  · intro h
    have : (cmk fun ij => (1 - ((τ * σ : ℝ) : ℂ) / lexMax (cColAux x ij.2) (τ * σ : ℝ)) * x ij : CVec (ι × κ))
        = cmk fun ij => (1 - (τ * σ) / max (cColNorm x ij.2) (τ * σ)) • x ij := by
      ext ij
      exact (hcol ij.2).2 (h ij.2) ij.1
    rw [this]
    exact hq.1

/-- C93, refutation for `L21`: a column `(t, i t)` has value 0 and is mapped to 0 whatever `t`, though the minimiser is not 0. -/
theorem C93_l21_refuted (σ : ℝ) (hσ : 0 < σ) (τ : ℝ) (hτ : 0 < τ) (t : ℝ) (ht : τ * σ < t) :
    ∃ x : CVec (Fin 2 × Fin 1), x (0, 0) = t ∧ (L21Cx σ).call x = .ok (.num 0) ∧ (L21Cx σ).prox x τ = .ok 0 ∧
      ¬ IsProx (XFun.ofReal fun y : CVec (Fin 2 × Fin 1) => σ * ∑ j, √(∑ i, ‖y (i, j)‖ ^ 2)) τ x 0 := by
  have hts : 0 < τ * σ := by positivity
  set x : CVec (Fin 2 × Fin 1) := cmk fun ij => if ij.1 = 0 then (t : ℂ) else t * Complex.I with hx
  have haux : ∀ j, cColAux x j = 0 := by
    intro j
    unfold cColAux
    have : ∑ i, x (i, j) ^ 2 = 0 := by
      rw [Fin.sum_univ_two]
      show (if (0 : Fin 2) = 0 then (t : ℂ) else t * Complex.I) ^ 2 + (if (1 : Fin 2) = 0 then (t : ℂ) else t * Complex.I) ^ 2 = 0
      rw [if_pos rfl, if_neg (by decide), mul_pow, Complex.I_sq]; ring
    rw [this]
    have h := npCSqrt_sq 0
    exact pow_eq_zero_iff two_ne_zero |>.1 h
  obtain ⟨p, h1, h2⟩ := C93_l21_prox_iff σ hσ x τ hτ
  have hlm : lexMax (0 : ℂ) ((τ * σ : ℝ) : ℂ) = ((τ * σ : ℝ) : ℂ) := by
    unfold lexMax lexGe
    rw [if_neg]
    simp only [Complex.zero_re, Complex.ofReal_re]
    push Not
    exact ⟨hts.le, fun h => absurd h.symm hts.ne'⟩
  have hp : p = 0 := by
    have hm : ¬ ∃ ij : Fin 2 × Fin 1, lexMax (cColAux x ij.2) (τ * σ : ℝ) = 0 := by
      rintro ⟨ij, h⟩
      exact lexMax_ne_zero _ hts h
    simp only [ProxOp.prox, L21Cx, checkTau_pos hτ, if_neg hm] at h1
    rw [← Except.ok.inj h1]
    ext ij
    show (1 - ((τ * σ : ℝ) : ℂ) / lexMax (cColAux x ij.2) (τ * σ : ℝ)) * x ij = 0
    rw [haux, hlm, div_self (by exact_mod_cast hts.ne'), sub_self, zero_mul]
  refine ⟨x, by simp [hx], ?_, by rw [h1, hp], ?_⟩
  · simp only [L21Cx, haux, Finset.sum_const_zero, mul_zero, Complex.zero_re]
  · rw [← hp, h2]
    intro h
    have h3 := h 0
    have e1 : x (1, 0) = t * Complex.I := by
      show (if (1 : Fin 2) = 0 then (t : ℂ) else t * Complex.I) = _
      rw [if_neg (by decide)]
    have e0 : x (0, 0) = t := rfl
    have ht0 : 0 < t := hts.trans ht
    rcases h3 with h3 | h3
    · rw [Fin.sum_univ_two, e0, e1] at h3
      have h4 : t ≤ √(‖(t : ℂ)‖ ^ 2 + ‖(t : ℂ) * Complex.I‖ ^ 2) := by
        apply Real.le_sqrt_of_sq_le
        rw [Complex.norm_real, Real.norm_eq_abs, sq_abs]
        have := sq_nonneg ‖(t : ℂ) * Complex.I‖
        linarith
      linarith
    · have := h3 1
      rw [e1] at this
      simp at this
      linarith

lemma polycol_proj {σ : ℝ} (hσ : 0 < σ) (x : CVec (ι × κ)) :
    IsUniqueProj {y : CVec (ι × κ) | ∀ j, √(∑ i, ‖y (i, j)‖ ^ 2) ≤ σ} x
      (cmk fun ij => (σ / max (cColNorm x ij.2) σ) • x ij) := by
  rw [← isUniqueProj_iff_isUniqueProx one_pos]
  have := block_isUniqueProx (β := fun _ : κ => CVec ι)
    (fun j => (cColMap j : CVec (ι × κ) →ₗ[ℝ] CVec ι)) cCol_norm_sq
    (fun _ => XFun.indicator {y : CVec ι | ‖y‖ ≤ σ}) (XFun.indicator {y : CVec (ι × κ) | ∀ j, √(∑ i, ‖y (i, j)‖ ^ 2) ≤ σ})
    (τ := 1) (x := x) (p := cmk fun ij => (σ / max (cColNorm x ij.2) σ) • x ij)
  refine this (fun y => ?_) (fun y _ => by simp [XFun.indicator]) (fun j => ?_)
  · refine forall_congr' fun j => ?_
    show cColNorm y j ≤ σ ↔ ‖cColMap j y‖ ≤ σ
    rw [cColNorm_eq]
  · rw [isUniqueProj_iff_isUniqueProx one_pos]
    have h := ball_isUniqueProj hσ (0 : CVec ι) (cColMap j x)
    simp only [sub_zero, zero_add] at h
    rw [← cColNorm_eq] at h
    exact h

/-- C93, exact extent of the defect: `L21.proxdual` of a complex array is the projection of the columns onto the balls of radius `sigma` exactly when every column is in its ball or real. -/
theorem C93_l21_proxdual_iff (σ : ℝ) (hσ : 0 < σ) (x : CVec (ι × κ)) (τ : ℝ) (hτ : 0 < τ) :
    ∃ p, (L21Cx σ).proxdual x τ = .ok p ∧
      (IsProj {y : CVec (ι × κ) | ∀ j, √(∑ i, ‖y (i, j)‖ ^ 2) ≤ σ} x p ↔
        ∀ j, √(∑ i, ‖x (i, j)‖ ^ 2) ≤ σ ∨ ∀ i, (x (i, j)).im = 0) := by
  have hm : ¬ ∃ ij : ι × κ, lexMax (cColAux x ij.2) (σ : ℝ) = 0 := by
    rintro ⟨ij, h⟩
    exact lexMax_ne_zero _ hσ h
  refine ⟨cmk fun ij => (σ : ℂ) * x ij / lexMax (cColAux x ij.2) (σ : ℝ),
    by simp only [ProxOp.proxdual, L21Cx, checkTau_pos hτ, if_neg hm], ?_⟩
  have hq := polycol_proj hσ x
  have hcol : ∀ j, (∀ i, (σ : ℂ) * x (i, j) / lexMax (cColAux x j) (σ : ℝ)
      = (σ / max (cColNorm x j) σ) • x (i, j)) ↔ (cColNorm x j ≤ σ ∨ ∀ i, (x (i, j)).im = 0) := by
    intro j
    rw [← lexMax_cColAux_iff x j]
    have hmax : 0 < max (cColNorm x j) σ := lt_max_of_lt_right hσ
    have hmaxc : ((max (cColNorm x j) σ : ℝ) : ℂ) ≠ 0 := by exact_mod_cast hmax.ne'
    constructor
    · intro h
      by_cases hz : ∀ i, x (i, j) = 0
      · exact (lexMax_cColAux_iff x j).2 (Or.inl (by unfold cColNorm; simp [hz]; positivity))
      · push Not at hz
        obtain ⟨i, hi⟩ := hz
        have h1 := h i
        rw [Complex.real_smul, Complex.ofReal_div, div_mul_eq_mul_div, div_eq_div_iff (lexMax_ne_zero _ hσ) hmaxc] at h1
        have h2 : (σ : ℂ) * x (i, j) ≠ 0 := mul_ne_zero (by exact_mod_cast hσ.ne') hi
        exact (mul_left_cancel₀ h2 h1).symm
    · intro h i
      rw [h, Complex.real_smul, Complex.ofReal_div, div_mul_eq_mul_div]
  constructor
  · intro h j
    have := hq.2 _ h
    exact (hcol j).1 fun i => congrArg (fun v : CVec (ι × κ) => v (i, j)) this
  · intro h
    have : (cmk fun ij => (σ : ℂ) * x ij / lexMax (cColAux x ij.2) (σ : ℝ) : CVec (ι × κ))
        = cmk fun ij => (σ / max (cColNorm x ij.2) σ) • x ij := by
      ext ij
      exact (hcol ij.2).2 (h ij.2) ij.1
    rw [this]
    exact hq.1

end Verif
