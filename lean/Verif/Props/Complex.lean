import Verif.Model.Complex
import Verif.Lemmas.Closed
import Verif.Props.Closed
import Verif.Props.Projections2
import Verif.Props.Calculus

/-!
# C93: complex arrays

The space of complex arrays is a real inner product space with `Re <x, y>`; "the proximal map" below is with respect to its norm.
-/

open scoped RealInnerProductSpace

namespace Verif

variable {ι κ : Type} [Fintype ι] [Fintype κ]

/-! ## Helpers -/

lemma cphase_mul (z : ℂ) : (‖z‖ : ℂ) * cphase z = z := by
  unfold cphase
  rw [mul_comm Complex.I]
  exact Complex.norm_mul_exp_arg_mul_I z

lemma norm_cphase (z : ℂ) : ‖cphase z‖ = 1 := Complex.norm_exp_I_mul_ofReal _

lemma cSoft_eq {t : ℝ} (ht : 0 < t) (z : ℂ) : cSoft z t = (1 - t / max ‖z‖ t) • z := by
  unfold cSoft
  rcases le_total ‖z‖ t with h | h
  · rw [max_eq_right (by linarith), max_eq_right h, div_self ht.ne']; simp
  · have h0 : 0 < ‖z‖ := lt_of_lt_of_le ht h
    rw [max_eq_left (by linarith), max_eq_left h]
    have e : (1 - t / ‖z‖) • z = (((1 - t / ‖z‖) * ‖z‖ : ℝ) : ℂ) * cphase z := by
      rw [Complex.ofReal_mul, mul_assoc, cphase_mul, Complex.real_smul]
    rw [e]
    congr 2
    field_simp

lemma norm_cSoft (z : ℂ) (t : ℝ) : ‖cSoft z t‖ = max (‖z‖ - t) 0 := by
  unfold cSoft
  rw [norm_mul, norm_cphase, mul_one, Complex.norm_real, Real.norm_eq_abs, abs_of_nonneg (le_max_right _ _)]

lemma cSoft_zero (z : ℂ) : cSoft z 0 = z := by
  unfold cSoft
  rw [sub_zero, max_eq_left (norm_nonneg _), cphase_mul]

lemma cSoft_isUniqueProx {σ τ : ℝ} (hσ : 0 ≤ σ) (hτ : 0 < τ) (z : ℂ) :
    IsUniqueProx (XFun.ofReal fun y : ℂ => σ * ‖y‖) τ z (cSoft z (τ * σ)) := by
  rcases hσ.eq_or_lt with rfl | h
  · rw [mul_zero, cSoft_zero]
    apply isUniqueProx_of_subgrad hτ
    refine ⟨trivial, fun y _ => ?_⟩
    simp [XFun.ofReal]
  · rw [cSoft_eq (by positivity)]
    exact norm_isUniqueProx h hτ z

/-- Coordinates of a complex array as real-linear maps. -/
noncomputable def cCoordMap (i : ι) : CVec ι →ₗ[ℝ] ℂ where
  toFun x := x i
  map_add' _ _ := rfl
  map_smul' _ _ := rfl

lemma cCoord_norm_sq (x : CVec ι) : ‖x‖ ^ 2 = ∑ i, ‖cCoordMap i x‖ ^ 2 := by
  rw [EuclideanSpace.norm_sq_eq]; rfl

lemma csep_isUniqueProx_real (φ : ι → ℂ → ℝ) (f : CVec ι → ℝ)
    (hval : ∀ y, f y = ∑ j, φ j (y j)) {τ : ℝ} {x p : CVec ι}
    (h : ∀ j, IsUniqueProx (XFun.ofReal (φ j)) τ (x j) (p j)) : IsUniqueProx (XFun.ofReal f) τ x p :=
  block_isUniqueProx (β := fun _ : ι => ℂ) cCoordMap cCoord_norm_sq (fun j => XFun.ofReal (φ j)) (XFun.ofReal f)
    (fun _ => ⟨fun _ _ => trivial, fun _ => trivial⟩) (fun y _ => hval y) h

/-- Columns of a complex matrix as real-linear maps. -/
noncomputable def cColMap (j : κ) : CVec (ι × κ) →ₗ[ℝ] CVec ι where
  toFun x := WithLp.toLp 2 fun i => x (i, j)
  map_add' _ _ := rfl
  map_smul' _ _ := rfl

@[simp] lemma cColMap_apply (j : κ) (x : CVec (ι × κ)) (i : ι) : cColMap j x i = x (i, j) := rfl

lemma cCol_norm_sq (x : CVec (ι × κ)) : ‖x‖ ^ 2 = ∑ j, ‖cColMap j x‖ ^ 2 := by
  simp only [EuclideanSpace.norm_sq_eq, cColMap_apply]
  rw [Fintype.sum_prod_type_right]

lemma ccols_isUniqueProx_real (φ : κ → CVec ι → ℝ) (f : CVec (ι × κ) → ℝ)
    (hval : ∀ y, f y = ∑ j, φ j (cColMap j y)) {τ : ℝ} {x p : CVec (ι × κ)}
    (h : ∀ j, IsUniqueProx (XFun.ofReal (φ j)) τ (cColMap j x) (cColMap j p)) : IsUniqueProx (XFun.ofReal f) τ x p := by
  have := block_isUniqueProx (β := fun _ : κ => CVec ι)
    (fun j => (cColMap j : CVec (ι × κ) →ₗ[ℝ] CVec ι)) cCol_norm_sq
    (fun j => XFun.ofReal (φ j)) (XFun.ofReal f) (τ := τ) (x := x) (p := p)
  exact this (fun _ => ⟨fun _ _ => trivial, fun _ => trivial⟩) (fun y _ => hval y) h

/-! ## L1 -/

/-- C93: on complex arrays `L1.prox` returns the unique minimiser of `sigma * sum |y_i - g_i| + ||y - x||^2/(2 tau)`. -/
theorem C93_l1_prox (σ : ℝ) (hσ : 0 ≤ σ) (g : Option (CVec ι)) (x : CVec ι) (τ : ℝ) (hτ : 0 < τ) :
    ∃ p, (L1Cx σ g).prox x τ = .ok p ∧
      IsUniqueProx (XFun.ofReal fun y : CVec ι => σ * ∑ i, ‖y i - (g.getD 0) i‖) τ x p := by
  have base : ∀ x : CVec ι, IsUniqueProx (XFun.ofReal fun y : CVec ι => σ * ∑ i, ‖y i‖) τ x
      (cSoftthreshold x (τ * σ)) := fun x =>
    csep_isUniqueProx_real (fun _ y => σ * ‖y‖) _ (fun y => by simp only [Finset.mul_sum])
      (fun j => cSoft_isUniqueProx hσ hτ (x j))
  cases g with
  | none => exact ⟨cSoftthreshold x (τ * σ), by simp only [ProxOp.prox, L1Cx, checkTau_pos hτ], by simpa using base x⟩
  | some g => exact ⟨_, by simp only [ProxOp.prox, L1Cx, checkTau_pos hτ], shift_isUniqueProx (base (x - g))⟩

/-- C93: the value of `L1` on complex arrays is the function of which `prox` is the proximal map. -/
theorem C93_l1_call (σ : ℝ) (g : Option (CVec ι)) :
    EvaluatesNum (L1Cx σ g) fun y => σ * ∑ i, ‖y i - (g.getD 0) i‖ := by
  intro x
  cases g <;> simp [L1Cx]

/-- The discs of radius `sigma` in every coordinate: where the conjugate of `sigma * sum |y_i|` is finite (and zero). -/
def polydisc (ι : Type) [Fintype ι] (σ : ℝ) : Set (CVec ι) := {y | ∀ i, ‖y i‖ ≤ σ}

lemma polydisc_proj {σ : ℝ} (hσ : 0 < σ) (x : CVec ι) :
    IsUniqueProj (polydisc ι σ) x (cmk fun i => (σ / max ‖x i‖ σ) • x i) := by
  have hdisc : ∀ z : ℂ, IsUniqueProj {y : ℂ | ‖y‖ ≤ σ} z ((σ / max ‖z‖ σ) • z) := by
    intro z
    have := ball_isUniqueProj hσ (0 : ℂ) z
    simpa only [sub_zero, zero_add] using this
  rw [← isUniqueProj_iff_isUniqueProx one_pos]
  refine block_isUniqueProx (β := fun _ : ι => ℂ) cCoordMap cCoord_norm_sq
    (fun _ => XFun.indicator {y : ℂ | ‖y‖ ≤ σ}) _ (fun y => Iff.rfl) (fun y _ => by simp [XFun.indicator]) (fun j => ?_)
  exact (isUniqueProj_iff_isUniqueProx one_pos).2 (hdisc (x j))

lemma lexMax_or (a b : ℂ) : lexMax a b = a ∨ lexMax a b = b := by unfold lexMax; split_ifs <;> simp

lemma lexMin_or (a b : ℂ) : lexMin a b = a ∨ lexMin a b = b := by unfold lexMin; split_ifs <;> simp

lemma lexClip_eq_iff {σ : ℝ} (hσ : 0 < σ) (z : ℂ) :
    lexMin (lexMax z ((-σ : ℝ) : ℂ)) (σ : ℂ) = (σ / max ‖z‖ σ) • z ↔ ‖z‖ ≤ σ ∨ z.im = 0 := by
  have hre := Complex.abs_re_le_norm z
  have hm : 0 < max ‖z‖ σ := lt_max_of_lt_right hσ
  constructor
  · intro h
    by_contra hcon
    push Not at hcon
    obtain ⟨h1, h2⟩ := hcon
    rw [max_eq_left h1.le] at h
    have h0 : 0 < ‖z‖ := hσ.trans h1
    have him : ((σ / ‖z‖) • z).im ≠ 0 := by
      rw [Complex.smul_im, smul_eq_mul]; exact mul_ne_zero (by positivity) h2
    have hnz : ‖(σ / ‖z‖) • z‖ = σ := by
      rw [norm_smul, Real.norm_eq_abs, abs_of_pos (by positivity)]; field_simp
    -- the clipped value is either real or `z` itself
    have hcase : lexMin (lexMax z ((-σ : ℝ) : ℂ)) (σ : ℂ) = z ∨ (lexMin (lexMax z ((-σ : ℝ) : ℂ)) (σ : ℂ)).im = 0 := by
      rcases lexMin_or (lexMax z ((-σ : ℝ) : ℂ)) (σ : ℂ) with e | e
      · rcases lexMax_or z ((-σ : ℝ) : ℂ) with e' | e'
        · exact Or.inl (e.trans e')
        · right; rw [e, e']; simp
      · right; rw [e]; simp
    rcases hcase with hc | hc
    · rw [hc] at h
      rw [← h] at hnz
      linarith
    · rw [h] at hc
      exact him hc
  · intro h
    rcases h with h | h
    · rw [max_eq_right h, div_self hσ.ne', one_smul]
      have h1 : lexGe z ((-σ : ℝ) : ℂ) := by
        unfold lexGe
        simp only [Complex.ofReal_re, Complex.ofReal_im]
        rcases lt_or_ge (-σ) z.re with h2 | h2
        · exact Or.inl h2
        · have h3 : z.re = -σ := le_antisymm h2 (by linarith [neg_abs_le z.re])
          have h4 : z.im = 0 := by
            have := Complex.sq_norm z
            rw [Complex.normSq_apply, h3] at this
            nlinarith [norm_nonneg z]
          exact Or.inr ⟨h3, h4.ge⟩
      have h5 : lexGe (σ : ℂ) z := by
        unfold lexGe
        simp only [Complex.ofReal_re, Complex.ofReal_im]
        rcases lt_or_ge z.re σ with h2 | h2
        · exact Or.inl h2
        · have h3 : z.re = σ := le_antisymm (by linarith [le_abs_self z.re]) h2
          have h4 : z.im = 0 := by
            have := Complex.sq_norm z
            rw [Complex.normSq_apply, h3] at this
            nlinarith [norm_nonneg z]
          exact Or.inr ⟨h3.symm, h4.le⟩
      unfold lexMin lexMax
      rw [if_pos h1, if_pos h5]
    · obtain ⟨r, rfl⟩ : ∃ r : ℝ, z = r := ⟨z.re, by apply Complex.ext <;> simp [h]⟩
      have hn : ‖(r : ℂ)‖ = |r| := by rw [Complex.norm_real, Real.norm_eq_abs]
      rw [hn]
      have e1 : lexMax (r : ℂ) ((-σ : ℝ) : ℂ) = ((max r (-σ) : ℝ) : ℂ) := by
        unfold lexMax lexGe
        simp only [Complex.ofReal_re, Complex.ofReal_im, le_refl, and_true]
        rcases lt_trichotomy r (-σ) with h | h | h
        · rw [if_neg (by push Not; exact ⟨h.le, h.ne⟩), max_eq_right h.le]
        · rw [if_pos (Or.inr h), h, max_self]
        · rw [if_pos (Or.inl h), max_eq_left h.le]
      have e2 : ∀ a : ℝ, lexMin (a : ℂ) (σ : ℂ) = ((min a σ : ℝ) : ℂ) := by
        intro a
        unfold lexMin lexGe
        simp only [Complex.ofReal_re, Complex.ofReal_im, le_refl, and_true]
        rcases lt_trichotomy a σ with h | h | h
        · rw [if_pos (Or.inl h), min_eq_left h.le]
        · rw [if_pos (Or.inr h.symm), h, min_self]
        · rw [if_neg (by push Not; exact ⟨h.le, h.ne⟩), min_eq_right h.le]
      rw [e1, e2, Complex.real_smul, ← Complex.ofReal_mul]
      congr 1
      rcases le_total |r| σ with h1 | h1
      · rw [max_eq_right h1, div_self hσ.ne', one_mul, max_eq_left (by linarith [neg_abs_le r]),
          min_eq_left ((le_abs_self r).trans h1)]
      · rw [max_eq_left h1]
        have h0 : 0 < |r| := hσ.trans_le h1
        rcases le_total 0 r with h2 | h2
        · rw [abs_of_nonneg h2] at h1 h0 ⊢
          rw [max_eq_left (by linarith), min_eq_right h1]; field_simp
        · rw [abs_of_nonpos h2] at h1 h0 ⊢
          rw [max_eq_right (by linarith), min_eq_left (by linarith)]
          have : r ≠ 0 := by intro h3; rw [h3] at h0; simp at h0
          field_simp

/-- C93, exact extent of the defect: without an offset `L1.proxdual` clips lexicographically, and its result is the projection onto the discs (the proximal map of the conjugate) exactly when
every entry is real or already in its disc. -/
theorem C93_l1_proxdual_iff (σ : ℝ) (hσ : 0 < σ) (x : CVec ι) (τ : ℝ) (hτ : 0 < τ) :
    ∃ p, (L1Cx σ none).proxdual x τ = .ok p ∧
      (IsProj (polydisc ι σ) x p ↔ ∀ i, ‖x i‖ ≤ σ ∨ (x i).im = 0) := by
  refine ⟨cBoxProj (-σ) σ x, by simp only [ProxOp.proxdual, L1Cx, checkTau_pos hτ], ?_⟩
  have hq := polydisc_proj hσ x
  constructor
  · intro h i
    have := congrArg (fun v : CVec ι => v i) (hq.2 _ h)
    exact (lexClip_eq_iff hσ (x i)).1 this
  · intro h
    have : cBoxProj (-σ) σ x = cmk fun i => (σ / max ‖x i‖ σ) • x i := by
      ext i
      exact (lexClip_eq_iff hσ (x i)).2 (h i)
    rw [this]
    exact hq.1

/-- C93, refutation for `L1.proxdual` and with it of Moreau's identity: for every `sigma` and every step some complex array is mapped outside the discs. -/
theorem C93_l1_proxdual_refuted (σ : ℝ) (hσ : 0 < σ) (τ : ℝ) (hτ : 0 < τ) [Nonempty ι] :
    ∃ x p : CVec ι, (L1Cx σ none).proxdual x τ = .ok p ∧ p = x ∧ p ∉ polydisc ι σ := by
  refine ⟨cmk fun _ => (2 * σ : ℝ) * Complex.I, _, by simp only [ProxOp.proxdual, L1Cx, checkTau_pos hτ]; rfl, ?_, ?_⟩
  · ext i
    simp only [cBoxProj]
    have h1 : lexGe ((2 * σ : ℝ) * Complex.I) ((-σ : ℝ) : ℂ) := Or.inl (by simp [hσ])
    have h2 : lexGe (σ : ℂ) ((2 * σ : ℝ) * Complex.I) := Or.inl (by simp [hσ])
    unfold lexMin lexMax
    rw [if_pos h1, if_pos h2]
  · intro h
    obtain ⟨i⟩ := ‹Nonempty ι›
    have := h i
    simp only [cBoxProj] at this
    have h1 : lexGe ((2 * σ : ℝ) * Complex.I) ((-σ : ℝ) : ℂ) := Or.inl (by simp [hσ])
    have h2 : lexGe (σ : ℂ) ((2 * σ : ℝ) * Complex.I) := Or.inl (by simp [hσ])
    unfold lexMin lexMax at this
    rw [if_pos h1, if_pos h2, norm_mul, Complex.norm_I, mul_one, Complex.norm_real, Real.norm_eq_abs,
      abs_of_pos (by positivity)] at this
    linarith

/-- C93: with an offset, `L1.proxdual` goes through Moreau's identity and is the proximal map of the conjugate. -/
theorem C93_l1_proxdual_offset (σ : ℝ) (hσ : 0 ≤ σ) (g x : CVec ι) (τ : ℝ) (hτ : 0 < τ) :
    ∃ d, (L1Cx σ (some g)).proxdual x τ = .ok d ∧
      IsProx (XFun.ofReal fun y : CVec ι => σ * ∑ i, ‖y i - g i‖).conj τ x d := by
  have hτ' : 0 < 1 / τ := by positivity
  obtain ⟨p, hp, hu⟩ := C93_l1_prox σ hσ (some g) ((1 / τ) • x) (1 / τ) hτ'
  refine ⟨x - τ • p, ?_, ?_⟩
  · have hp' : (L1Cx σ (some g)).prox ((1 / τ) • x) (1 / τ) = .ok p := hp
    simp only [ProxOp.prox, L1Cx] at hp'
    simp only [ProxOp.proxdual, L1Cx, checkTau_pos hτ, ProxOp.moreauStep, hp', bind, Except.bind, pure, Except.pure]
  · have hconv : (XFun.ofReal fun y : CVec ι => σ * ∑ i, ‖y i - g i‖).Convex := by
      refine ⟨convex_univ, fun a _ b _ s t hs ht hst => ?_⟩
      simp only [XFun.ofReal, smul_eq_mul]
      have : ∀ i, ‖(s • a + t • b) i - g i‖ ≤ s * ‖a i - g i‖ + t * ‖b i - g i‖ := by
        intro i
        have e : (s • a + t • b) i - g i = s • (a i - g i) + t • (b i - g i) := by
          have : g i = (s + t) • g i := by rw [hst, one_smul]
          rw [PiLp.add_apply, PiLp.smul_apply, PiLp.smul_apply]
          nth_rewrite 1 [this]
          module
        rw [e]
        refine (norm_add_le _ _).trans ?_
        rw [norm_smul, norm_smul, Real.norm_eq_abs, Real.norm_eq_abs, abs_of_nonneg hs, abs_of_nonneg ht]
      calc σ * ∑ i, ‖(s • a + t • b) i - g i‖ ≤ σ * ∑ i, (s * ‖a i - g i‖ + t * ‖b i - g i‖) :=
            mul_le_mul_of_nonneg_left (Finset.sum_le_sum fun i _ => this i) hσ
        _ = _ := by rw [Finset.sum_add_distrib, ← Finset.mul_sum, ← Finset.mul_sum]; ring
    have := conj_isProx hconv hτ' hu.1
    rw [one_div_one_div, smul_smul, mul_one_div_cancel hτ.ne', one_smul] at this
    convert this using 1
    rw [smul_sub, smul_smul, mul_one_div_cancel hτ.ne', one_smul]

example : (L1Cx (ι := Fin 1) 1 none).prox (cmk fun _ => 3 * Complex.I) 1 = .ok (cmk fun _ => 2 * Complex.I) := by
  simp only [ProxOp.prox, L1Cx, checkTau_pos one_pos, cSoftthreshold]
  congr 2
  funext i
  rw [cSoft_eq (by norm_num)]
  simp
  norm_num
  ring

end Verif
