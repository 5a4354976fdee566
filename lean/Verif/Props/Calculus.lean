import Verif.Props.Closed

/-!
# C01-C10: the calculus of operator objects
-/

open scoped RealInnerProductSpace

namespace Verif

variable {ι κ : Type} [Fintype ι] [Fintype κ]
variable {E : Type} [NormedAddCommGroup E] [InnerProductSpace ℝ E]

/-! ## C02 -/

/-- C02: with only `prox` implemented, the inherited `proxdual` satisfies the Moreau identity exactly
(whenever `prox` returns). -/
theorem C02_moreau_inherited_proxdual (f : ProxOp E) (hp : f.prox?.isSome) (hd : f.proxdual? = none)
    (x p : E) (τ : ℝ) (hτ : 0 < τ) (h : f.prox x τ = .ok p) :
    ∃ d, f.proxdual ((1 / τ) • x) (1 / τ) = .ok d ∧ x = p + τ • d := by
  obtain ⟨m, hm⟩ := Option.isSome_iff_exists.1 hp
  have hτ' : 0 < 1 / τ := by positivity
  have e : (1 / (1 / τ)) • ((1 / τ) • x) = x := by
    rw [smul_smul]; field_simp; exact one_smul _ _
  have e2 : 1 / (1 / τ) = τ := by field_simp
  have := proxdual_inherited hm hd hτ' (x := (1 / τ) • x) (p := p) (by rw [e, e2]; exact h)
  refine ⟨_, this, ?_⟩
  rw [smul_sub, smul_smul, smul_smul, mul_one_div_cancel hτ.ne', one_smul, one_smul]; abel

/-- C02: with only `proxdual` implemented, the inherited `prox` satisfies the Moreau identity. -/
theorem C02_moreau_inherited_prox (f : ProxOp E) (hd : f.proxdual?.isSome) (hp : f.prox? = none)
    (x d : E) (τ : ℝ) (hτ : 0 < τ) (h : f.proxdual ((1 / τ) • x) (1 / τ) = .ok d) :
    ∃ p, f.prox x τ = .ok p ∧ x = p + τ • d := by
  obtain ⟨m, hm⟩ := Option.isSome_iff_exists.1 hd
  exact ⟨_, prox_inherited hp hm hτ h, by abel⟩

/-- C02: `pyproximal.utils.moreau` accepts every such operator, for any tolerance. -/
theorem C02_moreau_test (f : ProxOp E) (hp : f.prox?.isSome) (hd : f.proxdual? = none)
    (x p : E) (τ tol : ℝ) (hτ : 0 < τ) (htol : 0 ≤ tol) (h : f.prox x τ = .ok p) (raiseerror : Bool) :
    moreauTest f x τ tol raiseerror = .ok true := by
  obtain ⟨d, h1, h2⟩ := C02_moreau_inherited_proxdual f hp hd x p τ hτ h
  have h0 : ‖x - (p + τ • d)‖ ≤ tol := by rw [← h2, sub_self, norm_zero]; exact htol
  simp only [moreauTest, h, h1, bind, Except.bind, if_pos h0]; rfl

/-- C02: `pyproximal.utils.moreau` reports operators that violate the identity. -/
theorem C02_moreau_test_sound (f : ProxOp E) (x p d : E) (τ tol : ℝ) (h : f.prox x τ = .ok p)
    (hd : f.proxdual ((1 / τ) • x) (1 / τ) = .ok d) (hbad : tol < ‖x - (p + τ • d)‖) :
    moreauTest f x τ tol true = .error .valueError ∧ moreauTest f x τ tol false = .ok false := by
  simp only [moreauTest, h, hd, bind, Except.bind, if_neg (not_le.2 hbad)]; exact ⟨rfl, rfl⟩

/-- C02 for the hand-written pair of `Euclidean`. -/
theorem C02_moreau_euclidean (σ : ℝ) (hσ : 0 < σ) (x : E) (τ : ℝ) (hτ : 0 < τ) :
    ∃ p d, (Euclidean σ).prox x τ = .ok p ∧ (Euclidean σ).proxdual ((1 / τ) • x) (1 / τ) = .ok d ∧ x = p + τ • d := by
  have hm : max ‖x‖ (τ * σ) ≠ 0 := (lt_max_of_lt_right (by positivity)).ne'
  have hm2 : max ‖(1 / τ) • x‖ σ ≠ 0 := (lt_max_of_lt_right hσ).ne'
  refine ⟨_, _, by simp only [ProxOp.prox, Euclidean, checkTau_pos hτ, if_neg hm]; rfl, by
    simp only [ProxOp.proxdual, Euclidean, checkTau_pos (by positivity : 0 < 1 / τ), if_neg hm2]; rfl, ?_⟩
  have e : max ‖(1 / τ) • x‖ σ = max ‖x‖ (τ * σ) / τ := by
    rw [norm_smul, Real.norm_eq_abs, abs_of_pos (by positivity), ← max_div_div_right hτ.le]
    congr 1 <;> field_simp
  rw [e, smul_smul, smul_smul, smul_smul, ← add_smul]
  have : 1 - τ * σ / max ‖x‖ (τ * σ) + τ * (1 / (max ‖x‖ (τ * σ) / τ)) * σ * (1 / τ) = 1 := by
    field_simp; ring
  rw [this, one_smul]

/-- C02 for the hand-written pair of `L21`. -/
theorem C02_moreau_l21 (σ : ℝ) (hσ : 0 < σ) (x : Vec (ι × κ)) (τ : ℝ) (hτ : 0 < τ) :
    ∃ p d, (L21 σ).prox x τ = .ok p ∧ (L21 σ).proxdual ((1 / τ) • x) (1 / τ) = .ok d ∧ x = p + τ • d := by
  have hm : ¬ ∃ ij : ι × κ, max (colNorm x ij.2) (τ * σ) = 0 := by
    rintro ⟨ij, h⟩
    exact (lt_max_of_lt_right (by positivity : 0 < τ * σ)).ne' h
  have hm2 : ¬ ∃ ij : ι × κ, max (colNorm ((1 / τ) • x) ij.2) σ = 0 := by
    rintro ⟨ij, h⟩
    exact (lt_max_of_lt_right hσ).ne' h
  refine ⟨_, _, by simp only [ProxOp.prox, L21, checkTau_pos hτ, if_neg hm]; rfl, by
    simp only [ProxOp.proxdual, L21, checkTau_pos (by positivity : 0 < 1 / τ), if_neg hm2]; rfl, ?_⟩
  ext ij
  have e : max (colNorm ((1 / τ) • x) ij.2) σ = max (colNorm x ij.2) (τ * σ) / τ := by
    rw [colNorm_eq, map_smul, norm_smul, Real.norm_eq_abs, abs_of_pos (by positivity), ← max_div_div_right hτ.le,
      colNorm_eq]
    congr 1 <;> field_simp
  have hpos : 0 < max (colNorm x ij.2) (τ * σ) := lt_max_of_lt_right (by positivity)
  simp only [PiLp.add_apply, PiLp.smul_apply, smul_eq_mul]
  rw [e]
  field_simp; ring

/-- C02 for the hand-written pair of `L1`, with or without offset. -/
theorem C02_moreau_l1 (σ : ℝ) (hσ : 0 ≤ σ) (g : Option (Vec ι)) (x : Vec ι) (τ : ℝ) (hτ : 0 < τ) :
    ∃ p d, (L1 σ g).prox x τ = .ok p ∧ (L1 σ g).proxdual ((1 / τ) • x) (1 / τ) = .ok d ∧ x = p + τ • d := by
  have hτ' : 0 < 1 / τ := by positivity
  cases g with
  | none =>
    refine ⟨_, _, by simp only [ProxOp.prox, L1, checkTau_pos hτ]; rfl, by
      simp only [ProxOp.proxdual, L1, checkTau_pos hτ']; rfl, ?_⟩
    ext i
    simp only [PiLp.add_apply, PiLp.smul_apply, smul_eq_mul, softthreshold, softScalar, boxProj, boxClip,
      maxLower, minUpper, npsign]
    have e : 1 / τ * x i = x i / τ := by ring
    rw [e]
    have ht : 0 ≤ τ * σ := by positivity
    rcases lt_trichotomy (x i) 0 with h | h | h
    · rw [if_neg (not_lt.2 h.le), if_pos h, abs_of_neg h]
      rcases le_total (-x i - τ * σ) 0 with h1 | h1
      · rw [max_eq_right h1, max_eq_left, min_eq_left]
        · field_simp; ring
        · rw [div_le_iff₀ hτ]; linarith
        · rw [le_div_iff₀ hτ]; linarith
      · rw [max_eq_left h1, max_eq_right, min_eq_left]
        · ring
        · linarith
        · rw [div_le_iff₀ hτ]; linarith
    · rw [h]; simp [hσ]
    · rw [if_pos h, abs_of_pos h]
      rcases le_total (x i - τ * σ) 0 with h1 | h1
      · rw [max_eq_right h1, max_eq_left, min_eq_left]
        · field_simp; ring
        · rw [div_le_iff₀ hτ]; linarith
        · rw [le_div_iff₀ hτ]; nlinarith
      · rw [max_eq_left h1, max_eq_left, min_eq_right]
        · ring
        · rw [le_div_iff₀ hτ]; linarith
        · rw [le_div_iff₀ hτ]; nlinarith
  | some g =>
    have e : (1 / (1 / τ)) • ((1 / τ) • x) = x := by
      rw [smul_smul]; field_simp; exact one_smul _ _
    have e2 : 1 / (1 / τ) = τ := by field_simp
    refine ⟨softthreshold (x - g) (fun _ => τ * σ) + g,
      (1 / τ) • x - (1 / τ) • (softthreshold (x - g) (fun _ => τ * σ) + g), ?_, ?_, ?_⟩
    · simp only [ProxOp.prox, L1, checkTau_pos hτ]
    · simp only [ProxOp.proxdual, L1, checkTau_pos hτ', ProxOp.moreauStep, e2, checkTau_pos hτ]
      rw [e2] at e
      rw [e]; rfl
    · rw [smul_sub, smul_smul, smul_smul, mul_one_div_cancel hτ.ne', one_smul, one_smul]; abel

example : ∃ d, (Box (ι := Fin 1) (fun _ => some 0) (fun _ => none)).proxdual ((1 / 2 : ℝ) • vmk fun _ => -1) (1 / 2) = .ok d
    ∧ (vmk fun _ : Fin 1 => (-1 : ℝ)) = boxProj (fun _ => some 0) (fun _ => none) (vmk fun _ => -1) + (2 : ℝ) • d :=
  C02_moreau_inherited_proxdual _ rfl rfl _ _ 2 two_pos (by simp only [ProxOp.prox, Box, checkTau_pos two_pos])

/-! ## C03 -/

/-- C03: if `prox` is the proximal map of a convex `F`, the inherited `proxdual` is the one of `F*`. -/
theorem C03_proxdual_conjugate (f : ProxOp E) (F : XFun E) (hF : F.Convex) (hp : f.prox?.isSome)
    (hd : f.proxdual? = none) (h : ProxExact f F) : ProxdualExact f F.conj := by
  obtain ⟨m, hm⟩ := Option.isSome_iff_exists.1 hp
  intro x τ hτ
  have hτ' : 0 < 1 / τ := by positivity
  obtain ⟨p, h1, h2⟩ := h ((1 / τ) • x) (1 / τ) hτ'
  refine ⟨_, proxdual_inherited hm hd hτ h1, ?_⟩
  have := conj_isProx hF hτ' h2
  have e2 : 1 / (1 / τ) = τ := by field_simp
  rw [e2, smul_sub, smul_smul, mul_one_div_cancel hτ.ne', one_smul] at this
  exact this

/-- C03, the other direction: an inherited `prox` is the proximal map of the conjugate of the function
whose proximal map `proxdual` computes. -/
theorem C03_prox_conjugate (f : ProxOp E) (G : XFun E) (hG : G.Convex) (hp : f.prox? = none)
    (hd : f.proxdual?.isSome) (h : ProxdualExact f G) : ProxExact f G.conj := by
  obtain ⟨m, hm⟩ := Option.isSome_iff_exists.1 hd
  intro x τ hτ
  have hτ' : 0 < 1 / τ := by positivity
  obtain ⟨p, h1, h2⟩ := h ((1 / τ) • x) (1 / τ) hτ'
  refine ⟨_, prox_inherited hp hm hτ h1, ?_⟩
  have := conj_isProx hG hτ' h2
  have e2 : 1 / (1 / τ) = τ := by field_simp
  rw [e2, smul_sub, smul_smul, mul_one_div_cancel hτ.ne', one_smul] at this
  exact this

/-- An operator implementing neither method fails with `RecursionError` for every valid step. -/
theorem C03_neither_method (f : ProxOp E) (hp : f.prox? = none) (hd : f.proxdual? = none) (x : E) (τ : ℝ)
    (hτ : 0 < τ) : f.prox x τ = .error .recursionError ∧ f.proxdual x τ = .error .recursionError := by
  simp only [ProxOp.prox, ProxOp.proxdual, hp, hd, checkTau_pos hτ, ProxOp.moreauStep]
  exact ⟨rfl, rfl⟩

/-- Used to instantiate the theorems. -/
lemma boxSet_convex (lower upper : ι → Option ℝ) : _root_.Convex ℝ (boxSet lower upper) := by
  intro x hx y hy a b ha hb hab i
  have e : (a • x + b • y) i = a * x i + b * y i := rfl
  refine ⟨fun l hl => ?_, fun u hu => ?_⟩
  · have h1 := (hx i).1 l hl
    have h2 := (hy i).1 l hl
    rw [e]
    calc l = a * l + b * l := by rw [← add_mul, hab, one_mul]
      _ ≤ _ := by gcongr
  · have h1 := (hx i).2 u hu
    have h2 := (hy i).2 u hu
    rw [e]
    calc _ ≤ a * u + b * u := by gcongr
      _ = u := by rw [← add_mul, hab, one_mul]

lemma box_proxExact (lower upper : ι → Option ℝ)
    (hne : ∀ i a b, lower i = some a → upper i = some b → a ≤ b) :
    ProxExact (Box lower upper) (XFun.indicator (boxSet lower upper)) := by
  intro x τ hτ
  obtain ⟨p, h1, h2⟩ := C21_box_prox lower upper hne x τ hτ
  exact ⟨p, h1, (isProj_iff_isProx hτ).2 h2.1⟩

/-- Instance: the inherited `proxdual` of `Box` is the proximal map of the support function. -/
example : ProxdualExact (Box (ι := Fin 3) (fun _ => some (-1)) (fun _ => some 2))
    (XFun.indicator (boxSet (fun _ => some (-1)) (fun _ => some 2))).conj :=
  C03_proxdual_conjugate _ _ (indicator_convex (boxSet_convex _ _)) rfl rfl
    (box_proxExact _ _ (by rintro i a b ⟨⟩ ⟨⟩; norm_num))

/-! ## C04 -/

/-- C04: `f + v`. -/
theorem C04_add_linear (f : ProxOp E) (F : XFun E) (v : E) (h : ProxExact f F) :
    ∃ g, f.affineAddition (.array v) = .ok g ∧ ProxExact g (F.addLinear v) ∧
      (∀ x a, f.call x = .ok (.num a) → g.call x = .ok (.num (a + ⟪v, x⟫))) ∧
      (∀ x u, f.grad x = .ok u → g.grad x = .ok (u + v)) := by
  refine ⟨_, rfl, fun x τ hτ => ?_, fun x a ha => ?_, fun x u hu => ?_⟩
  · obtain ⟨p, h1, h2⟩ := h (x - τ • v) τ hτ
    exact ⟨p, (checkTau_pos hτ _).trans h1, (addLinear_isProx hτ).2 h2⟩
  · simp only [ProxOp.sumOp, ha]; rfl
  · simp only [ProxOp.grad, ProxOp.sumOp] at hu ⊢
    rw [hu]; rfl

/-- C04: `f - v`. -/
theorem C04_sub_linear (f : ProxOp E) (F : XFun E) (v : E) (h : ProxExact f F) :
    ∃ g, f.subOp (.array v) = .ok g ∧ ProxExact g (F.addLinear (-v)) ∧
      (∀ x a, f.call x = .ok (.num a) → g.call x = .ok (.num (a - ⟪v, x⟫))) ∧
      (∀ x u, f.grad x = .ok u → g.grad x = .ok (u - v)) := by
  obtain ⟨g, h1, h2, h3, h4⟩ := C04_add_linear f F (-v) h
  refine ⟨g, h1, h2, fun x a ha => ?_, fun x u hu => ?_⟩
  · rw [h3 x a ha, inner_neg_left, sub_eq_add_neg]
  · rw [h4 x u hu, sub_eq_add_neg]

/-- C04, gradients: when `f.grad` is the gradient of `F`, that of `f + v` is the gradient of `F + <v,.>`. -/
theorem C04_add_linear_grad (f : ProxOp E) (F : E → ℝ) (v : E) (h : GradExact f F) :
    ∃ g, f.affineAddition (.array v) = .ok g ∧ GradExact g fun x => F x + ⟪v, x⟫ := by
  refine ⟨_, rfl, fun x => ?_⟩
  obtain ⟨u, h1, h2⟩ := h x
  refine ⟨u + v, by simp only [ProxOp.grad, ProxOp.sumOp] at h1 ⊢; rw [h1]; rfl, ?_⟩
  unfold IsGrad at *
  rw [map_add]
  exact h2.add (innerSL ℝ v).hasFDerivAt

/-- Where `f` is an indicator (a bool), the value returned by `f + v` counts `True` as 1. -/
theorem C04_indicator_value (f : ProxOp E) (v x : E) (b : Bool) (h : f.call x = .ok (.bool b)) :
    (f.sumOp v).call x = .ok (.num ((if b then 1 else 0) + ⟪v, x⟫)) := by
  simp only [ProxOp.sumOp, h]; rfl

lemma euclidean_proxExact {σ : ℝ} (hσ : 0 < σ) : ProxExact (Euclidean (E := E) σ) (XFun.ofReal fun y => σ * ‖y‖) := by
  intro x τ hτ
  obtain ⟨p, h1, h2⟩ := C12_euclidean_prox σ hσ x τ hτ
  exact ⟨p, h1, h2.1⟩

example : ∃ g, (Euclidean (E := ℝ) 1).affineAddition (.array 3) = .ok g ∧
    ProxExact g ((XFun.ofReal fun y : ℝ => 1 * ‖y‖).addLinear 3) := by
  obtain ⟨g, h1, h2, -⟩ := C04_add_linear (Euclidean (E := ℝ) 1) _ 3 (euclidean_proxExact one_pos)
  exact ⟨g, h1, h2⟩

/-! ## C05 -/

/-- C05: `sigma * f` with a Python float `sigma > 0`. -/
theorem C05_scaling (f : ProxOp E) (F : XFun E) (σ : ℝ) (hσ : 0 < σ) (h : ProxExact f F) :
    ∃ g, f.rmul (.float σ) = .ok g ∧ ProxExact g (F.smul σ) ∧
      (∀ x a, f.call x = .ok (.num a) → g.call x = .ok (.num (σ * a))) ∧
      (∀ x u, f.grad x = .ok u → g.grad x = .ok (σ • u)) := by
  refine ⟨_, rfl, fun x τ hτ => ?_, fun x a ha => ?_, fun x u hu => ?_⟩
  · obtain ⟨p, h1, h2⟩ := h x (σ * τ) (by positivity)
    exact ⟨p, (checkTau_pos hτ _).trans h1, (smul_isProx hσ hτ).2 h2⟩
  · simp only [ProxOp.postOp, ha]; rfl
  · simp only [ProxOp.grad, ProxOp.postOp] at hu ⊢
    rw [hu]; rfl

/-- C05: `sigma <= 0` is reported as `ValueError` by `prox` (and only then). -/
theorem C05_scaling_nonpos (f : ProxOp E) (σ : ℝ) (hσ : σ ≤ 0) (hf : RejectsBadTau f) (x : E) (τ : ℝ) :
    ∃ g, f.rmul (.float σ) = .ok g ∧ g.prox x τ = .error .valueError := by
  refine ⟨_, rfl, ?_⟩
  by_cases hτ : 0 < τ
  · simp only [ProxOp.prox, ProxOp.postOp, checkTau_pos hτ]
    exact (hf x (σ * τ) (mul_nonpos_of_nonpos_of_nonneg hσ hτ.le)).1
  · simp only [ProxOp.prox, ProxOp.postOp, checkTau_nonpos (not_lt.1 hτ)]

example : ∃ g, (Euclidean (E := ℝ) 1).rmul (.float 3) = .ok g ∧
    ProxExact g ((XFun.ofReal fun y : ℝ => 1 * ‖y‖).smul 3) := by
  obtain ⟨g, h1, h2, -⟩ := C05_scaling (Euclidean (E := ℝ) 1) _ 3 three_pos (euclidean_proxExact one_pos)
  exact ⟨g, h1, h2⟩

/-! ## C06 -/

/-- C06: `f.precomposition(a, b)`, `a != 0`, array or scalar `b`. -/
theorem C06_precomposition (const : ℝ → E) (f : ProxOp E) (F : XFun E) (a : ℝ) (ha : a ≠ 0) (b : E)
    (h : ProxExact f F) :
    ∃ g, f.precomposition const (.float a) (.array b) = .ok g ∧ ProxExact g (F.comp fun x => a • x + b) ∧
      (∀ x, g.call x = f.call (a • x + b)) := by
  refine ⟨_, rfl, fun x τ hτ => ?_, fun x => rfl⟩
  obtain ⟨p, h1, h2⟩ := h (a • x + b) (a ^ 2 * τ) (by positivity)
  refine ⟨(1 / a) • (p - b), ?_, (comp_affine_isProx ha hτ).2 h2⟩
  simp only [ProxOp.prox, ProxOp.preOp, checkTau_pos hτ] at h1 ⊢
  rw [h1]; rfl

theorem C06_precomposition_scalar (const : ℝ → E) (f : ProxOp E) (F : XFun E) (a : ℝ) (ha : a ≠ 0) (b : ℝ)
    (h : ProxExact f F) :
    ∃ g, f.precomposition const (.float a) (.float b) = .ok g ∧ ProxExact g (F.comp fun x => a • x + const b) := by
  obtain ⟨g, h1, h2, -⟩ := C06_precomposition const f F a ha (const b) h
  exact ⟨g, h1, h2⟩

/-- C06, gradients. -/
theorem C06_precomposition_grad (const : ℝ → E) (f : ProxOp E) (F : E → ℝ) (a : ℝ) (b : E) (h : GradExact f F) :
    ∃ g, f.precomposition const (.float a) (.array b) = .ok g ∧ GradExact g fun x => F (a • x + b) := by
  refine ⟨_, rfl, fun x => ?_⟩
  obtain ⟨u, h1, h2⟩ := h (a • x + b)
  refine ⟨a • u, by simp only [ProxOp.grad, ProxOp.preOp] at h1 ⊢; rw [h1]; rfl, ?_⟩
  unfold IsGrad at *
  have hA : HasFDerivAt (fun x : E => a • x + b) (a • ContinuousLinearMap.id ℝ E) x :=
    ((hasFDerivAt_id x).const_smul a).add_const b
  have := h2.comp x hA
  refine this.congr_fderiv ?_
  ext y
  simp [real_inner_smul_left, real_inner_smul_right]

/-- C06: `a = 0` makes `prox` raise `ValueError`. -/
theorem C06_precomposition_zero (const : ℝ → E) (f : ProxOp E) (b : E) (hf : RejectsBadTau f) (x : E) (τ : ℝ) :
    ∃ g, f.precomposition const (.float 0) (.array b) = .ok g ∧ g.prox x τ = .error .valueError := by
  refine ⟨_, rfl, ?_⟩
  by_cases hτ : 0 < τ
  · have := (hf ((0 : ℝ) • x + b) ((0 : ℝ) ^ 2 * τ) (by simp)).1
    simp only [ProxOp.prox, ProxOp.preOp, checkTau_pos hτ] at this ⊢
    rw [this]; rfl
  · simp only [ProxOp.prox, ProxOp.preOp, checkTau_nonpos (not_lt.1 hτ)]

example : ∃ g, (Euclidean (E := ℝ) 1).precomposition id (.float (-2)) (.array 5) = .ok g ∧
    ProxExact g ((XFun.ofReal fun y : ℝ => 1 * ‖y‖).comp fun x => (-2 : ℝ) • x + 5) := by
  obtain ⟨g, h1, h2, -⟩ := C06_precomposition id (Euclidean (E := ℝ) 1) _ (-2) (by norm_num) 5
    (euclidean_proxExact one_pos)
  exact ⟨g, h1, h2⟩

/-! ## C07 -/

/-- C07, first two clauses: `f.H` swaps `prox` and `proxdual`; `f.H.H` has the methods of `f`. -/
theorem C07_adjoint_swap_partial (f : ProxOp E) (hf : RejectsBadTau f) (x : E) (τ : ℝ) :
    f.adjoint.prox x τ = f.proxdual x τ ∧ f.adjoint.proxdual x τ = f.prox x τ ∧
    f.adjoint.adjoint.prox x τ = f.prox x τ ∧ f.adjoint.adjoint.proxdual x τ = f.proxdual x τ ∧
    f.adjoint.adjoint.call x = f.call x := by
  by_cases hτ : 0 < τ
  · simp only [ProxOp.prox, ProxOp.proxdual, ProxOp.adjoint, checkTau_pos hτ, and_self]
  · have h := not_lt.1 hτ
    obtain ⟨h1, h2⟩ := hf x τ h
    rw [h1, h2]
    simp only [ProxOp.prox, ProxOp.proxdual, ProxOp.adjoint, checkTau_nonpos h, and_self]

/-- C07: `f.H.prox` is the proximal map of the conjugate. -/
theorem C07_adjoint_conjugate (f : ProxOp E) (F : XFun E) (hF : F.Convex) (hp : f.prox?.isSome)
    (hd : f.proxdual? = none) (h : ProxExact f F) : ProxExact f.adjoint F.conj := by
  intro x τ hτ
  obtain ⟨p, h1, h2⟩ := C03_proxdual_conjugate f F hF hp hd h x τ hτ
  exact ⟨p, (checkTau_pos hτ _).trans h1, h2⟩

/-- C07, last clause, fails: `f.H(x)` is `f(x)`, not the conjugate. -/
theorem C07_adjoint_call_refuted :
    ¬ ∀ (f : ProxOp ℝ) (F : ℝ → ℝ), (XFun.ofReal F).Convex → ProxExact f (XFun.ofReal F) → EvaluatesNum f F →
      ∀ x ∈ (XFun.ofReal F).conj.dom, f.adjoint.call x = .ok (.num ((XFun.ofReal F).conj.val x)) := by
  intro h
  have hub : ∀ a ∈ (fun y : ℝ => ⟪(1 : ℝ), y⟫ - (XFun.ofReal fun y : ℝ => 1 * ‖y‖).val y) ''
      (XFun.ofReal fun y : ℝ => 1 * ‖y‖).dom, a ≤ 0 := by
    rintro a ⟨y, -, rfl⟩
    simp only [XFun.ofReal, one_mul, inner_real, Real.norm_eq_abs]
    linarith [le_abs_self y]
  have h1 := h (Euclidean 1) (fun y => 1 * ‖y‖) (norm_convex zero_le_one) (euclidean_proxExact one_pos)
    (C12_euclidean_call 1) 1 ⟨0, hub⟩
  have h2 : (XFun.ofReal fun y : ℝ => 1 * ‖y‖).conj.val 1 ≤ 0 := csSup_le ⟨_, 0, Set.mem_univ _, rfl⟩ hub
  simp only [ProxOp.adjoint, Euclidean, Except.ok.injEq, CallVal.num.injEq] at h1
  rw [← h1] at h2
  norm_num at h2

/-! ## C08 -/

/-- C08: the inherited `grad` is the gradient of the Moreau envelope with parameter `sigmame`. -/
theorem C08_moreau_gradient (f : ProxOp E) (F : XFun E) (hF : F.Convex) (hg : f.grad? = none)
    (hσ : 0 < f.sigmame) (h : ProxExact f F) : GradExact f (moreauEnv F f.sigmame) := by
  intro x
  obtain ⟨p, h1, h2⟩ := h x f.sigmame hσ
  refine ⟨(1 / f.sigmame) • (x - p), by simp only [ProxOp.grad, hg, h1]; rfl, ?_⟩
  apply isGrad_of_quad (C := 1 / (2 * f.sigmame))
  intro y
  obtain ⟨q, -, h4⟩ := h y f.sigmame hσ
  exact moreauEnv_bound hF hσ h2 h4

/-- C08: it is Lipschitz with constant `1 / sigmame`. -/
theorem C08_moreau_gradient_lipschitz (f : ProxOp E) (F : XFun E) (hF : F.Convex) (hg : f.grad? = none)
    (hσ : 0 < f.sigmame) (h : ProxExact f F) (x y u v : E) (hu : f.grad x = .ok u) (hv : f.grad y = .ok v) :
    ‖u - v‖ ≤ 1 / f.sigmame * ‖x - y‖ := by
  obtain ⟨p, h1, h2⟩ := h x f.sigmame hσ
  obtain ⟨q, h3, h4⟩ := h y f.sigmame hσ
  have e1 : f.grad x = .ok ((1 / f.sigmame) • (x - p)) := by simp only [ProxOp.grad, hg, h1]; rfl
  have e2 : f.grad y = .ok ((1 / f.sigmame) • (y - q)) := by simp only [ProxOp.grad, hg, h3]; rfl
  rw [hu] at e1; rw [hv] at e2
  cases e1; cases e2
  rw [← smul_sub, norm_smul, Real.norm_eq_abs, abs_of_pos (by positivity)]
  refine mul_le_mul_of_nonneg_left ?_ (by positivity)
  have := prox_firm hF hσ h2 h4
  exact le_of_sq_le_sq₀ this
where
  le_of_sq_le_sq₀ {p q x y : E} (h : ‖p - q‖ ^ 2 + ‖(x - p) - (y - q)‖ ^ 2 ≤ ‖x - y‖ ^ 2) :
      ‖(x - p) - (y - q)‖ ≤ ‖x - y‖ :=
    (pow_le_pow_iff_left₀ (norm_nonneg _) (norm_nonneg _) two_ne_zero).1 (by nlinarith [sq_nonneg ‖p - q‖])

example : GradExact (Box (ι := Fin 3) (fun _ => some (-1)) (fun _ => some 2))
    (moreauEnv (XFun.indicator (boxSet (fun _ => some (-1)) (fun _ => some 2))) 1) :=
  C08_moreau_gradient (Box (ι := Fin 3) (fun _ => some (-1)) (fun _ => some 2)) _
    (indicator_convex (boxSet_convex _ _)) rfl one_pos (box_proxExact _ _ (by rintro i a b ⟨⟩ ⟨⟩; norm_num))

/-! ## C09 -/

/-- C09, except integers: which operands the overloads accept. -/
theorem C09_dispatch_partial (const : ℝ → E) (f : ProxOp E) :
    (∀ o, (∃ g, f.affineAddition o = .ok g) ↔ ∃ v, o = .array v) ∧
    (∀ o, (∀ v, o ≠ .array v) → f.affineAddition o = .error .notImplementedError) ∧
    (∀ o, (∃ g, f.subOp o = .ok g) ↔ ∃ v, o = .array v) ∧
    (∀ o, (∃ g, f.postcomposition o = .ok g) ↔ ∃ s, o = .float s) ∧
    (∀ o, (∀ s, o ≠ .float s) → f.postcomposition o = .error .notImplementedError) ∧
    (∀ a b, (∃ g, f.precomposition const a b = .ok g) ↔ (∃ s, a = .float s) ∧ ((∃ t, b = .float t) ∨ ∃ v, b = .array v)) ∧
    (∀ s, f.rmul (.float s) = f.postcomposition (.float s)) ∧
    (∀ g, f.rmul (.op g) = .ok (f.chainOp g)) := by
  refine ⟨?_, ?_, ?_, ?_, ?_, ?_, fun _ => rfl, fun _ => rfl⟩
  · intro o; cases o <;> simp [ProxOp.affineAddition]
  · intro o ho; cases o <;> first | rfl | exact absurd rfl (ho _)
  · intro o; cases o <;> simp [ProxOp.subOp, ProxOp.affineAddition]
  · intro o; cases o <;> simp [ProxOp.postcomposition]
  · intro o ho; cases o <;> first | rfl | exact absurd rfl (ho _)
  · intro a b; cases a <;> cases b <;> simp [ProxOp.precomposition]

/-- C09 fails for Python integers: `2 * f` raises `NotImplementedError`. -/
theorem C09_int_multiplier_refuted :
    ¬ ∀ (f : ProxOp ℝ) (n : ℤ), 0 < n → ∃ g, f.rmul (.int n) = .ok g := by
  intro h
  obtain ⟨g, hg⟩ := h (Euclidean 1) 2 two_pos
  simp [ProxOp.rmul, ProxOp.postcomposition] at hg

/-- C09: a chain `g * f` applies `f` first and then `g`, both with the same step. -/
theorem C09_chain (f g : ProxOp E) (x p : E) (τ : ℝ) (hτ : 0 < τ) (h : f.prox x τ = .ok p) :
    ∃ c, f.rmul (.op g) = .ok c ∧ c.prox x τ = g.prox p τ := by
  refine ⟨_, rfl, ?_⟩
  simp only [ProxOp.prox, ProxOp.chainOp, checkTau_pos hτ] at h ⊢
  rw [h]; rfl

/-! ## C10 -/

/-- C10: the returned point is the only minimiser. -/
theorem C10_prox_unique (f : ProxOp E) (F : XFun E) (hF : F.Convex) (h : ProxExact f F) (x p : E) (τ : ℝ) (hτ : 0 < τ)
    (hp : f.prox x τ = .ok p) : IsUniqueProx F τ x p := by
  obtain ⟨p', h1, h2⟩ := h x τ hτ
  rw [hp] at h1; cases h1
  exact ⟨h2, fun q hq => h2.unique hF hτ hq⟩

/-- C10: `prox` is firmly non-expansive, hence 1-Lipschitz. -/
theorem C10_prox_firmly_nonexpansive (f : ProxOp E) (F : XFun E) (hF : F.Convex) (h : ProxExact f F)
    (x y p q : E) (τ : ℝ) (hτ : 0 < τ) (hp : f.prox x τ = .ok p) (hq : f.prox y τ = .ok q) :
    ‖p - q‖ ^ 2 + ‖(x - p) - (y - q)‖ ^ 2 ≤ ‖x - y‖ ^ 2 ∧ ‖p - q‖ ≤ ‖x - y‖ := by
  have h1 := C10_prox_unique f F hF h x p τ hτ hp
  have h2 := C10_prox_unique f F hF h y q τ hτ hq
  have h3 := prox_firm hF hτ h1.1 h2.1
  refine ⟨h3, (pow_le_pow_iff_left₀ (norm_nonneg _) (norm_nonneg _) two_ne_zero).1 ?_⟩
  nlinarith [sq_nonneg ‖(x - p) - (y - q)‖]

/-- C10: fixed points are exactly the minimisers, whatever the step. -/
theorem C10_prox_fixed_points (f : ProxOp E) (F : XFun E) (hF : F.Convex) (h : ProxExact f F) (x : E) (τ : ℝ)
    (hτ : 0 < τ) : f.prox x τ = .ok x ↔ F.IsMin x := by
  constructor
  · intro hx
    have h1 := subgrad_of_isProx hF hτ (C10_prox_unique f F hF h x x τ hτ hx).1
    refine ⟨h1.1, fun y hy => ?_⟩
    have := h1.2 y hy
    simpa using this
  · intro hx
    obtain ⟨p, h1, h2⟩ := h x τ hτ
    have : IsProx F τ x x := isProx_of_subgrad hτ ⟨hx.1, fun y hy => by simpa using hx.2 y hy⟩
    rw [h1, h2.unique hF hτ this]

example : ∀ x τ, 0 < τ → ((Euclidean (E := ℝ) 1).prox x τ = .ok x ↔ (XFun.ofReal fun y : ℝ => 1 * ‖y‖).IsMin x) :=
  fun x τ hτ => C10_prox_fixed_points _ _ (norm_convex zero_le_one) (euclidean_proxExact one_pos) x τ hτ

end Verif
