import Verif.Props.ProxGrad
import Verif.Props.LowRank
import Verif.Lemmas.Envelope

/-! # Proximal points of support functions by accelerated projected gradient on the dual

`K` is a compact convex set of fields, `V` minus the adjoint of `D`, and `h x` the largest `-⟪D x, r⟫` over `K`. -/

open scoped RealInnerProductSpace

namespace Verif

variable {E F : Type} [NormedAddCommGroup E] [InnerProductSpace ℝ E] [NormedAddCommGroup F] [InnerProductSpace ℝ F] [FiniteDimensional ℝ F]

/-- The primal point of a field. -/
noncomputable def dualPrimal (V : F →ₗ[ℝ] E) (x : E) (γ : ℝ) (r : F) : E := x - γ • V r

/-- There is a dual solution, and its primal point is the proximal point. -/
lemma dual_solution {D : E →ₗ[ℝ] F} {V : F →ₗ[ℝ] E} (hadj : ∀ x r, ⟪D x, r⟫ = - ⟪x, V r⟫) {K : Set F} (hK : IsCompact K) (hKc : Convex ℝ K) (hK0 : (0 : F) ∈ K)
    {h : E → ℝ} (hle : ∀ x, ∀ r ∈ K, - ⟪D x, r⟫ ≤ h x) (hat : ∀ x, ∃ r ∈ K, - ⟪D x, r⟫ = h x) (x : E) {σ τ : ℝ} (hσ : 0 < σ) (hτ : 0 < τ) :
    ∃ c ∈ K, (∀ r ∈ K, ‖dualPrimal V x (σ * τ) c‖ ^ 2 / 2 ≤ ‖dualPrimal V x (σ * τ) r‖ ^ 2 / 2) ∧
      (∀ r ∈ K, ‖dualPrimal V x (σ * τ) r - dualPrimal V x (σ * τ) c‖ ^ 2 / 2 ≤ ‖dualPrimal V x (σ * τ) r‖ ^ 2 / 2 - ‖dualPrimal V x (σ * τ) c‖ ^ 2 / 2) ∧
      IsUniqueProx (XFun.ofReal fun y => σ * h y) τ x (dualPrimal V x (σ * τ) c) := by
  set γ := σ * τ with hγ
  have hγ0 : 0 < γ := mul_pos hσ hτ
  have hcont : Continuous fun r : F => ‖dualPrimal V x γ r‖ ^ 2 / 2 := by
    have := (LinearMap.continuous_of_finiteDimensional V)
    unfold dualPrimal
    fun_prop
  obtain ⟨c, hc, hmin⟩ := hK.exists_isMinOn (s := K) ⟨0, hK0⟩ hcont.continuousOn
  have hmin' : ∀ r ∈ K, ‖dualPrimal V x γ c‖ ^ 2 / 2 ≤ ‖dualPrimal V x γ r‖ ^ 2 / 2 := fun r hr => hmin hr
  have hvar : ∀ r ∈ K, 0 ≤ ⟪dualPrimal V x γ c, dualPrimal V x γ r - dualPrimal V x γ c⟫ := by
    intro r hr
    by_contra hneg
    push Not at hneg
    set w := dualPrimal V x γ r - dualPrimal V x γ c with hw
    have hline : ∀ t : ℝ, dualPrimal V x γ ((1 - t) • c + t • r) = dualPrimal V x γ c + t • w := fun t => by
      simp only [hw, dualPrimal, map_add, map_smul]
      module
    have hall : ∀ t : ℝ, 0 < t → t ≤ 1 → 0 ≤ 2 * ⟪dualPrimal V x γ c, w⟫ + t * ‖w‖ ^ 2 := by
      intro t h0 h1
      have h := hmin' _ (hKc hc hr (by linarith : 0 ≤ 1 - t) h0.le (by ring))
      rw [hline, norm_add_sq_real, real_inner_smul_right, norm_smul, mul_pow, Real.norm_eq_abs, sq_abs] at h
      have : 0 ≤ t * (2 * ⟪dualPrimal V x γ c, w⟫ + t * ‖w‖ ^ 2) := by nlinarith
      exact nonneg_of_mul_nonneg_right this h0
    rcases eq_or_ne (‖w‖) 0 with hz | hz
    · have := hall 1 one_pos le_rfl
      rw [hz] at this
      linarith
    · have hw2 : 0 < ‖w‖ ^ 2 := by positivity
      have h1 := hall (min 1 (-⟪dualPrimal V x γ c, w⟫ / ‖w‖ ^ 2)) (lt_min one_pos (div_pos (by linarith) hw2)) (min_le_left _ _)
      have h2 : min 1 (-⟪dualPrimal V x γ c, w⟫ / ‖w‖ ^ 2) * ‖w‖ ^ 2 ≤ -⟪dualPrimal V x γ c, w⟫ := by
        calc _ ≤ -⟪dualPrimal V x γ c, w⟫ / ‖w‖ ^ 2 * ‖w‖ ^ 2 := by gcongr; exact min_le_right _ _
          _ = _ := by field_simp
      linarith
  have hdual : ∀ r y, ⟪y, dualPrimal V x γ r - dualPrimal V x γ c⟫ = γ * ⟪D y, r - c⟫ := fun r y => by
    have : dualPrimal V x γ r - dualPrimal V x γ c = - (γ • V (r - c)) := by
      simp only [dualPrimal, map_sub]; module
    rw [this, inner_neg_right, real_inner_smul_right, hadj]
    ring
  refine ⟨c, hc, hmin', fun r hr => ?_, ?_⟩
  · have := hvar r hr
    have e : dualPrimal V x γ r = dualPrimal V x γ c + (dualPrimal V x γ r - dualPrimal V x γ c) := by abel
    have h := norm_add_sq_real (dualPrimal V x γ c) (dualPrimal V x γ r - dualPrimal V x γ c)
    rw [← e] at h
    linarith
  · apply isUniqueProx_of_subgrad hτ
    refine ⟨trivial, fun y _ => ?_⟩
    set u := dualPrimal V x γ c with hu
    have hatt : h u ≤ - ⟪D u, c⟫ := by
      obtain ⟨r, hr, hre⟩ := hat u
      have h := hvar r hr
      rw [hdual r u, inner_sub_right] at h
      have := nonneg_of_mul_nonneg_right h hγ0
      linarith
    have hle' := hle y c hc
    have hxu : x - u = γ • V c := by simp only [hu, dualPrimal]; abel
    rw [hxu, smul_smul, real_inner_smul_left, real_inner_comm, show ⟪y - u, V c⟫ = - ⟪D (y - u), c⟫ by rw [hadj]; ring, map_sub,
      inner_sub_left]
    have e : 1 / τ * γ = σ := by rw [hγ]; field_simp
    rw [e]
    simp only [XFun.ofReal]
    nlinarith [mul_le_mul_of_nonneg_left hatt hσ.le, mul_le_mul_of_nonneg_left hle' hσ.le]

lemma dual_isGrad {D : E →ₗ[ℝ] F} {V : F →ₗ[ℝ] E} (hadj : ∀ x r, ⟪D x, r⟫ = - ⟪x, V r⟫) (x : E) (γ : ℝ) (r : F) :
    IsGrad (fun r => ‖dualPrimal V x γ r‖ ^ 2 / 2) r (γ • D (dualPrimal V x γ r)) := by
  refine isGrad_lsq (γ • V) (fun y => -(γ • D y)) (fun r y => ?_) x r _ fun v => ?_
  · rw [LinearMap.smul_apply, real_inner_smul_left, inner_neg_right, real_inner_smul_right, real_inner_comm, real_inner_comm (D y), hadj]
    ring
  · rw [neg_neg]; rfl

omit [FiniteDimensional ℝ F] in
lemma dual_convex (V : F →ₗ[ℝ] E) (x : E) (γ : ℝ) : ConvexOn ℝ Set.univ fun r : F => ‖dualPrimal V x γ r‖ ^ 2 / 2 := by
  refine ⟨convex_univ, fun r _ s _ α β hα hβ hαβ => ?_⟩
  have e : dualPrimal V x γ (α • r + β • s) = α • dualPrimal V x γ r + β • dualPrimal V x γ s := by
    obtain rfl : β = 1 - α := by linarith
    simp only [dualPrimal, map_add, map_smul]
    module
  have h : ‖dualPrimal V x γ (α • r + β • s)‖ ≤ α * ‖dualPrimal V x γ r‖ + β * ‖dualPrimal V x γ s‖ := by
    rw [e]
    refine (norm_add_le _ _).trans ?_
    rw [norm_smul, norm_smul, Real.norm_of_nonneg hα, Real.norm_of_nonneg hβ]
  have h2 := pow_le_pow_left₀ (norm_nonneg _) h 2
  simp only [smul_eq_mul]
  obtain rfl : β = 1 - α := by linarith
  nlinarith [mul_nonneg (mul_nonneg hα hβ) (sq_nonneg (‖dualPrimal V x γ r‖ - ‖dualPrimal V x γ s‖))]

omit [FiniteDimensional ℝ F] in
lemma dual_V_norm {D : E →ₗ[ℝ] F} {V : F →ₗ[ℝ] E} (hadj : ∀ x r, ⟪D x, r⟫ = - ⟪x, V r⟫) {L : ℝ} (hL0 : 0 ≤ L) (hL : ∀ x, ‖D x‖ ^ 2 ≤ L * ‖x‖ ^ 2) (r : F) :
    ‖V r‖ ^ 2 ≤ L * ‖r‖ ^ 2 := by
  have h1 := hadj (V r) r
  rw [real_inner_self_eq_norm_sq] at h1
  have h2 := hL (V r)
  have h3 : ‖V r‖ ^ 2 ≤ ‖D (V r)‖ * ‖r‖ := by
    have := neg_le_of_abs_le (abs_real_inner_le_norm (D (V r)) r)
    linarith
  rcases eq_or_lt_of_le (norm_nonneg (V r)) with h0 | h0
  · rw [← h0, zero_pow two_ne_zero]; positivity
  · have h4 : (‖V r‖ ^ 2) ^ 2 ≤ (L * ‖r‖ ^ 2) * ‖V r‖ ^ 2 := by
      calc (‖V r‖ ^ 2) ^ 2 ≤ (‖D (V r)‖ * ‖r‖) ^ 2 := pow_le_pow_left₀ (by positivity) h3 2
        _ = ‖D (V r)‖ ^ 2 * ‖r‖ ^ 2 := by ring
        _ ≤ (L * ‖V r‖ ^ 2) * ‖r‖ ^ 2 := by gcongr
        _ = _ := by ring
    have h5 : 0 < ‖V r‖ ^ 2 := by positivity
    rw [sq (‖V r‖ ^ 2)] at h4
    exact le_of_mul_le_mul_right h4 h5

omit [FiniteDimensional ℝ F] in
lemma dual_lipschitz {D : E →ₗ[ℝ] F} {V : F →ₗ[ℝ] E} (hadj : ∀ x r, ⟪D x, r⟫ = - ⟪x, V r⟫) {L : ℝ} (hL0 : 0 ≤ L) (hL : ∀ x, ‖D x‖ ^ 2 ≤ L * ‖x‖ ^ 2) (x : E)
    (γ : ℝ) (r s : F) : ‖γ • D (dualPrimal V x γ r) - γ • D (dualPrimal V x γ s)‖ ≤ (L * γ ^ 2) * ‖r - s‖ := by
  have e : γ • D (dualPrimal V x γ r) - γ • D (dualPrimal V x γ s) = -(γ ^ 2) • D (V (r - s)) := by
    simp only [dualPrimal, map_sub, map_smul]; module
  rw [e, norm_smul, norm_neg, Real.norm_of_nonneg (sq_nonneg γ)]
  have h1 := hL (V (r - s))
  have h2 := dual_V_norm hadj hL0 hL (r - s)
  have h3 : ‖D (V (r - s))‖ ≤ L * ‖r - s‖ := by
    refine (pow_le_pow_iff_left₀ (by positivity) (by positivity) two_ne_zero).1 ?_
    calc _ ≤ L * ‖V (r - s)‖ ^ 2 := h1
      _ ≤ L * (L * ‖r - s‖ ^ 2) := by gcongr
      _ = _ := by ring
  calc _ ≤ γ ^ 2 * (L * ‖r - s‖) := by gcongr
    _ = _ := by ring

/-- Distance of the primal points to the proximal point along an accelerated run with step `1 / (L γ² m²)`, `m ≥ 1`. -/
lemma dual_rate {D : E →ₗ[ℝ] F} {V : F →ₗ[ℝ] E} (hadj : ∀ x r, ⟪D x, r⟫ = - ⟪x, V r⟫) {K : Set F} (hK : IsCompact K) (hKc : Convex ℝ K) (hK0 : (0 : F) ∈ K)
    {h : E → ℝ} (hle : ∀ x, ∀ r ∈ K, - ⟪D x, r⟫ ≤ h x) (hat : ∀ x, ∃ r ∈ K, - ⟪D x, r⟫ = h x) {L P : ℝ} (hL0 : 0 < L) (hL : ∀ x, ‖D x‖ ^ 2 ≤ L * ‖x‖ ^ 2)
    (hP : ∀ r ∈ K, ‖r‖ ^ 2 ≤ P) {clip : F → F} (hclip : ∀ r, IsProj K r (clip r)) (x : E) {σ τ mt : ℝ} (hσ : 0 < σ) (hτ : 0 < τ) (hmt : 1 ≤ mt) :
    ∃ u, IsUniqueProx (XFun.ofReal fun y => σ * h y) τ x u ∧ ∀ (S : ℕ → E) (X Y : ℕ → F) (t : ℕ → ℝ), X 0 = 0 → Y 0 = 0 → (∀ k,
      S (k + 1) = dualPrimal V x (σ * τ) (Y k) ∧
      X (k + 1) = clip (Y k - (1 / (L * (σ * τ) * mt ^ 2)) • D (dualPrimal V x (σ * τ) (Y k))) ∧
      t k = 1 + (k : ℝ) / 2 ∧ Y (k + 1) = X (k + 1) + ((t k - 1) / t (k + 1)) • (X (k + 1) - X k)) →
      ∀ k : ℕ, ‖S (k + 2) - u‖ ≤ 6 * (σ * τ) * mt * √(L * P) / (k + 1) := by
  obtain ⟨c, hc, hmin, hquad, hprox⟩ := dual_solution hadj hK hKc hK0 hle hat x hσ hτ
  have hγ : 0 < σ * τ := mul_pos hσ hτ
  set γ := σ * τ with hγd
  clear_value γ
  refine ⟨_, hprox, fun S X Y t hX0 hY0 hT => ?_⟩
  have hP0 : 0 ≤ P := (sq_nonneg _).trans (hP 0 hK0)
  have hmt0 : 0 < mt := by linarith
  set θ : ℝ := 1 / (L * γ ^ 2 * mt ^ 2) with hθ
  have hθ0 : 0 < θ := by rw [hθ]; positivity
  have hstep : ∀ k, Y k - (1 / (L * γ * mt ^ 2)) • D (dualPrimal V x γ (Y k)) = Y k - θ • (γ • D (dualPrimal V x γ (Y k))) := fun k => by
    rw [smul_smul]; congr 2; rw [hθ]; field_simp
  have hr := fista_rate (dual_convex V x γ) (indicator_convex hKc) (dual_isGrad hadj x γ) (X := X) (Y := Y)
    (s := t) (θ := fun _ => θ) (fun _ => hθ0) (fun _ => le_rfl) (by rw [hX0, hY0])
    (fun k => by
      rw [isProj_iff_isProx hθ0]
      have := hclip (Y k - θ • (γ • D (dualPrimal V x γ (Y k))))
      rw [← hstep, ← (hT k).2.1, hstep] at this
      exact this)
    (fun k => suff_of_lipschitz (dual_isGrad hadj x γ) (dual_lipschitz hadj hL0.le hL x γ) hθ0 (by
      rw [hθ, one_div, inv_mul_le_iff₀ (by positivity)]
      have : 1 ≤ mt ^ 2 := by nlinarith
      have h2 : 0 ≤ L * γ ^ 2 := by positivity
      nlinarith) _ _)
    (by rw [(hT 0).2.2.1]; simp) (fun k => by rw [(hT k).2.2.1]; have : (0 : ℝ) ≤ k := Nat.cast_nonneg k; linarith)
    (fun k => by
      rw [(hT k).2.2.1, (hT (k + 1)).2.2.1]; push_cast
      have : (0 : ℝ) ≤ k := Nat.cast_nonneg k
      nlinarith)
    (fun k => (hT k).2.2.2) (c := c) ⟨⟨trivial, hc⟩, fun y hy => by
      simp only [XFun.add, XFun.ofReal, XFun.indicator, add_zero]
      exact hmin y hy.2⟩
  have hmem : ∀ k, X k ∈ K := fun k => by
    cases k with
    | zero => rw [hX0]; exact hK0
    | succ k => rw [(hT k).2.1]; exact (hclip _).1
  set B : ℝ := γ * mt * √(L * P) with hB
  have hB0 : 0 ≤ B := by rw [hB]; positivity
  have hB2 : θ * B ^ 2 = P := by
    rw [hB, mul_pow, Real.sq_sqrt (by positivity), hθ]; field_simp
  have hX : ∀ k : ℕ, ‖dualPrimal V x γ (X (k + 1)) - dualPrimal V x γ c‖ ≤ 2 * B / (k + 2) := fun k => by
    have h1 := hr k
    simp only [XFun.indicator, add_zero, hX0, zero_sub, norm_neg] at h1
    have h2 := hquad _ (hmem (k + 1))
    have h3 := hP c hc
    rw [(hT k).2.2.1] at h1
    have h4 : θ * (1 + (k : ℝ) / 2) ^ 2 * ‖dualPrimal V x γ (X (k + 1)) - dualPrimal V x γ c‖ ^ 2 ≤ P := by
      have hpos : 0 ≤ θ * (1 + (k : ℝ) / 2) ^ 2 := by positivity
      have h5 := mul_le_mul_of_nonneg_left h2 hpos
      have h6 : 0 ≤ ‖(1 + (k : ℝ) / 2) • X (k + 1) - (1 + (k : ℝ) / 2 - 1) • X k - c‖ ^ 2 := by positivity
      nlinarith
    rw [le_div_iff₀ (by positivity)]
    refine (pow_le_pow_iff_left₀ (by positivity) (by positivity) two_ne_zero).1 ?_
    rw [← hB2] at h4
    have h7 : θ * (‖dualPrimal V x γ (X (k + 1)) - dualPrimal V x γ c‖ * (k + 2)) ^ 2 ≤ θ * (2 * B) ^ 2 := by nlinarith
    exact le_of_mul_le_mul_left h7 hθ0
  intro k
  rw [(hT (k + 1)).1, (hT k).2.2.2, (hT k).2.2.1, (hT (k + 1)).2.2.1]
  push_cast
  set β : ℝ := (1 + (k : ℝ) / 2 - 1) / (1 + ((k : ℝ) + 1) / 2) with hβ
  have hβ0 : 0 ≤ β := by rw [hβ]; apply div_nonneg <;> [(ring_nf; positivity); positivity]
  have hβ1 : β ≤ 1 := by rw [hβ, div_le_one (by positivity)]; linarith
  have e : dualPrimal V x γ (X (k + 1) + β • (X (k + 1) - X k)) - dualPrimal V x γ c
      = (1 + β) • (dualPrimal V x γ (X (k + 1)) - dualPrimal V x γ c) - β • (dualPrimal V x γ (X k) - dualPrimal V x γ c) := by
    simp only [dualPrimal, map_add, map_smul, map_sub]
    module
  rw [e]
  have hk1 : ‖dualPrimal V x γ (X (k + 1)) - dualPrimal V x γ c‖ ≤ 2 * B / (k + 1) :=
    (hX k).trans (by gcongr; norm_num)
  have hk0 : β * ‖dualPrimal V x γ (X k) - dualPrimal V x γ c‖ ≤ β * (2 * B / (k + 1)) := by
    cases k with
    | zero => rw [hβ]; simp
    | succ j =>
      refine mul_le_mul_of_nonneg_left ((hX j).trans (le_of_eq ?_)) hβ0
      push_cast; ring
  calc _ ≤ ‖(1 + β) • (dualPrimal V x γ (X (k + 1)) - dualPrimal V x γ c)‖ + ‖β • (dualPrimal V x γ (X k) - dualPrimal V x γ c)‖ := norm_sub_le _ _
    _ = (1 + β) * ‖dualPrimal V x γ (X (k + 1)) - dualPrimal V x γ c‖ + β * ‖dualPrimal V x γ (X k) - dualPrimal V x γ c‖ := by
      rw [norm_smul, norm_smul, Real.norm_of_nonneg hβ0, Real.norm_of_nonneg (by linarith)]
    _ ≤ (1 + β) * (2 * B / (k + 1)) + β * (2 * B / (k + 1)) := by gcongr
    _ = (1 + 2 * β) * (2 * B / (k + 1)) := by ring
    _ ≤ 3 * (2 * B / (k + 1)) := by gcongr; linarith
    _ = _ := by rw [hB]; ring

end Verif
