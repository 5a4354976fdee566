import Verif.Lemmas.Loop
import Verif.Lemmas.Forward
import Verif.Lemmas.Splitting
import Verif.Lemmas.Product
import Verif.Lemmas.Saddle

/-!
# Orbits of averaged maps: convergence or divergence

In finite dimension every orbit of an averaged map either converges to a fixed point, or there is no fixed point at all and the orbit leaves every
bounded set for good.
-/

namespace Verif

open Filter Topology

section
variable {E : Type*} [NormedAddCommGroup E] [NormedSpace ℝ E]

/-- The lengths of the steps of an averaged map control how far an orbit travels: if the steps do not shrink to zero, neither does its distance from
the start, which grows linearly. -/
lemma averaged_travel (T : E → E) (Q : E → ℝ) (hQc : Continuous Q) (hQ0 : Q 0 = 0) {k β : ℝ} (hk : 0 < k) (hβ : 0 < β)
    (hQ : ∀ v, k * ‖v‖ ^ 2 ≤ Q v) (hQs : ∀ (t : ℝ) v, Q (t • v) = t ^ 2 * Q v) (hQa : ∀ u v, Q (u + v) ≤ 2 * Q u + 2 * Q v)
    (hF : ∀ x y, Q (T x - T y) + β * ‖(T x - x) - (T y - y)‖ ^ 2 ≤ Q (x - y)) (x : ℕ → E) (hx : ∀ n, x (n + 1) = T (x n)) :
    ∃ ρ, 0 ≤ ρ ∧ Tendsto (fun n => Q (x (n + 1) - x n)) atTop (𝓝 ρ) ∧ ∀ p : ℕ, (p : ℝ) ^ 2 * ρ ≤ 2 * Q (x p - x 0) := by
  have hQnn : ∀ v, 0 ≤ Q v := fun v => le_trans (by positivity) (hQ v)
  have hne : ∀ y z, Q (T y - T z) ≤ Q (y - z) := fun y z => by
    have := hF y z
    have : 0 ≤ β * ‖(T y - y) - (T z - z)‖ ^ 2 := by positivity
    linarith
  set d : ℕ → E := fun n => x (n + 1) - x n with hd
  have hstep : ∀ n, Q (d (n + 1)) + β * ‖d (n + 1) - d n‖ ^ 2 ≤ Q (d n) := fun n => by
    have := hF (x (n + 1)) (x n)
    simp only [hd]
    rw [hx (n + 1), hx n] at *
    exact this
  have hanti : Antitone fun n => Q (d n) := antitone_nat_of_succ_le fun n => by
    have := hstep n
    have : 0 ≤ β * ‖d (n + 1) - d n‖ ^ 2 := by positivity
    linarith
  have hconv : Tendsto (fun n => Q (d n)) atTop (𝓝 (⨅ n, Q (d n))) :=
    tendsto_atTop_ciInf hanti ⟨0, by rintro _ ⟨n, rfl⟩; exact hQnn _⟩
  refine ⟨⨅ n, Q (d n), le_ciInf fun n => hQnn _, hconv, fun p => ?_⟩
  have hdd : Tendsto (fun n => d (n + 1) - d n) atTop (𝓝 0) := by
    have h1 : Tendsto (fun n => (Q (d n) - Q (d (n + 1))) / β) atTop (𝓝 0) := by
      have := (hconv.sub (hconv.comp (tendsto_add_atTop_nat 1))).div_const β
      simpa using this
    have h2 : Tendsto (fun n => ‖d (n + 1) - d n‖ ^ 2) atTop (𝓝 0) := by
      refine squeeze_zero (fun n => by positivity) (fun n => ?_) h1
      rw [le_div_iff₀ hβ]
      linarith [hstep n]
    rw [tendsto_zero_iff_norm_tendsto_zero]
    have := (Real.continuous_sqrt.tendsto 0).comp h2
    simpa [Function.comp_def, Real.sqrt_sq] using this
  have hdp : ∀ p, Tendsto (fun n => d (n + p) - d n) atTop (𝓝 0) := by
    intro p
    induction p with
    | zero => simp
    | succ p ih =>
      have h1 := (hdd.comp (tendsto_add_atTop_nat p)).add ih
      rw [add_zero] at h1
      refine h1.congr fun n => ?_
      simp only [Function.comp]
      rw [show n + (p + 1) = n + p + 1 by ring]; abel
  have hep : ∀ p : ℕ, Tendsto (fun n => (p : ℝ) • d n - (x (n + p) - x n)) atTop (𝓝 0) := by
    intro p
    induction p with
    | zero => simp
    | succ p ih =>
      have h1 := ih.sub (hdp p)
      rw [sub_zero] at h1
      refine h1.congr fun n => ?_
      rw [show n + (p + 1) = n + p + 1 by ring, Nat.cast_succ, add_smul, one_smul]
      simp only [hd]
      abel
  have hfar : ∀ n, Q (x (n + p) - x n) ≤ Q (x p - x 0) := by
    intro n
    induction n with
    | zero => rw [zero_add]
    | succ n ih =>
      rw [show n + 1 + p = n + p + 1 by ring, hx, hx]
      exact (hne _ _).trans ih
  have hlim : Tendsto (fun n => 2 * Q (x p - x 0) + 2 * Q ((p : ℝ) • d n - (x (n + p) - x n))) atTop (𝓝 (2 * Q (x p - x 0) + 2 * 0)) := by
    have := (hQc.tendsto 0).comp (hep p)
    rw [hQ0] at this
    exact (this.const_mul 2).const_add _
  rw [mul_zero, add_zero] at hlim
  refine le_of_tendsto_of_tendsto (hconv.const_mul ((p : ℝ) ^ 2)) hlim (Eventually.of_forall fun n => ?_)
  have := hQa (x (n + p) - x n) ((p : ℝ) • d n - (x (n + p) - x n))
  rw [show x (n + p) - x n + ((p : ℝ) • d n - (x (n + p) - x n)) = (p : ℝ) • d n by abel, hQs] at this
  have := hfar n
  simp only
  linarith

/-- The dichotomy. -/
lemma averaged_dichotomy [ProperSpace E] (T : E → E) (hT : Continuous T) (Q : E → ℝ) (hQc : Continuous Q) (hQ0 : Q 0 = 0) {k K β : ℝ} (hk : 0 < k)
    (hβ : 0 < β) (hQ : ∀ v, k * ‖v‖ ^ 2 ≤ Q v) (hQK : ∀ v, Q v ≤ K * ‖v‖ ^ 2) (hQs : ∀ (t : ℝ) v, Q (t • v) = t ^ 2 * Q v)
    (hQa : ∀ u v, Q (u + v) ≤ 2 * Q u + 2 * Q v)
    (hF : ∀ x y, Q (T x - T y) + β * ‖(T x - x) - (T y - y)‖ ^ 2 ≤ Q (x - y)) (x : ℕ → E) (hx : ∀ n, x (n + 1) = T (x n)) :
    (∃ c, T c = c ∧ Tendsto x atTop (𝓝 c)) ∨ ((∀ c, T c ≠ c) ∧ Tendsto (fun n => ‖x n‖) atTop atTop) := by
  by_cases hfix : ∃ c, T c = c
  · refine Or.inl (km_converges T hT Q hQc hQ0 hk hβ hQ (fun y c hc => ?_) hfix x hx)
    have := hF y c
    rwa [hc, sub_self, sub_zero] at this
  · refine Or.inr ⟨not_exists.1 hfix, ?_⟩
    obtain ⟨ρ, hρ0, hρ, htr⟩ := averaged_travel T Q hQc hQ0 hk hβ hQ hQs hQa hF x hx
    rcases hρ0.eq_or_lt with h0 | h0
    · -- the steps vanish: a bounded subsequence would have a fixed point as limit
      rw [← h0] at hρ
      have hdiff : Tendsto (fun n => T (x n) - x n) atTop (𝓝 0) := by
        have h2 : Tendsto (fun n => ‖x (n + 1) - x n‖ ^ 2) atTop (𝓝 0) := by
          have h7 := hρ.div_const k
          rw [zero_div] at h7
          refine squeeze_zero (fun n => by positivity) (fun n => ?_) h7
          rw [le_div_iff₀ hk, mul_comm]; exact hQ _
        rw [tendsto_zero_iff_norm_tendsto_zero]
        have := (Real.continuous_sqrt.tendsto 0).comp h2
        simpa [Function.comp_def, Real.sqrt_sq, hx] using this
      by_contra hinf
      rw [tendsto_atTop] at hinf
      push Not at hinf
      obtain ⟨B, hB⟩ := hinf
      have hB' : ∃ᶠ n in atTop, ‖x n‖ ≤ B := hB.mono fun n hn => hn.le
      obtain ⟨φ, hφ, hφB⟩ := extraction_of_frequently_atTop hB'
      obtain ⟨c, -, ψ, hψ, hlim⟩ := tendsto_subseq_of_bounded (Metric.isBounded_closedBall (x := (0 : E)) (r := B))
        (fun n => mem_closedBall_zero_iff.2 (hφB n))
      refine hfix ⟨c, ?_⟩
      have h1 : Tendsto (fun n => T (x (φ (ψ n))) - x (φ (ψ n))) atTop (𝓝 (T c - c)) := ((hT.tendsto c).comp hlim).sub hlim
      have h2 := hdiff.comp (hφ.comp hψ).tendsto_atTop
      exact sub_eq_zero.1 (tendsto_nhds_unique h1 h2)
    · -- the steps do not vanish: the distance from the start grows linearly
      have hK : 0 < K := by
        by_contra hK
        have h1 := htr 1
        have h2 := hQK (x 1 - x 0)
        have h3 : K * ‖x 1 - x 0‖ ^ 2 ≤ 0 := mul_nonpos_of_nonpos_of_nonneg (not_lt.1 hK) (sq_nonneg _)
        norm_num at h1
        linarith
      have hlow : ∀ p : ℕ, Real.sqrt (ρ / (2 * K)) * p - ‖x 0‖ ≤ ‖x p‖ := by
        intro p
        have h1 := (htr p).trans (mul_le_mul_of_nonneg_left (hQK (x p - x 0)) zero_le_two)
        have h2 : (Real.sqrt (ρ / (2 * K)) * p) ^ 2 ≤ ‖x p - x 0‖ ^ 2 := by
          rw [mul_pow, Real.sq_sqrt (by positivity), div_mul_eq_mul_div, div_le_iff₀ (by positivity)]
          nlinarith
        have h3 := (pow_le_pow_iff_left₀ (by positivity) (norm_nonneg _) two_ne_zero).1 h2
        linarith [norm_sub_le (x p) (x 0)]
      refine tendsto_atTop_mono hlow (tendsto_atTop_add_const_right _ _ (Tendsto.const_mul_atTop (Real.sqrt_pos.2 (by positivity)) ?_))
      exact tendsto_natCast_atTop_atTop

end

section
variable {E : Type} [NormedAddCommGroup E] [InnerProductSpace ℝ E]

local notation "⟪" x ", " y "⟫" => inner ℝ x y

/-- Shifting the output of a firmly nonexpansive map keeps it so. -/
lemma Firm.shift {P : E → E} (h : Firm P) (δ : E) : Firm fun v => P v - δ := by
  intro x y
  have := h x y
  rwa [sub_sub_sub_cancel_right]

lemma dr_averaged {P₁ P₂ : E → E} (h₁ : Firm P₁) (h₂ : Firm P₂) {η : ℝ} (hη : 0 < η) (x y : E) :
    ‖drStep P₁ P₂ η x - drStep P₁ P₂ η y‖ ^ 2 + (2 - η) / η * ‖(drStep P₁ P₂ η x - x) - (drStep P₁ P₂ η y - y)‖ ^ 2 ≤ ‖x - y‖ ^ 2 := by
  set δ := P₂ ((2 : ℝ) • P₁ y - y) - P₁ y with hδ
  have e : ∀ z, drStep P₁ (fun v => P₂ v - δ) η z = drStep P₁ P₂ η z - η • δ := fun z => by
    unfold drStep
    rw [show P₂ ((2 : ℝ) • P₁ z - z) - δ - P₁ z = P₂ ((2 : ℝ) • P₁ z - z) - P₁ z - δ by abel, smul_sub]; abel
  have ey : drStep P₁ P₂ η y = y + η • δ := rfl
  have := dr_fejer h₁ (h₂.shift δ) hη (c := y) (by rw [e, ey, add_sub_cancel_right]) x
  rw [e] at this
  rw [ey, add_sub_cancel_left]
  rwa [show drStep P₁ P₂ η x - (y + η • δ) = drStep P₁ P₂ η x - η • δ - y by abel,
    show drStep P₁ P₂ η x - x - η • δ = drStep P₁ P₂ η x - η • δ - x by abel]

lemma dr_dichotomy [ProperSpace E] {P₁ P₂ : E → E} (h₁ : Firm P₁) (h₂ : Firm P₂) {η : ℝ} (hη : 0 < η) (hη2 : η < 2) (y : ℕ → E)
    (hy : ∀ n, y (n + 1) = drStep P₁ P₂ η (y n)) :
    (∃ c, drStep P₁ P₂ η c = c ∧ Tendsto y atTop (𝓝 c)) ∨ ((∀ c, drStep P₁ P₂ η c ≠ c) ∧ Tendsto (fun n => ‖y n‖) atTop atTop) :=
  averaged_dichotomy (drStep P₁ P₂ η) (dr_continuous h₁ h₂ η) (fun v => ‖v‖ ^ 2) (by fun_prop) (by simp) one_pos (K := 1)
    (β := (2 - η) / η) (div_pos (by linarith) hη) (fun v => by rw [one_mul]) (fun v => by rw [one_mul])
    (fun t v => by rw [norm_smul, mul_pow, Real.norm_eq_abs, sq_abs])
    (fun u v => by nlinarith [norm_add_le u v, norm_nonneg u, norm_nonneg v, norm_nonneg (u + v), sq_nonneg (‖u‖ - ‖v‖)])
    (fun x z => dr_averaged h₁ h₂ hη x z) y hy

omit [InnerProductSpace ℝ E] in
lemma sq_norm_add_le (u v : E) : ‖u + v‖ ^ 2 ≤ 2 * ‖u‖ ^ 2 + 2 * ‖v‖ ^ 2 := by
  nlinarith [norm_add_le u v, norm_nonneg u, norm_nonneg v, norm_nonneg (u + v), sq_nonneg (‖u‖ - ‖v‖)]

/-- The dichotomy in the norm of an inner product space. -/
lemma averaged_dichotomy_norm [ProperSpace E] (T : E → E) {β : ℝ} (hβ : 0 < β)
    (hF : ∀ x y, ‖T x - T y‖ ^ 2 + β * ‖(T x - x) - (T y - y)‖ ^ 2 ≤ ‖x - y‖ ^ 2) (x : ℕ → E) (hx : ∀ n, x (n + 1) = T (x n)) :
    (∃ c, T c = c ∧ Tendsto x atTop (𝓝 c)) ∨ ((∀ c, T c ≠ c) ∧ Tendsto (fun n => ‖x n‖) atTop atTop) := by
  have hne : ∀ x y, ‖T x - T y‖ ≤ 1 * ‖x - y‖ := fun x y => by
    rw [one_mul]
    have := hF x y
    have h2 : 0 ≤ β * ‖(T x - x) - (T y - y)‖ ^ 2 := by positivity
    exact (pow_le_pow_iff_left₀ (norm_nonneg _) (norm_nonneg _) two_ne_zero).1 (by linarith)
  exact averaged_dichotomy T (continuous_of_nonexpansive hne) (fun v => ‖v‖ ^ 2) (by fun_prop) (by simp) one_pos (K := 1)
    hβ (fun v => by rw [one_mul]) (fun v => by rw [one_mul])
    (fun t v => by rw [norm_smul, mul_pow, Real.norm_eq_abs, sq_abs]) sq_norm_add_le hF x hx

lemma firm_dichotomy [ProperSpace E] {P : E → E} (hP : Firm P) (x : ℕ → E) (hx : ∀ n, x (n + 1) = P (x n)) :
    (∃ c, P c = c ∧ Tendsto x atTop (𝓝 c)) ∨ ((∀ c, P c ≠ c) ∧ Tendsto (fun n => ‖x n‖) atTop atTop) := by
  refine averaged_dichotomy_norm P one_pos (fun u v => ?_) x hx
  have h := hP u v
  have e : P u - u - (P v - v) = (P u - P v) - (u - v) := by abel
  have e2 : ‖(P u - P v) - (u - v)‖ ^ 2 = ‖P u - P v‖ ^ 2 - 2 * ⟪P u - P v, u - v⟫ + ‖u - v‖ ^ 2 := norm_sub_sq_real _ _
  rw [e, e2]
  linarith

/-- Two firmly nonexpansive maps in turn. -/
lemma comp_dichotomy [ProperSpace E] {P₁ P₂ : E → E} (h₁ : Firm P₁) (h₂ : Firm P₂) (x : ℕ → E) (hx : ∀ n, x (n + 1) = P₂ (P₁ (x n))) :
    (∃ c, P₂ (P₁ c) = c ∧ Tendsto x atTop (𝓝 c)) ∨ ((∀ c, P₂ (P₁ c) ≠ c) ∧ Tendsto (fun n => ‖x n‖) atTop atTop) := by
  refine averaged_dichotomy_norm (fun v => P₂ (P₁ v)) (β := 1 / 2) (by norm_num) (fun u v => ?_) x hx
  have a := h₁ u v
  have b := h₂ (P₁ u) (P₁ v)
  have e1 : ‖(u - v) - (P₁ u - P₁ v)‖ ^ 2 = ‖u - v‖ ^ 2 - 2 * ⟪u - v, P₁ u - P₁ v⟫ + ‖P₁ u - P₁ v‖ ^ 2 := norm_sub_sq_real _ _
  have e2 : ‖(P₁ u - P₁ v) - (P₂ (P₁ u) - P₂ (P₁ v))‖ ^ 2 =
      ‖P₁ u - P₁ v‖ ^ 2 - 2 * ⟪P₁ u - P₁ v, P₂ (P₁ u) - P₂ (P₁ v)⟫ + ‖P₂ (P₁ u) - P₂ (P₁ v)‖ ^ 2 := norm_sub_sq_real _ _
  have e3 := sq_norm_add_le ((u - v) - (P₁ u - P₁ v)) ((P₁ u - P₁ v) - (P₂ (P₁ u) - P₂ (P₁ v)))
  rw [show P₂ (P₁ u) - u - (P₂ (P₁ v) - v) = -((u - v) - (P₁ u - P₁ v) + ((P₁ u - P₁ v) - (P₂ (P₁ u) - P₂ (P₁ v)))) by abel, norm_neg]
  rw [real_inner_comm] at a b
  linarith

/-- The relaxed forward-backward map. -/
lemma fb_dichotomy [ProperSpace E] {P G : E → E} {φ : E → ℝ} {L τ η : ℝ} (hP : Firm P) (hgrad : ∀ x, IsGrad φ x (G x))
    (hL : ∀ x y, ‖G x - G y‖ ≤ L * ‖x - y‖) (hφ : ConvexOn ℝ Set.univ φ) (hτ : 0 < τ) (hτL : τ * L < 2) (hη : 0 < η) (hη1 : η ≤ 1) (x : ℕ → E)
    (hx : ∀ n, x (n + 1) = x n + η • (P (x n - τ • G (x n)) - x n)) :
    (∃ c, P (c - τ • G c) = c ∧ Tendsto x atTop (𝓝 c)) ∨ ((∀ c, P (c - τ • G c) ≠ c) ∧ Tendsto (fun n => ‖x n‖) atTop atTop) := by
  obtain ⟨L', hL'0, hL', hτL'⟩ : ∃ L', 0 < L' ∧ (∀ x y, ‖G x - G y‖ ≤ L' * ‖x - y‖) ∧ τ * L' < 2 := by
    by_cases h : 0 < L
    · exact ⟨L, h, hL, hτL⟩
    · refine ⟨1 / τ, by positivity, fun x y => (hL x y).trans (mul_le_mul_of_nonneg_right ?_ (norm_nonneg _)), ?_⟩
      · have : 0 < 1 / τ := by positivity
        linarith [not_lt.1 h]
      · rw [mul_one_div_cancel hτ.ne']; norm_num
  have hco := grad_cocoercive hgrad hL' hφ hL'0
  have hiff : ∀ c, c + η • (fbMap P G τ c - c) = c ↔ P (c - τ • G c) = c := fun c => by
    rw [add_eq_left, smul_eq_zero, sub_eq_zero]; exact ⟨fun h => h.resolve_left hη.ne', Or.inr⟩
  have h := averaged_dichotomy_norm (fun v => v + η • (fbMap P G τ v - v)) (β := (1 + (2 - τ * L') / 2 - η) / η)
    (div_pos (by linarith) hη) (fun u v => ?_) x hx
  · rcases h with ⟨c, hc, hl⟩ | ⟨hc, hl⟩
    · exact Or.inl ⟨c, (hiff c).1 hc, hl⟩
    · exact Or.inr ⟨fun c h => hc c ((hiff c).2 h), hl⟩
  · set δ := fbMap P G τ v - v with hδ
    have e : ∀ w, fbMap (fun z => P z - δ) G τ w = fbMap P G τ w - δ := fun w => rfl
    have := fb_relaxed_fejer (hP.shift δ) hco hL'0 hτ hη (c := v) (by rw [e, hδ]; abel) u
    rw [e] at this
    simp only [add_sub_cancel_left] at this ⊢
    rw [show fbMap P G τ u - δ - u = (fbMap P G τ u - u) - δ by abel, smul_sub] at this
    rwa [show u + η • (fbMap P G τ u - u) - (v + η • δ) = u + (η • (fbMap P G τ u - u) - η • δ) - v by abel]

end

section
variable {E : Type} [NormedAddCommGroup E] [InnerProductSpace ℝ E] {m : ℕ}

omit [InnerProductSpace ℝ E] in
lemma wGauge_upper (w : Fin m → ℝ) (hw : ∀ i, 0 < w i) (v : Fin m → E) : wGauge w v ≤ (∑ i, w i) * ‖v‖ ^ 2 := by
  unfold wGauge
  rw [Finset.sum_mul]
  exact Finset.sum_le_sum fun i _ => mul_le_mul_of_nonneg_left (pow_le_pow_left₀ (norm_nonneg _) (norm_le_pi_norm v i) 2) (hw i).le

lemma wGauge_smul (w : Fin m → ℝ) (t : ℝ) (v : Fin m → E) : wGauge w (t • v) = t ^ 2 * wGauge w v := by
  unfold wGauge
  rw [Finset.mul_sum]
  refine Finset.sum_congr rfl fun i _ => ?_
  rw [Pi.smul_apply, norm_smul, mul_pow, Real.norm_eq_abs, sq_abs]; ring

omit [InnerProductSpace ℝ E] in
lemma wGauge_add_le (w : Fin m → ℝ) (hw : ∀ i, 0 < w i) (u v : Fin m → E) : wGauge w (u + v) ≤ 2 * wGauge w u + 2 * wGauge w v := by
  unfold wGauge
  rw [Finset.mul_sum, Finset.mul_sum, ← Finset.sum_add_distrib]
  refine Finset.sum_le_sum fun i _ => ?_
  have := mul_le_mul_of_nonneg_left (sq_norm_add_le (u i) (v i)) (hw i).le
  rw [Pi.add_apply]
  linarith

/-- The dichotomy in a weighted product. -/
lemma averaged_dichotomy_prod [ProperSpace E] [NeZero m] {w : Fin m → ℝ} (hw : ∀ i, 0 < w i) (T : (Fin m → E) → Fin m → E) (hT : Continuous T) {β : ℝ}
    (hβ : 0 < β) (hF : ∀ x y, wGauge w (T x - T y) + β * wGauge w ((T x - x) - (T y - y)) ≤ wGauge w (x - y)) (x : ℕ → Fin m → E)
    (hx : ∀ n, x (n + 1) = T (x n)) :
    (∃ c, T c = c ∧ Tendsto x atTop (𝓝 c)) ∨ ((∀ c, T c ≠ c) ∧ Tendsto (fun n => ‖x n‖) atTop atTop) := by
  obtain ⟨k, hk, hk'⟩ := wGauge_lower (E := E) w hw
  refine averaged_dichotomy T hT (wGauge w) (by unfold wGauge; fun_prop) (by simp [wGauge]) hk (β := β * k) (mul_pos hβ hk) hk'
    (wGauge_upper w hw) (wGauge_smul w) (wGauge_add_le w hw) (fun u v => ?_) x hx
  have h1 := hF u v
  have h2 := mul_le_mul_of_nonneg_left (hk' ((T u - u) - (T v - v))) hβ.le
  linarith

lemma pp_dichotomy [ProperSpace E] [NeZero m] {w : Fin m → ℝ} (hw : ∀ i, 0 < w i) (hw1 : ∑ i, w i = 1) {P : Fin m → E → E} (hP : ∀ i, Firm (P i))
    {η : ℝ} (hη : 0 < η) (hη2 : η < 2) (y : ℕ → Fin m → E) (hy : ∀ n, y (n + 1) = ppStep w P η (y n)) :
    (∃ c, ppStep w P η c = c ∧ Tendsto y atTop (𝓝 c)) ∨ ((∀ c, ppStep w P η c ≠ c) ∧ Tendsto (fun n => ‖y n‖) atTop atTop) := by
  refine averaged_dichotomy_prod hw (ppStep w P η) (pp_continuous hP η) (β := (2 - η) / η) (div_pos (by linarith) hη) (fun u v => ?_) y hy
  set δ : Fin m → E := fun i => P i (v i) - ∑ j, w j • v j with hδ
  have e : ∀ z, ppStep w (fun i x => P i x - δ i) η z = ppStep w P η z - fun i => η • ((2 : ℝ) • ∑ j, w j • δ j - δ i) := fun z => by
    funext i
    simp only [ppStep, Pi.sub_apply, smul_sub, Finset.sum_sub_distrib]
    abel
  have ev : ppStep w (fun i x => P i x - δ i) η v = v := pp_fixed_of hw1 fun i => by simp only [hδ]; abel
  have ev' : ppStep w P η v = v + fun i => η • ((2 : ℝ) • ∑ j, w j • δ j - δ i) := by
    rw [← sub_eq_iff_eq_add, ← e, ev]
  have := pp_fejer hw hw1 (fun i => (hP i).shift (δ i)) hη ev u
  rw [e] at this
  rw [ev', add_sub_cancel_left]
  rw [sub_right_comm _ _ v, sub_right_comm _ _ u] at this
  rwa [← sub_sub]

end

section
variable {E F : Type} [NormedAddCommGroup E] [InnerProductSpace ℝ E] [NormedAddCommGroup F] [InnerProductSpace ℝ F]

local notation "⟪" x ", " y "⟫" => inner ℝ x y

lemma Firm.shift_arg {P : E → E} (h : Firm P) (a : E) : Firm fun v => P (v + a) := by
  intro x y
  have := h (x + a) (y + a)
  rwa [add_sub_add_right_eq_sub] at this

lemma cp_averaged {A : LinOp E F} {τ σ : ℝ} (hτ : 0 < τ) (hσ : 0 < σ) {P : E → E} {D : F → F} (hP : Firm P) (hD : Firm D) (u v : E × F) :
    cpGauge A τ σ (cpStep A τ σ P D u - cpStep A τ σ P D v) +
      cpGauge A τ σ ((cpStep A τ σ P D u - u) - (cpStep A τ σ P D v - v)) ≤ cpGauge A τ σ (u - v) := by
  set δ := cpStep A τ σ P D v - v with hδ
  have e : ∀ z, cpStep A τ σ (fun x => P x - δ.1) (fun y => D (y + (2 * σ) • A.matvec δ.1) - δ.2) z = cpStep A τ σ P D z - δ := fun z => by
    simp only [cpStep]
    refine Prod.ext rfl ?_
    simp only [Prod.snd_sub]
    congr 2
    rw [add_assoc]
    congr 1
    rw [show (2 : ℝ) • (P (z.1 - τ • A.rmatvec z.2) - δ.1) - z.1 = ((2 : ℝ) • P (z.1 - τ • A.rmatvec z.2) - z.1) - (2 : ℝ) • δ.1 by rw [smul_sub]; abel,
      map_sub, map_smul, smul_sub, smul_smul, mul_comm σ 2]
    abel
  have hv : cpStep A τ σ (fun x => P x - δ.1) (fun y => D (y + (2 * σ) • A.matvec δ.1) - δ.2) v = v := by rw [e, hδ]; abel
  have := cp_fejer (A := A) hτ hσ (hP.shift δ.1) ((hD.shift_arg ((2 * σ) • A.matvec δ.1)).shift δ.2) hv u
  rw [e] at this
  have e1 : cpStep A τ σ P D u - cpStep A τ σ P D v = cpStep A τ σ P D u - δ - v := by rw [hδ]; abel
  have e2 : cpStep A τ σ P D u - u - δ = cpStep A τ σ P D u - δ - u := by abel
  rw [e1, e2]
  exact this

lemma cp_gauge_lower {A : LinOp E F} {τ σ K : ℝ} (hτ : 0 < τ) (hσ : 0 < σ) (hK : 0 ≤ K) (hA : ∀ v, ‖A.matvec v‖ ≤ K * ‖v‖) (hc : τ * σ * K ^ 2 < 1) :
    ∃ k : ℝ, 0 < k ∧ ∀ v : E × F, k * ‖v‖ ^ 2 ≤ cpGauge A τ σ v := by
  set q := Real.sqrt (τ * σ) * K with hq
  have hq0 : 0 ≤ q := by positivity
  have hq1 : q < 1 := by
    have : q ^ 2 < 1 := by rw [hq, mul_pow, Real.sq_sqrt (by positivity)]; exact hc
    nlinarith
  refine ⟨(1 - q) * min (1 / τ) (1 / σ), mul_pos (by linarith) (lt_min (by positivity) (by positivity)), fun v => ?_⟩
  have h1 : ⟪A.matvec v.1, v.2⟫ ≤ K * ‖v.1‖ * ‖v.2‖ := (real_inner_le_norm _ _).trans (mul_le_mul_of_nonneg_right (hA _) (norm_nonneg _))
  have h2 : 2 * (K * ‖v.1‖ * ‖v.2‖) ≤ q * (‖v.1‖ ^ 2 / τ + ‖v.2‖ ^ 2 / σ) := by
    have e1 : ‖v.1‖ ^ 2 / τ = (‖v.1‖ / Real.sqrt τ) ^ 2 := by rw [div_pow, Real.sq_sqrt hτ.le]
    have e2 : ‖v.2‖ ^ 2 / σ = (‖v.2‖ / Real.sqrt σ) ^ 2 := by rw [div_pow, Real.sq_sqrt hσ.le]
    have e3 : K * ‖v.1‖ * ‖v.2‖ = q * ((‖v.1‖ / Real.sqrt τ) * (‖v.2‖ / Real.sqrt σ)) := by
      rw [hq, Real.sqrt_mul hτ.le]
      have := (Real.sqrt_pos.2 hτ).ne'
      have := (Real.sqrt_pos.2 hσ).ne'
      field_simp
    rw [e1, e2, e3]
    nlinarith [mul_nonneg hq0 (sq_nonneg (‖v.1‖ / Real.sqrt τ - ‖v.2‖ / Real.sqrt σ))]
  have h3 : min (1 / τ) (1 / σ) * ‖v‖ ^ 2 ≤ ‖v.1‖ ^ 2 / τ + ‖v.2‖ ^ 2 / σ := by
    have hm : 0 ≤ min (1 / τ) (1 / σ) := le_min (by positivity) (by positivity)
    have a1 : min (1 / τ) (1 / σ) * ‖v.1‖ ^ 2 ≤ ‖v.1‖ ^ 2 / τ := by
      rw [div_eq_mul_one_div (‖v.1‖ ^ 2), mul_comm]; exact mul_le_mul_of_nonneg_left (min_le_left _ _) (sq_nonneg _)
    have a2 : min (1 / τ) (1 / σ) * ‖v.2‖ ^ 2 ≤ ‖v.2‖ ^ 2 / σ := by
      rw [div_eq_mul_one_div (‖v.2‖ ^ 2), mul_comm]; exact mul_le_mul_of_nonneg_left (min_le_right _ _) (sq_nonneg _)
    have b1 : 0 ≤ ‖v.1‖ ^ 2 / τ := by positivity
    have b2 : 0 ≤ ‖v.2‖ ^ 2 / σ := by positivity
    rw [Prod.norm_def]
    rcases max_choice ‖v.1‖ ‖v.2‖ with h | h <;> rw [h] <;> linarith
  unfold cpGauge
  nlinarith [mul_le_mul_of_nonneg_left h3 (by linarith : 0 ≤ 1 - q)]

lemma cp_dichotomy [FiniteDimensional ℝ E] [FiniteDimensional ℝ F] {A : LinOp E F} {τ σ K : ℝ} (hτ : 0 < τ) (hσ : 0 < σ) (hK : 0 ≤ K)
    (hA : ∀ v, ‖A.matvec v‖ ≤ K * ‖v‖) (hc : τ * σ * K ^ 2 < 1) {P : E → E} {D : F → F} (hP : Firm P) (hD : Firm D) (v : ℕ → E × F)
    (hv : ∀ n, v (n + 1) = cpStep A τ σ P D (v n)) :
    (∃ c, cpStep A τ σ P D c = c ∧ Tendsto v atTop (𝓝 c)) ∨ ((∀ c, cpStep A τ σ P D c ≠ c) ∧ Tendsto (fun n => ‖v n‖) atTop atTop) := by
  have : ProperSpace (E × F) := FiniteDimensional.proper ℝ _
  obtain ⟨k, hk, hk'⟩ := cp_gauge_lower hτ hσ hK hA hc
  have hAc : Continuous A.matvec := A.matvec.continuous_of_finiteDimensional
  have hnn := fun v => cp_gauge_nonneg (A := A) hτ hσ hK hA hc.le v
  have hQc : Continuous (cpGauge A τ σ) := by unfold cpGauge; fun_prop
  have hQs : ∀ (t : ℝ) v, cpGauge A τ σ (t • v) = t ^ 2 * cpGauge A τ σ v := fun t v => by
    simp only [cpGauge, Prod.smul_fst, Prod.smul_snd, norm_smul, mul_pow, Real.norm_eq_abs, sq_abs, map_smul, real_inner_smul_left, inner_smul_right]
    ring
  have hQa : ∀ u v, cpGauge A τ σ (u + v) ≤ 2 * cpGauge A τ σ u + 2 * cpGauge A τ σ v := fun u v => by
    have h1 := hnn (u - v)
    have e : cpGauge A τ σ (u + v) + cpGauge A τ σ (u - v) = 2 * cpGauge A τ σ u + 2 * cpGauge A τ σ v := by
      simp only [cpGauge, Prod.fst_add, Prod.snd_add, Prod.fst_sub, Prod.snd_sub, norm_add_sq_real, norm_sub_sq_real, map_add, map_sub, inner_add_left,
        inner_add_right, inner_sub_left, inner_sub_right]
      ring
    linarith
  have hQ0 : cpGauge A τ σ 0 = 0 := by simp [cpGauge]
  have hTne : ∀ u w, cpGauge A τ σ (cpStep A τ σ P D u - cpStep A τ σ P D w) ≤ cpGauge A τ σ (u - w) := fun u w => by
    linarith [cp_averaged (A := A) hτ hσ hP hD u w, hnn ((cpStep A τ σ P D u - u) - (cpStep A τ σ P D w - w))]
  have hTc : Continuous (cpStep A τ σ P D) := by
    have h1 := hP.continuous
    have h2 := hD.continuous
    have h3 : Continuous A.rmatvec := A.rmatvec.continuous_of_finiteDimensional
    unfold cpStep
    fun_prop
  refine averaged_dichotomy (cpStep A τ σ P D) hTc (cpGauge A τ σ) hQc hQ0 hk (K := 1 / τ + 1 / σ + 2 * K) (β := k) hk hk' (fun v => ?_) hQs hQa
    (fun u w => ?_) v hv
  · have h1 : -(K * ‖v.1‖ * ‖v.2‖) ≤ ⟪A.matvec v.1, v.2⟫ := by
      have := (abs_real_inner_le_norm (A.matvec v.1) v.2).trans (mul_le_mul_of_nonneg_right (hA _) (norm_nonneg _))
      linarith [neg_abs_le ⟪A.matvec v.1, v.2⟫]
    have b1 : ‖v.1‖ ≤ ‖v‖ := norm_fst_le v
    have b2 : ‖v.2‖ ≤ ‖v‖ := norm_snd_le v
    have c1 : ‖v.1‖ ^ 2 ≤ ‖v‖ ^ 2 := pow_le_pow_left₀ (norm_nonneg _) b1 2
    have c2 : ‖v.2‖ ^ 2 ≤ ‖v‖ ^ 2 := pow_le_pow_left₀ (norm_nonneg _) b2 2
    have c3 : K * ‖v.1‖ * ‖v.2‖ ≤ K * ‖v‖ ^ 2 := by
      rw [mul_assoc, sq]; exact mul_le_mul_of_nonneg_left (mul_le_mul b1 b2 (norm_nonneg _) (norm_nonneg _)) hK
    have d1 : ‖v.1‖ ^ 2 / τ ≤ 1 / τ * ‖v‖ ^ 2 := by rw [div_eq_mul_one_div, mul_comm]; exact mul_le_mul_of_nonneg_left c1 (by positivity)
    have d2 : ‖v.2‖ ^ 2 / σ ≤ 1 / σ * ‖v‖ ^ 2 := by rw [div_eq_mul_one_div, mul_comm]; exact mul_le_mul_of_nonneg_left c2 (by positivity)
    unfold cpGauge
    linarith
  · linarith [cp_averaged (A := A) hτ hσ hP hD u w, hk' ((cpStep A τ σ P D u - u) - (cpStep A τ σ P D w - w))]

/-- The steps stay bounded. -/
lemma cp_steps_bounded {A : LinOp E F} {τ σ K : ℝ} (hτ : 0 < τ) (hσ : 0 < σ) (hK : 0 ≤ K) (hA : ∀ v, ‖A.matvec v‖ ≤ K * ‖v‖) (hc : τ * σ * K ^ 2 < 1)
    {P : E → E} {D : F → F} (hP : Firm P) (hD : Firm D) (v : ℕ → E × F) (hv : ∀ n, v (n + 1) = cpStep A τ σ P D (v n)) :
    ∃ B, ∀ n, ‖v (n + 1) - v n‖ ≤ B := by
  obtain ⟨k, hk, hk'⟩ := cp_gauge_lower hτ hσ hK hA hc
  have h1 : ∀ n, cpGauge A τ σ (v (n + 1) - v n) ≤ cpGauge A τ σ (v 1 - v 0) := fun n => by
    induction n with
    | zero => exact le_rfl
    | succ n ih =>
      refine le_trans ?_ ih
      have a := cp_averaged (A := A) hτ hσ hP hD (v (n + 1)) (v n)
      have b := cp_gauge_nonneg (A := A) hτ hσ hK hA hc.le ((cpStep A τ σ P D (v (n + 1)) - v (n + 1)) - (cpStep A τ σ P D (v n) - v n))
      rw [← hv, ← hv] at a b
      linarith
  refine ⟨Real.sqrt (cpGauge A τ σ (v 1 - v 0) / k), fun n => Real.le_sqrt_of_sq_le ?_⟩
  rw [le_div_iff₀ hk, mul_comm]
  exact (hk' _).trans (h1 n)

end

end Verif
