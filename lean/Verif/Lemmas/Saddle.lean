import Verif.Lemmas.Splitting
import Verif.Lemmas.Calculus
import Verif.Model.Vec

/-! # Primal-dual iterations in the Chambolle-Pock metric -/

open scoped RealInnerProductSpace
open Filter Topology

namespace Verif

/-- Krasnoselskii-Mann in a semi-metric: the map depends on the state only through `m`, whose size the gauge controls. -/
lemma km_semi {E V : Type*} [NormedAddCommGroup E] [NormedAddCommGroup V] [ProperSpace V] (T' : V → E) (hT' : Continuous T') (m : E → V)
    (hm : Continuous m) (Q : E → ℝ) (hQc : Continuous Q) (hQ0 : Q 0 = 0) {C β : ℝ} (hC : 0 ≤ C) (hβ : 0 < β) (hQm : ∀ v w, ‖m v - m w‖ ^ 2 ≤ C * Q (v - w))
    (hQnn : ∀ v, 0 ≤ Q v) (hF : ∀ x c, T' (m c) = c → Q (T' (m x) - c) + β * Q (T' (m x) - x) ≤ Q (x - c)) (hne : ∃ c, T' (m c) = c)
    (x : ℕ → E) (hx : ∀ n, x (n + 1) = T' (m (x n))) : ∃ c, T' (m c) = c ∧ Tendsto x atTop (𝓝 c) := by
  obtain ⟨c0, hc0⟩ := hne
  have hstep : ∀ c, T' (m c) = c → Antitone fun n => Q (x n - c) := fun c hc => antitone_nat_of_succ_le fun n => by
    have := hF (x n) c hc
    rw [← hx n] at this
    have := mul_nonneg hβ.le (hQnn (x (n + 1) - x n))
    linarith
  -- the steps vanish
  have hsum : Summable fun n => β * Q (x (n + 1) - x n) := by
    refine summable_of_sum_range_le (c := Q (x 0 - c0)) (fun n => mul_nonneg hβ.le (hQnn _)) fun n => ?_
    have : ∑ i ∈ Finset.range n, β * Q (x (i + 1) - x i) ≤ Q (x 0 - c0) - Q (x n - c0) := by
      induction n with
      | zero => simp
      | succ n ih =>
        rw [Finset.sum_range_succ]
        have := hF (x n) c0 hc0
        rw [← hx n] at this
        linarith
    have := hQnn (x n - c0)
    linarith
  have hQd : Tendsto (fun n => Q (x (n + 1) - x n)) atTop (𝓝 0) := by
    have := (hsum.tendsto_atTop_zero).const_mul β⁻¹
    simp only [mul_zero] at this
    refine this.congr fun n => ?_
    rw [← mul_assoc, inv_mul_cancel₀ hβ.ne', one_mul]
  have hmz : ∀ u v : ℕ → E, Tendsto (fun n => Q (u n - v n)) atTop (𝓝 0) → Tendsto (fun n => m (u n) - m (v n)) atTop (𝓝 0) := by
    intro u v h
    rw [tendsto_zero_iff_norm_tendsto_zero]
    have h1 : Tendsto (fun n => √(C * Q (u n - v n))) atTop (𝓝 0) := by
      have := (h.const_mul C).sqrt
      simpa using this
    refine squeeze_zero (fun n => norm_nonneg _) (fun n => ?_) h1
    exact Real.le_sqrt_of_sq_le (hQm _ _)
  have hmd := hmz (fun n => x (n + 1)) x hQd
  -- bounded images
  have hbdd : Bornology.IsBounded (Set.range fun n => m (x n)) := by
    rw [isBounded_iff_forall_norm_le]
    refine ⟨‖m c0‖ + √(C * Q (x 0 - c0)), ?_⟩
    rintro _ ⟨n, rfl⟩
    have h1 : ‖m (x n) - m c0‖ ≤ √(C * Q (x 0 - c0)) :=
      Real.le_sqrt_of_sq_le ((hQm _ _).trans (mul_le_mul_of_nonneg_left (hstep c0 hc0 (Nat.zero_le n)) hC))
    have h2 : ‖m (x n)‖ ≤ ‖m c0‖ + ‖m (x n) - m c0‖ := by
      have := norm_add_le (m c0) (m (x n) - m c0)
      rwa [add_sub_cancel] at this
    linarith
  obtain ⟨a, -, φ, hφ, hlim⟩ := tendsto_subseq_of_bounded hbdd fun n => Set.mem_range_self n
  have hlim' : Tendsto (fun n => x (φ n + 1)) atTop (𝓝 (T' a)) := by
    have := (hT'.tendsto a).comp hlim
    exact this.congr fun n => (hx (φ n)).symm
  have hma : m (T' a) = a := by
    have h1 : Tendsto (fun n => m (x (φ n + 1))) atTop (𝓝 (m (T' a))) := (hm.tendsto _).comp hlim'
    have h2 : Tendsto (fun n => m (x (φ n + 1)) - m (x (φ n))) atTop (𝓝 0) := hmd.comp hφ.tendsto_atTop
    have h3 : Tendsto (fun n => m (x (φ n + 1))) atTop (𝓝 a) := by
      have := h2.add hlim
      simp only [zero_add] at this
      refine this.congr fun n => ?_
      simp
    exact tendsto_nhds_unique h1 h3
  have hfix : T' (m (T' a)) = T' a := by rw [hma]
  refine ⟨T' a, hfix, ?_⟩
  have hQs : Tendsto (fun n => Q (x (φ n + 1) - T' a)) atTop (𝓝 0) := by
    have : Tendsto (fun n => x (φ n + 1) - T' a) atTop (𝓝 0) := by
      have := hlim'.sub_const (T' a)
      rwa [sub_self] at this
    have h2 := (hQc.tendsto 0).comp this
    rwa [hQ0] at h2
  have hQall : Tendsto (fun n => Q (x n - T' a)) atTop (𝓝 0) := by
    have hmono := hstep _ hfix
    have hlow : BddBelow (Set.range fun n => Q (x n - T' a)) := ⟨0, by rintro _ ⟨n, rfl⟩; exact hQnn _⟩
    have h1 := tendsto_atTop_ciInf hmono hlow
    have h2 : Tendsto (fun n => Q (x (φ n + 1) - T' a)) atTop (𝓝 (⨅ n, Q (x n - T' a))) :=
      h1.comp ((tendsto_add_atTop_nat 1).comp hφ.tendsto_atTop)
    rw [tendsto_nhds_unique h2 hQs] at h1
    exact h1
  have hmx : Tendsto (fun n => m (x n)) atTop (𝓝 a) := by
    have := hmz x (fun _ => T' a) hQall
    rw [hma] at this
    have := this.add_const a
    simpa using this
  rw [← tendsto_add_atTop_iff_nat 1]
  exact ((hT'.tendsto a).comp hmx).congr fun n => (hx n).symm

section
variable {E F : Type} [NormedAddCommGroup E] [InnerProductSpace ℝ E] [NormedAddCommGroup F] [InnerProductSpace ℝ F]

/-- The Chambolle-Pock gauge of a pair of differences. -/
noncomputable def cpGauge (A : LinOp E F) (τ σ : ℝ) (v : E × F) : ℝ := ‖v.1‖ ^ 2 / τ + ‖v.2‖ ^ 2 / σ - 2 * ⟪A.matvec v.1, v.2⟫

lemma adj_bound (A : LinOp E F) {K : ℝ} (hK : 0 ≤ K) (hA : ∀ v, ‖A.matvec v‖ ≤ K * ‖v‖) (w : F) : ‖A.rmatvec w‖ ≤ K * ‖w‖ := by
  by_cases h0 : ‖A.rmatvec w‖ = 0
  · rw [h0]; positivity
  · have h1 : ‖A.rmatvec w‖ ^ 2 = ⟪A.matvec (A.rmatvec w), w⟫ := by rw [A.dot, real_inner_self_eq_norm_sq]
    have h2 := real_inner_le_norm (A.matvec (A.rmatvec w)) w
    have h3 := hA (A.rmatvec w)
    have h4 : ‖A.rmatvec w‖ * ‖A.rmatvec w‖ ≤ ‖A.rmatvec w‖ * (K * ‖w‖) := by nlinarith [norm_nonneg w, norm_nonneg (A.rmatvec w)]
    exact le_of_mul_le_mul_left h4 (lt_of_le_of_ne (norm_nonneg _) (Ne.symm h0))

variable {A : LinOp E F} {τ σ K : ℝ}

lemma cp_bound1 (hτ : 0 < τ) (hσ : 0 < σ) (hK : 0 ≤ K) (hA : ∀ v, ‖A.matvec v‖ ≤ K * ‖v‖) (hc : τ * σ * K ^ 2 ≤ 1) (v : E × F) :
    ‖v.1 - τ • A.rmatvec v.2‖ ^ 2 ≤ τ * cpGauge A τ σ v := by
  have h1 := pow_le_pow_left₀ (norm_nonneg _) (adj_bound A hK hA v.2) 2
  rw [norm_sub_sq_real, real_inner_smul_right, ← A.dot, norm_smul, mul_pow, Real.norm_eq_abs, sq_abs, cpGauge]
  have e : τ * (‖v.1‖ ^ 2 / τ + ‖v.2‖ ^ 2 / σ - 2 * ⟪A.matvec v.1, v.2⟫) = ‖v.1‖ ^ 2 + τ / σ * ‖v.2‖ ^ 2 - 2 * (τ * ⟪A.matvec v.1, v.2⟫) := by
    field_simp
  rw [e]
  have h2 : τ ^ 2 * ‖A.rmatvec v.2‖ ^ 2 ≤ τ / σ * ‖v.2‖ ^ 2 := by
    have h3 : τ ^ 2 * ‖A.rmatvec v.2‖ ^ 2 ≤ τ ^ 2 * (K * ‖v.2‖) ^ 2 := mul_le_mul_of_nonneg_left h1 (by positivity)
    have h4 : τ ^ 2 * K ^ 2 ≤ τ / σ := by
      rw [le_div_iff₀ hσ]; nlinarith
    have h5 := mul_le_mul_of_nonneg_right h4 (sq_nonneg ‖v.2‖)
    calc _ ≤ _ := h3
      _ = τ ^ 2 * K ^ 2 * ‖v.2‖ ^ 2 := by ring
      _ ≤ _ := h5
  linarith

lemma cp_bound2 (hτ : 0 < τ) (hσ : 0 < σ) (hA : ∀ v, ‖A.matvec v‖ ≤ K * ‖v‖) (hc : τ * σ * K ^ 2 ≤ 1) (v : E × F) :
    ‖v.2 - σ • A.matvec v.1‖ ^ 2 ≤ σ * cpGauge A τ σ v := by
  have h1 := pow_le_pow_left₀ (norm_nonneg _) (hA v.1) 2
  rw [norm_sub_sq_real, real_inner_smul_right, norm_smul, mul_pow, Real.norm_eq_abs, sq_abs, cpGauge, real_inner_comm]
  have e : σ * (‖v.1‖ ^ 2 / τ + ‖v.2‖ ^ 2 / σ - 2 * ⟪A.matvec v.1, v.2⟫) = σ / τ * ‖v.1‖ ^ 2 + ‖v.2‖ ^ 2 - 2 * (σ * ⟪A.matvec v.1, v.2⟫) := by
    field_simp
  rw [e]
  have h2 : σ ^ 2 * ‖A.matvec v.1‖ ^ 2 ≤ σ / τ * ‖v.1‖ ^ 2 := by
    have h3 : σ ^ 2 * ‖A.matvec v.1‖ ^ 2 ≤ σ ^ 2 * (K * ‖v.1‖) ^ 2 := mul_le_mul_of_nonneg_left h1 (by positivity)
    have h4 : σ ^ 2 * K ^ 2 ≤ σ / τ := by
      rw [le_div_iff₀ hτ]; nlinarith
    have h5 := mul_le_mul_of_nonneg_right h4 (sq_nonneg ‖v.1‖)
    calc _ ≤ _ := h3
      _ = σ ^ 2 * K ^ 2 * ‖v.1‖ ^ 2 := by ring
      _ ≤ _ := h5
  linarith

/-- One primal-dual step: `x' = P(x - τ Aᵀy)`, `y' = D(y + σ A(2x' - x))`, as a function of `(x - τ Aᵀ y, y - σ A x)`. -/
noncomputable def cpMap (A : LinOp E F) (σ : ℝ) (P : E → E) (D : F → F) (v : E × F) : E × F :=
  (P v.1, D (v.2 + (2 * σ) • A.matvec (P v.1)))

/-- The pair the step depends on. -/
noncomputable def cpArg (A : LinOp E F) (τ σ : ℝ) (v : E × F) : E × F := (v.1 - τ • A.rmatvec v.2, v.2 - σ • A.matvec v.1)

/-- One primal-dual step. -/
noncomputable def cpStep (A : LinOp E F) (τ σ : ℝ) (P : E → E) (D : F → F) (v : E × F) : E × F :=
  let x' := P (v.1 - τ • A.rmatvec v.2)
  (x', D (v.2 + σ • A.matvec ((2 : ℝ) • x' - v.1)))

lemma cpStep_eq (A : LinOp E F) (τ σ : ℝ) (P : E → E) (D : F → F) (v : E × F) : cpStep A τ σ P D v = cpMap A σ P D (cpArg A τ σ v) := by
  simp only [cpStep, cpMap, cpArg]
  congr 2
  rw [map_sub, map_smul, smul_sub, smul_smul, mul_comm σ 2]; abel

lemma cp_fejer (hτ : 0 < τ) (hσ : 0 < σ) {P : E → E} {D : F → F} (hP : Firm P) (hD : Firm D) {c : E × F}
    (hc : cpStep A τ σ P D c = c) (v : E × F) :
    cpGauge A τ σ (cpStep A τ σ P D v - c) + cpGauge A τ σ (cpStep A τ σ P D v - v) ≤ cpGauge A τ σ (v - c) := by
  obtain ⟨x, y⟩ := v
  obtain ⟨a, b⟩ := c
  have hc1 : P (a - τ • A.rmatvec b) = a := congrArg Prod.fst hc
  have hc2 : D (b + σ • A.matvec a) = b := by
    have := congrArg Prod.snd hc
    simp only [cpStep] at this
    rw [hc1, two_smul, add_sub_cancel_right] at this
    exact this
  have f1 := hP (x - τ • A.rmatvec y) (a - τ • A.rmatvec b)
  have f2 := hD (y + σ • A.matvec ((2 : ℝ) • P (x - τ • A.rmatvec y) - x)) (b + σ • A.matvec a)
  simp only [cpStep]
  rw [hc1] at f1
  rw [hc2] at f2
  set x' := P (x - τ • A.rmatvec y)
  set y' := D (y + σ • A.matvec ((2 : ℝ) • x' - x))
  clear_value x' y'
  set p := x' - a with hp
  set q := x - x' with hq
  set r := y' - b with hr
  set t := y - y' with ht
  have e1 : x - τ • A.rmatvec y - (a - τ • A.rmatvec b) = p + q - τ • A.rmatvec (r + t) := by
    have h1 : p + q = x - a := by rw [hp, hq]; abel
    have h2 : r + t = y - b := by rw [hr, ht]; abel
    rw [h1, h2, map_sub, smul_sub]; abel
  have e2 : y + σ • A.matvec ((2 : ℝ) • x' - x) - (b + σ • A.matvec a) = r + t + σ • A.matvec (p - q) := by
    have h1 : p - q = (2 : ℝ) • x' - x - a := by rw [hp, hq, two_smul]; abel
    have h2 : r + t = y - b := by rw [hr, ht]; abel
    rw [h1, h2, map_sub A.matvec ((2 : ℝ) • x' - x) a, smul_sub]; abel
  rw [e1, inner_sub_right, inner_add_right, real_inner_self_eq_norm_sq, real_inner_smul_right, ← A.dot, inner_add_right] at f1
  rw [e2, inner_add_right, inner_add_right, real_inner_self_eq_norm_sq, real_inner_smul_right, map_sub] at f2
  have g1 : (x', y') - (a, b) = (p, r) := rfl
  have g2 : (x', y') - (x, y) = (-q, -t) := by rw [Prod.mk_sub_mk, hq, ht]; simp
  have g3 : (x, y) - (a, b) = (p + q, r + t) := by rw [Prod.mk_sub_mk, hp, hq, hr, ht]; simp
  rw [g1, g2, g3]
  clear_value p q r t
  rw [inner_sub_right] at f2
  simp only [cpGauge, norm_neg, map_neg, inner_neg_neg, norm_add_sq_real, map_add, inner_add_left, inner_add_right]
  rw [real_inner_comm (A.matvec p) r, real_inner_comm (A.matvec q) r] at f2
  have k1 : 0 ≤ ⟪p, q⟫ / τ - (⟪A.matvec p, r⟫ + ⟪A.matvec p, t⟫) := by
    rw [sub_nonneg, le_div_iff₀ hτ]; linarith
  have k2 : 0 ≤ ⟪r, t⟫ / σ + (⟪A.matvec p, r⟫ - ⟪A.matvec q, r⟫) := by
    have : 0 ≤ (⟪r, t⟫ + σ * (⟪A.matvec p, r⟫ - ⟪A.matvec q, r⟫)) / σ := div_nonneg (by linarith) hσ.le
    rwa [add_div, mul_div_cancel_left₀ _ hσ.ne'] at this
  have d1 : ∀ u v w : ℝ, (u + 2 * v + w) / τ = u / τ + 2 * (v / τ) + w / τ := fun u v w => by ring
  have d2 : ∀ u v w : ℝ, (u + 2 * v + w) / σ = u / σ + 2 * (v / σ) + w / σ := fun u v w => by ring
  rw [d1, d2]
  linarith

lemma linop_continuous [FiniteDimensional ℝ E] (A : E →ₗ[ℝ] F) : Continuous A := LinearMap.continuous_of_finiteDimensional A

lemma cp_gauge_nonneg (hτ : 0 < τ) (hσ : 0 < σ) (hK : 0 ≤ K) (hA : ∀ v, ‖A.matvec v‖ ≤ K * ‖v‖) (hc : τ * σ * K ^ 2 ≤ 1) (v : E × F) :
    0 ≤ cpGauge A τ σ v := by
  have := cp_bound1 hτ hσ hK hA hc v
  have h2 : 0 ≤ τ * cpGauge A τ σ v := le_trans (sq_nonneg _) this
  exact nonneg_of_mul_nonneg_right h2 hτ

lemma cp_converges [FiniteDimensional ℝ E] [FiniteDimensional ℝ F] (hτ : 0 < τ) (hσ : 0 < σ) (hK : 0 ≤ K) (hA : ∀ v, ‖A.matvec v‖ ≤ K * ‖v‖)
    (hc : τ * σ * K ^ 2 ≤ 1) {P : E → E} {D : F → F} (hP : Firm P) (hD : Firm D) (hne : ∃ c, cpStep A τ σ P D c = c) (v : ℕ → E × F)
    (hv : ∀ n, v (n + 1) = cpStep A τ σ P D (v n)) : ∃ c, cpStep A τ σ P D c = c ∧ Tendsto v atTop (𝓝 c) := by
  haveI : ProperSpace E := FiniteDimensional.proper_real E
  haveI : ProperSpace F := FiniteDimensional.proper_real F
  have cA := linop_continuous A.matvec
  have cB := linop_continuous A.rmatvec
  have cP := hP.continuous
  have cD := hD.continuous
  have := km_semi (cpMap A σ P D) (by unfold cpMap; fun_prop) (cpArg A τ σ) (by unfold cpArg; fun_prop) (cpGauge A τ σ)
    (by unfold cpGauge; fun_prop) (by simp [cpGauge]) (C := τ + σ) (β := 1) (by positivity) one_pos (fun v w => by
      have e : cpArg A τ σ v - cpArg A τ σ w = ((v - w).1 - τ • A.rmatvec (v - w).2, (v - w).2 - σ • A.matvec (v - w).1) := by
        simp only [cpArg, Prod.mk_sub_mk, Prod.fst_sub, Prod.snd_sub, map_sub, smul_sub]
        congr 1 <;> abel
      have b1 := cp_bound1 hτ hσ hK hA hc (v - w)
      have b2 := cp_bound2 hτ hσ hA hc (v - w)
      have b0 := cp_gauge_nonneg hτ hσ hK hA hc (v - w)
      rw [e, Prod.norm_def]
      rcases max_cases ‖(v - w).1 - τ • A.rmatvec (v - w).2‖ ‖(v - w).2 - σ • A.matvec (v - w).1‖ with ⟨h, -⟩ | ⟨h, -⟩
      · rw [h]; nlinarith
      · rw [h]; nlinarith)
    (cp_gauge_nonneg hτ hσ hK hA hc) (fun x c h => by
      rw [← cpStep_eq] at h ⊢
      rw [one_mul]
      exact cp_fejer hτ hσ hP hD h x) (by simpa only [cpStep_eq] using hne) v (fun n => by rw [hv, cpStep_eq])
  simpa only [cpStep_eq] using this

/-- The step of `g*` obtained from `g` by Moreau's identity is firmly non-expansive. -/
lemma firm_moreau {P : F → F} (h : Firm P) : Firm fun v => v - P v := by
  intro x y
  have h1 := h x y
  have e : x - P x - (y - P y) = (x - y) - (P x - P y) := by abel
  simp only
  rw [e]
  generalize P x - P y = a at *
  generalize x - y = b at *
  rw [norm_sub_sq_real, inner_sub_left, real_inner_self_eq_norm_sq]
  rw [real_inner_comm b a]
  rw [real_inner_comm] at h1
  linarith [real_inner_comm a b]

lemma firm_shift {P : E → E} (h : Firm P) (b : E) : Firm fun v => P (v - b) := by
  intro x y
  have := h (x - b) (y - b)
  rwa [sub_sub_sub_cancel_right] at this

lemma firm_scale {P : E → E} (h : Firm P) {σ : ℝ} (hσ : 0 < σ) : Firm fun v => σ • P ((1 / σ) • v) := by
  intro x y
  have := h ((1 / σ) • x) ((1 / σ) • y)
  simp only
  rw [← smul_sub, norm_smul, mul_pow, Real.norm_eq_abs, sq_abs, real_inner_smul_left]
  rw [← smul_sub, real_inner_smul_right] at this
  have h2 := mul_le_mul_of_nonneg_left this (sq_nonneg σ)
  calc _ ≤ _ := h2
    _ = _ := by field_simp

lemma conj_convex {F : XFun E} (hne : F.dom.Nonempty) : F.conj.Convex := by
  have key : ∀ u ∈ F.conj.dom, ∀ v ∈ F.conj.dom, ∀ a b : ℝ, 0 ≤ a → 0 ≤ b →
      ∀ t ∈ (fun y => ⟪a • u + b • v, y⟫ - (a + b) * F.val y) '' F.dom, t ≤ a * F.conj.val u + b * F.conj.val v := by
    rintro u hu v hv a b ha hb _ ⟨y, hy, rfl⟩
    have h1 : ⟪u, y⟫ - F.val y ≤ F.conj.val u := le_csSup hu ⟨y, hy, rfl⟩
    have h2 : ⟪v, y⟫ - F.val y ≤ F.conj.val v := le_csSup hv ⟨y, hy, rfl⟩
    simp only [inner_add_left, real_inner_smul_left]
    nlinarith [mul_le_mul_of_nonneg_left h1 ha, mul_le_mul_of_nonneg_left h2 hb]
  refine ⟨fun u hu v hv a b ha hb hab => ⟨_, fun t ht => key u hu v hv a b ha hb t (by simpa only [hab, one_mul] using ht)⟩,
    fun u hu v hv a b ha hb hab => ?_⟩
  refine csSup_le (hne.image _) fun t ht => ?_
  have := key u hu v hv a b ha hb t (by simpa only [hab, one_mul] using ht)
  simpa using this

/-- An exact `proxdual` of the conjugate is given by Moreau's identity. -/
lemma proxdual_moreau {g : ProxOp F} {G : XFun F} (hG : G.Convex) (hg : ProxExact g G) (hd : ProxdualExact g G.conj) {σ : ℝ} (hσ : 0 < σ) :
    ∃ P : F → F, (∀ v, IsProx G (1 / σ) v (P v)) ∧ ∀ v, g.proxdual v σ = .ok (v - σ • P ((1 / σ) • v)) := by
  have hσ' : 0 < 1 / σ := by positivity
  obtain ⟨P, -, hP⟩ := proxExact_map hg hσ'
  refine ⟨P, hP, fun v => ?_⟩
  obtain ⟨p, hp, hp'⟩ := hd v σ hσ
  have h1 := conj_isProx hG hσ' (hP ((1 / σ) • v))
  rw [one_div_one_div, smul_smul, mul_one_div_cancel hσ.ne', one_smul, smul_sub, smul_smul, mul_one_div_cancel hσ.ne', one_smul] at h1
  rw [hp, IsProx.unique (conj_convex ⟨_, (hP 0).1⟩) hσ h1 hp']

lemma firm_dual {P : F → F} (h : Firm P) {σ : ℝ} (hσ : 0 < σ) : Firm fun v => v - σ • P ((1 / σ) • v) := firm_moreau (firm_scale h hσ)

lemma IsCertifiedComp.isMin {Ff : XFun E} {G : XFun F} {A : LinOp E F} {z x : E} {y : F} (h : IsCertifiedComp Ff G A.matvec A.rmatvec z x y) :
    (compObj Ff G A.matvec z).IsMin x := by
  refine ⟨⟨h.1.1, h.2.1⟩, fun w hw => ?_⟩
  have h1 := h.1.2 w hw.1
  have h2 := h.2.2 (A.matvec w) hw.2
  rw [inner_sub_left, inner_neg_left, real_inner_comm, ← A.dot, map_sub, inner_sub_right z] at h1
  rw [real_inner_comm] at h2
  simp only [compObj]
  linarith

lemma IsCertifiedComp.isSaddle {Ff : XFun E} {G : XFun F} {A : LinOp E F} {z x : E} {y : F} (h : IsCertifiedComp Ff G A.matvec A.rmatvec z x y) :
    IsSaddle Ff G A.matvec z x y := by
  have hub : ∀ a ∈ (fun w => ⟪y, w⟫ - G.val w) '' G.dom, a ≤ ⟪y, A.matvec x⟫ - G.val (A.matvec x) := by
    rintro a ⟨w, hw, rfl⟩
    have := h.2.2 w hw
    rw [inner_sub_right] at this
    simp only; linarith
  have hval : G.conj.val y = ⟪y, A.matvec x⟫ - G.val (A.matvec x) :=
    le_antisymm (csSup_le ⟨_, _, h.2.1, rfl⟩ hub) (le_csSup ⟨_, hub⟩ ⟨_, h.2.1, rfl⟩)
  refine ⟨h.1.1, ⟨_, hub⟩, fun w hw => ?_, fun y' hy' => ?_⟩
  · have h1 := h.1.2 w hw
    rw [inner_sub_left, inner_neg_left, real_inner_comm, ← A.dot, map_sub, inner_sub_right z, inner_sub_left] at h1
    linarith
  · have h1 : ⟪y', A.matvec x⟫ - G.val (A.matvec x) ≤ G.conj.val y' := le_csSup hy' ⟨_, h.2.1, rfl⟩
    rw [hval, real_inner_comm y' , real_inner_comm y]
    linarith

/-- Fixed points of the primal-dual step and certified minimisers. -/
lemma cp_fixed_iff {Ff : XFun E} {G : XFun F} (hF : Ff.Convex) (hG : G.Convex) {A : LinOp E F} {τ σ : ℝ} (hτ : 0 < τ) (hσ : 0 < σ) {P : E → E}
    {Pg : F → F} (hP : ∀ x, IsProx Ff τ x (P x)) (hPg : ∀ v, IsProx G (1 / σ) v (Pg v)) (z x : E) (y : F) :
    cpStep A τ σ (fun v => P (v - τ • z)) (fun v => v - σ • Pg ((1 / σ) • v)) (x, y) = (x, y) ↔
      IsCertifiedComp Ff G A.matvec A.rmatvec z x y := by
  have hσ' : 0 < 1 / σ := by positivity
  have e0 : cpStep A τ σ (fun v => P (v - τ • z)) (fun v => v - σ • Pg ((1 / σ) • v)) (x, y) = (x, y) ↔
      P (x - τ • A.rmatvec y - τ • z) = x ∧ Pg ((1 / σ) • y + A.matvec x) = A.matvec x := by
    have e2 : ∀ w, (1 / σ) • (y + σ • A.matvec ((2 : ℝ) • w - w)) = (1 / σ) • y + A.matvec w := fun w => by
      rw [smul_add, smul_smul, one_div_mul_cancel hσ.ne', one_smul, two_smul, add_sub_cancel_right]
    simp only [cpStep, Prod.mk.injEq]
    refine and_congr_right fun h => ?_
    rw [h, e2, two_smul, add_sub_cancel_right, sub_eq_iff_eq_add, add_right_inj]
    constructor
    · intro h'; exact (smul_right_injective F hσ.ne' h').symm
    · intro h'; rw [h']
  rw [e0]
  have s1 : (1 / τ) • (x - τ • A.rmatvec y - τ • z - x) = -A.rmatvec y - z := by
    rw [show x - τ • A.rmatvec y - τ • z - x = τ • (-A.rmatvec y - z) by rw [smul_sub, smul_neg]; abel, smul_smul, one_div_mul_cancel hτ.ne', one_smul]
  have s2 : (1 / (1 / σ)) • ((1 / σ) • y + A.matvec x - A.matvec x) = y := by
    rw [add_sub_cancel_right, smul_smul, one_div_mul_cancel hσ'.ne', one_smul]
  constructor
  · rintro ⟨h1, h2⟩
    have k1 := subgrad_of_isProx hF hτ (hP (x - τ • A.rmatvec y - τ • z))
    have k2 := subgrad_of_isProx hG hσ' (hPg ((1 / σ) • y + A.matvec x))
    rw [h1, s1] at k1
    rw [h2, s2] at k2
    exact ⟨k1, k2⟩
  · rintro ⟨h1, h2⟩
    rw [← s1] at h1
    rw [← s2] at h2
    refine ⟨IsProx.unique hF hτ (isProx_of_subgrad hτ h1) (hP _), ?_⟩
    have := isProx_of_subgrad (x := (1 / σ) • y + A.matvec x) hσ' (by rw [s2]; rw [s2] at h2; exact h2)
    exact IsProx.unique hG hσ' this (hPg _)

end

end Verif
