import Verif.Props.HQSConv
import Verif.Props.Slater
import Verif.Props.NonConvex
import Verif.Props.NonConvex3
import Verif.Props.Nuclear
import Verif.Props.Closed

/-! # C107: what a larger step, or a larger weight of the penalty, does to the result -/

open scoped RealInnerProductSpace
open Filter Topology

namespace Verif

variable {E : Type} [NormedAddCommGroup E] [InnerProductSpace ℝ E]

/-! ## Specification -/

/-- A larger step gives a result with a smaller penalty `F` that is further from the input. -/
def StepTradeoff (f : ProxOp E) (F : E → ℝ) : Prop :=
  ∀ (x : E) (s t : ℝ), 0 < s → s ≤ t → ∃ p q, f.prox x s = .ok p ∧ f.prox x t = .ok q ∧ F q ≤ F p ∧ ‖x - p‖ ≤ ‖x - q‖

/-! ## Two proximal points of the same input -/

section Points

variable {F : XFun E} {s t : ℝ} {x p q : E}

omit [InnerProductSpace ℝ E] in
lemma prox_dist_mono (hs : 0 < s) (hst : s < t) (hp : IsProx F s x p) (hq : IsProx F t x q) : ‖x - p‖ ≤ ‖x - q‖ ∧ F.val q ≤ F.val p := by
  have ht : 0 < t := hs.trans hst
  have h1 := hp.2 q hq.1
  have h2 := hq.2 p hp.1
  simp only [proxObj] at h1 h2
  rw [norm_sub_rev p x, norm_sub_rev q x] at h1 h2
  have hk : 0 < 1 / (2 * s) - 1 / (2 * t) := by
    rw [sub_pos]; exact one_div_lt_one_div_of_lt (by positivity) (by linarith)
  have h3 : (‖x - p‖ ^ 2 - ‖x - q‖ ^ 2) * (1 / (2 * s) - 1 / (2 * t)) ≤ 0 := by
    have e : (‖x - p‖ ^ 2 - ‖x - q‖ ^ 2) * (1 / (2 * s) - 1 / (2 * t)) =
        (‖x - p‖ ^ 2 / (2 * s) - ‖x - q‖ ^ 2 / (2 * s)) - (‖x - p‖ ^ 2 / (2 * t) - ‖x - q‖ ^ 2 / (2 * t)) := by ring
    rw [e]; linarith
  have h4 : ‖x - p‖ ^ 2 ≤ ‖x - q‖ ^ 2 := by
    by_contra hc
    push Not at hc
    have := mul_pos (sub_pos.2 hc) hk
    linarith
  refine ⟨le_of_sq_le_sq h4 (norm_nonneg _), ?_⟩
  have h5 : ‖x - p‖ ^ 2 / (2 * t) ≤ ‖x - q‖ ^ 2 / (2 * t) := div_le_div_of_nonneg_right h4 (by positivity)
  linarith

lemma prox_step_mono (hF : F.Convex) (hs : 0 < s) (ht : 0 < t) (hp : IsProx F s x p) (hq : IsProx F t x q) :
    0 ≤ ⟪(1 / s) • (x - p) - (1 / t) • (x - q), (x - q) - (x - p)⟫ := by
  have := subgrad_mono (subgrad_of_isProx hF hs hp) (subgrad_of_isProx hF ht hq)
  rwa [show p - q = (x - q) - (x - p) by abel] at this

lemma prox_slope_mono (hF : F.Convex) (hs : 0 < s) (hst : s < t) (hp : IsProx F s x p) (hq : IsProx F t x q) : ‖x - q‖ / t ≤ ‖x - p‖ / s := by
  have ht : 0 < t := hs.trans hst
  have h := prox_step_mono hF hs ht hp hq
  have hd := (prox_dist_mono hs hst hp hq).1
  set a := x - p
  set b := x - q
  have e : ⟪(1 / s) • a - (1 / t) • b, b - a⟫ = (1 / s + 1 / t) * ⟪a, b⟫ - ‖a‖ ^ 2 / s - ‖b‖ ^ 2 / t := by
    simp only [inner_sub_left, inner_sub_right, real_inner_smul_left, real_inner_self_eq_norm_sq, real_inner_comm a b]
    ring
  rw [e] at h
  have hc : ⟪a, b⟫ ≤ ‖a‖ * ‖b‖ := real_inner_le_norm a b
  have h1 : (1 / s + 1 / t) * ⟪a, b⟫ ≤ (1 / s + 1 / t) * (‖a‖ * ‖b‖) := mul_le_mul_of_nonneg_left hc (by positivity)
  have h2 : (‖a‖ - ‖b‖) * (‖a‖ / s - ‖b‖ / t) ≤ 0 := by
    have : (‖a‖ - ‖b‖) * (‖a‖ / s - ‖b‖ / t) = ‖a‖ ^ 2 / s + ‖b‖ ^ 2 / t - (1 / s + 1 / t) * (‖a‖ * ‖b‖) := by ring
    rw [this]; linarith
  rcases hd.lt_or_eq with hlt | heq
  · by_contra hcon
    push Not at hcon
    have := mul_pos_of_neg_of_neg (sub_neg.2 hlt) (sub_neg.2 hcon)
    linarith
  · rw [heq]
    exact div_le_div_of_nonneg_left (norm_nonneg _) hs hst.le

lemma prox_step_lipschitz (hF : F.Convex) (hs : 0 < s) (hst : s < t) (hp : IsProx F s x p) (hq : IsProx F t x q) : ‖p - q‖ ≤ (1 - s / t) * ‖x - q‖ := by
  have ht : 0 < t := hs.trans hst
  have h := prox_step_mono hF hs ht hp hq
  have epq : ‖p - q‖ = ‖(x - q) - (x - p)‖ := by congr 1; abel
  rw [epq]
  set a := x - p
  set b := x - q
  have hst1 : 0 ≤ 1 - s / t := by rw [sub_nonneg, div_le_one ht]; exact hst.le
  have h1 : 0 ≤ s * ⟪(1 / s) • a - (1 / t) • b, b - a⟫ := mul_nonneg hs.le h
  have e : s * ⟪(1 / s) • a - (1 / t) • b, b - a⟫ = (1 - s / t) * ⟪b, b - a⟫ - ‖b - a‖ ^ 2 := by
    rw [← real_inner_smul_left, ← real_inner_self_eq_norm_sq, ← real_inner_smul_left, ← inner_sub_left]
    congr 1
    rw [smul_sub, smul_smul, smul_smul, mul_one_div_cancel hs.ne', one_smul, sub_smul, one_smul, show s * (1 / t) = s / t by ring]
    abel
  rw [e] at h1
  have hc : ⟪b, b - a⟫ ≤ ‖b‖ * ‖b - a‖ := real_inner_le_norm _ _
  have h2 : ‖b - a‖ ^ 2 ≤ (1 - s / t) * (‖b‖ * ‖b - a‖) := by
    have := mul_le_mul_of_nonneg_left hc hst1
    linarith
  rcases (norm_nonneg (b - a)).eq_or_lt with h0 | h0
  · rw [← h0]; positivity
  · have : ‖b - a‖ * ‖b - a‖ ≤ ((1 - s / t) * ‖b‖) * ‖b - a‖ := by nlinarith
    exact le_of_mul_le_mul_right this h0

lemma prox_pythagoras (hF : F.Convex) (hs : 0 < s) (hst : s < t) (hp : IsProx F s x p) (hq : IsProx F t x q) : ‖p - q‖ ^ 2 ≤ ‖x - q‖ ^ 2 - ‖x - p‖ ^ 2 := by
  have ht : 0 < t := hs.trans hst
  have h := prox_step_mono hF hs ht hp hq
  have hd := (prox_dist_mono hs hst hp hq).1
  have epq : ‖p - q‖ = ‖(x - q) - (x - p)‖ := by congr 1; abel
  rw [epq]
  set a := x - p
  set b := x - q
  have e : ⟪(1 / s) • a - (1 / t) • b, b - a⟫ = (⟪a, b⟫ - ‖a‖ ^ 2) / s - (‖b‖ ^ 2 - ⟪a, b⟫) / t := by
    simp only [inner_sub_left, inner_sub_right, real_inner_smul_left, real_inner_self_eq_norm_sq, real_inner_comm a b]
    ring
  rw [e] at h
  have hab : ⟪a, b⟫ ≤ ‖b‖ ^ 2 := (real_inner_le_norm a b).trans (by nlinarith [norm_nonneg b])
  have h1 : 0 ≤ (‖b‖ ^ 2 - ⟪a, b⟫) / t := div_nonneg (by linarith) ht.le
  have h2 : 0 ≤ ⟪a, b⟫ - ‖a‖ ^ 2 := by
    by_contra hc
    push Not at hc
    have := div_neg_of_neg_of_pos hc hs
    linarith
  rw [norm_sub_sq_real, real_inner_comm]
  linarith

end Points

/-! ## One call of `prox` -/

section Call

variable {f : ProxOp E} {F : XFun E}

/-- C107: with a larger step the penalty of the result is not larger and its distance to the input not smaller, for every operator whose `prox` minimises the penalty plus the scaled
squared distance, convex or not. -/
theorem C107_tradeoff (hf : ProxExact f F) : StepTradeoff f F.val := by
  intro x s t hs hst
  obtain ⟨p, e1, h1⟩ := hf x s hs
  rcases hst.lt_or_eq with hlt | rfl
  · obtain ⟨q, e2, h2⟩ := hf x t (hs.trans hlt)
    exact ⟨p, q, e1, e2, (prox_dist_mono hs hlt h1 h2).2, (prox_dist_mono hs hlt h1 h2).1⟩
  · exact ⟨p, p, e1, e1, le_rfl, le_rfl⟩

/-- C107: the result is never worse than any other point by more than that point's squared distance over twice the step; in particular never worse than the input. -/
theorem C107_bound (hf : ProxExact f F) (x : E) {t : ℝ} (ht : 0 < t) (p : E) (hp : f.prox x t = .ok p) (z : E) (hz : z ∈ F.dom) :
    F.val p + ‖x - p‖ ^ 2 / (2 * t) ≤ F.val z + ‖x - z‖ ^ 2 / (2 * t) := by
  obtain ⟨p', e1, h1⟩ := hf x t ht
  rw [hp] at e1; cases e1
  have := h1.2 z hz
  simp only [proxObj] at this
  rwa [norm_sub_rev p x, norm_sub_rev z x] at this

/-- C107 for convex penalties: the distance moved grows at most in proportion to the step, and the result depends on the step continuously, with the bound given. -/
theorem C107_continuity (hF : F.Convex) (hf : ProxExact f F) (x : E) {s t : ℝ} (hs : 0 < s) (hst : s ≤ t) (p q : E) (hp : f.prox x s = .ok p)
    (hq : f.prox x t = .ok q) :
    ‖x - q‖ / t ≤ ‖x - p‖ / s ∧ ‖p - q‖ ≤ (1 - s / t) * ‖x - q‖ ∧ ‖p - q‖ ≤ (t - s) / s * ‖x - p‖ ∧ ‖p - q‖ ^ 2 ≤ ‖x - q‖ ^ 2 - ‖x - p‖ ^ 2 := by
  rcases hst.lt_or_eq with hlt | rfl
  · obtain ⟨p', e1, h1⟩ := hf x s hs
    obtain ⟨q', e2, h2⟩ := hf x t (hs.trans hlt)
    rw [hp] at e1; cases e1
    rw [hq] at e2; cases e2
    have ht : 0 < t := hs.trans hlt
    have k1 := prox_slope_mono hF hs hlt h1 h2
    have k2 := prox_step_lipschitz hF hs hlt h1 h2
    refine ⟨k1, k2, k2.trans ?_, prox_pythagoras hF hs hlt h1 h2⟩
    have e1 : (1 - s / t) * ‖x - q‖ = (t - s) * (‖x - q‖ / t) := by field_simp
    have e2 : (t - s) / s * ‖x - p‖ = (t - s) * (‖x - p‖ / s) := by ring
    rw [e1, e2]
    exact mul_le_mul_of_nonneg_left k1 (by linarith)
  · rw [hp] at hq; cases hq
    simp [hs.ne']

/-- C107: as the step goes to zero the result goes to the input, at the rate of the square root of the step, wherever the penalty is finite.  Convexity is not needed. -/
theorem C107_small_steps (hf : ProxExact f F) (x : E) (hx : x ∈ F.dom) :
    ∃ C, ∀ t, 0 < t → t ≤ 1 / 2 → ∀ p, f.prox x t = .ok p → ‖x - p‖ ^ 2 ≤ C * t := by
  obtain ⟨p1, -, h1⟩ := hf x 1 one_pos
  refine ⟨4 * (F.val x - proxObj F 1 x p1), fun t ht ht2 p hp => ?_⟩
  have hb := C107_bound hf x ht p hp x hx
  obtain ⟨p', e1, hp'⟩ := hf x t ht
  rw [hp] at e1; cases e1
  have h2 := h1.2 p hp'.1
  simp only [proxObj] at h2 ⊢
  rw [norm_sub_rev p x] at h2
  set d := ‖x - p‖ ^ 2
  have hd : 0 ≤ d := by positivity
  simp only [sub_self, norm_zero] at hb
  have h3 : d / (2 * t) ≤ F.val x - F.val p := by norm_num at hb; linarith
  have h4 : d ≤ 2 * t * (F.val x - F.val p) := by rwa [div_le_iff₀ (by positivity), mul_comm] at h3
  set K := F.val p1 + ‖p1 - x‖ ^ 2 / (2 * 1)
  have h5 : F.val x - F.val p ≤ F.val x - K + d / 2 := by linarith
  have h6 : 2 * t * (F.val x - F.val p) ≤ 2 * t * (F.val x - K + d / 2) := mul_le_mul_of_nonneg_left h5 (by positivity)
  nlinarith

/-- C107: as the step grows, the penalty of the result goes to its minimum at the rate one over the step; a larger step than needed does no harm to it. -/
theorem C107_large_steps (hf : ProxExact f F) (x c : E) (hc : F.IsMin c) {t : ℝ} (ht : 0 < t) (p : E) (hp : f.prox x t = .ok p) :
    F.val c ≤ F.val p ∧ F.val p - F.val c ≤ ‖x - c‖ ^ 2 / (2 * t) ∧ ‖x - p‖ ≤ ‖x - c‖ := by
  have hb := C107_bound hf x ht p hp c hc.1
  obtain ⟨p', e1, hp'⟩ := hf x t ht
  rw [hp] at e1; cases e1
  have h1 := hc.2 p hp'.1
  have h2 : 0 ≤ ‖x - p‖ ^ 2 / (2 * t) := by positivity
  refine ⟨h1, by linarith, le_of_sq_le_sq ?_ (norm_nonneg _)⟩
  have : ‖x - p‖ ^ 2 / (2 * t) ≤ ‖x - c‖ ^ 2 / (2 * t) := by linarith
  exact (div_le_div_iff_of_pos_right (by positivity)).1 this

/-- C107: for a convex penalty with a minimiser, the results converge, as the step grows, to the minimiser closest to the input. -/
theorem C107_limit [CompleteSpace E] (hF : F.Convex) (hf : ProxExact f F) (x c : E) (hc : F.IsMin c) (P : ℝ → E) (hP : ∀ t, 0 < t → f.prox x t = .ok (P t)) :
    ∃ m, F.IsMin m ∧ (∀ c', F.IsMin c' → ‖x - m‖ ≤ ‖x - c'‖) ∧ Tendsto P atTop (𝓝 m) := by
  have hmono : ∀ s t, 0 < s → s ≤ t → ‖x - P s‖ ^ 2 ≤ ‖x - P t‖ ^ 2 := fun s t hs hst => by
    obtain ⟨p, q, hp, hq, -, h⟩ := C107_tradeoff hf x s t hs hst
    rw [hP s hs] at hp; cases hp
    rw [hP t (hs.trans_le hst)] at hq; cases hq
    exact pow_le_pow_left₀ (norm_nonneg _) h 2
  have hbd : ∀ t, 0 < t → ‖x - P t‖ ^ 2 ≤ ‖x - c‖ ^ 2 := fun t ht =>
    pow_le_pow_left₀ (norm_nonneg _) (C107_large_steps hf x c hc ht _ (hP t ht)).2.2 2
  have hpy : ∀ s t, 0 < s → s ≤ t → ‖P s - P t‖ ^ 2 ≤ ‖x - P t‖ ^ 2 - ‖x - P s‖ ^ 2 := fun s t hs hst =>
    (C107_continuity hF hf x hs hst _ _ (hP s hs) (hP t (hs.trans_le hst))).2.2.2
  have hcau : Cauchy (map P atTop) := by
    have hlim : ∃ l, Tendsto (fun t => ‖x - P (max t 1)‖ ^ 2) atTop (𝓝 l) :=
      ⟨_, tendsto_atTop_ciSup (fun s t hst => hmono _ _ (by positivity) (max_le_max hst le_rfl)) ⟨‖x - c‖ ^ 2, by rintro _ ⟨t, rfl⟩; exact hbd _ (by positivity)⟩⟩
    obtain ⟨l, hl⟩ := hlim
    have hc1 := hl.cauchy_map
    rw [Metric.cauchy_iff] at hc1 ⊢
    refine ⟨inferInstance, fun ε hε => ?_⟩
    obtain ⟨S, hS, hS'⟩ := hc1.2 (ε ^ 2) (by positivity)
    rw [mem_map, mem_atTop_sets] at hS
    obtain ⟨T, hT⟩ := hS
    refine ⟨P '' Set.Ici (max T 1), image_mem_map (Ici_mem_atTop _), ?_⟩
    have key : ∀ a b, max T 1 ≤ a → a ≤ b → dist (P a) (P b) < ε := by
      intro a b ha hab
      have ha0 : 0 < a := lt_of_lt_of_le (by positivity) ha
      have h1 := hS' _ (hT a ((le_max_left _ _).trans ha)) _ (hT b (((le_max_left _ _).trans ha).trans hab))
      beta_reduce at h1
      rw [max_eq_left ((le_max_right _ _).trans ha), max_eq_left (((le_max_right _ _).trans ha).trans hab), Real.dist_eq, abs_sub_comm] at h1
      have h2 := (hpy a b ha0 hab).trans_lt ((le_abs_self _).trans_lt h1)
      rw [dist_eq_norm]
      exact lt_of_pow_lt_pow_left₀ 2 hε.le h2
    rintro _ ⟨a, ha, rfl⟩ _ ⟨b, hb, rfl⟩
    rcases le_total a b with hab | hab
    · exact key a b ha hab
    · rw [dist_comm]; exact key b a hb hab
  obtain ⟨m, hm⟩ := cauchy_iff_exists_le_nhds.1 hcau
  have hm' : Tendsto P atTop (𝓝 m) := hm
  obtain ⟨Q, hQ, hQ'⟩ := proxExact_map hf one_pos
  have hne : ∀ a b, ‖Q a - Q b‖ ≤ ‖a - b‖ := fun a b => proxMap_nonexpansive hF one_pos hQ' a b
  have hQc : Continuous Q := continuous_of_nonexpansive (K := 1) fun a b => by rw [one_mul]; exact hne a b
  have hres : ∀ t, 0 < t → ‖Q (P t) - P t‖ ≤ ‖x - c‖ * t⁻¹ := by
    intro t ht
    obtain ⟨p', e1, hp'⟩ := hf x t ht
    rw [hP t ht] at e1; cases e1
    have hs := subgrad_of_isProx hF ht hp'
    have : IsProx F 1 (P t + (1 / t) • (x - P t)) (P t) := isProx_of_subgrad one_pos (by simpa using hs)
    have e : P t = Q (P t + (1 / t) • (x - P t)) := IsProx.unique hF one_pos (hQ' _) this
    calc ‖Q (P t) - P t‖ = ‖Q (P t) - Q (P t + (1 / t) • (x - P t))‖ := by rw [← e]
      _ ≤ ‖P t - (P t + (1 / t) • (x - P t))‖ := hne _ _
      _ = ‖x - P t‖ * t⁻¹ := by rw [sub_add_cancel_left, norm_neg, norm_smul, Real.norm_of_nonneg (by positivity), one_div, mul_comm]
      _ ≤ ‖x - c‖ * t⁻¹ := mul_le_mul_of_nonneg_right (C107_large_steps hf x c hc ht _ (hP t ht)).2.2 (by positivity)
  have hz : Tendsto (fun t => ‖Q (P t) - P t‖) atTop (𝓝 0) := by
    refine squeeze_zero' (Eventually.of_forall fun _ => norm_nonneg _) ((eventually_gt_atTop 0).mono fun t ht => hres t ht) ?_
    simpa using tendsto_inv_atTop_zero.const_mul ‖x - c‖
  have hz' : Tendsto (fun t => ‖Q (P t) - P t‖) atTop (𝓝 ‖Q m - m‖) := (((hQc.tendsto m).comp hm').sub hm').norm
  have hfix : Q m = m := sub_eq_zero.1 (norm_eq_zero.1 (tendsto_nhds_unique hz' hz))
  refine ⟨m, (C10_prox_fixed_points f F hF hf m 1 one_pos).1 (by rw [hQ, hfix]), fun c' hc' => ?_, hm'⟩
  exact le_of_tendsto ((tendsto_const_nhds.sub hm').norm) ((eventually_gt_atTop 0).mono fun t ht => (C107_large_steps hf x c' hc' ht _ (hP t ht)).2.2)

end Call

/-! ## Operators whose `prox` is not a proximal map for every step -/

section Shrink

variable {ι : Type} [Fintype ι]

lemma shrink_tradeoff {op : ProxOp (Vec ι)} {h : ℝ → ℝ → ℝ} {F : Vec ι → ℝ} (hop : ∀ x τ, 0 < τ → op.prox x τ = .ok (vmk fun i => h τ (x i)))
    (hh : ∀ s t v, 0 < s → s ≤ t → |h t v| ≤ |h s v| ∧ |v - h s v| ≤ |v - h t v|) (hF : ∀ p q : Vec ι, (∀ i, |q i| ≤ |p i|) → F q ≤ F p) : StepTradeoff op F := by
  intro x s t hs hst
  refine ⟨_, _, hop x s hs, hop x t (hs.trans_le hst), hF _ _ fun i => (hh s t (x i) hs hst).1, le_of_sq_le_sq ?_ (norm_nonneg _)⟩
  rw [EuclideanSpace.norm_sq_eq, EuclideanSpace.norm_sq_eq]
  refine Finset.sum_le_sum fun i _ => ?_
  exact pow_le_pow_left₀ (norm_nonneg _) (hh s t (x i) hs hst).2 2

/-- A map that only shrinks the absolute value, more for larger steps. -/
lemma shrink_of_abs {h k : ℝ → ℝ → ℝ} (hk : ∀ τ v, 0 < τ → h τ v = k τ |v| * npsign v)
    (hm : ∀ s t r, 0 < s → s ≤ t → 0 ≤ r → 0 ≤ k t r ∧ k t r ≤ k s r ∧ k s r ≤ r) (s t v : ℝ) (hs : 0 < s) (hst : s ≤ t) :
    |h t v| ≤ |h s v| ∧ |v - h s v| ≤ |v - h t v| := by
  obtain ⟨h0, h1, h2⟩ := hm s t |v| hs hst (abs_nonneg _)
  rw [hk s v hs, hk t v (hs.trans_le hst)]
  have e : ∀ c, v - c * npsign v = (|v| - c) * npsign v := fun c => by rw [sub_mul, npsign_mul_abs]
  rw [e, e]
  clear e
  generalize |v| = r at *
  rw [abs_mul, abs_mul, abs_mul, abs_mul, abs_of_nonneg h0, abs_of_nonneg (h0.trans h1), abs_of_nonneg (sub_nonneg.2 h2), abs_of_nonneg (sub_nonneg.2 (h1.trans h2))]
  exact ⟨mul_le_mul_of_nonneg_right h1 (abs_nonneg _), mul_le_mul_of_nonneg_right (by linarith) (abs_nonneg _)⟩

/-- C107 for `Huber`, whose `prox` is not the proximal map of the function for entries between `alpha` and `alpha + tau` (C16): the trade-off holds all the same. -/
theorem C107_huber (α : ℝ) (hα : 0 < α) : StepTradeoff (Huber (ι := ι) α) (huberSpec α) := by
  have hh := shrink_of_abs (h := fun τ v => if |v| > α then softScalar v (τ * 1) else v / (1 + τ * (1 / α)))
    (k := fun τ r => if r > α then max (r - τ) 0 else r / (1 + τ * (1 / α))) (fun τ v hτ => ?_) fun s t r hs hst hr => ?_
  · refine shrink_tradeoff (fun x τ hτ => by simp only [ProxOp.prox, Huber, checkTau_pos hτ]) hh fun p q hpq => Finset.sum_le_sum fun i _ => ?_
    have := hpq i
    have h0 := abs_nonneg (q i)
    have h0' := abs_nonneg (p i)
    split_ifs with h1 h2 h2
    · exact div_le_div_of_nonneg_right (pow_le_pow_left₀ h0 this 2) (by positivity)
    · rw [div_le_iff₀ (by positivity)]
      nlinarith
    · exact absurd (this.trans h2) h1
    · linarith
  · split_ifs with h1
    · simp [softScalar]
    · rw [div_mul_eq_mul_div, npsign_mul_abs]
  · have e : 0 < 1 + s * (1 / α) := by positivity
    have e' : 0 < 1 + t * (1 / α) := by have := hs.trans_le hst; positivity
    have e2 : 1 + s * (1 / α) ≤ 1 + t * (1 / α) := by gcongr
    split_ifs with h1
    · exact ⟨le_max_right _ _, max_le_max (by linarith) le_rfl, max_le (by linarith) hr⟩
    · refine ⟨by positivity, div_le_div_of_nonneg_left hr e e2, div_le_self hr ?_⟩
      have : 0 ≤ s * (1 / α) := by positivity
      linarith

lemma scad_k_mono {σ a : ℝ} (hσ : 0 < σ) (ha : 2 < a) (s t r : ℝ) (hs : 0 < s) (hst : s ≤ t) (hr : 0 ≤ r) :
    let k := fun τ r => if r ≤ σ * (a - 1 - τ + τ * a) / (a - 1) then max 0 (r - σ * τ) else if r ≤ a * σ then ((a - 1) * r - a * σ * τ) / (a - 1 - τ) else r
    0 ≤ k t r ∧ k t r ≤ k s r ∧ k s r ≤ r := by
  have ha1 : 0 < a - 1 := by linarith
  have ef : ∀ τ, σ * (a - 1 - τ + τ * a) / (a - 1) = σ * (1 + τ) := fun τ => by field_simp; ring
  simp only [ef]
  have ht : 0 < t := hs.trans_le hst
  -- in the second branch the value is between `σ` and `r`
  have second : ∀ τ, 0 < τ → σ * (1 + τ) < r → r ≤ a * σ → 0 < a - 1 - τ ∧ σ ≤ ((a - 1) * r - a * σ * τ) / (a - 1 - τ) ∧ ((a - 1) * r - a * σ * τ) / (a - 1 - τ) ≤ r := by
    intro τ hτ h1 h2
    have hd : 0 < a - 1 - τ := by nlinarith
    refine ⟨hd, ?_, ?_⟩
    · rw [le_div_iff₀ hd]; nlinarith
    · rw [div_le_iff₀ hd]; nlinarith
  have mono : σ * (1 + s) ≤ σ * (1 + t) := by gcongr
  by_cases h1 : r ≤ σ * (1 + s)
  · rw [if_pos h1, if_pos (h1.trans mono)]
    exact ⟨le_max_left _ _, max_le_max le_rfl (by nlinarith), max_le hr (by nlinarith)⟩
  · rw [if_neg h1]
    push Not at h1
    by_cases h2 : r ≤ σ * (1 + t)
    · rw [if_pos h2]
      by_cases h3 : r ≤ a * σ
      · rw [if_pos h3]
        obtain ⟨-, k1, k2⟩ := second s hs h1 h3
        exact ⟨le_max_left _ _, max_le (hσ.le.trans k1) (by nlinarith), k2⟩
      · rw [if_neg h3]
        exact ⟨le_max_left _ _, max_le hr (by nlinarith), le_rfl⟩
    · rw [if_neg h2]
      push Not at h2
      by_cases h3 : r ≤ a * σ
      · rw [if_pos h3, if_pos h3]
        obtain ⟨d1, -, k2⟩ := second s hs h1 h3
        obtain ⟨d2, k1, -⟩ := second t ht h2 h3
        refine ⟨hσ.le.trans k1, ?_, k2⟩
        rw [div_le_div_iff₀ d2 d1]
        have : 0 ≤ (a - 1) * (t - s) * (a * σ - r) := mul_nonneg (mul_nonneg ha1.le (by linarith)) (by linarith)
        nlinarith
      · rw [if_neg h3, if_neg h3]
        exact ⟨hr, le_rfl, le_rfl⟩

lemma scadSpec_abs_mono {σ a : ℝ} (hσ : 0 < σ) (ha : 2 < a) {u v : ℝ} (h : |u| ≤ |v|) : scadSpec σ a u ≤ scadSpec σ a v := by
  have ha1 : 0 < a - 1 := by linarith
  have hu := abs_nonneg u
  have haσ : σ < a * σ := by nlinarith
  simp only [scadSpec]
  by_cases h1 : |v| ≤ σ
  · rw [if_pos h1, if_pos (h.trans h1)]
    gcongr
  · rw [if_neg h1]
    push Not at h1
    by_cases h2 : |v| ≤ a * σ
    · rw [if_pos h2]
      by_cases h3 : |u| ≤ σ
      · rw [if_pos h3, le_div_iff₀ (by positivity)]
        nlinarith [mul_nonneg (sub_nonneg.2 h1.le) (sub_nonneg.2 h2), mul_le_mul_of_nonneg_left h3 hσ.le]
      · rw [if_neg h3, if_pos (h.trans h2)]
        refine div_le_div_of_nonneg_right ?_ (by positivity)
        nlinarith
    · rw [if_neg h2]
      push Not at h2
      split_ifs with h3 h4
      · nlinarith
      · rw [div_le_div_iff₀ (by positivity) (by positivity)]
        nlinarith [sq_nonneg (a * σ - |u|)]
      · exact le_rfl

/-- C107 for `SCAD` and every step, also beyond `a - 1`, where `prox` is not the proximal map (C32). -/
theorem C107_scad (σ a : ℝ) (op : ProxOp (Vec ι)) (hop : SCAD σ a = .ok op) : StepTradeoff op fun y => ∑ i, scadSpec σ a (y i) := by
  simp only [SCAD] at hop
  split_ifs at hop with h1 h2
  push Not at h1 h2
  cases hop
  refine shrink_tradeoff (h := fun τ v => scadProx σ a τ v) (fun x τ hτ => by simp only [ProxOp.prox, checkTau_pos hτ])
    (shrink_of_abs (k := fun τ r => if r ≤ σ * (a - 1 - τ + τ * a) / (a - 1) then max 0 (r - σ * τ) else if r ≤ a * σ then ((a - 1) * r - a * σ * τ) / (a - 1 - τ) else r)
      (fun τ v _ => ?_) (scad_k_mono h1 h2)) fun p q hpq => Finset.sum_le_sum fun i _ => scadSpec_abs_mono h1 h2 (hpq i)
  simp only [scadProx]
  split_ifs with k1 k2
  · rw [mul_comm]
  · have hv := npsign_mul_abs v
    rw [div_mul_eq_mul_div]
    congr 1
    linear_combination (1 - a) * hv
  · rw [npsign_mul_abs]

/-- C107 for `QuadraticEnvelopeCard` and every step, also beyond 1, where `prox` is not the proximal map (C33). -/
theorem C107_qec (μ : ℝ) : StepTradeoff (QuadraticEnvelopeCard (ι := ι) μ) fun y => ∑ i, mcpSpec μ (y i) := by
  refine shrink_tradeoff (h := fun τ v => qecProx μ τ v) (fun x τ hτ => by simp only [ProxOp.prox, QuadraticEnvelopeCard, checkTau_pos hτ])
    (shrink_of_abs (k := fun τ r => if r < √(2 * μ) then (if τ ≥ 1 then 0 else max 0 ((r - τ * √(2 * μ)) / (1 - τ))) else r) (fun τ v _ => rfl) fun s t r hs hst hr => ?_)
    fun p q hpq => Finset.sum_le_sum fun i _ => ?_
  · have hm := Real.sqrt_nonneg (2 * μ)
    set m := √(2 * μ)
    by_cases h1 : r < m
    · simp only [if_pos h1]
      have up : s < 1 → max 0 ((r - s * m) / (1 - s)) ≤ r := fun h => max_le hr (by rw [div_le_iff₀ (by linarith)]; nlinarith)
      by_cases h2 : t ≥ 1
      · rw [if_pos h2]
        by_cases h3 : s ≥ 1
        · rw [if_pos h3]; exact ⟨le_rfl, le_rfl, hr⟩
        · rw [if_neg h3]; exact ⟨le_rfl, le_max_left _ _, up (not_le.1 h3)⟩
      · have h2' : t < 1 := not_le.1 h2
        have h3 : s < 1 := hst.trans_lt h2'
        rw [if_neg h2, if_neg (not_le.2 h3)]
        refine ⟨le_max_left _ _, max_le_max le_rfl ?_, up h3⟩
        rw [div_le_div_iff₀ (by linarith) (by linarith)]
        nlinarith
    · simp only [if_neg h1]
      exact ⟨hr, le_rfl, le_rfl⟩
  · simp only [mcpSpec]
    have h1 : max 0 (√(2 * μ) - |p i|) ≤ max 0 (√(2 * μ) - |q i|) := max_le_max le_rfl (by linarith [hpq i])
    have := pow_le_pow_left₀ (le_max_left _ _) h1 2
    linarith

/-- C107 for `L0` with its threshold `tau * sigma`, which is not the one of the proximal map (C29). -/
theorem C107_l0 (σ : ℝ) (hσ : 0 ≤ σ) : StepTradeoff (L0 (ι := ι) σ) numNonzero := by
  refine shrink_tradeoff (h := fun τ v => if |v| ≤ τ * σ then 0 else v) (fun x τ hτ => by simp only [ProxOp.prox, L0, hardthreshold, checkTau_pos hτ])
    (fun s t v hs hst => ?_) fun p q hpq => ?_
  · have : s * σ ≤ t * σ := mul_le_mul_of_nonneg_right hst hσ
    by_cases h1 : |v| ≤ s * σ
    · rw [if_pos h1, if_pos (h1.trans this)]; exact ⟨le_rfl, le_rfl⟩
    · rw [if_neg h1]
      split_ifs <;> simp
  · rw [numNonzero_eq_sum, numNonzero_eq_sum]
    refine Finset.sum_le_sum fun i _ => ?_
    by_cases h : p i = 0
    · have : q i = 0 := by have := hpq i; rw [h, abs_zero] at this; exact abs_nonpos_iff.1 this
      rw [if_pos h, if_pos this]
    · rw [if_neg h]; split_ifs <;> norm_num

/-- C107 for `RelaxedMumfordShah` as it is evaluated, although on arrays with more than one entry `prox` is not the proximal map of it (C34). -/
theorem C107_relaxedms (σ κ : ℝ) (hσ : 0 < σ) (hκ : 0 ≤ κ) : StepTradeoff (RelaxedMS (ι := ι) σ κ) fun y => min (σ * ‖y‖ ^ 2) κ := by
  refine shrink_tradeoff (h := fun τ v => if |v| ≤ √(κ / σ * (1 + 2 * τ * σ)) then 1 / (1 + 2 * (τ * σ)) * v else v)
    (fun x τ hτ => by simp only [ProxOp.prox, RelaxedMS, checkTau_pos hτ, if_neg hσ.ne'])
    (shrink_of_abs (k := fun τ r => if r ≤ √(κ / σ * (1 + 2 * τ * σ)) then 1 / (1 + 2 * (τ * σ)) * r else r) (fun τ v _ => ?_) fun s t r hs hst hr => ?_) fun p q hpq => ?_
  · split_ifs
    · rw [mul_assoc, npsign_mul_abs]
    · rw [npsign_mul_abs]
  · have ht : 0 < t := hs.trans_le hst
    have hth : √(κ / σ * (1 + 2 * s * σ)) ≤ √(κ / σ * (1 + 2 * t * σ)) := Real.sqrt_le_sqrt (by gcongr)
    have hc : 1 / (1 + 2 * (t * σ)) ≤ 1 / (1 + 2 * (s * σ)) := one_div_le_one_div_of_le (by positivity) (by gcongr)
    have hc1 : ∀ τ, 0 < τ → 1 / (1 + 2 * (τ * σ)) ≤ 1 := fun τ hτ => by rw [div_le_one (by positivity)]; have := mul_pos hτ hσ; linarith
    by_cases h1 : r ≤ √(κ / σ * (1 + 2 * s * σ))
    · rw [if_pos h1, if_pos (h1.trans hth)]
      exact ⟨by positivity, mul_le_mul_of_nonneg_right hc hr, mul_le_of_le_one_left hr (hc1 s hs)⟩
    · rw [if_neg h1]
      split_ifs
      · exact ⟨by positivity, mul_le_of_le_one_left hr (hc1 t ht), le_rfl⟩
      · exact ⟨hr, le_rfl, le_rfl⟩
  · refine min_le_min ?_ le_rfl
    refine mul_le_mul_of_nonneg_left ?_ hσ.le
    rw [EuclideanSpace.norm_sq_eq, EuclideanSpace.norm_sq_eq]
    exact Finset.sum_le_sum fun i _ => pow_le_pow_left₀ (norm_nonneg _) (hpq i) 2

/-- C107 fails for `Log1`: around the origin a small step moves the result away from the input, to a larger penalty, and a larger step does not. -/
theorem C107_log1_refuted (σ δ : ℝ) (hσ : 0 < σ) (hδ : 0 < δ) (op : ProxOp (Vec (Fin 1))) (hop : Log1 σ δ = .ok op) :
    (∃ s t p, 0 < s ∧ s < t ∧ op.prox 0 s = .ok p ∧ op.prox 0 t = .ok 0 ∧ 0 < ‖0 - p‖) ∧ ¬ StepTradeoff op fun y => ∑ i, Real.log (|y i| + δ) := by
  classical
  have key : ∃ s t p, 0 < s ∧ s < t ∧ op.prox 0 s = .ok p ∧ op.prox 0 t = .ok 0 ∧ 0 < ‖0 - p‖ := by
    have hs : (0 : ℝ) < δ ^ 2 / (8 * σ) := by positivity
    have e1 : √(2 * (σ * (δ ^ 2 / (8 * σ)))) = δ / 2 := by
      rw [show 2 * (σ * (δ ^ 2 / (8 * σ))) = (δ / 2) ^ 2 by field_simp; ring]; exact Real.sqrt_sq (by positivity)
    obtain ⟨op', p, h1, h2, h3, -⟩ := C68_log1_zero_refuted σ δ _ hσ hs (by rw [e1]; linarith)
    rw [hop] at h1; cases h1
    have ht : (0 : ℝ) < 2 * δ ^ 2 / σ := by positivity
    refine ⟨_, 2 * δ ^ 2 / σ, p, hs, ?_, h2, ?_, ?_⟩
    · rw [div_lt_div_iff₀ (by positivity) hσ]; nlinarith [mul_pos (pow_pos hδ 2) hσ]
    · simp only [Log1, if_neg (not_lt.2 hδ.le)] at hop
      cases hop
      simp only [ProxOp.prox, checkTau_pos ht, if_neg (not_lt.2 hσ.le)]
      congr 1
      ext i
      have e2 : √(2 * (σ * (2 * δ ^ 2 / σ))) = 2 * δ := by
        rw [show 2 * (σ * (2 * δ ^ 2 / σ)) = (2 * δ) ^ 2 by field_simp]; exact Real.sqrt_sq (by positivity)
      simp only [log1Prox, e2, PiLp.zero_apply]
      rw [if_neg (by linarith), if_neg (by linarith)]
    · rw [zero_sub, norm_neg, norm_pos_iff]
      intro h
      rw [h] at h3
      simp at h3
  refine ⟨key, fun h => ?_⟩
  obtain ⟨s, t, p, hs, hst, hp, hq, h0⟩ := key
  obtain ⟨p', q', hp', hq', -, this⟩ := h 0 s t hs hst.le
  rw [hp] at hp'; cases hp'
  rw [hq] at hq'; cases hq'
  simp only [sub_self, norm_zero] at this
  exact absurd (h0.trans_le this) (lt_irrefl _)

end Shrink

/-! ## The weight of the penalty -/

section Weight

variable {f g : ProxOp E} {F G : XFun E}

omit [NormedAddCommGroup E] [InnerProductSpace ℝ E] in
/-- C107: of two problems `F + c G` and `F + d G` with `c < d`, whatever solver found their minimisers, the one with the larger weight has the smaller `G` and the larger `F`. -/
theorem C107_path {c d : ℝ} (hc : 0 < c) (hcd : c < d) (a b : E) (ha : (F.add (G.smul c)).IsMin a) (hb : (F.add (G.smul d)).IsMin b) :
    G.val b ≤ G.val a ∧ F.val a ≤ F.val b := by
  have h1 := ha.2 b hb.1
  have h2 := hb.2 a ha.1
  simp only [XFun.add, XFun.smul] at h1 h2
  have h3 : G.val b ≤ G.val a := by nlinarith
  exact ⟨h3, by nlinarith⟩

/-- C107 for the weight: `(c * f).prox` and `(d * f).prox` with `c ≤ d`, as the operators the library builds for a float times an operator. -/
theorem C107_weight (hf : ProxExact f F) {c d : ℝ} (hc : 0 < c) (hcd : c < d) :
    ∃ fc fd, f.rmul (.float c) = .ok fc ∧ f.rmul (.float d) = .ok fd ∧
      ∀ (x : E) (t : ℝ), 0 < t → ∃ p q, fc.prox x t = .ok p ∧ fd.prox x t = .ok q ∧ F.val q ≤ F.val p ∧ ‖x - p‖ ≤ ‖x - q‖ := by
  obtain ⟨fc, ec, hfc, -⟩ := C05_scaling f F c hc hf
  obtain ⟨fd, ed, hfd, -⟩ := C05_scaling f F d (hc.trans hcd) hf
  refine ⟨fc, fd, ec, ed, fun x t ht => ?_⟩
  obtain ⟨p, ep, hp⟩ := hfc x t ht
  obtain ⟨q, eq, hq⟩ := hfd x t ht
  refine ⟨p, q, ep, eq, ?_⟩
  let D : XFun E := XFun.ofReal fun y => ‖y - x‖ ^ 2 / (2 * t)
  have ha : (D.add (F.smul c)).IsMin p := ⟨⟨trivial, hp.1⟩, fun y hy => by
    have := hp.2 y hy.2
    simp only [proxObj, XFun.smul, D, XFun.add, XFun.ofReal] at this ⊢; linarith⟩
  have hb : (D.add (F.smul d)).IsMin q := ⟨⟨trivial, hq.1⟩, fun y hy => by
    have := hq.2 y hy.2
    simp only [proxObj, XFun.smul, D, XFun.add, XFun.ofReal] at this ⊢; linarith⟩
  obtain ⟨h1, h2⟩ := C107_path hc hcd p q ha hb
  refine ⟨h1, le_of_sq_le_sq ?_ (norm_nonneg _)⟩
  simp only [D, XFun.ofReal] at h2
  rw [norm_sub_rev x p, norm_sub_rev x q]
  exact (div_le_div_iff_of_pos_right (by positivity)).1 h2

/-- C107 for `ADMM` with weights `c < d` in front of `g`, in any order, with any steps and starts: the run with the larger weight ends at a point with a smaller `G` and a larger `F`. -/
theorem C107_admm [FiniteDimensional ℝ E] (hF : F.Convex) (hG : G.Convex) (hf : ProxExact f F) (hg : ProxExact g G) {c d τ τ' : ℝ} (hc : 0 < c) (hcd : c < d) (hτ : 0 < τ)
    (hτ' : 0 < τ') (gfirst gfirst' : Bool) (x0 x0' : E) (hsc : ∃ x s, IsCertified F (G.smul c) x s) (hsd : ∃ x s, IsCertified F (G.smul d) x s) :
    ∃ (gc gd : ProxOp E) (S S' : ℕ → SplitState E) (a b : E), g.rmul (.float c) = .ok gc ∧ g.rmul (.float d) = .ok gd ∧ (∀ n, ADMM f gc (some x0) none τ n gfirst = .ok (S n)) ∧
      (∀ n, ADMM f gd (some x0') none τ' n gfirst' = .ok (S' n)) ∧ Tendsto (fun n => (S n).x) atTop (𝓝 a) ∧ Tendsto (fun n => (S' n).x) atTop (𝓝 b) ∧
      G.val b ≤ G.val a ∧ F.val a ≤ F.val b := by
  obtain ⟨gc, ec, hgc, -⟩ := C05_scaling g G c hc hg
  obtain ⟨gd, ed, hgd, -⟩ := C05_scaling g G d (hc.trans hcd) hg
  have hGc : ∀ k, 0 < k → (G.smul k).Convex := fun k hk => ConvexOn.smul hk.le hG
  have := FiniteDimensional.proper_real E
  obtain ⟨S, hS, a, ha, hSa, -⟩ := C45_admm_converges hF (hGc c hc) hf hgc hτ gfirst (some x0) none (Or.inl rfl) hsc
  obtain ⟨S', hS', b, hb, hSb, -⟩ := C45_admm_converges hF (hGc d (hc.trans hcd)) hf hgd hτ' gfirst' (some x0') none (Or.inl rfl) hsd
  exact ⟨gc, gd, S, S', a, b, ec, ed, hS, hS', hSa, hSb, C107_path hc hcd a b ha hb⟩

end Weight

/-! ## The operators of the library whose `prox` is exact -/

section Classes

variable {ι κ ρ : Type} [Fintype ι] [Fintype κ] [Fintype ρ]

/-- C107 for norms and penalties of the library: the value that the object returns when called does not increase with the step, and the distance moved does not decrease. -/
theorem C107_classes {σ α γ : ℝ} (hσ : 0 < σ) (hα : 0 < α) (hγ : 0 < γ) (g : Option (Vec ι)) (lg : ProxOp (Vec ι)) (hlg : Log σ γ = .ok lg) :
    StepTradeoff (L1 σ g) (fun y => σ * ∑ i, |y i - (g.getD 0) i|) ∧ StepTradeoff (Euclidean (E := E) σ) (fun y => σ * ‖y‖) ∧
      StepTradeoff (L21 (ι := ι) (κ := κ) σ) (fun y => σ * ∑ j, √(∑ i, (y (i, j)) ^ 2)) ∧
      StepTradeoff (HuberCircular (E := E) α) (fun y => if ‖y‖ ≤ α then ‖y‖ ^ 2 / (2 * α) else ‖y‖ - α / 2) ∧
      StepTradeoff lg (fun y => ∑ i, logSpec σ γ (y i)) := by
  refine ⟨C107_tradeoff (F := XFun.ofReal fun y : Vec ι => σ * ∑ i, |y i - (g.getD 0) i|) fun x τ hτ => ?_,
    C107_tradeoff (F := XFun.ofReal fun y : E => σ * ‖y‖) fun x τ hτ => ?_,
    C107_tradeoff (F := XFun.ofReal fun y : Vec (ι × κ) => σ * ∑ j, √(∑ i, (y (i, j)) ^ 2)) fun x τ hτ => ?_,
    C107_tradeoff (F := XFun.ofReal fun y : E => if ‖y‖ ≤ α then ‖y‖ ^ 2 / (2 * α) else ‖y‖ - α / 2) fun x τ hτ => ?_,
    C107_tradeoff (C67_log_prox σ γ hγ lg hlg)⟩
  · obtain ⟨p, h, h1, -⟩ := C11_l1_prox σ hσ.le g x τ hτ; exact ⟨p, h, h1⟩
  · obtain ⟨p, h, h1, -⟩ := C12_euclidean_prox σ hσ x τ hτ; exact ⟨p, h, h1⟩
  · obtain ⟨p, h, h1, -⟩ := C13_l21_prox σ hσ x τ hτ; exact ⟨p, h, h1.1⟩
  · obtain ⟨p, h, h1, -⟩ := C15_huber_circular_prox α hα x τ hτ; exact ⟨p, h, h1⟩

/-- C107 for the nuclear norm. -/
theorem C107_nuclear (hρ : Fintype.card ρ = min (Fintype.card ι) (Fintype.card κ)) (svd : Vec (ι × κ) → SVD ι κ ρ) (hsvd : SvdExact svd) (eig : Vec (ι × κ) → κ → ℝ) (σ : ℝ)
    (hσ : 0 ≤ σ) : StepTradeoff (Nuclear svd eig σ) fun y => σ * nucNorm y :=
  C107_tradeoff (F := XFun.ofReal fun y => σ * nucNorm y) fun x τ hτ => by
    obtain ⟨p, h, h1, -⟩ := C60_nuclear_prox hρ svd hsvd eig σ hσ x τ hτ; exact ⟨p, h, h1⟩

/-- The statements at work: soft thresholding with a larger step gives a smaller norm and moves further. -/
example (x : Vec (Fin 3)) : ∃ p q, (L1 1 none).prox x 1 = .ok p ∧ (L1 1 none).prox x 2 = .ok q ∧ ∑ i, |q i| ≤ ∑ i, |p i| ∧ ‖x - p‖ ≤ ‖x - q‖ := by
  obtain ⟨lg, hlg⟩ : ∃ lg : ProxOp (Vec (Fin 3)), Log 1 1 = .ok lg := by
    simp only [Log, if_neg (show ¬ (1 : ℝ) < 0 by norm_num)]; exact ⟨_, rfl⟩
  simpa using (C107_classes (E := Vec (Fin 3)) (κ := Fin 1) one_pos one_pos one_pos none lg hlg).1 x 1 2 one_pos one_le_two

end Classes

end Verif
