import Verif.Props.NonConvex2
import Mathlib.Analysis.SpecialFunctions.Trigonometric.Bounds

/-! # C68, C70: Log1 and Geman penalties -/

open scoped RealInnerProductSpace

namespace Verif

variable {ι : Type} [Fintype ι]

/-! ## C70 -/

/-- The Geman penalty of one entry. -/
noncomputable def gemanSpec (σ γ t : ℝ) : ℝ := σ * |t| / (|t| + γ)

/-- Trigonometric solution of the depressed cubic `t³ + p t + q` with `p = -3m²`, `m > 0`: the root is the largest one
(`m <= t`). -/
lemma cubic_trig (m q : ℝ) (hm : 0 < m) (h : q ^ 2 / 4 ≤ m ^ 6) :
    ∃ t, t = 2 * m * Real.cos (Real.arccos (-(q / (2 * m ^ 3))) / 3) ∧ t ^ 3 - 3 * m ^ 2 * t + q = 0 ∧ m ≤ t := by
  refine ⟨_, rfl, ?_, ?_⟩
  · have hm3 : 0 < m ^ 3 := by positivity
    have habs : |q / (2 * m ^ 3)| ≤ 1 := by
      rw [abs_div, abs_of_pos (by positivity : 0 < 2 * m ^ 3), div_le_one (by positivity)]
      apply abs_le_of_sq_le_sq _ (by positivity)
      nlinarith
    rw [abs_le] at habs
    have hc : Real.cos (Real.arccos (-(q / (2 * m ^ 3)))) = -(q / (2 * m ^ 3)) :=
      Real.cos_arccos (by linarith) (by linarith)
    set θ := Real.arccos (-(q / (2 * m ^ 3)))
    have h3 := Real.cos_three_mul (θ / 3)
    rw [mul_div_cancel₀ _ (by norm_num : (3:ℝ) ≠ 0), hc] at h3
    have e : q = -(2 * m ^ 3) * (4 * Real.cos (θ / 3) ^ 3 - 3 * Real.cos (θ / 3)) := by
      rw [← h3]; field_simp
    rw [e]; ring
  · have h0 := Real.arccos_nonneg (-(q / (2 * m ^ 3)))
    have h1 := Real.arccos_le_pi (-(q / (2 * m ^ 3)))
    set θ := Real.arccos (-(q / (2 * m ^ 3)))
    have hcos : Real.cos (Real.pi / 3) ≤ Real.cos (θ / 3) :=
      Real.cos_le_cos_of_nonneg_of_le_pi (by linarith) (by linarith [Real.pi_pos]) (by linarith)
    rw [Real.cos_pi_div_three] at hcos
    nlinarith

/-- If a depressed cubic is `>= 0` somewhere and `<= 0` later, its discriminant is non-negative. -/
lemma cubic_disc (m q t0 t1 : ℝ) (hm : 0 < m) (h01 : t1 < t0) (h0 : t0 ^ 3 - 3 * m ^ 2 * t0 + q ≤ 0)
    (h1 : 0 ≤ t1 ^ 3 - 3 * m ^ 2 * t1 + q) : q ^ 2 / 4 ≤ m ^ 6 := by
  have hA : q ≤ 2 * m ^ 3 := by
    by_contra hq; push Not at hq
    have h2 : t0 < -2 * m := by
      by_contra hge; push Not at hge
      nlinarith [mul_nonneg (sq_nonneg (t0 - m)) (by linarith : 0 ≤ t0 + 2 * m)]
    -- increasing on (-∞, -m]
    nlinarith [mul_pos (sub_pos.2 h01) (by nlinarith [sq_nonneg (t0 - t1)] : 0 < t0 ^ 2 + t0 * t1 + t1 ^ 2 - 3 * m ^ 2)]
  have hB : -(2 * m ^ 3) ≤ q := by
    by_contra hq; push Not at hq
    have h2 : 2 * m < t1 := by
      by_contra hge; push Not at hge
      nlinarith [mul_nonneg (sq_nonneg (t1 + m)) (by linarith : 0 ≤ 2 * m - t1)]
    nlinarith [mul_pos (sub_pos.2 h01) (by nlinarith [sq_nonneg (t0 - t1)] : 0 < t0 ^ 2 + t0 * t1 + t1 ^ 2 - 3 * m ^ 2)]
  have : q ^ 2 ≤ (2 * m ^ 3) ^ 2 := sq_le_sq' hB hA
  nlinarith

lemma quad_conv (β κ γ w y : ℝ) (hw : -γ < w) (hwy : w ≤ y) (h1 : (-γ) ^ 2 + β * (-γ) + κ ≤ 0)
    (hPw : 0 ≤ w ^ 2 + β * w + κ) : 0 ≤ y ^ 2 + β * y + κ := by
  by_contra hneg; push Not at hneg
  have hwy' : w < y := lt_of_le_of_ne hwy fun h => by rw [h] at hPw; linarith
  have h2 : 0 < y + γ := by linarith
  have h3 : 0 < w + γ := by linarith
  nlinarith [mul_nonneg hPw h2.le, mul_nonneg (neg_nonneg.2 h1) (sub_pos.2 hwy').le, mul_pos (neg_pos.2 hneg) h3,
    mul_pos (mul_pos (sub_pos.2 hwy') h3) h2]

/-- C70: for every `sigma >= 0`, `gamma > 0` and step the result of `Geman.prox` is a minimiser. -/
theorem C70_geman_prox (σ γ : ℝ) (op : ProxOp (Vec ι)) (hop : Geman σ γ = .ok op) :
    ProxExact op (XFun.ofReal fun y : Vec ι => ∑ i, gemanSpec σ γ (y i)) := by
  intro x τ hτ
  unfold Geman at hop
  split_ifs at hop with hσ hγ
  cases hop
  push Not at hσ hγ
  refine ⟨_, by simp only [ProxOp.prox, checkTau_pos hτ]; rfl, ?_⟩
  refine sep_isProx_real (fun _ => gemanSpec σ γ) _ (fun _ => rfl) fun i => ?_
  simp only
  set z := x i
  set X := |z| with hX
  have hX0 : 0 ≤ X := abs_nonneg z
  set k := γ * σ * τ with hk
  have hk0 : 0 ≤ k := by positivity
  set f : ℝ → ℝ := fun w => τ * (σ * w / (w + γ)) + (w - X) ^ 2 / 2 with hf
  set Q : ℝ → ℝ := fun w => (w - X) * (w + γ) ^ 2 + k with hQ
  set g : ℝ → ℝ := fun w => Q w / (w + γ) ^ 2 with hg
  have hpos1 : ∀ w, 0 ≤ w → 0 < w + γ := fun w hw => by positivity
  have hfe : ∀ w, 0 ≤ w → τ * gemanSpec σ γ w + (w - X) ^ 2 / 2 = f w := by
    intro w hw
    simp only [gemanSpec, hf, abs_of_nonneg hw]
  have hder : ∀ w, 0 ≤ w → HasDerivAt f (g w) w := by
    intro w hw
    have hne := (hpos1 w hw).ne'
    have h1 : HasDerivAt (fun w : ℝ => σ * w) σ w := by simpa using (hasDerivAt_id w).const_mul σ
    have h2 : HasDerivAt (fun w : ℝ => w + γ) 1 w := (hasDerivAt_id w).add_const γ
    have h3 : HasDerivAt (fun w : ℝ => (w - X) ^ 2 / 2) (w - X) w := by
      have := (((hasDerivAt_id w).sub_const X).pow 2).div_const 2
      simpa using this
    have h4 := ((h1.div h2 hne).const_mul τ).add h3
    refine h4.congr_deriv ?_
    simp only [hg, hQ, hk]
    field_simp
    ring
  -- depressed form
  set b := 2 * γ - X with hb
  set m := (γ + X) / 3 with hm
  have hm0 : 0 < m := by rw [hm]; positivity
  set G := (2 * b ^ 3 - 9 * b * (γ ^ 2 - 2 * γ * X) + 27 * (γ * σ * τ - γ ^ 2 * X)) / 27 with hG
  have hF : -((γ ^ 2 - 2 * γ * X - b ^ 2 / 3) ^ 3) / 27 = m ^ 6 := by
    rw [hb, hm]; ring
  have hQt : ∀ t, Q (t - b / 3) = t ^ 3 - 3 * m ^ 2 * t + G := by
    intro t; simp only [hQ, hb, hm, hG, hk]; ring
  have hQγ : Q (-γ) = k := by simp only [hQ]; ring
  have hq : ∃ q, 0 ≤ q ∧ (z = 0 → q = 0) ∧ gemanProx σ γ τ z = q * npsign z ∧ ∀ y, 0 ≤ y → f q ≤ f y := by
    by_cases hd : G ^ 2 / 4 - m ^ 6 ≤ 0
    · obtain ⟨t, ht, htr, htm⟩ := cubic_trig m G hm0 (by linarith)
      set r := t - b / 3 with hr
      have hloc : gemanLocalMin (2 * γ - X) (γ ^ 2 - 2 * γ * X) (γ * σ * τ - γ ^ 2 * X) = some r := by
        have hs : √(m ^ 6) = m ^ 3 := by
          rw [show m ^ 6 = (m ^ 3) ^ 2 by ring]; exact Real.sqrt_sq (by positivity)
        have hc : (m ^ 3) ^ ((1:ℝ) / 3) = m := by
          rw [← Real.rpow_natCast m 3, ← Real.rpow_mul hm0.le]; norm_num
        simp only [gemanLocalMin]
        rw [← hb, hF, ← hG, if_pos hd, hs, hc, ← ht]
      have hQr : Q r = 0 := by rw [hr, hQt, htr]
      -- factorisation Q w = (w - r) P w
      set P : ℝ → ℝ := fun w => w ^ 2 + (r + b) * w + (r ^ 2 + b * r + (γ ^ 2 - 2 * γ * X)) with hP
      have hfac : ∀ w, Q w = (w - r) * P w := by
        intro w
        have : Q w = Q w - Q r := by rw [hQr, sub_zero]
        rw [this]; simp only [hQ, hP, hb]; ring
      have hPr : 0 ≤ P r := by
        have : P r = 3 * t ^ 2 - 3 * m ^ 2 := by simp only [hP, hr, hb, hm]; ring
        rw [this]; nlinarith
      have hγr : -γ < r := by
        have h1 : r = t - b / 3 := hr
        have h2 : m = (γ + X) / 3 := hm
        have h3 : b = 2 * γ - X := hb
        linarith
      have hPconv : ∀ w y, -γ < w → w ≤ y → 0 ≤ P w → 0 ≤ P y := by
        have h1 : P (-γ) ≤ 0 := by
          have := hfac (-γ)
          rw [hQγ] at this
          by_contra hpos; push Not at hpos
          have := mul_pos (by linarith : 0 < r + γ) hpos
          linarith
        intro w y hw hwy hPw
        exact quad_conv (r + b) (r ^ 2 + b * r + (γ ^ 2 - 2 * γ * X)) γ w y hw hwy h1 hPw
      have hPge : ∀ w, 0 ≤ w → r ≤ w → 0 ≤ P w := fun w _ hrw => hPconv r w hγr hrw hPr
      have key := two_point_min f g hder r
        (fun w hw hrw => by
          simp only [hg]; rw [hfac]
          exact div_nonneg (mul_nonneg (by linarith) (hPge w hw hrw)) (sq_nonneg _))
        (fun w y hw hwy hyr hgw => by
          have hw1 := hpos1 w hw
          simp only [hg] at hgw ⊢
          rw [hfac] at hgw ⊢
          apply div_nonpos_of_nonpos_of_nonneg _ (sq_nonneg _)
          rcases eq_or_lt_of_le (hwy.trans hyr) with hwr | hwr
          · have : y = r := le_antisymm hyr (by linarith)
            rw [this]; simp
          · have hPw : 0 ≤ P w := by
              by_contra h; push Not at h
              have : 0 < (w - r) * P w / (w + γ) ^ 2 := div_pos (mul_pos_of_neg_of_neg (by linarith) h) (by positivity)
              linarith
            exact mul_nonpos_of_nonpos_of_nonneg (by linarith) (hPconv w y (by linarith) hwy hPw))
      simp only [gemanProx, ← hX]
      rw [hloc]
      simp only
      have hf0 : f 0 = X ^ 2 / 2 := by simp [hf]
      by_cases hc : τ * gemanElem σ γ r + (r - X) ^ 2 / 2 < X ^ 2 / 2
      · rw [if_pos hc]
        have hel : 0 ≤ gemanElem σ γ r := by
          unfold gemanElem; positivity
        have hr0 : 0 ≤ r := by
          by_contra hneg; push Not at hneg
          nlinarith [mul_nonneg hτ.le hel]
        have hc' : f r < f 0 := by rw [← hfe r hr0, hf0]; exact hc
        refine ⟨r, hr0, fun hz => ?_, mul_comm _ _, fun y hy => ?_⟩
        · exfalso
          have hX' : X = 0 := by rw [hX, hz, abs_zero]
          rw [hX'] at hc
          nlinarith [mul_nonneg hτ.le hel, sq_nonneg r]
        · rcases key y hy with h | ⟨-, h⟩
          · exact hc'.le.trans h
          · exact h
      · rw [if_neg hc]
        push Not at hc
        refine ⟨0, le_rfl, fun _ => rfl, by simp, fun y hy => ?_⟩
        rcases key y hy with h | ⟨hr0, h⟩
        · exact h
        · rw [hf0]; exact (hc.trans (le_of_eq (hfe r hr0))).trans h
    · have hnone : gemanLocalMin (2 * γ - X) (γ ^ 2 - 2 * γ * X) (γ * σ * τ - γ ^ 2 * X) = none := by
        simp only [gemanLocalMin]
        rw [← hb, hF, ← hG, if_neg hd]
      simp only [gemanProx, ← hX]
      rw [hnone]
      refine ⟨0, le_rfl, fun _ => rfl, by simp, fun y hy => ?_⟩
      have hQpos : ∀ w, 0 ≤ w → 0 ≤ Q w := by
        intro w hw
        by_contra hneg; push Not at hneg
        apply hd
        have h1 := hQt (w + b / 3)
        have h2 := hQt (-γ + b / 3)
        rw [add_sub_cancel_right] at h1 h2
        have := cubic_disc m G (w + b / 3) (-γ + b / 3) hm0 (by linarith) (by rw [← h1]; exact hneg.le)
          (by rw [← h2, hQγ]; exact hk0)
        linarith
      rcases two_point_min f g hder (-1) (fun w hw _ => div_nonneg (hQpos w hw) (sq_nonneg _))
        (fun w y hw hwy hyr _ => by linarith) y hy with h | ⟨h, -⟩
      · exact h
      · norm_num at h
  obtain ⟨q, hq0, hqx, hqe, hmin⟩ := hq
  rw [hqe]
  refine choose_isProx (gemanSpec σ γ) (fun t => by simp only [gemanSpec, abs_abs]) hτ z q hq0 hqx fun y hy => ?_
  rw [hfe q hq0, hfe y hy]
  exact hmin y hy

/-- C70: the value is the Geman penalty. -/
theorem C70_geman_call (σ γ : ℝ) (op : ProxOp (Vec ι)) (hop : Geman σ γ = .ok op) :
    EvaluatesNum op fun y => ∑ i, gemanSpec σ γ (y i) := by
  unfold Geman at hop
  split_ifs at hop
  cases hop
  intro x; rfl

example : ∃ op : ProxOp (Vec (Fin 3)), Geman 1 1.3 = .ok op := ⟨_, by unfold Geman; norm_num; rfl⟩

/-! ## C68 -/

/-- C68, partial: for an entry `x >= delta` above the threshold the result `p` satisfies the optimality equation of the penalty
with *half* the weight, `p - x + (tau sigma / 2) / (p + delta) = 0`.  Missing: the claimed minimiser, see
`C68_log1_prox_refuted` and `C68_log1_zero_refuted`. -/
theorem C68_log1_stationary_partial (σ δ τ x : ℝ) (hσ : 0 < σ) (hδ : 0 ≤ δ) (hτ : 0 < τ) (hx : δ ≤ x)
    (hthr : √(2 * (σ * τ)) - δ < x) (hthr0 : δ ≤ √(2 * (σ * τ))) :
    0 < log1Prox σ δ τ x ∧ log1Prox σ δ τ x - x + τ * σ / 2 / (log1Prox σ δ τ x + δ) = 0 := by
  have hs0 : 0 < √(2 * (σ * τ)) := Real.sqrt_pos.2 (by positivity)
  have hs2 : √(2 * (σ * τ)) ^ 2 = 2 * (σ * τ) := Real.sq_sqrt (by positivity)
  have hx0 : 0 ≤ x := hδ.trans hx
  have hdisc : 0 < |x + δ| ^ 2 - 2 * (σ * τ) := by
    rw [sq_abs, ← hs2]; nlinarith
  have hnot : ¬ x < -(√(2 * (σ * τ)) - δ) := by intro h; linarith
  have e : log1Prox σ δ τ x = 0.5 * (x - δ + √(|x + δ| ^ 2 - 2 * (σ * τ))) := by
    simp only [log1Prox]
    rw [if_neg hnot, if_pos hthr]
  set c := √(|x + δ| ^ 2 - 2 * (σ * τ)) with hc
  have hc0 : 0 < c := Real.sqrt_pos.2 hdisc
  have hc2 : c ^ 2 = (x + δ) ^ 2 - 2 * (σ * τ) := by rw [hc, Real.sq_sqrt hdisc.le, sq_abs]
  set p := log1Prox σ δ τ x
  have hp : 0 < p := by rw [e]; nlinarith
  refine ⟨hp, ?_⟩
  have hpd : 0 < p + δ := by linarith
  rw [eq_comm, ← sub_eq_zero]
  have : (p - x) * (p + δ) + τ * σ / 2 = 0 := by
    rw [e]; nlinarith
  field_simp
  linarith

/-- C68, refutation: whatever weight `w` different from `sigma / 2` is given to the penalty (`w = sigma` is the documented
function, `w = 1` the evaluated one), the result at such a point is not a minimiser. -/
theorem C68_log1_prox_refuted (σ δ τ t w : ℝ) (hσ : 0 < σ) (hδ : 0 ≤ δ) (hτ : 0 < τ) (ht : δ ≤ t)
    (hthr : √(2 * (σ * τ)) - δ < t) (hthr0 : δ ≤ √(2 * (σ * τ))) (hw : w ≠ σ / 2) :
    ∃ (op : ProxOp (Vec (Fin 1))) (p : Vec (Fin 1)), Log1 σ δ = .ok op ∧ op.prox (vmk fun _ => t) τ = .ok p ∧
      ¬ IsProx (XFun.ofReal fun y : Vec (Fin 1) => w * ∑ i, Real.log (|y i| + δ)) τ (vmk fun _ => t) p := by
  classical
  obtain ⟨hp, hst⟩ := C68_log1_stationary_partial σ δ τ t hσ hδ hτ ht hthr hthr0
  refine ⟨_, vmk fun _ => log1Prox σ δ τ t, by simp only [Log1, if_neg (not_lt.2 hδ)]; rfl, by
    simp only [ProxOp.prox, checkTau_pos hτ, if_neg (not_lt.2 hσ.le)], fun hpr => ?_⟩
  set p := log1Prox σ δ τ t
  -- the one-dimensional objective
  have hmin : ∀ y : ℝ, w * Real.log (|p| + δ) + (p - t) ^ 2 / (2 * τ) ≤ w * Real.log (|y| + δ) + (y - t) ^ 2 / (2 * τ) := by
    intro y
    have := hpr.2 (vmk fun _ => y) trivial
    simpa only [proxObj, XFun.ofReal, EuclideanSpace.norm_sq_eq, Fin.sum_univ_one, PiLp.sub_apply, Real.norm_eq_abs,
      sq_abs] using this
  have hpd : 0 < p + δ := by linarith
  have hder : HasDerivAt (fun y : ℝ => w * Real.log (y + δ) + (y - t) ^ 2 / (2 * τ)) (w * (1 / (p + δ)) + (p - t) / τ) p := by
    have h1 : HasDerivAt (fun y : ℝ => y + δ) 1 p := (hasDerivAt_id p).add_const δ
    have h2 := (h1.log hpd.ne').const_mul w
    have h3 := (((hasDerivAt_id p).sub_const t).pow 2).div_const (2 * τ)
    refine (h2.add h3).congr_deriv ?_
    simp
    field_simp
  have hloc : IsLocalMin (fun y : ℝ => w * Real.log (y + δ) + (y - t) ^ 2 / (2 * τ)) p := by
    filter_upwards [lt_mem_nhds hp] with y hy
    have := hmin y
    rwa [abs_of_pos hp, abs_of_pos hy] at this
  have h0 := hloc.hasDerivAt_eq_zero hder
  apply hw
  have h1 : p - t = -(τ * σ / 2 / (p + δ)) := by linarith
  rw [h1] at h0
  field_simp at h0
  linarith

/-- C68, refutation: when `delta` exceeds the square root of `2 sigma tau`, `prox` moves the origin (both masks hold there),
although the origin is its own proximal point. -/
theorem C68_log1_zero_refuted (σ δ τ : ℝ) (hσ : 0 < σ) (hτ : 0 < τ) (hδ : √(2 * (σ * τ)) < δ) :
    ∃ (op : ProxOp (Vec (Fin 1))) (p : Vec (Fin 1)), Log1 σ δ = .ok op ∧ op.prox 0 τ = .ok p ∧ 0 < p 0 ∧
      IsProx (XFun.ofReal fun y : Vec (Fin 1) => σ * ∑ i, Real.log (|y i| + δ)) τ 0 0 := by
  classical
  have hs0 := Real.sqrt_nonneg (2 * (σ * τ))
  have hδ0 : 0 < δ := by linarith
  refine ⟨_, vmk fun _ => log1Prox σ δ τ 0, by simp only [Log1, if_neg (not_lt.2 hδ0.le)]; rfl, by
    simp only [ProxOp.prox, checkTau_pos hτ, if_neg (not_lt.2 hσ.le)]; rfl, ?_, ?_⟩
  · simp only [log1Prox]
    rw [if_pos (by linarith : (0:ℝ) < -(√(2 * (σ * τ)) - δ))]
    have : √(|0 - δ| ^ 2 - 2 * (σ * τ)) < δ := by
      rw [Real.sqrt_lt' hδ0, sq_abs]
      nlinarith [mul_pos hσ hτ]
    linarith
  · refine ⟨trivial, fun y _ => ?_⟩
    simp only [proxObj, XFun.ofReal, sub_zero, norm_zero, PiLp.zero_apply, abs_zero, zero_add]
    have h1 : ∑ i : Fin 1, Real.log δ ≤ ∑ i, Real.log (|y i| + δ) :=
      Finset.sum_le_sum fun i _ => Real.log_le_log hδ0 (by linarith [abs_nonneg (y i)])
    have h2 : 0 ≤ ‖y‖ ^ 2 / (2 * τ) := by positivity
    have h3 := mul_le_mul_of_nonneg_left h1 hσ.le
    simp only [ne_eq, OfNat.ofNat_ne_zero, not_false_eq_true, zero_pow, zero_div]
    linarith

/-- C68: the value ignores `sigma`. -/
theorem C68_log1_call_partial (σ δ : ℝ) (hδ : 0 < δ) (op : ProxOp (Vec ι)) (hop : Log1 σ δ = .ok op) :
    EvaluatesNum op fun y => ∑ i, Real.log (|y i| + δ) := by
  classical
  simp only [Log1, if_neg (not_lt.2 hδ.le)] at hop
  cases hop
  intro x
  have : ¬ ∃ i, |x i| + δ = 0 := by
    rintro ⟨i, hi⟩
    linarith [abs_nonneg (x i)]
  simp only [if_neg this]

example : √(2 * ((1:ℝ) * 1)) - 0 < 2 ∧ (0:ℝ) ≤ √(2 * (1 * 1)) ∧ (1 : ℝ) ≠ 1 / 2 := by
  refine ⟨?_, Real.sqrt_nonneg _, by norm_num⟩
  rw [sub_zero, Real.sqrt_lt' (by norm_num)]; norm_num

end Verif
