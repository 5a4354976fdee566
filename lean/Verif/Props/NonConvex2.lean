import Verif.Props.NonConvex
import Mathlib.Analysis.SpecialFunctions.Log.Deriv
import Mathlib.Analysis.SpecialFunctions.ExpDeriv
import Mathlib.Analysis.Convex.SpecificFunctions.Basic
import Mathlib.Analysis.Calculus.LocalExtr.Basic

/-! # C67-C70: Log, Log1, ETP and Geman penalties -/

open scoped RealInnerProductSpace

namespace Verif

variable {ι : Type} [Fintype ι]

/-- Choosing between `0` and a stationary point `r` by comparing the (scaled) objective values gives the prox of an even
penalty `φ`, when `τ φ(z) + (z - X)²/2` is minimised over the half line at `0` or at `r`. -/
lemma choose_isProx (φ : ℝ → ℝ) (heven : ∀ t, φ t = φ |t|) {τ : ℝ} (hτ : 0 < τ) (x q : ℝ) (hq : 0 ≤ q)
    (h0 : x = 0 → q = 0)
    (h : ∀ y, 0 ≤ y → τ * φ q + (q - |x|) ^ 2 / 2 ≤ τ * φ y + (y - |x|) ^ 2 / 2) :
    IsProx (XFun.ofReal φ) τ x (q * npsign x) := by
  refine even_isProx φ heven hτ x q hq h0 fun y hy => ?_
  have := h y hy
  have e : ∀ z, φ z + (z - |x|) ^ 2 / (2 * τ) = (τ * φ z + (z - |x|) ^ 2 / 2) / τ := by
    intro z; field_simp
  rw [e, e]
  exact div_le_div_of_nonneg_right this hτ.le

/-! ## C67 -/

/-- The logarithmic penalty of one entry. -/
noncomputable def logSpec (σ γ t : ℝ) : ℝ := σ / Real.log (γ + 1) * Real.log (γ * |t| + 1)

lemma log_penalty_nonneg {σ γ : ℝ} (hσ : 0 ≤ σ) (hγ : 0 < γ) (t : ℝ) : 0 ≤ logSpec σ γ t := by
  have h1 : 0 < Real.log (γ + 1) := Real.log_pos (by linarith)
  have h2 : 0 ≤ Real.log (γ * |t| + 1) := Real.log_nonneg (by nlinarith [abs_nonneg t])
  unfold logSpec
  positivity

/-- C67: for every `sigma >= 0`, `gamma > 0` and step the result of `Log.prox` is a minimiser. -/
theorem C67_log_prox (σ γ : ℝ) (hγ : 0 < γ) (op : ProxOp (Vec ι)) (hop : Log σ γ = .ok op) :
    ProxExact op (XFun.ofReal fun y : Vec ι => ∑ i, logSpec σ γ (y i)) := by
  intro x τ hτ
  by_cases hσ : σ < 0
  · simp [Log, hσ] at hop
  simp only [Log, if_neg hσ, if_neg (not_lt.2 hγ.le)] at hop
  cases hop
  push Not at hσ
  refine ⟨_, by simp only [ProxOp.prox, checkTau_pos hτ, if_neg hγ.ne']; rfl, ?_⟩
  refine sep_isProx_real (fun _ => logSpec σ γ) _ (fun _ => rfl) fun i => ?_
  simp only
  set z := x i
  have hlog : 0 < Real.log (γ + 1) := Real.log_pos (by linarith)
  set X := |z| with hX
  have hX0 : 0 ≤ X := abs_nonneg z
  set k := τ * σ / Real.log (γ + 1) with hk
  have hk0 : 0 ≤ k := by positivity
  -- objective on the half line and its derivative
  set f : ℝ → ℝ := fun w => k * Real.log (γ * w + 1) + (w - X) ^ 2 / 2 with hf
  set g : ℝ → ℝ := fun w => k * (γ / (γ * w + 1)) + (w - X) with hg
  have hfe : ∀ w, 0 ≤ w → τ * logSpec σ γ w + (w - X) ^ 2 / 2 = f w := by
    intro w hw
    simp only [logSpec, hf, abs_of_nonneg hw, hk]
    ring
  have hpos1 : ∀ w, 0 ≤ w → 0 < γ * w + 1 := fun w hw => by positivity
  have hder : ∀ w, 0 ≤ w → HasDerivAt f (g w) w := by
    intro w hw
    have h1 : HasDerivAt (fun w : ℝ => γ * w + 1) γ w := by
      simpa using ((hasDerivAt_id w).const_mul γ).add_const 1
    have h2 := (h1.log (hpos1 w hw).ne').const_mul k
    have h3 : HasDerivAt (fun w : ℝ => (w - X) ^ 2 / 2) (w - X) w := by
      have := (((hasDerivAt_id w).sub_const X).pow 2).div_const 2
      simpa using this
    exact h2.add h3
  have hgQ : ∀ w, 0 ≤ w → g w = (γ * w ^ 2 - (γ * X - 1) * w + (k * γ - X)) / (γ * w + 1) := by
    intro w hw
    have := (hpos1 w hw).ne'
    simp only [hg]; field_simp; ring
  set disc := (γ * X - 1) ^ 2 - 4 * γ * (k * γ - X) with hdisc
  have hq : ∃ q, 0 ≤ q ∧ (z = 0 → q = 0) ∧ logProx σ γ τ z = q * npsign z ∧ ∀ y, 0 ≤ y → f q ≤ f y := by
    simp only [logProx, ← hX, ← hk, ← hdisc]
    by_cases hd : disc ≥ 0
    · rw [if_pos hd]
      set r := (γ * X - 1 + √disc) / (2 * γ) with hr
      set r' := (γ * X - 1 - √disc) / (2 * γ) with hr'
      have hsq : √disc ^ 2 = disc := Real.sq_sqrt hd
      have hs0 := Real.sqrt_nonneg disc
      have hfac : ∀ w, γ * w ^ 2 - (γ * X - 1) * w + (k * γ - X) = γ * (w - r) * (w - r') := by
        intro w
        have e1 : γ * (w - r) * (w - r') = ((2 * γ * w - (γ * X - 1)) ^ 2 - √disc ^ 2) / (4 * γ) := by
          rw [hr, hr']; field_simp; ring
        rw [e1, hsq, hdisc]; field_simp; ring
      have hrr : r' ≤ r := by
        rw [hr, hr']; apply div_le_div_of_nonneg_right _ (by positivity); linarith
      have key := two_point_min f g hder r
        (fun w hw hrw => by
          rw [hgQ w hw, hfac]
          exact div_nonneg (mul_nonneg (mul_nonneg hγ.le (by linarith)) (by linarith)) (hpos1 w hw).le)
        (fun w y hw hwy hyr hgw => by
          rw [hgQ w hw, hfac, div_nonpos_iff] at hgw
          rw [hgQ y (hw.trans hwy), hfac]
          apply div_nonpos_of_nonpos_of_nonneg _ (hpos1 y (hw.trans hwy)).le
          have h1 : γ * (w - r) * (w - r') ≤ 0 := by
            rcases hgw with h | h
            · exact absurd h.2 (not_le.2 (hpos1 w hw))
            · exact h.1
          rcases eq_or_lt_of_le (hwy.trans hyr) with hwr | hwr
          · have : y = r := le_antisymm hyr (by linarith)
            rw [this]; simp
          · have h2 : 0 ≤ w - r' := by
              by_contra h; push Not at h
              have : 0 < γ * (w - r) * (w - r') := by
                rw [mul_assoc]; exact mul_pos hγ (mul_pos_of_neg_of_neg (by linarith) h)
              linarith
            exact mul_nonpos_of_nonpos_of_nonneg (mul_nonpos_of_nonneg_of_nonpos hγ.le (by linarith)) (by linarith))
      have v0 : τ * logElem σ γ 0 + (0 - X) ^ 2 / 2 = f 0 := hfe 0 le_rfl
      by_cases hc : τ * logElem σ γ 0 + (0 - X) ^ 2 / 2 ≤ τ * logElem σ γ r + (r - X) ^ 2 / 2
      · rw [if_pos hc]
        refine ⟨0, le_rfl, fun _ => rfl, rfl, fun y hy => ?_⟩
        rcases key y hy with h | ⟨hr0, h⟩
        · exact h
        · rw [v0] at hc
          exact (hc.trans (le_of_eq (hfe r hr0))).trans h
      · rw [if_neg hc]
        have hr0 : 0 ≤ r := by
          by_contra hneg; push Not at hneg
          apply hc
          have h1 : logElem σ γ 0 = 0 := by simp [logElem]
          have h2 : 0 ≤ logElem σ γ r := log_penalty_nonneg hσ hγ r
          rw [h1]; nlinarith
        push Not at hc
        have hc' : f r < f 0 := by rw [← hfe r hr0, ← v0]; exact hc
        refine ⟨r, hr0, fun hz => ?_, rfl, fun y hy => ?_⟩
        · exfalso
          have hX' : X = 0 := by rw [hX, hz, abs_zero]
          have h1 : logElem σ γ 0 = 0 := by simp [logElem]
          have h2 : 0 ≤ logElem σ γ r := log_penalty_nonneg hσ hγ r
          rw [h1, hX'] at hc
          nlinarith [mul_nonneg hτ.le h2, sq_nonneg r]
        · rcases key y hy with h | ⟨-, h⟩
          · exact hc'.le.trans h
          · exact h
    · rw [if_neg hd]
      push Not at hd
      refine ⟨0, le_rfl, fun _ => rfl, rfl, fun y hy => ?_⟩
      have hQ : ∀ w, 0 ≤ g w ∨ w < 0 := by
        intro w
        rcases le_or_gt 0 w with hw | hw
        · left
          rw [hgQ w hw]
          apply div_nonneg _ (hpos1 w hw).le
          nlinarith [sq_nonneg (2 * γ * w - (γ * X - 1))]
        · exact Or.inr hw
      rcases two_point_min f g hder (-1) (fun w hw _ => (hQ w).resolve_right (not_lt.2 hw))
        (fun w y hw hwy hyr _ => by linarith) y hy with h | ⟨h, -⟩
      · exact h
      · norm_num at h
  obtain ⟨q, hq0, hqx, hqe, hmin⟩ := hq
  rw [hqe]
  refine choose_isProx (logSpec σ γ) (fun t => by simp only [logSpec, abs_abs]) hτ z q hq0 hqx fun y hy => ?_
  rw [hfe q hq0, hfe y hy]
  exact hmin y hy

/-- C67: the value is the logarithmic penalty. -/
theorem C67_log_call (σ γ : ℝ) (hγ : 0 < γ) (op : ProxOp (Vec ι)) (hop : Log σ γ = .ok op) :
    EvaluatesNum op fun y => ∑ i, logSpec σ γ (y i) := by
  by_cases hσ : σ < 0
  · simp [Log, hσ] at hop
  simp only [Log, if_neg hσ, if_neg (not_lt.2 hγ.le)] at hop
  cases hop
  intro x
  simp only [if_neg hγ.ne']
  rfl

example : ∃ op : ProxOp (Vec (Fin 3)), Log 1 1.3 = .ok op := ⟨_, by unfold Log; norm_num; rfl⟩

/-! ## C69 -/

/-- The exponential-type penalty of one entry. -/
noncomputable def etpSpec (σ γ t : ℝ) : ℝ := σ / (1 - Real.exp (-γ)) * (1 - Real.exp (-γ * |t|))

/-- The principal real branch of the Lambert W function on `[-1/e, 0]`. -/
def IsLambertW (W : ℝ → ℝ) : Prop :=
  ∀ t, -Real.exp (-1) ≤ t → t ≤ 0 → W t * Real.exp (W t) = t ∧ -1 ≤ W t

/-- C69: with an exact Lambert W the result of `ETP.prox` is a minimiser for every `sigma`, `gamma` and step. -/
theorem C69_etp_prox (W : ℝ → ℝ) (hW : IsLambertW W) (σ γ : ℝ) (op : ProxOp (Vec ι)) (hop : ETP W σ γ = .ok op) :
    ProxExact op (XFun.ofReal fun y : Vec ι => ∑ i, etpSpec σ γ (y i)) := by
  intro x τ hτ
  unfold ETP at hop
  split_ifs at hop with hσ hγ
  cases hop
  push Not at hσ hγ
  refine ⟨_, by simp only [ProxOp.prox, checkTau_pos hτ]; rfl, ?_⟩
  refine sep_isProx_real (fun _ => etpSpec σ γ) _ (fun _ => rfl) fun i => ?_
  simp only
  set z := x i
  have hden : 0 < 1 - Real.exp (-γ) := by
    have : Real.exp (-γ) < 1 := Real.exp_lt_one_iff.2 (by linarith)
    linarith
  set X := |z| with hX
  have hX0 : 0 ≤ X := abs_nonneg z
  set k := τ * σ / (1 - Real.exp (-γ)) with hk
  have hk0 : 0 ≤ k := by positivity
  set f : ℝ → ℝ := fun w => k * (1 - Real.exp (-γ * w)) + (w - X) ^ 2 / 2 with hf
  set g : ℝ → ℝ := fun w => k * (γ * Real.exp (-γ * w)) + (w - X) with hg
  have hfe : ∀ w, 0 ≤ w → τ * etpSpec σ γ w + (w - X) ^ 2 / 2 = f w := by
    intro w hw
    simp only [etpSpec, hf, abs_of_nonneg hw, hk]
    ring
  have hder : ∀ w, 0 ≤ w → HasDerivAt f (g w) w := by
    intro w _
    have h1 : HasDerivAt (fun w : ℝ => -γ * w) (-γ) w := by
      simpa using (hasDerivAt_id w).const_mul (-γ)
    have h2 := ((h1.exp).const_sub 1).const_mul k
    have h3 : HasDerivAt (fun w : ℝ => (w - X) ^ 2 / 2) (w - X) w := by
      have := (((hasDerivAt_id w).sub_const X).pow 2).div_const 2
      simpa using this
    have h4 := h2.add h3
    refine h4.congr_deriv ?_
    simp only [hg]; ring
  have hconv : ConvexOn ℝ Set.univ g := by
    have h1 : ConvexOn ℝ Set.univ fun w : ℝ => Real.exp (-γ * w) := by
      have := convexOn_exp.comp_linearMap (LinearMap.mulLeft ℝ (-γ))
      simpa [Function.comp_def] using this
    have h2 : ConvexOn ℝ Set.univ fun w : ℝ => k * (γ * Real.exp (-γ * w)) := by
      have := (h1.smul hγ.le).smul hk0
      simpa [smul_eq_mul] using this
    have h3 : ConvexOn ℝ Set.univ fun w : ℝ => w - X := by
      have h := (convexOn_id (𝕜 := ℝ) (convex_univ (E := ℝ))).add_const (-X)
      refine h.congr fun w _ => ?_
      simp [sub_eq_add_neg]
    exact h2.add h3
  set tmp := Real.exp (-X * γ) * k * γ ^ 2 with htmp
  have htmp0 : 0 ≤ tmp := by positivity
  have hq : ∃ q, 0 ≤ q ∧ (z = 0 → q = 0) ∧ etpProx W σ γ τ z = q * npsign z ∧ ∀ y, 0 ≤ y → f q ≤ f y := by
    simp only [etpProx, ← hX, ← hk, ← htmp]
    by_cases ht : tmp ≤ Real.exp (-1)
    · rw [if_pos ht]
      obtain ⟨hw1, hw2⟩ := hW (-tmp) (by linarith) (by linarith)
      set w0 := W (-tmp)
      set r := X + w0 / γ with hr
      have hw0 : w0 ≤ 0 := by
        by_contra h; push Not at h
        have : 0 < w0 * Real.exp w0 := mul_pos h (Real.exp_pos _)
        linarith
      -- stationarity
      have hrr : k * (γ * Real.exp (-γ * r)) = X - r := by
        have e1 : Real.exp (-γ * r) = Real.exp (-X * γ) * Real.exp (-w0) := by
          rw [← Real.exp_add]; congr 1; rw [hr]; field_simp; ring
        have e2 : k * γ ^ 2 * Real.exp (-γ * r) = -w0 := by
          rw [e1]
          have : k * γ ^ 2 * (Real.exp (-X * γ) * Real.exp (-w0)) = tmp * Real.exp (-w0) := by rw [htmp]; ring
          rw [this, ← neg_eq_iff_eq_neg.2 hw1.symm.symm, Real.exp_neg]
          have := (Real.exp_pos w0).ne'
          field_simp
        have e3 : X - r = -w0 / γ := by rw [hr]; ring
        rw [e3, eq_div_iff hγ.ne']
        linarith [e2]
      have hgr : g r = 0 := by simp only [hg]; rw [hrr]; ring
      have hslope : γ * (X - r) ≤ 1 := by
        have : γ * (X - r) = -w0 := by rw [hr]; field_simp; ring
        linarith
      have hpos : ∀ w, 0 ≤ w → r ≤ w → 0 ≤ g w := by
        intro w _ hrw
        have e1 : k * (γ * Real.exp (-γ * w)) = (X - r) * Real.exp (-γ * (w - r)) := by
          rw [← hrr, mul_assoc k, mul_assoc γ, ← Real.exp_add]; congr 3; ring
        have h1 : 1 + -γ * (w - r) ≤ Real.exp (-γ * (w - r)) := by
          have := Real.add_one_le_exp (-γ * (w - r)); linarith
        have hXr : 0 ≤ X - r := by rw [← hrr]; positivity
        simp only [hg]
        rw [e1]
        nlinarith [mul_le_mul_of_nonneg_left h1 hXr]
      have key := two_point_min f g hder r hpos (fun w y hw hwy hyr hgw => by
        have := hconv.le_max_of_mem_Icc (Set.mem_univ w) (Set.mem_univ r) ⟨hwy, hyr⟩
        rw [hgr] at this
        exact this.trans (max_le hgw le_rfl))
      rcases eq_or_ne z 0 with hz | hz
      · have hX' : X = 0 := by rw [hX, hz, abs_zero]
        refine ⟨0, le_rfl, fun _ => rfl, ?_, fun y hy => ?_⟩
        · have h1 : ¬ τ * etpElem σ γ (npsign z * w0 / γ + z) + (npsign z * w0 / γ + z - z) ^ 2 / 2 < z ^ 2 / 2 := by
            rw [hz]; simp [etpElem, npsign]
          rw [if_neg h1, zero_mul]
        · simp only [hf, hX']
          have : Real.exp (-γ * y) ≤ 1 := Real.exp_le_one_iff.2 (by nlinarith)
          have h2 := mul_nonneg hk0 (sub_nonneg.2 this)
          have h3 := sq_nonneg y
          rw [mul_zero, Real.exp_zero]
          linarith
      · have hstat : npsign z * w0 / γ + z = npsign z * r := by
          have e : z = |z| * npsign z := (npsign_mul_abs z).symm
          calc npsign z * w0 / γ + z = npsign z * w0 / γ + X * npsign z := by rw [hX, ← e]
            _ = _ := by rw [hr]; ring
        have hval : τ * etpElem σ γ (npsign z * r) + (npsign z * r - z) ^ 2 / 2
            = τ * etpSpec σ γ r + (r - X) ^ 2 / 2 := by
          have e : z = |z| * npsign z := (npsign_mul_abs z).symm
          have e1 : (npsign z * r - z) ^ 2 = (r - X) ^ 2 := by
            calc (npsign z * r - z) ^ 2 = (npsign z * r - X * npsign z) ^ 2 := by rw [hX, ← e]
              _ = (r - X) ^ 2 * (npsign z * npsign z) := by ring
              _ = _ := by rw [npsign_sq hz, mul_one]
          rw [e1]
          simp only [etpElem, etpSpec, abs_mul, abs_npsign hz, one_mul]
        have hz2 : z ^ 2 / 2 = f 0 := by simp [hf, hX]
        rw [hstat, hval, hz2]
        by_cases hc : τ * etpSpec σ γ r + (r - X) ^ 2 / 2 < f 0
        · rw [if_pos hc]
          have hr0 : 0 ≤ r := by
            by_contra hneg; push Not at hneg
            have h2 : 0 ≤ etpSpec σ γ r := by
              unfold etpSpec
              have : Real.exp (-γ * |r|) ≤ 1 := Real.exp_le_one_iff.2 (by nlinarith [abs_nonneg r])
              exact mul_nonneg (div_nonneg hσ hden.le) (by linarith)
            simp only [hf] at hc
            simp at hc
            nlinarith [mul_nonneg hτ.le h2]
          rw [hfe r hr0] at hc
          refine ⟨r, hr0, fun h => absurd h hz, mul_comm _ _, fun y hy => ?_⟩
          rcases key y hy with h | ⟨-, h⟩
          · exact hc.le.trans h
          · exact h
        · rw [if_neg hc]
          push Not at hc
          refine ⟨0, le_rfl, fun _ => rfl, by simp, fun y hy => ?_⟩
          rcases key y hy with h | ⟨hr0, h⟩
          · exact h
          · rw [hfe r hr0] at hc; exact hc.trans h
    · rw [if_neg ht]
      push Not at ht
      refine ⟨0, le_rfl, fun _ => rfl, by simp, fun y hy => ?_⟩
      have hQ : ∀ w, 0 ≤ g w := by
        intro w
        have hkpos : 0 < k := by
          rcases hk0.eq_or_lt with h | h
          · exfalso; rw [htmp, ← h] at ht; simp at ht; linarith [Real.exp_pos (-1)]
          · exact h
        -- exp(u) ≥ e·... with u = 1 - γ(w - X)... : k γ² e^{-γ w} = tmp · e^{-γ(w-X)} > e^{-1-γ(w-X)} ≥ -γ(w-X)
        have e1 : k * (γ * Real.exp (-γ * w)) * γ = tmp * Real.exp (-γ * (w - X)) := by
          rw [htmp]
          have : Real.exp (-γ * w) = Real.exp (-X * γ) * Real.exp (-γ * (w - X)) := by
            rw [← Real.exp_add]; congr 1; ring
          rw [this]; ring
        have h1 : Real.exp (-1) * Real.exp (-γ * (w - X)) ≤ tmp * Real.exp (-γ * (w - X)) :=
          mul_le_mul_of_nonneg_right ht.le (Real.exp_pos _).le
        have h2 : -γ * (w - X) ≤ Real.exp (-1) * Real.exp (-γ * (w - X)) := by
          rw [← Real.exp_add]
          have := Real.add_one_le_exp (-1 + -γ * (w - X)); linarith
        have h3 : 0 ≤ g w * γ := by
          simp only [hg]
          have : (k * (γ * Real.exp (-γ * w)) + (w - X)) * γ = k * (γ * Real.exp (-γ * w)) * γ + γ * (w - X) := by ring
          rw [this, e1]; linarith
        exact nonneg_of_mul_nonneg_left h3 hγ
      rcases two_point_min f g hder (-1) (fun w _ _ => hQ w)
        (fun w y hw hwy hyr _ => by linarith) y hy with h | ⟨h, -⟩
      · exact h
      · norm_num at h
  obtain ⟨q, hq0, hqx, hqe, hmin⟩ := hq
  rw [hqe]
  refine choose_isProx (etpSpec σ γ) (fun t => by simp only [etpSpec, abs_abs]) hτ z q hq0 hqx fun y hy => ?_
  rw [hfe q hq0, hfe y hy]
  exact hmin y hy

/-- C69: the value is the exponential-type penalty. -/
theorem C69_etp_call (W : ℝ → ℝ) (σ γ : ℝ) (op : ProxOp (Vec ι)) (hop : ETP W σ γ = .ok op) :
    EvaluatesNum op fun y => ∑ i, etpSpec σ γ (y i) := by
  unfold ETP at hop
  split_ifs at hop
  cases hop
  intro x; rfl

/-- A principal branch exists. -/
theorem exists_isLambertW : ∃ W, IsLambertW W := by
  classical
  have h : ∀ t, -Real.exp (-1) ≤ t → t ≤ 0 → ∃ w, w * Real.exp w = t ∧ -1 ≤ w := by
    intro t h1 h2
    have hc : ContinuousOn (fun w : ℝ => w * Real.exp w) (Set.Icc (-1) 0) := by fun_prop
    have := intermediate_value_Icc (by norm_num : (-1 : ℝ) ≤ 0) hc (show t ∈ Set.Icc _ _ from ⟨by simpa using h1, by simpa using h2⟩)
    obtain ⟨w, hw, hwt⟩ := this
    exact ⟨w, hwt, hw.1⟩
  refine ⟨fun t => if H : ∃ w, w * Real.exp w = t ∧ -1 ≤ w then H.choose else 0, fun t h1 h2 => ?_⟩
  have H := h t h1 h2
  simp only [dif_pos H]
  exact H.choose_spec

example : ∃ op : ProxOp (Vec (Fin 3)), ETP (fun _ => 0) 1 1 = .ok op := ⟨_, by unfold ETP; norm_num; rfl⟩

end Verif
