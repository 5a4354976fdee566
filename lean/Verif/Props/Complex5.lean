import Verif.Model.ComplexPenalties
import Verif.Props.Complex
import Verif.Props.NonConvex
import Verif.Props.NonConvex2
import Verif.Props.NonConvex3
import Verif.Props.Projections2
import Verif.Lemmas.Prox

/-!
# C93: complex arrays, penalties on moduli, box and half-space

A penalty that depends on the moduli only is minimised along the direction of the input, so that the proximal map of the complex problem is that of the real problem for the moduli,
multiplied by the phases.
-/

open scoped RealInnerProductSpace

namespace Verif

variable {ι κ : Type} [Fintype ι] [Fintype κ]

/-! ## Lifting from moduli -/

/-- The moduli of a complex array. -/
noncomputable def moduli (x : CVec ι) : Vec ι := vmk fun i => ‖x i‖

@[simp] lemma moduli_apply (x : CVec ι) (i : ι) : moduli x i = ‖x i‖ := rfl

/-- The complex number `p` lies in the direction of `z` like the real number `q` on the axis through `‖z‖`. -/
def LiftsTo (z p : ℂ) (q : ℝ) : Prop := ‖p‖ = |q| ∧ ‖p - z‖ = |q - ‖z‖|

lemma norm_sub_moduli_le (x y : CVec ι) : ‖moduli y - moduli x‖ ≤ ‖y - x‖ := by
  have h : ‖moduli y - moduli x‖ ^ 2 ≤ ‖y - x‖ ^ 2 := by
    rw [EuclideanSpace.norm_sq_eq, EuclideanSpace.norm_sq_eq]
    refine Finset.sum_le_sum fun i _ => ?_
    simp only [PiLp.sub_apply, moduli_apply, Real.norm_eq_abs]
    exact pow_le_pow_left₀ (abs_nonneg _) (abs_norm_sub_norm_le _ _) 2
  exact abs_le_of_sq_le_sq' h (norm_nonneg _) |>.2

lemma norm_sub_lift {x p : CVec ι} {q : Vec ι} (h : ∀ i, LiftsTo (x i) (p i) (q i)) : ‖p - x‖ = ‖q - moduli x‖ := by
  have h2 : ‖p - x‖ ^ 2 = ‖q - moduli x‖ ^ 2 := by
    rw [EuclideanSpace.norm_sq_eq, EuclideanSpace.norm_sq_eq]
    refine Finset.sum_congr rfl fun i _ => ?_
    simp only [PiLp.sub_apply, moduli_apply, Real.norm_eq_abs]
    rw [(h i).2]
  rw [← abs_of_nonneg (norm_nonneg (p - x)), ← abs_of_nonneg (norm_nonneg (q - moduli x))]
  exact (sq_eq_sq_iff_abs_eq_abs _ _).1 h2

/-- A minimiser for the moduli gives a minimiser for the complex array. -/
lemma lift_isProx {G : XFun (Vec ι)} {F : XFun (CVec ι)} (hGd : ∀ y, y ∈ G.dom ↔ vmk (fun i => |y i|) ∈ G.dom)
    (hGv : ∀ y, G.val y = G.val (vmk fun i => |y i|)) (hFd : ∀ y, y ∈ F.dom ↔ moduli y ∈ G.dom)
    (hFv : ∀ y, F.val y = G.val (moduli y)) {τ : ℝ} (hτ : 0 < τ) {x p : CVec ι} {q : Vec ι} (h : ∀ i, LiftsTo (x i) (p i) (q i))
    (hq : IsProx G τ (moduli x) q) : IsProx F τ x p := by
  have hp : moduli p = vmk fun i => |q i| := by
    ext i; simp [(h i).1]
  refine ⟨(hFd p).2 (by rw [hp, ← hGd]; exact hq.1), fun y hy => ?_⟩
  have h1 := hq.2 (moduli y) ((hFd y).1 hy)
  simp only [proxObj] at h1 ⊢
  rw [hFv p, hFv y, hp, ← hGv q, norm_sub_lift h]
  have h2 : ‖moduli y - moduli x‖ ^ 2 / (2 * τ) ≤ ‖y - x‖ ^ 2 / (2 * τ) := by
    have := norm_sub_moduli_le x y
    gcongr
  linarith

lemma lift_isProx_sum {φ : ℝ → ℝ} (hφ : ∀ t, φ t = φ |t|) {τ : ℝ} (hτ : 0 < τ) {x p : CVec ι} {q : Vec ι}
    (h : ∀ i, LiftsTo (x i) (p i) (q i)) (hq : IsProx (XFun.ofReal fun y : Vec ι => ∑ i, φ (y i)) τ (moduli x) q) :
    IsProx (XFun.ofReal fun y : CVec ι => ∑ i, φ ‖y i‖) τ x p :=
  lift_isProx (fun _ => Iff.rfl) (fun y => Finset.sum_congr rfl fun i _ => hφ (y i)) (fun _ => Iff.rfl) (fun _ => rfl) hτ h hq

lemma npSign2_mul_norm (z : ℂ) : npSign2 z * (‖z‖ : ℂ) = z := by
  unfold npSign2
  split_ifs with h
  · simp [h]
  · have : (‖z‖ : ℂ) ≠ 0 := by exact_mod_cast norm_ne_zero_iff.2 h
    field_simp

lemma norm_npSign2 {z : ℂ} (h : z ≠ 0) : ‖npSign2 z‖ = 1 := by
  have h0 : ‖z‖ ≠ 0 := norm_ne_zero_iff.2 h
  rw [npSign2, if_neg h, norm_div, Complex.norm_real, norm_norm, div_self h0]

lemma npSign2_zero : npSign2 0 = 0 := by simp [npSign2]

lemma lifts_sign {z : ℂ} {q : ℝ} (h0 : z = 0 → q = 0) : LiftsTo z (npSign2 z * (q : ℂ)) q := by
  by_cases hz : z = 0
  · rw [hz, npSign2_zero, h0 hz]; simp [LiftsTo]
  · refine ⟨by rw [norm_mul, norm_npSign2 hz, one_mul, Complex.norm_real, Real.norm_eq_abs], ?_⟩
    have : npSign2 z * (q : ℂ) - z = npSign2 z * ((q - ‖z‖ : ℝ) : ℂ) := by
      conv_lhs => rw [← npSign2_mul_norm z]
      rw [npSign2_mul_norm z]
      push_cast
      rw [mul_sub, npSign2_mul_norm]
    rw [this, norm_mul, norm_npSign2 hz, one_mul, Complex.norm_real, Real.norm_eq_abs]

lemma lifts_smul (z : ℂ) (c : ℝ) : LiftsTo z ((c : ℂ) * z) (c * ‖z‖) := by
  have := lifts_sign (z := z) (q := c * ‖z‖) (fun h => by simp [h])
  have e : npSign2 z * ((c * ‖z‖ : ℝ) : ℂ) = (c : ℂ) * z := by
    push_cast
    rw [mul_left_comm, npSign2_mul_norm]
  rwa [e] at this

lemma npsign_norm {z : ℂ} (hz : z ≠ 0) : npsign ‖z‖ = 1 := by
  rw [npsign, if_pos (norm_pos_iff.2 hz)]

lemma npsign_norm_zero : npsign ‖(0 : ℂ)‖ = 0 := by simp [npsign]

/-! ## The penalties on moduli -/

lemma scadSpec_abs (σ a t : ℝ) : scadSpec σ a t = scadSpec σ a |t| := by simp [scadSpec]

lemma scadProxC_eq (σ a τ : ℝ) (z : ℂ) : scadProxC npSign2 σ a τ z = npSign2 z * (scadProx σ a τ ‖z‖ : ℂ) := by
  by_cases hz : z = 0
  · subst hz
    rw [npSign2_zero, zero_mul, scadProxC]
    simp [npSign2_zero]
  · unfold scadProxC scadProx
    simp only [abs_norm, npsign_norm hz, one_mul]
    split_ifs
    · rfl
    · push_cast
      rw [mul_div_assoc']
      congr 1
      conv_lhs => rw [← npSign2_mul_norm z]
      rw [npSign2_mul_norm z]
      linear_combination (((a : ℂ) - 1)) * (- npSign2_mul_norm z)
    · rw [npSign2_mul_norm]

lemma scadProx_zero (σ a τ : ℝ) : scadProx σ a τ 0 = 0 := by simp [scadProx, npsign]

/-- C93, partial: on complex arrays and with `np.sign(z) = z / |z|` (numpy 2), `SCAD.prox` returns a minimiser for the SCAD penalty of the moduli for steps up to `a - 1`.
Missing: larger steps (already wrong on real arrays, `C32_scad_prox_refuted`) and numpy 1 (`C93_sign1_refuted`). -/
theorem C93_scad_prox_partial (σ a : ℝ) (op : ProxOp (CVec ι)) (hop : SCADCx npSign2 σ a = .ok op) (τ : ℝ) (hτ : 0 < τ) (hτa : τ ≤ a - 1) (x : CVec ι) :
    ∃ p, op.prox x τ = .ok p ∧ IsProx (XFun.ofReal fun y : CVec ι => ∑ i, scadSpec σ a ‖y i‖) τ x p := by
  unfold SCADCx at hop
  split_ifs at hop with h1 h2
  obtain rfl := Except.ok.inj hop
  refine ⟨_, by simp only [ProxOp.prox, checkTau_pos hτ]; rfl, ?_⟩
  obtain ⟨q, hq, hqp⟩ := C32_scad_prox_partial (ι := ι) σ a _ (by rw [SCAD, if_neg h1, if_neg h2]) τ hτ hτa (moduli x)
  simp only [ProxOp.prox, checkTau_pos hτ] at hq
  obtain rfl := Except.ok.inj hq
  refine lift_isProx_sum (scadSpec_abs σ a) hτ (fun i => ?_) hqp
  have := lifts_sign (z := x i) (q := scadProx σ a τ ‖x i‖) (fun h => by rw [h, norm_zero, scadProx_zero])
  rw [← scadProxC_eq] at this
  exact this

/-- C93: the value of `SCAD` on a complex array is the penalty of the moduli exactly when every entry in the quadratic part of the penalty is real. -/
theorem C93_scad_call_iff (sg : ℂ → ℂ) (σ a : ℝ) (op : ProxOp (CVec ι)) (hop : SCADCx sg σ a = .ok op) (x : CVec ι) :
    op.call x = .ok (.num (∑ i, scadSpec σ a ‖x i‖)) ↔ ∀ i, σ < ‖x i‖ → ‖x i‖ ≤ a * σ → (x i).im = 0 := by
  unfold SCADCx at hop
  split_ifs at hop with h1 h2
  obtain rfl := Except.ok.inj hop
  push Not at h1 h2
  have ha : 0 < a - 1 := by linarith
  have key : ∀ z : ℂ, (scadElemC σ a z).re = scadSpec σ a ‖z‖ + if σ < ‖z‖ ∧ ‖z‖ ≤ a * σ then z.im ^ 2 / (a - 1) else 0 := by
    intro z
    unfold scadElemC scadSpec
    simp only [abs_norm]
    by_cases h : ‖z‖ ≤ σ
    · rw [if_pos h, if_pos h, if_neg (fun hh => absurd hh.1 (not_lt.2 h))]; simp
    · by_cases h' : ‖z‖ ≤ a * σ
      · rw [if_neg h, if_pos h', if_neg h, if_pos h', if_pos ⟨lt_of_not_ge h, h'⟩]
        have e : ((-(z ^ 2) + ((2 * a * σ * ‖z‖ : ℝ) : ℂ) - ((σ ^ 2 : ℝ) : ℂ)) / ((2 * (a - 1) : ℝ) : ℂ)).re
            = (-(z.re ^ 2 - z.im ^ 2) + 2 * a * σ * ‖z‖ - σ ^ 2) / (2 * (a - 1)) := by
          rw [Complex.div_ofReal_re]
          simp only [Complex.sub_re, Complex.add_re, Complex.neg_re, Complex.ofReal_re, pow_two z, Complex.mul_re]
          ring
        rw [e]
        have hn : ‖z‖ ^ 2 = z.re ^ 2 + z.im ^ 2 := by
          rw [← Complex.normSq_eq_norm_sq, Complex.normSq_apply]; ring
        rw [hn]
        field_simp
        ring
      · rw [if_neg h, if_neg h', if_neg h, if_neg h', if_neg (fun hh => h' hh.2), Complex.ofReal_re, add_zero]
  simp only [Complex.re_sum, key, Finset.sum_add_distrib, Except.ok.injEq, CallVal.num.injEq, add_eq_left]
  rw [Finset.sum_eq_zero_iff_of_nonneg (fun i _ => by split_ifs <;> positivity)]
  constructor
  · intro h i hi hi'
    have := h i (Finset.mem_univ i)
    rw [if_pos ⟨hi, hi'⟩, div_eq_zero_iff] at this
    rcases this with h | h
    · exact pow_eq_zero_iff (two_ne_zero) |>.1 h
    · linarith
  · intro h i _
    split_ifs with hc
    · rw [h i hc.1 hc.2]; simp
    · rfl

lemma mcpSpec_abs (μ t : ℝ) : mcpSpec μ t = mcpSpec μ |t| := by simp [mcpSpec]

lemma qecProxC_eq (μ τ : ℝ) (z : ℂ) : qecProxC npSign2 μ τ z = npSign2 z * (qecProx μ τ ‖z‖ : ℂ) := by
  by_cases hz : z = 0
  · subst hz
    rw [npSign2_zero, zero_mul, qecProxC, npSign2_zero, mul_zero]
  · unfold qecProxC qecProx
    rw [abs_norm, npsign_norm hz, mul_one, mul_comm]

/-- C93, partial: `QuadraticEnvelopeCard.prox` on complex arrays (numpy 2), for steps up to 1 as on real arrays.  Missing: larger steps (`C33_qec_prox_refuted`), numpy 1. -/
theorem C93_qec_prox_partial (μ : ℝ) (hμ : 0 ≤ μ) (τ : ℝ) (hτ : 0 < τ) (hτ1 : τ ≤ 1) (x : CVec ι) :
    ∃ p, (QuadraticEnvelopeCardCx npSign2 μ).prox x τ = .ok p ∧ IsProx (XFun.ofReal fun y : CVec ι => ∑ i, mcpSpec μ ‖y i‖) τ x p := by
  refine ⟨_, by simp only [ProxOp.prox, QuadraticEnvelopeCardCx, checkTau_pos hτ]; rfl, ?_⟩
  obtain ⟨q, hq, hqp⟩ := C33_qec_prox_partial (ι := ι) μ hμ τ hτ hτ1 (moduli x)
  simp only [ProxOp.prox, QuadraticEnvelopeCard, checkTau_pos hτ] at hq
  obtain rfl := Except.ok.inj hq
  refine lift_isProx_sum (mcpSpec_abs μ) hτ (fun i => ?_) hqp
  have := lifts_sign (z := x i) (q := qecProx μ τ ‖x i‖) (fun h => by rw [h, qecProx, npsign_norm_zero, mul_zero])
  rw [← qecProxC_eq] at this
  exact this

lemma logSpec_abs (σ γ t : ℝ) : logSpec σ γ t = logSpec σ γ |t| := by simp [logSpec]

lemma logProxC_eq (σ γ τ : ℝ) (z : ℂ) : logProxC npSign2 σ γ τ z = npSign2 z * (logProx σ γ τ ‖z‖ : ℂ) := by
  by_cases hz : z = 0
  · subst hz
    rw [npSign2_zero, zero_mul, logProxC, npSign2_zero, mul_zero]
  · unfold logProxC logProx
    simp only [abs_norm]
    rw [npsign_norm hz, mul_one, mul_comm]

/-- C93: on complex arrays (numpy 2) `Log.prox` returns a minimiser for the log penalty of the moduli, for every step. -/
theorem C93_log_prox (σ γ : ℝ) (hγ : 0 < γ) (op : ProxOp (CVec ι)) (hop : LogCx npSign2 σ γ = .ok op) :
    ProxExact op (XFun.ofReal fun y : CVec ι => ∑ i, logSpec σ γ ‖y i‖) := by
  intro x τ hτ
  have h2 : ¬ γ < 0 := not_lt.2 hγ.le
  by_cases h1 : σ < 0
  · rw [LogCx, if_pos h1] at hop; cases hop
  rw [LogCx, if_neg h1, if_neg h2] at hop
  obtain rfl := Except.ok.inj hop
  refine ⟨_, by simp only [ProxOp.prox, checkTau_pos hτ]; rfl, ?_⟩
  obtain ⟨q, hq, hqp⟩ := C67_log_prox (ι := ι) σ γ hγ _ (by rw [Log, if_neg h1, if_neg h2]) (moduli x) τ hτ
  simp only [ProxOp.prox, checkTau_pos hτ, if_neg hγ.ne'] at hq
  obtain rfl := Except.ok.inj hq
  refine lift_isProx_sum (logSpec_abs σ γ) hτ (fun i => ?_) hqp
  have := lifts_sign (z := x i) (q := logProx σ γ τ ‖x i‖) (fun h => by rw [h, logProx, npsign_norm_zero, mul_zero])
  rw [← logProxC_eq] at this
  simpa only [if_neg hγ.ne', moduli_apply] using this

lemma gemanSpec_abs (σ γ t : ℝ) : gemanSpec σ γ t = gemanSpec σ γ |t| := by simp [gemanSpec]

lemma gemanProxC_eq (σ γ τ : ℝ) (z : ℂ) : gemanProxC npSign2 σ γ τ z = npSign2 z * (gemanProx σ γ τ ‖z‖ : ℂ) := by
  unfold gemanProxC gemanProx
  simp only [abs_norm]
  cases gemanLocalMin (2 * γ - ‖z‖) (γ ^ 2 - 2 * γ * ‖z‖) (γ * σ * τ - γ ^ 2 * ‖z‖) with
  | none => simp
  | some r =>
    simp only
    split_ifs
    · by_cases hz : z = 0
      · rw [hz, npSign2_zero, zero_mul, zero_mul]
      · rw [npsign_norm hz, one_mul]
    · simp

lemma gemanProx_zero (σ γ τ : ℝ) : gemanProx σ γ τ 0 = 0 := by
  unfold gemanProx
  simp only [abs_zero]
  cases gemanLocalMin (2 * γ - 0) (γ ^ 2 - 2 * γ * 0) (γ * σ * τ - γ ^ 2 * 0) with
  | none => rfl
  | some r => simp [npsign]

/-- C93: on complex arrays (numpy 2) `Geman.prox` returns a minimiser for the Geman penalty of the moduli, for every step. -/
theorem C93_geman_prox (σ γ : ℝ) (op : ProxOp (CVec ι)) (hop : GemanCx npSign2 σ γ = .ok op) :
    ProxExact op (XFun.ofReal fun y : CVec ι => ∑ i, gemanSpec σ γ ‖y i‖) := by
  intro x τ hτ
  unfold GemanCx at hop
  split_ifs at hop with h1 h2
  obtain rfl := Except.ok.inj hop
  refine ⟨_, by simp only [ProxOp.prox, checkTau_pos hτ]; rfl, ?_⟩
  obtain ⟨q, hq, hqp⟩ := C70_geman_prox (ι := ι) σ γ _ (by rw [Geman, if_neg h1, if_neg h2]) (moduli x) τ hτ
  simp only [ProxOp.prox, checkTau_pos hτ] at hq
  obtain rfl := Except.ok.inj hq
  refine lift_isProx_sum (gemanSpec_abs σ γ) hτ (fun i => ?_) hqp
  have := lifts_sign (z := x i) (q := gemanProx σ γ τ ‖x i‖) (fun h => by rw [h, norm_zero, gemanProx_zero])
  rw [← gemanProxC_eq] at this
  exact this

/-- C93: the values of `QuadraticEnvelopeCard`, `Log`, `Geman`, `ETP` and `RelaxedMumfordShah` on complex arrays. -/
theorem C93_penalty_calls (sg : ℂ → ℂ) (W : ℝ → ℝ) (μ σ γ κ : ℝ) (hμ : 0 ≤ μ) (hγ : 0 < γ) :
    EvaluatesNum (QuadraticEnvelopeCardCx sg μ : ProxOp (CVec ι)) (fun y => ∑ i, mcpSpec μ ‖y i‖) ∧
    (∀ op : ProxOp (CVec ι), LogCx sg σ γ = .ok op → EvaluatesNum op fun y => ∑ i, logSpec σ γ ‖y i‖) ∧
    (∀ op : ProxOp (CVec ι), GemanCx sg σ γ = .ok op → EvaluatesNum op fun y => ∑ i, gemanSpec σ γ ‖y i‖) ∧
    (∀ op : ProxOp (CVec ι), ETPCx sg W σ γ = .ok op → EvaluatesNum op fun y => ∑ i, etpSpec σ γ ‖y i‖) ∧
    EvaluatesNum (RelaxedMSCx σ κ : ProxOp (CVec ι)) fun y => min (σ * ‖y‖ ^ 2) κ := by
  refine ⟨fun x => ?_, fun op hop x => ?_, fun op hop x => ?_, fun op hop x => ?_, fun x => rfl⟩
  · simp only [QuadraticEnvelopeCardCx, if_neg (not_lt.2 hμ), mcpSpec, abs_norm]
    congr 2
    refine Finset.sum_congr rfl fun i _ => ?_
    ring
  · by_cases h1 : σ < 0
    · rw [LogCx, if_pos h1] at hop; cases hop
    rw [LogCx, if_neg h1, if_neg (not_lt.2 hγ.le)] at hop
    obtain rfl := Except.ok.inj hop
    simp only [if_neg hγ.ne', logSpec, abs_norm]
  · unfold GemanCx at hop
    split_ifs at hop with h1 h2
    obtain rfl := Except.ok.inj hop
    simp only [gemanSpec, abs_norm]
  · unfold ETPCx at hop
    split_ifs at hop with h1 h2
    obtain rfl := Except.ok.inj hop
    simp only [etpSpec, etpElemC, abs_norm]

/-- Number of non-zero entries of a complex array. -/
noncomputable def cnumNonzero (x : CVec ι) : ℝ := (({i | x i ≠ 0} : Set ι).ncard : ℝ)

lemma cnumNonzero_eq (x : CVec ι) : cnumNonzero x = numNonzero (moduli x) := by
  unfold cnumNonzero numNonzero
  simp only [moduli_apply, ne_eq, norm_eq_zero]

lemma numNonzero_abs (x : Vec ι) : numNonzero x = numNonzero (vmk fun i => |x i|) := by
  unfold numNonzero
  simp only [ne_eq, abs_eq_zero]

/-- C93, partial: on complex arrays `L0(sigma).prox(x, tau)` minimises `(tau sigma^2 / 2) ||y||_0 + ||y-x||^2/(2 tau)`, which is the claimed function when `tau * sigma = 2`, exactly as
on real arrays (`C29_l0_prox_partial`, `C29_l0_prox_refuted`); and the value counts the non-zeros. -/
theorem C93_l0_partial (σ τ : ℝ) (hσ : 0 ≤ σ) (hτ : 0 < τ) (x : CVec ι) :
    (∃ p, (L0Cx σ).prox x τ = .ok p ∧ IsProx (XFun.ofReal fun y : CVec ι => τ * σ ^ 2 / 2 * cnumNonzero y) τ x p ∧
      (τ * σ = 2 → IsProx (XFun.ofReal fun y : CVec ι => σ * cnumNonzero y) τ x p)) ∧
    EvaluatesNum (L0Cx σ : ProxOp (CVec ι)) cnumNonzero := by
  classical
  constructor
  · obtain ⟨q, hq, hq1, hq2⟩ := C29_l0_prox_partial σ τ hσ hτ (moduli x)
    simp only [ProxOp.prox, L0, checkTau_pos hτ] at hq
    obtain rfl := Except.ok.inj hq
    have hl : ∀ i, LiftsTo (x i) (if ‖x i‖ ≤ τ * σ then 0 else x i) (hardthreshold (moduli x) (τ * σ) i) := by
      intro i
      simp only [hardthreshold, PiLp.toLp_apply, moduli_apply, abs_norm]
      split_ifs
      · simp [LiftsTo]
      · have := lifts_smul (x i) 1
        simpa using this
    refine ⟨_, by simp only [ProxOp.prox, L0Cx, checkTau_pos hτ]; rfl, ?_, fun h => ?_⟩
    · exact lift_isProx (G := XFun.ofReal fun y : Vec ι => τ * σ ^ 2 / 2 * numNonzero y) (fun _ => Iff.rfl)
        (fun y => by show _ * numNonzero y = _ * numNonzero _; rw [numNonzero_abs]) (fun _ => Iff.rfl)
        (fun y => by show _ * cnumNonzero y = _ * numNonzero _; rw [cnumNonzero_eq]) hτ hl hq1
    · exact lift_isProx (G := XFun.ofReal fun y : Vec ι => σ * numNonzero y) (fun _ => Iff.rfl)
        (fun y => by show _ * numNonzero y = _ * numNonzero _; rw [numNonzero_abs]) (fun _ => Iff.rfl)
        (fun y => by show _ * cnumNonzero y = _ * numNonzero _; rw [cnumNonzero_eq]) hτ hl (hq2 h)
  · intro x
    have : ({i | x i ≠ 0} : Set ι) = ↑(Finset.univ.filter fun i => ‖x i‖ > 0) := by ext; simp
    simp only [L0Cx, cnumNonzero, this, Set.ncard_coe_finset]

/-- C93, partial: on complex arrays `RelaxedMumfordShah.prox` minimises the sum over the entries of `min(sigma |y_i|^2, kappa)`; that is the function `__call__` evaluates for arrays with one
entry only, as on real arrays (`C34_rms_prox_refuted`). -/
theorem C93_rms_prox_partial (σ κ : ℝ) (hσ : 0 < σ) (hκ : 0 ≤ κ) (τ : ℝ) (hτ : 0 < τ) (x : CVec ι) :
    ∃ p, (RelaxedMSCx σ κ).prox x τ = .ok p ∧ IsProx (XFun.ofReal fun y : CVec ι => ∑ i, min (σ * ‖y i‖ ^ 2) κ) τ x p := by
  obtain ⟨q, hq, hq1, -⟩ := C34_rms_prox_partial σ κ hσ hκ τ hτ (moduli x)
  simp only [ProxOp.prox, RelaxedMS, checkTau_pos hτ, if_neg hσ.ne'] at hq
  obtain rfl := Except.ok.inj hq
  refine ⟨_, by simp only [ProxOp.prox, RelaxedMSCx, checkTau_pos hτ, if_neg hσ.ne']; rfl, ?_⟩
  refine lift_isProx_sum (φ := fun t => min (σ * t ^ 2) κ) (fun t => by simp) hτ (fun i => ?_) hq1
  simp only [moduli_apply, abs_norm]
  split_ifs
  · exact lifts_smul _ _
  · have := lifts_smul (x i) 1
    simpa using this

/-- C93, partial: on complex arrays `L10Ball.prox` returns a closest matrix with at most `radius` non-zero columns whenever the order of the columns by sums of moduli is also an order by Euclidean
norm.  Missing: other inputs, see `C66_l10ball_refuted`. -/
theorem C93_l10ball_prox_partial (argsort : (κ → ℝ) → List κ) (x : CVec (ι × κ))
    (hsort : IsArgsort (fun j => ∑ i, ‖x (i, j)‖ ^ 2) (argsort fun j => ∑ i, ‖x (i, j)‖)) (radius : ℕ) (hr : 1 ≤ radius) (τ : ℝ) (hτ : 0 < τ) :
    ∃ p, (L10BallCx argsort radius).prox x τ = .ok p ∧
      IsProj {y : CVec (ι × κ) | ({j | ∃ i, y (i, j) ≠ 0} : Set κ).ncard ≤ radius} x p := by
  classical
  obtain ⟨q, hq, hq1⟩ := C66_l10ball_prox_partial argsort (moduli x) (by simpa using hsort) radius hr τ hτ
  simp only [ProxOp.prox, L10Ball, checkTau_pos hτ] at hq
  obtain rfl := Except.ok.inj hq
  have hcol : colL1 (moduli x) = fun j => ∑ i, ‖x (i, j)‖ := by funext j; simp [colL1]
  rw [hcol] at hq1
  refine ⟨_, by simp only [ProxOp.prox, L10BallCx, checkTau_pos hτ]; rfl, ?_⟩
  rw [← isProj_iff_isProx one_pos] at hq1 ⊢
  refine lift_isProx (fun y => ?_) (fun _ => rfl) (fun y => ?_) (fun _ => rfl) one_pos (fun ij => ?_) hq1
  · simp [XFun.indicator]
  · simp [XFun.indicator]
  · simp only [l10BallProj, moduli_apply, PiLp.toLp_apply]
    split_ifs
    · simp [LiftsTo]
    · have := lifts_smul (x ij) 1
      simpa using this

/-! ## numpy 1 -/

lemma npSign1_imag {t : ℝ} (ht : 0 < t) : npSign1 (Complex.I * (t : ℂ)) = 1 := by
  simp [npSign1, npsign, ht]

lemma npSign2_imag {t : ℝ} (ht : 0 < t) : npSign2 (Complex.I * (t : ℂ)) = Complex.I := by
  have h0 : (t : ℂ) ≠ 0 := by exact_mod_cast ht.ne'
  have hn : ‖Complex.I * (t : ℂ)‖ = t := by simp [abs_of_pos ht]
  rw [npSign2, if_neg (mul_ne_zero Complex.I_ne_zero h0), hn]
  field_simp

lemma norm_imag {t : ℝ} (ht : 0 < t) : ‖Complex.I * (t : ℂ)‖ = t := by simp [abs_of_pos ht]

/-- A non-zero real number is no minimiser for an imaginary input. -/
lemma not_isProx_rotated (φ : ℝ → ℝ) {τ t r : ℝ} (hτ : 0 < τ) (ht : 0 < t) (hr : r ≠ 0) :
    ¬ IsProx (XFun.ofReal fun y : CVec (Fin 1) => ∑ i, φ ‖y i‖) τ (cmk fun _ => Complex.I * (t : ℂ)) (cmk fun _ => (r : ℂ)) := by
  intro h
  have h1 := h.2 (cmk fun _ => Complex.I * ((|r| : ℝ) : ℂ)) trivial
  simp only [proxObj, XFun.ofReal, EuclideanSpace.norm_sq_eq, PiLp.sub_apply, Finset.univ_unique, Finset.sum_singleton] at h1
  have e1 : ‖(r : ℂ) - Complex.I * (t : ℂ)‖ ^ 2 = r ^ 2 + t ^ 2 := by
    rw [← Complex.normSq_eq_norm_sq, Complex.normSq_apply]; simp; ring
  have e2 : ‖Complex.I * ((|r| : ℝ) : ℂ) - Complex.I * (t : ℂ)‖ ^ 2 = (|r| - t) ^ 2 := by
    rw [← Complex.normSq_eq_norm_sq, Complex.normSq_apply]; simp; ring
  have e3 : ‖(r : ℂ)‖ = ‖Complex.I * ((|r| : ℝ) : ℂ)‖ := by simp
  rw [e1, e2, e3] at h1
  have h2 : (r ^ 2 + t ^ 2) / (2 * τ) ≤ (|r| - t) ^ 2 / (2 * τ) := by linarith
  rw [div_le_div_iff_of_pos_right (by linarith)] at h2
  have hr0 : 0 < |r| := abs_pos.2 hr
  have := sq_abs r
  nlinarith [mul_pos hr0 ht]

/-- C93, refutation: with numpy 1, where `np.sign` of a complex number is a sign of its real or imaginary part, `SCAD.prox` is wrong for all parameters and steps. -/
theorem C93_scad_sign1_refuted (σ a : ℝ) (hσ : 0 < σ) (ha : 2 < a) (τ : ℝ) (hτ : 0 < τ) :
    ∃ (op : ProxOp (CVec (Fin 1))) (x p : CVec (Fin 1)), SCADCx npSign1 σ a = .ok op ∧ op.prox x τ = .ok p ∧
      ¬ IsProx (XFun.ofReal fun y : CVec (Fin 1) => ∑ i, scadSpec σ a ‖y i‖) τ x p := by
  have ht : 0 < σ * (1 + τ) := by positivity
  refine ⟨_, cmk fun _ => Complex.I * ((σ * (1 + τ) : ℝ) : ℂ), cmk fun _ => ((σ : ℝ) : ℂ), by rw [SCADCx, if_neg (not_le.2 hσ), if_neg (not_le.2 ha)], ?_,
    not_isProx_rotated _ hτ ht hσ.ne'⟩
  simp only [ProxOp.prox, checkTau_pos hτ, Except.ok.injEq]
  congr 1
  funext i
  have e : σ * (a - 1 - τ + τ * a) / (a - 1) = σ * (1 + τ) := by
    have : a - 1 ≠ 0 := by linarith
    field_simp
    ring
  unfold scadProxC
  simp only [norm_imag ht, e, le_refl, if_true, npSign1_imag ht, one_mul]
  have : max 0 (σ * (1 + τ) - σ * τ) = σ := by rw [max_eq_right] <;> nlinarith
  rw [this]

/-- C93, refutation: the same for `QuadraticEnvelopeCard.prox`. -/
theorem C93_qec_sign1_refuted (μ : ℝ) (τ : ℝ) (hτ : 0 < τ) :
    ∃ (x p : CVec (Fin 1)), (QuadraticEnvelopeCardCx npSign1 μ).prox x τ = .ok p ∧
      ¬ IsProx (XFun.ofReal fun y : CVec (Fin 1) => ∑ i, mcpSpec μ ‖y i‖) τ x p := by
  have ht : 0 < √(2 * μ) + 1 := by positivity
  refine ⟨cmk fun _ => Complex.I * ((√(2 * μ) + 1 : ℝ) : ℂ), cmk fun _ => ((√(2 * μ) + 1 : ℝ) : ℂ), ?_, not_isProx_rotated _ hτ ht ht.ne'⟩
  simp only [ProxOp.prox, QuadraticEnvelopeCardCx, checkTau_pos hτ, Except.ok.injEq]
  congr 1
  funext i
  unfold qecProxC
  rw [norm_imag ht, if_neg (by linarith), npSign1_imag ht, mul_one]

lemma logProx_ne_zero {σ γ τ : ℝ} (hσ : 0 ≤ σ) (hγ : 0 < γ) (hτ : 0 < τ) :
    logProx σ γ τ (2 * τ * (σ / Real.log (γ + 1)) * γ + 1) ≠ 0 := by
  set c := σ / Real.log (γ + 1) with hc
  have hc0 : 0 ≤ c := div_nonneg hσ (Real.log_nonneg (by linarith))
  set t := 2 * τ * c * γ + 1 with ht
  have ht0 : 0 < t := by positivity
  intro h0
  obtain ⟨q, hq, hqp⟩ := C67_log_prox (ι := Fin 1) σ γ hγ _ (by rw [Log, if_neg (not_lt.2 hσ), if_neg (not_lt.2 hγ.le)]) (vmk fun _ => t) τ hτ
  simp only [ProxOp.prox, checkTau_pos hτ, if_neg hγ.ne', h0] at hq
  obtain rfl := Except.ok.inj hq
  have h1 := hqp.2 (vmk fun _ => t) trivial
  simp only [proxObj, XFun.ofReal, EuclideanSpace.norm_sq_eq, PiLp.sub_apply, Finset.univ_unique, Finset.sum_singleton, Real.norm_eq_abs, sq_abs] at h1
  have e0 : logSpec σ γ 0 = 0 := by simp [logSpec]
  have e1 : logSpec σ γ t ≤ c * (γ * t) := by
    rw [logSpec, abs_of_pos ht0, ← hc]
    have := Real.log_le_sub_one_of_pos (show 0 < γ * t + 1 by positivity)
    have h3 : Real.log (γ * t + 1) ≤ γ * t := by linarith
    exact mul_le_mul_of_nonneg_left h3 hc0
  rw [e0] at h1
  simp only [zero_sub, sub_self] at h1
  have h2 : t ^ 2 / (2 * τ) ≤ c * (γ * t) := by
    have : (-t) ^ 2 / (2 * τ) ≤ logSpec σ γ t := by simpa using h1
    rw [neg_sq] at this
    exact this.trans e1
  rw [div_le_iff₀ (by linarith)] at h2
  have : t * t ≤ t * (2 * τ * c * γ) := by nlinarith
  have := le_of_mul_le_mul_left this ht0
  linarith

/-- C93, refutation: the same for `Log.prox`. -/
theorem C93_log_sign1_refuted (σ γ : ℝ) (hσ : 0 ≤ σ) (hγ : 0 < γ) (τ : ℝ) (hτ : 0 < τ) :
    ∃ (op : ProxOp (CVec (Fin 1))) (x p : CVec (Fin 1)), LogCx npSign1 σ γ = .ok op ∧ op.prox x τ = .ok p ∧
      ¬ IsProx (XFun.ofReal fun y : CVec (Fin 1) => ∑ i, logSpec σ γ ‖y i‖) τ x p := by
  set t := 2 * τ * (σ / Real.log (γ + 1)) * γ + 1 with ht
  have hc0 : 0 ≤ σ / Real.log (γ + 1) := div_nonneg hσ (Real.log_nonneg (by linarith))
  have ht0 : 0 < t := by positivity
  refine ⟨_, cmk fun _ => Complex.I * (t : ℂ), cmk fun _ => ((logProx σ γ τ t : ℝ) : ℂ),
    by rw [LogCx, if_neg (not_lt.2 hσ), if_neg (not_lt.2 hγ.le)], ?_, not_isProx_rotated _ hτ ht0 (logProx_ne_zero hσ hγ hτ)⟩
  simp only [ProxOp.prox, checkTau_pos hτ, Except.ok.injEq, if_neg hγ.ne']
  congr 1
  funext i
  unfold logProxC logProx
  simp only [norm_imag ht0, npSign1_imag ht0, abs_of_pos ht0, mul_one]
  rw [npsign, if_pos ht0, mul_one]

lemma gemanProx_ne_zero {σ γ τ : ℝ} (hσ : 0 ≤ σ) (hγ : 0 < γ) (hτ : 0 < τ) : gemanProx σ γ τ (2 * τ * σ + 1) ≠ 0 := by
  set t := 2 * τ * σ + 1 with ht
  have ht0 : 0 < t := by positivity
  intro h0
  obtain ⟨q, hq, hqp⟩ := C70_geman_prox (ι := Fin 1) σ γ _ (by rw [Geman, if_neg (not_lt.2 hσ), if_neg (not_le.2 hγ)]) (vmk fun _ => t) τ hτ
  simp only [ProxOp.prox, checkTau_pos hτ, h0] at hq
  obtain rfl := Except.ok.inj hq
  have h1 := hqp.2 (vmk fun _ => t) trivial
  simp only [proxObj, XFun.ofReal, EuclideanSpace.norm_sq_eq, PiLp.sub_apply, Finset.univ_unique, Finset.sum_singleton, Real.norm_eq_abs, sq_abs] at h1
  have e0 : gemanSpec σ γ 0 = 0 := by simp [gemanSpec]
  have e1 : gemanSpec σ γ t ≤ σ := by
    rw [gemanSpec, abs_of_pos ht0, div_le_iff₀ (by positivity)]
    nlinarith
  have h2 : t ^ 2 / (2 * τ) ≤ σ := by
    have : (-t) ^ 2 / (2 * τ) ≤ gemanSpec σ γ t := by simpa [e0] using h1
    rw [neg_sq] at this
    exact this.trans e1
  rw [div_le_iff₀ (by linarith)] at h2
  nlinarith [mul_nonneg hτ.le hσ]

/-- C93, refutation: the same for `Geman.prox`. -/
theorem C93_geman_sign1_refuted (σ γ : ℝ) (hσ : 0 ≤ σ) (hγ : 0 < γ) (τ : ℝ) (hτ : 0 < τ) :
    ∃ (op : ProxOp (CVec (Fin 1))) (x p : CVec (Fin 1)), GemanCx npSign1 σ γ = .ok op ∧ op.prox x τ = .ok p ∧
      ¬ IsProx (XFun.ofReal fun y : CVec (Fin 1) => ∑ i, gemanSpec σ γ ‖y i‖) τ x p := by
  set t := 2 * τ * σ + 1 with ht
  have ht0 : 0 < t := by positivity
  refine ⟨_, cmk fun _ => Complex.I * (t : ℂ), cmk fun _ => ((gemanProx σ γ τ t : ℝ) : ℂ),
    by rw [GemanCx, if_neg (not_lt.2 hσ), if_neg (not_le.2 hγ)], ?_, not_isProx_rotated _ hτ ht0 (gemanProx_ne_zero hσ hγ hτ)⟩
  simp only [ProxOp.prox, checkTau_pos hτ, Except.ok.injEq]
  congr 1
  funext i
  unfold gemanProxC gemanProx
  simp only [norm_imag ht0, npSign1_imag ht0, abs_of_pos ht0]
  cases gemanLocalMin (2 * γ - t) (γ ^ 2 - 2 * γ * t) (γ * σ * τ - γ ^ 2 * t) with
  | none => simp
  | some r =>
    simp only
    rw [npsign, if_pos ht0]
    split_ifs <;> simp

/-! ## ETP -/

lemma etpProx_neg (W : ℝ → ℝ) (σ γ τ r : ℝ) : etpProx W σ γ τ (-r) = -etpProx W σ γ τ r := by
  unfold etpProx
  simp only [abs_neg]
  have hs : npsign (-r) = -npsign r := by
    unfold npsign
    rcases lt_trichotomy r 0 with h | h | h
    · rw [if_pos (by linarith), if_neg (by linarith), if_pos h]; simp
    · simp [h]
    · rw [if_neg (by linarith), if_pos (by linarith), if_pos h]
  split_ifs with h1 h2 h3 h3
  · rw [hs]; ring
  · exfalso; apply h3
    have e : npsign (-r) * W (-(Real.exp (-|r| * γ) * (τ * σ / (1 - Real.exp (-γ))) * γ ^ 2)) / γ + -r
        = -(npsign r * W (-(Real.exp (-|r| * γ) * (τ * σ / (1 - Real.exp (-γ))) * γ ^ 2)) / γ + r) := by rw [hs]; ring
    rw [e] at h2
    have e2 : ∀ s, etpElem σ γ (-s) = etpElem σ γ s := fun s => by simp [etpElem]
    rw [e2] at h2
    nlinarith
  · exfalso; apply h2
    have e : npsign (-r) * W (-(Real.exp (-|r| * γ) * (τ * σ / (1 - Real.exp (-γ))) * γ ^ 2)) / γ + -r
        = -(npsign r * W (-(Real.exp (-|r| * γ) * (τ * σ / (1 - Real.exp (-γ))) * γ ^ 2)) / γ + r) := by rw [hs]; ring
    rw [e]
    have e2 : ∀ s, etpElem σ γ (-s) = etpElem σ γ s := fun s => by simp [etpElem]
    rw [e2]
    nlinarith
  · simp
  · simp

lemma npSign2_real (r : ℝ) : npSign2 (r : ℂ) = (npsign r : ℂ) := by
  unfold npSign2 npsign
  rcases lt_trichotomy r 0 with h | h | h
  · have h0 : (r : ℂ) ≠ 0 := by exact_mod_cast h.ne
    rw [if_neg h0, if_neg (by linarith), if_pos h, Complex.norm_real, Real.norm_eq_abs, abs_of_neg h]
    push_cast
    field_simp
  · simp [h]
  · have h0 : (r : ℂ) ≠ 0 := by exact_mod_cast h.ne'
    rw [if_neg h0, if_pos h, Complex.norm_real, Real.norm_eq_abs, abs_of_pos h]
    push_cast
    field_simp

lemma npSign1_real (r : ℝ) : npSign1 (r : ℂ) = (npsign r : ℂ) := by
  unfold npSign1
  by_cases h : r = 0
  · simp [h, npsign]
  · simp [h]

lemma etpProxC_real {sg : ℂ → ℂ} (hsg : sg = npSign1 ∨ sg = npSign2) (W : ℝ → ℝ) (σ γ τ r : ℝ) :
    etpProxC sg W σ γ τ (r : ℂ) = (etpProx W σ γ τ r : ℂ) := by
  have hs : sg (r : ℂ) = (npsign r : ℂ) := by rcases hsg with rfl | rfl; exacts [npSign1_real r, npSign2_real r]
  have hn : ‖(r : ℂ)‖ = |r| := by rw [Complex.norm_real, Real.norm_eq_abs]
  unfold etpProxC etpProx
  dsimp only
  rw [hn, hs]
  generalize W (-(Real.exp (-|r| * γ) * (τ * σ / (1 - Real.exp (-γ))) * γ ^ 2)) = w
  have e : (npsign r : ℂ) * (w : ℂ) / (γ : ℂ) + (r : ℂ) = ((npsign r * w / γ + r : ℝ) : ℂ) := by push_cast; rfl
  rw [e]
  generalize npsign r * w / γ + r = s
  have key : lexLt (((τ * etpElemC σ γ (s : ℂ) : ℝ) : ℂ) + ((s : ℂ) - (r : ℂ)) ^ 2 / 2) ((r : ℂ) ^ 2 / 2) ↔
      τ * etpElem σ γ s + (s - r) ^ 2 / 2 < r ^ 2 / 2 := by
    have e1 : ((τ * etpElemC σ γ (s : ℂ) : ℝ) : ℂ) + ((s : ℂ) - (r : ℂ)) ^ 2 / 2 = ((τ * etpElem σ γ s + (s - r) ^ 2 / 2 : ℝ) : ℂ) := by
      simp only [etpElemC, etpElem, Complex.norm_real, Real.norm_eq_abs]
      push_cast
      rfl
    have e2 : (r : ℂ) ^ 2 / 2 = ((r ^ 2 / 2 : ℝ) : ℂ) := by push_cast; rfl
    rw [e1, e2]
    simp only [lexLt, Complex.ofReal_re, Complex.ofReal_im, lt_irrefl, and_false, or_false]
  by_cases h1 : Real.exp (-|r| * γ) * (τ * σ / (1 - Real.exp (-γ))) * γ ^ 2 ≤ Real.exp (-1)
  · rw [if_pos h1, if_pos h1]
    by_cases h2 : τ * etpElem σ γ s + (s - r) ^ 2 / 2 < r ^ 2 / 2
    · rw [if_pos (key.2 h2), if_pos h2]
    · rw [if_neg (fun h => h2 (key.1 h)), if_neg h2, Complex.ofReal_zero]
  · rw [if_neg h1, if_neg h1, Complex.ofReal_zero]

lemma etpProx_zero (W : ℝ → ℝ) (σ γ τ : ℝ) : etpProx W σ γ τ 0 = 0 := by
  have := etpProx_neg W σ γ τ 0
  rw [neg_zero] at this
  linarith

lemma etpSpec_abs (σ γ t : ℝ) : etpSpec σ γ t = etpSpec σ γ |t| := by simp [etpSpec]

/-- C93, partial: with either numpy, `ETP.prox` returns a minimiser for arrays of complex type whose entries are real.  Missing: other entries, see `C93_etp_refuted`. -/
theorem C93_etp_prox_partial (sg : ℂ → ℂ) (hsg : sg = npSign1 ∨ sg = npSign2) (W : ℝ → ℝ) (hW : IsLambertW W) (σ γ : ℝ) (op : ProxOp (CVec ι))
    (hop : ETPCx sg W σ γ = .ok op) (x : CVec ι) (hx : ∀ i, (x i).im = 0) (τ : ℝ) (hτ : 0 < τ) :
    ∃ p, op.prox x τ = .ok p ∧ IsProx (XFun.ofReal fun y : CVec ι => ∑ i, etpSpec σ γ ‖y i‖) τ x p := by
  unfold ETPCx at hop
  split_ifs at hop with h1 h2
  obtain rfl := Except.ok.inj hop
  refine ⟨_, by simp only [ProxOp.prox, checkTau_pos hτ]; rfl, ?_⟩
  obtain ⟨q, hq, hqp⟩ := C69_etp_prox (ι := ι) W hW σ γ _ (by rw [ETP, if_neg h1, if_neg h2]) (moduli x) τ hτ
  simp only [ProxOp.prox, checkTau_pos hτ] at hq
  obtain rfl := Except.ok.inj hq
  refine lift_isProx_sum (etpSpec_abs σ γ) hτ (fun i => ?_) hqp
  have hr : x i = ((x i).re : ℂ) := Complex.ext rfl (by simp [hx i])
  have := lifts_sign (z := x i) (q := etpProx W σ γ τ ‖x i‖) (fun h => by rw [h, norm_zero, etpProx_zero])
  have e : etpProxC sg W σ γ τ (x i) = npSign2 (x i) * (etpProx W σ γ τ ‖x i‖ : ℂ) := by
    rw [hr, etpProxC_real hsg, npSign2_real, Complex.norm_real, Real.norm_eq_abs]
    rcases lt_trichotomy (x i).re 0 with h | h | h
    · rw [npsign, if_neg (by linarith), if_pos h, abs_of_neg h, etpProx_neg]; push_cast; ring
    · rw [h, abs_zero, etpProx_zero]; simp
    · rw [npsign, if_pos h, abs_of_pos h]; simp
  rw [← e] at this
  exact this

/-- C93, refutation: for imaginary entries of modulus `t >= 1/gamma` with `t^2 > 2 tau sigma / (1 - exp(-gamma))` the complex squares of the comparison have the wrong sign, so that `ETP.prox`
returns zero although zero is no minimiser, with either numpy. -/
theorem C93_etp_refuted [Nonempty ι] (sg : ℂ → ℂ) (hsg : sg = npSign1 ∨ sg = npSign2) (W : ℝ → ℝ) (hW : IsLambertW W) (σ γ : ℝ) (hσ : 0 ≤ σ) (hγ : 0 < γ)
    (τ : ℝ) (hτ : 0 < τ) (t : ℝ) (ht1 : 1 / γ ≤ t) (ht2 : 2 * τ * (σ / (1 - Real.exp (-γ))) < t ^ 2) :
    ∃ op : ProxOp (CVec ι), ETPCx sg W σ γ = .ok op ∧ op.prox (cmk fun _ => Complex.I * (t : ℂ)) τ = .ok 0 ∧
      ¬ IsProx (XFun.ofReal fun y : CVec ι => ∑ i, etpSpec σ γ ‖y i‖) τ (cmk fun _ => Complex.I * (t : ℂ)) 0 := by
  have ht : 0 < t := lt_of_lt_of_le (by positivity) ht1
  have hexp : 0 < 1 - Real.exp (-γ) := by
    have : Real.exp (-γ) < 1 := by rw [← Real.exp_zero]; exact Real.exp_lt_exp.2 (by linarith)
    linarith
  have hC : 0 ≤ σ / (1 - Real.exp (-γ)) := by positivity
  refine ⟨_, by rw [ETPCx, if_neg (not_lt.2 hσ), if_neg (not_le.2 hγ)], ?_, ?_⟩
  · simp only [ProxOp.prox, checkTau_pos hτ, Except.ok.injEq]
    ext i
    show etpProxC sg W σ γ τ (Complex.I * (t : ℂ)) = 0
    unfold etpProxC
    dsimp only
    rw [norm_imag ht]
    split_ifs with h1 h2
    · exfalso
      have hT0 : 0 ≤ Real.exp (-t * γ) * (τ * σ / (1 - Real.exp (-γ))) * γ ^ 2 := by positivity
      obtain ⟨hWe, hW1⟩ := hW (-(Real.exp (-t * γ) * (τ * σ / (1 - Real.exp (-γ))) * γ ^ 2)) (by linarith) (by linarith)
      generalize W (-(Real.exp (-t * γ) * (τ * σ / (1 - Real.exp (-γ))) * γ ^ 2)) = w at h2 hWe hW1
      have hw0 : w ≤ 0 := by
        by_contra hpos
        push Not at hpos
        have := mul_pos hpos (Real.exp_pos w)
        linarith
      have hwg : (w / γ) ^ 2 ≤ t ^ 2 := by
        have h3 : |w / γ| ≤ t := by
          rw [abs_div, abs_of_nonpos hw0, abs_of_pos hγ]
          refine le_trans ?_ ht1
          exact div_le_div_of_nonneg_right (by linarith) hγ.le
        rw [← sq_abs (w / γ)]
        exact pow_le_pow_left₀ (abs_nonneg _) h3 2
      have hel : ∀ z, 0 ≤ τ * etpElemC σ γ z := by
        intro z
        have : Real.exp (-γ * ‖z‖) ≤ 1 := Real.exp_le_one_iff.2 (by have := norm_nonneg z; nlinarith)
        have h4 : 0 ≤ 1 - Real.exp (-γ * ‖z‖) := by linarith
        unfold etpElemC
        positivity
      have hel0 := hel (sg (Complex.I * (t : ℂ)) * (w : ℂ) / (γ : ℂ) + Complex.I * (t : ℂ))
      generalize τ * etpElemC σ γ (sg (Complex.I * (t : ℂ)) * (w : ℂ) / (γ : ℂ) + Complex.I * (t : ℂ)) = e at h2 hel0
      rw [add_sub_cancel_right] at h2
      have hz2 : (Complex.I * (t : ℂ)) ^ 2 / 2 = ((-(t ^ 2 / 2) : ℝ) : ℂ) := by
        rw [mul_pow, Complex.I_sq]; push_cast; ring
      rw [hz2] at h2
      rcases hsg with rfl | rfl
      · rw [npSign1_imag ht] at h2
        have : (e : ℂ) + (1 * (w : ℂ) / (γ : ℂ)) ^ 2 / 2 = ((e + (w / γ) ^ 2 / 2 : ℝ) : ℂ) := by push_cast; ring
        rw [this] at h2
        simp only [lexLt, Complex.ofReal_re, Complex.ofReal_im, lt_irrefl, and_false, or_false] at h2
        nlinarith [sq_nonneg (w / γ)]
      · rw [npSign2_imag ht] at h2
        have : (e : ℂ) + (Complex.I * (w : ℂ) / (γ : ℂ)) ^ 2 / 2 = ((e - (w / γ) ^ 2 / 2 : ℝ) : ℂ) := by
          rw [div_pow, mul_pow, Complex.I_sq]; push_cast; ring
        rw [this] at h2
        simp only [lexLt, Complex.ofReal_re, Complex.ofReal_im, lt_irrefl, and_false, or_false] at h2
        linarith
    · rfl
    · rfl
  · intro h
    have h1 := h.2 (cmk fun _ => Complex.I * (t : ℂ)) trivial
    have hn : ∀ i : ι, ‖((0 : CVec ι) - cmk (fun _ => Complex.I * (t : ℂ)) : CVec ι) i‖ ^ 2 = t ^ 2 := by
      intro i
      rw [PiLp.sub_apply]
      simp
    simp only [proxObj, XFun.ofReal, sub_self, norm_zero, EuclideanSpace.norm_sq_eq (𝕜 := ℂ) ((0 : CVec ι) - _), hn, norm_imag ht, PiLp.zero_apply,
      Finset.sum_const, Finset.card_univ, nsmul_eq_mul] at h1
    have hc : (0 : ℝ) < Fintype.card ι := by exact_mod_cast Fintype.card_pos
    have e0 : etpSpec σ γ 0 = 0 := by simp [etpSpec]
    have e1 : etpSpec σ γ t ≤ σ / (1 - Real.exp (-γ)) := by
      unfold etpSpec
      have := Real.exp_pos (-γ * |t|)
      nlinarith
    rw [e0] at h1
    have h2 : (Fintype.card ι : ℝ) * (t ^ 2 / (2 * τ)) ≤ (Fintype.card ι : ℝ) * etpSpec σ γ t := by
      have h3 := h1
      rw [mul_div_assoc] at h3
      simpa using h3
    have h3 := le_of_mul_le_mul_left h2 hc
    rw [div_le_iff₀ (by linarith)] at h3
    nlinarith

/-! ## Box -/

lemma cBoxProj_real {lower upper : ℝ} (r : ℝ) : lexMin (lexMax (r : ℂ) lower) upper = ((min (max r lower) upper : ℝ) : ℂ) := by
  have h1 : lexMax (r : ℂ) lower = ((max r lower : ℝ) : ℂ) := by
    unfold lexMax lexGe
    rcases lt_trichotomy r lower with h | h | h
    · rw [if_neg (by rintro (h' | h') <;> [have := h'; have := h'.1] <;> simp at this <;> linarith), max_eq_right h.le]
    · rw [if_pos (by simp [h]), h, max_self]
    · rw [if_pos (by simp [h]), max_eq_left h.le]
  rw [h1]
  generalize max r lower = s
  unfold lexMin lexGe
  rcases lt_trichotomy s upper with h | h | h
  · rw [if_pos (by simp [h]), min_eq_left h.le]
  · rw [if_pos (by simp [h]), h, min_self]
  · rw [if_neg (by rintro (h' | h') <;> [have := h'; have := h'.1] <;> simp at this <;> linarith), min_eq_right h.le]

/-- C93, partial: on complex arrays with real entries `Box.prox` is the projection onto the real arrays with entries in `[lower, upper]`.  Missing: see `C93_box_refuted`. -/
theorem C93_box_prox_partial (lower upper : ℝ) (hlu : lower ≤ upper) (x : CVec ι) (hx : ∀ i, (x i).im = 0) (τ : ℝ) (hτ : 0 < τ) :
    ∃ p, (BoxCx lower upper).prox x τ = .ok p ∧ IsProj {y : CVec ι | ∀ i, (y i).im = 0 ∧ lower ≤ (y i).re ∧ (y i).re ≤ upper} x p := by
  refine ⟨_, by simp only [ProxOp.prox, BoxCx, checkTau_pos hτ]; rfl, ?_⟩
  have hr : ∀ i, x i = ((x i).re : ℂ) := fun i => Complex.ext rfl (by simp [hx i])
  have hp : ∀ i, cBoxProj lower upper x i = ((min (max (x i).re lower) upper : ℝ) : ℂ) := by
    intro i
    show lexMin (lexMax (x i) lower) upper = _
    rw [hr i, cBoxProj_real]
    simp
  refine ⟨fun i => ?_, fun y hy => ?_⟩
  · rw [hp i]
    refine ⟨by simp, ?_, ?_⟩
    · rw [Complex.ofReal_re]; exact le_min (le_max_right _ _) hlu
    · rw [Complex.ofReal_re]; exact min_le_right _ _
  · have h : ‖x - cBoxProj lower upper x‖ ^ 2 ≤ ‖x - y‖ ^ 2 := by
      rw [EuclideanSpace.norm_sq_eq, EuclideanSpace.norm_sq_eq]
      refine Finset.sum_le_sum fun i _ => ?_
      obtain ⟨h1, h2, h3⟩ := hy i
      have hyr : y i = ((y i).re : ℂ) := Complex.ext rfl (by simp [h1])
      rw [PiLp.sub_apply, PiLp.sub_apply, hp i, hr i, hyr]
      simp only [Complex.ofReal_re, ← Complex.ofReal_sub, Complex.norm_real, Real.norm_eq_abs]
      refine pow_le_pow_left₀ (abs_nonneg _) ?_ 2
      rcases le_total (x i).re lower with h | h
      · rw [max_eq_right h, min_eq_left hlu, abs_of_nonpos (by linarith), abs_of_nonpos (by linarith)]; linarith
      · rw [max_eq_left h]
        rcases le_total (x i).re upper with h' | h'
        · rw [min_eq_left h', sub_self, abs_zero]; exact abs_nonneg _
        · rw [min_eq_right h', abs_of_nonneg (by linarith), abs_of_nonneg (by linarith)]; linarith
    exact abs_le_of_sq_le_sq' h (norm_nonneg _) |>.2

lemma cBoxProj_inside {lower upper : ℝ} (h : lower < upper) {m : ℝ} (hm : 0 ≤ m) :
    lexMin (lexMax ((lower : ℂ) + Complex.I * (m : ℂ)) lower) upper = (lower : ℂ) + Complex.I * (m : ℂ) := by
  have h1 : lexMax ((lower : ℂ) + Complex.I * (m : ℂ)) lower = (lower : ℂ) + Complex.I * (m : ℂ) := by
    unfold lexMax lexGe; rw [if_pos (by simp [hm])]
  rw [h1]
  unfold lexMin lexGe
  rw [if_pos (by simp [h])]

lemma cBoxProj_outside {lower upper : ℝ} (h : lower < upper) (m : ℝ) :
    lexMin (lexMax (((lower - 1 : ℝ) : ℂ) + Complex.I * (m : ℂ)) lower) upper = (lower : ℂ) := by
  have h1 : lexMax (((lower - 1 : ℝ) : ℂ) + Complex.I * (m : ℂ)) lower = (lower : ℂ) := by
    unfold lexMax lexGe; rw [if_neg (by simp)]
  rw [h1]
  unfold lexMin lexGe
  rw [if_pos (by simp [h])]

/-- C93, refutation: on complex arrays `Box.prox` is the projection onto no set at all, and it is not Lipschitz continuous with any constant (in particular it is the proximal map of no convex
function): an imaginary part is kept or dropped depending on the real part. -/
theorem C93_box_refuted [Nonempty ι] (lower upper : ℝ) (hlu : lower < upper) (τ : ℝ) (hτ : 0 < τ) :
    (∀ S : Set (CVec ι), ∃ x p : CVec ι, (BoxCx lower upper).prox x τ = .ok p ∧ ¬ IsProj S x p) ∧
    (∀ K : ℝ, ∃ x y p q : CVec ι, (BoxCx lower upper).prox x τ = .ok p ∧ (BoxCx lower upper).prox y τ = .ok q ∧ K * ‖x - y‖ < ‖p - q‖) := by
  have hprox : ∀ x : CVec ι, (BoxCx lower upper).prox x τ = .ok (cBoxProj lower upper x) := fun x => by
    simp only [ProxOp.prox, BoxCx, checkTau_pos hτ]
  have hin : ∀ m : ℝ, 0 ≤ m → cBoxProj lower upper (cmk fun _ : ι => (lower : ℂ) + Complex.I * (m : ℂ)) = cmk fun _ => (lower : ℂ) + Complex.I * (m : ℂ) := by
    intro m hm
    ext i
    exact cBoxProj_inside hlu hm
  have hout : ∀ m : ℝ, cBoxProj lower upper (cmk fun _ : ι => ((lower - 1 : ℝ) : ℂ) + Complex.I * (m : ℂ)) = cmk fun _ => (lower : ℂ) := by
    intro m
    ext i
    exact cBoxProj_outside hlu m
  have hc : (0 : ℝ) < Fintype.card ι := by exact_mod_cast Fintype.card_pos
  have hconst : ∀ z w : ℂ, ‖(cmk fun _ : ι => z) - cmk fun _ => w‖ ^ 2 = Fintype.card ι * ‖z - w‖ ^ 2 := by
    intro z w
    rw [EuclideanSpace.norm_sq_eq]
    simp
  constructor
  · intro S
    by_contra hno
    push Not at hno
    have h1 := hno _ _ (hprox (cmk fun _ => (lower : ℂ) + Complex.I * ((1 : ℝ) : ℂ)))
    rw [hin 1 zero_le_one] at h1
    have h2 := hno _ _ (hprox (cmk fun _ => ((lower - 1 : ℝ) : ℂ) + Complex.I * ((1 : ℝ) : ℂ)))
    rw [hout] at h2
    have h3 := h2.2 _ h1.1
    have h4 := pow_le_pow_left₀ (norm_nonneg _) h3 2
    rw [hconst, hconst] at h4
    have e1 : ‖((lower - 1 : ℝ) : ℂ) + Complex.I * ((1 : ℝ) : ℂ) - (lower : ℂ)‖ ^ 2 = 2 := by
      rw [← Complex.normSq_eq_norm_sq, Complex.normSq_apply]; simp; norm_num
    have e2 : ‖((lower - 1 : ℝ) : ℂ) + Complex.I * ((1 : ℝ) : ℂ) - ((lower : ℂ) + Complex.I * ((1 : ℝ) : ℂ))‖ ^ 2 = 1 := by
      rw [← Complex.normSq_eq_norm_sq, Complex.normSq_apply]; simp
    rw [e1, e2] at h4
    linarith
  · intro K
    set m : ℝ := |K| + 1 with hm
    have hm0 : 0 ≤ m := by positivity
    refine ⟨cmk fun _ => (lower : ℂ) + Complex.I * (m : ℂ), cmk fun _ => ((lower - 1 : ℝ) : ℂ) + Complex.I * (m : ℂ), _, _, hprox _, hprox _, ?_⟩
    rw [hin m hm0, hout]
    have e1 : ‖(cmk fun _ : ι => (lower : ℂ) + Complex.I * (m : ℂ)) - cmk fun _ => ((lower - 1 : ℝ) : ℂ) + Complex.I * (m : ℂ)‖ = √(Fintype.card ι) := by
      rw [← Real.sqrt_sq (norm_nonneg _), hconst]
      congr 1
      rw [← Complex.normSq_eq_norm_sq, Complex.normSq_apply]; simp
    have e2 : ‖(cmk fun _ : ι => (lower : ℂ) + Complex.I * (m : ℂ)) - cmk fun _ => (lower : ℂ)‖ = √(Fintype.card ι) * m := by
      rw [← Real.sqrt_sq (norm_nonneg _), hconst, Real.sqrt_mul hc.le]
      congr 1
      rw [add_sub_cancel_left, Real.sqrt_sq (norm_nonneg _)]
      simp [abs_of_nonneg hm0]
    rw [e1, e2, mul_comm]
    have := Real.sqrt_pos.2 hc
    have hK : K < m := by have := le_abs_self K; linarith
    exact mul_lt_mul_of_pos_left hK this

/-! ## Half-space -/

lemma npDot_real_inner (w y : CVec ι) (hw : ∀ i, (w i).im = 0) : (npDot w y).re = ⟪w, y⟫ := by
  rw [PiLp.inner_apply, npDot, Complex.re_sum]
  refine Finset.sum_congr rfl fun i _ => ?_
  rw [Complex.mul_re, hw i, Complex.inner]
  simp [hw i, mul_comm]

lemma npDot_self_real (w : CVec ι) (hw : ∀ i, (w i).im = 0) : npDot w w = ((⟪w, w⟫ : ℝ) : ℂ) := by
  apply Complex.ext
  · rw [npDot_real_inner w w hw, Complex.ofReal_re]
  · rw [npDot, Complex.im_sum, Complex.ofReal_im]
    refine Finset.sum_eq_zero fun i _ => ?_
    rw [Complex.mul_im, hw i]; simp

/-- C93: with a real normal vector `w` and a complex array `x`, `HalfSpace.prox` returns the closest point with `Re(w . y) <= b` exactly when `w . x` is real or `x` is returned unchanged. -/
theorem C93_halfspace_prox_iff (w : CVec ι) (hw : ∀ i, (w i).im = 0) (hw0 : w ≠ 0) (b : ℝ) (x : CVec ι) (τ : ℝ) (hτ : 0 < τ) :
    ∃ p, (HalfSpaceCx w b).prox x τ = .ok p ∧ (IsProj {y : CVec ι | (∑ i, w i * y i).re ≤ b} x p ↔
      (∑ i, w i * x i).im = 0 ∨ lexGe (b : ℂ) (∑ i, w i * x i)) := by
  have hset : {y : CVec ι | (∑ i, w i * y i).re ≤ b} = {y : CVec ι | ⟪w, y⟫ ≤ b} := by
    ext y
    have := npDot_real_inner w y hw
    rw [npDot] at this
    simp only [Set.mem_ofPred_eq, this]
  have hww : ⟪w, w⟫ ≠ (0 : ℝ) := inner_self_ne_zero.2 hw0
  have hdd : npDot w w ≠ 0 := by rw [npDot_self_real w hw]; exact_mod_cast hww
  obtain ⟨q, hq, hqu, hqx⟩ := C22_halfspace_prox w hw0 b x 1 one_pos
  simp only [ProxOp.prox, HalfSpace, checkTau_pos one_pos, halfSpaceProj] at hq
  have hre := npDot_real_inner w x hw
  by_cases hle : lexGe (b : ℂ) (npDot w x)
  · refine ⟨x, by simp only [ProxOp.prox, HalfSpaceCx, checkTau_pos hτ, cHalfSpaceProj, if_pos hle], ?_⟩
    refine iff_of_true ?_ (Or.inr hle)
    rw [hset]
    have h1 : ⟪w, x⟫ ≤ b := by
      rw [← hre]
      rcases hle with h | h
      · exact le_of_lt (by simpa using h)
      · exact le_of_eq (by simpa using h.1.symm)
    have := hqx h1
    rw [this] at hqu
    exact hqu.1
  · refine ⟨_, by simp only [ProxOp.prox, HalfSpaceCx, checkTau_pos hτ, cHalfSpaceProj, if_neg hle, if_neg hdd]; rfl, ?_⟩
    rw [hset]
    have hge : b ≤ ⟪w, x⟫ := by
      by_contra hlt
      push Not at hlt
      exact hle (Or.inl (by rw [hre]; simpa using hlt))
    have hqe : q = x - ((⟪w, x⟫ - b) / ⟪w, w⟫) • w := by
      by_cases hb : ⟪w, x⟫ ≤ b
      · have : ⟪w, x⟫ = b := le_antisymm hb hge
        rw [hqx hb, this]; simp
      · rw [if_neg hb, if_neg hww] at hq
        exact (Except.ok.inj hq).symm
    have hcoef : ∀ i, (cmk fun i => x i - (npDot w x - (b : ℂ)) / npDot w w * w i : CVec ι) i - q i = -(((npDot w x).im / ⟪w, w⟫ : ℝ) : ℂ) * Complex.I * w i := by
      intro i
      have e : npDot w x = ((⟪w, x⟫ : ℝ) : ℂ) + ((npDot w x).im : ℂ) * Complex.I := by
        rw [← hre]; exact (Complex.re_add_im _).symm
      have hww' : ((⟪w, w⟫ : ℝ) : ℂ) ≠ 0 := by exact_mod_cast hww
      rw [hqe, npDot_self_real w hw]
      simp only [PiLp.sub_apply, PiLp.smul_apply, Complex.real_smul]
      conv_lhs => rw [e]
      push_cast
      field_simp
      ring
    constructor
    · intro hp
      left
      have hpq := hqu.2 _ hp
      obtain ⟨i, hi⟩ : ∃ i, w i ≠ 0 := by
        by_contra hno
        push Not at hno
        exact hw0 (by ext i; exact hno i)
      have h1 := hcoef i
      rw [hpq, sub_self] at h1
      have h2 : (((npDot w x).im / ⟪w, w⟫ : ℝ) : ℂ) = 0 := by
        rcases mul_eq_zero.1 h1.symm with h | h
        · rcases mul_eq_zero.1 h with h | h
          · exact neg_eq_zero.1 h
          · exact absurd h Complex.I_ne_zero
        · exact absurd h hi
      have h3 : (npDot w x).im / ⟪w, w⟫ = 0 := by exact_mod_cast h2
      rcases div_eq_zero_iff.1 h3 with h | h
      · exact h
      · exact absurd h hww
    · rintro (h | h)
      · have hpq : (cmk fun i => x i - (npDot w x - (b : ℂ)) / npDot w w * w i : CVec ι) = q := by
          ext i
          have h1 := hcoef i
          have h0 : (npDot w x).im = 0 := h
          rw [h0] at h1
          simp only [zero_div, Complex.ofReal_zero, neg_zero, zero_mul] at h1
          exact sub_eq_zero.1 h1
        rw [hpq]
        exact hqu.1
      · exact absurd h hle

/-- C93, refutation: with a complex `w` for which the unconjugated `w . w` vanishes, such as `(1, i)`, every point not already accepted gives NaN, although the half-space `Re(w . y) <= b` is not empty. -/
theorem C93_halfspace_complex_refuted (w : CVec ι) (hw0 : w ≠ 0) (hww : ∑ i, w i * w i = 0) (b : ℝ) (x : CVec ι) (hx : b < (∑ i, w i * x i).re) (τ : ℝ) (hτ : 0 < τ) :
    (HalfSpaceCx w b).prox x τ = .error .nanResult ∧ ∃ y : CVec ι, (∑ i, w i * y i).re ≤ b := by
  constructor
  · have h : ¬ lexGe (b : ℂ) (npDot w x) := by
      rintro (h | h)
      · have : (npDot w x).re < b := by simpa using h
        rw [npDot] at this; linarith
      · have : b = (npDot w x).re := by simpa using h.1
        rw [npDot] at this; linarith
    have h0 : npDot w w = 0 := hww
    simp only [ProxOp.prox, HalfSpaceCx, checkTau_pos hτ, cHalfSpaceProj, if_neg h, if_pos h0]
  · have hs : ∑ i, w i * (starRingEnd ℂ) (w i) = ((‖w‖ ^ 2 : ℝ) : ℂ) := by
      rw [EuclideanSpace.norm_sq_eq]
      push_cast
      refine Finset.sum_congr rfl fun i _ => ?_
      rw [Complex.mul_conj, Complex.normSq_eq_norm_sq]
      push_cast
      rfl
    have hn : ‖w‖ ≠ 0 := norm_ne_zero_iff.2 hw0
    refine ⟨cmk fun i => ((b / ‖w‖ ^ 2 : ℝ) : ℂ) * (starRingEnd ℂ) (w i), le_of_eq ?_⟩
    have : ∑ i, w i * (((b / ‖w‖ ^ 2 : ℝ) : ℂ) * (starRingEnd ℂ) (w i)) = ((b : ℝ) : ℂ) := by
      have e : ∀ i, w i * (((b / ‖w‖ ^ 2 : ℝ) : ℂ) * (starRingEnd ℂ) (w i)) = ((b / ‖w‖ ^ 2 : ℝ) : ℂ) * (w i * (starRingEnd ℂ) (w i)) := fun i => by ring
      simp only [e]
      rw [← Finset.mul_sum, hs, ← Complex.ofReal_mul]
      congr 1
      field_simp
    show (∑ i, w i * (((b / ‖w‖ ^ 2 : ℝ) : ℂ) * (starRingEnd ℂ) (w i))).re = b
    rw [this, Complex.ofReal_re]

/-- The normal vector `(1, i)` meets the hypotheses. -/
example : (∑ i, (cmk ![1, Complex.I] : CVec (Fin 2)) i * (cmk ![1, Complex.I] : CVec (Fin 2)) i = 0) ∧ (cmk ![1, Complex.I] : CVec (Fin 2)) ≠ 0 ∧
    0 < (∑ i, (cmk ![1, Complex.I] : CVec (Fin 2)) i * (cmk ![1, 0] : CVec (Fin 2)) i).re := by
  refine ⟨by simp [Fin.sum_univ_two], fun h => ?_, by simp [Fin.sum_univ_two]⟩
  have := congrArg (fun v : CVec (Fin 2) => v 0) h
  simp at this

/-- The steps and parameters of the penalties above exist: with `sigma = 1`, `gamma = 1`, `tau = 1/2` the hypotheses of `C93_etp_refuted` hold for `t = 2`. -/
example : (1 : ℝ) / 1 ≤ 2 ∧ 2 * (1 / 2 : ℝ) * (1 / (1 - Real.exp (-1))) < 2 ^ 2 := by
  refine ⟨by norm_num, ?_⟩
  have h1 : Real.exp (-1) < 1 / 2 := by
    rw [Real.exp_neg, inv_lt_comm₀ (Real.exp_pos 1) (by norm_num)]
    have := Real.add_one_lt_exp (show (1 : ℝ) ≠ 0 by norm_num)
    norm_num at this ⊢
    linarith
  have h2 : 1 / (1 - Real.exp (-1)) < 4 := by
    rw [div_lt_iff₀ (by linarith)]; linarith
  linarith

end Verif
