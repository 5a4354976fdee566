import Verif.Spec.Contract
import Verif.Model.NonConvex
import Verif.Lemmas.NonConvex
import Verif.Lemmas.Calculus

/-! # C29, C32, C33, C34: L0, SCAD, quadratic envelope, relaxed Mumford-Shah -/

open scoped RealInnerProductSpace

namespace Verif

variable {ι : Type} [Fintype ι]

/-- Number of non-zero entries. -/
noncomputable def numNonzero (x : Vec ι) : ℝ := (({i | x i ≠ 0} : Set ι).ncard : ℝ)

lemma numNonzero_eq_sum (x : Vec ι) : numNonzero x = ∑ i, if x i = 0 then (0 : ℝ) else 1 := by
  classical
  have : ({i | x i ≠ 0} : Set ι) = ↑(Finset.univ.filter fun i => x i ≠ 0) := by ext; simp
  rw [numNonzero, this, Set.ncard_coe_finset, Finset.card_eq_sum_ones, Nat.cast_sum, Finset.sum_filter]
  refine Finset.sum_congr rfl fun i _ => ?_
  by_cases h : x i = 0 <;> simp [h]

/-! ## C29 -/

lemma hard_isProx (t τ x : ℝ) (hτ : 0 < τ) (ht : 0 ≤ t) :
    IsProx (XFun.ofReal fun z : ℝ => t ^ 2 / (2 * τ) * (if z = 0 then 0 else 1)) τ x (if |x| ≤ t then 0 else x) := by
  rw [isProx_real_iff]
  intro y
  have h2 : 0 < 2 * τ := by linarith
  have hy : 0 ≤ (y - x) ^ 2 / (2 * τ) := by positivity
  have key : min (x ^ 2) (t ^ 2) / (2 * τ) ≤ t ^ 2 / (2 * τ) * (if y = 0 then 0 else 1) + (y - x) ^ 2 / (2 * τ) := by
    by_cases h : y = 0
    · rw [if_pos h, h, mul_zero, zero_add, zero_sub, neg_sq]
      exact div_le_div_of_nonneg_right (min_le_left _ _) h2.le
    · rw [if_neg h, mul_one]
      have := div_le_div_of_nonneg_right (min_le_right (x ^ 2) (t ^ 2)) h2.le
      linarith
  refine le_trans (le_of_eq ?_) key
  by_cases h : |x| ≤ t
  · have hx2 : x ^ 2 ≤ t ^ 2 := by rw [← sq_abs]; exact pow_le_pow_left₀ (abs_nonneg _) h 2
    rw [if_pos h, if_pos rfl, min_eq_left hx2]; ring
  · have hx0 : x ≠ 0 := fun hx => h (by rw [hx, abs_zero]; exact ht)
    have hx2 : t ^ 2 ≤ x ^ 2 := by rw [← sq_abs x]; exact pow_le_pow_left₀ ht (le_of_not_ge h) 2
    rw [if_neg h, if_neg hx0, min_eq_right hx2]; ring

/-- C29, partial: `L0(sigma).prox(x, tau)` minimises `(tau sigma^2 / 2) ||y||_0 + ||y-x||^2/(2 tau)`; this is the claimed
function exactly when `tau * sigma = 2`.  Missing: all other steps, see `C29_l0_prox_refuted`. -/
theorem C29_l0_prox_partial (σ τ : ℝ) (hσ : 0 ≤ σ) (hτ : 0 < τ) (x : Vec ι) :
    ∃ p, (L0 σ).prox x τ = .ok p ∧ IsProx (XFun.ofReal fun y : Vec ι => τ * σ ^ 2 / 2 * numNonzero y) τ x p ∧
      (τ * σ = 2 → IsProx (XFun.ofReal fun y : Vec ι => σ * numNonzero y) τ x p) := by
  classical
  have main : IsProx (XFun.ofReal fun y : Vec ι => τ * σ ^ 2 / 2 * numNonzero y) τ x (hardthreshold x (τ * σ)) := by
    refine sep_isProx_real (fun _ z => (τ * σ) ^ 2 / (2 * τ) * (if z = 0 then 0 else 1)) _ (fun y => ?_) fun i => ?_
    · rw [numNonzero_eq_sum, Finset.mul_sum]
      refine Finset.sum_congr rfl fun i _ => ?_
      congr 1
      field_simp
    · exact hard_isProx (τ * σ) τ (x i) hτ (by positivity)
  refine ⟨_, by simp only [ProxOp.prox, L0, checkTau_pos hτ], main, fun h => ?_⟩
  have e : τ * σ ^ 2 / 2 = σ := by
    have : τ * σ ^ 2 / 2 = (τ * σ) * σ / 2 := by ring
    rw [this, h]; ring
  rwa [e] at main

/-- C29, refutation: for every `sigma > 0` and every step with `tau * sigma` different from 2 there is an input on which the
returned point is not a minimiser. -/
theorem C29_l0_prox_refuted (σ τ : ℝ) (hσ : 0 < σ) (hτ : 0 < τ) (h2 : τ * σ ≠ 2) :
    ∃ (x p : Vec (Fin 1)), (L0 σ).prox x τ = .ok p ∧
      ¬ IsProx (XFun.ofReal fun y : Vec (Fin 1) => σ * numNonzero y) τ x p := by
  classical
  have hs : 0 < τ * σ := by positivity
  rcases lt_or_gt_of_ne h2 with h | h
  · -- too much is kept
    set t := √(((τ * σ) ^ 2 + 2 * (τ * σ)) / 2) with ht
    have hpos : 0 < ((τ * σ) ^ 2 + 2 * (τ * σ)) / 2 := by positivity
    have htt : t ^ 2 = ((τ * σ) ^ 2 + 2 * (τ * σ)) / 2 := Real.sq_sqrt hpos.le
    have ht0 : 0 < t := Real.sqrt_pos.2 hpos
    have hgt : τ * σ < t := by
      by_contra hle
      push Not at hle
      have : t ^ 2 ≤ (τ * σ) ^ 2 := pow_le_pow_left₀ ht0.le hle 2
      nlinarith
    refine ⟨vmk fun _ => t, _, by simp only [ProxOp.prox, L0, checkTau_pos hτ]; rfl, fun hp => ?_⟩
    have := hp.2 0 trivial
    have e : hardthreshold (vmk fun _ : Fin 1 => t) (τ * σ) = vmk fun _ => t := by
      ext i; simp [hardthreshold, abs_of_pos ht0, hgt]
    rw [e] at this
    simp only [proxObj, XFun.ofReal, numNonzero_eq_sum, EuclideanSpace.norm_sq_eq] at this
    simp [ht0.ne'] at this
    rw [htt, le_div_iff₀ (by positivity)] at this
    nlinarith
  · refine ⟨vmk fun _ => τ * σ, _, by simp only [ProxOp.prox, L0, checkTau_pos hτ]; rfl, fun hp => ?_⟩
    have := hp.2 (vmk fun _ => τ * σ) trivial
    have e : hardthreshold (vmk fun _ : Fin 1 => τ * σ) (τ * σ) = 0 := by
      ext i; simp [hardthreshold, abs_of_pos hτ, abs_of_pos hσ]
    rw [e] at this
    simp only [proxObj, XFun.ofReal, numNonzero_eq_sum, EuclideanSpace.norm_sq_eq] at this
    simp [hτ.ne', hσ.ne'] at this
    rw [div_le_iff₀ (by positivity), abs_of_pos hτ, abs_of_pos hσ] at this
    nlinarith

/-- C29: the value returned by `L0(sigma)(x)` is the number of non-zeros, without `sigma`. -/
theorem C29_l0_call_partial (σ : ℝ) : EvaluatesNum (L0 σ : ProxOp (Vec ι)) numNonzero := by
  classical
  intro x
  have : ({i | x i ≠ 0} : Set ι) = ↑(Finset.univ.filter fun i => |x i| > 0) := by ext; simp
  simp only [L0, numNonzero, this, Set.ncard_coe_finset]

/-! ## C32 -/

/-- The SCAD penalty of one entry: linear up to `sigma`, quadratic up to `a sigma`, then constant. -/
noncomputable def scadSpec (σ a t : ℝ) : ℝ :=
  if |t| ≤ σ then σ * |t|
  else if |t| ≤ a * σ then (2 * a * σ * |t| - |t| ^ 2 - σ ^ 2) / (2 * (a - 1))
  else (a + 1) * σ ^ 2 / 2

/-- Slope of the penalty on the half line. -/
noncomputable def scadSlope (σ a t : ℝ) : ℝ := if t ≤ σ then σ else if t ≤ a * σ then (a * σ - t) / (a - 1) else 0

lemma scad_weak (σ a : ℝ) (hσ : 0 < σ) (ha : 2 < a) (q y : ℝ) (hq : 0 ≤ q) (hy : 0 ≤ y) :
    scadSpec σ a q + scadSlope σ a q * (y - q) - (y - q) ^ 2 / (2 * (a - 1)) ≤ scadSpec σ a y := by
  have hb : 0 < a - 1 := by linarith
  have haσ : σ < a * σ := by nlinarith
  simp only [scadSpec, scadSlope, abs_of_nonneg hq, abs_of_nonneg hy]
  rw [sub_le_iff_le_add]
  by_cases h1 : q ≤ σ
  · rw [if_pos h1, if_pos h1]
    by_cases h2 : y ≤ σ
    · rw [if_pos h2]
      have : 0 ≤ (y - q) ^ 2 / (2 * (a - 1)) := by positivity
      linarith
    rw [if_neg h2]
    push Not at h2
    by_cases h3 : y ≤ a * σ
    · rw [if_pos h3, ← add_div, le_div_iff₀ (by positivity)]
      nlinarith [mul_nonneg (sub_nonneg.2 h1) (sub_nonneg.2 h2.le), mul_nonneg (sub_nonneg.2 h1) (sub_nonneg.2 h1)]
    · rw [if_neg h3, ← sub_le_iff_le_add', le_div_iff₀ (by positivity)]
      push Not at h3
      nlinarith [mul_nonneg (sub_nonneg.2 h1) hσ.le, sq_nonneg (y - a * σ + (σ - q)),
        mul_nonneg (mul_nonneg (sub_nonneg.2 h1) hσ.le) hb.le]
  rw [if_neg h1, if_neg h1]
  push Not at h1
  by_cases h6 : q ≤ a * σ
  · rw [if_pos h6, if_pos h6]
    by_cases h2 : y ≤ σ
    · rw [if_pos h2, ← sub_le_iff_le_add', le_div_iff₀ (by positivity)]
      have e : ((2 * a * σ * q - q ^ 2 - σ ^ 2) / (2 * (a - 1)) + (a * σ - q) / (a - 1) * (y - q) - σ * y) * (2 * (a - 1))
          = (2 * a * σ * q - q ^ 2 - σ ^ 2) + 2 * (a * σ - q) * (y - q) - σ * y * (2 * (a - 1)) := by
        field_simp
      rw [e]
      nlinarith [sq_nonneg (y - σ)]
    rw [if_neg h2]
    by_cases h3 : y ≤ a * σ
    · rw [if_pos h3, ← add_div, le_div_iff₀ (by positivity)]
      have e : ((2 * a * σ * q - q ^ 2 - σ ^ 2) / (2 * (a - 1)) + (a * σ - q) / (a - 1) * (y - q)) * (2 * (a - 1))
          = (2 * a * σ * q - q ^ 2 - σ ^ 2) + 2 * (a * σ - q) * (y - q) := by
        field_simp
      rw [e]; nlinarith
    · rw [if_neg h3, ← sub_le_iff_le_add', le_div_iff₀ (by positivity)]
      have e : ((2 * a * σ * q - q ^ 2 - σ ^ 2) / (2 * (a - 1)) + (a * σ - q) / (a - 1) * (y - q) - (a + 1) * σ ^ 2 / 2)
          * (2 * (a - 1)) = (2 * a * σ * q - q ^ 2 - σ ^ 2) + 2 * (a * σ - q) * (y - q) - (a + 1) * (a - 1) * σ ^ 2 := by
        field_simp
      rw [e]
      nlinarith [sq_nonneg (y - a * σ)]
  · rw [if_neg h6, if_neg h6]
    push Not at h6
    by_cases h2 : y ≤ σ
    · rw [if_pos h2, ← sub_le_iff_le_add', le_div_iff₀ (by positivity)]
      have e : ((a + 1) * σ ^ 2 / 2 + 0 * (y - q) - σ * y) * (2 * (a - 1))
          = (a + 1) * (a - 1) * σ ^ 2 - 2 * σ * y * (a - 1) := by ring
      rw [e]
      nlinarith [mul_nonneg (sub_nonneg.2 h6.le) (sub_nonneg.2 h2), sq_nonneg (q - a * σ), sq_nonneg (y - σ),
        mul_nonneg (mul_nonneg (sub_nonneg.2 h6.le) hσ.le) hb.le]
    rw [if_neg h2]
    by_cases h3 : y ≤ a * σ
    · rw [if_pos h3, ← add_div, le_div_iff₀ (by positivity)]
      have e : ((a + 1) * σ ^ 2 / 2 + 0 * (y - q)) * (2 * (a - 1)) = (a + 1) * (a - 1) * σ ^ 2 := by ring
      rw [e]
      nlinarith [mul_nonneg (sub_nonneg.2 h6.le) (sub_nonneg.2 h3), sq_nonneg (q - a * σ), sq_nonneg (y - a * σ)]
    · rw [if_neg h3]
      have : 0 ≤ (y - q) ^ 2 / (2 * (a - 1)) := by positivity
      linarith

lemma scadElem_eq (σ a t : ℝ) : scadElem σ a t = scadSpec σ a t := by
  simp only [scadElem, scadSpec, sq_abs]
  congr 1
  ring_nf

/-- C32, partial: for every accepted `sigma`, `a` and every step `tau <= a - 1` the result is a minimiser.  Missing: larger
steps, see `C32_scad_prox_refuted`. -/
theorem C32_scad_prox_partial (σ a : ℝ) (op : ProxOp (Vec ι)) (hop : SCAD σ a = .ok op) (τ : ℝ) (hτ : 0 < τ)
    (hτa : τ ≤ a - 1) (x : Vec ι) :
    ∃ p, op.prox x τ = .ok p ∧ IsProx (XFun.ofReal fun y : Vec ι => ∑ i, scadSpec σ a (y i)) τ x p := by
  unfold SCAD at hop
  split_ifs at hop with hσ ha
  cases hop
  push Not at hσ ha
  refine ⟨_, by simp only [ProxOp.prox, checkTau_pos hτ]; rfl, ?_⟩
  refine sep_isProx_real (fun _ => scadSpec σ a) _ (fun _ => rfl) fun i => ?_
  set z := x i
  have hb : 0 < a - 1 := by linarith
  have haσ : σ < a * σ := by nlinarith
  -- the modulus of the result
  obtain ⟨q, hq0, hqx, hq, s, hs, hw⟩ : ∃ q, 0 ≤ q ∧ (z = 0 → q = 0) ∧ scadProx σ a τ z = q * npsign z ∧
      ∃ s, |z| - q = τ * s ∧ ∀ y, 0 ≤ y → scadSpec σ a q + s * (y - q) - (y - q) ^ 2 / (2 * (a - 1)) ≤ scadSpec σ a y := by
    have hfirst : σ * (a - 1 - τ + τ * a) / (a - 1) = σ * (1 + τ) := by field_simp; ring
    simp only [scadProx, hfirst]
    by_cases h1 : |z| ≤ σ * (1 + τ)
    · rw [if_pos h1]
      refine ⟨max 0 (|z| - σ * τ), le_max_left _ _, ?_, mul_comm _ _, ?_⟩
      · intro h; rw [h, abs_zero]; exact max_eq_left (by nlinarith)
      · rcases le_total (|z| - σ * τ) 0 with h2 | h2
        · rw [max_eq_left h2]
          refine ⟨|z| / τ, by field_simp; ring, fun y hy => ?_⟩
          have h3 := scad_weak σ a hσ ha 0 y le_rfl hy
          have h4 : |z| / τ ≤ σ := by rw [div_le_iff₀ hτ]; linarith
          simp only [scadSlope, if_pos hσ.le] at h3
          have h5 : |z| / τ * (y - 0) ≤ σ * (y - 0) := mul_le_mul_of_nonneg_right h4 (by linarith)
          linarith
        · rw [max_eq_right h2]
          refine ⟨σ, by ring, fun y hy => ?_⟩
          have h3 := scad_weak σ a hσ ha (|z| - σ * τ) y h2 hy
          rwa [scadSlope, if_pos (by linarith)] at h3
    · rw [if_neg h1]
      push Not at h1
      have hz : z ≠ 0 := by
        intro h; rw [h, abs_zero] at h1; nlinarith
      by_cases h2 : |z| ≤ a * σ
      · rw [if_pos h2]
        have hlt : τ < a - 1 := by
          by_contra hge; push Not at hge
          nlinarith
        have hd : 0 < a - 1 - τ := by linarith
        have hqσ : σ < ((a - 1) * |z| - a * σ * τ) / (a - 1 - τ) := by
          rw [lt_div_iff₀ hd]; nlinarith
        have hqa : ((a - 1) * |z| - a * σ * τ) / (a - 1 - τ) ≤ a * σ := by
          rw [div_le_iff₀ hd]; nlinarith
        refine ⟨((a - 1) * |z| - a * σ * τ) / (a - 1 - τ), by linarith, fun h => absurd h hz, ?_, ?_⟩
        · have e : z = |z| * npsign z := (npsign_mul_abs z).symm
          rw [div_mul_eq_mul_div]
          congr 1
          calc (a - 1) * z - npsign z * a * σ * τ = (a - 1) * (|z| * npsign z) - npsign z * a * σ * τ := by rw [← e]
            _ = _ := by ring
        · refine ⟨scadSlope σ a (((a - 1) * |z| - a * σ * τ) / (a - 1 - τ)), ?_, fun y hy =>
            scad_weak σ a hσ ha _ y (by linarith) hy⟩
          rw [scadSlope, if_neg (not_le.2 hqσ), if_pos hqa]
          field_simp
          ring
      · rw [if_neg h2]
        push Not at h2
        refine ⟨|z|, abs_nonneg z, fun h => by rw [h, abs_zero], (npsign_mul_abs z).symm, ?_⟩
        refine ⟨0, by ring, fun y hy => ?_⟩
        have h3 := scad_weak σ a hσ ha |z| y (abs_nonneg z) hy
        rwa [scadSlope, if_neg (by linarith), if_neg (by linarith)] at h3
  have := even_isProx (scadSpec σ a) (fun t => by simp only [scadSpec, abs_abs]) hτ z q hq0 hqx fun y hy =>
    weak_cert (scadSpec σ a) hτ hτa hs (hw y hy)
  rw [← hq] at this
  exact this

/-- C32: the value is the SCAD penalty. -/
theorem C32_scad_call (σ a : ℝ) (op : ProxOp (Vec ι)) (hop : SCAD σ a = .ok op) :
    EvaluatesNum op fun y => ∑ i, scadSpec σ a (y i) := by
  unfold SCAD at hop
  split_ifs at hop
  cases hop
  intro x
  simp only [scadElem_eq]

/-- C32, refutation for larger steps: `a = 3`, `sigma = 1`, `tau = 4`, `x = 4.9`. -/
theorem C32_scad_prox_refuted : ∃ (op : ProxOp (Vec (Fin 1))) (x p : Vec (Fin 1)), SCAD 1 3 = .ok op ∧ op.prox x 4 = .ok p ∧
    ¬ IsProx (XFun.ofReal fun y : Vec (Fin 1) => ∑ i, scadSpec 1 3 (y i)) 4 x p := by
  refine ⟨_, vmk fun _ => 4.9, _, by unfold SCAD; norm_num; rfl, by
    simp only [ProxOp.prox, checkTau_pos (by norm_num : (0:ℝ) < 4)]; rfl, fun hp => ?_⟩
  have := hp.2 (vmk fun _ => 4.9) trivial
  simp only [proxObj, XFun.ofReal, EuclideanSpace.norm_sq_eq] at this
  norm_num [scadProx, scadSpec, npsign, abs_of_pos] at this

/-- The constructor accepts the default value of `a`. -/
example : ∃ op : ProxOp (Vec (Fin 3)), SCAD 1 3.7 = .ok op := ⟨_, by unfold SCAD; norm_num; rfl⟩

/-! ## C33 -/

/-- Quadratic envelope of `mu |.|_0` for one entry. -/
noncomputable def mcpSpec (μ t : ℝ) : ℝ := μ - (max 0 (√(2 * μ) - |t|)) ^ 2 / 2

lemma mcp_weak (μ : ℝ) (q y s : ℝ) (hq : 0 ≤ q) (hy : 0 ≤ y)
    (hs : (√(2 * μ) ≤ q ∧ s = 0) ∨ (q < √(2 * μ) ∧ s = √(2 * μ) - q) ∨ (q = 0 ∧ s ≤ √(2 * μ))) :
    mcpSpec μ q + s * (y - q) - (y - q) ^ 2 / (2 * 1) ≤ mcpSpec μ y := by
  have hm0 := Real.sqrt_nonneg (2 * μ)
  set m := √(2 * μ)
  simp only [mcpSpec, abs_of_nonneg hq, abs_of_nonneg hy]
  change μ - max 0 (m - q) ^ 2 / 2 + _ - _ ≤ μ - max 0 (m - y) ^ 2 / 2
  rcases hs with ⟨h1, rfl⟩ | ⟨h1, rfl⟩ | ⟨rfl, h2⟩
  · rw [max_eq_left (by linarith : m - q ≤ 0)]
    rcases le_total (m - y) 0 with h3 | h3
    · rw [max_eq_left h3]; nlinarith [sq_nonneg (y - q)]
    · rw [max_eq_right h3]; nlinarith
  · rw [max_eq_right (by linarith : 0 ≤ m - q)]
    rcases le_total (m - y) 0 with h3 | h3
    · rw [max_eq_left h3]; nlinarith [sq_nonneg (m - y)]
    · rw [max_eq_right h3]; nlinarith
  · rw [max_eq_right (by linarith : 0 ≤ m - 0)]
    have h4 := mul_le_mul_of_nonneg_right h2 hy
    rcases le_total (m - y) 0 with h3 | h3
    · rw [max_eq_left h3]; nlinarith [sq_nonneg (m - y)]
    · rw [max_eq_right h3]; nlinarith

/-- C33, partial: for `mu >= 0` and `0 < tau <= 1` the result is a minimiser.  Missing: `tau > 1`, see
`C33_qec_prox_refuted`. -/
theorem C33_qec_prox_partial (μ : ℝ) (hμ : 0 ≤ μ) (τ : ℝ) (hτ : 0 < τ) (hτ1 : τ ≤ 1) (x : Vec ι) :
    ∃ p, (QuadraticEnvelopeCard μ).prox x τ = .ok p ∧
      IsProx (XFun.ofReal fun y : Vec ι => ∑ i, mcpSpec μ (y i)) τ x p := by
  refine ⟨_, by simp only [ProxOp.prox, QuadraticEnvelopeCard, checkTau_pos hτ, if_neg (not_lt.2 hμ)]; rfl, ?_⟩
  refine sep_isProx_real (fun _ => mcpSpec μ) _ (fun _ => rfl) fun i => ?_
  set z := x i
  have hm0 := Real.sqrt_nonneg (2 * μ)
  obtain ⟨q, hq0, hqx, hq, s, hs, hw⟩ : ∃ q, 0 ≤ q ∧ (z = 0 → q = 0) ∧ qecProx μ τ z = q * npsign z ∧
      ∃ s, |z| - q = τ * s ∧ ((√(2 * μ) ≤ q ∧ s = 0) ∨ (q < √(2 * μ) ∧ s = √(2 * μ) - q) ∨ (q = 0 ∧ s ≤ √(2 * μ))) := by
    simp only [qecProx]
    set m := √(2 * μ)
    by_cases h1 : |z| < m
    · rw [if_pos h1]
      by_cases h2 : τ ≥ 1
      · rw [if_pos h2]
        have : τ = 1 := le_antisymm hτ1 h2
        exact ⟨0, le_rfl, fun _ => rfl, rfl, |z|, by rw [this]; ring, Or.inr (Or.inr ⟨rfl, h1.le⟩)⟩
      · rw [if_neg h2]
        push Not at h2
        have hd : 0 < 1 - τ := by linarith
        refine ⟨_, le_max_left _ _, ?_, rfl, ?_⟩
        · intro h
          rw [h, abs_zero]
          exact max_eq_left (div_nonpos_of_nonpos_of_nonneg (by nlinarith) hd.le)
        · rcases le_total ((|z| - τ * m) / (1 - τ)) 0 with h3 | h3
          · rw [max_eq_left h3]
            refine ⟨|z| / τ, by field_simp; ring, Or.inr (Or.inr ⟨rfl, ?_⟩)⟩
            rw [div_le_iff₀ hτ]
            have : |z| - τ * m ≤ 0 := by
              by_contra h; push Not at h; exact absurd h3 (not_le.2 (div_pos h hd))
            linarith
          · rw [max_eq_right h3]
            refine ⟨m - (|z| - τ * m) / (1 - τ), by field_simp; ring, Or.inr (Or.inl ⟨?_, rfl⟩)⟩
            rw [div_lt_iff₀ hd]; nlinarith
    · rw [if_neg h1]
      push Not at h1
      exact ⟨|z|, abs_nonneg z, fun h => by rw [h, abs_zero], rfl, 0, by ring, Or.inl ⟨h1, rfl⟩⟩
  have := even_isProx (mcpSpec μ) (fun t => by simp only [mcpSpec, abs_abs]) hτ z q hq0 hqx fun y hy =>
    weak_cert (mcpSpec μ) hτ hτ1 hs (mcp_weak μ q y s hq0 hy hw)
  rw [← hq] at this
  exact this

/-- C33: the value is the quadratic envelope. -/
theorem C33_qec_call (μ : ℝ) (hμ : 0 ≤ μ) :
    EvaluatesNum (QuadraticEnvelopeCard μ : ProxOp (Vec ι)) fun y => ∑ i, mcpSpec μ (y i) := by
  intro x
  simp only [QuadraticEnvelopeCard, if_neg (not_lt.2 hμ), qecElem, mcpSpec]
  congr 3
  ext i; ring

/-- C33, refutation: for every `mu > 0` and every step above 1 there is an input whose image is not a minimiser (entries
between `sqrt(2 mu)` and `sqrt(2 mu tau)` should be set to zero but are kept). -/
theorem C33_qec_prox_refuted (μ : ℝ) (hμ : 0 < μ) (τ : ℝ) (hτ : 1 < τ) :
    ∃ (x p : Vec (Fin 1)), (QuadraticEnvelopeCard μ).prox x τ = .ok p ∧
      ¬ IsProx (XFun.ofReal fun y : Vec (Fin 1) => ∑ i, mcpSpec μ (y i)) τ x p := by
  have hτ0 : 0 < τ := by linarith
  have hm : 0 < √(2 * μ) := Real.sqrt_pos.2 (by linarith)
  have hm2 : √(2 * μ) ^ 2 = 2 * μ := Real.sq_sqrt (by linarith)
  refine ⟨vmk fun _ => √(2 * μ), _, by
    simp only [ProxOp.prox, QuadraticEnvelopeCard, checkTau_pos hτ0, if_neg (not_lt.2 hμ.le)]; rfl, fun hp => ?_⟩
  have h := hp.2 0 trivial
  have e : qecProx μ τ √(2 * μ) = √(2 * μ) := by
    simp only [qecProx, abs_of_pos hm, npsign, lt_self_iff_false, if_false, if_pos hm, mul_one]
  simp only [proxObj, XFun.ofReal, EuclideanSpace.norm_sq_eq] at h
  simp only [e, mcpSpec] at h
  simp only [Fin.sum_univ_one, sub_self, norm_zero, PiLp.zero_apply, abs_of_pos hm, abs_zero, sub_zero,
    max_self, max_eq_right hm.le, hm2, zero_sub, Real.norm_eq_abs, sq_abs] at h
  rw [PiLp.neg_apply, neg_sq, hm2] at h
  simp only [ne_eq, OfNat.ofNat_ne_zero, not_false_eq_true, zero_pow, zero_div] at h
  have h' : μ ≤ 2 * μ / (2 * τ) := by linarith
  rw [le_div_iff₀ (by positivity)] at h'
  nlinarith

/-! ## C34 -/

lemma rms_isProx (σ κ τ x : ℝ) (hσ : 0 < σ) (hκ : 0 ≤ κ) (hτ : 0 < τ) :
    IsProx (XFun.ofReal fun z : ℝ => min (σ * z ^ 2) κ) τ x
      (if |x| ≤ √(κ / σ * (1 + 2 * τ * σ)) then 1 / (1 + 2 * (τ * σ)) * x else x) := by
  rw [isProx_real_iff]
  intro y
  have hd : 0 < 1 + 2 * (τ * σ) := by positivity
  have hτ2 : 0 < 2 * τ := by linarith
  -- lower bound for the objective
  have hlow : min (σ * x ^ 2 / (1 + 2 * (τ * σ))) κ ≤ min (σ * y ^ 2) κ + (y - x) ^ 2 / (2 * τ) := by
    have h0 : 0 ≤ (y - x) ^ 2 / (2 * τ) := by positivity
    rcases le_total (σ * y ^ 2) κ with h | h
    · rw [min_eq_left h]
      refine (min_le_left _ _).trans ?_
      rw [← sub_le_iff_le_add', le_div_iff₀ hτ2, div_sub' hd.ne', div_mul_eq_mul_div, div_le_iff₀ hd]
      nlinarith [sq_nonneg (y * (1 + 2 * (τ * σ)) - x)]
    · rw [min_eq_right h]
      exact (min_le_right _ _).trans (by linarith)
  refine le_trans ?_ hlow
  have hthr : |x| ≤ √(κ / σ * (1 + 2 * τ * σ)) ↔ σ * x ^ 2 / (1 + 2 * (τ * σ)) ≤ κ := by
    rw [Real.le_sqrt (abs_nonneg x) (by positivity), sq_abs, div_mul_eq_mul_div, le_div_iff₀ hσ, div_le_iff₀ hd]
    constructor <;> intro h <;> nlinarith
  by_cases h : |x| ≤ √(κ / σ * (1 + 2 * τ * σ))
  · rw [if_pos h, min_eq_left (hthr.1 h)]
    refine (add_le_add_left (min_le_left _ _) _).trans (le_of_eq ?_)
    field_simp
    ring
  · rw [if_neg h, min_eq_right (le_of_lt (lt_of_not_ge fun h' => h (hthr.2 h')))]
    rw [sub_self]
    have : (0:ℝ) ^ 2 / (2 * τ) = 0 := by simp
    rw [this, add_zero]
    exact min_le_right _ _

/-- C34, partial: the result minimises the *elementwise* function `sum_i min(sigma y_i^2, kappa)`; for arrays of one element
that is the evaluated function.  Missing: longer arrays, see `C34_rms_prox_refuted`. -/
theorem C34_rms_prox_partial (σ κ : ℝ) (hσ : 0 < σ) (hκ : 0 ≤ κ) (τ : ℝ) (hτ : 0 < τ) (x : Vec ι) :
    ∃ p, (RelaxedMS σ κ).prox x τ = .ok p ∧
      IsProx (XFun.ofReal fun y : Vec ι => ∑ i, min (σ * (y i) ^ 2) κ) τ x p ∧
      (Fintype.card ι = 1 → IsProx (XFun.ofReal fun y : Vec ι => min (σ * ‖y‖ ^ 2) κ) τ x p) := by
  have main : IsProx (XFun.ofReal fun y : Vec ι => ∑ i, min (σ * (y i) ^ 2) κ) τ x (vmk fun i =>
      if |x i| ≤ √(κ / σ * (1 + 2 * τ * σ)) then 1 / (1 + 2 * (τ * σ)) * x i else x i) :=
    sep_isProx_real (fun _ z => min (σ * z ^ 2) κ) _ (fun _ => rfl) fun i => rms_isProx σ κ τ (x i) hσ hκ hτ
  refine ⟨_, by simp only [ProxOp.prox, RelaxedMS, checkTau_pos hτ, if_neg hσ.ne'], main, fun h => ?_⟩
  obtain ⟨i0, hi0⟩ := Fintype.card_eq_one_iff.1 h
  have hu : (Finset.univ : Finset ι) = {i0} := by ext i; simp [hi0 i]
  have e : (fun y : Vec ι => min (σ * ‖y‖ ^ 2) κ) = fun y : Vec ι => ∑ i, min (σ * (y i) ^ 2) κ := by
    funext y
    rw [EuclideanSpace.norm_sq_eq, hu, Finset.sum_singleton, Finset.sum_singleton, Real.norm_eq_abs, sq_abs]
  rw [e]; exact main

/-- C34: the evaluated function. -/
theorem C34_rms_call (σ κ : ℝ) : EvaluatesNum (RelaxedMS σ κ : ProxOp (Vec ι)) fun y => min (σ * ‖y‖ ^ 2) κ := fun _ => rfl

/-- C34, refutation: with two entries the result is not a minimiser of the evaluated function (`sigma = kappa = 1`,
`tau = 1`, `x = (3/2, 3/2)`: shrinking to `(1/2, 1/2)` costs more than leaving `x` alone). -/
theorem C34_rms_prox_refuted : ∃ (x p : Vec (Fin 2)), (RelaxedMS 1 1).prox x 1 = .ok p ∧
    ¬ IsProx (XFun.ofReal fun y : Vec (Fin 2) => min (1 * ‖y‖ ^ 2) 1) 1 x p := by
  refine ⟨vmk fun _ => 3 / 2, _, by simp only [ProxOp.prox, RelaxedMS, checkTau_pos one_pos, if_neg (one_ne_zero (α := ℝ))]; rfl, fun hp => ?_⟩
  have h := hp.2 (vmk fun _ => 3 / 2) trivial
  have hs : (3 / 2 : ℝ) ≤ √(1 / 1 * (1 + 2 * 1 * 1)) := by
    rw [Real.le_sqrt (by norm_num) (by norm_num)]; norm_num
  simp only [proxObj, XFun.ofReal, EuclideanSpace.norm_sq_eq, Fin.sum_univ_two, PiLp.sub_apply,
    abs_of_pos (by norm_num : (0:ℝ) < 3 / 2), if_pos hs] at h
  norm_num at h

end Verif
