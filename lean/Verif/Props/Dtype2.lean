import Verif.Props.Dtype
import Mathlib.Analysis.SpecialFunctions.Log.Deriv

/-! # C104, continued: where the results differ -/

open scoped RealInnerProductSpace

namespace Verif

variable {ι κ : Type} [Fintype ι] [Fintype κ]

section Tools

/-- A minimiser of a sum over the entries minimises every entry. -/
lemma isProx_coord [DecidableEq ι] {φ : ℝ → ℝ} {τ : ℝ} {x p : Vec ι} (h : IsProx (XFun.ofReal fun y : Vec ι => ∑ i, φ (y i)) τ x p) (i : ι) (t : ℝ) :
    φ (p i) + (p i - x i) ^ 2 / (2 * τ) ≤ φ t + (t - x i) ^ 2 / (2 * τ) := by
  have h1 := h.2 (vmk (Function.update (fun j => p j) i t)) (Set.mem_univ _)
  simp only [proxObj, XFun.ofReal, EuclideanSpace.norm_sq_eq, Real.norm_eq_abs, sq_abs, PiLp.sub_apply, vmk] at h1
  rw [← Finset.add_sum_erase _ _ (Finset.mem_univ i), ← Finset.add_sum_erase _ (fun j => (p j - x j) ^ 2) (Finset.mem_univ i),
    ← Finset.add_sum_erase _ (fun j => φ (Function.update (fun j => p j) i t j)) (Finset.mem_univ i),
    ← Finset.add_sum_erase _ (fun j => (Function.update (fun j => p j) i t j - x j) ^ 2) (Finset.mem_univ i)] at h1
  have e1 : ∑ j ∈ Finset.univ.erase i, φ (Function.update (fun j => p j) i t j) = ∑ j ∈ Finset.univ.erase i, φ (p j) :=
    Finset.sum_congr rfl fun j hj => by rw [Function.update_of_ne (Finset.ne_of_mem_erase hj)]
  have e2 : ∑ j ∈ Finset.univ.erase i, (Function.update (fun j => p j) i t j - x j) ^ 2 = ∑ j ∈ Finset.univ.erase i, (p j - x j) ^ 2 :=
    Finset.sum_congr rfl fun j hj => by rw [Function.update_of_ne (Finset.ne_of_mem_erase hj)]
  rw [e1, e2, Function.update_self, add_div, add_div] at h1
  linarith

/-- A minimiser next to `1` of an increasing even function plus a quadratic is not a whole number. -/
lemma prox_one_not_int {φ : ℝ → ℝ} {τ c p : ℝ} (hτ : 0 < τ) (heven : ∀ t, φ (-t) = φ t) (hmono : ∀ s t, 0 ≤ s → s ≤ t → φ s ≤ φ t) (hd : HasDerivAt φ c 1) (hc : 0 < c)
    (h01 : τ * (φ 1 - φ 0) < 1 / 2) (hp : ∀ t, φ p + (p - 1) ^ 2 / (2 * τ) ≤ φ t + (t - 1) ^ 2 / (2 * τ)) : ¬ ∃ j : ℤ, p = j := by
  rintro ⟨j, rfl⟩
  have hp1 := hp 1
  rw [sub_self, zero_pow two_ne_zero, zero_div, add_zero] at hp1
  rcases lt_trichotomy j 1 with hj | hj | hj
  · rcases eq_or_lt_of_le (Int.lt_add_one_iff.1 (by simpa using hj) : j ≤ 0) with h0 | h0
    · subst h0
      rw [Int.cast_zero] at hp1
      have : φ 1 - φ 0 < (0 - 1) ^ 2 / (2 * τ) := by rw [lt_div_iff₀ (by positivity)]; linarith
      linarith
    · have hj' : (j : ℝ) < 0 := by exact_mod_cast h0
      have h1 := hp (-j)
      rw [heven] at h1
      have h2 : (-(j : ℝ) - 1) ^ 2 / (2 * τ) < ((j : ℝ) - 1) ^ 2 / (2 * τ) := div_lt_div_of_pos_right (by nlinarith) (by positivity)
      linarith
  · subst hj
    have hlm : IsLocalMin (fun t => φ t + (t - 1) ^ 2 / (2 * τ)) 1 := Filter.Eventually.of_forall fun t => by simpa using hp t
    have hder : HasDerivAt (fun t : ℝ => φ t + (t - 1) ^ 2 / (2 * τ)) (c + 2 * (1 - 1) / (2 * τ)) 1 := by
      have := (((hasDerivAt_id (1 : ℝ)).sub_const 1).pow 2).div_const (2 * τ)
      refine (hd.add this).congr_deriv ?_
      simp
    have := hlm.hasDerivAt_eq_zero hder
    simp at this
    exact hc.ne' this
  · have hj' : (1 : ℝ) < j := by exact_mod_cast hj
    have h1 := hmono 1 j zero_le_one hj'.le
    have h2 : 0 < ((j : ℝ) - 1) ^ 2 / (2 * τ) := by
      have : 0 < (j : ℝ) - 1 := by linarith
      positivity
    linarith

/-- A method that drops fractional parts depends on how the numbers are stored as soon as one result has a fractional part. -/
lemma not_blind_of {m : Arr ι → Py (Arr ι)} (hm : Truncates m) {k : ι → ℤ} {r : Arr ι} (hr : m (stored .float k) = .ok r) (i : ι) (hi : ¬ ∃ j : ℤ, r.val i = j) :
    ¬ DtypeBlind m := fun h => hi ((C104_agree_iff_partial hm k r hr).1 (h k) i)

lemma not_int_of_lt {v : ℝ} (h0 : 0 < v) (h1 : v < 1) : ¬ ∃ j : ℤ, v = j := by
  rintro ⟨j, rfl⟩
  have a : (0 : ℤ) < j := by exact_mod_cast h0
  have b : j < (1 : ℤ) := by exact_mod_cast h1
  omega

/-- The refutation for operators with an exact `prox` of a sum of an even function that grows at `1`. -/
lemma not_blind_sep [Nonempty ι] {m : Arr ι → ℝ → Py (Arr ι)} {op : ProxOp (Vec ι)} (hf : FloatIs m op) (ht : ∀ τ, Truncates fun a => m a τ) {φ : ℝ → ℝ}
    (hex : ProxExact op (XFun.ofReal fun y : Vec ι => ∑ i, φ (y i))) (heven : ∀ t, φ (-t) = φ t) (hmono : ∀ s t, 0 ≤ s → s ≤ t → φ s ≤ φ t) {c : ℝ}
    (hd : HasDerivAt φ c 1) (hc : 0 < c) {τ : ℝ} (hτ : 0 < τ) (h01 : τ * (φ 1 - φ 0) < 1 / 2) : ¬ DtypeBlind fun a => m a τ := by
  classical
  obtain ⟨i⟩ := ‹Nonempty ι›
  obtain ⟨p, hp, hpm⟩ := hex (vmk fun _ => 1) τ hτ
  refine not_blind_of (ht τ) (k := fun _ => 1) (r := ⟨.float, p⟩) ?_ i ?_
  · have := hf (vmk fun _ => 1) τ
    rw [hp] at this
    simpa [stored, Except.map] using this
  · refine prox_one_not_int hτ heven hmono hd hc h01 fun t => ?_
    simpa using isProx_coord hpm i t

end Tools

/-- C104 is false for Huber: for every step that is not a whole number. -/
theorem C104_huber_refuted [Nonempty ι] (α τ : ℝ) (hα : 0 < α) (hτ : 0 < τ) (hτz : ¬ ∃ j : ℤ, τ = j) : ¬ DtypeBlind fun a : Arr ι => HuberT.prox α a τ := by
  obtain ⟨i⟩ := ‹Nonempty ι›
  obtain ⟨k, hk⟩ := exists_int_gt (max α τ)
  have hkα : α < k := lt_of_le_of_lt (le_max_left _ _) hk
  have hkτ : τ < k := lt_of_le_of_lt (le_max_right _ _) hk
  refine not_blind_of ((C104_huber_partial α).2 τ) (k := fun _ => k) (r := ⟨.float, vmk fun _ => (k : ℝ) - τ⟩) ?_ i ?_
  · rw [show (stored .float fun _ : ι => k) = ⟨.float, vmk fun _ => (k : ℝ)⟩ from rfl]
    have := (C104_huber_partial (ι := ι) α).1 (vmk fun _ => (k : ℝ)) τ
    simp only [this, ProxOp.prox, Huber, checkTau, not_le.2 hτ, if_false, Except.map]
    have hk0 : (0 : ℝ) < k := by linarith
    simp [abs_of_pos hk0, hkα, softScalar, npsign, hk0, max_eq_left (by linarith : (0 : ℝ) ≤ k - τ)]
  · rintro ⟨j, hj⟩
    exact hτz ⟨k - j, by push_cast; simp only [] at hj; linarith⟩

/-- C104 is false for SCAD: the entry `1` is shrunk to `1 - sigma * tau`. -/
theorem C104_scad_refuted [Nonempty ι] (σ a τ : ℝ) (op : ProxOp (Vec ι)) (hop : SCAD σ a = .ok op) (hτ : 0 < τ) (hσ : 0 < σ) (h1 : σ * τ < 1) (h2 : 1 ≤ σ * (1 + τ)) :
    ¬ DtypeBlind fun x : Arr ι => SCADT.prox σ a x τ := by
  obtain ⟨i⟩ := ‹Nonempty ι›
  obtain ⟨hf, ht⟩ := C104_scad_partial σ a op hop
  have hop' : (op.prox? = some fun x τ => checkTau τ (.ok (vmk fun i => scadProx σ a τ (x i)))) ∧ 2 < a := by
    unfold SCAD at hop
    split_ifs at hop with h3 h4
    cases hop
    exact ⟨rfl, by linarith⟩
  have ha : 0 < a - 1 := by linarith [hop'.2]
  have e : σ * (a - 1 - τ + τ * a) / (a - 1) = σ * (1 + τ) := by field_simp; ring
  refine not_blind_of (ht τ) (k := fun _ => 1) (r := ⟨.float, vmk fun _ => 1 - σ * τ⟩) ?_ i ?_
  · have := hf (vmk fun _ => (1 : ℝ)) τ
    simp only [stored, Int.cast_one, this, ProxOp.prox, hop'.1, checkTau, not_le.2 hτ, if_false, Except.map]
    simp [scadProx, e, h2, npsign, max_eq_right (by linarith : (0 : ℝ) ≤ 1 - σ * τ)]
  · exact not_int_of_lt (by simp only [vmk]; linarith) (by simp only [vmk]; nlinarith)

/-- C104 is false for Log, whenever the step is short enough for `1` not to be set to zero. -/
theorem C104_log_refuted [Nonempty ι] (σ γ τ : ℝ) (hγ : 0 < γ) (hσ : 0 < σ) (op : ProxOp (Vec ι)) (hop : Log σ γ = .ok op) (hτ : 0 < τ) (h1 : τ * σ < 1 / 2) :
    ¬ DtypeBlind fun x : Arr ι => LogT.prox σ γ x τ := by
  obtain ⟨hf, ht⟩ := C104_log_partial σ γ hγ op hop
  have hl : 0 < Real.log (γ + 1) := Real.log_pos (by linarith)
  have hder : HasDerivAt (logSpec σ γ) (σ / Real.log (γ + 1) * (γ / (γ * 1 + 1))) 1 := by
    have h2 : HasDerivAt (fun t : ℝ => σ / Real.log (γ + 1) * Real.log (γ * t + 1)) (σ / Real.log (γ + 1) * (γ / (γ * 1 + 1))) 1 := by
      have := ((((hasDerivAt_id (1 : ℝ)).const_mul γ).add_const 1).log (by simp only [id]; positivity)).const_mul (σ / Real.log (γ + 1))
      simpa using this
    refine h2.congr_of_eventuallyEq ?_
    filter_upwards [lt_mem_nhds (zero_lt_one (α := ℝ))] with t ht0
    simp only [logSpec, abs_of_pos ht0]
  refine not_blind_sep hf ht (C67_log_prox σ γ hγ op hop) (fun t => by simp [logSpec]) (fun s t hs hst => ?_) hder (by positivity) hτ ?_
  · simp only [logSpec, abs_of_nonneg hs, abs_of_nonneg (hs.trans hst)]
    gcongr
  · simp only [logSpec, abs_one, abs_zero, mul_one, mul_zero, zero_add, Real.log_one, sub_zero]
    rw [div_mul_cancel₀ _ hl.ne']
    exact h1

/-- C104 is false for ETP. -/
theorem C104_etp_refuted [Nonempty ι] (W : ℝ → ℝ) (hW : IsLambertW W) (σ γ τ : ℝ) (hγ : 0 < γ) (hσ : 0 < σ) (op : ProxOp (Vec ι)) (hop : ETP W σ γ = .ok op) (hτ : 0 < τ)
    (h1 : τ * σ < 1 / 2) : ¬ DtypeBlind fun x : Arr ι => ETPT.prox W σ γ x τ := by
  obtain ⟨hf, ht⟩ := C104_etp_partial W σ γ op hop
  have hl : 0 < 1 - Real.exp (-γ) := by
    have : Real.exp (-γ) < 1 := Real.exp_lt_one_iff.2 (by linarith)
    linarith
  have hder : HasDerivAt (etpSpec σ γ) (σ / (1 - Real.exp (-γ)) * (γ * Real.exp (-γ * 1))) 1 := by
    have h2 : HasDerivAt (fun t : ℝ => σ / (1 - Real.exp (-γ)) * (1 - Real.exp (-γ * t))) (σ / (1 - Real.exp (-γ)) * (γ * Real.exp (-γ * 1))) 1 := by
      have := ((((hasDerivAt_id (1 : ℝ)).const_mul (-γ)).exp).const_sub 1).const_mul (σ / (1 - Real.exp (-γ)))
      refine this.congr_deriv ?_
      simp only [id]; ring
    refine h2.congr_of_eventuallyEq ?_
    filter_upwards [lt_mem_nhds (zero_lt_one (α := ℝ))] with t ht0
    simp only [etpSpec, abs_of_pos ht0]
  refine not_blind_sep hf ht (C69_etp_prox W hW σ γ op hop) (fun t => by simp [etpSpec]) (fun s t hs hst => ?_) hder (by positivity) hτ ?_
  · simp only [etpSpec, abs_of_nonneg hs, abs_of_nonneg (hs.trans hst)]
    have : Real.exp (-γ * t) ≤ Real.exp (-γ * s) := Real.exp_le_exp.2 (by nlinarith)
    gcongr
  · simp only [etpSpec, abs_one, abs_zero, mul_one, mul_zero, Real.exp_zero, sub_self, sub_zero]
    rw [div_mul_cancel₀ _ hl.ne']
    exact h1

/-- C104 is false for Geman. -/
theorem C104_geman_refuted [Nonempty ι] (σ γ τ : ℝ) (hγ : 0 < γ) (hσ : 0 < σ) (op : ProxOp (Vec ι)) (hop : Geman σ γ = .ok op) (hτ : 0 < τ)
    (h1 : τ * σ < 1 / 2) : ¬ DtypeBlind fun x : Arr ι => GemanT.prox σ γ x τ := by
  obtain ⟨hf, ht⟩ := C104_geman_partial σ γ op hop
  have hder : HasDerivAt (gemanSpec σ γ) ((σ * (1 + γ) - σ * 1) / (1 + γ) ^ 2) 1 := by
    have h2 : HasDerivAt (fun t : ℝ => σ * t / (t + γ)) ((σ * (1 + γ) - σ * 1) / (1 + γ) ^ 2) 1 := by
      have := ((hasDerivAt_id (1 : ℝ)).const_mul σ).div ((hasDerivAt_id (1 : ℝ)).add_const γ) (by simp only [id]; positivity)
      refine this.congr_deriv ?_
      simp only [id]; ring
    refine h2.congr_of_eventuallyEq ?_
    filter_upwards [lt_mem_nhds (zero_lt_one (α := ℝ))] with t ht0
    simp only [gemanSpec, abs_of_pos ht0]
  refine not_blind_sep hf ht (C70_geman_prox σ γ op hop) (fun t => by simp [gemanSpec]) (fun s t hs hst => ?_) hder ?_ hτ ?_
  · simp only [gemanSpec, abs_of_nonneg hs, abs_of_nonneg (hs.trans hst)]
    rw [div_le_div_iff₀ (by positivity) (by linarith)]
    nlinarith [mul_nonneg hσ.le (sub_nonneg.2 hst), mul_nonneg hγ.le (mul_nonneg hσ.le (sub_nonneg.2 hst))]
  · have : σ * (1 + γ) - σ * 1 = σ * γ := by ring
    rw [this]; positivity
  · simp only [gemanSpec, abs_one, abs_zero, mul_one, mul_zero, zero_add, zero_div, sub_zero]
    have h3 : σ / (1 + γ) < σ := by rw [div_lt_iff₀ (by positivity)]; nlinarith
    nlinarith

/-- C104 is false for QuadraticEnvelopeCard. -/
theorem C104_qec_refuted [Nonempty ι] (μ τ : ℝ) (hμ : 1 / 2 < μ) (hτ : 0 < τ) (h1 : τ * √(2 * μ) < 1) : ¬ DtypeBlind fun x : Arr ι => QECT.prox μ x τ := by
  obtain ⟨i⟩ := ‹Nonempty ι›
  obtain ⟨hf, ht⟩ := C104_qec_partial (ι := ι) μ (by linarith)
  have hs : 1 < √(2 * μ) := by rw [Real.lt_sqrt (by norm_num)]; linarith
  have hτ1 : τ < 1 := by nlinarith
  refine not_blind_of (ht τ) (k := fun _ => 1) (r := ⟨.float, vmk fun _ => (1 - τ * √(2 * μ)) / (1 - τ)⟩) ?_ i ?_
  · have := hf (vmk fun _ => (1 : ℝ)) τ
    have h4 : 0 ≤ (1 - τ * √(2 * μ)) / (1 - τ) := div_nonneg (by linarith) (by linarith)
    simp only [stored, Int.cast_one, this, ProxOp.prox, QuadraticEnvelopeCard, checkTau, not_le.2 hτ, if_false, Except.map, not_lt.2 (by linarith : (0 : ℝ) ≤ μ)]
    simp only [qecProx, abs_one, hs, ge_iff_le, not_le.2 hτ1, if_true, if_false, npsign, zero_lt_one, max_eq_right h4, mul_one]
  · have h5 : 0 < 1 - τ := by linarith
    exact not_int_of_lt (div_pos (by linarith) h5) ((div_lt_one h5).2 (by nlinarith))

/-- C104 is false for Log1. -/
theorem C104_log1_refuted [Nonempty ι] (σ δ τ : ℝ) (hσ : 0 < σ) (hδ : 0 ≤ δ) (hδ1 : δ ≤ 1) (hτ : 0 < τ) (h1 : √(2 * (σ * τ)) < 1 + δ) (op : ProxOp (Vec ι)) (hop : Log1 σ δ = .ok op) :
    ¬ DtypeBlind fun x : Arr ι => Log1T.prox σ δ x τ := by
  obtain ⟨i⟩ := ‹Nonempty ι›
  obtain ⟨hf, ht⟩ := C104_log1_partial σ δ hσ.le op hop
  have hop' : op.prox? = some fun x τ => checkTau τ (.ok (vmk fun i => log1Prox σ δ τ (x i))) := by
    unfold Log1 at hop
    split at hop
    · cases hop
    · cases hop; simp [not_lt.2 hσ.le]
  have hs0 : 0 < √(2 * (σ * τ)) := Real.sqrt_pos.2 (by positivity)
  have hsq : √(2 * (σ * τ)) ^ 2 = 2 * (σ * τ) := Real.sq_sqrt (by positivity)
  have hd0 : 0 < √((1 + δ) ^ 2 - 2 * (σ * τ)) := Real.sqrt_pos.2 (by nlinarith)
  have hd1 : √((1 + δ) ^ 2 - 2 * (σ * τ)) < 1 + δ := by
    rw [Real.sqrt_lt' (by linarith)]
    nlinarith [mul_pos hσ hτ]
  refine not_blind_of (ht τ) (k := fun _ => 1) (r := ⟨.float, vmk fun _ => 0.5 * (1 - δ + √((1 + δ) ^ 2 - 2 * (σ * τ)))⟩) ?_ i ?_
  · have := hf (vmk fun _ => (1 : ℝ)) τ
    simp only [stored, Int.cast_one, this, ProxOp.prox, hop', checkTau, not_le.2 hτ, if_false, Except.map]
    have h2 : ¬ (1 : ℝ) < -(√(2 * (σ * τ)) - δ) := by linarith
    have h3 : (1 : ℝ) > √(2 * (σ * τ)) - δ := by linarith
    simp only [log1Prox, h2, h3, if_false, if_true, abs_of_pos (by linarith : (0 : ℝ) < 1 + δ)]
  · exact not_int_of_lt (by simp only [vmk]; norm_num; linarith) (by simp only [vmk]; norm_num; linarith)

/-- C104 is false for Simplex with `dims`: the projection of rows of integer zeros on the unit simplex is returned as rows of zeros, which are not on it. -/
theorem C104_simplex_refuted (bisect : (ℝ → ℝ) → ℝ → ℝ → ℝ) (hb : BisectTol bisect 0) (hκ : 2 ≤ Fintype.card κ) (τ : ℝ) (hτ : 0 < τ) :
    ∃ N, ∀ fuel, N ≤ fuel → ∃ p q, SimplexRowsT.prox bisect fuel 1 (stored .float fun _ : ι × κ => 0) τ = .ok p ∧ SimplexRowsT.prox bisect fuel 1 (stored .int fun _ : ι × κ => 0) τ = .ok q ∧
      (∀ i, IsUniqueProj {y : Vec κ | (∀ j, 0 ≤ y j) ∧ ∑ j, y j = 1} 0 (vmk fun j => p.val (i, j))) ∧ ∀ i, (vmk fun j => q.val (i, j)) = (0 : Vec κ) ∧
        (vmk fun j => q.val (i, j)) ∉ {y : Vec κ | (∀ j, 0 ≤ y j) ∧ ∑ j, y j = 1} := by
  haveI : Nonempty κ := Fintype.card_pos_iff.1 (by omega)
  obtain ⟨N, hN⟩ := C26_simplex_rows_prox (ι := ι) (κ := κ) bisect hb 1 0 true zero_le_one 0 τ hτ
  refine ⟨N, fun fuel hfuel => ?_⟩
  obtain ⟨p, hp, hpu⟩ := hN fuel hfuel
  obtain ⟨hf, ht⟩ := C104_simplex_partial (ι := ι) (κ := κ) bisect fuel 1 0 true
  have h0 : (stored .float fun _ : ι × κ => 0) = ⟨.float, 0⟩ := arr_ext rfl fun i => by simp [stored]
  have hfl : SimplexRowsT.prox bisect fuel 1 (stored .float fun _ : ι × κ => 0) τ = .ok ⟨.float, p⟩ := by
    rw [h0, hf, hp]; rfl
  obtain ⟨q, hq, hqt⟩ := (ht τ (fun _ => 0)).2 _ hfl
  have hpu' : ∀ i, IsUniqueProj {y : Vec κ | (∀ j, 0 ≤ y j) ∧ ∑ j, y j = 1} 0 (vmk fun j => p (i, j)) := by
    intro i
    have := hpu i
    rwa [show (vmk fun j => (0 : Vec (ι × κ)) (i, j)) = (0 : Vec κ) from by ext j; simp [vmk]] at this
  have hn : (0 : ℝ) < Fintype.card κ := by exact_mod_cast (by omega : 0 < Fintype.card κ)
  -- the projection of zero is the constant vector
  have hconst : ∀ i j, p (i, j) = 1 / Fintype.card κ := by
    intro i j
    have hc : IsProj {y : Vec κ | (∀ j, 0 ≤ y j) ∧ ∑ j, y j = 1} 0 (vmk fun _ => 1 / (Fintype.card κ : ℝ)) := by
      refine ⟨⟨fun _ => by simp only []; positivity, ?_⟩, fun y hy => ?_⟩
      · simp
      · rw [zero_sub, zero_sub, norm_neg, norm_neg]
        refine le_of_sq_le_sq ?_ (norm_nonneg _)
        rw [EuclideanSpace.norm_sq_eq, EuclideanSpace.norm_sq_eq]
        have h1 : ∑ j, (y j - 1 / (Fintype.card κ : ℝ)) ^ 2 = ∑ j, y j ^ 2 - 1 / Fintype.card κ := by
          have : ∀ j, (y j - 1 / (Fintype.card κ : ℝ)) ^ 2 = y j ^ 2 - 2 * (1 / Fintype.card κ) * y j + (1 / Fintype.card κ) ^ 2 := fun j => by ring
          simp only [this, Finset.sum_add_distrib, Finset.sum_sub_distrib, ← Finset.mul_sum, hy.2, Finset.sum_const, Finset.card_univ, nsmul_eq_mul]
          field_simp; ring
        have h2 : 0 ≤ ∑ j, (y j - 1 / (Fintype.card κ : ℝ)) ^ 2 := Finset.sum_nonneg fun _ _ => sq_nonneg _
        simp only [vmk, Real.norm_eq_abs, sq_abs, Finset.sum_const, Finset.card_univ, nsmul_eq_mul]
        have h3 : (Fintype.card κ : ℝ) * (1 / Fintype.card κ) ^ 2 = 1 / Fintype.card κ := by field_simp
        rw [h3]; linarith
    have := (hpu' i).2 _ hc
    have h4 := congrArg (fun v : Vec κ => v j) this
    simpa [vmk] using h4.symm
  have hq0 : ∀ i j, q.val (i, j) = 0 := by
    intro i j
    obtain ⟨⟨k, hk⟩, h1, h2⟩ := hqt (i, j)
    have h5 : |q.val (i, j)| < 1 := by
      refine lt_of_le_of_lt h2 ?_
      rw [show (⟨.float, p⟩ : Arr (ι × κ)).val (i, j) = p (i, j) from rfl, hconst, abs_of_pos (by positivity), div_lt_one hn]
      exact_mod_cast (by omega : 1 < Fintype.card κ)
    rw [hk] at h5 ⊢
    have h6 : ((|k| : ℤ) : ℝ) < ((1 : ℤ) : ℝ) := by rw [Int.cast_abs, Int.cast_one]; exact h5
    rw [Int.abs_lt_one_iff.1 (Int.cast_lt.1 h6)]; simp
  refine ⟨_, q, hfl, hq, hpu', fun i => ?_⟩
  have e : (vmk fun j => q.val (i, j)) = (0 : Vec κ) := by
    ext j; simp [vmk, hq0]
  exact ⟨e, by rw [e]; simp⟩

/-! ## Concrete cases -/

example : (∃ op : ProxOp (Vec (Fin 3)), SCAD 1 3.7 = .ok op) ∧ (1 : ℝ) * (1 / 2) < 1 ∧ (1 : ℝ) ≤ 1 * (1 + 1 / 2) := ⟨⟨_, by unfold SCAD; norm_num; rfl⟩, by norm_num, by norm_num⟩

example : (∃ op : ProxOp (Vec (Fin 3)), Log 1 1.3 = .ok op) ∧ (∃ op : ProxOp (Vec (Fin 3)), Geman 1 1.3 = .ok op) ∧ (1 / 4 : ℝ) * 1 < 1 / 2 :=
  ⟨⟨_, by unfold Log; norm_num; rfl⟩, ⟨_, by unfold Geman; norm_num; rfl⟩, by norm_num⟩

example : ∃ W, IsLambertW W ∧ ∃ op : ProxOp (Vec (Fin 3)), ETP W 1 1 = .ok op := by
  obtain ⟨W, hW⟩ := exists_isLambertW
  exact ⟨W, hW, _, by unfold ETP; norm_num; rfl⟩

example : (∃ op : ProxOp (Vec (Fin 3)), Log1 1 0.5 = .ok op) ∧ √(2 * ((1 : ℝ) * 0.5)) < 1 + 0.5 := by
  refine ⟨⟨_, by unfold Log1; norm_num; rfl⟩, ?_⟩
  rw [show (2 : ℝ) * (1 * 0.5) = 1 by norm_num, Real.sqrt_one]; norm_num

example : ¬ ∃ j : ℤ, (1 / 2 : ℝ) = j := not_int_of_lt (by norm_num) (by norm_num)

example : (1 / 4 : ℝ) * √(2 * 2) < 1 := by
  rw [show (2 : ℝ) * 2 = 2 ^ 2 by norm_num, Real.sqrt_sq (by norm_num)]; norm_num

example : ∃ bisect, BisectTol bisect 0 := exists_bisectTol 0 le_rfl

end Verif
