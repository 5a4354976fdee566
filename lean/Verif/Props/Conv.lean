import Verif.Lemmas.Conv

/-! # C89: `L2Convolve` -/

open scoped RealInnerProductSpace ComplexConjugate

namespace Verif

variable {β : Type} [Fintype β] {m mh mb N : ℕ} [NeZero N]

/-- C89: if signal and kernel have at most `nfft` samples, the value is `sigma/2 ‖h ⊛ x - b‖²` for the periodic convolution with period `nfft`. -/
theorem C89_value_periodic (hm : m ≤ N) (hh : mh ≤ N) (h : β → Fin mh → ℂ) (b : β → Fin mb → ℂ) (σ : ℝ) (x : EuclideanSpace ℂ (β × Fin m)) :
    convCall N h b σ (fun t j => x (t, j)) = .ok (perMisfit N h b σ x) := by
  rw [conv_call_eq, perMisfit_eq hm hh]

/-- C89: if `nfft` is at least the number of samples of the convolution and of the data, the value is `sigma/2 ‖h * x - b‖²`. -/
theorem C89_value_partial (hm : 0 < m) (hh : 0 < mh) (hN : mh + m ≤ N + 1) (hb : mb ≤ N) (h : β → Fin mh → ℂ) (b : β → Fin mb → ℂ) (σ : ℝ)
    (x : EuclideanSpace ℂ (β × Fin m)) : convCall N h b σ (fun t j => x (t, j)) = .ok (linMisfit h b σ x) := by
  rw [linMisfit_eq hN hb, C89_value_periodic (by omega) (by omega)]

lemma lsq_isGrad_smul {E D : Type} [NormedAddCommGroup E] [InnerProductSpace ℝ E] [FiniteDimensional ℝ E] [NormedAddCommGroup D] [InnerProductSpace ℝ D] (C : E →ₗ[ℝ] D)
    (Ct : D → E) (h : ∀ x y, ⟪C x, y⟫ = ⟪x, Ct y⟫) (d : D) (σ : ℝ) (y : E) : IsGrad (fun x => σ * (‖d - C x‖ ^ 2 / 2)) y (σ • (-Ct (d - C y))) := by
  have := isGrad_lsq C Ct h d y (-Ct (d - C y)) fun v => rfl
  unfold IsGrad at *
  have h2 := this.const_mul σ
  refine h2.congr_fderiv ?_
  ext v
  simp

lemma head_smul (c : ℝ) (z : EuclideanSpace ℂ (β × ZMod N)) : (headMap m (c • z) : EuclideanSpace ℂ (β × Fin m)) = c • headMap m z := rfl
lemma head_neg (z : EuclideanSpace ℂ (β × ZMod N)) : (headMap m (-z) : EuclideanSpace ℂ (β × Fin m)) = - headMap m z := rfl
lemma head_sub (z w : EuclideanSpace ℂ (β × ZMod N)) : (headMap m (z - w) : EuclideanSpace ℂ (β × Fin m)) = headMap m z - headMap m w := rfl

lemma conv_adjoint (hm : m ≤ N) (h : β → Fin mh → ℂ) (x : EuclideanSpace ℂ (β × Fin m)) (z : EuclideanSpace ℂ (β × ZMod N)) :
    ⟪((circMap N h).comp (padMap N)) x, z⟫ = ⟪x, headMap m (corrMap N h z)⟫ := by
  rw [LinearMap.comp_apply, circ_adjoint, pad_adjoint hm]

/-- C89: `grad` is the gradient of the periodic misfit. -/
theorem C89_grad_periodic (hm : m ≤ N) (hh : mh ≤ N) (h : β → Fin mh → ℂ) (b : β → Fin mb → ℂ) (σ : ℝ) (x : EuclideanSpace ℂ (β × Fin m)) :
    ∃ g : EuclideanSpace ℂ (β × Fin m), convGrad N h b σ (fun t j => x (t, j)) = .ok ⟨m, fun t j => g (t, j)⟩ ∧ IsGrad (perMisfit N h b σ) x g := by
  refine ⟨_, conv_grad_eq hm h b σ x, ?_⟩
  have := lsq_isGrad_smul ((circMap N h).comp (padMap N)) (fun z => headMap m (corrMap N h z)) (conv_adjoint hm h) (dataVec N b) σ x
  rw [show perMisfit N h b σ = fun x => σ * (‖dataVec N b - ((circMap N h).comp (padMap N)) x‖ ^ 2 / 2) from funext fun y => perMisfit_eq hm hh h b σ y]
  exact this

/-- C89: if `nfft` is large enough, `grad` is the gradient of `sigma/2 ‖h * x - b‖²`. -/
theorem C89_grad_partial (hm : 0 < m) (hh : 0 < mh) (hN : mh + m ≤ N + 1) (hb : mb ≤ N) (h : β → Fin mh → ℂ) (b : β → Fin mb → ℂ) (σ : ℝ)
    (x : EuclideanSpace ℂ (β × Fin m)) :
    ∃ g : EuclideanSpace ℂ (β × Fin m), convGrad N h b σ (fun t j => x (t, j)) = .ok ⟨m, fun t j => g (t, j)⟩ ∧ IsGrad (linMisfit h b σ) x g := by
  rw [show (linMisfit h b σ : EuclideanSpace ℂ (β × Fin m) → ℝ) = perMisfit N h b σ from funext fun y => linMisfit_eq hN hb h b σ y]
  exact C89_grad_periodic (by omega) (by omega) h b σ x

lemma pad_head (z : EuclideanSpace ℂ (β × ZMod N)) : padMap N (headMap N z) = z := by
  ext q
  simp only [padMap, LinearMap.coe_mk, AddHom.coe_mk, fftPad, ZMod.val_lt, dif_pos, headMap, ZMod.natCast_zmod_val]

/-- C89: if `nfft` is the number of samples of the signal, `prox` returns the unique proximal point of the periodic misfit. -/
theorem C89_prox_periodic_partial (hh : mh ≤ N) (dn : Bool) {σ τ : ℝ} (hσ : 0 ≤ σ) (hτ : 0 < τ) (h : β → Fin mh → ℂ) (b : β → Fin mb → ℂ)
    (x : EuclideanSpace ℂ (β × Fin N)) :
    ∃ z : EuclideanSpace ℂ (β × Fin N), convProx N dn h b σ (fun t j => x (t, j)) τ = .ok ⟨N, fun t j => z (t, j)⟩ ∧
      IsUniqueProx (XFun.ofReal (perMisfit N h b σ)) τ x z := by
  refine ⟨_, conv_prox_eq le_rfl dn hσ hτ h b x, ?_⟩
  rw [show perMisfit N h b σ = fun x => σ * (‖dataVec N b - ((circMap N h).comp (padMap N)) x‖ ^ 2 / 2) from funext fun y => perMisfit_eq le_rfl hh h b σ y]
  apply isUniqueProx_of_subgrad hτ
  have hn := congrArg (fun z => (headMap N z : EuclideanSpace ℂ (β × Fin N))) (convY_normal (N := N) hσ hτ h b x)
  simp only [head_sub, head_smul, head_neg, head_pad le_rfl] at hn
  rw [hn, smul_smul, show 1 / τ * (σ * τ) = σ by field_simp]
  have := lsq_subgrad ((circMap N h).comp (padMap N)) (fun z => headMap N (corrMap N h z)) (conv_adjoint le_rfl h) (dataVec N b) hσ (headMap N (convY N h b σ x τ))
  rw [LinearMap.comp_apply, pad_head] at this
  exact this

/-- C89: what `prox` returns for a signal with fewer samples than `nfft`: the first samples of the proximal point for the signal extended by zeros, whose other samples are not
constrained to be zero. -/
theorem C89_prox_padded_partial (hm : m ≤ N) (hh : mh ≤ N) (dn : Bool) {σ τ : ℝ} (hσ : 0 ≤ σ) (hτ : 0 < τ) (h : β → Fin mh → ℂ) (b : β → Fin mb → ℂ)
    (x : EuclideanSpace ℂ (β × Fin m)) :
    ∃ u : EuclideanSpace ℂ (β × Fin N), convProx N dn h b σ (fun t j => x (t, j)) τ = .ok ⟨m, fun t j => u (t, Fin.castLE hm j)⟩ ∧
      IsUniqueProx (XFun.ofReal (perMisfit N h b σ)) τ (WithLp.toLp 2 fun q => sampleAt (fun t j => x (t, j)) q.1 q.2) u := by
  obtain ⟨u, hu, hp⟩ := C89_prox_periodic_partial (N := N) hh dn hσ hτ h b (WithLp.toLp 2 fun q => sampleAt (fun t j => x (t, j)) q.1 q.2)
  refine ⟨u, ?_, hp⟩
  rw [conv_prox_eq le_rfl dn hσ hτ] at hu
  rw [conv_prox_eq hm dn hσ hτ]
  have e : convY N h b σ (WithLp.toLp 2 fun q => sampleAt (fun t j => x (t, j)) q.1 q.2 : EuclideanSpace ℂ (β × Fin N)) τ = convY N h b σ x τ := by
    have : fftPad N (fun t j => sampleAt (fun t j => x (t, j)) t j : β → Fin N → ℂ) = fftPad N fun t j => x (t, j) := by
      funext t k
      simp only [fftPad, sampleAt, ZMod.val_lt, dif_pos]
    unfold convY convYf npFft
    simp only [this]
  rw [e] at hu
  injection hu with hu
  have hu' := congr_fun₂ (eq_of_heq (Sigma.mk.inj hu).2)
  congr 2
  funext t i
  exact hu' t (Fin.castLE hm i)

/-- C89: a signal with more samples than `nfft` (1024 by default): `prox` returns `nfft` samples without `dims` and raises with `dims`; `grad` raises. -/
theorem C89_long_refuted (hm : N < m) {σ τ : ℝ} (hσ : 0 ≤ σ) (hτ : 0 < τ) (h : β → Fin mh → ℂ) (b : β → Fin mb → ℂ) (x : β → Fin m → ℂ) :
    (∃ r, convProx N true h b σ x τ = .ok r ∧ r.1 = N ∧ r.1 ≠ m) ∧ convProx N false h b σ x τ = .error .indexError ∧ convGrad N h b σ x = .error .indexError := by
  have hn : ¬ m ≤ N := by omega
  refine ⟨⟨⟨N, fun t i => npIfft (convYf N h b σ x τ) t ((i : ℕ) : ZMod N)⟩, ?_, rfl, by simp only; omega⟩, ?_, ?_⟩
  · unfold convProx checkTau
    rw [if_neg (not_le.2 hτ), if_neg (conv_den hσ hτ h)]
    simp only [if_true, npHead, if_neg hn]
  · unfold convProx checkTau
    rw [if_neg (not_le.2 hτ), if_neg (conv_den hσ hτ h)]
    simp only [Bool.false_eq_true, if_false, npTake, if_neg hn]
  · simp only [convGrad, npTake, if_neg hn]

open scoped ComplexOrder in
/-- C89: for every number of samples `m` and every larger `nfft` (so large that the convolution does not wrap around), with the kernel `(1, 1)` and zero data, there is a signal for which
`prox` does not return the proximal point of `sigma/2 ‖h * x - b‖²`. -/
theorem C89_prox_refuted [Nonempty β] (hm : 0 < m) (hmN : m < N) (dn : Bool) {σ τ : ℝ} (hσ : 0 < σ) (hτ : 0 < τ) :
    ∃ (h : β → Fin 2 → ℂ) (b : β → Fin m → ℂ) (x u z : EuclideanSpace ℂ (β × Fin m)), IsUniqueProx (XFun.ofReal (linMisfit h b σ)) τ x u ∧
      convProx N dn h b σ (fun t j => x (t, j)) τ = .ok ⟨m, fun t j => z (t, j)⟩ ∧ z ≠ u := by
  let h : β → Fin 2 → ℂ := fun _ _ => 1
  let b : β → Fin m → ℂ := fun _ _ => 0
  let v : EuclideanSpace ℂ (β × Fin m) := WithLp.toLp 2 fun q => if (q.2 : ℕ) = m - 1 then 1 else 0
  have hd : dataVec N b = 0 := by
    ext q
    simp [dataVec, fftPad, b]
  let x : EuclideanSpace ℂ (β × Fin m) := v + (σ * τ) • headMap m (corrMap N h (circMap N h (padMap N v)))
  have hnegc : ∀ z, corrMap N h (-z) = - corrMap N h z := fun z => by
    ext q
    simp [corrMap, circAdj]
  have hx : IsUniqueProx (XFun.ofReal (linMisfit h b σ)) τ x v := by
    rw [show (linMisfit h b σ : EuclideanSpace ℂ (β × Fin m) → ℝ) = perMisfit N h b σ from funext fun y => linMisfit_eq (by omega) (by omega) h b σ y]
    rw [show perMisfit N h b σ = fun x => σ * (‖dataVec N b - ((circMap N h).comp (padMap N)) x‖ ^ 2 / 2) from funext fun y => perMisfit_eq (by omega) (by omega) h b σ y]
    apply isUniqueProx_of_subgrad hτ
    have := lsq_subgrad ((circMap N h).comp (padMap N)) (fun z => headMap m (corrMap N h z)) (conv_adjoint (by omega) h) (dataVec N b) hσ.le v
    rw [hd, zero_sub, hnegc, head_neg, neg_neg] at this
    rw [hd]
    have e : (1 / τ) • (x - v) = σ • headMap m (corrMap N h (circMap N h (padMap N v))) := by
      simp only [x, add_sub_cancel_left, smul_smul]
      rw [show 1 / τ * (σ * τ) = σ by field_simp]
    rw [e]
    exact this
  refine ⟨h, b, x, v, _, hx, conv_prox_eq (by omega) dn hσ.le hτ h b x, fun hz => ?_⟩
  set Y := convY N h b σ x τ with hY
  have hn := convY_normal (N := N) hσ.le hτ h b x
  rw [← hY, hd, zero_sub, hnegc, neg_neg] at hn
  change (headMap m Y : EuclideanSpace ℂ (β × Fin m)) = v at hz
  have hadd : ∀ z w, corrMap N h (z + w) = corrMap N h z + corrMap N h w := fun z w => by
    ext q
    simp [corrMap, circAdj, mul_add, Finset.sum_add_distrib]
  set w := Y - padMap N v with hw
  have hYw : Y = padMap N v + w := by rw [hw]; abel
  have hhw : (headMap m w : EuclideanSpace ℂ (β × Fin m)) = 0 := by rw [hw, head_sub, hz, head_pad (by omega), sub_self]
  have horth : ∀ s : EuclideanSpace ℂ (β × Fin m), ⟪padMap N s, w⟫ = 0 := fun s => by rw [pad_adjoint (by omega), hhw, inner_zero_right]
  have hST : 0 < σ * τ := mul_pos hσ hτ
  have h1 : ⟪circMap N h (padMap N v), circMap N h w⟫ = 0 := by
    have := congrArg (fun z => (headMap m z : EuclideanSpace ℂ (β × Fin m))) hn
    simp only [head_sub, head_smul, head_pad (show m ≤ N by omega), hz, x, add_sub_cancel_left] at this
    have h2 := smul_right_injective _ hST.ne' this
    rw [hYw, map_add, hadd] at h2
    have h3 : (headMap m (corrMap N h (circMap N h w)) : EuclideanSpace ℂ (β × Fin m)) = 0 := by
      have h4 : (headMap m (corrMap N h (circMap N h (padMap N v)) + corrMap N h (circMap N h w)) : EuclideanSpace ℂ (β × Fin m))
          = headMap m (corrMap N h (circMap N h (padMap N v))) + headMap m (corrMap N h (circMap N h w)) := rfl
      rw [h4] at h2
      exact left_eq_add.1 h2
    rw [circ_adjoint, pad_adjoint (by omega), h3, inner_zero_right]
  have hw0 : w = 0 := by
    have h5 := congrArg (fun z => ⟪z, w⟫) hn
    simp only [inner_sub_left, horth, real_inner_smul_left] at h5
    have ha : ⟪corrMap N h (circMap N h Y), w⟫ = ‖circMap N h w‖ ^ 2 := by
      rw [real_inner_comm, ← circ_adjoint, hYw, map_add, inner_add_right, real_inner_comm, h1, real_inner_self_eq_norm_sq, zero_add]
    have hb' : ⟪Y, w⟫ = ‖w‖ ^ 2 := by
      rw [hYw, inner_add_left, horth, real_inner_self_eq_norm_sq, zero_add]
    rw [ha, hb'] at h5
    have h6 : 0 ≤ σ * τ * ‖circMap N h w‖ ^ 2 := by positivity
    have h7 : ‖w‖ ^ 2 = 0 := by nlinarith [sq_nonneg ‖w‖]
    exact norm_eq_zero.1 (pow_eq_zero_iff two_ne_zero |>.1 h7)
  rw [hYw, hw0, add_zero, ← map_sub] at hn
  obtain ⟨t⟩ := ‹Nonempty β›
  have h8 := congrArg (fun z : EuclideanSpace ℂ (β × ZMod N) => z (t, (m : ZMod N))) hn
  have hmv : ((m : ℕ) : ZMod N).val = m := ZMod.val_natCast_of_lt hmN
  have h9 : (padMap N (x - v) : EuclideanSpace ℂ (β × ZMod N)) (t, (m : ZMod N)) = 0 := by
    simp [padMap, fftPad, hmv]
  simp only [h9] at h8
  have hpos : (0 : ℂ) < corrMap N h (circMap N h (padMap N v)) (t, (m : ZMod N)) := by
    have hh0 : ∀ a : ZMod N, 0 ≤ fftPad N h t a := fun a => by
      unfold fftPad; split <;> simp [h]
    have hv0 : ∀ a : ZMod N, 0 ≤ padMap N v (t, a) := fun a => by
      simp only [padMap, LinearMap.coe_mk, AddHom.coe_mk, fftPad, v]
      split_ifs <;> simp
    have hc0 : ∀ k : ZMod N, 0 ≤ circMap N h (padMap N v) (t, k) := fun k =>
      Finset.sum_nonneg fun j _ => mul_nonneg (hh0 j) (hv0 (k - j))
    have hN1 : ((1 : ℕ) : ZMod N).val = 1 := ZMod.val_natCast_of_lt (by omega)
    refine Finset.sum_pos' (fun k _ => mul_nonneg ?_ (hc0 k)) ⟨(m : ZMod N), Finset.mem_univ _, mul_pos ?_ ?_⟩
    · exact star_nonneg_iff.2 (hh0 _)
    · simp [fftPad, h]
    · refine Finset.sum_pos' (fun j _ => mul_nonneg (hh0 j) (hv0 _)) ⟨((1 : ℕ) : ZMod N), Finset.mem_univ _, mul_pos ?_ ?_⟩
      · simp only [fftPad, hN1]; simp [h]
      · have : (m : ZMod N) - ((1 : ℕ) : ZMod N) = ((m - 1 : ℕ) : ZMod N) := by rw [Nat.cast_sub (by omega)]
        have hv : ((m - 1 : ℕ) : ZMod N).val = m - 1 := ZMod.val_natCast_of_lt (by omega)
        simp only [this, padMap, LinearMap.coe_mk, AddHom.coe_mk, fftPad, hv, v]
        rw [dif_pos (by omega)]
        simp
  have h10 : (σ * τ) • corrMap N h (circMap N h (padMap N v)) (t, (m : ZMod N)) = 0 := h8.symm
  rcases smul_eq_zero.1 h10 with h11 | h11
  · exact hST.ne' h11
  · exact hpos.ne' h11

omit [Fintype β] [NeZero N] in
lemma delta_conv (hm : 0 < m) (hh : 0 < mh) (c : ℕ → Prop) [DecidablePred c] (t : β) :
    (∑ i : Fin mh, ∑ j : Fin m, if c ((i : ℕ) + j) then (if (i : ℕ) = mh - 1 then (1 : ℂ) else 0) * (if (j : ℕ) = m - 1 then 1 else 0) else 0)
      = if c (mh + m - 2) then 1 else 0 := by
  rw [Finset.sum_eq_single ⟨mh - 1, by omega⟩, Finset.sum_eq_single ⟨m - 1, by omega⟩]
  · simp only [if_true, mul_one]
    rw [show mh - 1 + (m - 1) = mh + m - 2 by omega]
  · intro j _ hj
    have : (j : ℕ) ≠ m - 1 := fun h => hj (Fin.ext h)
    simp [this]
  · simp
  · intro i _ hi
    have : (i : ℕ) ≠ mh - 1 := fun h => hi (Fin.ext h)
    simp [this]
  · simp

/-- C89: if `nfft` is smaller than the number of samples of the convolution, the value is not `sigma/2 ‖h * x - b‖²` for some kernel, data and signal, whatever the sizes. -/
theorem C89_value_wrap_refuted [Nonempty β] (hm : 0 < m) (hmN : m ≤ N) (hh : 0 < mh) (hhN : mh ≤ N) (hN : N + 1 < mh + m) {σ : ℝ} (hσ : 0 < σ) :
    ∃ (h : β → Fin mh → ℂ) (b : β → Fin N → ℂ) (x : EuclideanSpace ℂ (β × Fin m)), convCall N h b σ (fun t j => x (t, j)) = .ok 0 ∧ 0 < linMisfit h b σ x := by
  let h : β → Fin mh → ℂ := fun _ i => if (i : ℕ) = mh - 1 then 1 else 0
  let x : EuclideanSpace ℂ (β × Fin m) := WithLp.toLp 2 fun q => if (q.2 : ℕ) = m - 1 then 1 else 0
  let b : β → Fin N → ℂ := fun _ k => if (mh + m - 2) % N = k then 1 else 0
  refine ⟨h, b, x, ?_, ?_⟩
  · rw [C89_value_periodic hmN hhN]
    congr 1
    unfold perMisfit
    rw [Finset.sum_eq_zero, mul_zero]
    intro t _
    refine Finset.sum_eq_zero fun k hk => ?_
    have hk' : k < N := by simpa using hk
    have e : perConv N h (fun t j => x (t, j)) t k = if (mh + m - 2) % N = k then 1 else 0 := delta_conv hm hh (fun s => s % N = k) t
    rw [e, sampleAt, dif_pos hk']
    simp [b]
  · unfold linMisfit
    refine mul_pos (by linarith) ?_
    obtain ⟨t⟩ := ‹Nonempty β›
    refine Finset.sum_pos' (fun _ _ => Finset.sum_nonneg fun _ _ => by positivity) ⟨t, Finset.mem_univ _, ?_⟩
    refine Finset.sum_pos' (fun _ _ => by positivity) ⟨mh + m - 2, by simp; omega, ?_⟩
    have e : linConv h (fun t j => x (t, j)) t (mh + m - 2) = if mh + m - 2 = mh + m - 2 then 1 else 0 := delta_conv hm hh (fun s => s = mh + m - 2) t
    rw [e, sampleAt, dif_neg (by omega)]
    simp

/-! ## Real data -/

/-- The transform of a real signal is Hermitian. -/
lemma dft_herm {f : ZMod N → ℂ} (hf : ∀ k, conj (f k) = f k) (k : ZMod N) : conj (ZMod.dft f k) = ZMod.dft f (-k) := by
  simp only [ZMod.dft_apply, smul_eq_mul, map_sum, map_mul]
  refine Finset.sum_congr rfl fun j _ => ?_
  rw [hf, ← AddChar.map_neg_eq_conj]
  congr 2
  ring

lemma herm_real {g : ZMod N → ℂ} (hg : ∀ k, conj (g k) = g (-k)) (k : ZMod N) : conj (ZMod.dft.symm g k) = ZMod.dft.symm g k := by
  rw [ZMod.invDFT_apply, smul_eq_mul, map_mul, map_sum]
  congr 1
  · simp
  rw [← Equiv.sum_comp (Equiv.neg (ZMod N))]
  refine Finset.sum_congr rfl fun j _ => ?_
  simp only [Equiv.neg_apply, smul_eq_mul, map_mul]
  rw [hg, ← AddChar.map_neg_eq_conj, neg_neg]
  congr 2
  ring

omit [Fintype β] in
lemma fft_herm {x : β → Fin m → ℂ} (hx : ∀ t j, conj (x t j) = x t j) (t : β) (k : ZMod N) : conj (npFft N x t k) = npFft N x t (-k) := by
  refine dft_herm (fun k => ?_) k
  unfold fftPad
  split <;> simp [hx]

/-- C89: for real kernel, data and signal the imaginary parts of the results of `prox` and `grad` vanish, whatever the sizes. -/
theorem C89_real {h : β → Fin mh → ℂ} {b : β → Fin mb → ℂ} {x : β → Fin m → ℂ} (hh : ∀ t i, (h t i).im = 0) (hb : ∀ t i, (b t i).im = 0) (hx : ∀ t i, (x t i).im = 0)
    (σ τ : ℝ) (dn : Bool) (r : ConvArr β) (hr : convProx N dn h b σ x τ = .ok r ∨ convGrad N h b σ x = .ok r) (t : β) (i : Fin r.1) : (r.2 t i).im = 0 := by
  have fh := fft_herm (N := N) fun t i => Complex.conj_eq_iff_im.2 (hh t i)
  have fb := fft_herm (N := N) fun t i => Complex.conj_eq_iff_im.2 (hb t i)
  have fx := fft_herm (N := N) fun t i => Complex.conj_eq_iff_im.2 (hx t i)
  have fn : ∀ t k, ‖npFft N h t (-k)‖ = ‖npFft N h t k‖ := fun t k => by rw [← fh, RCLike.norm_conj]
  have p1 : ∀ k, conj (npIfft (convYf N h b σ x τ) t k) = npIfft (convYf N h b σ x τ) t k := herm_real fun k => by
    unfold convYf
    simp only [map_div₀, map_add, map_mul, map_one, Complex.conj_ofReal, fx, fb, fh, fn, Complex.conj_conj]
  have p2 : ∀ k, conj (npIfft (fun t k => conj (npFft N h t k) * (npFft N h t k * npFft N x t k - npFft N b t k)) t k)
      = npIfft (fun t k => conj (npFft N h t k) * (npFft N h t k * npFft N x t k - npFft N b t k)) t k := herm_real fun k => by
    simp only [map_sub, map_mul, fx, fb, fh, Complex.conj_conj]
  rcases hr with hr | hr
  · unfold convProx checkTau npTake npHead at hr
    split_ifs at hr <;> cases hr <;> exact Complex.conj_eq_iff_im.1 (p1 _)
  · unfold convGrad npTake at hr
    split_ifs at hr
    cases hr
    refine Complex.conj_eq_iff_im.1 ?_
    rw [map_mul, Complex.conj_ofReal, p2]

/-- C01 for `L2Convolve`. -/
theorem C01_l2convolve (dn : Bool) (h : β → Fin mh → ℂ) (b : β → Fin mb → ℂ) (σ : ℝ) (x : β → Fin m → ℂ) {τ : ℝ} (hτ : τ ≤ 0) :
    convProx N dn h b σ x τ = .error .valueError := by
  unfold convProx checkTau
  rw [if_pos hτ]

/-- Sizes that meet the hypotheses: 100 samples, a kernel with 11 samples, data with 110 samples and the default `nfft` of 1024; and 8 samples with `nfft = 8`. -/
example : (0 < 100 ∧ 0 < 11 ∧ 11 + 100 ≤ 1024 + 1 ∧ 110 ≤ 1024) ∧ 100 < 1024 ∧ 1024 < 2000 ∧ 5 ≤ 8 := by norm_num

/-- A convolution: `(1, 2) * (3, 4) = (3, 10, 8)`. -/
example : linConv (fun (_ : Unit) => ![1, 2]) (fun _ => ![3, 4]) () 1 = 10 ∧ perConv 2 (fun (_ : Unit) => ![1, 2]) (fun _ => ![3, 4]) () 0 = 11 := by
  constructor
  · simp [linConv, Fin.sum_univ_two]; norm_num
  · simp [perConv, Fin.sum_univ_two]; norm_num

end Verif
