import Verif.Model.Conv
import Verif.Spec.Conv
import Verif.Props.LowRank
import Verif.Lemmas.Prox

/-! # Lemmas about periodic convolutions and their Fourier transforms -/

open scoped RealInnerProductSpace ComplexConjugate

namespace Verif

section circ
variable {N : ℕ} [NeZero N]

/-- Periodic convolution. -/
noncomputable def circ (h x : ZMod N → ℂ) (k : ZMod N) : ℂ := ∑ j, h j * x (k - j)

/-- Periodic correlation. -/
noncomputable def circAdj (h z : ZMod N → ℂ) (j : ZMod N) : ℂ := ∑ k, conj (h (k - j)) * z k

lemma dft_circ (h x : ZMod N → ℂ) (k : ZMod N) : ZMod.dft (circ h x) k = ZMod.dft h k * ZMod.dft x k := by
  simp only [ZMod.dft_apply, smul_eq_mul, circ, Finset.mul_sum, Finset.sum_mul]
  rw [Finset.sum_comm]
  conv_rhs => rw [Finset.sum_comm]
  refine Finset.sum_congr rfl fun j _ => ?_
  rw [← Equiv.sum_comp (Equiv.addRight j)]
  refine Finset.sum_congr rfl fun l _ => ?_
  simp only [Equiv.coe_addRight, add_sub_cancel_right]
  rw [add_mul, neg_add, AddChar.map_add_eq_mul]
  ring

lemma circAdj_eq (h z : ZMod N → ℂ) : circAdj h z = circ (fun i => conj (h (-i))) z := by
  funext j
  unfold circAdj circ
  rw [← Equiv.sum_comp (Equiv.subLeft j)]
  refine Finset.sum_congr rfl fun i _ => ?_
  simp only [Equiv.subLeft_apply]
  congr 3
  ring

lemma dft_circAdj (h z : ZMod N → ℂ) (k : ZMod N) : ZMod.dft (circAdj h z) k = conj (ZMod.dft h k) * ZMod.dft z k := by
  rw [circAdj_eq, dft_circ]
  congr 1
  simp only [ZMod.dft_apply, smul_eq_mul, map_sum, map_mul]
  rw [← Equiv.sum_comp (Equiv.neg (ZMod N))]
  refine Finset.sum_congr rfl fun i _ => ?_
  simp only [Equiv.neg_apply, neg_neg]
  rw [← AddChar.map_neg_eq_conj, neg_neg]
  congr 2
  ring

lemma circ_sub (h x y : ZMod N → ℂ) : circ h (x - y) = circ h x - circ h y := by
  funext k
  simp only [circ, Pi.sub_apply, mul_sub, Finset.sum_sub_distrib]

/-- A sum over the positions of a signal that is zero beyond its end. -/
lemma pad_sum {m : ℕ} (hm : m ≤ N) (F : Fin m → ZMod N → ℂ) :
    ∑ a : ZMod N, (if h : a.val < m then F ⟨a.val, h⟩ a else 0) = ∑ i : Fin m, F i ((i : ℕ) : ZMod N) := by
  classical
  symm
  refine Finset.sum_of_injOn (fun i : Fin m => ((i : ℕ) : ZMod N)) ?_ (by simp) ?_ ?_
  · intro i _ j _ hij
    have := congrArg ZMod.val hij
    simp only at this
    rw [ZMod.val_natCast_of_lt (by omega), ZMod.val_natCast_of_lt (by omega)] at this
    exact Fin.ext this
  · intro a _ ha
    rw [dif_neg]
    intro h
    exact ha ⟨⟨a.val, h⟩, by simp, by simp⟩
  · intro i _
    have : ((i : ℕ) : ZMod N).val = i := ZMod.val_natCast_of_lt (by omega)
    rw [dif_pos (by rw [this]; exact i.2)]
    congr 1
    exact Fin.ext this.symm

end circ

section maps
variable {β : Type} [Fintype β] {m mh mb N : ℕ} [NeZero N]

/-- Real inner product of complex arrays. -/
lemma cinner {α : Type} [Fintype α] (x y : EuclideanSpace ℂ α) : ⟪x, y⟫ = (∑ q, conj (x q) * y q).re := by
  rw [Complex.re_sum, PiLp.inner_apply]
  refine Finset.sum_congr rfl fun q _ => ?_
  rw [Complex.inner]
  exact congrArg _ (mul_comm _ _)

lemma cnorm_sq {α : Type} [Fintype α] (x : EuclideanSpace ℂ α) : ‖x‖ ^ 2 = ∑ q, ‖x q‖ ^ 2 := EuclideanSpace.norm_sq_eq x

/-- The padded signal as an array. -/
noncomputable def padMap (N : ℕ) [NeZero N] : EuclideanSpace ℂ (β × Fin m) →ₗ[ℝ] EuclideanSpace ℂ (β × ZMod N) where
  toFun x := WithLp.toLp 2 fun q => fftPad N (fun t j => x (t, j)) q.1 q.2
  map_add' x y := by
    ext q
    simp only [fftPad, PiLp.add_apply]
    split <;> simp
  map_smul' c x := by
    ext q
    simp only [fftPad, PiLp.smul_apply, RingHom.id_apply]
    split <;> simp

/-- Convolution with the padded kernel. -/
noncomputable def circMap (N : ℕ) [NeZero N] (h : β → Fin mh → ℂ) : EuclideanSpace ℂ (β × ZMod N) →ₗ[ℝ] EuclideanSpace ℂ (β × ZMod N) where
  toFun x := WithLp.toLp 2 fun q => circ (fftPad N h q.1) (fun k => x (q.1, k)) q.2
  map_add' x y := by
    ext q
    simp only [circ, PiLp.add_apply, mul_add, Finset.sum_add_distrib]
  map_smul' c x := by
    ext q
    simp only [circ, PiLp.smul_apply, RingHom.id_apply, Finset.smul_sum, mul_smul_comm]

/-- Correlation with the padded kernel. -/
noncomputable def corrMap (N : ℕ) [NeZero N] (h : β → Fin mh → ℂ) (z : EuclideanSpace ℂ (β × ZMod N)) : EuclideanSpace ℂ (β × ZMod N) :=
  WithLp.toLp 2 fun q => circAdj (fftPad N h q.1) (fun k => z (q.1, k)) q.2

/-- First samples. -/
noncomputable def headMap (m : ℕ) (z : EuclideanSpace ℂ (β × ZMod N)) : EuclideanSpace ℂ (β × Fin m) := WithLp.toLp 2 fun q => z (q.1, ((q.2 : ℕ) : ZMod N))

lemma circ_adjoint (h : β → Fin mh → ℂ) (x z : EuclideanSpace ℂ (β × ZMod N)) : ⟪circMap N h x, z⟫ = ⟪x, corrMap N h z⟫ := by
  rw [cinner, cinner]
  congr 1
  rw [Fintype.sum_prod_type, Fintype.sum_prod_type]
  refine Finset.sum_congr rfl fun t _ => ?_
  simp only [circMap, corrMap, LinearMap.coe_mk, AddHom.coe_mk, circ, circAdj, map_sum, map_mul, Finset.sum_mul, Finset.mul_sum]
  rw [Finset.sum_comm]
  conv_rhs => rw [Finset.sum_comm]
  conv_lhs => rw [Finset.sum_comm]
  refine Finset.sum_congr rfl fun k _ => ?_
  rw [← Equiv.sum_comp (Equiv.subLeft k)]
  refine Finset.sum_congr rfl fun j _ => ?_
  simp only [Equiv.subLeft_apply, sub_sub_cancel]
  ring

lemma pad_adjoint (hm : m ≤ N) (x : EuclideanSpace ℂ (β × Fin m)) (z : EuclideanSpace ℂ (β × ZMod N)) : ⟪padMap N x, z⟫ = ⟪x, headMap m z⟫ := by
  rw [cinner, cinner]
  congr 1
  rw [Fintype.sum_prod_type, Fintype.sum_prod_type]
  refine Finset.sum_congr rfl fun t _ => ?_
  have := pad_sum hm fun i a => conj (x (t, i)) * z (t, a)
  rw [show (∑ q : Fin m, conj (x (t, q)) * (headMap m z) (t, q)) = ∑ i : Fin m, conj (x (t, i)) * z (t, ((i : ℕ) : ZMod N)) from rfl, ← this]
  refine Finset.sum_congr rfl fun a _ => ?_
  simp only [padMap, LinearMap.coe_mk, AddHom.coe_mk, fftPad]
  split <;> simp

lemma head_pad (hm : m ≤ N) (x : EuclideanSpace ℂ (β × Fin m)) : headMap m (padMap N x) = x := by
  ext q
  have : ((q.2 : ℕ) : ZMod N).val = q.2 := ZMod.val_natCast_of_lt (by omega)
  simp only [headMap, padMap, LinearMap.coe_mk, AddHom.coe_mk, fftPad, this, q.2.2, dif_pos]

/-- The data. -/
noncomputable def dataVec (N : ℕ) [NeZero N] (b : β → Fin mb → ℂ) : EuclideanSpace ℂ (β × ZMod N) := WithLp.toLp 2 fun q => fftPad N b q.1 q.2

/-- The residual computed by the code. -/
lemma conv_residual (h : β → Fin mh → ℂ) (b : β → Fin mb → ℂ) (x : EuclideanSpace ℂ (β × Fin m)) (q : β × ZMod N) :
    npIfft (fun t k => npFft N b t k - npFft N h t k * npFft N (fun t j => x (t, j)) t k) q.1 q.2 = (dataVec N b - circMap N h (padMap N x)) q := by
  unfold npIfft
  have : (fun k => npFft N b q.1 k - npFft N h q.1 k * npFft N (fun t j => x (t, j)) q.1 k)
      = ZMod.dft (fftPad N b q.1 - circ (fftPad N h q.1) (fftPad N (fun t j => x (t, j)) q.1)) := by
    funext k
    rw [map_sub, Pi.sub_apply, dft_circ]
    rfl
  beta_reduce
  rw [this, LinearEquiv.symm_apply_apply]
  rfl

lemma conv_call_eq (h : β → Fin mh → ℂ) (b : β → Fin mb → ℂ) (σ : ℝ) (x : EuclideanSpace ℂ (β × Fin m)) :
    convCall N h b σ (fun t j => x (t, j)) = .ok (σ * (‖dataVec N b - circMap N h (padMap N x)‖ ^ 2 / 2)) := by
  unfold convCall
  simp only [conv_residual]
  congr 1
  rw [show (WithLp.toLp 2 fun q => (dataVec N b - circMap N h (padMap N x)) q : EuclideanSpace ℂ (β × ZMod N)) = dataVec N b - circMap N h (padMap N x) from rfl]
  ring

lemma conv_grad_eq (hm : m ≤ N) (h : β → Fin mh → ℂ) (b : β → Fin mb → ℂ) (σ : ℝ) (x : EuclideanSpace ℂ (β × Fin m)) :
    convGrad N h b σ (fun t j => x (t, j))
      = .ok ⟨m, fun t i => (headMap m (σ • (-corrMap N h (dataVec N b - circMap N h (padMap N x)))) : EuclideanSpace ℂ (β × Fin m)) (t, i)⟩ := by
  unfold convGrad npTake
  rw [if_pos hm]
  congr 3
  funext t i
  have : (fun k => conj (npFft N h t k) * (npFft N h t k * npFft N (fun t j => x (t, j)) t k - npFft N b t k))
      = ZMod.dft (-circAdj (fftPad N h t) (fftPad N b t - circ (fftPad N h t) (fftPad N (fun t j => x (t, j)) t))) := by
    funext k
    rw [map_neg, Pi.neg_apply, dft_circAdj, map_sub, Pi.sub_apply, dft_circ]
    simp only [npFft]
    ring
  unfold npIfft
  beta_reduce
  rw [this, LinearEquiv.symm_apply_apply]
  rfl

/-- The points computed by `prox` before the samples are cut. -/
noncomputable def convY (N : ℕ) [NeZero N] (h : β → Fin mh → ℂ) (b : β → Fin mb → ℂ) (σ : ℝ) (x : EuclideanSpace ℂ (β × Fin m)) (τ : ℝ) : EuclideanSpace ℂ (β × ZMod N) :=
  WithLp.toLp 2 fun q => npIfft (convYf N h b σ (fun t j => x (t, j)) τ) q.1 q.2

lemma conv_den {σ τ : ℝ} (hσ : 0 ≤ σ) (hτ : 0 < τ) (h : β → Fin mh → ℂ) : ¬ ∃ t k, 1 + σ * τ * ‖npFft N h t k‖ ^ 2 = 0 := by
  rintro ⟨t, k, e⟩
  have : 0 ≤ σ * τ * ‖npFft N h t k‖ ^ 2 := by positivity
  linarith

lemma convY_normal {σ τ : ℝ} (hσ : 0 ≤ σ) (hτ : 0 < τ) (h : β → Fin mh → ℂ) (b : β → Fin mb → ℂ) (x : EuclideanSpace ℂ (β × Fin m)) :
    padMap N x - convY N h b σ x τ = (σ * τ) • (-corrMap N h (dataVec N b - circMap N h (convY N h b σ x τ))) := by
  ext q
  obtain ⟨t, k⟩ := q
  have key : fftPad N (fun t j => x (t, j)) t - (fun k => convY N h b σ x τ (t, k))
      = (σ * τ) • (-circAdj (fftPad N h t) (fftPad N b t - circ (fftPad N h t) (fun k => convY N h b σ x τ (t, k)))) := by
    apply ZMod.dft.injective
    have e : ZMod.dft (fun k => convY N h b σ x τ (t, k)) = convYf N h b σ (fun t j => x (t, j)) τ t := by
      change ZMod.dft (ZMod.dft.symm (convYf N h b σ (fun t j => x (t, j)) τ t)) = _
      rw [LinearEquiv.apply_symm_apply]
    rw [map_sub, e, ← Complex.coe_smul, map_smul, map_neg]
    funext k
    rw [Pi.sub_apply, Pi.smul_apply, Pi.neg_apply, dft_circAdj, map_sub, Pi.sub_apply, dft_circ, e]
    have hd : (1 + ((σ * τ : ℝ) : ℂ) * ((‖npFft N h t k‖ ^ 2 : ℝ) : ℂ)) ≠ 0 := by
      have := not_exists.1 (not_exists.1 (conv_den (N := N) hσ hτ h) t) k
      exact_mod_cast this
    have hn : conj (npFft N h t k) * npFft N h t k = ((‖npFft N h t k‖ ^ 2 : ℝ) : ℂ) := by
      rw [Complex.conj_mul']; norm_cast
    have hY : convYf N h b σ (fun t j => x (t, j)) τ t k * (1 + ((σ * τ : ℝ) : ℂ) * ((‖npFft N h t k‖ ^ 2 : ℝ) : ℂ))
        = npFft N (fun t j => x (t, j)) t k + ((σ * τ : ℝ) : ℂ) * (conj (npFft N h t k) * npFft N b t k) := by
      unfold convYf
      rw [div_mul_cancel₀ _ hd]
    rw [← hn] at hY
    change npFft N (fun t j => x (t, j)) t k - convYf N h b σ (fun t j => x (t, j)) τ t k
      = ((σ * τ : ℝ) : ℂ) * -(conj (npFft N h t k) * (npFft N b t k - npFft N h t k * convYf N h b σ (fun t j => x (t, j)) τ t k))
    linear_combination -hY
  exact congrFun key k

lemma lsq_subgrad {E D : Type} [NormedAddCommGroup E] [InnerProductSpace ℝ E] [NormedAddCommGroup D] [InnerProductSpace ℝ D] (C : E →ₗ[ℝ] D) (Ct : D → E)
    (h : ∀ x y, ⟪C x, y⟫ = ⟪x, Ct y⟫) (d : D) {σ : ℝ} (hσ : 0 ≤ σ) (y : E) : IsSubgrad (XFun.ofReal fun x => σ * (‖d - C x‖ ^ 2 / 2)) y (σ • (-Ct (d - C y))) := by
  refine ⟨trivial, fun z _ => ?_⟩
  have e : d - C z = (d - C y) - C (z - y) := by rw [map_sub]; abel
  have h2 := norm_sub_sq_real (d - C y) (C (z - y))
  rw [← e] at h2
  rw [real_inner_smul_left, inner_neg_left, real_inner_comm, ← h, real_inner_comm]
  simp only [XFun.ofReal]
  have : 0 ≤ ‖C (z - y)‖ ^ 2 := by positivity
  rw [h2]
  nlinarith

/-- The computed points are the proximal point of the problem for periodic signals of length `nfft`. -/
lemma convY_prox {σ τ : ℝ} (hσ : 0 ≤ σ) (hτ : 0 < τ) (h : β → Fin mh → ℂ) (b : β → Fin mb → ℂ) (x : EuclideanSpace ℂ (β × Fin m)) :
    IsUniqueProx (XFun.ofReal fun u => σ * (‖dataVec N b - circMap N h u‖ ^ 2 / 2)) τ (padMap N x) (convY N h b σ x τ) := by
  apply isUniqueProx_of_subgrad hτ
  rw [convY_normal hσ hτ, smul_smul, show 1 / τ * (σ * τ) = σ by field_simp]
  exact lsq_subgrad (circMap N h) (corrMap N h) (circ_adjoint h) _ hσ _

lemma conv_prox_eq (hm : m ≤ N) (dn : Bool) {σ τ : ℝ} (hσ : 0 ≤ σ) (hτ : 0 < τ) (h : β → Fin mh → ℂ) (b : β → Fin mb → ℂ) (x : EuclideanSpace ℂ (β × Fin m)) :
    convProx N dn h b σ (fun t j => x (t, j)) τ = .ok ⟨m, fun t i => (headMap m (convY N h b σ x τ) : EuclideanSpace ℂ (β × Fin m)) (t, i)⟩ := by
  unfold convProx checkTau
  rw [if_neg (not_le.2 hτ), if_neg (conv_den hσ hτ h)]
  cases dn
  · simp only [Bool.false_eq_true, if_false, npTake, if_pos hm]
    rfl
  · simp only [if_true, npHead, if_pos hm]
    rfl

end maps

/-! ## Samples -/

section samples
variable {β : Type} [Fintype β] {m mh mb N : ℕ} [NeZero N]

lemma pad_at (b : β → Fin mb → ℂ) (t : β) {k : ℕ} (hk : k < N) : fftPad N b t (k : ZMod N) = sampleAt b t k := by
  simp only [fftPad, sampleAt, ZMod.val_natCast_of_lt hk]

lemma circ_at (hm : m ≤ N) (hh : mh ≤ N) (h : β → Fin mh → ℂ) (x : β → Fin m → ℂ) (t : β) {k : ℕ} (hk : k < N) :
    circ (fftPad N h t) (fftPad N x t) (k : ZMod N) = perConv N h x t k := by
  unfold circ perConv
  have e1 : ∀ a : ZMod N, fftPad N h t a * fftPad N x t ((k : ZMod N) - a)
      = if hA : a.val < mh then ∑ j : Fin m, (if a + ((j : ℕ) : ZMod N) = k then h t ⟨a.val, hA⟩ * x t j else 0) else 0 := fun a => by
    unfold fftPad
    split_ifs with hA hB
    · rw [Finset.sum_eq_single ⟨((k : ZMod N) - a).val, hB⟩]
      · rw [if_pos (by simp)]
      · intro j _ hj
        rw [if_neg]
        intro hc
        apply hj
        apply Fin.ext
        have : ((j : ℕ) : ZMod N) = (k : ZMod N) - a := by rw [← hc]; ring
        simp only [← this]
        rw [ZMod.val_natCast_of_lt (by omega)]
      · simp
    · rw [mul_zero]
      symm
      refine Finset.sum_eq_zero fun j _ => if_neg fun hc => hB ?_
      have : ((j : ℕ) : ZMod N) = (k : ZMod N) - a := by rw [← hc]; ring
      rw [← this, ZMod.val_natCast_of_lt (by omega)]
      exact j.2
    · rw [zero_mul]
    · rw [zero_mul]
  rw [Finset.sum_congr rfl fun a _ => e1 a, pad_sum hh fun i a => ∑ j : Fin m, (if a + ((j : ℕ) : ZMod N) = k then h t i * x t j else 0)]
  refine Finset.sum_congr rfl fun i _ => Finset.sum_congr rfl fun j _ => ?_
  have : (((i : ℕ) : ZMod N) + ((j : ℕ) : ZMod N) = (k : ZMod N)) ↔ ((i : ℕ) + j) % N = k := by
    rw [← Nat.cast_add, ZMod.natCast_eq_natCast_iff, Nat.ModEq, Nat.mod_eq_of_lt hk]
  simp only [this]

lemma zmod_sum (F : ZMod N → ℝ) : ∑ a, F a = ∑ k ∈ Finset.range N, F (k : ZMod N) := by
  symm
  refine Finset.sum_bij (fun k _ => (k : ZMod N)) (by simp) ?_ ?_ (fun _ _ => rfl)
  · intro a ha c hc hac
    have := congrArg ZMod.val hac
    rwa [ZMod.val_natCast_of_lt (by simpa using ha), ZMod.val_natCast_of_lt (by simpa using hc)] at this
  · intro a _
    exact ⟨a.val, by simpa using ZMod.val_lt a, by simp⟩

/-- The residual norm in terms of the periodic convolution. -/
lemma perMisfit_eq (hm : m ≤ N) (hh : mh ≤ N) (h : β → Fin mh → ℂ) (b : β → Fin mb → ℂ) (σ : ℝ) (x : EuclideanSpace ℂ (β × Fin m)) :
    perMisfit N h b σ x = σ * (‖dataVec N b - circMap N h (padMap N x)‖ ^ 2 / 2) := by
  unfold perMisfit
  rw [cnorm_sq, Fintype.sum_prod_type]
  have : ∀ t, ∑ k : ZMod N, ‖(dataVec N b - circMap N h (padMap N x)) (t, k)‖ ^ 2
      = ∑ k ∈ Finset.range N, ‖perConv N h (fun t j => x (t, j)) t k - sampleAt b t k‖ ^ 2 := fun t => by
    rw [zmod_sum]
    refine Finset.sum_congr rfl fun k hk => ?_
    have hk' : k < N := by simpa using hk
    rw [norm_sub_rev, ← circ_at hm hh h _ t hk', ← pad_at b t hk']
    rfl
  rw [Finset.sum_congr rfl fun t _ => this t]
  ring

lemma linConv_zero (h : β → Fin mh → ℂ) (x : β → Fin m → ℂ) (t : β) {k : ℕ} (hk : mh + m ≤ k + 1) : linConv h x t k = 0 := by
  unfold linConv
  refine Finset.sum_eq_zero fun i _ => Finset.sum_eq_zero fun j _ => if_neg ?_
  omega

/-- Without wrap-around the two misfits agree. -/
lemma linMisfit_eq (hN : mh + m ≤ N + 1) (hb : mb ≤ N) (h : β → Fin mh → ℂ) (b : β → Fin mb → ℂ) (σ : ℝ) (x : EuclideanSpace ℂ (β × Fin m)) :
    linMisfit h b σ x = perMisfit N h b σ x := by
  unfold linMisfit perMisfit
  congr 1
  refine Finset.sum_congr rfl fun t _ => ?_
  have e : ∀ k ∈ Finset.range N, ‖perConv N h (fun t j => x (t, j)) t k - sampleAt b t k‖ ^ 2 = ‖linConv h (fun t j => x (t, j)) t k - sampleAt b t k‖ ^ 2 := by
    intro k _
    congr 3
    unfold perConv linConv
    refine Finset.sum_congr rfl fun i _ => Finset.sum_congr rfl fun j _ => ?_
    rw [Nat.mod_eq_of_lt (by omega)]
  rw [Finset.sum_congr rfl e]
  have z : ∀ k, mb ≤ k → mh + m ≤ k + 1 → ‖linConv h (fun t j => x (t, j)) t k - sampleAt b t k‖ ^ 2 = 0 := fun k h1 h2 => by
    rw [linConv_zero h _ t h2, sampleAt, dif_neg (by omega)]; simp
  let K := max (max mb (mh + m)) N
  rw [Finset.sum_subset (Finset.range_mono (le_max_left _ _ : max mb (mh + m) ≤ K)) fun k _ hk => z k (by simp at hk; omega) (by simp at hk; omega),
    Finset.sum_subset (Finset.range_mono (le_max_right _ _ : N ≤ K)) fun k _ hk => z k (by simp at hk; omega) (by simp at hk; omega)]

end samples

end Verif
