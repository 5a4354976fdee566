import Verif.Model.ComplexSpectral
import Verif.Spec.ComplexSpectral
import Verif.Props.Complex6
import Verif.Props.NuclearW
import Mathlib.Analysis.Matrix.Spectrum

/-! # C130: functions of the singular values of complex matrices -/

open scoped RealInnerProductSpace ComplexConjugate

set_option linter.unusedSectionVars false

namespace Verif

variable {ι κ ρ : Type} [Fintype ι] [Fintype κ] [Fintype ρ]

/-! ## Von Neumann's trace inequality -/

lemma bessel_prodC {α : Type} [Fintype α] {E F : Type*} [NormedAddCommGroup E] [InnerProductSpace ℂ E] [NormedAddCommGroup F]
    [InnerProductSpace ℂ F] {a : α → E} {b : α → F} (ha : Orthonormal ℂ a) (hb : Orthonormal ℂ b) (x : E) (y : F)
    (hx : ‖x‖ = 1) (hy : ‖y‖ = 1) : ∑ k, ‖inner ℂ (a k) x‖ * ‖inner ℂ (b k) y‖ ≤ 1 := by
  have h1 := ha.sum_inner_products_le (x := x) (s := Finset.univ)
  have h2 := hb.sum_inner_products_le (x := y) (s := Finset.univ)
  rw [hx] at h1; rw [hy] at h2
  have : ∑ k, ‖inner ℂ (a k) x‖ * ‖inner ℂ (b k) y‖ ≤ ∑ k, (‖inner ℂ (a k) x‖ ^ 2 / 2 + ‖inner ℂ (b k) y‖ ^ 2 / 2) :=
    Finset.sum_le_sum fun k _ => by nlinarith [sq_nonneg (‖inner ℂ (a k) x‖ - ‖inner ℂ (b k) y‖)]
  rw [Finset.sum_add_distrib, ← Finset.sum_div, ← Finset.sum_div] at this
  linarith

lemma isSVDC_recon {u : ρ → CVec ι} {s : ρ → ℝ} {vh : ρ → CVec κ} (hu : Orthonormal ℂ u) (hv : Orthonormal ℂ vh) (hs : ∀ k, 0 ≤ s k) :
    IsSVDC (reconC u s vh) u s vh := ⟨hu, hv, hs, fun _ _ => rfl⟩

/-- Von Neumann's trace inequality for complex matrices, up to the order of the singular values. -/
lemma von_neumannC {x y : CVec (ι × κ)} {u p : ρ → CVec ι} {s t : ρ → ℝ} {v q : ρ → CVec κ} (hx : IsSVDC x u s v) (hy : IsSVDC y p t q) :
    ∃ π : Equiv.Perm ρ, ⟪x, y⟫ ≤ ∑ k, s k * t (π k) := by
  have hvc := cconjRow_orthonormal hx.right
  have hqc := cconjRow_orthonormal hy.right
  obtain ⟨π, h⟩ := substoch_le_perm (fun k l => ‖inner ℂ (u k) (p l)‖ * ‖inner ℂ (cconjRow (v k)) (cconjRow (q l))‖) (fun _ _ => by positivity)
    (fun k => by
      have := bessel_prodC hy.left hqc (u k) (cconjRow (v k)) (hx.left.1 k) (hvc.1 k)
      refine le_trans (le_of_eq (Finset.sum_congr rfl fun l _ => ?_)) this
      rw [norm_inner_symm, norm_inner_symm (cconjRow (v k))])
    (fun l => bessel_prodC hx.left hvc (p l) (cconjRow (q l)) (hy.left.1 l) (hqc.1 l)) s t hx.nonneg hy.nonneg
  refine ⟨π, le_trans ?_ h⟩
  rw [hx.eq_recon, hy.eq_recon, inner_reconC, Finset.sum_comm]
  refine Finset.sum_le_sum fun l _ => ?_
  rw [creal_inner_eq, cMatVec_recon, sum_inner, Complex.re_sum, Finset.mul_sum]
  refine Finset.sum_le_sum fun k _ => ?_
  rw [inner_smul_left]
  have h1 : (conj ((s k : ℂ) * inner ℂ (cconjRow (v k)) (cconjRow (q l))) * inner ℂ (u k) (p l)).re ≤
      s k * (‖inner ℂ (u k) (p l)‖ * ‖inner ℂ (cconjRow (v k)) (cconjRow (q l))‖) := by
    refine (Complex.re_le_norm _).trans (le_of_eq ?_)
    rw [norm_mul, RCLike.norm_conj, norm_mul, Complex.norm_real, Real.norm_eq_abs, abs_of_nonneg (hx.nonneg k)]
    ring
  calc _ ≤ t l * (s k * (‖inner ℂ (u k) (p l)‖ * ‖inner ℂ (cconjRow (v k)) (cconjRow (q l))‖)) := mul_le_mul_of_nonneg_left h1 (hy.nonneg l)
    _ = _ := by ring

lemma reconC_norm_sq {u : ρ → CVec ι} {vh : ρ → CVec κ} (hu : Orthonormal ℂ u) (hv : Orthonormal ℂ vh) (t : ρ → ℝ) : ‖reconC u t vh‖ ^ 2 = ∑ k, t k ^ 2 := by
  rw [← real_inner_self_eq_norm_sq, recon_inner_recon hu hv]
  exact Finset.sum_congr rfl fun k _ => (pow_two _).symm

/-- The distance of two complex matrices is at least that of suitably matched singular values. -/
lemma svdC_dist {x y : CVec (ι × κ)} {u p : ρ → CVec ι} {s t : ρ → ℝ} {v q : ρ → CVec κ} (hx : IsSVDC x u s v) (hy : IsSVDC y p t q) :
    ∃ π : Equiv.Perm ρ, ∑ k, (t (π k) - s k) ^ 2 ≤ ‖y - x‖ ^ 2 := by
  obtain ⟨π, h⟩ := von_neumannC hx hy
  refine ⟨π, ?_⟩
  have e1 : ‖x‖ ^ 2 = ∑ k, s k ^ 2 := by rw [hx.eq_recon, reconC_norm_sq hx.left hx.right]
  have e2 : ‖y‖ ^ 2 = ∑ k, t (π k) ^ 2 := by rw [hy.eq_recon, reconC_norm_sq hy.left hy.right, ← Equiv.sum_comp π]
  have e3 : ∑ k, (t (π k) - s k) ^ 2 = ∑ k, t (π k) ^ 2 - 2 * ∑ k, s k * t (π k) + ∑ k, s k ^ 2 := by
    rw [Finset.mul_sum, ← Finset.sum_sub_distrib, ← Finset.sum_add_distrib]
    exact Finset.sum_congr rfl fun k _ => by ring
  rw [e3, norm_sub_sq_real y x, e1, e2, real_inner_comm]
  linarith

lemma svdC_unique {x : CVec (ι × κ)} {u p : ρ → CVec ι} {s t : ρ → ℝ} {v q : ρ → CVec κ} (hx : IsSVDC x u s v) (hy : IsSVDC x p t q) :
    ∃ π : Equiv.Perm ρ, ∀ k, t (π k) = s k := by
  obtain ⟨π, h⟩ := svdC_dist hx hy
  refine ⟨π, fun k => ?_⟩
  rw [sub_self, norm_zero] at h
  have h0 : ∑ k, (t (π k) - s k) ^ 2 = 0 := le_antisymm (by simpa using h) (Finset.sum_nonneg fun k _ => sq_nonneg _)
  have := (Finset.sum_eq_zero_iff_of_nonneg fun k _ => sq_nonneg _).1 h0 k (Finset.mem_univ k)
  exact sub_eq_zero.1 (pow_eq_zero_iff two_ne_zero |>.1 this)

/-- Moving the signs into the left vectors. -/
lemma reconC_abs {u : ρ → CVec ι} {vh : ρ → CVec κ} (hu : Orthonormal ℂ u) (hv : Orthonormal ℂ vh) (t : ρ → ℝ) :
    ∃ u' : ρ → CVec ι, IsSVDC (reconC u t vh) u' (fun k => |t k|) vh := by
  classical
  refine ⟨fun k => (if t k < 0 then (-1 : ℂ) else 1) • u k, ?_, hv, fun k => abs_nonneg _, fun i j => ?_⟩
  · rw [orthonormal_iff_ite] at hu ⊢
    intro a b
    rw [inner_smul_left, inner_smul_right, hu]
    by_cases hab : a = b
    · subst hab
      by_cases h : t a < 0 <;> simp [h]
    · rw [if_neg hab]; ring
  · simp only [reconC, cmk, PiLp.smul_apply, smul_eq_mul]
    refine Finset.sum_congr rfl fun k _ => ?_
    by_cases h : t k < 0
    · rw [if_pos h, abs_of_neg h]; push_cast; ring
    · rw [if_neg h, abs_of_nonneg (not_lt.1 h)]; ring

/-! ## Existence of decompositions -/

/-- `X v` as a linear map. -/
noncomputable def cMatLin (x : CVec (ι × κ)) : CVec κ →ₗ[ℂ] CVec ι where
  toFun := cMatVec x
  map_add' := fun v w => by
    ext i; simp [cMatVec, mul_add, Finset.sum_add_distrib]
  map_smul' := fun c v => by
    ext i; simp only [cMatVec, PiLp.smul_apply, smul_eq_mul, RingHom.id_apply, Finset.mul_sum]
    exact Finset.sum_congr rfl fun j _ => by ring

/-- `lam` are the eigenvalues of `Xᴴ X`. -/
def IsEigGramC (x : CVec (ι × κ)) (lam : κ → ℝ) : Prop :=
  ∃ q : κ → CVec κ, Orthonormal ℂ q ∧ ∀ k w, inner ℂ (cMatVec x (q k)) (cMatVec x w) = lam k * inner ℂ (q k) w

lemma exists_eigGramC (x : CVec (ι × κ)) : ∃ lam : κ → ℝ, IsEigGramC x lam := by
  classical
  have hsym : ((cMatLin x).adjoint ∘ₗ cMatLin x).IsSymmetric := by
    intro a b
    simp only [LinearMap.comp_apply, LinearMap.adjoint_inner_left, LinearMap.adjoint_inner_right]
  have hn : Module.finrank ℂ (CVec κ) = Fintype.card κ := by simp
  let e : κ ≃ Fin (Fintype.card κ) := Fintype.equivFin κ
  refine ⟨fun k => hsym.eigenvalues hn (e k), fun k => hsym.eigenvectorBasis hn (e k), ?_, ?_⟩
  · exact (hsym.eigenvectorBasis hn).orthonormal.comp _ e.injective
  · intro k w
    have h1 := hsym.apply_eigenvectorBasis hn (e k)
    have h2 : inner ℂ (cMatVec x (hsym.eigenvectorBasis hn (e k))) (cMatVec x w)
        = inner ℂ (((cMatLin x).adjoint ∘ₗ cMatLin x) (hsym.eigenvectorBasis hn (e k))) w := by
      simp only [LinearMap.comp_apply, LinearMap.adjoint_inner_left]
      rfl
    rw [h2, h1, inner_smul_left]
    simp

lemma eigGramC_nonneg {x : CVec (ι × κ)} {lam : κ → ℝ} (h : IsEigGramC x lam) (k : κ) : 0 ≤ lam k := by
  classical
  obtain ⟨q, hq, h⟩ := h
  have h1 := congrArg Complex.re (h k (q k))
  rw [orthonormal_iff_ite.1 hq k k, if_pos rfl, mul_one, Complex.ofReal_re] at h1
  rw [← h1]
  exact inner_self_nonneg (𝕜 := ℂ)

/-- From an eigen-decomposition of `Xᴴ X` to a singular value decomposition indexed by the non-zero eigenvalues. -/
lemma svdC_of_eigGram {x : CVec (ι × κ)} {lam : κ → ℝ} (h : IsEigGramC x lam) :
    ∃ (u : {k // lam k ≠ 0} → CVec ι) (v : {k // lam k ≠ 0} → CVec κ), IsSVDC x u (fun k => √(lam k)) v := by
  classical
  have hnn := eigGramC_nonneg h
  obtain ⟨q, hq, h⟩ := h
  have hcard : Fintype.card κ = Module.finrank ℂ (CVec κ) := by simp
  have hpos : ∀ k : {k // lam k ≠ 0}, 0 < lam k := fun k => lt_of_le_of_ne (hnn k) (Ne.symm k.2)
  refine ⟨fun k => ((1 / √(lam k) : ℝ) : ℂ) • cMatVec x (q k), fun k => cconjRow (q k), ?_, ?_, fun k => Real.sqrt_nonneg _, ?_⟩
  · rw [orthonormal_iff_ite]
    intro a b
    rw [inner_smul_left, inner_smul_right, h, orthonormal_iff_ite.1 hq, Complex.conj_ofReal]
    have hs := Real.sqrt_pos.2 (hpos a)
    have hsq := Real.mul_self_sqrt (hpos a).le
    by_cases hab : a = b
    · subst hab
      simp only [if_true, mul_one]
      rw [← Complex.ofReal_mul, ← Complex.ofReal_mul, ← Complex.ofReal_one]
      congr 1
      field_simp
      rw [pow_two, hsq]
    · rw [if_neg hab, if_neg (fun h => hab (Subtype.ext h))]; ring
  · exact (cconjRow_orthonormal hq).comp _ Subtype.val_injective
  · intro i j
    have : Nonempty κ := ⟨j⟩
    let b : OrthonormalBasis κ ℂ (CVec κ) := OrthonormalBasis.mk hq (by
      have := (basisOfOrthonormalOfCardEqFinrank hq hcard).span_eq
      rw [coe_basisOfOrthonormalOfCardEqFinrank] at this
      exact this.ge)
    have hb : ∀ k, b k = q k := fun k => by simp [b]
    have he : (EuclideanSpace.single j (1 : ℂ) : CVec κ) = ∑ k, conj (q k j) • q k := by
      have := (b.sum_repr' (EuclideanSpace.single j (1 : ℂ))).symm
      rw [this]
      refine Finset.sum_congr rfl fun k _ => ?_
      rw [hb, EuclideanSpace.inner_single_right]; simp
    have h1 : x (i, j) = cMatVec x (EuclideanSpace.single j 1) i := by
      simp [cMatVec]
    have h2 : cMatVec x (EuclideanSpace.single j 1) = ∑ k, conj (q k j) • cMatVec x (q k) := by
      rw [he]
      change cMatLin x _ = _
      rw [map_sum]
      exact Finset.sum_congr rfl fun k _ => map_smul _ _ _
    have h3 : ∀ k, lam k = 0 → cMatVec x (q k) = 0 := by
      intro k hk
      have := h k (q k)
      rw [hk, Complex.ofReal_zero, zero_mul, inner_self_eq_zero] at this
      exact this
    rw [h1, h2]
    simp only [WithLp.ofLp_sum, WithLp.ofLp_smul, Finset.sum_apply, Pi.smul_apply, smul_eq_mul]
    have h4 : ∀ k : {k // lam k ≠ 0}, ((1 / √(lam k) : ℝ) : ℂ) * cMatVec x (q k) i * (√(lam k) : ℝ) * cconjRow (q k) j = conj (q k j) * cMatVec x (q k) i := by
      intro k
      have hs := Real.sqrt_pos.2 (hpos k)
      have hc : ((1 / √(lam k) : ℝ) : ℂ) * ((√(lam k) : ℝ) : ℂ) = 1 := by
        rw [← Complex.ofReal_mul, one_div, inv_mul_cancel₀ hs.ne', Complex.ofReal_one]
      have hd : cconjRow (q k) j = conj (q k j) := rfl
      rw [hd]
      linear_combination (cMatVec x (q k) i * conj (q k j)) * hc
    rw [Finset.sum_congr rfl fun k _ => h4 k]
    rw [← Finset.sum_filter_add_sum_filter_not Finset.univ (fun k => lam k ≠ 0)]
    have h5 : ∑ k with ¬ lam k ≠ 0, conj (q k j) * cMatVec x (q k) i = 0 := by
      refine Finset.sum_eq_zero fun k hk => ?_
      simp only [ne_eq, not_not, Finset.mem_filter, Finset.mem_univ, true_and] at hk
      rw [h3 k hk]; simp
    rw [h5, add_zero]
    exact Finset.sum_subtype _ (by simp) _

lemma orthonormal_extendC {α : Type} (e : α ↪ ρ) (hle : Fintype.card ρ ≤ Fintype.card ι) {u : α → CVec ι} (hu : Orthonormal ℂ u) :
    ∃ u' : ρ → CVec ι, Orthonormal ℂ u' ∧ ∀ a, u' (e a) = u a := by
  classical
  obtain ⟨g⟩ := Function.Embedding.nonempty_of_card_le hle
  let f : α ↪ ι := e.trans g
  have hon : Orthonormal ℂ ((Set.range f).domRestrict (Function.extend f u 0)) := by
    have : ((Set.range f).domRestrict (Function.extend f u 0)) = u ∘ (fun i : Set.range f => (i.2 : ∃ a, f a = i).choose) := by
      funext i
      have hi := (i.2 : ∃ a, f a = i).choose_spec
      change Function.extend f u 0 i = _
      conv_lhs => rw [← hi]
      rw [f.injective.extend_apply]
      rfl
    rw [this]
    refine hu.comp _ ?_
    intro a b hab
    have ha := (a.2 : ∃ c, f c = a).choose_spec
    have hb := (b.2 : ∃ c, f c = b).choose_spec
    apply Subtype.ext
    rw [← ha, ← hb]
    exact congrArg f hab
  obtain ⟨b, hb⟩ := hon.exists_orthonormalBasis_extension_of_card_eq (by simp)
  refine ⟨fun k => b (g k), b.orthonormal.comp _ g.injective, fun a => ?_⟩
  have := hb (f a) ⟨a, rfl⟩
  change b (f a) = u a
  rw [this, f.injective.extend_apply]

lemma svdC_extend_of_eigGram {x : CVec (ι × κ)} (hρ : Fintype.card ρ = min (Fintype.card ι) (Fintype.card κ)) {lam : κ → ℝ}
    (hlam : IsEigGramC x lam) :
    ∃ (e : {k // lam k ≠ 0} ↪ ρ) (u : ρ → CVec ι) (v : ρ → CVec κ), IsSVDC x u (Function.extend e (fun a => √(lam a)) 0) v := by
  classical
  obtain ⟨u, v, h⟩ := svdC_of_eigGram hlam
  have hu := h.left.linearIndependent.fintype_card_le_finrank
  have hv := h.right.linearIndependent.fintype_card_le_finrank
  simp only [finrank_euclideanSpace] at hu hv
  obtain ⟨e⟩ : Nonempty ({k // lam k ≠ 0} ↪ ρ) := Function.Embedding.nonempty_of_card_le (by rw [hρ]; exact le_min hu hv)
  obtain ⟨u', hu', hue⟩ := orthonormal_extendC e (by rw [hρ]; exact min_le_left _ _) h.left
  obtain ⟨v', hv', hve⟩ := orthonormal_extendC e (by rw [hρ]; exact min_le_right _ _) h.right
  refine ⟨e, u', v', hu', hv', ?_, ?_⟩
  · intro k
    by_cases hk : ∃ a, e a = k
    · obtain ⟨a, rfl⟩ := hk
      rw [e.injective.extend_apply]; exact Real.sqrt_nonneg _
    · rw [Function.extend_apply' _ _ _ hk]; exact le_rfl
  · intro i j
    rw [h.sum i j, ← Finset.sum_subset (Finset.subset_univ (Finset.univ.map e)), Finset.sum_map]
    · refine Finset.sum_congr rfl fun a _ => ?_
      rw [hue, hve, e.injective.extend_apply]
    · intro k _ hk
      have : ¬ ∃ a, e a = k := by
        rintro ⟨a, rfl⟩; exact hk (Finset.mem_map_of_mem _ (Finset.mem_univ _))
      rw [Function.extend_apply' _ _ _ this]
      simp

lemma exists_svdC (x : CVec (ι × κ)) (hρ : Fintype.card ρ = min (Fintype.card ι) (Fintype.card κ)) :
    ∃ (u : ρ → CVec ι) (s : ρ → ℝ) (v : ρ → CVec κ), IsSVDC x u s v := by
  obtain ⟨lam, hlam⟩ := exists_eigGramC x
  obtain ⟨e, u, v, h⟩ := svdC_extend_of_eigGram hρ hlam
  exact ⟨u, _, v, h⟩

lemma svdC_sum_eig {x : CVec (ι × κ)} (hρ : Fintype.card ρ = min (Fintype.card ι) (Fintype.card κ)) {lam : κ → ℝ} (hlam : IsEigGramC x lam)
    {u : ρ → CVec ι} {s : ρ → ℝ} {v : ρ → CVec κ} (hx : IsSVDC x u s v) (g : ℝ → ℝ) (hg : g 0 = 0) : ∑ k, g (√(lam k)) = ∑ k, g (s k) := by
  classical
  obtain ⟨e, u', v', h⟩ := svdC_extend_of_eigGram hρ hlam
  obtain ⟨π, hπ⟩ := svdC_unique hx h
  rw [← Finset.sum_congr rfl fun k _ => congrArg g (hπ k), Equiv.sum_comp π (fun k => g (Function.extend e (fun a => √(lam a)) 0 k)),
    ← Finset.sum_subset (Finset.subset_univ (Finset.univ.map e)), Finset.sum_map]
  · rw [← Finset.sum_filter_add_sum_filter_not Finset.univ (fun k => lam k ≠ 0)]
    have h5 : ∑ k with ¬ lam k ≠ 0, g (√(lam k)) = 0 := by
      refine Finset.sum_eq_zero fun k hk => ?_
      simp only [ne_eq, not_not, Finset.mem_filter, Finset.mem_univ, true_and] at hk
      rw [hk, Real.sqrt_zero, hg]
    rw [h5, add_zero, Finset.sum_subtype (Finset.univ.filter fun k => lam k ≠ 0) (p := fun k => lam k ≠ 0) (by simp) (fun k => g (√(lam k)))]
    refine Finset.sum_congr rfl fun a _ => ?_
    rw [e.injective.extend_apply]
  · intro k _ hk
    have : ¬ ∃ a, e a = k := by
      rintro ⟨a, rfl⟩; exact hk (Finset.mem_map_of_mem _ (Finset.mem_univ _))
    rw [Function.extend_apply' _ _ _ this]
    exact hg

/-- C130: for every shape there are exact decompositions. -/
theorem exists_svdExactC (hρ : Fintype.card ρ = min (Fintype.card ι) (Fintype.card κ)) : ∃ svd : CVec (ι × κ) → SVDC ι κ ρ, SvdExactC svd := by
  choose u s v h using fun x : CVec (ι × κ) => exists_svdC x hρ
  exact ⟨fun x => ⟨u x, s x, v x⟩, h⟩

/-! ## SingularValuePenalty -/

/-- C130: if the penalty's `prox` is exact for a function `φ` of vectors that ignores the order and the signs of the entries, then `SingularValuePenalty.prox` is exact on complex matrices for the
function `Y ↦ φ(singular values of Y)`. -/
theorem C130_prox (svd : CVec (ι × κ) → SVDC ι κ ρ) (hsvd : SvdExactC svd) (eigvalsh : Matrix κ κ ℂ → κ → ℝ) (penCall : Vec κ → Py CallVal) (pen : ProxOp (Vec ρ)) (φ : XFun (Vec ρ))
    (F : XFun (CVec (ι × κ)))
    (hF : ∀ y (u : ρ → CVec ι) (s : ρ → ℝ) (v : ρ → CVec κ), IsSVDC y u s v → ((y ∈ F.dom ↔ vmk s ∈ φ.dom) ∧ F.val y = φ.val (vmk s)))
    (hperm : ∀ (π : Equiv.Perm ρ) (s : Vec ρ), s ∈ φ.dom → (vmk fun k => s (π k) : Vec ρ) ∈ φ.dom ∧ φ.val (vmk fun k => s (π k)) = φ.val s)
    (hsign : ∀ s : Vec ρ, s ∈ φ.dom → (vmk fun k => |s k| : Vec ρ) ∈ φ.dom ∧ φ.val (vmk fun k => |s k|) = φ.val s)
    (hpen : ProxExact pen φ) : ProxExact (SingularValuePenaltyCx svd eigvalsh penCall pen) F := by
  intro x τ hτ
  obtain ⟨t, ht, htp⟩ := hpen (vmk (svd x).s) τ hτ
  have hx := hsvd x
  refine ⟨reconC (svd x).u (fun k => t k) (svd x).vh, ?_, ?_⟩
  · rw [prox_of_some (f := SingularValuePenaltyCx svd eigvalsh penCall pen) rfl]
    simp only [checkTau_pos hτ, ht, bind, Except.bind, pure, Except.pure]
  obtain ⟨u', hP⟩ := reconC_abs hx.left hx.right fun k => t k
  obtain ⟨hd, hv⟩ := hF _ _ _ _ hP
  obtain ⟨hs1, hs2⟩ := hsign t htp.1
  refine ⟨hd.2 hs1, fun y hy => ?_⟩
  have hy' := hsvd y
  obtain ⟨hyd, hyv⟩ := hF _ _ _ _ hy'
  obtain ⟨π, hπ⟩ := svdC_dist hx hy'
  obtain ⟨hp1, hp2⟩ := hperm π (vmk (svd y).s) (hyd.1 hy)
  have hmin := htp.2 _ hp1
  unfold proxObj at hmin ⊢
  rw [hv, hs2, hyv]
  have e1 : ‖reconC (svd x).u (fun k => t k) (svd x).vh - x‖ ^ 2 = ‖t - vmk (svd x).s‖ ^ 2 := by
    have e : ∀ z, z = reconC (svd x).u (svd x).s (svd x).vh → reconC (svd x).u (fun k => t k) (svd x).vh - z = reconC (svd x).u (fun k => t k - (svd x).s k) (svd x).vh := fun z hz => by
      rw [hz, reconC_sub]
    rw [e x hx.eq_recon, reconC_norm_sq hx.left hx.right, EuclideanSpace.norm_sq_eq]
    exact Finset.sum_congr rfl fun k _ => by simp
  have e2 : ‖(vmk fun k => (svd y).s (π k) : Vec ρ) - vmk (svd x).s‖ ^ 2 = ∑ k, ((svd y).s (π k) - (svd x).s k) ^ 2 := by
    rw [EuclideanSpace.norm_sq_eq]
    exact Finset.sum_congr rfl fun k _ => by simp
  rw [e1]
  refine hmin.trans ?_
  rw [hp2]
  have : ‖(vmk fun k => (svd y).s (π k) : Vec ρ) - vmk (svd x).s‖ ^ 2 / (2 * τ) ≤ ‖y - x‖ ^ 2 / (2 * τ) := by
    rw [e2]; gcongr
  exact add_le_add le_rfl this

/-- C130: the function of complex matrices induced by a function of vectors that ignores the order of the entries exists. -/
theorem C130_spectral_function_exists (hρ : Fintype.card ρ = min (Fintype.card ι) (Fintype.card κ)) (φ : XFun (Vec ρ))
    (hperm : ∀ (π : Equiv.Perm ρ) (s : Vec ρ), s ∈ φ.dom → (vmk fun k => s (π k) : Vec ρ) ∈ φ.dom)
    (hval : ∀ (π : Equiv.Perm ρ) (s : Vec ρ), φ.val (vmk fun k => s (π k)) = φ.val s) :
    ∃ F : XFun (CVec (ι × κ)), ∀ y (u : ρ → CVec ι) (s : ρ → ℝ) (v : ρ → CVec κ), IsSVDC y u s v →
      ((y ∈ F.dom ↔ vmk s ∈ φ.dom) ∧ F.val y = φ.val (vmk s)) := by
  choose u s v h using fun x : CVec (ι × κ) => exists_svdC x hρ
  refine ⟨⟨{y | vmk (s y) ∈ φ.dom}, fun y => φ.val (vmk (s y))⟩, fun y u' s' v' h' => ?_⟩
  obtain ⟨π, hπ⟩ := svdC_unique (h y) h'
  have e1 : (vmk fun k => s' (π k) : Vec ρ) = vmk (s y) := by ext k; exact hπ k
  obtain ⟨π', hπ'⟩ := svdC_unique h' (h y)
  have e2 : (vmk fun k => s y (π' k) : Vec ρ) = vmk s' := by ext k; exact hπ' k
  refine ⟨⟨fun hd => ?_, fun hd => ?_⟩, ?_⟩
  · rw [← e2]; exact hperm π' (vmk (s y)) hd
  · change vmk (s y) ∈ φ.dom
    rw [← e1]; exact hperm π (vmk s') hd
  · change φ.val (vmk (s y)) = _
    rw [← e1]; exact hval π (vmk s')

/-! ## Values -/

/-- What is assumed of `np.linalg.eigvalsh`: the eigenvalues of a Hermitian matrix, in ascending order when the columns are numbered. -/
def EigvalshExact (eigvalsh : Matrix κ κ ℂ → κ → ℝ) : Prop := ∀ A : Matrix κ κ ℂ, A.IsHermitian → IsEigList A (eigvalsh A)

lemma plainGram_real {x : CVec (ι × κ)} (hx : RealEntries x) : (plainGram x).IsHermitian := by
  ext a b
  rw [Matrix.conjTranspose_apply]
  simp only [plainGram, star_sum, star_mul']
  refine Finset.sum_congr rfl fun i _ => ?_
  have h1 : star (x (i, a)) = x (i, a) := Complex.conj_eq_iff_im.2 (hx _)
  have h2 : star (x (i, b)) = x (i, b) := Complex.conj_eq_iff_im.2 (hx _)
  rw [h1, h2, mul_comm]

lemma eigGramC_real {x : CVec (ι × κ)} (hx : RealEntries x) {lam : κ → ℝ} (h : IsEigList (plainGram x) lam) : IsEigGramC x lam := by
  obtain ⟨q, hq, h⟩ := h
  refine ⟨q, hq, fun k w => ?_⟩
  have hr : ∀ p, conj (x p) = x p := fun p => Complex.conj_eq_iff_im.2 (hx p)
  have e1 : ∀ b, ∑ a, conj (q k a) * ∑ i, x (i, a) * x (i, b) = lam k * conj (q k b) := fun b => by
    have := congrArg conj (h k b)
    simp only [plainGram, map_sum, map_mul, hr, Complex.conj_ofReal] at this
    rw [← this]
    refine Finset.sum_congr rfl fun a _ => ?_
    rw [mul_comm]
    exact congrArg (· * _) (Finset.sum_congr rfl fun i _ => mul_comm _ _)
  rw [ccomplex_inner, ccomplex_inner, Finset.mul_sum]
  simp only [cMatVec, map_sum, map_mul, hr]
  simp only [← mul_assoc, ← e1, Finset.sum_mul, Finset.mul_sum]
  rw [Finset.sum_comm]
  refine Finset.sum_congr rfl fun b _ => ?_
  rw [Finset.sum_comm]
  exact Finset.sum_congr rfl fun a _ => Finset.sum_congr rfl fun i _ => by ring

lemma rootEigs_real {eigvalsh : Matrix κ κ ℂ → κ → ℝ} (he : EigvalshExact eigvalsh) {x : CVec (ι × κ)} (hx : RealEntries x) :
    IsEigGramC x (eigvalsh (plainGram x)) ∧ rootEigs eigvalsh x = fun k => √(eigvalsh (plainGram x) k) := by
  have h := eigGramC_real hx (he _ (plainGram_real hx))
  refine ⟨h, funext fun k => ?_⟩
  rw [rootEigs, if_neg (not_lt.2 (eigGramC_nonneg h k))]

/-- C130, partial: for a complex array that holds a real matrix, the value sums the per-entry function `g` with `g 0 = 0` over the singular values.  Missing: matrices that are not real, where it is false
(`C130_call_refuted`). -/
theorem C130_call_real_partial (hρ : Fintype.card ρ = min (Fintype.card ι) (Fintype.card κ)) (svd : CVec (ι × κ) → SVDC ι κ ρ) {eigvalsh : Matrix κ κ ℂ → κ → ℝ} (he : EigvalshExact eigvalsh)
    (g : ℝ → ℝ) (hg : g 0 = 0) (penCall : Vec κ → Py CallVal) (hpen : ∀ s, penCall s = .ok (.num (∑ k, g (s k)))) (pen : ProxOp (Vec ρ)) {x : CVec (ι × κ)} (hx : RealEntries x)
    {u : ρ → CVec ι} {s : ρ → ℝ} {v : ρ → CVec κ} (hs : IsSVDC x u s v) : (SingularValuePenaltyCx svd eigvalsh penCall pen).call x = .ok (.num (∑ k, g (s k))) := by
  obtain ⟨h1, h2⟩ := rootEigs_real he hx
  simp only [SingularValuePenaltyCx, hpen, h2]
  rw [← svdC_sum_eig hρ h1 hs g hg]

/-- The `2 x 1` matrix `(t, i t)`. -/
noncomputable def twistCol (t : ℝ) : CVec (Fin 2 × Fin 1) := cmk fun p => if p.1 = 0 then (t : ℂ) else t * Complex.I

lemma plainGram_twistCol (t : ℝ) : plainGram (twistCol t) = 0 := by
  ext a b
  rw [plainGram, Fin.sum_univ_two]
  simp only [twistCol, cmk, Matrix.zero_apply]
  rw [if_pos trivial, if_neg (by decide)]
  have : (t : ℂ) * t + t * Complex.I * (t * Complex.I) = t ^ 2 * (1 + Complex.I ^ 2) := by ring
  rw [this, Complex.I_sq]; simp

/-- C130, refutation for the value: the matrix `(t, i t)` has the singular value `sqrt 2 * |t|`, but the value is that of the zero matrix, for every penalty, since `X.T @ X` (not conjugated) is zero. -/
theorem C130_call_refuted (svd : CVec (Fin 2 × Fin 1) → SVDC (Fin 2) (Fin 1) ρ) {eigvalsh : Matrix (Fin 1) (Fin 1) ℂ → Fin 1 → ℝ} (h0 : ∀ k, eigvalsh 0 k = 0) (penCall : Vec (Fin 1) → Py CallVal)
    (pen : ProxOp (Vec ρ)) (t : ℝ) :
    (SingularValuePenaltyCx svd eigvalsh penCall pen).call (twistCol t) = penCall (vmk fun _ => 0) ∧
      ∀ (u : Fin 1 → CVec (Fin 2)) (s : Fin 1 → ℝ) (v : Fin 1 → CVec (Fin 1)), IsSVDC (twistCol t) u s v → s 0 = √2 * |t| := by
  have hz : rootEigs eigvalsh (twistCol t) = fun _ => 0 := by
    ext k
    simp [rootEigs, plainGram_twistCol, h0]
  refine ⟨by simp only [SingularValuePenaltyCx, hz], fun u s v h => ?_⟩
  have h1 := reconC_norm_sq h.left h.right s
  rw [← h.eq_recon, Finset.univ_unique, Finset.sum_singleton, EuclideanSpace.norm_sq_eq, Fintype.sum_prod_type, Fin.sum_univ_two] at h1
  simp only [Finset.univ_unique, Finset.sum_singleton, twistCol, cmk] at h1
  rw [if_pos trivial, if_neg (by decide), norm_mul, Complex.norm_I, mul_one, Complex.norm_real, Real.norm_eq_abs, sq_abs] at h1
  refine (sq_eq_sq₀ (h.nonneg 0) (by positivity)).1 ?_
  rw [mul_pow, Real.sq_sqrt (by norm_num), sq_abs]
  have h2 : (default : Fin 1) = 0 := rfl
  rw [h2] at h1
  linarith

/-! ## Nuclear with an array `sigma` -/

variable {r M N : ℕ}

lemma svdC_perm {x : CVec (ι × κ)} {u : Fin r → CVec ι} {s : Fin r → ℝ} {v : Fin r → CVec κ} (h : IsSVDC x u s v) (π : Equiv.Perm (Fin r)) :
    IsSVDC x (u ∘ π) (s ∘ π) (v ∘ π) := by
  refine ⟨h.left.comp _ π.injective, h.right.comp _ π.injective, fun k => h.nonneg _, fun i j => ?_⟩
  rw [h.sum i j, ← Equiv.sum_comp π]
  rfl

lemma exists_sorted_svdC (hr : r = min (Fintype.card ι) (Fintype.card κ)) (x : CVec (ι × κ)) :
    ∃ (u : Fin r → CVec ι) (s : Fin r → ℝ) (v : Fin r → CVec κ), IsSVDC x u s v ∧ Antitone s := by
  obtain ⟨u, s, v, h⟩ := exists_svdC (ρ := Fin r) x (by simpa using hr)
  refine ⟨_, _, _, svdC_perm h (Tuple.sort fun k => - s k), fun a b hab => ?_⟩
  have := Tuple.monotone_sort (fun k => - s k) hab
  simpa using this

lemma sorted_svdC_unique {x : CVec (ι × κ)} {u p : Fin r → CVec ι} {s t : Fin r → ℝ} {v q : Fin r → CVec κ} (hx : IsSVDC x u s v) (hy : IsSVDC x p t q) (hs : Antitone s)
    (ht : Antitone t) : s = t := by
  obtain ⟨π, hπ⟩ := svdC_unique hx hy
  have e : t ∘ π = s := funext hπ
  have := Tuple.unique_antitone (f := t) (σ := π) (τ := 1) (by rw [e]; exact hs) (by simpa using ht)
  rw [← e, this]
  rfl

lemma sorted_svdC_dist {x y : CVec (ι × κ)} {u p : Fin r → CVec ι} {s t : Fin r → ℝ} {v q : Fin r → CVec κ} (hx : IsSVDC x u s v) (hy : IsSVDC y p t q) (hs : Antitone s)
    (ht : Antitone t) : ∑ k, (t k - s k) ^ 2 ≤ ‖y - x‖ ^ 2 := by
  obtain ⟨π, h⟩ := von_neumannC hx hy
  have h2 : ∑ k, s k * t (π k) ≤ ∑ k, s k * t k := (hs.monovary ht).sum_mul_comp_perm_le_sum_mul
  have e1 : ‖x‖ ^ 2 = ∑ k, s k ^ 2 := by rw [hx.eq_recon, reconC_norm_sq hx.left hx.right]
  have e2 : ‖y‖ ^ 2 = ∑ k, t k ^ 2 := by rw [hy.eq_recon, reconC_norm_sq hy.left hy.right]
  have e3 : ∑ k, (t k - s k) ^ 2 = ∑ k, t k ^ 2 - 2 * ∑ k, s k * t k + ∑ k, s k ^ 2 := by
    rw [Finset.mul_sum, ← Finset.sum_sub_distrib, ← Finset.sum_add_distrib]
    exact Finset.sum_congr rfl fun k _ => by ring
  rw [e3, norm_sub_sq_real y x, e1, e2, real_inner_comm]
  linarith

lemma reconC_dist {x : CVec (ι × κ)} {u : Fin r → CVec ι} {s : Fin r → ℝ} {v : Fin r → CVec κ} (hx : IsSVDC x u s v) (t : Fin r → ℝ) :
    ‖reconC u t v - x‖ ^ 2 = ∑ k, (t k - s k) ^ 2 := by
  rw [hx.eq_recon, reconC_sub, reconC_norm_sq hx.left hx.right]

/-- C130: there is exactly one function of complex matrices that is the weighted nuclear norm. -/
theorem C130_weighted_norm_exists (hr : r = min (Fintype.card ι) (Fintype.card κ)) (w : Fin r → ℝ) : ∃! f : CVec (ι × κ) → ℝ, IsWeightedNucC w f := by
  choose u s v h hs using fun x : CVec (ι × κ) => exists_sorted_svdC hr x
  refine ⟨fun x => ∑ k, w k * s x k, fun x u' s' v' h' hs' => ?_, fun g hg => ?_⟩
  · simp only [sorted_svdC_unique (h x) h' (hs x) hs']
  · ext x
    exact hg x _ _ _ (h x) (hs x)

/-- What is assumed of `np.linalg.svd` in addition: the singular values are returned in descending order. -/
def SvdDescendingC (svd : CVec (ι × κ) → SVDC ι κ (Fin r)) : Prop := SvdExactC svd ∧ ∀ x, Antitone (svd x).s

lemma weighted_prox_eqC {svd : CVec (Fin M × Fin N) → SVDC (Fin M) (Fin N) (Fin r)} (eigvalsh : Matrix (Fin N) (Fin N) ℂ → Fin N → ℝ) {sigma : List ℝ} (h1 : 1 < sigma.length) (hl : r ≤ sigma.length)
    (x : CVec (Fin M × Fin N)) {τ : ℝ} (hτ : 0 < τ) :
    (NuclearWCx svd eigvalsh sigma).prox x τ = .ok (reconC (svd x).u (fun k => softScalar ((svd x).s k) (τ * sigma.getD k 0)) (svd x).vh) := by
  simp only [NuclearWCx, ProxOp.prox, checkTau_pos hτ, if_pos h1]
  have hlen : (List.ofFn (svd x).s).length = ((sigma.take r).map (τ * ·)).length := by simp [hl]
  rw [npBroadcast, if_pos hlen]
  simp only [Bind.bind, Except.bind]
  rw [if_pos (by simp [hl])]
  simp only [Pure.pure, Except.pure]
  congr 2
  ext k
  have hk : (k : ℕ) < sigma.length := by omega
  rw [getD_of_lt (by simp; omega), getD_of_lt hk]
  simp

/-- C130, partial: on complex matrices `prox` with an array `sigma` returns a global minimiser of `Σ σ_i λ_i(Y) + ‖Y-X‖²/(2 tau)` whenever the shrunk singular values are still in descending order. -/
theorem C130_weighted_ordered_partial (hr : r = min M N) {svd : CVec (Fin M × Fin N) → SVDC (Fin M) (Fin N) (Fin r)} (hsvd : SvdDescendingC svd) (eigvalsh : Matrix (Fin N) (Fin N) ℂ → Fin N → ℝ) {sigma : List ℝ}
    (h1 : 1 < sigma.length) (hl : r ≤ sigma.length) (hpos : ∀ a ∈ sigma, 0 ≤ a) {f : CVec (Fin M × Fin N) → ℝ} (hf : IsWeightedNucC (fun k : Fin r => sigma.getD k 0) f)
    (x : CVec (Fin M × Fin N)) {τ : ℝ} (hτ : 0 < τ) (hord : Antitone fun k : Fin r => max ((svd x).s k - τ * sigma.getD k 0) 0) :
    ∃ p, (NuclearWCx svd eigvalsh sigma).prox x τ = .ok p ∧ IsProx (.ofReal f) τ x p := by
  refine ⟨_, weighted_prox_eqC eigvalsh h1 hl x hτ, trivial, fun y _ => ?_⟩
  have hS := hsvd.1 x
  have hw : ∀ k : Fin r, 0 ≤ sigma.getD k 0 := fun k => by
    have hk : (k : ℕ) < sigma.length := by omega
    rw [getD_of_lt hk]
    exact hpos _ (List.getElem_mem _)
  have hsoft : ∀ k, softScalar ((svd x).s k) (τ * sigma.getD k 0) = max ((svd x).s k - τ * sigma.getD k 0) 0 := fun k => by
    unfold softScalar npsign
    rw [abs_of_nonneg (hS.nonneg k)]
    rcases (hS.nonneg k).eq_or_lt with h | h
    · rw [← h]
      have := mul_nonneg hτ.le (hw k)
      rw [max_eq_right (by linarith), zero_mul]
    · rw [if_pos h, mul_one]
  obtain ⟨p, t, q, hy, ht⟩ := exists_sorted_svdC (r := r) (by simpa using hr) y
  have hP : IsSVDC (reconC (svd x).u (fun k => softScalar ((svd x).s k) (τ * sigma.getD k 0)) (svd x).vh) _ _ _ :=
    isSVDC_recon hS.left hS.right fun k => by rw [hsoft]; exact le_max_right _ _
  have e1 := hf _ _ _ _ hP (by simpa only [hsoft] using hord)
  have e2 := hf _ _ _ _ hy ht
  have h3 := sorted_svdC_dist hS hy (hsvd.2 x) ht
  simp only [proxObj, XFun.ofReal]
  rw [e1, e2, reconC_dist hS]
  calc _ = ∑ k : Fin r, (sigma.getD k 0 * softScalar ((svd x).s k) (τ * sigma.getD k 0) + (softScalar ((svd x).s k) (τ * sigma.getD k 0) - (svd x).s k) ^ 2 / (2 * τ)) := by
        rw [Finset.sum_add_distrib, Finset.sum_div]
    _ ≤ ∑ k : Fin r, (sigma.getD k 0 * t k + (t k - (svd x).s k) ^ 2 / (2 * τ)) := Finset.sum_le_sum fun k _ => soft_scalar_min (hS.nonneg k) (hw k) hτ _ (hy.nonneg k)
    _ = ∑ k : Fin r, sigma.getD k 0 * t k + (∑ k, (t k - (svd x).s k) ^ 2) / (2 * τ) := by rw [Finset.sum_add_distrib, Finset.sum_div]
    _ ≤ _ := by gcongr

/-- C130, partial: for non-descending weights, `prox` returns a global minimiser for every complex matrix and step. -/
theorem C130_weighted_nondescending_partial (hr : r = min M N) {svd : CVec (Fin M × Fin N) → SVDC (Fin M) (Fin N) (Fin r)} (hsvd : SvdDescendingC svd) (eigvalsh : Matrix (Fin N) (Fin N) ℂ → Fin N → ℝ) {sigma : List ℝ}
    (h1 : 1 < sigma.length) (hl : r ≤ sigma.length) (hpos : ∀ a ∈ sigma, 0 ≤ a) (hmono : sigma.SortedLE) {f : CVec (Fin M × Fin N) → ℝ}
    (hf : IsWeightedNucC (fun k : Fin r => sigma.getD k 0) f) (x : CVec (Fin M × Fin N)) {τ : ℝ} (hτ : 0 < τ) :
    ∃ p, (NuclearWCx svd eigvalsh sigma).prox x τ = .ok p ∧ IsProx (.ofReal f) τ x p := by
  refine C130_weighted_ordered_partial hr hsvd eigvalsh h1 hl hpos hf x hτ fun a b hab => ?_
  have h2 := hsvd.2 x hab
  have h3 : sigma.getD a 0 ≤ sigma.getD b 0 := by
    have ha : (a : ℕ) < sigma.length := by omega
    have hb : (b : ℕ) < sigma.length := by omega
    rw [getD_of_lt ha, getD_of_lt hb]
    exact hmono.getElem_le_getElem_of_le (by simpa using hab)
  have := mul_le_mul_of_nonneg_left h3 hτ.le
  exact max_le_max (by linarith) le_rfl

/-- C130: if some weight is larger than the next one, in particular for the non-ascending weights for which the function is convex, there are matrices of every size for which the result of `prox`
is not a minimiser. -/
theorem C130_weighted_order_refuted (hr : r = min M N) {svd : CVec (Fin M × Fin N) → SVDC (Fin M) (Fin N) (Fin r)} (hsvd : SvdDescendingC svd) (eigvalsh : Matrix (Fin N) (Fin N) ℂ → Fin N → ℝ) {sigma : List ℝ}
    (h1 : 1 < sigma.length) (hl : r ≤ sigma.length) (hpos : ∀ a ∈ sigma, 0 ≤ a) {k : ℕ} (hk : k + 1 < r) (hdesc : sigma.getD (k + 1) 0 < sigma.getD k 0) {f : CVec (Fin M × Fin N) → ℝ}
    (hf : IsWeightedNucC (fun k : Fin r => sigma.getD k 0) f) {τ : ℝ} (hτ : 0 < τ) :
    ∃ x p, (NuclearWCx svd eigvalsh sigma).prox x τ = .ok p ∧ ¬ IsProx (.ofReal f) τ x p := by
  set w : ℕ → ℝ := fun i => sigma.getD i 0 with hwdef
  have hw : ∀ i, 0 ≤ w i := fun i => by
    by_cases hi : i < sigma.length
    · simp only [hwdef]; rw [getD_of_lt hi]; exact hpos _ (List.getElem_mem _)
    · simp [hwdef, List.getD_eq_getElem?_getD, not_lt.1 hi]
  set D : ℝ := τ * (∑ i ∈ Finset.range (r + 1), w i) with hD
  have hwD : ∀ i, i ≤ r → τ * w i ≤ D := fun i hi =>
    mul_le_mul_of_nonneg_left (Finset.single_le_sum (f := w) (fun j _ => hw j) (by simp; omega)) hτ.le
  have hD0 : 0 < D := by
    have := hwD k (by omega)
    have h2 : 0 < w k := lt_of_le_of_lt (hw (k + 1)) hdesc
    have := mul_pos hτ h2
    linarith
  -- an SVD with these singular values
  obtain ⟨u0, s00, v0, h0⟩ := exists_svdC (ρ := Fin r) (0 : CVec (Fin M × Fin N)) (by simpa using hr)
  have hs0 : ∀ i : Fin r, 0 ≤ descentVals k D i := fun i => by
    unfold descentVals; split_ifs <;> positivity
  have hanti : Antitone (descentVals k D : Fin r → ℝ) := by
    intro a b hab
    have hab' : (a : ℕ) ≤ b := hab
    unfold descentVals
    by_cases hb : (b : ℕ) ≤ k
    · rw [if_pos hb, if_pos (by omega)]
      have : ((k - b : ℕ) : ℝ) ≤ ((k - a : ℕ) : ℝ) := by exact_mod_cast (by omega)
      nlinarith
    · rw [if_neg hb]
      by_cases hb2 : (b : ℕ) = k + 1
      · rw [if_pos hb2]
        by_cases ha : (a : ℕ) ≤ k
        · rw [if_pos ha]
          have : (0 : ℝ) ≤ ((k - a : ℕ) : ℝ) := Nat.cast_nonneg _
          nlinarith
        · rw [if_neg ha, if_pos (by omega)]
      · rw [if_neg hb2]
        split_ifs <;> positivity
  set x : CVec (Fin M × Fin N) := reconC u0 (descentVals k D) v0 with hx
  have hxs : (svd x).s = descentVals k D := sorted_svdC_unique (hsvd.1 x) (isSVDC_recon h0.left h0.right hs0) (hsvd.2 x) hanti
  have hS := hsvd.1 x
  rw [hxs] at hS
  refine ⟨x, _, weighted_prox_eqC eigvalsh h1 hl x hτ, fun hcon => ?_⟩
  have hwr : ∀ i, i ≤ r → 0 ≤ τ * w i ∧ τ * w i ≤ D := fun i hi => ⟨mul_nonneg hτ.le (hw i), hwD i hi⟩
  have hsoft : (fun i : Fin r => softScalar ((svd x).s i) (τ * sigma.getD i 0)) = descentShrunk k D τ w (2 * D - τ * w k) (2 * D - τ * w (k + 1)) := by
    ext i
    have hi := hwr i (by omega)
    have hi2 : sigma.getD i 0 = w i := rfl
    rw [hxs, hi2]
    have key : ∀ s : ℝ, 2 * D ≤ s → softScalar s (τ * w i) = s - τ * w i := fun s hs => by
      unfold softScalar npsign
      rw [abs_of_pos (by linarith), if_pos (by linarith), mul_one, max_eq_left (by linarith)]
    unfold descentVals descentShrunk
    have hc : (0 : ℝ) ≤ ((k - i : ℕ) : ℝ) := Nat.cast_nonneg _
    by_cases h3 : (i : ℕ) < k
    · rw [if_pos h3, if_pos (by omega), key _ (by nlinarith)]
    · rw [if_neg h3]
      by_cases h4 : (i : ℕ) = k
      · rw [if_pos h4, if_pos (by omega), key _ (by nlinarith), h4]
        simp
      · rw [if_neg h4, if_neg (by omega)]
        by_cases h5 : (i : ℕ) = k + 1
        · rw [if_pos h5, if_pos h5, key _ le_rfl, h5]
        · rw [if_neg h5, if_neg h5]
          simp [softScalar, npsign]
  rw [hsoft] at hcon
  set c := 2 * D - τ * ((w k + w (k + 1)) / 2) with hc
  have hwk := hwr k (by omega)
  have hwk1 := hwr (k + 1) (by omega)
  have hlt : τ * w (k + 1) < τ * w k := mul_lt_mul_of_pos_left hdesc hτ
  have hnn : ∀ α β : ℝ, 0 ≤ α → 0 ≤ β → ∀ i : Fin r, 0 ≤ descentShrunk k D τ w α β i := by
    intro α β hα hβ i
    have hi := hwr i (by omega)
    have hc : (0 : ℝ) ≤ ((k - i : ℕ) : ℝ) := Nat.cast_nonneg _
    unfold descentShrunk
    split_ifs <;> first | nlinarith | assumption | exact le_rfl
  have hP := svdC_perm (isSVDC_recon hS.left hS.right (hnn (2 * D - τ * w k) (2 * D - τ * w (k + 1)) (by linarith) (by linarith))) (Equiv.swap ⟨k, by omega⟩ ⟨k + 1, hk⟩)
  rw [descentShrunk_swap hk] at hP
  have eP := hf _ _ _ _ hP (descentShrunk_antitone hD0 hwr (by linarith) (by linarith) (by linarith))
  have hY := isSVDC_recon hS.left hS.right (hnn c c (by rw [hc]; linarith) (by rw [hc]; linarith))
  have eY := hf _ _ _ _ hY (descentShrunk_antitone hD0 hwr (by rw [hc]; linarith) le_rfl (by rw [hc]; linarith))
  have h := hcon.2 (reconC (svd x).u (descentShrunk k D τ w c c) (svd x).vh) trivial
  simp only [proxObj, XFun.ofReal] at h
  rw [eP, eY, reconC_dist hS, reconC_dist hS, Finset.sum_div, Finset.sum_div, ← Finset.sum_add_distrib, ← Finset.sum_add_distrib, ← sub_nonneg, ← Finset.sum_sub_distrib,
    Finset.sum_eq_add (⟨k, by omega⟩ : Fin r) ⟨k + 1, hk⟩ (by simp)] at h
  · simp only [descentShrunk, descentVals, lt_irrefl, if_false, if_true, le_refl, Nat.not_succ_lt_self, Nat.succ_ne_self, Nat.sub_self, Nat.cast_zero, add_zero,
      show ¬ k + 1 ≤ k by omega, show ¬ k + 1 < k by omega, show ¬ k + 1 = k by omega] at h
    have hw1 : sigma.getD k 0 = w k := rfl
    have hw2 : sigma.getD (k + 1) 0 = w (k + 1) := rfl
    rw [hw1, hw2, hc] at h
    have e : (w k * (2 * D - τ * ((w k + w (k + 1)) / 2)) + (2 * D - τ * ((w k + w (k + 1)) / 2) - 2 * D) ^ 2 / (2 * τ) -
          (w k * (2 * D - τ * w (k + 1)) + (2 * D - τ * w k - 2 * D) ^ 2 / (2 * τ)) +
        (w (k + 1) * (2 * D - τ * ((w k + w (k + 1)) / 2)) + (2 * D - τ * ((w k + w (k + 1)) / 2) - 2 * D) ^ 2 / (2 * τ) -
          (w (k + 1) * (2 * D - τ * w k) + (2 * D - τ * w (k + 1) - 2 * D) ^ 2 / (2 * τ)))) = - (3 / 4 * τ * (w k - w (k + 1)) ^ 2) := by
      field_simp
      ring
    have hpos2 : 0 < 3 / 4 * τ * (w k - w (k + 1)) ^ 2 := by
      have : 0 < w k - w (k + 1) := sub_pos.2 hdesc
      positivity
    linarith [e ▸ h]
  · intro i _ hi
    have h1' : (i : ℕ) ≠ k := fun h => hi.1 (Fin.ext h)
    have h2' : (i : ℕ) ≠ k + 1 := fun h => hi.2 (Fin.ext h)
    simp [descentShrunk, h1', h2']
  · simp
  · simp

/-- C130: fewer weights than singular values (but more than one) are rejected by `prox`. -/
theorem C130_weighted_short (svd : CVec (Fin M × Fin N) → SVDC (Fin M) (Fin N) (Fin r)) (eigvalsh : Matrix (Fin N) (Fin N) ℂ → Fin N → ℝ) {sigma : List ℝ} (h1 : 1 < sigma.length) (hl : sigma.length < r)
    (x : CVec (Fin M × Fin N)) {τ : ℝ} (hτ : 0 < τ) : (NuclearWCx svd eigvalsh sigma).prox x τ = .error .valueError := by
  simp only [NuclearWCx, ProxOp.prox, checkTau_pos hτ, if_pos h1]
  rw [npBroadcast, if_neg (by simp; omega), if_neg (by simp; omega), if_neg (by simp; omega)]
  rfl

lemma eig_eq_svdC (hr : r = min M N) {x : CVec (Fin M × Fin N)} {lam : Fin N → ℝ} (hlam : IsEigGramC x lam) (hmono : Monotone lam) {u : Fin r → CVec (Fin M)} {s : Fin r → ℝ} {v : Fin r → CVec (Fin N)}
    (hx : IsSVDC x u s v) (hs : Antitone s) (i : Fin N) : √(lam i.rev) = if h : (i : ℕ) < r then s ⟨i, h⟩ else 0 := by
  refine congrFun (antitone_eq_of_sums (a := fun i : Fin N => √(lam i.rev)) (b := fun i : Fin N => if h : (i : ℕ) < r then s ⟨i, h⟩ else 0) ?_ ?_ ?_ ?_ ?_) i
  · intro a b hab
    exact Real.sqrt_le_sqrt (hmono (Fin.rev_le_rev.2 hab))
  · intro a b hab
    have hab' : (a : ℕ) ≤ b := hab
    simp only
    by_cases hb : (b : ℕ) < r
    · rw [dif_pos hb, dif_pos (by omega)]
      exact hs (by simpa using hab)
    · rw [dif_neg hb]
      split_ifs
      · exact hx.nonneg _
      · exact le_rfl
  · intro i; positivity
  · intro i
    split_ifs
    · exact hx.nonneg _
    · exact le_rfl
  · intro g hg
    have h1 := svdC_sum_eig (ρ := Fin r) (by simpa using hr) hlam hx g hg
    have h2 : ∑ i : Fin N, g (√(lam i.rev)) = ∑ i : Fin N, g (√(lam i)) := Equiv.sum_comp Fin.revPerm fun i => g (√(lam i))
    rw [h2, h1]
    rw [Fin.sum_univ_eq_sum_range (fun i : ℕ => g (if h : i < r then s ⟨i, h⟩ else 0)) N,
      ← Finset.sum_subset (Finset.range_subset_range.2 (by omega : r ≤ N)), ← Fin.sum_univ_eq_sum_range (fun i : ℕ => g (if h : i < r then s ⟨i, h⟩ else 0)) r]
    · exact Finset.sum_congr rfl fun k _ => by rw [dif_pos k.2]
    · intro i _ hi
      rw [dif_neg (by simpa using hi), hg]

/-- C130, partial: the value is `Σ σ_i λ_i` for complex arrays that hold a real matrix, if there is one weight per column. -/
theorem C130_weighted_call_real_partial (hr : r = min M N) (svd : CVec (Fin M × Fin N) → SVDC (Fin M) (Fin N) (Fin r)) {eigvalsh : Matrix (Fin N) (Fin N) ℂ → Fin N → ℝ} (he : EigvalshExact eigvalsh)
    (hmono : ∀ A, Monotone (eigvalsh A)) {sigma : List ℝ} (hN : sigma.length = N) {f : CVec (Fin M × Fin N) → ℝ} (hf : IsWeightedNucC (fun k : Fin r => sigma.getD k 0) f)
    {x : CVec (Fin M × Fin N)} (hx : RealEntries x) : (NuclearWCx svd eigvalsh sigma).call x = .ok (.num (f x)) := by
  obtain ⟨h1, h2⟩ := rootEigs_real he hx
  obtain ⟨u, s, v, hs, hs'⟩ := exists_sorted_svdC (r := r) (by simpa using hr) x
  simp only [NuclearWCx, h2]
  rw [npBroadcast, if_pos (by simp [hN])]
  simp only [Bind.bind, Except.bind, Pure.pure, Except.pure]
  have e2 : List.zipWith (· * ·) sigma.reverse (List.ofFn fun k => √(eigvalsh (plainGram x) k)) = List.ofFn fun j : Fin N => sigma.getD (j.rev : Fin N) 0 * √(eigvalsh (plainGram x) j) := by
    refine List.ext_getElem (by simp [hN]) fun n h1 h2 => ?_
    have hn : n < N := by simpa using h2
    simp only [List.getElem_zipWith, List.getElem_reverse, List.getElem_ofFn]
    rw [getD_of_lt (by simp [Fin.rev]; omega)]
    simp only [Fin.val_rev, hN]
    congr 2
    omega
  rw [e2, List.sum_ofFn, ← Equiv.sum_comp Fin.revPerm, hf x u s v hs hs']
  simp only [Fin.revPerm_apply, Fin.rev_rev, eig_eq_svdC hr h1 (hmono _) hs hs']
  rw [Fin.sum_univ_eq_sum_range (fun i : ℕ => sigma.getD i 0 * (if h : i < r then s ⟨i, h⟩ else 0)) N,
    ← Finset.sum_subset (Finset.range_subset_range.2 (by omega : r ≤ N)), ← Fin.sum_univ_eq_sum_range (fun i : ℕ => sigma.getD i 0 * (if h : i < r then s ⟨i, h⟩ else 0)) r]
  · refine congrArg _ (congrArg _ (Finset.sum_congr rfl fun k _ => by rw [dif_pos k.2]))
  · intro i _ hi
    rw [dif_neg (by simpa using hi), mul_zero]

/-- The step is checked first. -/
theorem C01_complex_spectral (svd : CVec (ι × κ) → SVDC ι κ ρ) (eigvalsh : Matrix κ κ ℂ → κ → ℝ) (pc : Vec κ → Py CallVal) (pen : ProxOp (Vec ρ))
    (svd' : CVec (Fin M × Fin N) → SVDC (Fin M) (Fin N) (Fin r)) (eigvalsh' : Matrix (Fin N) (Fin N) ℂ → Fin N → ℝ) (sigma : List ℝ) :
    RejectsBadTau (SingularValuePenaltyCx svd eigvalsh pc pen) ∧ RejectsBadTau (NuclearWCx svd' eigvalsh' sigma) := by
  constructor
  all_goals
    refine rejects_of_guarded _ ?_ ?_
    · rintro m ⟨⟩ x τ hτ; exact checkTau_nonpos hτ _
    · rintro m ⟨⟩

/-! ## The hypotheses are met -/

/-- Exact eigenvalue routines exist. -/
example [DecidableEq κ] : ∃ eigvalsh : Matrix κ κ ℂ → κ → ℝ, EigvalshExact eigvalsh := by
  classical
  have h : ∀ A : Matrix κ κ ℂ, ∃ lam : κ → ℝ, A.IsHermitian → IsEigList A lam := fun A => by
    by_cases hA : A.IsHermitian
    · refine ⟨hA.eigenvalues, fun _ => ⟨fun k => hA.eigenvectorBasis k, hA.eigenvectorBasis.orthonormal, fun k i => ?_⟩⟩
      have := congrFun (hA.mulVec_eigenvectorBasis k) i
      simpa [Matrix.mulVec, dotProduct] using this
    · exact ⟨0, fun h => absurd h hA⟩
  choose e he using h
  exact ⟨e, he⟩

/-- Exact decompositions in descending order exist for every shape. -/
example : ∃ svd : CVec (Fin 3 × Fin 2) → SVDC (Fin 3) (Fin 2) (Fin 2), SvdDescendingC svd := by
  choose u s v h hs using fun x : CVec (Fin 3 × Fin 2) => exists_sorted_svdC (r := 2) (by simp) x
  exact ⟨fun x => ⟨u x, s x, v x⟩, h, hs⟩

/-- Separable even penalties meet the hypotheses of `C130_prox`. -/
example (hρ : Fintype.card ρ = min (Fintype.card ι) (Fintype.card κ)) :
    ∃ F : XFun (CVec (ι × κ)), ∀ y (u : ρ → CVec ι) (s : ρ → ℝ) (v : ρ → CVec κ), IsSVDC y u s v →
      ((y ∈ F.dom ↔ vmk s ∈ (XFun.ofReal fun s : Vec ρ => ∑ k, |s k| / (1 + |s k|)).dom) ∧
        F.val y = (XFun.ofReal fun s : Vec ρ => ∑ k, |s k| / (1 + |s k|)).val (vmk s)) :=
  C130_spectral_function_exists hρ _ (fun _ _ _ => trivial) (fun π s => Equiv.sum_comp π (fun k => |s k| / (1 + |s k|)))

end Verif
