import Verif.Spec.Matrix
import Verif.Model.Nuclear
import Verif.Lemmas.Prox
import Mathlib.Analysis.Convex.Birkhoff
import Mathlib.Analysis.InnerProductSpace.Spectrum

/-! Helper lemmas: singular value decompositions, von Neumann's trace inequality, nuclear norm. -/

open scoped RealInnerProductSpace

set_option linter.unusedSectionVars false

namespace Verif

variable {ι κ ρ ρ' : Type} [Fintype ι] [Fintype κ] [Fintype ρ] [Fintype ρ']

@[simp] lemma recon_apply (u : ρ → Vec ι) (t : ρ → ℝ) (v : ρ → Vec κ) (i : ι) (j : κ) :
    recon u t v (i, j) = ∑ k, u k i * t k * v k j := rfl

lemma IsSVD.eq_recon {x : Vec (ι × κ)} {u : ρ → Vec ι} {s : ρ → ℝ} {v : ρ → Vec κ} (h : IsSVD x u s v) : x = recon u s v := by
  ext ⟨i, j⟩; rw [recon_apply, h.sum i j]

lemma isSVD_recon {u : ρ → Vec ι} {s : ρ → ℝ} {v : ρ → Vec κ} (hu : Orthonormal ℝ u) (hv : Orthonormal ℝ v) (hs : ∀ k, 0 ≤ s k) :
    IsSVD (recon u s v) u s v := ⟨hu, hv, hs, fun _ _ => rfl⟩

lemma vec_inner {α : Type} [Fintype α] (a b : Vec α) : ⟪a, b⟫ = ∑ i, a i * b i := by
  simp only [PiLp.inner_apply, RCLike.inner_apply, conj_trivial]
  exact Finset.sum_congr rfl fun i _ => mul_comm _ _

lemma matVec_apply (x : Vec (ι × κ)) (v : Vec κ) (i : ι) : matVec x v i = ∑ j, x (i, j) * v j := rfl

lemma inner_recon (w : Vec (ι × κ)) (u : ρ → Vec ι) (t : ρ → ℝ) (v : ρ → Vec κ) :
    ⟪w, recon u t v⟫ = ∑ k, t k * ⟪u k, matVec w (v k)⟫ := by
  simp only [vec_inner, matVec_apply, Fintype.sum_prod_type, recon_apply, Finset.mul_sum]
  rw [Finset.sum_comm' (t' := Finset.univ) (s' := fun _ => Finset.univ) (by simp)]
  conv_rhs => rw [Finset.sum_comm' (t' := Finset.univ) (s' := fun _ => Finset.univ) (by simp)]
  rw [Finset.sum_comm]
  refine Finset.sum_congr rfl fun i _ => ?_
  conv_rhs => rw [Finset.sum_comm]
  refine Finset.sum_congr rfl fun j _ => Finset.sum_congr rfl fun k _ => ?_
  ring

lemma matVec_recon (u : ρ → Vec ι) (t : ρ → ℝ) (v : ρ → Vec κ) (w : Vec κ) :
    matVec (recon u t v) w = ∑ k, (t k * ⟪v k, w⟫) • u k := by
  ext i
  rw [matVec_apply]
  simp only [recon_apply, WithLp.ofLp_sum, WithLp.ofLp_smul, Finset.sum_apply, Pi.smul_apply, smul_eq_mul, vec_inner, Finset.sum_mul, Finset.mul_sum]
  rw [Finset.sum_comm]
  refine Finset.sum_congr rfl fun k _ => Finset.sum_congr rfl fun j _ => ?_
  ring

lemma inner_recon_recon (u : ρ → Vec ι) (s : ρ → ℝ) (v : ρ → Vec κ) (p : ρ' → Vec ι) (t : ρ' → ℝ) (q : ρ' → Vec κ) :
    ⟪recon u s v, recon p t q⟫ = ∑ l, ∑ k, s k * t l * (⟪p l, u k⟫ * ⟪v k, q l⟫) := by
  rw [inner_recon]
  refine Finset.sum_congr rfl fun l _ => ?_
  rw [matVec_recon, inner_sum, Finset.mul_sum]
  refine Finset.sum_congr rfl fun k _ => ?_
  rw [real_inner_smul_right]; ring

lemma inner_recon_same {u : ρ → Vec ι} {v : ρ → Vec κ} (hu : Orthonormal ℝ u) (hv : Orthonormal ℝ v) (s t : ρ → ℝ) :
    ⟪recon u s v, recon u t v⟫ = ∑ k, s k * t k := by
  classical
  rw [inner_recon_recon]
  refine Finset.sum_congr rfl fun l _ => ?_
  rw [Finset.sum_eq_single l]
  · simp only [orthonormal_iff_ite.1 hu, orthonormal_iff_ite.1 hv, if_true]; ring
  · intro k _ hk
    simp only [orthonormal_iff_ite.1 hu, orthonormal_iff_ite.1 hv, if_neg hk, mul_zero]
  · simp

lemma recon_sub (u : ρ → Vec ι) (s t : ρ → ℝ) (v : ρ → Vec κ) : recon u s v - recon u t v = recon u (fun k => s k - t k) v := by
  ext ⟨i, j⟩
  simp only [WithLp.ofLp_sub, Pi.sub_apply, recon_apply, ← Finset.sum_sub_distrib]
  exact Finset.sum_congr rfl fun k _ => by ring

lemma norm_recon_sq {u : ρ → Vec ι} {v : ρ → Vec κ} (hu : Orthonormal ℝ u) (hv : Orthonormal ℝ v) (s : ρ → ℝ) :
    ‖recon u s v‖ ^ 2 = ‖(vmk s : Vec ρ)‖ ^ 2 := by
  rw [← real_inner_self_eq_norm_sq, inner_recon_same hu hv, ← real_inner_self_eq_norm_sq, vec_inner]

lemma norm_recon {u : ρ → Vec ι} {v : ρ → Vec κ} (hu : Orthonormal ℝ u) (hv : Orthonormal ℝ v) (s : ρ → ℝ) :
    ‖recon u s v‖ = ‖(vmk s : Vec ρ)‖ := by
  have := norm_recon_sq hu hv s
  exact (pow_left_inj₀ (norm_nonneg _) (norm_nonneg _) two_ne_zero).1 this

/-- A bilinear form with a doubly substochastic matrix is dominated by a permutation. -/
lemma substoch_le_perm (D : ρ → ρ → ℝ) (h0 : ∀ k l, 0 ≤ D k l) (hr : ∀ k, ∑ l, D k l ≤ 1) (hc : ∀ l, ∑ k, D k l ≤ 1)
    (s t : ρ → ℝ) (hs : ∀ k, 0 ≤ s k) (ht : ∀ k, 0 ≤ t k) :
    ∃ π : Equiv.Perm ρ, ∑ k, ∑ l, s k * t l * D k l ≤ ∑ k, s k * t (π k) := by
  classical
  set r : ρ → ℝ := fun k => 1 - ∑ l, D k l with hrdef
  set c : ρ → ℝ := fun l => 1 - ∑ k, D k l with hcdef
  have hr0 : ∀ k, 0 ≤ r k := fun k => by simp only [hrdef]; linarith [hr k]
  have hc0 : ∀ k, 0 ≤ c k := fun k => by simp only [hcdef]; linarith [hc k]
  have htot : ∑ k, r k = ∑ l, c l := by
    simp only [hrdef, hcdef, Finset.sum_sub_distrib]
    rw [Finset.sum_comm]
  -- the completed matrix
  obtain ⟨D', hD'0, hDD', hr', hc'⟩ : ∃ D' : ρ → ρ → ℝ, (∀ k l, 0 ≤ D' k l) ∧ (∀ k l, D k l ≤ D' k l) ∧
      (∀ k, ∑ l, D' k l = 1) ∧ ∀ l, ∑ k, D' k l = 1 := by
    by_cases hz : ∑ l, c l = 0
    · have h1 : ∀ l, c l = 0 := fun l => (Finset.sum_eq_zero_iff_of_nonneg fun l _ => hc0 l).1 hz l (Finset.mem_univ _)
      have h2 : ∀ l, r l = 0 := fun l => (Finset.sum_eq_zero_iff_of_nonneg fun l _ => hr0 l).1 (htot.trans hz) l (Finset.mem_univ _)
      refine ⟨D, h0, fun _ _ => le_rfl, fun k => ?_, fun l => ?_⟩
      · have := h2 k; simp only [hrdef] at this; linarith
      · have := h1 l; simp only [hcdef] at this; linarith
    · have hpos : 0 < ∑ l, c l := lt_of_le_of_ne (Finset.sum_nonneg fun l _ => hc0 l) (Ne.symm hz)
      have hadd : ∀ k l, 0 ≤ r k * c l / ∑ l, c l := fun k l => div_nonneg (mul_nonneg (hr0 k) (hc0 l)) hpos.le
      refine ⟨fun k l => D k l + r k * c l / ∑ l, c l, fun k l => add_nonneg (h0 k l) (hadd k l),
        fun k l => by linarith [hadd k l], fun k => ?_, fun l => ?_⟩
      · rw [Finset.sum_add_distrib, ← Finset.sum_div, ← Finset.mul_sum, mul_div_assoc, div_self hz]
        simp only [hrdef]; ring
      · rw [Finset.sum_add_distrib, ← Finset.sum_div, ← Finset.sum_mul, htot, mul_comm, mul_div_assoc, div_self hz]
        simp only [hcdef]; ring
  have hmem : (Matrix.of D') ∈ doublyStochastic ℝ ρ := by
    rw [mem_doublyStochastic_iff_sum]
    exact ⟨fun i j => hD'0 i j, fun i => hr' i, fun j => hc' j⟩
  obtain ⟨w, hw0, hw1, hw⟩ := exists_eq_sum_perm_of_mem_doublyStochastic hmem
  have hentry : ∀ k l, D' k l = ∑ π : Equiv.Perm ρ, w π * (if π k = l then 1 else 0) := by
    intro k l
    have := congrFun (congrFun hw k) l
    simp only [Matrix.sum_apply, Matrix.smul_apply, smul_eq_mul, Matrix.of_apply, Equiv.Perm.permMatrix, PEquiv.toMatrix_apply,
      Equiv.toPEquiv_apply, Option.mem_def, Option.some.injEq] at this
    rw [← this]
  have hle : ∑ k, ∑ l, s k * t l * D k l ≤ ∑ π : Equiv.Perm ρ, w π * ∑ k, s k * t (π k) := by
    calc ∑ k, ∑ l, s k * t l * D k l ≤ ∑ k, ∑ l, s k * t l * D' k l :=
          Finset.sum_le_sum fun k _ => Finset.sum_le_sum fun l _ => mul_le_mul_of_nonneg_left (hDD' k l) (mul_nonneg (hs k) (ht l))
      _ = ∑ k, ∑ l, ∑ π : Equiv.Perm ρ, w π * (s k * t l * (if π k = l then 1 else 0)) := by
          refine Finset.sum_congr rfl fun k _ => Finset.sum_congr rfl fun l _ => ?_
          rw [hentry, Finset.mul_sum]
          exact Finset.sum_congr rfl fun π _ => by ring
      _ = ∑ k, ∑ π : Equiv.Perm ρ, w π * (s k * t (π k)) := by
          refine Finset.sum_congr rfl fun k _ => ?_
          rw [Finset.sum_comm]
          refine Finset.sum_congr rfl fun π _ => ?_
          rw [← Finset.mul_sum]
          simp
      _ = ∑ π : Equiv.Perm ρ, w π * ∑ k, s k * t (π k) := by
          rw [Finset.sum_comm]
          exact Finset.sum_congr rfl fun π _ => by rw [Finset.mul_sum]
  by_contra hcon
  push Not at hcon
  set M := ∑ k, ∑ l, s k * t l * D k l
  have : ∑ π : Equiv.Perm ρ, w π * ∑ k, s k * t (π k) < ∑ π : Equiv.Perm ρ, w π * M := by
    have hex : ∃ π, 0 < w π := by
      by_contra h; push Not at h
      have : ∑ π, w π ≤ 0 := Finset.sum_nonpos fun π _ => h π
      linarith
    obtain ⟨π, hπ⟩ := hex
    exact Finset.sum_lt_sum (fun π _ => mul_le_mul_of_nonneg_left (hcon π).le (hw0 π))
      ⟨π, Finset.mem_univ _, mul_lt_mul_of_pos_left (hcon π) hπ⟩
  rw [← Finset.sum_mul, hw1, one_mul] at this
  linarith

lemma bessel_prod {α : Type} [Fintype α] {E F : Type*} [NormedAddCommGroup E] [InnerProductSpace ℝ E] [NormedAddCommGroup F]
    [InnerProductSpace ℝ F] {a : α → E} {b : α → F} (ha : Orthonormal ℝ a) (hb : Orthonormal ℝ b) (x : E) (y : F)
    (hx : ‖x‖ = 1) (hy : ‖y‖ = 1) : ∑ k, |⟪a k, x⟫ * ⟪b k, y⟫| ≤ 1 := by
  have h1 := ha.sum_inner_products_le (x := x) (s := Finset.univ)
  have h2 := hb.sum_inner_products_le (x := y) (s := Finset.univ)
  simp only [Real.norm_eq_abs, sq_abs] at h1 h2
  rw [hx] at h1; rw [hy] at h2
  have : ∑ k, |⟪a k, x⟫ * ⟪b k, y⟫| ≤ ∑ k, (⟪a k, x⟫ ^ 2 / 2 + ⟪b k, y⟫ ^ 2 / 2) :=
    Finset.sum_le_sum fun k _ => by
      rw [abs_mul]
      nlinarith [sq_nonneg (|⟪a k, x⟫| - |⟪b k, y⟫|), sq_abs (⟪a k, x⟫ : ℝ), sq_abs (⟪b k, y⟫ : ℝ)]
  rw [Finset.sum_add_distrib, ← Finset.sum_div, ← Finset.sum_div] at this
  linarith

/-- Von Neumann's trace inequality, up to the order of the singular values. -/
lemma von_neumann {x y : Vec (ι × κ)} {u p : ρ → Vec ι} {s t : ρ → ℝ} {v q : ρ → Vec κ} (hx : IsSVD x u s v) (hy : IsSVD y p t q) :
    ∃ π : Equiv.Perm ρ, ⟪x, y⟫ ≤ ∑ k, s k * t (π k) := by
  obtain ⟨π, h⟩ := substoch_le_perm (fun k l => |⟪p l, u k⟫ * ⟪v k, q l⟫|) (fun _ _ => abs_nonneg _)
    (fun k => by
      have := bessel_prod hy.left hy.right (u k) (v k) (hx.left.1 k) (hx.right.1 k)
      refine le_trans (le_of_eq (Finset.sum_congr rfl fun l _ => ?_)) this
      rw [real_inner_comm (q l) (v k)])
    (fun l => by
      have := bessel_prod hx.left hx.right (p l) (q l) (hy.left.1 l) (hy.right.1 l)
      refine le_trans (le_of_eq (Finset.sum_congr rfl fun k _ => ?_)) this
      rw [real_inner_comm (p l) (u k)]) s t hx.nonneg hy.nonneg
  refine ⟨π, le_trans ?_ h⟩
  rw [hx.eq_recon, hy.eq_recon, inner_recon_recon, Finset.sum_comm]
  exact Finset.sum_le_sum fun k _ => Finset.sum_le_sum fun l _ =>
    mul_le_mul_of_nonneg_left (le_abs_self _) (mul_nonneg (hx.nonneg k) (hy.nonneg l))

/-- The distance between two matrices is at least that between suitably matched singular values. -/
lemma svd_dist {x y : Vec (ι × κ)} {u p : ρ → Vec ι} {s t : ρ → ℝ} {v q : ρ → Vec κ} (hx : IsSVD x u s v) (hy : IsSVD y p t q) :
    ∃ π : Equiv.Perm ρ, ‖(vmk fun k => t (π k) : Vec ρ) - vmk s‖ ^ 2 ≤ ‖y - x‖ ^ 2 := by
  obtain ⟨π, h⟩ := von_neumann hx hy
  refine ⟨π, ?_⟩
  have e1 : ‖x‖ ^ 2 = ∑ k, s k ^ 2 := by
    rw [hx.eq_recon, norm_recon_sq hx.left hx.right, EuclideanSpace.norm_sq_eq]; simp
  have e2 : ‖y‖ ^ 2 = ∑ k, t (π k) ^ 2 := by
    rw [hy.eq_recon, norm_recon_sq hy.left hy.right, EuclideanSpace.norm_sq_eq, ← Equiv.sum_comp π]; simp
  have e3 : ‖(vmk fun k => t (π k) : Vec ρ) - vmk s‖ ^ 2 = ∑ k, t (π k) ^ 2 - 2 * ∑ k, s k * t (π k) + ∑ k, s k ^ 2 := by
    rw [EuclideanSpace.norm_sq_eq, Finset.mul_sum, ← Finset.sum_sub_distrib, ← Finset.sum_add_distrib]
    refine Finset.sum_congr rfl fun k _ => ?_
    simp only [PiLp.sub_apply, Real.norm_eq_abs, sq_abs]; ring
  rw [e3, norm_sub_sq_real y x, e1, e2, real_inner_comm]
  linarith

/-! ### The nuclear norm -/

lemma svd_inner_le {x : Vec (ι × κ)} {u : ρ → Vec ι} {s : ρ → ℝ} {v : ρ → Vec κ} (hx : IsSVD x u s v) {w : Vec (ι × κ)}
    (hw : ∀ v, ‖matVec w v‖ ≤ ‖v‖) : ⟪w, x⟫ ≤ ∑ k, s k := by
  rw [hx.eq_recon, inner_recon]
  refine Finset.sum_le_sum fun k _ => ?_
  have h1 : ⟪u k, matVec w (v k)⟫ ≤ ‖u k‖ * ‖matVec w (v k)‖ := real_inner_le_norm _ _
  have h2 := hw (v k)
  rw [hx.right.1 k] at h2
  rw [hx.left.1 k, one_mul] at h1
  nlinarith [hx.nonneg k]

lemma recon_contraction {u : ρ → Vec ι} {v : ρ → Vec κ} (hu : Orthonormal ℝ u) (hv : Orthonormal ℝ v) (w : Vec κ) :
    ‖matVec (recon u (fun _ => 1) v) w‖ ≤ ‖w‖ := by
  have h1 : ‖matVec (recon u (fun _ => 1) v) w‖ ^ 2 = ∑ k, ⟪v k, w⟫ ^ 2 := by
    rw [matVec_recon, ← real_inner_self_eq_norm_sq, hu.inner_sum]
    refine Finset.sum_congr rfl fun k _ => ?_
    simp only [conj_trivial]; ring
  have h2 := hv.sum_inner_products_le (x := w) (s := Finset.univ)
  simp only [Real.norm_eq_abs, sq_abs] at h2
  rw [← h1] at h2
  exact (pow_le_pow_iff_left₀ (norm_nonneg _) (norm_nonneg _) two_ne_zero).1 h2

lemma nucNorm_svd {x : Vec (ι × κ)} {u : ρ → Vec ι} {s : ρ → ℝ} {v : ρ → Vec κ} (hx : IsSVD x u s v) : nucNorm x = ∑ k, s k := by
  apply le_antisymm
  · refine csSup_le ⟨0, 0, fun v => ?_, by simp⟩ ?_
    · have : matVec (0 : Vec (ι × κ)) v = 0 := by ext i; simp [matVec_apply]
      rw [this]; simp
    · rintro t ⟨w, hw, rfl⟩
      exact svd_inner_le hx hw
  · refine le_csSup ⟨∑ k, s k, ?_⟩ ⟨recon u (fun _ => 1) v, recon_contraction hx.left hx.right, ?_⟩
    · rintro t ⟨w, hw, rfl⟩
      exact svd_inner_le hx hw
    · rw [hx.eq_recon, inner_recon_same hx.left hx.right]; simp

/-! ### Existence -/

lemma matVec_add (x : Vec (ι × κ)) (v w : Vec κ) : matVec x (v + w) = matVec x v + matVec x w := by
  ext i
  simp only [matVec_apply, PiLp.add_apply, mul_add, Finset.sum_add_distrib]

lemma matVec_smul (x : Vec (ι × κ)) (c : ℝ) (w : Vec κ) : matVec x (c • w) = c • matVec x w := by
  ext i
  simp only [matVec_apply, PiLp.smul_apply, smul_eq_mul, Finset.mul_sum]
  exact Finset.sum_congr rfl fun j _ => by ring

noncomputable def matLin (x : Vec (ι × κ)) : Vec κ →ₗ[ℝ] Vec ι where
  toFun := matVec x
  map_add' := matVec_add x
  map_smul' := matVec_smul x

lemma eigGram_nonneg {x : Vec (ι × κ)} {lam : κ → ℝ} (h : IsEigGram x lam) (k : κ) : 0 ≤ lam k := by
  obtain ⟨q, hq, h⟩ := h
  have := h k (q k)
  rw [real_inner_self_eq_norm_sq, real_inner_self_eq_norm_sq, hq.1 k] at this
  nlinarith [sq_nonneg ‖matVec x (q k)‖]

/-- From an eigen-decomposition of `XᵀX` to a singular value decomposition indexed by the non-zero eigenvalues. -/
lemma svd_of_eigGram {x : Vec (ι × κ)} {lam : κ → ℝ} (h : IsEigGram x lam) :
    ∃ (u : {k // lam k ≠ 0} → Vec ι) (v : {k // lam k ≠ 0} → Vec κ), IsSVD x u (fun k => √(lam k)) v := by
  classical
  have hnn := eigGram_nonneg h
  obtain ⟨q, hq, h⟩ := h
  have hcard : Fintype.card κ = Module.finrank ℝ (Vec κ) := by simp
  have hpos : ∀ k : {k // lam k ≠ 0}, 0 < lam k := fun k => lt_of_le_of_ne (hnn k) (Ne.symm k.2)
  refine ⟨fun k => (1 / √(lam k)) • matVec x (q k), fun k => q k, ?_, ?_, fun k => Real.sqrt_nonneg _, ?_⟩
  · rw [orthonormal_iff_ite]
    intro a b
    rw [real_inner_smul_left, real_inner_smul_right, h, orthonormal_iff_ite.1 hq]
    have hs := Real.sqrt_pos.2 (hpos a)
    have hsq := Real.mul_self_sqrt (hpos a).le
    by_cases hab : a = b
    · subst hab
      simp only [if_true, mul_one]
      field_simp
      rw [pow_two, hsq]
    · rw [if_neg hab, if_neg (fun h => hab (Subtype.ext h))]; ring
  · exact hq.comp _ Subtype.val_injective
  · intro i j
    -- expand the standard basis vector in the basis q
    have : Nonempty κ := ⟨j⟩
    let b : OrthonormalBasis κ ℝ (Vec κ) := OrthonormalBasis.mk hq (by
      have := (basisOfOrthonormalOfCardEqFinrank hq hcard).span_eq
      rw [coe_basisOfOrthonormalOfCardEqFinrank] at this
      exact this.ge)
    have hb : ∀ k, b k = q k := fun k => by simp [b]
    have he : (EuclideanSpace.single j (1 : ℝ) : Vec κ) = ∑ k, q k j • q k := by
      have := (b.sum_repr' (EuclideanSpace.single j (1 : ℝ))).symm
      rw [this]
      refine Finset.sum_congr rfl fun k _ => ?_
      rw [hb, EuclideanSpace.inner_single_right]; simp
    have h1 : x (i, j) = matVec x (EuclideanSpace.single j 1) i := by
      rw [matVec_apply]
      simp [PiLp.single_apply]
    have h2 : matVec x (EuclideanSpace.single j 1) = ∑ k, q k j • matVec x (q k) := by
      rw [he]
      change matLin x _ = _
      rw [map_sum]
      exact Finset.sum_congr rfl fun k _ => map_smul _ _ _
    have h3 : ∀ k, lam k = 0 → matVec x (q k) = 0 := by
      intro k hk
      have := h k (q k)
      rw [hk, zero_mul, inner_self_eq_zero] at this
      exact this
    rw [h1, h2]
    simp only [WithLp.ofLp_sum, WithLp.ofLp_smul, Finset.sum_apply, Pi.smul_apply, smul_eq_mul]
    have h4 : ∀ k : {k // lam k ≠ 0}, ((1 / √(lam k)) • matVec x (q k)) i * √(lam k) * q k j = q k j * matVec x (q k) i := by
      intro k
      have hs := Real.sqrt_pos.2 (hpos k)
      simp only [PiLp.smul_apply, smul_eq_mul]
      field_simp
    simp only [PiLp.smul_apply, smul_eq_mul] at h4
    rw [Finset.sum_congr rfl fun k _ => h4 k]
    rw [← Finset.sum_filter_add_sum_filter_not Finset.univ (fun k => lam k ≠ 0)]
    have h5 : ∑ k with ¬ lam k ≠ 0, q k j * matVec x (q k) i = 0 := by
      refine Finset.sum_eq_zero fun k hk => ?_
      simp only [ne_eq, not_not, Finset.mem_filter, Finset.mem_univ, true_and] at hk
      rw [h3 k hk]; simp
    rw [h5, add_zero]
    exact Finset.sum_subtype _ (by simp) _

/-- Every matrix has an eigen-decomposition of its Gram matrix. -/
lemma exists_eigGram (x : Vec (ι × κ)) : ∃ lam : κ → ℝ, IsEigGram x lam := by
  classical
  have hsym : ((matLin x).adjoint ∘ₗ matLin x).IsSymmetric := by
    intro a b
    simp only [LinearMap.comp_apply, LinearMap.adjoint_inner_left, LinearMap.adjoint_inner_right]
  have hn : Module.finrank ℝ (Vec κ) = Fintype.card κ := by simp
  let e : κ ≃ Fin (Fintype.card κ) := Fintype.equivFin κ
  refine ⟨fun k => hsym.eigenvalues hn (e k), fun k => hsym.eigenvectorBasis hn (e k), ?_, ?_⟩
  · exact (hsym.eigenvectorBasis hn).orthonormal.comp _ e.injective
  · intro k w
    have h1 := hsym.apply_eigenvectorBasis hn (e k)
    have h2 : ⟪matVec x (hsym.eigenvectorBasis hn (e k)), matVec x w⟫
        = ⟪((matLin x).adjoint ∘ₗ matLin x) (hsym.eigenvectorBasis hn (e k)), w⟫ := by
      simp only [LinearMap.comp_apply, LinearMap.adjoint_inner_left]
      rfl
    rw [h2, h1, real_inner_smul_left]
    rfl

lemma nucNorm_eigGram {x : Vec (ι × κ)} {lam : κ → ℝ} (h : IsEigGram x lam) : nucNorm x = ∑ k, √(lam k) := by
  classical
  obtain ⟨u, v, hsvd⟩ := svd_of_eigGram h
  rw [nucNorm_svd hsvd, ← Finset.sum_filter_add_sum_filter_not Finset.univ (fun k => lam k ≠ 0)]
  have h5 : ∑ k with ¬ lam k ≠ 0, √(lam k) = 0 := by
    refine Finset.sum_eq_zero fun k hk => ?_
    simp only [ne_eq, not_not, Finset.mem_filter, Finset.mem_univ, true_and] at hk
    rw [hk, Real.sqrt_zero]
  rw [h5, add_zero]
  exact (Finset.sum_subtype (Finset.univ.filter fun k => lam k ≠ 0) (by simp) (fun k => √(lam k))).symm

/-- An orthonormal family can be prolonged to a larger index set if there is room for it. -/
lemma orthonormal_extend {α : Type} (e : α ↪ ρ) (hle : Fintype.card ρ ≤ Fintype.card ι) {u : α → Vec ι} (hu : Orthonormal ℝ u) :
    ∃ u' : ρ → Vec ι, Orthonormal ℝ u' ∧ ∀ a, u' (e a) = u a := by
  classical
  obtain ⟨g⟩ := Function.Embedding.nonempty_of_card_le hle
  let f : α ↪ ι := e.trans g
  have hon : Orthonormal ℝ ((Set.range f).domRestrict (Function.extend f u 0)) := by
    have : ((Set.range f).domRestrict (Function.extend f u 0)) = u ∘ (fun i : Set.range f => (i.2 : ∃ a, f a = i).choose) := by
      funext i
      have hi := (i.2 : ∃ a, f a = i).choose_spec
      change Function.extend f u 0 i = _
      conv_lhs => rw [← hi]
      rw [f.injective.extend_apply]
      rfl
    rw [this]
    refine hu.comp _ ?_
    intro a b hab
    have ha := (a.2 : ∃ c, f c = a).choose_spec
    have hb := (b.2 : ∃ c, f c = b).choose_spec
    apply Subtype.ext
    rw [← ha, ← hb]
    exact congrArg f hab
  obtain ⟨b, hb⟩ := hon.exists_orthonormalBasis_extension_of_card_eq (by simp)
  refine ⟨fun k => b (g k), b.orthonormal.comp _ g.injective, fun a => ?_⟩
  have := hb (f a) ⟨a, rfl⟩
  change b (f a) = u a
  rw [this, f.injective.extend_apply]

lemma svd_extend_of_eigGram {x : Vec (ι × κ)} (hρ : Fintype.card ρ = min (Fintype.card ι) (Fintype.card κ)) {lam : κ → ℝ}
    (hlam : IsEigGram x lam) :
    ∃ (e : {k // lam k ≠ 0} ↪ ρ) (u : ρ → Vec ι) (v : ρ → Vec κ), IsSVD x u (Function.extend e (fun a => √(lam a)) 0) v := by
  classical
  obtain ⟨u, v, h⟩ := svd_of_eigGram hlam
  have hu := h.left.linearIndependent.fintype_card_le_finrank
  have hv := h.right.linearIndependent.fintype_card_le_finrank
  simp only [finrank_euclideanSpace] at hu hv
  obtain ⟨e⟩ : Nonempty ({k // lam k ≠ 0} ↪ ρ) := Function.Embedding.nonempty_of_card_le (by rw [hρ]; exact le_min hu hv)
  obtain ⟨u', hu', hue⟩ := orthonormal_extend e (by rw [hρ]; exact min_le_left _ _) h.left
  obtain ⟨v', hv', hve⟩ := orthonormal_extend e (by rw [hρ]; exact min_le_right _ _) h.right
  refine ⟨e, u', v', hu', hv', ?_, ?_⟩
  · intro k
    by_cases hk : ∃ a, e a = k
    · obtain ⟨a, rfl⟩ := hk
      rw [e.injective.extend_apply]; exact Real.sqrt_nonneg _
    · rw [Function.extend_apply' _ _ _ hk]; exact le_rfl
  · intro i j
    rw [h.sum i j, ← Finset.sum_subset (Finset.subset_univ (Finset.univ.map e)), Finset.sum_map]
    · refine Finset.sum_congr rfl fun a _ => ?_
      rw [hue, hve, e.injective.extend_apply]
    · intro k _ hk
      have : ¬ ∃ a, e a = k := by
        rintro ⟨a, rfl⟩; exact hk (Finset.mem_map_of_mem _ (Finset.mem_univ _))
      rw [Function.extend_apply' _ _ _ this]
      simp

/-- Every matrix has a thin singular value decomposition with `min m n` singular values. -/
lemma exists_svd (x : Vec (ι × κ)) (hρ : Fintype.card ρ = min (Fintype.card ι) (Fintype.card κ)) :
    ∃ (u : ρ → Vec ι) (s : ρ → ℝ) (v : ρ → Vec κ), IsSVD x u s v := by
  obtain ⟨lam, hlam⟩ := exists_eigGram x
  obtain ⟨e, u, v, h⟩ := svd_extend_of_eigGram hρ hlam
  exact ⟨u, _, v, h⟩

/-- Singular values are unique up to their order. -/
lemma svd_unique {x : Vec (ι × κ)} {u p : ρ → Vec ι} {s t : ρ → ℝ} {v q : ρ → Vec κ} (hx : IsSVD x u s v) (hy : IsSVD x p t q) :
    ∃ π : Equiv.Perm ρ, ∀ k, t (π k) = s k := by
  obtain ⟨π, h⟩ := svd_dist hx hy
  refine ⟨π, fun k => ?_⟩
  rw [sub_self, norm_zero] at h
  have h0 : ‖(vmk fun k => t (π k) : Vec ρ) - vmk s‖ = 0 := by nlinarith [norm_nonneg ((vmk fun k => t (π k) : Vec ρ) - vmk s)]
  have := congrArg (fun z : Vec ρ => z k) (sub_eq_zero.1 (norm_eq_zero.1 h0))
  exact this

/-- A sum over the singular values is a sum over the square roots of the eigenvalues of `XᵀX`. -/
lemma svd_sum_eig {x : Vec (ι × κ)} (hρ : Fintype.card ρ = min (Fintype.card ι) (Fintype.card κ)) {lam : κ → ℝ} (hlam : IsEigGram x lam)
    {u : ρ → Vec ι} {s : ρ → ℝ} {v : ρ → Vec κ} (hx : IsSVD x u s v) (g : ℝ → ℝ) (hg : g 0 = 0) : ∑ k, g (√(lam k)) = ∑ k, g (s k) := by
  classical
  obtain ⟨e, u', v', h⟩ := svd_extend_of_eigGram hρ hlam
  obtain ⟨π, hπ⟩ := svd_unique hx h
  rw [← Finset.sum_congr rfl fun k _ => congrArg g (hπ k), Equiv.sum_comp π (fun k => g (Function.extend e (fun a => √(lam a)) 0 k)),
    ← Finset.sum_subset (Finset.subset_univ (Finset.univ.map e)), Finset.sum_map]
  · rw [← Finset.sum_filter_add_sum_filter_not Finset.univ (fun k => lam k ≠ 0)]
    have h5 : ∑ k with ¬ lam k ≠ 0, g (√(lam k)) = 0 := by
      refine Finset.sum_eq_zero fun k hk => ?_
      simp only [ne_eq, not_not, Finset.mem_filter, Finset.mem_univ, true_and] at hk
      rw [hk, Real.sqrt_zero, hg]
    rw [h5, add_zero, Finset.sum_subtype (Finset.univ.filter fun k => lam k ≠ 0) (p := fun k => lam k ≠ 0) (by simp) (fun k => g (√(lam k)))]
    refine Finset.sum_congr rfl fun a _ => ?_
    rw [e.injective.extend_apply]
  · intro k _ hk
    have : ¬ ∃ a, e a = k := by
      rintro ⟨a, rfl⟩; exact hk (Finset.mem_map_of_mem _ (Finset.mem_univ _))
    rw [Function.extend_apply' _ _ _ this]
    exact hg

/-- Spectral functions: if `t` is a proximal point of a function of the singular values that ignores their order and sign, then
`U diag(t) Vᵀ` is a proximal point of the induced function of matrices. -/
lemma spectral_isProx (hρ : Fintype.card ρ = min (Fintype.card ι) (Fintype.card κ)) (φ : XFun (Vec ρ)) (F : XFun (Vec (ι × κ)))
    (hF : ∀ y u s v, IsSVD y u s v → ((y ∈ F.dom ↔ vmk s ∈ φ.dom) ∧ F.val y = φ.val (vmk s)))
    (hperm : ∀ (π : Equiv.Perm ρ) (s : Vec ρ), s ∈ φ.dom → (vmk fun k => s (π k) : Vec ρ) ∈ φ.dom ∧ φ.val (vmk fun k => s (π k)) = φ.val s)
    (hsign : ∀ s : Vec ρ, s ∈ φ.dom → (vmk fun k => |s k| : Vec ρ) ∈ φ.dom ∧ φ.val (vmk fun k => |s k|) = φ.val s)
    {τ : ℝ} (hτ : 0 < τ) {x : Vec (ι × κ)} {u : ρ → Vec ι} {s : ρ → ℝ} {v : ρ → Vec κ} (hx : IsSVD x u s v) {t : Vec ρ}
    (ht : IsProx φ τ (vmk s) t) : IsProx F τ x (recon u (fun k => t k) v) := by
  classical
  -- signs moved into the left vectors
  have hu' : Orthonormal ℝ (fun k => (if t k < 0 then (-1 : ℝ) else 1) • u k) := by
    rw [orthonormal_iff_ite]
    intro a b
    rw [real_inner_smul_left, real_inner_smul_right, orthonormal_iff_ite.1 hx.left]
    by_cases hab : a = b
    · subst hab
      by_cases h : t a < 0 <;> simp [h]
    · rw [if_neg hab]; ring
  have hrec : recon u (fun k => t k) v = recon (fun k => (if t k < 0 then (-1 : ℝ) else 1) • u k) (fun k => |t k|) v := by
    ext ⟨i, j⟩
    simp only [recon_apply, PiLp.smul_apply, smul_eq_mul]
    refine Finset.sum_congr rfl fun k _ => ?_
    by_cases h : t k < 0
    · rw [if_pos h, abs_of_neg h]; ring
    · rw [if_neg h, abs_of_nonneg (not_lt.1 h)]; ring
  have hsvd : IsSVD (recon u (fun k => t k) v) (fun k => (if t k < 0 then (-1 : ℝ) else 1) • u k) (fun k => |t k|) v := by
    rw [hrec]; exact isSVD_recon hu' hx.right fun k => abs_nonneg _
  obtain ⟨hd, hv⟩ := hF _ _ _ _ hsvd
  obtain ⟨hs1, hs2⟩ := hsign t ht.1
  refine ⟨hd.2 hs1, fun y hy => ?_⟩
  obtain ⟨p, r, q, hysvd⟩ := exists_svd y hρ
  obtain ⟨hyd, hyv⟩ := hF _ _ _ _ hysvd
  obtain ⟨π, hπ⟩ := svd_dist hx hysvd
  obtain ⟨hp1, hp2⟩ := hperm π (vmk r) (hyd.1 hy)
  have hmin := ht.2 _ hp1
  unfold proxObj at hmin ⊢
  rw [hv, hs2, hyv]
  have e1 : ‖recon u (fun k => t k) v - x‖ ^ 2 = ‖t - vmk s‖ ^ 2 := by
    rw [hx.eq_recon, recon_sub, norm_recon_sq hx.left hx.right]
    congr 2
  rw [e1]
  refine hmin.trans ?_
  rw [hp2]
  have : ‖(vmk fun k => r (π k) : Vec ρ) - vmk s‖ ^ 2 / (2 * τ) ≤ ‖y - x‖ ^ 2 / (2 * τ) := by gcongr
  linarith

end Verif
