import Verif.Model.ComplexMatrix
import Verif.Spec.ComplexMatrix
import Verif.Spec.Contract
import Verif.Lemmas.Closed
import Verif.Props.Projections2

/-! # C93: complex matrices -/

open scoped RealInnerProductSpace ComplexConjugate

namespace Verif

variable {ι κ ρ : Type} [Fintype ι] [Fintype κ] [Fintype ρ]

lemma creal_inner {n : Type} [Fintype n] (x y : CVec n) : ⟪x, y⟫ = (∑ i, conj (x i) * y i).re := by
  rw [PiLp.inner_apply, Complex.re_sum]
  exact Finset.sum_congr rfl fun i _ => by rw [Complex.inner, mul_comm]

lemma ccomplex_inner {n : Type} [Fintype n] (x y : CVec n) : inner ℂ x y = ∑ i, conj (x i) * y i := by
  rw [PiLp.inner_apply]
  exact Finset.sum_congr rfl fun i _ => by rw [RCLike.inner_apply, mul_comm]

lemma creal_inner_eq {n : Type} [Fintype n] (x y : CVec n) : ⟪x, y⟫ = (inner ℂ x y).re := by rw [creal_inner, ccomplex_inner]

/-- The conjugate array. -/
noncomputable def cconjRow {n : Type} [Fintype n] (x : CVec n) : CVec n := cmk fun i => conj (x i)

lemma cconj_norm {n : Type} [Fintype n] (x : CVec n) : ‖cconjRow x‖ = ‖x‖ := by
  rw [EuclideanSpace.norm_eq, EuclideanSpace.norm_eq]; simp [cconjRow]

omit [Fintype ρ] in
lemma cconjRow_orthonormal {v : ρ → CVec κ} (hv : Orthonormal ℂ v) : Orthonormal ℂ fun k => cconjRow (v k) := by
  classical
  rw [orthonormal_iff_ite] at hv ⊢
  intro i j
  have := congrArg conj (hv i j)
  rw [ccomplex_inner, map_sum] at this
  rw [ccomplex_inner]
  simp only [cconjRow, cmk, map_mul, Complex.conj_conj] at this ⊢
  rw [this]
  split_ifs <;> simp

lemma cMatVec_recon (u : ρ → CVec ι) (t : ρ → ℝ) (vh : ρ → CVec κ) (w : CVec κ) :
    cMatVec (reconC u t vh) w = ∑ k, ((t k : ℂ) * inner ℂ (cconjRow (vh k)) w) • u k := by
  ext i
  simp only [cMatVec, reconC, cmk, WithLp.ofLp_sum, Finset.sum_apply, PiLp.smul_apply, smul_eq_mul, ccomplex_inner, cconjRow, Complex.conj_conj]
  simp only [Finset.sum_mul, Finset.mul_sum]
  rw [Finset.sum_comm]
  exact Finset.sum_congr rfl fun k _ => Finset.sum_congr rfl fun j _ => by ring

/-- `U diag(t) Vh` is a contraction when `|t_k| ≤ 1`. -/
lemma reconC_contraction {u : ρ → CVec ι} {vh : ρ → CVec κ} (hu : Orthonormal ℂ u) (hv : Orthonormal ℂ vh) {t : ρ → ℝ} (ht : ∀ k, |t k| ≤ 1) (w : CVec κ) :
    ‖cMatVec (reconC u t vh) w‖ ≤ ‖w‖ := by
  refine (pow_le_pow_iff_left₀ (norm_nonneg _) (norm_nonneg _) two_ne_zero).1 ?_
  rw [cMatVec_recon]
  have h1 : ‖∑ k, ((t k : ℂ) * inner ℂ (cconjRow (vh k)) w) • u k‖ ^ 2 = ∑ k, ‖(t k : ℂ) * inner ℂ (cconjRow (vh k)) w‖ ^ 2 := by
    have := hu.inner_sum (fun k => (t k : ℂ) * inner ℂ (cconjRow (vh k)) w) (fun k => (t k : ℂ) * inner ℂ (cconjRow (vh k)) w) Finset.univ
    rw [inner_self_eq_norm_sq_to_K] at this
    apply Complex.ofReal_injective
    rw [Complex.ofReal_pow, Complex.ofReal_sum]
    refine this.trans (Finset.sum_congr rfl fun k _ => ?_)
    rw [Complex.conj_mul', Complex.ofReal_pow]
  rw [h1]
  calc _ ≤ ∑ k, ‖inner ℂ (cconjRow (vh k)) w‖ ^ 2 := Finset.sum_le_sum fun k _ => by
        rw [norm_mul, mul_pow, Complex.norm_real, Real.norm_eq_abs]
        have h3 : |t k| ^ 2 ≤ 1 := by have := ht k; nlinarith [abs_nonneg (t k)]
        nlinarith [sq_nonneg ‖inner ℂ (cconjRow (vh k)) w‖]
    _ ≤ ‖w‖ ^ 2 := (cconjRow_orthonormal hv).sum_inner_products_le w

/-- Trace product of a matrix with `U diag(t) Vh`. -/
lemma inner_reconC (w : CVec (ι × κ)) (u : ρ → CVec ι) (t : ρ → ℝ) (vh : ρ → CVec κ) :
    ⟪w, reconC u t vh⟫ = ∑ k, t k * ⟪cMatVec w (cconjRow (vh k)), u k⟫ := by
  rw [creal_inner, Fintype.sum_prod_type]
  have h : ∀ k, t k * ⟪cMatVec w (cconjRow (vh k)), u k⟫ = ((t k : ℂ) * ∑ i, conj (cMatVec w (cconjRow (vh k)) i) * u k i).re := fun k => by
    rw [creal_inner, Complex.re_ofReal_mul]
  rw [Finset.sum_congr rfl fun k _ => h k, ← Complex.re_sum]
  congr 1
  simp only [reconC, cmk, cMatVec, cconjRow, map_sum, map_mul, Complex.conj_conj, Finset.mul_sum, Finset.sum_mul]
  rw [Finset.sum_congr rfl fun i (_ : i ∈ Finset.univ) => Finset.sum_comm, Finset.sum_comm]
  exact Finset.sum_congr rfl fun k _ => Finset.sum_congr rfl fun i _ => Finset.sum_congr rfl fun j _ => by ring

lemma cMatVec_recon_right {u : ρ → CVec ι} {vh : ρ → CVec κ} (hv : Orthonormal ℂ vh) (t : ρ → ℝ) (k : ρ) :
    cMatVec (reconC u t vh) (cconjRow (vh k)) = t k • u k := by
  classical
  rw [cMatVec_recon, Finset.sum_eq_single k]
  · rw [orthonormal_iff_ite.1 (cconjRow_orthonormal hv) k k, if_pos rfl, mul_one]
    rfl
  · intro l _ hl
    rw [orthonormal_iff_ite.1 (cconjRow_orthonormal hv) l k, if_neg hl, mul_zero, zero_smul]
  · simp

lemma recon_inner_recon {u : ρ → CVec ι} {vh : ρ → CVec κ} (hu : Orthonormal ℂ u) (hv : Orthonormal ℂ vh) (g t : ρ → ℝ) :
    ⟪reconC u g vh, reconC u t vh⟫ = ∑ k, g k * t k := by
  rw [inner_reconC]
  refine Finset.sum_congr rfl fun k _ => ?_
  rw [cMatVec_recon_right hv, real_inner_smul_left, real_inner_self_eq_norm_sq, hu.1 k]
  ring

lemma reconC_sub (u : ρ → CVec ι) (a b : ρ → ℝ) (vh : ρ → CVec κ) : reconC u a vh - reconC u b vh = reconC u (fun k => a k - b k) vh := by
  ext ij
  simp only [reconC, cmk, PiLp.sub_apply, ← Finset.sum_sub_distrib]
  exact Finset.sum_congr rfl fun k _ => by push_cast; ring

lemma reconC_smul (u : ρ → CVec ι) (c : ℝ) (a : ρ → ℝ) (vh : ρ → CVec κ) : c • reconC u a vh = reconC u (fun k => c * a k) vh := by
  ext ij
  simp only [reconC, cmk, PiLp.smul_apply, Finset.smul_sum, Complex.real_smul]
  exact Finset.sum_congr rfl fun k _ => by push_cast; ring

lemma IsSVDC.eq_recon {x : CVec (ι × κ)} {u : ρ → CVec ι} {s : ρ → ℝ} {vh : ρ → CVec κ} (h : IsSVDC x u s vh) : x = reconC u s vh := by
  ext ⟨i, j⟩; exact h.sum i j

/-! ## The nuclear norm -/

lemma contraction_entry [DecidableEq κ] {w : CVec (ι × κ)} (hw : ∀ v, ‖cMatVec w v‖ ≤ ‖v‖) (i : ι) (j : κ) : ‖w (i, j)‖ ≤ 1 := by
  have h := hw (EuclideanSpace.single j (1 : ℂ))
  rw [PiLp.norm_single, norm_one] at h
  have h2 : cMatVec w (EuclideanSpace.single j (1 : ℂ)) i = w (i, j) := by
    simp [cMatVec]
  rw [← h2]
  exact (PiLp.norm_apply_le _ i).trans h

lemma cNuc_bdd (y : CVec (ι × κ)) : BddAbove {t | ∃ w : CVec (ι × κ), (∀ v, ‖cMatVec w v‖ ≤ ‖v‖) ∧ t = (∑ p, conj (w p) * y p).re} := by
  classical
  refine ⟨∑ p, ‖y p‖, ?_⟩
  rintro t ⟨w, hw, rfl⟩
  refine (Complex.re_le_norm _).trans ((norm_sum_le _ _).trans (Finset.sum_le_sum fun p _ => ?_))
  rw [norm_mul, RCLike.norm_conj]
  have := contraction_entry hw p.1 p.2
  nlinarith [norm_nonneg (y p)]

lemma inner_le_cNuc {w : CVec (ι × κ)} (hw : ∀ v, ‖cMatVec w v‖ ≤ ‖v‖) (y : CVec (ι × κ)) : ⟪w, y⟫ ≤ cNucNorm y :=
  le_csSup (cNuc_bdd y) ⟨w, hw, creal_inner w y⟩

lemma cNuc_nonneg (y : CVec (ι × κ)) : 0 ≤ cNucNorm y := by
  have h : ∀ v, ‖cMatVec (0 : CVec (ι × κ)) v‖ ≤ ‖v‖ := fun v => by
    have : cMatVec (0 : CVec (ι × κ)) v = 0 := by ext i; simp [cMatVec]
    rw [this]; simp
  have := inner_le_cNuc h y
  simpa using this

lemma cNuc_recon_le {u : ρ → CVec ι} {vh : ρ → CVec κ} (hu : Orthonormal ℂ u) (hv : Orthonormal ℂ vh) (t : ρ → ℝ) : cNucNorm (reconC u t vh) ≤ ∑ k, |t k| := by
  refine csSup_le ⟨0, 0, fun v => ?_, by simp⟩ ?_
  · have : cMatVec (0 : CVec (ι × κ)) v = 0 := by ext i; simp [cMatVec]
    rw [this]; simp
  · rintro _ ⟨w, hw, rfl⟩
    rw [← creal_inner, inner_reconC]
    refine Finset.sum_le_sum fun k _ => ?_
    calc _ ≤ |t k * ⟪cMatVec w (cconjRow (vh k)), u k⟫| := le_abs_self _
      _ ≤ |t k| * 1 := by
        rw [abs_mul]
        refine mul_le_mul_of_nonneg_left ((abs_real_inner_le_norm _ _).trans ?_) (abs_nonneg _)
        rw [hu.1 k, mul_one]
        exact (hw _).trans (by rw [cconj_norm, hv.1 k])
      _ = _ := mul_one _

/-- The nuclear norm is the sum of the singular values. -/
lemma cNuc_svd {x : CVec (ι × κ)} {u : ρ → CVec ι} {s : ρ → ℝ} {vh : ρ → CVec κ} (h : IsSVDC x u s vh) : cNucNorm x = ∑ k, s k := by
  refine le_antisymm ?_ ?_
  · rw [h.eq_recon]
    exact (cNuc_recon_le h.left h.right s).trans (le_of_eq (Finset.sum_congr rfl fun k _ => abs_of_nonneg (h.nonneg k)))
  · have := inner_le_cNuc (reconC_contraction h.left h.right (t := fun _ => 1) (fun _ => by simp)) x
    rw [h.eq_recon] at this ⊢
    rw [recon_inner_recon h.left h.right] at this
    simpa using this

/-! ## Property theorems -/

/-- What is assumed of `np.linalg.svd(·, full_matrices=False)` on complex matrices: it returns a thin singular value decomposition. -/
def SvdExactC (svd : CVec (ι × κ) → SVDC ι κ ρ) : Prop := ∀ x, IsSVDC x (svd x).u (svd x).s (svd x).vh

/-- C93: `Nuclear.prox` of a complex matrix is the unique minimiser of `sigma ‖Y‖_* + ‖Y-X‖_F²/(2 tau)` (its value is not computed correctly, see `C93_nuclear_call_refuted`). -/
theorem C93_nuclear_prox (svd : CVec (ι × κ) → SVDC ι κ ρ) (hsvd : SvdExactC svd) (eig : CVec (ι × κ) → κ → ℝ) (σ : ℝ) (hσ : 0 ≤ σ) (x : CVec (ι × κ))
    (τ : ℝ) (hτ : 0 < τ) : ∃ p, (NuclearCx svd eig σ).prox x τ = .ok p ∧ IsUniqueProx (XFun.ofReal fun y => σ * cNucNorm y) τ x p := by
  refine ⟨_, by simp only [ProxOp.prox, NuclearCx, checkTau_pos hτ]; rfl, ?_⟩
  have h := hsvd x
  set u := (svd x).u
  set s := (svd x).s
  set vh := (svd x).vh
  have hx := h.eq_recon
  set t : ρ → ℝ := fun k => softScalar (s k) (τ * σ) with ht
  have hcert := fun k => soft_cert (by positivity : 0 ≤ τ * σ) (s k)
  have ht0 : ∀ k, 0 ≤ t k := fun k => by
    simp only [ht, softScalar]
    refine mul_nonneg (le_max_right _ _) ?_
    unfold npsign
    have := h.nonneg k
    split_ifs <;> first | positivity | linarith
  apply isUniqueProx_of_subgrad hτ
  refine ⟨trivial, fun y _ => ?_⟩
  set g : ρ → ℝ := fun k => 1 / τ * (s k - t k) with hg
  have hG : (1 / τ) • (x - reconC u t vh) = reconC u g vh := by rw [hx, reconC_sub, reconC_smul]
  rw [hG, inner_sub_right, recon_inner_recon h.left h.right]
  have e1 : ∑ k, g k * t k = σ * ∑ k, t k := by
    rw [Finset.mul_sum]
    refine Finset.sum_congr rfl fun k _ => ?_
    have := (hcert k).2
    rw [abs_of_nonneg (ht0 k)] at this
    simp only [hg]
    rw [show 1 / τ * (s k - t k) * t k = 1 / τ * ((s k - t k) * t k) by ring, this]
    field_simp
  have e2 : ⟪reconC u g vh, y⟫ ≤ σ * cNucNorm y := by
    rcases eq_or_lt_of_le hσ with h0 | h0
    · have : reconC u g vh = 0 := by
        have hg0 : ∀ k, g k = 0 := fun k => by
          have := (hcert k).1
          rw [← h0, mul_zero] at this
          have h2 := abs_nonpos_iff.1 this
          simp only [hg, ht]
          rw [← h0, mul_zero, h2, mul_zero]
        ext ij; simp [reconC, hg0]
      rw [this, inner_zero_left, ← h0, zero_mul]
    · have : reconC u g vh = σ • reconC u (fun k => g k / σ) vh := by
        rw [reconC_smul]
        congr 1
        funext k
        field_simp
      rw [this, real_inner_smul_left]
      refine mul_le_mul_of_nonneg_left (inner_le_cNuc (reconC_contraction h.left h.right fun k => ?_) y) hσ
      simp only [hg]
      rw [abs_div, abs_of_pos h0, div_le_one h0, abs_mul, abs_of_pos (by positivity : 0 < 1 / τ), one_div, inv_mul_le_iff₀ hτ]
      exact (hcert k).1
  have e3 : cNucNorm (reconC u t vh) ≤ ∑ k, t k := (cNuc_recon_le h.left h.right t).trans (le_of_eq (Finset.sum_congr rfl fun k _ => abs_of_nonneg (ht0 k)))
  simp only [XFun.ofReal]
  have := mul_le_mul_of_nonneg_left e3 hσ
  linarith

lemma l1_ball_convex (r : ℝ) : Convex ℝ {y : Vec ρ | ∑ i, |y i| ≤ r} := by
  intro a ha b hb α β hα hβ hαβ
  simp only [Set.mem_ofPred_eq] at ha hb ⊢
  calc ∑ i, |(α • a + β • b) i| ≤ ∑ i, (α * |a i| + β * |b i|) := Finset.sum_le_sum fun i _ => by
        simp only [PiLp.add_apply, PiLp.smul_apply, smul_eq_mul]
        refine (abs_add_le _ _).trans (le_of_eq ?_)
        rw [abs_mul, abs_mul, abs_of_nonneg hα, abs_of_nonneg hβ]
    _ = α * ∑ i, |a i| + β * ∑ i, |b i| := by rw [Finset.sum_add_distrib, Finset.mul_sum, Finset.mul_sum]
    _ ≤ α * r + β * r := by gcongr
    _ = r := by rw [← add_mul, hαβ, one_mul]

lemma rvec_inner_sum (a b : Vec ρ) : ⟪a, b⟫ = ∑ i, a i * b i := by
  rw [PiLp.inner_apply]
  exact Finset.sum_congr rfl fun i _ => by simp [mul_comm]

/-- The variational inequality of a projection onto a convex set. -/
lemma variational_of_isProj {E : Type} [NormedAddCommGroup E] [InnerProductSpace ℝ E] {C : Set E} (hC : Convex ℝ C) {s q : E} (h : IsProj C s q) {z : E} (hz : z ∈ C) :
    ⟪s - q, z⟫ ≤ ⟪s - q, q⟫ := by
  have hsub := (subgrad_of_isProx (indicator_convex hC) one_pos ((isProj_iff_isProx one_pos).2 h)).2 z hz
  simp only [XFun.indicator, zero_add, one_div, inv_one, one_smul] at hsub
  rw [inner_sub_right] at hsub
  linarith

/-- The variational inequality of the `l1` ball at its corners. -/
lemma l1_proj_entry {r : ℝ} (hr : 0 ≤ r) {s q : Vec ρ} (h : IsProj {y : Vec ρ | ∑ i, |y i| ≤ r} s q) (k : ρ) :
    r * |s k - q k| ≤ ∑ k, (s k - q k) * q k := by
  classical
  obtain ⟨e, he1, he2⟩ : ∃ e : ℝ, |e| ≤ 1 ∧ (s k - q k) * e = |s k - q k| := by
    rcases le_total 0 (s k - q k) with h1 | h1
    · exact ⟨1, by simp, by rw [abs_of_nonneg h1, mul_one]⟩
    · exact ⟨-1, by simp, by rw [abs_of_nonpos h1]; ring⟩
  let z : Vec ρ := vmk fun i => if i = k then r * e else 0
  have hzi : ∀ i, z i = if i = k then r * e else 0 := fun i => rfl
  have hmem : z ∈ {y : Vec ρ | ∑ i, |y i| ≤ r} := by
    have : ∑ i, |z i| = |r * e| := by
      simp only [hzi, apply_ite abs, abs_zero, Finset.sum_ite_eq', Finset.mem_univ, if_true]
    rw [Set.mem_ofPred_eq, this, abs_mul, abs_of_nonneg hr]
    exact mul_le_of_le_one_right hr he1
  have hs := variational_of_isProj (E := Vec ρ) (s := s) (q := q) (z := z) (l1_ball_convex r) h hmem
  rw [rvec_inner_sum, rvec_inner_sum] at hs
  simp only [hzi, PiLp.sub_apply, mul_ite, mul_zero, Finset.sum_ite_eq', Finset.mem_univ, if_true] at hs
  have e1 : (s k - q k) * (r * e) = r * |s k - q k| := by rw [← he2]; ring
  rw [e1] at hs
  exact hs

lemma recon_inner_le {u : ρ → CVec ι} {vh : ρ → CVec κ} (hu : Orthonormal ℂ u) (hv : Orthonormal ℂ vh) (t : ρ → ℝ) {c : ℝ} (hc : 0 < c)
    (ht : ∀ k, |t k| ≤ c) (y : CVec (ι × κ)) : ⟪reconC u t vh, y⟫ ≤ c * cNucNorm y := by
  have h2 := inner_le_cNuc (reconC_contraction hu hv (t := fun k => t k / c) fun k => by
    rw [abs_div, abs_of_pos hc, div_le_one hc]; exact ht k) y
  have e : reconC u t vh = c • reconC u (fun k => t k / c) vh := by
    rw [reconC_smul]; congr 1; funext k; field_simp
  rw [e, real_inner_smul_left]
  exact mul_le_mul_of_nonneg_left h2 hc.le

/-- Projecting the singular values onto the `l1` ball projects the matrix onto the nuclear norm ball. -/
lemma cNuc_proj {u : ρ → CVec ι} {vh : ρ → CVec κ} (hu : Orthonormal ℂ u) (hv : Orthonormal ℂ vh) {r : ℝ} (hr : 0 ≤ r) {s q : Vec ρ}
    (h : IsProj {y : Vec ρ | ∑ i, |y i| ≤ r} s q) : IsUniqueProj {y : CVec (ι × κ) | cNucNorm y ≤ r} (reconC u (fun k => s k) vh) (reconC u (fun k => q k) vh) := by
  have hq : ∑ i, |q i| ≤ r := h.1
  have hent := l1_proj_entry hr h
  refine isUniqueProj_of_variational ((cNuc_recon_le hu hv _).trans hq) fun y hy => ?_
  have hy' : cNucNorm y ≤ r := hy
  rw [reconC_sub, inner_sub_right, recon_inner_recon hu hv]
  suffices ⟪reconC u (fun k => s k - q k) vh, y⟫ ≤ ∑ k, (s k - q k) * q k by linarith
  -- up to any positive slack
  refine le_of_forall_pos_le_add fun ε hε => ?_
  rcases eq_or_lt_of_le hr with h0 | h0
  · have hN : cNucNorm y = 0 := le_antisymm (by rw [h0]; exact hy') (cNuc_nonneg y)
    have hq0 : ∀ k, q k = 0 := fun k => by
      have : ∑ i, |q i| ≤ 0 := by rw [h0]; exact hq
      have h1 := (Finset.sum_eq_zero_iff_of_nonneg fun i _ => abs_nonneg (q i)).1 (le_antisymm this (Finset.sum_nonneg fun i _ => abs_nonneg (q i))) k (Finset.mem_univ k)
      exact abs_eq_zero.1 h1
    have hM0 : ∑ k, (s k - q k) * q k = 0 := Finset.sum_eq_zero fun k _ => by rw [hq0 k, mul_zero]
    have hc0 : 0 < 1 + ∑ k, |s k - q k| := by
      have : 0 ≤ ∑ k, |s k - q k| := Finset.sum_nonneg fun k _ => abs_nonneg _
      linarith
    have hb := recon_inner_le hu hv (fun k => s k - q k) hc0 (fun k => by
      have := Finset.single_le_sum (f := fun k => |s k - q k|) (fun k _ => abs_nonneg _) (Finset.mem_univ k)
      linarith) y
    rw [hN, mul_zero] at hb
    rw [hM0]
    linarith
  · have hM0 : 0 ≤ ∑ k, (s k - q k) * q k := by
      rcases isEmpty_or_nonempty ρ with hρ | ⟨⟨k⟩⟩
      · simp
      · exact (mul_nonneg hr (abs_nonneg _)).trans (hent k)
    have hc0 : 0 < (∑ k, (s k - q k) * q k + ε) / r := div_pos (by linarith) h0
    have hb := recon_inner_le hu hv (fun k => s k - q k) hc0 (fun k => by
      rw [le_div_iff₀ h0]
      have := hent k
      linarith) y
    refine hb.trans ((mul_le_mul_of_nonneg_left hy' hc0.le).trans (le_of_eq ?_))
    field_simp

lemma reconC_norm {u : ρ → CVec ι} {vh : ρ → CVec κ} (hu : Orthonormal ℂ u) (hv : Orthonormal ℂ vh) (t : Vec ρ) : ‖reconC u (fun k => t k) vh‖ = ‖t‖ := by
  refine (sq_eq_sq₀ (norm_nonneg _) (norm_nonneg _)).1 ?_
  rw [← real_inner_self_eq_norm_sq, recon_inner_recon hu hv, ← real_inner_self_eq_norm_sq, rvec_inner_sum]

/-- C93, partial: for a complex matrix on or outside the ball `NuclearBall.prox` returns a point within `xtol * sqrt(min m n)` of the projection onto the nuclear norm ball.
Missing: matrices strictly inside the ball, where it is false (`C93_nuclearball_interior_refuted`). -/
theorem C93_nuclearball_prox_partial [Nonempty ρ] (svd : CVec (ι × κ) → SVDC ι κ ρ) (hsvd : SvdExactC svd) (nuc : CVec (ι × κ) → ℝ)
    (bisect : (ℝ → ℝ) → ℝ → ℝ → ℝ) (xtol : ℝ) (hb : BisectTol bisect xtol) (radius tol : ℝ) (hr : 0 ≤ radius) (x : CVec (ι × κ)) (hx : radius ≤ cNucNorm x)
    (τ : ℝ) (hτ : 0 < τ) :
    ∃ N, ∀ fuel, N ≤ fuel → ∃ p q, (NuclearBallCx svd nuc bisect fuel radius tol).prox x τ = .ok p ∧
      IsUniqueProj {y : CVec (ι × κ) | cNucNorm y ≤ radius} x q ∧ ‖p - q‖ ≤ xtol * √(Fintype.card ρ) := by
  have hS := hsvd x
  have hsum : ∑ k, |(vmk (svd x).s : Vec ρ) k| = cNucNorm x := by
    rw [cNuc_svd hS]
    exact Finset.sum_congr rfl fun k _ => abs_of_nonneg (hS.nonneg k)
  obtain ⟨N, h⟩ := C27_l1ball_prox_partial bisect xtol hb radius tol hr (vmk (svd x).s) (by rw [hsum]; exact hx) τ hτ
  refine ⟨N, fun fuel hf => ?_⟩
  obtain ⟨t, q, h1, h2, h3⟩ := h fuel hf
  have h1' : l1BallProj bisect fuel radius (vmk (svd x).s) = .ok t := by
    simpa only [ProxOp.prox, L1Ball, checkTau_pos hτ] using h1
  refine ⟨reconC (svd x).u (fun k => t k) (svd x).vh, reconC (svd x).u (fun k => q k) (svd x).vh, ?_, ?_, ?_⟩
  · simp only [ProxOp.prox, NuclearBallCx, checkTau_pos hτ, h1', bind, Except.bind, pure, Except.pure]
  · have := cNuc_proj hS.left hS.right hr h2.1
    have e : reconC (svd x).u (fun k => (vmk (svd x).s : Vec ρ) k) (svd x).vh = x := hS.eq_recon.symm
    rwa [e] at this
  · rw [reconC_sub]
    have e : reconC (svd x).u (fun k => t k - q k) (svd x).vh = reconC (svd x).u (fun k => (t - q) k) (svd x).vh := rfl
    rw [e, reconC_norm hS.left hS.right]
    exact h3

/-- C93, refutation for `NuclearBall`: with an exact root search every non-zero complex matrix strictly inside the ball is moved. -/
theorem C93_nuclearball_interior_refuted (svd : CVec (ι × κ) → SVDC ι κ ρ) (hsvd : SvdExactC svd) (nuc : CVec (ι × κ) → ℝ)
    (bisect : (ℝ → ℝ) → ℝ → ℝ → ℝ) (hb : BisectTol bisect 0) (radius tol : ℝ) (x : CVec (ι × κ)) (hx : cNucNorm x < radius)
    (hx0 : x ≠ 0) (τ : ℝ) (hτ : 0 < τ) :
    ∃ N, ∀ fuel, N ≤ fuel → ∃ p, (NuclearBallCx svd nuc bisect fuel radius tol).prox x τ = .ok p ∧ p ≠ x := by
  have hS := hsvd x
  have hsum : ∑ k, |(vmk (svd x).s : Vec ρ) k| = cNucNorm x := by
    rw [cNuc_svd hS]
    exact Finset.sum_congr rfl fun k _ => abs_of_nonneg (hS.nonneg k)
  have hxr : reconC (svd x).u (fun k => (vmk (svd x).s : Vec ρ) k) (svd x).vh = x := hS.eq_recon.symm
  have hs0 : (vmk (svd x).s : Vec ρ) ≠ 0 := by
    intro h0
    apply hx0
    rw [← norm_eq_zero, ← hxr, reconC_norm hS.left hS.right, h0, norm_zero]
  obtain ⟨N, h⟩ := C27_l1ball_interior_refuted bisect hb radius tol (vmk (svd x).s) (by rw [hsum]; exact hx) hs0 τ hτ
  refine ⟨N, fun fuel hf => ?_⟩
  obtain ⟨t, h1, h2, _⟩ := h fuel hf
  have h1' : l1BallProj bisect fuel radius (vmk (svd x).s) = .ok t := by
    simpa only [ProxOp.prox, L1Ball, checkTau_pos hτ] using h1
  refine ⟨reconC (svd x).u (fun k => t k) (svd x).vh, ?_, ?_⟩
  · simp only [ProxOp.prox, NuclearBallCx, checkTau_pos hτ, h1', bind, Except.bind, pure, Except.pure]
  · intro heq
    have h3 : reconC (svd x).u (fun k => (t - vmk (svd x).s) k) (svd x).vh = 0 := by
      have e := reconC_sub (svd x).u (fun k => t k) (fun k => (vmk (svd x).s : Vec ρ) k) (svd x).vh
      rw [heq, hxr, sub_self] at e
      exact e.symm
    rw [← norm_eq_zero, reconC_norm hS.left hS.right, norm_eq_zero] at h3
    exact h2 (sub_eq_zero.1 h3)

/-- C93, refutation for `Hankel`: on complex matrices neither the value nor the proximal point can be computed, not even for Hankel matrices, which are their own projections. -/
theorem C93_hankel_refuted {m n : ℕ} (X : CVec (Fin m × Fin n)) {τ : ℝ} (hτ : 0 < τ) :
    HankelCx.call X = .error .typeError ∧ HankelCx.prox X τ = .error .typeError ∧ (X ∈ cHankelSet m n → IsUniqueProj (cHankelSet m n) X X) := by
  refine ⟨rfl, by simp only [ProxOp.prox, HankelCx, checkTau_pos hτ]; rfl, fun h => ⟨⟨h, fun y _ => by simp⟩, fun q hq => ?_⟩⟩
  have := hq.2 X h
  rw [sub_self, norm_zero] at this
  exact (sub_eq_zero.1 (norm_eq_zero.1 (le_antisymm this (norm_nonneg _)))).symm

/-! ## Concrete cases -/

/-- Exact decompositions of the complex columns with two entries. -/
example : ∃ svd : CVec (Fin 2 × Fin 1) → SVDC (Fin 2) (Fin 1) (Fin 1), SvdExactC svd := by
  classical
  have hcol : ∀ x : CVec (Fin 2 × Fin 1), ∃ d : SVDC (Fin 2) (Fin 1) (Fin 1), IsSVDC x d.u d.s d.vh := fun x => by
    let y : CVec (Fin 2) := cmk fun i => x (i, 0)
    by_cases hy : y = 0
    · refine ⟨⟨fun _ => EuclideanSpace.single 0 1, fun _ => 0, fun _ => EuclideanSpace.single 0 1⟩, ⟨fun _ => by simp, fun i j hij => (hij (Subsingleton.elim i j)).elim⟩,
        ⟨fun _ => by simp, fun i j hij => (hij (Subsingleton.elim i j)).elim⟩, fun _ => le_rfl, fun i j => ?_⟩
      have : x (i, 0) = 0 := congrFun (congrArg WithLp.ofLp hy) i
      rw [Subsingleton.elim j 0, this]
      simp
    · have hn : ‖y‖ ≠ 0 := norm_ne_zero_iff.2 hy
      refine ⟨⟨fun _ => (‖y‖⁻¹ : ℂ) • y, fun _ => ‖y‖, fun _ => EuclideanSpace.single 0 1⟩, ⟨fun _ => ?_, fun i j hij => (hij (Subsingleton.elim i j)).elim⟩,
        ⟨fun _ => by simp, fun i j hij => (hij (Subsingleton.elim i j)).elim⟩, fun _ => norm_nonneg _, fun i j => ?_⟩
      · rw [norm_smul, norm_inv, Complex.norm_real, norm_norm, inv_mul_cancel₀ hn]
      · have hc : (‖y‖ : ℂ) ≠ 0 := by exact_mod_cast hn
        rw [Subsingleton.elim j 0]
        simp only [Finset.univ_unique, Fin.default_eq_zero, Finset.sum_singleton, PiLp.smul_apply, smul_eq_mul]
        have hyi : x (i, 0) = y i := rfl
        rw [hyi]
        simp only [PiLp.single_apply, if_true, mul_one]
        rw [mul_right_comm, inv_mul_cancel₀ hc, one_mul]
  choose d hd using hcol
  exact ⟨d, hd⟩

end Verif
