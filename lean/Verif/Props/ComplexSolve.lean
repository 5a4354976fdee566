import Verif.Model.ComplexSolve
import Verif.Props.Symmetry
import Verif.Props.Symmetry2
import Verif.Props.Complex
import Verif.Props.Lasso
import Verif.Props.Equivalences
import Verif.Props.PrimalDual
import Verif.Props.Anderson

/-!
# C120: solvers on complex data

A complex problem is solved as the real problem for the real and imaginary parts: same iterates, same results, same errors.
-/

open scoped RealInnerProductSpace
open Filter Topology

namespace Verif

variable {m n ι : Type} [Fintype m] [Fintype n] [Fintype ι]

/-! ## Specification -/

/-- The real and imaginary parts of a complex array, as the two rows of a real array. -/
noncomputable def reim : CVec ι ≃ₗᵢ[ℝ] Vec (Fin 2 × ι) where
  toFun x := vmk fun p => if p.1 = 0 then (x p.2).re else (x p.2).im
  invFun y := cmk fun i => ⟨y (0, i), y (1, i)⟩
  map_add' x y := by ext p; simp only [vmk, PiLp.add_apply, Complex.add_re, Complex.add_im]; split_ifs <;> rfl
  map_smul' c x := by ext p; simp only [vmk, PiLp.smul_apply, Complex.smul_re, Complex.smul_im, RingHom.id_apply]; split_ifs <;> rfl
  left_inv x := by ext i; simp
  right_inv y := by
    ext ⟨k, i⟩
    fin_cases k <;> simp
  norm_map' x := by
    refine (sq_eq_sq₀ (norm_nonneg _) (norm_nonneg _)).1 ?_
    rw [EuclideanSpace.norm_sq_eq, EuclideanSpace.norm_sq_eq, Fintype.sum_prod_type_right]
    refine Finset.sum_congr rfl fun i _ => ?_
    rw [← Complex.normSq_eq_norm_sq, Complex.normSq_apply]
    simp [vmk, Fin.sum_univ_two, sq]

lemma reim_apply (x : CVec ι) (p : Fin 2 × ι) : reim x p = if p.1 = 0 then (x p.2).re else (x p.2).im := rfl

/-- The real form `[[Re A, -Im A], [Im A, Re A]]` of a complex matrix. -/
def realForm (A : Matrix m n ℂ) : Matrix (Fin 2 × m) (Fin 2 × n) ℝ := Matrix.of fun p q =>
  if p.1 = q.1 then (A p.2 q.2).re else if p.1 = 0 then -(A p.2 q.2).im else (A p.2 q.2).im

/-! ## Operators -/

/-- C120: a complex matrix acts on complex arrays as its real form acts on real and imaginary parts, and so does its adjoint. -/
theorem C120_matrix (A : Matrix m n ℂ) : SameLin reim reim (cMatrixMult A) (rMatrixMult (realForm A)) := by
  constructor
  · intro x
    ext ⟨k, i⟩
    fin_cases k <;>
      simp [rMatrixMult, cMatrixMult, reim_apply, realForm, vmk, cmk, Matrix.mulVec, dotProduct, Fintype.sum_prod_type, Fin.sum_univ_two, Finset.sum_add_distrib, sub_eq_add_neg,
        add_comm]
  · intro y
    ext ⟨k, i⟩
    fin_cases k <;>
      simp [rMatrixMult, cMatrixMult, reim_apply, realForm, vmk, cmk, Matrix.mulVec, dotProduct, Fintype.sum_prod_type, Fin.sum_univ_two, Finset.sum_add_distrib, sub_eq_add_neg,
        add_comm]

lemma colNorm_reim (x : CVec ι) (j : ι) : colNorm (reim x) j = ‖x j‖ := by
  rw [colNorm, Fin.sum_univ_two, reim_apply, reim_apply, Complex.norm_def, Complex.normSq_apply]
  simp [sq]

lemma l21_reim {σ : ℝ} (hσ : 0 < σ) (x : CVec ι) {τ : ℝ} (hτ : 0 < τ) : (L21 σ).prox (reim x) τ = .ok (reim (cSoftthreshold x (τ * σ))) := by
  have h0 : 0 < τ * σ := by positivity
  have hne : ¬ ∃ ij : Fin 2 × ι, max (colNorm (reim x) ij.2) (τ * σ) = 0 := by
    rintro ⟨ij, h⟩
    have := le_max_right (colNorm (reim x) ij.2) (τ * σ)
    linarith
  simp only [ProxOp.prox, L21, checkTau_pos hτ, if_neg hne]
  congr 1
  ext ⟨k, i⟩
  simp only [reim_apply, cSoftthreshold, cmk, cSoft_eq h0, colNorm_reim, Complex.smul_re, Complex.smul_im, smul_eq_mul]
  split_ifs <;> rfl

/-- C120: `L1` on a complex array has the value of `L21` with `ndim=2` on the real and imaginary parts, and the same `prox`. -/
theorem C120_l1 {σ : ℝ} (hσ : 0 < σ) (x : CVec ι) : (L21 σ).call (reim x) = (L1Cx σ none).call x ∧ ∀ τ, (L21 σ).prox (reim x) τ = reim <$> (L1Cx σ none).prox x τ := by
  refine ⟨?_, fun τ => ?_⟩
  · simp [L21, L1Cx, colNorm_reim]
  · rcases lt_or_ge 0 τ with h | h
    · rw [l21_reim hσ x h]
      simp only [ProxOp.prox, L1Cx, checkTau_pos h]
      rfl
    · simp only [ProxOp.prox, L21, L1Cx, checkTau, if_pos h]
      rfl

/-- The object without its own `proxdual`: the solvers below never call that method. -/
def noDual {E : Type} [NormedAddCommGroup E] [InnerProductSpace ℝ E] (f : ProxOp E) : ProxOp E := { f with proxdual? := none }

lemma l1_noDual {σ : ℝ} (hσ : 0 < σ) : SameOp (reim (ι := ι)) (noDual (L1Cx σ none)) (noDual (L21 σ)) :=
  sameOp_of_prox rfl rfl rfl rfl rfl (fun x => (C120_l1 hσ x).1) rfl rfl fun x τ => (C120_l1 hσ x).2 τ

/-- C120: the least squares term of a complex matrix and complex data is, through all its methods, the least squares term of the real form, whatever the options with which the two
objects were built and whatever `prox` calls they have served (inner solvers exact). -/
theorem C120_l2 {C C' : Type} (ext : L2Ext (CVec n) (CVec m) C) (hext : L2ExtWithin ext 0) (ext' : L2Ext (Vec (Fin 2 × n)) (Vec (Fin 2 × m)) C') (hext' : L2ExtWithin ext' 0)
    (A : Matrix m n ℂ) (b : CVec m) {σ : ℝ} (hσ : 0 < σ) (e e' : Bool) (nt nt' : NIter) (warm warm' : Bool) (sv sv' : L2Solver) (ds ds' : DenseSolver)
    (x0 : Option (CVec n)) (x0' : Option (Vec (Fin 2 × n))) (st : L2State (CVec n) C) (st' : L2State (Vec (Fin 2 × n)) C') (calls : List (CVec n × ℝ))
    (calls' : List (Vec (Fin 2 × n) × ℝ)) (a : L2Args (CVec n) (CVec m)) (ha : a = ⟨.opB (cMatrixMult A) e b, none, σ, 1, true, nt, warm, sv, ds⟩)
    (a' : L2Args (Vec (Fin 2 × n)) (Vec (Fin 2 × m))) (ha' : a' = ⟨.opB (rMatrixMult (realForm A)) e' (reim b), none, σ, 1, true, nt', warm', sv', ds'⟩)
    (hs : L2.init a x0 = .ok st) (hs' : L2.init a' x0' = .ok st') :
    SameOp reim (L2.obj ext a (L2.after ext a st calls)) (L2.obj ext' a' (L2.after ext' a' st' calls')) := by
  have hA := C120_matrix A
  have hval : ∀ x, l2Spec a' (reim x) = l2Spec a x := fun x => by
    subst ha ha'
    simp only [l2Spec, hA.matvec, ← map_sub, LinearIsometryEquiv.norm_map]
  have hσa : 0 < a.σ := by rw [ha]; exact hσ
  have hσa' : 0 < a'.σ := by rw [ha']; exact hσ
  refine sameOp_of_prox' rfl rfl (fun x => ?_) rfl rfl (fun x τ => ?_) rfl rfl fun x => ?_
  · show L2.call a' (reim x) = L2.call a x
    rw [C18_l2_call, C18_l2_call, hval]
  · rcases lt_or_ge 0 τ with h | h
    · have h1 := l2obj_prox ext hext a hσa x0 st hs calls
      have h2 := l2obj_prox ext' hext' a' hσa' x0' st' hs' calls'
      exact C108_convex (F' := XFun.ofReal (l2Spec a')) (l2_convex a' hσa'.le) h1 h2 (fun _ => Iff.rfl) (fun x _ => hval x) x τ h
    · simp only [L2.prox, if_pos h]
      rfl
  · subst ha ha'
    simp only [L2.grad, hA.matvec, ← map_sub, hA.rmatvec, ← map_smul]
    rfl

/-! ## Solvers -/

section Solvers

variable {f : ProxOp (CVec n)} {f' : ProxOp (Vec (Fin 2 × n))} {σ : ℝ}

/-- C120 for `ProximalGradient` with a given step: every iterate, the step and the values used by the stopping test are those of the real form. -/
theorem C120_proximalgradient (hf : SameOp reim f f') (hσ : 0 < σ) (x0 : CVec n) (τ β eta : ℝ) (epsg : StepSpec) (niter nb : ℕ) (acc : Accel) (tol : Option ℝ) :
    ProximalGradient f' (L21 σ) (reim x0) ⟨some τ, false, β, epsg, niter, nb, acc, eta, tol⟩ =
      PGState.map reim <$> ProximalGradient f (L1Cx σ none) x0 ⟨some τ, false, β, epsg, niter, nb, acc, eta, tol⟩ :=
  C108_proximalgradient hf (l1_noDual hσ) x0 _

/-- C120 for `ADMM`. -/
theorem C120_admm (hf : SameOp reim f f') (hσ : 0 < σ) (x0 z0 : Option (CVec n)) (τ : ℝ) (niter : ℕ) (gfirst : Bool) :
    ADMM f' (L21 σ) (x0.map reim) (z0.map reim) τ niter gfirst = SplitState.map reim <$> ADMM f (L1Cx σ none) x0 z0 τ niter gfirst :=
  C108_admm hf (l1_noDual hσ) x0 z0 τ niter gfirst

/-- C120 for `HQS`. -/
theorem C120_hqs (hf : SameOp reim f f') (hσ : 0 < σ) (x0 z0 : Option (CVec n)) (tau : StepSpec) (niter : ℕ) (gfirst : Bool) :
    HQS f' (L21 σ) (x0.map reim) (z0.map reim) tau niter gfirst = SplitState.map reim <$> HQS f (L1Cx σ none) x0 z0 tau niter gfirst :=
  C108_hqs hf (l1_noDual hσ) x0 z0 tau niter gfirst

/-- C120 for `DouglasRachfordSplitting`. -/
theorem C120_dr (hf : SameOp reim f f') (hσ : 0 < σ) (x0 : CVec n) (τ η : ℝ) (niter : ℕ) (gfirst : Bool) :
    DouglasRachford f' (L21 σ) (reim x0) τ η niter gfirst =
      Prod.map reim (Prod.map reim (List.map (Prod.map reim reim))) <$> DouglasRachford f (L1Cx σ none) x0 τ η niter gfirst :=
  C108_dr hf (l1_noDual hσ) x0 τ η niter gfirst

/-- C120 for `LinearizedADMM` with a complex matrix. -/
theorem C120_linearized_admm (hf : SameOp reim f f') (hσ : 0 < σ) (A : Matrix m n ℂ) (x0 : Option (CVec n)) (z0 : Option (CVec m)) (τ μ : ℝ) (niter : ℕ) :
    LinearizedADMM f' (L21 σ) (rMatrixMult (realForm A)) (x0.map reim) (z0.map reim) τ μ niter =
      SplitOpState.map reim reim <$> LinearizedADMM f (L1Cx σ none) (cMatrixMult A) x0 z0 τ μ niter :=
  C108_linearized_admm hf (l1_noDual hσ) (C120_matrix A) x0 z0 τ μ niter

/-- C120 for `TwIST` with a complex matrix and complex data. -/
theorem C120_twist (hσ : 0 < σ) (A : Matrix m n ℂ) (b : CVec m) (x0 : CVec n) (αβ : Option (ℝ × ℝ)) (eigs : ℝ × ℝ) (niter : ℕ) (rc : Bool) :
    TwIST (L21 σ) (rMatrixMult (realForm A)) (reim b) (reim x0) αβ eigs niter rc =
      TwistState.map reim <$> TwIST (L1Cx σ none) (cMatrixMult A) b x0 αβ eigs niter rc :=
  C108_twist (l1_noDual hσ) (C120_matrix A) b x0 αβ eigs niter rc

/-- C120 for `ADMML2` with complex matrices and data, the inner solver being the same in both forms. -/
theorem C120_admml2 {inv : CVec n → CVec m → ℝ → CVec n} {inv' : Vec (Fin 2 × n) → Vec (Fin 2 × m) → ℝ → Vec (Fin 2 × n)}
    (hinv : ∀ x d e, inv' (reim x) (reim d) e = reim (inv x d e)) (hσ : 0 < σ) (A : Matrix m n ℂ) (x0 : Option (CVec n)) (z0 : Option (CVec m)) (τ : ℝ) (niter : ℕ) (gfirst : Bool) :
    ADMML2 inv' (L21 σ) (rMatrixMult (realForm A)) (x0.map reim) (z0.map reim) τ niter gfirst =
      SplitOpState.map reim reim <$> ADMML2 inv (L1Cx σ none) (cMatrixMult A) x0 z0 τ niter gfirst :=
  C108_admml2 hinv (l1_noDual hσ) (C120_matrix A) x0 z0 τ niter gfirst

end Solvers

/-! ## Solvers that call `proxdual` -/

/-- C120: the complex `L1` object built with a zero offset `g` computes its dual operator from `prox`, and then it is the dual operator of `L21` on the real and imaginary parts. -/
theorem C120_l1_offset {σ : ℝ} (hσ : 0 < σ) : SameOp (reim (ι := ι)) (L1Cx σ (some 0)) (L21 σ) := by
  have hp : ∀ (x : CVec ι) τ, (L21 σ).prox (reim x) τ = reim <$> (L1Cx σ (some 0)).prox x τ := fun x τ => by
    rcases lt_or_ge 0 τ with h | h
    · rw [l21_reim hσ x h]
      simp only [ProxOp.prox, L1Cx, checkTau_pos h, sub_zero, add_zero]
      rfl
    · simp only [ProxOp.prox, L21, L1Cx, checkTau, if_pos h]
      rfl
  refine ⟨fun x => ?_, hp, fun x τ => ?_, fun x => ?_⟩
  · simp [L21, L1Cx, colNorm_reim]
  · rcases lt_or_ge 0 τ with h | h
    · have hne : ¬ ∃ ij : Fin 2 × ι, max (colNorm (reim x) ij.2) σ = 0 := by
        rintro ⟨ij, h⟩
        have := le_max_right (colNorm (reim x) ij.2) σ
        linarith
      have hi : 0 < 1 / τ := by positivity
      simp only [ProxOp.proxdual, L21, L1Cx, checkTau_pos h, if_neg hne, ProxOp.moreauStep, checkTau_pos hi, sub_zero, add_zero]
      refine congrArg Except.ok ?_
      ext ⟨k, i⟩
      have h0 : 0 < 1 / τ * σ := by positivity
      have hm : 0 < max ‖x i‖ σ := lt_max_of_lt_right hσ
      have hmax : max ‖(1 / τ) • x i‖ (1 / τ * σ) = 1 / τ * max ‖x i‖ σ := by
        rw [norm_smul, Real.norm_eq_abs, abs_of_pos hi, ← mul_max_of_nonneg _ _ hi.le]
      simp only [reim_apply, cSoftthreshold, cmk, PiLp.sub_apply, PiLp.smul_apply, cSoft_eq h0, hmax, colNorm_reim, Complex.sub_re, Complex.sub_im, Complex.smul_re, Complex.smul_im,
        smul_eq_mul]
      split_ifs <;> field_simp <;> ring
    · simp only [ProxOp.proxdual, L21, L1Cx, checkTau, if_pos h]
      rfl
  · change (do let p ← (L21 σ).prox (reim x) 1; pure ((1 / (1 : ℝ)) • (reim x - p))) = reim <$> (do let p ← (L1Cx σ (some 0)).prox x 1; pure ((1 / (1 : ℝ)) • (x - p)))
    rw [hp]
    simp

/-- C120 for `PrimalDual` with a complex matrix, `L1` built with a zero offset. -/
theorem C120_primaldual_partial {f : ProxOp (CVec n)} {f' : ProxOp (Vec (Fin 2 × n))} {σ : ℝ} (hf : SameOp reim f f') (hσ : 0 < σ) (A : Matrix m n ℂ) (x0 : CVec n)
    (y0 : Option (CVec m)) (z : Option (CVec n)) (tau mu : StepSpec) (θ : ℝ) (niter : ℕ) (gfirst : Bool) :
    PrimalDual f' (L21 σ) (rMatrixMult (realForm A)) (reim x0) (y0.map reim) (z.map reim) tau mu θ niter gfirst =
      PDState.map reim reim <$> PrimalDual f (L1Cx σ (some 0)) (cMatrixMult A) x0 y0 z tau mu θ niter gfirst :=
  C108_primaldual hf (C120_l1_offset hσ) (C120_matrix A) x0 y0 z tau mu θ niter gfirst

/-- C120 for `AdaptivePrimalDual` with a complex matrix, `L1` built with a zero offset. -/
theorem C120_adaptive_primaldual_partial {f : ProxOp (CVec n)} {f' : ProxOp (Vec (Fin 2 × n))} {σ : ℝ} (hf : SameOp reim f f') (hσ : 0 < σ) (A : Matrix m n ℂ) (x0 : CVec n)
    (tau mu alpha : ℝ) (a : APDArgs (CVec n) (CVec m)) :
    AdaptivePrimalDual f' (L21 σ) (rMatrixMult (realForm A)) (reim x0) tau mu alpha (a.map reim) =
      APDState.map reim reim <$> AdaptivePrimalDual f (L1Cx σ (some 0)) (cMatrixMult A) x0 tau mu alpha a :=
  C108_adaptive_primaldual hf (C120_l1_offset hσ) (C120_matrix A) x0 tau mu alpha a

lemma cBoxProj_im {σ : ℝ} (hσ : 0 < σ) {y : CVec ι} (hy : ∀ i, (y i).re = 0) : cBoxProj (-σ) σ y = y := by
  ext i
  have h1 : lexMax (y i) (-σ : ℝ) = y i := if_pos (Or.inl (by rw [hy i, Complex.ofReal_re]; linarith))
  have h2 : lexMin (y i) (σ : ℝ) = y i := if_pos (Or.inl (by rw [hy i, Complex.ofReal_re]; linarith))
  simp only [cBoxProj, cmk, h1, h2]

/-- C120 fails for `PrimalDual` with the default `L1`: for purely imaginary data larger than `sigma` the solution is not zero, but zero is the only possible limit of the iterates. -/
theorem C120_primaldual_refuted [Nonempty ι] {σ t τ μ : ℝ} (hσ : 0 < σ) (ht : σ < t) (hτ : 0 < τ) (hμ : 0 < μ) (θ : ℝ) (gfirst : Bool) :
    ∃ b c : CVec ι, IsUniqueProx (XFun.ofReal fun y : CVec ι => σ * ∑ i, ‖y i‖) 1 b c ∧ c ≠ 0 ∧ ∃ X : ℕ → CVec ι,
      (∀ k, ∃ s, PrimalDual (L2Cx 1 1 (some b) none true) (L1Cx σ none) (idOp (CVec ι)) 0 none none (.scalar τ) (.scalar μ) θ k gfirst = .ok s ∧ s.x = X k) ∧
      ∀ x, Tendsto X atTop (𝓝 x) → x = 0 := by
  set b : CVec ι := cmk fun _ => t * Complex.I with hb
  have hbre : ∀ i, (b i).re = 0 := fun i => by simp [hb, cmk]
  obtain ⟨c, hc1, hc2⟩ := C93_l1_prox σ hσ.le none b 1 one_pos
  have hc : c = cSoftthreshold b (1 * σ) := by
    simp only [ProxOp.prox, L1Cx, checkTau_pos one_pos] at hc1
    exact (Except.ok.inj hc1).symm
  refine ⟨b, c, by simpa using hc2, fun h0 => ?_, ?_⟩
  · obtain ⟨i⟩ := ‹Nonempty ι›
    have h1 : cSoft (b i) (1 * σ) = 0 := by
      have := congrArg (fun v : CVec ι => v i) (hc.symm.trans h0)
      simpa [cSoftthreshold, cmk] using this
    rw [one_mul, cSoft_eq hσ] at h1
    have hn : ‖b i‖ = t := by simp [hb, cmk, abs_of_pos (hσ.trans ht)]
    rw [hn, max_eq_left ht.le, smul_eq_zero] at h1
    rcases h1 with h1 | h1
    · have : σ / t < 1 := (div_lt_one (hσ.trans ht)).2 ht
      linarith
    · rw [h1, norm_zero] at hn
      linarith
  · have hf : ∀ x : CVec ι, (L2Cx 1 1 (some b) none true).prox x τ = .ok ((1 / (1 + τ)) • (x + τ • b)) := fun x => by
      simp only [ProxOp.prox, L2Cx, checkTau_pos hτ, mul_one]
      rw [if_neg (by positivity)]
    have hg : ∀ y : CVec ι, (L1Cx σ none).proxdual y μ = .ok (cBoxProj (-σ) σ y) := fun y => by
      simp only [ProxOp.proxdual, L1Cx, checkTau_pos hμ]
    obtain ⟨X, Y, Xh, hX0, hXh0, hY0, hXh, htr, hfl, hrun⟩ := pd_traj (A := idOp (CVec ι)) hf hg 0 none none θ gfirst
    have hm : ∀ v, (idOp (CVec ι)).matvec v = v := fun _ => rfl
    have hr : ∀ v, (idOp (CVec ι)).rmatvec v = v := fun _ => rfl
    refine ⟨X, fun k => ⟨_, hrun k, rfl⟩, fun x hx => ?_⟩
    have hx1 : Tendsto (fun k => X (k + 1)) atTop (𝓝 x) := hx.comp (tendsto_add_atTop_nat 1)
    have hXh1 : Tendsto (fun k => Xh (k + 1)) atTop (𝓝 x) := by
      have := hx1.add ((hx1.sub hx).const_smul θ)
      simpa [hXh] using this
    have hXhl : Tendsto Xh atTop (𝓝 x) := (tendsto_add_atTop_iff_nat 1).1 hXh1
    have solveY : ∀ {u v y : CVec ι}, v = (1 / (1 + τ)) • (u - τ • y + τ • b) → y = (1 / τ) • (u + τ • b - (1 + τ) • v) := by
      intro u v y h
      have h1 : (1 + τ) • v = u - τ • y + τ • b := by
        rw [h, smul_smul, mul_one_div_cancel (by positivity), one_smul]
      rw [h1, show u + τ • b - (u - τ • y + τ • b) = τ • y by abel, smul_smul, one_div_mul_cancel hτ.ne', one_smul]
    have hYlim : ∃ l, Tendsto Y atTop (𝓝 l) := by
      have hl : Tendsto (fun k => (1 / τ) • (X k + τ • b - (1 + τ) • X (k + 1))) atTop (𝓝 ((1 / τ) • (x + τ • b - (1 + τ) • x))) :=
        ((hx.add_const _).sub (hx1.const_smul _)).const_smul _
      cases gfirst with
      | true =>
        refine ⟨_, (tendsto_add_atTop_iff_nat 1).1 (hl.congr fun k => ?_)⟩
        exact (solveY (by have := (htr rfl k).2; simpa [hr] using this)).symm
      | false =>
        refine ⟨_, hl.congr fun k => ?_⟩
        exact (solveY (by have := (hfl rfl k).1; simpa [hr] using this)).symm
    obtain ⟨l, hl⟩ := hYlim
    have hl1 : Tendsto (fun k => Y (k + 1) - Y k) atTop (𝓝 0) := by simpa using (hl.comp (tendsto_add_atTop_nat 1)).sub hl
    have hPre : ∀ v : CVec ι, (∀ i, (v i).re = 0) → ∀ i, (((1 / (1 + τ)) • (v + τ • b)) i).re = 0 := fun v hv i => by
      simp [hv i, hbre i]
    have hre : ∀ k, (∀ i, (X k i).re = 0) ∧ (∀ i, (Xh k i).re = 0) ∧ ∀ i, (Y k i).re = 0 := by
      intro k
      induction k with
      | zero => refine ⟨fun i => ?_, fun i => ?_, fun i => ?_⟩ <;> simp [hX0, hXh0, hY0]
      | succ k ih =>
        obtain ⟨i1, i2, i3⟩ := ih
        cases gfirst with
        | true =>
          obtain ⟨h1, h2⟩ := htr rfl k
          have y1 : ∀ i, ((Y k + μ • (idOp (CVec ι)).matvec (Xh k)) i).re = 0 := fun i => by simp [hm, i2 i, i3 i]
          rw [cBoxProj_im hσ y1] at h1
          have y2 : ∀ i, (Y (k + 1) i).re = 0 := fun i => by rw [h1]; exact y1 i
          have x2 : ∀ i, (X (k + 1) i).re = 0 := fun i => by
            rw [h2]
            exact hPre _ (fun j => by simp [hr, i1 j, y2 j]) i
          exact ⟨x2, fun i => by simp [hXh, x2 i, i1 i], y2⟩
        | false =>
          obtain ⟨h2, h1⟩ := hfl rfl k
          have x2 : ∀ i, (X (k + 1) i).re = 0 := fun i => by
            rw [h2]
            exact hPre _ (fun j => by simp [hr, i1 j, i3 j]) i
          have xh2 : ∀ i, (Xh (k + 1) i).re = 0 := fun i => by simp [hXh, x2 i, i1 i]
          have y1 : ∀ i, ((Y k + μ • (idOp (CVec ι)).matvec (Xh (k + 1))) i).re = 0 := fun i => by simp [hm, xh2 i, i3 i]
          rw [cBoxProj_im hσ y1] at h1
          exact ⟨x2, xh2, fun i => by rw [h1]; exact y1 i⟩
    have hY : ∃ W : ℕ → CVec ι, Tendsto W atTop (𝓝 x) ∧ ∀ k, Y (k + 1) - Y k = μ • W k := by
      cases gfirst with
      | true =>
        refine ⟨Xh, hXhl, fun k => ?_⟩
        rw [(htr rfl k).1, cBoxProj_im hσ fun i => by simp [hm, (hre k).2.1 i, (hre k).2.2 i], hm]
        abel
      | false =>
        refine ⟨fun k => Xh (k + 1), hXh1, fun k => ?_⟩
        rw [(hfl rfl k).2, cBoxProj_im hσ fun i => by simp [hm, (hre (k + 1)).2.1 i, (hre k).2.2 i], hm]
        abel
    obtain ⟨W, hW, hYW⟩ := hY
    have h3 : Tendsto (fun k => Y (k + 1) - Y k) atTop (𝓝 (μ • x)) := by
      simp only [hYW]
      exact hW.const_smul μ
    have h4 := tendsto_nhds_unique h3 hl1
    exact (smul_eq_zero.1 h4).resolve_left hμ.ne'

/-! ## `AndersonProximalGradient` -/

/-- A pseudoinverse routine inverts invertible matrices. -/
def InvertsRegular {𝕜 : Type} [Field 𝕜] (pinv : ∀ n, Matrix (Fin n) (Fin n) 𝕜 → Matrix (Fin n) (Fin n) 𝕜) : Prop := ∀ n M, IsUnit M.det → pinv n M = M⁻¹

/-- C120 fails for the weights of `AndersonProximalGradient`: two complex residuals whose difference has zero sum of squares (not of squared moduli) give a division by zero,
whatever the regularisation. -/
theorem C120_anderson_weights_refuted {pinv : ∀ n, Matrix (Fin n) (Fin n) ℂ → Matrix (Fin n) (Fin n) ℂ} (hp : InvertsRegular pinv) (epsr : ℝ) (r s : CVec ι)
    (h0 : ∑ i, (r i - s i) ^ 2 = 0) (hne : ∑ i, r i ^ 2 ≠ ∑ i, s i ^ 2) : andersonAlphaC pinv epsr [r, s] = .error .nanResult := by
  set c : ℂ := ((epsr * (‖r‖ ^ 2 + ‖s‖ ^ 2) : ℝ) : ℂ) with hc
  set a := ∑ i, r i ^ 2 with ha
  set d := ∑ i, s i ^ 2 with hd
  set e := ∑ i, r i * s i with he
  have hM : andersonMatrixC epsr [r, s] = (!![a + c, e + c; e + c, d + c] : Matrix (Fin 2) (Fin 2) ℂ) := by
    have hsum : ∑ k, ‖[r, s].get k‖ ^ 2 = ‖r‖ ^ 2 + ‖s‖ ^ 2 := Fin.sum_univ_two _
    unfold andersonMatrixC
    rw [hsum]
    ext i j
    change Fin 2 at i j
    fin_cases i <;> fin_cases j
    · simp [npDot, ha, hc, sq]
    · simp [npDot, he, hc]
    · simp [npDot, he, hc, mul_comm]
    · simp [npDot, hd, hc, sq]
  have hsum : a + d = 2 * e := by
    have : ∑ i, (r i - s i) ^ 2 = a + d - 2 * e := by
      rw [ha, hd, he, Finset.mul_sum, ← Finset.sum_add_distrib, ← Finset.sum_sub_distrib]
      exact Finset.sum_congr rfl fun i _ => by ring
    linear_combination this.symm.trans h0
  have hdet : (!![a + c, e + c; e + c, d + c] : Matrix (Fin 2) (Fin 2) ℂ).det = -((a - d) ^ 2 / 4) := by
    rw [Matrix.det_fin_two_of]
    have : e = (a + d) / 2 := by rw [hsum]; ring
    rw [this]; ring
  have hu : IsUnit (!![a + c, e + c; e + c, d + c] : Matrix (Fin 2) (Fin 2) ℂ).det := by
    rw [hdet, isUnit_iff_ne_zero]
    have : a - d ≠ 0 := sub_ne_zero.2 hne
    simp [this]
  have hw : ∀ M : Matrix (Fin 2) (Fin 2) ℂ, M = !![a + c, e + c; e + c, d + c] → ∑ i, (pinv 2 M).mulVec (fun _ => (1 : ℂ)) i = 0 := by
    rintro M rfl
    rw [hp 2 _ hu, Matrix.inv_def, Matrix.adjugate_fin_two_of, Fin.sum_univ_two]
    simp only [Matrix.mulVec, dotProduct, Fin.sum_univ_two, Matrix.smul_apply, Matrix.of_apply, Matrix.cons_val', Matrix.cons_val_zero, Matrix.cons_val_one, smul_eq_mul]
    simp
    have : e = (a + d) / 2 := by rw [hsum]; ring
    rw [this]
    ring_nf
  unfold andersonAlphaC
  rw [if_neg (by simp)]
  exact if_pos (hw _ hM)

/-- The data and the start of the counterexample below. -/
noncomputable def andB : CVec (Fin 2) := cmk ![6, 2 * Complex.I]

@[inherit_doc andB]
noncomputable def andX0 : CVec (Fin 2) := cmk ![-2, -2 * Complex.I]

/-- C120 fails for `AndersonProximalGradient`: least squares data with an `L1` penalty, on which every run fails in its first iteration, with or without the safeguard, for every
regularisation and every history of at least two. -/
theorem C120_anderson_refuted {pinv : ∀ n, Matrix (Fin n) (Fin n) ℂ → Matrix (Fin n) (Fin n) ℂ} (hp : InvertsRegular pinv) (epsr : ℝ) (niter nh : ℕ) (hn : 1 ≤ niter) (hh : 2 ≤ nh)
    (safeguard : Bool) (tol : Option ℝ) :
    AndersonProximalGradientC (L2Cx 1 1 (some andB) none true) (L1Cx 1 none) (andersonAlphaC pinv epsr) andX0 (1 / 2) (.scalar 4) niter nh safeguard tol = .error .nanResult := by
  obtain ⟨k, rfl⟩ : ∃ k, niter = k + 1 := ⟨niter - 1, by omega⟩
  have hgrad : ∀ x : CVec (Fin 2), (L2Cx 1 1 (some andB) none true).grad x = .ok (x - andB) := fun x => by simp [ProxOp.grad, L2Cx]
  have hy : andX0 - (1 / 2 : ℝ) • (andX0 - andB) = cmk ![2, 0] := by
    ext i
    fin_cases i <;> simp [andX0, andB, cmk] <;> ring_nf
  have hprox : (L1Cx 1 none).prox (cmk ![2, 0] : CVec (Fin 2)) (4 * (1 / 2)) = .ok 0 := by
    simp only [ProxOp.prox, L1Cx, checkTau_pos (show (0 : ℝ) < 4 * (1 / 2) by norm_num)]
    congr 1
    ext i
    fin_cases i <;> simp [cSoftthreshold, cSoft, cmk] <;> norm_num
  have hG : (0 : CVec (Fin 2)) - (1 / 2 : ℝ) • (0 - andB) - cmk ![2, 0] = cmk ![1, Complex.I] := by
    ext i
    fin_cases i <;> simp [andB, cmk] <;> ring_nf
  have hW := C120_anderson_weights_refuted hp epsr (cmk ![1, Complex.I]) (cmk ![2, 0] : CVec (Fin 2)) (by simp [Fin.sum_univ_two]; norm_num)
    (by simp [Fin.sum_univ_two]; norm_num)
  have hpush : ∀ a b : CVec (Fin 2), histPush nh 0 a [b] = [a, b] := fun a b => if_neg (by push_cast; omega)
  have hbody : ∀ pf pfg, AndersonC.body (L2Cx 1 1 (some andB) none true) (L1Cx 1 none) (andersonAlphaC pinv epsr) (1 / 2) (.scalar 4) nh safeguard tol 0
      ⟨0, cmk ![2, 0], [cmk ![2, 0]], [cmk ![2, 0] - andX0], pf, pfg, []⟩ = .error .nanResult := fun pf pfg => by
    simp only [AndersonC.body, hgrad, py_ok_bind, hG, hpush, hW, py_error_bind]
  simp only [AndersonProximalGradientC, StepSpec.printCheck, StepSpec.at, Anderson.init, hgrad, py_ok_bind, hy, hprox, Nat.add_eq_zero_iff, one_ne_zero, and_false, if_false]
  show (do
      let s ← (do
        let pf ← (L2Cx 1 1 (some andB) none true).call 0
        pure (⟨0, cmk ![2, 0], [cmk ![2, 0]], [cmk ![2, 0] - andX0], pf.toReal, none, []⟩ : AndersonState (CVec (Fin 2))) : Py _)
      forRange _ (k + 1) 0 s) = _
  obtain ⟨v, hv⟩ : ∃ v, (L2Cx 1 1 (some andB) none true).call (0 : CVec (Fin 2)) = .ok v := ⟨_, rfl⟩
  rw [hv]
  show forRange _ (k + 1) 0 _ = _
  simp only [forRange, hbody]

/-- Beside it: the real form of the same two residuals has weights, and they minimise the combined residual. -/
example {pinv : ∀ n, Matrix (Fin n) (Fin n) ℝ → Matrix (Fin n) (Fin n) ℝ} (hp : PinvExact pinv) {epsr : ℝ} (he : 0 < epsr) (r s : CVec ι) (hr : r ≠ 0) :
    ∃ α : List ℝ, andersonAlpha pinv epsr [reim r, reim s] = .ok α ∧ α.sum = 1 := by
  obtain ⟨α, h1, -, h2, -⟩ := C86_coefficients hp he [reim r, reim s] ⟨reim r, by simp, by simpa using hr⟩
  exact ⟨α, h1, h2⟩

/-! ## Sparse recovery from complex data -/

lemma cl1_convex : (XFun.ofReal fun x : CVec ι => 1 * ∑ i, ‖x i‖).Convex := by
  refine ⟨convex_univ, fun x _ y _ a b ha hb hab => ?_⟩
  simp only [XFun.ofReal, one_mul, smul_eq_mul, Finset.mul_sum, ← Finset.sum_add_distrib]
  refine Finset.sum_le_sum fun i _ => (norm_add_le _ _).trans ?_
  simp [norm_smul, abs_of_nonneg ha, abs_of_nonneg hb]

lemma cl1_proxExact : ProxExact (L1Cx 1 (none : Option (CVec ι))) (XFun.ofReal fun x : CVec ι => 1 * ∑ i, ‖x i‖) := by
  intro x τ hτ
  obtain ⟨p, h1, h2⟩ := C93_l1_prox 1 zero_le_one none x τ hτ
  exact ⟨p, h1, by simpa using h2.1⟩

/-- C120: `ProximalGradient(L2(Op, b), L1(), x0, epsg=ε, tau=τ, acceleration='fista')` with a complex matrix and complex data: the objective `½‖Ax-b‖² + ε ∑|x_i|` exceeds its minimum
by at most `2‖x0-c‖²/(tau (n+1)²)`. -/
theorem C120_lasso {C : Type} (ext : L2Ext (CVec n) (CVec m) C) (A : Matrix m n ℂ) (e : Bool) (b : CVec m) (nt : NIter) (warm : Bool) (sv : L2Solver) (ds : DenseSolver)
    (st : L2State (CVec n) C) {K τ ε : ℝ} (hK : 0 ≤ K) (hop : ∀ v : CVec n, ‖cmk (A.mulVec v)‖ ≤ K * ‖v‖) (hτ : 0 < τ) (hτK : τ * K ^ 2 ≤ 1) (hε : 0 < ε) (x0 : CVec n) (k : ℕ)
    (hk : 0 < k) (c : CVec n)
    (hc : ∀ y : CVec n, 1 / 2 * ‖cmk (A.mulVec c) - b‖ ^ 2 + ε * ∑ i, ‖c i‖ ≤ 1 / 2 * ‖cmk (A.mulVec y) - b‖ ^ 2 + ε * ∑ i, ‖y i‖) :
    ∃ s, ProximalGradient (L2.obj ext ⟨.opB (cMatrixMult A) e b, none, 1, 1, true, nt, warm, sv, ds⟩ st) (L1Cx 1 none) x0 (pgArgs τ ε .fista k) = .ok s ∧
      1 / 2 * ‖cmk (A.mulVec s.x) - b‖ ^ 2 + ε * ∑ i, ‖s.x i‖ - (1 / 2 * ‖cmk (A.mulVec c) - b‖ ^ 2 + ε * ∑ i, ‖c i‖) ≤ 2 * ‖x0 - c‖ ^ 2 / (τ * (k + 1) ^ 2) := by
  set a : L2Args (CVec n) (CVec m) := ⟨.opB (cMatrixMult A) e b, none, 1, 1, true, nt, warm, sv, ds⟩ with ha
  have hval : ∀ y, (compositeObj (l2Spec a) ε (XFun.ofReal fun x : CVec n => 1 * ∑ i, ‖x i‖)).val y =
      1 / 2 * ‖cmk (A.mulVec y) - b‖ ^ 2 + ε * ∑ i, ‖y i‖ := by
    intro y
    simp [compositeObj, XFun.add, XFun.ofReal, XFun.smul, l2Spec, ha, cMatrixMult]
  obtain ⟨s, hs⟩ := C41_pg_returns (l2obj_grad ext a rfl st) cl1_proxExact hε hτ .fista (by decide) x0 k hk
  refine ⟨s, hs, ?_⟩
  have := C42_accelerated_rate (L := a.σ * K ^ 2) (l2obj_grad ext a rfl st) (l2_lipschitz a (by simp [ha]) (cMatrixMult A) e b rfl hK hop)
    (l2_convex a (by simp [ha])) cl1_convex cl1_proxExact hε hτ (by simpa [ha] using hτK) .fista (Or.inl rfl) x0 k hk s hs c
    ⟨⟨trivial, trivial⟩, fun y _ => by rw [hval, hval]; exact hc y⟩
  rwa [hval, hval] at this

/-- A pair of objects that meets the hypothesis of the solver theorems: least squares with a complex matrix and its real form, fresh objects with the default options. -/
example (A : Matrix m n ℂ) (b : CVec m) : ∃ (f : ProxOp (CVec n)) (f' : ProxOp (Vec (Fin 2 × n))), SameOp reim f f' ∧
    (∀ x, f.call x = .ok (.num (1 / 2 * ‖cmk (A.mulVec x) - b‖ ^ 2))) := by
  obtain ⟨ext, hext⟩ := exists_exactExt (E := CVec n) (F := CVec m)
  obtain ⟨ext', hext'⟩ := exists_exactExt (E := Vec (Fin 2 × n)) (F := Vec (Fin 2 × m))
  refine ⟨_, _, C120_l2 ext hext ext' hext' A b one_pos true true (.const 10) (.const 10) true true .legacy .legacy .default .default none none ⟨0, none, 0, none⟩ ⟨0, none, 0, none⟩
    [] [] _ rfl _ rfl rfl rfl, fun x => ?_⟩
  simp [L2.obj, L2.call, cMatrixMult]

end Verif
