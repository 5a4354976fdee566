import Verif.Model.ComplexAffine
import Verif.Props.Projections
import Verif.Props.Stack
import Verif.Props.Complex6
import Verif.Props.ComplexSolve

/-!
# C131: `AffineSet` and `Orthogonal` with complex matrices
-/

open scoped RealInnerProductSpace ComplexConjugate

namespace Verif

variable {ι κ : Type} [Fintype ι] [Fintype κ]

/-- A complex matrix as a real linear operator: the conjugate transpose is the adjoint. -/
noncomputable def cxOp (A : Matrix ι κ ℂ) : LinOp (CVec κ) (CVec ι) where
  matvec :=
    { toFun := cxMatvec A
      map_add' := fun v w => by ext i; simp [cxMatvec, mul_add, Finset.sum_add_distrib]
      map_smul' := fun c v => by
        ext i
        simp only [cxMatvec, PiLp.smul_apply, RingHom.id_apply, Finset.smul_sum, mul_smul_comm] }
  rmatvec :=
    { toFun := cxRmatvec A
      map_add' := fun v w => by ext i; simp [cxRmatvec, mul_add, Finset.sum_add_distrib]
      map_smul' := fun c v => by
        ext i
        simp only [cxRmatvec, PiLp.smul_apply, RingHom.id_apply, Finset.smul_sum, mul_smul_comm] }
  dot := fun x y => by
    rw [creal_inner, creal_inner]
    congr 1
    simp only [LinearMap.coe_mk, AddHom.coe_mk, cxMatvec, cxRmatvec, map_sum, map_mul, Finset.sum_mul, Finset.mul_sum]
    rw [Finset.sum_comm]
    exact Finset.sum_congr rfl fun j _ => Finset.sum_congr rfl fun i _ => by ring

lemma orthogonalCx_eq (f : ProxOp (CVec ι)) (Q : Matrix ι κ ℂ) (pt : Bool) (b : CVec ι) (α : ℝ) : OrthogonalCx f Q pt b α = Orthogonal f (cxOp Q) pt b α := rfl

lemma linOp_normal_solvable {E F : Type} [NormedAddCommGroup E] [InnerProductSpace ℝ E] [FiniteDimensional ℝ E] [NormedAddCommGroup F] [InnerProductSpace ℝ F] (Op : LinOp E F) (w : E) :
    ∃ z, Op.matvec (Op.rmatvec z) = Op.matvec w := by
  obtain ⟨k, ⟨z, rfl⟩, k', hk', e⟩ := (LinearMap.range Op.rmatvec).exists_add_mem_mem_orthogonal w
  refine ⟨z, ?_⟩
  have h0 : Op.matvec k' = 0 := by
    refine ext_inner_right ℝ fun v => ?_
    rw [Op.dot, inner_zero_left, real_inner_comm]
    exact (Submodule.mem_orthogonal _ _).1 hk' _ ⟨v, rfl⟩
  rw [e, map_add, h0, add_zero]

/-- C131: the system that the projection hands to the solver can be solved at every `x` exactly when the set is not empty. -/
theorem C131_solvable_iff (A : Matrix ι κ ℂ) (b : CVec ι) :
    (∀ x, ∃ z, cxMatvec A (cxRmatvec A z) = cxMatvec A x - b) ↔ ∃ y : CVec κ, ∀ i, ∑ j, A i j * y j = b i := by
  constructor
  · intro h
    obtain ⟨z, hz⟩ := h 0
    refine ⟨0 - cxRmatvec A z, fun i => ?_⟩
    have h1 : (cxOp A).matvec (0 - (cxOp A).rmatvec z) = b := by
      rw [map_sub]
      have : (cxOp A).matvec ((cxOp A).rmatvec z) = (cxOp A).matvec 0 - b := hz
      rw [this]; abel
    exact congrArg (fun v : CVec ι => v i) h1
  · rintro ⟨y, hy⟩ x
    have hb : (cxOp A).matvec y = b := by ext i; exact hy i
    obtain ⟨z, hz⟩ := linOp_normal_solvable (cxOp A) (x - y)
    refine ⟨z, ?_⟩
    rw [map_sub, hb] at hz
    exact hz

/-- C131: if the solver solves the systems that have a solution, `AffineSet.prox` is the unique closest point of `{y : A y = b}`, for every complex matrix and every right hand side for which the set is not
empty. -/
theorem C131_affine_prox (cg : (CVec ι → CVec ι) → CVec ι → CVec ι) (A : Matrix ι κ ℂ) (b : CVec ι) (hne : ∃ y : CVec κ, ∀ i, ∑ j, A i j * y j = b i)
    (hcg : ∀ r, (∃ z, cxMatvec A (cxRmatvec A z) = r) → cxMatvec A (cxRmatvec A (cg (fun y => cxMatvec A (cxRmatvec A y)) r)) = r) (x : CVec κ) {τ : ℝ} (hτ : 0 < τ) :
    ∃ p, (AffineSetCx cg A b).prox x τ = .ok p ∧ IsUniqueProj {y : CVec κ | ∀ i, ∑ j, A i j * y j = b i} x p := by
  have hs := hcg _ ((C131_solvable_iff A b).2 hne x)
  refine ⟨_, by simp only [ProxOp.prox, AffineSetCx, checkTau_pos hτ]; rfl, ?_⟩
  have hmem : ∀ y : CVec κ, (∀ i, ∑ j, A i j * y j = b i) ↔ (cxOp A).matvec y = b := fun y =>
    ⟨fun h => by ext i; exact h i, fun h i => congrArg (fun v : CVec ι => v i) h⟩
  set z := cg (fun y => cxMatvec A (cxRmatvec A y)) (cxMatvec A x - b)
  have hs' : (cxOp A).matvec ((cxOp A).rmatvec z) = (cxOp A).matvec x - b := hs
  have hp : affineSetProjCx cg A b x = x - (cxOp A).rmatvec z := rfl
  rw [hp]
  apply isUniqueProj_of_variational
  · rw [Set.mem_ofPred_eq, hmem, map_sub, hs']; abel
  · intro y hy
    rw [Set.mem_ofPred_eq, hmem] at hy
    rw [sub_sub_cancel, real_inner_comm, ← (cxOp A).dot, map_sub, map_sub, hy, hs']
    simp

/-- C131, inexact solve: the constraint is violated exactly by the residual of the solve. -/
theorem C131_affine_residual (cg : (CVec ι → CVec ι) → CVec ι → CVec ι) (A : Matrix ι κ ℂ) (b : CVec ι) (x : CVec κ) {τ : ℝ} (hτ : 0 < τ) :
    ∃ p, (AffineSetCx cg A b).prox x τ = .ok p ∧
      ∀ i, ∑ j, A i j * p j - b i = (cxMatvec A x - b - cxMatvec A (cxRmatvec A (cg (fun y => cxMatvec A (cxRmatvec A y)) (cxMatvec A x - b)))) i := by
  refine ⟨_, by simp only [ProxOp.prox, AffineSetCx, checkTau_pos hτ]; rfl, fun i => ?_⟩
  set z := cg (fun y => cxMatvec A (cxRmatvec A y)) (cxMatvec A x - b)
  have e : (cxOp A).matvec (x - (cxOp A).rmatvec z) - b = (cxOp A).matvec x - b - (cxOp A).matvec ((cxOp A).rmatvec z) := by rw [map_sub]; abel
  exact congrArg (fun v : CVec ι => v i) e

/-- C131: the membership test accepts exactly the points whose residual is within numpy's tolerances in every entry; in particular every point of the set. -/
theorem C131_affine_call (cg : (CVec ι → CVec ι) → CVec ι → CVec ι) (A : Matrix ι κ ℂ) (b : CVec ι) (x : CVec κ) :
    ((AffineSetCx cg A b).call x = .ok (.bool true) ↔ ∀ i, ‖∑ j, A i j * x j - b i‖ ≤ 1 / 10 ^ 8 + 1 / 10 ^ 5 * ‖b i‖) ∧
      ((∀ i, ∑ j, A i j * x j = b i) → (AffineSetCx cg A b).call x = .ok (.bool true)) := by
  have h : (AffineSetCx cg A b).call x = .ok (.bool true) ↔ ∀ i, ‖∑ j, A i j * x j - b i‖ ≤ 1 / 10 ^ 8 + 1 / 10 ^ 5 * ‖b i‖ := by
    simp only [AffineSetCx, Except.ok.injEq, CallVal.bool.injEq, decide_eq_true_eq]
    rfl
  refine ⟨h, fun hx => h.2 fun i => ?_⟩
  rw [hx i, sub_self, norm_zero]
  positivity

lemma cx_mul_apply (Q : Matrix ι κ ℂ) (y : CVec ι) (i : ι) : (cxMatvec Q (cxRmatvec Q y)) i = ∑ l, (Q * Q.conjTranspose) i l * y l := by
  simp only [cxMatvec, cxRmatvec, Matrix.mul_apply, Matrix.conjTranspose_apply, Finset.mul_sum, Finset.sum_mul]
  rw [Finset.sum_comm]
  exact Finset.sum_congr rfl fun l _ => Finset.sum_congr rfl fun j _ => by rw [mul_assoc]; rfl

lemma cx_mul_apply' (Q : Matrix ι κ ℂ) (x : CVec κ) (j : κ) : (cxRmatvec Q (cxMatvec Q x)) j = ∑ l, (Q.conjTranspose * Q) j l * x l := by
  simp only [cxMatvec, cxRmatvec, Matrix.mul_apply, Matrix.conjTranspose_apply, Finset.mul_sum, Finset.sum_mul]
  rw [Finset.sum_comm]
  exact Finset.sum_congr rfl fun l _ => Finset.sum_congr rfl fun j _ => by rw [mul_assoc]; rfl

/-- C131: `Orthogonal(f, Q, partial=True, b, alpha)` with `Q Qᴴ = alpha I` computes the proximal map of `x -> f(Q x + b)`, for every complex matrix `Q` and every `f` whose `prox` is exact. -/
theorem C131_orthogonal_semi [DecidableEq ι] (f : ProxOp (CVec ι)) (G : XFun (CVec ι)) (hf : ProxExact f G) (Q : Matrix ι κ ℂ) (b : CVec ι) {α : ℝ} (hα : 0 < α)
    (hQ : Q * Q.conjTranspose = (α : ℂ) • 1) : ProxExact (OrthogonalCx f Q true b α) (G.comp fun x => cmk fun i => (∑ j, Q i j * x j) + b i) := by
  rw [orthogonalCx_eq]
  refine C31_orthogonal_semi f G hf (cxOp Q) b α hα fun y => ?_
  ext i
  refine (cx_mul_apply Q y i).trans ?_
  rw [hQ]
  simp [Matrix.smul_apply, Matrix.one_apply]

/-- C131: with a unitary `Q` the default variant computes the proximal map, whatever `alpha` is. -/
theorem C131_orthogonal_full [DecidableEq ι] [DecidableEq κ] (f : ProxOp (CVec ι)) (G : XFun (CVec ι)) (hf : ProxExact f G) (Q : Matrix ι κ ℂ) (b : CVec ι) (α : ℝ)
    (hQ : Q * Q.conjTranspose = 1) (hQ' : Q.conjTranspose * Q = 1) : ProxExact (OrthogonalCx f Q false b α) (G.comp fun x => cmk fun i => (∑ j, Q i j * x j) + b i) := by
  rw [orthogonalCx_eq]
  refine C31_orthogonal_full f G hf (cxOp Q) b α (fun y => ?_) fun x => ?_
  · ext i
    refine (cx_mul_apply Q y i).trans ?_
    rw [hQ]
    simp [Matrix.one_apply]
  · ext j
    refine (cx_mul_apply' Q x j).trans ?_
    rw [hQ']
    simp [Matrix.one_apply]

/-- C131: the value is `f(Q x + b)`. -/
theorem C131_orthogonal_call (f : ProxOp (CVec ι)) (Q : Matrix ι κ ℂ) (pt : Bool) (b : CVec ι) (α : ℝ) (x : CVec κ) :
    (OrthogonalCx f Q pt b α).call x = f.call (cmk fun i => (∑ j, Q i j * x j) + b i) := rfl

/-- Why the conjugation matters: with `Q = (1, i)` one has `Q Qᵀ = 0` but `Q Qᴴ = 2`, and `Orthogonal` is exact with `alpha = 2`. -/
theorem C131_orthogonal_twist (f : ProxOp (CVec (Fin 1))) (G : XFun (CVec (Fin 1))) (hf : ProxExact f G) (b : CVec (Fin 1)) :
    ProxExact (OrthogonalCx f !![1, Complex.I] true b 2) (G.comp fun x => cmk fun _ => x 0 + Complex.I * x 1 + b 0) := by
  have h := C131_orthogonal_semi f G hf (!![1, Complex.I] : Matrix (Fin 1) (Fin 2) ℂ) b (α := 2) (by norm_num) (by
    ext a c
    rw [Matrix.mul_apply, Fin.sum_univ_two]
    have ha : a = 0 := Subsingleton.elim _ _
    have hc : c = 0 := Subsingleton.elim _ _
    subst ha; subst hc
    simp [Matrix.smul_apply]
    norm_num)
  convert h using 3 with x
  ext i
  have hi : i = 0 := Subsingleton.elim _ _
  subst hi
  simp [Fin.sum_univ_two]

/-- The step is checked first. -/
theorem C01_complex_affine (cg : (CVec ι → CVec ι) → CVec ι → CVec ι) (A : Matrix ι κ ℂ) (b : CVec ι) (f : ProxOp (CVec ι)) (pt : Bool) (α : ℝ) :
    RejectsBadTau (AffineSetCx cg A b) ∧ RejectsBadTau (OrthogonalCx f A pt b α) := by
  constructor
  all_goals
    refine rejects_of_guarded _ ?_ ?_
    · rintro m ⟨⟩ x τ hτ; exact checkTau_nonpos hτ _
    · rintro m ⟨⟩

/-! ## The hypotheses are met -/

/-- For every matrix there is a solver that solves the systems that have a solution. -/
example (A : Matrix ι κ ℂ) : ∃ cg : (CVec ι → CVec ι) → CVec ι → CVec ι,
    ∀ r, (∃ z, cxMatvec A (cxRmatvec A z) = r) → cxMatvec A (cxRmatvec A (cg (fun y => cxMatvec A (cxRmatvec A y)) r)) = r := by
  classical
  exact ⟨fun T r => if h : ∃ z, T z = r then h.choose else 0, fun r h => (congrArg (fun z => cxMatvec A (cxRmatvec A z)) (dif_pos h)).trans h.choose_spec⟩

/-- The set `{y : y₀ + i y₁ = 1}` is not empty. -/
example : ∃ y : CVec (Fin 2), ∀ i, ∑ j, (!![1, Complex.I] : Matrix (Fin 1) (Fin 2) ℂ) i j * y j = (cmk fun _ => 1 : CVec (Fin 1)) i :=
  ⟨cmk ![1, 0], fun i => by
    have hi : i = 0 := Subsingleton.elim _ _
    subst hi
    simp [Fin.sum_univ_two]⟩

/-- A function with an exact `prox`: the complex L1 norm. -/
example : ProxExact (L1Cx 1 (none : Option (CVec ι))) (XFun.ofReal fun x : CVec ι => 1 * ∑ i, ‖x i‖) := cl1_proxExact

end Verif
