import Verif.Model.ComplexBilinear
import Verif.Props.Palm
import Verif.Props.IPalm
import Verif.Props.GradTest
import Verif.Props.Complex4
import Verif.Props.Restart
import Verif.Props.Complex5

/-! # C129: bilinear factorization of complex matrices -/

open scoped RealInnerProductSpace

set_option linter.unusedSectionVars false

namespace Verif

section mat
variable {ι κ μ ν : Type} [Fintype ι] [Fintype κ] [Fintype μ] [Fintype ν]

lemma cvec_inner (a b : CVec ι) : ⟪a, b⟫ = (∑ i, (starRingEnd ℂ) (a i) * b i).re := by
  rw [PiLp.inner_apply, Complex.re_sum]
  exact Finset.sum_congr rfl fun i _ => by rw [Complex.inner, mul_comm]

lemma cvec_normSq (a : CVec ι) : ‖a‖ ^ 2 = ∑ i, ‖a i‖ ^ 2 := by
  rw [EuclideanSpace.norm_sq_eq]

/-- `X ↦ X Y` as a real-linear map. -/
noncomputable def mulRightC (ι : Type) [Fintype ι] (y : CVec (κ × μ)) : CVec (ι × κ) →ₗ[ℝ] CVec (ι × μ) where
  toFun := fun x => matMulC x y
  map_add' := fun a b => by ext p; simp [matMulC, add_mul, Finset.sum_add_distrib]
  map_smul' := fun c a => by ext p; simp [matMulC, Finset.mul_sum, mul_assoc]

/-- `Y ↦ X Y` as a real-linear map. -/
noncomputable def mulLeftC (μ : Type) [Fintype μ] (x : CVec (ι × κ)) : CVec (κ × μ) →ₗ[ℝ] CVec (ι × μ) where
  toFun := fun y => matMulC x y
  map_add' := fun a b => by ext p; simp [matMulC, mul_add, Finset.sum_add_distrib]
  map_smul' := fun c a => by ext p; simp [matMulC, Finset.mul_sum, mul_left_comm]

lemma matMulC_adj_right (x : CVec (ι × κ)) (y : CVec (κ × μ)) (w : CVec (ι × μ)) : ⟪matMulC x y, w⟫ = ⟪x, matMulC w (matH y)⟫ := by
  rw [cvec_inner, cvec_inner]
  congr 1
  simp only [matMulC, matH, Fintype.sum_prod_type, Finset.sum_mul, Finset.mul_sum, map_sum, map_mul]
  refine Finset.sum_congr rfl fun i _ => ?_
  rw [Finset.sum_comm]
  exact Finset.sum_congr rfl fun k _ => Finset.sum_congr rfl fun j _ => by ring

lemma matMulC_adj_left (x : CVec (ι × κ)) (y : CVec (κ × μ)) (w : CVec (ι × μ)) : ⟪matMulC x y, w⟫ = ⟪y, matMulC (matH x) w⟫ := by
  rw [cvec_inner, cvec_inner]
  congr 1
  simp only [matMulC, matH, Fintype.sum_prod_type, Finset.sum_mul, Finset.mul_sum, map_sum, map_mul]
  rw [Finset.sum_congr rfl fun i _ => Finset.sum_comm, Finset.sum_comm]
  refine Finset.sum_congr rfl fun k _ => ?_
  rw [Finset.sum_comm]
  exact Finset.sum_congr rfl fun j _ => Finset.sum_congr rfl fun i _ => by ring

lemma matMulC_assoc (x : CVec (ι × κ)) (y : CVec (κ × μ)) (z : CVec (μ × ν)) : matMulC (matMulC x y) z = matMulC x (matMulC y z) := by
  ext p
  simp only [matMulC, Finset.sum_mul, Finset.mul_sum]
  rw [Finset.sum_comm]
  exact Finset.sum_congr rfl fun k _ => Finset.sum_congr rfl fun j _ => by ring

lemma matMulC_neg_left (x : CVec (ι × κ)) (y : CVec (κ × μ)) : matMulC (-x) y = -matMulC x y := (mulRightC ι y).map_neg x

lemma matMulC_sub_left (x x' : CVec (ι × κ)) (y : CVec (κ × μ)) : matMulC (x - x') y = matMulC x y - matMulC x' y := (mulRightC ι y).map_sub x x'

lemma matMulC_sub_right (x : CVec (ι × κ)) (y y' : CVec (κ × μ)) : matMulC x (y - y') = matMulC x y - matMulC x y' := (mulLeftC μ x).map_sub y y'

/-- The Frobenius norm of complex matrices is sub-multiplicative. -/
lemma matMulC_norm_le (x : CVec (ι × κ)) (y : CVec (κ × μ)) : ‖matMulC x y‖ ≤ ‖x‖ * ‖y‖ := by
  have h : ‖matMulC x y‖ ^ 2 ≤ (‖x‖ * ‖y‖) ^ 2 := by
    rw [mul_pow, cvec_normSq, cvec_normSq x, cvec_normSq y]
    simp only [matMulC, Fintype.sum_prod_type]
    calc ∑ i, ∑ j, ‖∑ k, x (i, k) * y (k, j)‖ ^ 2 ≤ ∑ i, ∑ j, (∑ k, ‖x (i, k)‖ ^ 2) * ∑ k, ‖y (k, j)‖ ^ 2 := by
          refine Finset.sum_le_sum fun i _ => Finset.sum_le_sum fun j _ => ?_
          refine le_trans (pow_le_pow_left₀ (norm_nonneg _) (norm_sum_le _ _) 2) ?_
          simp only [norm_mul]
          exact Finset.sum_mul_sq_le_sq_mul_sq _ _ _
      _ = ∑ i, (∑ k, ‖x (i, k)‖ ^ 2) * ∑ j, ∑ k, ‖y (k, j)‖ ^ 2 := Finset.sum_congr rfl fun i _ => by rw [Finset.mul_sum]
      _ = (∑ i, ∑ k, ‖x (i, k)‖ ^ 2) * ∑ k, ∑ j, ‖y (k, j)‖ ^ 2 := by rw [← Finset.sum_mul, Finset.sum_comm (f := fun j k => ‖y (k, j)‖ ^ 2)]
  exact le_of_sq_le_sq h (by positivity)

end mat

variable {ι κ μ : Type} [Fintype ι] [Fintype κ] [Fintype μ] {D : Type} [NormedAddCommGroup D] [InnerProductSpace ℝ D]

open LowRankC

/-! ## The operator -/

/-- C129: calling the object evaluates `½‖Op(X Y) - d‖²` at the arguments and leaves the stored blocks unchanged. -/
theorem C129_call (H : LowRankC ι κ μ D) (s : LowRankStateC ι κ μ) (x : CVec (ι × κ)) (y : CVec (κ × μ)) :
    H.call s x y = (‖H.Op.matvec (matMulC x y) - H.d‖ ^ 2 / 2, s) := by
  simp only [call, updatex, matvecy]
  rw [norm_sub_rev]

/-- C129: `gradx(x)` is the gradient (real and imaginary parts as independent variables) of the value of the object as a function of its first block with the stored second block. -/
theorem C129_gradx (H : LowRankC ι κ μ D) (s : LowRankStateC ι κ μ) (x : CVec (ι × κ)) : IsGrad (fun x' => (H.call s x' s.y).1) x (H.gradx s x) :=
  isGrad_lsq (H.Op.matvec ∘ₗ mulRightC ι s.y) (fun r => matMulC (H.Op.rmatvec r) (matH s.y)) (fun v r => by
    show ⟪H.Op.matvec (matMulC v s.y), r⟫ = _
    rw [H.Op.dot, matMulC_adj_right]) H.d x (H.gradx s x) (fun v => by
    simp only [gradx]
    rw [matMulC_neg_left]; rfl)

/-- C129: `grady(y)` is the gradient of the value as a function of the second block with the stored first block. -/
theorem C129_grady (H : LowRankC ι κ μ D) (s : LowRankStateC ι κ μ) (y : CVec (κ × μ)) : IsGrad (fun y' => (H.call s s.x y').1) y (H.grady s y) :=
  isGrad_lsq (H.Op.matvec ∘ₗ mulLeftC μ s.x) (fun r => matMulC (matH s.x) (H.Op.rmatvec r)) (fun v r => by
    show ⟪H.Op.matvec (matMulC s.x v), r⟫ = _
    rw [H.Op.dot, matMulC_adj_left]) H.d y (H.grady s y) (fun v => by
    simp only [grady]
    rw [matMulC_neg_left]; rfl)

/-- C129: without `Op`, `ly(y)` is a Lipschitz constant of `gradx` and `lx(x)` one of `grady`. -/
theorem C129_lipschitz (H : LowRankC ι κ μ (CVec (ι × μ))) (hid : ∀ v, H.Op.matvec v = v) (hop : H.opGiven = false) (x : CVec (ι × κ)) (y : CVec (κ × μ)) :
    (∃ l, H.ly y = .ok l ∧ 0 ≤ l ∧ ∀ (s : LowRankStateC ι κ μ), s.y = y → ∀ u v, ‖H.gradx s u - H.gradx s v‖ ≤ l * ‖u - v‖) ∧
    ∃ l, H.lx x = .ok l ∧ 0 ≤ l ∧ ∀ (s : LowRankStateC ι κ μ), s.x = x → ∀ u v, ‖H.grady s u - H.grady s v‖ ≤ l * ‖u - v‖ := by
  have hid' : ∀ v, H.Op.rmatvec v = v := fun v => by
    refine ext_inner_left ℝ fun w => ?_
    rw [← H.Op.dot, hid]
  constructor
  · refine ⟨‖matMulC y (matH y)‖, by simp [ly, hop], norm_nonneg _, ?_⟩
    rintro s rfl u v
    have e : H.gradx s u - H.gradx s v = matMulC (u - v) (matMulC s.y (matH s.y)) := by
      simp only [gradx, matvecx, hid, hid']
      rw [← matMulC_sub_left, ← matMulC_assoc, matMulC_sub_left u v]
      congr 1; abel
    rw [e, mul_comm]
    exact matMulC_norm_le _ _
  · refine ⟨‖matMulC (matH x) x‖, by simp [lx, hop], norm_nonneg _, ?_⟩
    rintro s rfl u v
    have e : H.grady s u - H.grady s v = matMulC (matMulC (matH s.x) s.x) (u - v) := by
      simp only [grady, matvecy, hid, hid']
      rw [matMulC_neg_left, matMulC_neg_left, neg_sub_neg, ← matMulC_sub_right, matMulC_assoc, matMulC_sub_right s.x u v]
      congr 1; abel
    rw [e]
    exact matMulC_norm_le _ _

/-- C129: with `Op` both constants are refused with `ValueError`. -/
theorem C129_lipschitz_op (H : LowRankC ι κ μ D) (hop : H.opGiven = true) (x : CVec (ι × κ)) (y : CVec (κ × μ)) :
    H.lx x = .error .valueError ∧ H.ly y = .error .valueError := by simp [lx, ly, hop]

/-- C129: so, without `Op`, the object is what the solvers expect: the theorems about `PALM` and `iPALM` with given `gammaf`, `gammag` (C54, C55) apply to complex blocks. -/
theorem C129_exact (L : LowRankC ι κ μ (CVec (ι × μ))) (hid : ∀ v, L.Op.matvec v = v) (hop : L.opGiven = false) : L.bil.Exact where
  gradx := fun x y => by
    have := C129_gradx L ⟨x, y⟩ x
    have e : (fun x' => L.bil.call x' y) = fun x' => (L.call ⟨x, y⟩ x' y).1 := by funext x'; simp only [LowRankC.bil, C129_call]
    rw [e]; exact this
  grady := fun x y => by
    have := C129_grady L ⟨x, y⟩ y
    have e : (fun y' => L.bil.call x y') = fun y' => (L.call ⟨x, y⟩ x y').1 := by funext y'; simp only [LowRankC.bil, C129_call]
    rw [e]; exact this
  ly := fun y => by
    obtain ⟨l, h1, h2, h3⟩ := (C129_lipschitz L hid hop 0 y).1
    refine ⟨l, h1, h2, fun u v => ?_⟩
    have := h3 ⟨0, y⟩ rfl u v
    simpa [LowRankC.bil, LowRankC.gradx, LowRankC.matvecx] using this
  lx := fun x => by
    obtain ⟨l, h1, h2, h3⟩ := (C129_lipschitz L hid hop x 0).2
    refine ⟨l, h1, h2, fun u v => ?_⟩
    have := h3 ⟨x, 0⟩ rfl u v
    simpa [LowRankC.bil, LowRankC.grady, LowRankC.matvecy] using this

/-! ## `gradtest_bilinear` with `complexflag` -/

/-- C129: with complex blocks the test passes exactly when `delta/2` times the squared norm of the change of `Op(XY)` per unit of the drawn part of the drawn entry is at most `atol`, whether the
real or the imaginary part is drawn; so no draw rejects the right gradients by more than the error of the finite difference. -/
theorem C129_gradtest (H : LowRankC ι κ μ D) (s : LowRankStateC ι κ μ) (a : GradTestArgs) (hδ : 0 < a.δ) (rori : Bool) :
    (∀ i, (gradtestBilinearC H s false false a true (.x i) rori).1 = .ok true ↔ a.δ / 2 * ‖H.Op.matvec (matMulC (drawDir i rori) s.y)‖ ^ 2 ≤ a.atol) ∧
      ∀ i, (gradtestBilinearC H s false false a true (.y i) rori).1 = .ok true ↔ a.δ / 2 * ‖H.Op.matvec (matMulC s.x (drawDir i rori))‖ ^ 2 ≤ a.atol := by
  constructor
  · intro i
    have h := lsq_bump (H.Op.matvec ∘ₗ mulRightC ι s.y) (fun r => matMulC (H.Op.rmatvec r) (matH s.y)) (fun v r => by
      show ⟪H.Op.matvec (matMulC v s.y), r⟫ = _
      rw [H.Op.dot, matMulC_adj_right]) H.d s.x (drawDir i rori) a.δ
    have hg : H.gradx s s.x = matMulC (H.Op.rmatvec (H.Op.matvec (matMulC s.x s.y) - H.d)) (matH s.y) := by
      simp only [gradx, matvecx]
      rw [← map_neg, neg_sub]
    have hg2 := inner_drawDir (H.gradx s s.x) i rori
    simp only [gradtestBilinearC, C129_call, store_complex, Bool.true_and]
    rw [← gradVerdict_pos a hδ (‖H.Op.matvec (matMulC s.x s.y) - H.d‖ ^ 2 / 2) (gradPart rori (H.gradx s s.x i))]
    rw [← hg2, hg]
    exact Iff.of_eq (by congr 2)
  · intro i
    have h := lsq_bump (H.Op.matvec ∘ₗ mulLeftC μ s.x) (fun r => matMulC (matH s.x) (H.Op.rmatvec r)) (fun v r => by
      show ⟪H.Op.matvec (matMulC s.x v), r⟫ = _
      rw [H.Op.dot, matMulC_adj_left]) H.d s.y (drawDir i rori) a.δ
    have hg : H.grady s s.y = matMulC (matH s.x) (H.Op.rmatvec (H.Op.matvec (matMulC s.x s.y) - H.d)) := by
      simp only [grady, matvecy]
      rw [matMulC_neg_left]
      refine ((mulLeftC μ (matH s.x)).map_neg _).symm.trans ?_
      show matMulC _ (-_) = _
      rw [← map_neg, neg_sub]
    have hg2 := inner_drawDir (H.grady s s.y) i rori
    simp only [gradtestBilinearC, C129_call, store_complex, Bool.true_and]
    rw [← gradVerdict_pos a hδ (‖H.Op.matvec (matMulC s.x s.y) - H.d‖ ^ 2 / 2) (gradPart rori (H.grady s s.y i))]
    rw [← hg2, hg]
    exact Iff.of_eq (by congr 2)

/-- C129: without `complexflag` only real parts are tested, whatever is drawn. -/
theorem C129_gradtest_noflag (H : LowRankC ι κ μ D) (s : LowRankStateC ι κ μ) (rdx rdy : Bool) (a : GradTestArgs) (d : BilDraw ι κ μ) (rori : Bool) :
    gradtestBilinearC H s rdx rdy a false d rori = gradtestBilinearC H s rdx rdy a true d false := by simp [gradtestBilinearC]

/-- C129: `complexflag` does not generate complex vectors: if the stored blocks are real, a draw of the imaginary part changes nothing and passes whatever the (real) gradient is. -/
theorem C129_gradtest_real_refuted (H : LowRankC ι κ μ D) (s : LowRankStateC ι κ μ) (a : GradTestArgs) (hδ : a.δ ≠ 0) (hatol : 0 ≤ a.atol) :
    (∀ i, (s.x i).im = 0 → (H.gradx s s.x i).im = 0 → ∀ rdy, gradtestBilinearC H s true rdy a true (.x i) true = (.ok true, s.x, s)) ∧
      ∀ i, (s.y i).im = 0 → (H.grady s s.y i).im = 0 → ∀ rdx, gradtestBilinearC H s rdx true a true (.y i) true = (.ok true, s.x, s) := by
  classical
  have e : ∀ {ι : Type} [Fintype ι] (x : CVec ι) (i : ι), (x i).im = 0 → storeAt true x i (x i + delta1 a true) = x := by
    intro ι _ x i hx
    ext j
    by_cases h : j = i
    · subst h
      apply Complex.ext <;> simp [storeAt, delta1, hx]
    · simp [storeAt, h]
  constructor
  · intro i hx hg rdy
    simp [gradtestBilinearC, C129_call, e s.x i hx, gradVerdict, gradPart, hg, hδ, hatol]
  · intro i hy hg rdx
    simp [gradtestBilinearC, C129_call, e s.y i hy, gradVerdict, gradPart, hg, hδ, hatol, updatey]

/-- C129: a test of the first block leaves the object as it was and changes the array that was stored; a test of the second block leaves the perturbed block stored in the object. -/
theorem C129_gradtest_state_refuted (H : LowRankC ι κ μ D) (s : LowRankStateC ι κ μ) (a : GradTestArgs) (hδ : a.δ ≠ 0) (rori : Bool) :
    (∀ i, (gradtestBilinearC H s false false a true (.x i) rori).2 = (s.x + a.δ • drawDir i rori, s)) ∧
      ∀ i, (gradtestBilinearC H s false false a true (.y i) rori).2 = (s.x, ⟨s.x, s.y + a.δ • drawDir i rori⟩) ∧ (gradtestBilinearC H s false false a true (.y i) rori).2.2 ≠ s := by
  refine ⟨fun i => by simp [gradtestBilinearC, C129_call, store_complex], fun i => ?_⟩
  have h : (gradtestBilinearC H s false false a true (.y i) rori).2 = (s.x, ⟨s.x, s.y + a.δ • drawDir i rori⟩) := by
    simp [gradtestBilinearC, C129_call, store_complex, updatey]
  refine ⟨h, fun he => ?_⟩
  rw [h] at he
  have h1 : s.y + a.δ • drawDir i rori = s.y := congrArg LowRankStateC.y he
  rw [add_eq_left, smul_eq_zero] at h1
  rcases h1 with h1 | h1
  · exact hδ h1
  · have := norm_drawDir i rori
    rw [h1, norm_zero] at this
    exact zero_ne_one this

/-! ## PALM -/

variable {H : BilOp (CVec ι) (CVec κ)} {a : PalmArgs (CVec ι) (CVec κ)} {x0 hx : CVec ι} {y0 hy : CVec κ}

/-- C129: with given `gammaf`, `gammag`, `PALM` and `iPALM` on complex blocks are the algorithms of C54 and C55. -/
theorem C129_fixed (hf : a.gammaf ≠ none) (hg : a.gammag ≠ none) (ax ay : ℝ) (n : ℕ) :
    PALMC H a hx hy x0 y0 n = PALM H a hx hy x0 y0 n ∧ iPALMC H a ax ay hx hy x0 y0 n = iPALM H a ax ay hx hy x0 y0 n := by
  obtain ⟨γf, h1⟩ := Option.ne_none_iff_exists'.1 hf
  obtain ⟨γg, h2⟩ := Option.ne_none_iff_exists'.1 hg
  have e : PALMC.body H a = PALM.body H a := by
    funext i s; simp only [PALMC.body, PALM.body, palmStepC, palmStep, h1, h2]
  have e' : iPALMC.body H a ax ay = iPALM.body H a ax ay := by
    funext i s; simp only [iPALMC.body, iPALM.body, palmStepC, palmStep, ipalmYStepC, ipalmYStep, h1, h2]
  exact ⟨by simp only [PALMC, PALM, e], by simp only [iPALMC, iPALM, e']⟩

/-- C129: every iteration of `PALM` on complex matrices with `gammaf, gammag ≥ 1` does not increase `f(X) + g(Y) + ½‖XY - d‖²`.  Missing: the first iteration when the object holds another `Y`
(C54), and backtracking (refuted below). -/
theorem C129_descent_partial (L : LowRankC ι κ μ (CVec (ι × μ))) (hid : ∀ v, L.Op.matvec v = v) (hop : L.opGiven = false) {a : PalmArgs (CVec (ι × κ)) (CVec (κ × μ))}
    {Φ : XFun (CVec (ι × κ))} {Ψ : XFun (CVec (κ × μ))} (hf : BlockExact a.proxf Φ) (hg : BlockExact a.proxg Ψ) {γf γg : ℝ} (hγf : a.gammaf = some γf) (hγg : a.gammag = some γg)
    (hf0 : 1 ≤ γf) (hg0 : 1 ≤ γg) {x0 hx : CVec (ι × κ)} {y0 : CVec (κ × μ)} (n : ℕ) (r r' : PalmState (CVec (ι × κ)) (CVec (κ × μ)))
    (h : PALMC L.bil a hx y0 x0 y0 n = .ok r) (h' : PALMC L.bil a hx y0 x0 y0 (n + 1) = .ok r') (hrx : r.x ∈ Φ.dom) (hry : r.y ∈ Ψ.dom) :
    r'.x ∈ Φ.dom ∧ r'.y ∈ Ψ.dom ∧
      Φ.val r'.x + Ψ.val r'.y + ‖matMulC r'.x r'.y - L.d‖ ^ 2 / 2 ≤ Φ.val r.x + Ψ.val r.y + ‖matMulC r.x r.y - L.d‖ ^ 2 / 2 := by
  rw [(C129_fixed (by simp [hγf]) (by simp [hγg]) 0 0 _).1] at h h'
  obtain ⟨h1, h2, lf, lg, -, -, h3, h4, h5⟩ := C54_descent_partial (C129_exact L hid hop) hf hg hγf hγg hf0 hg0 n r r' h h' (Or.inr rfl) hrx hry
  refine ⟨h1, h2, ?_⟩
  have e : ∀ x y, L.bil.call x y = ‖matMulC x y - L.d‖ ^ 2 / 2 := fun x y => by simp only [LowRankC.bil, C129_call, hid]
  simp only [palmObj, e] at h5
  have : 0 ≤ (γf - 1) * lf / 2 * ‖r'.x - r.x‖ ^ 2 := by
    have : 0 ≤ γf - 1 := by linarith
    positivity
  have : 0 ≤ (γg - 1) * lg / 2 * ‖r'.y - r.y‖ ^ 2 := by
    have : 0 ≤ γg - 1 := by linarith
    positivity
  linarith

/-- C129: the backtracking accepts a point by comparing with a model whose slope is the conjugate of the gradient; the two agree when the gradient is real. -/
theorem C129_backtracking_real (val : CVec ι → ℝ) (g : CVec ι) (hg : ∀ i, (g i).im = 0) (p : Option (ProxOp (CVec ι))) (β : ℝ) (x : CVec ι) (n : ℕ) (τ : ℝ) (z : CVec ι) :
    palmBacktrackC val g p β x n τ z = palmBacktrack val g p β x n τ z := by
  induction n generalizing τ z with
  | zero => rfl
  | succ n ih =>
    have e : ∀ z : CVec ι, ((val x : ℂ) + npDot g (z - x) + (1 / (2 * τ) * ‖z - x‖ ^ 2 : ℝ)).re = val x + ⟪g, z - x⟫ + 1 / (2 * τ) * ‖z - x‖ ^ 2 := fun z => by
      rw [Complex.add_re, Complex.add_re, Complex.ofReal_re, Complex.ofReal_re, npDot_real_inner g _ hg]
    simp only [palmBacktrackC, palmBacktrack, e, ih]

/-- C129: without an operator, a step that the right test accepts is accepted; the converse fails, and what an accepted step guarantees is only an increase of at most `3/2 * tau * ‖grad‖²`. -/
theorem C129_backtracking_partial (val : CVec ι → ℝ) (g : CVec ι) (x : CVec ι) {τ : ℝ} (hτ : 0 < τ) :
    val x + ⟪g, x - τ • g - x⟫ + 1 / (2 * τ) * ‖x - τ • g - x‖ ^ 2 ≤ ((val x : ℂ) + npDot g (x - τ • g - x) + (1 / (2 * τ) * ‖x - τ • g - x‖ ^ 2 : ℝ)).re ∧
      ((val x : ℂ) + npDot g (x - τ • g - x) + (1 / (2 * τ) * ‖x - τ • g - x‖ ^ 2 : ℝ)).re ≤ val x + 3 / 2 * τ * ‖g‖ ^ 2 := by
  have e0 : x - τ • g - x = -(τ • g) := by abel
  rw [e0, Complex.add_re, Complex.add_re, Complex.ofReal_re, Complex.ofReal_re, npDot_re]
  have hn : ‖cconj g‖ = ‖g‖ := by
    have : ‖cconj g‖ ^ 2 = ‖g‖ ^ 2 := by rw [cvec_normSq, cvec_normSq]; simp [cconj]
    exact (pow_left_inj₀ (norm_nonneg _) (norm_nonneg _) two_ne_zero).1 this
  have h1 := abs_le.1 (abs_real_inner_le_norm (cconj g) g)
  rw [hn] at h1
  rw [inner_neg_right, inner_neg_right, inner_smul_right, inner_smul_right, real_inner_self_eq_norm_sq, norm_neg, norm_smul, Real.norm_eq_abs, abs_of_pos hτ, mul_pow]
  have e2 : 1 / (2 * τ) * (τ ^ 2 * ‖g‖ ^ 2) = τ / 2 * ‖g‖ ^ 2 := by field_simp
  rw [e2]
  constructor <;> nlinarith

/-! ### Real data in complex arrays -/

/-- All entries are real. -/
def RealArr {ι : Type} [Fintype ι] (x : CVec ι) : Prop := ∀ i, (x i).im = 0

/-- The optional operator maps real arrays to real arrays. -/
def KeepsReal {ι : Type} [Fintype ι] (p : Option (ProxOp (CVec ι))) : Prop := ∀ q, p = some q → ∀ x τ r, RealArr x → q.prox x τ = .ok r → RealArr r

lemma RealArr.sub {x y : CVec ι} (hx : RealArr x) (hy : RealArr y) : RealArr (x - y) := fun i => by simp [hx i, hy i]

lemma RealArr.add {x y : CVec ι} (hx : RealArr x) (hy : RealArr y) : RealArr (x + y) := fun i => by simp [hx i, hy i]

lemma RealArr.smul {x : CVec ι} (hx : RealArr x) (c : ℝ) : RealArr (c • x) := fun i => by simp [hx i]

lemma KeepsReal.apply {p : Option (ProxOp (CVec ι))} (h : KeepsReal p) {x r : CVec ι} {τ : ℝ} (hx : RealArr x) (hr : applyProx p x τ = .ok r) : RealArr r := by
  cases p with
  | none => cases hr; exact hx
  | some q => exact h q rfl x τ r hx hr

lemma palmBacktrack_real {val : CVec ι → ℝ} {g : CVec ι} (hg : RealArr g) {p : Option (ProxOp (CVec ι))} (hp : KeepsReal p) {β : ℝ} {x : CVec ι} (hx : RealArr x) :
    ∀ (n : ℕ) (τ : ℝ) (z : CVec ι), RealArr z → ∀ r, palmBacktrack val g p β x n τ z = .ok r → RealArr r.1 := by
  intro n
  induction n with
  | zero => intro τ z hz r h; simp only [palmBacktrack] at h; cases h; exact hz
  | succ n ih =>
    intro τ z hz r h
    cases hq : applyProx p (x - τ • g) τ with
    | error e => simp only [palmBacktrack, hq, Bind.bind, Except.bind] at h; cases h
    | ok q =>
      have hqr := hp.apply (hx.sub (hg.smul τ)) hq
      simp only [palmBacktrack, hq, Bind.bind, Except.bind] at h
      split_ifs at h with h1 h2
      · cases h; exact hqr
      · exact ih _ _ hqr r h

lemma palmFixed_real {l : Py ℝ} {γ : ℝ} {g : CVec ι} (hg : RealArr g) {p : Option (ProxOp (CVec ι))} (hp : KeepsReal p) {z r : CVec ι} (hz : RealArr z) (h : palmFixed l γ g p z = .ok r) :
    RealArr r := by
  cases l with
  | error e => simp only [palmFixed, Bind.bind, Except.bind] at h; cases h
  | ok l =>
    simp only [palmFixed, Bind.bind, Except.bind] at h
    split_ifs at h
    exact hp.apply (hz.sub (hg.smul _)) h

lemma palmStep_real {γ : Option ℝ} {l : Py ℝ} {val : CVec ι → ℝ} {g : CVec ι} (hg : RealArr g) {p pb : Option (ProxOp (CVec ι))} (hp : KeepsReal p) (hpb : KeepsReal pb) {β : ℝ} {nb : ℕ}
    {z : CVec ι} (hz : RealArr z) {τ : ℝ} :
    palmStepC γ l val g p pb β nb z τ = palmStep γ l val g p pb β nb z τ ∧ ∀ r, palmStep γ l val g p pb β nb z τ = .ok r → RealArr r.1 := by
  cases γ with
  | none => exact ⟨C129_backtracking_real val g hg pb β z nb τ z, fun r h => palmBacktrack_real hg hpb hz nb τ z hz r h⟩
  | some γ =>
    refine ⟨rfl, fun r h => ?_⟩
    simp only [palmStep] at h
    cases hq : palmFixed l γ g p z with
    | error e => rw [hq] at h; cases h
    | ok q =>
      rw [hq] at h; cases h
      exact palmFixed_real hg hp hz hq

/-- C129: on complex arrays whose entries are real, `PALM` and `iPALM` are those of C54 and C55, also with backtracking: if the gradients are real at real points and the operators map real arrays to
real arrays, a run from real blocks is the one with the real inner product.  Missing: backtracking on complex data (`C129_backtracking_refuted`). -/
theorem C129_real_partial (hgx : ∀ y x, RealArr y → RealArr x → RealArr (H.gradx y x)) (hgy : ∀ x y, RealArr x → RealArr y → RealArr (H.grady x y)) (hpf : KeepsReal a.proxf)
    (hpy : KeepsReal a.proxfY) (hpg : KeepsReal a.proxg) (hx0 : RealArr x0) (hy0 : RealArr y0) (hhy : RealArr hy) (ax ay : ℝ) (n : ℕ) :
    PALMC H a hx hy x0 y0 n = PALM H a hx hy x0 y0 n ∧ iPALMC H a ax ay hx hy x0 y0 n = iPALM H a ax ay hx hy x0 y0 n := by
  constructor
  · rcases forRange_sim (b1 := PALMC.body H a) (b2 := PALM.body H a) (R := fun s t => s = t ∧ RealArr s.x ∧ RealArr s.y ∧ RealArr s.hy) (fun i s t hst => by
        obtain ⟨rfl, h1, h2, h3⟩ := hst
        obtain ⟨e1, r1⟩ := palmStep_real (γ := a.gammaf) (l := H.ly s.y) (val := fun x => H.call x s.y) (hgx s.hy s.x h3 h1) hpf hpf (β := a.β) (nb := a.niterback) h1 (τ := s.tauf)
        simp only [PALMC.body, PALM.body, e1]
        cases hq : palmStep a.gammaf (H.ly s.y) (fun x => H.call x s.y) (H.gradx s.hy s.x) a.proxf a.proxf a.β a.niterback s.x s.tauf with
        | error e => left; exact ⟨e, rfl, rfl⟩
        | ok q =>
          obtain ⟨x, tf⟩ := q
          have hx' := r1 _ hq
          obtain ⟨e2, r2⟩ := palmStep_real (γ := a.gammag) (l := H.lx x) (val := fun y => H.call x y) (hgy x s.y hx' h2) hpg hpy (β := a.β) (nb := a.niterback) h2 (τ := s.taug)
          simp only [py_ok_bind, e2]
          cases hq2 : palmStep a.gammag (H.lx x) (fun y => H.call x y) (H.grady x s.y) a.proxg a.proxfY a.β a.niterback s.y s.taug with
          | error e => left; exact ⟨e, rfl, rfl⟩
          | ok q2 => right; exact ⟨_, _, _, rfl, rfl, rfl, hx', r2 _ hq2, r2 _ hq2⟩) n 0 ⟨x0, y0, 1, 1, hx, hy, []⟩ _ ⟨rfl, hx0, hy0, hhy⟩ with ⟨e, h1, h2⟩ | ⟨s, t, h1, h2, rfl, -⟩
    · exact h1.trans h2.symm
    · exact h1.trans h2.symm
  · rcases forRange_sim (b1 := iPALMC.body H a ax ay) (b2 := iPALM.body H a ax ay) (R := fun s t => s = t ∧ RealArr s.x ∧ RealArr s.y ∧ RealArr s.hy ∧ RealArr s.xold ∧ RealArr s.yold)
        (fun i s t hst => by
        obtain ⟨rfl, h1, h2, h3, h4, h5⟩ := hst
        have hz : RealArr (s.x + ax • (s.x - s.xold)) := h1.add ((h1.sub h4).smul ax)
        have hw : RealArr (s.y + ay • (s.y - s.yold)) := h2.add ((h2.sub h5).smul ay)
        obtain ⟨e1, r1⟩ := palmStep_real (γ := a.gammaf) (l := H.ly s.y) (val := fun x => H.call x s.y) (hgx s.hy _ h3 hz) hpf hpf (β := a.β) (nb := a.niterback) hz (τ := s.tauf)
        simp only [iPALMC.body, iPALM.body, e1]
        cases hq : palmStep a.gammaf (H.ly s.y) (fun x => H.call x s.y) (H.gradx s.hy (s.x + ax • (s.x - s.xold))) a.proxf a.proxf a.β a.niterback (s.x + ax • (s.x - s.xold)) s.tauf with
        | error e => left; exact ⟨e, rfl, rfl⟩
        | ok q =>
          obtain ⟨x, tf⟩ := q
          have hx' := r1 _ hq
          simp only [py_ok_bind]
          cases hγ : a.gammag with
          | some γ =>
            simp only [ipalmYStepC, ipalmYStep]
            cases hq2 : palmFixed (H.lx x) γ (H.grady x (s.y + ay • (s.y - s.yold))) a.proxg (s.y + ay • (s.y - s.yold)) with
            | error e => left; exact ⟨e, rfl, rfl⟩
            | ok q2 =>
              have := palmFixed_real (hgy x _ hx' hw) hpg hw hq2
              right; exact ⟨_, _, _, rfl, rfl, rfl, hx', this, this, h1, h2⟩
          | none =>
            cases ht : s.taug with
            | none => left; exact ⟨_, rfl, rfl⟩
            | some τ =>
              simp only [ipalmYStepC, ipalmYStep, C129_backtracking_real _ _ (hgy x s.y hx' h2)]
              cases hq2 : palmBacktrack (fun y => H.call x y) (H.grady x s.y) a.proxfY a.β s.y a.niterback τ s.y with
              | error e => left; exact ⟨e, rfl, rfl⟩
              | ok q2 =>
                have := palmBacktrack_real (hgy x s.y hx' h2) hpy h2 _ _ _ h2 _ hq2
                right; exact ⟨_, _, _, rfl, rfl, rfl, hx', this, this, h1, h2⟩) n 0
          ⟨x0, y0, x0, y0, 1, if a.gammaf.isNone then some 1 else none, hx, hy, []⟩ _ ⟨rfl, hx0, hy0, hhy, hx0, hy0⟩ with ⟨e, h1, h2⟩ | ⟨s, t, h1, h2, rfl, -⟩
    · exact h1.trans h2.symm
    · exact h1.trans h2.symm

/-- The factorization of a real matrix without `Op` meets the hypotheses. -/
example (L : LowRankC ι κ μ (CVec (ι × μ))) (hid : ∀ v, L.Op.matvec v = v) (hd : RealArr L.d) :
    (∀ y x, RealArr y → RealArr x → RealArr (L.bil.gradx y x)) ∧ ∀ x y, RealArr x → RealArr y → RealArr (L.bil.grady x y) := by
  have hid' : ∀ v, L.Op.rmatvec v = v := fun v => by
    refine ext_inner_left ℝ fun w => ?_
    rw [← L.Op.dot, hid]
  have hm : ∀ {ι κ μ : Type} [Fintype ι] [Fintype κ] [Fintype μ] (u : CVec (ι × κ)) (v : CVec (κ × μ)), RealArr u → RealArr v → RealArr (matMulC u v) := by
    intro ι κ μ _ _ _ u v hu hv p
    simp only [matMulC, Complex.im_sum, Complex.mul_im]
    exact Finset.sum_eq_zero fun k _ => by rw [hu, hv]; ring
  have hH : ∀ {ι κ : Type} [Fintype ι] [Fintype κ] (u : CVec (ι × κ)), RealArr u → RealArr (matH u) := fun u hu p => by simp [matH, hu _]
  have hneg : ∀ {ι : Type} [Fintype ι] (u : CVec ι), RealArr u → RealArr (-u) := fun u hu i => by simp [hu i]
  constructor
  · intro y x hy hx
    simp only [LowRankC.bil, LowRankC.gradx, LowRankC.matvecx, hid, hid']
    exact hm _ _ (hneg _ (hd.sub (hm _ _ hx hy))) (hH _ hy)
  · intro x y hx hy
    simp only [LowRankC.bil, LowRankC.grady, LowRankC.matvecy, hid, hid']
    exact hm _ _ (hneg _ (hH _ hx)) (hd.sub (hm _ _ hx hy))

/-! ### A diverging run -/

/-- The 1 × 1 factorization `½|x y - 3|²`. -/
noncomputable def unitBil : LowRankC Unit Unit Unit (CVec (Unit × Unit)) := ⟨cmk fun _ => 3, ⟨LinearMap.id, LinearMap.id, fun _ _ => rfl⟩, false⟩

/-- The indicator of `{3}`. -/
def onlyThree : XFun (CVec (Unit × Unit)) := ⟨{cmk fun _ => 3}, fun _ => 0⟩

/-- The operator of the indicator of `{3}`. -/
noncomputable def threeOp : ProxOp (CVec (Unit × Unit)) := ⟨fun _ => .ok (.num 0), some fun _ _ => .ok (cmk fun _ => 3), none, none, false, 1⟩

/-- No operator and backtracking for `X`, the indicator of `{3}` and `gammag = 1` for `Y`. -/
noncomputable def unitArgs (nb : ℕ) : PalmArgs (CVec (Unit × Unit)) (CVec (Unit × Unit)) := ⟨none, none, some threeOp, none, some 1, 1 / 2, nb⟩

/-- The number `1 + i t` as a 1 × 1 block. -/
noncomputable def onePlus (t : ℝ) : CVec (Unit × Unit) := cmk fun _ => 1 + Complex.I * t

/-- The number `3` as a 1 × 1 block. -/
noncomputable def blockThree : CVec (Unit × Unit) := cmk fun _ => 3

lemma sum_unitPair {M : Type} [AddCommMonoid M] (f : Unit × Unit → M) : ∑ i, f i = f ((), ()) := by
  rw [Fintype.sum_prod_type]; simp

lemma unit_call (t : ℝ) : unitBil.bil.call (onePlus t) blockThree = 9 * t ^ 2 / 2 := by
  simp only [LowRankC.bil, C129_call, cvec_normSq, unitBil, onePlus, blockThree, matMulC, LinearMap.id_apply, PiLp.sub_apply, sum_unitPair, Finset.univ_unique, Finset.sum_singleton]
  rw [show (1 + Complex.I * (t : ℂ)) * 3 - 3 = ((3 * t : ℝ) : ℂ) * Complex.I by push_cast; ring, norm_mul, Complex.norm_I, Complex.norm_real, mul_one, Real.norm_eq_abs, sq_abs]
  ring

lemma unit_gradx (t : ℝ) : unitBil.bil.gradx blockThree (onePlus t) = cmk fun _ => Complex.I * ((9 * t : ℝ) : ℂ) := by
  ext i
  simp [LowRankC.bil, LowRankC.gradx, LowRankC.matvecx, unitBil, onePlus, blockThree, matMulC, matH, Complex.conj_ofNat]
  ring

lemma unit_move (t τ : ℝ) : onePlus t - τ • (cmk fun _ : Unit × Unit => Complex.I * ((9 * t : ℝ) : ℂ)) = onePlus (t * (1 - 9 * τ)) := by
  ext i
  simp [onePlus]
  ring

lemma unit_bound (t τ : ℝ) (_ : 0 < τ) : (((9 * t ^ 2 / 2 : ℝ) : ℂ) + npDot (cmk fun _ : Unit × Unit => Complex.I * ((9 * t : ℝ) : ℂ)) (onePlus (t * (1 - 9 * τ)) - onePlus t) +
    (1 / (2 * τ) * ‖onePlus (t * (1 - 9 * τ)) - onePlus t‖ ^ 2 : ℝ)).re = 9 * t ^ 2 / 2 + 81 * τ * t ^ 2 * (3 / 2) := by
  have e : onePlus (t * (1 - 9 * τ)) - onePlus t = cmk fun _ => Complex.I * ((-(9 * τ * t) : ℝ) : ℂ) := by
    ext i; simp [onePlus]; ring
  rw [e, cvec_normSq]
  simp only [npDot, sum_unitPair]
  rw [show Complex.I * ((9 * t : ℝ) : ℂ) * (Complex.I * ((-(9 * τ * t) : ℝ) : ℂ)) = ((81 * τ * t ^ 2 : ℝ) : ℂ) by
    rw [mul_mul_mul_comm, Complex.I_mul_I]; push_cast; ring, norm_mul, Complex.norm_I, Complex.norm_real, one_mul, Real.norm_eq_abs, sq_abs]
  rw [← Complex.ofReal_add, ← Complex.ofReal_add, Complex.ofReal_re]
  field_simp
  ring

lemma unit_halved (t : ℝ) (k : ℕ) (z : CVec (Unit × Unit)) :
    palmBacktrackC (fun x => unitBil.bil.call x blockThree) (unitBil.bil.gradx blockThree (onePlus t)) none (1 / 2) (onePlus t) (k + 1) (1 / 2) z = .ok (onePlus (-7 / 2 * t), 1 / 2) := by
  have e : t * (1 - 9 * (1 / 2)) = -7 / 2 * t := by ring
  have hb := unit_bound t (1 / 2) (by norm_num)
  rw [e] at hb
  rw [unit_gradx t]
  simp only [palmBacktrackC, applyProx, py_ok_bind, unit_move, e, unit_call, hb]
  rw [if_neg (by norm_num), if_pos (Or.inl (by nlinarith [sq_nonneg t]))]

lemma unit_back (t : ℝ) (k : ℕ) (τ : ℝ) (hτ : τ = 1 ∨ τ = 1 / 2) (ht : t ≠ 0) (z : CVec (Unit × Unit)) :
    palmBacktrackC (fun x => unitBil.bil.call x blockThree) (unitBil.bil.gradx blockThree (onePlus t)) none (1 / 2) (onePlus t) (k + 2) τ z = .ok (onePlus (-7 / 2 * t), 1 / 2) := by
  rcases hτ with rfl | rfl
  · have hb := unit_bound t 1 one_pos
    have hpos : 0 < t ^ 2 := by positivity
    rw [palmBacktrackC]
    simp only [applyProx, py_ok_bind]
    rw [unit_gradx t, unit_move, unit_call, unit_call, hb, if_neg one_ne_zero, if_neg, ← unit_gradx t, one_mul]
    · exact unit_halved t k _
    · rintro (h | h)
      · nlinarith
      · norm_num at h
  · exact unit_halved t (k + 1) z

lemma unit_lx (t : ℝ) : unitBil.bil.lx (onePlus t) = .ok (1 + t ^ 2) := by
  have e : ‖matMulC (matH (onePlus t)) (onePlus t)‖ = 1 + t ^ 2 := by
    have h : matMulC (matH (onePlus t)) (onePlus t) = cmk fun _ => ((1 + t ^ 2 : ℝ) : ℂ) := by
      ext i
      simp only [matMulC, matH, onePlus, Finset.univ_unique, Finset.sum_singleton, map_add, map_one, map_mul, Complex.conj_I, Complex.conj_ofReal]
      push_cast
      linear_combination (-(t : ℂ) ^ 2) * Complex.I_sq
    have h2 : ‖matMulC (matH (onePlus t)) (onePlus t)‖ ^ 2 = (1 + t ^ 2) ^ 2 := by
      rw [h, cvec_normSq]
      simp only [sum_unitPair]
      rw [Complex.norm_real, Real.norm_eq_abs, sq_abs]
    exact (pow_left_inj₀ (norm_nonneg _) (by positivity) two_ne_zero).1 h2
  simp only [LowRankC.bil, LowRankC.lx, unitBil, Bool.false_eq_true, if_false]
  rw [e]

/-- C129: on complex data the backtracking makes `PALM` diverge: for `½|x y - 3|²` with `y` held at `3` by its operator (`gammag = 1`, so that the defect of C54 plays no role), no operator for
`x`, `beta = ½` and at least two trials, started at `x = 1 + i/3`, `y = 3`, the first iteration settles for `tauf = ½` and the objective `f(x) + g(y) + H(x, y)` is multiplied by `49/4` in every
iteration, while the same call with `gammaf = 1` never increases it (`C129_descent_partial`). -/
theorem C129_backtracking_refuted (nb : ℕ) (hnb : 2 ≤ nb) (hx : CVec (Unit × Unit)) (n : ℕ) :
    BlockExact (unitArgs nb).proxf (XFun.ofReal fun _ => 0) ∧ BlockExact (unitArgs nb).proxg onlyThree ∧
    ∃ r, PALMC unitBil.bil (unitArgs nb) hx blockThree (onePlus (1 / 3)) blockThree n = .ok r ∧ r.y = blockThree ∧ (0 < n → r.tauf = 1 / 2) ∧
      ‖matMulC r.x r.y - unitBil.d‖ ^ 2 / 2 = (49 / 4) ^ n / 2 := by
  refine ⟨Or.inl ⟨rfl, rfl⟩, Or.inr ⟨threeOp, rfl, fun x τ _ => ⟨cmk fun _ => 3, rfl, rfl, ?_⟩⟩, ?_⟩
  · rintro y rfl; exact le_rfl
  · obtain ⟨k, rfl⟩ := Nat.exists_eq_add_of_le' hnb
    have key : ∀ m i (s : PalmState (CVec (Unit × Unit)) (CVec (Unit × Unit))) (t : ℝ), t ≠ 0 → s.x = onePlus t → s.y = blockThree → s.hy = blockThree → (s.tauf = 1 ∨ s.tauf = 1 / 2) →
        ∃ r, forRange (PALMC.body unitBil.bil (unitArgs (k + 2))) m i s = .ok r ∧ r.y = blockThree ∧ (0 < m → r.tauf = 1 / 2) ∧ r.x = onePlus ((-7 / 2) ^ m * t) := by
      intro m
      induction m with
      | zero => intro i s t _ h1 h2 _ _; exact ⟨s, rfl, h2, fun h => absurd h (lt_irrefl _), by rw [h1]; simp⟩
      | succ m ih =>
        intro i s t ht h1 h2 h3 h4
        have hb : PALMC.body unitBil.bil (unitArgs (k + 2)) i s = .ok (⟨onePlus (-7 / 2 * t), blockThree, 1 / 2, s.taug, onePlus (-7 / 2 * t), blockThree,
            s.log ++ [(onePlus (-7 / 2 * t), blockThree)]⟩, false) := by
          have hl : (1 : ℝ) + (-7 / 2 * t) ^ 2 ≠ 0 := by positivity
          simp only [PALMC.body, palmStepC, unitArgs, h1, h2, h3]
          rw [unit_back t k s.tauf h4 ht, py_ok_bind]
          simp only [unit_lx, palmFixed, py_ok_bind, one_mul, hl, if_false, applyProx, threeOp, ProxOp.prox]
          rfl
        obtain ⟨r, h5, h6, h7, h8⟩ := ih (i + 1) ⟨onePlus (-7 / 2 * t), blockThree, 1 / 2, s.taug, onePlus (-7 / 2 * t), blockThree,
            s.log ++ [(onePlus (-7 / 2 * t), blockThree)]⟩ (-7 / 2 * t) (by positivity) rfl rfl rfl (Or.inr rfl)
        refine ⟨r, ?_, h6, fun _ => ?_, by rw [h8]; congr 1; ring⟩
        · rw [forRange, hb]; exact h5
        · rcases Nat.eq_zero_or_pos m with rfl | hm
          · simp only [forRange] at h5; cases h5; rfl
          · exact h7 hm
    obtain ⟨r, h1, h2, h3, h4⟩ := key n 0 ⟨onePlus (1 / 3), blockThree, 1, 1, hx, blockThree, []⟩ (1 / 3) (by norm_num) rfl rfl rfl (Or.inl rfl)
    refine ⟨r, h1, h2, h3, ?_⟩
    have h5 := unit_call ((-7 / 2) ^ n * (1 / 3))
    simp only [LowRankC.bil, C129_call] at h5
    rw [h2, h4]
    refine Eq.trans ?_ (h5.trans ?_)
    · rfl
    · rw [mul_pow, ← pow_mul, mul_comm n 2, pow_mul]; norm_num; ring

/-- The 1 × 1 factorization meets the hypotheses of the Lipschitz and descent theorems. -/
example : (∀ v, unitBil.Op.matvec v = v) ∧ unitBil.opGiven = false ∧ unitBil.bil.Exact := ⟨fun _ => rfl, rfl, C129_exact _ (fun _ => rfl) rfl⟩

/-- `PALM` with `gammaf = gammag = 1` runs on it, and finds the solution in one iteration. -/
example : ∃ r, PALMC unitBil.bil { unitArgs 10 with gammaf := some 1 } 0 blockThree (onePlus (1 / 3)) blockThree 1 = .ok r ∧ r.x = onePlus 0 := by
  have hl : unitBil.bil.ly blockThree = .ok 9 := by
    have e : ‖matMulC blockThree (matH blockThree)‖ = 9 := by
      have h2 : ‖matMulC blockThree (matH blockThree)‖ ^ 2 = 9 ^ 2 := by
        rw [cvec_normSq]
        simp only [sum_unitPair, matMulC, matH, blockThree, Finset.univ_unique, Finset.sum_singleton, Complex.conj_ofNat]
        norm_num
      exact (pow_left_inj₀ (norm_nonneg _) (by norm_num) two_ne_zero).1 h2
    simp only [LowRankC.bil, LowRankC.ly, unitBil, Bool.false_eq_true, if_false]
    rw [e]
  have hm := unit_move (1 / 3) (1 / 9)
  rw [← unit_gradx, show (1 / 3 : ℝ) * (1 - 9 * (1 / 9)) = 0 by norm_num] at hm
  refine ⟨⟨onePlus 0, blockThree, 1, 1, onePlus 0, blockThree, [(onePlus 0, blockThree)]⟩, ?_, rfl⟩
  · simp only [PALMC, forRange, PALMC.body, palmStepC, unitArgs, hl, palmFixed, py_ok_bind, applyProx, one_mul, hm, threeOp, ProxOp.prox]
    rw [if_neg (by norm_num)]
    simp only [py_ok_bind, Pure.pure, Except.pure, unit_lx]
    rw [if_neg (by norm_num)]
    rfl

end Verif
