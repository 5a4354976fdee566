import Verif.Spec.Contract
import Verif.Model.Palm
import Verif.Lemmas.Calculus
import Mathlib.Topology.Algebra.Module.FiniteDimension

/-! # C63: LowRankFactorizedMatrix -/

open scoped RealInnerProductSpace

set_option linter.unusedSectionVars false

namespace Verif

section mat
variable {ι κ μ ν : Type} [Fintype ι] [Fintype κ] [Fintype μ] [Fintype ν]

lemma vec_inner (a b : Vec ι) : ⟪a, b⟫ = ∑ i, a i * b i := by
  rw [PiLp.inner_apply]
  exact Finset.sum_congr rfl fun i _ => by simp [mul_comm]

lemma vec_normSq (a : Vec ι) : ‖a‖ ^ 2 = ∑ i, a i ^ 2 := by
  rw [← real_inner_self_eq_norm_sq, vec_inner]
  exact Finset.sum_congr rfl fun i _ => by ring

/-- `X ↦ X Y` as a linear map. -/
noncomputable def mulRight (ι : Type) [Fintype ι] (y : Vec (κ × μ)) : Vec (ι × κ) →ₗ[ℝ] Vec (ι × μ) where
  toFun := fun x => matMul x y
  map_add' := fun a b => by ext p; simp [matMul, add_mul, Finset.sum_add_distrib]
  map_smul' := fun c a => by ext p; simp [matMul, Finset.mul_sum, mul_assoc]

/-- `Y ↦ X Y` as a linear map. -/
noncomputable def mulLeft (μ : Type) [Fintype μ] (x : Vec (ι × κ)) : Vec (κ × μ) →ₗ[ℝ] Vec (ι × μ) where
  toFun := fun y => matMul x y
  map_add' := fun a b => by ext p; simp [matMul, mul_add, Finset.sum_add_distrib]
  map_smul' := fun c a => by ext p; simp [matMul, Finset.mul_sum, mul_left_comm]

lemma matMul_adj_right (x : Vec (ι × κ)) (y : Vec (κ × μ)) (w : Vec (ι × μ)) : ⟪matMul x y, w⟫ = ⟪x, matMul w (matT y)⟫ := by
  simp only [vec_inner, matMul, matT, Fintype.sum_prod_type, Finset.sum_mul, Finset.mul_sum]
  refine Finset.sum_congr rfl fun i _ => ?_
  rw [Finset.sum_comm]
  exact Finset.sum_congr rfl fun k _ => Finset.sum_congr rfl fun j _ => by ring

lemma matMul_adj_left (x : Vec (ι × κ)) (y : Vec (κ × μ)) (w : Vec (ι × μ)) : ⟪matMul x y, w⟫ = ⟪y, matMul (matT x) w⟫ := by
  simp only [vec_inner, matMul, matT, Fintype.sum_prod_type, Finset.sum_mul, Finset.mul_sum]
  calc ∑ i, ∑ j, ∑ k, x (i, k) * y (k, j) * w (i, j) = ∑ i, ∑ k, ∑ j, x (i, k) * y (k, j) * w (i, j) :=
        Finset.sum_congr rfl fun i _ => Finset.sum_comm
    _ = ∑ k, ∑ i, ∑ j, x (i, k) * y (k, j) * w (i, j) := Finset.sum_comm
    _ = ∑ k, ∑ j, ∑ i, x (i, k) * y (k, j) * w (i, j) := Finset.sum_congr rfl fun k _ => Finset.sum_comm
    _ = _ := Finset.sum_congr rfl fun k _ => Finset.sum_congr rfl fun j _ => Finset.sum_congr rfl fun i _ => by ring

lemma matMul_assoc (x : Vec (ι × κ)) (y : Vec (κ × μ)) (z : Vec (μ × ν)) : matMul (matMul x y) z = matMul x (matMul y z) := by
  ext p
  simp only [matMul, Finset.sum_mul, Finset.mul_sum]
  rw [Finset.sum_comm]
  exact Finset.sum_congr rfl fun k _ => Finset.sum_congr rfl fun j _ => by ring

lemma matMul_neg_left (x : Vec (ι × κ)) (y : Vec (κ × μ)) : matMul (-x) y = -matMul x y := (mulRight ι y).map_neg x

lemma matMul_sub_left (x x' : Vec (ι × κ)) (y : Vec (κ × μ)) : matMul (x - x') y = matMul x y - matMul x' y := (mulRight ι y).map_sub x x'

lemma matMul_sub_right (x : Vec (ι × κ)) (y y' : Vec (κ × μ)) : matMul x (y - y') = matMul x y - matMul x y' := (mulLeft μ x).map_sub y y'

lemma matMul_add_left (x x' : Vec (ι × κ)) (y : Vec (κ × μ)) : matMul (x + x') y = matMul x y + matMul x' y := (mulRight ι y).map_add x x'

/-- The Frobenius norm is sub-multiplicative. -/
lemma matMul_norm_le (x : Vec (ι × κ)) (y : Vec (κ × μ)) : ‖matMul x y‖ ≤ ‖x‖ * ‖y‖ := by
  have h : ‖matMul x y‖ ^ 2 ≤ (‖x‖ * ‖y‖) ^ 2 := by
    rw [mul_pow, vec_normSq, vec_normSq x, vec_normSq y]
    simp only [matMul, Fintype.sum_prod_type]
    calc ∑ i, ∑ j, (∑ k, x (i, k) * y (k, j)) ^ 2 ≤ ∑ i, ∑ j, (∑ k, x (i, k) ^ 2) * ∑ k, y (k, j) ^ 2 :=
          Finset.sum_le_sum fun i _ => Finset.sum_le_sum fun j _ => Finset.sum_mul_sq_le_sq_mul_sq _ _ _
      _ = ∑ i, (∑ k, x (i, k) ^ 2) * ∑ j, ∑ k, y (k, j) ^ 2 := Finset.sum_congr rfl fun i _ => by rw [Finset.mul_sum]
      _ = (∑ i, ∑ k, x (i, k) ^ 2) * ∑ k, ∑ j, y (k, j) ^ 2 := by rw [← Finset.sum_mul, Finset.sum_comm (f := fun j k => y (k, j) ^ 2)]
  exact le_of_sq_le_sq h (by positivity)

end mat

variable {ι κ μ : Type} [Fintype ι] [Fintype κ] [Fintype μ] {D : Type} [NormedAddCommGroup D] [InnerProductSpace ℝ D]

/-- The gradient of `½‖d - A x‖²`. -/
lemma isGrad_lsq {E : Type} [NormedAddCommGroup E] [InnerProductSpace ℝ E] [FiniteDimensional ℝ E] (A : E →ₗ[ℝ] D) (At : D → E) (h : ∀ x y, ⟪A x, y⟫ = ⟪x, At y⟫)
    (d : D) (x g : E) (hg : ∀ v, ⟪g, v⟫ = ⟪-At (d - A x), v⟫) : IsGrad (fun x => ‖d - A x‖ ^ 2 / 2) x g := by
  let A' := LinearMap.toContinuousLinearMap A
  refine isGrad_of_quad (C := ‖A'‖ ^ 2 / 2) fun y => ?_
  have e : ‖d - A y‖ ^ 2 / 2 - ‖d - A x‖ ^ 2 / 2 - ⟪g, y - x⟫ = ‖A (y - x)‖ ^ 2 / 2 := by
    have h1 : d - A y = (d - A x) - A (y - x) := by rw [map_sub]; abel
    have h2 : ⟪g, y - x⟫ = -⟪d - A x, A (y - x)⟫ := by
      rw [hg, inner_neg_left, real_inner_comm, ← h, real_inner_comm]
    rw [h1, norm_sub_sq_real, h2]; ring
  rw [e, abs_of_nonneg (by positivity)]
  have : ‖A (y - x)‖ ≤ ‖A'‖ * ‖y - x‖ := A'.le_opNorm _
  have h2 : ‖A (y - x)‖ ^ 2 ≤ (‖A'‖ * ‖y - x‖) ^ 2 := pow_le_pow_left₀ (norm_nonneg _) this 2
  rw [mul_pow] at h2
  linarith

open LowRank

/-- C63: calling the object evaluates `½‖Op(X Y) - d‖²` at the arguments, whatever blocks are stored, and leaves the stored blocks unchanged. -/
theorem C63_call (H : LowRank ι κ μ D) (s : LowRankState ι κ μ) (x : Vec (ι × κ)) (y : Vec (κ × μ)) :
    H.call s x y = (‖H.Op.matvec (matMul x y) - H.d‖ ^ 2 / 2, s) := by
  simp only [call, updatex, matvecy]
  rw [norm_sub_rev]

/-- C63: after any sequence of calls the stored blocks are those at the start. -/
theorem C63_calls_keep_state (H : LowRank ι κ μ D) (s : LowRankState ι κ μ) (l : List (Vec (ι × κ) × Vec (κ × μ))) :
    l.foldl (fun s q => (H.call s q.1 q.2).2) s = s := by
  induction l with
  | nil => rfl
  | cons q l ih => rw [List.foldl_cons, C63_call]; exact ih

/-- C63: `gradx(x)` is the gradient, at `x`, of the value of the object as a function of its first block with the stored second block; for every operator and every shape. -/
theorem C63_gradx (H : LowRank ι κ μ D) (s : LowRankState ι κ μ) (x : Vec (ι × κ)) : IsGrad (fun x' => (H.call s x' s.y).1) x (H.gradx s x) := by
  have h := isGrad_lsq (H.Op.matvec ∘ₗ mulRight ι s.y) (fun r => matMul (H.Op.rmatvec r) (matT s.y)) (fun v r => by
    show ⟪H.Op.matvec (matMul v s.y), r⟫ = _
    rw [H.Op.dot, matMul_adj_right]) H.d x (H.gradx s x) (fun v => by
    simp only [gradx]
    rw [matMul_neg_left]; rfl)
  exact h

/-- C63: `grady(y)` is the gradient of the value as a function of the second block with the stored first block. -/
theorem C63_grady (H : LowRank ι κ μ D) (s : LowRankState ι κ μ) (y : Vec (κ × μ)) : IsGrad (fun y' => (H.call s s.x y').1) y (H.grady s y) := by
  have h := isGrad_lsq (H.Op.matvec ∘ₗ mulLeft μ s.x) (fun r => matMul (matT s.x) (H.Op.rmatvec r)) (fun v r => by
    show ⟪H.Op.matvec (matMul s.x v), r⟫ = _
    rw [H.Op.dot, matMul_adj_left]) H.d y (H.grady s y) (fun v => by
    simp only [grady]
    rw [matMul_neg_left]; rfl)
  exact h

/-- C63: without `Op`, `ly(y)` is a Lipschitz constant of `gradx` and `lx(x)` one of `grady`; with `Op` both refuse with `ValueError`. -/
theorem C63_lipschitz (H : LowRank ι κ μ (Vec (ι × μ))) (hid : ∀ v, H.Op.matvec v = v) (hop : H.opGiven = false) (x : Vec (ι × κ)) (y : Vec (κ × μ)) :
    (∃ l, H.ly y = .ok l ∧ 0 ≤ l ∧ ∀ (s : LowRankState ι κ μ), s.y = y → ∀ u v, ‖H.gradx s u - H.gradx s v‖ ≤ l * ‖u - v‖) ∧
    ∃ l, H.lx x = .ok l ∧ 0 ≤ l ∧ ∀ (s : LowRankState ι κ μ), s.x = x → ∀ u v, ‖H.grady s u - H.grady s v‖ ≤ l * ‖u - v‖ := by
  have hid' : ∀ v, H.Op.rmatvec v = v := fun v => by
    refine ext_inner_left ℝ fun w => ?_
    rw [← H.Op.dot, hid]
  constructor
  · refine ⟨‖matMul y (matT y)‖, by simp [ly, hop], norm_nonneg _, ?_⟩
    rintro s rfl u v
    have e : H.gradx s u - H.gradx s v = matMul (u - v) (matMul s.y (matT s.y)) := by
      simp only [gradx, matvecx, hid, hid']
      rw [← matMul_sub_left, ← matMul_assoc, matMul_sub_left u v]
      congr 1; abel
    rw [e, mul_comm]
    exact matMul_norm_le _ _
  · refine ⟨‖matMul (matT x) x‖, by simp [lx, hop], norm_nonneg _, ?_⟩
    rintro s rfl u v
    have e : H.grady s u - H.grady s v = matMul (matMul (matT s.x) s.x) (u - v) := by
      simp only [grady, matvecy, hid, hid']
      rw [matMul_neg_left, matMul_neg_left, neg_sub_neg, ← matMul_sub_right, matMul_assoc, matMul_sub_right s.x u v]
      congr 1; abel
    rw [e]
    exact matMul_norm_le _ _

theorem C63_lipschitz_op (H : LowRank ι κ μ D) (hop : H.opGiven = true) (x : Vec (ι × κ)) (y : Vec (κ × μ)) :
    H.lx x = .error .valueError ∧ H.ly y = .error .valueError := by simp [lx, ly, hop]

/-- C63: `matvec` applies `Op` to the product of its argument with the stored other block, and refuses when the two blocks cannot be told apart by their length. -/
theorem C63_matvec (H : LowRank ι κ μ D) (s : LowRankState ι κ μ) (x : Vec (ι × κ)) (y : Vec (κ × μ)) :
    (Fintype.card ι ≠ Fintype.card μ → H.matvec s (.x x) = .ok (H.Op.matvec (matMul x s.y)) ∧ H.matvec s (.y y) = .ok (H.Op.matvec (matMul s.x y))) ∧
    (Fintype.card ι = Fintype.card μ → ∀ b, H.matvec s b = .error .notImplementedError) := by
  constructor
  · intro h; simp [matvec, h, matvecx, matvecy]
  · intro h b; simp [matvec, h]

/-- C63 for the stacked gradient: at the stored blocks, `grad` returns both partial gradients of the value. -/
theorem C63_grad (H : LowRank ι κ μ D) (s : LowRankState ι κ μ) :
    IsGrad (fun x' => (H.call s x' s.y).1) s.x (H.grad s s.x s.y).1 ∧ IsGrad (fun y' => (H.call s s.x y').1) s.y (H.grad s s.x s.y).2 :=
  ⟨C63_gradx H s s.x, C63_grady H s s.y⟩

/-- The stacked gradient at other points than the stored ones is not the gradient of the value there: with `1×1` blocks, `Op` the identity and `d = 0`, for every stored `y` whose square
differs from that of the argument. -/
theorem C63_grad_needs_stored_blocks (H : LowRank Unit Unit Unit (Vec (Unit × Unit))) (hid : ∀ v, H.Op.matvec v = v) (hd : H.d = 0) (s : LowRankState Unit Unit Unit)
    (x : Vec (Unit × Unit)) (y : Vec (Unit × Unit)) (hx : x ((), ()) ≠ 0) (hy : s.y ((), ()) ^ 2 ≠ y ((), ()) ^ 2) :
    ¬ IsGrad (fun x' => (H.call s x' y).1) x (H.grad s x y).1 := by
  intro h
  have h2 := C63_gradx H ⟨s.x, y⟩ x
  have e : (fun x' => (H.call s x' y).1) = fun x' => (H.call ⟨s.x, y⟩ x' y).1 := by
    funext x'; rw [C63_call, C63_call]
  rw [e] at h
  have h3 := HasFDerivAt.unique h h2
  have h4 : (H.grad s x y).1 = H.gradx ⟨s.x, y⟩ x := by
    refine ext_inner_right ℝ fun v => ?_
    have := congrArg (fun L => L v) h3
    simpa using this
  have hid' : ∀ v, H.Op.rmatvec v = v := fun v => by
    refine ext_inner_left ℝ fun w => ?_
    rw [← H.Op.dot, hid]
  have h5 := congrArg (fun v : Vec (Unit × Unit) => v ((), ())) h4
  simp only [grad, gradx, matvecx, hid, hid', hd, zero_sub, neg_neg, matMul, matT, Finset.univ_unique, Finset.sum_singleton] at h5
  apply hy
  have h6 : x ((), ()) * s.y ((), ()) * s.y ((), ()) = x ((), ()) * y ((), ()) * y ((), ()) := h5
  have h7 : x ((), ()) * s.y ((), ()) ^ 2 = x ((), ()) * y ((), ()) ^ 2 := by linarith
  exact mul_left_cancel₀ hx h7


/-- The hypotheses of `C63_lipschitz` and `C63_grad_needs_stored_blocks` are met. -/
example : ∃ H : LowRank Unit Unit Unit (Vec (Unit × Unit)), (∀ v, H.Op.matvec v = v) ∧ H.opGiven = false ∧ H.d = 0 :=
  ⟨⟨0, ⟨LinearMap.id, LinearMap.id, fun _ _ => rfl⟩, false⟩, fun _ => rfl, rfl, rfl⟩

end Verif
