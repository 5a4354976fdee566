import Verif.Model.SimplexInt64
import Verif.Props.SimplexEngines

/-! # C92: the compiled bracketing loops with 64-bit integers -/

open scoped RealInnerProductSpace

namespace Verif

variable {n : ℕ}

lemma wrap64_of {z : ℤ} (h1 : -2 ^ 63 ≤ z) (h2 : z < 2 ^ 63) : wrap64 z = z := by
  unfold wrap64
  rw [Int.emod_eq_of_lt (by linarith) (by norm_num at h2 ⊢; linarith)]
  ring

lemma lower64_eq (f : ℝ → ℝ) (h : 0 ≤ f (-2 ^ 63)) : ∀ fuel k, k ≤ 63 → bracketLower64 f fuel (-2 ^ k) = bracketLower f fuel (-2 ^ k)
  | 0, _, _ => rfl
  | fuel + 1, k, hk => by
    simp only [bracketLower64, bracketLower]
    push_cast
    by_cases hf : f (-2 ^ k) < 0
    · rw [if_pos hf, if_pos hf]
      have hk' : k ≠ 63 := fun hc => by subst hc; linarith
      have hle : (2 : ℤ) ^ (k + 1) ≤ 2 ^ 63 := pow_le_pow_right₀ (by norm_num) (by omega)
      have e : wrap64 (-2 ^ k * 2) = -2 ^ (k + 1) := by
        rw [show -(2 : ℤ) ^ k * 2 = -2 ^ (k + 1) by ring]
        exact wrap64_of (by linarith) (lt_of_lt_of_le (neg_neg_of_pos (by positivity)) (by positivity))
      rw [e, lower64_eq f h fuel (k + 1) (by omega), show -(2 : ℝ) ^ k * 2 = -2 ^ (k + 1) by ring]
    · rw [if_neg hf, if_neg hf]

lemma upper64_eq (f : ℝ → ℝ) (h : f (2 ^ 62) ≤ 0) : ∀ fuel k, k ≤ 62 → bracketUpper64 f fuel (2 ^ k) = bracketUpper f fuel (2 ^ k)
  | 0, _, _ => rfl
  | fuel + 1, k, hk => by
    simp only [bracketUpper64, bracketUpper]
    push_cast
    by_cases hf : f (2 ^ k) > 0
    · rw [if_pos hf, if_pos hf]
      have hk' : k ≠ 62 := fun hc => by subst hc; linarith
      have hlt : (2 : ℤ) ^ (k + 1) < 2 ^ 63 := pow_lt_pow_right₀ (by norm_num) (by omega)
      have e : wrap64 (2 ^ k * 2) = 2 ^ (k + 1) := by
        rw [show (2 : ℤ) ^ k * 2 = 2 ^ (k + 1) by ring]
        exact wrap64_of (by have : (0 : ℤ) < 2 ^ (k + 1) := by positivity
                            linarith [show (0 : ℤ) < 2 ^ 63 by norm_num]) hlt
      rw [e, upper64_eq f h fuel (k + 1) (by omega), show (2 : ℝ) ^ k * 2 = 2 ^ (k + 1) by ring]
    · rw [if_neg hf, if_neg hf]

lemma jitFun_eq {C : ℕ} (radius : ℝ) (x : Vec (Fin C)) (μ : ℝ) :
    hpbFun (vmk fun _ => 1) radius (fun _ => some 0) (fun _ => some 10000000000) x μ = ∑ i, min (max (x i - μ) 0) 10000000000 - radius := by
  simp [hpbFun, PiLp.inner_apply, boxProj, boxClip, maxLower, minUpper]

/-- C92: on rows whose entries are between `-2^62` and `2^62` the 64-bit integers of the compiled code make no difference. -/
theorem C92_int64 {C : ℕ} (hC : 0 < C) (fuel : ℕ) {radius : ℝ} (hr0 : 0 ≤ radius) (hr : radius ≤ 10000000000) (maxiter : ℕ) (ftol xtol : ℝ) (x : Vec (Fin C))
    (hx : ∀ j, -2 ^ 62 ≤ x j ∧ x j ≤ 2 ^ 62) : simplexJitRow fuel radius maxiter ftol xtol x = simplexNumbaProj fuel radius maxiter ftol xtol x := by
  have h1 : 0 ≤ hpbFun (vmk fun _ => 1) radius (fun _ => some 0) (fun _ => some 10000000000) x (-2 ^ 63) := by
    rw [jitFun_eq]
    have h : (10000000000 : ℝ) ≤ ∑ i, min (max (x i - (-2 ^ 63)) 0) 10000000000 := by
      refine le_trans (le_of_eq ?_) (Finset.single_le_sum (f := fun i => min (max (x i - (-2 ^ 63)) 0) (10000000000 : ℝ)) (fun i _ => le_min (le_max_right _ _) (by norm_num)) (Finset.mem_univ (⟨0, hC⟩ : Fin C)))
      rw [min_eq_right]
      refine le_trans ?_ (le_max_left _ _)
      have := (hx ⟨0, hC⟩).1
      norm_num at this ⊢
      linarith
    linarith
  have h2 : hpbFun (vmk fun _ => 1) radius (fun _ => some 0) (fun _ => some 10000000000) x (2 ^ 62) ≤ 0 := by
    rw [jitFun_eq, Finset.sum_eq_zero fun i _ => ?_]
    · linarith
    · rw [max_eq_right (by linarith [(hx i).2]), min_eq_left (by norm_num)]
  have e1 := lower64_eq _ h1 fuel 0 (by norm_num)
  have e2 := upper64_eq _ h2 fuel 0 (by norm_num)
  simp only [pow_zero] at e1 e2
  unfold simplexJitRow simplexNumbaProj
  simp only [e1, e2]

/-- C92: so the whole compiled loop is the one without the limits of the integers, for arrays with entries between `-2^62` and `2^62`. -/
theorem C92_int64_rows (env : SimplexEnv) (hr0 : 0 ≤ env.radius) (hr : env.radius ≤ 10000000000) (R C : ℕ) (hC : 0 < C) (x : Fin R → Vec (Fin C)) (hx : ∀ i j, -2 ^ 62 ≤ x i j ∧ x i j ≤ 2 ^ 62) :
    numbaRows64 env R C x = numbaRows env R C x := by
  unfold numbaRows64 numbaRows rowLoop
  simp only [C92_int64 hC env.fuel hr0 hr env.maxiter env.ftol env.xtol _ (hx _)]

/-- C92 fails for large entries: with a positive radius, a row whose entries are all below `-2^63` makes the first loop run for ever: the lower end wraps around to zero and stays there. -/
theorem C92_int64_lower_refuted {C : ℕ} (fuel : ℕ) {radius : ℝ} (hr : 0 < radius) (maxiter : ℕ) (ftol xtol : ℝ) (x : Vec (Fin C)) (hx : ∀ j, x j ≤ -2 ^ 63) :
    simplexJitRow fuel radius maxiter ftol xtol x = .error .outOfFuel := by
  have hneg : ∀ m : ℤ, -2 ^ 63 ≤ m → hpbFun (vmk fun _ => 1) radius (fun _ => some 0) (fun _ => some 10000000000) x m < 0 := by
    intro m hm
    rw [jitFun_eq, Finset.sum_eq_zero fun i _ => ?_]
    · linarith
    · have : (-2 ^ 63 : ℝ) ≤ m := by exact_mod_cast hm
      rw [max_eq_right (by linarith [hx i]), min_eq_left (by norm_num)]
  have gen : ∀ (fuel : ℕ) (m : ℤ), -2 ^ 63 ≤ m → bracketLower64 (hpbFun (vmk fun _ => 1) radius (fun _ => some 0) (fun _ => some 10000000000) x) fuel m = .error .outOfFuel := by
    intro fuel
    induction fuel with
    | zero => intro m _; rfl
    | succ k ih =>
      intro m hm
      simp only [bracketLower64, if_pos (hneg m hm)]
      refine ih _ ?_
      unfold wrap64
      linarith [Int.emod_nonneg (m * 2 + 2 ^ 63) (show (2 : ℤ) ^ 64 ≠ 0 by norm_num)]
  unfold simplexJitRow
  simp only [gen fuel (-1) (by norm_num)]
  rfl

/-- C92 fails for large entries: with a radius below `1e10`, a row with an entry of at least `2^63` makes the second loop run for ever. -/
theorem C92_int64_upper_refuted {C : ℕ} (fuel : ℕ) {radius : ℝ} (hr : radius < 10000000000) (maxiter : ℕ) (ftol xtol : ℝ) (x : Vec (Fin C)) (j : Fin C) (hx : 2 ^ 63 ≤ x j) :
    simplexJitRow fuel radius maxiter ftol xtol x = .error .outOfFuel := by
  have hpos : ∀ m : ℤ, m ≤ 2 ^ 62 → 0 < hpbFun (vmk fun _ => 1) radius (fun _ => some 0) (fun _ => some 10000000000) x m := by
    intro m hm
    have hm' : (m : ℝ) ≤ 2 ^ 62 := by exact_mod_cast hm
    rw [jitFun_eq]
    have h : (10000000000 : ℝ) ≤ ∑ i, min (max (x i - m) 0) 10000000000 := by
      refine le_trans (le_of_eq ?_) (Finset.single_le_sum (f := fun i => min (max (x i - m) 0) (10000000000 : ℝ)) (fun i _ => le_min (le_max_right _ _) (by norm_num)) (Finset.mem_univ j))
      rw [min_eq_right]
      refine le_trans ?_ (le_max_left _ _)
      norm_num at hx hm' ⊢
      linarith
    linarith
  have gen : ∀ (fuel : ℕ) (m : ℤ), (m = 0 ∨ m = -2 ^ 63 ∨ ∃ k ≤ 62, m = 2 ^ k) → bracketUpper64 (hpbFun (vmk fun _ => 1) radius (fun _ => some 0) (fun _ => some 10000000000) x) fuel m =
      .error .outOfFuel := by
    intro fuel
    induction fuel with
    | zero => intro m _; rfl
    | succ k ih =>
      intro m hm
      have hle : m ≤ 2 ^ 62 := by
        rcases hm with rfl | rfl | ⟨k, hk, rfl⟩
        · norm_num
        · norm_num
        · exact pow_le_pow_right₀ (by norm_num) hk
      simp only [bracketUpper64, if_pos (show _ > _ from hpos m hle)]
      refine ih _ ?_
      rcases hm with rfl | rfl | ⟨k, hk, rfl⟩
      · left; decide
      · left; decide
      · rcases Nat.lt_or_ge k 62 with h | h
        · right; right
          refine ⟨k + 1, by omega, ?_⟩
          rw [show (2 : ℤ) ^ k * 2 = 2 ^ (k + 1) by ring]
          exact wrap64_of (by have : (0 : ℤ) < 2 ^ (k + 1) := by positivity
                              linarith [show (0 : ℤ) < 2 ^ 63 by norm_num]) (pow_lt_pow_right₀ (by norm_num) (by omega))
        · right; left
          obtain rfl : k = 62 := by omega
          decide
  unfold simplexJitRow
  cases fuel with
  | zero => rfl
  | succ k =>
    have hl : bracketLower64 (hpbFun (vmk fun _ => 1) radius (fun _ => some 0) (fun _ => some 10000000000) x) (k + 1) (-1) = .ok ((-1 : ℤ) : ℝ) := by
      simp only [bracketLower64]
      rw [if_neg (not_lt.2 (hpos (-1) (by norm_num)).le)]
    simp only [hl, gen (k + 1) 1 (.inr (.inr ⟨0, by norm_num, by norm_num⟩))]
    rfl

/-- C92: with 64-bit integers, too, a thread of the cuda kernel computes what the numba engine computes, and hangs where it hangs (`ftol` positive). -/
theorem C92_int64_cuda {C : ℕ} (fuel : ℕ) (radius : ℝ) (maxiter : ℕ) (ftol xtol : ℝ) (hf : 0 < ftol) (x : Vec (Fin C)) :
    simplexCudaRow fuel radius maxiter ftol xtol x = simplexJitRow fuel radius maxiter ftol xtol x := by
  simp only [simplexCudaRow, simplexJitRow, funCuda_eq, C92_bisect_cuda _ _ _ _ _ _ hf]
  rcases bracketLower64 _ fuel (-1) with e | a
  · rfl
  rcases bracketUpper64 _ fuel 1 with e | b
  · rfl
  show (bisectJit _ a b maxiter ftol xtol >>= _ : Py _) = (bisectJit _ a b maxiter ftol xtol >>= _ : Py _)
  rcases bisectJit _ a b maxiter ftol xtol with e | c
  · rfl
  show Except.ok _ = Except.ok _
  congr 1

/-- A row within the range, and rows outside it. -/
example : (∀ j : Fin 3, -2 ^ 62 ≤ (vmk fun _ : Fin 3 => (5 : ℝ)) j ∧ (vmk fun _ : Fin 3 => (5 : ℝ)) j ≤ 2 ^ 62) ∧ (∀ j : Fin 3, (vmk fun _ : Fin 3 => (-2 ^ 64 : ℝ)) j ≤ -2 ^ 63) ∧
    (2 : ℝ) ^ 63 ≤ (vmk fun _ : Fin 3 => (2 ^ 64 : ℝ)) 0 := by
  refine ⟨fun j => ?_, fun j => ?_, ?_⟩
  · show -2 ^ 62 ≤ (5 : ℝ) ∧ (5 : ℝ) ≤ 2 ^ 62
    norm_num
  · show (-2 ^ 64 : ℝ) ≤ -2 ^ 63
    norm_num
  · show (2 : ℝ) ^ 63 ≤ 2 ^ 64
    norm_num

end Verif
