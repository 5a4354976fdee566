import Verif.Model.TV
import Verif.Spec.TV
import Verif.Props.ProxGrad
import Verif.Props.Segment
import Verif.Props.LowRank
import Verif.Lemmas.Envelope

/-! # Lemmas about `TV`: the divergence, the dual problem and its accelerated projected gradient method -/

open scoped RealInnerProductSpace

namespace Verif

variable {A : Type} [Fintype A] [DecidableEq A] {n : A → ℕ}

/-- The forward differences as a linear map. -/
noncomputable def tvGradMap (n : A → ℕ) : Vec (Pixel n) →ₗ[ℝ] Vec (A × Pixel n) where
  toFun x := tvGrad x
  map_add' x y := by
    ext q
    simp only [tvGrad, vmk, PiLp.add_apply, fwdDiff]
    split <;> ring
  map_smul' c x := by
    ext q
    simp only [tvGrad, vmk, PiLp.smul_apply, fwdDiff, smul_eq_mul, RingHom.id_apply]
    split <;> ring

/-- The divergence as a linear map. -/
noncomputable def tvDivMap (n : A → ℕ) : Vec (A × Pixel n) →ₗ[ℝ] Vec (Pixel n) where
  toFun r := vmk fun p => ∑ a, tvDivAxis r a p
  map_add' x y := by
    ext q
    simp only [vmk, PiLp.add_apply, ← Finset.sum_add_distrib]
    refine Finset.sum_congr rfl fun a _ => ?_
    simp only [tvDivAxis, PiLp.add_apply]
    split_ifs <;> ring
  map_smul' c x := by
    ext q
    simp only [vmk, PiLp.smul_apply, smul_eq_mul, RingHom.id_apply, Finset.mul_sum]
    refine Finset.sum_congr rfl fun a _ => ?_
    simp only [tvDivAxis, PiLp.smul_apply, smul_eq_mul]
    split_ifs <;> ring

lemma tvDiv_ok (hn : ∀ a, 2 ≤ n a) (r : Vec (A × Pixel n)) : tvDiv r = .ok (tvDivMap n r) := by
  rw [tvDiv, if_pos hn]; rfl

/-- Summation by parts along one axis. -/
lemma tv_parts (hn : ∀ a, 2 ≤ n a) (x : Pixel n → ℝ) (r : Vec (A × Pixel n)) (a : A) :
    ∑ p, fwdDiff x a p * r (a, p) = - ∑ p, x p * tvDivAxis r a p := by
  classical
  let nx : Pixel n → Pixel n := fun p => if h : (p a : ℕ) + 1 < n a then Function.update p a ⟨p a + 1, h⟩ else p
  let pv : Pixel n → Pixel n := fun p => Function.update p a ⟨p a - 1, by omega⟩
  have e1 : ∀ p, fwdDiff x a p * r (a, p) = (if (p a : ℕ) + 1 < n a then x (nx p) * r (a, p) else 0)
      - (if (p a : ℕ) + 1 < n a then x p * r (a, p) else 0) := fun p => by
    by_cases h : (p a : ℕ) + 1 < n a
    · simp only [fwdDiff, nx, h, dif_pos, if_true]; ring
    · simp [fwdDiff, h]
  have e2 : ∀ p, x p * tvDivAxis r a p = (if (p a : ℕ) + 1 < n a then x p * r (a, p) else 0)
      - (if 0 < (p a : ℕ) then x p * r (a, pv p) else 0) := fun p => by
    have h2 := hn a
    unfold tvDivAxis
    split_ifs with h0 h1 h3 h4 <;> first | omega | (simp only [pv]; ring) | ring
  have e3 : ∑ p, (if (p a : ℕ) + 1 < n a then x (nx p) * r (a, p) else 0) = ∑ p, (if 0 < (p a : ℕ) then x p * r (a, pv p) else 0) := by
    rw [← Finset.sum_filter, ← Finset.sum_filter]
    refine Finset.sum_bij' (fun p _ => nx p) (fun p _ => pv p) ?_ ?_ ?_ ?_ ?_
    · intro p hp
      have h : (p a : ℕ) + 1 < n a := by simpa using hp
      simp [nx, h]
    · intro p hp
      have h : 0 < (p a : ℕ) := by simpa using hp
      have := (p a).2
      simp [pv]
      omega
    · intro p hp
      have h : (p a : ℕ) + 1 < n a := by simpa using hp
      simp [nx, pv, h]
    · intro p hp
      have h : 0 < (p a : ℕ) := by simpa using hp
      have h1 := (p a).2
      have h2 : (p a : ℕ) - 1 + 1 < n a := by omega
      have h3 : (p a : ℕ) - 1 + 1 = p a := by omega
      simp [nx, pv, h3]
    · intro p hp
      have h : (p a : ℕ) + 1 < n a := by simpa using hp
      have : pv (nx p) = p := by simp [nx, pv, h]
      rw [this]
  rw [Finset.sum_congr rfl fun p _ => e1 p, Finset.sum_congr rfl fun p _ => e2 p, Finset.sum_sub_distrib, Finset.sum_sub_distrib, e3]
  ring

/-- The divergence is minus the adjoint of the differences. -/
lemma tv_adjoint (hn : ∀ a, 2 ≤ n a) (x : Vec (Pixel n)) (r : Vec (A × Pixel n)) : ⟪tvGradMap n x, r⟫ = - ⟪x, tvDivMap n r⟫ := by
  rw [vec_inner, vec_inner, Fintype.sum_prod_type]
  have h : ∀ p, x p * (tvDivMap n r) p = ∑ a, x p * tvDivAxis r a p := fun p => by
    rw [← Finset.mul_sum]; rfl
  have h2 : ∑ p, ∑ a, x p * tvDivAxis r a p = ∑ a, ∑ p, x p * tvDivAxis r a p := Finset.sum_comm
  rw [Finset.sum_congr rfl fun p _ => h p, h2, ← Finset.sum_neg_distrib]
  exact Finset.sum_congr rfl fun a _ => tv_parts hn (fun p => x p) r a

lemma tvGrad_norm_sq (x : Vec (Pixel n)) : ‖tvGradMap n x‖ ^ 2 ≤ 4 * Fintype.card A * ‖x‖ ^ 2 := by
  rw [vec_norm_sq, vec_norm_sq, Fintype.sum_prod_type]
  calc ∑ a, ∑ p, (tvGradMap n x) (a, p) ^ 2 ≤ ∑ _a : A, 4 * ∑ p, x p ^ 2 := Finset.sum_le_sum fun a _ => fwdDiff_sq_sum (fun p => x p) a
    _ = _ := by rw [Finset.sum_const, Finset.card_univ, nsmul_eq_mul]; ring

lemma tvDiv_norm_sq (hn : ∀ a, 2 ≤ n a) (r : Vec (A × Pixel n)) : ‖tvDivMap n r‖ ^ 2 ≤ 4 * Fintype.card A * ‖r‖ ^ 2 := by
  have h1 := tv_adjoint hn (tvDivMap n r) r
  rw [real_inner_self_eq_norm_sq] at h1
  have h2 := tvGrad_norm_sq (tvDivMap n r)
  have h3 : ‖tvDivMap n r‖ ^ 2 ≤ ‖tvGradMap n (tvDivMap n r)‖ * ‖r‖ := by
    have := neg_le_of_abs_le (abs_real_inner_le_norm (tvGradMap n (tvDivMap n r)) r)
    linarith
  rcases eq_or_lt_of_le (norm_nonneg (tvDivMap n r)) with h0 | h0
  · rw [← h0, zero_pow two_ne_zero]; positivity
  · have h4 : (‖tvDivMap n r‖ ^ 2) ^ 2 ≤ (4 * Fintype.card A * ‖r‖ ^ 2) * ‖tvDivMap n r‖ ^ 2 := by
      calc (‖tvDivMap n r‖ ^ 2) ^ 2 ≤ (‖tvGradMap n (tvDivMap n r)‖ * ‖r‖) ^ 2 := pow_le_pow_left₀ (by positivity) h3 2
        _ = ‖tvGradMap n (tvDivMap n r)‖ ^ 2 * ‖r‖ ^ 2 := by ring
        _ ≤ (4 * Fintype.card A * ‖tvDivMap n r‖ ^ 2) * ‖r‖ ^ 2 := by gcongr
        _ = _ := by ring
    have h5 : 0 < ‖tvDivMap n r‖ ^ 2 := by positivity
    rw [sq (‖tvDivMap n r‖ ^ 2)] at h4
    exact le_of_mul_le_mul_right h4 h5

/-! ## The dual ball -/

/-- Fields whose norm is at most one at every pixel. -/
def tvBall (n : A → ℕ) : Set (Vec (A × Pixel n)) := {r | ∀ p, √(∑ a, r (a, p) ^ 2) ≤ 1}

lemma mem_tvBall {r : Vec (A × Pixel n)} : r ∈ tvBall n ↔ ∀ p, ∑ a, r (a, p) ^ 2 ≤ 1 := by
  unfold tvBall
  simp only [Set.mem_ofPred_eq, Real.sqrt_le_one]

lemma tvBall_convex : Convex ℝ (tvBall n) := by
  intro r hr s hs α β hα hβ hαβ
  rw [mem_tvBall] at *
  intro p
  have h : ∀ a, (α • r + β • s) (a, p) ^ 2 ≤ α * r (a, p) ^ 2 + β * s (a, p) ^ 2 := fun a => by
    simp only [PiLp.add_apply, PiLp.smul_apply, smul_eq_mul]
    obtain rfl : β = 1 - α := by linarith
    nlinarith [mul_nonneg (mul_nonneg hα hβ) (sq_nonneg (r (a, p) - s (a, p)))]
  calc _ ≤ ∑ a, (α * r (a, p) ^ 2 + β * s (a, p) ^ 2) := Finset.sum_le_sum fun a _ => h a
    _ = α * ∑ a, r (a, p) ^ 2 + β * ∑ a, s (a, p) ^ 2 := by rw [Finset.sum_add_distrib, Finset.mul_sum, Finset.mul_sum]
    _ ≤ α * 1 + β * 1 := by gcongr <;> [exact hr p; exact hs p]
    _ = 1 := by linarith

lemma tvBall_norm {r : Vec (A × Pixel n)} (hr : r ∈ tvBall n) : ‖r‖ ^ 2 ≤ Fintype.card (Pixel n) := by
  rw [mem_tvBall] at hr
  rw [vec_norm_sq, Fintype.sum_prod_type, Finset.sum_comm]
  calc _ ≤ ∑ _p : Pixel n, (1 : ℝ) := Finset.sum_le_sum fun p _ => hr p
    _ = _ := by simp

lemma tvBall_compact : IsCompact (tvBall n) := by
  apply Metric.isCompact_of_isClosed_isBounded
  · have : tvBall n = ⋂ p, {r | √(∑ a, r (a, p) ^ 2) ≤ 1} := by
      ext r; simp [tvBall]
    rw [this]
    refine isClosed_iInter fun p => isClosed_le ?_ continuous_const
    fun_prop
  · rw [isBounded_iff_forall_norm_le]
    refine ⟨√(Fintype.card (Pixel n)), fun r hr => ?_⟩
    exact Real.le_sqrt_of_sq_le (tvBall_norm hr)

lemma tvClip_proj (r : Vec (A × Pixel n)) : IsProj (tvBall n) r (tvClip r) := by
  have hmem : tvClip r ∈ tvBall n := by
    rw [mem_tvBall]
    intro p
    have e : ∀ a, (tvClip r) (a, p) ^ 2 = r (a, p) ^ 2 / (max 1 √(∑ a, r (a, p) ^ 2)) ^ 2 := fun a => by
      simp only [tvClip, vmk, sq_abs, div_pow]
    rw [Finset.sum_congr rfl fun a _ => e a, ← Finset.sum_div, div_le_one (by positivity)]
    rw [← Real.sqrt_le_left (by positivity)]
    exact le_max_right _ _
  refine (isUniqueProj_of_variational hmem fun y hy => ?_).1
  rw [vec_inner, Fintype.sum_prod_type, Finset.sum_comm]
  refine Finset.sum_nonpos fun p _ => ?_
  have hy2 := (mem_tvBall.1 hy) p
  set N := √(∑ a, r (a, p) ^ 2) with hN
  have hN2 : N ^ 2 = ∑ a, r (a, p) ^ 2 := Real.sq_sqrt (Finset.sum_nonneg fun a _ => sq_nonneg _)
  have hcs : ∑ a, r (a, p) * y (a, p) ≤ N := by
    refine (Real.sum_mul_le_sqrt_mul_sqrt _ _ _).trans ?_
    have : √(∑ a, y (a, p) ^ 2) ≤ 1 := Real.sqrt_le_one.2 hy2
    nlinarith [Real.sqrt_nonneg (∑ a, r (a, p) ^ 2)]
  have e : ∀ a, (tvClip r) (a, p) = r (a, p) / max 1 N := fun a => by
    simp only [tvClip, vmk, sq_abs, hN]
  simp only [PiLp.sub_apply, e]
  rcases le_total N 1 with h | h
  · rw [max_eq_left h]; simp
  · rw [max_eq_right h]
    have hpos : 0 < N := by linarith
    have e3 : ∀ a, (r (a, p) - r (a, p) / N) * (y (a, p) - r (a, p) / N) = (1 - 1 / N) * (r (a, p) * y (a, p)) - (1 - 1 / N) / N * r (a, p) ^ 2 :=
      fun a => by field_simp
    rw [Finset.sum_congr rfl fun a _ => e3 a, Finset.sum_sub_distrib, ← Finset.mul_sum, ← Finset.mul_sum, ← hN2]
    have h1 : (0 : ℝ) ≤ 1 - 1 / N := by
      rw [sub_nonneg, div_le_one hpos]; exact h
    have h2 : (1 - 1 / N) / N * N ^ 2 = (1 - 1 / N) * N := by field_simp
    rw [h2, ← mul_sub]
    exact mul_nonpos_of_nonneg_of_nonpos h1 (by linarith)

/-! ## Total variation -/

lemma tv_eq (x : Vec (Pixel n)) : totalVariation x = ∑ p, √(∑ a, tvGrad x (a, p) ^ 2) := by
  unfold totalVariation
  refine Finset.sum_congr rfl fun p _ => ?_
  congr 1
  refine Finset.sum_congr rfl fun a _ => ?_
  simp only [tvGrad, vmk, fwdDiff, nextPixel]
  split <;> simp

lemma tv_value (σ : ℝ) (x : Vec (Pixel n)) (hA : 0 < Fintype.card A) : tvCall σ x = .ok (σ * totalVariation x) := by
  unfold tvCall
  rw [if_neg hA.ne', tv_eq]
  split_ifs with h1
  · obtain ⟨a, ha⟩ := Fintype.card_eq_one_iff.1 h1
    have hu : (Finset.univ : Finset A) = {a} := by ext b; simp [ha b]
    rw [Fintype.sum_prod_type, hu]
    simp [Real.sqrt_sq_eq_abs]
  · simp only [sq_abs]

lemma tv_nonneg (x : Vec (Pixel n)) : 0 ≤ totalVariation x := Finset.sum_nonneg fun _ _ => Real.sqrt_nonneg _

lemma tv_dual_le (x : Vec (Pixel n)) {r : Vec (A × Pixel n)} (hr : r ∈ tvBall n) : - ⟪tvGradMap n x, r⟫ ≤ totalVariation x := by
  rw [mem_tvBall] at hr
  rw [vec_inner, Fintype.sum_prod_type, Finset.sum_comm, tv_eq, ← Finset.sum_neg_distrib]
  refine Finset.sum_le_sum fun p _ => ?_
  have h : ∑ a, -(tvGrad x (a, p)) * r (a, p) ≤ √(∑ a, (-(tvGrad x (a, p))) ^ 2) * √(∑ a, r (a, p) ^ 2) := Real.sum_mul_le_sqrt_mul_sqrt _ _ _
  have h1 : √(∑ a, r (a, p) ^ 2) ≤ 1 := Real.sqrt_le_one.2 (hr p)
  simp only [neg_mul, Finset.sum_neg_distrib, neg_sq] at h
  have h2 := Real.sqrt_nonneg (∑ a, tvGrad x (a, p) ^ 2)
  change - ∑ a, tvGrad x (a, p) * r (a, p) ≤ _
  nlinarith

lemma tv_dual_attained (x : Vec (Pixel n)) : ∃ r ∈ tvBall n, - ⟪tvGradMap n x, r⟫ = totalVariation x := by
  refine ⟨vmk fun q => - tvGrad x q / √(∑ a, tvGrad x (a, q.2) ^ 2), ?_, ?_⟩
  · rw [mem_tvBall]
    intro p
    simp only [div_pow, neg_sq]
    rw [← Finset.sum_div, Real.sq_sqrt (Finset.sum_nonneg fun a _ => sq_nonneg _)]
    exact div_self_le_one _
  · rw [vec_inner, Fintype.sum_prod_type, Finset.sum_comm, tv_eq, ← Finset.sum_neg_distrib]
    refine Finset.sum_congr rfl fun p _ => ?_
    have e : ∀ a, (tvGradMap n x) (a, p) * (vmk fun q => - tvGrad x q / √(∑ a, tvGrad x (a, q.2) ^ 2) : Vec (A × Pixel n)) (a, p)
        = - (tvGrad x (a, p) ^ 2 / √(∑ a, tvGrad x (a, p) ^ 2)) := fun a => by
      change tvGrad x (a, p) * (- tvGrad x (a, p) / √(∑ a, tvGrad x (a, p) ^ 2)) = _
      ring
    rw [Finset.sum_congr rfl fun a _ => e a, Finset.sum_neg_distrib, neg_neg, ← Finset.sum_div, Real.div_sqrt]

/-! ## The dual problem -/

/-- The primal point of a field. -/
noncomputable def tvPrimal (x : Vec (Pixel n)) (γ : ℝ) (r : Vec (A × Pixel n)) : Vec (Pixel n) := x - γ • tvDivMap n r

/-- There is a dual solution, and its primal point is the proximal point. -/
lemma tv_dual_solution (hn : ∀ a, 2 ≤ n a) (x : Vec (Pixel n)) {σ τ : ℝ} (hσ : 0 < σ) (hτ : 0 < τ) :
    ∃ c ∈ tvBall n, (∀ r ∈ tvBall n, ‖tvPrimal x (σ * τ) c‖ ^ 2 / 2 ≤ ‖tvPrimal x (σ * τ) r‖ ^ 2 / 2) ∧
      (∀ r ∈ tvBall n, ‖tvPrimal x (σ * τ) r - tvPrimal x (σ * τ) c‖ ^ 2 / 2 ≤ ‖tvPrimal x (σ * τ) r‖ ^ 2 / 2 - ‖tvPrimal x (σ * τ) c‖ ^ 2 / 2) ∧
      IsUniqueProx (XFun.ofReal fun y => σ * totalVariation y) τ x (tvPrimal x (σ * τ) c) := by
  set γ := σ * τ with hγ
  have hγ0 : 0 < γ := mul_pos hσ hτ
  have hcont : Continuous fun r : Vec (A × Pixel n) => ‖tvPrimal x γ r‖ ^ 2 / 2 := by
    have := (LinearMap.continuous_of_finiteDimensional (tvDivMap n))
    unfold tvPrimal
    fun_prop
  obtain ⟨c, hc, hmin⟩ := tvBall_compact.exists_isMinOn (s := tvBall n) ⟨0, by rw [mem_tvBall]; simp⟩ hcont.continuousOn
  have hmin' : ∀ r ∈ tvBall n, ‖tvPrimal x γ c‖ ^ 2 / 2 ≤ ‖tvPrimal x γ r‖ ^ 2 / 2 := fun r hr => hmin hr
  -- variational inequality
  have hvar : ∀ r ∈ tvBall n, 0 ≤ ⟪tvPrimal x γ c, tvPrimal x γ r - tvPrimal x γ c⟫ := by
    intro r hr
    by_contra hneg
    push Not at hneg
    set w := tvPrimal x γ r - tvPrimal x γ c with hw
    have hline : ∀ t : ℝ, tvPrimal x γ ((1 - t) • c + t • r) = tvPrimal x γ c + t • w := fun t => by
      simp only [hw, tvPrimal, map_add, map_smul]
      module
    have hall : ∀ t : ℝ, 0 < t → t ≤ 1 → 0 ≤ 2 * ⟪tvPrimal x γ c, w⟫ + t * ‖w‖ ^ 2 := by
      intro t h0 h1
      have h := hmin' _ (tvBall_convex hc hr (by linarith : 0 ≤ 1 - t) h0.le (by ring))
      rw [hline, norm_add_sq_real, real_inner_smul_right, norm_smul, mul_pow, Real.norm_eq_abs, sq_abs] at h
      have : 0 ≤ t * (2 * ⟪tvPrimal x γ c, w⟫ + t * ‖w‖ ^ 2) := by nlinarith
      exact nonneg_of_mul_nonneg_right this h0
    rcases eq_or_ne (‖w‖) 0 with hz | hz
    · have := hall 1 one_pos le_rfl
      rw [hz] at this
      linarith
    · have hw2 : 0 < ‖w‖ ^ 2 := by positivity
      have h1 := hall (min 1 (-⟪tvPrimal x γ c, w⟫ / ‖w‖ ^ 2)) (lt_min one_pos (div_pos (by linarith) hw2)) (min_le_left _ _)
      have h2 : min 1 (-⟪tvPrimal x γ c, w⟫ / ‖w‖ ^ 2) * ‖w‖ ^ 2 ≤ -⟪tvPrimal x γ c, w⟫ := by
        calc _ ≤ -⟪tvPrimal x γ c, w⟫ / ‖w‖ ^ 2 * ‖w‖ ^ 2 := by gcongr; exact min_le_right _ _
          _ = _ := by field_simp
      linarith
  have hdual : ∀ r y, ⟪y, tvPrimal x γ r - tvPrimal x γ c⟫ = γ * ⟪tvGradMap n y, r - c⟫ := fun r y => by
    have : tvPrimal x γ r - tvPrimal x γ c = - (γ • tvDivMap n (r - c)) := by
      simp only [tvPrimal, map_sub]; module
    rw [this, inner_neg_right, real_inner_smul_right, tv_adjoint hn]
    ring
  refine ⟨c, hc, hmin', fun r hr => ?_, ?_⟩
  · have := hvar r hr
    have e : tvPrimal x γ r = tvPrimal x γ c + (tvPrimal x γ r - tvPrimal x γ c) := by abel
    have h := norm_add_sq_real (tvPrimal x γ c) (tvPrimal x γ r - tvPrimal x γ c)
    rw [← e] at h
    linarith
  · apply isUniqueProx_of_subgrad hτ
    refine ⟨trivial, fun y _ => ?_⟩
    set u := tvPrimal x γ c with hu
    -- -c attains the total variation of u
    have hatt : totalVariation u ≤ - ⟪tvGradMap n u, c⟫ := by
      obtain ⟨r, hr, hre⟩ := tv_dual_attained u
      have h := hvar r hr
      rw [hdual r u, inner_sub_right] at h
      have := nonneg_of_mul_nonneg_right h hγ0
      linarith
    have hle := tv_dual_le y hc
    have hxu : x - u = γ • tvDivMap n c := by simp only [hu, tvPrimal]; abel
    rw [hxu, smul_smul, real_inner_smul_left, real_inner_comm, show ⟪y - u, tvDivMap n c⟫ = - ⟪tvGradMap n (y - u), c⟫ by rw [tv_adjoint hn]; ring, map_sub,
      inner_sub_left]
    have e : 1 / τ * γ = σ := by rw [hγ]; field_simp
    rw [e]
    simp only [XFun.ofReal]
    nlinarith [mul_le_mul_of_nonneg_left hatt hσ.le, mul_le_mul_of_nonneg_left hle hσ.le]

lemma tv_isGrad (hn : ∀ a, 2 ≤ n a) (x : Vec (Pixel n)) (γ : ℝ) (r : Vec (A × Pixel n)) :
    IsGrad (fun r => ‖tvPrimal x γ r‖ ^ 2 / 2) r (γ • tvGradMap n (tvPrimal x γ r)) := by
  refine isGrad_lsq (γ • tvDivMap n) (fun y => -(γ • tvGradMap n y)) (fun r y => ?_) x r _ fun v => ?_
  · rw [LinearMap.smul_apply, real_inner_smul_left, inner_neg_right, real_inner_smul_right, real_inner_comm, real_inner_comm (tvGradMap n y), tv_adjoint hn]
    ring
  · rw [neg_neg]; rfl

end Verif
