import Verif.Props.Complex

/-!
# C93: complex arrays (balls, group norms, quadratic functions, line search)
-/

open scoped RealInnerProductSpace
open Filter

namespace Verif

variable {ι κ : Type} [Fintype ι] [Fintype κ]

/-! ## L1 ball -/

/-- Soft thresholding that lands on the sphere is the projection onto the complex L1 ball. -/
lemma cl1ball_isUniqueProj (x : CVec ι) (μ : ℝ) (hμ : 0 ≤ μ) (radius : ℝ) (hsum : ∑ i, max (‖x i‖ - μ) 0 = radius) :
    IsUniqueProj {y : CVec ι | ∑ i, ‖y i‖ ≤ radius} x (cmk fun i => cSoft (x i) μ) := by
  have hp := csep_isUniqueProx_real (fun _ y => μ * ‖y‖) (fun y : CVec ι => μ * ∑ i, ‖y i‖)
    (fun y => by simp only [Finset.mul_sum]) (τ := 1) (x := x) (p := cmk fun i => cSoft (x i) μ)
    (fun j => by have := cSoft_isUniqueProx hμ one_pos (x j); rwa [one_mul] at this)
  set p : CVec ι := cmk fun i => cSoft (x i) μ with hpdef
  have hps : ∑ i, ‖p i‖ = radius := by
    rw [← hsum]
    exact Finset.sum_congr rfl fun i _ => norm_cSoft _ _
  have hmin : ∀ y : CVec ι, ∑ i, ‖y i‖ ≤ radius → ‖p - x‖ ^ 2 ≤ ‖y - x‖ ^ 2 := by
    intro y hy
    have := hp.1.2 y trivial
    simp only [proxObj, XFun.ofReal, hps] at this
    have h2 : μ * ∑ i, ‖y i‖ ≤ μ * radius := mul_le_mul_of_nonneg_left hy hμ
    linarith
  refine ⟨⟨hps.le, fun y hy => ?_⟩, fun q hq => ?_⟩
  · rw [norm_sub_rev x p, norm_sub_rev x y]
    exact (pow_le_pow_iff_left₀ (norm_nonneg _) (norm_nonneg _) two_ne_zero).1 (hmin y hy)
  · apply hp.2
    refine ⟨trivial, fun y _ => ?_⟩
    refine le_trans ?_ (hp.1.2 y trivial)
    simp only [proxObj, XFun.ofReal, hps]
    have h1 := hq.2 p hps.le
    rw [norm_sub_rev x p, norm_sub_rev x q] at h1
    have h2 : ‖q - x‖ ^ 2 ≤ ‖p - x‖ ^ 2 := pow_le_pow_left₀ (norm_nonneg _) h1 2
    have h3 : μ * ∑ i, ‖q i‖ ≤ μ * radius := mul_le_mul_of_nonneg_left hq.1 hμ
    linarith

/-- C93, partial (as C27 for real arrays): on or outside the ball, `L1Ball.prox` of a complex array is within `xtol * sqrt n` of the projection onto the complex L1 ball.  Missing: points
strictly inside, see `C93_l1ball_interior_refuted`. -/
theorem C93_l1ball_prox_partial (bisect : (ℝ → ℝ) → ℝ → ℝ → ℝ) (xtol : ℝ) (hb : BisectTol bisect xtol) [Nonempty ι]
    (radius tol : ℝ) (hr : 0 ≤ radius) (x : CVec ι) (hx : radius ≤ ∑ i, ‖x i‖) (τ : ℝ) (hτ : 0 < τ) :
    ∃ N, ∀ fuel, N ≤ fuel → ∃ p q, (L1BallCx bisect fuel radius tol).prox x τ = .ok p ∧
      IsUniqueProj {y : CVec ι | ∑ i, ‖y i‖ ≤ radius} x q ∧ ‖p - q‖ ≤ xtol * √(Fintype.card ι) := by
  obtain ⟨N, h⟩ := simplexProj_shift bisect xtol hb radius hr (vmk fun i => ‖x i‖)
  refine ⟨N, fun fuel hfuel => ?_⟩
  obtain ⟨μ', μ, h1, h2, h3⟩ := h fuel hfuel
  have hμ : 0 ≤ μ := by
    by_contra hneg
    push Not at hneg
    have : ∑ i, ‖x i‖ < ∑ i, max (‖x i‖ - μ) 0 :=
      Finset.sum_lt_sum_of_nonempty Finset.univ_nonempty fun i _ => lt_of_lt_of_le (by linarith) (le_max_left _ _)
    simp only at h2
    linarith
  refine ⟨cmk fun i => cSoft (x i) μ', _, ?_, cl1ball_isUniqueProj x μ hμ radius h2, ?_⟩
  · simp only [ProxOp.prox, L1BallCx, checkTau_pos hτ, cl1BallProj, h1, Bind.bind, Except.bind, Pure.pure, Except.pure]
    congr 2
    funext i
    simp only [cSoft]
    rw [mul_comm]
  · have hcoord : ∀ i, ‖((cmk fun i => cSoft (x i) μ') - cmk fun i => cSoft (x i) μ : CVec ι) i‖ ≤ xtol := by
      intro i
      have e : ((cmk fun i => cSoft (x i) μ') - cmk fun i => cSoft (x i) μ : CVec ι) i
          = ((max (‖x i‖ - μ') 0 - max (‖x i‖ - μ) 0 : ℝ) : ℂ) * cphase (x i) := by
        show cSoft (x i) μ' - cSoft (x i) μ = _
        simp only [cSoft]
        push_cast
        ring
      rw [e, norm_mul, norm_cphase, mul_one, Complex.norm_real, Real.norm_eq_abs]
      refine (abs_max_sub_max_le_abs _ _ _).trans ?_
      have e2 : ‖x i‖ - μ' - (‖x i‖ - μ) = -(μ' - μ) := by ring
      rw [e2, abs_neg]
      exact h3
    have hx0 : 0 ≤ xtol := (abs_nonneg _).trans h3
    refine (pow_le_pow_iff_left₀ (norm_nonneg _) (by positivity) two_ne_zero).1 ?_
    rw [mul_pow, Real.sq_sqrt (by positivity), EuclideanSpace.norm_sq_eq]
    calc ∑ i, ‖((cmk fun i => cSoft (x i) μ') - cmk fun i => cSoft (x i) μ : CVec ι) i‖ ^ 2
        ≤ ∑ _i : ι, xtol ^ 2 := Finset.sum_le_sum fun i _ => pow_le_pow_left₀ (norm_nonneg _) (hcoord i) 2
      _ = _ := by rw [Finset.sum_const, nsmul_eq_mul, Finset.card_univ]; ring

/-- C93, refutation: every non-zero complex array strictly inside the ball is moved by `L1Ball.prox` (exact root search). -/
theorem C93_l1ball_interior_refuted (bisect : (ℝ → ℝ) → ℝ → ℝ → ℝ) (hb : BisectTol bisect 0)
    (radius tol : ℝ) (x : CVec ι) (hx : ∑ i, ‖x i‖ < radius) (hx0 : x ≠ 0) (τ : ℝ) (hτ : 0 < τ) :
    ∃ N, ∀ fuel, N ≤ fuel → ∃ p, (L1BallCx bisect fuel radius tol).prox x τ = .ok p ∧ p ≠ x := by
  have hxi : ∃ i, x i ≠ 0 := by
    by_contra h; push Not at h; exact hx0 (by ext i; simp [h i])
  obtain ⟨i0, hi0⟩ := hxi
  have : Nonempty ι := ⟨i0⟩
  have hr : 0 ≤ radius := (Finset.sum_nonneg fun _ _ => norm_nonneg _).trans hx.le
  obtain ⟨N, h⟩ := simplexProj_shift bisect 0 hb radius hr (vmk fun i => ‖x i‖)
  refine ⟨N, fun fuel hfuel => ?_⟩
  obtain ⟨μ', μ, h1, h2, h3⟩ := h fuel hfuel
  have hμμ : μ' = μ := by
    have := le_antisymm h3 (abs_nonneg _)
    linarith [abs_eq_zero.1 this]
  subst hμμ
  refine ⟨cmk fun i => cSoft (x i) μ', ?_, ?_⟩
  · simp only [ProxOp.prox, L1BallCx, checkTau_pos hτ, cl1BallProj, h1, Bind.bind, Except.bind, Pure.pure, Except.pure]
    congr 2
    funext i
    simp only [cSoft]
    rw [mul_comm]
  · intro he
    have hs : ∑ i, ‖x i‖ = radius := by
      rw [← h2]
      refine Finset.sum_congr rfl fun i => fun _ => ?_
      have := congrArg (fun v : CVec ι => ‖v i‖) he
      simp only [norm_cSoft] at this
      exact this.symm
    linarith

/-! ## L0 ball -/

/-- C93, partial (as C28): for `radius >= 1` and any sort of the moduli, `L0Ball.prox` of a complex array is a closest array with at most `radius` non-zero entries.  Missing: `radius = 0`, where
the input comes back as for real arrays (`C93_l0ball_radius_zero_refuted`). -/
theorem C93_l0ball_prox_partial (argsort : CVec ι → List ι) (x : CVec ι) (hsort : IsArgsort (fun i => ‖x i‖) (argsort x))
    (radius : ℕ) (hr : 1 ≤ radius) (τ : ℝ) (hτ : 0 < τ) :
    ∃ p, (L0BallCx argsort radius).prox x τ = .ok p ∧
      IsProj {y : CVec ι | ({i | y i ≠ 0} : Set ι).ncard ≤ radius} x p := by
  classical
  -- the same selection on the real array of moduli
  obtain ⟨p', hp', hP⟩ := C28_l0ball_prox_partial (fun _ => argsort x) (vmk fun i => ‖x i‖)
    (by simpa only [abs_norm] using hsort) radius hr τ hτ
  have hp'e : p' = l0BallProj radius (argsort x) (vmk fun i => ‖x i‖) := by
    simp only [ProxOp.prox, L0Ball, checkTau_pos hτ] at hp'
    exact (Except.ok.inj hp').symm
  refine ⟨cmk fun i => if i ∈ sliceMinus (argsort x) radius then 0 else x i,
    by simp only [ProxOp.prox, L0BallCx, checkTau_pos hτ], ?_, fun y hy => ?_⟩
  · refine le_trans (Set.ncard_le_ncard ?_ (Set.toFinite _)) hP.1
    intro i hi
    rw [Set.mem_ofPred_eq] at hi ⊢
    rw [hp'e]
    change (if i ∈ sliceMinus (argsort x) radius then (0 : ℂ) else x i) ≠ 0 at hi
    show (if i ∈ sliceMinus (argsort x) radius then (0 : ℝ) else ‖x i‖) ≠ 0
    split_ifs at hi ⊢ with h
    · exact absurd rfl hi
    · exact norm_ne_zero_iff.2 hi
  · have h1 := hP.2 (vmk fun i => if y i = 0 then 0 else ‖x i‖) (by
      refine le_trans (Set.ncard_le_ncard ?_ (Set.toFinite _)) hy
      intro i hi
      rw [Set.mem_ofPred_eq] at hi ⊢
      intro h
      exact hi (if_pos h))
    refine le_trans (le_of_eq ?_) (h1.trans ?_)
    · refine (pow_left_inj₀ (norm_nonneg _) (norm_nonneg _) two_ne_zero).1 ?_
      rw [EuclideanSpace.norm_sq_eq, EuclideanSpace.norm_sq_eq, hp'e]
      refine Finset.sum_congr rfl fun i _ => ?_
      show ‖x i - (if i ∈ sliceMinus (argsort x) radius then (0 : ℂ) else x i)‖ ^ 2
        = ‖‖x i‖ - (if i ∈ sliceMinus (argsort x) radius then (0 : ℝ) else ‖x i‖)‖ ^ 2
      split_ifs <;> simp
    · refine (pow_le_pow_iff_left₀ (norm_nonneg _) (norm_nonneg _) two_ne_zero).1 ?_
      rw [EuclideanSpace.norm_sq_eq, EuclideanSpace.norm_sq_eq]
      refine Finset.sum_le_sum fun i _ => ?_
      show ‖‖x i‖ - (if y i = 0 then (0 : ℝ) else ‖x i‖)‖ ^ 2 ≤ ‖x i - y i‖ ^ 2
      split_ifs with h
      · simp [h]
      · rw [sub_self, norm_zero, zero_pow two_ne_zero]; positivity

theorem C93_l0ball_radius_zero_refuted (argsort : CVec ι → List ι) (x : CVec ι) (hx : x ≠ 0) (τ : ℝ) (hτ : 0 < τ) :
    (L0BallCx argsort 0).prox x τ = .ok x ∧ x ∉ {y : CVec ι | ({i | y i ≠ 0} : Set ι).ncard ≤ 0} := by
  constructor
  · simp [ProxOp.prox, L0BallCx, checkTau_pos hτ, sliceMinus]
  · intro h
    rw [Set.mem_ofPred_eq, Nat.le_zero, Set.ncard_eq_zero (Set.toFinite _)] at h
    apply hx
    ext i
    by_contra hi
    have : i ∈ ({i | x i ≠ 0} : Set ι) := hi
    rw [h] at this
    exact this

/-! ## Huber -/

/-- The documented Huber function on complex arrays. -/
noncomputable def cHuberSpec (α : ℝ) (y : CVec ι) : ℝ :=
  ∑ i, if ‖y i‖ ≤ α then ‖y i‖ ^ 2 / (2 * α) else ‖y i‖ - α / 2

theorem C93_huber_call (α : ℝ) : EvaluatesNum (HuberCx (ι := ι) α) (cHuberSpec α) := by
  intro x
  simp only [HuberCx, cHuberSpec]
  congr 3
  funext i
  by_cases h : ‖x i‖ ≤ α
  · rw [if_pos h, if_neg (not_lt.2 h)]
  · rw [if_neg h, if_pos (not_le.1 h)]

/-- C93, partial (as C16 for real arrays): exact outside the band `alpha < |x_i| < alpha + tau`; inside it C16 already fails for real arrays. -/
theorem C93_huber_prox_partial (α : ℝ) (hα : 0 < α) (x : CVec ι) (τ : ℝ) (hτ : 0 < τ)
    (hband : ∀ i, ‖x i‖ ≤ α ∨ α + τ ≤ ‖x i‖) :
    ∃ p, (HuberCx α).prox x τ = .ok p ∧ IsUniqueProx (XFun.ofReal (cHuberSpec α)) τ x p := by
  refine ⟨_, by simp only [ProxOp.prox, HuberCx, checkTau_pos hτ]; rfl, ?_⟩
  refine csep_isUniqueProx_real (fun _ y => if ‖y‖ ≤ α then ‖y‖ ^ 2 / (2 * α) else ‖y‖ - α / 2) _
      (fun y => rfl) (fun j => ?_)
  have key := huber_isUniqueProx hα hτ (x j)
  convert key using 1
  simp only
  rcases hband j with h | h
  · rw [if_neg (not_lt.2 h), max_eq_right (by linarith), Complex.real_smul, div_eq_mul_inv, mul_comm,
      ← Complex.ofReal_inv]
    congr 2
    field_simp
    ring
  · rw [if_pos (by linarith), mul_one, cSoft_eq hτ, max_eq_left (by linarith), max_eq_left (by linarith)]

/-- C93: on complex arrays the feasibility tests of `L1Ball` and `L0Ball` accept exactly the arrays with `Σ|x_i| < radius + tol`, respectively at most
`radius` nonzero entries. -/
theorem C93_ball_calls (bisect : (ℝ → ℝ) → ℝ → ℝ → ℝ) (fuel : ℕ) (radius tol : ℝ) (argsort : CVec ι → List ι) (r : ℕ) (x : CVec ι) :
    ((L1BallCx bisect fuel radius tol).call x = .ok (.bool true) ↔ ∑ i, ‖x i‖ < radius + tol) ∧
    ((L0BallCx argsort r).call x = .ok (.bool true) ↔ ({i | x i ≠ 0} : Set ι).ncard ≤ r) := by
  constructor
  · simp only [L1BallCx, Except.ok.injEq, CallVal.bool.injEq, decide_eq_true_eq]
    constructor <;> intro h <;> linarith
  · simp only [L0BallCx, Except.ok.injEq, CallVal.bool.injEq, decide_eq_true_eq]
    rw [← Set.ncard_coe_finset]
    simp

end Verif
