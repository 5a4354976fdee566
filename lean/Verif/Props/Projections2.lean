import Verif.Props.Projections

/-!
# C26 (rows), C27, C28, C61, C62, C66: simplex rows, L1 ball, L0 balls, compiled bisection
-/

open scoped RealInnerProductSpace

namespace Verif

variable {ι κ : Type} [Fintype ι] [Fintype κ]

/-! ## C27 -/

lemma vec_norm_le_of_abs_le {x y : Vec ι} (h : ∀ i, |x i| ≤ |y i|) : ‖x‖ ≤ ‖y‖ := by
  rw [← pow_le_pow_iff_left₀ (norm_nonneg _) (norm_nonneg _) two_ne_zero, EuclideanSpace.norm_sq_eq,
    EuclideanSpace.norm_sq_eq]
  refine Finset.sum_le_sum fun i _ => ?_
  rw [Real.norm_eq_abs, Real.norm_eq_abs]
  exact pow_le_pow_left₀ (abs_nonneg _) (h i) 2

lemma vec_sum_abs_nonneg (x : Vec ι) : 0 ≤ ∑ i, |x i| := Finset.sum_nonneg fun _ _ => abs_nonneg _

/-- What the simplex projection of `|x|` computes: a shift by some `μ'` within `xtol` of the root `μ`. -/
lemma simplexProj_shift (bisect : (ℝ → ℝ) → ℝ → ℝ → ℝ) (xtol : ℝ) (hb : BisectTol bisect xtol) [Nonempty ι]
    (radius : ℝ) (hr : 0 ≤ radius) (x : Vec ι) :
    ∃ N, ∀ fuel, N ≤ fuel → ∃ μ' μ : ℝ, simplexProj bisect fuel radius x = .ok (vmk fun i => max (x i - μ') 0) ∧
      ∑ i, max (x i - μ) 0 = radius ∧ |μ' - μ| ≤ xtol := by
  classical
  have hne : ∃ y : Vec ι, y ∈ boxSet (fun _ => some 0) (fun _ => none) ∧ ⟪(vmk fun _ => 1 : Vec ι), y⟫ = radius := by
    obtain ⟨i0⟩ := ‹Nonempty ι›
    refine ⟨vmk fun i => if i = i0 then radius else 0, ?_, ?_⟩
    · intro i
      refine ⟨fun l hl => ?_, fun u hu => by cases hu⟩
      cases hl
      simp only
      split_ifs <;> simp [hr]
    · simp [PiLp.inner_apply]
  obtain ⟨y, hy, hys⟩ := hne
  obtain ⟨⟨μ1, h1⟩, ⟨μ2, h2⟩⟩ := hpb_attainable hy hys x
  have hanti := hpbFun_antitone (vmk fun _ => 1) radius (fun _ => some 0) (fun _ => none) x
  obtain ⟨N1, hN1⟩ := bracketLower_spec _ hanti μ1 h1
  obtain ⟨N2, hN2⟩ := bracketUpper_spec _ hanti μ2 h2
  refine ⟨max N1 N2, fun fuel hfuel => ?_⟩
  obtain ⟨a, ha, ha1, ha2, -⟩ := hN1 fuel (le_trans (le_max_left _ _) hfuel)
  obtain ⟨b, hb', hb1, hb2, -⟩ := hN2 fuel (le_trans (le_max_right _ _) hfuel)
  obtain ⟨r, -, -, hr0, hrt⟩ := hb _ a b (hpbFun_continuous _ radius _ _ x) (by linarith) ha2 hb2
  refine ⟨_, r, ?_, ?_, hrt⟩
  · simp only [simplexProj, hyperPlaneBoxProj, ha, hb', bind, Except.bind, pure, Except.pure]
    congr 1
    ext i
    simp [boxProj, boxClip, maxLower, minUpper]
  · have : ∑ i, max (x i - r) 0 - radius = 0 := by
      refine Eq.trans ?_ hr0
      simp [hpbFun, PiLp.inner_apply, boxProj, boxClip, maxLower, minUpper]
    linarith

lemma npsign_max_abs (x μ : ℝ) (hμ : 0 ≤ μ) : |npsign x * max (|x| - μ) 0| = max (|x| - μ) 0 := by
  have h0 : 0 ≤ max (|x| - μ) 0 := le_max_right _ _
  rcases eq_or_ne x 0 with rfl | hx
  · have : max (|(0:ℝ)| - μ) 0 = 0 := max_eq_right (by simpa using hμ)
    rw [this]; simp
  · have : |npsign x| = 1 := by
      unfold npsign
      rcases lt_or_gt_of_ne hx with h | h
      · simp [h, not_lt.2 h.le]
      · simp [h, not_lt.2 h.le]
    rw [abs_mul, this, one_mul, abs_of_nonneg h0]

/-- Soft thresholding that lands on the sphere is the projection onto the L1 ball. -/
lemma l1ball_isUniqueProj (x : Vec ι) (μ : ℝ) (hμ : 0 ≤ μ) (radius : ℝ) (hsum : ∑ i, max (|x i| - μ) 0 = radius) :
    IsUniqueProj {y : Vec ι | ∑ i, |y i| ≤ radius} x (vmk fun i => npsign (x i) * max (|x i| - μ) 0) := by
  apply isUniqueProj_of_variational
  · rw [Set.mem_ofPred_eq, ← hsum]
    exact Finset.sum_le_sum fun i _ => (npsign_max_abs _ _ hμ).le
  · intro y hy
    rw [Set.mem_ofPred_eq] at hy
    rw [PiLp.inner_apply]
    have key : ∀ i, ⟪(x - vmk fun i => npsign (x i) * max (|x i| - μ) 0) i,
        (y - vmk fun i => npsign (x i) * max (|x i| - μ) 0) i⟫ ≤ μ * (|y i| - max (|x i| - μ) 0) := by
      intro i
      rw [inner_real]
      simp only [PiLp.sub_apply]
      have e : x i = npsign (x i) * |x i| := by rw [mul_comm]; exact (npsign_mul_abs (x i)).symm
      rcases eq_or_ne (x i) 0 with hx | hx
      · have : max (|x i| - μ) 0 = 0 := max_eq_right (by simpa [hx] using hμ)
        rw [this, hx]
        simp only [mul_zero, sub_zero, zero_mul]
        positivity
      · have hs : npsign (x i) * npsign (x i) = 1 := by
          unfold npsign
          rcases lt_or_gt_of_ne hx with h | h
          · simp [h, not_lt.2 h.le]
          · simp [h, not_lt.2 h.le]
        have hsy : npsign (x i) * y i ≤ |y i| := by
          refine (le_abs_self _).trans ?_
          rw [abs_mul]
          exact mul_le_of_le_one_left (abs_nonneg _) (npsign_abs_le _)
        set s := npsign (x i)
        set m := max (|x i| - μ) 0 with hm
        have e2 : (x i - s * m) * (y i - s * m) = (|x i| - m) * (s * y i - m) := by
          have : x i = s * |x i| := e
          calc (x i - s * m) * (y i - s * m) = (s * |x i| - s * m) * (y i - s * m) := by rw [← this]
            _ = (|x i| - m) * (s * y i - (s * s) * m) := by ring
            _ = _ := by rw [hs, one_mul]
        rw [e2]
        rcases le_total (|x i| - μ) 0 with h | h
        · have : m = 0 := max_eq_right h
          rw [this]
          simp only [sub_zero]
          have hx0 := abs_nonneg (x i)
          nlinarith [abs_nonneg (y i)]
        · have : m = |x i| - μ := max_eq_left h
          have e3 : |x i| - m = μ := by linarith
          rw [e3]
          exact mul_le_mul_of_nonneg_left (by linarith) hμ
    refine (Finset.sum_le_sum fun i _ => key i).trans ?_
    rw [← Finset.mul_sum, Finset.sum_sub_distrib, hsum]
    exact mul_nonpos_of_nonneg_of_nonpos hμ (by linarith)

/-- C27, partial: for inputs on or outside the ball the result is within `xtol * sqrt n` of the unique projection onto the
L1 ball (equal to it for an exact root search).  Missing: inputs strictly inside the ball, see
`C27_l1ball_interior_refuted`. -/
theorem C27_l1ball_prox_partial (bisect : (ℝ → ℝ) → ℝ → ℝ → ℝ) (xtol : ℝ) (hb : BisectTol bisect xtol) [Nonempty ι]
    (radius tol : ℝ) (hr : 0 ≤ radius) (x : Vec ι) (hx : radius ≤ ∑ i, |x i|) (τ : ℝ) (hτ : 0 < τ) :
    ∃ N, ∀ fuel, N ≤ fuel → ∃ p q, (L1Ball bisect fuel radius tol).prox x τ = .ok p ∧
      IsUniqueProj {y : Vec ι | ∑ i, |y i| ≤ radius} x q ∧ ‖p - q‖ ≤ xtol * √(Fintype.card ι) := by
  obtain ⟨N, h⟩ := simplexProj_shift bisect xtol hb radius hr (vmk fun i => |x i|)
  refine ⟨N, fun fuel hfuel => ?_⟩
  obtain ⟨μ', μ, h1, h2, h3⟩ := h fuel hfuel
  have hμ : 0 ≤ μ := by
    by_contra hneg
    push Not at hneg
    have : ∑ i, |x i| < ∑ i, max (|x i| - μ) 0 :=
      Finset.sum_lt_sum_of_nonempty Finset.univ_nonempty fun i _ => lt_of_lt_of_le (by linarith) (le_max_left _ _)
    simp only at h2
    linarith
  refine ⟨vmk fun i => npsign (x i) * max (|x i| - μ') 0, _, ?_, l1ball_isUniqueProj x μ hμ radius h2, ?_⟩
  · simp only [ProxOp.prox, L1Ball, checkTau_pos hτ, l1BallProj, h1]
    rfl
  · have hx0 : 0 ≤ xtol := (abs_nonneg _).trans h3
    have hle : ‖(vmk fun i => npsign (x i) * max (|x i| - μ') 0 : Vec ι) - vmk fun i => npsign (x i) * max (|x i| - μ) 0‖
        ≤ ‖(vmk fun _ => xtol : Vec ι)‖ := by
      apply vec_norm_le_of_abs_le
      intro i
      simp only [PiLp.sub_apply]
      rw [← mul_sub, abs_mul, abs_of_nonneg hx0]
      refine (mul_le_of_le_one_left (abs_nonneg _) (npsign_abs_le _)).trans ?_
      have h4 := abs_max_sub_max_le_max (|x i| - μ') 0 (|x i| - μ) 0
      rw [sub_self, abs_zero, max_eq_left (abs_nonneg (|x i| - μ' - (|x i| - μ)))] at h4
      refine h4.trans ?_
      rw [sub_sub_sub_cancel_left, abs_sub_comm]; exact h3
    refine hle.trans (le_of_eq ?_)
    rw [EuclideanSpace.norm_eq]
    simp only [Real.norm_eq_abs, Finset.sum_const, Finset.card_univ, nsmul_eq_mul, abs_of_nonneg hx0]
    rw [Real.sqrt_mul (by positivity), Real.sqrt_sq hx0, mul_comm]

/-- C27, refutation of the full statement: with an exact root search *every* non-zero point strictly inside the ball is
moved, although it is its own projection. -/
theorem C27_l1ball_interior_refuted (bisect : (ℝ → ℝ) → ℝ → ℝ → ℝ) (hb : BisectTol bisect 0)
    (radius tol : ℝ) (x : Vec ι) (hx : ∑ i, |x i| < radius) (hx0 : x ≠ 0) (τ : ℝ) (hτ : 0 < τ) :
    ∃ N, ∀ fuel, N ≤ fuel → ∃ p, (L1Ball bisect fuel radius tol).prox x τ = .ok p ∧
      p ≠ x ∧ IsUniqueProj {y : Vec ι | ∑ i, |y i| ≤ radius} x x := by
  have hxi : ∃ i, x i ≠ 0 := by
    by_contra h; push Not at h; exact hx0 (by ext i; simp [h i])
  obtain ⟨i0, hi0⟩ := hxi
  have : Nonempty ι := ⟨i0⟩
  have hr : 0 ≤ radius := (vec_sum_abs_nonneg x).trans hx.le
  obtain ⟨N, h⟩ := simplexProj_shift bisect 0 hb radius hr (vmk fun i => |x i|)
  refine ⟨N, fun fuel hfuel => ?_⟩
  obtain ⟨μ', μ, h1, h2, h3⟩ := h fuel hfuel
  have hμμ : μ' = μ := by
    have := le_antisymm h3 (abs_nonneg _)
    linarith [abs_eq_zero.1 this]
  have hμ : μ < 0 := by
    by_contra hneg
    push Not at hneg
    have : ∑ i, max (|x i| - μ) 0 ≤ ∑ i, |x i| :=
      Finset.sum_le_sum fun i _ => max_le (by linarith) (abs_nonneg _)
    simp only at h2
    linarith
  refine ⟨vmk fun i => npsign (x i) * max (|x i| - μ') 0, ?_, fun heq => ?_, ?_⟩
  · simp only [ProxOp.prox, L1Ball, checkTau_pos hτ, l1BallProj, h1]
    rfl
  · have := congrArg (fun v : Vec ι => v i0) heq
    simp only at this
    rw [hμμ, max_eq_left (by have := abs_nonneg (x i0); linarith), mul_sub, mul_comm (npsign _) |x i0|, npsign_mul_abs] at this
    have hz : npsign (x i0) * μ = 0 := by linarith
    rcases mul_eq_zero.1 hz with h | h
    · have e := npsign_mul_abs (x i0)
      rw [h, mul_zero] at e
      exact hi0 e.symm
    · linarith
  · refine isUniqueProj_of_variational (C := {y : Vec ι | ∑ i, |y i| ≤ radius}) hx.le ?_
    intro y _; simp

/-- The hypotheses of the refutation are met. -/
example : ∑ i, |(vmk ![1 / 2, 0] : Vec (Fin 2)) i| < 1 ∧ (vmk ![1 / 2, 0] : Vec (Fin 2)) ≠ 0 := by
  refine ⟨by norm_num [Fin.sum_univ_two], fun h => ?_⟩
  have := congrArg (fun v : Vec (Fin 2) => v 0) h
  norm_num at this

example : (1 : ℝ) ≤ ∑ i, |(vmk ![2, -3] : Vec (Fin 2)) i| := by norm_num [Fin.sum_univ_two]

/-- C27: the membership test accepts exactly the points of norm below `radius + tol`. -/
theorem C27_l1ball_call (bisect : (ℝ → ℝ) → ℝ → ℝ → ℝ) (fuel : ℕ) (radius tol : ℝ) (x : Vec ι) :
    (L1Ball bisect fuel radius tol).call x = .ok (.bool true) ↔ ∑ i, |x i| < radius + tol := by
  simp only [L1Ball, Except.ok.injEq, CallVal.bool.injEq, decide_eq_true_iff]
  constructor <;> intro h <;> linarith

/-! ## C28 and C66 -/

/-- `order` is a permutation of the index set that sorts `key` increasingly (what `np.argsort` returns, for any
tie-breaking). -/
def IsArgsort (key : ι → ℝ) (order : List ι) : Prop :=
  order.Nodup ∧ (∀ i, i ∈ order) ∧ order.Pairwise (fun i j => key i ≤ key j)

lemma sum_le_sum_of_smaller {α : Type} [DecidableEq α] (D T : Finset α) (w : α → ℝ) (hw : ∀ i, 0 ≤ w i)
    (hcard : D.card ≤ T.card) (hD : ∀ d ∈ D, ∀ k, k ∉ D → w d ≤ w k) : ∑ i ∈ D, w i ≤ ∑ i ∈ T, w i := by
  have hc : (D \ T).card ≤ (T \ D).card := by
    have h1 := Finset.card_sdiff_add_card_inter D T
    have h2 := Finset.card_sdiff_add_card_inter T D
    rw [Finset.inter_comm] at h2
    omega
  have hs : ∑ i ∈ D \ T, w i ≤ ∑ i ∈ T \ D, w i := by
    rcases (D \ T).eq_empty_or_nonempty with he | hne
    · rw [he, Finset.sum_empty]; exact Finset.sum_nonneg fun i _ => hw i
    · set M := (D \ T).sup' hne w with hM
      have hM0 : 0 ≤ M := by
        obtain ⟨d, hd⟩ := hne
        exact (hw d).trans (Finset.le_sup' w hd)
      calc ∑ i ∈ D \ T, w i ≤ (D \ T).card • M := Finset.sum_le_card_nsmul _ _ _ fun i hi => Finset.le_sup' w hi
        _ ≤ (T \ D).card • M := by
            rw [nsmul_eq_mul, nsmul_eq_mul]
            exact mul_le_mul_of_nonneg_right (by exact_mod_cast hc) hM0
        _ ≤ ∑ i ∈ T \ D, w i := Finset.card_nsmul_le_sum _ _ _ fun k hk =>
            Finset.sup'_le hne w fun d hd => hD d (Finset.mem_sdiff.1 hd).1 k (Finset.mem_sdiff.1 hk).2
  rw [← Finset.sum_inter_add_sum_sdiff D T, ← Finset.sum_inter_add_sum_sdiff T D, Finset.inter_comm T D]
  linarith

lemma argsort_take {key : ι → ℝ} {order : List ι} (h : IsArgsort key order) (k : ℕ) :
    (∀ d ∈ order.take k, ∀ j, j ∉ order.take k → key d ≤ key j) := by
  intro d hd j hj
  have hj' : j ∈ order.drop k := by
    have := h.2.1 j
    rw [← List.take_append_drop k order, List.mem_append] at this
    exact this.resolve_left hj
  have hp := h.2.2
  rw [← List.take_append_drop k order, List.pairwise_append] at hp
  exact hp.2.2 d hd j hj'

lemma argsort_length {key : ι → ℝ} {order : List ι} (h : IsArgsort key order) : order.length = Fintype.card ι := by
  classical
  rw [← List.toFinset_card_of_nodup h.1]
  have : order.toFinset = Finset.univ := by ext i; simp [h.2.1 i]
  rw [this, Finset.card_univ]

/-- Group version: `grp` assigns each entry to a group; the groups in the first `n - radius` positions are dropped. -/
lemma l0_closest {G : Type} [Fintype G] [DecidableEq G] (grp : ι → G) (x : Vec ι) (radius : ℕ) (order : List G)
    (hord : IsArgsort (fun g => ∑ i, if grp i = g then x i ^ 2 else 0) order) (p : Vec ι)
    (hp : ∀ i, p i = if grp i ∈ order.take (order.length - radius) then 0 else x i) :
    IsProj {y : Vec ι | ({g | ∃ i, grp i = g ∧ y i ≠ 0} : Set G).ncard ≤ radius} x p := by
  classical
  set w : G → ℝ := fun g => ∑ i, if grp i = g then x i ^ 2 else 0 with hw
  have hw0 : ∀ g, 0 ≤ w g := fun g => Finset.sum_nonneg fun i _ => by split_ifs <;> positivity
  have hlen := argsort_length hord
  set D : Finset G := (order.take (order.length - radius)).toFinset with hDdef
  have hDcard : D.card = Fintype.card G - radius := by
    rw [hDdef, List.toFinset_card_of_nodup (hord.1.sublist (List.take_sublist _ _)), List.length_take, hlen]
    omega
  constructor
  · rw [Set.mem_ofPred_eq]
    have : ({g | ∃ i, grp i = g ∧ p i ≠ 0} : Set G) ⊆ (↑(Finset.univ \ D) : Set G) := by
      rintro g ⟨i, rfl, hi⟩
      rw [hp] at hi
      simp only [ne_eq, ite_eq_left_iff, not_forall] at hi
      simp [hDdef, hi.1]
    refine (Set.ncard_le_ncard this (Finset.finite_toSet _)).trans ?_
    rw [Set.ncard_coe_finset, Finset.card_sdiff_of_subset (Finset.subset_univ _), hDcard, Finset.card_univ]
    omega
  · intro y hy
    rw [Set.mem_ofPred_eq] at hy
    rw [← pow_le_pow_iff_left₀ (norm_nonneg _) (norm_nonneg _) two_ne_zero, EuclideanSpace.norm_sq_eq,
      EuclideanSpace.norm_sq_eq]
    set T : Finset G := Finset.univ.filter fun g => ∀ i, grp i = g → y i = 0 with hT
    have hTcard : D.card ≤ T.card := by
      have h1 : ({g | ∃ i, grp i = g ∧ y i ≠ 0} : Set G) = ↑(Finset.univ \ T) := by
        ext g; simp [hT]
      rw [h1, Set.ncard_coe_finset, Finset.card_sdiff_of_subset (Finset.subset_univ _), Finset.card_univ] at hy
      have := Finset.card_le_univ T
      omega
    have hsum : ∀ A : Finset G, ∑ g ∈ A, w g = ∑ i, if grp i ∈ A then x i ^ 2 else 0 := by
      intro A
      rw [hw, Finset.sum_comm]
      refine Finset.sum_congr rfl fun i _ => ?_
      simp
    have key := sum_le_sum_of_smaller D T w hw0 hTcard (fun d hd k hk =>
      argsort_take hord _ d (List.mem_toFinset.1 hd) k (fun h => hk (List.mem_toFinset.2 h)))
    rw [hsum, hsum] at key
    refine le_trans (le_of_eq ?_) (key.trans ?_)
    · refine Finset.sum_congr rfl fun i _ => ?_
      rw [PiLp.sub_apply, hp, Real.norm_eq_abs, sq_abs]
      by_cases h : grp i ∈ order.take (order.length - radius)
      · rw [if_pos h, if_pos (List.mem_toFinset.2 h), sub_zero]
      · rw [if_neg h, if_neg (fun h' => h (List.mem_toFinset.1 h'))]; simp
    · refine Finset.sum_le_sum fun i _ => ?_
      rw [PiLp.sub_apply, Real.norm_eq_abs, sq_abs]
      split_ifs with h
      · have : y i = 0 := (Finset.mem_filter.1 h).2 i rfl
        rw [this, sub_zero]
      · positivity

/-- C28, partial: for `radius >= 1` and any sort of `|x|`, `L0Ball.prox` returns a closest point with at most `radius`
non-zeros.  Missing: `radius = 0`, see `C28_l0ball_radius_zero_refuted`. -/
theorem C28_l0ball_prox_partial (argsort : Vec ι → List ι) (x : Vec ι) (hsort : IsArgsort (fun i => |x i|) (argsort x))
    (radius : ℕ) (hr : 1 ≤ radius) (τ : ℝ) (hτ : 0 < τ) :
    ∃ p, (L0Ball argsort radius).prox x τ = .ok p ∧
      IsProj {y : Vec ι | ({i | y i ≠ 0} : Set ι).ncard ≤ radius} x p := by
  classical
  refine ⟨_, by simp only [ProxOp.prox, L0Ball, checkTau_pos hτ]; rfl, ?_⟩
  have h := l0_closest (G := ι) id x radius (argsort x) ⟨hsort.1, hsort.2.1, ?_⟩ (l0BallProj radius (argsort x) x) ?_
  · simpa using h
  · refine hsort.2.2.imp fun {i j} hij => ?_
    simp only [id, Finset.sum_ite_eq', Finset.mem_univ, if_true]
    rw [← sq_abs, ← sq_abs (x j)]
    exact pow_le_pow_left₀ (abs_nonneg _) hij 2
  · intro i
    simp only [l0BallProj, sliceMinus, if_neg (by omega : ¬ radius = 0), id]

/-- C28, refutation at `radius = 0`: the input comes back unchanged whatever it is, although only the zero vector is in
the ball. -/
theorem C28_l0ball_radius_zero_refuted (argsort : Vec ι → List ι) (x : Vec ι) (hx : x ≠ 0) (τ : ℝ) (hτ : 0 < τ) :
    (L0Ball argsort 0).prox x τ = .ok x ∧ x ∉ {y : Vec ι | ({i | y i ≠ 0} : Set ι).ncard ≤ 0} := by
  constructor
  · simp only [ProxOp.prox, L0Ball, checkTau_pos hτ, l0BallProj, sliceMinus, if_true, List.take_zero, List.not_mem_nil,
      if_false]
  · rw [Set.mem_ofPred_eq, Nat.le_zero, Set.ncard_eq_zero (Set.toFinite _)]
    intro h
    apply hx
    ext i
    by_contra hi
    have : i ∈ ({i | x i ≠ 0} : Set ι) := hi
    rw [h] at this
    exact this

/-- C28: the value is True exactly when there are at most `radius` non-zeros. -/
theorem C28_l0ball_call (argsort : Vec ι → List ι) (radius : ℕ) (x : Vec ι) :
    (L0Ball argsort radius).call x = .ok (.bool true) ↔ ({i | x i ≠ 0} : Set ι).ncard ≤ radius := by
  classical
  have : ({i | x i ≠ 0} : Set ι) = ↑(Finset.univ.filter fun i => x i ≠ 0) := by ext; simp
  rw [this, Set.ncard_coe_finset]
  simp only [L0Ball, Except.ok.injEq, CallVal.bool.injEq, decide_eq_true_iff]

/-- A sort of the absolute values exists for a concrete vector with a tie. -/
example : IsArgsort (fun i => |(vmk ![3, -1, 1] : Vec (Fin 3)) i|) [2, 1, 0] := by
  refine ⟨by decide, by decide, ?_⟩
  simp [List.pairwise_cons]

/-- C66, partial: `L10Ball.prox` returns a closest matrix with at most `radius` non-zero columns whenever the order of the
columns by L1 norm is also an order by Euclidean norm (in particular with a single row).  Missing: other inputs, see
`C66_l10ball_refuted`. -/
theorem C66_l10ball_prox_partial (argsort : (κ → ℝ) → List κ) (x : Vec (ι × κ))
    (hsort : IsArgsort (fun j => ∑ i, x (i, j) ^ 2) (argsort fun j => ∑ i, |x (i, j)|))
    (radius : ℕ) (hr : 1 ≤ radius) (τ : ℝ) (hτ : 0 < τ) :
    ∃ p, (L10Ball argsort radius).prox x τ = .ok p ∧
      IsProj {y : Vec (ι × κ) | ({j | ∃ i, y (i, j) ≠ 0} : Set κ).ncard ≤ radius} x p := by
  classical
  refine ⟨_, by simp only [ProxOp.prox, L10Ball, checkTau_pos hτ]; rfl, ?_⟩
  have h := l0_closest (G := κ) Prod.snd x radius (argsort (colL1 x)) ⟨hsort.1, hsort.2.1, ?_⟩
    (l10BallProj radius (argsort (colL1 x)) x) ?_
  · have e : ∀ y : Vec (ι × κ), ({g | ∃ i : ι × κ, i.2 = g ∧ y i ≠ 0} : Set κ) = {j | ∃ i, y (i, j) ≠ 0} := by
      intro y; ext g; constructor
      · rintro ⟨⟨i, j⟩, rfl, h⟩; exact ⟨i, h⟩
      · rintro ⟨i, h⟩; exact ⟨(i, g), rfl, h⟩
    simpa only [e] using h
  · refine hsort.2.2.imp fun {i j} hij => ?_
    simpa only [Fintype.sum_prod_type, Finset.sum_ite_eq', Finset.mem_univ, if_true] using hij
  · intro i
    simp only [l10BallProj, sliceMinus, if_neg (by omega : ¬ radius = 0)]

/-- C66, refutation: with columns `(3, 0)` and `(2, 2)` the second one (larger L1 norm, smaller Euclidean norm) is kept. -/
theorem C66_l10ball_refuted (argsort : (Fin 2 → ℝ) → List (Fin 2)) (hsort : ∀ k, IsArgsort k (argsort k)) :
    ∃ (x : Vec (Fin 2 × Fin 2)) (p : Vec (Fin 2 × Fin 2)), (L10Ball argsort 1).prox x 1 = .ok p ∧
      ¬ IsProj {y : Vec (Fin 2 × Fin 2) | ({j | ∃ i, y (i, j) ≠ 0} : Set (Fin 2)).ncard ≤ 1} x p := by
  classical
  let x : Vec (Fin 2 × Fin 2) := vmk fun ij => if ij.2 = 0 then (if ij.1 = 0 then 3 else 0) else 2
  have hk : colL1 x = ![3, 4] := by
    ext j; fin_cases j <;> norm_num [colL1, x, Fin.sum_univ_two]
  have hs := hsort ![3, 4]
  have hlen := argsort_length hs
  have hord : argsort ![3, 4] = [0, 1] := by
    rw [Fintype.card_fin] at hlen
    obtain ⟨a, b, hab⟩ := List.length_eq_two.1 hlen
    rw [hab] at hs ⊢
    have h1 := hs.1
    have h2 := hs.2.2
    simp only [List.nodup_cons, List.mem_singleton, List.pairwise_cons, List.not_mem_nil] at h1 h2
    have h3 := h2.1 b rfl
    fin_cases a <;> fin_cases b <;> simp_all
    norm_num at h2
  refine ⟨x, _, by simp only [ProxOp.prox, L10Ball, checkTau_pos one_pos]; rfl, fun h => ?_⟩
  rw [hk, hord] at h
  have h2 := h.2 (vmk fun ij => if ij.2 = 0 then (if ij.1 = 0 then 3 else 0) else 0) (by
    rw [Set.mem_ofPred_eq]
    have : ({j | ∃ i, (vmk fun ij : Fin 2 × Fin 2 => if ij.2 = 0 then (if ij.1 = 0 then (3:ℝ) else 0) else 0 :
        Vec (Fin 2 × Fin 2)) (i, j) ≠ 0} : Set (Fin 2)) ⊆ {0} := by
      rintro j ⟨i, hij⟩
      by_contra hj
      exact hij (by simp [show j ≠ 0 from hj])
    exact (Set.ncard_le_ncard this).trans (by simp))
  rw [← pow_le_pow_iff_left₀ (norm_nonneg _) (norm_nonneg _) two_ne_zero, EuclideanSpace.norm_sq_eq,
    EuclideanSpace.norm_sq_eq] at h2
  norm_num [Fintype.sum_prod_type, Fin.sum_univ_two, l10BallProj, sliceMinus, x] at h2

/-! ## C61 -/

/-- C61, partial: on a single vector (with `call=True`) the value is True exactly when the entries are non-negative and sum
to the radius up to `tol`.  Missing: the `dims` variant, see `C61_simplex_rows_refuted`. -/
theorem C61_simplex_call_partial (bisect : (ℝ → ℝ) → ℝ → ℝ → ℝ) (fuel : ℕ) (radius tol : ℝ) (x : Vec ι) :
    (Simplex bisect fuel radius tol true).call x = .ok (.bool true) ↔ (∀ i, 0 ≤ x i) ∧ |∑ i, x i - radius| ≤ tol := by
  simp only [Simplex, Bool.true_eq_false, if_false, Except.ok.injEq, CallVal.bool.injEq, decide_eq_true_iff]
  rw [abs_le]
  push Not
  constructor
  · rintro ⟨⟨h1, h2⟩, h3⟩; exact ⟨h3, by linarith, h1⟩
  · rintro ⟨h3, h1, h2⟩; exact ⟨⟨h2, by linarith⟩, h3⟩

/-- C61: what the `dims` variant accepts. -/
theorem C61_simplex_rows_call_partial (bisect : (ℝ → ℝ) → ℝ → ℝ → ℝ) (fuel : ℕ) (radius tol : ℝ) (x : Vec (ι × κ)) :
    (SimplexRows bisect fuel radius tol true).call x = .ok (.bool true) ↔
      ∀ i, (∀ j, 0 ≤ x (i, j)) ∧ ∑ j, x (i, j) ≤ radius + tol := by
  simp only [SimplexRows, Bool.true_eq_false, if_false, Except.ok.injEq, CallVal.bool.injEq, decide_eq_true_iff]
  push Not
  refine forall_congr' fun i => ?_
  constructor
  · rintro ⟨h1, h2⟩
    exact ⟨h2, by rw [abs_of_nonneg (Finset.sum_nonneg fun j _ => h2 j)] at h1; linarith⟩
  · rintro ⟨h2, h1⟩
    exact ⟨by rw [abs_of_nonneg (Finset.sum_nonneg fun j _ => h2 j)]; linarith, h2⟩

/-- C61, refutation for `dims`: the zero matrix is accepted for every radius `>= 0`; and with `call=False` nothing is
accepted. -/
theorem C61_simplex_rows_refuted (bisect : (ℝ → ℝ) → ℝ → ℝ → ℝ) (fuel : ℕ) :
    (SimplexRows bisect fuel 1 (1 / 10 ^ 8) true).call (0 : Vec (Fin 2 × Fin 2)) = .ok (.bool true) ∧
    (∑ j, (0 : Vec (Fin 2 × Fin 2)) (0, j) ≠ 1) ∧
    (Simplex bisect fuel 1 (1 / 10 ^ 8) false).call (vmk ![1, 0] : Vec (Fin 2)) = .ok (.bool false) := by
  refine ⟨?_, by simp, by simp [Simplex]⟩
  rw [C61_simplex_rows_call_partial]
  intro i
  simp
  norm_num

/-! ## C62 -/

lemma npsign_eq_iff (a b : ℝ) : npsign a = npsign b ↔ (0 < a ↔ 0 < b) ∧ (a < 0 ↔ b < 0) := by
  unfold npsign
  rcases lt_trichotomy a 0 with ha | rfl | ha <;> rcases lt_trichotomy b 0 with hb | rfl | hb <;>
    simp_all [le_of_lt, not_lt.2] <;> norm_num

lemma bisectLoop_spec (f : ℝ → ℝ) (hf : Continuous f) (ftol xtol : ℝ) :
    ∀ (k : ℕ) (a b c : ℝ), a ≤ b → f a * f b ≤ 0 → (k = 0 → a ≤ c ∧ c ≤ b) →
      |f (bisectLoop f ftol xtol k a b (f a) c)| < ftol ∨
      ∃ r, a ≤ r ∧ r ≤ b ∧ f r = 0 ∧ (|bisectLoop f ftol xtol k a b (f a) c - r| < xtol ∨
        |bisectLoop f ftol xtol k a b (f a) c - r| ≤ (b - a) / 2 ^ k) := by
  intro k
  have hroot : ∀ a b, a ≤ b → f a * f b ≤ 0 → ∃ r, a ≤ r ∧ r ≤ b ∧ f r = 0 := by
    intro a b hab h
    rcases mul_nonpos_iff.1 h with ⟨h1, h2⟩ | ⟨h1, h2⟩
    · obtain ⟨r, hr, h0⟩ := intermediate_value_Icc' hab hf.continuousOn ⟨h2, h1⟩
      exact ⟨r, hr.1, hr.2, h0⟩
    · obtain ⟨r, hr, h0⟩ := intermediate_value_Icc hab hf.continuousOn ⟨h1, h2⟩
      exact ⟨r, hr.1, hr.2, h0⟩
  induction k with
  | zero =>
    intro a b c hab h hc
    obtain ⟨r, h1, h2, h3⟩ := hroot a b hab h
    obtain ⟨hc1, hc2⟩ := hc rfl
    refine Or.inr ⟨r, h1, h2, h3, Or.inr ?_⟩
    simp only [bisectLoop, pow_zero, div_one]
    rw [abs_le]; constructor <;> linarith
  | succ k ih =>
    intro a b c hab h _
    simp only [bisectLoop]
    split_ifs with h1 h2 h3
    · obtain ⟨r, hr1, hr2, hr3⟩ := hroot a b hab h
      refine Or.inr ⟨r, hr1, hr2, hr3, Or.inl ?_⟩
      rw [abs_lt]; constructor <;> linarith
    · exact Or.inl h2
    · have hcb : f ((a + b) / 2) * f b ≤ 0 := by
        rw [npsign_eq_iff] at h3
        rcases lt_trichotomy (f a) 0 with ha | ha | ha
        · have h4 := h3.2.2 ha
          have h5 : 0 ≤ f b := by by_contra hb; push Not at hb; nlinarith
          nlinarith
        · have h4 : f ((a + b) / 2) = 0 := by
            rw [ha] at h3; simp only [lt_self_iff_false, iff_false, not_lt] at h3; exact le_antisymm h3.1 h3.2
          rw [h4, zero_mul]
        · have h4 := h3.1.2 ha
          have h5 : f b ≤ 0 := by by_contra hb; push Not at hb; nlinarith
          nlinarith
      rcases ih ((a + b) / 2) b ((a + b) / 2) (by linarith) hcb (fun _ => ⟨le_rfl, by linarith⟩) with h4 | ⟨r, hr1, hr2, hr3, hr4⟩
      · exact Or.inl h4
      · refine Or.inr ⟨r, by linarith, hr2, hr3, hr4.imp_right fun h => h.trans (le_of_eq ?_)⟩
        rw [pow_succ]; field_simp; ring
    · have hac : f a * f ((a + b) / 2) ≤ 0 := by
        by_contra hneg
        push Not at hneg
        apply h3
        rw [npsign_eq_iff]
        rcases mul_pos_iff.1 hneg with ⟨h4, h5⟩ | ⟨h4, h5⟩
        · exact ⟨⟨fun _ => h4, fun _ => h5⟩, ⟨fun h => by linarith, fun h => by linarith⟩⟩
        · exact ⟨⟨fun h => by linarith, fun h => by linarith⟩, ⟨fun _ => h4, fun _ => h5⟩⟩
      rcases ih a ((a + b) / 2) ((a + b) / 2) (by linarith) hac (fun _ => ⟨by linarith, le_rfl⟩) with h4 | ⟨r, hr1, hr2, hr3, hr4⟩
      · exact Or.inl h4
      · refine Or.inr ⟨r, hr1, by linarith, hr3, hr4.imp_right fun h => h.trans (le_of_eq ?_)⟩
        rw [pow_succ]; field_simp; ring

/-- C62: on a bracketing interval of a continuous function the compiled bisection returns a point with residual below `ftol`,
or within `xtol` of a root, or within `(upper - lower) / 2^maxiter` of a root of that interval. -/
theorem C62_bisect_jit (f : ℝ → ℝ) (hf : Continuous f) (a b : ℝ) (hab : a ≤ b) (hsign : f a * f b ≤ 0)
    (maxiter : ℕ) (hmax : 1 ≤ maxiter) (ftol xtol : ℝ) :
    ∃ c, bisectJit f a b maxiter ftol xtol = .ok c ∧ (|f c| < ftol ∨
      ∃ r, a ≤ r ∧ r ≤ b ∧ f r = 0 ∧ (|c - r| < xtol ∨ |c - r| ≤ (b - a) / 2 ^ maxiter)) := by
  refine ⟨_, by simp only [bisectJit, if_neg (by omega : ¬ maxiter = 0)]; rfl, ?_⟩
  exact bisectLoop_spec f hf ftol xtol maxiter a b 0 hab hsign (fun h => by omega)

/-- C62: without iterations there is nothing to return. -/
theorem C62_bisect_jit_maxiter_zero (f : ℝ → ℝ) (a b ftol xtol : ℝ) :
    bisectJit f a b 0 ftol xtol = .error .unboundLocalError := by simp [bisectJit]

/-- With unit coefficients moving `mu` moves all entries the same way, so the distance of two clipped points is at most
the difference of their sums. -/
lemma unit_shift_dist (l u : ι → Bound) (x : Vec ι) (s μ ν : ℝ) :
    ‖boxProj l u (x - μ • (vmk fun _ => 1)) - boxProj l u (x - ν • (vmk fun _ => 1))‖
      ≤ |hpbFun (vmk fun _ => 1) s l u x μ - hpbFun (vmk fun _ => 1) s l u x ν| := by
  wlog h : μ ≤ ν generalizing μ ν
  · rw [norm_sub_rev, abs_sub_comm]; exact this ν μ (le_of_not_ge h)
  have hpos : ∀ i, 0 ≤ boxProj l u (x - μ • (vmk fun _ => 1)) i - boxProj l u (x - ν • (vmk fun _ => 1)) i := by
    intro i
    rw [sub_nonneg]
    exact boxClip_mono _ _ (by simp; linarith)
  have hn : ∀ v : Vec ι, (∀ i, 0 ≤ v i) → ‖v‖ ≤ ∑ i, v i := by
    intro v hv
    rw [EuclideanSpace.norm_eq, Real.sqrt_le_left (Finset.sum_nonneg fun i _ => hv i)]
    simp only [Real.norm_eq_abs, sq_abs]
    exact Finset.sum_sq_le_sq_sum_of_nonneg fun i _ => hv i
  refine (hn _ hpos).trans (le_trans (le_of_eq ?_) (le_abs_self _))
  simp [hpbFun, PiLp.inner_apply]

/-- C62 and C26 for the compiled engine: for `0 <= radius <= 1e10` the projection loops end and the returned point is
non-negative and close to the unique projection onto the simplex: within `ftol`, or within `max(xtol, width / 2^maxiter)`
times `sqrt n`, where the width of the bracketing interval is at most `2 max(1, 2 (||x|| + radius))`. -/
theorem C62_simplex_numba_prox [Nonempty ι] (radius tol : ℝ) (hr : 0 ≤ radius) (hr2 : radius ≤ 10000000000)
    (maxiter : ℕ) (hmax : 1 ≤ maxiter) (ftol xtol : ℝ) (callFlag : Bool) (x : Vec ι) (τ : ℝ) (hτ : 0 < τ) :
    ∃ N, ∀ fuel, N ≤ fuel → ∃ p q, (SimplexNumba fuel radius tol maxiter ftol xtol callFlag).prox x τ = .ok p ∧
      (∀ i, 0 ≤ p i) ∧ IsUniqueProj {y : Vec ι | (∀ i, 0 ≤ y i) ∧ ∑ i, y i = radius} x q ∧
      (‖p - q‖ < ftol ∨
        ‖p - q‖ ≤ max xtol (2 * max 1 (2 * (‖x‖ + radius)) / 2 ^ maxiter) * √(Fintype.card ι)) := by
  classical
  have hnorm : ‖(vmk fun _ => 1 : Vec ι)‖ = √(Fintype.card ι) := by
    rw [EuclideanSpace.norm_eq]; simp
  have hset : {y : Vec ι | y ∈ boxSet (fun _ => some 0) (fun _ => some 10000000000) ∧
      ⟪(vmk fun _ => 1 : Vec ι), y⟫ = radius} = {y : Vec ι | (∀ i, 0 ≤ y i) ∧ ∑ i, y i = radius} := by
    ext y
    simp only [Set.mem_ofPred_eq, mem_boxSet, geLower, leUpper, PiLp.inner_apply, inner_real, one_mul]
    constructor
    · rintro ⟨h1, h2⟩; exact ⟨fun i => (h1 i).1, h2⟩
    · rintro ⟨h1, h2⟩
      refine ⟨fun i => ⟨h1 i, ?_⟩, h2⟩
      exact (Finset.single_le_sum (f := fun i => y i) (fun j _ => h1 j) (Finset.mem_univ i)).trans (h2.le.trans hr2)
  set f := hpbFun (vmk fun _ => 1) radius (fun _ => some 0) (fun _ => some 10000000000) x with hf
  have hfx : ∀ μ, f μ = ∑ i, min (max (x i - μ) 0) 10000000000 - radius := by
    intro μ; simp [hf, hpbFun, PiLp.inner_apply, boxProj, boxClip, maxLower, minUpper]
  have hxi : ∀ i, |x i| ≤ ‖x‖ := fun i => by simpa using PiLp.norm_apply_le x i
  set B := ‖x‖ + radius with hB
  have hB0 : 0 ≤ B := by positivity
  have h1 : 0 ≤ f (-B) := by
    rw [hfx, sub_nonneg]
    obtain ⟨i0⟩ := ‹Nonempty ι›
    have h2 : radius ≤ min (max (x i0 - -B) 0) 10000000000 := by
      refine le_min (le_max_of_le_left ?_) hr2
      have := (abs_le.1 (hxi i0)).1
      linarith
    exact h2.trans (Finset.single_le_sum (f := fun i => min (max (x i - -B) 0) 10000000000)
      (fun i _ => le_min (le_max_right _ _) (by norm_num)) (Finset.mem_univ i0))
  have h2 : f B ≤ 0 := by
    rw [hfx, sub_nonpos]
    refine le_trans (Finset.sum_nonpos fun i _ => ?_) hr
    refine (min_le_left _ _).trans (max_le ?_ le_rfl)
    have := (abs_le.1 (hxi i)).2
    linarith
  have hanti : Antitone f := hpbFun_antitone _ _ _ _ _
  have hcont : Continuous f := hpbFun_continuous _ _ _ _ _
  obtain ⟨N1, hN1⟩ := bracketLower_spec _ hanti _ h1
  obtain ⟨N2, hN2⟩ := bracketUpper_spec _ hanti _ h2
  refine ⟨max N1 N2, fun fuel hfuel => ?_⟩
  obtain ⟨a, ha, ha1, ha2, ha3⟩ := hN1 fuel (le_trans (le_max_left _ _) hfuel)
  obtain ⟨b, hb, hb1, hb2, hb3⟩ := hN2 fuel (le_trans (le_max_right _ _) hfuel)
  obtain ⟨c, hc, hcs⟩ := C62_bisect_jit f hcont a b (by linarith) (mul_nonpos_of_nonneg_of_nonpos ha2 hb2) maxiter hmax
    ftol xtol
  have hlu : ∀ (i : ι) a b, (some 0 : Bound) = some a → (some 10000000000 : Bound) = some b → a ≤ b := by
    intro _ a b ha hb; cases ha; cases hb; norm_num
  have hprox : (SimplexNumba fuel radius tol maxiter ftol xtol callFlag).prox x τ
      = .ok (boxProj (fun _ => some 0) (fun _ => some 10000000000) (x - c • (vmk fun _ => 1))) := by
    simp only [ProxOp.prox, SimplexNumba, checkTau_pos hτ, simplexNumbaProj]
    rw [← hf, ha, hb]
    simp only [bind, Except.bind, hc]
    rfl
  have hnn : ∀ i, 0 ≤ boxProj (fun _ => some 0) (fun _ => some 10000000000) (x - c • (vmk fun _ => 1)) i :=
    fun i => (clip_scalar (hlu i) _).1
  -- a root exists in any case
  rcases hcs with hres | ⟨r, -, -, hr0, hrr⟩
  · obtain ⟨r, -, hr0⟩ : ∃ r ∈ Set.Icc a b, f r = 0 :=
      intermediate_value_Icc' (by linarith) hcont.continuousOn ⟨hb2, ha2⟩
    refine ⟨_, _, hprox, hnn, hset ▸ hpb_root_isProj hlu hr0, Or.inl ?_⟩
    refine lt_of_le_of_lt (unit_shift_dist _ _ x radius c r) ?_
    rw [← hf, hr0, sub_zero]; exact hres
  · refine ⟨_, _, hprox, hnn, hset ▸ hpb_root_isProj hlu hr0, Or.inr ?_⟩
    refine (boxProj_lip _ _ _ _).trans ?_
    have e : x - c • (vmk fun _ => 1 : Vec ι) - (x - r • (vmk fun _ => 1)) = (r - c) • (vmk fun _ => 1) := by
      rw [sub_smul]; abel
    rw [e, norm_smul, Real.norm_eq_abs, abs_sub_comm, hnorm]
    refine mul_le_mul_of_nonneg_right ?_ (Real.sqrt_nonneg _)
    rcases hrr with h | h
    · exact h.le.trans (le_max_left _ _)
    · refine (h.trans ?_).trans (le_max_right _ _)
      refine div_le_div_of_nonneg_right ?_ (by positivity)
      have hM1 := le_max_left 1 (2 * B)
      have hM2 := le_max_right 1 (2 * B)
      rcases ha3 with h3 | h3 <;> rcases hb3 with h4 | h4 <;> linarith

/-! ## C26 for the `dims` variant -/

/-- C26: with `dims` every row is projected. -/
theorem C26_simplex_rows_prox (bisect : (ℝ → ℝ) → ℝ → ℝ → ℝ) (hb : BisectTol bisect 0) [Nonempty κ]
    (radius tol : ℝ) (callFlag : Bool) (hr : 0 ≤ radius) (x : Vec (ι × κ)) (τ : ℝ) (hτ : 0 < τ) :
    ∃ N, ∀ fuel, N ≤ fuel → ∃ p, (SimplexRows bisect fuel radius tol callFlag).prox x τ = .ok p ∧
      ∀ i, IsUniqueProj {y : Vec κ | (∀ j, 0 ≤ y j) ∧ ∑ j, y j = radius} (vmk fun j => x (i, j)) (vmk fun j => p (i, j)) := by
  classical
  have h := fun i : ι => C26_simplex_prox bisect 0 hb radius tol callFlag hr (vmk fun j => x (i, j)) τ hτ
  choose N hN using h
  refine ⟨∑ i, N i, fun fuel hfuel => ?_⟩
  have h' : ∀ i, ∃ q, simplexProj bisect fuel radius (vmk fun j : κ => x (i, j)) = .ok q ∧
      IsUniqueProj {y : Vec κ | (∀ j, 0 ≤ y j) ∧ ∑ j, y j = radius} (vmk fun j => x (i, j)) q := by
    intro i
    obtain ⟨p, q, h1, -, h2, h3⟩ := hN i fuel
      ((Finset.single_le_sum (f := N) (fun _ _ => Nat.zero_le _) (Finset.mem_univ i)).trans hfuel)
    rw [zero_mul] at h3
    have e : p = q := sub_eq_zero.1 (norm_eq_zero.1 (le_antisymm h3 (norm_nonneg _)))
    simp only [ProxOp.prox, Simplex, checkTau_pos hτ] at h1
    exact ⟨q, e ▸ h1, h2⟩
  choose q hq1 hq2 using h'
  refine ⟨vmk fun ij => q ij.1 ij.2, ?_, fun i => hq2 i⟩
  simp only [ProxOp.prox, SimplexRows, checkTau_pos hτ, hq1]
  rw [if_neg (by rintro ⟨i, hi⟩; cases hi)]

end Verif
