import Verif.Props.Feasible
import Verif.Props.Projections2

/-!
# C110, part two: the constraint operators and their own membership test

A constraint operator offers both a projection (`prox`) and a membership test (calling it).  `OwnTest` says that the two
agree.
-/

open scoped RealInnerProductSpace

namespace Verif

variable {ι κ : Type} [Fintype ι] [Fintype κ]
variable {E : Type} [NormedAddCommGroup E] [InnerProductSpace ℝ E]

/-- The operator's two methods agree: what `prox` returns passes the test, what passes the test is left unchanged, and
the step plays no role. -/
structure OwnTest (op : ProxOp E) : Prop where
  lands : ∀ x τ p, op.prox x τ = .ok p → op.call p = .ok (.bool true)
  fixes : ∀ x τ, 0 < τ → op.call x = .ok (.bool true) → op.prox x τ = .ok x
  step : ∀ x τ τ' p, 0 < τ' → op.prox x τ = .ok p → op.prox x τ' = .ok p

/-- What `C110_*` of part one asks of an operator, with the set its own test describes. -/
lemma OwnTest.toLands {op : ProxOp E} (h : OwnTest op) : Lands op {x | op.call x = .ok (.bool true)} := h.lands

lemma prox_ok_pos {op : ProxOp E} {P : E → Py E} (hop : ∀ x τ, op.prox x τ = checkTau τ (P x)) {x : E} {τ : ℝ} {p : E}
    (h : op.prox x τ = .ok p) : 0 < τ ∧ P x = .ok p := by
  rw [hop, checkTau] at h
  by_cases hτ : τ ≤ 0
  · rw [if_pos hτ] at h; cases h
  · rw [if_neg hτ] at h; exact ⟨not_le.1 hτ, h⟩

lemma prox_step_of {op : ProxOp E} {P : E → Py E} (hop : ∀ x τ, op.prox x τ = checkTau τ (P x)) (x : E) (τ τ' : ℝ) (p : E)
    (hτ' : 0 < τ') (h : op.prox x τ = .ok p) : op.prox x τ' = .ok p := by
  rw [hop, checkTau, if_neg (not_le.2 hτ')]
  exact (prox_ok_pos hop h).2

/-- A projection onto the set described by the test agrees with the test. -/
lemma ownTest_of_proj {op : ProxOp E} {C : Set E} {P : E → Py E} (hop : ∀ x τ, op.prox x τ = checkTau τ (P x))
    (hcall : ∀ x, op.call x = .ok (.bool true) ↔ x ∈ C)
    (hproj : ∀ x τ, 0 < τ → ∃ p, op.prox x τ = .ok p ∧ IsProj C x p) : OwnTest op := by
  refine ⟨fun x τ p h => ?_, fun x τ hτ hx => ?_, prox_step_of hop⟩
  · obtain ⟨q, hq, hqC⟩ := hproj x τ (prox_ok_pos hop h).1
    rw [h] at hq
    cases hq
    exact (hcall _).2 hqC.1
  · obtain ⟨q, hq, hqC⟩ := hproj x τ hτ
    have h0 := hqC.2 x ((hcall x).1 hx)
    rw [sub_self, norm_zero] at h0
    have : x = q := sub_eq_zero.1 (norm_eq_zero.1 (le_antisymm h0 (norm_nonneg _)))
    rw [hq, ← this]

omit [NormedAddCommGroup E] [InnerProductSpace ℝ E] in
lemma evaluates_call {op : ProxOp E} {C : Set E} (h : EvaluatesIndicator op C) (x : E) :
    op.call x = .ok (.bool true) ↔ x ∈ C := by
  obtain ⟨b, hb, hbC⟩ := h x
  rw [hb, ← hbC]
  simp

/-! ## Exact operators -/

/-- C110: `Box` with consistent bounds. -/
theorem C110_box (lower upper : ι → Option ℝ) (hne : ∀ i a b, lower i = some a → upper i = some b → a ≤ b) :
    OwnTest (Box lower upper) :=
  ownTest_of_proj (P := fun x => .ok (boxProj lower upper x)) (fun _ _ => rfl) (evaluates_call (C21_box_call lower upper))
    fun x τ hτ => by
      obtain ⟨p, hp, hpC⟩ := C21_box_prox lower upper hne x τ hτ
      exact ⟨p, hp, hpC.1⟩

/-- C110: `HalfSpace` with a non-zero normal. -/
theorem C110_halfspace (w : E) (hw : w ≠ 0) (b : ℝ) : OwnTest (HalfSpace w b) :=
  ownTest_of_proj (P := halfSpaceProj w b) (fun _ _ => rfl) (evaluates_call (C22_halfspace_call w b))
    fun x τ hτ => by
      obtain ⟨p, hp, hpC, -⟩ := C22_halfspace_prox w hw b x τ hτ
      exact ⟨p, hp, hpC.1⟩

/-- C110: `EuclideanBall` with a positive radius. -/
theorem C110_euclidean_ball (c : E) (r : ℝ) (hr : 0 < r) : OwnTest (EuclideanBall c r) :=
  ownTest_of_proj (P := euclideanBallProj c r) (fun _ _ => rfl) (evaluates_call (C23_ball_call c r))
    fun x τ hτ => by
      obtain ⟨p, hp, hpC⟩ := C23_ball_prox c r hr x τ hτ
      exact ⟨p, hp, hpC.1⟩

/-- C110: `L0Ball` with radius at least one, for every sort of the absolute values (ties included). -/
theorem C110_l0ball_partial (argsort : Vec ι → List ι) (hsort : ∀ x, IsArgsort (fun i => |x i|) (argsort x))
    (radius : ℕ) (hr : 1 ≤ radius) : OwnTest (L0Ball argsort radius) :=
  ownTest_of_proj (P := fun x => .ok (l0BallProj radius (argsort x) x)) (fun _ _ => rfl)
    (fun x => C28_l0ball_call argsort radius x)
    fun x τ hτ => C28_l0ball_prox_partial argsort x (hsort x) radius hr τ hτ

/-- C110: with radius 0 every non-zero vector is returned unchanged and fails the test. -/
theorem C110_l0ball_radius_zero_refuted (argsort : Vec ι → List ι) (x : Vec ι) (hx : x ≠ 0) (τ : ℝ) (hτ : 0 < τ) :
    (L0Ball argsort 0).prox x τ = .ok x ∧ (L0Ball argsort 0).call x ≠ .ok (.bool true) := by
  obtain ⟨h1, h2⟩ := C28_l0ball_radius_zero_refuted argsort x hx τ hτ
  exact ⟨h1, fun h => h2 ((C28_l0ball_call argsort 0 x).1 h)⟩

lemma colL1_eq_zero {x : Vec (ι × κ)} {j : κ} : colL1 x j = 0 ↔ ∀ i, x (i, j) = 0 := by
  unfold colL1
  rw [Finset.sum_eq_zero_iff_of_nonneg fun _ _ => abs_nonneg _]
  simp

/-- C110: `L10Ball` with radius at least one, although its result need not be the closest point (C66). -/
theorem C110_l10ball_partial (argsort : (κ → ℝ) → List κ) (hsort : ∀ k, IsArgsort k (argsort k))
    (radius : ℕ) (hr : 1 ≤ radius) : OwnTest (L10Ball (ι := ι) argsort radius) := by
  classical
  have hop : ∀ (x : Vec (ι × κ)) τ, (L10Ball argsort radius).prox x τ
      = checkTau τ (.ok (l10BallProj radius (argsort (colL1 x)) x)) := fun _ _ => rfl
  have hcall : ∀ x : Vec (ι × κ), (L10Ball argsort radius).call x = .ok (.bool true) ↔
      (Finset.univ.filter fun j => colL1 x j ≠ 0).card ≤ radius := by
    intro x
    simp only [L10Ball, Except.ok.injEq, CallVal.bool.injEq, decide_eq_true_iff]
  have hent : ∀ (x : Vec (ι × κ)) ij, l10BallProj radius (argsort (colL1 x)) x ij
      = if ij.2 ∈ (argsort (colL1 x)).take ((argsort (colL1 x)).length - radius) then 0 else x ij := by
    intro x ij
    simp only [l10BallProj, sliceMinus, if_neg (by omega : ¬ radius = 0)]
  refine ⟨fun x τ p h => ?_, fun x τ hτ hx => ?_, prox_step_of hop⟩
  · obtain ⟨-, h⟩ := prox_ok_pos hop h
    cases h
    rw [hcall]
    set o := argsort (colL1 x) with ho
    have hs := hsort (colL1 x)
    rw [← ho] at hs
    have hlen := argsort_length hs
    have hsub : (Finset.univ.filter fun j => colL1 (l10BallProj radius o x) j ≠ 0)
        ⊆ Finset.univ \ (o.take (o.length - radius)).toFinset := by
      intro j hj
      simp only [Finset.mem_sdiff, Finset.mem_univ, true_and, List.mem_toFinset]
      intro hj2
      refine (Finset.mem_filter.1 hj).2 (colL1_eq_zero.2 fun i => ?_)
      rw [hent, if_pos hj2]
    refine (Finset.card_le_card hsub).trans ?_
    rw [Finset.card_sdiff_of_subset (Finset.subset_univ _),
      List.toFinset_card_of_nodup (hs.1.sublist (List.take_sublist _ _)), List.length_take, hlen, Finset.card_univ]
    omega
  · rw [hcall] at hx
    rw [hop, checkTau, if_neg (not_le.2 hτ)]
    congr 1
    ext ij
    rw [hent]
    split_ifs with hj
    · by_contra hne
      set o := argsort (colL1 x) with ho
      have hs := hsort (colL1 x)
      rw [← ho] at hs
      have hlen := argsort_length hs
      have hpos : 0 < colL1 x ij.2 := by
        refine lt_of_le_of_ne (Finset.sum_nonneg fun _ _ => abs_nonneg _) fun h => hne ?_
        exact (colL1_eq_zero.1 h.symm ij.1).symm
      have hsub : (Finset.univ \ (o.take (o.length - radius)).toFinset) ∪ {ij.2}
          ⊆ Finset.univ.filter fun j => colL1 x j ≠ 0 := by
        intro j hj'
        simp only [Finset.mem_union, Finset.mem_sdiff, Finset.mem_univ, true_and, List.mem_toFinset,
          Finset.mem_singleton] at hj'
        refine Finset.mem_filter.2 ⟨Finset.mem_univ _, ?_⟩
        rcases hj' with hj' | rfl
        · exact (lt_of_lt_of_le hpos (argsort_take hs _ _ hj j hj')).ne'
        · exact hpos.ne'
      have hc := Finset.card_le_card hsub
      have hlt : 0 < o.length - radius := by
        rcases Nat.eq_zero_or_pos (o.length - radius) with h0 | h0
        · rw [h0] at hj; simp at hj
        · exact h0
      rw [Finset.card_union_of_disjoint (by simp [hj]), Finset.card_sdiff_of_subset (Finset.subset_univ _),
        List.toFinset_card_of_nodup (hs.1.sublist (List.take_sublist _ _)), List.length_take, Finset.card_univ,
        Finset.card_singleton, ← hlen] at hc
      omega
    · rfl

/-- C110: with crossing bounds `Box` returns a point that fails its own test, whatever the input. -/
theorem C110_box_crossing_refuted (lower upper : ι → Option ℝ) (i : ι) (a b : ℝ) (ha : lower i = some a)
    (hb : upper i = some b) (hab : b < a) (x : Vec ι) (τ : ℝ) (hτ : 0 < τ) :
    ∃ p, (Box lower upper).prox x τ = .ok p ∧ (Box lower upper).call p = .ok (.bool false) := by
  refine ⟨_, by simp only [ProxOp.prox, Box, checkTau_pos hτ]; rfl, ?_⟩
  simp only [Box, Except.ok.injEq, CallVal.bool.injEq, decide_eq_false_iff_not]
  intro h
  have h1 := h i
  rw [ha, hb] at h1
  simp only [geLower, leUpper] at h1
  linarith [h1.1, h1.2]

/-! ## Tolerances in the test -/

/-- C110, partial: `Hankel` returns what passes its test, leaves exact Hankel matrices unchanged and ignores the step.
Missing: matrices that pass the test only up to the tolerance are moved, see `C110_hankel_refuted`. -/
theorem C110_hankel_partial {m n : ℕ} :
    (∀ (X : Vec (Fin m × Fin n)) τ P, Hankel.prox X τ = .ok P → Hankel.call P = .ok (.bool true)) ∧
    (∀ (X : Vec (Fin m × Fin n)) τ, 0 < τ → X ∈ hankelSet m n → Hankel.prox X τ = .ok X) ∧
    (∀ (X : Vec (Fin m × Fin n)) τ τ' P, 0 < τ' → Hankel.prox X τ = .ok P → Hankel.prox X τ' = .ok P) := by
  have hop : ∀ (X : Vec (Fin m × Fin n)) τ, Hankel.prox X τ = checkTau τ (.ok (hankelProj X)) := fun _ _ => rfl
  refine ⟨fun X τ P h => ?_, fun X τ hτ hX => ?_, prox_step_of hop⟩
  · obtain ⟨Q, hQ, hQC⟩ := C25_hankel_prox X τ (prox_ok_pos hop h).1
    rw [h] at hQ
    cases hQ
    exact (C25_hankel_call _).1 hQC.1.1
  · obtain ⟨Q, hQ, hQC⟩ := C25_hankel_prox X τ hτ
    have h0 := hQC.1.2 X hX
    rw [sub_self, norm_zero] at h0
    have : X = Q := sub_eq_zero.1 (norm_eq_zero.1 (le_antisymm h0 (norm_nonneg _)))
    rw [hQ, ← this]

/-- C110, refutation for `Hankel`: a matrix off by `1e-9` passes the test and is moved nevertheless. -/
theorem C110_hankel_refuted (τ : ℝ) (hτ : 0 < τ) :
    ∃ X P : Vec (Fin 2 × Fin 2), Hankel.call X = .ok (.bool true) ∧ Hankel.prox X τ = .ok P ∧ P ≠ X := by
  classical
  let X : Vec (Fin 2 × Fin 2) := vmk fun ij => if ij = (0, 1) then 1 / 10 ^ 9 else 0
  have hP : ∀ i j, hankelProj X (i, j) = if i.val + j.val = 1 then 1 / 10 ^ 9 / 2 else 0 := by
    intro i j
    have hc : ∀ k : ℕ, (∑ ij : Fin 2 × Fin 2, if ij.1.val + ij.2.val = k then (1 : ℝ) else 0)
        = (if 0 = k then 1 else 0) + (if 1 = k then 1 else 0) + ((if 1 = k then 1 else 0) + if 2 = k then 1 else 0) := by
      intro k
      simp only [Fintype.sum_prod_type, Fin.sum_univ_two]
      simp
    have hs : ∀ k : ℕ, (∑ ij : Fin 2 × Fin 2, if ij.1.val + ij.2.val = k then X ij else 0)
        = if 1 = k then 1 / 10 ^ 9 else 0 := by
      intro k
      simp only [Fintype.sum_prod_type, Fin.sum_univ_two, X]
      simp
    simp only [hankelProj, hc, hs]
    fin_cases i <;> fin_cases j <;> norm_num
  refine ⟨X, hankelProj X, ?_, by simp only [ProxOp.prox, Hankel, checkTau_pos hτ], fun h => ?_⟩
  · simp only [Hankel, Except.ok.injEq, CallVal.bool.injEq, decide_eq_true_iff]
    rintro ⟨i, j⟩
    rw [hP]
    fin_cases i <;> fin_cases j <;> norm_num [X]
  · have := congrArg (fun v : Vec (Fin 2 × Fin 2) => v (0, 1)) h
    simp only [hP] at this
    norm_num [X] at this

/-- C110, partial: `AffineSet` with a solve that is exact returns what passes its test and leaves solutions of the system
unchanged.  Missing: an inexact solve (C24 bounds the residual by that of the solve). -/
theorem C110_affine_partial (cg : (Vec κ → Vec κ) → Vec κ → Vec κ) (Op : LinOp E (Vec κ)) (b : Vec κ)
    (hsolve : ∀ x, Op.matvec (Op.rmatvec (cg (fun y => Op.matvec (Op.rmatvec y)) (Op.matvec x - b))) = Op.matvec x - b) :
    (∀ x τ p, (AffineSet cg Op b).prox x τ = .ok p → (AffineSet cg Op b).call p = .ok (.bool true)) ∧
    (∀ x τ, 0 < τ → Op.matvec x = b → (AffineSet cg Op b).prox x τ = .ok x) ∧
    (∀ x τ τ' p, 0 < τ' → (AffineSet cg Op b).prox x τ = .ok p → (AffineSet cg Op b).prox x τ' = .ok p) := by
  have hop : ∀ x τ, (AffineSet cg Op b).prox x τ = checkTau τ (.ok (affineSetProj cg Op b x)) := fun _ _ => rfl
  refine ⟨fun x τ p h => ?_, fun x τ hτ hx => ?_, prox_step_of hop⟩
  · obtain ⟨q, hq, hqC⟩ := C24_affine_prox cg Op b x τ (prox_ok_pos hop h).1 (hsolve x)
    rw [h] at hq
    cases hq
    have hm : Op.matvec p = b := hqC.1.1
    simp only [AffineSet, Except.ok.injEq, CallVal.bool.injEq, decide_eq_true_iff]
    intro i
    rw [hm, sub_self, abs_zero]
    positivity
  · obtain ⟨q, hq, hqC⟩ := C24_affine_prox cg Op b x τ hτ (hsolve x)
    have h0 := hqC.1.2 x hx
    rw [sub_self, norm_zero] at h0
    have : x = q := sub_eq_zero.1 (norm_eq_zero.1 (le_antisymm h0 (norm_nonneg _)))
    rw [hq, ← this]

/-! ## Operators that search for a multiplier -/

lemma sum_max_shift_le (x : Vec ι) {μ μ' xtol : ℝ} (h : |μ' - μ| ≤ xtol) :
    |∑ i, max (x i - μ') 0 - ∑ i, max (x i - μ) 0| ≤ Fintype.card ι * xtol := by
  rw [← Finset.sum_sub_distrib]
  refine (Finset.abs_sum_le_sum_abs _ _).trans ?_
  refine (Finset.sum_le_card_nsmul _ _ xtol fun i _ => ?_).trans (by simp [Finset.card_univ])
  have h4 := abs_max_sub_max_le_max (x i - μ') 0 (x i - μ) 0
  rw [sub_self, abs_zero, max_eq_left (abs_nonneg (x i - μ' - (x i - μ)))] at h4
  refine h4.trans ?_
  rw [sub_sub_sub_cancel_left, abs_sub_comm]; exact h

/-- C110, partial: what `Simplex` returns passes its own test (switched on) if the test's tolerance is at least the number
of entries times the tolerance of the search.  Missing: smaller tolerances, the defaults among them, see
`C110_simplex_refuted`. -/
theorem C110_simplex_partial (bisect : (ℝ → ℝ) → ℝ → ℝ → ℝ) (xtol : ℝ) (hb : BisectTol bisect xtol) [Nonempty ι]
    (radius tol : ℝ) (hr : 0 ≤ radius) (htol : Fintype.card ι * xtol ≤ tol) (x : Vec ι) (τ : ℝ) (hτ : 0 < τ) :
    ∃ N, ∀ fuel, N ≤ fuel → ∃ p, (Simplex bisect fuel radius tol true).prox x τ = .ok p ∧
      (Simplex bisect fuel radius tol true).call p = .ok (.bool true) := by
  obtain ⟨N, h⟩ := simplexProj_shift bisect xtol hb radius hr x
  refine ⟨N, fun fuel hfuel => ?_⟩
  obtain ⟨μ', μ, h1, h2, h3⟩ := h fuel hfuel
  refine ⟨_, by simp only [ProxOp.prox, Simplex, checkTau_pos hτ, h1]; rfl, ?_⟩
  rw [C61_simplex_call_partial]
  refine ⟨fun i => le_max_right _ _, ?_⟩
  have := sum_max_shift_le x h3
  rw [h2] at this
  exact this.trans htol

/-- C110, partial: what `L1Ball` returns passes its own test if the test's tolerance exceeds the number of entries times
the tolerance of the search.  Missing: smaller tolerances, see `C110_l1ball_refuted`; points inside the ball are moved,
see `C27_l1ball_interior_refuted`. -/
theorem C110_l1ball_partial (bisect : (ℝ → ℝ) → ℝ → ℝ → ℝ) (xtol : ℝ) (hb : BisectTol bisect xtol) [Nonempty ι]
    (radius tol : ℝ) (hr : 0 ≤ radius) (htol : Fintype.card ι * xtol < tol) (x : Vec ι) (τ : ℝ) (hτ : 0 < τ) :
    ∃ N, ∀ fuel, N ≤ fuel → ∃ p, (L1Ball bisect fuel radius tol).prox x τ = .ok p ∧
      (L1Ball bisect fuel radius tol).call p = .ok (.bool true) := by
  obtain ⟨N, h⟩ := simplexProj_shift bisect xtol hb radius hr (vmk fun i => |x i|)
  refine ⟨N, fun fuel hfuel => ?_⟩
  obtain ⟨μ', μ, h1, h2, h3⟩ := h fuel hfuel
  refine ⟨vmk fun i => npsign (x i) * max (|x i| - μ') 0, ?_, ?_⟩
  · simp only [ProxOp.prox, L1Ball, checkTau_pos hτ, l1BallProj, h1]
    rfl
  rw [C27_l1ball_call]
  have h4 : ∑ i, |npsign (x i) * max (|x i| - μ') 0| ≤ ∑ i, max (|x i| - μ') 0 := by
    refine Finset.sum_le_sum fun i _ => ?_
    rw [abs_mul, abs_of_nonneg (le_max_right (|x i| - μ') 0)]
    exact mul_le_of_le_one_left (le_max_right _ _) (npsign_abs_le _)
  have h5 := (abs_le.1 (sum_max_shift_le (vmk fun i => |x i|) h3)).2
  rw [h2] at h5
  simp only at h4 h5 ⊢
  linarith

/-- A root search that meets its tolerance but always stops that much to the left of a root. -/
lemma exists_bisect_left (xtol : ℝ) (h : 0 ≤ xtol) : ∃ bisect, BisectTol bisect xtol ∧
    ∀ (f : ℝ → ℝ) (a b : ℝ), Continuous f → a ≤ b → 0 ≤ f a → f b ≤ 0 → ∃ r, f r = 0 ∧ bisect f a b = r - xtol := by
  classical
  have key : ∀ (f : ℝ → ℝ) (a b : ℝ), Continuous f → a ≤ b → 0 ≤ f a → f b ≤ 0 → ∃ r, a ≤ r ∧ r ≤ b ∧ f r = 0 := by
    intro f a b hf hab ha hb
    obtain ⟨r, hr, hr0⟩ := intermediate_value_Icc' hab hf.continuousOn ⟨hb, ha⟩
    exact ⟨r, hr.1, hr.2, hr0⟩
  refine ⟨fun f a b => if H : ∃ r, a ≤ r ∧ r ≤ b ∧ f r = 0 then H.choose - xtol else 0, fun f a b hf hab ha hb => ?_,
    fun f a b hf hab ha hb => ?_⟩
  · have := key f a b hf hab ha hb
    refine ⟨this.choose, this.choose_spec.1, this.choose_spec.2.1, this.choose_spec.2.2, ?_⟩
    simp only [dif_pos this, sub_sub_cancel_left, abs_neg, abs_of_nonneg h]; exact le_rfl
  · have := key f a b hf hab ha hb
    exact ⟨this.choose, this.choose_spec.2.2, by simp only [dif_pos this]⟩

/-- With such a search the entries of a constant vector come out too large by the tolerance of the search. -/
lemma simplexProj_left [Nonempty ι] (xtol : ℝ) (hx0 : 0 ≤ xtol) (radius : ℝ) (hr : 0 < radius) (M : ℝ) :
    ∃ bisect, BisectTol bisect xtol ∧ ∃ N, ∀ fuel, N ≤ fuel →
      simplexProj bisect fuel radius (vmk fun _ => M : Vec ι) = .ok (vmk fun _ => radius / Fintype.card ι + xtol) := by
  classical
  obtain ⟨bisect, hb, hleft⟩ := exists_bisect_left xtol hx0
  refine ⟨bisect, hb, ?_⟩
  have hcard : (0 : ℝ) < Fintype.card ι := by exact_mod_cast Fintype.card_pos
  set x : Vec ι := vmk fun _ => M with hx
  have hval : ∀ μ, hpbFun (vmk fun _ => 1) radius (fun _ => some 0) (fun _ => none) x μ
      = Fintype.card ι * max (M - μ) 0 - radius := by
    intro μ
    simp [hpbFun, PiLp.inner_apply, boxProj, boxClip, maxLower, minUpper, hx]
  set f := hpbFun (vmk fun _ => 1 : Vec ι) radius (fun _ => some 0) (fun _ => none) x with hf
  have hanti : Antitone f := hpbFun_antitone (vmk fun _ => 1) radius (fun _ => some 0) (fun _ => none) x
  have hcont : Continuous f := hpbFun_continuous _ radius _ _ x
  have h0 : f (M - radius / Fintype.card ι) = 0 := by
    rw [hval, sub_sub_cancel, max_eq_left (by positivity), mul_div_cancel₀ _ hcard.ne', sub_self]
  obtain ⟨N1, hN1⟩ := bracketLower_spec f hanti _ h0.ge
  obtain ⟨N2, hN2⟩ := bracketUpper_spec f hanti _ h0.le
  refine ⟨max N1 N2, fun fuel hfuel => ?_⟩
  obtain ⟨a, ha, ha1, ha2, -⟩ := hN1 fuel (le_trans (le_max_left _ _) hfuel)
  obtain ⟨b, hb', hb1, hb2, -⟩ := hN2 fuel (le_trans (le_max_right _ _) hfuel)
  obtain ⟨r, hr0, hbr⟩ := hleft f a b hcont (by linarith) ha2 hb2
  have hrM : M - r = radius / Fintype.card ι := by
    rw [hval] at hr0
    have hm : max (M - r) 0 = radius / Fintype.card ι := by
      rw [eq_div_iff hcard.ne']; linarith
    have hp : 0 < radius / Fintype.card ι := by positivity
    rcases le_total (M - r) 0 with h | h
    · rw [max_eq_right h] at hm; linarith
    · rwa [max_eq_left h] at hm
  rw [simplexProj, hyperPlaneBoxProj]
  simp only [← hf, ha, hb', bind, Except.bind, pure, Except.pure, hbr]
  congr 1
  ext i
  have hp : 0 < radius / Fintype.card ι := by positivity
  simp only [boxProj, boxClip, maxLower, minUpper, PiLp.sub_apply, PiLp.smul_apply, smul_eq_mul, mul_one, hx]
  rw [max_eq_left (by linarith)]
  linarith

/-- C110, refutation for `Simplex`: as soon as the number of entries times the tolerance of the search exceeds the
tolerance of the test (with both at their default `1e-8` that is from two entries on), there is a search meeting its
tolerance for which the returned point fails the test. -/
theorem C110_simplex_refuted [Nonempty ι] (radius xtol tol : ℝ) (hr : 0 < radius) (hx0 : 0 ≤ xtol)
    (htol : tol < Fintype.card ι * xtol) (τ : ℝ) (hτ : 0 < τ) (M : ℝ) :
    ∃ bisect, BisectTol bisect xtol ∧ ∃ N, ∀ fuel, N ≤ fuel → ∃ p,
      (Simplex bisect fuel radius tol true).prox (vmk fun _ => M : Vec ι) τ = .ok p ∧
      (Simplex bisect fuel radius tol true).call p = .ok (.bool false) := by
  obtain ⟨bisect, hb, N, h⟩ := simplexProj_left (ι := ι) xtol hx0 radius hr M
  refine ⟨bisect, hb, N, fun fuel hfuel => ⟨_, by simp only [ProxOp.prox, Simplex, checkTau_pos hτ, h fuel hfuel]; rfl, ?_⟩⟩
  have hcard : (0 : ℝ) < Fintype.card ι := by exact_mod_cast Fintype.card_pos
  simp only [Simplex, Bool.true_eq_false, if_false, Except.ok.injEq, CallVal.bool.injEq, decide_eq_false_iff_not, not_not]
  refine Or.inl (Or.inl ?_)
  simp only [Finset.sum_const, Finset.card_univ, nsmul_eq_mul]
  rw [mul_add, mul_div_cancel₀ _ hcard.ne']
  linarith

/-- C110, refutation for `L1Ball` (defaults `1e-4` for the test and `1e-5` for the search: from ten entries on). -/
theorem C110_l1ball_refuted [Nonempty ι] (radius xtol tol : ℝ) (hr : 0 < radius) (hx0 : 0 ≤ xtol)
    (htol : tol ≤ Fintype.card ι * xtol) (τ : ℝ) (hτ : 0 < τ) (M : ℝ) (hM : 0 < M) :
    ∃ bisect, BisectTol bisect xtol ∧ ∃ N, ∀ fuel, N ≤ fuel → ∃ p,
      (L1Ball bisect fuel radius tol).prox (vmk fun _ => M : Vec ι) τ = .ok p ∧
      (L1Ball bisect fuel radius tol).call p = .ok (.bool false) := by
  obtain ⟨bisect, hb, N, h⟩ := simplexProj_left (ι := ι) xtol hx0 radius hr M
  have hcard : (0 : ℝ) < Fintype.card ι := by exact_mod_cast Fintype.card_pos
  refine ⟨bisect, hb, N, fun fuel hfuel => ⟨vmk fun _ => radius / Fintype.card ι + xtol, ?_, ?_⟩⟩
  · simp only [ProxOp.prox, L1Ball, checkTau_pos hτ, l1BallProj, abs_of_pos hM, h fuel hfuel, bind, Except.bind, pure,
      Except.pure, npsign, if_pos hM, one_mul]
  · simp only [L1Ball, Except.ok.injEq, CallVal.bool.injEq, decide_eq_false_iff_not, not_lt]
    have hp : 0 < radius / Fintype.card ι := by positivity
    simp only [abs_of_nonneg (by linarith : 0 ≤ radius / Fintype.card ι + xtol), Finset.sum_const, Finset.card_univ,
      nsmul_eq_mul]
    rw [mul_add, mul_div_cancel₀ _ hcard.ne']
    linarith

/-- The default tolerances of `L1Ball` meet the hypotheses with ten entries, those of `Simplex` with two. -/
example : (1 / 10 ^ 4 : ℝ) ≤ Fintype.card (Fin 10) * (1 / 10 ^ 5) ∧ (1 / 10 ^ 8 : ℝ) < Fintype.card (Fin 2) * (1 / 10 ^ 8) := by
  norm_num

/-- C110: with the default `call=False` the simplex accepts nothing, not even what it returned. -/
theorem C110_simplex_call_off_refuted (bisect : (ℝ → ℝ) → ℝ → ℝ → ℝ) (fuel : ℕ) (radius tol : ℝ) (p : Vec ι) :
    (Simplex bisect fuel radius tol false).call p = .ok (.bool false) := rfl

/-- The two halves together: `ProximalPoint` on a half space returns a point that passes the half space's test. -/
example (w : E) (hw : w ≠ 0) (b : ℝ) : Lands (HalfSpace w b) {x | (HalfSpace w b).call x = .ok (.bool true)} :=
  (C110_halfspace w hw b).toLands

end Verif
