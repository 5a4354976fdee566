import Verif.Lemmas.TV
import Verif.Lemmas.Loop
import Verif.Props.Counters
import Verif.Props.StepGuard

/-! # C88: `TV` -/

open scoped RealInnerProductSpace

namespace Verif

variable {A : Type} [Fintype A] [DecidableEq A] {n : A → ℕ}

lemma tvMt_ge {w : A → Option ℝ} (h : ∃ a, 1 ≤ (w a).getD 1) : 1 ≤ tvMt w := by
  obtain ⟨a, ha⟩ := h
  exact ha.trans (le_ciSup (f := fun a => (w a).getD 1) (Set.finite_range _).bddAbove a)

lemma tvMt_le [Nonempty A] {w : A → Option ℝ} {ω : ℝ} (h : ∀ a, (w a).getD 1 ≤ ω) : tvMt w ≤ ω := ciSup_le h

/-- One pass that does not stop. -/
lemma tv_body_ok (hn : ∀ a, 2 ≤ n a) (hA : 0 < Fintype.card A) (x : Vec (Pixel n)) {σ γ rtol mt : ℝ} (hγ : γ ≠ 0) (hmt : mt ≠ 0) (i : ℕ) {s : TVState A n}
    (hs : s.nan = false)
    (hr : ¬ tvRel rtol (0.5 * ‖x - tvPrimal x γ s.r‖ ^ 2 + γ * (σ * totalVariation (tvPrimal x γ s.r))) s.obj < rtol) :
    ∃ s', TV.body x σ γ rtol mt i s = .ok (s', false) ∧ s'.nan = false ∧ s'.sol = tvPrimal x γ s.r
      ∧ s'.old = tvClip (s.r - (1 / (4 * Fintype.card A * γ * mt ^ 2)) • tvGradMap n s'.sol) ∧ s'.told = (1 + √(4 * s.told ^ 2)) / 2
      ∧ s'.r = s'.old + ((s.told - 1) / s'.told) • (s'.old - s.old)
      ∧ s'.obj = 0.5 * ‖x - tvPrimal x γ s.r‖ ^ 2 + γ * (σ * totalVariation (tvPrimal x γ s.r)) := by
  have hden : (4 * Fintype.card A * γ * mt ^ 2 : ℝ) ≠ 0 := by
    have : (Fintype.card A : ℝ) ≠ 0 := by exact_mod_cast hA.ne'
    positivity
  let p := tvClip (s.r - (1 / (4 * Fintype.card A * γ * mt ^ 2)) • tvGradMap n (tvPrimal x γ s.r))
  refine ⟨⟨tvPrimal x γ s.r, p + ((s.told - 1) / ((1 + √(4 * s.told ^ 2)) / 2)) • (p - s.old), p, (1 + √(4 * s.told ^ 2)) / 2, _, false⟩, ?_, rfl, rfl, rfl, rfl,
    rfl, rfl⟩
  simp only [TV.body, tvDiv_ok hn, hs, Bind.bind, Except.bind, Bool.false_eq_true, if_false]
  rw [show x - γ • tvDivMap n s.r = tvPrimal x γ s.r from rfl, tv_value σ _ hA]
  simp only
  rw [if_neg hr, if_neg fun h => hden h.1]
  simp only [hden, decide_false]
  rfl

/-- One pass that stops. -/
lemma tv_body_brk (hn : ∀ a, 2 ≤ n a) (hA : 0 < Fintype.card A) (x : Vec (Pixel n)) {σ γ rtol mt : ℝ} (i : ℕ) {s : TVState A n}
    (hs : s.nan = false)
    (hr : tvRel rtol (0.5 * ‖x - tvPrimal x γ s.r‖ ^ 2 + γ * (σ * totalVariation (tvPrimal x γ s.r))) s.obj < rtol) :
    ∃ s', TV.body x σ γ rtol mt i s = .ok (s', true) ∧ s'.sol = tvPrimal x γ s.r := by
  refine ⟨⟨tvPrimal x γ s.r, s.r, s.old, s.told, 0.5 * ‖x - tvPrimal x γ s.r‖ ^ 2 + γ * (σ * totalVariation (tvPrimal x γ s.r)), false⟩, ?_, rfl⟩
  simp only [TV.body, tvDiv_ok hn, hs, Bind.bind, Except.bind, Bool.false_eq_true, if_false]
  rw [show x - γ • tvDivMap n s.r = tvPrimal x γ s.r from rfl, tv_value σ _ hA]
  simp only
  rw [if_pos hr]
  rfl

lemma tvRel_zero (obj prev : ℝ) : ¬ tvRel 0 obj prev < 0 := by
  unfold tvRel
  split_ifs with h
  · rw [not_lt]; apply div_nonneg (abs_nonneg _); linarith
  · simp

lemma tv_convex (x : Vec (Pixel n)) (γ : ℝ) : ConvexOn ℝ Set.univ fun r : Vec (A × Pixel n) => ‖tvPrimal x γ r‖ ^ 2 / 2 := by
  refine ⟨convex_univ, fun r _ s _ α β hα hβ hαβ => ?_⟩
  have e : tvPrimal x γ (α • r + β • s) = α • tvPrimal x γ r + β • tvPrimal x γ s := by
    obtain rfl : β = 1 - α := by linarith
    simp only [tvPrimal, map_add, map_smul]
    module
  have h : ‖tvPrimal x γ (α • r + β • s)‖ ≤ α * ‖tvPrimal x γ r‖ + β * ‖tvPrimal x γ s‖ := by
    rw [e]
    refine (norm_add_le _ _).trans ?_
    rw [norm_smul, norm_smul, Real.norm_of_nonneg hα, Real.norm_of_nonneg hβ]
  have h2 := pow_le_pow_left₀ (norm_nonneg _) h 2
  simp only [smul_eq_mul]
  obtain rfl : β = 1 - α := by linarith
  nlinarith [mul_nonneg (mul_nonneg hα hβ) (sq_nonneg (‖tvPrimal x γ r‖ - ‖tvPrimal x γ s‖))]

lemma tv_lipschitz (hn : ∀ a, 2 ≤ n a) (x : Vec (Pixel n)) (γ : ℝ) (r s : Vec (A × Pixel n)) :
    ‖γ • tvGradMap n (tvPrimal x γ r) - γ • tvGradMap n (tvPrimal x γ s)‖ ≤ (4 * Fintype.card A * γ ^ 2) * ‖r - s‖ := by
  have e : γ • tvGradMap n (tvPrimal x γ r) - γ • tvGradMap n (tvPrimal x γ s) = -(γ ^ 2) • tvGradMap n (tvDivMap n (r - s)) := by
    simp only [tvPrimal, map_sub, map_smul]; module
  rw [e, norm_smul, norm_neg, Real.norm_of_nonneg (sq_nonneg γ)]
  have h1 := tvGrad_norm_sq (tvDivMap n (r - s))
  have h2 := tvDiv_norm_sq hn (r - s)
  have h3 : ‖tvGradMap n (tvDivMap n (r - s))‖ ≤ 4 * Fintype.card A * ‖r - s‖ := by
    refine (pow_le_pow_iff_left₀ (by positivity) (by positivity) two_ne_zero).1 ?_
    calc _ ≤ 4 * Fintype.card A * ‖tvDivMap n (r - s)‖ ^ 2 := h1
      _ ≤ 4 * Fintype.card A * (4 * Fintype.card A * ‖r - s‖ ^ 2) := by gcongr
      _ = _ := by ring
  calc _ ≤ γ ^ 2 * (4 * Fintype.card A * ‖r - s‖) := by gcongr
    _ = _ := by ring

/-- The run with `rtol = 0`. -/
lemma tv_run (hn : ∀ a, 2 ≤ n a) (hA : 0 < Fintype.card A) (x : Vec (Pixel n)) {σ γ mt : ℝ} (hγ : γ ≠ 0) (hmt : mt ≠ 0) :
    ∃ T : ℕ → TVState A n, T 0 = ⟨x, 0, 0, 1, 0, false⟩ ∧
      (∀ k, forRange (TV.body x σ γ 0 mt) k 0 ⟨x, 0, 0, 1, 0, false⟩ = .ok (T k)) ∧ ∀ k,
      (T (k + 1)).sol = tvPrimal x γ (T k).r ∧
      (T (k + 1)).old = tvClip ((T k).r - (1 / (4 * Fintype.card A * γ * mt ^ 2)) • tvGradMap n (tvPrimal x γ (T k).r)) ∧
      (T k).told = 1 + (k : ℝ) / 2 ∧
      (T (k + 1)).r = (T (k + 1)).old + (((T k).told - 1) / (T (k + 1)).told) • ((T (k + 1)).old - (T k).old) := by
  obtain ⟨T, h0, _, h2, h3⟩ := forRange_traj_nobreak (TV.body x σ γ 0 mt) (fun s => s.nan = false)
    (fun _ s s' => s'.sol = tvPrimal x γ s.r
      ∧ s'.old = tvClip (s.r - (1 / (4 * Fintype.card A * γ * mt ^ 2)) • tvGradMap n s'.sol) ∧ s'.told = (1 + √(4 * s.told ^ 2)) / 2
      ∧ s'.r = s'.old + ((s.told - 1) / s'.told) • (s'.old - s.old))
    (fun i s hs => by
      obtain ⟨s', e1, e2, e3, e4, e5, e6, -⟩ := tv_body_ok hn hA x hγ hmt i hs (tvRel_zero _ _)
      exact ⟨s', e1, e2, e3, e4, e5, e6⟩) ⟨x, 0, 0, 1, 0, false⟩ rfl
  refine ⟨T, h0, h3, fun k => ?_⟩
  obtain ⟨e1, e2, -, e4⟩ := h2 k
  rw [e1] at e2
  refine ⟨e1, e2, ?_, e4⟩
  clear e1 e2 e4
  induction k with
  | zero => rw [h0]; simp
  | succ k ih =>
    rw [(h2 k).2.2.1, ih, show (4 : ℝ) * (1 + (k : ℝ) / 2) ^ 2 = (2 * (1 + (k : ℝ) / 2)) ^ 2 by ring, Real.sqrt_sq (by positivity)]
    push_cast
    ring

/-- Distance of the primal points to the proximal point along the run. -/
lemma tv_rate (hn : ∀ a, 2 ≤ n a) (hA : 0 < Fintype.card A) (x : Vec (Pixel n)) {σ τ mt : ℝ} (hσ : 0 < σ) (hτ : 0 < τ) (hmt : 1 ≤ mt) :
    ∃ u, IsUniqueProx (XFun.ofReal fun y => σ * totalVariation y) τ x u ∧ ∀ T : ℕ → TVState A n, T 0 = ⟨x, 0, 0, 1, 0, false⟩ → (∀ k,
      (T (k + 1)).sol = tvPrimal x (σ * τ) (T k).r ∧
      (T (k + 1)).old = tvClip ((T k).r - (1 / (4 * Fintype.card A * (σ * τ) * mt ^ 2)) • tvGradMap n (tvPrimal x (σ * τ) (T k).r)) ∧
      (T k).told = 1 + (k : ℝ) / 2 ∧
      (T (k + 1)).r = (T (k + 1)).old + (((T k).told - 1) / (T (k + 1)).told) • ((T (k + 1)).old - (T k).old)) →
      ∀ k, ‖(T (k + 2)).sol - u‖ ≤ 12 * (σ * τ) * mt * √(Fintype.card A * Fintype.card (Pixel n)) / (k + 1) := by
  obtain ⟨c, hc, hmin, hquad, hprox⟩ := tv_dual_solution hn x hσ hτ
  have hγ : 0 < σ * τ := mul_pos hσ hτ
  set γ := σ * τ with hγd
  clear_value γ
  refine ⟨_, hprox, fun T h0 hT => ?_⟩
  set N : ℝ := (Fintype.card A : ℝ) with hN
  set P : ℝ := (Fintype.card (Pixel n) : ℝ) with hP
  have hN0 : 0 < N := by rw [hN]; exact_mod_cast hA
  have hP0 : 0 ≤ P := by rw [hP]; positivity
  have hmt0 : 0 < mt := by linarith
  set θ : ℝ := 1 / (4 * N * γ ^ 2 * mt ^ 2) with hθ
  have hθ0 : 0 < θ := by rw [hθ]; positivity
  have hstep : ∀ k, (T k).r - (1 / (4 * N * γ * mt ^ 2)) • tvGradMap n (tvPrimal x γ (T k).r)
      = (T k).r - θ • (γ • tvGradMap n (tvPrimal x γ (T k).r)) := fun k => by
    rw [smul_smul]; congr 2; rw [hθ]; field_simp
  have hr := fista_rate (tv_convex x γ) (indicator_convex (tvBall_convex (n := n))) (tv_isGrad hn x γ) (X := fun k => (T k).old) (Y := fun k => (T k).r)
    (s := fun k => (T k).told) (θ := fun _ => θ) (fun _ => hθ0) (fun _ => le_rfl) (by rw [h0])
    (fun k => by
      rw [isProj_iff_isProx hθ0]
      have := tvClip_proj ((T k).r - θ • (γ • tvGradMap n (tvPrimal x γ (T k).r)))
      rw [← hstep, ← (hT k).2.1, hstep] at this
      exact this)
    (fun k => suff_of_lipschitz (tv_isGrad hn x γ) (tv_lipschitz hn x γ) hθ0 (by
      rw [hθ, one_div, inv_mul_le_iff₀ (by positivity)]
      have : 1 ≤ mt ^ 2 := by nlinarith
      have h2 : 0 ≤ 4 * N * γ ^ 2 := by positivity
      nlinarith) _ _)
    (by rw [h0]) (fun k => by rw [(hT k).2.2.1]; have : (0 : ℝ) ≤ k := Nat.cast_nonneg k; linarith)
    (fun k => by
      rw [(hT k).2.2.1, (hT (k + 1)).2.2.1]; push_cast
      have : (0 : ℝ) ≤ k := Nat.cast_nonneg k
      nlinarith)
    (fun k => (hT k).2.2.2) (c := c) ⟨⟨trivial, hc⟩, fun y hy => by
      simp only [XFun.add, XFun.ofReal, XFun.indicator, add_zero]
      exact hmin y hy.2⟩
  have hmem : ∀ k, (T k).old ∈ tvBall n := fun k => by
    cases k with
    | zero => rw [h0, mem_tvBall]; simp
    | succ k => rw [(hT k).2.1]; exact (tvClip_proj _).1
  set K : ℝ := 2 * γ * mt * √(N * P) with hK
  have hK0 : 0 ≤ K := by rw [hK]; positivity
  have hK2 : θ * K ^ 2 = P := by
    rw [hK, mul_pow, Real.sq_sqrt (by positivity), hθ]; field_simp
    ring
  -- the projected points
  have hX : ∀ k : ℕ, ‖tvPrimal x γ (T (k + 1)).old - tvPrimal x γ c‖ ≤ 2 * K / (k + 2) := fun k => by
    have h1 := hr k
    simp only [XFun.indicator, add_zero, h0, zero_sub, norm_neg] at h1
    have h2 := hquad _ (hmem (k + 1))
    have h3 := tvBall_norm hc
    rw [(hT k).2.2.1] at h1
    have h4 : θ * (1 + (k : ℝ) / 2) ^ 2 * ‖tvPrimal x γ (T (k + 1)).old - tvPrimal x γ c‖ ^ 2 ≤ P := by
      have hpos : 0 ≤ θ * (1 + (k : ℝ) / 2) ^ 2 := by positivity
      have h5 := mul_le_mul_of_nonneg_left h2 hpos
      have h6 : 0 ≤ ‖(1 + (k : ℝ) / 2) • (T (k + 1)).old - (1 + (k : ℝ) / 2 - 1) • (T k).old - c‖ ^ 2 := by positivity
      nlinarith
    rw [le_div_iff₀ (by positivity)]
    refine (pow_le_pow_iff_left₀ (by positivity) (by positivity) two_ne_zero).1 ?_
    rw [← hK2] at h4
    have h7 : θ * (‖tvPrimal x γ (T (k + 1)).old - tvPrimal x γ c‖ * (k + 2)) ^ 2 ≤ θ * (2 * K) ^ 2 := by nlinarith
    exact le_of_mul_le_mul_left h7 hθ0
  intro k
  rw [(hT (k + 1)).1, (hT k).2.2.2, (hT k).2.2.1, (hT (k + 1)).2.2.1]
  push_cast
  set β : ℝ := (1 + (k : ℝ) / 2 - 1) / (1 + ((k : ℝ) + 1) / 2) with hβ
  have hβ0 : 0 ≤ β := by rw [hβ]; apply div_nonneg <;> [(ring_nf; positivity); positivity]
  have hβ1 : β ≤ 1 := by rw [hβ, div_le_one (by positivity)]; linarith
  have e : tvPrimal x γ ((T (k + 1)).old + β • ((T (k + 1)).old - (T k).old)) - tvPrimal x γ c
      = (1 + β) • (tvPrimal x γ (T (k + 1)).old - tvPrimal x γ c) - β • (tvPrimal x γ (T k).old - tvPrimal x γ c) := by
    simp only [tvPrimal, map_add, map_smul, map_sub]
    module
  rw [e]
  have hk1 : ‖tvPrimal x γ (T (k + 1)).old - tvPrimal x γ c‖ ≤ 2 * K / (k + 1) :=
    (hX k).trans (by gcongr; norm_num)
  have hk0 : β * ‖tvPrimal x γ (T k).old - tvPrimal x γ c‖ ≤ β * (2 * K / (k + 1)) := by
    cases k with
    | zero => rw [hβ]; simp
    | succ j =>
      refine mul_le_mul_of_nonneg_left ((hX j).trans (le_of_eq ?_)) hβ0
      push_cast; ring
  calc _ ≤ ‖(1 + β) • (tvPrimal x γ (T (k + 1)).old - tvPrimal x γ c)‖ + ‖β • (tvPrimal x γ (T k).old - tvPrimal x γ c)‖ := norm_sub_le _ _
    _ = (1 + β) * ‖tvPrimal x γ (T (k + 1)).old - tvPrimal x γ c‖ + β * ‖tvPrimal x γ (T k).old - tvPrimal x γ c‖ := by
      rw [norm_smul, norm_smul, Real.norm_of_nonneg hβ0, Real.norm_of_nonneg (by linarith)]
    _ ≤ (1 + β) * (2 * K / (k + 1)) + β * (2 * K / (k + 1)) := by gcongr
    _ = (1 + 2 * β) * (2 * K / (k + 1)) := by ring
    _ ≤ 3 * (2 * K / (k + 1)) := by gcongr; linarith
    _ = _ := by rw [hK]; ring

/-! ## Property theorems -/

lemma tv_prox_eq (σ rtol : ℝ) (w : A → Option ℝ) (niter : ℤ) (x : Vec (Pixel n)) {τ : ℝ} (hτ : 0 < τ) (hA : 0 < Fintype.card A) (hA4 : Fintype.card A ≤ 4) :
    (TV σ rtol w niter).prox x τ
      = (forRange (TV.body x σ (σ * τ) rtol (tvMt w)) (niter + 1).toNat 0 ⟨x, 0, 0, 1, 0, false⟩).map fun s => s.sol := by
  have : ¬ (Fintype.card A = 0 ∨ 4 < Fintype.card A) := by omega
  simp only [TV, ProxOp.prox, checkTau, tvProx, if_neg (not_le.2 hτ), this, if_false]
  cases forRange (TV.body x σ (σ * τ) rtol (tvMt w)) (niter + 1).toNat 0 ⟨x, 0, 0, 1, 0, false⟩ <;> rfl

/-- C88: evaluating `TV` returns `sigma` times the isotropic total variation, for every number of axes. -/
theorem C88_value (σ rtol : ℝ) (w : A → Option ℝ) (niter : ℤ) (x : Vec (Pixel n)) (hA : 0 < Fintype.card A) :
    (TV σ rtol w niter).call x = .ok (.num (σ * totalVariation x)) := by
  simp only [TV, tv_value σ x hA]
  rfl

/-- C88: with `rtol=0`, one to four axes of length at least 2 and weights whose largest is at least one and at most `ω` (in particular without weights), `prox` returns for every
`niter ≥ 1` a point at distance at most `12 sigma tau ω √(number of axes · number of pixels) / niter` of the proximal point. -/
theorem C88_prox_rate_partial (hn : ∀ a, 2 ≤ n a) (hA : 0 < Fintype.card A) (hA4 : Fintype.card A ≤ 4) {σ τ ω : ℝ} (hσ : 0 < σ) (hτ : 0 < τ) {w : A → Option ℝ}
    (hw : ∃ a, 1 ≤ (w a).getD 1) (hω : ∀ a, (w a).getD 1 ≤ ω) (x : Vec (Pixel n)) :
    ∃ u, IsUniqueProx (XFun.ofReal fun y => σ * totalVariation y) τ x u ∧ ∀ niter : ℕ, 1 ≤ niter → ∃ z, (TV σ 0 w niter).prox x τ = .ok z ∧
      ‖z - u‖ ≤ 12 * σ * τ * ω * √(Fintype.card A * Fintype.card (Pixel n)) / niter := by
  have : Nonempty A := Fintype.card_pos_iff.1 hA
  have hmt := tvMt_ge hw
  obtain ⟨u, hu, h⟩ := tv_rate hn hA x hσ hτ hmt
  refine ⟨u, hu, fun niter h1 => ?_⟩
  obtain ⟨T, t0, t1, t2⟩ := tv_run (σ := σ) hn hA x (mul_pos hσ hτ).ne' (show tvMt w ≠ 0 by linarith)
  obtain ⟨k, rfl⟩ : ∃ k, niter = k + 1 := ⟨niter - 1, by omega⟩
  refine ⟨(T (k + 2)).sol, ?_, (h T t0 t2 k).trans ?_⟩
  · rw [tv_prox_eq σ 0 w _ x hτ hA hA4, show (((k + 1 : ℕ) : ℤ) + 1).toNat = k + 2 by omega, t1]
    rfl
  · push_cast
    have := tvMt_le hω
    rw [mul_assoc 12 σ τ]
    gcongr

/-- C88: with `rtol=0` the result tends to the proximal point as `niter` grows. -/
theorem C88_prox_converges_partial (hn : ∀ a, 2 ≤ n a) (hA : 0 < Fintype.card A) (hA4 : Fintype.card A ≤ 4) {σ τ : ℝ} (hσ : 0 < σ) (hτ : 0 < τ) {w : A → Option ℝ}
    (hw : ∃ a, 1 ≤ (w a).getD 1) (x : Vec (Pixel n)) :
    ∃ u z, IsUniqueProx (XFun.ofReal fun y => σ * totalVariation y) τ x u ∧ (∀ niter : ℕ, (TV σ 0 w niter).prox x τ = .ok (z niter)) ∧
      Filter.Tendsto z Filter.atTop (nhds u) := by
  have : Nonempty A := Fintype.card_pos_iff.1 hA
  have hmt := tvMt_ge hw
  obtain ⟨u, hu, h⟩ := tv_rate hn hA x hσ hτ hmt
  obtain ⟨T, t0, t1, t2⟩ := tv_run (σ := σ) hn hA x (mul_pos hσ hτ).ne' (show tvMt w ≠ 0 by linarith)
  refine ⟨u, fun k => (T (k + 1)).sol, hu, fun k => ?_, ?_⟩
  · rw [tv_prox_eq σ 0 w _ x hτ hA hA4, show ((k : ℤ) + 1).toNat = k + 1 by omega, t1]
    rfl
  · rw [← Filter.tendsto_add_atTop_iff_nat 1]
    rw [tendsto_iff_norm_sub_tendsto_zero]
    refine squeeze_zero (fun _ => norm_nonneg _) (fun k => h T t0 t2 k) ?_
    refine ((tendsto_const_div_atTop_nhds_zero_nat (12 * (σ * τ) * tvMt w * √(Fintype.card A * Fintype.card (Pixel n)))).comp
      (Filter.tendsto_add_atTop_nat 1)).congr fun k => ?_
    simp only [Function.comp, Nat.cast_add, Nat.cast_one]

/-- With `niter=0` (or negative) the input itself is returned. -/
theorem C88_niter_zero (hn : ∀ a, 2 ≤ n a) (hA : 0 < Fintype.card A) (hA4 : Fintype.card A ≤ 4) {σ τ : ℝ} (hσ : 0 < σ) (hτ : 0 < τ) {w : A → Option ℝ}
    (hw : ∃ a, 1 ≤ (w a).getD 1) (x : Vec (Pixel n)) {niter : ℤ} (h : niter ≤ 0) (rtol : ℝ) : (TV σ rtol w niter).prox x τ = .ok x := by
  rw [tv_prox_eq σ rtol w niter x hτ hA hA4]
  rcases lt_or_eq_of_le h with h | rfl
  · rw [show (niter + 1).toNat = 0 by omega]; rfl
  · rw [show ((0 : ℤ) + 1).toNat = 0 + 1 by omega]
    simp only [forRange]
    have hp : tvPrimal x (σ * τ) 0 = x := by simp [tvPrimal]
    by_cases hr : tvRel rtol (0.5 * ‖x - tvPrimal x (σ * τ) 0‖ ^ 2 + (σ * τ) * (σ * totalVariation (tvPrimal x (σ * τ) 0))) 0 < rtol
    · obtain ⟨s', e1, e2⟩ := tv_body_brk hn hA x (mt := tvMt w) 0 (s := ⟨x, 0, 0, 1, 0, false⟩) rfl hr
      rw [e1]
      simp only [if_true, Except.map, e2, hp]
    · have hmt := tvMt_ge hw
      obtain ⟨s', e1, -, e3, -⟩ := tv_body_ok hn hA x (mul_pos hσ hτ).ne' (show tvMt w ≠ 0 by linarith) 0 (s := ⟨x, 0, 0, 1, 0, false⟩) rfl hr
      rw [e1]
      simp only [Bool.false_eq_true, if_false, Except.map, e3, hp]

lemma tv_body_tol (x : Vec (Pixel n)) {σ γ rtol rtol' mt : ℝ} (i j : ℕ) {s s1 s2 : TVState A n} (h1 : TV.body x σ γ rtol mt i s = .ok (s1, false))
    (h2 : TV.body x σ γ rtol' mt j s = .ok (s2, false)) : s1 = s2 := by
  simp only [TV.body, Bind.bind, Except.bind] at h1 h2
  cases hd : tvDiv s.r with
  | error e => rw [hd] at h1; cases h1
  | ok d =>
    rw [hd] at h1 h2
    simp only at h1 h2
    by_cases g1 : s.nan = true
    · rw [if_pos g1] at h1; cases h1
    rw [if_neg g1] at h1 h2
    cases hv : tvCall σ (x - γ • d) with
    | error e => rw [hv] at h1; cases h1
    | ok v =>
      rw [hv] at h1 h2
      simp only at h1 h2
      split_ifs at h1 h2 <;> cases h1 <;> cases h2 <;> rfl

/-- C88: the tolerance can only shorten the run: whatever `rtol`, the result is that of `rtol=0` with some number of iterations that is not larger. -/
theorem C88_rtol_truncates_partial (hn : ∀ a, 2 ≤ n a) (hA : 0 < Fintype.card A) (hA4 : Fintype.card A ≤ 4) {σ τ : ℝ} (hσ : 0 < σ) (hτ : 0 < τ) {w : A → Option ℝ}
    (hw : ∃ a, 1 ≤ (w a).getD 1) (x : Vec (Pixel n)) (niter : ℤ) (rtol : ℝ) :
    ∃ k ≤ niter, (TV σ rtol w niter).prox x τ = (TV σ 0 w k).prox x τ := by
  have hmt : tvMt w ≠ 0 := by have := tvMt_ge hw; linarith
  have hγ := (mul_pos hσ hτ).ne'
  have key : ∀ (m i j : ℕ) (s : TVState A n), s.nan = false → ∃ k ≤ m, (m = 0 ↔ k = 0) ∧
      (forRange (TV.body x σ (σ * τ) rtol (tvMt w)) m i s).map (fun s => s.sol) = (forRange (TV.body x σ (σ * τ) 0 (tvMt w)) k j s).map fun s => s.sol := by
    intro m
    induction m with
    | zero => intro i j s _; exact ⟨0, le_rfl, by simp, rfl⟩
    | succ m ih =>
      intro i j s hs
      obtain ⟨s0, a1, a2, a3, -⟩ := tv_body_ok (σ := σ) hn hA x hγ hmt j hs (tvRel_zero _ _)
      by_cases hr : tvRel rtol (0.5 * ‖x - tvPrimal x (σ * τ) s.r‖ ^ 2 + (σ * τ) * (σ * totalVariation (tvPrimal x (σ * τ) s.r))) s.obj < rtol
      · obtain ⟨s1, b1, b2⟩ := tv_body_brk hn hA x (mt := tvMt w) i hs hr
        refine ⟨1, by omega, by omega, ?_⟩
        simp only [forRange, a1, b1, if_true, Bool.false_eq_true, if_false, Except.map, a3, b2]
      · obtain ⟨s1, b1, b2, -⟩ := tv_body_ok hn hA x hγ hmt i hs hr
        obtain rfl := tv_body_tol x i j b1 a1
        obtain ⟨k, hk, _, he⟩ := ih (i + 1) (j + 1) s1 b2
        refine ⟨k + 1, by omega, by omega, ?_⟩
        simp only [forRange, a1, b1, Bool.false_eq_true, if_false]
        exact he
  obtain ⟨k, hk, hk0, he⟩ := key (niter + 1).toNat 0 0 ⟨x, 0, 0, 1, 0, false⟩ rfl
  refine ⟨(k : ℤ) - 1 + min 0 (niter + 1), by omega, ?_⟩
  rw [tv_prox_eq σ rtol w niter x hτ hA hA4, tv_prox_eq σ 0 w _ x hτ hA hA4, he]
  congr 2
  omega

/-- C35 for `TV` with a function `niter`: in any sequence of method calls on one object, every answer is the one of `TV` with the constant `niter(k)`, `k` being the number of executions
of `prox` so far, this one included. -/
theorem C35_tv (σ rtol : ℝ) (w : A → Option ℝ) (niter : ℕ → ℤ) (l : List (OpCall (Vec (Pixel n)))) (j : ℕ) (a : OpCall (Vec (Pixel n))) (h : l[j]? = some a) :
    ((TVc σ rtol w niter).history 0 l)[j]? = some ((TV σ rtol w (niter ((l.take (j + 1)).countP OpCall.usesProx))).answer a) := by
  have := counted_history (C := TVc σ rtol w niter) (op := fun k => (TV σ rtol w (niter k) : ProxOp (Vec (Pixel n)))) ⟨fun _ _ _ => rfl, fun _ _ => rfl, fun _ _ _ => rfl, fun _ _ => rfl⟩ rfl
    l 0 j a h
  rwa [zero_add] at this

/-! ## Where the documented behaviour fails -/

/-- C88: with five or more axes `prox` raises for every argument, although the operator can be evaluated. -/
theorem C88_five_axes_refuted (hA : 5 ≤ Fintype.card A) (σ rtol : ℝ) (w : A → Option ℝ) (niter : ℤ) (x : Vec (Pixel n)) {τ : ℝ} (hτ : 0 < τ) :
    (TV σ rtol w niter).prox x τ = .error .unboundLocalError ∧ (TV σ rtol w niter).call x = .ok (.num (σ * totalVariation x)) := by
  refine ⟨?_, C88_value σ rtol w niter x (by omega)⟩
  have : Fintype.card A = 0 ∨ 4 < Fintype.card A := by omega
  simp only [TV, ProxOp.prox, checkTau, tvProx, if_neg (not_le.2 hτ), this, if_true]

/-- C88: with an axis of length one `prox` raises for every argument. -/
theorem C88_short_axis_refuted {a : A} (ha : n a = 1) (hA4 : Fintype.card A ≤ 4) (σ rtol : ℝ) (w : A → Option ℝ) {niter : ℤ} (hniter : 0 ≤ niter)
    (x : Vec (Pixel n)) {τ : ℝ} (hτ : 0 < τ) :
    (TV σ rtol w niter).prox x τ = .error .indexError ∧ (TV σ rtol w niter).call x = .ok (.num (σ * totalVariation x)) := by
  have hA : 0 < Fintype.card A := Fintype.card_pos_iff.2 ⟨a⟩
  refine ⟨?_, C88_value σ rtol w niter x hA⟩
  rw [tv_prox_eq σ rtol w niter x hτ hA hA4]
  obtain ⟨m, hm⟩ : ∃ m, (niter + 1).toNat = m + 1 := ⟨niter.toNat, by omega⟩
  have : ¬ ∀ a, 2 ≤ n a := fun h => by have := h a; omega
  simp only [hm, forRange, TV.body, tvDiv, if_neg this, Bind.bind, Except.bind, Except.map]

/-- C88: with `sigma=0`, where the proximal point is the argument, `prox` raises for every signal with one axis, and returns NaN for every array with two to four axes
(`niter ≥ 1`). -/
theorem C88_sigma_zero_refuted (hn : ∀ a, 2 ≤ n a) (hA : 0 < Fintype.card A) (hA4 : Fintype.card A ≤ 4) {rtol : ℝ} (hrt : 0 ≤ rtol) (w : A → Option ℝ) {niter : ℤ}
    (hniter : 1 ≤ niter) (x : Vec (Pixel n)) {τ : ℝ} (hτ : 0 < τ) :
    IsUniqueProx (XFun.ofReal fun y => 0 * totalVariation y) τ x x ∧
      (TV 0 rtol w niter).prox x τ = .error (if Fintype.card A = 1 then .zeroDivisionError else .nanResult) := by
  constructor
  · apply isUniqueProx_of_subgrad hτ
    refine ⟨trivial, fun y _ => ?_⟩
    simp [XFun.ofReal]
  · rw [tv_prox_eq 0 rtol w niter x hτ hA hA4]
    obtain ⟨m, hm⟩ : ∃ m, (niter + 1).toNat = m + 2 := ⟨(niter - 1).toNat, by omega⟩
    have hr : ¬ tvRel rtol 0 0 < rtol := by
      unfold tvRel
      rw [if_neg (by norm_num)]
      linarith
    by_cases h1 : Fintype.card A = 1
    · simp [hm, forRange, TV.body, tvDiv_ok hn, Bind.bind, Except.bind, Except.map, tv_value _ _ hA, hr, h1]
    · simp [hm, forRange, TV.body, tvDiv_ok hn, Bind.bind, Except.bind, Except.map, tv_value _ _ hA, hr, h1, Pure.pure, Except.pure]

/-- C88: `TV(None)`, documented for signals with one dimension, fails for every signal that is not empty. -/
theorem C88_dims_none_refuted {m : ℕ} (hm : 0 < m) (σ rtol : ℝ) (w : Unit → Option ℝ) (niter : ℤ) (x : Vec (Fin m)) {τ : ℝ} (hτ : 0 < τ) :
    (TVNone σ rtol w niter).call x = .error .valueError ∧ (TVNone σ rtol w niter).prox x τ = .error .valueError := by
  have : ¬ (0 = m) := by omega
  simp [TVNone, ProxOp.prox, checkTau, tvReshape, not_le.2 hτ, this, Bind.bind, Except.bind]

/-- C88: with `rtol > 1` nothing is done, however large `niter`, unless the objective is tiny. -/
theorem C88_rtol_large_refuted (hn : ∀ a, 2 ≤ n a) (hA : 0 < Fintype.card A) (hA4 : Fintype.card A ≤ 4) {σ τ rtol : ℝ} (hτ : 0 < τ) (hrt : 1 < rtol)
    (w : A → Option ℝ) (niter : ℤ) (x : Vec (Pixel n)) (hx : 1e-10 < σ ^ 2 * τ * totalVariation x) : (TV σ rtol w niter).prox x τ = .ok x := by
  rw [tv_prox_eq σ rtol w niter x hτ hA hA4]
  rcases lt_or_ge niter 0 with h | h
  · rw [show (niter + 1).toNat = 0 by omega]; rfl
  · obtain ⟨m, hm⟩ : ∃ m, (niter + 1).toNat = m + 1 := ⟨niter.toNat, by omega⟩
    have hp : tvPrimal x (σ * τ) 0 = x := by simp [tvPrimal]
    obtain ⟨s', e1, e2⟩ := tv_body_brk (σ := σ) (γ := σ * τ) (rtol := rtol) hn hA x (mt := tvMt w) 0 (s := ⟨x, 0, 0, 1, 0, false⟩) rfl (by
      simp only [hp, sub_self, norm_zero]
      have e : 0.5 * (0 : ℝ) ^ 2 + σ * τ * (σ * totalVariation x) = σ ^ 2 * τ * totalVariation x := by ring
      have h0 : 0 < σ ^ 2 * τ * totalVariation x := lt_trans (by norm_num) hx
      rw [e, tvRel, if_pos hx, sub_zero, abs_of_pos h0, div_self h0.ne']
      exact hrt)
    rw [hm]
    simp only [forRange, e1, if_true, Except.map, e2, hp]

section
/-- Three pixels on a line. -/
abbrev Line3 := Pixel fun _ : Unit => 3

lemma line3_sum (f : Line3 → ℝ) : ∑ p, f p = f (fun _ => 0) + f (fun _ => 1) + f (fun _ => 2) := by
  rw [Fintype.sum_equiv (Equiv.funUnique Unit (Fin 3)) f (fun k => f fun _ => k) fun p => by
    congr 1]
  exact Fin.sum_univ_three _

lemma line3_grad (x : Vec Line3) : tvGrad x ((), fun _ => 0) = x (fun _ => 1) - x (fun _ => 0) ∧ tvGrad x ((), fun _ => 1) = x (fun _ => 2) - x (fun _ => 1)
    ∧ tvGrad x ((), fun _ => 2) = 0 := by
  have h : ∀ k l : Fin 3, Function.update (fun _ : Unit => k) () l = fun _ => l := fun k l => by funext b; simp
  refine ⟨?_, ?_, ?_⟩
  · simp [tvGrad, fwdDiff, h]
  · simp [tvGrad, fwdDiff, h]
  · simp [tvGrad, fwdDiff]

lemma line3_tv (x : Vec Line3) : totalVariation x = |x (fun _ => 1) - x (fun _ => 0)| + |x (fun _ => 2) - x (fun _ => 1)| := by
  obtain ⟨h0, h1, h2⟩ := line3_grad x
  rw [tv_eq, line3_sum]
  simp [h0, h1, h2, Real.sqrt_sq_eq_abs]

lemma line3_div (r : Vec (Unit × Line3)) : (tvDivMap _ r) (fun _ => 0) = r ((), fun _ => 0) ∧
    (tvDivMap _ r) (fun _ => 1) = r ((), fun _ => 1) - r ((), fun _ => 0) ∧ (tvDivMap _ r) (fun _ => 2) = - r ((), fun _ => 1) := by
  have h : ∀ k l : Fin 3, Function.update (fun _ : Unit => k) () l = fun _ => l := fun k l => by funext b; simp
  refine ⟨?_, ?_, ?_⟩
  · simp [tvDivMap, tvDivAxis]
  · simp [tvDivMap, tvDivAxis, h]
  · simp [tvDivMap, tvDivAxis, h]

lemma line3_clip (r : Vec (Unit × Line3)) (p : Line3) : tvClip r ((), p) = r ((), p) / max 1 |r ((), p)| := by
  simp [tvClip, Real.sqrt_sq_eq_abs]

/-- A signal with three samples. -/
noncomputable def line3 (a b c : ℝ) : Vec Line3 := vmk fun p => ![a, b, c] (p ())

/-- C88: whatever `rtol` in `(0, 1]` and whatever `tau`, there is a signal with three samples for which every `niter ≥ 1` gives the same result, at distance at least `tau / 3` of the
proximal point: increasing `niter` does not help. -/
theorem C88_rtol_refuted {rtol τ : ℝ} (h0 : 0 < rtol) (h1 : rtol ≤ 1) (hτ : 0 < τ) :
    ∃ x u z : Vec Line3, IsUniqueProx (XFun.ofReal fun y => 1 * totalVariation y) τ x u ∧
      (∀ niter : ℤ, 1 ≤ niter → (TV 1 rtol (fun _ => none) niter).prox x τ = .ok z) ∧ τ / 3 ≤ ‖z - u‖ := by
  set M : ℝ := 4 + 1 / rtol + 1 / τ ^ 2 with hM
  have hM4 : 4 ≤ M := by rw [hM]; have : 0 < 1 / rtol := by positivity
                         have : 0 < 1 / τ ^ 2 := by positivity
                         linarith
  have hMr : 1 < rtol * M := by
    have e : rtol * M = 4 * rtol + 1 + rtol * (1 / τ ^ 2) := by rw [hM]; field_simp
    have : 0 < rtol * (1 / τ ^ 2) := by positivity
    linarith
  have hMτ : 1 ≤ τ ^ 2 * M := by
    have e : τ ^ 2 * M = 4 * τ ^ 2 + τ ^ 2 * (1 / rtol) + 1 := by rw [hM]; field_simp
    have : 0 < τ ^ 2 * (1 / rtol) := by positivity
    nlinarith [sq_nonneg τ]
  clear_value M
  let x := line3 0 (τ * M) (τ * (M + 3))
  let u := line3 τ (τ * M) (τ * (M + 2))
  let z := line3 τ (τ * (M - 1 / 4)) (τ * (M + 9 / 4))
  refine ⟨x, u, z, ?_, fun niter hniter => ?_, ?_⟩
  · apply isUniqueProx_of_subgrad hτ
    refine ⟨trivial, fun y _ => ?_⟩
    simp only [XFun.ofReal, one_mul]
    rw [line3_tv, line3_tv, vec_inner, line3_sum]
    simp [x, u, line3]
    rw [abs_of_nonneg (by nlinarith : 0 ≤ τ * M - τ), abs_of_nonneg (by nlinarith : 0 ≤ τ * (M + 2) - τ * M)]
    have e1 := le_abs_self (y (fun _ => 1) - y (fun _ => 0))
    have e2 := le_abs_self (y (fun _ => 2) - y (fun _ => 1))
    field_simp
    nlinarith
  · have hn : ∀ _ : Unit, 2 ≤ 3 := fun _ => by norm_num
    rw [tv_prox_eq 1 rtol _ niter x hτ (by simp) (by simp), one_mul]
    have hmt : tvMt (fun _ : Unit => none) = 1 := by simp [tvMt]
    rw [hmt]
    obtain ⟨m, hm⟩ : ∃ m, (niter + 1).toNat = m + 2 := ⟨(niter - 1).toNat, by omega⟩
    have hp : tvPrimal x τ 0 = x := by simp [tvPrimal]
    have htv : totalVariation x = τ * (M + 3) := by
      rw [line3_tv]
      simp [x, line3]
      rw [abs_of_nonneg (by nlinarith : 0 ≤ τ * (M + 3) - τ * M), abs_of_pos hτ, abs_of_nonneg (by linarith)]
      ring
    have hbig : (1e-10 : ℝ) < τ ^ 2 * (M + 3) := by norm_num; nlinarith
    obtain ⟨s, e1, e2, e3, e4, e5, e6, e7⟩ := tv_body_ok (σ := 1) (γ := τ) (rtol := rtol) hn (by simp) x hτ.ne' one_ne_zero 0 (s := ⟨x, 0, 0, 1, 0, false⟩) rfl (by
      simp only [hp, sub_self, norm_zero, htv]
      have e : 0.5 * (0 : ℝ) ^ 2 + τ * (1 * (τ * (M + 3))) = τ ^ 2 * (M + 3) := by ring
      have h0 : 0 < τ ^ 2 * (M + 3) := lt_trans (by norm_num) hbig
      rw [e, tvRel, if_pos hbig, sub_zero, abs_of_pos h0, div_self h0.ne']
      linarith)
    simp only [sub_self, zero_div, zero_smul, add_zero] at e6
    rw [hp] at e3
    rw [e3, zero_sub] at e4
    obtain ⟨g0, g1, g2⟩ := line3_grad x
    have hst : ∀ p v, tvGrad x ((), p) = τ * v → (-((1 / (4 * (Fintype.card Unit : ℝ) * τ * 1 ^ 2)) • tvGradMap (fun _ : Unit => 3) x)) ((), p) = -(v / 4) := by
      intro p v hv
      change -((1 / (4 * (Fintype.card Unit : ℝ) * τ * 1 ^ 2)) * tvGrad x ((), p)) = _
      rw [hv]
      simp only [Fintype.card_unit, Nat.cast_one]
      field_simp
    have r0 : s.r ((), fun _ => 0) = -1 := by
      rw [e6, e4, line3_clip, hst _ M (by rw [g0]; simp [x, line3]), abs_neg, abs_of_nonneg (by linarith), max_eq_right (by linarith)]
      have : M ≠ 0 := by linarith
      field_simp
    have r1 : s.r ((), fun _ => 1) = -(3 / 4) := by
      rw [e6, e4, line3_clip, hst _ 3 (by rw [g1]; simp [x, line3]; ring), abs_neg, abs_of_nonneg (by norm_num), max_eq_left (by norm_num), div_one]
    have hz : tvPrimal x τ s.r = z := by
      obtain ⟨d0, d1, d2⟩ := line3_div s.r
      ext p
      obtain ⟨k, rfl⟩ : ∃ k, p = fun _ => k := ⟨p (), by funext; rfl⟩
      fin_cases k
      · simp [tvPrimal, d0, r0, x, z, line3]
      · simp [tvPrimal, d1, r0, r1, x, z, line3]; ring
      · simp [tvPrimal, d2, r0, r1, x, z, line3]; ring
    have htz : totalVariation z = τ * (M + 5 / 4) := by
      rw [line3_tv]
      simp only [z, line3, vmk, Matrix.cons_val_zero, Matrix.cons_val_one, Matrix.cons_val]
      rw [abs_of_nonneg (by nlinarith), abs_of_nonneg (by nlinarith)]
      ring
    have hxz : ‖x - z‖ ^ 2 = τ ^ 2 * (13 / 8) := by
      rw [vec_norm_sq, line3_sum]
      simp only [x, z, line3, vmk, PiLp.sub_apply, Matrix.cons_val_zero, Matrix.cons_val_one, Matrix.cons_val]
      ring
    obtain ⟨s', f1, f2⟩ := tv_body_brk (σ := 1) (γ := τ) (rtol := rtol) hn (by simp) x (mt := 1) 1 e2 (by
      rw [hz, htz, hxz, e7]
      simp only [hp, sub_self, norm_zero, htv]
      have ea : 0.5 * (0 : ℝ) ^ 2 + τ * (1 * (τ * (M + 3))) = τ ^ 2 * (M + 3) := by ring
      have eb : 0.5 * (τ ^ 2 * (13 / 8)) + τ * (1 * (τ * (M + 5 / 4))) = τ ^ 2 * (M + 33 / 16) := by ring
      have hpos : 0 < τ ^ 2 * (M + 33 / 16) := by positivity
      rw [ea, eb, tvRel, if_pos (by norm_num; nlinarith), show τ ^ 2 * (M + 33 / 16) - τ ^ 2 * (M + 3) = -(τ ^ 2 * (15 / 16)) by ring, abs_neg,
        abs_of_nonneg (by positivity), div_lt_iff₀ hpos]
      have hτ2 : 0 < τ ^ 2 := by positivity
      nlinarith [mul_pos hτ2 h0])
    rw [hm]
    simp only [forRange, e1, Bool.false_eq_true, if_false, zero_add, f1, if_true, Except.map, f2, hz]
  · have e : ‖z - u‖ ^ 2 = τ ^ 2 / 8 := by
      rw [vec_norm_sq, line3_sum]
      simp only [u, z, line3, vmk, PiLp.sub_apply, Matrix.cons_val_zero, Matrix.cons_val_one, Matrix.cons_val]
      ring
    refine (pow_le_pow_iff_left₀ (by positivity) (by positivity) two_ne_zero).1 ?_
    rw [e]
    nlinarith [sq_nonneg τ]
end

/-- C01 for `TV`. -/
theorem C01_tv (σ rtol : ℝ) (w : A → Option ℝ) (niter : ℤ) : RejectsBadTau (TV σ rtol w niter : ProxOp (Vec (Pixel n))) := by
  refine rejects_of_guarded _ (fun m hm x τ hτ => ?_) (fun m hm x τ hτ => ?_) <;> first
    | (cases hm; done)
    | (cases hm; exact checkTau_nonpos hτ _)

/-- The hypotheses of the convergence theorems hold for images of 2 by 5 by 4 pixels with the default weights and with weights 3 and 1/2 on two of the axes. -/
example : (∀ a : Fin 3, 2 ≤ (![2, 5, 4] : Fin 3 → ℕ) a) ∧ 0 < Fintype.card (Fin 3) ∧ Fintype.card (Fin 3) ≤ 4 ∧
    (∃ a : Fin 3, (1 : ℝ) ≤ ((fun _ => none : Fin 3 → Option ℝ) a).getD 1) ∧ (∃ a : Fin 3, (1 : ℝ) ≤ ((![some 3, none, some (1 / 2)] : Fin 3 → Option ℝ) a).getD 1) := by
  refine ⟨fun a => by fin_cases a <;> norm_num, by simp, by simp, ⟨0, by simp⟩, ⟨0, ?_⟩⟩
  simp

/-- Total variation of a signal. -/
example : totalVariation (line3 0 5 2) = 8 := by
  rw [line3_tv]
  simp only [line3, vmk, Matrix.cons_val_zero, Matrix.cons_val_one, Matrix.cons_val]
  norm_num [abs_of_nonneg, abs_of_neg]

end Verif
