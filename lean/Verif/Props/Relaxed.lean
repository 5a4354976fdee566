import Verif.Props.ProxGrad

/-! # C80: relaxed ProximalGradient -/

open scoped RealInnerProductSpace
open Filter Topology

set_option linter.unusedSectionVars false

namespace Verif

variable {E : Type} [NormedAddCommGroup E] [InnerProductSpace ℝ E]

/-- Arguments of a call `ProximalGradient(f, g, x0, epsg=ε, tau=τ, niter=n, acceleration=acc, eta=η, backtracking=bt)`, everything else at its default. -/
noncomputable def pgArgsEta (τ ε η : ℝ) (bt : Bool) (acc : Accel) (n : ℕ) : PGArgs := ⟨some τ, bt, 1 / 2, .scalar ε, n, 100, acc, η, none⟩

/-- The documented weights `ω` of the iterations `0, 1, ...`. -/
inductive DocWeights : Accel → (ℕ → ℝ) → Prop
  | none : DocWeights .none (fun _ => 0)
  | vandenberghe : DocWeights .vandenberghe (fun k => (k : ℝ) / (k + 3))
  | fista (t : ℕ → ℝ) (h0 : t 0 = 1) (h : ∀ k, t (k + 1) = (1 + √(1 + 4 * t k ^ 2)) / 2) : DocWeights .fista (fun k => (t k - 1) / t (k + 1))

/-- The documented recursion with relaxation: `G` is the gradient of the smooth term, `P` the proximal map of the other one. -/
structure DocRelaxed (G P : E → E) (τ η : ℝ) (ω : ℕ → ℝ) (x0 : E) (X Y : ℕ → E) : Prop where
  startX : X 0 = x0
  startY : Y 0 = x0
  step : ∀ k, X (k + 1) = Y k + η • (P (Y k - τ • G (Y k)) - Y k)
  extrapolate : ∀ k, Y (k + 1) = X (k + 1) + ω k • (X (k + 1) - X k)

variable {f g : ProxOp E} {φ : E → ℝ} {F : XFun E} {L ε τ η : ℝ}

/-- The trajectory with `eta ≠ 1` and a given step. -/
lemma pg_relaxed_traj {G P : E → E} (hG : ∀ x, f.grad x = .ok (G x)) (hP : ∀ x, g.prox x (ε * τ) = .ok (P x)) (hη : η ≠ 1)
    (acc : Accel) (hacc : acc ≠ .other) (x0 : E) :
    ∃ (S : ℕ → PGState E), (S 0).x = x0 ∧ (∀ n, (S (n + 1)).x = (S n).x + η • (P ((S n).x - τ • G (S n).x) - (S n).x)) ∧
      ∀ n, 0 < n → ProximalGradient f g x0 (pgArgsEta τ ε η false acc n) = .ok (S n) := by
  have hbody : ∀ n i (s : PGState E), s.tau = τ → ∃ s', PG.body f g (pgArgsEta τ ε η false acc n) false i s = .ok (s', false) ∧ s'.tau = τ ∧
      s'.x = s.x + η • (P (s.x - τ • G s.x) - s.x) := by
    intro n i s hs
    refine ⟨_, by simp [PG.body, PG.step, pgArgsEta, StepSpec.at, hG, hP, hs, hη, Bind.bind, Except.bind, Pure.pure, Except.pure]; rfl, rfl, rfl⟩
  obtain ⟨S, h0, -, h2, h3⟩ := forRange_traj_nobreak (PG.body f g (pgArgsEta τ ε η false acc 0) false) (fun s => s.tau = τ)
    (fun _ s s' => s'.x = s.x + η • (P (s.x - τ • G s.x) - s.x)) (fun i s hs => hbody 0 i s hs) ⟨x0, x0, 1, τ, none, []⟩ rfl
  refine ⟨S, by rw [h0], h2, fun n hn => ?_⟩
  have e : ProximalGradient f g x0 (pgArgsEta τ ε η false acc n) = forRange (PG.body f g (pgArgsEta τ ε η false acc 0) false) n 0 ⟨x0, x0, 1, τ, none, []⟩ := by
    have e1 : (pgArgsEta τ ε η false acc n).epsg.printCheck (pgArgsEta τ ε η false acc n).niter = .ok () := by simp [pgArgsEta, StepSpec.printCheck, hn.ne']
    have e2 : (pgArgsEta τ ε η false acc n).acceleration ≠ .other := hacc
    unfold ProximalGradient
    rw [e1]
    simp only [Bind.bind, Except.bind, if_neg e2]
    rfl
  rw [e, h3 n]

/-- C80: in finite dimension, with `0 < eta ≤ 1`, `tau < 2/L` and no acceleration, the points returned converge to a minimiser of `φ + ε F` when there is one. -/
theorem C80_relaxed_converges [ProperSpace E] (hf : GradExact f φ) (hL : LipschitzGrad φ L) (hφ : ConvexOn ℝ Set.univ φ) (hF : F.Convex)
    (hg : ProxExact g F) (hε : 0 < ε) (hτ : 0 < τ) (hτL : τ * L < 2) (hη : 0 < η) (hη1 : η ≤ 1) (x0 : E)
    (hmin : ∃ c, (compositeObj φ ε F).IsMin c) :
    ∃ S : ℕ → PGState E, (∀ n, 0 < n → ProximalGradient f g x0 (pgArgsEta τ ε η false .none n) = .ok (S n)) ∧
      ∃ c, (compositeObj φ ε F).IsMin c ∧ Tendsto (fun n => (S n).x) atTop (𝓝 c) := by
  obtain ⟨G, hG, hGr⟩ := gradExact_map hf
  obtain ⟨P, hP, hPx⟩ := pg_maps hg hε hτ
  by_cases h1 : η = 1
  · subst h1
    have hret : ∀ n, 0 < n → ∃ s, ProximalGradient f g x0 (pgArgs τ ε .none n) = .ok s := fun n hn =>
      C41_pg_returns hf hg hε hτ .none (by decide) x0 n hn
    have : Nonempty (PGState E) := ⟨⟨x0, x0, 1, τ, none, []⟩⟩
    choose! S hS using hret
    exact ⟨S, hS, C41_pg_converges hf hL hφ hF hg hε hτ hτL x0 hmin S hS⟩
  · obtain ⟨S, h0, hstep, hS⟩ := pg_relaxed_traj hG hP h1 .none (by decide) x0
    have hFc := smulConvex hF hε.le
    have hfix : ∀ c, P (c - τ • G c) = c ↔ (compositeObj φ ε F).IsMin c := fun c => pg_fixed_iff hφ hFc hτ hGr hPx c
    obtain ⟨c0, hc0⟩ := hmin
    obtain ⟨c, hc, hlim⟩ := fb_converges (firm_prox hFc hτ hPx) hGr (fun x y => hL x y _ _ (hGr x) (hGr y)) hφ hτ hτL hη hη1
      ⟨c0, (hfix c0).2 hc0⟩ (fun n => (S n).x) hstep
    exact ⟨S, hS, c, (hfix c).1 hc, hlim⟩

/-- C80: without acceleration and with a given step the points returned are those of the documented recursion. -/
theorem C80_relaxed_documented_partial {G P : E → E} (hG : ∀ x, f.grad x = .ok (G x)) (hP : ∀ x, g.prox x (ε * τ) = .ok (P x)) (x0 : E)
    {X Y : ℕ → E} {ω : ℕ → ℝ} (hω : DocWeights .none ω) (hXY : DocRelaxed G P τ η ω x0 X Y) (n : ℕ) (hn : 0 < n) :
    ∃ s, ProximalGradient f g x0 (pgArgsEta τ ε η false .none n) = .ok s ∧ s.x = X n := by
  cases hω
  have hYX : ∀ k, Y k = X k := by
    intro k
    cases k with
    | zero => rw [hXY.startX, hXY.startY]
    | succ k => rw [hXY.extrapolate, zero_smul, add_zero]
  by_cases h1 : η = 1
  · subst h1
    obtain ⟨X', Y', t, hX0, hY0, ht0, hX, ht, hY, h⟩ := pg_traj hG hP .none (by decide) x0
    refine ⟨_, h n hn, ?_⟩
    have hYX' : ∀ n, Y' n = X' n := by
      intro n
      cases n with
      | zero => rw [hX0, hY0]
      | succ n => rw [hY]; simp [momentum]
    show X' n = X n
    clear hn
    induction n with
    | zero => rw [hX0, hXY.startX]
    | succ n ih => rw [hX, hXY.step, hYX', hYX, ih, one_smul]; abel
  · obtain ⟨S, h0, hstep, hS⟩ := pg_relaxed_traj hG hP h1 .none (by decide) x0
    refine ⟨_, hS n hn, ?_⟩
    clear hn
    induction n with
    | zero => rw [h0, hXY.startX]
    | succ n ih => rw [hstep, hXY.step, hYX, ih]

/-- C80: with `eta ≠ 1` and a given step the argument `acceleration` has no effect on the point returned. -/
theorem C80_relaxed_ignores_acceleration {G P : E → E} (hG : ∀ x, f.grad x = .ok (G x)) (hP : ∀ x, g.prox x (ε * τ) = .ok (P x)) (hη : η ≠ 1)
    (acc : Accel) (hacc : acc ≠ .other) (x0 : E) (n : ℕ) (hn : 0 < n) :
    ∃ s s', ProximalGradient f g x0 (pgArgsEta τ ε η false acc n) = .ok s ∧ ProximalGradient f g x0 (pgArgsEta τ ε η false .none n) = .ok s' ∧
      s.x = s'.x := by
  obtain ⟨S, h0, hstep, hS⟩ := pg_relaxed_traj hG hP hη acc hacc x0
  obtain ⟨S', h0', hstep', hS'⟩ := pg_relaxed_traj hG hP hη .none (by decide) x0
  refine ⟨_, _, hS n hn, hS' n hn, ?_⟩
  clear hn
  induction n with
  | zero => rw [h0, h0']
  | succ n ih => rw [hstep, hstep', ih]

/-- `x²/2` as an operator object. -/
noncomputable def halfSqFn : ProxOp ℝ := ⟨fun x => .ok (.num (x ^ 2 / 2)), some fun x τ => checkTau τ (.ok (x / (1 + τ))), none, some fun x => .ok x, true, 1⟩

/-- The zero function as an operator object. -/
noncomputable def zeroFn : ProxOp ℝ := ⟨fun _ => .ok (.num 0), some fun x τ => checkTau τ (.ok x), none, none, false, 1⟩

lemma halfSqFn_gradExact : GradExact halfSqFn fun x => x ^ 2 / 2 := fun x => ⟨x, rfl, isGrad_of_quad (C := 1 / 2) fun y => by
  rw [show y ^ 2 / 2 - x ^ 2 / 2 - ⟪x, y - x⟫ = 1 / 2 * (y - x) ^ 2 by simp [inner]; ring]
  rw [Real.norm_eq_abs, sq_abs, abs_of_nonneg (by positivity)]⟩

lemma zeroFn_proxExact : ProxExact zeroFn (XFun.ofReal fun _ => 0) := fun x τ hτ =>
  ⟨x, by simp [zeroFn, ProxOp.prox, checkTau, hτ], trivial, fun y _ => by
    simp only [proxObj, XFun.ofReal, sub_self, norm_zero]
    have : 0 ≤ ‖y - x‖ ^ 2 / (2 * τ) := by positivity
    simpa using this⟩

/-- C80: with acceleration and `eta ≠ 1` the point returned is not the one of the documented recursion. -/
theorem C80_relaxed_momentum_refuted : ∃ (f g : ProxOp ℝ) (φ : ℝ → ℝ) (F : XFun ℝ) (G P : ℝ → ℝ), GradExact f φ ∧ ProxExact g F ∧
    (∀ x, f.grad x = .ok (G x)) ∧ (∀ x, g.prox x (1 * 1) = .ok (P x)) ∧
      ∀ ω X Y, DocWeights .vandenberghe ω → DocRelaxed G P 1 (1 / 2) ω 1 X Y →
        ∃ s, ProximalGradient f g 1 (pgArgsEta 1 1 (1 / 2) false .vandenberghe 3) = .ok s ∧ s.x ≠ X 3 := by
  have hG : ∀ x, halfSqFn.grad x = .ok (id x) := fun x => rfl
  have hP : ∀ x, zeroFn.prox x (1 * 1) = .ok (id x) := fun x => by simp [zeroFn, ProxOp.prox, checkTau]
  refine ⟨halfSqFn, zeroFn, _, _, id, id, halfSqFn_gradExact, zeroFn_proxExact, hG, hP, fun ω X Y hω h => ?_⟩
  obtain ⟨S, h0, hs, hS⟩ := pg_relaxed_traj (f := halfSqFn) (g := zeroFn) (τ := 1) (ε := 1) (η := 1 / 2) hG hP (by norm_num) .vandenberghe (by decide) 1
  refine ⟨_, hS 3 (by norm_num), ?_⟩
  cases hω
  have x1 := h.step 0
  have x2 := h.step 1
  have x3 := h.step 2
  have y1 := h.extrapolate 0
  have y2 := h.extrapolate 1
  have s1 := hs 0
  have s2 := hs 1
  have s3 := hs 2
  simp only [id, smul_eq_mul, one_mul, sub_self, zero_sub, zero_add, h.startX, h.startY, h0, Nat.reduceAdd, Nat.cast_zero, Nat.cast_one] at *
  intro hc
  rw [s3, s2, s1, x3, y2, x2, y1, x1] at hc
  norm_num at hc

/-- C80: with backtracking and `eta ≠ 1` the relaxation is applied to a second full step: the point returned is not the one of the documented recursion, although the step
was accepted unchanged. -/
theorem C80_relaxed_backtracking_refuted : ∃ (f g : ProxOp ℝ) (φ : ℝ → ℝ) (F : XFun ℝ) (G P : ℝ → ℝ), GradExact f φ ∧ EvaluatesNum f φ ∧ ProxExact g F ∧
    (∀ x, f.grad x = .ok (G x)) ∧ (∀ x, g.prox x (1 * 1) = .ok (P x)) ∧
      ∀ ω X Y, DocWeights .none ω → DocRelaxed G P 1 (1 / 2) ω 1 X Y →
        ∃ s, ProximalGradient f g 1 (pgArgsEta 1 1 (1 / 2) true .none 1) = .ok s ∧ s.tau = 1 ∧ s.x ≠ X 1 := by
  have hG : ∀ x, halfSqFn.grad x = .ok (id x) := fun x => rfl
  have hP : ∀ x, zeroFn.prox x (1 * 1) = .ok (id x) := fun x => by simp [zeroFn, ProxOp.prox, checkTau]
  refine ⟨halfSqFn, zeroFn, _, _, id, id, halfSqFn_gradExact, fun x => rfl, zeroFn_proxExact, hG, hP, fun ω X Y hω h => ?_⟩
  have hP' : ∀ x, zeroFn.prox x 1 = .ok x := fun x => by simp [zeroFn, ProxOp.prox, checkTau]
  have hb : backtrack halfSqFn zeroFn (1 : ℝ) 1 (1 / 2) 100 1 none = .ok (0, 1) := by
    rw [backtrack]
    simp only [hG, hP', Bind.bind, Except.bind, id, smul_eq_mul, mul_one, sub_self]
    simp [halfSqFn, CallVal.toReal, inner]
    intro h; norm_num at h
  refine ⟨⟨0, 0, 1, 1, none, [0]⟩, ?_, rfl, ?_⟩
  · simp [ProximalGradient, pgArgsEta, StepSpec.printCheck, forRange, PG.body, PG.step, StepSpec.at, momentum, Bind.bind, Except.bind, Pure.pure, Except.pure, hG]
    rw [one_div] at hb
    rw [hb]
    simp [hP']
  · have x1 := h.step 0
    rw [h.startY] at x1
    rw [x1]
    norm_num

/-- The hypotheses of the convergence theorem are met by a problem whose minimiser is 0. -/
example : ∃ (f g : ProxOp ℝ) (φ : ℝ → ℝ) (F : XFun ℝ), GradExact f φ ∧ LipschitzGrad φ 1 ∧ ConvexOn ℝ Set.univ φ ∧ F.Convex ∧ ProxExact g F ∧
    ∃ c, (compositeObj φ 1 F).IsMin c := by
  have hu : ∀ x g : ℝ, IsGrad (fun x => x ^ 2 / 2) x g → g = x := fun x g h => by
    obtain ⟨g', h1, h2⟩ := halfSqFn_gradExact x
    cases h1
    exact ext_inner_left ℝ fun v => by
      have := HasFDerivAt.unique h h2
      have := congrArg (fun (l : ℝ →L[ℝ] ℝ) => l v) this
      simpa [mul_comm, inner] using this
  refine ⟨halfSqFn, zeroFn, _, XFun.ofReal fun _ => 0, halfSqFn_gradExact, fun x y gx gy hx hy => ?_, ⟨convex_univ, fun x _ y _ a b ha hb hab => ?_⟩, (convexOn_const 0 convex_univ : ConvexOn ℝ Set.univ fun _ : ℝ => (0 : ℝ)), zeroFn_proxExact, 0, ⟨trivial, trivial⟩, fun y _ => ?_⟩
  · rw [hu x gx hx, hu y gy hy, one_mul]
  · obtain rfl : b = 1 - a := by linarith
    simp only [smul_eq_mul]
    nlinarith [mul_nonneg (mul_nonneg ha hb) (sq_nonneg (x - y))]
  · simp [compositeObj, XFun.add, XFun.ofReal, XFun.smul]; positivity

end Verif
