import Verif.Spec.Contract
import Verif.Model.PrimalDual
import Verif.Lemmas.Saddle
import Verif.Props.Lasso

/-! # C46 LinearizedADMM, C50 PrimalDual -/

open scoped RealInnerProductSpace
open Filter Topology

set_option linter.unusedSectionVars false

namespace Verif

variable {E H : Type} [NormedAddCommGroup E] [InnerProductSpace ℝ E] [NormedAddCommGroup H] [InnerProductSpace ℝ H]
  {f : ProxOp E} {g : ProxOp H} {F : XFun E} {G : XFun H} {A : LinOp E H} {τ μ K : ℝ}

/-! ## PrimalDual -/

lemma pdATy_eq (A : LinOp E H) (z : Option E) (y : H) : pdATy A z y = A.rmatvec y + z.getD 0 := by
  cases z <;> simp [pdATy]

/-- The trajectory of `PrimalDual` with scalar steps. -/
lemma pd_traj {P : E → E} {D : H → H} (hf : ∀ x, f.prox x τ = .ok (P x)) (hg : ∀ y, g.proxdual y μ = .ok (D y)) (x0 : E) (y0 : Option H)
    (z : Option E) (θ : ℝ) (gfirst : Bool) :
    ∃ (X : ℕ → E) (Y : ℕ → H) (Xh : ℕ → E), X 0 = x0 ∧ Xh 0 = x0 ∧ Y 0 = y0.getD 0 ∧
      (∀ n, Xh (n + 1) = X (n + 1) + θ • (X (n + 1) - X n)) ∧
      (gfirst = true → ∀ n, Y (n + 1) = D (Y n + μ • A.matvec (Xh n)) ∧ X (n + 1) = P (X n - τ • (A.rmatvec (Y (n + 1)) + z.getD 0))) ∧
      (gfirst = false → ∀ n, X (n + 1) = P (X n - τ • (A.rmatvec (Y n) + z.getD 0)) ∧ Y (n + 1) = D (Y n + μ • A.matvec (Xh (n + 1)))) ∧
      ∀ n, PrimalDual f g A x0 y0 z (.scalar τ) (.scalar μ) θ n gfirst =
        .ok ⟨X n, Y n, Xh n, (List.range n).map fun i => (X (i + 1), Y (i + 1))⟩ := by
  let nxt : PDState E H → PDState E H := fun s =>
    if gfirst then
      let y := D (s.y + μ • A.matvec s.xhat)
      let x := P (s.x - τ • (A.rmatvec y + z.getD 0))
      ⟨x, y, x + θ • (x - s.x), s.log ++ [(x, y)]⟩
    else
      let x := P (s.x - τ • (A.rmatvec s.y + z.getD 0))
      let xh := x + θ • (x - s.x)
      let y := D (s.y + μ • A.matvec xh)
      ⟨x, y, xh, s.log ++ [(x, y)]⟩
  have hbody : ∀ i (s : PDState E H), PrimalDual.body f g A z (.scalar τ) (.scalar μ) θ gfirst i s = .ok (nxt s, false) := by
    intro i s
    cases gfirst <;> simp [PrimalDual.body, StepSpec.atStrict, hf, hg, nxt, pdATy_eq, Bind.bind, Except.bind, Pure.pure, Except.pure]
  obtain ⟨S, h0, -, h2, h3⟩ := forRange_traj_nobreak (PrimalDual.body f g A z (.scalar τ) (.scalar μ) θ gfirst) (fun _ => True)
    (fun _ s s' => s' = nxt s) (fun i s _ => ⟨_, hbody i s, trivial, rfl⟩) ⟨x0, y0.getD 0, x0, []⟩ trivial
  have hlog : ∀ n, (S n).log = (List.range n).map fun i => ((S (i + 1)).x, (S (i + 1)).y) := by
    intro n
    induction n with
    | zero => rw [h0]; rfl
    | succ n ih =>
      rw [List.range_succ, List.map_append, ← ih]
      cases gfirst <;> simp [h2 n, nxt]
  refine ⟨fun n => (S n).x, fun n => (S n).y, fun n => (S n).xhat, by simp [h0], by simp [h0], by simp [h0], fun n => ?_, fun hg n => ?_, fun hg n => ?_,
    fun n => ?_⟩
  · cases gfirst <;> simp [h2 n, nxt]
  · subst hg; simp [h2 n, nxt]
  · subst hg; simp [h2 n, nxt]
  · unfold PrimalDual
    rw [h3 n, ← hlog n]

/-- C50: `PrimalDual` returns for every number of iterations. -/
theorem C50_pd_returns (hf : ProxExact f F) (hg : ProxExact g G) (hd : ProxdualExact g G.conj) (hG : G.Convex) (hτ : 0 < τ) (hμ : 0 < μ)
    (x0 : E) (y0 : Option H) (z : Option E) (θ : ℝ) (gfirst : Bool) (n : ℕ) :
    ∃ r, PrimalDual f g A x0 y0 z (.scalar τ) (.scalar μ) θ n gfirst = .ok r := by
  obtain ⟨P, hP, -⟩ := proxExact_map hf hτ
  obtain ⟨Pg, -, hD⟩ := proxdual_moreau hG hg hd hμ
  obtain ⟨X, Y, Xh, -, -, -, -, -, -, h⟩ := pd_traj (A := A) hP hD x0 y0 z θ gfirst
  exact ⟨_, h n⟩

/-- C50: a pair that one iteration leaves unchanged is a saddle point, and its `x` minimises `F(x) + ⟪z, x⟫ + G(A x)`.  Either order, any relaxation
parameter `theta`, any positive steps. -/
theorem C50_pd_stationary (hF : F.Convex) (hG : G.Convex) (hf : ProxExact f F) (hg : ProxExact g G) (hd : ProxdualExact g G.conj) (hτ : 0 < τ)
    (hμ : 0 < μ) (z : Option E) (θ : ℝ) (gfirst : Bool) (x : E) (y : H) (r : PDState E H)
    (hr : PrimalDual f g A x (some y) z (.scalar τ) (.scalar μ) θ 1 gfirst = .ok r) (hx : r.x = x) (hy : r.y = y) :
    IsSaddle F G A.matvec (z.getD 0) x y ∧ (compObj F G A.matvec (z.getD 0)).IsMin x := by
  obtain ⟨P, hP, hP'⟩ := proxExact_map hf hτ
  obtain ⟨Pg, hPg, hD⟩ := proxdual_moreau hG hg hd hμ
  obtain ⟨X, Y, Xh, hX0, hXh0, hY0, hXh, ht, hfl, h⟩ := pd_traj (A := A) hP hD x (some y) z θ gfirst
  rw [h 1] at hr
  cases hr
  simp only at hx hy
  have hc : IsCertifiedComp F G A.matvec A.rmatvec (z.getD 0) x y := by
    refine (cp_fixed_iff hF hG hτ hμ hP' hPg _ _ _).1 ?_
    simp only [cpStep]
    simp only [Option.getD_some] at hY0
    cases gfirst with
    | true =>
      obtain ⟨h1, h2⟩ := ht rfl 0
      rw [zero_add, hy, hY0, hXh0] at h1
      rw [zero_add, hx, hX0, hy] at h2
      have e2 : P (x - τ • A.rmatvec y - τ • z.getD 0) = x := by rw [sub_sub, ← smul_add]; exact h2.symm
      rw [e2, two_smul, add_sub_cancel_right, ← h1]
    | false =>
      obtain ⟨h1, h2⟩ := hfl rfl 0
      rw [zero_add, hx, hX0, hY0] at h1
      have h3 := hXh 0
      rw [zero_add, hx, hX0, sub_self, smul_zero, add_zero] at h3
      rw [zero_add, hy, hY0, h3] at h2
      have e2 : P (x - τ • A.rmatvec y - τ • z.getD 0) = x := by rw [sub_sub, ← smul_add]; exact h1.symm
      rw [e2, two_smul, add_sub_cancel_right, ← h2]
  exact ⟨hc.isSaddle, hc.isMin⟩

/-- The state that makes `PrimalDual` a primal-dual step: `(x_n, y_n)`, or `(x_n, y_{n+1})` when `g` goes first. -/
lemma pd_states {P : E → E} {D : H → H} {X : ℕ → E} {Y : ℕ → H} {Xh : ℕ → E} {z : E} {gfirst : Bool}
    (hXh : ∀ n, Xh (n + 1) = X (n + 1) + (1 : ℝ) • (X (n + 1) - X n))
    (ht : gfirst = true → ∀ n, Y (n + 1) = D (Y n + μ • A.matvec (Xh n)) ∧ X (n + 1) = P (X n - τ • (A.rmatvec (Y (n + 1)) + z)))
    (hfl : gfirst = false → ∀ n, X (n + 1) = P (X n - τ • (A.rmatvec (Y n) + z)) ∧ Y (n + 1) = D (Y n + μ • A.matvec (Xh (n + 1)))) (n : ℕ) :
    (X (n + 1), if gfirst then Y (n + 2) else Y (n + 1)) =
      cpStep A τ μ (fun v => P (v - τ • z)) D (X n, if gfirst then Y (n + 1) else Y n) := by
  have e : ∀ m, Xh (m + 1) = (2 : ℝ) • X (m + 1) - X m := fun m => by rw [hXh, one_smul, two_smul]; abel
  simp only [cpStep]
  cases gfirst with
  | true =>
    obtain ⟨h1, h2⟩ := ht rfl n
    obtain ⟨h3, -⟩ := ht rfl (n + 1)
    simp only [if_true]
    rw [sub_sub, ← smul_add, ← h2, ← e, ← h3]
  | false =>
    obtain ⟨h1, h2⟩ := hfl rfl n
    simp only [Bool.false_eq_true, if_false]
    rw [sub_sub, ← smul_add, ← h1, ← e, ← h2]

/-- C50: Fejér monotonicity in the Chambolle-Pock metric `‖dx‖²/τ + ‖dy‖²/μ - 2⟪A dx, dy⟫`, for every certified minimiser `(a, b)`; the pair measured
after `n` iterations is `(x_n, y_n)`, or `(x_n, y_{n+1})` when the dual update goes first. -/
theorem C50_pd_fejer (hF : F.Convex) (hG : G.Convex) (hf : ProxExact f F) (hg : ProxExact g G) (hd : ProxdualExact g G.conj) (hτ : 0 < τ)
    (hμ : 0 < μ) (hK : 0 ≤ K) (hA : ∀ v, ‖A.matvec v‖ ≤ K * ‖v‖) (hc : τ * μ * K ^ 2 ≤ 1) (z : Option E) (gfirst : Bool) (x0 : E) (y0 : Option H)
    (a : E) (b : H) (hab : IsCertifiedComp F G A.matvec A.rmatvec (z.getD 0) a b) (n : ℕ) (R : ℕ → PDState E H)
    (hR : ∀ n, PrimalDual f g A x0 y0 z (.scalar τ) (.scalar μ) 1 n gfirst = .ok (R n)) :
    let ω : ℕ → ℝ := fun k =>
      let dx := (R k).x - a
      let dy := (if gfirst then (R (k + 1)).y else (R k).y) - b
      ‖dx‖ ^ 2 / τ + ‖dy‖ ^ 2 / μ - 2 * ⟪A.matvec dx, dy⟫
    0 ≤ ω (n + 1) ∧ ω (n + 1) ≤ ω n := by
  obtain ⟨P, hP, hP'⟩ := proxExact_map hf hτ
  obtain ⟨Pg, hPg, hD⟩ := proxdual_moreau hG hg hd hμ
  obtain ⟨X, Y, Xh, hX0, hXh0, hY0, hXh, ht, hfl, h⟩ := pd_traj (A := A) hP hD x0 y0 z 1 gfirst
  have hRn : ∀ n, R n = ⟨X n, Y n, Xh n, (List.range n).map fun i => (X (i + 1), Y (i + 1))⟩ := fun n => by
    have := (hR n).symm.trans (h n); injection this
  have st := pd_states (A := A) (τ := τ) (μ := μ) (P := P) (D := fun v => v - μ • Pg ((1 / μ) • v)) hXh ht hfl n
  have fix := (cp_fixed_iff hF hG hτ hμ hP' hPg (z.getD 0) a b).2 hab
  have f1 := firm_shift (firm_prox hF hτ hP') (τ • z.getD 0)
  have f2 := firm_dual (firm_prox hG (by positivity) hPg) hμ
  have key := cp_fejer hτ hμ f1 f2 fix (X n, if gfirst then Y (n + 1) else Y n)
  rw [← st] at key
  have nn := cp_gauge_nonneg hτ hμ hK hA hc
  simp only [hRn]
  refine ⟨nn (_, _), ?_⟩
  have := nn ((X (n + 1), if gfirst = true then Y (n + 2) else Y (n + 1)) - (X n, if gfirst = true then Y (n + 1) else Y n))
  simp only [cpGauge, Prod.mk_sub_mk] at key this ⊢
  linarith

/-- C50: convergence.  In finite dimension, with `theta = 1` and `tau·mu·‖A‖² ≤ 1`, for either order and every start, if the problem has a certified
minimiser the returned `x` and `y` converge to a saddle point, and the limit of `x` is a minimiser. -/
theorem C50_pd_converges [FiniteDimensional ℝ E] [FiniteDimensional ℝ H] (hF : F.Convex) (hG : G.Convex) (hf : ProxExact f F) (hg : ProxExact g G)
    (hd : ProxdualExact g G.conj) (hτ : 0 < τ) (hμ : 0 < μ) (hK : 0 ≤ K) (hA : ∀ v, ‖A.matvec v‖ ≤ K * ‖v‖) (hc : τ * μ * K ^ 2 ≤ 1)
    (z : Option E) (gfirst : Bool) (x0 : E) (y0 : Option H) (hsol : ∃ a b, IsCertifiedComp F G A.matvec A.rmatvec (z.getD 0) a b)
    (R : ℕ → PDState E H) (hR : ∀ n, PrimalDual f g A x0 y0 z (.scalar τ) (.scalar μ) 1 n gfirst = .ok (R n)) :
    ∃ x y, IsSaddle F G A.matvec (z.getD 0) x y ∧ (compObj F G A.matvec (z.getD 0)).IsMin x ∧
      Tendsto (fun n => (R n).x) atTop (𝓝 x) ∧ Tendsto (fun n => (R n).y) atTop (𝓝 y) := by
  obtain ⟨P, hP, hP'⟩ := proxExact_map hf hτ
  obtain ⟨Pg, hPg, hD⟩ := proxdual_moreau hG hg hd hμ
  obtain ⟨X, Y, Xh, hX0, hXh0, hY0, hXh, ht, hfl, h⟩ := pd_traj (A := A) hP hD x0 y0 z 1 gfirst
  have hRn : ∀ n, R n = ⟨X n, Y n, Xh n, (List.range n).map fun i => (X (i + 1), Y (i + 1))⟩ := fun n => by
    have := (hR n).symm.trans (h n); injection this
  have st := pd_states (A := A) (τ := τ) (μ := μ) (P := P) (D := fun v => v - μ • Pg ((1 / μ) • v)) hXh ht hfl
  obtain ⟨a, b, hab⟩ := hsol
  have fix := (cp_fixed_iff hF hG hτ hμ hP' hPg (z.getD 0) a b).2 hab
  have f1 := firm_shift (firm_prox hF hτ hP') (τ • z.getD 0)
  have f2 := firm_dual (firm_prox hG (by positivity) hPg) hμ
  obtain ⟨⟨x, y⟩, hfix, hlim⟩ := cp_converges hτ hμ hK hA hc f1 f2 ⟨_, fix⟩ (fun n => (X n, if gfirst then Y (n + 1) else Y n))
    (fun n => by have := st n; cases gfirst <;> simpa using this)
  have hcert := (cp_fixed_iff hF hG hτ hμ hP' hPg (z.getD 0) x y).1 hfix
  refine ⟨x, y, hcert.isSaddle, hcert.isMin, ?_, ?_⟩
  · simp only [hRn]; exact (continuous_fst.tendsto _).comp hlim
  · simp only [hRn]
    have h2 : Tendsto (fun n => if gfirst then Y (n + 1) else Y n) atTop (𝓝 y) := (continuous_snd.tendsto _).comp hlim
    cases gfirst with
    | true => simp only [if_true] at h2; rwa [tendsto_add_atTop_iff_nat 1] at h2
    | false => simpa using h2

/-! ## LinearizedADMM -/

/-- `-Aᵀ`. -/
def negAdj (A : LinOp E H) : LinOp H E where
  matvec := -A.rmatvec
  rmatvec := -A.matvec
  dot := fun x y => by
    simp only [LinearMap.neg_apply, inner_neg_left, inner_neg_right]
    rw [real_inner_comm, ← A.dot, real_inner_comm]

/-- The trajectory of `LinearizedADMM`. -/
lemma ladmm_traj {P : E → E} {Q : H → H} (hτ : τ ≠ 0) (hf : ∀ x, f.prox x μ = .ok (P x)) (hg : ∀ y, g.prox y τ = .ok (Q y)) (x0 : E)
    (z0 : Option H) :
    ∃ (X : ℕ → E) (Z U : ℕ → H), X 0 = x0 ∧ Z 0 = z0.getD (A.matvec x0) ∧ U 0 = 0 ∧ X 1 = P x0 ∧
      (∀ n, X (n + 2) = P (X (n + 1) - (μ / τ) • A.rmatvec (A.matvec (X (n + 1)) - Z (n + 1) + U (n + 1)))) ∧
      (∀ n, Z (n + 1) = Q (A.matvec (X (n + 1)) + U n)) ∧ (∀ n, U (n + 1) = U n + A.matvec (X (n + 1)) - Z (n + 1)) ∧
      ∀ n, ∃ ax, LinearizedADMM f g A (some x0) z0 τ μ n = .ok ⟨X n, Z n, U n, ax, (List.range n).map fun i => X (i + 1)⟩ := by
  let nxt : SplitOpState E H → SplitOpState E H := fun s =>
    let x := P (s.x - (μ / τ) • A.rmatvec (s.Ax - s.z + s.u))
    let z := Q (A.matvec x + s.u)
    ⟨x, z, s.u + A.matvec x - z, A.matvec x, s.log ++ [x]⟩
  have hbody : ∀ i (s : SplitOpState E H), LinearizedADMM.body f g A τ μ i s = .ok (nxt s, false) := by
    intro i s
    simp [LinearizedADMM.body, hf, hg, hτ, nxt, Bind.bind, Except.bind, Pure.pure, Except.pure]
  obtain ⟨S, h0, -, h2, h3⟩ := forRange_traj_nobreak (LinearizedADMM.body f g A τ μ) (fun _ => True)
    (fun _ s s' => s' = nxt s) (fun i s _ => ⟨_, hbody i s, trivial, rfl⟩) ⟨x0, z0.getD (A.matvec x0), 0, z0.getD (A.matvec x0), []⟩ trivial
  have hlog : ∀ n, (S n).log = (List.range n).map fun i => (S (i + 1)).x := by
    intro n
    induction n with
    | zero => rw [h0]; rfl
    | succ n ih => rw [List.range_succ, List.map_append, ← ih]; simp [h2 n, nxt]
  have hAx : ∀ n, (S (n + 1)).Ax = A.matvec (S (n + 1)).x := fun n => by simp [h2 n, nxt]
  refine ⟨fun n => (S n).x, fun n => (S n).z, fun n => (S n).u, by simp [h0], by simp [h0], by simp [h0], ?_, fun n => ?_, fun n => ?_, fun n => ?_,
    fun n => ⟨(S n).Ax, ?_⟩⟩
  · simp [h2 0, nxt, h0]
  · simp only [h2 (n + 1)]
    simp only [nxt, hAx]
  · simp [h2 n, nxt]
  · simp [h2 n, nxt]
  · rw [← hlog n, ← h3 n]
    cases z0 <;> simp [LinearizedADMM, x0z0InitOp, Bind.bind, Except.bind]

/-- C46: `LinearizedADMM` returns for every number of iterations. -/
theorem C46_linadmm_returns (hf : ProxExact f F) (hg : ProxExact g G) (hτ : 0 < τ) (hμ : 0 < μ) (x0 : E) (z0 : Option H) (n : ℕ) :
    ∃ r, LinearizedADMM f g A (some x0) z0 τ μ n = .ok r := by
  obtain ⟨P, hP, -⟩ := proxExact_map hf hμ
  obtain ⟨Q, hQ, -⟩ := proxExact_map hg hτ
  obtain ⟨X, Z, U, -, -, -, -, -, -, -, h⟩ := ladmm_traj (A := A) hτ.ne' hP hQ x0 z0
  obtain ⟨ax, h⟩ := h n
  exact ⟨_, h⟩

/-- C46: if an iteration after the first leaves `x`, `z` and `u` unchanged, then `z = A x` and `x` minimises `F(x) + G(A x)`. -/
theorem C46_linadmm_stationary (hF : F.Convex) (hG : G.Convex) (hf : ProxExact f F) (hg : ProxExact g G) (hτ : 0 < τ) (hμ : 0 < μ) (x0 : E)
    (z0 : Option H) (n : ℕ) (r r' : SplitOpState E H) (hr : LinearizedADMM f g A (some x0) z0 τ μ (n + 1) = .ok r)
    (hr' : LinearizedADMM f g A (some x0) z0 τ μ (n + 2) = .ok r') (hx : r'.x = r.x) (hz : r'.z = r.z) (hu : r'.u = r.u) :
    r'.z = A.matvec r'.x ∧ (compObj F G A.matvec 0).IsMin r'.x := by
  obtain ⟨P, hP, hP'⟩ := proxExact_map hf hμ
  obtain ⟨Q, hQ, hQ'⟩ := proxExact_map hg hτ
  obtain ⟨X, Z, U, -, -, -, -, hX, hZ, hU, h⟩ := ladmm_traj (A := A) hτ.ne' hP hQ x0 z0
  obtain ⟨ax, h1⟩ := h (n + 1)
  obtain ⟨ax', h2⟩ := h (n + 2)
  rw [h1] at hr; rw [h2] at hr'
  cases hr; cases hr'
  simp only at hx hz hu ⊢
  have e1 : Z (n + 2) = A.matvec (X (n + 2)) := by
    have := hU (n + 1)
    rw [hu, add_sub_assoc, left_eq_add, sub_eq_zero] at this
    exact this.symm
  refine ⟨e1, ?_⟩
  have e3 := hX n
  have e4 := hZ (n + 1)
  rw [e1] at e4
  rw [← hz, ← hx, ← e1, sub_self, zero_add] at e3
  have k1 := subgrad_of_isProx hF hμ (hP' (X (n + 2) - (μ / τ) • A.rmatvec (U (n + 1))))
  have k2 := subgrad_of_isProx hG hτ (hQ' (A.matvec (X (n + 2)) + U (n + 1)))
  rw [← e3] at k1
  rw [← e4, add_sub_cancel_left] at k2
  refine IsCertifiedComp.isMin (A := A) (y := (1 / τ) • U (n + 1)) ⟨?_, k2⟩
  convert k1 using 1
  rw [sub_zero, map_smul, sub_sub_cancel_left, smul_neg, smul_smul]
  congr 2
  field_simp

/-- C46: convergence.  In finite dimension, with `mu/tau·‖A‖² ≤ 1`, with or without a user-supplied `z0`, if the problem has a certified minimiser then
the returned `x` converge to a minimiser of `F(x) + G(A x)` and `z` to its image. -/
theorem C46_linadmm_converges [FiniteDimensional ℝ E] [FiniteDimensional ℝ H] (hF : F.Convex) (hG : G.Convex) (hf : ProxExact f F)
    (hg : ProxExact g G) (hτ : 0 < τ) (hμ : 0 < μ) (hK : 0 ≤ K) (hA : ∀ v, ‖A.matvec v‖ ≤ K * ‖v‖) (hc : μ / τ * K ^ 2 ≤ 1)
    (x0 : E) (z0 : Option H) (hsol : ∃ a b, IsCertifiedComp F G A.matvec A.rmatvec 0 a b)
    (R : ℕ → SplitOpState E H) (hR : ∀ n, LinearizedADMM f g A (some x0) z0 τ μ n = .ok (R n)) :
    ∃ x, (compObj F G A.matvec 0).IsMin x ∧ Tendsto (fun n => (R n).x) atTop (𝓝 x) ∧ Tendsto (fun n => (R n).z) atTop (𝓝 (A.matvec x)) := by
  obtain ⟨P, hP, hP'⟩ := proxExact_map hf hμ
  obtain ⟨Q, hQ, hQ'⟩ := proxExact_map hg hτ
  obtain ⟨X, Z, U, -, -, hU0, hX1, hX, hZ, hU, h⟩ := ladmm_traj (A := A) hτ.ne' hP hQ x0 z0
  have hRx : ∀ n, (R n).x = X n ∧ (R n).z = Z n := fun n => by
    obtain ⟨ax, h⟩ := h n
    have := (hR n).symm.trans h; injection this with this
    rw [this]; exact ⟨rfl, rfl⟩
  have hZ' : ∀ n, Z (n + 1) = U n + A.matvec (X (n + 1)) - U (n + 1) := fun n => by rw [hU n]; abel
  set D : H → H := fun v => v - Q v with hD
  have hμτ : 0 < μ / τ := div_pos hμ hτ
  have hstep : ∀ n, (U (n + 1), X (n + 2)) = cpStep (negAdj A) 1 (μ / τ) D P (U n, X (n + 1)) := by
    intro n
    have e1 : D (U n - (1 : ℝ) • (negAdj A).rmatvec (X (n + 1))) = U (n + 1) := by
      simp only [hD, negAdj, LinearMap.neg_apply, smul_neg, one_smul, sub_neg_eq_add]
      rw [hU n, hZ n, add_comm (U n)]
    simp only [cpStep]
    rw [e1, hX n]
    congr 2
    simp only [negAdj, LinearMap.neg_apply, smul_neg, ← sub_eq_add_neg]
    congr 3
    rw [hZ' n, two_smul]; abel
  have fixiff : ∀ u x, cpStep (negAdj A) 1 (μ / τ) D P (u, x) = (u, x) ↔ IsCertifiedComp F G A.matvec A.rmatvec 0 x ((1 / τ) • u) := by
    intro u x
    have e0 : cpStep (negAdj A) 1 (μ / τ) D P (u, x) = (u, x) ↔ Q (u + A.matvec x) = A.matvec x ∧ P (x - (μ / τ) • A.rmatvec u) = x := by
      simp only [cpStep, Prod.mk.injEq, hD, negAdj, LinearMap.neg_apply, smul_neg, one_smul, sub_neg_eq_add, ← sub_eq_add_neg]
      constructor
      · rintro ⟨h1, h2⟩
        rw [h1, two_smul, add_sub_cancel_right] at h2
        refine ⟨?_, h2⟩
        rw [sub_eq_iff_eq_add, add_right_inj] at h1
        exact h1.symm
      · rintro ⟨h1, h2⟩
        have h3 : u + A.matvec x - Q (u + A.matvec x) = u := by rw [h1]; abel
        rw [h3, two_smul, add_sub_cancel_right]
        exact ⟨rfl, h2⟩
    rw [e0]
    have s1 : (1 / μ) • (x - (μ / τ) • A.rmatvec u - x) = -A.rmatvec ((1 / τ) • u) - 0 := by
      rw [sub_zero, map_smul, sub_sub_cancel_left, smul_neg, smul_smul]; congr 2; field_simp
    have s2 : (1 / τ) • (u + A.matvec x - A.matvec x) = (1 / τ) • u := by rw [add_sub_cancel_right]
    constructor
    · rintro ⟨h1, h2⟩
      have k1 := subgrad_of_isProx hF hμ (hP' (x - (μ / τ) • A.rmatvec u))
      have k2 := subgrad_of_isProx hG hτ (hQ' (u + A.matvec x))
      rw [h2, s1] at k1
      rw [h1, s2] at k2
      exact ⟨k1, k2⟩
    · rintro ⟨h1, h2⟩
      rw [← s1] at h1
      rw [← s2] at h2
      exact ⟨IsProx.unique hG hτ (isProx_of_subgrad hτ h2) (hQ' _), IsProx.unique hF hμ (isProx_of_subgrad hμ h1) (hP' _)⟩
  obtain ⟨a, b, hab⟩ := hsol
  have hA' : ∀ w, ‖(negAdj A).matvec w‖ ≤ K * ‖w‖ := fun w => by
    simp only [negAdj, LinearMap.neg_apply, norm_neg]; exact adj_bound A hK hA w
  obtain ⟨⟨u, x⟩, hfix, hlim⟩ := cp_converges one_pos hμτ hK hA' (by rw [one_mul]; exact hc) (firm_moreau (firm_prox hG hτ hQ'))
    (firm_prox hF hμ hP') ⟨(τ • b, a), (fixiff _ _).2 (by rw [smul_smul, one_div_mul_cancel hτ.ne', one_smul]; exact hab)⟩
    (fun n => (U n, X (n + 1))) hstep
  have lx : Tendsto X atTop (𝓝 x) := by
    rw [← tendsto_add_atTop_iff_nat 1]; exact (continuous_snd.tendsto _).comp hlim
  have lu : Tendsto U atTop (𝓝 u) := (continuous_fst.tendsto _).comp hlim
  refine ⟨x, ((fixiff _ _).1 hfix).isMin, by simpa only [hRx] using lx, ?_⟩
  simp only [hRx]
  rw [← tendsto_add_atTop_iff_nat 1]
  have cA := linop_continuous A.matvec
  have l1 := (lu.add ((cA.tendsto x).comp (lx.comp (tendsto_add_atTop_nat 1)))).sub (lu.comp (tendsto_add_atTop_nat 1))
  rw [add_sub_cancel_left] at l1
  exact l1.congr fun n => (hZ' n).symm

end Verif
