import Verif.Props.PrimalDual
import Verif.Props.Calculus

/-! # C47 ADMML2 -/

open scoped RealInnerProductSpace
open Filter Topology

set_option linter.unusedSectionVars false

namespace Verif

variable {E H D : Type} [NormedAddCommGroup E] [InnerProductSpace ℝ E] [NormedAddCommGroup H] [InnerProductSpace ℝ H] [NormedAddCommGroup D]
  [InnerProductSpace ℝ D] {g : ProxOp H} {G : XFun H} {A : LinOp E H} {Op : LinOp E D} {b : D} {τ : ℝ} {inv : E → H → ℝ → E}

/-- The documented behaviour of `pylops.optimization.leastsquares.regularized_inversion` (not modelled): the result solves the regularised least-squares
problem exactly, whatever the initial guess. -/
def SolvesReg (Op : LinOp E D) (b : D) (A : LinOp E H) (inv : E → H → ℝ → E) : Prop :=
  ∀ x0 d ε y, ‖Op.matvec (inv x0 d ε) - b‖ ^ 2 + ε ^ 2 * ‖A.matvec (inv x0 d ε) - d‖ ^ 2 ≤ ‖Op.matvec y - b‖ ^ 2 + ε ^ 2 * ‖A.matvec y - d‖ ^ 2

lemma adj_flip (A : LinOp E H) (y : H) (w : E) : ⟪A.rmatvec y, w⟫ = ⟪y, A.matvec w⟫ := by
  rw [real_inner_comm, ← A.dot, real_inner_comm]

lemma quad_zero {a c : ℝ} (h : ∀ t : ℝ, 0 ≤ 2 * t * a + t ^ 2 * c) : a = 0 := by
  by_contra ha
  have hc : 0 ≤ c := by
    by_contra hc
    push Not at hc
    have h1 := h (1 - 2 * a / c)
    have h2 := h (-(1 - 2 * a / c))
    have h3 : (1 - 2 * a / c) ^ 2 * c ≥ 0 := by nlinarith
    have h4 : (1 - 2 * a / c) = 0 := by
      by_contra h5
      have := mul_pos_of_neg_of_neg (by nlinarith [sq_pos_of_ne_zero h5] : -(1 - 2 * a / c) ^ 2 < 0) hc
      linarith
    have h6 := h (-a)
    nlinarith [sq_pos_of_ne_zero ha]
  have h1 := h (-(a / (c + 1)))
  have e : 2 * -(a / (c + 1)) * a + (-(a / (c + 1))) ^ 2 * c = -(a ^ 2 * (c + 2) / (c + 1) ^ 2) := by field_simp; ring
  rw [e] at h1
  have : 0 < a ^ 2 * (c + 2) / (c + 1) ^ 2 := by have := sq_pos_of_ne_zero ha; positivity
  linarith

/-- The half squared misfit. -/
noncomputable def misfit (Op : LinOp E D) (b : D) : XFun E := XFun.ofReal fun x => 1 / 2 * ‖Op.matvec x - b‖ ^ 2

lemma misfit_subgrad_iff (x v : E) : IsSubgrad (misfit Op b) x v ↔ ∀ w, ⟪Op.matvec x - b, Op.matvec w⟫ = ⟪v, w⟫ := by
  have ex : ∀ w, ‖Op.matvec (x + w) - b‖ ^ 2 = ‖Op.matvec x - b‖ ^ 2 + 2 * ⟪Op.matvec x - b, Op.matvec w⟫ + ‖Op.matvec w‖ ^ 2 := fun w => by
    rw [map_add, add_sub_right_comm, norm_add_sq_real]
  constructor
  · intro h w
    have : ⟪Op.matvec x - b, Op.matvec w⟫ - ⟪v, w⟫ = 0 := by
      refine quad_zero (c := ‖Op.matvec w‖ ^ 2) fun t => ?_
      have h1 := h.2 (x + t • w) trivial
      simp only [misfit, XFun.ofReal, ex, map_smul, inner_smul_right, norm_smul, mul_pow, Real.norm_eq_abs, sq_abs, add_sub_cancel_left] at h1
      linarith
    linarith
  · intro h
    refine ⟨trivial, fun y _ => ?_⟩
    have h1 := ex (y - x)
    rw [add_sub_cancel] at h1
    simp only [misfit, XFun.ofReal, h1]
    rw [h (y - x)]
    nlinarith [sq_nonneg ‖Op.matvec (y - x)‖]

lemma solvesReg_normal (hinv : SolvesReg Op b A inv) (x0 : E) (d : H) (ε : ℝ) (w : E) :
    ⟪Op.matvec (inv x0 d ε) - b, Op.matvec w⟫ + ε ^ 2 * ⟪A.matvec (inv x0 d ε) - d, A.matvec w⟫ = 0 := by
  refine quad_zero (c := ‖Op.matvec w‖ ^ 2 + ε ^ 2 * ‖A.matvec w‖ ^ 2) fun t => ?_
  have h := hinv x0 d ε (inv x0 d ε + t • w)
  rw [map_add, add_sub_right_comm, norm_add_sq_real, map_add, add_sub_right_comm, norm_add_sq_real] at h
  simp only [map_smul, inner_smul_right, norm_smul, mul_pow, Real.norm_eq_abs, sq_abs] at h
  nlinarith

/-- `A` applied to the solution depends on the data only, firmly. -/
lemma solvesReg_firm (hinv : SolvesReg Op b A inv) (hτ : 0 < τ) (x0 x1 : E) (d e : H) :
    ‖Op.matvec (inv x0 d (1 / √τ)) - Op.matvec (inv x1 e (1 / √τ))‖ ^ 2 + 1 / τ * ‖A.matvec (inv x0 d (1 / √τ)) - A.matvec (inv x1 e (1 / √τ))‖ ^ 2 ≤
      1 / τ * ⟪A.matvec (inv x0 d (1 / √τ)) - A.matvec (inv x1 e (1 / √τ)), d - e⟫ := by
  have hε : (1 / √τ) ^ 2 = 1 / τ := by rw [div_pow, one_pow, Real.sq_sqrt hτ.le]
  have h1 := solvesReg_normal hinv x0 d (1 / √τ) (inv x0 d (1 / √τ) - inv x1 e (1 / √τ))
  have h2 := solvesReg_normal hinv x1 e (1 / √τ) (inv x0 d (1 / √τ) - inv x1 e (1 / √τ))
  rw [hε, map_sub, map_sub] at h1 h2
  set p := Op.matvec (inv x0 d (1 / √τ))
  set q := Op.matvec (inv x1 e (1 / √τ))
  set r := A.matvec (inv x0 d (1 / √τ))
  set s := A.matvec (inv x1 e (1 / √τ))
  clear_value p q r s
  have e1 : ⟪p - b, p - q⟫ - ⟪q - b, p - q⟫ = ‖p - q‖ ^ 2 := by
    rw [← inner_sub_left, sub_sub_sub_cancel_right, real_inner_self_eq_norm_sq]
  have e2 : ⟪r - d, r - s⟫ - ⟪s - e, r - s⟫ = ‖r - s‖ ^ 2 - ⟪r - s, d - e⟫ := by
    rw [← inner_sub_left, show r - d - (s - e) = (r - s) - (d - e) by abel, inner_sub_left, real_inner_self_eq_norm_sq, real_inner_comm (r - s)]
  have e3 : 1 / τ * (⟪r - d, r - s⟫ - ⟪s - e, r - s⟫) = 1 / τ * (‖r - s‖ ^ 2 - ⟪r - s, d - e⟫) := by rw [e2]
  linarith

/-- The trajectory of `ADMML2`. -/
lemma admml2_traj {Q : H → H} (hτ : 0 < τ) (hg : ∀ y, g.prox y τ = .ok (Q y)) (x0 : E) (z0 : Option H) (gfirst : Bool) :
    ∃ (X : ℕ → E) (Z U : ℕ → H), X 0 = x0 ∧ Z 0 = z0.getD (A.matvec x0) ∧ U 0 = 0 ∧
      (gfirst = false → ∀ n, X (n + 1) = inv (X n) (Z n - U n) (1 / √τ) ∧ Z (n + 1) = Q (A.matvec (X (n + 1)) + U n) ∧
        U (n + 1) = U n + A.matvec (X (n + 1)) - Z (n + 1)) ∧
      (gfirst = true → ∀ n, Z (n + 1) = Q (A.matvec (X n) + U n) ∧ X (n + 1) = inv (X n) (Z (n + 1) - U n) (1 / √τ) ∧
        U (n + 1) = U n + A.matvec (X n) - Z (n + 1)) ∧
      ∀ n, ∃ ax, ADMML2 inv g A (some x0) z0 τ n gfirst = .ok ⟨X n, Z n, U n, ax, (List.range n).map fun i => X (i + 1)⟩ := by
  let nxt : SplitOpState E H → SplitOpState E H := fun s =>
    if gfirst then
      let z := Q (A.matvec s.x + s.u)
      let x := inv s.x (z - s.u) (1 / √τ)
      ⟨x, z, s.u + A.matvec s.x - z, A.matvec s.x, s.log ++ [x]⟩
    else
      let x := inv s.x (s.z - s.u) (1 / √τ)
      let z := Q (A.matvec x + s.u)
      ⟨x, z, s.u + A.matvec x - z, A.matvec x, s.log ++ [x]⟩
  have hbody : ∀ i (s : SplitOpState E H), ADMML2.body inv g A τ gfirst i s = .ok (nxt s, false) := by
    intro i s
    cases gfirst <;> simp [ADMML2.body, hg, nxt, Bind.bind, Except.bind, Pure.pure, Except.pure]
  obtain ⟨S, h0, -, h2, h3⟩ := forRange_traj_nobreak (ADMML2.body inv g A τ gfirst) (fun _ => True)
    (fun _ s s' => s' = nxt s) (fun i s _ => ⟨_, hbody i s, trivial, rfl⟩) ⟨x0, z0.getD (A.matvec x0), 0, 0, []⟩ trivial
  have hlog : ∀ n, (S n).log = (List.range n).map fun i => (S (i + 1)).x := by
    intro n
    induction n with
    | zero => rw [h0]; rfl
    | succ n ih => rw [List.range_succ, List.map_append, ← ih]; cases gfirst <;> simp [h2 n, nxt]
  refine ⟨fun n => (S n).x, fun n => (S n).z, fun n => (S n).u, by simp [h0], by simp [h0], by simp [h0], fun hg n => ?_, fun hg n => ?_,
    fun n => ⟨(S n).Ax, ?_⟩⟩
  · subst hg; simp [h2 n, nxt]
  · subst hg; simp [h2 n, nxt]
  · rw [← hlog n, ← h3 n]
    cases z0 <;> simp [ADMML2, x0z0InitOp, Bind.bind, Except.bind, not_lt.2 hτ.le, hτ.ne']

/-- C47: `ADMML2` returns for every number of iterations, in either order. -/
theorem C47_admml2_returns (hg : ProxExact g G) (hτ : 0 < τ) (inv : E → H → ℝ → E) (x0 : E) (z0 : Option H) (gfirst : Bool) (n : ℕ) :
    ∃ r, ADMML2 inv g A (some x0) z0 τ n gfirst = .ok r := by
  obtain ⟨Q, hQ, -⟩ := proxExact_map hg hτ
  obtain ⟨X, Z, U, -, -, -, -, -, h⟩ := admml2_traj (A := A) (inv := inv) hτ hQ x0 z0 gfirst
  obtain ⟨ax, h⟩ := h n
  exact ⟨_, h⟩

/-- C47: in either order, if an iteration leaves `x`, `z` and `u` unchanged then `z = A x` and `x` minimises `½‖Op x - b‖² + G(A x)`. -/
theorem C47_admml2_stationary (hG : G.Convex) (hg : ProxExact g G) (hτ : 0 < τ) (hinv : SolvesReg Op b A inv) (x0 : E) (z0 : Option H)
    (gfirst : Bool) (n : ℕ) (r r' : SplitOpState E H) (hr : ADMML2 inv g A (some x0) z0 τ n gfirst = .ok r)
    (hr' : ADMML2 inv g A (some x0) z0 τ (n + 1) gfirst = .ok r') (hx : r'.x = r.x) (hz : r'.z = r.z) (hu : r'.u = r.u) :
    r'.z = A.matvec r'.x ∧ (compObj (misfit Op b) G A.matvec 0).IsMin r'.x := by
  obtain ⟨Q, hQ, hQ'⟩ := proxExact_map hg hτ
  obtain ⟨X, Z, U, -, -, -, hfl, htr, h⟩ := admml2_traj (A := A) (inv := inv) hτ hQ x0 z0 gfirst
  obtain ⟨ax, h1⟩ := h n
  obtain ⟨ax', h2⟩ := h (n + 1)
  rw [h1] at hr; rw [h2] at hr'
  cases hr; cases hr'
  simp only at hx hz hu ⊢
  have key : Z (n + 1) = Q (A.matvec (X (n + 1)) + U n) ∧ Z (n + 1) = A.matvec (X (n + 1)) ∧ X (n + 1) = inv (X n) (Z (n + 1) - U n) (1 / √τ) := by
    cases gfirst with
    | false =>
      obtain ⟨k1, k2, k3⟩ := hfl rfl n
      rw [hu, add_sub_assoc, left_eq_add, sub_eq_zero] at k3
      exact ⟨k2, k3.symm, by rw [hz]; exact k1⟩
    | true =>
      obtain ⟨k1, k2, k3⟩ := htr rfl n
      rw [hu, add_sub_assoc, left_eq_add, sub_eq_zero] at k3
      exact ⟨by rw [hx]; exact k1, by rw [hx]; exact k3.symm, k2⟩
  obtain ⟨k1, k2, k3⟩ := key
  refine ⟨k2, ?_⟩
  have s2 := subgrad_of_isProx hG hτ (hQ' (A.matvec (X (n + 1)) + U n))
  rw [← k1, k2, add_sub_cancel_left] at s2
  refine IsCertifiedComp.isMin (A := A) (y := (1 / τ) • U n) ⟨?_, s2⟩
  rw [misfit_subgrad_iff]
  intro w
  have h3 := solvesReg_normal hinv (X n) (Z (n + 1) - U n) (1 / √τ) w
  have hε : (1 / √τ) ^ 2 = 1 / τ := by rw [div_pow, one_pow, Real.sq_sqrt hτ.le]
  rw [← k3, hε, k2, sub_sub_cancel] at h3
  rw [sub_zero, inner_neg_left, map_smul, real_inner_smul_left, adj_flip]
  linarith

/-- C47 (partial: only the order `gfirst=False`, which is the default): in finite dimension, for every start, if the problem has a certified minimiser then
there is a minimiser `x` of `½‖Op x - b‖² + G(A x)` such that `A x_n → A x`, `z_n → A x` and `Op x_n → Op x`; if moreover no non-zero vector is annihilated
by both `Op` and `A`, the returned `x_n` converge to `x`. -/
theorem C47_admml2_converges_partial [FiniteDimensional ℝ E] [FiniteDimensional ℝ H] (hG : G.Convex) (hg : ProxExact g G) (hτ : 0 < τ)
    (hinv : SolvesReg Op b A inv) (x0 : E) (z0 : Option H) (hsol : ∃ a s, IsCertifiedComp (misfit Op b) G A.matvec A.rmatvec 0 a s)
    (R : ℕ → SplitOpState E H) (hR : ∀ n, ADMML2 inv g A (some x0) z0 τ n false = .ok (R n)) :
    ∃ x, (compObj (misfit Op b) G A.matvec 0).IsMin x ∧ Tendsto (fun n => A.matvec (R n).x) atTop (𝓝 (A.matvec x)) ∧
      Tendsto (fun n => (R n).z) atTop (𝓝 (A.matvec x)) ∧ Tendsto (fun n => Op.matvec (R n).x) atTop (𝓝 (Op.matvec x)) ∧
      ((∀ v, Op.matvec v = 0 → A.matvec v = 0 → v = 0) → Tendsto (fun n => (R n).x) atTop (𝓝 x)) := by
  haveI : ProperSpace H := FiniteDimensional.proper_real H
  obtain ⟨Q, hQ, hQ'⟩ := proxExact_map hg hτ
  obtain ⟨X, Z, U, hX0, hZ0, hU0, hfl, -, h⟩ := admml2_traj (A := A) (inv := inv) hτ hQ x0 z0 false
  have hfl := hfl rfl
  have hRx : ∀ n, (R n).x = X n ∧ (R n).z = Z n := fun n => by
    obtain ⟨ax, h⟩ := h n
    have := (hR n).symm.trans h; injection this with this
    rw [this]; exact ⟨rfl, rfl⟩
  have hε : (1 / √τ) ^ 2 = 1 / τ := by rw [div_pow, one_pow, Real.sq_sqrt hτ.le]
  have hτ' : 0 < 1 / τ := by positivity
  set S : H → H := fun w => A.matvec (inv 0 w (1 / √τ)) with hS
  have firmS : Firm S := fun d e => by
    have := solvesReg_firm hinv hτ 0 0 d e
    have h2 := sq_nonneg ‖Op.matvec (inv 0 d (1 / √τ)) - Op.matvec (inv 0 e (1 / √τ))‖
    exact le_of_mul_le_mul_left (by linarith) hτ'
  have Seq : ∀ y d, A.matvec (inv y d (1 / √τ)) = S d := fun y d => by
    have := solvesReg_firm hinv hτ y 0 d d
    rw [sub_self, inner_zero_right, mul_zero] at this
    have h2 : ‖A.matvec (inv y d (1 / √τ)) - A.matvec (inv 0 d (1 / √τ))‖ ^ 2 ≤ 0 := by
      have := sq_nonneg ‖Op.matvec (inv y d (1 / √τ)) - Op.matvec (inv 0 d (1 / √τ))‖
      by_contra hc
      push Not at hc
      have := mul_pos hτ' hc
      linarith
    have h3 : ‖A.matvec (inv y d (1 / √τ)) - A.matvec (inv 0 d (1 / √τ))‖ = 0 := by
      have := sq_nonneg ‖A.matvec (inv y d (1 / √τ)) - A.matvec (inv 0 d (1 / √τ))‖
      exact pow_eq_zero_iff two_ne_zero |>.1 (le_antisymm h2 this)
    exact sub_eq_zero.1 (norm_eq_zero.1 h3)
  have firmQ := firm_prox hG hτ hQ'
  -- the Douglas-Rachford variable
  set V : ℕ → H := fun n => A.matvec (X (n + 1)) + U n with hV
  have hZV : ∀ n, Z (n + 1) = Q (V n) := fun n => (hfl n).2.1
  have hUV : ∀ n, U (n + 1) = V n - Q (V n) := fun n => by rw [(hfl n).2.2, hZV n, hV]; simp only; abel
  have hAX : ∀ n, A.matvec (X (n + 2)) = S ((2 : ℝ) • Q (V n) - V n) := fun n => by
    rw [(hfl (n + 1)).1, Seq, hZV, hUV]; congr 1; rw [two_smul]; abel
  have hstep : ∀ n, V (n + 1) = drStep Q S 1 (V n) := fun n => by
    simp only [drStep, one_smul]
    rw [← hAX]
    show A.matvec (X (n + 2)) + U (n + 1) = _
    rw [hUV]; abel
  have fixiff : ∀ c, drStep Q S 1 c = c → IsCertifiedComp (misfit Op b) G A.matvec A.rmatvec 0 (inv 0 ((2 : ℝ) • Q c - c) (1 / √τ)) ((1 / τ) • (c - Q c)) ∧
      A.matvec (inv 0 ((2 : ℝ) • Q c - c) (1 / √τ)) = Q c := by
    intro c hc
    have h1 : S ((2 : ℝ) • Q c - c) = Q c := by
      unfold drStep at hc
      rw [one_smul, add_eq_left, sub_eq_zero] at hc
      exact hc
    have h1' : A.matvec (inv 0 ((2 : ℝ) • Q c - c) (1 / √τ)) = Q c := h1
    refine ⟨⟨?_, ?_⟩, h1'⟩
    · rw [misfit_subgrad_iff]
      intro w
      have h3 := solvesReg_normal hinv 0 ((2 : ℝ) • Q c - c) (1 / √τ) w
      rw [hε, h1'] at h3
      have h4 : Q c - ((2 : ℝ) • Q c - c) = c - Q c := by rw [two_smul]; abel
      rw [h4] at h3
      rw [sub_zero, inner_neg_left, map_smul, real_inner_smul_left, adj_flip]
      linarith
    · rw [h1']; exact subgrad_of_isProx hG hτ (hQ' c)
  -- a certified minimiser gives a fixed point
  have hne : ∃ c, drStep Q S 1 c = c := by
    obtain ⟨a, s, hs1, hs2⟩ := hsol
    refine ⟨A.matvec a + τ • s, ?_⟩
    have hq : Q (A.matvec a + τ • s) = A.matvec a := by
      have : IsProx G τ (A.matvec a + τ • s) (A.matvec a) := by
        refine isProx_of_subgrad hτ ?_
        rw [add_sub_cancel_left, smul_smul, one_div, inv_mul_cancel₀ hτ.ne', one_smul]
        exact hs2
      exact IsProx.unique hG hτ this (hQ' _)
    unfold drStep
    rw [one_smul, add_eq_left, sub_eq_zero, hq]
    have h4 : (2 : ℝ) • A.matvec a - (A.matvec a + τ • s) = A.matvec a - τ • s := by rw [two_smul]; abel
    rw [h4]
    -- `a` solves the regularised problem with data `A a - τ s`
    rw [misfit_subgrad_iff] at hs1
    set y := inv 0 (A.matvec a - τ • s) (1 / √τ) with hy
    have n1 := solvesReg_normal hinv 0 (A.matvec a - τ • s) (1 / √τ) (y - a)
    have n2 := hs1 (y - a)
    rw [← hy, hε] at n1
    rw [sub_zero, inner_neg_left, adj_flip] at n2
    have e1 : ⟪Op.matvec y - b, Op.matvec (y - a)⟫ = ⟪Op.matvec a - b, Op.matvec (y - a)⟫ + ‖Op.matvec (y - a)‖ ^ 2 := by
      rw [← real_inner_self_eq_norm_sq, ← inner_add_left, map_sub]; congr 1; abel
    have e2 : ⟪A.matvec y - (A.matvec a - τ • s), A.matvec (y - a)⟫ = ‖A.matvec (y - a)‖ ^ 2 + τ * ⟪s, A.matvec (y - a)⟫ := by
      rw [← real_inner_self_eq_norm_sq, ← real_inner_smul_left, ← inner_add_left, map_sub]; congr 1; abel
    rw [e1, e2, n2, mul_add, ← mul_assoc, one_div_mul_cancel hτ.ne', one_mul] at n1
    have h5 : ‖A.matvec (y - a)‖ ^ 2 ≤ 0 := by
      have := sq_nonneg ‖Op.matvec (y - a)‖
      by_contra hc
      push Not at hc
      have := mul_pos hτ' hc
      linarith
    have h6 : ‖A.matvec (y - a)‖ = 0 := pow_eq_zero_iff two_ne_zero |>.1 (le_antisymm h5 (sq_nonneg _))
    have h7 := norm_eq_zero.1 h6
    rw [map_sub] at h7
    exact sub_eq_zero.1 h7
  obtain ⟨c, hc, hlim⟩ := dr_converges firmQ firmS one_pos (by norm_num) hne V hstep
  obtain ⟨hcert, hAx⟩ := fixiff c hc
  set x := inv 0 ((2 : ℝ) • Q c - c) (1 / √τ) with hx
  have hQlim : Tendsto (fun n => Q (V n)) atTop (𝓝 (Q c)) := (firmQ.continuous.tendsto c).comp hlim
  have hW : Tendsto (fun n => (2 : ℝ) • Q (V n) - V n) atTop (𝓝 ((2 : ℝ) • Q c - c)) := (hQlim.const_smul 2).sub hlim
  have hAlim : Tendsto (fun n => A.matvec (X n)) atTop (𝓝 (A.matvec x)) := by
    rw [← tendsto_add_atTop_iff_nat 2]
    exact ((firmS.continuous.tendsto _).comp hW).congr fun n => (hAX n).symm
  have hOlim : Tendsto (fun n => Op.matvec (X n)) atTop (𝓝 (Op.matvec x)) := by
    rw [← tendsto_add_atTop_iff_nat 2, tendsto_iff_norm_sub_tendsto_zero]
    have hb : ∀ n, ‖Op.matvec (X (n + 2)) - Op.matvec x‖ ≤ √(1 / τ) * ‖((2 : ℝ) • Q (V n) - V n) - ((2 : ℝ) • Q c - c)‖ := by
      intro n
      have e : X (n + 2) = inv (X (n + 1)) ((2 : ℝ) • Q (V n) - V n) (1 / √τ) := by
        rw [(hfl (n + 1)).1, hZV, hUV]; congr 1; rw [two_smul]; abel
      have h1 := solvesReg_firm hinv hτ (X (n + 1)) 0 ((2 : ℝ) • Q (V n) - V n) ((2 : ℝ) • Q c - c)
      rw [← e, ← hx] at h1
      have h2 := real_inner_le_norm (A.matvec (X (n + 2)) - A.matvec x) (((2 : ℝ) • Q (V n) - V n) - ((2 : ℝ) • Q c - c))
      set p := ‖A.matvec (X (n + 2)) - A.matvec x‖
      set q := ‖((2 : ℝ) • Q (V n) - V n) - ((2 : ℝ) • Q c - c)‖ with hq
      have h3 : ‖Op.matvec (X (n + 2)) - Op.matvec x‖ ^ 2 ≤ 1 / τ * q ^ 2 := by
        have h4 := mul_le_mul_of_nonneg_left h2 hτ'.le
        have h5 : 1 / τ * (p * q) ≤ 1 / τ * (p ^ 2 + q ^ 2) := mul_le_mul_of_nonneg_left (by nlinarith [sq_nonneg (p - q)]) hτ'.le
        rw [mul_add] at h5
        linarith
      have h6 : (√(1 / τ) * q) ^ 2 = 1 / τ * q ^ 2 := by rw [mul_pow, Real.sq_sqrt hτ'.le]
      rw [← h6] at h3
      exact (pow_le_pow_iff_left₀ (norm_nonneg _) (by positivity) two_ne_zero).1 h3
    refine squeeze_zero (fun n => norm_nonneg _) hb ?_
    have := (tendsto_iff_norm_sub_tendsto_zero.1 hW).const_mul √(1 / τ)
    rwa [mul_zero] at this
  refine ⟨x, hcert.isMin, by simpa only [hRx] using hAlim, ?_, by simpa only [hRx] using hOlim, fun hinj => ?_⟩
  · simp only [hRx]
    rw [← tendsto_add_atTop_iff_nat 1, hAx]
    exact hQlim.congr fun n => (hZV n).symm
  · simp only [hRx]
    obtain ⟨K, -, hK⟩ := (Op.matvec.prod A.matvec).exists_antilipschitzWith (by
      rw [LinearMap.ker_eq_bot']
      intro v hv
      exact hinj v (congrArg Prod.fst hv) (congrArg Prod.snd hv))
    have hp : Tendsto (fun n => (Op.matvec.prod A.matvec) (X n)) atTop (𝓝 ((Op.matvec.prod A.matvec) x)) := by
      simp only [LinearMap.prod_apply]
      exact hOlim.prodMk_nhds hAlim
    rw [tendsto_iff_dist_tendsto_zero] at hp ⊢
    refine squeeze_zero (fun n => dist_nonneg) (fun n => hK.le_mul_dist _ _) ?_
    have := hp.const_mul (K : ℝ)
    rwa [mul_zero] at this

/-- C47 refuted for `gfirst=True`: the dual update uses the `A x` of the *previous* iterate.  With no data term (`Op = 0`), `A` the identity and `g` the
indicator of the origin (whose minimiser is `0`), the iterates have period six from every start: after `6 k` iterations the solver returns `x0` again. -/
theorem C47_admml2_gfirst_refuted {g : ProxOp E} (hg : ProxExact g (XFun.indicator {(0 : E)})) (A Op : LinOp E E) (hA : ∀ v, A.matvec v = v)
    (hOp : ∀ v, Op.matvec v = 0) (inv : E → E → ℝ → E) (hinv : SolvesReg Op 0 A inv) (hτ : 0 < τ) (x0 : E) (k : ℕ) :
    (compObj (misfit Op 0) (XFun.indicator {(0 : E)}) A.matvec 0).IsMin 0 ∧
      ∃ r, ADMML2 inv g A (some x0) none τ (6 * k) true = .ok r ∧ r.x = x0 := by
  obtain ⟨Q, hQ, hQ'⟩ := proxExact_map hg hτ
  have hQ0 : ∀ v, Q v = 0 := fun v => (hQ' v).1
  obtain ⟨X, Z, U, hX0, -, hU0, -, htr, h⟩ := admml2_traj (A := A) (inv := inv) hτ hQ x0 none true
  have htr := htr rfl
  have hI : ∀ y d, inv y d (1 / √τ) = d := fun y d => by
    have := hinv y d (1 / √τ) d
    simp only [hOp, hA, sub_self, norm_zero, zero_pow two_ne_zero, zero_add, mul_zero, add_zero] at this
    have hε : 0 < (1 / √τ) ^ 2 := by positivity
    have h2 : ‖inv y d (1 / √τ) - d‖ ^ 2 ≤ 0 := by
      by_contra hc
      push Not at hc
      have := mul_pos hε hc
      linarith
    have h3 := pow_eq_zero_iff two_ne_zero |>.1 (le_antisymm h2 (sq_nonneg _))
    exact sub_eq_zero.1 (norm_eq_zero.1 h3)
  have hX : ∀ n, X (n + 1) = -U n := fun n => by rw [(htr n).2.1, hI, (htr n).1, hQ0, zero_sub]
  have hU : ∀ n, U (n + 1) = U n + X n := fun n => by rw [(htr n).2.2, (htr n).1, hQ0, hA, sub_zero]
  have per : ∀ n, X (n + 6) = X n ∧ U (n + 6) = U n := by
    intro n
    have hX' : ∀ m, X (n + (m + 1)) = -U (n + m) := fun m => hX (n + m)
    have hU' : ∀ m, U (n + (m + 1)) = U (n + m) + X (n + m) := fun m => hU (n + m)
    have a1 := hX' 0; have a2 := hX' 1; have a3 := hX' 2; have a4 := hX' 3; have a5 := hX' 4; have a6 := hX' 5
    have b1 := hU' 0; have b2 := hU' 1; have b3 := hU' 2; have b4 := hU' 3; have b5 := hU' 4; have b6 := hU' 5
    simp only [zero_add, add_zero, Nat.reduceAdd] at a1 a2 a3 a4 a5 a6 b1 b2 b3 b4 b5 b6
    constructor
    · rw [a6, b5, a4, b4, a3, b3, a2, b2, a1, b1]; abel
    · rw [b6, a5, b5, a4, b4, a3, b3, a2, b2, a1, b1]; abel
  have perk : ∀ k, X (6 * k) = x0 ∧ U (6 * k) = 0 := by
    intro k
    induction k with
    | zero => exact ⟨hX0, hU0⟩
    | succ k ih =>
      have := per (6 * k)
      rw [show 6 * (k + 1) = 6 * k + 6 by ring]
      exact ⟨this.1.trans ih.1, this.2.trans ih.2⟩
  refine ⟨⟨⟨trivial, by rw [map_zero]; exact rfl⟩, fun y hy => ?_⟩, ?_⟩
  · have hy' : y = 0 := by have := hy.2; rw [hA] at this; exact this
    rw [hy']
  · obtain ⟨ax, h⟩ := h (6 * k)
    exact ⟨_, h, (perk k).1⟩

/-- The hypotheses of C47 are met: any operators, `g` the L1 norm, zero data; and the refutation's: the box with equal bounds. -/
example {ι κ : Type} [Fintype ι] [Fintype κ] (A : LinOp (Vec ι) (Vec κ)) (Op : LinOp (Vec ι) (Vec κ)) :
    ∃ (g : ProxOp (Vec κ)) (G : XFun (Vec κ)), G.Convex ∧ ProxExact g G ∧ ∃ x s, IsCertifiedComp (misfit Op 0) G A.matvec A.rmatvec 0 x s := by
  refine ⟨L1 1 none, _, l1_convex, l1_proxExact, 0, 0, ?_, ?_⟩
  · rw [misfit_subgrad_iff]; simp
  · rw [map_zero]
    refine ⟨trivial, fun y _ => ?_⟩
    simp only [XFun.ofReal, inner_zero_left, PiLp.zero_apply, sub_zero, abs_zero, Finset.sum_const_zero, one_mul, add_zero]
    exact Finset.sum_nonneg fun i _ => abs_nonneg _

/-- The hypotheses of the refutation are met on the line: the box `[0, 0]` and the solver that returns the data. -/
example : ∃ (g : ProxOp (Vec (Fin 1))) (A Op : LinOp (Vec (Fin 1)) (Vec (Fin 1))) (inv : Vec (Fin 1) → Vec (Fin 1) → ℝ → Vec (Fin 1)),
    ProxExact g (XFun.indicator {(0 : Vec (Fin 1))}) ∧ (∀ v, A.matvec v = v) ∧ (∀ v, Op.matvec v = 0) ∧ SolvesReg Op 0 A inv := by
  refine ⟨Box (fun _ => some 0) (fun _ => some 0), ⟨LinearMap.id, LinearMap.id, fun _ _ => rfl⟩, ⟨0, 0, fun _ _ => by simp⟩, fun _ d _ => d, ?_,
    fun _ => rfl, fun _ => rfl, fun x0 d ε y => ?_⟩
  · have h := box_proxExact (ι := Fin 1) (fun _ => some 0) (fun _ => some 0) (by intro i a b ha hb; cases ha; cases hb; exact le_rfl)
    have e : boxSet (ι := Fin 1) (fun _ => some 0) (fun _ => some 0) = {0} := by
      ext y
      constructor
      · intro hy
        rw [Set.mem_singleton_iff]
        ext i
        exact le_antisymm ((hy i).2 0 rfl) ((hy i).1 0 rfl)
      · intro hy
        rw [Set.mem_singleton_iff] at hy
        subst hy
        exact fun i => ⟨fun l hl => by cases hl; exact le_rfl, fun u hu => by cases hu; exact le_rfl⟩
    rwa [e] at h
  · simp only [LinearMap.zero_apply, LinearMap.id_apply, sub_self, norm_zero]
    nlinarith [mul_nonneg (sq_nonneg ε) (sq_nonneg ‖y - d‖)]

end Verif
