import Verif.Props.Splitting
import Verif.Props.PrimalDual
import Verif.Props.AdaptivePD
import Verif.Props.ProxGrad
import Verif.Props.ProxPoint
import Verif.Props.Parallel
import Verif.Props.Stops

/-!
# C116: what a run says about its own accuracy

First the change in one iteration bounds the distance of the objective from its minimum.  Then what a run that stopped on its
tolerance guarantees.  Last, tolerances that guarantee nothing.
-/

namespace Verif

open Filter Topology
open scoped RealInnerProductSpace

variable {E H : Type} [NormedAddCommGroup E] [InnerProductSpace ℝ E] [NormedAddCommGroup H] [InnerProductSpace ℝ H]
variable {f g : ProxOp E} {φ : E → ℝ} {F G : XFun E} {τ ε L η : ℝ}

lemma subgrad_le {F : XFun E} {p s : E} (h : IsSubgrad F p s) {c : E} (hc : c ∈ F.dom) : F.val p - F.val c ≤ ⟪s, p - c⟫ := by
  have := h.2 c hc
  rw [← neg_sub p c, inner_neg_right] at this
  linarith

/-! ## From one iteration to the next -/

/-- **C116** `ProximalPoint`: the change in the last iteration is `tau` times a subgradient at the returned point, so it bounds the
distance of the objective from its value at any other point. -/
theorem C116_proximalpoint (hF : F.Convex) (hf : ProxExact f F) (x0 : E) (hτ : 0 < τ) (n : ℕ) (s s' : PPState E)
    (hs : ProximalPoint f x0 τ n none = .ok s) (hs' : ProximalPoint f x0 τ (n + 1) none = .ok s') :
    (∃ u, IsSubgrad F s'.x u ∧ ‖u‖ = ‖s.x - s'.x‖ / τ) ∧
      ∀ c ∈ F.dom, F.val s'.x - F.val c ≤ ‖s.x - s'.x‖ / τ * ‖s'.x - c‖ := by
  obtain ⟨P, hP, hPx⟩ := proxExact_map hf hτ
  obtain ⟨T, -, hT, h⟩ := pp_traj hP x0
  rw [h] at hs hs'
  cases hs; cases hs'
  have hu := subgrad_of_isProx hF hτ (hPx (T n))
  rw [← hT] at hu
  have hn : ‖(1 / τ) • (T n - T (n + 1))‖ = ‖T n - T (n + 1)‖ / τ := by
    rw [norm_smul, Real.norm_of_nonneg (by positivity)]; ring
  refine ⟨⟨_, hu, hn⟩, fun c hc => (subgrad_le hu hc).trans ?_⟩
  rw [← hn]
  exact real_inner_le_norm _ _

/-- **C116** `ProximalGradient`, any acceleration and any positive step: the distance between the point at which the gradient was taken
(`y`) and the new point bounds a subgradient of the objective at the new point, and with it the distance of the objective from its minimum. -/
theorem C116_proximalgradient (hf : GradExact f φ) (hL : LipschitzGrad φ L) (hφ : ConvexOn ℝ Set.univ φ) (hF : F.Convex) (hg : ProxExact g F)
    (hε : 0 < ε) (hτ : 0 < τ) (acc : Accel) (hacc : acc ≠ .other) (x0 : E) (n : ℕ) (hn : 0 < n) (s s' : PGState E)
    (hs : ProximalGradient f g x0 (pgArgs τ ε acc n) = .ok s) (hs' : ProximalGradient f g x0 (pgArgs τ ε acc (n + 1)) = .ok s') :
    (∃ d u, f.grad s'.x = .ok d ∧ IsSubgrad (F.smul ε) s'.x u ∧ ‖d + u‖ ≤ (1 / τ + L) * ‖s.y - s'.x‖) ∧
      ∀ c ∈ F.dom, (compositeObj φ ε F).val s'.x - (compositeObj φ ε F).val c ≤ (1 / τ + L) * ‖s.y - s'.x‖ * ‖s'.x - c‖ := by
  obtain ⟨G, hG, hGr⟩ := gradExact_map hf
  obtain ⟨P, hP, hPx⟩ := pg_maps hg hε hτ
  obtain ⟨X, Y, t, hX0, hY0, ht0, hX, ht, hY, h⟩ := pg_traj hG hP acc hacc x0
  rw [h n hn] at hs
  rw [h (n + 1) n.succ_pos] at hs'
  cases hs; cases hs'
  have hu := subgrad_of_isProx (smulConvex hF hε.le) hτ (hPx (Y n - τ • G (Y n)))
  rw [← hX] at hu
  set p := X (n + 1) with hp
  have he : G p + (1 / τ) • (Y n - τ • G (Y n) - p) = (1 / τ) • (Y n - p) + (G p - G (Y n)) := by
    rw [smul_sub, smul_sub, smul_smul, one_div_mul_cancel hτ.ne', one_smul, smul_sub]; abel
  have hnorm : ‖G p + (1 / τ) • (Y n - τ • G (Y n) - p)‖ ≤ (1 / τ + L) * ‖Y n - p‖ := by
    rw [he, add_mul]
    refine (norm_add_le _ _).trans (add_le_add ?_ ?_)
    · rw [norm_smul, Real.norm_of_nonneg (by positivity)]
    · rw [norm_sub_rev (Y n)]; exact hL _ _ _ _ (hGr p) (hGr (Y n))
  refine ⟨⟨G p, _, hG p, hu, hnorm⟩, fun c hc => ?_⟩
  have h1 := subgrad_le hu hc
  have h2 := grad_ineq hφ (hGr p) c
  rw [← neg_sub p c, inner_neg_right] at h2
  have h3 := real_inner_le_norm (G p + (1 / τ) • (Y n - τ • G (Y n) - p)) (p - c)
  rw [inner_add_left] at h3
  have h4 := mul_le_mul_of_nonneg_right hnorm (norm_nonneg (p - c))
  simp only [compositeObj, XFun.add, XFun.ofReal]
  linarith

/-- **C116** `ADMM`: the classical bound by the primal and the dual residual. -/
theorem C116_admm (hF : F.Convex) (hG : G.Convex) (hf : ProxExact f F) (hg : ProxExact g G) (hτ : 0 < τ) (gfirst : Bool) (x0 z0 : Option E)
    (n : ℕ) (s s' : SplitState E) (hs : ADMM f g x0 z0 τ n gfirst = .ok s) (hs' : ADMM f g x0 z0 τ (n + 1) gfirst = .ok s') (c : E)
    (hc : c ∈ (F.add G).dom) :
    F.val s'.x + G.val s'.z - (F.add G).val c ≤
      (‖s'.u‖ * ‖s'.x - s'.z‖ + if gfirst then ‖s'.x - s.x‖ * ‖s'.z - c‖ else ‖s'.z - s.z‖ * ‖s'.x - c‖) / τ := by
  obtain ⟨Pf, hPf, hPf'⟩ := proxExact_map hf hτ
  obtain ⟨Pg, hPg, hPg'⟩ := proxExact_map hg hτ
  rcases hinit : x0z0Init x0 z0 with e | ⟨x, z⟩
  · simp [ADMM, hinit, Bind.bind, Except.bind] at hs
  obtain ⟨S, -, -, -, hu, ht, hff, -, hS⟩ := admm_traj hPf hPg gfirst x0 z0 x z hinit
  rw [hS] at hs hs'
  cases hs; cases hs'
  have hun := hu n
  rw [le_div_iff₀ hτ, show (F.add G).val c = F.val c + G.val c from rfl]
  cases gfirst with
  | false =>
    obtain ⟨h1, h2⟩ := hff rfl n
    have k1 := subgrad_of_isProx hF hτ (hPf' ((S n).z - (S n).u))
    have k2 := subgrad_of_isProx hG hτ (hPg' ((S (n + 1)).x + (S n).u))
    rw [← h1] at k1
    rw [← h2] at k2
    have k1 := subgrad_le k1 hc.1
    have k2 := subgrad_le k2 hc.2
    have e1 : (S n).z - (S n).u - (S (n + 1)).x = -(S (n + 1)).u - ((S (n + 1)).z - (S n).z) := by rw [hun]; abel
    have e2 : (S (n + 1)).x + (S n).u - (S (n + 1)).z = (S (n + 1)).u := by rw [hun]; abel
    rw [e1, real_inner_smul_left] at k1
    rw [e2, real_inner_smul_left] at k2
    have m1 := mul_le_mul_of_nonneg_right k1 hτ.le
    have m2 := mul_le_mul_of_nonneg_right k2 hτ.le
    rw [mul_right_comm, one_div_mul_cancel hτ.ne', one_mul] at m1 m2
    have b1 := real_inner_le_norm (-(S (n + 1)).u) ((S (n + 1)).x - (S (n + 1)).z)
    have b2 := real_inner_le_norm (-((S (n + 1)).z - (S n).z)) ((S (n + 1)).x - c)
    rw [norm_neg] at b1 b2
    simp only [inner_sub_left, inner_sub_right, inner_neg_left, Bool.false_eq_true, if_false] at m1 m2 b1 b2 ⊢
    linarith
  | true =>
    obtain ⟨h1, h2⟩ := ht rfl n
    have k1 := subgrad_of_isProx hF hτ (hPf' ((S (n + 1)).z - (S n).u))
    have k2 := subgrad_of_isProx hG hτ (hPg' ((S n).x + (S n).u))
    rw [← h2] at k1
    rw [← h1] at k2
    have k1 := subgrad_le k1 hc.1
    have k2 := subgrad_le k2 hc.2
    have e1 : (S (n + 1)).z - (S n).u - (S (n + 1)).x = -(S (n + 1)).u := by rw [hun]; abel
    have e2 : (S n).x + (S n).u - (S (n + 1)).z = (S (n + 1)).u - ((S (n + 1)).x - (S n).x) := by rw [hun]; abel
    rw [e1, real_inner_smul_left] at k1
    rw [e2, real_inner_smul_left] at k2
    have m1 := mul_le_mul_of_nonneg_right k1 hτ.le
    have m2 := mul_le_mul_of_nonneg_right k2 hτ.le
    rw [mul_right_comm, one_div_mul_cancel hτ.ne', one_mul] at m1 m2
    have b1 := real_inner_le_norm (-(S (n + 1)).u) ((S (n + 1)).x - (S (n + 1)).z)
    have b2 := real_inner_le_norm (-((S (n + 1)).x - (S n).x)) ((S (n + 1)).z - c)
    rw [norm_neg] at b1 b2
    simp only [inner_sub_left, inner_sub_right, inner_neg_left, if_true] at m1 m2 b1 b2 ⊢
    linarith

/-- **C116** `DouglasRachford`: the change of `y` bounds the objective, one function taken at the returned `x` and the other at
`w = x + (change of y)/eta`. -/
theorem C116_dr (hF : F.Convex) (hG : G.Convex) (hf : ProxExact f F) (hg : ProxExact g G) (hτ : 0 < τ) (hη : η ≠ 0) (gfirst : Bool) (x0 : E)
    (n : ℕ) (r r' : E × E × List (E × E)) (hr : DouglasRachford f g x0 τ η (n + 1) gfirst = .ok r)
    (hr' : DouglasRachford f g x0 τ η (n + 2) gfirst = .ok r') (c : E) (hc : c ∈ (F.add G).dom) :
    let w := r'.1 + (1 / η) • (r'.2.1 - r.2.1)
    (if gfirst then G.val r'.1 + F.val w else F.val r'.1 + G.val w) - (F.add G).val c ≤ ‖r'.1 - w‖ * (‖w - c‖ + ‖r.2.1 - r'.1‖) / τ := by
  obtain ⟨Pf, hPf, hPf'⟩ := proxExact_map hf hτ
  obtain ⟨Pg, hPg, hPg'⟩ := proxExact_map hg hτ
  obtain ⟨Y, hY0, hY, h⟩ := dr_traj hPf hPg η gfirst x0
  rw [h] at hr hr'
  cases hr; cases hr'
  have key : ∀ {P₁ P₂ : E → E} {F₁ F₂ : XFun E}, F₁.Convex → F₂.Convex → (∀ x, IsProx F₁ τ x (P₁ x)) → (∀ x, IsProx F₂ τ x (P₂ x)) →
      c ∈ F₁.dom → c ∈ F₂.dom → ∀ y y', y' = drStep P₁ P₂ η y →
      F₁.val (P₁ y) + F₂.val (P₁ y + (1 / η) • (y' - y)) - (F₁.val c + F₂.val c) ≤
        ‖P₁ y - (P₁ y + (1 / η) • (y' - y))‖ * (‖P₁ y + (1 / η) • (y' - y) - c‖ + ‖y - P₁ y‖) / τ := by
    intro P₁ P₂ F₁ F₂ c1 c2 p1 p2 d1 d2 y y' hy
    have hw : P₁ y + (1 / η) • (y' - y) = P₂ ((2 : ℝ) • P₁ y - y) := by
      rw [hy, drStep, add_sub_cancel_left, smul_smul, one_div_mul_cancel hη, one_smul]; abel
    have k1 := subgrad_le (subgrad_of_isProx c1 hτ (p1 y)) d1
    have k2 := subgrad_le (subgrad_of_isProx c2 hτ (p2 ((2 : ℝ) • P₁ y - y))) d2
    rw [hw]
    set w := P₂ ((2 : ℝ) • P₁ y - y)
    set x := P₁ y
    rw [real_inner_smul_left] at k1 k2
    have m1 := mul_le_mul_of_nonneg_right k1 hτ.le
    have m2 := mul_le_mul_of_nonneg_right k2 hτ.le
    rw [mul_right_comm, one_div_mul_cancel hτ.ne', one_mul] at m1 m2
    have b1 := real_inner_le_norm (x - w) (w - c)
    have b2 := real_inner_le_norm (x - w) (y - x)
    rw [le_div_iff₀ hτ]
    simp only [two_smul, inner_sub_left, inner_sub_right, inner_add_left, real_inner_comm x y, real_inner_comm w y, real_inner_comm x w,
      real_inner_comm c x, real_inner_comm c w, real_inner_comm c y] at m1 m2 b1 b2 ⊢
    linarith
  cases gfirst with
  | true =>
    have := key hG hF hPg' hPf' hc.2 hc.1 (Y (n + 1)) (Y (n + 2)) (by simpa using hY (n + 1))
    simp only [if_true, show (F.add G).val c = F.val c + G.val c from rfl]
    rw [add_comm (F.val c)]
    exact this
  | false =>
    have := key hF hG hPf' hPg' hc.1 hc.2 (Y (n + 1)) (Y (n + 2)) (by simpa using hY (n + 1))
    exact this

/-- **C116** `PrimalDual`, any `theta`, either order: the two residuals bound the gap of the Lagrangian `F(x) + ⟨z, x⟩ + ⟨A x, y⟩ - G*(y)`. -/
theorem C116_primaldual {g : ProxOp H} {G : XFun H} {A : LinOp E H} {μ : ℝ} (hF : F.Convex) (hGc : G.conj.Convex) (hf : ProxExact f F)
    (hd : ProxdualExact g G.conj) (hτ : 0 < τ) (hμ : 0 < μ) (θ : ℝ) (z : Option E) (gfirst : Bool) (x0 : E) (y0 : Option H) (n : ℕ)
    (s s' : PDState E H) (hs : PrimalDual f g A x0 y0 z (.scalar τ) (.scalar μ) θ n gfirst = .ok s)
    (hs' : PrimalDual f g A x0 y0 z (.scalar τ) (.scalar μ) θ (n + 1) gfirst = .ok s') (a : E) (ha : a ∈ F.dom) (b : H) (hb : b ∈ G.conj.dom) :
    let p := (1 / τ) • (s.x - s'.x) + if gfirst then 0 else A.rmatvec (s'.y - s.y)
    let d := (1 / μ) • (s.y - s'.y) + if gfirst then A.matvec (s.xhat - s'.x) else A.matvec (θ • (s'.x - s.x))
    (F.val s'.x + ⟪z.getD 0, s'.x⟫ + ⟪A.matvec s'.x, b⟫ - G.conj.val b) - (F.val a + ⟪z.getD 0, a⟫ + ⟪A.matvec a, s'.y⟫ - G.conj.val s'.y) ≤
      ‖p‖ * ‖s'.x - a‖ + ‖d‖ * ‖s'.y - b‖ := by
  obtain ⟨P, hP, hP'⟩ := proxExact_map hf hτ
  have hD : ∃ D : H → H, (∀ v, g.proxdual v μ = .ok (D v)) ∧ ∀ v, IsProx G.conj μ v (D v) := by
    choose D h1 h2 using fun v => hd v μ hμ
    exact ⟨D, h1, h2⟩
  obtain ⟨D, hD, hD'⟩ := hD
  obtain ⟨X, Y, Xh, hX0, hXh0, hY0, hXh, ht, hfl, h⟩ := pd_traj (A := A) hP hD x0 y0 z θ gfirst
  rw [h] at hs hs'
  cases hs; cases hs'
  simp only
  -- the general bound
  have key : ∀ (x' : E) (y' : H) (u : E) (v : H), IsSubgrad F x' u → IsSubgrad G.conj y' v →
      (F.val x' + ⟪z.getD 0, x'⟫ + ⟪A.matvec x', b⟫ - G.conj.val b) - (F.val a + ⟪z.getD 0, a⟫ + ⟪A.matvec a, y'⟫ - G.conj.val y') ≤
        ‖u + z.getD 0 + A.rmatvec y'‖ * ‖x' - a‖ + ‖v - A.matvec x'‖ * ‖y' - b‖ := by
    intro x' y' u v hu hv
    have k1 := subgrad_le hu ha
    have k2 := subgrad_le hv hb
    have b1 := real_inner_le_norm (u + z.getD 0 + A.rmatvec y') (x' - a)
    have b2 := real_inner_le_norm (v - A.matvec x') (y' - b)
    have e1 : ⟪A.rmatvec y', x' - a⟫ = ⟪A.matvec x', y'⟫ - ⟪A.matvec a, y'⟫ := by
      rw [real_inner_comm, ← A.dot, map_sub, inner_sub_left]
    rw [inner_add_left, inner_add_left, e1] at b1
    rw [inner_sub_left] at b2
    simp only [inner_sub_right] at k1 k2 b1 b2
    linarith
  cases gfirst with
  | true =>
    obtain ⟨h1, h2⟩ := ht rfl n
    have k1 := subgrad_of_isProx hF hτ (hP' (X n - τ • (A.rmatvec (Y (n + 1)) + z.getD 0)))
    have k2 := subgrad_of_isProx hGc hμ (hD' (Y n + μ • A.matvec (Xh n)))
    rw [← h2] at k1
    rw [← h1] at k2
    have := key _ _ _ _ k1 k2
    have e1 : (1 / τ) • (X n - τ • (A.rmatvec (Y (n + 1)) + z.getD 0) - X (n + 1)) + z.getD 0 + A.rmatvec (Y (n + 1)) =
        (1 / τ) • (X n - X (n + 1)) + 0 := by
      simp only [smul_sub, smul_smul, one_div_mul_cancel hτ.ne', one_smul]; abel
    have e2 : (1 / μ) • (Y n + μ • A.matvec (Xh n) - Y (n + 1)) - A.matvec (X (n + 1)) =
        (1 / μ) • (Y n - Y (n + 1)) + A.matvec (Xh n - X (n + 1)) := by
      simp only [smul_sub, smul_add, smul_smul, one_div_mul_cancel hμ.ne', one_smul, map_sub]; abel
    rw [e1, e2] at this
    simpa only [if_true] using this
  | false =>
    obtain ⟨h1, h2⟩ := hfl rfl n
    have k1 := subgrad_of_isProx hF hτ (hP' (X n - τ • (A.rmatvec (Y n) + z.getD 0)))
    have k2 := subgrad_of_isProx hGc hμ (hD' (Y n + μ • A.matvec (Xh (n + 1))))
    rw [← h1] at k1
    rw [← h2] at k2
    have := key _ _ _ _ k1 k2
    have e1 : (1 / τ) • (X n - τ • (A.rmatvec (Y n) + z.getD 0) - X (n + 1)) + z.getD 0 + A.rmatvec (Y (n + 1)) =
        (1 / τ) • (X n - X (n + 1)) + A.rmatvec (Y (n + 1) - Y n) := by
      simp only [smul_sub, smul_smul, one_div_mul_cancel hτ.ne', one_smul, map_sub]; abel
    have e2 : (1 / μ) • (Y n + μ • A.matvec (Xh (n + 1)) - Y (n + 1)) - A.matvec (X (n + 1)) =
        (1 / μ) • (Y n - Y (n + 1)) + A.matvec (θ • (X (n + 1) - X n)) := by
      rw [hXh]
      simp only [smul_sub, smul_add, smul_smul, one_div_mul_cancel hμ.ne', one_smul, map_sub, map_add]; abel
    rw [e1, e2] at this
    simpa only [Bool.false_eq_true, if_false] using this

/-- **C116** `AdaptivePrimalDual`: the two norms on which it stops bound the gap of the Lagrangian. -/
theorem C116_adaptive {g : ProxOp H} {G : XFun H} {A : LinOp E H} {μ α : ℝ} {a : APDArgs E H} (hF : F.Convex) (hGc : G.conj.Convex)
    (hf : ProxExact f F) (hd : ProxdualExact g G.conj) (hτ : 0 < τ) (hμ : 0 < μ) (hα0 : 0 ≤ α) (hα1 : α < 1) (hη0 : 0 ≤ a.eta) (hη1 : a.eta < 1)
    (hz : a.z = none) (x0 : E) (r : APDState E H) (hr : AdaptivePrimalDual f g A x0 τ μ α a = .ok r) (hn : 0 < r.iiter) (x : E) (hx : x ∈ F.dom)
    (y : H) (hy : y ∈ G.conj.dom) :
    (F.val r.x + ⟪A.matvec r.x, y⟫ - G.conj.val y) - (F.val x + ⟪A.matvec x, r.y⟫ - G.conj.val r.y) ≤ r.p * ‖r.x - x‖ + r.d * ‖r.y - y‖ := by
  obtain ⟨u, v, hu, hv, hp, hd'⟩ := C73_apd_residuals_partial hF hGc hf hd hτ hμ hα0 hα1 hη0 hη1 hz x0 r hr hn
  rw [hp, hd']
  have k1 := subgrad_le hu hx
  have k2 := subgrad_le hv hy
  have b1 := real_inner_le_norm (u + A.rmatvec r.y) (r.x - x)
  have b2 := real_inner_le_norm (v - A.matvec r.x) (r.y - y)
  have e1 : ⟪A.rmatvec r.y, r.x - x⟫ = ⟪A.matvec r.x, r.y⟫ - ⟪A.matvec x, r.y⟫ := by
    rw [real_inner_comm, ← A.dot, map_sub, inner_sub_left]
  rw [inner_add_left, e1] at b1
  rw [inner_sub_left] at b2
  simp only [inner_sub_right] at k1 k2 b1 b2
  linarith


/-- **C116** `ConsensusADMM`: the disagreement of the copies and the change of their mean together bound the objective. -/
theorem C116_consensus {m : ℕ} [NeZero m] {fs : Fin m → ProxOp E} {F : Fin m → XFun E} (hF : ∀ i, (F i).Convex) (hf : ∀ i, ProxExact (fs i) (F i))
    (hτ : 0 < τ) (x0 : E) (mx : E → ℝ) (hmx : ∀ v, 0 ≤ mx v) (n : ℕ) (s s' : ConsState E m) (hs : ConsensusADMM fs x0 τ n 0 mx = .ok s)
    (hs' : ConsensusADMM fs x0 τ (n + 1) 0 mx = .ok s') (c : E) (hc : c ∈ (sumObj F).dom) :
    ∑ i, (F i).val (s'.x i) - (sumObj F).val c ≤ (∑ i, ‖s'.y i‖ * ‖s'.x i - s'.xbar‖ + m * (‖s'.xbar - s.xbar‖ * ‖s'.xbar - c‖)) / τ := by
  have hm : (m : ℝ) ≠ 0 := Nat.cast_ne_zero.2 (NeZero.ne m)
  choose P hP hP' using fun i => proxExact_map (hf i) hτ
  obtain ⟨X, V, Y, hX0, hY0, hV, hX, hY, hrun⟩ := cons_traj hP x0 0 mx
  have full : ∀ n, ∃ xo, ConsensusADMM fs x0 τ n 0 mx = .ok ⟨X n, xo, V n, Y n, (List.range n).map fun i => X (i + 1)⟩ := by
    intro n
    obtain ⟨k, hk, xo, h1, -, h2⟩ := hrun n
    rcases hk.lt_or_eq with h | h
    · obtain ⟨j, -, hj⟩ := h2 h
      exact absurd hj (not_lt.2 (hmx _))
    · subst h; exact ⟨xo, h1⟩
  obtain ⟨xo, h1⟩ := full n
  obtain ⟨xo', h2⟩ := full (n + 1)
  rw [h1] at hs
  rw [h2] at hs'
  cases hs; cases hs'
  simp only
  have hYs : ∑ i, Y (n + 1) i = 0 := cons_sum_zero hY0 hX hY (n + 1)
  have hVs : ∑ i, V (n + 1) i = (m : ℝ) • X (n + 1) := by rw [hX, smul_smul, mul_one_div_cancel hm, one_smul]
  have hi : ∀ i, ((F i).val (V (n + 1) i) - (F i).val c) * τ ≤
      ‖Y (n + 1) i‖ * ‖V (n + 1) i - X (n + 1)‖ + (⟪X n - X (n + 1), V (n + 1) i - c⟫ - ⟪Y (n + 1) i, X (n + 1) - c⟫) := fun i => by
    have k := subgrad_of_isProx (hF i) hτ (hP' i (X n - Y n i))
    rw [← hV] at k
    have k := subgrad_le k (hc i)
    have e : X n - Y n i - V (n + 1) i = -Y (n + 1) i + (X n - X (n + 1)) := by rw [hY]; abel
    rw [e, real_inner_smul_left] at k
    have k := mul_le_mul_of_nonneg_right k hτ.le
    rw [mul_right_comm, one_div_mul_cancel hτ.ne', one_mul] at k
    have b := real_inner_le_norm (-Y (n + 1) i) (V (n + 1) i - X (n + 1))
    rw [norm_neg] at b
    simp only [inner_add_left, inner_neg_left, inner_sub_right] at k b ⊢
    linarith
  have hsum := Finset.sum_le_sum fun i (_ : i ∈ Finset.univ) => hi i
  rw [← Finset.sum_mul, Finset.sum_sub_distrib, Finset.sum_add_distrib, Finset.sum_sub_distrib, ← sum_inner, hYs, inner_zero_left, ← inner_sum,
    Finset.sum_sub_distrib, hVs, Finset.sum_const, Finset.card_univ, Fintype.card_fin, ← Nat.cast_smul_eq_nsmul ℝ, ← smul_sub, inner_smul_right] at hsum
  have b := real_inner_le_norm (X n - X (n + 1)) (X (n + 1) - c)
  rw [norm_sub_rev (X n)] at b
  have b := mul_le_mul_of_nonneg_left b (Nat.cast_nonneg (α := ℝ) m)
  rw [le_div_iff₀ hτ]
  simp only [sumObj]
  linarith

/-! ## Runs that stopped on their tolerance -/

/-- A loop whose length is shorter than its range ended in an iteration that broke. -/
lemma forRange_break {S : Type} {body : ℕ → S → Py (S × Bool)} {I : S → Prop} {len : S → ℕ}
    (hb : ∀ i s s' b, I s → body i s = .ok (s', b) → I s' ∧ len s' = len s + 1) :
    ∀ n i s r, I s → forRange body n i s = .ok r → len r = len s + n ∨ ∃ j q, I q ∧ body j q = .ok (r, true) := by
  intro n
  induction n with
  | zero => intro i s r _ h; cases h; exact .inl rfl
  | succ n ih =>
    intro i s r hs h
    simp only [forRange] at h
    cases hbd : body i s with
    | error e => rw [hbd] at h; cases h
    | ok p =>
      obtain ⟨s', b⟩ := p
      rw [hbd] at h
      obtain ⟨h1, h2⟩ := hb i s s' b hs hbd
      cases b with
      | true => simp only [if_true] at h; cases h; exact .inr ⟨i, s, hs, hbd⟩
      | false =>
        rcases ih (i + 1) s' r h1 h with h' | h'
        · left; omega
        · exact .inr h'

/-- The tolerance test turned into a bound of the decrease. -/
lemma ratio_decrease {u v t : ℝ} (hu : u ≠ 0) (h : |1 - v / u| < t) : u - v < t * |u| := by
  have h1 : |1 - v / u| * |u| = |u - v| := by rw [← abs_mul, sub_mul, one_mul, div_mul_cancel₀ _ hu]
  have h2 := mul_lt_mul_of_pos_right h (abs_pos.2 hu)
  rw [h1] at h2
  exact (le_abs_self _).trans_lt h2

/-- **C116** `ProximalPoint` with `tol=t <= 1`: if the run returns before its `niter` iterations are over, its last two iterates `p`, `x` are in the log and
the objective at `x` exceeds the minimum by at most `√(t |F(p)| / tau)` times the distance of the start from the minimiser. -/
theorem C116_proximalpoint_stopped (hF : F.Convex) (hf : ProxExact f F) (hcall : ∀ x ∈ F.dom, ∃ v, f.call x = .ok v ∧ v.toReal = F.val x)
    (x0 : E) (hτ : 0 < τ) {t : ℝ} (ht : t ≤ 1) (n : ℕ) (r : PPState E) (hr : ProximalPoint f x0 τ n (some t) = .ok r) (hn : r.log.length < n)
    (c : E) (hc : F.IsMin c) :
    ∃ l p, r.log = l ++ [p, r.x] ∧ F.val r.x - F.val c ≤ √(t * |F.val p| / τ) * ‖x0 - c‖ := by
  obtain ⟨P, hP, hPx⟩ := proxExact_map hf hτ
  have hfe : ∀ x, ‖P x - c‖ ≤ ‖x - c‖ := fun x => by
    have h1 := subgrad_le (subgrad_of_isProx hF hτ (hPx x)) hc.1
    have h2 := hc.2 (P x) (hPx x).1
    rw [real_inner_smul_left] at h1
    have h3 : 0 ≤ ⟪x - P x, P x - c⟫ := by
      by_contra h
      have := mul_neg_of_pos_of_neg (one_div_pos.2 hτ) (not_le.1 h)
      linarith
    have h4 : ‖x - c‖ ^ 2 = ‖x - P x‖ ^ 2 + 2 * ⟪x - P x, P x - c⟫ + ‖P x - c‖ ^ 2 := by
      rw [← norm_add_sq_real]; congr 2; abel
    exact le_of_sq_le_sq (by nlinarith [sq_nonneg ‖x - P x‖]) (norm_nonneg _)
  have hbody : ∀ i (q q' : PPState E) b, ProximalPoint.body f τ (some t) i q = .ok (q', b) →
      q'.x = P q.x ∧ q'.log = q.log ++ [P q.x] ∧ q'.pf = some (F.val (P q.x)) ∧ (b = true → ∃ d, q.pf = some d ∧ d ≠ 0 ∧ |1 - F.val (P q.x) / d| < t) := by
    intro i q q' b h
    obtain ⟨v, hv, hv'⟩ := hcall (P q.x) (hPx _).1
    cases hpf : q.pf with
    | none =>
      simp only [ProximalPoint.body, hP, hv, hpf, pyRatio, Bind.bind, Except.bind, Pure.pure, Except.pure] at h
      cases h
      refine ⟨rfl, rfl, by rw [hv'], fun h => ?_⟩
      rw [decide_eq_true_eq, sub_zero, abs_one] at h
      linarith
    | some d =>
      by_cases hd : d = 0
      · simp [ProximalPoint.body, hP, hv, hpf, pyRatio, hd, Bind.bind, Except.bind] at h
      · simp only [ProximalPoint.body, hP, hv, hpf, pyRatio, if_neg hd, Bind.bind, Except.bind, Pure.pure, Except.pure] at h
        cases h
        refine ⟨rfl, rfl, by rw [hv'], fun h => ⟨d, rfl, hd, ?_⟩⟩
        rw [decide_eq_true_eq, hv'] at h
        exact h
  rcases forRange_break (len := fun q : PPState E => q.log.length)
    (I := fun q => ‖q.x - c‖ ≤ ‖x0 - c‖ ∧ ∀ d, q.pf = some d → d = F.val q.x ∧ q.x ∈ F.dom ∧ ∃ l, q.log = l ++ [q.x]) (fun i q q' b hq h => by
      obtain ⟨h1, h2, h3, -⟩ := hbody i q q' b h
      refine ⟨⟨?_, fun d hd => ?_⟩, ?_⟩
      · rw [h1]; exact (hfe _).trans hq.1
      · rw [h3] at hd
        cases hd
        exact ⟨by rw [h1], by rw [h1]; exact (hPx _).1, q.log, by rw [h1, h2]⟩
      · show q'.log.length = _
        rw [h2]; simp) n 0 _ r ⟨le_rfl, by simp⟩ hr with h | ⟨j, q, ⟨hq1, hq2⟩, hq⟩
  · simp only [List.length_nil, zero_add] at h
    omega
  obtain ⟨h1, h2, h3, h4⟩ := hbody j q r true hq
  obtain ⟨d, hd, hd0, hlt⟩ := h4 rfl
  obtain ⟨e1, e2, l, e3⟩ := hq2 d hd
  subst e1
  refine ⟨l, q.x, by rw [h2, e3, h1]; simp, ?_⟩
  rw [h1]
  have hsub := subgrad_of_isProx hF hτ (hPx q.x)
  have k1 := subgrad_le hsub e2
  have k2 := subgrad_le hsub hc.1
  rw [real_inner_smul_left] at k1 k2
  have hdec := ratio_decrease hd0 hlt
  have hsq : ‖q.x - P q.x‖ ^ 2 ≤ τ * (t * |F.val q.x|) := by
    have : 1 / τ * ‖q.x - P q.x‖ ^ 2 ≤ F.val q.x - F.val (P q.x) := by
      rw [← real_inner_self_eq_norm_sq]
      rw [← neg_sub q.x (P q.x), inner_neg_right] at k1
      linarith
    have h5 := mul_le_mul_of_nonneg_left (this.trans hdec.le) hτ.le
    rwa [← mul_assoc, mul_one_div_cancel hτ.ne', one_mul] at h5
  have hstep : ‖q.x - P q.x‖ / τ ≤ √(t * |F.val q.x| / τ) := by
    refine Real.le_sqrt_of_sq_le ?_
    rw [div_pow, div_le_div_iff₀ (by positivity) hτ]
    nlinarith
  calc F.val (P q.x) - F.val c ≤ 1 / τ * ⟪q.x - P q.x, P q.x - c⟫ := k2
    _ ≤ 1 / τ * (‖q.x - P q.x‖ * ‖P q.x - c‖) := by gcongr; exact real_inner_le_norm _ _
    _ = ‖q.x - P q.x‖ / τ * ‖P q.x - c‖ := by ring
    _ ≤ √(t * |F.val q.x| / τ) * ‖x0 - c‖ := by gcongr; exact (hfe _).trans hq1

/-- **C116** `ProximalGradient` without acceleration and with `tau <= 1/L`, `tol=t <= 1`: if the run returns before its `niter` iterations are over, its last two
iterates `p`, `x` are in the log and the objective at `x` exceeds the minimum by at most `√(2 t |V(p)| / tau)` times the distance of the start from
the minimiser, where `V` is the computed objective (`k = 1` when `g` is an indicator, whose call returns `True`). -/
theorem C116_proximalgradient_stopped {k : ℝ} (hfc : EvaluatesNum f φ) (hf : GradExact f φ) (hL : LipschitzGrad φ L) (hφ : ConvexOn ℝ Set.univ φ)
    (hF : F.Convex) (hg : ProxExact g F) (hgc : ∀ x ∈ F.dom, ∃ v, g.call x = .ok v ∧ v.toReal = F.val x + k) (hε : 0 < ε) (hτ : 0 < τ) (hτL : τ * L ≤ 1)
    {t : ℝ} (ht : t ≤ 1) (x0 : E) (n : ℕ) (r : PGState E) (hr : ProximalGradient f g x0 { pgArgs τ ε .none n with tol := some t } = .ok r)
    (hn : r.log.length < n) (c : E) (hc : (compositeObj φ ε F).IsMin c) :
    ∃ l p, r.log = l ++ [p, r.x] ∧
      (compositeObj φ ε F).val r.x - (compositeObj φ ε F).val c ≤ √(2 * t * |φ p + ε * (F.val p + k)| / τ) * ‖x0 - c‖ := by
  obtain ⟨G, hG, hGr⟩ := gradExact_map hf
  obtain ⟨Q, hQ, hQx⟩ := pg_maps hg hε hτ
  set P : E → E := fun x => Q (x - τ • G x) with hPdef
  have hPx : ∀ x, IsProx (F.smul ε) τ (x - τ • G x) (P x) := fun x => hQx _
  have hstep : ∀ x {z}, z ∈ F.dom → (compositeObj φ ε F).val (P x) + ‖z - P x‖ ^ 2 / (2 * τ) ≤ (compositeObj φ ε F).val z + ‖z - x‖ ^ 2 / (2 * τ) := fun x z hz => by
    have h1 := pg_step hGr (fun a b => hL a b _ _ (hGr a) (hGr b)) (smulConvex hF hε.le) hτ hτL (hPx x) (z := z) hz
    have h2 := grad_ineq hφ (hGr x) z
    simp only [compositeObj, XFun.add, XFun.ofReal]
    linarith
  have hfe : ∀ x, ‖P x - c‖ ≤ ‖x - c‖ := fun x => by
    have h1 := hstep x hc.1.2
    have h2 := hc.2 (P x) ⟨trivial, (hPx x).1⟩
    rw [norm_sub_rev c, norm_sub_rev c] at h1
    have h3 : ‖P x - c‖ ^ 2 / (2 * τ) ≤ ‖x - c‖ ^ 2 / (2 * τ) := by linarith
    exact le_of_sq_le_sq ((div_le_div_iff_of_pos_right (by positivity)).1 h3) (norm_nonneg _)
  let V : E → ℝ := fun x => φ x + ε * (F.val x + k)
  have hVP : ∀ x, V x = (compositeObj φ ε F).val x + ε * k := fun x => by
    simp only [V, compositeObj, XFun.add, XFun.ofReal, XFun.smul]; ring
  have hbody : ∀ i (q q' : PGState E) b, q.tau = τ → q.y = q.x → PG.body f g { pgArgs τ ε .none n with tol := some t } false i q = .ok (q', b) →
      q'.tau = τ ∧ q'.y = q'.x ∧ q'.x = P q.x ∧ q'.log = q.log ++ [P q.x] ∧ q'.pfg = some (V (P q.x)) ∧
        (b = true → ∃ d, q.pfg = some d ∧ d ≠ 0 ∧ |1 - V (P q.x) / d| < t) := by
    intro i q q' b h1 h2 h
    obtain ⟨w, hw, hw'⟩ := hgc (P q.x) (hPx _).1
    have hv := hfc (P q.x)
    have e : (CallVal.num (φ (P q.x))).toReal + ε * w.toReal = V (P q.x) := by rw [hw']; rfl
    have : PG.body f g { pgArgs τ ε .none n with tol := some t } false i q =
        .ok (⟨P q.x, P q.x + (momentum .none i q.t).1 • (P q.x - q.x), (momentum .none i q.t).2, τ, some (V (P q.x)), q.log ++ [P q.x]⟩,
          npRatioTest (V (P q.x)) q.pfg t) := by
      have hQ' : g.prox (q.x - τ • G q.x) (ε * τ) = .ok (P q.x) := hQ _
      rw [← e]
      simp [PG.body, PG.step, pgArgs, StepSpec.at, hG, hQ', h1, h2, hv, hw, Bind.bind, Except.bind, Pure.pure, Except.pure]
    rw [this] at h
    cases h
    refine ⟨rfl, by simp [momentum], rfl, rfl, rfl, fun hb => ?_⟩
    cases hpf : q.pfg with
    | none =>
      simp only [npRatioTest, hpf, decide_eq_true_eq, sub_zero, abs_one] at hb
      linarith
    | some d =>
      by_cases hd : d = 0
      · simp [npRatioTest, hpf, hd] at hb
      · simp only [npRatioTest, hpf, if_neg hd, decide_eq_true_eq] at hb
        exact ⟨d, rfl, hd, hb⟩
  have hrun : forRange (PG.body f g { pgArgs τ ε .none n with tol := some t } false) n 0 ⟨x0, x0, 1, τ, none, []⟩ = .ok r := by
    have e1 : (pgArgs τ ε .none n).epsg.printCheck n = .ok () := by simp [pgArgs, StepSpec.printCheck, show n ≠ 0 by omega]
    rw [← hr, ProximalGradient]
    change _ = ((pgArgs τ ε .none n).epsg.printCheck n >>= fun _ => _)
    rw [e1]
    rfl
  rcases forRange_break (len := fun q : PGState E => q.log.length)
    (I := fun q => (q.tau = τ ∧ q.y = q.x ∧ ‖q.x - c‖ ≤ ‖x0 - c‖) ∧ ∀ d, q.pfg = some d → d = V q.x ∧ q.x ∈ F.dom ∧ ∃ l, q.log = l ++ [q.x]) (fun i q q' b hq h => by
      obtain ⟨h5, h6, h1, h2, h3, -⟩ := hbody i q q' b hq.1.1 hq.1.2.1 h
      refine ⟨⟨⟨h5, h6, ?_⟩, fun d hd => ?_⟩, ?_⟩
      · rw [h1]; exact (hfe _).trans hq.1.2.2
      · rw [h3] at hd
        cases hd
        exact ⟨by rw [h1], by rw [h1]; exact (hPx _).1, q.log, by rw [h1, h2]⟩
      · show q'.log.length = _
        rw [h2]; simp) n 0 _ r ⟨⟨rfl, rfl, le_rfl⟩, by simp⟩ hrun with h | ⟨j, q, ⟨⟨hq1, hq2, hq3⟩, hq4⟩, hq⟩
  · simp only [List.length_nil, zero_add] at h
    omega
  obtain ⟨-, -, h1, h2, h3, h4⟩ := hbody j q r true hq1 hq2 hq
  obtain ⟨d, hd, hd0, hlt⟩ := h4 rfl
  obtain ⟨e1, e2, l, e3⟩ := hq4 d hd
  subst e1
  refine ⟨l, q.x, by rw [h2, e3, h1]; simp, ?_⟩
  rw [h1]
  have hdec := ratio_decrease hd0 hlt
  have hdec' : (compositeObj φ ε F).val q.x - (compositeObj φ ε F).val (P q.x) < t * |V q.x| := by
    have h1 := hVP q.x
    have h2 := hVP (P q.x)
    linarith
  have k1 := hstep q.x e2
  rw [sub_self, norm_zero] at k1
  have k2 := hstep q.x hc.1.2
  have hsq : ‖q.x - P q.x‖ ^ 2 ≤ τ * (2 * t * |V q.x|) := by
    have : ‖q.x - P q.x‖ ^ 2 / (2 * τ) ≤ t * |V q.x| := by
      have : (0 : ℝ) ^ 2 / (2 * τ) = 0 := by simp
      linarith
    rw [div_le_iff₀ (by positivity)] at this
    linarith
  have hst : ‖q.x - P q.x‖ / τ ≤ √(2 * t * |V q.x| / τ) := by
    refine Real.le_sqrt_of_sq_le ?_
    rw [div_pow, div_le_div_iff₀ (by positivity) hτ]
    nlinarith
  rw [norm_sub_rev c, norm_sub_rev c] at k2
  have h6 : ‖q.x - c‖ ^ 2 - ‖P q.x - c‖ ^ 2 ≤ ‖q.x - P q.x‖ * (2 * ‖x0 - c‖) := by
    have h7 : ‖q.x - c‖ - ‖P q.x - c‖ ≤ ‖q.x - P q.x‖ := by
      have := norm_sub_norm_le (q.x - c) (P q.x - c)
      rwa [sub_sub_sub_cancel_right] at this
    have h8 := (hfe q.x).trans hq3
    have h9 := mul_le_mul_of_nonneg_right h7 (add_nonneg (norm_nonneg (q.x - c)) (norm_nonneg (P q.x - c)))
    have h10 := mul_le_mul_of_nonneg_left (add_le_add hq3 h8) (norm_nonneg (q.x - P q.x))
    nlinarith
  calc (compositeObj φ ε F).val (P q.x) - (compositeObj φ ε F).val c ≤ (‖q.x - c‖ ^ 2 - ‖P q.x - c‖ ^ 2) / (2 * τ) := by rw [sub_div]; linarith
    _ ≤ ‖q.x - P q.x‖ * (2 * ‖x0 - c‖) / (2 * τ) := by gcongr
    _ = ‖q.x - P q.x‖ / τ * ‖x0 - c‖ := by field_simp
    _ ≤ √(2 * t * |V q.x| / τ) * ‖x0 - c‖ := by gcongr

/-! ## Tolerances that guarantee nothing -/

section Refuted
variable {F' C : Type} [NormedAddCommGroup F'] [InnerProductSpace ℝ F']

/-- **C116** counterexample: for `f = s/2 ‖x‖²` and a step so small that `1 - 1/(1+tau s)² < t <= 1`, `ProximalPoint` with `tol=t` returns after two iterations
with `x0/(1+tau s)²`, as close to the start as the step is small, however far the start is from the minimiser `0`. -/
theorem C116_proximalpoint_small_step_refuted (ext : L2Ext E F' C) (st : L2State E C) {s τ t : ℝ} (hs : 0 < s) (hτ : 0 < τ)
    (ht : 1 - (1 / (1 + τ * s)) ^ 2 < t) (ht1 : t ≤ 1) {x0 : E} (hx0 : x0 ≠ 0) :
    StopsAt (fun n => ProximalPoint (L2.obj ext (l2Plain .nothing s) st) x0 τ n (some t)) PPState.log 2 ∧
      ∀ n r, 2 ≤ n → ProximalPoint (L2.obj ext (l2Plain .nothing s) st) x0 τ n (some t) = .ok r → r.x = (1 / (1 + τ * s)) ^ 2 • x0 := by
  set κ := 1 / (1 + τ * s) with hκ
  have hκ0 : 0 < κ := by positivity
  have hκ1 : κ ≤ 1 := by rw [hκ, div_le_one (by positivity)]; nlinarith
  have hP : ∀ x, (L2.obj ext (l2Plain .nothing s) st).prox x τ = .ok (κ • x) := fun x => by
    simp only [ProxOp.prox, L2.obj, L2.prox, if_neg (not_le.2 hτ), L2.proxBody, l2Plain, L2.subQ, hκ, npDivBy_ok _ (show 1 + τ * s ≠ 0 by positivity)]
  have hcall : ∀ x, (L2.obj ext (l2Plain .nothing s) st).call x = .ok (.num (s / 2 * ‖x‖ ^ 2)) := fun x => rfl
  have hn0 : 0 < ‖x0‖ := norm_pos_iff.2 hx0
  have hd0 : s / 2 * ‖κ • x0‖ ^ 2 ≠ 0 := by rw [norm_smul, Real.norm_of_nonneg hκ0.le]; positivity
  have hrat : s / 2 * ‖κ • κ • x0‖ ^ 2 / (s / 2 * ‖κ • x0‖ ^ 2) = κ ^ 2 := by
    rw [norm_smul κ (κ • x0), Real.norm_of_nonneg hκ0.le]
    rw [div_eq_iff hd0]; ring
  have hsq : κ ^ 2 ≤ 1 := pow_le_one₀ hκ0.le hκ1
  have key : ∀ n, ProximalPoint (L2.obj ext (l2Plain .nothing s) st) x0 τ (n + 2) (some t) =
      .ok ⟨κ • κ • x0, some (s / 2 * ‖κ • κ • x0‖ ^ 2), [κ • x0, κ • κ • x0]⟩ := fun n => by
    have h1 : ¬ (1 : ℝ) < t := not_lt.2 ht1
    have h2 : |1 - κ ^ 2| < t := by rw [abs_of_nonneg (by linarith)]; exact ht
    simp only [ProximalPoint, forRange, ProximalPoint.body, hP, hcall, pyRatio, CallVal.toReal, Bind.bind, Except.bind, Pure.pure, Except.pure, sub_zero, abs_one, h1,
      decide_false, Bool.false_eq_true, if_false, if_neg hd0, hrat, h2, decide_true, if_true, List.nil_append, List.cons_append]
  refine ⟨⟨⟨κ • κ • x0, some (s / 2 * ‖κ • κ • x0‖ ^ 2), [κ • x0, κ • κ • x0]⟩, rfl, fun n hn => ?_⟩, fun n r hn hr => ?_⟩
  · obtain ⟨k, rfl⟩ : ∃ k, n = k + 2 := ⟨n - 2, by omega⟩
    exact key k
  · obtain ⟨k, rfl⟩ : ∃ k, n = k + 2 := ⟨n - 2, by omega⟩
    rw [key] at hr
    cases hr
    rw [smul_smul, ← sq]

/-- Two quadratics: what their operators do at the point between `b0` and `b1` at which the two steps cancel. -/
lemma two_quadratics (ext : L2Ext E F' C) (st : L2State E C) {s0 s1 σ : ℝ} (h0 : 0 < s0) (h1 : 0 < s1) (hs : s0 ≠ s1) (hσ : 0 < σ) {b0 b1 : E} (hb : b0 ≠ b1) :
    ∃ x0 p0 p1, (L2.obj ext (l2Plain (.bOnly b0) s0) st).prox x0 σ = .ok p0 ∧ (L2.obj ext (l2Plain (.bOnly b1) s1) st).prox x0 σ = .ok p1 ∧
      p0 + p1 = (2 : ℝ) • x0 ∧ ∃ c, s0 / 2 * ‖c - b0‖ ^ 2 + s1 / 2 * ‖c - b1‖ ^ 2 < s0 / 2 * ‖x0 - b0‖ ^ 2 + s1 / 2 * ‖x0 - b1‖ ^ 2 := by
  have n0 : 0 < 1 + σ * s0 := by positivity
  have n1 : 0 < 1 + σ * s1 := by positivity
  -- `x0 = b0 + α (b1 - b0)`
  set α := s1 * (1 + σ * s0) / (s0 * (1 + σ * s1) + s1 * (1 + σ * s0)) with hα
  have hden : 0 < s0 * (1 + σ * s1) + s1 * (1 + σ * s0) := by positivity
  have hαd : α * (s0 * (1 + σ * s1) + s1 * (1 + σ * s0)) = s1 * (1 + σ * s0) := by rw [hα, div_mul_cancel₀ _ hden.ne']
  have hx0 : ∀ β : ℝ, s0 / 2 * ‖b0 + β • (b1 - b0) - b0‖ ^ 2 + s1 / 2 * ‖b0 + β • (b1 - b0) - b1‖ ^ 2 = (s0 / 2 * β ^ 2 + s1 / 2 * (1 - β) ^ 2) * ‖b1 - b0‖ ^ 2 := fun β => by
    rw [add_sub_cancel_left, show b0 + β • (b1 - b0) - b1 = (-(1 - β)) • (b1 - b0) by module, norm_smul, norm_smul, mul_pow, mul_pow, Real.norm_eq_abs, Real.norm_eq_abs,
      sq_abs, sq_abs]
    ring
  refine ⟨b0 + α • (b1 - b0), (1 / (1 + σ * s0)) • (b0 + α • (b1 - b0) + (σ * s0) • b0), (1 / (1 + σ * s1)) • (b0 + α • (b1 - b0) + (σ * s1) • b1), ?_, ?_, ?_, b0 + (s1 / (s0 + s1)) • (b1 - b0), ?_⟩
  · simp only [ProxOp.prox, L2.obj, L2.prox, if_neg (not_le.2 hσ), L2.proxBody, l2Plain, L2.subQ, npDivBy_ok _ n0.ne']
  · simp only [ProxOp.prox, L2.obj, L2.prox, if_neg (not_le.2 hσ), L2.proxBody, l2Plain, L2.subQ, npDivBy_ok _ n1.ne']
  · have e0 : (1 / (1 + σ * s0)) * (1 + σ * s0) = 1 := one_div_mul_cancel n0.ne'
    have e1 : (1 / (1 + σ * s1)) * (1 + σ * s1) = 1 := one_div_mul_cancel n1.ne'
    have k : (1 / (1 + σ * s0)) * α + (1 / (1 + σ * s1)) * (α + σ * s1) = 2 * α := by
      field_simp
      nlinarith
    have k' : 1 / (1 + σ * s0) * (1 - α + σ * s0) + 1 / (1 + σ * s1) * (1 - α) = 2 * (1 - α) := by
      field_simp
      nlinarith
    have : (1 / (1 + σ * s0)) • (b0 + α • (b1 - b0) + (σ * s0) • b0) + (1 / (1 + σ * s1)) • (b0 + α • (b1 - b0) + (σ * s1) • b1) =
        (1 / (1 + σ * s0) * (1 - α + σ * s0) + 1 / (1 + σ * s1) * (1 - α)) • b0 + ((1 / (1 + σ * s0)) * α + (1 / (1 + σ * s1)) * (α + σ * s1)) • b1 := by module
    rw [this, k, k']
    module
  · rw [hx0, hx0]
    refine mul_lt_mul_of_pos_right ?_ (by have := norm_pos_iff.2 (sub_ne_zero.2 hb.symm); positivity)
    set β := s1 / (s0 + s1) with hβ
    have hβd : β * (s0 + s1) = s1 := by rw [hβ, div_mul_cancel₀ _ (by positivity)]
    have hne : α ≠ β := fun h => by
      rw [h] at hαd
      have h3 : s1 * s0 * σ * (s1 - s0) = 0 := by
        have := congrArg (· * (s0 + s1)) hαd
        simp only [mul_right_comm β] at this
        rw [hβd] at this
        linarith
      have : s1 - s0 ≠ 0 := sub_ne_zero.2 hs.symm
      have : s1 * s0 * σ * (s1 - s0) ≠ 0 := by positivity
      contradiction
    have hpos : 0 < (s0 + s1) / 2 * (α - β) ^ 2 := by have := sub_ne_zero.2 hne; positivity
    have : (s0 / 2 * α ^ 2 + s1 / 2 * (1 - α) ^ 2) - (s0 / 2 * β ^ 2 + s1 / 2 * (1 - β) ^ 2) = (s0 + s1) / 2 * (α - β) ^ 2 + (α - β) * (β * (s0 + s1) - s1) := by ring
    rw [hβd, sub_self, mul_zero] at this
    linarith

/-- **C116** counterexample: for any two quadratics of different weight and centre there is a start at which `ConsensusADMM` stops after its first iteration and
returns the start, for every `tol > 0` and every `niter`, although the start is not a minimiser. -/
theorem C116_consensus_stopped_refuted (ext : L2Ext E F' C) (st : L2State E C) {s0 s1 τ : ℝ} (h0 : 0 < s0) (h1 : 0 < s1) (hs : s0 ≠ s1) (hτ : 0 < τ) {b0 b1 : E}
    (hb : b0 ≠ b1) :
    ∃ x0, ¬ (sumObj ![XFun.ofReal fun x : E => s0 / 2 * ‖x - b0‖ ^ 2, XFun.ofReal fun x : E => s1 / 2 * ‖x - b1‖ ^ 2]).IsMin x0 ∧
      ∀ tol (mx : E → ℝ), 0 < tol → mx 0 = 0 → ∀ n, 0 < n →
        ∃ r, ConsensusADMM ![L2.obj ext (l2Plain (.bOnly b0) s0) st, L2.obj ext (l2Plain (.bOnly b1) s1) st] x0 τ n tol mx = .ok r ∧ r.log = [x0] ∧ r.xbar = x0 := by
  obtain ⟨x0, p0, p1, e0, e1, e2, c, hc⟩ := two_quadratics ext st h0 h1 hs hτ hb
  refine ⟨x0, fun h => ?_, fun tol mx htol hmx n hn => ?_⟩
  · have := h.2 c (by intro i; fin_cases i <;> trivial)
    simp only [sumObj, Fin.sum_univ_two, Matrix.cons_val_zero, Matrix.cons_val_one, XFun.ofReal] at this
    linarith
  obtain ⟨k, rfl⟩ : ∃ k, n = k + 1 := ⟨n - 1, by omega⟩
  have hmap : mapPy (fun i => (![L2.obj ext (l2Plain (.bOnly b0) s0) st, L2.obj ext (l2Plain (.bOnly b1) s1) st] i).prox (x0 - (0 : E)) τ) = .ok ![p0, p1] :=
    mapPy_ok fun i => by
      rw [sub_zero]
      fin_cases i
      · exact e0
      · exact e1
  have hmean : (1 / ((2 : ℕ) : ℝ)) • ∑ i, (![p0, p1] : Fin 2 → E) i = x0 := by
    rw [Fin.sum_univ_two, show (![p0, p1] : Fin 2 → E) 0 + (![p0, p1] : Fin 2 → E) 1 = p0 + p1 from rfl, e2, smul_smul]; norm_num
  refine ⟨⟨x0, x0, ![p0, p1], fun i => 0 + (![p0, p1] : Fin 2 → E) i - x0, [x0]⟩, ?_, rfl, rfl⟩
  simp only [ConsensusADMM, forRange, ConsensusADMM.body]
  rw [hmap]
  simp only [Bind.bind, Except.bind, Pure.pure, Except.pure, hmean, sub_self, hmx, if_pos htol, if_true, List.nil_append, show ¬ (2 : ℕ) = 0 by decide, if_false]

/-- **C116** counterexample: the same for `PPXA`, whatever the relaxation. -/
theorem C116_ppxa_stopped_refuted (ext : L2Ext E F' C) (st : L2State E C) {s0 s1 τ : ℝ} (h0 : 0 < s0) (h1 : 0 < s1) (hs : s0 ≠ s1) (hτ : 0 < τ) {b0 b1 : E}
    (hb : b0 ≠ b1) :
    ∃ x0, ¬ (sumObj ![XFun.ofReal fun x : E => s0 / 2 * ‖x - b0‖ ^ 2, XFun.ofReal fun x : E => s1 / 2 * ‖x - b1‖ ^ 2]).IsMin x0 ∧
      ∀ η tol (mx : E → ℝ), 0 < tol → mx 0 = 0 → ∀ n, 0 < n →
        ∃ r, PPXA ![L2.obj ext (l2Plain (.bOnly b0) s0) st, L2.obj ext (l2Plain (.bOnly b1) s1) st] none (fun _ => x0) τ η n tol mx = .ok r ∧ r.log = [x0] ∧ r.x = x0 := by
  obtain ⟨x0, p0, p1, e0, e1, e2, c, hc⟩ := two_quadratics ext st h0 h1 hs (σ := τ / (1 / ((2 : ℕ) : ℝ))) (by positivity) hb
  refine ⟨x0, fun h => ?_, fun η tol mx htol hmx n hn => ?_⟩
  · have := h.2 c (by intro i; fin_cases i <;> trivial)
    simp only [sumObj, Fin.sum_univ_two, Matrix.cons_val_zero, Matrix.cons_val_one, XFun.ofReal] at this
    linarith
  obtain ⟨k, rfl⟩ : ∃ k, n = k + 1 := ⟨n - 1, by omega⟩
  have hmap : mapPy (fun i => if 1 / ((2 : ℕ) : ℝ) = 0 then (.error .nanResult : Py E)
      else (![L2.obj ext (l2Plain (.bOnly b0) s0) st, L2.obj ext (l2Plain (.bOnly b1) s1) st] i).prox x0 (τ / (1 / ((2 : ℕ) : ℝ)))) = .ok ![p0, p1] :=
    mapPy_ok fun i => by
      rw [if_neg (by norm_num)]
      fin_cases i
      · exact e0
      · exact e1
  have hsum : ∑ i, (1 / ((2 : ℕ) : ℝ)) • (![p0, p1] : Fin 2 → E) i = x0 := by
    rw [← Finset.smul_sum, Fin.sum_univ_two, show (![p0, p1] : Fin 2 → E) 0 + (![p0, p1] : Fin 2 → E) 1 = p0 + p1 from rfl, e2, smul_smul]; norm_num
  have hmean : (1 / ((2 : ℕ) : ℝ)) • ∑ _i : Fin 2, x0 = x0 := by
    rw [Fin.sum_univ_two, ← two_smul ℝ, smul_smul]; norm_num
  refine ⟨⟨x0, x0, fun i => x0 + η • ((2 : ℝ) • x0 - x0 - (![p0, p1] : Fin 2 → E) i), [x0]⟩, ?_, rfl, rfl⟩
  simp only [PPXA, show ¬ (2 : ℕ) = 0 by decide, if_false, forRange, PPXA.body, hmean]
  rw [hmap]
  simp only [Bind.bind, Except.bind, Pure.pure, Except.pure, hsum, sub_self, smul_zero, add_zero, hmx, if_pos htol, if_true, List.nil_append]

/-! ## The hypotheses can be met -/

/-- A run of `ProximalPoint` that stops on its tolerance: every convex function with a positive minimum, every `tol`. -/
example (hF : F.Convex) (hf : ProxExact f F) (hcall : ∀ x ∈ F.dom, ∃ v, f.call x = .ok v ∧ v.toReal = F.val x) (x0 : E) (hτ : 0 < τ) {t : ℝ} (ht : 0 < t) (c : E)
    (hc : F.IsMin c) (hm : 0 < F.val c) : ∃ n r, ProximalPoint f x0 τ n (some t) = .ok r ∧ r.log.length < n := by
  obtain ⟨N, -, -, r, h1, h2⟩ := C97_proximalpoint_stops_partial f F hF hf hcall x0 τ t hτ ht c hc hm
  exact ⟨N + 1, r, h2 _ (by omega), by omega⟩

/-- A run of `ProximalGradient` that stops on its tolerance. -/
example {k : ℝ} (hfc : EvaluatesNum f φ) (hf : GradExact f φ) (hL : LipschitzGrad φ L) (hφ : ConvexOn ℝ Set.univ φ) (hF : F.Convex)
    (hg : ProxExact g F) (hgc : ∀ x ∈ F.dom, ∃ v, g.call x = .ok v ∧ v.toReal = F.val x + k) (hε : 0 < ε) (hτ : 0 < τ) (hτL : τ * L ≤ 1) {t : ℝ} (ht : 0 < t) (x0 c : E)
    (hc : (compositeObj φ ε F).IsMin c) (hm : 0 < φ c + ε * (F.val c + k)) :
    ∃ n r, ProximalGradient f g x0 { pgArgs τ ε .none n with tol := some t } = .ok r ∧ r.log.length < n := by
  obtain ⟨N, -, -, r, h1, h2⟩ := C97_proximalgradient_stops_partial hfc hf hL hφ hF hg hgc hε hτ hτL ht x0 c hc rfl hm
  exact ⟨N + 1, r, h2 _ (by omega), by omega⟩

/-- Denoising `s/2 ‖x-b‖² + ‖x‖₁` with `ADMM`. -/
example {ι : Type} [Fintype ι] (ext : L2Ext (Vec ι) F' C) (st : L2State (Vec ι) C) (b x0 : Vec ι) {s τ : ℝ} (hs : 0 < s) (hτ : 0 < τ) (n : ℕ) :
    ∃ r r', ADMM (L2.obj ext (l2Plain (.bOnly b) s) st) (L1 1 none) (some x0) none τ n false = .ok r ∧
      ADMM (L2.obj ext (l2Plain (.bOnly b) s) st) (L1 1 none) (some x0) none τ (n + 1) false = .ok r' ∧
      ∀ c, s / 2 * ‖r'.x - b‖ ^ 2 + ∑ i, |r'.z i| - (s / 2 * ‖c - b‖ ^ 2 + ∑ i, |c i|) ≤ (‖r'.u‖ * ‖r'.x - r'.z‖ + ‖r'.z - r.z‖ * ‖r'.x - c‖) / τ := by
  have hf := l2Plain_exact ext (.bOnly b) (by simp) hs st
  obtain ⟨Pf, hPf, -⟩ := proxExact_map hf hτ
  obtain ⟨Pg, hPg, -⟩ := proxExact_map (l1_proxExact (ι := ι)) hτ
  obtain ⟨S, -, -, -, -, -, -, -, hS⟩ := admm_traj hPf hPg false (some x0) none x0 x0 rfl
  refine ⟨_, _, hS n, hS (n + 1), fun c => ?_⟩
  have := C116_admm (F := XFun.ofReal (l2Spec (l2Plain (.bOnly b) s))) (l2_convex (l2Plain (.bOnly b) s) hs.le) l1_convex hf l1_proxExact hτ false (some x0) none n _ _ (hS n) (hS (n + 1)) c ⟨trivial, trivial⟩
  simpa [XFun.ofReal, XFun.add, l2Spec, l2Plain] using this

/-- `‖x‖₁ + ‖A x‖₁` with `PrimalDual`. -/
example {ι : Type} [Fintype ι] (A : LinOp (Vec ι) (Vec ι)) (x0 : Vec ι) {τ μ θ : ℝ} (hτ : 0 < τ) (hμ : 0 < μ) (n : ℕ) (G : XFun (Vec ι))
    (hG : G = (XFun.ofReal fun x : Vec ι => 1 * ∑ i, |x i - (0 : Vec ι) i|).conj) :
    ∃ s s', PrimalDual (L1 1 none) (L1 1 none) A x0 none none (.scalar τ) (.scalar μ) θ n true = .ok s ∧
      PrimalDual (L1 1 none) (L1 1 none) A x0 none none (.scalar τ) (.scalar μ) θ (n + 1) true = .ok s' ∧ ∀ a, ∀ b ∈ G.dom,
      (∑ i, |s'.x i| + ⟪A.matvec s'.x, b⟫ - G.val b) - (∑ i, |a i| + ⟪A.matvec a, s'.y⟫ - G.val s'.y) ≤
        ‖(1 / τ) • (s.x - s'.x)‖ * ‖s'.x - a‖ + ‖(1 / μ) • (s.y - s'.y) + A.matvec (s.xhat - s'.x)‖ * ‖s'.y - b‖ := by
  obtain ⟨s, hs⟩ := C50_pd_returns (A := A) l1_proxExact l1_proxExact l1_proxdualExact l1_convex hτ hμ x0 none none θ true n
  obtain ⟨s', hs'⟩ := C50_pd_returns (A := A) l1_proxExact l1_proxExact l1_proxdualExact l1_convex hτ hμ x0 none none θ true (n + 1)
  refine ⟨s, s', hs, hs', fun a b hb => ?_⟩
  have := C116_primaldual (G := XFun.ofReal fun x : Vec ι => 1 * ∑ i, |x i - (0 : Vec ι) i|) l1_convex (conj_convex ⟨0, trivial⟩) l1_proxExact l1_proxdualExact hτ hμ θ none true x0 none n s s' hs hs' a trivial b (by rwa [hG] at hb)
  rw [← hG] at this
  simpa [XFun.ofReal] using this

end Refuted

end Verif
