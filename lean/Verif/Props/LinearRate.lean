import Verif.Lemmas.Strong
import Verif.Props.Equivalences

/-! # C101: linear convergence on strongly convex problems

`StrongConvexOn` is Mathlib's: `F(a x + b y) <= a F(x) + b F(y) - a b μ/2 ‖x - y‖²` on the domain. -/

open scoped RealInnerProductSpace

set_option linter.unusedSectionVars false

namespace Verif

variable {E : Type} [NormedAddCommGroup E] [InnerProductSpace ℝ E] {f g : ProxOp E} {F : XFun E} {φ : E → ℝ} {μ ν L τ ε : ℝ}

lemma iterate_contract {T : E → E} {q : ℝ} (hq : 0 ≤ q) (hT : ∀ x y, ‖T x - T y‖ ≤ q * ‖x - y‖) {X Y : ℕ → E} (hX : ∀ n, X (n + 1) = T (X n)) (hY : ∀ n, Y (n + 1) = T (Y n)) (n : ℕ) :
    ‖X n - Y n‖ ≤ q ^ n * ‖X 0 - Y 0‖ := by
  induction n with
  | zero => simp
  | succ n ih =>
    rw [hX, hY, pow_succ' q, mul_assoc]
    exact (hT _ _).trans (mul_le_mul_of_nonneg_left ih hq)

/-- C101 for `ProximalPoint`: the distance to the minimiser shrinks by `1/(1 + tau μ)` per iteration. -/
theorem C101_proximalpoint_rate (hF : StrongConvexOn F.dom μ F.val) (hμ : 0 ≤ μ) (hf : ProxExact f F) (x0 : E) (hτ : 0 < τ) (n : ℕ) (s : PPState E)
    (hs : ProximalPoint f x0 τ n none = .ok s) (c : E) (hc : F.IsMin c) : ‖s.x - c‖ ≤ (1 / (1 + τ * μ)) ^ n * ‖x0 - c‖ := by
  obtain ⟨P, hP, hP'⟩ := proxExact_map hf hτ
  obtain ⟨T, hT0, hT, hrun⟩ := pp_traj hP x0
  rw [hrun n] at hs
  cases hs
  have hfix := (isMin_iff_fixed (strong_xconvex hF hμ) hτ hP').1 hc
  have := iterate_contract (by positivity) (fun x y => prox_contract hF hμ hτ (hP' x) (hP' y)) hT (Y := fun _ => c) (fun _ => hfix.symm) n
  rwa [hT0] at this

/-- C101 for `ProximalPoint`: two runs from different starting points approach each other at the same rate, and never drift apart if `F` is only convex (`μ = 0`). -/
theorem C101_proximalpoint_two_starts (hF : StrongConvexOn F.dom μ F.val) (hμ : 0 ≤ μ) (hf : ProxExact f F) (x0 x0' : E) (hτ : 0 < τ) (n : ℕ) (s s' : PPState E)
    (hs : ProximalPoint f x0 τ n none = .ok s) (hs' : ProximalPoint f x0' τ n none = .ok s') : ‖s.x - s'.x‖ ≤ (1 / (1 + τ * μ)) ^ n * ‖x0 - x0'‖ := by
  obtain ⟨P, hP, hP'⟩ := proxExact_map hf hτ
  obtain ⟨T, hT0, hT, hrun⟩ := pp_traj hP x0
  obtain ⟨T', hT0', hT', hrun'⟩ := pp_traj hP x0'
  rw [hrun n] at hs
  rw [hrun' n] at hs'
  cases hs
  cases hs'
  have := iterate_contract (by positivity) (fun x y => prox_contract hF hμ hτ (hP' x) (hP' y)) hT hT' n
  rwa [hT0, hT0'] at this

/-- The forward-backward map is a contraction. -/
lemma fb_contract {G P : E → E} (hGr : ∀ x, IsGrad φ x (G x)) (hL : LipschitzGrad φ L) (hφ : StrongConvexOn Set.univ μ φ) (hμL : μ ≤ L) (hF : StrongConvexOn F.dom ν F.val) (hν : 0 ≤ ν)
    (hε : 0 < ε) (hτ : 0 < τ) (hτL : τ * (L + μ) ≤ 2) (hP : ∀ x, IsProx F (ε * τ) x (P x)) (x y : E) :
    ‖P (x - τ • G x) - P (y - τ • G y)‖ ≤ (1 - τ * μ) / (1 + ε * τ * ν) * ‖x - y‖ := by
  have h1 := prox_contract hF hν (mul_pos hε hτ) (hP (x - τ • G x)) (hP (y - τ • G y))
  have h2 := forward_contract hGr (fun x y => hL x y _ _ (hGr x) (hGr y)) hφ hμL hτ hτL x y
  have h3 : 0 < 1 + ε * τ * ν := by positivity
  calc _ ≤ _ := h1
    _ ≤ 1 / (1 + ε * τ * ν) * ((1 - τ * μ) * ‖x - y‖) := mul_le_mul_of_nonneg_left h2 (by positivity)
    _ = _ := by ring

lemma fb_factor_nonneg (hμL : μ ≤ L) (hν : 0 ≤ ν) (hε : 0 < ε) (hτ : 0 < τ) (hτL : τ * (L + μ) ≤ 2) : 0 ≤ (1 - τ * μ) / (1 + ε * τ * ν) :=
  div_nonneg (by nlinarith) (by positivity)

/-- The iteration of `ProximalGradient` without acceleration. -/
lemma pg_plain (hf : GradExact f φ) (hg : ProxExact g F) (hε : 0 < ε) (hτ : 0 < τ) :
    ∃ G P : E → E, (∀ x, IsGrad φ x (G x)) ∧ (∀ x, IsProx F (ε * τ) x (P x)) ∧ (∀ x, IsProx (F.smul ε) τ x (P x)) ∧
      ∀ x0, ∃ X : ℕ → E, X 0 = x0 ∧ (∀ n, X (n + 1) = P (X n - τ • G (X n))) ∧ ∀ n, 0 < n → ∃ s, ProximalGradient f g x0 (pgArgs τ ε .none n) = .ok s ∧ s.x = X n := by
  obtain ⟨G, hG, hGr⟩ := gradExact_map hf
  obtain ⟨P, hP, hPx⟩ := pg_maps (F := F) hg hε hτ
  refine ⟨G, P, hGr, fun x => ?_, hPx, fun x0 => ?_⟩
  · obtain ⟨p, h1, h2⟩ := hg x (ε * τ) (mul_pos hε hτ)
    rw [hP x] at h1
    injection h1 with h
    rwa [h]
  · obtain ⟨X, Y, t, hX0, hY0, -, hX, -, hY, hrun⟩ := pg_traj hG hP .none (by decide) x0
    have hYX : ∀ n, Y n = X n := fun n => by
      cases n with
      | zero => rw [hX0, hY0]
      | succ n => rw [hY, show (momentum .none n (t n)).1 = 0 from rfl, zero_smul, add_zero]
    exact ⟨X, hX0, fun n => by rw [hX, hYX], fun n hn => ⟨_, hrun n hn, rfl⟩⟩

/-- C101 for `ProximalGradient`: if `f` is `μ`-strongly convex and `g` is `ν`-strongly convex (one of the two constants may be zero) and `tau <= 2/(L + μ)`, the distance to the
minimiser shrinks by `(1 - tau μ)/(1 + epsg tau ν)` per iteration. -/
theorem C101_proximalgradient_rate (hf : GradExact f φ) (hL : LipschitzGrad φ L) (hφ : StrongConvexOn Set.univ μ φ) (hμ : 0 ≤ μ) (hμL : μ ≤ L) (hF : StrongConvexOn F.dom ν F.val)
    (hν : 0 ≤ ν) (hg : ProxExact g F) (hε : 0 < ε) (hτ : 0 < τ) (hτL : τ * (L + μ) ≤ 2) (x0 : E) (n : ℕ) (hn : 0 < n) (s : PGState E)
    (hs : ProximalGradient f g x0 (pgArgs τ ε .none n) = .ok s) (c : E) (hc : (compositeObj φ ε F).IsMin c) :
    ‖s.x - c‖ ≤ ((1 - τ * μ) / (1 + ε * τ * ν)) ^ n * ‖x0 - c‖ := by
  obtain ⟨G, P, hGr, hP, hP', hrun⟩ := pg_plain hf hg hε hτ
  obtain ⟨X, hX0, hX, h⟩ := hrun x0
  obtain ⟨s', h1, h2⟩ := h n hn
  rw [hs] at h1
  cases h1
  have hφc : ConvexOn ℝ Set.univ φ := by simpa using hφ.mono hμ
  have hfix := (pg_fixed_iff hφc (smulConvex (strong_xconvex hF hν) hε.le) hτ hGr hP' c).2 hc
  have := iterate_contract (T := fun x => P (x - τ • G x)) (fb_factor_nonneg hμL hν hε hτ hτL) (fun x y => fb_contract hGr hL hφ hμL hF hν hε hτ hτL hP x y) hX (Y := fun _ => c)
    (fun _ => hfix.symm) n
  rwa [hX0, ← h2] at this

/-- C101 for `ProximalGradient`: two runs from different starting points approach each other at the same rate, and never drift apart in the convex case (`μ = ν = 0`, `tau <= 2/L`). -/
theorem C101_proximalgradient_two_starts (hf : GradExact f φ) (hL : LipschitzGrad φ L) (hφ : StrongConvexOn Set.univ μ φ) (hμL : μ ≤ L)
    (hF : StrongConvexOn F.dom ν F.val) (hν : 0 ≤ ν) (hg : ProxExact g F) (hε : 0 < ε) (hτ : 0 < τ) (hτL : τ * (L + μ) ≤ 2) (x0 x0' : E) (n : ℕ) (hn : 0 < n) (s s' : PGState E)
    (hs : ProximalGradient f g x0 (pgArgs τ ε .none n) = .ok s) (hs' : ProximalGradient f g x0' (pgArgs τ ε .none n) = .ok s') :
    ‖s.x - s'.x‖ ≤ ((1 - τ * μ) / (1 + ε * τ * ν)) ^ n * ‖x0 - x0'‖ := by
  obtain ⟨G, P, hGr, hP, -, hrun⟩ := pg_plain hf hg hε hτ
  obtain ⟨X, hX0, hX, h⟩ := hrun x0
  obtain ⟨X', hX0', hX', h'⟩ := hrun x0'
  obtain ⟨t, h1, h2⟩ := h n hn
  obtain ⟨t', h1', h2'⟩ := h' n hn
  rw [hs] at h1
  rw [hs'] at h1'
  cases h1
  cases h1'
  have := iterate_contract (T := fun x => P (x - τ • G x)) (fb_factor_nonneg hμL hν hε hτ hτL) (fun x y => fb_contract hGr hL hφ hμL hF hν hε hτ hτL hP x y) hX hX' n
  rwa [hX0, hX0', ← h2, ← h2'] at this

/-! ## DouglasRachfordSplitting and ADMM -/

variable {G : XFun E} {η γ : ℝ} {D : E → E}

/-- The prox of a differentiable convex function solves `p + tau D p = x`. -/
lemma prox_smooth_eq (hφ : ConvexOn ℝ Set.univ φ) (hD : ∀ x, IsGrad φ x (D x)) (hτ : 0 < τ) {x p : E} (h : IsProx (XFun.ofReal φ) τ x p) : x = p + τ • D p := by
  have h1 : IsProx (XFun.ofReal φ) τ (p + τ • D p) p := isProx_of_subgrad hτ ⟨trivial, fun y _ => by
    rw [add_sub_cancel_left, smul_smul, one_div_mul_cancel hτ.ne', one_smul]
    exact grad_ineq hφ (hD p) y⟩
  have h2 := subgrad_of_isProx (F := XFun.ofReal φ) hφ hτ h
  have h3 : (1 / τ) • (x - p) = D p := by
    -- a subgradient of a differentiable function is its gradient
    set v := (1 / τ) • (x - p) - D p with hv
    have hle : ∀ t : ℝ, 0 < t → t * ‖v‖ ^ 2 ≤ φ (p + t • v) - φ p - t * ⟪D p, v⟫ := fun t _ => by
      have := h2.2 (p + t • v) trivial
      simp only [XFun.ofReal, add_sub_cancel_left, inner_smul_right] at this
      have e : ⟪(1 / τ) • (x - p), v⟫ = ‖v‖ ^ 2 + ⟪D p, v⟫ := by
        rw [← real_inner_self_eq_norm_sq, ← inner_add_left, hv]; simp
      rw [e] at this
      linarith
    have hder := line_deriv hD p v 0
    rw [zero_smul, add_zero] at hder
    have hlim := hder.tendsto_slope_zero_right
    have hle' : ‖v‖ ^ 2 + ⟪D p, v⟫ ≤ ⟪D p, v⟫ := by
      refine ge_of_tendsto hlim ?_
      filter_upwards [self_mem_nhdsWithin] with t ht
      have ht : 0 < t := ht
      have := hle t ht
      simp only [zero_add, zero_smul, add_zero, smul_eq_mul]
      rw [← div_eq_inv_mul, le_div_iff₀ ht]
      linarith
    have : v = 0 := by
      rw [← norm_eq_zero, ← sq_eq_zero_iff]
      nlinarith [sq_nonneg ‖v‖]
    exact sub_eq_zero.1 this
  rw [← h3, smul_smul, mul_one_div_cancel hτ.ne', one_smul]
  abel

/-- A minimiser of `φ + G`, `φ` differentiable, is certified by the gradient. -/
lemma certified_of_smooth (hφ : ConvexOn ℝ Set.univ φ) (hD : ∀ x, IsGrad φ x (D x)) (hG : G.Convex) {c : E} (hc : ((XFun.ofReal φ).add G).IsMin c) {P : E → E}
    (hP : ∀ x, IsProx G 1 x (P x)) : IsCertified (XFun.ofReal φ) G c (-D c) := by
  have h1 := (pg_fixed_iff hφ hG one_pos hD hP c).2 hc
  have h2 := subgrad_of_isProx hG one_pos (hP (c - (1 : ℝ) • D c))
  rw [h1] at h2
  refine ⟨⟨trivial, fun y _ => by rw [neg_neg]; exact grad_ineq hφ (hD c) y⟩, ?_⟩
  convert h2 using 1
  simp

/-- The step of `DouglasRachfordSplitting` is a contraction if one of the reflections is. -/
lemma dr_contract {P₁ P₂ : E → E} {δ : ℝ} (h : ∀ x y, ‖((2 : ℝ) • P₂ ((2 : ℝ) • P₁ x - x) - ((2 : ℝ) • P₁ x - x)) - ((2 : ℝ) • P₂ ((2 : ℝ) • P₁ y - y) - ((2 : ℝ) • P₁ y - y))‖ ≤ δ * ‖x - y‖)
    (hη : 0 ≤ η) (x y : E) : ‖drStep P₁ P₂ η x - drStep P₁ P₂ η y‖ ≤ (|1 - η / 2| + η / 2 * δ) * ‖x - y‖ := by
  have e : drStep P₁ P₂ η x - drStep P₁ P₂ η y = (1 - η / 2) • (x - y) +
      (η / 2) • (((2 : ℝ) • P₂ ((2 : ℝ) • P₁ x - x) - ((2 : ℝ) • P₁ x - x)) - ((2 : ℝ) • P₂ ((2 : ℝ) • P₁ y - y) - ((2 : ℝ) • P₁ y - y))) := by
    unfold drStep
    module
  rw [e]
  refine (norm_add_le _ _).trans ?_
  rw [norm_smul, norm_smul, Real.norm_eq_abs, Real.norm_of_nonneg (by positivity : 0 ≤ η / 2), add_mul, mul_assoc (η / 2)]
  gcongr
  exact h x y

/-- The reflection of a firmly non-expansive map is non-expansive. -/
lemma Firm.reflect {P : E → E} (h : Firm P) (x y : E) : ‖((2 : ℝ) • P x - x) - ((2 : ℝ) • P y - y)‖ ≤ ‖x - y‖ := by
  refine (pow_le_pow_iff_left₀ (norm_nonneg _) (norm_nonneg _) two_ne_zero).1 ?_
  rw [show ((2 : ℝ) • P x - x) - ((2 : ℝ) • P y - y) = (2 : ℝ) • (P x - P y) - (x - y) by module, norm_sub_sq_real, norm_smul, real_inner_smul_left]
  have := h x y
  norm_num
  nlinarith

/-- C101 for `DouglasRachfordSplitting`, in either order: if `f` is `μ`-strongly convex with `L`-Lipschitz gradient `D`, and `g` convex, the distance of the returned point to the minimiser
shrinks by `|1 - eta/2| + eta/2 (1 - γ)/(1 + γ)` per iteration, `γ = min(tau μ, 1/(tau L))`. -/
theorem C101_dr_rate (hD : ∀ x, IsGrad φ x (D x)) (hL : LipschitzGrad φ L) (hφ : StrongConvexOn Set.univ μ φ) (hμL : μ ≤ L) (hG : G.Convex) (hf : ProxExact f (XFun.ofReal φ))
    (hg : ProxExact g G) (hτ : 0 < τ) (hη : 0 < η) (hγ : 0 < γ) (hγμ : γ ≤ τ * μ) (hγL : γ * (τ * L) ≤ 1) (gfirst : Bool) (x0 : E) (n : ℕ) (r : E × E × List (E × E))
    (hr : DouglasRachford f g x0 τ η (n + 1) gfirst = .ok r) (c : E) (hc : ((XFun.ofReal φ).add G).IsMin c) :
    ‖r.1 - c‖ ≤ (|1 - η / 2| + η / 2 * ((1 - γ) / (1 + γ))) ^ n * ‖x0 - (if gfirst then c - τ • D c else c + τ • D c)‖ := by
  obtain ⟨Pf, hPf, hPf'⟩ := proxExact_map hf hτ
  obtain ⟨Pg, hPg, hPg'⟩ := proxExact_map hg hτ
  obtain ⟨P1, -, hP1⟩ := proxExact_map hg one_pos
  have hμ : 0 ≤ μ := by
    by_contra hneg; push Not at hneg; nlinarith [mul_neg_of_pos_of_neg hτ hneg]
  have hφc : ConvexOn ℝ Set.univ φ := by simpa using hφ.mono hμ
  have hγ1 : γ ≤ 1 := by
    by_contra hcon
    push Not at hcon
    have : τ * μ ≤ τ * L := mul_le_mul_of_nonneg_left hμL hτ.le
    nlinarith
  have hδ : 0 ≤ (1 - γ) / (1 + γ) := div_nonneg (by linarith) (by linarith)
  have hq : 0 ≤ |1 - η / 2| + η / 2 * ((1 - γ) / (1 + γ)) := by positivity
  have hcert := certified_of_smooth hφc hD hG hc hP1
  have f1 := firm_prox (F := XFun.ofReal φ) hφc hτ hPf'
  have f2 := firm_prox hG hτ hPg'
  have hrefl : ∀ x y, ‖((2 : ℝ) • Pf x - x) - ((2 : ℝ) • Pf y - y)‖ ≤ (1 - γ) / (1 + γ) * ‖x - y‖ := fun x y =>
    reflect_contract hD (fun x y => hL x y _ _ (hD x) (hD y)) hφ hμL hγ hτ hγμ hγL (prox_smooth_eq hφc hD hτ (hPf' x)) (prox_smooth_eq hφc hD hτ (hPf' y))
  obtain ⟨Y, hY0, hY, hrun⟩ := dr_traj hPf hPg η gfirst x0
  rw [hrun n] at hr
  cases hr
  cases gfirst with
  | true =>
    simp only [if_true] at hY ⊢
    have hfix := dr_fixed_exists (F := XFun.ofReal φ) (η := η) hφc hG hτ hη.ne' hPf' hPg' hcert
    rw [smul_neg, ← sub_eq_add_neg] at hfix
    have h1 := iterate_contract hq (fun x y => dr_contract (P₁ := Pg) (P₂ := Pf) (δ := (1 - γ) / (1 + γ)) (fun x y =>
      (hrefl _ _).trans (mul_le_mul_of_nonneg_left (f2.reflect x y) hδ)) hη.le x y) hY (Y := fun _ => c - τ • D c) (fun _ => hfix.1.symm) n
    rw [hY0] at h1
    have h2 := f2.nonexp (Y n) (c - τ • D c)
    rw [hfix.2] at h2
    exact h2.trans h1
  | false =>
    simp only [Bool.false_eq_true, if_false] at hY ⊢
    have hfix := dr_fixed_exists (G := XFun.ofReal φ) (η := η) hG hφc hτ hη.ne' hPg' hPf' hcert.swap
    rw [neg_neg] at hfix
    have h1 := iterate_contract hq (fun x y => dr_contract (P₁ := Pf) (P₂ := Pg) (δ := (1 - γ) / (1 + γ)) (fun x y =>
      (f2.reflect _ _).trans (hrefl x y)) hη.le x y) hY (Y := fun _ => c + τ • D c) (fun _ => hfix.1.symm) n
    rw [hY0] at h1
    have h2 := f1.nonexp (Y n) (c + τ • D c)
    rw [hfix.2] at h2
    exact h2.trans h1

/-- C101 for `ADMM` that calls `g` first: the rate of `DouglasRachfordSplitting` with `eta = 1` started from `prox_g(x0)`. -/
theorem C101_admm_rate (hD : ∀ x, IsGrad φ x (D x)) (hL : LipschitzGrad φ L) (hφ : StrongConvexOn Set.univ μ φ) (hμL : μ ≤ L) (hG : G.Convex) (hf : ProxExact f (XFun.ofReal φ))
    (hg : ProxExact g G) (hτ : 0 < τ) (hγ : 0 < γ) (hγμ : γ ≤ τ * μ) (hγL : γ * (τ * L) ≤ 1) (x0 w : E) (z0 : Option E) (hw : g.prox x0 τ = .ok w) (n : ℕ) (s : SplitState E)
    (hs : ADMM f g (some x0) z0 τ (n + 1) true = .ok s) (c : E) (hc : ((XFun.ofReal φ).add G).IsMin c) :
    ‖s.x - c‖ ≤ (1 / (1 + γ)) ^ n * ‖w - (c + τ • D c)‖ := by
  obtain ⟨s', r, h1, h2, h3, -⟩ := C100_admm_dr_gfirst (f := f) (g := g) (τ := τ) (fun x => (hf x τ hτ).imp fun p h => h.1) (fun x => (hg x τ hτ).imp fun p h => h.1) x0 w z0 hw n
  rw [hs] at h1
  cases h1
  have h := C101_dr_rate hD hL hφ hμL hG hf hg hτ one_pos hγ hγμ hγL false w n r h2 c hc
  rw [h3]
  have e : |1 - (1 : ℝ) / 2| + 1 / 2 * ((1 - γ) / (1 + γ)) = 1 / (1 + γ) := by
    rw [abs_of_pos (by norm_num)]; field_simp; ring
  rw [e] at h
  simpa using h

/-! ## Non-vacuity -/

lemma strong_half_sq (s : ℝ) : StrongConvexOn Set.univ s (fun x : E => s / 2 * ‖x‖ ^ 2) := by
  rw [strongConvexOn_iff_convex]
  simpa using convexOn_const (0 : ℝ) (convex_univ (𝕜 := ℝ) (E := E))

/-- `f = s/2 ‖x‖²` satisfies the hypotheses with `μ = L = s`, and the rate of `ProximalPoint` is attained. -/
example (s : ℝ) (hs : 0 < s) : StrongConvexOn Set.univ s (fun x : E => s / 2 * ‖x‖ ^ 2) ∧ LipschitzGrad (fun x : E => s / 2 * ‖x‖ ^ 2) s ∧
    ∀ (τ : ℝ), 0 < τ → ∀ x : E, IsProx (XFun.ofReal fun x : E => s / 2 * ‖x‖ ^ 2) τ x ((1 / (1 + τ * s)) • x) := by
  have hgr : ∀ x : E, IsGrad (fun x : E => s / 2 * ‖x‖ ^ 2) x (s • x) := fun x => by
    have h1 : HasFDerivAt (fun x : E => s / 2 * ‖x‖ ^ 2) ((s / 2) • (2 • innerSL ℝ x)) x := ((hasStrictFDerivAt_norm_sq x).hasFDerivAt).const_mul (s / 2)
    unfold IsGrad
    convert h1 using 1
    ext v
    simp
    ring
  refine ⟨strong_half_sq s, fun x y gx gy hx hy => ?_, fun τ hτ x => ?_⟩
  · have e : ∀ x g : E, IsGrad (fun x : E => s / 2 * ‖x‖ ^ 2) x g → g = s • x := fun x g h => by
      have := HasFDerivAt.unique h (hgr x)
      exact ext_inner_right ℝ fun v => congrArg (fun T => T v) this
    rw [e x gx hx, e y gy hy, ← smul_sub, norm_smul, Real.norm_of_nonneg hs.le]
  · have h1 : 0 < 1 + τ * s := by positivity
    refine isProx_of_subgrad hτ ⟨trivial, fun y _ => ?_⟩
    have e : (1 / τ) • (x - (1 / (1 + τ * s)) • x) = s • ((1 / (1 + τ * s)) • x) := by
      rw [show x - (1 / (1 + τ * s)) • x = (1 - 1 / (1 + τ * s)) • x by rw [sub_smul, one_smul], smul_smul, smul_smul]
      congr 1
      field_simp
      ring
    rw [e]
    exact grad_ineq (by simpa using (strong_half_sq (E := E) s).mono hs.le) (hgr _) y

end Verif
