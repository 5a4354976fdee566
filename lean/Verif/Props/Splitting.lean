import Verif.Spec.Contract
import Verif.Model.Primal
import Verif.Lemmas.Splitting
import Verif.Props.Lasso

/-! # C44 DouglasRachfordSplitting, C45 ADMM, C52 HQS, C56 starting points -/

open scoped RealInnerProductSpace
open Filter Topology

set_option linter.unusedSectionVars false

namespace Verif

variable {E : Type} [NormedAddCommGroup E] [InnerProductSpace ℝ E] {f g : ProxOp E} {F G : XFun E} {τ η : ℝ}

/-! ## Douglas-Rachford -/

/-- The trajectory of `DouglasRachfordSplitting`: `P₁` is the map applied first. -/
lemma dr_traj {Pf Pg : E → E} (hf : ∀ x, f.prox x τ = .ok (Pf x)) (hg : ∀ x, g.prox x τ = .ok (Pg x)) (η : ℝ) (gfirst : Bool) (x0 : E) :
    ∃ Y : ℕ → E, Y 0 = x0 ∧ (∀ n, Y (n + 1) = drStep (if gfirst then Pg else Pf) (if gfirst then Pf else Pg) η (Y n)) ∧
      ∀ n, DouglasRachford f g x0 τ η (n + 1) gfirst =
        .ok ((if gfirst then Pg else Pf) (Y n), Y (n + 1), (List.range (n + 1)).map fun i => ((if gfirst then Pg else Pf) (Y i), Y (i + 1))) := by
  set P₁ := if gfirst then Pg else Pf with hP₁
  set P₂ := if gfirst then Pf else Pg with hP₂
  have hbody : ∀ i (s : DRState E), DR.body f g τ η gfirst i s =
      .ok (⟨some (P₁ s.y), drStep P₁ P₂ η s.y, s.log ++ [(P₁ s.y, drStep P₁ P₂ η s.y)]⟩, false) := by
    intro i s
    cases gfirst <;> simp [DR.body, hf, hg, hP₁, hP₂, drStep, Bind.bind, Except.bind, Pure.pure, Except.pure]
  obtain ⟨S, h0, -, h2, h3⟩ := forRange_traj_nobreak (DR.body f g τ η gfirst) (fun _ => True)
    (fun _ s s' => s' = ⟨some (P₁ s.y), drStep P₁ P₂ η s.y, s.log ++ [(P₁ s.y, drStep P₁ P₂ η s.y)]⟩)
    (fun i s _ => ⟨_, hbody i s, trivial, rfl⟩) ⟨none, x0, []⟩ trivial
  have hlog : ∀ n, (S n).log = (List.range n).map fun i => (P₁ (S i).y, (S (i + 1)).y) := by
    intro n
    induction n with
    | zero => rw [h0]; rfl
    | succ n ih => rw [h2 n, ih, List.range_succ, List.map_append]; simp [h2 n]
  refine ⟨fun n => (S n).y, by simp [h0], fun n => by simp [h2 n], fun n => ?_⟩
  simp only [DouglasRachford, h3 (n + 1), Bind.bind, Except.bind, Pure.pure, Except.pure]
  rw [← hlog (n + 1), h2 n]

/-- C44: with exact `prox` the solver returns for every `niter ≥ 1`; with `niter = 0` it fails. -/
theorem C44_dr_returns (hf : ProxExact f F) (hg : ProxExact g G) (hτ : 0 < τ) (η : ℝ) (gfirst : Bool) (x0 : E) (n : ℕ) :
    (∃ r, DouglasRachford f g x0 τ η (n + 1) gfirst = .ok r) ∧ DouglasRachford f g x0 τ η 0 gfirst = .error .unboundLocalError := by
  obtain ⟨Pf, hPf, -⟩ := proxExact_map hf hτ
  obtain ⟨Pg, hPg, -⟩ := proxExact_map hg hτ
  obtain ⟨Y, -, -, h⟩ := dr_traj hPf hPg η gfirst x0
  exact ⟨⟨_, h n⟩, rfl⟩

/-- C44: the auxiliary variable `y` never moves away from a stationary value `c` (one that an iteration started at `c` leaves unchanged). -/
theorem C44_dr_fejer (hF : F.Convex) (hG : G.Convex) (hf : ProxExact f F) (hg : ProxExact g G) (hτ : 0 < τ) (hη : 0 < η) (hη2 : η ≤ 2)
    (gfirst : Bool) (x0 c : E) (xc : E) (lc : List (E × E)) (hc : DouglasRachford f g c τ η 1 gfirst = .ok (xc, c, lc)) (n : ℕ)
    (r r' : E × E × List (E × E)) (hr : DouglasRachford f g x0 τ η (n + 1) gfirst = .ok r)
    (hr' : DouglasRachford f g x0 τ η (n + 2) gfirst = .ok r') : ‖r'.2.1 - c‖ ≤ ‖r.2.1 - c‖ := by
  obtain ⟨Pf, hPf, hPf'⟩ := proxExact_map hf hτ
  obtain ⟨Pg, hPg, hPg'⟩ := proxExact_map hg hτ
  obtain ⟨Y, hY0, hY, h⟩ := dr_traj hPf hPg η gfirst x0
  obtain ⟨Z, hZ0, hZ, hz⟩ := dr_traj hPf hPg η gfirst c
  rw [h] at hr hr'
  cases hr; cases hr'
  rw [hz 0] at hc
  have hfix : drStep (if gfirst then Pg else Pf) (if gfirst then Pf else Pg) η c = c := by
    have e := hZ 0
    rw [hZ0] at e
    rw [← e]
    injection hc with hc
    exact (Prod.mk.inj (Prod.mk.inj hc).2).1
  have firm1 : Firm (if gfirst then Pg else Pf) := by cases gfirst; exacts [firm_prox hF hτ hPf', firm_prox hG hτ hPg']
  have firm2 : Firm (if gfirst then Pf else Pg) := by cases gfirst; exacts [firm_prox hG hτ hPg', firm_prox hF hτ hPf']
  have := dr_fejer firm1 firm2 hη hfix (Y (n + 1))
  rw [← hY] at this
  simp only
  have h2 : 0 ≤ (2 - η) / η * ‖Y (n + 1 + 1) - Y (n + 1)‖ ^ 2 := mul_nonneg (div_nonneg (by linarith) hη.le) (sq_nonneg _)
  exact (pow_le_pow_iff_left₀ (norm_nonneg _) (norm_nonneg _) two_ne_zero).1 (by linarith)

/-- C44: if one iteration started from `c` leaves `y` unchanged, the `x` it returns minimises `F + G`. -/
theorem C44_dr_stationary (hF : F.Convex) (hG : G.Convex) (hf : ProxExact f F) (hg : ProxExact g G) (hτ : 0 < τ) (hη : η ≠ 0)
    (gfirst : Bool) (c xc : E) (lc : List (E × E)) (hc : DouglasRachford f g c τ η 1 gfirst = .ok (xc, c, lc)) : (F.add G).IsMin xc := by
  obtain ⟨Pf, hPf, hPf'⟩ := proxExact_map hf hτ
  obtain ⟨Pg, hPg, hPg'⟩ := proxExact_map hg hτ
  obtain ⟨Z, hZ0, hZ, hz⟩ := dr_traj hPf hPg η gfirst c
  rw [hz 0] at hc
  injection hc with hc
  obtain ⟨e1, e2⟩ := Prod.mk.inj hc
  have e3 := (Prod.mk.inj e2).1
  rw [hZ0] at e1
  have e4 := hZ 0
  rw [hZ0, e3] at e4
  cases gfirst with
  | true =>
    simp only [if_true] at e1 e4
    have := (dr_fixed_iff hF hG hτ hη hPf' hPg' c).1 e4.symm
    rw [← e1]; exact this.isMin
  | false =>
    simp only [Bool.false_eq_true, if_false] at e1 e4
    have := (dr_fixed_iff hG hF hτ hη hPg' hPf' c).1 e4.symm
    rw [← e1]; exact this.swap.isMin

/-- C44: convergence.  In finite dimension, for either order and any `0 < eta < 2`, if `F + G` has a minimiser with a certificate, the returned `x`
converge to a minimiser of `F + G` as `niter` grows. -/
theorem C44_dr_converges [ProperSpace E] (hF : F.Convex) (hG : G.Convex) (hf : ProxExact f F) (hg : ProxExact g G) (hτ : 0 < τ) (hη : 0 < η)
    (hη2 : η < 2) (gfirst : Bool) (x0 : E) (hsol : ∃ x s, IsCertified F G x s) (R : ℕ → E × E × List (E × E))
    (hR : ∀ n, DouglasRachford f g x0 τ η (n + 1) gfirst = .ok (R n)) :
    ∃ x, (F.add G).IsMin x ∧ Tendsto (fun n => (R n).1) atTop (𝓝 x) := by
  obtain ⟨Pf, hPf, hPf'⟩ := proxExact_map hf hτ
  obtain ⟨Pg, hPg, hPg'⟩ := proxExact_map hg hτ
  obtain ⟨Y, hY0, hY, h⟩ := dr_traj hPf hPg η gfirst x0
  obtain ⟨x, s, hxs⟩ := hsol
  have hRn : ∀ n, (R n).1 = (if gfirst then Pg else Pf) (Y n) := by
    intro n
    have := (hR n).symm.trans (h n)
    injection this with this
    rw [this]
  have f1 := firm_prox hF hτ hPf'
  have f2 := firm_prox hG hτ hPg'
  cases gfirst with
  | true =>
    simp only [if_true] at hY hRn
    obtain ⟨c, hc, hlim⟩ := dr_converges f2 f1 hη hη2 ⟨_, (dr_fixed_exists hF hG hτ hη.ne' hPf' hPg' hxs).1⟩ Y hY
    refine ⟨Pg c, ((dr_fixed_iff hF hG hτ hη.ne' hPf' hPg' c).1 hc).isMin, ?_⟩
    simp only [hRn]
    exact (f2.continuous.tendsto c).comp hlim
  | false =>
    simp only [Bool.false_eq_true, if_false] at hY hRn
    obtain ⟨c, hc, hlim⟩ := dr_converges f1 f2 hη hη2 ⟨_, (dr_fixed_exists hG hF hτ hη.ne' hPg' hPf' hxs.swap).1⟩ Y hY
    refine ⟨Pf c, ((dr_fixed_iff hG hF hτ hη.ne' hPg' hPf' c).1 hc).swap.isMin, ?_⟩
    simp only [hRn]
    exact (f1.continuous.tendsto c).comp hlim

/-! ## ADMM -/

/-- The trajectory of `ADMM`. -/
lemma admm_traj {Pf Pg : E → E} (hf : ∀ x, f.prox x τ = .ok (Pf x)) (hg : ∀ x, g.prox x τ = .ok (Pg x)) (gfirst : Bool) (x0 z0 : Option E)
    (x z : E) (hinit : x0z0Init x0 z0 = .ok (x, z)) :
    ∃ S : ℕ → SplitState E, (S 0).x = x ∧ (S 0).z = z ∧ (S 0).u = 0 ∧
      (∀ n, (S (n + 1)).u = (S n).u + (S (n + 1)).x - (S (n + 1)).z) ∧
      (gfirst = true → ∀ n, (S (n + 1)).z = Pg ((S n).x + (S n).u) ∧ (S (n + 1)).x = Pf ((S (n + 1)).z - (S n).u)) ∧
      (gfirst = false → ∀ n, (S (n + 1)).x = Pf ((S n).z - (S n).u) ∧ (S (n + 1)).z = Pg ((S (n + 1)).x + (S n).u)) ∧
      (∀ n, (S n).log = (List.range n).map fun i => ((S (i + 1)).x, (S (i + 1)).z)) ∧
      ∀ n, ADMM f g x0 z0 τ n gfirst = .ok (S n) := by
  let next : SplitState E → SplitState E := fun s =>
    if gfirst then
      ⟨Pf (Pg (s.x + s.u) - s.u), Pg (s.x + s.u), s.u + Pf (Pg (s.x + s.u) - s.u) - Pg (s.x + s.u), s.log ++ [(Pf (Pg (s.x + s.u) - s.u), Pg (s.x + s.u))]⟩
    else
      ⟨Pf (s.z - s.u), Pg (Pf (s.z - s.u) + s.u), s.u + Pf (s.z - s.u) - Pg (Pf (s.z - s.u) + s.u),
        s.log ++ [(Pf (s.z - s.u), Pg (Pf (s.z - s.u) + s.u))]⟩
  have hbody : ∀ i s, ADMM.body f g τ gfirst i s = .ok (next s, false) := by
    intro i s
    cases gfirst <;> simp [ADMM.body, hf, hg, next, Bind.bind, Except.bind, Pure.pure, Except.pure]
  obtain ⟨S, h0, -, h2, h3⟩ := forRange_traj_nobreak (ADMM.body f g τ gfirst) (fun _ => True) (fun _ s s' => s' = next s)
    (fun i s _ => ⟨_, hbody i s, trivial, rfl⟩) ⟨x, z, 0, []⟩ trivial
  refine ⟨S, by rw [h0], by rw [h0], by rw [h0], ?_, ?_, ?_, ?_, ?_⟩
  · intro n; rw [h2 n]; cases gfirst <;> simp [next]
  · rintro rfl n; rw [h2 n]; simp [next]
  · rintro rfl n; rw [h2 n]; simp [next]
  · intro n
    induction n with
    | zero => rw [h0]; rfl
    | succ n ih =>
      have e : (S (n + 1)).log = (S n).log ++ [((S (n + 1)).x, (S (n + 1)).z)] := by rw [h2 n]; cases gfirst <;> simp [next]
      rw [e, ih, List.range_succ, List.map_append]; simp
  · intro n; simp only [ADMM, hinit, Bind.bind, Except.bind]; exact h3 n

/-- C45: if one more iteration changes none of `x`, `z`, `u`, then `x = z` and `x` minimises `F + G`. -/
theorem C45_admm_stationary (hF : F.Convex) (hG : G.Convex) (hf : ProxExact f F) (hg : ProxExact g G) (hτ : 0 < τ) (gfirst : Bool)
    (i : ℕ) (s s' : SplitState E) (b : Bool) (h : ADMM.body f g τ gfirst i s = .ok (s', b)) (hx : s'.x = s.x) (hz : s'.z = s.z) (hu : s'.u = s.u) :
    s.x = s.z ∧ (F.add G).IsMin s.x ∧ IsCertified F G s.x ((1 / τ) • s.u) := by
  obtain ⟨Pf, hPf, hPf'⟩ := proxExact_map hf hτ
  obtain ⟨Pg, hPg, hPg'⟩ := proxExact_map hg hτ
  have key : s.x = s.z ∧ Pf (s.z - s.u) = s.x ∧ Pg (s.x + s.u) = s.z := by
    cases gfirst with
    | true =>
      simp only [ADMM.body, if_true, hPf, hPg, Bind.bind, Except.bind, Pure.pure, Except.pure] at h
      cases h
      simp only at hx hz hu
      rw [hz] at hx hu
      rw [hx] at hu
      refine ⟨?_, hx, hz⟩
      have : s.u + (s.x - s.z) = s.u := by rw [← add_sub_assoc]; exact hu
      exact sub_eq_zero.1 (add_eq_left.1 this)
    | false =>
      simp only [ADMM.body, Bool.false_eq_true, if_false, hPf, hPg, Bind.bind, Except.bind, Pure.pure, Except.pure] at h
      cases h
      simp only at hx hz hu
      rw [hx] at hz hu
      rw [hz] at hu
      refine ⟨?_, hx, hz⟩
      have : s.u + (s.x - s.z) = s.u := by rw [← add_sub_assoc]; exact hu
      exact sub_eq_zero.1 (add_eq_left.1 this)
  obtain ⟨hxz, h1, h2⟩ := key
  have c1 := subgrad_of_isProx hF hτ (hPf' (s.z - s.u))
  have c2 := subgrad_of_isProx hG hτ (hPg' (s.x + s.u))
  rw [h1, ← hxz, show s.x - s.u - s.x = -s.u by abel, smul_neg] at c1
  rw [h2, ← hxz, show s.x + s.u - s.x = s.u by abel] at c2
  have hc : IsCertified F G s.x ((1 / τ) • s.u) := ⟨c1, c2⟩
  exact ⟨hxz, hc.isMin, hc⟩

/-- C45: conversely a certified minimiser is left unchanged by an iteration, in either order. -/
theorem C45_admm_stationary_of_min (hF : F.Convex) (hG : G.Convex) (hf : ProxExact f F) (hg : ProxExact g G) (hτ : 0 < τ) (gfirst : Bool)
    (i : ℕ) (x v : E) (hxv : IsCertified F G x v) (l : List (E × E)) :
    ADMM.body f g τ gfirst i ⟨x, x, τ • v, l⟩ = .ok (⟨x, x, τ • v, l ++ [(x, x)]⟩, false) := by
  obtain ⟨Pf, hPf, hPf'⟩ := proxExact_map hf hτ
  obtain ⟨Pg, hPg, hPg'⟩ := proxExact_map hg hτ
  have h1 : Pf (x - τ • v) = x := IsProx.unique hF hτ (isProx_of_subgrad hτ (by
    rw [show x - τ • v - x = -(τ • v) by abel, smul_neg, smul_smul, one_div, inv_mul_cancel₀ hτ.ne', one_smul]; exact hxv.1)) (hPf' _)
  have h2 : Pg (x + τ • v) = x := IsProx.unique hG hτ (isProx_of_subgrad hτ (by
    rw [show x + τ • v - x = τ • v by abel, smul_smul, one_div, inv_mul_cancel₀ hτ.ne', one_smul]; exact hxv.2)) (hPg' _)
  cases gfirst <;> simp [ADMM.body, hPf, hPg, h1, h2, Bind.bind, Except.bind, Pure.pure, Except.pure]

/-- C45: convergence.  In finite dimension, for either order and every starting point, if `F + G` has a minimiser with a certificate, both returned
sequences `x` and `z` converge to one and the same minimiser of `F + G`. -/
theorem C45_admm_converges [ProperSpace E] (hF : F.Convex) (hG : G.Convex) (hf : ProxExact f F) (hg : ProxExact g G) (hτ : 0 < τ) (gfirst : Bool)
    (x0 z0 : Option E) (h0 : x0.isSome ∨ z0.isSome) (hsol : ∃ x s, IsCertified F G x s) :
    ∃ S : ℕ → SplitState E, (∀ n, ADMM f g x0 z0 τ n gfirst = .ok (S n)) ∧
      ∃ c, (F.add G).IsMin c ∧ Tendsto (fun n => (S n).x) atTop (𝓝 c) ∧ Tendsto (fun n => (S n).z) atTop (𝓝 c) := by
  obtain ⟨Pf, hPf, hPf'⟩ := proxExact_map hf hτ
  obtain ⟨Pg, hPg, hPg'⟩ := proxExact_map hg hτ
  obtain ⟨x, z, hinit⟩ : ∃ x z, x0z0Init x0 z0 = .ok (x, z) := by
    rcases x0 with _ | x <;> rcases z0 with _ | z
    · simp at h0
    all_goals exact ⟨_, _, rfl⟩
  obtain ⟨S, -, -, -, hu, ht, hff, -, hS⟩ := admm_traj hPf hPg gfirst x0 z0 x z hinit
  refine ⟨S, hS, ?_⟩
  obtain ⟨xs, s, hxs⟩ := hsol
  have f1 := firm_prox hF hτ hPf'
  have f2 := firm_prox hG hτ hPg'
  cases gfirst with
  | false =>
    have hff := hff rfl
    let V : ℕ → E := fun n => (S (n + 1)).x + (S n).u
    have hz : ∀ n, (S (n + 1)).z = Pg (V n) := fun n => (hff n).2
    have hun : ∀ n, (S (n + 1)).u = V n - Pg (V n) := fun n => by rw [hu, hz]; simp only [V]; abel
    have hx : ∀ n, (S (n + 2)).x = Pf ((2 : ℝ) • Pg (V n) - V n) := fun n => by
      rw [(hff (n + 1)).1, hz, hun, two_smul]; congr 1; abel
    have hV : ∀ n, V (n + 1) = drStep Pg Pf 1 (V n) := fun n => by
      show (S (n + 2)).x + (S (n + 1)).u = _
      rw [hx, hun]; unfold drStep; rw [one_smul]; abel
    obtain ⟨c, hc, hlim⟩ := dr_converges f2 f1 one_pos one_lt_two ⟨_, (dr_fixed_exists hF hG hτ one_ne_zero hPf' hPg' hxs).1⟩ V hV
    refine ⟨Pg c, ((dr_fixed_iff hF hG hτ one_ne_zero hPf' hPg' c).1 hc).isMin, ?_, ?_⟩
    · rw [← tendsto_add_atTop_iff_nat 2]
      have hcont : Continuous fun v => Pf ((2 : ℝ) • Pg v - v) := by
        have := f1.continuous; have := f2.continuous; fun_prop
      have := (hcont.tendsto c).comp hlim
      have e : Pf ((2 : ℝ) • Pg c - c) = Pg c := by
        unfold drStep at hc
        rw [one_smul] at hc
        exact sub_eq_zero.1 (add_eq_left.1 hc)
      rw [e] at this
      exact this.congr fun n => (hx n).symm
    · rw [← tendsto_add_atTop_iff_nat 1]
      exact ((f2.continuous.tendsto c).comp hlim).congr fun n => (hz n).symm
  | true =>
    have hff := ht rfl
    let V : ℕ → E := fun n => (S (n + 1)).z - (S n).u
    have hx : ∀ n, (S (n + 1)).x = Pf (V n) := fun n => (hff n).2
    have hun : ∀ n, (S (n + 1)).u = Pf (V n) - V n := fun n => by rw [hu, hx]; simp only [V]; abel
    have hz : ∀ n, (S (n + 2)).z = Pg ((2 : ℝ) • Pf (V n) - V n) := fun n => by
      rw [(hff (n + 1)).1, hx, hun, two_smul]; congr 1; abel
    have hV : ∀ n, V (n + 1) = drStep Pf Pg 1 (V n) := fun n => by
      show (S (n + 2)).z - (S (n + 1)).u = _
      rw [hz, hun]; unfold drStep; rw [one_smul]; abel
    obtain ⟨c, hc, hlim⟩ := dr_converges f1 f2 one_pos one_lt_two ⟨_, (dr_fixed_exists hG hF hτ one_ne_zero hPg' hPf' hxs.swap).1⟩ V hV
    refine ⟨Pf c, ((dr_fixed_iff hG hF hτ one_ne_zero hPg' hPf' c).1 hc).swap.isMin, ?_, ?_⟩
    · rw [← tendsto_add_atTop_iff_nat 1]
      exact ((f1.continuous.tendsto c).comp hlim).congr fun n => (hx n).symm
    · rw [← tendsto_add_atTop_iff_nat 2]
      have hcont : Continuous fun v => Pg ((2 : ℝ) • Pf v - v) := by
        have := f1.continuous; have := f2.continuous; fun_prop
      have := (hcont.tendsto c).comp hlim
      have e : Pg ((2 : ℝ) • Pf c - c) = Pf c := by
        unfold drStep at hc
        rw [one_smul] at hc
        exact sub_eq_zero.1 (add_eq_left.1 hc)
      rw [e] at this
      exact this.congr fun n => (hz n).symm

/-! ## HQS -/

/-- C52: with a constant step every HQS iteration after the first does not increase `F(x) + G(z) + ‖x-z‖²/(2 tau)`; convexity is not needed. -/
theorem C52_hqs_descent (hf : ProxExact f F) (hg : ProxExact g G) (hτ : 0 < τ) (gfirst : Bool) (x0 z0 : Option E) (n : ℕ) (s s' : SplitState E)
    (hs : HQS f g x0 z0 (.scalar τ) (n + 1) gfirst = .ok s) (hs' : HQS f g x0 z0 (.scalar τ) (n + 2) gfirst = .ok s') :
    s.x ∈ F.dom ∧ s.z ∈ G.dom ∧ s'.x ∈ F.dom ∧ s'.z ∈ G.dom ∧
      F.val s'.x + G.val s'.z + ‖s'.x - s'.z‖ ^ 2 / (2 * τ) ≤ F.val s.x + G.val s.z + ‖s.x - s.z‖ ^ 2 / (2 * τ) := by
  obtain ⟨Pf, hPf, hPf'⟩ := proxExact_map hf hτ
  obtain ⟨Pg, hPg, hPg'⟩ := proxExact_map hg hτ
  rcases hinit : x0z0Init x0 z0 with e | ⟨x, z⟩
  · simp [HQS, hinit, Bind.bind, Except.bind] at hs
  let next : SplitState E → SplitState E := fun s =>
    if gfirst then ⟨Pf (Pg s.x), Pg s.x, s.u, s.log ++ [(Pf (Pg s.x), Pg s.x)]⟩
    else ⟨Pf s.z, Pg (Pf s.z), s.u, s.log ++ [(Pf s.z, Pg (Pf s.z))]⟩
  have hbody : ∀ i s, HQS.body f g (.scalar τ) gfirst i s = .ok (next s, false) := by
    intro i s
    cases gfirst <;> simp [HQS.body, StepSpec.at, hPf, hPg, next, Bind.bind, Except.bind, Pure.pure, Except.pure]
  obtain ⟨S, h0, -, h2, h3⟩ := forRange_traj_nobreak (HQS.body f g (.scalar τ) gfirst) (fun _ => True) (fun _ s s' => s' = next s)
    (fun i s _ => ⟨_, hbody i s, trivial, rfl⟩) ⟨x, z, 0, []⟩ trivial
  simp only [HQS, hinit, Bind.bind, Except.bind, h3] at hs hs'
  injection hs with hs
  injection hs' with hs'
  subst hs hs'
  have e1 := h2 (n + 1)
  have e0 := h2 n
  cases gfirst with
  | true =>
    simp only [next, if_true] at e0 e1
    have hx : (S (n + 1)).x = Pf (Pg (S n).x) := by rw [e0]
    have hz : (S (n + 1)).z = Pg (S n).x := by rw [e0]
    have hx' : (S (n + 2)).x = Pf (Pg (S (n + 1)).x) := by rw [e1]
    have hz' : (S (n + 2)).z = Pg (S (n + 1)).x := by rw [e1]
    have d1 : (S (n + 1)).x ∈ F.dom := by rw [hx]; exact (hPf' _).1
    have d2 : (S (n + 1)).z ∈ G.dom := by rw [hz]; exact (hPg' _).1
    refine ⟨d1, d2, by rw [hx']; exact (hPf' _).1, by rw [hz']; exact (hPg' _).1, ?_⟩
    have k1 := (hPg' (S (n + 1)).x).2 _ d2
    have k2 := (hPf' (Pg (S (n + 1)).x)).2 _ d1
    rw [← hz'] at k1 k2
    rw [hz', ← hx', ← hz'] at k2
    unfold proxObj at k1 k2
    rw [norm_sub_rev (S (n + 1)).x (S (n + 2)).z] at k2
    rw [norm_sub_rev (S (n + 1)).x (S (n + 1)).z]
    linarith
  | false =>
    simp only [next, Bool.false_eq_true, if_false] at e0 e1
    have hx : (S (n + 1)).x = Pf (S n).z := by rw [e0]
    have hz : (S (n + 1)).z = Pg (S (n + 1)).x := by rw [e0]
    have hx' : (S (n + 2)).x = Pf (S (n + 1)).z := by rw [e1]
    have hz' : (S (n + 2)).z = Pg (S (n + 2)).x := by rw [e1]
    have d1 : (S (n + 1)).x ∈ F.dom := by rw [hx]; exact (hPf' _).1
    have d2 : (S (n + 1)).z ∈ G.dom := by rw [hz]; exact (hPg' _).1
    refine ⟨d1, d2, by rw [hx']; exact (hPf' _).1, by rw [hz']; exact (hPg' _).1, ?_⟩
    have k1 := (hPf' (S (n + 1)).z).2 _ d1
    have k2 := (hPg' (S (n + 2)).x).2 _ d2
    rw [← hx'] at k1
    rw [← hz'] at k2
    unfold proxObj at k1 k2
    rw [norm_sub_rev (S (n + 1)).z (S (n + 2)).x, norm_sub_rev (S (n + 2)).z] at k2
    linarith

/-- C52: HQS returns for every number of iterations once a starting point is given. -/
theorem C52_hqs_returns (hf : ProxExact f F) (hg : ProxExact g G) (hτ : 0 < τ) (gfirst : Bool) (x0 z0 : Option E) (h0 : x0.isSome ∨ z0.isSome) (n : ℕ) :
    ∃ s, HQS f g x0 z0 (.scalar τ) n gfirst = .ok s := by
  obtain ⟨Pf, hPf, hPf'⟩ := proxExact_map hf hτ
  obtain ⟨Pg, hPg, hPg'⟩ := proxExact_map hg hτ
  obtain ⟨x, z, hinit⟩ : ∃ x z, x0z0Init x0 z0 = .ok (x, z) := by
    rcases x0 with _ | x <;> rcases z0 with _ | z
    · simp at h0
    all_goals exact ⟨_, _, rfl⟩
  obtain ⟨S, -, -, -, h3⟩ := forRange_traj_nobreak (HQS.body f g (.scalar τ) gfirst) (fun _ => True) (fun _ _ _ => True)
    (fun i s _ => by
      cases gfirst <;> exact ⟨_, by simp [HQS.body, StepSpec.at, hPf, hPg, Bind.bind, Except.bind, Pure.pure, Except.pure]; rfl, trivial, trivial⟩)
    ⟨x, z, 0, []⟩ trivial
  exact ⟨S n, by simp only [HQS, hinit, Bind.bind, Except.bind, h3]⟩

/-! ## Starting points -/

/-- C56: without operator, `ValueError` iff both are missing; a missing one takes the value of the other. -/
theorem C56_x0z0 (x0 z0 : Option E) :
    (x0z0Init x0 z0 = .error .valueError ↔ x0 = none ∧ z0 = none) ∧
      ∀ x z, x0z0Init x0 z0 = .ok (x, z) ↔ (x0 = some x ∧ z0 = some z) ∨ (x0 = some x ∧ z0 = none ∧ z = x) ∨ (x0 = none ∧ z0 = some z ∧ x = z) := by
  cases x0 <;> cases z0 <;> simp [x0z0Init] <;> grind

/-- C56: with an operator, `ValueError` iff `x0` is missing; a missing `z0` is `A x0`. -/
theorem C56_x0z0_op {F' : Type} [NormedAddCommGroup F'] [InnerProductSpace ℝ F'] (A : LinOp E F') (x0 : Option E) (z0 : Option F') :
    (x0z0InitOp A x0 z0 = .error .valueError ↔ x0 = none) ∧
      ∀ x z, x0z0InitOp A x0 z0 = .ok (x, z) ↔ x0 = some x ∧ (z0 = some z ∨ z0 = none ∧ z = A.matvec x) := by
  cases x0 <;> cases z0 <;> simp [x0z0InitOp] <;> grind

/-- The solvers pass the outcome on: with both starting points missing they raise `ValueError`. -/
theorem C56_solvers (f g : ProxOp E) (τ : ℝ) (tau : StepSpec) (n : ℕ) (gfirst : Bool) :
    HQS f g none none tau n gfirst = .error .valueError ∧ ADMM f g none none τ n gfirst = .error .valueError := ⟨rfl, rfl⟩

theorem C56_solvers_op {F' : Type} [NormedAddCommGroup F'] [InnerProductSpace ℝ F'] (inv : E → F' → ℝ → E) (f : ProxOp E) (g : ProxOp F')
    (A : LinOp E F') (z0 : Option F') (τ μ : ℝ) (n : ℕ) (gfirst : Bool) :
    ADMML2 inv g A none z0 τ n gfirst = .error .valueError ∧ LinearizedADMM f g A none z0 τ μ n = .error .valueError := ⟨rfl, rfl⟩

/-- The hypotheses of C44 and C45 are met: L1 and squared distance, `x = 0` certified by `s = 0` for data `b = 0`. -/
example {ι : Type} [Fintype ι] : ∃ (f g : ProxOp (Vec ι)) (F G : XFun (Vec ι)), F.Convex ∧ G.Convex ∧ ProxExact f F ∧ ProxExact g G ∧
    ∃ x s, IsCertified F G x s := by
  refine ⟨L1 1 none, L1 1 none, _, _, l1_convex, l1_convex, l1_proxExact, l1_proxExact, 0, 0, ?_, ?_⟩ <;>
  · refine ⟨trivial, fun y _ => ?_⟩
    simp only [XFun.ofReal, neg_zero, inner_zero_left, PiLp.zero_apply, sub_zero, abs_zero, Finset.sum_const_zero, one_mul, add_zero]
    exact Finset.sum_nonneg fun i _ => abs_nonneg _

end Verif
