import Verif.Lemmas.Divergence
import Verif.Props.ProxPoint
import Verif.Props.Relaxed
import Verif.Props.Splitting
import Verif.Props.HQSConv
import Verif.Props.Parallel
import Verif.Props.PrimalDual
import Verif.Props.GPG
import Verif.Props.Calculus

/-! # C119: what happens when there is no solution

For each solver, in finite dimension and from every start, exactly one of two things happens as `niter` grows: the result converges to a solution, or there
is no solution at all and the iterates leave every bounded set for good.  A run that keeps coming back to a bounded set is therefore converging, and a
problem without solution cannot hide behind iterates that merely wander about. -/

open scoped RealInnerProductSpace
open Filter Topology

set_option linter.unusedSectionVars false

namespace Verif

variable {E : Type} [NormedAddCommGroup E] [InnerProductSpace ℝ E] {H : Type} [NormedAddCommGroup H] [InnerProductSpace ℝ H]

section
variable {f g : ProxOp E} {F G : XFun E} {φ : E → ℝ} {L ε τ η : ℝ}

/-- C119: `ProximalPoint` converges to a minimiser, or there is none and `‖x‖` grows without bound. -/
theorem C119_proximalpoint [ProperSpace E] (hF : F.Convex) (hf : ProxExact f F) (x0 : E) (hτ : 0 < τ) (S : ℕ → PPState E)
    (hS : ∀ n, ProximalPoint f x0 τ n none = .ok (S n)) :
    (∃ c, F.IsMin c ∧ Tendsto (fun n => (S n).x) atTop (𝓝 c)) ∨ ((∀ c, ¬F.IsMin c) ∧ Tendsto (fun n => ‖(S n).x‖) atTop atTop) := by
  obtain ⟨P, hP, hP'⟩ := proxExact_map hf hτ
  obtain ⟨T, -, hT, h⟩ := pp_traj hP x0
  have e : ∀ n, (S n).x = T n := fun n => by have := (hS n).symm.trans (h n); injection this with this; rw [this]
  simp only [e]
  rcases firm_dichotomy (firm_prox hF hτ hP') T hT with ⟨c, hc, hl⟩ | ⟨hc, hl⟩
  · exact Or.inl ⟨c, (isMin_iff_fixed hF hτ hP').2 hc, hl⟩
  · exact Or.inr ⟨fun c h => hc c ((isMin_iff_fixed hF hτ hP').1 h), hl⟩

/-- C119: `ProximalGradient`, without acceleration, with `tau < 2/L` and any relaxation `0 < eta ≤ 1`. -/
theorem C119_proximalgradient [ProperSpace E] (hf : GradExact f φ) (hL : LipschitzGrad φ L) (hφ : ConvexOn ℝ Set.univ φ) (hF : F.Convex)
    (hg : ProxExact g F) (hε : 0 < ε) (hτ : 0 < τ) (hτL : τ * L < 2) (hη : 0 < η) (hη1 : η ≤ 1) (x0 : E) (S : ℕ → PGState E)
    (hS : ∀ n, 0 < n → ProximalGradient f g x0 (pgArgsEta τ ε η false .none n) = .ok (S n)) :
    (∃ c, (compositeObj φ ε F).IsMin c ∧ Tendsto (fun n => (S n).x) atTop (𝓝 c)) ∨
      ((∀ c, ¬(compositeObj φ ε F).IsMin c) ∧ Tendsto (fun n => ‖(S n).x‖) atTop atTop) := by
  obtain ⟨G, hG, hGr⟩ := gradExact_map hf
  obtain ⟨P, hP, hPx⟩ := pg_maps hg hε hτ
  have hFc := smulConvex hF hε.le
  have hfix : ∀ c, P (c - τ • G c) = c ↔ (compositeObj φ ε F).IsMin c := fun c => pg_fixed_iff hφ hFc hτ hGr hPx c
  obtain ⟨X, hX, hSX⟩ : ∃ X : ℕ → E, (∀ n, X (n + 1) = X n + η • (P (X n - τ • G (X n)) - X n)) ∧ ∀ n, 0 < n → (S n).x = X n := by
    by_cases h1 : η = 1
    · subst h1
      obtain ⟨X, Y, t, hX0, hY0, -, hX, -, hY, h⟩ := pg_traj hG hP .none (by decide) x0
      have hYX : ∀ n, Y n = X n := fun n => by
        cases n with
        | zero => rw [hX0, hY0]
        | succ n => rw [hY]; simp [momentum]
      refine ⟨X, fun n => by rw [hX, hYX, one_smul]; abel, fun n hn => ?_⟩
      have := (hS n hn).symm.trans (h n hn)
      injection this with this; rw [this]
    · obtain ⟨S', h0, hstep, hS'⟩ := pg_relaxed_traj hG hP h1 .none (by decide) x0
      refine ⟨fun n => (S' n).x, hstep, fun n hn => ?_⟩
      have := (hS n hn).symm.trans (hS' n hn)
      injection this with this; rw [this]
  rcases fb_dichotomy (firm_prox hFc hτ hPx) hGr (fun x y => hL x y _ _ (hGr x) (hGr y)) hφ hτ hτL hη hη1 X hX with ⟨c, hc, hl⟩ | ⟨hc, hl⟩
  · refine Or.inl ⟨c, (hfix c).1 hc, hl.congr' ?_⟩
    filter_upwards [eventually_gt_atTop 0] with n hn using (hSX n hn).symm
  · refine Or.inr ⟨fun c h => hc c ((hfix c).2 h), hl.congr' ?_⟩
    filter_upwards [eventually_gt_atTop 0] with n hn using by rw [hSX n hn]

/-- C119: `DouglasRachford`, either order, `0 < eta < 2`: `x` converges to a minimiser of `F + G`, or no point is a certified minimiser and the returned
`y` grow without bound. -/
theorem C119_dr [ProperSpace E] (hF : F.Convex) (hG : G.Convex) (hf : ProxExact f F) (hg : ProxExact g G) (hτ : 0 < τ) (hη : 0 < η)
    (hη2 : η < 2) (gfirst : Bool) (x0 : E) (R : ℕ → E × E × List (E × E))
    (hR : ∀ n, DouglasRachford f g x0 τ η (n + 1) gfirst = .ok (R n)) :
    (∃ x, (F.add G).IsMin x ∧ Tendsto (fun n => (R n).1) atTop (𝓝 x)) ∨
      ((¬∃ x s, IsCertified F G x s) ∧ Tendsto (fun n => ‖(R n).2.1‖) atTop atTop) := by
  by_cases hsol : ∃ x s, IsCertified F G x s
  · exact Or.inl (C44_dr_converges hF hG hf hg hτ hη hη2 gfirst x0 hsol R hR)
  refine Or.inr ⟨hsol, ?_⟩
  obtain ⟨Pf, hPf, hPf'⟩ := proxExact_map hf hτ
  obtain ⟨Pg, hPg, hPg'⟩ := proxExact_map hg hτ
  obtain ⟨Y, hY0, hY, h⟩ := dr_traj hPf hPg η gfirst x0
  have hRn : ∀ n, (R n).2.1 = Y (n + 1) := fun n => by
    have := (hR n).symm.trans (h n)
    injection this with this
    rw [this]
  simp only [hRn]
  have f1 := firm_prox hF hτ hPf'
  have f2 := firm_prox hG hτ hPg'
  have key : Tendsto (fun n => ‖Y n‖) atTop atTop := by
    cases gfirst with
    | true =>
      simp only [if_true] at hY
      rcases dr_dichotomy f2 f1 hη hη2 Y hY with ⟨c, hc, -⟩ | ⟨-, hl⟩
      · exact absurd ⟨_, _, (dr_fixed_iff hF hG hτ hη.ne' hPf' hPg' c).1 hc⟩ hsol
      · exact hl
    | false =>
      simp only [Bool.false_eq_true, if_false] at hY
      rcases dr_dichotomy f1 f2 hη hη2 Y hY with ⟨c, hc, -⟩ | ⟨-, hl⟩
      · exact absurd ⟨_, _, ((dr_fixed_iff hG hF hτ hη.ne' hPg' hPf' c).1 hc).swap⟩ hsol
      · exact hl
  exact key.comp (tendsto_add_atTop_nat 1)

/-- C119: `ADMM`, either order and any start: both outputs converge to a minimiser, or no point is a certified minimiser and the outputs together with the
accumulated difference of the outputs reported so far grow without bound. -/
theorem C119_admm [ProperSpace E] (hF : F.Convex) (hG : G.Convex) (hf : ProxExact f F) (hg : ProxExact g G) (hτ : 0 < τ) (gfirst : Bool)
    (x0 z0 : Option E) (S : ℕ → SplitState E) (hS : ∀ n, ADMM f g x0 z0 τ n gfirst = .ok (S n)) :
    (∃ c, (F.add G).IsMin c ∧ Tendsto (fun n => (S n).x) atTop (𝓝 c) ∧ Tendsto (fun n => (S n).z) atTop (𝓝 c)) ∨
      ((¬∃ x s, IsCertified F G x s) ∧
        Tendsto (fun n => ‖(S n).x‖ + ‖(S n).z‖ + ‖((S n).log.map fun p => p.1 - p.2).sum‖) atTop atTop) := by
  have h0 : x0.isSome ∨ z0.isSome := by
    by_contra h
    push Not at h
    have h1 : x0 = none := by simpa using h.1
    have h2 : z0 = none := by simpa using h.2
    have := hS 0
    rw [h1, h2] at this
    simp [ADMM, x0z0Init, Bind.bind, Except.bind] at this
  by_cases hsol : ∃ x s, IsCertified F G x s
  · obtain ⟨S', hS', c, hc⟩ := C45_admm_converges hF hG hf hg hτ gfirst x0 z0 h0 hsol
    obtain rfl : S = S' := funext fun n => by have := (hS n).symm.trans (hS' n); injection this
    exact Or.inl ⟨c, hc⟩
  refine Or.inr ⟨hsol, ?_⟩
  obtain ⟨Pf, hPf, hPf'⟩ := proxExact_map hf hτ
  obtain ⟨Pg, hPg, hPg'⟩ := proxExact_map hg hτ
  obtain ⟨x, z, hinit⟩ : ∃ x z, x0z0Init x0 z0 = .ok (x, z) := by
    rcases x0 with _ | x <;> rcases z0 with _ | z
    · simp at h0
    all_goals exact ⟨_, _, rfl⟩
  obtain ⟨S', -, -, hu0, hu, ht, hff, hlog, hS'⟩ := admm_traj hPf hPg gfirst x0 z0 x z hinit
  obtain rfl : S = S' := funext fun n => by have := (hS n).symm.trans (hS' n); injection this
  have hsum : ∀ n, ((S n).log.map fun p => p.1 - p.2).sum = (S n).u := fun n => by
    induction n with
    | zero => rw [hlog]; simp [hu0]
    | succ n ih =>
      rw [hlog] at ih ⊢
      rw [List.range_succ, List.map_append, List.map_append, List.sum_append, ih, hu n]
      simp [add_sub_assoc]
  simp only [hsum]
  have f1 := firm_prox hF hτ hPf'
  have f2 := firm_prox hG hτ hPg'
  rw [← tendsto_add_atTop_iff_nat 1]
  cases gfirst with
  | false =>
    have hff := hff rfl
    let V : ℕ → E := fun n => (S (n + 1)).x + (S n).u
    have hz : ∀ n, (S (n + 1)).z = Pg (V n) := fun n => (hff n).2
    have hun : ∀ n, (S (n + 1)).u = V n - Pg (V n) := fun n => by rw [hu, hz]; simp only [V]; abel
    have hV : ∀ n, V (n + 1) = drStep Pg Pf 1 (V n) := fun n => by
      show (S (n + 2)).x + (S (n + 1)).u = _
      rw [(hff (n + 1)).1, hz, hun]; unfold drStep
      rw [one_smul, show Pg (V n) - (V n - Pg (V n)) = (2 : ℝ) • Pg (V n) - V n by rw [two_smul]; abel]; abel
    rcases dr_dichotomy f2 f1 one_pos one_lt_two V hV with ⟨c, hc, -⟩ | ⟨-, hl⟩
    · exact absurd ⟨_, _, (dr_fixed_iff hF hG hτ one_ne_zero hPf' hPg' c).1 hc⟩ hsol
    · refine tendsto_atTop_mono (fun n => ?_) hl
      have e : V n = (S (n + 1)).z + (S (n + 1)).u := by rw [hun, hz]; abel
      rw [e]
      linarith [norm_add_le (S (n + 1)).z (S (n + 1)).u, norm_nonneg (S (n + 1)).x]
  | true =>
    have hff := ht rfl
    let V : ℕ → E := fun n => (S (n + 1)).z - (S n).u
    have hx : ∀ n, (S (n + 1)).x = Pf (V n) := fun n => (hff n).2
    have hun : ∀ n, (S (n + 1)).u = Pf (V n) - V n := fun n => by rw [hu, hx]; simp only [V]; abel
    have hV : ∀ n, V (n + 1) = drStep Pf Pg 1 (V n) := fun n => by
      show (S (n + 2)).z - (S (n + 1)).u = _
      rw [(hff (n + 1)).1, hx, hun]; unfold drStep
      rw [one_smul, show Pf (V n) + (Pf (V n) - V n) = (2 : ℝ) • Pf (V n) - V n by rw [two_smul]; abel]; abel
    rcases dr_dichotomy f1 f2 one_pos one_lt_two V hV with ⟨c, hc, -⟩ | ⟨-, hl⟩
    · exact absurd ⟨_, _, ((dr_fixed_iff hG hF hτ one_ne_zero hPg' hPf' c).1 hc).swap⟩ hsol
    · refine tendsto_atTop_mono (fun n => ?_) hl
      have e : V n = (S (n + 1)).x - (S (n + 1)).u := by rw [hun, hx]; abel
      rw [e]
      linarith [norm_sub_le (S (n + 1)).x (S (n + 1)).u, norm_nonneg (S (n + 1)).z]

/-- C119: `HQS` with a constant step: the outputs converge to a minimiser of the penalised problem, or it has none and both outputs grow without bound. -/
theorem C119_hqs [ProperSpace E] (hF : F.Convex) (hG : G.Convex) (hf : ProxExact f F) (hg : ProxExact g G) (hτ : 0 < τ) (gfirst : Bool) (x0 z0 : Option E)
    (R : ℕ → SplitState E) (hR : ∀ n, HQS f g x0 z0 (.scalar τ) n gfirst = .ok (R n)) :
    (∃ x z, IsPenalisedMin F G τ x z ∧ Tendsto (fun n => (R n).x) atTop (𝓝 x) ∧ Tendsto (fun n => (R n).z) atTop (𝓝 z)) ∨
      ((¬∃ x z, IsPenalisedMin F G τ x z) ∧ Tendsto (fun n => ‖(R n).x‖) atTop atTop ∧ Tendsto (fun n => ‖(R n).z‖) atTop atTop) := by
  by_cases hsol : ∃ x z, IsPenalisedMin F G τ x z
  · exact Or.inl (C95_hqs_converges hF hG hf hg hτ hsol gfirst x0 z0 R hR)
  refine Or.inr ⟨hsol, ?_⟩
  obtain ⟨Pf, hPf, hPf'⟩ := proxExact_maps hf
  obtain ⟨Pg, hPg, hPg'⟩ := proxExact_maps hg
  rcases hinit : x0z0Init x0 z0 with e | ⟨x, z⟩
  · have := hR 0; simp [HQS, hinit, Bind.bind, Except.bind] at this
  have hrun : ∀ n, ((R (n + 1)).x, (R (n + 1)).z) =
      hqsPair gfirst (if gfirst then Pg else Pf) (if gfirst then Pf else Pg) (fun _ => τ) (if gfirst then x else z) n := by
    intro n
    obtain ⟨s, h1, -, -, h2⟩ := hqs_traj hPf hPg (.scalar τ) (fun _ => τ) gfirst x0 z0 x z hinit (n + 1) (fun i _ => ⟨rfl, hτ⟩)
    rw [hR] at h1
    injection h1 with h1
    rw [h1]; exact h2 n rfl
  have f1 := firm_prox hF hτ (hPf' τ hτ)
  have f2 := firm_prox hG hτ (hPg' τ hτ)
  -- the intermediate point goes along with the driving one
  have mid : ∀ {P₁ P₂ : E → E}, Firm P₂ → ∀ W : ℕ → E, (∀ n, W (n + 1) = P₂ (P₁ (W n))) → Tendsto (fun n => ‖W n‖) atTop atTop →
      Tendsto (fun n => ‖P₁ (W n)‖) atTop atTop := by
    intro P₁ P₂ hP₂ W hW hl
    have h1 : ∀ n, ‖W (n + 1)‖ - ‖P₂ 0‖ ≤ ‖P₁ (W n)‖ := fun n => by
      have a := hP₂.nonexp (P₁ (W n)) 0
      have b := norm_sub_norm_le (P₂ (P₁ (W n))) (P₂ 0)
      rw [sub_zero] at a
      rw [hW]; linarith
    exact tendsto_atTop_mono h1 (tendsto_atTop_add_const_right _ _ (hl.comp (tendsto_add_atTop_nat 1)))
  cases gfirst with
  | true =>
    simp only [if_true, hqsPair, Prod.mk.injEq] at hrun
    have hW : ∀ n, hqsW Pg Pf (fun _ => τ) x (n + 1) = Pf τ (Pg τ (hqsW Pg Pf (fun _ => τ) x n)) := fun n => rfl
    rcases comp_dichotomy f2 f1 (hqsW Pg Pf (fun _ => τ) x) hW with ⟨c, hc, -⟩ | ⟨-, hl⟩
    · refine absurd ⟨c, Pg τ c, penalised_of_prox hF hG hτ ?_ (hPg' τ hτ c)⟩ hsol
      have := hPf' τ hτ (Pg τ c); rwa [hc] at this
    · constructor
      · rw [← tendsto_add_atTop_iff_nat 1]
        exact (hl.comp (tendsto_add_atTop_nat 1)).congr fun n => by rw [(hrun n).1]; rfl
      · rw [← tendsto_add_atTop_iff_nat 1]
        exact (mid f1 _ hW hl).congr fun n => by rw [(hrun n).2]
  | false =>
    simp only [Bool.false_eq_true, if_false, hqsPair, Prod.mk.injEq] at hrun
    have hW : ∀ n, hqsW Pf Pg (fun _ => τ) z (n + 1) = Pg τ (Pf τ (hqsW Pf Pg (fun _ => τ) z n)) := fun n => rfl
    rcases comp_dichotomy f1 f2 (hqsW Pf Pg (fun _ => τ) z) hW with ⟨c, hc, -⟩ | ⟨-, hl⟩
    · refine absurd ⟨Pf τ c, c, penalised_of_prox hF hG hτ (hPf' τ hτ c) ?_⟩ hsol
      have := hPg' τ hτ (Pf τ c); rwa [hc] at this
    · constructor
      · rw [← tendsto_add_atTop_iff_nat 1]
        exact (mid f2 _ hW hl).congr fun n => by rw [(hrun n).1]
      · rw [← tendsto_add_atTop_iff_nat 1]
        exact (hl.comp (tendsto_add_atTop_nat 1)).congr fun n => by rw [(hrun n).2]; rfl

end

section
variable {m : ℕ} {fs : Fin m → ProxOp E} {F : Fin m → XFun E} {w : Fin m → ℝ} {τ η : ℝ}

/-- C119: `PPXA`, any weights summing to one, `0 < eta < 2`, any starts, `tol = 0`: the returned `x` converges to a minimiser of the problem it solves (see
C48), or that problem has no certified minimiser and the auxiliary vectors `y` grow without bound. -/
theorem C119_ppxa [ProperSpace E] [NeZero m] (hF : ∀ i, (F i).Convex) (hf : ∀ i, ProxExact (fs i) (F i)) (hw : ∀ i, 0 < w i)
    (hw1 : ∑ i, w i = 1) (hτ : 0 < τ) (hη : 0 < η) (hη2 : η < 2) (y0 : Fin m → E) (mx : E → ℝ) (hmx : ∀ v, 0 ≤ mx v) (R : ℕ → PPXAState E m)
    (hR : ∀ n, PPXA fs (some w) y0 τ η n 0 mx = .ok (R n)) :
    (∃ x, ((sumObj F).addLinear ((1 / τ) • startGap w y0)).IsMin x ∧ Tendsto (fun n => (R n).x) atTop (𝓝 x)) ∨
      ((¬∃ x s, IsCertifiedSum F ((1 / τ) • startGap w y0) x s) ∧ Tendsto (fun n => ‖(R n).y‖) atTop atTop) := by
  by_cases hsol : ∃ x s, IsCertifiedSum F ((1 / τ) • startGap w y0) x s
  · exact Or.inl (C48_ppxa_converges_tilted hF hf hw hw1 hτ hη hη2 y0 mx hmx hsol R hR)
  refine Or.inr ⟨hsol, ?_⟩
  choose P hP hP' using fun i => proxExact_map (hf i) (div_pos hτ (hw i))
  obtain ⟨X, Y, hX0, hY0, hX, hY, h⟩ := ppxa_traj (fun i => (hw i).ne') hP y0 η 0 mx
  have hRY : ∀ n, (R n).y = Y n := fun n => by
    obtain ⟨k, hk, xo, h1, -, h3⟩ := h n
    rcases lt_or_eq_of_le hk with hlt | rfl
    · obtain ⟨j, -, hj⟩ := h3 hlt
      exact absurd hj (not_lt.2 (hmx _))
    · rw [hR] at h1; injection h1 with h1; rw [h1]
  set δ := startGap w y0 with hδ
  have gap : ∀ n, X n - ∑ i, w i • Y n i = δ := fun n => by rw [ppxa_gap hw1 hX hY n, hX0, hY0]; rfl
  have hstep := ppxa_step hw1 hY gap
  have firm : ∀ i, Firm fun v => P i (v - δ) := fun i => firm_shift (firm_prox (hF i) (div_pos hτ (hw i)) (hP' i)) δ
  simp only [hRY]
  rcases pp_dichotomy hw hw1 firm hη hη2 (fun n i => Y n i + δ) hstep with ⟨c, hc, -⟩ | ⟨-, hl⟩
  · have hc' := pp_fixed hw1 hη.ne' hc
    refine absurd ⟨_, _, prox_cert hF hw hw1 hτ hP' (x := ∑ j, w j • c j) (c := fun i => c i - δ) ?_ hc'⟩ hsol
    simp only [smul_sub, Finset.sum_sub_distrib]; rw [← Finset.sum_smul, hw1, one_smul]
  · have h1 : ∀ n, ‖fun i => Y n i + δ‖ - ‖fun _ : Fin m => δ‖ ≤ ‖Y n‖ := fun n => by
      have := norm_add_le (Y n) (fun _ : Fin m => δ)
      have e : (Y n + fun _ : Fin m => δ) = fun i => Y n i + δ := rfl
      rw [e] at this; linarith
    exact tendsto_atTop_mono h1 (tendsto_atTop_add_const_right _ _ hl)

/-- C119: `ConsensusADMM` with `tol = 0`: the returned `xbar` converges to a minimiser, or there is no certified minimiser and `xbar` together with the dual
variables grow without bound. -/
theorem C119_consensus [ProperSpace E] [NeZero m] (hF : ∀ i, (F i).Convex) (hf : ∀ i, ProxExact (fs i) (F i)) (hτ : 0 < τ) (x0 : E) (mx : E → ℝ)
    (hmx : ∀ v, 0 ≤ mx v) (R : ℕ → ConsState E m) (hR : ∀ n, ConsensusADMM fs x0 τ n 0 mx = .ok (R n)) :
    (∃ x, (sumObj F).IsMin x ∧ Tendsto (fun n => (R n).xbar) atTop (𝓝 x)) ∨
      ((¬∃ x s, IsCertifiedSum F 0 x s) ∧ Tendsto (fun n => ‖(R n).xbar‖ + ‖(R n).y‖) atTop atTop) := by
  by_cases hsol : ∃ x s, IsCertifiedSum F 0 x s
  · exact Or.inl (C49_cons_converges hF hf hτ x0 mx hmx hsol R hR)
  refine Or.inr ⟨hsol, ?_⟩
  have hm : (0 : ℝ) < m := Nat.cast_pos.2 (Nat.pos_of_ne_zero (NeZero.ne m))
  choose P hP hP' using fun i => proxExact_map (hf i) hτ
  obtain ⟨X, V, Y, hX0, hY0, hV, hX, hY, h⟩ := cons_traj hP x0 0 mx
  have hRX : ∀ n, (R n).xbar = X n ∧ (R n).y = Y n := fun n => by
    obtain ⟨k, hk, xo, h1, -, h3⟩ := h n
    rcases lt_or_eq_of_le hk with hlt | rfl
    · obtain ⟨j, -, hj⟩ := h3 hlt
      exact absurd hj (not_lt.2 (hmx _))
    · rw [hR] at h1; injection h1 with h1; rw [h1]; exact ⟨rfl, rfl⟩
  set u : Fin m → ℝ := fun _ => 1 / (m : ℝ) with hu
  have hu0 : ∀ i, 0 < u i := fun _ => by positivity
  have hu1 : ∑ i, u i = 1 := by rw [hu, Finset.sum_const, Finset.card_univ, Fintype.card_fin, nsmul_eq_mul, mul_one_div_cancel hm.ne']
  have hS := cons_sum_zero hY0 hX hY
  set Z : ℕ → Fin m → E := fun n i => X n - Y n i with hZ
  have hmean : ∀ n, ∑ j, u j • Z n j = X n := fun n => by
    simp only [hZ, smul_sub, Finset.sum_sub_distrib]
    rw [← Finset.sum_smul, hu1, one_smul, hu]
    simp only
    rw [← Finset.smul_sum, hS n, smul_zero, sub_zero]
  have hstep : ∀ n, Z (n + 1) = ppStep u P 1 (Z n) := fun n => by
    funext i
    simp only [ppStep]
    rw [hmean n, one_smul]
    have e1 : ∑ j, u j • P j (Z n j) = X (n + 1) := by
      rw [hX n, Finset.smul_sum]
      refine Finset.sum_congr rfl fun j _ => ?_
      rw [hV]
    rw [e1]
    simp only [hZ]
    rw [hY n i, hV n i, two_smul]; abel
  simp only [hRX]
  rcases pp_dichotomy hu0 hu1 (fun i => firm_prox (hF i) hτ (hP' i)) one_pos one_lt_two Z hstep with ⟨c, hc, -⟩ | ⟨-, hl⟩
  · have hc' := pp_fixed hu1 one_ne_zero hc
    refine absurd ⟨∑ j, u j • c j, fun i => (1 / τ) • (c i - ∑ j, u j • c j), fun i => ?_, ?_⟩ hsol
    · have := subgrad_of_isProx (hF i) hτ (hP' i (c i))
      rwa [hc' i] at this
    · rw [← Finset.smul_sum, Finset.sum_sub_distrib, Finset.sum_const, Finset.card_univ, Fintype.card_fin, ← Nat.cast_smul_eq_nsmul ℝ, hu]
      simp only
      rw [← Finset.smul_sum, smul_smul, mul_one_div_cancel hm.ne', one_smul, sub_self, smul_zero, neg_zero]
  · have h1 : ∀ n, ‖Z n‖ ≤ ‖X n‖ + ‖Y n‖ := fun n => by
      refine (pi_norm_le_iff_of_nonneg (by positivity)).2 fun i => ?_
      simp only [hZ]
      linarith [norm_sub_le (X n) (Y n i), norm_le_pi_norm (Y n) i]
    exact tendsto_atTop_mono h1 hl

end

section
variable {f : ProxOp E} {g : ProxOp H} {F : XFun E} {G : XFun H} {A : LinOp E H} {τ μ K : ℝ}

/-- C119: `PrimalDual`, either order, `theta = 1` and `tau·mu·‖A‖² < 1`: `x` and `y` converge to a saddle point, or there is no certified minimiser and
the returned pair grows without bound. -/
theorem C119_primaldual [FiniteDimensional ℝ E] [FiniteDimensional ℝ H] (hF : F.Convex) (hG : G.Convex) (hf : ProxExact f F) (hg : ProxExact g G)
    (hd : ProxdualExact g G.conj) (hτ : 0 < τ) (hμ : 0 < μ) (hK : 0 ≤ K) (hA : ∀ v, ‖A.matvec v‖ ≤ K * ‖v‖) (hc : τ * μ * K ^ 2 < 1)
    (z : Option E) (gfirst : Bool) (x0 : E) (y0 : Option H)
    (R : ℕ → PDState E H) (hR : ∀ n, PrimalDual f g A x0 y0 z (.scalar τ) (.scalar μ) 1 n gfirst = .ok (R n)) :
    (∃ x y, IsSaddle F G A.matvec (z.getD 0) x y ∧ (compObj F G A.matvec (z.getD 0)).IsMin x ∧
      Tendsto (fun n => (R n).x) atTop (𝓝 x) ∧ Tendsto (fun n => (R n).y) atTop (𝓝 y)) ∨
      ((¬∃ a b, IsCertifiedComp F G A.matvec A.rmatvec (z.getD 0) a b) ∧ Tendsto (fun n => ‖(R n).x‖ + ‖(R n).y‖) atTop atTop) := by
  by_cases hsol : ∃ a b, IsCertifiedComp F G A.matvec A.rmatvec (z.getD 0) a b
  · exact Or.inl (C50_pd_converges hF hG hf hg hd hτ hμ hK hA hc.le z gfirst x0 y0 hsol R hR)
  refine Or.inr ⟨hsol, ?_⟩
  obtain ⟨P, hP, hP'⟩ := proxExact_map hf hτ
  obtain ⟨Pg, hPg, hD⟩ := proxdual_moreau hG hg hd hμ
  obtain ⟨X, Y, Xh, hX0, hXh0, hY0, hXh, ht, hfl, h⟩ := pd_traj (A := A) hP hD x0 y0 z 1 gfirst
  have hRn : ∀ n, R n = ⟨X n, Y n, Xh n, (List.range n).map fun i => (X (i + 1), Y (i + 1))⟩ := fun n => by
    have := (hR n).symm.trans (h n); injection this
  have st := pd_states (A := A) (τ := τ) (μ := μ) (P := P) (D := fun v => v - μ • Pg ((1 / μ) • v)) hXh ht hfl
  have f1 := firm_shift (firm_prox hF hτ hP') (τ • z.getD 0)
  have f2 := firm_dual (firm_prox hG (by positivity) hPg) hμ
  have st' : ∀ n, (fun n => (X n, if gfirst then Y (n + 1) else Y n)) (n + 1) = cpStep A τ μ (fun v => P (v - τ • z.getD 0))
      (fun v => v - μ • Pg ((1 / μ) • v)) ((fun n => (X n, if gfirst then Y (n + 1) else Y n)) n) :=
    fun n => by have := st n; cases gfirst <;> simpa using this
  obtain ⟨B, hB⟩ := cp_steps_bounded hτ hμ hK hA hc f1 f2 (fun n => (X n, if gfirst then Y (n + 1) else Y n)) st'
  rcases cp_dichotomy hτ hμ hK hA hc f1 f2 (fun n => (X n, if gfirst then Y (n + 1) else Y n)) st' with ⟨⟨x, y⟩, hfix, -⟩ | ⟨-, hl⟩
  · exact absurd ⟨x, y, (cp_fixed_iff hF hG hτ hμ hP' hPg (z.getD 0) x y).1 hfix⟩ hsol
  simp only [hRn]
  rw [← tendsto_add_atTop_iff_nat 1]
  cases gfirst with
  | true =>
    simp only [if_true] at hl hB
    refine tendsto_atTop_mono (fun n => ?_) (tendsto_atTop_add_const_right _ (-B) hl)
    have h1 := (norm_fst_le ((X (n + 1), Y (n + 1 + 1)) - (X n, Y (n + 1)))).trans (hB n)
    have h2 := norm_sub_norm_le (X n) (X (n + 1))
    have h3 : ‖(X n, Y (n + 1))‖ ≤ ‖X n‖ + ‖Y (n + 1)‖ := by
      rw [Prod.norm_def]; exact max_le (by linarith [norm_nonneg (Y (n + 1))]) (by linarith [norm_nonneg (X n)])
    rw [Prod.fst_sub, norm_sub_rev] at h1
    simp only at h1 h3 ⊢
    linarith
  | false =>
    simp only [Bool.false_eq_true, if_false] at hl
    refine tendsto_atTop_mono (fun n => ?_) (hl.comp (tendsto_add_atTop_nat 1))
    simp only [Function.comp, Prod.norm_def]
    exact max_le (by linarith [norm_nonneg (Y (n + 1))]) (by linarith [norm_nonneg (X (n + 1))])

/-- C119: `LinearizedADMM` with `mu/tau·‖A‖² < 1`: `x` and `z` converge to a minimiser and its image, or there is no certified minimiser and `x` together
with the dual variable grow without bound. -/
theorem C119_linadmm [FiniteDimensional ℝ E] [FiniteDimensional ℝ H] (hF : F.Convex) (hG : G.Convex) (hf : ProxExact f F)
    (hg : ProxExact g G) (hτ : 0 < τ) (hμ : 0 < μ) (hK : 0 ≤ K) (hA : ∀ v, ‖A.matvec v‖ ≤ K * ‖v‖) (hc : μ / τ * K ^ 2 < 1)
    (x0 : E) (z0 : Option H) (R : ℕ → SplitOpState E H) (hR : ∀ n, LinearizedADMM f g A (some x0) z0 τ μ n = .ok (R n)) :
    (∃ x, (compObj F G A.matvec 0).IsMin x ∧ Tendsto (fun n => (R n).x) atTop (𝓝 x) ∧ Tendsto (fun n => (R n).z) atTop (𝓝 (A.matvec x))) ∨
      ((¬∃ a b, IsCertifiedComp F G A.matvec A.rmatvec 0 a b) ∧ Tendsto (fun n => ‖(R n).x‖ + ‖(R n).u‖) atTop atTop) := by
  by_cases hsol : ∃ a b, IsCertifiedComp F G A.matvec A.rmatvec 0 a b
  · exact Or.inl (C46_linadmm_converges hF hG hf hg hτ hμ hK hA hc.le x0 z0 hsol R hR)
  refine Or.inr ⟨hsol, ?_⟩
  obtain ⟨P, hP, hP'⟩ := proxExact_map hf hμ
  obtain ⟨Q, hQ, hQ'⟩ := proxExact_map hg hτ
  obtain ⟨X, Z, U, -, -, hU0, hX1, hX, hZ, hU, h⟩ := ladmm_traj (A := A) hτ.ne' hP hQ x0 z0
  have hRx : ∀ n, (R n).x = X n ∧ (R n).u = U n := fun n => by
    obtain ⟨ax, h⟩ := h n
    have := (hR n).symm.trans h; injection this with this
    rw [this]; exact ⟨rfl, rfl⟩
  have hZ' : ∀ n, Z (n + 1) = U n + A.matvec (X (n + 1)) - U (n + 1) := fun n => by rw [hU n]; abel
  set D : H → H := fun v => v - Q v with hD
  have hμτ : 0 < μ / τ := div_pos hμ hτ
  have hstep : ∀ n, (fun n => (U n, X (n + 1))) (n + 1) = cpStep (negAdj A) 1 (μ / τ) D P ((fun n => (U n, X (n + 1))) n) := by
    intro n
    have e1 : D (U n - (1 : ℝ) • (negAdj A).rmatvec (X (n + 1))) = U (n + 1) := by
      simp only [hD, negAdj, LinearMap.neg_apply, smul_neg, one_smul, sub_neg_eq_add]
      rw [hU n, hZ n, add_comm (U n)]
    simp only [cpStep]
    rw [e1, hX n]
    congr 2
    simp only [negAdj, LinearMap.neg_apply, smul_neg, ← sub_eq_add_neg]
    congr 3
    rw [hZ' n, two_smul]; abel
  have hA' : ∀ w, ‖(negAdj A).matvec w‖ ≤ K * ‖w‖ := fun w => by
    simp only [negAdj, LinearMap.neg_apply, norm_neg]; exact adj_bound A hK hA w
  have f1 : Firm D := firm_moreau (firm_prox hG hτ hQ')
  have f2 := firm_prox hF hμ hP'
  have hc' : 1 * (μ / τ) * K ^ 2 < 1 := by rw [one_mul]; exact hc
  obtain ⟨B, hB⟩ := cp_steps_bounded one_pos hμτ hK hA' hc' f1 f2 (fun n => (U n, X (n + 1))) hstep
  rcases cp_dichotomy one_pos hμτ hK hA' hc' f1 f2 (fun n => (U n, X (n + 1))) hstep with ⟨⟨u, x⟩, hfix, -⟩ | ⟨-, hl⟩
  · refine absurd ⟨x, (1 / τ) • u, ?_⟩ hsol
    simp only [cpStep, Prod.mk.injEq, hD, negAdj, LinearMap.neg_apply, smul_neg, one_smul, sub_neg_eq_add, ← sub_eq_add_neg] at hfix
    obtain ⟨h1, h2⟩ := hfix
    rw [h1, two_smul, add_sub_cancel_right] at h2
    rw [sub_eq_iff_eq_add, add_right_inj] at h1
    have k1 := subgrad_of_isProx hF hμ (hP' (x - (μ / τ) • A.rmatvec u))
    have k2 := subgrad_of_isProx hG hτ (hQ' (u + A.matvec x))
    rw [h2, show (1 / μ) • (x - (μ / τ) • A.rmatvec u - x) = -A.rmatvec ((1 / τ) • u) - 0 by
      rw [sub_zero, map_smul, sub_sub_cancel_left, smul_neg, smul_smul]; congr 2; field_simp] at k1
    rw [← h1, add_sub_cancel_right] at k2
    exact ⟨k1, k2⟩
  simp only [hRx]
  rw [← tendsto_add_atTop_iff_nat 1]
  refine tendsto_atTop_mono (fun n => ?_) (tendsto_atTop_add_const_right _ (-B) (hl.comp (tendsto_add_atTop_nat 1)))
  have h1 := (norm_snd_le ((U (n + 1), X (n + 1 + 1)) - (U n, X (n + 1)))).trans (hB n)
  have h2 := norm_sub_norm_le (X (n + 1 + 1)) (X (n + 1))
  have hB0 : 0 ≤ B := (norm_nonneg _).trans (hB n)
  have h3 : ‖(U (n + 1), X (n + 1 + 1))‖ ≤ ‖X (n + 1)‖ + ‖U (n + 1)‖ + B := by
    rw [Prod.norm_def]
    simp only [Prod.snd_sub] at h1
    exact max_le (by simp only; linarith [norm_nonneg (X (n + 1))]) (by simp only; linarith [norm_nonneg (U (n + 1))])
  simp only [Function.comp] at h3 ⊢
  linarith

end

section
variable {l m : ℕ} {fs : Fin l → ProxOp E} {gs : Fin m → ProxOp E} {φ : Fin l → E → ℝ} {F : Fin m → XFun E} {w : Fin m → ℝ} {e : Fin m → ℝ} {eps : StepSpec}
  {τ η : ℝ}

/-- C119: `GeneralizedProximalGradient` without acceleration, `0 < eta < 2 - tau L/2`: the returned `x` converges to a minimiser, or there is no certified
minimiser and the auxiliary vectors grow without bound. -/
theorem C119_gpg [ProperSpace E] [NeZero m] {L : ℝ} (hf : ∀ i, GradExact (fs i) (φ i)) (hφ : ∀ i, ConvexOn ℝ Set.univ (φ i))
    (hL0 : 0 < L) (hL : LipschitzGrad (fun x => ∑ i, φ i x) L) (hF : ∀ j, (F j).Convex) (hg : ∀ j, ProxExact (gs j) (F j))
    (heps : ∀ j : Fin m, eps.at j = .ok (e j)) (he : ∀ j, 0 < e j) (hw : ∀ j, 0 < w j) (hw1 : ∑ j, w j = 1) (hτ : 0 < τ) (hη : 0 < η)
    (hη2 : η < 2 - τ * L / 2) (x0 : E) (R : ℕ → GPGState E m)
    (hR : ∀ n, GeneralizedProximalGradient fs gs x0 (some τ) eps (some (List.ofFn w)) η n .none = .ok (R n)) :
    (∃ x, (gpgObj φ e F).IsMin x ∧ Tendsto (fun n => (R n).x) atTop (𝓝 x)) ∨
      ((¬∃ (x g : E) (s : Fin m → E), IsGrad (fun x => ∑ i, φ i x) x g ∧ (∀ j, IsSubgrad (F j) x (s j)) ∧ g + ∑ j, e j • s j = 0) ∧
        Tendsto (fun n => ‖(R n).zs‖) atTop atTop) := by
  by_cases hsol : ∃ (x g : E) (s : Fin m → E), IsGrad (fun x => ∑ i, φ i x) x g ∧ (∀ j, IsSubgrad (F j) x (s j)) ∧ g + ∑ j, e j • s j = 0
  · exact Or.inl (C53_gpg_converges hf hφ hL0 hL hF hg heps he hw hw1 hτ hη hη2 x0 hsol R hR)
  refine Or.inr ⟨hsol, ?_⟩
  obtain ⟨G, hG, hGr⟩ := gradsExact_map hf
  choose P hP hP' using fun j => proxExact_map (hg j) (div_pos (mul_pos hτ (he j)) (hw j))
  obtain ⟨X, Y, t, Z, hX0, hY0, hZ0, hZ, hX, hY, h⟩ := gpg_traj (η := η) hG heps hP (fun j => (hw j).ne') hw1 x0 .none (by decide)
  have hYX : ∀ n, Y n = X n := fun n => by
    cases n with
    | zero => exact hY0.trans hX0.symm
    | succ n => rw [hY n]; simp [momentum]
  have hXn : ∀ n, ∑ j, w j • Z n j = X n := fun n => by
    cases n with
    | zero => simp only [hZ0, hX0]; rw [← Finset.sum_smul, hw1, one_smul]
    | succ n => exact (hX n).symm
  have hφs : ConvexOn ℝ Set.univ fun x => ∑ i, φ i x := by
    refine ⟨convex_univ, fun x _ y _ a b ha hb hab => ?_⟩
    simp only [smul_eq_mul]
    rw [Finset.mul_sum, Finset.mul_sum, ← Finset.sum_add_distrib]
    exact Finset.sum_le_sum fun i _ => (hφ i).2 (Set.mem_univ x) (Set.mem_univ y) ha hb hab
  have hLip : ∀ x y, ‖G x - G y‖ ≤ L * ‖x - y‖ := fun x y => hL x y _ _ (hGr x) (hGr y)
  have hstep : ∀ n, Z (n + 1) = gfbStep w P G τ η (Z n) := fun n => by
    funext j
    rw [hZ n j]; simp only [gfbStep]; rw [hXn n, hYX n]
  have hRz : ∀ n, (R n).zs = Z n := fun n => by
    have := (hR n).symm.trans (h n)
    injection this with this
    rw [this]
  simp only [hRz]
  have firm : ∀ j, Firm (P j) := fun j => firm_prox (hF j) (div_pos (mul_pos hτ (he j)) (hw j)) (hP' j)
  have key := averaged_dichotomy_prod hw (gfbStep w P G τ η) (gfb_continuous firm (continuous_of_nonexpansive hLip) τ η)
    (β := (2 - τ * L / 2 - η) / η) (div_pos (by linarith) hη) (fun u v => ?_) Z hstep
  · rcases key with ⟨c, hc, -⟩ | ⟨-, hl⟩
    · set x := ∑ j, w j • c j with hx
      have hc' : ∀ j, P j ((2 : ℝ) • x - c j - τ • G x) = x := fun j => by
        have := congrFun hc j
        simp only [gfbStep] at this
        rw [add_eq_left, smul_eq_zero] at this
        exact sub_eq_zero.1 (this.resolve_left hη.ne')
      refine absurd ⟨x, G x, fun j => (1 / (τ * e j / w j)) • ((2 : ℝ) • x - c j - τ • G x - x), hGr x, fun j => ?_, ?_⟩ hsol
      · have := subgrad_of_isProx (hF j) (div_pos (mul_pos hτ (he j)) (hw j)) (hP' j ((2 : ℝ) • x - c j - τ • G x))
        rwa [hc' j] at this
      · have e1 : ∀ j, e j • (1 / (τ * e j / w j)) • ((2 : ℝ) • x - c j - τ • G x - x) = (1 / τ) • (w j • (x - τ • G x) - w j • c j) := fun j => by
          rw [show (2 : ℝ) • x - c j - τ • G x - x = (x - τ • G x) - c j by rw [two_smul]; abel, ← smul_sub, smul_smul, smul_smul]
          congr 1
          have := (he j).ne'; have := (hw j).ne'
          field_simp
        simp only [e1]
        rw [← Finset.smul_sum, Finset.sum_sub_distrib, ← Finset.sum_smul, hw1, one_smul, ← hx, sub_sub_cancel_left, smul_neg, smul_smul,
          one_div_mul_cancel hτ.ne', one_smul, add_neg_cancel]
    · exact hl
  · set δ : Fin m → E := fun i => P i ((2 : ℝ) • (∑ j, w j • v j) - v i - τ • G (∑ j, w j • v j)) - ∑ j, w j • v j with hδ
    have e0 : ∀ z, gfbStep w (fun i x => P i x - δ i) G τ η z = gfbStep w P G τ η z - fun i => η • δ i := fun z => by
      funext i
      simp only [gfbStep, Pi.sub_apply]
      rw [sub_right_comm, smul_sub, add_sub_assoc]
    have ev' : gfbStep w P G τ η v = v + fun i => η • δ i := by funext i; rfl
    have ev : gfbStep w (fun i x => P i x - δ i) G τ η v = v := by rw [e0, ev', add_sub_cancel_right]
    have := gfb_fejer hw hw1 (fun i => (firm i).shift (δ i)) hτ.le hη hL0 (cocoercive hφs hGr hL0 hLip) ev u
    rw [e0, sub_right_comm _ _ v, sub_right_comm _ _ u] at this
    rw [ev', add_sub_cancel_left]
    rwa [← sub_sub]

end

/-! ## Problems without solution -/

section
variable {f g : ProxOp E} {τ η : ℝ} {a b : E}

/-- The hypotheses are met by a problem without solution, and there the divergence is visible: two different points to be both attained.  `DouglasRachford`
returns the same `x` whatever `niter`, while `y` moves away in equal steps. -/
theorem C119_disjoint_dr (hf : ProxExact f (XFun.indicator {a})) (hg : ProxExact g (XFun.indicator {b})) (hτ : 0 < τ) (gfirst : Bool) (x0 : E) (n : ℕ) :
    ∃ r, DouglasRachford f g x0 τ η (n + 1) gfirst = .ok r ∧ r.1 = (if gfirst then b else a) ∧
      r.2.1 = x0 + (((n : ℝ) + 1) * η) • (if gfirst then a - b else b - a) := by
  obtain ⟨Pf, hPf, hPf'⟩ := proxExact_map hf hτ
  obtain ⟨Pg, hPg, hPg'⟩ := proxExact_map hg hτ
  have ea : ∀ x, Pf x = a := fun x => (hPf' x).1
  have eb : ∀ x, Pg x = b := fun x => (hPg' x).1
  obtain ⟨Y, hY0, hY, h⟩ := dr_traj hPf hPg η gfirst x0
  refine ⟨_, h n, ?_, ?_⟩
  · cases gfirst <;> simp [ea, eb]
  · have key : ∀ n : ℕ, Y n = x0 + ((n : ℝ) * η) • (if gfirst then a - b else b - a) := fun n => by
      induction n with
      | zero => simp [hY0]
      | succ n ih =>
        rw [hY, Nat.cast_succ, add_mul, one_mul, add_smul, ← add_assoc, ← ih]
        cases gfirst <;> simp [drStep, ea, eb]
    have := key (n + 1)
    rw [Nat.cast_succ] at this
    exact this

/-- On the same problem `ADMM` returns `x = a` and `z = b` whatever `niter`: its two outputs look settled, and only their difference tells. -/
theorem C119_disjoint_admm (hf : ProxExact f (XFun.indicator {a})) (hg : ProxExact g (XFun.indicator {b})) (hτ : 0 < τ) (gfirst : Bool) (x0 : E)
    (z0 : Option E) (n : ℕ) : ∃ s, ADMM f g (some x0) z0 τ (n + 1) gfirst = .ok s ∧ s.x = a ∧ s.z = b := by
  obtain ⟨Pf, hPf, hPf'⟩ := proxExact_map hf hτ
  obtain ⟨Pg, hPg, hPg'⟩ := proxExact_map hg hτ
  have ea : ∀ x, Pf x = a := fun x => (hPf' x).1
  have eb : ∀ x, Pg x = b := fun x => (hPg' x).1
  obtain ⟨x, z, hinit⟩ : ∃ x z, x0z0Init (some x0) z0 = .ok (x, z) := by rcases z0 with _ | z <;> exact ⟨_, _, rfl⟩
  obtain ⟨S, -, -, -, -, ht, hff, -, hS⟩ := admm_traj hPf hPg gfirst (some x0) z0 x z hinit
  refine ⟨_, hS (n + 1), ?_⟩
  cases gfirst with
  | true => rw [(ht rfl n).1, (ht rfl n).2, ea, eb]; exact ⟨rfl, rfl⟩
  | false => rw [(hff rfl n).1, (hff rfl n).2, ea, eb]; exact ⟨rfl, rfl⟩

/-- Two different points have no common element, so the dichotomy puts the problem in its second case. -/
theorem C119_disjoint_no_solution (hab : a ≠ b) : ¬∃ x s, IsCertified (XFun.indicator {a}) (XFun.indicator {b}) x s := by
  rintro ⟨x, s, h1, h2⟩
  exact hab ((Set.mem_singleton_iff.1 h1.1).symm.trans (Set.mem_singleton_iff.1 h2.1))

end

/-- Two boxes reduced to a point each: operators of the library that meet these hypotheses. -/
example {ι : Type} [Fintype ι] (a : Vec ι) :
    ProxExact (Box (fun i => some (a i)) fun i => some (a i)) (XFun.indicator {a}) := by
  have e : boxSet (fun i => some (a i)) (fun i => some (a i)) = ({a} : Set (Vec ι)) := by
    ext x
    simp only [boxSet, Set.mem_ofPred_eq, Set.mem_singleton_iff]
    constructor
    · intro h
      ext i
      exact le_antisymm ((h i).2 _ rfl) ((h i).1 _ rfl)
    · rintro rfl i
      exact ⟨fun l hl => by cases hl; exact le_rfl, fun u hu => by cases hu; exact le_rfl⟩
  rw [← e]
  exact box_proxExact _ _ fun i l u hl hu => by cases hl; cases hu; exact le_rfl

end Verif
