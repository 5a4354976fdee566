import Verif.Model.Primal
import Verif.Model.PrimalDual
import Verif.Model.Dykstra
import Verif.Lemmas.Loop
import Verif.Lemmas.Product
import Verif.Props.InPlace
import Verif.Props.Dykstra
import Verif.Props.Equivalences

/-!
# C103: rewriting the problem rewrites the run

The same problem can be written in several ways with the operator calculus of the library: `c * f` with step `tau` or `f` with step
`c * tau`; `f.precomposition(a, b)` in the variable `x` or `f` in the variable `a x + b`; the list of functions in one order or another; the
two functions of a splitting solver in either role.  A user expects to get the same run.  The statements compare complete runs: every value
given to the callback, the returned point, and (except for reordering, where the first exception met may be another one) the exception raised.
-/

open scoped RealInnerProductSpace

namespace Verif

variable {E F : Type} [NormedAddCommGroup E] [InnerProductSpace ℝ E] [NormedAddCommGroup F] [InnerProductSpace ℝ F]
variable {f g : ProxOp E} {τ c a : ℝ} {b : E}

/-! ## `c * f` with step `tau` is `f` with step `c * tau` -/

lemma postOp_prox (f : ProxOp E) (c : ℝ) (hτ : 0 < τ) (x : E) : (f.postOp c).prox x τ = f.prox x (c * τ) := by
  show checkTau τ (f.prox x (c * τ)) = _
  rw [checkTau, if_neg (not_le.mpr hτ)]

/-- `ADMM(c * f, c * g, x0, tau, ...)` and `ADMM(f, g, x0, c * tau, ...)` are the same run. -/
theorem C103_admm_scale (f g : ProxOp E) (c : ℝ) (hτ : 0 < τ) (x0 z0 : Option E) (n : ℕ) (gfirst : Bool) :
    ADMM (f.postOp c) (g.postOp c) x0 z0 τ n gfirst = ADMM f g x0 z0 (c * τ) n gfirst := by
  have : ADMM.body (f.postOp c) (g.postOp c) τ gfirst = ADMM.body f g (c * τ) gfirst := by
    funext i s
    simp only [ADMM.body, postOp_prox _ c hτ]
  simp only [ADMM, this]

/-- The same for Douglas-Rachford. -/
theorem C103_dr_scale (f g : ProxOp E) (c : ℝ) (hτ : 0 < τ) (η : ℝ) (x0 : E) (n : ℕ) (gfirst : Bool) :
    DouglasRachford (f.postOp c) (g.postOp c) x0 τ η n gfirst = DouglasRachford f g x0 (c * τ) η n gfirst := by
  have : DR.body (f.postOp c) (g.postOp c) τ η gfirst = DR.body f g (c * τ) η gfirst := by
    funext i s
    simp only [DR.body, postOp_prox _ c hτ]
  simp only [DouglasRachford, this]

/-- The same for half-quadratic splitting, with a number or an array of steps. -/
theorem C103_hqs_scale (f g : ProxOp E) (c : ℝ) (tau tau' : StepSpec) (hτ : ∀ i t, tau.at i = .ok t → 0 < t)
    (hc : ∀ i, tau'.at i = (tau.at i).map (c * ·)) (x0 z0 : Option E) (n : ℕ) (gfirst : Bool) :
    HQS (f.postOp c) (g.postOp c) x0 z0 tau n gfirst = HQS f g x0 z0 tau' n gfirst := by
  have : HQS.body (f.postOp c) (g.postOp c) tau gfirst = HQS.body f g tau' gfirst := by
    funext i s
    simp only [HQS.body, hc i]
    cases h : tau.at i with
    | error e => rfl
    | ok t => simp only [Except.map, bind, Except.bind, postOp_prox _ c (hτ i t h)]
  simp only [HQS, this]

/-- The same for the linearised ADMM, where both `tau` and `mu` are multiplied. -/
theorem C103_linearized_admm_scale (f : ProxOp E) (g : ProxOp F) (A : LinOp E F) {μ : ℝ} (hc : 0 < c) (hτ : 0 < τ) (hμ : 0 < μ) (x0 : Option E) (z0 : Option F)
    (n : ℕ) : LinearizedADMM (f.postOp c) (g.postOp c) A x0 z0 τ μ n = LinearizedADMM f g A x0 z0 (c * τ) (c * μ) n := by
  have : LinearizedADMM.body (f.postOp c) (g.postOp c) A τ μ = LinearizedADMM.body f g A (c * τ) (c * μ) := by
    funext i s
    simp only [LinearizedADMM.body, postOp_prox _ c hτ, postOp_prox _ c hμ, if_neg hτ.ne', if_neg (mul_pos hc hτ).ne',
      mul_div_mul_left _ _ hc.ne']
  simp only [LinearizedADMM, this]

/-- The same for PPXA with positive weights. -/
theorem C103_ppxa_scale {m : ℕ} (fs : Fin m → ProxOp E) (w : Option (Fin m → ℝ)) (hw : ∀ v, w = some v → ∀ i, 0 < v i) (c : ℝ) (hτ : 0 < τ) (y0 : Fin m → E)
    (η : ℝ) (n : ℕ) (tol : ℝ) (mx : E → ℝ) :
    PPXA (fun i => (fs i).postOp c) w y0 τ η n tol mx = PPXA fs w y0 (c * τ) η n tol mx := by
  have key : ∀ v : Fin m → ℝ, (∀ i, 0 < v i) → PPXA.body (fun i => (fs i).postOp c) v τ η tol mx = PPXA.body fs v (c * τ) η tol mx := by
    intro v hv
    funext i s
    simp only [PPXA.body, fun j => postOp_prox (fs j) c (div_pos hτ (hv j)), mul_div_assoc]
  simp only [PPXA]
  split_ifs with hm
  · rfl
  · cases w with
    | none =>
      have : 0 < (m : ℝ) := by positivity
      rw [key _ fun _ => by positivity]
    | some v => rw [key _ (hw v rfl)]

/-- The same for the consensus ADMM. -/
theorem C103_consensus_scale {m : ℕ} (fs : Fin m → ProxOp E) (c : ℝ) (hτ : 0 < τ) (x0 : E) (n : ℕ) (tol : ℝ) (mx : E → ℝ) :
    ConsensusADMM (fun i => (fs i).postOp c) x0 τ n tol mx = ConsensusADMM fs x0 (c * τ) n tol mx := by
  have : ConsensusADMM.body (fun i => (fs i).postOp c) τ tol mx = ConsensusADMM.body fs (c * τ) tol mx := by
    funext i s
    simp only [ConsensusADMM.body, postOp_prox _ c hτ]
  simp only [ConsensusADMM, this]

/-- A run of the proximal point algorithm after its function values are multiplied by `c`. -/
noncomputable def PPState.rescale (c : ℝ) (s : PPState E) : PPState E := ⟨s.x, s.pf.map (c * ·), s.log⟩

lemma callNum_toReal (v : ℝ) : (CallVal.num v).toReal = v := rfl

lemma pyRatio_scale (hc : c ≠ 0) (v : ℝ) (p : Option ℝ) : pyRatio (c * v) (p.map (c * ·)) = pyRatio v p := by
  cases p with
  | none => rfl
  | some d =>
    by_cases hd : d = 0
    · simp [pyRatio, hd]
    · simp only [pyRatio, Option.map, if_neg hd, if_neg (mul_ne_zero hc hd), mul_div_mul_left _ _ hc]

/-- The same for the proximal point algorithm, with its relative stopping test. -/
theorem C103_proximalpoint_scale (f : ProxOp E) (hc : c ≠ 0) (hτ : 0 < τ) (x0 : E) (n : ℕ) (tol : Option ℝ) :
    ProximalPoint (f.postOp c) x0 τ n tol = (ProximalPoint f x0 (c * τ) n tol).map (PPState.rescale c) := by
  unfold ProximalPoint
  symm
  refine (forRange_map (J := fun _ => True) (π := PPState.rescale c) ?_ n 0 ⟨x0, none, []⟩ trivial).1
  intro i s _
  simp only [ProximalPoint.body, PPState.rescale, postOp_prox _ c hτ]
  cases hp : f.prox s.x (c * τ) with
  | error e => exact Or.inl ⟨e, rfl, rfl⟩
  | ok x =>
    cases tol with
    | none => exact Or.inr ⟨_, _, rfl, rfl, trivial⟩
    | some t =>
      simp only [bind, Except.bind]
      have hcall : (f.postOp c).call x = (f.call x).map fun v => .num (c * v.toReal) := by
        simp only [ProxOp.postOp, bind, Except.bind, pure, Except.pure]
        cases f.call x <;> rfl
      rw [hcall]
      cases f.call x with
      | error e => exact Or.inl ⟨e, rfl, rfl⟩
      | ok v =>
        simp only [Except.map, callNum_toReal, pyRatio_scale hc]
        cases pyRatio v.toReal s.pf with
        | error e => exact Or.inl ⟨e, rfl, rfl⟩
        | ok r => exact Or.inr ⟨_, _, rfl, rfl, trivial⟩

lemma postOp_grad (f : ProxOp E) (c : ℝ) (x : E) : (f.postOp c).grad x = (f.grad x).map (c • ·) := by
  show (do pure (c • (← f.grad x)) : Py E) = _
  cases f.grad x <;> rfl

lemma postOp_call (f : ProxOp E) (c : ℝ) (x : E) : (f.postOp c).call x = (f.call x).map fun v => .num (c * v.toReal) := by
  simp only [ProxOp.postOp, bind, Except.bind, pure, Except.pure]
  cases f.call x <;> rfl

lemma npRatioTest_scale (hc : c ≠ 0) (v : ℝ) (p : Option ℝ) (t : ℝ) : npRatioTest (c * v) (p.map (c * ·)) t = npRatioTest v p t := by
  cases p with
  | none => rfl
  | some d =>
    by_cases hd : d = 0
    · simp [npRatioTest, hd]
    · simp only [npRatioTest, Option.map, if_neg hd, if_neg (mul_ne_zero hc hd), mul_div_mul_left _ _ hc]

lemma backtrack_scale (f g : ProxOp E) (hc : 0 < c) {e β : ℝ} (he : 0 < e) (hβ : 0 < β) (x : E) :
    ∀ (n : ℕ) (t : ℝ) (z : Option E), 0 < t →
      backtrack (f.postOp c) (g.postOp c) x e β n (t / c) z = (backtrack f g x e β n t z).map (fun r => (r.1, r.2 / c)) ∧
      ∀ r, backtrack f g x e β n t z = .ok r → 0 < r.2
  | 0, t, none, _ => ⟨rfl, fun r h => by cases h⟩
  | 0, t, some z, ht => ⟨rfl, fun r h => by cases h; exact ht⟩
  | n + 1, t, z, ht => by
    have htc : 0 < t / c := div_pos ht hc
    simp only [backtrack, postOp_grad, postOp_call, postOp_prox _ c (mul_pos he htc)]
    cases hg : f.grad x with
    | error e => exact ⟨rfl, fun r h => by cases h⟩
    | ok v =>
      simp only [Except.map, bind, Except.bind]
      have h1 : x - (t / c) • c • v = x - t • v := by rw [smul_smul, div_mul_cancel₀ _ hc.ne']
      have h2 : c * (e * (t / c)) = e * t := by field_simp
      rw [h1, h2]
      cases g.prox (x - t • v) (e * t) with
      | error e => exact ⟨rfl, fun r h => by cases h⟩
      | ok w =>
        simp only []
        cases f.call x with
        | error e => exact ⟨rfl, fun r h => by cases h⟩
        | ok p =>
          simp only []
          cases f.call w with
          | error e => exact ⟨rfl, fun r h => by cases h⟩
          | ok q =>
            simp only []
            have h3 : ((CallVal.num (c * q.toReal)).toReal ≤ (CallVal.num (c * p.toReal)).toReal + ⟪c • v, w - x⟫ + 1 / (2 * (t / c)) * ‖w - x‖ ^ 2) ↔
                (q.toReal ≤ p.toReal + ⟪v, w - x⟫ + 1 / (2 * t) * ‖w - x‖ ^ 2) := by
              have : c * p.toReal + ⟪c • v, w - x⟫ + 1 / (2 * (t / c)) * ‖w - x‖ ^ 2 =
                  c * (p.toReal + ⟪v, w - x⟫ + 1 / (2 * t) * ‖w - x‖ ^ 2) := by
                rw [real_inner_smul_left]
                field_simp
              rw [callNum_toReal, callNum_toReal, this, mul_le_mul_iff_right₀ hc]
            by_cases h4 : q.toReal ≤ p.toReal + ⟪v, w - x⟫ + 1 / (2 * t) * ‖w - x‖ ^ 2
            · rw [if_pos (h3.2 h4), if_pos h4]
              exact ⟨rfl, fun r h => by cases h; exact ht⟩
            · rw [if_neg (mt h3.1 h4), if_neg h4]
              have := backtrack_scale f g hc he hβ x n (t * β) (some w) (mul_pos ht hβ)
              rw [show t / c * β = t * β / c by ring]
              exact this

/-- A run of the proximal gradient algorithm with its step divided by `c` and its function values multiplied by `c`. -/
noncomputable def PGState.rescale (c : ℝ) (s : PGState E) : PGState E := ⟨s.x, s.y, s.t, s.tau / c, s.pfg.map (c * ·), s.log⟩

lemma pgStep_scale (f g : ProxOp E) (hc : 0 < c) (args : PGArgs) (bt : Bool) (hβ : bt = true → 0 < args.β) {e : ℝ} (he : 0 < e) (s : PGState E)
    (hs : 0 < s.tau) :
    PG.step (f.postOp c) (g.postOp c) args bt e (s.rescale c) = (PG.step f g args bt e s).map (fun r => (r.1, r.2 / c)) ∧
      ∀ r, PG.step f g args bt e s = .ok r → 0 < r.2 := by
  have key : ∀ (y : E) (t : ℝ), 0 < t → ∀ v : E, (g.postOp c).prox (y - (t / c) • c • v) (e * (t / c)) = g.prox (y - t • v) (e * t) := by
    intro y t ht v
    rw [postOp_prox _ c (mul_pos he (div_pos ht hc)), smul_smul, div_mul_cancel₀ _ hc.ne', show c * (e * (t / c)) = e * t by field_simp]
  simp only [PG.step, PGState.rescale]
  cases bt with
  | true =>
    obtain ⟨h1, h2⟩ := backtrack_scale f g hc he (hβ rfl) s.y args.niterback s.tau none hs
    simp only [if_true, h1]
    cases hb : backtrack f g s.y e args.β args.niterback s.tau none with
    | error e => exact ⟨rfl, fun r h => by cases h⟩
    | ok r =>
      obtain ⟨x, t⟩ := r
      have ht : 0 < t := h2 _ hb
      simp only [Except.map, bind, Except.bind]
      by_cases hη : args.eta = 1
      · simp only [hη, if_true]
        exact ⟨rfl, fun r h => by cases h; exact ht⟩
      · simp only [hη, if_false, postOp_grad]
        cases f.grad x with
        | error e => exact ⟨rfl, fun r h => by cases h⟩
        | ok v =>
          simp only [Except.map, key x t ht v]
          cases g.prox (x - t • v) (e * t) with
          | error e => exact ⟨rfl, fun r h => by cases h⟩
          | ok p => exact ⟨rfl, fun r h => by cases h; exact ht⟩
  | false =>
    simp only [Bool.false_eq_true, if_false]
    by_cases hη : args.eta = 1
    · simp only [hη, if_true, postOp_grad]
      cases f.grad s.y with
      | error e => exact ⟨rfl, fun r h => by cases h⟩
      | ok v =>
        simp only [Except.map, bind, Except.bind, key s.y s.tau hs v]
        cases g.prox (s.y - s.tau • v) (e * s.tau) with
        | error e => exact ⟨rfl, fun r h => by cases h⟩
        | ok p => exact ⟨rfl, fun r h => by cases h; exact hs⟩
    · simp only [hη, if_false, postOp_grad]
      cases f.grad s.x with
      | error e => exact ⟨rfl, fun r h => by cases h⟩
      | ok v =>
        simp only [Except.map, bind, Except.bind, key s.x s.tau hs v]
        cases g.prox (s.x - s.tau • v) (e * s.tau) with
        | error e => exact ⟨rfl, fun r h => by cases h⟩
        | ok p => exact ⟨rfl, fun r h => by cases h; exact hs⟩

/-- The same for the proximal gradient algorithm in all its variants (acceleration, relaxation, backtracking, array of weights, tolerance). -/
theorem C103_proximalgradient_scale (f g : ProxOp E) (hc : 0 < c) (hτ : 0 < τ) (x0 : E) (args : PGArgs) (hβ : args.backtracking = true → 0 < args.β)
    (he : ∀ i e, args.epsg.at i = .ok e → 0 < e) :
    ProximalGradient (f.postOp c) (g.postOp c) x0 { args with tau := some τ } =
      (ProximalGradient f g x0 { args with tau := some (c * τ) }).map (PGState.rescale c) := by
  simp only [ProximalGradient]
  cases args.epsg.printCheck args.niter with
  | error e => rfl
  | ok u =>
    simp only [bind, Except.bind]
    by_cases ho : args.acceleration = .other
    · simp only [ho, if_true]; rfl
    · simp only [ho, if_false]
      symm
      have hini : (⟨x0, x0, 1, τ, none, []⟩ : PGState E) = PGState.rescale c ⟨x0, x0, 1, c * τ, none, []⟩ := by
        simp only [PGState.rescale, Option.map, mul_div_cancel_left₀ _ hc.ne']
      rw [hini]
      refine (forRange_map (J := fun s => 0 < s.tau) (π := PGState.rescale c) ?_ args.niter 0 _ (mul_pos hc hτ)).1
      intro i s hs
      simp only [PG.body]
      cases hei : args.epsg.at i with
      | error e => exact Or.inl ⟨e, rfl, rfl⟩
      | ok e =>
        simp only [bind, Except.bind]
        obtain ⟨h1, h2⟩ := pgStep_scale f g hc { args with tau := some τ } args.backtracking hβ (he i e hei) s hs
        have h3 : PG.step f g { args with tau := some (c * τ) } args.backtracking e s = PG.step f g { args with tau := some τ } args.backtracking e s := rfl
        rw [h1, h3]
        cases hst : PG.step f g { args with tau := some τ } args.backtracking e s with
        | error e => exact Or.inl ⟨e, rfl, rfl⟩
        | ok r =>
          have hr := h2 r hst
          obtain ⟨x, t⟩ := r
          simp only [Except.map]
          cases args.tol with
          | none => exact Or.inr ⟨_, _, rfl, rfl, hr⟩
          | some tol =>
            simp only [postOp_call]
            cases f.call x with
            | error e => exact Or.inl ⟨e, rfl, rfl⟩
            | ok p =>
              simp only [Except.map]
              cases g.call x with
              | error e => exact Or.inl ⟨e, rfl, rfl⟩
              | ok q =>
                simp only [callNum_toReal]
                rw [show c * p.toReal + e * (c * q.toReal) = c * (p.toReal + e * q.toReal) by ring]
                simp only [PGState.rescale, npRatioTest_scale hc.ne']
                exact Or.inr ⟨_, _, rfl, rfl, hr⟩

/-- A primal-dual run with its dual variable multiplied by `c`. -/
noncomputable def PDState.rescale (c : ℝ) (s : PDState E F) : PDState E F := ⟨s.x, c • s.y, s.xhat, s.log.map fun v => (v.1, c • v.2)⟩

/-- The same for the primal-dual algorithm when `g` has no `proxdual` of its own (its base class computes it from `prox`): `tau` is multiplied by `c`, `mu`
is divided by `c`, and the dual variable, its start and the linear term are multiplied by `c`. -/
theorem C103_primaldual_scale (f : ProxOp E) (g : ProxOp F) (hg : ∀ y s, 0 < s → g.proxdual y s = g.proxdualMoreau y s) (A : LinOp E F) (hc : 0 < c)
    (tau tau' mu mu' : StepSpec) (hτ : ∀ i t, tau.atStrict i = .ok t → 0 < t) (hμ : ∀ i t, mu.atStrict i = .ok t → 0 < t)
    (hτ' : ∀ i, tau'.atStrict i = (tau.atStrict i).map (c * ·)) (hμ' : ∀ i, mu'.atStrict i = (mu.atStrict i).map (· / c))
    (x0 : E) (y0 : Option F) (z : Option E) (θ : ℝ) (n : ℕ) (gfirst : Bool) :
    PrimalDual (f.postOp c) (g.postOp c) A x0 (y0.map (c • ·)) (z.map (c • ·)) tau mu θ n gfirst =
      (PrimalDual f g A x0 y0 z tau' mu' θ n gfirst).map (PDState.rescale c) := by
  unfold PrimalDual
  symm
  have hini : (⟨x0, (y0.map (c • ·)).getD 0, x0, []⟩ : PDState E F) = PDState.rescale c ⟨x0, y0.getD 0, x0, []⟩ := by
    cases y0 <;> simp [PDState.rescale]
  rw [hini]
  have hdual : ∀ (Y : F) (m : ℝ), 0 < m → (g.postOp c).proxdual (c • Y) m = (g.proxdual Y (m / c)).map (c • ·) := by
    intro Y m hm
    have hmc : 0 < m / c := div_pos hm hc
    rw [hg Y (m / c) hmc]
    show checkTau m (ProxOp.moreauStep (fun y s => checkTau s (g.prox y (c * s))) (c • Y) m) = _
    simp only [ProxOp.proxdualMoreau, ProxOp.moreauStep, checkTau, if_neg (not_le.mpr hm), if_neg (not_le.mpr hmc), if_neg (not_le.mpr (one_div_pos.mpr hm))]
    rw [smul_smul, show 1 / m * c = 1 / (m / c) by field_simp, show c * (1 / m) = 1 / (m / c) by field_simp]
    cases g.prox ((1 / (m / c)) • Y) (1 / (m / c)) with
    | error e => rfl
    | ok d =>
      simp only [bind, Except.bind, pure, Except.pure, Except.map]
      rw [smul_sub, smul_smul, mul_div_cancel₀ _ hc.ne']
  have hA : ∀ (t : ℝ) (y : F), t • pdATy A (z.map (c • ·)) (c • y) = (c * t) • pdATy A z y := by
    intro t y
    cases z <;> simp only [pdATy, Option.map, map_smul] <;> module
  refine (forRange_map (J := fun _ => True) (π := PDState.rescale c) ?_ n 0 _ trivial).1
  intro i s _
  simp only [PrimalDual.body, hτ' i, hμ' i]
  cases ht : tau.atStrict i with
  | error e => exact Or.inl ⟨e, rfl, rfl⟩
  | ok t =>
    simp only [Except.map, bind, Except.bind]
    cases hm : mu.atStrict i with
    | error e => exact Or.inl ⟨e, rfl, rfl⟩
    | ok m =>
      have h0 := hτ i t ht
      have h1 := hμ i m hm
      have hy : ∀ X : E, (s.rescale c).y + m • A.matvec X = c • (s.y + (m / c) • A.matvec X) := by
        intro X
        simp only [PDState.rescale, smul_add, smul_smul, mul_div_cancel₀ _ hc.ne']
      have hx : (s.rescale c).x = s.x := rfl
      have hx' : (s.rescale c).xhat = s.xhat := rfl
      have hyy : (s.rescale c).y = c • s.y := rfl
      simp only []
      cases gfirst with
      | true =>
        simp only [if_true, hy, hdual _ m h1, postOp_prox _ c h0, hx, hx']
        cases g.proxdual (s.y + (m / c) • A.matvec s.xhat) (m / c) with
        | error e => exact Or.inl ⟨e, rfl, rfl⟩
        | ok y =>
          simp only [Except.map, hA]
          cases f.prox (s.x - (c * t) • pdATy A z y) (c * t) with
          | error e => exact Or.inl ⟨e, rfl, rfl⟩
          | ok x =>
            refine Or.inr ⟨_, _, rfl, ?_, trivial⟩
            simp only [PDState.rescale, List.map_append, List.map_cons, List.map_nil, pure, Except.pure]
      | false =>
        simp only [Bool.false_eq_true, if_false, hyy, postOp_prox _ c h0, hx, hA]
        cases f.prox (s.x - (c * t) • pdATy A z s.y) (c * t) with
        | error e => exact Or.inl ⟨e, rfl, rfl⟩
        | ok x =>
          simp only [← hyy, hy, hdual _ m h1]
          cases g.proxdual (s.y + (m / c) • A.matvec (x + θ • (x - s.x))) (m / c) with
          | error e => exact Or.inl ⟨e, rfl, rfl⟩
          | ok y =>
            refine Or.inr ⟨_, _, rfl, ?_, trivial⟩
            simp only [PDState.rescale, List.map_append, List.map_cons, List.map_nil, pure, Except.pure, Except.map]

/-! ## `f.precomposition(a, b)` in the variable `x` is `f` in the variable `a x + b` -/

/-- The change of variables. -/
noncomputable def subst (a : ℝ) (b x : E) : E := a • x + b

lemma preOp_prox (f : ProxOp E) (a : ℝ) (b : E) (hτ : 0 < τ) (x : E) :
    (f.preOp a b).prox x τ = (f.prox (subst a b x) (a ^ 2 * τ)).map fun p => (1 / a) • (p - b) := by
  show checkTau τ (do
    let p ← f.prox (a • x + b) (a ^ 2 * τ)
    pure ((1 / a) • (p - b))) = _
  rw [checkTau, if_neg (not_le.mpr hτ)]
  unfold subst
  cases f.prox (a • x + b) (a ^ 2 * τ) <;> rfl

/-- The result of `prox` of `f.precomposition(a, b)`, in the new variable. -/
lemma preOp_prox_cases (f : ProxOp E) (ha : a ≠ 0) (b : E) (hτ : 0 < τ) (x y : E) (hy : subst a b x = y) :
    (∃ e, (f.preOp a b).prox x τ = .error e ∧ f.prox y (a ^ 2 * τ) = .error e) ∨
      ∃ w, (f.preOp a b).prox x τ = .ok w ∧ f.prox y (a ^ 2 * τ) = .ok (subst a b w) := by
  rw [preOp_prox f a b hτ, hy]
  cases f.prox y (a ^ 2 * τ) with
  | error e => exact Or.inl ⟨e, rfl, rfl⟩
  | ok p =>
    refine Or.inr ⟨_, rfl, ?_⟩
    rw [subst, smul_smul, mul_one_div_cancel ha, one_smul, sub_add_cancel]

lemma preOp_grad (f : ProxOp E) (a : ℝ) (b x : E) : (f.preOp a b).grad x = (f.grad (subst a b x)).map (a • ·) := by
  show (do pure (a • (← f.grad (a • x + b))) : Py E) = _
  unfold subst
  cases f.grad (a • x + b) <;> rfl

lemma preOp_call (f : ProxOp E) (a : ℝ) (b x : E) : (f.preOp a b).call x = f.call (subst a b x) := rfl

/-- A run of a splitting solver in the new variable (the multiplier is only scaled). -/
noncomputable def SplitState.subst (a : ℝ) (b : E) (s : SplitState E) : SplitState E :=
  ⟨Verif.subst a b s.x, Verif.subst a b s.z, a • s.u, s.log.map fun v => (Verif.subst a b v.1, Verif.subst a b v.2)⟩

/-- ADMM on `f.precomposition(a, b)` and `g.precomposition(a, b)` is ADMM on `f` and `g` in the variable `a x + b`, with step `a**2 * tau`. -/
theorem C103_admm_precomposition (f g : ProxOp E) (ha : a ≠ 0) (b : E) (hτ : 0 < τ) (x0 z0 : Option E) (n : ℕ) (gfirst : Bool) :
    (ADMM (f.preOp a b) (g.preOp a b) x0 z0 τ n gfirst).map (SplitState.subst a b) =
      ADMM f g (x0.map (subst a b)) (z0.map (subst a b)) (a ^ 2 * τ) n gfirst := by
  have key : ∀ x z : E, (forRange (ADMM.body (f.preOp a b) (g.preOp a b) τ gfirst) n 0 ⟨x, z, 0, []⟩).map (SplitState.subst a b) =
      forRange (ADMM.body f g (a ^ 2 * τ) gfirst) n 0 ⟨subst a b x, subst a b z, 0, []⟩ := by
    intro x z
    have h0 : (⟨subst a b x, subst a b z, 0, []⟩ : SplitState E) = SplitState.subst a b ⟨x, z, 0, []⟩ := by
      simp [SplitState.subst]
    rw [h0]
    refine (forRange_map (J := fun _ => True) (π := SplitState.subst a b) ?_ n 0 _ trivial).1
    intro i s _
    cases gfirst with
    | true =>
      simp only [ADMM.body, if_true]
      rcases preOp_prox_cases g ha b hτ (s.x + s.u) ((s.subst a b).x + (s.subst a b).u) (by simp only [subst, SplitState.subst]; module)
        with ⟨e, h1, h2⟩ | ⟨z, h1, h2⟩
      · exact Or.inl ⟨e, by rw [h1]; rfl, by rw [h2]; rfl⟩
      · rcases preOp_prox_cases f ha b hτ (z - s.u) (subst a b z - (s.subst a b).u) (by simp only [subst, SplitState.subst]; module)
          with ⟨e, h3, h4⟩ | ⟨x, h3, h4⟩
        · exact Or.inl ⟨e, by simp only [h1, bind, Except.bind, h3], by simp only [h2, bind, Except.bind, h4]⟩
        · refine Or.inr ⟨_, _, by simp only [h1, bind, Except.bind, h3]; rfl, ?_, trivial⟩
          simp only [h2, bind, Except.bind, h4]
          simp only [SplitState.subst, List.map_append, List.map_cons, List.map_nil, pure, Except.pure]
          rw [show a • s.u + subst a b x - subst a b z = a • (s.u + x - z) by simp only [subst]; module]
    | false =>
      simp only [ADMM.body, Bool.false_eq_true, if_false]
      rcases preOp_prox_cases f ha b hτ (s.z - s.u) ((s.subst a b).z - (s.subst a b).u) (by simp only [subst, SplitState.subst]; module)
        with ⟨e, h1, h2⟩ | ⟨x, h1, h2⟩
      · exact Or.inl ⟨e, by rw [h1]; rfl, by rw [h2]; rfl⟩
      · rcases preOp_prox_cases g ha b hτ (x + s.u) (subst a b x + (s.subst a b).u) (by simp only [subst, SplitState.subst]; module)
          with ⟨e, h3, h4⟩ | ⟨z, h3, h4⟩
        · exact Or.inl ⟨e, by simp only [h1, bind, Except.bind, h3], by simp only [h2, bind, Except.bind, h4]⟩
        · refine Or.inr ⟨_, _, by simp only [h1, bind, Except.bind, h3]; rfl, ?_, trivial⟩
          simp only [h2, bind, Except.bind, h4]
          simp only [SplitState.subst, List.map_append, List.map_cons, List.map_nil, pure, Except.pure]
          rw [show a • s.u + subst a b x - subst a b z = a • (s.u + x - z) by simp only [subst]; module]
  cases x0 <;> cases z0 <;> simp only [ADMM, x0z0Init, Option.map, bind, Except.bind, key]
  rfl

/-- The same for half-quadratic splitting. -/
theorem C103_hqs_precomposition (f g : ProxOp E) (ha : a ≠ 0) (b : E) (tau tau' : StepSpec) (hτ : ∀ i t, tau.at i = .ok t → 0 < t)
    (hc : ∀ i, tau'.at i = (tau.at i).map (a ^ 2 * ·)) (x0 z0 : Option E) (n : ℕ) (gfirst : Bool) :
    (HQS (f.preOp a b) (g.preOp a b) x0 z0 tau n gfirst).map (SplitState.subst a b) =
      HQS f g (x0.map (subst a b)) (z0.map (subst a b)) tau' n gfirst := by
  have key : ∀ x z : E, (forRange (HQS.body (f.preOp a b) (g.preOp a b) tau gfirst) n 0 ⟨x, z, 0, []⟩).map (SplitState.subst a b) =
      forRange (HQS.body f g tau' gfirst) n 0 ⟨subst a b x, subst a b z, 0, []⟩ := by
    intro x z
    have h0 : (⟨subst a b x, subst a b z, 0, []⟩ : SplitState E) = SplitState.subst a b ⟨x, z, 0, []⟩ := by
      simp [SplitState.subst]
    rw [h0]
    refine (forRange_map (J := fun _ => True) (π := SplitState.subst a b) ?_ n 0 _ trivial).1
    intro i s _
    simp only [HQS.body, hc i]
    cases hi : tau.at i with
    | error e => exact Or.inl ⟨e, rfl, rfl⟩
    | ok t =>
      have ht := hτ i t hi
      simp only [Except.map, bind, Except.bind]
      cases gfirst with
      | true =>
        simp only [if_true]
        rcases preOp_prox_cases g ha b ht s.x (s.subst a b).x rfl with ⟨e, h1, h2⟩ | ⟨z, h1, h2⟩
        · exact Or.inl ⟨e, by rw [h1], by rw [h2]⟩
        · rcases preOp_prox_cases f ha b ht z (subst a b z) rfl with ⟨e, h3, h4⟩ | ⟨x, h3, h4⟩
          · exact Or.inl ⟨e, by simp only [h1, h3], by simp only [h2, h4]⟩
          · refine Or.inr ⟨_, _, by simp only [h1, h3]; rfl, ?_, trivial⟩
            simp only [h2, h4]
            simp only [SplitState.subst, List.map_append, List.map_cons, List.map_nil, pure, Except.pure]
      | false =>
        simp only [Bool.false_eq_true, if_false]
        rcases preOp_prox_cases f ha b ht s.z (s.subst a b).z rfl with ⟨e, h1, h2⟩ | ⟨x, h1, h2⟩
        · exact Or.inl ⟨e, by rw [h1], by rw [h2]⟩
        · rcases preOp_prox_cases g ha b ht x (subst a b x) rfl with ⟨e, h3, h4⟩ | ⟨z, h3, h4⟩
          · exact Or.inl ⟨e, by simp only [h1, h3], by simp only [h2, h4]⟩
          · refine Or.inr ⟨_, _, by simp only [h1, h3]; rfl, ?_, trivial⟩
            simp only [h2, h4]
            simp only [SplitState.subst, List.map_append, List.map_cons, List.map_nil, pure, Except.pure]
  cases x0 <;> cases z0 <;> simp only [HQS, x0z0Init, Option.map, bind, Except.bind, key]
  rfl

/-- A Douglas-Rachford run in the new variable. -/
noncomputable def drSubst (a : ℝ) (b : E) (r : E × E × List (E × E)) : E × E × List (E × E) :=
  (subst a b r.1, subst a b r.2.1, r.2.2.map fun v => (subst a b v.1, subst a b v.2))

/-- The same for Douglas-Rachford. -/
theorem C103_dr_precomposition (f g : ProxOp E) (ha : a ≠ 0) (b : E) (hτ : 0 < τ) (η : ℝ) (x0 : E) (n : ℕ) (gfirst : Bool) :
    (DouglasRachford (f.preOp a b) (g.preOp a b) x0 τ η n gfirst).map (drSubst a b) =
      DouglasRachford f g (subst a b x0) (a ^ 2 * τ) η n gfirst := by
  let π : DRState E → DRState E := fun s => ⟨s.x.map (subst a b), subst a b s.y, s.log.map fun v => (subst a b v.1, subst a b v.2)⟩
  have key : (forRange (DR.body (f.preOp a b) (g.preOp a b) τ η gfirst) n 0 ⟨none, x0, []⟩).map π =
      forRange (DR.body f g (a ^ 2 * τ) η gfirst) n 0 ⟨none, subst a b x0, []⟩ := by
    refine (forRange_map (J := fun _ => True) (π := π) ?_ n 0 _ trivial).1
    intro i s _
    have one : ∀ f g : ProxOp E, (∃ e, (do
          let x ← (f.preOp a b).prox s.y τ
          let p ← (g.preOp a b).prox ((2 : ℝ) • x - s.y) τ
          let y := s.y + η • (p - x)
          pure ((⟨some x, y, s.log ++ [(x, y)]⟩ : DRState E), false)) = .error e ∧ (do
          let x ← f.prox (π s).y (a ^ 2 * τ)
          let p ← g.prox ((2 : ℝ) • x - (π s).y) (a ^ 2 * τ)
          let y := (π s).y + η • (p - x)
          pure ((⟨some x, y, (π s).log ++ [(x, y)]⟩ : DRState E), false)) = .error e) ∨ ∃ s' bk, (do
          let x ← (f.preOp a b).prox s.y τ
          let p ← (g.preOp a b).prox ((2 : ℝ) • x - s.y) τ
          let y := s.y + η • (p - x)
          pure ((⟨some x, y, s.log ++ [(x, y)]⟩ : DRState E), false)) = .ok (s', bk) ∧ (do
          let x ← f.prox (π s).y (a ^ 2 * τ)
          let p ← g.prox ((2 : ℝ) • x - (π s).y) (a ^ 2 * τ)
          let y := (π s).y + η • (p - x)
          pure ((⟨some x, y, (π s).log ++ [(x, y)]⟩ : DRState E), false)) = .ok (π s', bk) ∧ True := by
      intro f g
      rcases preOp_prox_cases f ha b hτ s.y (π s).y rfl with ⟨e, h1, h2⟩ | ⟨x, h1, h2⟩
      · exact Or.inl ⟨e, by rw [h1]; rfl, by rw [h2]; rfl⟩
      · rcases preOp_prox_cases g ha b hτ ((2 : ℝ) • x - s.y) ((2 : ℝ) • subst a b x - (π s).y) (by simp only [subst, π]; module)
          with ⟨e, h3, h4⟩ | ⟨p, h3, h4⟩
        · exact Or.inl ⟨e, by simp only [h1, bind, Except.bind, h3], by simp only [h2, bind, Except.bind, h4]⟩
        · refine Or.inr ⟨_, _, by simp only [h1, bind, Except.bind, h3]; rfl, ?_, trivial⟩
          simp only [h2, bind, Except.bind, h4]
          simp only [π, List.map_append, List.map_cons, List.map_nil, pure, Except.pure, Option.map]
          rw [show subst a b s.y + η • (subst a b p - subst a b x) = subst a b (s.y + η • (p - x)) by simp only [subst]; module]
    cases gfirst with
    | true => simp only [DR.body, if_true]; exact one g f
    | false => simp only [DR.body, Bool.false_eq_true, if_false]; exact one f g
  simp only [DouglasRachford, ← key]
  cases forRange (DR.body (f.preOp a b) (g.preOp a b) τ η gfirst) n 0 ⟨none, x0, []⟩ with
  | error e => rfl
  | ok s =>
    obtain ⟨x, y, l⟩ := s
    cases x <;> rfl

/-- A proximal point run in the new variable; the function values are the same. -/
noncomputable def PPState.subst (a : ℝ) (b : E) (s : PPState E) : PPState E := ⟨Verif.subst a b s.x, s.pf, s.log.map (Verif.subst a b)⟩

/-- The same for the proximal point algorithm. -/
theorem C103_proximalpoint_precomposition (f : ProxOp E) (ha : a ≠ 0) (b : E) (hτ : 0 < τ) (x0 : E) (n : ℕ) (tol : Option ℝ) :
    (ProximalPoint (f.preOp a b) x0 τ n tol).map (PPState.subst a b) = ProximalPoint f (subst a b x0) (a ^ 2 * τ) n tol := by
  refine (forRange_map (J := fun _ => True) (π := PPState.subst a b) ?_ n 0 ⟨x0, none, []⟩ trivial).1
  intro i s _
  simp only [ProximalPoint.body]
  rcases preOp_prox_cases f ha b hτ s.x (s.subst a b).x rfl with ⟨e, h1, h2⟩ | ⟨x, h1, h2⟩
  · exact Or.inl ⟨e, by rw [h1]; rfl, by rw [h2]; rfl⟩
  · simp only [h1, h2, bind, Except.bind, preOp_call]
    cases tol with
    | none =>
      refine Or.inr ⟨_, _, rfl, ?_, trivial⟩
      simp only [PPState.subst, List.map_append, List.map_cons, List.map_nil, pure, Except.pure]
    | some t =>
      simp only []
      cases f.call (subst a b x) with
      | error e => exact Or.inl ⟨e, rfl, rfl⟩
      | ok v =>
        simp only []
        have : (s.subst a b).pf = s.pf := rfl
        rw [this]
        cases pyRatio v.toReal s.pf with
        | error e => exact Or.inl ⟨e, rfl, rfl⟩
        | ok r =>
          refine Or.inr ⟨_, _, rfl, ?_, trivial⟩
          simp only [PPState.subst, List.map_append, List.map_cons, List.map_nil, pure, Except.pure]

lemma backtrack_subst (f g : ProxOp E) (ha : a ≠ 0) (b : E) {e β : ℝ} (he : 0 < e) (hβ : 0 < β) (x : E) :
    ∀ (n : ℕ) (t : ℝ) (z : Option E), 0 < t →
      (backtrack (f.preOp a b) (g.preOp a b) x e β n t z).map (fun r => (subst a b r.1, a ^ 2 * r.2)) =
        backtrack f g (subst a b x) e β n (a ^ 2 * t) (z.map (subst a b)) ∧
      ∀ r, backtrack (f.preOp a b) (g.preOp a b) x e β n t z = .ok r → 0 < r.2
  | 0, t, none, _ => ⟨rfl, fun r h => by cases h⟩
  | 0, t, some z, ht => ⟨rfl, fun r h => by cases h; exact ht⟩
  | n + 1, t, z, ht => by
    have ha2 : (0 : ℝ) < a ^ 2 := by positivity
    simp only [backtrack, preOp_grad, preOp_call]
    cases hg : f.grad (subst a b x) with
    | error e => exact ⟨rfl, fun r h => by cases h⟩
    | ok v =>
      simp only [Except.map, bind, Except.bind]
      rw [show e * (a ^ 2 * t) = a ^ 2 * (e * t) by ring]
      rcases preOp_prox_cases g ha b (mul_pos he ht) (x - t • a • v) (subst a b x - (a ^ 2 * t) • v) (by simp only [subst]; module)
        with ⟨e, h1, h2⟩ | ⟨w, h1, h2⟩
      · rw [h1, h2]; exact ⟨rfl, fun r h => by cases h⟩
      · rw [h1, h2]
        simp only []
        cases f.call (subst a b x) with
        | error e => exact ⟨rfl, fun r h => by cases h⟩
        | ok p =>
          simp only []
          cases f.call (subst a b w) with
          | error e => exact ⟨rfl, fun r h => by cases h⟩
          | ok q =>
            simp only []
            have h3 : p.toReal + ⟪v, subst a b w - subst a b x⟫ + 1 / (2 * (a ^ 2 * t)) * ‖subst a b w - subst a b x‖ ^ 2 =
                p.toReal + ⟪a • v, w - x⟫ + 1 / (2 * t) * ‖w - x‖ ^ 2 := by
              rw [show subst a b w - subst a b x = a • (w - x) by simp only [subst]; module, real_inner_smul_left, real_inner_smul_right, norm_smul, mul_pow,
                Real.norm_eq_abs, sq_abs]
              field_simp
            rw [h3]
            by_cases h4 : q.toReal ≤ p.toReal + ⟪a • v, w - x⟫ + 1 / (2 * t) * ‖w - x‖ ^ 2
            · rw [if_pos h4, if_pos h4]
              exact ⟨rfl, fun r h => by cases h; exact ht⟩
            · rw [if_neg h4, if_neg h4]
              have := backtrack_subst f g ha b he hβ x n (t * β) (some w) (mul_pos ht hβ)
              rw [show a ^ 2 * t * β = a ^ 2 * (t * β) by ring]
              exact this

/-- A run of the proximal gradient algorithm in the new variable. -/
noncomputable def PGState.subst (a : ℝ) (b : E) (s : PGState E) : PGState E :=
  ⟨Verif.subst a b s.x, Verif.subst a b s.y, s.t, a ^ 2 * s.tau, s.pfg, s.log.map (Verif.subst a b)⟩

lemma pgStep_subst (f g : ProxOp E) (ha : a ≠ 0) (b : E) (args : PGArgs) (bt : Bool) (hβ : bt = true → 0 < args.β) {e : ℝ} (he : 0 < e) (s : PGState E)
    (hs : 0 < s.tau) :
    (PG.step (f.preOp a b) (g.preOp a b) args bt e s).map (fun r => (subst a b r.1, a ^ 2 * r.2)) = PG.step f g args bt e (s.subst a b) ∧
      ∀ r, PG.step (f.preOp a b) (g.preOp a b) args bt e s = .ok r → 0 < r.2 := by
  have key : ∀ (y : E) (t : ℝ), 0 < t → ∀ v : E, (∃ er, (g.preOp a b).prox (y - t • a • v) (e * t) = .error er ∧
      g.prox (subst a b y - (a ^ 2 * t) • v) (e * (a ^ 2 * t)) = .error er) ∨ ∃ w, (g.preOp a b).prox (y - t • a • v) (e * t) = .ok w ∧
      g.prox (subst a b y - (a ^ 2 * t) • v) (e * (a ^ 2 * t)) = .ok (subst a b w) := by
    intro y t ht v
    rw [show e * (a ^ 2 * t) = a ^ 2 * (e * t) by ring]
    exact preOp_prox_cases g ha b (mul_pos he ht) _ _ (by simp only [subst]; module)
  have relax : ∀ x p : E, subst a b x + args.eta • (subst a b p - subst a b x) = subst a b (x + args.eta • (p - x)) := by
    intro x p; simp only [subst]; module
  simp only [PG.step, PGState.subst]
  cases bt with
  | true =>
    obtain ⟨h1, h2⟩ := backtrack_subst f g ha b he (hβ rfl) s.y args.niterback s.tau none hs
    simp only [Option.map] at h1
    simp only [if_true, ← h1]
    cases hb : backtrack (f.preOp a b) (g.preOp a b) s.y e args.β args.niterback s.tau none with
    | error e => exact ⟨rfl, fun r h => by cases h⟩
    | ok r =>
      obtain ⟨x, t⟩ := r
      have ht : 0 < t := h2 _ hb
      simp only [Except.map, bind, Except.bind]
      by_cases hη : args.eta = 1
      · simp only [hη, if_true]
        exact ⟨rfl, fun r h => by cases h; exact ht⟩
      · simp only [hη, if_false, preOp_grad]
        cases f.grad (subst a b x) with
        | error e => exact ⟨rfl, fun r h => by cases h⟩
        | ok v =>
          simp only [Except.map]
          rcases key x t ht v with ⟨er, h3, h4⟩ | ⟨w, h3, h4⟩
          · rw [h3, h4]; exact ⟨rfl, fun r h => by cases h⟩
          · rw [h3, h4]
            refine ⟨?_, fun r h => by cases h; exact ht⟩
            simp only [pure, Except.pure, relax]
  | false =>
    simp only [Bool.false_eq_true, if_false]
    by_cases hη : args.eta = 1
    · simp only [hη, if_true, preOp_grad]
      cases f.grad (subst a b s.y) with
      | error e => exact ⟨rfl, fun r h => by cases h⟩
      | ok v =>
        simp only [Except.map, bind, Except.bind]
        rcases key s.y s.tau hs v with ⟨er, h3, h4⟩ | ⟨w, h3, h4⟩
        · rw [h3, h4]; exact ⟨rfl, fun r h => by cases h⟩
        · rw [h3, h4]; exact ⟨rfl, fun r h => by cases h; exact hs⟩
    · simp only [hη, if_false, preOp_grad]
      cases f.grad (subst a b s.x) with
      | error e => exact ⟨rfl, fun r h => by cases h⟩
      | ok v =>
        simp only [Except.map, bind, Except.bind]
        rcases key s.x s.tau hs v with ⟨er, h3, h4⟩ | ⟨w, h3, h4⟩
        · rw [h3, h4]; exact ⟨rfl, fun r h => by cases h⟩
        · rw [h3, h4]
          refine ⟨?_, fun r h => by cases h; exact hs⟩
          simp only [pure, Except.pure, relax]

/-- The same for the proximal gradient algorithm in all its variants. -/
theorem C103_proximalgradient_precomposition (f g : ProxOp E) (ha : a ≠ 0) (b : E) (hτ : 0 < τ) (x0 : E) (args : PGArgs)
    (hβ : args.backtracking = true → 0 < args.β) (he : ∀ i e, args.epsg.at i = .ok e → 0 < e) :
    (ProximalGradient (f.preOp a b) (g.preOp a b) x0 { args with tau := some τ }).map (PGState.subst a b) =
      ProximalGradient f g (subst a b x0) { args with tau := some (a ^ 2 * τ) } := by
  simp only [ProximalGradient]
  cases args.epsg.printCheck args.niter with
  | error e => rfl
  | ok u =>
    simp only [bind, Except.bind]
    by_cases ho : args.acceleration = .other
    · simp only [ho, if_true]; rfl
    · simp only [ho, if_false]
      have hini : (⟨subst a b x0, subst a b x0, 1, a ^ 2 * τ, none, []⟩ : PGState E) = PGState.subst a b ⟨x0, x0, 1, τ, none, []⟩ := rfl
      rw [hini]
      refine (forRange_map (J := fun s => 0 < s.tau) (π := PGState.subst a b) ?_ args.niter 0 _ hτ).1
      intro i s hs
      simp only [PG.body]
      cases hei : args.epsg.at i with
      | error e => exact Or.inl ⟨e, rfl, rfl⟩
      | ok e =>
        simp only [bind, Except.bind]
        obtain ⟨h1, h2⟩ := pgStep_subst f g ha b { args with tau := some τ } args.backtracking hβ (he i e hei) s hs
        have h3 : PG.step f g { args with tau := some (a ^ 2 * τ) } args.backtracking e (s.subst a b) =
          PG.step f g { args with tau := some τ } args.backtracking e (s.subst a b) := rfl
        rw [h3, ← h1]
        cases hst : PG.step (f.preOp a b) (g.preOp a b) { args with tau := some τ } args.backtracking e s with
        | error e => exact Or.inl ⟨e, rfl, rfl⟩
        | ok r =>
          have hr := h2 r hst
          obtain ⟨x, t⟩ := r
          simp only [Except.map]
          have hy : subst a b x + (momentum args.acceleration i s.t).1 • (subst a b x - subst a b s.x) =
            subst a b (x + (momentum args.acceleration i s.t).1 • (x - s.x)) := by simp only [subst]; module
          cases args.tol with
          | none =>
            refine Or.inr ⟨_, _, rfl, ?_, hr⟩
            simp only [PGState.subst, List.map_append, List.map_cons, List.map_nil, pure, Except.pure, hy]
          | some tol =>
            simp only [preOp_call]
            cases f.call (subst a b x) with
            | error e => exact Or.inl ⟨e, rfl, rfl⟩
            | ok p =>
              simp only []
              cases g.call (subst a b x) with
              | error e => exact Or.inl ⟨e, rfl, rfl⟩
              | ok q =>
                refine Or.inr ⟨_, _, rfl, ?_, hr⟩
                simp only [PGState.subst, List.map_append, List.map_cons, List.map_nil, pure, Except.pure, hy]

/-- A consensus ADMM run in the new variable. -/
noncomputable def ConsState.subst {m : ℕ} (a : ℝ) (b : E) (s : ConsState E m) : ConsState E m :=
  ⟨Verif.subst a b s.xbar, Verif.subst a b s.xold, fun i => Verif.subst a b (s.x i), fun i => a • s.y i, s.log.map (Verif.subst a b)⟩

lemma mapPy_cases {α β : Type} (T : α → β) : ∀ {m : ℕ} (h : Fin m → Py α) (k : Fin m → Py β),
    (∀ i, (∃ e, h i = .error e ∧ k i = .error e) ∨ ∃ v, h i = .ok v ∧ k i = .ok (T v)) →
    (∃ e, mapPy h = .error e ∧ mapPy k = .error e) ∨ ∃ v, mapPy h = .ok v ∧ mapPy k = .ok (fun i => T (v i))
  | 0, h, k, _ => Or.inr ⟨Fin.elim0, rfl, by simp only [mapPy]; congr 1; exact Subsingleton.elim _ _⟩
  | m + 1, h, k, hk => by
    rcases hk 0 with ⟨e, h1, h2⟩ | ⟨v, h1, h2⟩
    · exact Or.inl ⟨e, by simp only [mapPy, h1], by simp only [mapPy, h2]⟩
    · rcases mapPy_cases T (fun i => h i.succ) (fun i => k i.succ) (fun i => hk i.succ) with ⟨e, h3, h4⟩ | ⟨w, h3, h4⟩
      · exact Or.inl ⟨e, by simp only [mapPy, h1, h3], by simp only [mapPy, h2, h4]⟩
      · refine Or.inr ⟨Fin.cons v w, by simp only [mapPy, h1, h3], ?_⟩
        simp only [mapPy, h2, h4]
        congr 1
        funext i
        refine Fin.cases ?_ (fun j => ?_) i <;> simp

/-- The same for the consensus ADMM; the tolerance is multiplied by `|a|`. -/
theorem C103_consensus_precomposition {m : ℕ} (fs : Fin m → ProxOp E) (ha : a ≠ 0) (b : E) (hτ : 0 < τ) (x0 : E) (n : ℕ) (tol : ℝ) (mx : E → ℝ)
    (hmx : ∀ v, mx (a • v) = |a| * mx v) :
    (ConsensusADMM (fun i => (fs i).preOp a b) x0 τ n tol mx).map (ConsState.subst a b) =
      ConsensusADMM fs (subst a b x0) (a ^ 2 * τ) n (|a| * tol) mx := by
  unfold ConsensusADMM
  have hini : (⟨subst a b x0, subst a b x0, fun _ => subst a b x0, fun _ => 0, []⟩ : ConsState E m) =
      ConsState.subst a b ⟨x0, x0, fun _ => x0, fun _ => 0, []⟩ := by
    simp [ConsState.subst]
  rw [hini]
  refine (forRange_map (J := fun _ => True) (π := ConsState.subst a b) ?_ n 0 _ trivial).1
  intro i s _
  simp only [ConsensusADMM.body]
  rcases mapPy_cases (subst a b) (fun i => ((fs i).preOp a b).prox (s.xbar - s.y i) τ)
    (fun i => (fs i).prox ((s.subst a b).xbar - (s.subst a b).y i) (a ^ 2 * τ))
    (fun i => preOp_prox_cases (fs i) ha b hτ _ _ (by simp only [subst, ConsState.subst]; module)) with ⟨e, h1, h2⟩ | ⟨v, h1, h2⟩
  · exact Or.inl ⟨e, by rw [h1]; rfl, by rw [h2]; rfl⟩
  · rw [h1, h2]
    simp only [bind, Except.bind]
    by_cases hm : m = 0
    · simp only [hm, if_true]
      exact Or.inl ⟨_, rfl, rfl⟩
    · simp only [hm, if_false]
      have hm' : (m : ℝ) ≠ 0 := Nat.cast_ne_zero.mpr hm
      have hmean : (1 / (m : ℝ)) • ∑ i, subst a b (v i) = subst a b ((1 / (m : ℝ)) • ∑ i, v i) := by
        simp only [subst, Finset.sum_add_distrib, ← Finset.smul_sum, Finset.sum_const, Finset.card_univ, Fintype.card_fin, smul_add, ← Nat.cast_smul_eq_nsmul ℝ,
          smul_smul, one_div_mul_cancel hm', one_smul, mul_comm]
      rw [hmean]
      set xb := (1 / (m : ℝ)) • ∑ i, v i with hxb
      clear_value xb
      have hd : subst a b xb - (s.subst a b).xold = a • (xb - s.xold) := by simp only [subst, ConsState.subst]; module
      have hy : (fun i => (s.subst a b).y i + subst a b (v i) - subst a b xb) = fun i => a • (s.y i + v i - xb) := by
        funext i; simp only [subst, ConsState.subst]; module
      rw [hd, hmx, hy]
      simp only [mul_lt_mul_iff_right₀ (abs_pos.mpr ha)]
      by_cases ht : mx (xb - s.xold) < tol
      · simp only [ht, if_true]
        refine Or.inr ⟨_, _, rfl, ?_, trivial⟩
        simp only [ConsState.subst, List.map_append, List.map_cons, List.map_nil, pure, Except.pure]
      · simp only [ht, if_false]
        refine Or.inr ⟨_, _, rfl, ?_, trivial⟩
        simp only [ConsState.subst, List.map_append, List.map_cons, List.map_nil, pure, Except.pure]

/-- A PPXA run in the new variable. -/
noncomputable def PPXAState.subst {m : ℕ} (a : ℝ) (b : E) (s : PPXAState E m) : PPXAState E m :=
  ⟨Verif.subst a b s.x, Verif.subst a b s.xold, fun i => Verif.subst a b (s.y i), s.log.map (Verif.subst a b)⟩

lemma subst_sum {m : ℕ} {w : Fin m → ℝ} (hw : ∑ i, w i = 1) (v : Fin m → E) : ∑ i, w i • subst a b (v i) = subst a b (∑ i, w i • v i) := by
  simp only [subst, smul_add, Finset.sum_add_distrib, ← Finset.sum_smul, hw, one_smul, Finset.smul_sum, smul_comm a]

/-- The same for PPXA with positive weights that sum to one. -/
theorem C103_ppxa_precomposition {m : ℕ} (fs : Fin m → ProxOp E) (w : Option (Fin m → ℝ)) (hw : ∀ v, w = some v → (∀ i, 0 < v i) ∧ ∑ i, v i = 1)
    (ha : a ≠ 0) (b : E) (hτ : 0 < τ) (y0 : Fin m → E) (η : ℝ) (n : ℕ) (tol : ℝ) (mx : E → ℝ) (hmx : ∀ v, mx (a • v) = |a| * mx v) :
    (PPXA (fun i => (fs i).preOp a b) w y0 τ η n tol mx).map (PPXAState.subst a b) =
      PPXA fs w (fun i => subst a b (y0 i)) (a ^ 2 * τ) η n (|a| * tol) mx := by
  simp only [PPXA]
  split_ifs with hm
  · rfl
  have hm' : (m : ℝ) ≠ 0 := Nat.cast_ne_zero.mpr hm
  have hmpos : 0 < (m : ℝ) := by positivity
  have hmean : (1 / (m : ℝ)) • ∑ i, subst a b (y0 i) = subst a b ((1 / (m : ℝ)) • ∑ i, y0 i) := by
    rw [Finset.smul_sum, Finset.smul_sum]
    exact subst_sum (by simp [hm']) y0
  rw [hmean]
  have key : ∀ v : Fin m → ℝ, (∀ i, 0 < v i) → ∑ i, v i = 1 → ∀ x : E,
      (forRange (PPXA.body (fun i => (fs i).preOp a b) v τ η tol mx) n 0 ⟨x, x, y0, []⟩).map (PPXAState.subst a b) =
        forRange (PPXA.body fs v (a ^ 2 * τ) η (|a| * tol) mx) n 0 ⟨subst a b x, subst a b x, fun i => subst a b (y0 i), []⟩ := by
    intro v hv hs x
    have hini : (⟨subst a b x, subst a b x, fun i => subst a b (y0 i), []⟩ : PPXAState E m) = PPXAState.subst a b ⟨x, x, y0, []⟩ := rfl
    rw [hini]
    refine (forRange_map (J := fun _ => True) (π := PPXAState.subst a b) ?_ n 0 _ trivial).1
    intro i s _
    have hv' : ∀ j, ¬ v j = 0 := fun j => (hv j).ne'
    simp only [PPXA.body, hv', if_false, mul_div_assoc]
    rcases mapPy_cases (subst a b) (fun i => ((fs i).preOp a b).prox (s.y i) (τ / v i))
      (fun i => (fs i).prox ((s.subst a b).y i) (a ^ 2 * (τ / v i)))
      (fun i => preOp_prox_cases (fs i) ha b (div_pos hτ (hv i)) _ _ rfl) with ⟨e, h1, h2⟩ | ⟨p, h1, h2⟩
    · exact Or.inl ⟨e, by rw [h1]; rfl, by rw [h2]; rfl⟩
    · rw [h1, h2]
      simp only [bind, Except.bind, subst_sum hs]
      set pn := ∑ i, v i • p i with hpn
      clear_value pn
      have hx : (s.subst a b).x + η • (subst a b pn - (s.subst a b).x) = subst a b (s.x + η • (pn - s.x)) := by
        simp only [subst, PPXAState.subst]; module
      have hy : (fun i => (s.subst a b).y i + η • ((2 : ℝ) • subst a b pn - (s.subst a b).x - subst a b (p i))) =
          fun i => subst a b (s.y i + η • ((2 : ℝ) • pn - s.x - p i)) := by
        funext i; simp only [subst, PPXAState.subst]; module
      rw [hx, hy]
      have hd : ∀ q : E, subst a b q - (s.subst a b).xold = a • (q - s.xold) := by intro q; simp only [subst, PPXAState.subst]; module
      rw [hd, hmx]
      simp only [mul_lt_mul_iff_right₀ (abs_pos.mpr ha)]
      by_cases ht : mx (s.x + η • (pn - s.x) - s.xold) < tol
      · simp only [ht, if_true]
        refine Or.inr ⟨_, _, rfl, ?_, trivial⟩
        simp only [PPXAState.subst, List.map_append, List.map_cons, List.map_nil, pure, Except.pure]
      · simp only [ht, if_false]
        refine Or.inr ⟨_, _, rfl, ?_, trivial⟩
        simp only [PPXAState.subst, List.map_append, List.map_cons, List.map_nil, pure, Except.pure]
  cases w with
  | none => exact key _ (fun _ => by positivity) (by simp [hm']) _
  | some v => exact key v (hw v rfl).1 (hw v rfl).2 _

/-- A run of the generalised proximal gradient algorithm in the new variable. -/
noncomputable def GPGState.subst {m : ℕ} (a : ℝ) (b : E) (s : GPGState E m) : GPGState E m :=
  ⟨Verif.subst a b s.x, Verif.subst a b s.y, s.t, fun i => Verif.subst a b (s.zs i), s.log.map (Verif.subst a b)⟩

lemma getD_sum {m : ℕ} : ∀ {ws : List ℝ}, ws.length = m → ∑ j : Fin m, ws.getD j 0 = ws.sum := by
  intro ws h
  subst h
  rw [← Fin.sum_univ_getElem ws]
  refine Finset.sum_congr rfl fun j _ => ?_
  simp

/-- The proximal step of one of the functions `g_j` in the loop. -/
noncomputable def gpgAt {m : ℕ} (gs : Fin m → ProxOp E) (w : Fin m → ℝ) (eps : StepSpec) (t : ℝ) (v : Fin m → E) (j : Fin m) : Py E := do
  let e ← eps.at j
  if w j = 0 then .error .nanResult else (gs j).prox (v j) (t * e / w j)

/-- The state after an iteration, from the results of the proximal steps. -/
noncomputable def gpgNext {m : ℕ} (w : Fin m → ℝ) (η : ℝ) (acc : Accel) (i : ℕ) (s : GPGState E m) (p : Fin m → E) : GPGState E m :=
  ⟨∑ j, w j • (s.zs j + η • (p j - s.y)),
    ∑ j, w j • (s.zs j + η • (p j - s.y)) + (momentum acc i s.t).1 • (∑ j, w j • (s.zs j + η • (p j - s.y)) - s.x), (momentum acc i s.t).2,
    fun j => s.zs j + η • (p j - s.y), s.log ++ [∑ j, w j • (s.zs j + η • (p j - s.y))]⟩

lemma gpg_body_eq {l m : ℕ} (fs : Fin l → ProxOp E) (gs : Fin m → ProxOp E) (w : Fin m → ℝ) (eps : StepSpec) (t η : ℝ) (acc : Accel) (i : ℕ) (s : GPGState E m) :
    GPG.body fs gs w eps t η acc i s = Except.bind (mapPy fun j => (fs j).grad s.x) fun gr =>
      Except.bind (mapPy (gpgAt gs w eps t fun j => (2 : ℝ) • s.y - s.zs j - t • ∑ j, gr j)) fun p => .ok (gpgNext w η acc i s p, false) := rfl

/-- The scaled problem for the generalised proximal gradient algorithm, with positive weights and multipliers. -/
theorem C103_generalized_pg_scale {l m : ℕ} (fs : Fin l → ProxOp E) (gs : Fin m → ProxOp E) (c : ℝ) (hτ : 0 < τ) (x0 : E) (eps : StepSpec)
    (he : ∀ j e, eps.at j = .ok e → 0 < e) (ws : List ℝ) (hw : ∀ j : Fin m, 0 < ws.getD j 0) (η : ℝ) (n : ℕ) (acc : Accel) :
    GeneralizedProximalGradient (fun i => (fs i).postOp c) (fun i => (gs i).postOp c) x0 (some τ) eps (some ws) η n acc =
      GeneralizedProximalGradient fs gs x0 (some (c * τ)) eps (some ws) η n acc := by
  have key : GPG.body (fun i => (fs i).postOp c) (fun i => (gs i).postOp c) (fun j : Fin m => ws.getD j 0) eps τ η acc =
      GPG.body fs gs (fun j : Fin m => ws.getD j 0) eps (c * τ) η acc := by
    funext i s
    simp only [gpg_body_eq, postOp_grad]
    rcases mapPy_cases (c • · : E → E) (fun j => (fs j).grad s.x) (fun j => ((fs j).grad s.x).map (c • ·))
      (fun j => by cases (fs j).grad s.x with
        | error e => exact Or.inl ⟨e, rfl, rfl⟩
        | ok v => exact Or.inr ⟨v, rfl, rfl⟩) with ⟨e, h1, h2⟩ | ⟨v, h1, h2⟩
    · rw [h1, h2]; rfl
    · rw [h1, h2]
      simp only [Except.bind, ← Finset.smul_sum]
      have : gpgAt (fun i => (gs i).postOp c) (fun j : Fin m => ws.getD j 0) eps τ (fun j => (2 : ℝ) • s.y - s.zs j - τ • c • ∑ j, v j) =
          gpgAt gs (fun j : Fin m => ws.getD j 0) eps (c * τ) (fun j => (2 : ℝ) • s.y - s.zs j - (c * τ) • ∑ j, v j) := by
        funext j
        simp only [gpgAt, (hw j).ne', if_false]
        cases hj : eps.at j with
        | error e => rfl
        | ok e =>
          simp only [bind, Except.bind]
          rw [postOp_prox _ c (div_pos (mul_pos hτ (he j e hj)) (hw j)), smul_smul, mul_comm τ c, show c * (τ * e / ws.getD j 0) = c * τ * e / ws.getD j 0 by ring]
      rw [this]
  simp only [GeneralizedProximalGradient, Option.getD_some, key]

/-- The change of variables for the generalised proximal gradient algorithm. -/
theorem C103_generalized_pg_precomposition {l m : ℕ} (fs : Fin l → ProxOp E) (gs : Fin m → ProxOp E) (ha : a ≠ 0) (b : E) (hτ : 0 < τ) (x0 : E)
    (eps : StepSpec) (he : ∀ j e, eps.at j = .ok e → 0 < e) (ws : List ℝ) (hw : ∀ j : Fin m, 0 < ws.getD j 0) (η : ℝ) (n : ℕ) (acc : Accel) :
    (GeneralizedProximalGradient (fun i => (fs i).preOp a b) (fun i => (gs i).preOp a b) x0 (some τ) eps (some ws) η n acc).map (GPGState.subst a b) =
      GeneralizedProximalGradient fs gs (subst a b x0) (some (a ^ 2 * τ)) eps (some ws) η n acc := by
  simp only [GeneralizedProximalGradient, Option.getD_some]
  split_ifs with h1 h2
  · rfl
  · rfl
  push Not at h1
  have hs : ∑ j : Fin m, ws.getD j 0 = 1 := by rw [getD_sum h1.1, h1.2]
  have hini : (⟨subst a b x0, subst a b x0, 1, fun _ => subst a b x0, []⟩ : GPGState E m) = GPGState.subst a b ⟨x0, x0, 1, fun _ => x0, []⟩ := rfl
  rw [hini]
  refine (forRange_map (J := fun _ => True) (π := GPGState.subst a b) ?_ n 0 _ trivial).1
  intro i s _
  simp only [gpg_body_eq, preOp_grad]
  have hx : (s.subst a b).x = subst a b s.x := rfl
  rw [hx]
  rcases mapPy_cases (a • · : E → E) (fun j => (fs j).grad (subst a b s.x)) (fun j => ((fs j).grad (subst a b s.x)).map (a • ·))
    (fun j => by cases (fs j).grad (subst a b s.x) with
      | error e => exact Or.inl ⟨e, rfl, rfl⟩
      | ok v => exact Or.inr ⟨v, rfl, rfl⟩) with ⟨e, h3, h4⟩ | ⟨v, h3, h4⟩
  · rw [h3, h4]; exact Or.inl ⟨e, rfl, rfl⟩
  · rw [h3, h4]
    simp only [Except.bind, ← Finset.smul_sum]
    set G := ∑ i, v i with hG
    clear_value G
    rcases mapPy_cases (subst a b) (gpgAt (fun i => (gs i).preOp a b) (fun j : Fin m => ws.getD j 0) eps τ (fun j => (2 : ℝ) • s.y - s.zs j - τ • a • G))
      (gpgAt gs (fun j : Fin m => ws.getD j 0) eps (a ^ 2 * τ) (fun j => (2 : ℝ) • (s.subst a b).y - (s.subst a b).zs j - (a ^ 2 * τ) • G))
      (fun j => by
        simp only [gpgAt, (hw j).ne', if_false]
        cases hj : eps.at j with
        | error e => exact Or.inl ⟨e, rfl, rfl⟩
        | ok e =>
          simp only [bind, Except.bind]
          rw [show a ^ 2 * τ * e / ws.getD j 0 = a ^ 2 * (τ * e / ws.getD j 0) by ring]
          exact preOp_prox_cases (gs j) ha b (div_pos (mul_pos hτ (he j e hj)) (hw j)) _ _ (by simp only [subst, GPGState.subst]; module))
      with ⟨e, h5, h6⟩ | ⟨p, h5, h6⟩
    · rw [h5, h6]; exact Or.inl ⟨e, rfl, rfl⟩
    · rw [h5, h6]
      refine Or.inr ⟨_, _, rfl, ?_, trivial⟩
      have hz : ∀ j, (s.subst a b).zs j + η • (subst a b (p j) - (s.subst a b).y) = subst a b (s.zs j + η • (p j - s.y)) := by
        intro j; simp only [subst, GPGState.subst]; module
      have hX : ∀ X : E, subst a b X + (momentum acc i s.t).1 • (subst a b X - subst a b s.x) = subst a b (X + (momentum acc i s.t).1 • (X - s.x)) := by
        intro X; simp only [subst]; module
      simp only [gpgNext, hz, subst_sum hs]
      simp only [GPGState.subst, List.map_append, List.map_cons, List.map_nil, hX]

/-! ## The order of the list of functions does not matter -/

lemma forRange_push {S S' : Type} {b1 : ℕ → S → Py (S × Bool)} {b2 : ℕ → S' → Py (S' × Bool)} {π : S → S'}
    (h : ∀ i s s' bk, b1 i s = .ok (s', bk) → b2 i (π s) = .ok (π s', bk)) :
    ∀ n i s r, forRange b1 n i s = .ok r → forRange b2 n i (π s) = .ok (π r)
  | 0, _, s, r, hr => by
    simp only [forRange] at hr ⊢
    cases hr; rfl
  | n + 1, i, s, r, hr => by
    simp only [forRange] at hr ⊢
    cases hb : b1 i s with
    | error e => rw [hb] at hr; cases hr
    | ok q =>
      obtain ⟨s', bk⟩ := q
      rw [hb] at hr
      rw [h i s s' bk hb]
      cases bk with
      | true => simp only [if_true] at hr ⊢; cases hr; rfl
      | false => simp only [Bool.false_eq_true, if_false] at hr ⊢; exact forRange_push h n (i + 1) s' r hr

lemma mapPy_perm {α : Type} {m : ℕ} {h : Fin m → Py α} {v : Fin m → α} (σ : Equiv.Perm (Fin m)) (hv : mapPy h = .ok v) :
    mapPy (fun i => h (σ i)) = .ok (fun i => v (σ i)) :=
  mapPy_ok fun i => mapPy_inv hv (σ i)

/-- Giving PPXA the functions (with their weights and starting points) in another order changes nothing: the same iterates, the same stop. -/
theorem C103_ppxa_order {m : ℕ} (fs : Fin m → ProxOp E) (w : Option (Fin m → ℝ)) (y0 : Fin m → E) (τ η : ℝ) (n : ℕ) (tol : ℝ) (mx : E → ℝ)
    (σ : Equiv.Perm (Fin m)) {s : PPXAState E m} (hs : PPXA fs w y0 τ η n tol mx = .ok s) :
    PPXA (fun i => fs (σ i)) (w.map fun v i => v (σ i)) (fun i => y0 (σ i)) τ η n tol mx = .ok ⟨s.x, s.xold, fun i => s.y (σ i), s.log⟩ := by
  simp only [PPXA] at hs ⊢
  split_ifs at hs ⊢ with hm
  rw [Equiv.sum_comp σ y0]
  have key : ∀ v : Fin m → ℝ, ∀ i s s' bk, PPXA.body fs v τ η tol mx i s = .ok (s', bk) →
      PPXA.body (fun i => fs (σ i)) (fun i => v (σ i)) τ η tol mx i ⟨s.x, s.xold, fun i => s.y (σ i), s.log⟩ =
        .ok (⟨s'.x, s'.xold, fun i => s'.y (σ i), s'.log⟩, bk) := by
    intro v i s s' bk h
    simp only [PPXA.body] at h ⊢
    cases hp : mapPy (fun i => if v i = 0 then (.error .nanResult : Py E) else (fs i).prox (s.y i) (τ / v i)) with
    | error e => rw [hp] at h; cases h
    | ok p =>
      rw [hp] at h
      rw [mapPy_perm σ hp]
      simp only [bind, Except.bind, Equiv.sum_comp σ fun i => v i • p i] at h ⊢
      split_ifs at h ⊢ with h1
      · cases h; rfl
      · cases h; rfl
  cases w with
  | none =>
    exact forRange_push (π := fun s : PPXAState E m => (⟨s.x, s.xold, fun i => s.y (σ i), s.log⟩ : PPXAState E m)) (key fun _ => 1 / (m : ℝ)) n 0 _ s hs
  | some v =>
    exact forRange_push (π := fun s : PPXAState E m => (⟨s.x, s.xold, fun i => s.y (σ i), s.log⟩ : PPXAState E m)) (key v) n 0 _ s hs

/-- The same for the consensus ADMM. -/
theorem C103_consensus_order {m : ℕ} (fs : Fin m → ProxOp E) (x0 : E) (τ : ℝ) (n : ℕ) (tol : ℝ) (mx : E → ℝ) (σ : Equiv.Perm (Fin m))
    {s : ConsState E m} (hs : ConsensusADMM fs x0 τ n tol mx = .ok s) :
    ConsensusADMM (fun i => fs (σ i)) x0 τ n tol mx = .ok ⟨s.xbar, s.xold, fun i => s.x (σ i), fun i => s.y (σ i), s.log⟩ := by
  refine forRange_push (π := fun s : ConsState E m => (⟨s.xbar, s.xold, fun i => s.x (σ i), fun i => s.y (σ i), s.log⟩ : ConsState E m)) ?_ n 0 _ s hs
  intro i s s' bk h
  simp only [ConsensusADMM.body] at h ⊢
  cases hp : mapPy (fun i => (fs i).prox (s.xbar - s.y i) τ) with
  | error e => rw [hp] at h; cases h
  | ok p =>
    rw [hp] at h
    rw [mapPy_perm σ hp]
    simp only [bind, Except.bind, Equiv.sum_comp σ p] at h ⊢
    split_ifs at h ⊢ with h0 h1
    · cases h; rfl
    · cases h; rfl

lemma ofFn_getD {m : ℕ} (w : Fin m → ℝ) (j : Fin m) : (List.ofFn w).getD j 0 = w j := by
  simp [List.getD_eq_getElem?_getD]

/-- The same for the generalised proximal gradient algorithm: the smooth functions in any order, the others in any order with their weights and multipliers. -/
theorem C103_generalized_pg_order {l m : ℕ} (fs : Fin l → ProxOp E) (gs : Fin m → ProxOp E) (x0 : E) (tau : Option ℝ) (eps eps' : StepSpec)
    (w : Option (Fin m → ℝ)) (η : ℝ) (n : ℕ) (acc : Accel) (ρ : Equiv.Perm (Fin l)) (σ : Equiv.Perm (Fin m)) (he : ∀ j : Fin m, eps'.at j = eps.at (σ j))
    {s : GPGState E m} (hs : GeneralizedProximalGradient fs gs x0 tau eps (w.map List.ofFn) η n acc = .ok s) :
    GeneralizedProximalGradient (fun i => fs (ρ i)) (fun i => gs (σ i)) x0 tau eps' (w.map fun v => List.ofFn fun i => v (σ i)) η n acc =
      .ok ⟨s.x, s.y, s.t, fun i => s.zs (σ i), s.log⟩ := by
  have key : ∀ v v' : Fin m → ℝ, (∀ j, v' j = v (σ j)) → ∀ i s s' bk, GPG.body fs gs v eps (tau.getD 1) η acc i s = .ok (s', bk) →
      GPG.body (fun i => fs (ρ i)) (fun i => gs (σ i)) v' eps' (tau.getD 1) η acc i ⟨s.x, s.y, s.t, fun i => s.zs (σ i), s.log⟩ =
        .ok (⟨s'.x, s'.y, s'.t, fun i => s'.zs (σ i), s'.log⟩, bk) := by
    intro v v' hv' i s s' bk h
    simp only [gpg_body_eq] at h ⊢
    cases hg : mapPy (fun j => (fs j).grad s.x) with
    | error e => rw [hg] at h; cases h
    | ok gr =>
      rw [hg] at h
      rw [mapPy_perm ρ hg]
      simp only [Except.bind, Equiv.sum_comp ρ gr] at h ⊢
      have hat : gpgAt (fun i => gs (σ i)) v' eps' (tau.getD 1) (fun j => (2 : ℝ) • s.y - s.zs (σ j) - tau.getD 1 • ∑ j, gr j) =
          fun j => gpgAt gs v eps (tau.getD 1) (fun j => (2 : ℝ) • s.y - s.zs j - tau.getD 1 • ∑ j, gr j) (σ j) := by
        funext j
        simp only [gpgAt, he, hv']
      rw [hat]
      cases hp : mapPy (gpgAt gs v eps (tau.getD 1) (fun j => (2 : ℝ) • s.y - s.zs j - tau.getD 1 • ∑ j, gr j)) with
      | error e => rw [hp] at h; cases h
      | ok p =>
        rw [hp] at h
        rw [mapPy_perm σ hp]
        cases h
        simp only [gpgNext, hv']
        rw [Equiv.sum_comp σ fun j => v j • (s.zs j + η • (p j - s.y))]
  simp only [GeneralizedProximalGradient] at hs ⊢
  cases w with
  | none =>
    simp only [Option.map] at hs ⊢
    split_ifs at hs ⊢ with h1 h2
    refine forRange_push (π := fun s : GPGState E m => (⟨s.x, s.y, s.t, fun i => s.zs (σ i), s.log⟩ : GPGState E m)) (key _ _ ?_) n 0 _ s hs
    intro j
    have hl : ∀ j : Fin m, (List.replicate m (1 / (m : ℝ))).getD j 0 = 1 / (m : ℝ) := by
      intro j; simp [List.getD_eq_getElem?_getD]
    rw [hl, hl]
  | some v =>
    simp only [Option.map] at hs ⊢
    have h3 : (List.ofFn fun i => v (σ i)).length = m ∧ (List.ofFn fun i => v (σ i)).sum = (List.ofFn v).sum :=
      ⟨by simp, by rw [List.sum_ofFn, List.sum_ofFn, Equiv.sum_comp σ v]⟩
    have h4 : (List.ofFn v).length = m := by simp
    rw [h3.1, h3.2]
    rw [h4] at hs
    split_ifs at hs ⊢ with h1 h2
    refine forRange_push (π := fun s : GPGState E m => (⟨s.x, s.y, s.t, fun i => s.zs (σ i), s.log⟩ : GPGState E m)) (key _ _ ?_) n 0 _ s hs
    intro j
    rw [ofFn_getD, ofFn_getD]

/-- The same for `parallel_dykstra_prox`, which computes the proximal operator of a `Sum` of three functions or more. -/
theorem C103_dykstra_order {m : ℕ} (x0 : E) (proxs : Fin m → E → ℝ → Py E) (w taus : Fin m → ℝ) (n : ℕ) (tol : ℝ) (mx : E → ℝ) (σ : Equiv.Perm (Fin m))
    {s : ParState E m} (hs : parallelDykstraProx x0 proxs (List.ofFn w) (List.ofFn taus) n tol mx = .ok s) :
    parallelDykstraProx x0 (fun i => proxs (σ i)) (List.ofFn fun i => w (σ i)) (List.ofFn fun i => taus (σ i)) n tol mx =
      .ok ⟨s.x, fun i => s.z (σ i), s.pz.map fun v i => v (σ i)⟩ := by
  have hsum : (List.ofFn fun i => w (σ i)).sum = (List.ofFn w).sum := by rw [List.sum_ofFn, List.sum_ofFn, Equiv.sum_comp σ w]
  simp only [parallelDykstraProx, hsum] at hs ⊢
  split_ifs at hs ⊢ with h0
  refine forRange_push (π := fun s : ParState E m => (⟨s.x, fun i => s.z (σ i), s.pz.map fun v i => v (σ i)⟩ : ParState E m)) ?_ n 0 _ s hs
  intro i s s' bk h
  have hn : ∀ v : Fin m → ℝ, normalise (List.ofFn v) = List.ofFn fun i => v i / (List.ofFn v).sum := by
    intro v; simp only [normalise, List.map_ofFn]; rfl
  simp only [par.body, hn, List.length_ofFn, ne_eq, not_true, if_false, hsum] at h ⊢
  have hat : par.proxAt (fun i => proxs (σ i)) (List.ofFn fun i => taus (σ i)) (fun i => s.z (σ i)) = fun i => par.proxAt proxs (List.ofFn taus) s.z (σ i) := by
    funext i
    simp [par.proxAt]
  rw [hat]
  cases hp : mapPy (par.proxAt proxs (List.ofFn taus) s.z) with
  | error e => rw [hp] at h; cases h
  | ok p =>
    rw [hp] at h
    rw [mapPy_perm σ hp]
    simp only [bind, Except.bind, pure, Except.pure, ofFn_getD] at h ⊢
    rw [Equiv.sum_comp σ fun j => (w j / (List.ofFn w).sum) • p j]
    cases h
    rfl

/-! ## The two functions of a splitting solver can exchange their roles -/

/-- ADMM with `gfirst` is ADMM on the exchanged functions, starting points and outputs; the multiplier changes sign. -/
theorem C103_admm_swap (f g : ProxOp E) (x0 z0 : Option E) (τ : ℝ) (n : ℕ) :
    (ADMM f g x0 z0 τ n true).map (fun s => (⟨s.z, s.x, -s.u, s.log.map Prod.swap⟩ : SplitState E)) = ADMM g f z0 x0 τ n false := by
  have key : ∀ x z : E, (forRange (ADMM.body f g τ true) n 0 ⟨x, z, 0, []⟩).map (fun s => (⟨s.z, s.x, -s.u, s.log.map Prod.swap⟩ : SplitState E)) =
      forRange (ADMM.body g f τ false) n 0 ⟨z, x, 0, []⟩ := by
    intro x z
    have h0 : (⟨z, x, 0, []⟩ : SplitState E) = (fun s : SplitState E => (⟨s.z, s.x, -s.u, s.log.map Prod.swap⟩ : SplitState E)) ⟨x, z, 0, []⟩ := by simp
    rw [h0]
    refine (forRange_map (J := fun _ => True) (π := fun s : SplitState E => (⟨s.z, s.x, -s.u, s.log.map Prod.swap⟩ : SplitState E)) ?_ n 0 _ trivial).1
    intro i s _
    simp only [ADMM.body, if_true, Bool.false_eq_true, if_false, sub_neg_eq_add, ← sub_eq_add_neg]
    cases g.prox (s.x + s.u) τ with
    | error e => exact Or.inl ⟨e, rfl, rfl⟩
    | ok z =>
      simp only [bind, Except.bind]
      cases f.prox (z - s.u) τ with
      | error e => exact Or.inl ⟨e, rfl, rfl⟩
      | ok x =>
        refine Or.inr ⟨_, _, rfl, ?_, trivial⟩
        simp only [List.map_append, List.map_cons, List.map_nil, Prod.swap, pure, Except.pure]
        rw [show -s.u + z - x = -(s.u + x - z) by abel]
  cases x0 <;> cases z0 <;> simp only [ADMM, x0z0Init, bind, Except.bind, key]
  rfl

/-- The same for half-quadratic splitting. -/
theorem C103_hqs_swap (f g : ProxOp E) (x0 z0 : Option E) (tau : StepSpec) (n : ℕ) :
    (HQS f g x0 z0 tau n true).map (fun s => (⟨s.z, s.x, -s.u, s.log.map Prod.swap⟩ : SplitState E)) = HQS g f z0 x0 tau n false := by
  have key : ∀ x z : E, (forRange (HQS.body f g tau true) n 0 ⟨x, z, 0, []⟩).map (fun s => (⟨s.z, s.x, -s.u, s.log.map Prod.swap⟩ : SplitState E)) =
      forRange (HQS.body g f tau false) n 0 ⟨z, x, 0, []⟩ := by
    intro x z
    have h0 : (⟨z, x, 0, []⟩ : SplitState E) = (fun s : SplitState E => (⟨s.z, s.x, -s.u, s.log.map Prod.swap⟩ : SplitState E)) ⟨x, z, 0, []⟩ := by simp
    rw [h0]
    refine (forRange_map (J := fun _ => True) (π := fun s : SplitState E => (⟨s.z, s.x, -s.u, s.log.map Prod.swap⟩ : SplitState E)) ?_ n 0 _ trivial).1
    intro i s _
    simp only [HQS.body, if_true, Bool.false_eq_true, if_false]
    cases tau.at i with
    | error e => exact Or.inl ⟨e, rfl, rfl⟩
    | ok t =>
      simp only [bind, Except.bind]
      cases g.prox s.x t with
      | error e => exact Or.inl ⟨e, rfl, rfl⟩
      | ok z =>
        simp only []
        cases f.prox z t with
        | error e => exact Or.inl ⟨e, rfl, rfl⟩
        | ok x =>
          refine Or.inr ⟨_, _, rfl, ?_, trivial⟩
          simp only [List.map_append, List.map_cons, List.map_nil, Prod.swap, pure, Except.pure]
  cases x0 <;> cases z0 <;> simp only [HQS, x0z0Init, bind, Except.bind, key]
  rfl

/-! ## The hypotheses are met -/

/-- Steps given as a number, and as an array. -/
example : (∀ i t, (StepSpec.scalar 2).at i = .ok t → 0 < t) ∧ (∀ i, (StepSpec.scalar 6).at i = ((StepSpec.scalar 2).at i).map ((3 : ℝ) * ·)) ∧
    (∀ i t, (StepSpec.arr [1, 2, 4]).at i = .ok t → 0 < t) ∧ ∀ i, (StepSpec.arr [3, 6, 12]).at i = ((StepSpec.arr [1, 2, 4]).at i).map ((3 : ℝ) * ·) := by
  refine ⟨fun i t h => ?_, fun i => ?_, fun i t h => ?_, fun i => ?_⟩
  · simp only [StepSpec.at, Except.ok.injEq] at h; rw [← h]; norm_num
  · simp only [StepSpec.at, Except.map]; norm_num
  · rcases i with _ | _ | _ | i <;> simp [StepSpec.at] at h <;> rw [← h] <;> norm_num
  · rcases i with _ | _ | _ | i <;> simp [StepSpec.at, Except.map] <;> norm_num

/-- The primal-dual theorem for `2 * L1()`, which has no `proxdual` of its own. -/
example {ι : Type} [Fintype ι] (y : Vec ι) (s : ℝ) (hs : 0 < s) :
    ((L1 1 none : ProxOp (Vec ι)).postOp 2).proxdual y s = ((L1 1 none : ProxOp (Vec ι)).postOp 2).proxdualMoreau y s := by
  show checkTau s (ProxOp.moreauStep _ y s) = ProxOp.moreauStep _ y s
  rw [checkTau, if_neg (not_le.mpr hs)]
  rfl

lemma forRange_never_fails {S : Type} {body : ℕ → S → Py (S × Bool)} (h : ∀ i s, ∃ r, body i s = .ok r) : ∀ n i s, ∃ r, forRange body n i s = .ok r
  | 0, _, s => ⟨s, rfl⟩
  | n + 1, i, s => by
    obtain ⟨⟨s', bk⟩, hr⟩ := h i s
    simp only [forRange, hr]
    cases bk with
    | true => exact ⟨s', rfl⟩
    | false => exact forRange_never_fails h n (i + 1) s'

/-- Three l1 terms in the order 0, 1, 2 and in the order 1, 2, 0: both runs return, and the same point. -/
example {ι : Type} [Fintype ι] (x0 : Vec ι) (n : ℕ) (mx : Vec ι → ℝ) :
    ∃ s r, ConsensusADMM (![L1 1 none, L1 2 none, L1 3 none] : Fin 3 → ProxOp (Vec ι)) x0 2 n 0 mx = .ok s ∧
      ConsensusADMM (fun i => (![L1 1 none, L1 2 none, L1 3 none] : Fin 3 → ProxOp (Vec ι)) (finRotate 3 i)) x0 2 n 0 mx = .ok r ∧ r.xbar = s.xbar ∧ r.log = s.log := by
  have htot : ∀ (i : Fin 3) (x : Vec ι), ∃ p, ((![L1 1 none, L1 2 none, L1 3 none] : Fin 3 → ProxOp (Vec ι)) i).prox x 2 = .ok p := by
    intro i x
    fin_cases i
    · obtain ⟨p, -, h, -⟩ := C02_moreau_l1 1 zero_le_one none x 2 (by norm_num); exact ⟨p, h⟩
    · obtain ⟨p, -, h, -⟩ := C02_moreau_l1 2 two_pos.le none x 2 (by norm_num); exact ⟨p, h⟩
    · obtain ⟨p, -, h, -⟩ := C02_moreau_l1 3 three_pos.le none x 2 (by norm_num); exact ⟨p, h⟩
  obtain ⟨s, hs⟩ := forRange_never_fails (body := ConsensusADMM.body (![L1 1 none, L1 2 none, L1 3 none] : Fin 3 → ProxOp (Vec ι)) 2 0 mx) (by
    intro i s
    choose v hv using fun i => htot i (s.xbar - s.y i)
    simp only [ConsensusADMM.body, mapPy_ok hv, bind, Except.bind]
    rw [if_neg (by norm_num)]
    split_ifs
    · exact ⟨_, rfl⟩
    · exact ⟨_, rfl⟩) n 0 ⟨x0, x0, fun _ => x0, fun _ => 0, []⟩
  exact ⟨s, _, hs, C103_consensus_order _ x0 2 n 0 mx (finRotate 3) hs, rfl, rfl⟩

/-- Lasso-like proximal gradient in the variable `x` of `f(2 x + b)`: the multipliers, the step and the backtracking factor meet the hypotheses. -/
example {f g : ProxOp E} (b x0 : E) (acc : Accel) (tol : Option ℝ) :
    (ProximalGradient (f.preOp 2 b) (g.preOp 2 b) x0 ⟨some 1, true, 1 / 2, .scalar 3, 50, 20, acc, 1, tol⟩).map (PGState.subst 2 b) =
      ProximalGradient f g (subst 2 b x0) ⟨some (2 ^ 2 * 1), true, 1 / 2, .scalar 3, 50, 20, acc, 1, tol⟩ :=
  C103_proximalgradient_precomposition f g two_ne_zero b one_pos x0 ⟨some 1, true, 1 / 2, .scalar 3, 50, 20, acc, 1, tol⟩ (fun _ => by norm_num)
    (fun i e h => by simp only [StepSpec.at, Except.ok.injEq] at h; rw [← h]; norm_num)

end Verif
