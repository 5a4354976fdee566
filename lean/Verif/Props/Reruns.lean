import Verif.Props.InPlace
import Verif.Props.ProxPoint

/-! # C99: reruns and iteration-dependent parameters

Operator objects keep attributes between calls.  If what an object returns does not depend on them, a second run of a solver on the same objects returns what the first one
returned; `L2` with exact inner solvers is such an object whatever its warm start and its cached factorization.  An object whose parameter is a function of the
call counter follows the iterations of one run, but not across runs, and not with backtracking. -/

open scoped RealInnerProductSpace

set_option linter.unusedSectionVars false

namespace Verif

variable {E SF SG : Type} [NormedAddCommGroup E] [InnerProductSpace ℝ E]
variable {f : MutOp SF E} {g : MutOp SG E} {If : SF → Prop} {Ig : SG → Prop} {pf pg : ProxOp E}

/-- What is left of a run when the attributes of the objects are forgotten is a value if and only if the run is. -/
lemma map_eq_ok {α β : Type} {x : Py α} {π : α → β} {b : β} (h : x.map π = .ok b) : ∃ a, x = .ok a ∧ π a = b := by
  cases x with
  | error e => cases h
  | ok a => exact ⟨a, rfl, by injection h⟩

/-- C99 for `ProximalPoint`: a second run on the same object returns the same. -/
theorem C99_proximalpoint_rerun (hf : Computes f If pf) (sf : SF) (hsf : If sf) (x0 : E) (τ : ℝ) (n : ℕ) (tol : Option ℝ) (r : SF × PPState E)
    (hr : PPMut f sf x0 τ n tol = .ok r) : ∃ r', PPMut f r.1 x0 τ n tol = .ok r' ∧ r'.2 = r.2 := by
  obtain ⟨h1, h2⟩ := C98_proximalpoint_inplace hf sf hsf x0 τ n tol
  obtain ⟨h3, -⟩ := C98_proximalpoint_inplace hf r.1 (h2 r hr) x0 τ n tol
  rw [← h1, hr] at h3
  exact map_eq_ok h3

/-- C99 for `ProximalGradient`. -/
theorem C99_proximalgradient_rerun (hf : Computes f If pf) (hg : Computes g Ig pg) (sf : SF) (hsf : If sf) (sg : SG) (hsg : Ig sg) (x0 : E) (a : PGArgs)
    (r : SF × SG × PGState E) (hr : PGMut f g sf sg x0 a = .ok r) : ∃ r', PGMut f g r.1 r.2.1 x0 a = .ok r' ∧ r'.2.2 = r.2.2 := by
  obtain ⟨h1, h2⟩ := C98_proximalgradient_inplace hf hg sf hsf sg hsg x0 a
  obtain ⟨h3, -⟩ := C98_proximalgradient_inplace hf hg r.1 (h2 r hr).1 r.2.1 (h2 r hr).2 x0 a
  rw [← h1, hr] at h3
  exact map_eq_ok h3

/-- C99 for `ADMM`. -/
theorem C99_admm_rerun (hf : Computes f If pf) (hg : Computes g Ig pg) (sf : SF) (hsf : If sf) (sg : SG) (hsg : Ig sg) (x0 z0 : Option E) (τ : ℝ) (n : ℕ) (gfirst : Bool)
    (r : SF × SG × SplitState E) (hr : ADMMMut f g sf sg x0 z0 τ n gfirst = .ok r) : ∃ r', ADMMMut f g r.1 r.2.1 x0 z0 τ n gfirst = .ok r' ∧ r'.2.2 = r.2.2 := by
  obtain ⟨h1, h2⟩ := C98_admm_inplace hf hg sf hsf sg hsg x0 z0 τ n gfirst
  obtain ⟨h3, -⟩ := C98_admm_inplace hf hg r.1 (h2 r hr).1 r.2.1 (h2 r hr).2 x0 z0 τ n gfirst
  rw [← h1, hr] at h3
  exact map_eq_ok h3

/-- C99 for `DouglasRachfordSplitting` and operators that leave their argument alone. -/
theorem C99_dr_rerun (hf : Computes f If pf) (hg : Computes g Ig pg) (hlf : LeavesArg f) (hlg : LeavesArg g) (sf : SF) (hsf : If sf) (sg : SG) (hsg : Ig sg) (x0 : E) (τ η : ℝ) (n : ℕ)
    (gfirst : Bool) (r : SF × SG × E × E × List (E × E)) (hr : DRMut f g sf sg x0 τ η n gfirst = .ok r) : ∃ r', DRMut f g r.1 r.2.1 x0 τ η n gfirst = .ok r' ∧ r'.2.2 = r.2.2 := by
  have hl : if gfirst then LeavesArg g else LeavesArg f := by cases gfirst <;> assumption
  obtain ⟨h1, h2⟩ := C98_dr_partial hf hg sf hsf sg hsg x0 τ η n gfirst hl
  obtain ⟨h3, -⟩ := C98_dr_partial hf hg r.1 (h2 r hr).1 r.2.1 (h2 r hr).2 x0 τ η n gfirst hl
  rw [← h1, hr] at h3
  exact map_eq_ok h3

/-- C99 for `PPXA` and operators that leave their argument alone. -/
theorem C99_ppxa_rerun {m : ℕ} {fs : Fin m → MutOp SF E} {ps : Fin m → ProxOp E} (hf : ∀ i, Computes (fs i) If (ps i)) (hl : ∀ i, LeavesArg (fs i)) (sf : Fin m → SF)
    (hsf : ∀ i, If (sf i)) (w : Fin m → ℝ) (y0 : Fin m → E) (τ η : ℝ) (n : ℕ) (tol : ℝ) (mx : E → ℝ) (r : (Fin m → SF) × PPXAState E m)
    (hr : PPXAMut fs sf w y0 τ η n tol mx = .ok r) : ∃ r', PPXAMut fs r.1 w y0 τ η n tol mx = .ok r' ∧ r'.2 = r.2 := by
  obtain ⟨h1, h2⟩ := C98_ppxa_partial hf hl sf hsf w y0 τ η n tol mx
  obtain ⟨h3, -⟩ := C98_ppxa_partial hf hl r.1 (h2 r hr) w y0 τ η n tol mx
  rw [← h1, hr] at h3
  exact map_eq_ok h3

/-! ## `L2` objects -/

section L2
variable {H C : Type} [NormedAddCommGroup H] [InnerProductSpace ℝ H]

/-- The states an `L2` object can be in: those reached from its construction by `prox` calls. -/
def L2Reachable (ext : L2Ext E H C) (a : L2Args E H) (st : L2State E C) : Prop := ∃ x0 s calls, L2.init a x0 = .ok s ∧ st = L2.after ext a s calls

/-- C99: with exact inner solvers an `L2` object returns the same in all its states: the call counter, the warm start and the cached factorization do not matter. -/
theorem C99_l2_state_independent [FiniteDimensional ℝ E] (ext : L2Ext E H C) (hext : L2ExtWithin ext 0) (a : L2Args E H) (hσ : 0 < a.σ) (st0 : L2State E C) (h0 : L2Reachable ext a st0) :
    Computes (L2.toMut ext a) (L2Reachable ext a) (L2.obj ext a st0) where
  prox := fun st hst x τ => by
    obtain ⟨y0, s0, c0, hs0, rfl⟩ := h0
    obtain ⟨y, s, c, hs, rfl⟩ := hst
    refine ⟨?_, y, s, c ++ [(x, τ)], hs, by simp [L2.after, List.foldl_append, L2.toMut]⟩
    show (L2.prox ext a (L2.after ext a s c) x τ).2.1 = (L2.prox ext a (L2.after ext a s0 c0) x τ).2.1
    by_cases hτ : 0 < τ
    · obtain ⟨z, p, h1, h2, h3⟩ := C17_l2_prox ext 0 hext a hσ y s hs c x τ hτ
      obtain ⟨z', p', h1', h2', h3'⟩ := C17_l2_prox ext 0 hext a hσ y0 s0 hs0 c0 x τ hτ
      have e1 : z = p := sub_eq_zero.1 (norm_le_zero_iff.1 h3)
      have e2 : z' = p' := sub_eq_zero.1 (norm_le_zero_iff.1 h3')
      rw [h1, h1', e1, e2, h2.2 p' h2'.1]
    · simp [L2.prox, if_pos (not_lt.1 hτ)]
  grad := fun st hst x => ⟨rfl, hst⟩
  call := fun _ _ _ => rfl

/-- C99, consequence: `ProximalPoint` on an `L2` object, in whatever state earlier calls have left it, has the rate of `C40_point_rate`. -/
theorem C99_l2_point_rate [FiniteDimensional ℝ E] (ext : L2Ext E H C) (hext : L2ExtWithin ext 0) (a : L2Args E H) (hσ : 0 < a.σ) (st : L2State E C) (hst : L2Reachable ext a st)
    (x0 : E) (τ : ℝ) (hτ : 0 < τ) (n : ℕ) (hn : 0 < n) (c : E) :
    ∃ r, PPMut (L2.toMut ext a) st x0 τ n none = .ok r ∧ l2Spec a r.2.x - l2Spec a c ≤ ‖x0 - c‖ ^ 2 / (2 * τ * n) := by
  obtain ⟨h1, -⟩ := C98_proximalpoint_inplace (C99_l2_state_independent ext hext a hσ st hst) st hst x0 τ n none
  obtain ⟨y, s, cl, hs, rfl⟩ := hst
  have hp := l2obj_prox ext hext a hσ y s hs cl
  obtain ⟨P, hP, -⟩ := proxExact_map hp hτ
  obtain ⟨X, -, -, hrun⟩ := pp_traj hP x0
  have h2 := (C40_point_rate _ (XFun.ofReal (l2Spec a)) (show (XFun.ofReal (l2Spec a)).Convex from l2_convex a hσ.le) hp x0 τ hτ n hn _ (hrun n) c trivial).2
  rw [hrun n] at h1
  obtain ⟨r, hr, hr'⟩ := map_eq_ok h1
  exact ⟨r, hr, by rw [hr']; exact h2⟩

end L2

/-! ## Parameters that are functions of the call counter -/

section Counted
variable (D : CountedClass E)

lemma counted_proxPy (c : ℕ) (x : E) {τ : ℝ} (hτ : 0 < τ) : D.toMut.proxPy c x τ = (D.body (c + 1) x τ).map fun p => (c + 1, p, x) := by
  simp [MutOp.proxPy, CountedClass.toMut, CountedClass.prox, checkTau, if_neg (not_le.2 hτ)]

/-- C99: iteration `n + 1` of `ProximalPoint` uses the parameter with index `c + n + 1`, where `c` is the counter before the run. -/
theorem C99_proximalpoint_schedule (c : ℕ) (x0 : E) {τ : ℝ} (hτ : 0 < τ) (n : ℕ) :
    PPMut D.toMut c x0 τ (n + 1) none = (PPMut D.toMut c x0 τ n none).bind fun r => (D.body (c + n + 1) r.2.x τ).map fun x => (c + n + 1, ⟨x, none, r.2.log ++ [x]⟩) := by
  have hbody : ∀ i s, PPMut.body D.toMut τ none i s = (D.body (s.1 + 1) s.2.x τ).map fun x => ((s.1 + 1, ⟨x, s.2.pf, s.2.log ++ [x]⟩), false) := fun i s => by
    simp only [PPMut.body, counted_proxPy D _ _ hτ]
    cases D.body (s.1 + 1) s.2.x τ <;> rfl
  have gen : ∀ n i c x l, forRange (PPMut.body D.toMut τ none) (n + 1) i (c, ⟨x, none, l⟩) =
      (forRange (PPMut.body D.toMut τ none) n i (c, ⟨x, none, l⟩)).bind fun r => (D.body (c + n + 1) r.2.x τ).map fun x => (c + n + 1, ⟨x, none, r.2.log ++ [x]⟩) := by
    intro n
    induction n with
    | zero =>
      intro i c x l
      simp only [forRange, hbody, Except.bind, Nat.add_zero]
      cases D.body (c + 1) x τ <;> simp [Except.map]
    | succ n ih =>
      intro i c x l
      rw [forRange, forRange]
      simp only [hbody]
      cases hb : D.body (c + 1) x τ with
      | error e => rfl
      | ok y =>
        simp only [Except.map, Bool.false_eq_true, if_false]
        rw [ih, show c + 1 + n + 1 = c + (n + 1) + 1 by omega]
        rfl
  exact gen n 0 c x0 []

/-- C99: the same for `g` in `ProximalGradient` without backtracking (`f` pure, constant `tau` and `epsg`, no tolerance, no relaxation). -/
theorem C99_proximalgradient_schedule (pf : ProxOp E) {τ ε : ℝ} (hετ : 0 < ε * τ) (acc : Accel) (c : ℕ) (x0 : E) (n : ℕ) (r r' : Unit × ℕ × PGState E)
    (hr : PGMut pf.toMut D.toMut () c x0 ⟨some τ, false, 1 / 2, .scalar ε, n + 1, 100, acc, 1, none⟩ = .ok r)
    (hr' : PGMut pf.toMut D.toMut () c x0 ⟨some τ, false, 1 / 2, .scalar ε, n + 2, 100, acc, 1, none⟩ = .ok r') :
    r.2.1 = c + n + 1 ∧ ∃ gy, pf.grad r.2.2.y = .ok gy ∧ D.body (c + n + 2) (r.2.2.y - τ • gy) (ε * τ) = .ok r'.2.2.x := by
  have hacc : acc ≠ .other := by
    rintro rfl
    simp [PGMut, StepSpec.printCheck, Bind.bind, Except.bind] at hr
  have hrun : ∀ k, 0 < k → PGMut pf.toMut D.toMut () c x0 ⟨some τ, false, 1 / 2, .scalar ε, k, 100, acc, 1, none⟩ =
      forRange (PGMut.body pf.toMut D.toMut ⟨some τ, false, 1 / 2, .scalar ε, 0, 100, acc, 1, none⟩ false) k 0 ((), c, ⟨x0, x0, 1, τ, none, []⟩) := fun k hk => by
    have h1 : (StepSpec.scalar ε).printCheck k = .ok () := by simp [StepSpec.printCheck, hk.ne']
    simp only [PGMut, h1, Bind.bind, Except.bind, if_neg hacc]
    rfl
  rw [hrun _ (Nat.succ_pos _)] at hr hr'
  have hbody : ∀ i s s' b, PGMut.body pf.toMut D.toMut ⟨some τ, false, 1 / 2, .scalar ε, 0, 100, acc, 1, none⟩ false i s = .ok (s', b) →
      b = false ∧ s'.2.1 = s.2.1 + 1 ∧ s'.2.2.tau = s.2.2.tau ∧ (s.2.2.tau = τ → ∃ gy, pf.grad s.2.2.y = .ok gy ∧ D.body (s.2.1 + 1) (s.2.2.y - τ • gy) (ε * τ) = .ok s'.2.2.x) := by
    intro i s s' b h
    simp only [PGMut.body, PGMut.step, StepSpec.at, Bind.bind, Except.bind, if_true, Bool.false_eq_true, if_false, MutOp.gradPy, ProxOp.toMut] at h
    cases hgr : pf.grad s.2.2.y with
    | error e => rw [hgr] at h; simp [Except.map] at h
    | ok gy =>
      rw [hgr] at h
      simp only [Except.map] at h
      cases hq : D.toMut.proxPy s.2.1 (s.2.2.y - s.2.2.tau • gy) (ε * s.2.2.tau) with
      | error e => rw [hq] at h; simp at h
      | ok p =>
        rw [hq] at h
        simp only [Pure.pure, Except.pure, Except.ok.injEq, Prod.mk.injEq] at h
        obtain ⟨rfl, rfl⟩ := h
        have hcount : p.1 = s.2.1 + 1 := by
          simp only [MutOp.proxPy, CountedClass.toMut, CountedClass.prox] at hq
          obtain ⟨q, -, hq'⟩ := map_eq_ok hq
          rw [← hq']
        refine ⟨rfl, hcount, rfl, fun ht => ⟨gy, rfl, ?_⟩⟩
        rw [ht, counted_proxPy D _ _ hετ] at hq
        obtain ⟨q, hq1, hq2⟩ := map_eq_ok hq
        rw [hq1, ← hq2]
  have hinv := forRange_inv_idx (body := PGMut.body pf.toMut D.toMut ⟨some τ, false, 1 / 2, .scalar ε, 0, 100, acc, 1, none⟩ false)
    (I := fun k s => s.2.1 = c + k ∧ s.2.2.tau = τ) (fun i s s' b hI h => by
      obtain ⟨h1, h2, h3, -⟩ := hbody i s s' b h
      exact ⟨⟨by rw [h2, hI.1]; omega, by rw [h3, hI.2]⟩, h1⟩)
  obtain ⟨q, hq, hb⟩ := forRange_succ (fun i s s' b h => (hbody i s s' b h).1) (n + 1) 0 _ _ hr'
  rw [hr] at hq
  cases hq
  have h1 := hinv (n + 1) 0 _ _ ⟨rfl, rfl⟩ hr
  obtain ⟨-, -, -, h4⟩ := hbody _ _ _ _ hb
  obtain ⟨gy, g1, g2⟩ := h4 h1.2
  refine ⟨by rw [h1.1]; omega, gy, g1, ?_⟩
  rw [h1.1, show c + (0 + (n + 1)) + 1 = c + n + 2 by omega] at g2
  exact g2

/-- C99, counterexample: with backtracking the first iteration already uses the parameter with index 2 (not 1), if the first trial is rejected: `f = s/2 ‖x‖²` with
`1 < tau s <= 2`, any `g` with a parameter that depends on the counter. -/
theorem C99_backtracking_refuted {H C : Type} [NormedAddCommGroup H] [InnerProductSpace ℝ H] (ext : L2Ext E H C) (st : L2State E C) {s τ ε : ℝ} (hτ : 0 < τ) (hε : 0 < ε)
    (h1 : 1 < τ * s) (h2 : τ * s ≤ 2) (x0 z1 z2 : E) (hz1 : D.body 1 (x0 - τ • s • x0) (ε * τ) = .ok z1) (hne : z1 ≠ x0)
    (hz2 : D.body 2 (x0 - (τ * (1 / 2)) • s • x0) (ε * (τ * (1 / 2))) = .ok z2) :
    ∃ r, PGMut (L2.toMut ext (l2Plain (F' := H) .nothing s)) D.toMut st 0 x0 ⟨some τ, true, 1 / 2, .scalar ε, 1, 100, .none, 1, none⟩ = .ok r ∧ r.2.1 = 2 ∧ r.2.2.x = z2 := by
  have hg : ∀ x, (L2.toMut ext (l2Plain (F' := H) .nothing s)).gradPy st x = .ok (st, s • x) := fun x => rfl
  have hc : ∀ x, (L2.toMut ext (l2Plain (F' := H) .nothing s)).call st x = .ok (.num (s / 2 * ‖x‖ ^ 2)) := fun x => rfl
  have htest : ∀ (t : ℝ) (z : E), 0 < t → (s / 2 * ‖z‖ ^ 2 ≤ s / 2 * ‖x0‖ ^ 2 + ⟪s • x0, z - x0⟫ + 1 / (2 * t) * ‖z - x0‖ ^ 2 ↔ (s * t - 1) * ‖z - x0‖ ^ 2 ≤ 0) := fun t z ht => by
    have e : ‖z‖ ^ 2 = ‖z - x0‖ ^ 2 + 2 * ⟪z - x0, x0⟫ + ‖x0‖ ^ 2 := by
      rw [← norm_add_sq_real]; simp
    rw [real_inner_smul_left, e, real_inner_comm]
    have h3 : (s * t - 1) * ‖z - x0‖ ^ 2 = 2 * t * (s / 2 * ‖z - x0‖ ^ 2 - 1 / (2 * t) * ‖z - x0‖ ^ 2) := by field_simp
    rw [h3]
    constructor
    · intro h
      apply mul_nonpos_of_nonneg_of_nonpos (by positivity); linarith
    · intro h
      have := nonpos_of_mul_nonpos_right h (by positivity : (0 : ℝ) < 2 * t)
      linarith
  have hp1 : D.toMut.proxPy 0 (x0 - τ • s • x0) (ε * τ) = .ok (1, z1, x0 - τ • s • x0) := by
    rw [counted_proxPy D _ _ (mul_pos hε hτ), hz1]; rfl
  have hp2 : D.toMut.proxPy 1 (x0 - (τ * (1 / 2)) • s • x0) (ε * (τ * (1 / 2))) = .ok (2, z2, x0 - (τ * (1 / 2)) • s • x0) := by
    rw [counted_proxPy D _ _ (by positivity), hz2]; rfl
  have hn : 0 < ‖z1 - x0‖ := norm_pos_iff.2 (sub_ne_zero.2 hne)
  have hrej : ¬ (s / 2 * ‖z1‖ ^ 2 ≤ s / 2 * ‖x0‖ ^ 2 + ⟪s • x0, z1 - x0⟫ + 1 / (2 * τ) * ‖z1 - x0‖ ^ 2) := by
    rw [htest τ z1 hτ, not_le]
    have : 0 < s * τ - 1 := by linarith
    positivity
  have hacc : s / 2 * ‖z2‖ ^ 2 ≤ s / 2 * ‖x0‖ ^ 2 + ⟪s • x0, z2 - x0⟫ + 1 / (2 * (τ * (1 / 2))) * ‖z2 - x0‖ ^ 2 := by
    rw [htest _ z2 (by positivity)]
    exact mul_nonpos_of_nonpos_of_nonneg (by linarith) (by positivity)
  have hb : backtrackMut (L2.toMut ext (l2Plain (F' := H) .nothing s)) D.toMut x0 ε (1 / 2) 100 st 0 τ none = .ok (st, 2, z2, τ * (1 / 2)) := by
    rw [show (100 : ℕ) = 98 + 1 + 1 by rfl, backtrackMut]
    simp only [hg, hc, hp1, Bind.bind, Except.bind, CallVal.toReal]
    rw [backtrackMut]
    simp only [hg, hc, hp2, Bind.bind, Except.bind, CallVal.toReal]
    rw [if_neg hrej]
    exact if_pos hacc
  refine ⟨(st, 2, ⟨z2, z2, 1, τ * (1 / 2), none, [z2]⟩), ?_, rfl, rfl⟩
  simp only [PGMut, StepSpec.printCheck, forRange, PGMut.body, PGMut.step, StepSpec.at, hb, Bind.bind, Except.bind, Pure.pure, Except.pure, if_true, momentum]
  simp

end Counted

/-- C99, counterexample: running `ProximalPoint` twice on one `L1` object whose `sigma` is a function gives two results, as soon as `sigma(1) ≠ sigma(2)`. -/
theorem C99_rerun_refuted {ι : Type} [Fintype ι] [Nonempty ι] (σ : ℕ → ℝ) (h1 : 0 ≤ σ 1) (h2 : 0 ≤ σ 2) (hne : σ 1 ≠ σ 2) {τ : ℝ} (hτ : 0 < τ) (x0 : Vec ι)
    (hx : ∀ i, τ * σ 1 < x0 i ∧ τ * σ 2 < x0 i) :
    ∃ r r', PPMut (L1c σ).toMut 0 x0 τ 1 none = .ok r ∧ PPMut (L1c σ).toMut r.1 x0 τ 1 none = .ok r' ∧ r'.2.x ≠ r.2.x := by
  have hrun : ∀ c, PPMut (L1c σ).toMut c x0 τ 1 none = .ok (c + 1, ⟨softthreshold x0 fun _ => τ * σ (c + 1), none, [softthreshold x0 fun _ => τ * σ (c + 1)]⟩) := fun c => by
    rw [C99_proximalpoint_schedule (L1c σ) c x0 hτ 0]
    simp [PPMut, forRange, L1c, Except.bind, Except.map]
  refine ⟨_, _, hrun 0, hrun 1, fun h => ?_⟩
  obtain ⟨i⟩ := ‹Nonempty ι›
  have hi := congrFun (congrArg (WithLp.ofLp) h) i
  have hst : ∀ c, (0 ≤ σ c) → τ * σ c < x0 i → (softthreshold x0 fun _ => τ * σ c) i = x0 i - τ * σ c := fun c hc hlt => by
    have h0 : 0 ≤ τ * σ c := by positivity
    have h3 : 0 < x0 i := h0.trans_lt hlt
    show max (|x0 i| - τ * σ c) 0 * npsign (x0 i) = _
    rw [abs_of_pos h3, npsign, if_pos h3, max_eq_left (by linarith), mul_one]
  have e2 := hst 2 h2 (hx i).2
  have e1 := hst 1 h1 (hx i).1
  change (softthreshold x0 fun _ => τ * σ 2) i = (softthreshold x0 fun _ => τ * σ 1) i at hi
  rw [e2, e1] at hi
  apply hne
  have : τ * σ 2 = τ * σ 1 := by linarith
  exact (mul_left_cancel₀ hτ.ne' this).symm

/-- Non-vacuity of `C99_rerun_refuted`: `sigma = lambda k: k`, `x0 = 10`, `tau = 1`. -/
example : ∃ r r', PPMut (L1c (ι := Fin 3) fun k => k).toMut 0 (vmk fun _ => 10) 1 1 none = .ok r ∧
    PPMut (L1c (ι := Fin 3) fun k => k).toMut r.1 (vmk fun _ => 10) 1 1 none = .ok r' ∧ r'.2.x ≠ r.2.x :=
  C99_rerun_refuted _ (by norm_num) (by norm_num) (by norm_num) one_pos _ fun i => by
    show (1 : ℝ) * ((1 : ℕ) : ℝ) < 10 ∧ (1 : ℝ) * ((2 : ℕ) : ℝ) < 10
    norm_num

/-- Non-vacuity of `C99_backtracking_refuted`: the same `L1` as `g`, `f = 1/2 ‖x‖²`, `tau = 2` and `x0 = 1`. -/
example {H C : Type} [NormedAddCommGroup H] [InnerProductSpace ℝ H] (ext : L2Ext (Vec (Fin 3)) H C) (st : L2State (Vec (Fin 3)) C) :
    ∃ r, PGMut (L2.toMut ext (l2Plain (F' := H) .nothing 1)) (L1c (ι := Fin 3) fun k => k).toMut st 0 (vmk fun _ => 1) ⟨some 2, true, 1 / 2, .scalar 1, 1, 100, .none, 1, none⟩ = .ok r ∧
      r.2.1 = 2 := by
  obtain ⟨r, h1, h2, -⟩ := C99_backtracking_refuted (L1c (ι := Fin 3) fun k => k) ext st (s := 1) (τ := 2) (ε := 1) two_pos one_pos (by norm_num) (by norm_num) (vmk fun _ => 1)
    _ _ rfl (fun h => by
      have h0 := congrFun (congrArg WithLp.ofLp h) 0
      change softScalar ((1 : ℝ) - 2 * (1 * 1)) (1 * 2 * ((1 : ℕ) : ℝ)) = 1 at h0
      norm_num [softScalar, npsign] at h0) rfl
  exact ⟨r, h1, h2⟩

end Verif
