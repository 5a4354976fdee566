import Verif.Props.Callback
import Verif.Model.Show

/-! # C75: a tolerance only truncates a run.  C76: `show=True` does not change the result. -/

open scoped RealInnerProductSpace

namespace Verif

section generic
variable {S T : Type} {b1 : ℕ → S → Py (S × Bool)} {b2 : ℕ → T → Py (T × Bool)} {R : S → T → Prop}

/-- A loop that may stop early follows one that does not. -/
lemma forRange_truncate (h : ∀ i s t s' b, R s t → b1 i s = .ok (s', b) → ∃ t', b2 i t = .ok (t', false) ∧ R s' t') :
    ∀ n i s t r, R s t → forRange b1 n i s = .ok r → ∃ m, m ≤ n ∧ ∃ r', forRange b2 m i t = .ok r' ∧ R r r' := by
  intro n
  induction n with
  | zero =>
    intro i s t r hR hr
    simp only [forRange, Except.ok.injEq] at hr
    subst hr
    exact ⟨0, le_rfl, t, rfl, hR⟩
  | succ n ih =>
    intro i s t r hR hr
    rw [forRange] at hr
    cases hb : b1 i s with
    | error e => rw [hb] at hr; cases hr
    | ok p =>
      obtain ⟨s', b⟩ := p
      rw [hb] at hr
      obtain ⟨t', h1, h2⟩ := h i s t s' b hR hb
      cases b with
      | true =>
        simp only [if_true, Except.ok.injEq] at hr
        subst hr
        exact ⟨1, by omega, t', by simp only [forRange, h1]; rfl, h2⟩
      | false =>
        simp only [Bool.false_eq_true, if_false] at hr
        obtain ⟨m, hm, r', h3, h4⟩ := ih (i + 1) s' t' r h2 hr
        exact ⟨m + 1, by omega, r', by simp only [forRange, h1, Bool.false_eq_true, if_false]; exact h3, h4⟩

/-- If the loop that does not stop early returns, so does the other. -/
lemma forRange_total (h : ∀ i s t t' b, R s t → b2 i t = .ok (t', b) → ∃ s' b', b1 i s = .ok (s', b') ∧ R s' t') (hb2 : ∀ i t t' b, b2 i t = .ok (t', b) → b = false) :
    ∀ n i s t r', R s t → forRange b2 n i t = .ok r' → ∃ r, forRange b1 n i s = .ok r := by
  intro n
  induction n with
  | zero => intro i s t r _ _; exact ⟨s, rfl⟩
  | succ n ih =>
    intro i s t r' hR hr
    rw [forRange] at hr ⊢
    cases hb : b2 i t with
    | error e => rw [hb] at hr; cases hr
    | ok p =>
      obtain ⟨t', b⟩ := p
      rw [hb] at hr
      obtain ⟨s', b', h1, h2⟩ := h i s t t' b hR hb
      have := hb2 _ _ _ _ hb
      subst this
      rw [h1]
      cases b' with
      | true => exact ⟨s', rfl⟩
      | false => exact ih (i + 1) s' t' r' h2 hr

end generic

variable {E : Type} [NormedAddCommGroup E] [InnerProductSpace ℝ E]

/-! ## ProximalPoint -/

/-- C75: the result of `ProximalPoint` with a tolerance is the result without tolerance after as many iterations as were performed. -/
theorem C75_proximalpoint_truncates (f : ProxOp E) (x0 : E) (τ : ℝ) (tol : Option ℝ) (n : ℕ) (r : PPState E) (h : ProximalPoint f x0 τ n tol = .ok r) :
    ∃ r', ProximalPoint f x0 τ r.log.length none = .ok r' ∧ r'.x = r.x ∧ r'.log = r.log := by
  obtain ⟨m, -, r', h1, h2, h3⟩ := forRange_truncate (b1 := ProximalPoint.body f τ tol) (b2 := ProximalPoint.body f τ none) (R := fun s t => t.x = s.x ∧ t.log = s.log)
    (fun i s t s' b hR hb => by
      unfold ProximalPoint.body at hb ⊢
      rw [hR.1, hR.2]
      cases hx : f.prox s.x τ with
      | error e => rw [hx] at hb; cases hb
      | ok x =>
        rw [hx] at hb
        refine ⟨_, rfl, ?_⟩
        cases tol with
        | none => cases hb; exact ⟨rfl, rfl⟩
        | some t =>
          simp only [Bind.bind, Except.bind, Pure.pure, Except.pure] at hb
          repeat' split at hb
          all_goals first | (cases hb; done) | (cases hb; exact ⟨rfl, rfl⟩)) n 0 ⟨x0, none, []⟩ ⟨x0, none, []⟩ r ⟨rfl, rfl⟩ h
  have hm : m = r.log.length := by
    have := neverEarly_of_log (body := ProximalPoint.body f τ none) (log := PPState.log) (out := PPState.x) (s0 := ⟨x0, none, []⟩)
      (fun _ _ _ _ hb => ⟨(cb_pp_body hb).1, (cb_pp_body hb).2.1 rfl⟩) rfl m r' h1
    rw [← h3, this]
  rw [hm] at h1
  exact ⟨r', h1, h2, h3⟩

/-- C75 refuted for `ProximalPoint`: if the first iterate has the value `0.0` the next iteration divides by it and the solver raises `ZeroDivisionError`, for every tolerance up to 1 and
every `niter ≥ 2`, although the run without tolerance returns. -/
theorem C75_proximalpoint_refuted (f : ProxOp E) (x0 x1 x2 : E) (τ t : ℝ) (ht : t ≤ 1) (v : CallVal) (h1 : f.prox x0 τ = .ok x1) (h2 : f.prox x1 τ = .ok x2)
    (hc1 : f.call x1 = .ok (.num 0)) (hc2 : f.call x2 = .ok v) (n : ℕ) : ProximalPoint f x0 τ (n + 2) (some t) = .error .zeroDivisionError := by
  have hn : ¬ 1 < t := not_lt.2 ht
  simp [ProximalPoint, forRange, ProximalPoint.body, h1, h2, hc1, hc2, pyRatio, Bind.bind, Except.bind, Pure.pure, Except.pure, hn, CallVal.toReal]

/-- For instance `f = ‖·‖₁` from any point that soft thresholding sends to zero. -/
theorem C75_proximalpoint_l1_refuted {ι : Type} [Fintype ι] (x0 : Vec ι) (τ t : ℝ) (hτ : 0 < τ) (hx : ∀ i, |x0 i| ≤ τ) (ht : t ≤ 1) (n : ℕ) :
    ProximalPoint (L1 1 none) x0 τ (n + 2) (some t) = .error .zeroDivisionError ∧ ∃ r, ProximalPoint (L1 1 none) x0 τ (n + 2) none = .ok r ∧ r.x = 0 := by
  have h0 : ∀ x : Vec ι, (∀ i, |x i| ≤ τ) → (L1 1 none).prox x τ = .ok 0 := by
    intro x hx
    simp only [ProxOp.prox, L1, checkTau_pos hτ]
    congr 1
    ext i
    have : max (|x i| - τ) 0 = 0 := max_eq_right (by linarith [hx i])
    simp [softthreshold, softScalar, this]
  have h1 := h0 x0 hx
  have h2 := h0 0 (fun i => by simpa using hτ.le)
  have hz : (L1 1 none).call (0 : Vec ι) = .ok (.num 0) := by simp [L1]
  refine ⟨C75_proximalpoint_refuted _ x0 0 0 τ t ht (.num 0) h1 h2 hz hz n, ?_⟩
  have hbody : ∀ i (s : PPState (Vec ι)), (∀ j, |s.x j| ≤ τ) → ProximalPoint.body (L1 1 none) τ none i s = .ok (⟨0, s.pf, s.log ++ [0]⟩, false) := by
    intro i s hs
    simp only [ProximalPoint.body, h0 s.x hs, Bind.bind, Except.bind, Pure.pure, Except.pure]
  have key : ∀ n i (s : PPState (Vec ι)), (∀ j, |s.x j| ≤ τ) → ∃ r, forRange (ProximalPoint.body (L1 1 none) τ none) (n + 1) i s = .ok r ∧ r.x = 0 := by
    intro n
    induction n with
    | zero => intro i s hs; simp [forRange, hbody i s hs]
    | succ n ih =>
      intro i s hs
      rw [forRange, hbody i s hs]
      exact ih (i + 1) _ (fun j => by simpa using hτ.le)
  exact key (n + 1) 0 _ hx

/-- C75 (partial: for values that are never zero): with a tolerance `ProximalPoint` returns whenever it does without. -/
theorem C75_proximalpoint_partial (f : ProxOp E) (x0 : E) (τ t : ℝ) (hc : ∀ x, ∃ v, f.call x = .ok v ∧ v.toReal ≠ 0) (n : ℕ) (r : PPState E)
    (h : ProximalPoint f x0 τ n none = .ok r) : ∃ r', ProximalPoint f x0 τ n (some t) = .ok r' := by
  refine forRange_total (b1 := ProximalPoint.body f τ (some t)) (R := fun s t => t.x = s.x ∧ s.pf ≠ some 0) (fun i s t' t'' b hR hb => ?_)
    (fun _ _ _ _ hb => (cb_pp_body hb).2.1 rfl) n 0 ⟨x0, none, []⟩ ⟨x0, none, []⟩ r ⟨rfl, by simp⟩ h
  unfold ProximalPoint.body at hb ⊢
  rw [hR.1] at hb
  cases hx : f.prox s.x τ with
  | error e => rw [hx] at hb; cases hb
  | ok x =>
    rw [hx] at hb
    cases hb
    obtain ⟨v, hv, hv0⟩ := hc x
    obtain ⟨q, hq⟩ : ∃ q, pyRatio v.toReal s.pf = .ok q := by
      cases hpf : s.pf with
      | none => exact ⟨_, rfl⟩
      | some d => rw [hpf] at hR; rw [pyRatio, if_neg (fun h => hR.2 (by rw [h]))]; exact ⟨_, rfl⟩
    simp only [Bind.bind, Except.bind, Pure.pure, Except.pure, hv, hq]
    exact ⟨_, _, rfl, rfl, by simpa using hv0⟩

/-! ## ProximalGradient -/

/-- C75: the result of `ProximalGradient` with a tolerance is the result without tolerance after as many iterations as were performed, and a tolerance never makes a run fail (if the
functions can be evaluated). -/
theorem C75_proximalgradient (f g : ProxOp E) (x0 : E) (a : PGArgs) (hn : 0 < a.niter) :
    (∀ r, ProximalGradient f g x0 a = .ok r → ∃ r', ProximalGradient f g x0 { a with tol := none, niter := r.log.length } = .ok r' ∧ r'.x = r.x ∧ r'.log = r.log) ∧
    ((∀ x, ∃ v, f.call x = .ok v) → (∀ x, ∃ v, g.call x = .ok v) → ∀ r', ProximalGradient f g x0 { a with tol := none } = .ok r' → ∃ r, ProximalGradient f g x0 a = .ok r) := by
  by_cases ha : a.acceleration = .other
  · exact ⟨fun r h => absurd h (pg_other f g x0 a ha r), fun _ _ r' h => absurd h (pg_other f g x0 { a with tol := none } ha r')⟩
  have hrun : ∃ bt τ, ∀ n, 0 < n → ProximalGradient f g x0 { a with niter := n } = forRange (PG.body f g a bt) n 0 ⟨x0, x0, 1, τ, none, []⟩ ∧
      ProximalGradient f g x0 { a with niter := n, tol := none } = forRange (PG.body f g { a with tol := none } bt) n 0 ⟨x0, x0, 1, τ, none, []⟩ := by
    have hc : ∀ n, 0 < n → a.epsg.printCheck n = .ok () := by
      intro n hn
      unfold StepSpec.printCheck
      split
      · rw [if_neg hn.ne']
      · rw [if_neg hn.ne']
      · rfl
    cases ht : a.tau with
    | none =>
      refine ⟨true, 1, fun n hn => ⟨?_, ?_⟩⟩ <;>
      · unfold ProximalGradient
        simp only [hc n hn, Bind.bind, Except.bind, ha, ht, if_false]
        rfl
    | some τ =>
      refine ⟨a.backtracking, τ, fun n hn => ⟨?_, ?_⟩⟩ <;>
      · unfold ProximalGradient
        simp only [hc n hn, Bind.bind, Except.bind, ha, ht, if_false]
        rfl
  obtain ⟨bt, τ, hrun⟩ := hrun
  have hstep : ∀ (s t : PGState E) e, t.x = s.x → t.y = s.y → t.tau = s.tau → PG.step f g { a with tol := none } bt e t = PG.step f g a bt e s := by
    intro s t e h1 h2 h3
    unfold PG.step
    rw [h1, h2, h3]
  constructor
  · intro r h
    have h' : ProximalGradient f g x0 { a with niter := a.niter } = .ok r := h
    rw [(hrun a.niter hn).1] at h'
    obtain ⟨m, -, r', h1, h2, -, -, -, h3⟩ := forRange_truncate (b1 := PG.body f g a bt) (b2 := PG.body f g { a with tol := none } bt)
      (R := fun s t => t.x = s.x ∧ t.y = s.y ∧ t.t = s.t ∧ t.tau = s.tau ∧ t.log = s.log)
      (fun i s t s' b hR hb => by
        obtain ⟨r1, r2, r3, r4, r5⟩ := hR
        unfold PG.body at hb ⊢
        cases he : a.epsg.at i with
        | error e => rw [he] at hb; cases hb
        | ok e =>
          rw [he] at hb
          simp only [Bind.bind, Except.bind, Pure.pure, Except.pure] at hb ⊢
          rw [hstep s t e r1 r2 r4, r1, r3, r5]
          cases hp : PG.step f g a bt e s with
          | error e => rw [hp] at hb; cases hb
          | ok p =>
            rw [hp] at hb
            refine ⟨_, rfl, ?_⟩
            cases ht : a.tol with
            | none => rw [ht] at hb; cases hb; exact ⟨rfl, rfl, rfl, rfl, rfl⟩
            | some tol =>
              rw [ht] at hb
              simp only at hb
              repeat' split at hb
              all_goals first | (cases hb; done) | (cases hb; exact ⟨rfl, rfl, rfl, rfl, rfl⟩)) a.niter 0 ⟨x0, x0, 1, τ, none, []⟩ ⟨x0, x0, 1, τ, none, []⟩ r
      ⟨rfl, rfl, rfl, rfl, rfl⟩ h'
    have hm : m = r.log.length := by
      have := neverEarly_of_log (body := PG.body f g { a with tol := none } bt) (log := PGState.log) (out := PGState.x) (s0 := ⟨x0, x0, 1, τ, none, []⟩)
        (fun _ _ _ _ hb => ⟨(cb_pg_body hb).1, (cb_pg_body hb).2.1 rfl⟩) rfl m r' h1
      rw [← h3, this]
    have hpos : 0 < r.log.length := (C57_proximalgradient f g x0 a a.niter r h).2.1 hn
    rw [hm, ← (hrun _ hpos).2] at h1
    exact ⟨r', h1, h2, h3⟩
  · intro hf hg r' h
    have h' : ProximalGradient f g x0 { a with niter := a.niter, tol := none } = .ok r' := h
    rw [(hrun a.niter hn).2] at h'
    have e : ProximalGradient f g x0 a = forRange (PG.body f g a bt) a.niter 0 ⟨x0, x0, 1, τ, none, []⟩ := (hrun a.niter hn).1
    rw [e]
    refine forRange_total (R := fun (s t : PGState E) => t.x = s.x ∧ t.y = s.y ∧ t.t = s.t ∧ t.tau = s.tau) (fun i s t t' b hR hb => ?_) (fun _ _ _ _ hb => (cb_pg_body hb).2.1 rfl) a.niter 0
      ⟨x0, x0, 1, τ, none, []⟩ ⟨x0, x0, 1, τ, none, []⟩ r' ⟨rfl, rfl, rfl, rfl⟩ h'
    obtain ⟨r1, r2, r3, r4⟩ := hR
    unfold PG.body at hb ⊢
    cases he : a.epsg.at i with
    | error e => rw [he] at hb; cases hb
    | ok e =>
      rw [he] at hb
      simp only [Bind.bind, Except.bind, Pure.pure, Except.pure] at hb ⊢
      rw [hstep s t e r1 r2 r4, r1, r3] at hb
      cases hp : PG.step f g a bt e s with
      | error e => rw [hp] at hb; cases hb
      | ok p =>
        rw [hp] at hb
        cases hb
        cases ht : a.tol with
        | none => exact ⟨_, _, rfl, rfl, rfl, rfl, rfl⟩
        | some tol =>
          obtain ⟨v, hv⟩ := hf p.1
          obtain ⟨w, hw⟩ := hg p.1
          simp only [hv, hw]
          exact ⟨_, _, rfl, rfl, rfl, rfl, rfl⟩

/-! ## AndersonProximalGradient -/

/-- C75 (partial: without the safeguard): the result of `AndersonProximalGradient` with a tolerance is the result without tolerance after as many iterations as were performed. -/
theorem C75_anderson_partial (f g : ProxOp E) (solve : List E → Py (List ℝ)) (x0 : E) (τ : ℝ) (epsg : StepSpec) (n nh : ℕ) (hn : 0 < n) (tol : Option ℝ) (r : AndersonState E)
    (h : AndersonProximalGradient f g solve x0 τ epsg n nh false tol = .ok r) :
    ∃ r', AndersonProximalGradient f g solve x0 τ epsg r.log.length nh false none = .ok r' ∧ r'.x = r.x ∧ r'.log = r.log := by
  rcases anderson_run f g solve x0 τ epsg nh with h0 | ⟨s0, a1, a0, a2, -⟩
  · exact absurd h (h0 false tol n r)
  have hpos : 0 < r.log.length := (C57_anderson f g solve x0 τ epsg nh false tol n r h).2.1 hn
  rw [a2 _ _ _ hn] at h
  obtain ⟨m, -, r', h1, h2, -, -, -, h3⟩ := forRange_truncate (b1 := Anderson.body f g solve τ epsg nh false tol) (b2 := Anderson.body f g solve τ epsg nh false none)
    (R := fun s t => t.x = s.x ∧ t.y = s.y ∧ t.R = s.R ∧ t.G = s.G ∧ t.log = s.log)
    (fun i s t s' b hR hb => by
      obtain ⟨r1, r2, r3, r4, r5⟩ := hR
      unfold Anderson.body at hb ⊢
      simp only [Bind.bind, Except.bind, Pure.pure, Except.pure, Bool.false_eq_true, if_false] at hb ⊢
      rw [r1, r2, r3, r4, r5]
      split at hb
      · cases hb
      rename_i gx hgx
      split at hb
      · cases hb
      split at hb
      · cases hb
      rename_i e he
      split at hb
      · cases hb
      rename_i x hx
      refine ⟨_, rfl, ?_⟩
      cases tol with
      | none => cases hb; exact ⟨rfl, rfl, rfl, rfl, rfl⟩
      | some tol =>
        simp only at hb
        repeat' split at hb
        all_goals first | (cases hb; done) | (cases hb; exact ⟨rfl, rfl, rfl, rfl, rfl⟩)) n 0 s0 s0 r ⟨rfl, rfl, rfl, rfl, rfl⟩ h
  have hm : m = r.log.length := by
    have := neverEarly_of_log (log := AndersonState.log) (out := AndersonState.x)
      (fun _ _ _ _ hb => ⟨(cb_anderson_body hb).1, (cb_anderson_body hb).2.1 rfl⟩) a1 m r' h1
    rw [← h3, this]
  rw [hm, ← a2 _ _ _ hpos] at h1
  exact ⟨r', h1, h2, h3⟩

/-- `f(x) = x²/2` and `g = 0` on the line. -/
noncomputable def lineSq : ProxOp ℝ := ⟨fun x => .ok (.num (x ^ 2 / 2)), none, none, some fun x => .ok x, true, 1⟩
/-- `g = 0` on the line. -/
noncomputable def lineZero : ProxOp ℝ := ⟨fun _ => .ok (.num 0), some fun x _ => .ok x, none, none, false, 1⟩

/-- C75 refuted for the safeguarded `AndersonProximalGradient`: a tolerance that can never be reached (`tol = 0`) changes the iterates, since the tolerance test overwrites the variable the
safeguard compares with.  Two iterations for `f(x) = x²/2`, `g = 0`, `tau = 3/2`, two history vectors: `0` without tolerance, `-1/8` with it.
The hypothesis on `solve` is what primal.py:655-659 computes on the line for two different residuals and `epsr > 0`. -/
theorem C75_anderson_refuted (solve : List ℝ → Py (List ℝ)) (hs : ∀ a b : ℝ, a ≠ b → solve [a, b] = .ok [b / (b - a), -a / (b - a)]) :
    ∃ r r', AndersonProximalGradient lineSq lineZero solve 1 (3 / 2) (.scalar 1) 2 2 true none = .ok r ∧
      AndersonProximalGradient lineSq lineZero solve 1 (3 / 2) (.scalar 1) 2 2 true (some 0) = .ok r' ∧ r.x = 0 ∧ r'.x = -1 / 8 ∧ r'.log.length = 2 := by
  have e1 := hs (3 / 4) (-1 / 2) (by norm_num)
  have e2 := hs (-3 / 8) (3 / 4) (by norm_num)
  norm_num at e1 e2
  simp only [AndersonProximalGradient, StepSpec.printCheck, StepSpec.at, Anderson.init, lineSq, lineZero, ProxOp.grad, ProxOp.prox, forRange, Anderson.body, histPush, Bind.bind, Except.bind,
    Pure.pure, Except.pure]
  norm_num [e1, e2, combine, npRatioTest, CallVal.toReal]

/-! ## C76: the logger -/

/-- C76: `ProximalPoint` with `show=True` returns what it returns with `show=False` (if `f` can be evaluated). -/
theorem C76_proximalpoint (f : ProxOp E) (hf : ∀ x, ∃ v, f.call x = .ok v) (x0 : E) (τ : ℝ) (n : ℕ) (tol : Option ℝ) :
    (∀ e, ProximalPoint f x0 τ n tol = .error e → ProximalPointShow f x0 τ n tol = .error e) ∧
    ∀ r, ProximalPoint f x0 τ n tol = .ok r → ∃ r', ProximalPointShow f x0 τ n tol = .ok r' ∧ r'.x = r.x ∧ r'.log = r.log := by
  have key := forRange_sim (b1 := ProximalPoint.body f τ tol) (b2 := ProximalPoint.bodyShow f τ tol n)
    (R := fun s t => t.x = s.x ∧ t.log = s.log ∧ (tol ≠ none → t.pf = s.pf)) (fun i s t hR => by
      obtain ⟨r1, r2, r3⟩ := hR
      cases tol with
      | none =>
        unfold ProximalPoint.bodyShow ProximalPoint.body
        rw [r1, r2]
        simp only [Bind.bind, Except.bind, Pure.pure, Except.pure]
        cases f.prox s.x τ with
        | error e => exact Or.inl ⟨e, rfl, rfl⟩
        | ok x =>
          obtain ⟨v, hv⟩ := hf x
          simp only [hv]
          split_ifs
          · exact Or.inr ⟨_, _, _, rfl, rfl, rfl, rfl, fun h => absurd rfl h⟩
          · exact Or.inr ⟨_, _, _, rfl, rfl, rfl, rfl, fun h => absurd rfl h⟩
      | some tol =>
        have hst : t = s := by
          cases s; cases t
          simp only at r1 r2 r3
          rw [r1, r2, r3 (by simp)]
        subst hst
        have e : ProximalPoint.bodyShow f τ (some tol) n i t = ProximalPoint.body f τ (some tol) i t := by
          unfold ProximalPoint.bodyShow
          cases ProximalPoint.body f τ (some tol) i t with
          | error e => rfl
          | ok p => simp [Bind.bind, Except.bind, Pure.pure, Except.pure]
        rw [e]
        cases ProximalPoint.body f τ (some tol) i t with
        | error e => exact Or.inl ⟨e, rfl, rfl⟩
        | ok p => exact Or.inr ⟨p.1, p.1, p.2, rfl, rfl, rfl, rfl, fun _ => rfl⟩) n 0 ⟨x0, none, []⟩ ⟨x0, none, []⟩ ⟨rfl, rfl, fun _ => rfl⟩
  rcases key with ⟨e, h1, h2⟩ | ⟨s, t, h1, h2, h3, h4, -⟩
  · exact ⟨fun e' h => by rw [← h, ProximalPoint, h1]; exact h2, fun r h => by rw [ProximalPoint, h1] at h; cases h⟩
  · refine ⟨fun e' h => absurd (h1.symm.trans h) (by simp), fun r h => ?_⟩
    rw [ProximalPoint, h1] at h
    cases h
    exact ⟨t, h2, h3, h4⟩

/-- C76: `ProximalGradient` with `show=True` returns what it returns with `show=False` (if `f` and `g` can be evaluated). -/
theorem C76_proximalgradient (f g : ProxOp E) (hf : ∀ x, ∃ v, f.call x = .ok v) (hg : ∀ x, ∃ v, g.call x = .ok v) (x0 : E) (a : PGArgs) :
    (∀ e, ProximalGradient f g x0 a = .error e → ProximalGradientShow f g x0 a = .error e) ∧
    ∀ r, ProximalGradient f g x0 a = .ok r → ∃ r', ProximalGradientShow f g x0 a = .ok r' ∧ r'.x = r.x ∧ r'.log = r.log := by
  have key : ∀ bt n (s0 : PGState E), (∃ e, forRange (PG.body f g a bt) n 0 s0 = .error e ∧ forRange (PG.bodyShow f g a bt) n 0 s0 = .error e) ∨
      ∃ s t, forRange (PG.body f g a bt) n 0 s0 = .ok s ∧ forRange (PG.bodyShow f g a bt) n 0 s0 = .ok t ∧
        (t.x = s.x ∧ t.y = s.y ∧ t.t = s.t ∧ t.tau = s.tau ∧ t.log = s.log ∧ (a.tol ≠ none → t.pfg = s.pfg)) := by
    intro bt n s0
    refine forRange_sim (R := fun s t => t.x = s.x ∧ t.y = s.y ∧ t.t = s.t ∧ t.tau = s.tau ∧ t.log = s.log ∧ (a.tol ≠ none → t.pfg = s.pfg)) (fun i s t hR => ?_)
      n 0 s0 s0 ⟨rfl, rfl, rfl, rfl, rfl, fun _ => rfl⟩
    obtain ⟨r1, r2, r3, r4, r5, r6⟩ := hR
    cases ht : a.tol with
    | none =>
      unfold PG.bodyShow PG.body
      rw [ht]
      simp only [Bind.bind, Except.bind, Pure.pure, Except.pure]
      cases he : a.epsg.at i with
      | error e => exact Or.inl ⟨e, rfl, rfl⟩
      | ok e =>
        simp only
        have hstep : PG.step f g a bt e t = PG.step f g a bt e s := by unfold PG.step; rw [r1, r2, r4]
        rw [hstep, r1, r3, r5]
        cases PG.step f g a bt e s with
        | error e => exact Or.inl ⟨e, rfl, rfl⟩
        | ok p =>
          obtain ⟨v, hv⟩ := hf p.1
          obtain ⟨w, hw⟩ := hg p.1
          simp only [hv, hw]
          split_ifs
          · exact Or.inr ⟨_, _, _, rfl, rfl, rfl, rfl, rfl, rfl, rfl, fun h => absurd rfl h⟩
          · exact Or.inr ⟨_, _, _, rfl, rfl, rfl, rfl, rfl, rfl, rfl, fun h => absurd rfl h⟩
    | some tol =>
      have hst : t = s := by
        cases s; cases t
        simp only at r1 r2 r3 r4 r5 r6
        rw [r1, r2, r3, r4, r5, r6 (by rw [ht]; simp)]
      subst hst
      have e : PG.bodyShow f g a bt i t = PG.body f g a bt i t := by
        unfold PG.bodyShow
        cases PG.body f g a bt i t with
        | error e => rfl
        | ok p => simp [Bind.bind, Except.bind, Pure.pure, Except.pure, ht]
      rw [e]
      cases PG.body f g a bt i t with
      | error e => exact Or.inl ⟨e, rfl, rfl⟩
      | ok p => exact Or.inr ⟨p.1, p.1, p.2, rfl, rfl, rfl, rfl, rfl, rfl, rfl, fun _ => rfl⟩
  have hrun : (∃ e, ProximalGradient f g x0 a = .error e ∧ ProximalGradientShow f g x0 a = .error e) ∨ ∃ bt s0, ProximalGradient f g x0 a = forRange (PG.body f g a bt) a.niter 0 s0 ∧
      ProximalGradientShow f g x0 a = forRange (PG.bodyShow f g a bt) a.niter 0 s0 := by
    unfold ProximalGradient ProximalGradientShow
    simp only [Bind.bind, Except.bind]
    cases a.epsg.printCheck a.niter with
    | error e => exact Or.inl ⟨e, rfl, rfl⟩
    | ok _ =>
      simp only
      split_ifs
      · exact Or.inl ⟨_, rfl, rfl⟩
      · cases a.tau with
        | none => exact Or.inr ⟨_, _, rfl, rfl⟩
        | some τ => exact Or.inr ⟨_, _, rfl, rfl⟩
  rcases hrun with ⟨e, h1, h2⟩ | ⟨bt, s0, h1, h2⟩
  · rw [h1, h2]
    exact ⟨fun e' h => h, fun r h => absurd h (by simp)⟩
  · rw [h1, h2]
    rcases key bt a.niter s0 with ⟨e, h3, h4⟩ | ⟨s, t, h3, h4, h5, -, -, -, h6, -⟩
    · rw [h3, h4]
      exact ⟨fun e' h => h, fun r h => absurd h (by simp)⟩
    · rw [h3, h4]
      refine ⟨fun e' h => absurd h (by simp), fun r h => ?_⟩
      cases h
      exact ⟨t, rfl, h5, h6⟩

/-- C76 (partial: without the safeguard, or with a tolerance): `AndersonProximalGradient` with `show=True` returns what it returns with `show=False`. -/
theorem C76_anderson_partial (f g : ProxOp E) (hf : ∀ x, ∃ v, f.call x = .ok v) (hg : ∀ x, ∃ v, g.call x = .ok v) (solve : List E → Py (List ℝ)) (x0 : E) (τ : ℝ) (epsg : StepSpec) (n nh : ℕ)
    (sg : Bool) (tol : Option ℝ) (hok : sg = false ∨ tol ≠ none) :
    (∀ e, AndersonProximalGradient f g solve x0 τ epsg n nh sg tol = .error e → AndersonProximalGradientShow f g solve x0 τ epsg n nh sg tol = .error e) ∧
    ∀ r, AndersonProximalGradient f g solve x0 τ epsg n nh sg tol = .ok r → ∃ r', AndersonProximalGradientShow f g solve x0 τ epsg n nh sg tol = .ok r' ∧ r'.x = r.x ∧ r'.log = r.log := by
  have key : ∀ n' (s0 : AndersonState E), (∃ e, forRange (Anderson.body f g solve τ epsg nh sg tol) n' 0 s0 = .error e ∧ forRange (Anderson.bodyShow f g solve τ epsg nh sg tol n) n' 0 s0 = .error e) ∨
      ∃ s t, forRange (Anderson.body f g solve τ epsg nh sg tol) n' 0 s0 = .ok s ∧ forRange (Anderson.bodyShow f g solve τ epsg nh sg tol n) n' 0 s0 = .ok t ∧
        (t.x = s.x ∧ t.y = s.y ∧ t.R = s.R ∧ t.G = s.G ∧ t.log = s.log ∧ (tol ≠ none → t.pf = s.pf ∧ t.pfg = s.pfg)) := by
    intro n' s0
    refine forRange_sim (R := fun s t => t.x = s.x ∧ t.y = s.y ∧ t.R = s.R ∧ t.G = s.G ∧ t.log = s.log ∧ (tol ≠ none → t.pf = s.pf ∧ t.pfg = s.pfg)) (fun i s t hR => ?_)
      n' 0 s0 s0 ⟨rfl, rfl, rfl, rfl, rfl, fun _ => ⟨rfl, rfl⟩⟩
    obtain ⟨r1, r2, r3, r4, r5, r6⟩ := hR
    cases tol with
    | none =>
      have hsg : sg = false := hok.resolve_right (by simp)
      subst hsg
      unfold Anderson.bodyShow Anderson.body
      simp only [Bind.bind, Except.bind, Pure.pure, Except.pure, Bool.false_eq_true, if_false]
      rw [r1, r2, r3, r4, r5]
      cases f.grad s.x with
      | error e => exact Or.inl ⟨e, rfl, rfl⟩
      | ok gx =>
        simp only
        cases solve (histPush nh i (s.x - τ • gx - s.y) s.R) with
        | error e => exact Or.inl ⟨e, rfl, rfl⟩
        | ok α =>
        simp only
        cases he : epsg.at i with
        | error e => exact Or.inl ⟨e, rfl, rfl⟩
        | ok e =>
          simp only
          split
          · exact Or.inl ⟨_, rfl, rfl⟩
          · rename_i x hx
            obtain ⟨v, hv⟩ := hf x
            obtain ⟨w, hw⟩ := hg x
            simp only [hv, hw]
            split_ifs
            · exact Or.inr ⟨_, _, _, rfl, rfl, rfl, rfl, rfl, rfl, rfl, fun h => absurd rfl h⟩
            · exact Or.inr ⟨_, _, _, rfl, rfl, rfl, rfl, rfl, rfl, rfl, fun h => absurd rfl h⟩
    | some tol =>
      have hst : t = s := by
        cases s; cases t
        simp only at r1 r2 r3 r4 r5 r6
        obtain ⟨r6, r7⟩ := r6 (by simp)
        rw [r1, r2, r3, r4, r5, r6, r7]
      subst hst
      have e : Anderson.bodyShow f g solve τ epsg nh sg (some tol) n i t = Anderson.body f g solve τ epsg nh sg (some tol) i t := by
        unfold Anderson.bodyShow
        cases Anderson.body f g solve τ epsg nh sg (some tol) i t with
        | error e => rfl
        | ok p => simp [Bind.bind, Except.bind, Pure.pure, Except.pure]
      rw [e]
      cases Anderson.body f g solve τ epsg nh sg (some tol) i t with
      | error e => exact Or.inl ⟨e, rfl, rfl⟩
      | ok p => exact Or.inr ⟨p.1, p.1, p.2, rfl, rfl, rfl, rfl, rfl, rfl, rfl, fun _ => ⟨rfl, rfl⟩⟩
  unfold AndersonProximalGradient AndersonProximalGradientShow
  simp only [Bind.bind, Except.bind]
  cases epsg.printCheck n with
  | error e => exact ⟨fun e' h => h, fun r h => absurd h (by simp)⟩
  | ok _ =>
    cases epsg.at 0 with
    | error e => exact ⟨fun e' h => h, fun r h => absurd h (by simp)⟩
    | ok e0 =>
      cases hi : Anderson.init f g x0 τ e0 with
      | error e => simp only [hi]; exact ⟨fun e' h => h, fun r h => absurd h (by simp)⟩
      | ok s0 =>
        simp only [hi]
        rcases key n s0 with ⟨e, h3, h4⟩ | ⟨s, t, h3, h4, h5, -, -, -, h6, -⟩
        · rw [h3, h4]
          exact ⟨fun e' h => h, fun r h => absurd h (by simp)⟩
        · rw [h3, h4]
          refine ⟨fun e' h => absurd h (by simp), fun r h => ?_⟩
          cases h
          exact ⟨t, rfl, h5, h6⟩

/-- C76 refuted for the safeguarded `AndersonProximalGradient`: `show=True` changes the result, since the logger overwrites the variable the safeguard compares with. -/
theorem C76_anderson_refuted (solve : List ℝ → Py (List ℝ)) (hs : ∀ a b : ℝ, a ≠ b → solve [a, b] = .ok [b / (b - a), -a / (b - a)]) :
    ∃ r r', AndersonProximalGradient lineSq lineZero solve 1 (3 / 2) (.scalar 1) 2 2 true none = .ok r ∧
      AndersonProximalGradientShow lineSq lineZero solve 1 (3 / 2) (.scalar 1) 2 2 true none = .ok r' ∧ r.x = 0 ∧ r'.x = -1 / 8 := by
  have e1 := hs (3 / 4) (-1 / 2) (by norm_num)
  have e2 := hs (-3 / 8) (3 / 4) (by norm_num)
  norm_num at e1 e2
  simp only [AndersonProximalGradient, AndersonProximalGradientShow, StepSpec.printCheck, StepSpec.at, Anderson.init, lineSq, lineZero, ProxOp.grad, ProxOp.prox, forRange, Anderson.body,
    Anderson.bodyShow, printed, histPush, Bind.bind, Except.bind, Pure.pure, Except.pure]
  norm_num [e1, e2, combine, npRatioTest, CallVal.toReal]

/-- A `solve` as in the refutations exists. -/
example : ∃ solve : List ℝ → Py (List ℝ), ∀ a b : ℝ, a ≠ b → solve [a, b] = .ok [b / (b - a), -a / (b - a)] :=
  ⟨fun l => match l with | [a, b] => .ok [b / (b - a), -a / (b - a)] | _ => .ok [], fun _ _ _ => rfl⟩

/-- The `alpha` of the refutations is the one of primal.py:655-659 on the line: it has sum 1 and `(R Rᵀ + c) alpha` is a multiple of the vector of ones (`c = epsr ‖R‖²` is added to every
entry), so `alpha` is `(R Rᵀ + c)⁻¹ 1` divided by the sum of its entries. -/
example (a b c : ℝ) (h : a ≠ b) : b / (b - a) + -a / (b - a) = 1 ∧ (a * a + c) * (b / (b - a)) + (a * b + c) * (-a / (b - a)) = c ∧
    (b * a + c) * (b / (b - a)) + (b * b + c) * (-a / (b - a)) = c := by
  have hne : b - a ≠ 0 := sub_ne_zero.2 (Ne.symm h)
  refine ⟨?_, ?_, ?_⟩ <;> field_simp <;> ring

end Verif
