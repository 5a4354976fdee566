import Verif.Model.PrimalDual
import Verif.Model.Palm
import Verif.Props.Symmetry
import Verif.Props.Relaxed

/-!
# C111: a run can be stopped and continued from what it returned

A run of `n + m` iterations is compared with a run of `n` iterations followed by a run of `m` iterations that is started from what the first one returned.  The two agree when the
returned values, and the callback calls of the two runs taken together, are those of the long run, and when an exception of the long run is an exception of one of the short runs and
the other way round.
-/

open scoped RealInnerProductSpace

namespace Verif

variable {E F : Type} [NormedAddCommGroup E] [InnerProductSpace ℝ E] [NormedAddCommGroup F] [InnerProductSpace ℝ F]

lemma forRange_add {S : Type} {body : ℕ → S → Py (S × Bool)} (hb : ∀ i s s' b, body i s = .ok (s', b) → b = false) (m : ℕ) :
    ∀ n i s, forRange body (n + m) i s = (forRange body n i s).bind (forRange body m (i + n))
  | 0, i, s => by rw [Nat.zero_add]; rfl
  | n + 1, i, s => by
    rw [show n + 1 + m = (n + m) + 1 by omega]
    simp only [forRange]
    cases h : body i s with
    | error e => rfl
    | ok q =>
      obtain ⟨s', b⟩ := q
      obtain rfl := hb i s s' b h
      simp only [Bool.false_eq_true, if_false]
      rw [forRange_add hb m n (i + 1) s', show i + 1 + n = i + (n + 1) by omega]

lemma forRange_shift {S : Type} {body body' : ℕ → S → Py (S × Bool)} {R : S → S → Prop} (n : ℕ) : ∀ (m k : ℕ)
    (_ : ∀ j, k ≤ j → j < k + m → ∀ s t, R s t → (∃ e, body (n + j) s = .error e ∧ body' j t = .error e) ∨
      ∃ s' t', body (n + j) s = .ok (s', false) ∧ body' j t = .ok (t', false) ∧ R s' t') (s t : S) (_ : R s t),
    (∃ e, forRange body m (n + k) s = .error e ∧ forRange body' m k t = .error e) ∨ ∃ s' t', forRange body m (n + k) s = .ok s' ∧ forRange body' m k t = .ok t' ∧ R s' t'
  | 0, _, _, s, t, hR => .inr ⟨s, t, rfl, rfl, hR⟩
  | m + 1, k, h, s, t, hR => by
    simp only [forRange]
    rcases h k le_rfl (by omega) s t hR with ⟨e, h1, h2⟩ | ⟨s', t', h1, h2, hR'⟩
    · exact .inl ⟨e, by rw [h1], by rw [h2]⟩
    · rw [h1, h2]
      simp only [Bool.false_eq_true, if_false]
      exact forRange_shift n m (k + 1) (fun j h1 h2 => h j (by omega) (by omega)) s' t' hR'

lemma restart_eq {S O : Type} {body body' : ℕ → S → Py (S × Bool)} (n m : ℕ) (s0 : S) (rs : S → S) (obs : S → O) (comb : S → S → O) (I : S → Prop) (R : S → S → S → Prop)
    (hb : ∀ i s s' b, body i s = .ok (s', b) → b = false) (hI0 : I s0) (hI : ∀ i s s' b, I s → body i s = .ok (s', b) → I s')
    (hR0 : ∀ s1, I s1 → R s1 s1 (rs s1))
    (h : ∀ s1, ∀ j < m, ∀ s t, R s1 s t → (∃ e, body (n + j) s = .error e ∧ body' j t = .error e) ∨ ∃ s' t', body (n + j) s = .ok (s', false) ∧ body' j t = .ok (t', false) ∧ R s1 s' t')
    (hobs : ∀ s1 s t, R s1 s t → obs s = comb s1 t) :
    obs <$> forRange body (n + m) 0 s0 = (do
      let s1 ← forRange body n 0 s0
      let t ← forRange body' m 0 (rs s1)
      pure (comb s1 t)) := by
  rw [forRange_add hb]
  cases h1 : forRange body n 0 s0 with
  | error e => rfl
  | ok s1 =>
    have hi := forRange_inv hI n 0 s0 s1 hI0 h1
    simp only [Except.bind, py_ok_bind]
    have key := forRange_shift (R := R s1) n m 0 (fun j _ hj s t => h s1 j (by omega) s t) s1 (rs s1) (hR0 s1 hi)
    rw [Nat.add_zero] at key
    rw [Nat.zero_add]
    rcases key with ⟨e, k1, k2⟩ | ⟨s', t', k1, k2, hR⟩
    · rw [k1, k2]; rfl
    · rw [k1, k2]
      simp only [py_ok_bind, pure, Except.pure]
      exact congrArg Except.ok (hobs s1 s' t' hR)

/-- C111 for `ProximalPoint` without a tolerance. -/
theorem C111_proximal_point_partial (f : ProxOp E) (x0 : E) (τ : ℝ) (n m : ℕ) :
    (fun r => (r.x, r.log)) <$> ProximalPoint f x0 τ (n + m) none = (do
      let s ← ProximalPoint f x0 τ n none
      let t ← ProximalPoint f s.x τ m none
      pure (t.x, s.log ++ t.log)) := by
  simp only [ProximalPoint]
  refine restart_eq (S := PPState E) n m _ (fun s => ⟨s.x, none, []⟩) _ (fun s t => (t.x, s.log ++ t.log)) (fun _ => True) (fun s1 s t => s.x = t.x ∧ s.log = s1.log ++ t.log) ?_ trivial
    (fun _ _ _ _ _ _ => trivial) (fun s1 _ => ⟨rfl, by simp⟩) ?_ (fun s1 s t h => by simp only [h.1, h.2])
  · intro i s s' b h
    simp only [ProximalPoint.body] at h
    cases hx : f.prox s.x τ with
    | error e => rw [hx] at h; cases h
    | ok x => rw [hx] at h; cases h; rfl
  · rintro s1 j - s t ⟨h1, h2⟩
    simp only [ProximalPoint.body, h1]
    cases hx : f.prox t.x τ with
    | error e => exact .inl ⟨e, rfl, rfl⟩
    | ok x => exact .inr ⟨_, _, rfl, rfl, rfl, by rw [h2, List.append_assoc]⟩

/-- C111 for `HQS`: the second call gets both returned vectors and the rest of the steps. -/
theorem C111_hqs (f g : ProxOp E) (x0 z0 : Option E) (tau tau' : StepSpec) (gfirst : Bool) (n m : ℕ) (ht : ∀ j < m, tau'.at j = tau.at (n + j)) :
    (fun r => (r.x, r.z, r.log)) <$> HQS f g x0 z0 tau (n + m) gfirst = (do
      let s ← HQS f g x0 z0 tau n gfirst
      let t ← HQS f g (some s.x) (some s.z) tau' m gfirst
      pure (t.x, t.z, s.log ++ t.log)) := by
  simp only [HQS]
  cases hxz : x0z0Init x0 z0 with
  | error e => rfl
  | ok p =>
    simp only [py_ok_bind, x0z0Init]
    refine restart_eq (S := SplitState E) n m _ (fun s => ⟨s.x, s.z, 0, []⟩) _ (fun s t => (t.x, t.z, s.log ++ t.log)) (fun _ => True) (fun s1 s t => s.x = t.x ∧ s.z = t.z ∧ s.log = s1.log ++ t.log) ?_ trivial
      (fun _ _ _ _ _ _ => trivial) (fun s1 _ => ⟨rfl, rfl, by simp⟩) ?_ (fun s1 s t h => by simp only [h.1, h.2.1, h.2.2])
    · intro i s s' b h
      simp only [HQS.body] at h
      cases hτ : tau.at i with
      | error e => rw [hτ] at h; cases h
      | ok τ =>
        rw [hτ] at h
        simp only [py_ok_bind] at h
        split_ifs at h
        · cases hz : g.prox s.x τ with
          | error e => rw [hz] at h; cases h
          | ok z =>
            rw [hz] at h
            simp only [py_ok_bind] at h
            cases hx : f.prox z τ with
            | error e => rw [hx] at h; cases h
            | ok x => rw [hx] at h; cases h; rfl
        · cases hx : f.prox s.z τ with
          | error e => rw [hx] at h; cases h
          | ok x =>
            rw [hx] at h
            simp only [py_ok_bind] at h
            cases hz : g.prox x τ with
            | error e => rw [hz] at h; cases h
            | ok z => rw [hz] at h; cases h; rfl
    · rintro s1 j hj s t ⟨h1, h2, h3⟩
      simp only [HQS.body, ht j hj, h1, h2]
      cases hτ : tau.at (n + j) with
      | error e => exact .inl ⟨e, rfl, rfl⟩
      | ok τ =>
        simp only [py_ok_bind]
        split_ifs
        · cases hz : g.prox t.x τ with
          | error e => exact .inl ⟨e, rfl, rfl⟩
          | ok z =>
            simp only [py_ok_bind]
            cases hx : f.prox z τ with
            | error e => exact .inl ⟨e, rfl, rfl⟩
            | ok x => exact .inr ⟨_, _, rfl, rfl, rfl, rfl, by rw [h3, List.append_assoc]⟩
        · cases hx : f.prox t.z τ with
          | error e => exact .inl ⟨e, rfl, rfl⟩
          | ok x =>
            simp only [py_ok_bind]
            cases hz : g.prox x τ with
            | error e => exact .inl ⟨e, rfl, rfl⟩
            | ok z => exact .inr ⟨_, _, rfl, rfl, rfl, rfl, by rw [h3, List.append_assoc]⟩

lemma dr_body_some {f g : ProxOp E} {τ η : ℝ} {gfirst : Bool} {i : ℕ} {s s' : DRState E} {b : Bool} (h : DR.body f g τ η gfirst i s = .ok (s', b)) :
    s'.x.isSome = true ∧ b = false := by
  simp only [DR.body] at h
  split_ifs at h
  · cases hz : g.prox s.y τ with
    | error e => rw [hz] at h; cases h
    | ok z =>
      rw [hz] at h
      simp only [py_ok_bind] at h
      cases hx : f.prox ((2 : ℝ) • z - s.y) τ with
      | error e => rw [hx] at h; cases h
      | ok x => rw [hx] at h; cases h; exact ⟨rfl, rfl⟩
  · cases hz : f.prox s.y τ with
    | error e => rw [hz] at h; cases h
    | ok z =>
      rw [hz] at h
      simp only [py_ok_bind] at h
      cases hx : g.prox ((2 : ℝ) • z - s.y) τ with
      | error e => rw [hx] at h; cases h
      | ok x => rw [hx] at h; cases h; exact ⟨rfl, rfl⟩

lemma dr_some {f g : ProxOp E} {τ η : ℝ} {gfirst : Bool} {n : ℕ} (hn : 0 < n) {s r : DRState E} (h : forRange (DR.body f g τ η gfirst) n 0 s = .ok r) : ∃ x, r.x = some x :=
  Option.isSome_iff_exists.1 <| (forRange_inv_idx (I := fun i s => 0 < i → s.x.isSome = true)
    (fun _ _ _ _ _ hb => ⟨fun _ => (dr_body_some hb).1, (dr_body_some hb).2⟩) n 0 s r (fun h => absurd h (by omega)) h) (by omega)

/-- C111 for the Douglas-Rachford solver: the second call starts from the second returned vector. -/
theorem C111_douglas_rachford (f g : ProxOp E) (x0 : E) (τ η : ℝ) (gfirst : Bool) (n m : ℕ) (hn : 0 < n) (hm : 0 < m) :
    DouglasRachford f g x0 τ η (n + m) gfirst = (do
      let s ← DouglasRachford f g x0 τ η n gfirst
      let t ← DouglasRachford f g s.2.1 τ η m gfirst
      pure (t.1, t.2.1, s.2.2 ++ t.2.2)) := by
  have key := restart_eq (body := DR.body f g τ η gfirst) (body' := DR.body f g τ η gfirst) n m ⟨none, x0, []⟩ (fun s => ⟨none, s.y, []⟩) (fun s => (s.x, s.y, s.log))
    (fun s t => (t.x.or s.x, t.y, s.log ++ t.log)) (fun _ => True) (fun s1 s t => s.x = t.x.or s1.x ∧ s.y = t.y ∧ s.log = s1.log ++ t.log) (fun i s s' b h => (dr_body_some h).2) trivial
    (fun _ _ _ _ _ _ => trivial) (fun s1 _ => ⟨rfl, rfl, by simp⟩) (by
      rintro s1 j - s t ⟨-, h2, h3⟩
      simp only [DR.body, h2]
      split_ifs
      · cases hz : g.prox t.y τ with
        | error e => exact .inl ⟨e, rfl, rfl⟩
        | ok z =>
          simp only [py_ok_bind]
          cases hx : f.prox ((2 : ℝ) • z - t.y) τ with
          | error e => exact .inl ⟨e, rfl, rfl⟩
          | ok x => exact .inr ⟨_, _, rfl, rfl, rfl, rfl, by rw [h3, List.append_assoc]⟩
      · cases hz : f.prox t.y τ with
        | error e => exact .inl ⟨e, rfl, rfl⟩
        | ok z =>
          simp only [py_ok_bind]
          cases hx : g.prox ((2 : ℝ) • z - t.y) τ with
          | error e => exact .inl ⟨e, rfl, rfl⟩
          | ok x => exact .inr ⟨_, _, rfl, rfl, rfl, rfl, by rw [h3, List.append_assoc]⟩) (fun s1 s t h => by simp only [h.1, h.2.1, h.2.2])
  simp only [DouglasRachford]
  cases h1 : forRange (DR.body f g τ η gfirst) n 0 ⟨none, x0, []⟩ with
  | error e =>
    rw [h1] at key
    cases h2 : forRange (DR.body f g τ η gfirst) (n + m) 0 ⟨none, x0, []⟩ with
    | error e' => rw [h2] at key; cases key; rfl
    | ok r => rw [h2] at key; cases key
  | ok s1 =>
    obtain ⟨x1, hx1⟩ := dr_some hn h1
    rw [h1] at key
    simp only [py_ok_bind, hx1, pure, Except.pure] at key ⊢
    cases h3 : forRange (DR.body f g τ η gfirst) m 0 ⟨none, s1.y, []⟩ with
    | error e =>
      rw [h3] at key
      cases h2 : forRange (DR.body f g τ η gfirst) (n + m) 0 ⟨none, x0, []⟩ with
      | error e' => rw [h2] at key; cases key; rfl
      | ok r => rw [h2] at key; cases key
    | ok t =>
      obtain ⟨x2, hx2⟩ := dr_some hm h3
      rw [h3] at key
      cases h2 : forRange (DR.body f g τ η gfirst) (n + m) 0 ⟨none, x0, []⟩ with
      | error e' => rw [h2] at key; cases key
      | ok r =>
        rw [h2] at key
        simp only [py_ok_bind, hx2, Option.some_or] at key ⊢
        have h := Except.ok.inj key
        simp only [Prod.mk.injEq] at h
        simp only [h.1, h.2.1, h.2.2]

lemma printCheck_pos (e : StepSpec) {n : ℕ} (hn : 0 < n) : e.printCheck n = .ok () := by
  unfold StepSpec.printCheck
  split <;> first | rfl | exact if_neg (by omega)

lemma pg_body_out {f g : ProxOp E} {a : PGArgs} (hacc : a.acceleration = .none) (htol : a.tol = none) {i : ℕ} {s s' : PGState E} {b : Bool}
    (h : PG.body f g a false i s = .ok (s', b)) : b = false ∧ s'.y = s'.x ∧ s'.tau = s.tau := by
  simp only [PG.body, PG.step, hacc, htol, Bool.false_eq_true, if_false, momentum, zero_smul, add_zero] at h
  cases hε : a.epsg.at i with
  | error e => rw [hε] at h; cases h
  | ok ε =>
    rw [hε] at h
    simp only [py_ok_bind] at h
    split_ifs at h
    · cases hg : f.grad s.y with
      | error e => rw [hg] at h; cases h
      | ok v =>
        rw [hg] at h
        simp only [py_ok_bind] at h
        cases hp : g.prox (s.y - s.tau • v) (ε * s.tau) with
        | error e => rw [hp] at h; cases h
        | ok p => rw [hp] at h; cases h; exact ⟨rfl, rfl, rfl⟩
    · cases hg : f.grad s.x with
      | error e => rw [hg] at h; cases h
      | ok v =>
        rw [hg] at h
        simp only [py_ok_bind] at h
        cases hp : g.prox (s.x - s.tau • v) (ε * s.tau) with
        | error e => rw [hp] at h; cases h
        | ok p => rw [hp] at h; cases h; exact ⟨rfl, rfl, rfl⟩

/-- C111 for `ProximalGradient` with a given step, no acceleration and no tolerance; relaxation is allowed. -/
theorem C111_proximal_gradient_partial (f g : ProxOp E) (x0 : E) (a : PGArgs) (τ : ℝ) (epsg' : StepSpec) (n m : ℕ) (hn : 0 < n) (hm : 0 < m) (hτ : a.tau = some τ)
    (hb : a.backtracking = false) (hacc : a.acceleration = .none) (htol : a.tol = none) (he : ∀ j < m, epsg'.at j = a.epsg.at (n + j)) :
    (fun r => (r.x, r.log)) <$> ProximalGradient f g x0 { a with niter := n + m } = (do
      let s ← ProximalGradient f g x0 { a with niter := n }
      let t ← ProximalGradient f g s.x { a with niter := m, epsg := epsg' }
      pure (t.x, s.log ++ t.log)) := by
  obtain ⟨tau, bt, β, epsg, niter, niterback, acc, eta, tol⟩ := a
  simp only at hτ hb hacc htol he
  subst hτ hb hacc htol
  simp only [ProximalGradient, printCheck_pos _ hn, printCheck_pos _ hm, printCheck_pos _ (show 0 < n + m by omega), py_ok_bind, reduceCtorEq, if_false]
  refine restart_eq (S := PGState E) n m _ (fun s => ⟨s.x, s.x, 1, τ, none, []⟩) _ (fun s t => (t.x, s.log ++ t.log)) (fun s => s.y = s.x ∧ s.tau = τ)
    (fun s1 s t => s.x = t.x ∧ s.log = s1.log ++ t.log ∧ (s.y = s.x ∧ s.tau = τ) ∧ t.y = t.x ∧ t.tau = τ) (fun i s s' b h => (pg_body_out rfl rfl h).1) ⟨rfl, rfl⟩
    (fun i s s' b hi h => ⟨(pg_body_out rfl rfl h).2.1, ((pg_body_out rfl rfl h).2.2).trans hi.2⟩) (fun s1 hi => ⟨rfl, by simp, hi, rfl, rfl⟩) ?_ (fun s1 s t h => by simp only [h.1, h.2.1])
  rintro s1 j hj s t ⟨h1, h2, ⟨h3, h4⟩, h5, h6⟩
  simp only [PG.body, he j hj]
  cases hε : epsg.at (n + j) with
  | error e => exact .inl ⟨e, rfl, rfl⟩
  | ok ε =>
    simp only [py_ok_bind, PG.step, Bool.false_eq_true, if_false, h3, h4, h5, h6, h1]
    split_ifs
    · cases hg : f.grad t.x with
      | error e => exact .inl ⟨e, rfl, rfl⟩
      | ok v =>
        simp only [py_ok_bind]
        cases hp : g.prox (t.x - τ • v) (ε * τ) with
        | error e => exact .inl ⟨e, rfl, rfl⟩
        | ok p =>
          exact .inr ⟨_, _, rfl, rfl, rfl, by simp only [h2, List.append_assoc], ⟨by simp only [momentum, zero_smul, add_zero], rfl⟩, by simp only [momentum, zero_smul, add_zero], rfl⟩
    · cases hg : f.grad t.x with
      | error e => exact .inl ⟨e, rfl, rfl⟩
      | ok v =>
        simp only [py_ok_bind]
        cases hp : g.prox (t.x - τ • v) (ε * τ) with
        | error e => exact .inl ⟨e, rfl, rfl⟩
        | ok p =>
          exact .inr ⟨_, _, rfl, rfl, rfl, by simp only [h2, List.append_assoc], ⟨by simp only [momentum, zero_smul, add_zero], rfl⟩, by simp only [momentum, zero_smul, add_zero], rfl⟩

lemma pd_body_out {f : ProxOp E} {g : ProxOp F} {A : LinOp E F} {z : Option E} {tau mu : StepSpec} {θ : ℝ} {gfirst : Bool} {i : ℕ} {s s' : PDState E F} {b : Bool}
    (h : PrimalDual.body f g A z tau mu θ gfirst i s = .ok (s', b)) : b = false ∧ s'.xhat = s'.x + θ • (s'.x - s.x) := by
  simp only [PrimalDual.body] at h
  cases hτ : tau.atStrict i with
  | error e => rw [hτ] at h; cases h
  | ok τ =>
    rw [hτ] at h
    simp only [py_ok_bind] at h
    cases hμ : mu.atStrict i with
    | error e => rw [hμ] at h; cases h
    | ok μ =>
      rw [hμ] at h
      simp only [py_ok_bind] at h
      split_ifs at h
      · cases hy : g.proxdual (s.y + μ • A.matvec s.xhat) μ with
        | error e => rw [hy] at h; cases h
        | ok y =>
          rw [hy] at h
          simp only [py_ok_bind] at h
          cases hx : f.prox (s.x - τ • pdATy A z y) τ with
          | error e => rw [hx] at h; cases h
          | ok x => rw [hx] at h; cases h; exact ⟨rfl, rfl⟩
      · cases hx : f.prox (s.x - τ • pdATy A z s.y) τ with
        | error e => rw [hx] at h; cases h
        | ok x =>
          rw [hx] at h
          simp only [py_ok_bind] at h
          cases hy : g.proxdual (s.y + μ • A.matvec (x + θ • (x - s.x))) μ with
          | error e => rw [hy] at h; cases h
          | ok y => rw [hy] at h; cases h; exact ⟨rfl, rfl⟩

/-- C111 for `PrimalDual` with `gfirst=False`, or without extrapolation. -/
theorem C111_primal_dual_partial (f : ProxOp E) (g : ProxOp F) (A : LinOp E F) (x0 : E) (y0 : Option F) (z : Option E) (tau tau' mu mu' : StepSpec) (θ : ℝ) (gfirst : Bool) (n m : ℕ)
    (hg : gfirst = false ∨ θ = 0) (ht : ∀ j < m, tau'.atStrict j = tau.atStrict (n + j)) (hu : ∀ j < m, mu'.atStrict j = mu.atStrict (n + j)) :
    (fun r => (r.x, r.y, r.log)) <$> PrimalDual f g A x0 y0 z tau mu θ (n + m) gfirst = (do
      let s ← PrimalDual f g A x0 y0 z tau mu θ n gfirst
      let t ← PrimalDual f g A s.x (some s.y) z tau' mu' θ m gfirst
      pure (t.x, t.y, s.log ++ t.log)) := by
  simp only [PrimalDual, Option.getD_some]
  refine restart_eq (S := PDState E F) n m _ (fun s => ⟨s.x, s.y, s.x, []⟩) _ (fun s t => (t.x, t.y, s.log ++ t.log)) (fun s => gfirst = true → s.xhat = s.x)
    (fun s1 s t => s.x = t.x ∧ s.y = t.y ∧ s.log = s1.log ++ t.log ∧ (gfirst = true → s.xhat = s.x ∧ t.xhat = t.x)) ?_ (fun _ => rfl) ?_ (fun s1 h => ⟨rfl, rfl, by simp, fun hg => ⟨h hg, rfl⟩⟩) ?_
    (fun s1 s t h => by simp only [h.1, h.2.1, h.2.2.1])
  · intro i s s' b h
    exact (pd_body_out h).1
  · intro i s s' b _ h hgt
    have h0 : θ = 0 := hg.resolve_left (by rw [hgt]; simp)
    rw [(pd_body_out h).2, h0, zero_smul, add_zero]
  · rintro s1 j hj s t ⟨h1, h2, h3, h4⟩
    simp only [PrimalDual.body, ht j hj, hu j hj, h1, h2]
    cases hτ : tau.atStrict (n + j) with
    | error e => exact .inl ⟨e, rfl, rfl⟩
    | ok τ =>
      simp only [py_ok_bind]
      cases hμ : mu.atStrict (n + j) with
      | error e => exact .inl ⟨e, rfl, rfl⟩
      | ok μ =>
        simp only [py_ok_bind]
        cases gfirst with
        | true =>
          have h0 : θ = 0 := hg.resolve_left (by simp)
          simp only [if_true, (h4 rfl).1, (h4 rfl).2, h1]
          cases hy : g.proxdual (t.y + μ • A.matvec t.x) μ with
          | error e => exact .inl ⟨e, rfl, rfl⟩
          | ok y =>
            simp only [py_ok_bind]
            cases hx : f.prox (t.x - τ • pdATy A z y) τ with
            | error e => exact .inl ⟨e, rfl, rfl⟩
            | ok x =>
              exact .inr ⟨_, _, rfl, rfl, rfl, rfl, by rw [h3, List.append_assoc], fun _ => ⟨by rw [h0, zero_smul, add_zero], by rw [h0, zero_smul, add_zero]⟩⟩
        | false =>
          simp only [Bool.false_eq_true, if_false]
          cases hx : f.prox (t.x - τ • pdATy A z t.y) τ with
          | error e => exact .inl ⟨e, rfl, rfl⟩
          | ok x =>
            simp only [py_ok_bind]
            cases hy : g.proxdual (t.y + μ • A.matvec (x + θ • (x - t.x))) μ with
            | error e => exact .inl ⟨e, rfl, rfl⟩
            | ok y => exact .inr ⟨_, _, rfl, rfl, rfl, rfl, by rw [h3, List.append_assoc], fun h => by cases h⟩

/-- C111 for `PALM` with both `gamma` given; the bilinear object keeps the blocks that the first run left in it. -/
theorem C111_palm_partial (H : BilOp E F) (a : PalmArgs E F) (γ δ : ℝ) (hx : E) (hy : F) (x0 : E) (y0 : F) (n m : ℕ) (hγ : a.gammaf = some γ) (hδ : a.gammag = some δ) :
    (fun r => (r.x, r.y, r.log)) <$> PALM H a hx hy x0 y0 (n + m) = (do
      let s ← PALM H a hx hy x0 y0 n
      let t ← PALM H a s.hx s.hy s.x s.y m
      pure (t.x, t.y, s.log ++ t.log)) := by
  simp only [PALM]
  refine restart_eq (S := PalmState E F) n m _ (fun s => ⟨s.x, s.y, 1, 1, s.hx, s.hy, []⟩) _ (fun s t => (t.x, t.y, s.log ++ t.log)) (fun _ => True)
    (fun s1 s t => s.x = t.x ∧ s.y = t.y ∧ s.hy = t.hy ∧ s.log = s1.log ++ t.log) ?_ trivial (fun _ _ _ _ _ _ => trivial) (fun s1 _ => ⟨rfl, rfl, rfl, by simp⟩) ?_
    (fun s1 s t h => by simp only [h.1, h.2.1, h.2.2.2])
  · intro i s s' b h
    simp only [PALM.body, palmStep, hγ, hδ] at h
    cases h1 : palmFixed (H.ly s.y) γ (H.gradx s.hy s.x) a.proxf s.x with
    | error e => rw [h1] at h; cases h
    | ok x =>
      rw [h1] at h
      simp only [py_ok_bind, pure, Except.pure] at h
      cases h2 : palmFixed (H.lx x) δ (H.grady x s.y) a.proxg s.y with
      | error e => rw [h2] at h; cases h
      | ok y => rw [h2] at h; cases h; rfl
  · rintro s1 j - s t ⟨h1, h2, h3, h4⟩
    simp only [PALM.body, palmStep, hγ, hδ, h1, h2, h3]
    cases k1 : palmFixed (H.ly t.y) γ (H.gradx t.hy t.x) a.proxf t.x with
    | error e => exact .inl ⟨e, rfl, rfl⟩
    | ok x =>
      simp only [py_ok_bind, pure, Except.pure]
      cases k2 : palmFixed (H.lx x) δ (H.grady x t.y) a.proxg t.y with
      | error e => exact .inl ⟨e, rfl, rfl⟩
      | ok y => exact .inr ⟨_, _, rfl, rfl, rfl, rfl, rfl, by rw [h4, List.append_assoc]⟩

/-! ## What the other solvers return is not enough to go on -/

lemma halfSqFn_prox {τ : ℝ} (hτ : 0 < τ) (x : ℝ) : halfSqFn.prox x τ = .ok (x / (1 + τ)) := by simp [halfSqFn, ProxOp.prox, checkTau, hτ]

lemma zeroFn_prox {τ : ℝ} (hτ : 0 < τ) (x : ℝ) : zeroFn.prox x τ = .ok x := by simp [zeroFn, ProxOp.prox, checkTau, hτ]

lemma halfSqFn_proxdual_one (x : ℝ) : halfSqFn.proxdual x 1 = .ok (x / 2) := by
  have h : ¬ (1 : ℝ) ≤ 0 := by norm_num
  simp [halfSqFn, ProxOp.proxdual, ProxOp.moreauStep, checkTau, pure, Except.pure, h, Bind.bind, Except.bind]
  ring

/-- The identity as a linear operator. -/
noncomputable def lineId : LinOp ℝ ℝ := ⟨LinearMap.id, LinearMap.id, fun _ _ => rfl⟩

/-- C111 fails for `ADMM`: the dual variable is neither returned nor accepted.  For `f = g = x²/2` and every start other than 0, one iteration, continued from both returned vectors,
is not two iterations. -/
theorem C111_admm_refuted (c : ℝ) (hc : c ≠ 0) (gfirst : Bool) : ∃ r s t, ADMM halfSqFn halfSqFn (some c) (some c) 1 2 gfirst = .ok r ∧ ADMM halfSqFn halfSqFn (some c) (some c) 1 1 gfirst = .ok s ∧
    ADMM halfSqFn halfSqFn (some s.x) (some s.z) 1 1 gfirst = .ok t ∧ r.x ≠ t.x := by
  cases gfirst
  · refine ⟨_, _, _, by simp [ADMM, x0z0Init, forRange, ADMM.body, halfSqFn_prox, py_ok_bind, pure, Except.pure]; rfl, by simp [ADMM, x0z0Init, forRange, ADMM.body, halfSqFn_prox, py_ok_bind, pure, Except.pure]; rfl,
      by simp [ADMM, x0z0Init, forRange, ADMM.body, halfSqFn_prox, py_ok_bind, pure, Except.pure]; rfl, ?_⟩
    simp only
    intro h
    exact hc (by linarith)
  · refine ⟨_, _, _, by simp [ADMM, x0z0Init, forRange, ADMM.body, halfSqFn_prox, py_ok_bind, pure, Except.pure]; rfl, by simp [ADMM, x0z0Init, forRange, ADMM.body, halfSqFn_prox, py_ok_bind, pure, Except.pure]; rfl,
      by simp [ADMM, x0z0Init, forRange, ADMM.body, halfSqFn_prox, py_ok_bind, pure, Except.pure]; rfl, ?_⟩
    simp only
    intro h
    exact hc (by linarith)

/-- C111 fails for `LinearizedADMM` in the same way, whether the second run is given the returned `z` or not. -/
theorem C111_linearized_admm_refuted (c : ℝ) (hc : c ≠ 0) : ∃ r s t t', LinearizedADMM halfSqFn halfSqFn lineId (some c) none 1 1 2 = .ok r ∧ LinearizedADMM halfSqFn halfSqFn lineId (some c) none 1 1 1 = .ok s ∧
    LinearizedADMM halfSqFn halfSqFn lineId (some s.x) none 1 1 1 = .ok t ∧ LinearizedADMM halfSqFn halfSqFn lineId (some s.x) (some s.z) 1 1 1 = .ok t' ∧ r.x ≠ t.x ∧ r.x ≠ t'.x := by
  refine ⟨_, _, _, _, by simp [LinearizedADMM, x0z0InitOp, forRange, LinearizedADMM.body, halfSqFn_prox, py_ok_bind, pure, Except.pure, lineId]; rfl,
    by simp [LinearizedADMM, x0z0InitOp, forRange, LinearizedADMM.body, halfSqFn_prox, py_ok_bind, pure, Except.pure, lineId]; rfl,
    by simp [LinearizedADMM, x0z0InitOp, forRange, LinearizedADMM.body, halfSqFn_prox, py_ok_bind, pure, Except.pure, lineId]; rfl,
    by simp [LinearizedADMM, x0z0InitOp, forRange, LinearizedADMM.body, halfSqFn_prox, py_ok_bind, pure, Except.pure, lineId]; rfl, ?_, ?_⟩
  · simp only
    intro h
    exact hc (by linarith)
  · simp only
    intro h
    exact hc (by linarith)

/-- C111 fails for `PrimalDual` with `gfirst=True` for every `theta` other than 0: the extrapolated point is lost. -/
theorem C111_primal_dual_gfirst_refuted (c θ : ℝ) (hc : c ≠ 0) (hθ : θ ≠ 0) : ∃ r s t,
    PrimalDual halfSqFn halfSqFn lineId c none none (.scalar 1) (.scalar 1) θ 2 true = .ok r ∧ PrimalDual halfSqFn halfSqFn lineId c none none (.scalar 1) (.scalar 1) θ 1 true = .ok s ∧
      PrimalDual halfSqFn halfSqFn lineId s.x (some s.y) none (.scalar 1) (.scalar 1) θ 1 true = .ok t ∧ r.x ≠ t.x ∧ r.y ≠ t.y := by
  refine ⟨_, _, _, by simp [PrimalDual, forRange, PrimalDual.body, StepSpec.atStrict, halfSqFn_prox, halfSqFn_proxdual_one, py_ok_bind, pure, Except.pure, lineId, pdATy]; rfl,
    by simp [PrimalDual, forRange, PrimalDual.body, StepSpec.atStrict, halfSqFn_prox, halfSqFn_proxdual_one, py_ok_bind, pure, Except.pure, lineId, pdATy]; rfl,
    by simp [PrimalDual, forRange, PrimalDual.body, StepSpec.atStrict, halfSqFn_prox, halfSqFn_proxdual_one, py_ok_bind, pure, Except.pure, lineId, pdATy]; rfl, ?_, ?_⟩
  · simp only
    intro h
    exact mul_ne_zero hc hθ (by linarith)
  · simp only
    intro h
    exact mul_ne_zero hc hθ (by linarith)

lemma momentum_start {acc : Accel} (hacc : acc = .vandenberghe ∨ acc = .fista) : ∃ t ω t', momentum acc 0 1 = (0, t) ∧ momentum acc 1 t = (ω, t') ∧ 0 < ω := by
  rcases hacc with rfl | rfl
  · exact ⟨1, _, _, by simp [momentum], rfl, by norm_num⟩
  · refine ⟨(1 + √(1 + 4 * 1 ^ 2)) / 2, _, _, by simp only [momentum, sub_self, zero_div], rfl, ?_⟩
    have h5 : (2 : ℝ) < √(1 + 4 * 1 ^ 2) := Real.lt_sqrt_of_sq_lt (by norm_num)
    refine div_pos ?_ (by positivity)
    generalize √(1 + 4 * (1 : ℝ) ^ 2) = q at h5 ⊢
    linarith

/-- C111 fails for `ProximalGradient` with either acceleration: the momentum is lost. -/
theorem C111_accelerated_refuted (c : ℝ) (hc : c ≠ 0) (acc : Accel) (hacc : acc = .vandenberghe ∨ acc = .fista) : ∃ r s t,
    ProximalGradient halfSqFn zeroFn c (pgArgsEta (1 / 2) 1 1 false acc 3) = .ok r ∧ ProximalGradient halfSqFn zeroFn c (pgArgsEta (1 / 2) 1 1 false acc 2) = .ok s ∧
      ProximalGradient halfSqFn zeroFn s.x (pgArgsEta (1 / 2) 1 1 false acc 1) = .ok t ∧ r.x ≠ t.x := by
  obtain ⟨t, ω, t', h0, h1, hω⟩ := momentum_start hacc
  have hne : acc ≠ .other := by rcases hacc with rfl | rfl <;> simp
  have hg : ∀ x : ℝ, halfSqFn.grad x = .ok x := fun x => rfl
  have hz : ∀ x : ℝ, zeroFn.prox x 2⁻¹ = .ok x := zeroFn_prox (by norm_num)
  refine ⟨_, _, _, by simp [ProximalGradient, pgArgsEta, hne, StepSpec.printCheck, StepSpec.at, forRange, PG.body, PG.step, hg, hz, h0, h1, py_ok_bind, pure, Except.pure]; rfl,
    by simp [ProximalGradient, pgArgsEta, hne, StepSpec.printCheck, StepSpec.at, forRange, PG.body, PG.step, hg, hz, h0, h1, py_ok_bind, pure, Except.pure]; rfl,
    by simp [ProximalGradient, pgArgsEta, hne, StepSpec.printCheck, StepSpec.at, forRange, PG.body, PG.step, hg, hz, h0, py_ok_bind, pure, Except.pure]; rfl, ?_⟩
  simp
  intro h
  exact mul_ne_zero hc hω.ne' (by linarith)

/-- C111 fails for `TwIST`, which makes one more proximal step than asked for at every call.  Here `Op` is zero, `proxg = x²/2` and `alpha = beta = 1`. -/
theorem C111_twist_refuted (c b : ℝ) (hc : c ≠ 0) (eigs : ℝ × ℝ) : ∃ r s t, TwIST halfSqFn (lineId.scale 0) b c (some (1, 1)) eigs 2 false = .ok r ∧ TwIST halfSqFn (lineId.scale 0) b c (some (1, 1)) eigs 1 false = .ok s ∧
    TwIST halfSqFn (lineId.scale 0) b s.x (some (1, 1)) eigs 1 false = .ok t ∧ r.x ≠ t.x := by
  have hg : ∀ x : ℝ, twistGrad (lineId.scale 0) b x = .ok 0 := fun x => by
    simp [twistGrad, L2.grad, lineId, LinOp.scale]
  refine ⟨_, _, _, by simp [TwIST, forRange, TwIST.body, hg, halfSqFn_prox, py_ok_bind, pure, Except.pure]; rfl,
    by simp [TwIST, forRange, TwIST.body, hg, halfSqFn_prox, py_ok_bind, pure, Except.pure]; rfl,
    by simp [TwIST, forRange, TwIST.body, hg, halfSqFn_prox, py_ok_bind, pure, Except.pure]; rfl, ?_⟩
  simp
  intro h
  exact hc (by linarith)

/-- C111 fails for `GeneralizedProximalGradient` with two nonsmooth terms and no smooth one. -/
theorem C111_generalized_refuted (c : ℝ) (hc : c ≠ 0) : ∃ r s t, GeneralizedProximalGradient (l := 0) Fin.elim0 ![zeroFn, halfSqFn] c (some 1) (.scalar 1) none 1 2 .none = .ok r ∧
    GeneralizedProximalGradient (l := 0) Fin.elim0 ![zeroFn, halfSqFn] c (some 1) (.scalar 1) none 1 1 .none = .ok s ∧
      GeneralizedProximalGradient (l := 0) Fin.elim0 ![zeroFn, halfSqFn] s.x (some 1) (.scalar 1) none 1 1 .none = .ok t ∧ r.x ≠ t.x := by
  have h2 : (2 : ℝ)⁻¹ + 2⁻¹ = 1 := by norm_num
  refine ⟨_, _, _, by simp [GeneralizedProximalGradient, forRange, GPG.body, mapPy, h2, momentum, StepSpec.at, halfSqFn_prox, zeroFn_prox, py_ok_bind, pure, Except.pure]; rfl,
    by simp [GeneralizedProximalGradient, forRange, GPG.body, mapPy, h2, momentum, StepSpec.at, halfSqFn_prox, zeroFn_prox, py_ok_bind, pure, Except.pure]; rfl,
    by simp [GeneralizedProximalGradient, forRange, GPG.body, mapPy, h2, momentum, StepSpec.at, halfSqFn_prox, zeroFn_prox, py_ok_bind, pure, Except.pure]; rfl, ?_⟩
  simp
  intro h
  exact hc (by linarith)

/-- C111 fails for `PPXA`: the auxiliary variables are lost.  Here `f1 = 0` and `f2 = x²/2`. -/
theorem C111_ppxa_refuted (c : ℝ) (hc : c ≠ 0) : ∃ r s t, PPXA ![zeroFn, halfSqFn] none (fun _ => c) 1 1 2 0 (fun x => |x|) = .ok r ∧
    PPXA ![zeroFn, halfSqFn] none (fun _ => c) 1 1 1 0 (fun x => |x|) = .ok s ∧ PPXA ![zeroFn, halfSqFn] none (fun _ => s.x) 1 1 1 0 (fun x => |x|) = .ok t ∧ r.x ≠ t.x := by
  have hn : ∀ x : ℝ, ¬ |x| < 0 := fun x => not_lt.2 (abs_nonneg x)
  refine ⟨_, _, _, by simp [PPXA, forRange, PPXA.body, mapPy, halfSqFn_prox, zeroFn_prox, py_ok_bind, pure, Except.pure, hn]; rfl,
    by simp [PPXA, forRange, PPXA.body, mapPy, halfSqFn_prox, zeroFn_prox, py_ok_bind, pure, Except.pure, hn]; rfl,
    by simp [PPXA, forRange, PPXA.body, mapPy, halfSqFn_prox, zeroFn_prox, py_ok_bind, pure, Except.pure, hn]; rfl, ?_⟩
  simp
  intro h
  exact hc (by linarith)

/-- C111 fails for `ConsensusADMM` for the same functions. -/
theorem C111_consensus_admm_refuted (c : ℝ) (hc : c ≠ 0) : ∃ r s t, ConsensusADMM ![zeroFn, halfSqFn] c 1 2 0 (fun x => |x|) = .ok r ∧
    ConsensusADMM ![zeroFn, halfSqFn] c 1 1 0 (fun x => |x|) = .ok s ∧ ConsensusADMM ![zeroFn, halfSqFn] s.xbar 1 1 0 (fun x => |x|) = .ok t ∧ r.xbar ≠ t.xbar := by
  have hn : ∀ x : ℝ, ¬ |x| < 0 := fun x => not_lt.2 (abs_nonneg x)
  refine ⟨_, _, _, by simp [forRange, ConsensusADMM, ConsensusADMM.body, mapPy, halfSqFn_prox, zeroFn_prox, py_ok_bind, pure, Except.pure, hn]; rfl,
    by simp [forRange, ConsensusADMM, ConsensusADMM.body, mapPy, halfSqFn_prox, zeroFn_prox, py_ok_bind, pure, Except.pure, hn]; rfl,
    by simp [forRange, ConsensusADMM, ConsensusADMM.body, mapPy, halfSqFn_prox, zeroFn_prox, py_ok_bind, pure, Except.pure, hn]; rfl, ?_⟩
  simp
  intro h
  exact hc (by linarith)

/-- The hypothesis on the steps is met by a constant step and by the rest of an array of steps. -/
example (t : ℝ) (n m : ℕ) : ∀ j < m, (StepSpec.scalar t).at j = (StepSpec.scalar t).at (n + j) := fun _ _ => rfl

example : ∀ j < 2, (StepSpec.arr [2, 3]).at j = (StepSpec.arr [1, 2, 3]).at (1 + j) := by
  intro j hj
  interval_cases j <;> rfl

example (η : ℝ) (n m : ℕ) : let a := pgArgsEta (1 / 2) 1 η false .none n
    a.tau = some (1 / 2) ∧ a.backtracking = false ∧ a.acceleration = .none ∧ a.tol = none ∧ ∀ j < m, (StepSpec.scalar 1).at j = a.epsg.at (n + j) := ⟨rfl, rfl, rfl, rfl, fun _ _ => rfl⟩

/-- A split run of `ProximalGradient`. -/
example : ∃ s t, ProximalGradient halfSqFn zeroFn 8 (pgArgsEta (1 / 2) 1 1 false .none 1) = .ok s ∧ ProximalGradient halfSqFn zeroFn s.x (pgArgsEta (1 / 2) 1 1 false .none 1) = .ok t ∧ t.x = 2 ∧
    ∃ r, ProximalGradient halfSqFn zeroFn 8 (pgArgsEta (1 / 2) 1 1 false .none 2) = .ok r ∧ r.x = 2 ∧ r.log = [4, 2] := by
  have hg : ∀ x : ℝ, halfSqFn.grad x = .ok x := fun x => rfl
  have hz : ∀ x : ℝ, zeroFn.prox x 2⁻¹ = .ok x := zeroFn_prox (by norm_num)
  refine ⟨_, _, by simp [ProximalGradient, pgArgsEta, StepSpec.printCheck, StepSpec.at, forRange, PG.body, PG.step, hg, hz, momentum, py_ok_bind, pure, Except.pure]; rfl,
    by simp [ProximalGradient, pgArgsEta, StepSpec.printCheck, StepSpec.at, forRange, PG.body, PG.step, hg, hz, momentum, py_ok_bind, pure, Except.pure]; rfl, by norm_num, ?_⟩
  refine ⟨_, by simp [ProximalGradient, pgArgsEta, StepSpec.printCheck, StepSpec.at, forRange, PG.body, PG.step, hg, hz, momentum, py_ok_bind, pure, Except.pure]; rfl, by norm_num, by norm_num⟩

/-- A split run of `PrimalDual` with extrapolation. -/
example : ∃ s t r, PrimalDual halfSqFn halfSqFn lineId 16 none none (.scalar 1) (.scalar 1) 1 1 false = .ok s ∧
    PrimalDual halfSqFn halfSqFn lineId s.x (some s.y) none (.scalar 1) (.scalar 1) 1 1 false = .ok t ∧
      PrimalDual halfSqFn halfSqFn lineId 16 none none (.scalar 1) (.scalar 1) 1 2 false = .ok r ∧ r.x = t.x ∧ r.y = t.y ∧ t.x = 4 ∧ t.y = 0 := by
  refine ⟨_, _, _, by simp [PrimalDual, forRange, PrimalDual.body, StepSpec.atStrict, halfSqFn_prox, halfSqFn_proxdual_one, py_ok_bind, pure, Except.pure, lineId, pdATy]; rfl,
    by simp [PrimalDual, forRange, PrimalDual.body, StepSpec.atStrict, halfSqFn_prox, halfSqFn_proxdual_one, py_ok_bind, pure, Except.pure, lineId, pdATy]; rfl,
    by simp [PrimalDual, forRange, PrimalDual.body, StepSpec.atStrict, halfSqFn_prox, halfSqFn_proxdual_one, py_ok_bind, pure, Except.pure, lineId, pdATy]; rfl, ?_, ?_, ?_, ?_⟩ <;> norm_num

end Verif
