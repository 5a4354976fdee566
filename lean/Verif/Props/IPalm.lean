import Verif.Props.Palm

/-! # C55: iPALM -/

open scoped RealInnerProductSpace

set_option linter.unusedSectionVars false

namespace Verif

variable {E F : Type} [NormedAddCommGroup E] [InnerProductSpace ℝ E] [NormedAddCommGroup F] [InnerProductSpace ℝ F]
variable {H : BilOp E F} {a : PalmArgs E F} {Φ : XFun E} {Ψ : XFun F} {x0 hx : E} {y0 hy : F} {ax ay : ℝ}

lemma ipalm_nobreak : ∀ i (s s' : IPalmState E F) b, iPALM.body H a ax ay i s = .ok (s', b) → b = false := by
  intro i s s' b h
  simp only [iPALM.body, Bind.bind, Except.bind] at h
  split at h
  · cases h
  · split at h
    · cases h
    · cases h; rfl

lemma ipalm_body_inv {i : ℕ} {s s' : IPalmState E F} (h : iPALM.body H a ax ay i s = .ok (s', false)) :
    palmStep a.gammaf (H.ly s.y) (fun x => H.call x s.y) (H.gradx s.hy (s.x + ax • (s.x - s.xold))) a.proxf a.proxf a.β a.niterback (s.x + ax • (s.x - s.xold)) s.tauf
      = .ok (s'.x, s'.tauf) ∧
    ipalmYStep a.gammag (H.lx s'.x) (fun y => H.call s'.x y) (H.grady s'.x) a.proxg a.proxfY a.β a.niterback (s.y + ay • (s.y - s.yold)) s.y s.taug = .ok (s'.y, s'.taug) ∧
    s'.xold = s.x ∧ s'.yold = s.y ∧ s'.hx = s'.x ∧ s'.hy = s'.y ∧ s'.log = s.log ++ [(s'.x, s'.y)] := by
  simp only [iPALM.body, Bind.bind, Except.bind] at h
  split at h
  · cases h
  · rename_i v hv
    split at h
    · cases h
    · rename_i w hw
      cases h
      exact ⟨hv, hw, rfl, rfl, rfl, rfl, rfl⟩

lemma ipalm_stored (n : ℕ) (r : IPalmState E F) (h : iPALM H a ax ay hx hy x0 y0 n = .ok r) : (0 < n ∨ hy = y0) → r.hy = r.y := by
  cases n with
  | zero => cases h; rintro (h | h); exacts [absurd h (lt_irrefl _), h]
  | succ n =>
    obtain ⟨q, -, h2⟩ := forRange_succ ipalm_nobreak n 0 _ r h
    exact fun _ => (ipalm_body_inv h2).2.2.2.2.2.1

lemma ipalmY_fixed_inv {γ : ℝ} {l : Py ℝ} {val : F → ℝ} {g : F → F} {p pb : Option (ProxOp F)} {β : ℝ} {nb : ℕ} {w y : F} {τ : Option ℝ}
    {y' : F} {τ' : Option ℝ} (h : ipalmYStep (some γ) l val g p pb β nb w y τ = .ok (y', τ')) : palmFixed l γ (g w) p w = .ok y' := by
  simp only [ipalmYStep, Bind.bind, Except.bind] at h
  split at h
  · cases h
  · rename_i v hv
    cases h
    exact hv

/-- With `gammaf` given and `gammag=None`, `iPALM` never completes an iteration: whenever the first `x` step succeeds it raises `UnboundLocalError`, for every problem and start. -/
theorem C55_runs_refuted {γf : ℝ} (hf : a.gammaf = some γf) (hg : a.gammag = none) (n : ℕ) :
    (∀ r, iPALM H a ax ay hx hy x0 y0 (n + 1) ≠ .ok r) ∧
    ∀ x', palmFixed (H.ly y0) γf (H.gradx hy x0) a.proxf x0 = .ok x' → iPALM H a ax ay hx hy x0 y0 (n + 1) = .error .unboundLocalError := by
  have key : ∀ x', palmFixed (H.ly y0) γf (H.gradx hy x0) a.proxf x0 = .ok x' → iPALM H a ax ay hx hy x0 y0 (n + 1) = .error .unboundLocalError := by
    intro x' h
    simp [iPALM, forRange, iPALM.body, palmStep, ipalmYStep, hf, hg, h, Bind.bind, Except.bind, Pure.pure, Except.pure]
  refine ⟨fun r hr => ?_, key⟩
  cases h : palmFixed (H.ly y0) γf (H.gradx hy x0) a.proxf x0 with
  | ok x' => rw [key x' h] at hr; cases hr
  | error e => simp [iPALM, forRange, iPALM.body, palmStep, hf, h, Bind.bind, Except.bind] at hr

/-- C55 with both `gamma` given: an iteration is a proximal step of size `1/(gammaf * ly)` from the extrapolated `x` point and then one of size `1/(gammag * lx)` from the extrapolated `y`
point, each along its own partial gradient; the extrapolation uses the last two iterates of the block. -/
theorem C55_fixed_steps (hH : H.Exact) (hf : BlockExact a.proxf Φ) (hg : BlockExact a.proxg Ψ) {γf γg : ℝ} (hγf : a.gammaf = some γf) (hγg : a.gammag = some γg)
    (hf0 : 0 < γf) (hg0 : 0 < γg) (n : ℕ) (r r' : IPalmState E F) (h : iPALM H a ax ay hx hy x0 y0 n = .ok r) (h' : iPALM H a ax ay hx hy x0 y0 (n + 1) = .ok r')
    (hst : 0 < n ∨ hy = y0) :
    r'.xold = r.x ∧ r'.yold = r.y ∧ ∃ (lf lg : ℝ) (gx : E) (gy : F), H.ly r.y = .ok lf ∧ H.lx r'.x = .ok lg ∧
      IsGrad (fun x => H.call x r.y) (r.x + ax • (r.x - r.xold)) gx ∧ IsGrad (fun y => H.call r'.x y) (r.y + ay • (r.y - r.yold)) gy ∧
      IsProx Φ (1 / (γf * lf)) (r.x + ax • (r.x - r.xold) - (1 / (γf * lf)) • gx) r'.x ∧
      IsProx Ψ (1 / (γg * lg)) (r.y + ay • (r.y - r.yold) - (1 / (γg * lg)) • gy) r'.y := by
  obtain ⟨q, h1, h2⟩ := forRange_succ ipalm_nobreak n 0 _ r' h'
  have : q = r := by
    have := h1.symm.trans h; cases this; rfl
  subst this
  obtain ⟨h3, h4, h5, h6, -⟩ := ipalm_body_inv h2
  rw [ipalm_stored n q h hst, hγf] at h3
  rw [hγg] at h4
  obtain ⟨h3, -⟩ := palmStep_fixed_inv h3
  have hv := ipalmY_fixed_inv h4
  obtain ⟨lf, a1, a2, a3⟩ := hH.ly q.y
  obtain ⟨lg, b1, b2, b3⟩ := hH.lx r'.x
  obtain ⟨c1, c2⟩ := palmFixed_ok hf h3 a1 a2 hf0
  obtain ⟨d1, d2⟩ := palmFixed_ok hg hv b1 b2 hg0
  exact ⟨h5, h6, lf, lg, _, _, a1, b1, hH.gradx _ _, hH.grady _ _, c2, d2⟩

/-- C55: with both `gamma` given, or `gammaf=None` and at least one backtracking trial, `iPALM` runs unless a Lipschitz constant is zero.  Missing: `gammaf` given and `gammag=None` (refuted
above).  For `gammag=None` the operator of `x` has to be right for `y` as well. -/
theorem C55_runs_partial (hH : H.Exact) (hf : BlockExact a.proxf Φ) (hg : BlockExact (if a.gammag.isNone then a.proxfY else a.proxg) Ψ)
    (hγ : a.gammaf = none ∨ a.gammag ≠ none) (hf0 : ∀ γ, a.gammaf = some γ → 0 < γ) (hg0 : ∀ γ, a.gammag = some γ → 0 < γ) (hβ : 0 < a.β) (hnb : 0 < a.niterback) (n : ℕ) :
    iPALM H a ax ay hx hy x0 y0 n = .error .zeroDivisionError ∨ ∃ r, iPALM H a ax ay hx hy x0 y0 n = .ok r := by
  let P : IPalmState E F → Prop := fun s => 0 < s.tauf ∧ (a.gammag = none → ∃ t, s.taug = some t ∧ 0 < t)
  have hb : ∀ i s, P s → iPALM.body H a ax ay i s = .error .zeroDivisionError ∨ ∃ s', iPALM.body H a ax ay i s = .ok (s', false) ∧ P s' := by
    intro i s hs
    set z := s.x + ax • (s.x - s.xold) with hz
    set w := s.y + ay • (s.y - s.yold) with hw
    obtain ⟨lf, a1, a2, -⟩ := hH.ly s.y
    have hx : palmStep a.gammaf (H.ly s.y) (fun x => H.call x s.y) (H.gradx s.hy z) a.proxf a.proxf a.β a.niterback z s.tauf = .error .zeroDivisionError ∨
        ∃ x' t, palmStep a.gammaf (H.ly s.y) (fun x => H.call x s.y) (H.gradx s.hy z) a.proxf a.proxf a.β a.niterback z s.tauf = .ok (x', t) ∧ 0 < t := by
      cases hgf : a.gammaf with
      | some γ =>
        simp only [palmStep, Bind.bind, Except.bind]
        rcases palmFixed_outcome (g := H.gradx s.hy z) hf z a1 a2 (hf0 γ hgf) with ⟨-, e⟩ | ⟨x', e⟩
        · rw [e]; exact Or.inl rfl
        · rw [e]; exact Or.inr ⟨x', _, rfl, hs.1⟩
      | none =>
        simp only [palmStep]
        obtain ⟨q, t, j, e1, -, e2, -⟩ := palmBacktrack_ok (val := fun x => H.call x s.y) (g := H.gradx s.hy z) (x := z) hf hβ a.niterback s.tauf z hs.1 hnb
        refine Or.inr ⟨q, t, e1, ?_⟩
        rw [e2]; exact mul_pos hs.1 (by positivity)
    simp only [iPALM.body, Bind.bind, Except.bind]
    rcases hx with e | ⟨x', t, e, ht⟩
    · rw [e]; exact Or.inl rfl
    rw [e]
    obtain ⟨lg, b1, b2, -⟩ := hH.lx x'
    have hyy : ipalmYStep a.gammag (H.lx x') (fun y => H.call x' y) (H.grady x') a.proxg a.proxfY a.β a.niterback w s.y s.taug = .error .zeroDivisionError ∨
        ∃ y' t, ipalmYStep a.gammag (H.lx x') (fun y => H.call x' y) (H.grady x') a.proxg a.proxfY a.β a.niterback w s.y s.taug = .ok (y', t) ∧
          (a.gammag = none → ∃ t', t = some t' ∧ 0 < t') := by
      cases hgg : a.gammag with
      | some γ =>
        simp only [ipalmYStep, Bind.bind, Except.bind]
        simp only [hgg, Option.isNone_some, Bool.false_eq_true, if_false] at hg
        rcases palmFixed_outcome (g := H.grady x' w) hg w b1 b2 (hg0 γ hgg) with ⟨-, e⟩ | ⟨y', e⟩
        · rw [e]; exact Or.inl rfl
        · rw [e]; exact Or.inr ⟨y', _, rfl, fun h => by cases h⟩
      | none =>
        obtain ⟨t, ht, ht0⟩ := hs.2 hgg
        simp only [hgg, Option.isNone_none, if_true] at hg
        rw [ht]
        simp only [ipalmYStep, Bind.bind, Except.bind]
        obtain ⟨q, t', j, e1, -, e2, -⟩ := palmBacktrack_ok (val := fun y => H.call x' y) (g := H.grady x' s.y) (x := s.y) hg hβ a.niterback t s.y ht0 hnb
        rw [e1]
        refine Or.inr ⟨q, some t', rfl, fun _ => ⟨t', rfl, ?_⟩⟩
        rw [e2]; positivity
    rcases hyy with e' | ⟨y', t', e', ht'⟩
    · rw [hw] at e'
      left; simp only [e']
    · rw [hw] at e'
      simp only [e']
      exact Or.inr ⟨_, rfl, ht, ht'⟩
  have key : ∀ n i s, P s → forRange (iPALM.body H a ax ay) n i s = .error .zeroDivisionError ∨ ∃ r, forRange (iPALM.body H a ax ay) n i s = .ok r := by
    intro n
    induction n with
    | zero => intro i s _; exact Or.inr ⟨s, rfl⟩
    | succ n ih =>
      intro i s hs
      rw [forRange]
      rcases hb i s hs with e | ⟨s', e, hs'⟩
      · rw [e]; exact Or.inl rfl
      · rw [e]; exact ih (i + 1) s' hs'
  refine key n 0 _ ⟨one_pos, fun hn => ?_⟩
  have : a.gammaf = none := by
    rcases hγ with h | h
    · exact h
    · exact absurd hn h
  exact ⟨1, by simp [this], one_pos⟩

/-- C55: without inertia `iPALM` is `PALM`, for every combination of `gammaf`, `gammag` except the one above: same result, same callback arguments, same exceptions. -/
theorem C55_zero_inertia (hγ : a.gammaf = none ∨ a.gammag ≠ none) (n : ℕ) :
    (∃ e, iPALM H a 0 0 hx hy x0 y0 n = .error e ∧ PALM H a hx hy x0 y0 n = .error e) ∨
    ∃ s t, iPALM H a 0 0 hx hy x0 y0 n = .ok s ∧ PALM H a hx hy x0 y0 n = .ok t ∧ s.x = t.x ∧ s.y = t.y ∧ s.log = t.log ∧ s.hx = t.hx ∧ s.hy = t.hy := by
  have := forRange_sim (b1 := iPALM.body H a 0 0) (b2 := PALM.body H a)
    (R := fun s t => s.x = t.x ∧ s.y = t.y ∧ s.log = t.log ∧ s.hx = t.hx ∧ s.hy = t.hy ∧ s.tauf = t.tauf ∧ (a.gammag = none → s.taug = some t.taug)) (fun i s t hst => by
      obtain ⟨e1, e2, e3, e4, e5, e6, e7⟩ := hst
      simp only [iPALM.body, PALM.body, zero_smul, add_zero, e1, e2, e5, e6, Bind.bind, Except.bind]
      cases hs : palmStep a.gammaf (H.ly t.y) (fun x => H.call x t.y) (H.gradx t.hy t.x) a.proxf a.proxf a.β a.niterback t.x t.tauf with
      | error e => exact Or.inl ⟨e, rfl, rfl⟩
      | ok v =>
        simp only
        cases hgg : a.gammag with
        | some γ =>
          simp only [ipalmYStep, palmStep, Bind.bind, Except.bind]
          cases hf : palmFixed (H.lx v.1) γ (H.grady v.1 t.y) a.proxg t.y with
          | error e => exact Or.inl ⟨e, rfl, rfl⟩
          | ok y => exact Or.inr ⟨_, _, _, rfl, rfl, rfl, rfl, by simp [e3], rfl, rfl, rfl, fun h => by cases h⟩
        | none =>
          rw [e7 hgg]
          simp only [ipalmYStep, palmStep, Bind.bind, Except.bind]
          cases hf : palmBacktrack (fun y => H.call v.1 y) (H.grady v.1 t.y) a.proxfY a.β t.y a.niterback t.taug t.y with
          | error e => exact Or.inl ⟨e, rfl, rfl⟩
          | ok y => exact Or.inr ⟨_, _, _, rfl, rfl, rfl, rfl, by simp [e3], rfl, rfl, rfl, fun h => rfl⟩)
    n 0 ⟨x0, y0, x0, y0, 1, if a.gammaf.isNone then some 1 else none, hx, hy, []⟩ ⟨x0, y0, 1, 1, hx, hy, []⟩ ⟨rfl, rfl, rfl, rfl, rfl, rfl, fun h => by
      rcases hγ with h' | h'
      · simp [h']
      · exact absurd h h'⟩
  rcases this with ⟨e, h1, h2⟩ | ⟨s, t, h1, h2, h3, h4, h5, h6, h7, -⟩
  · exact Or.inl ⟨e, h1, h2⟩
  · exact Or.inr ⟨s, t, h1, h2, h3, h4, h5, h6, h7⟩

/-- C55: with backtracking on `y` neither the inertia of `y` nor the operator of `y` has any effect. -/
theorem C55_backtracking_refuted (h : a.gammag = none) (ay' : ℝ) (p : Option (ProxOp F)) (n : ℕ) :
    iPALM H { a with proxg := p } ax ay' hx hy x0 y0 n = iPALM H a ax ay hx hy x0 y0 n := by
  have : iPALM.body H { a with proxg := p } ax ay' = iPALM.body H a ax ay := by
    funext i s
    cases ht : s.taug <;> simp only [iPALM.body, ipalmYStep, h, ht]
  rw [iPALM, iPALM, this]

/-- C55: with both `gamma` given and convex `f`, `g`, iterates that have stopped moving are critical. -/
theorem C55_stationary (hH : H.Exact) (hΦ : Φ.Convex) (hΨ : Ψ.Convex) (hf : BlockExact a.proxf Φ) (hg : BlockExact a.proxg Ψ) {γf γg : ℝ} (hγf : a.gammaf = some γf)
    (hγg : a.gammag = some γg) (hf0 : 0 < γf) (hg0 : 0 < γg) (n : ℕ) (r r' : IPalmState E F) (h : iPALM H a ax ay hx hy x0 y0 n = .ok r)
    (h' : iPALM H a ax ay hx hy x0 y0 (n + 1) = .ok r') (hst : 0 < n ∨ hy = y0) (h1 : r.xold = r.x) (h2 : r.yold = r.y) (h3 : r'.x = r.x) (h4 : r'.y = r.y) :
    IsCritical Φ Ψ H r.x r.y := by
  obtain ⟨q, k1, k2⟩ := forRange_succ ipalm_nobreak n 0 _ r' h'
  have : q = r := by
    have := k1.symm.trans h; cases this; rfl
  subst this
  obtain ⟨m3, m4, -⟩ := ipalm_body_inv k2
  rw [ipalm_stored n q h hst, hγf, h1, sub_self, smul_zero, add_zero] at m3
  rw [hγg, h2, sub_self, smul_zero, add_zero] at m4
  obtain ⟨m3, -⟩ := palmStep_fixed_inv m3
  have hv := ipalmY_fixed_inv m4
  obtain ⟨lf, a1, a2, a3⟩ := hH.ly q.y
  obtain ⟨lg, b1, b2, b3⟩ := hH.lx r'.x
  obtain ⟨c1, c2⟩ := palmFixed_ok hf m3 a1 a2 hf0
  obtain ⟨d1, d2⟩ := palmFixed_ok hg hv b1 b2 hg0
  rw [h3] at c2 d2
  rw [h4] at d2
  exact ⟨_, _, hH.gradx q.x q.y, hH.grady q.x q.y, (prox_fix_iff hΦ (by positivity) _ _).1 c2, (prox_fix_iff hΨ (by positivity) _ _).1 d2⟩

/-- The premises are met: both runs below succeed or fail as the theorems say. -/
example : iPALM (scalarBil 1) { plainArgs 2 with gammag := none } 0 0 0 1 1 1 3 = .error .unboundLocalError :=
  (C55_runs_refuted (γf := 2) rfl rfl 2).2 1 (by
    simp [palmFixed, scalarBil, plainArgs, applyProx, Bind.bind, Except.bind])

example : (scalarBil 1).Exact ∧ BlockExact (plainArgs 2).proxf (XFun.ofReal fun _ => 0) ∧ BlockExact (plainArgs 2).proxg (XFun.ofReal fun _ => 0) ∧ (plainArgs 2).gammag ≠ none :=
  ⟨scalarBil_exact 1, Or.inl ⟨rfl, rfl⟩, Or.inl ⟨rfl, rfl⟩, by simp [plainArgs]⟩

end Verif
