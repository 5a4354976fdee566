import Verif.Props.Anderson

/-! # C87: the safeguard of AndersonProximalGradient -/

namespace Verif

open scoped InnerProductSpace

variable {E : Type} [NormedAddCommGroup E] [InnerProductSpace ℝ E]

/-- What a safeguarded iteration promises: `x'` is the plain proximal gradient step from `x`, or `f` has fallen by at least `τ/2 ‖∇f(x)‖²`. -/
def SafeStep (f g : ProxOp E) (τ e : ℝ) (x x' : E) : Prop :=
  ∃ gx v v', f.grad x = .ok gx ∧ f.call x = .ok v ∧ f.call x' = .ok v' ∧ (g.prox (x - τ • gx) (e * τ) = .ok x' ∨ v'.toReal ≤ v.toReal - τ * ‖gx‖ ^ 2 / 2)

/-- One safeguarded iteration with a tolerance, from a state in which `pf` is the value at the current point. -/
lemma safe_body {f g : ProxOp E} {solve : List E → Py (List ℝ)} {τ t : ℝ} {epsg : StepSpec} {nh i : ℕ} {s s' : AndersonState E} {b : Bool}
    (hpf : ∃ v, f.call s.x = .ok v ∧ s.pf = v.toReal) (h : Anderson.body f g solve τ epsg nh true (some t) i s = .ok (s', b)) :
    s'.log = s.log ++ [s'.x] ∧ (∃ v, f.call s'.x = .ok v ∧ s'.pf = v.toReal) ∧ ∃ e, epsg.at i = .ok e ∧ SafeStep f g τ e s.x s'.x := by
  obtain ⟨v0, hv0, hpf⟩ := hpf
  simp only [Anderson.body, Bind.bind, Except.bind, Pure.pure, Except.pure, if_true] at h
  split at h
  · cases h
  rename_i gx hgx
  split at h
  · cases h
  split at h
  · cases h
  rename_i e he
  split at h
  · cases h
  rename_i xt hxt
  split at h
  · cases h
  rename_i p hp
  split at h
  · cases h
  rename_i v hv
  split at h
  · cases h
  rename_i w hw
  cases h
  refine ⟨rfl, ⟨v, hv, rfl⟩, e, he, gx, v0, v, hgx, hv0, hv, ?_⟩
  split at hp
  · cases hp
  rename_i vt hvt
  split at hp
  · rename_i hle
    cases hp
    simp only at hv
    rw [hvt] at hv
    cases hv
    rw [hpf] at hle
    exact Or.inr hle
  · split at hp
    · cases hp
    rename_i xg hxg
    cases hp
    exact Or.inl hxg

lemma safe_run {f g : ProxOp E} {solve : List E → Py (List ℝ)} {τ t : ℝ} {epsg : StepSpec} {nh : ℕ} : ∀ n i (s r : AndersonState E),
    (∃ v, f.call s.x = .ok v ∧ s.pf = v.toReal) → forRange (Anderson.body f g solve τ epsg nh true (some t)) n i s = .ok r →
    ∃ l, r.log = s.log ++ l ∧ r.x = (s.x :: l).getLast (by simp) ∧ ∀ k (hk : k < l.length), ∃ e, epsg.at (i + k) = .ok e ∧ SafeStep f g τ e ((s.x :: l)[k]'(by simp; omega)) l[k] := by
  intro n
  induction n with
  | zero =>
    intro i s r _ h
    simp only [forRange] at h
    cases h
    exact ⟨[], by simp, rfl, fun k hk => absurd hk (by simp)⟩
  | succ n ih =>
    intro i s r hpf h
    rw [forRange] at h
    cases hb : Anderson.body f g solve τ epsg nh true (some t) i s with
    | error e => rw [hb] at h; cases h
    | ok q =>
      obtain ⟨s', b⟩ := q
      rw [hb] at h
      obtain ⟨h1, h2, e, h3, h4⟩ := safe_body hpf hb
      cases b with
      | true =>
        simp only [if_true] at h
        cases h
        refine ⟨[r.x], h1, rfl, fun k hk => ?_⟩
        obtain rfl : k = 0 := by simp at hk; exact hk
        exact ⟨e, h3, h4⟩
      | false =>
        obtain ⟨l, l1, l0, l2⟩ := ih (i + 1) s' r h2 h
        refine ⟨s'.x :: l, by rw [l1, h1, List.append_assoc]; rfl, by rw [l0, List.getLast_cons (List.cons_ne_nil s'.x l)], fun k hk => ?_⟩
        cases k with
        | zero => exact ⟨e, h3, h4⟩
        | succ k =>
          obtain ⟨e', k1, k2⟩ := l2 k (by simpa using hk)
          exact ⟨e', by rw [← k1]; congr 1; omega, k2⟩

/-- C87 with a tolerance: every iteration of the safeguarded solver, from the point `x1` computed before the loop, either is the plain proximal gradient step or decreases `f` by at least
`tau/2 ‖∇f‖²`.  Missing: `tol=None` (refuted below). -/
theorem C87_safeguard_partial (f g : ProxOp E) (solve : List E → Py (List ℝ)) (x0 : E) (τ t : ℝ) (epsg : StepSpec) (n nh : ℕ) (r : AndersonState E)
    (h : AndersonProximalGradient f g solve x0 τ epsg n nh true (some t) = .ok r) :
    ∃ gx e0 x1, f.grad x0 = .ok gx ∧ epsg.at 0 = .ok e0 ∧ g.prox (x0 - τ • gx) (e0 * τ) = .ok x1 ∧ r.x = (x1 :: r.log).getLast (by simp) ∧
      ∀ k (hk : k < r.log.length), ∃ e, epsg.at k = .ok e ∧ SafeStep f g τ e ((x1 :: r.log)[k]'(by simp; omega)) r.log[k] := by
  simp only [AndersonProximalGradient, Bind.bind, Except.bind] at h
  split at h
  · cases h
  split at h
  · cases h
  rename_i e0 he0
  split at h
  · cases h
  rename_i s0 hs0
  simp only [Anderson.init, Bind.bind, Except.bind, Pure.pure, Except.pure] at hs0
  split at hs0
  · cases hs0
  rename_i gx hgx
  split at hs0
  · cases hs0
  rename_i x1 hx1
  split at hs0
  · cases hs0
  rename_i v hv
  cases hs0
  obtain ⟨l, l1, l0, l2⟩ := safe_run n 0 _ r ⟨v, hv, rfl⟩ h
  simp only [List.nil_append] at l1
  subst l1
  refine ⟨gx, e0, x1, hgx, he0, hx1, l0, fun k hk => ?_⟩
  simpa using l2 k hk

/-- C87 with a tolerance and without second function: for `f` with `L`-Lipschitz gradient and `tau ≤ 1/L` every iteration decreases `f` by at least `tau/2 ‖∇f‖²`, whatever the accelerated
points are.  Missing: a second function (refuted below). -/
theorem C87_smooth_partial (f g : ProxOp E) (φ : E → ℝ) (G : E → E) (L : ℝ) (hφ : ∀ x, IsGrad φ x (G x)) (hL : ∀ x y, ‖G x - G y‖ ≤ L * ‖x - y‖)
    (hf : EvaluatesNum f φ) (hG : ∀ x, f.grad x = .ok (G x)) (hg : ∀ x σ, g.prox x σ = .ok x) (solve : List E → Py (List ℝ)) (x0 : E) (τ t : ℝ) (hτ : 0 < τ) (hτL : τ * L ≤ 1)
    (epsg : StepSpec) (n nh : ℕ) (r : AndersonState E) (h : AndersonProximalGradient f g solve x0 τ epsg n nh true (some t) = .ok r) (k : ℕ) (hk : k < r.log.length) :
    φ r.log[k] ≤ φ (((x0 - τ • G x0) :: r.log)[k]'(by simp; omega)) - τ / 2 * ‖G (((x0 - τ • G x0) :: r.log)[k]'(by simp; omega))‖ ^ 2 := by
  obtain ⟨gx, e0, x1, h1, -, h2, -, h3⟩ := C87_safeguard_partial f g solve x0 τ t epsg n nh r h
  rw [hG] at h1
  cases h1
  rw [hg] at h2
  cases h2
  obtain ⟨e, -, gx, v, v', k1, k2, k3, k4⟩ := h3 k hk
  set x := ((x0 - τ • G x0) :: r.log)[k]'(by simp; omega)
  rw [hG] at k1
  cases k1
  rw [hf] at k2 k3
  cases k2
  cases k3
  rcases k4 with k4 | k4
  · rw [hg] at k4
    have e : r.log[k] = x - τ • G x := (Except.ok.inj k4).symm
    have hd := descent_lemma hφ hL x r.log[k]
    have e' : r.log[k] - x = -(τ • G x) := by rw [e]; abel
    rw [e', inner_neg_right, inner_smul_right, real_inner_self_eq_norm_sq, norm_neg, norm_smul, Real.norm_of_nonneg hτ.le, mul_pow] at hd
    have : L / 2 * (τ ^ 2 * ‖G x‖ ^ 2) ≤ τ / 2 * ‖G x‖ ^ 2 := by
      have h0 : 0 ≤ τ / 2 * ‖G x‖ ^ 2 := by positivity
      nlinarith
    nlinarith
  · simp only [CallVal.toReal] at k4
    linarith

/-- `f(x) = h(x) + x²/16` on the line, where `h` is the Huber function with threshold 1: convex, with gradient of Lipschitz constant `9/8`. -/
noncomputable def hubSq : ProxOp ℝ :=
  ⟨fun x => .ok (.num ((if |x| ≤ 1 then x ^ 2 / 2 else |x| - 1 / 2) + x ^ 2 / 16)), none, none, some fun x => .ok ((if |x| ≤ 1 then x else if 0 < x then 1 else -1) + x / 8), true, 1⟩

/-- C87 refuted for `tol=None`: after a rejected step the value of the rejected point is kept as the value to improve upon.  For `f = hubSq`, `g = 0`, `tau = 1/2` (below `1/L = 8/9`), two
history vectors and `x0 = 7/2`, the third iteration accepts a step that increases `f` from less than `1` to more than `5`. -/
theorem C87_rejected_refuted {pinv : ∀ n, Matrix (Fin n) (Fin n) ℝ → Matrix (Fin n) (Fin n) ℝ} (hp : PinvExact pinv) {epsr : ℝ} (he : 0 < epsr) :
    ∃ r r' v v', AndersonProximalGradient hubSq lineZero (andersonAlpha pinv epsr) (7 / 2) (1 / 2) (.scalar 1) 2 2 true none = .ok r ∧
      AndersonProximalGradient hubSq lineZero (andersonAlpha pinv epsr) (7 / 2) (1 / 2) (.scalar 1) 3 2 true none = .ok r' ∧
      hubSq.call r.x = .ok (.num v) ∧ hubSq.call r'.x = .ok (.num v') ∧ v < 1 ∧ 5 < v' := by
  have e1 := C86_line hp he (-345 / 512) (89 / 32) (by norm_num)
  have e2 := C86_line hp he (-16905 / 28304) (-345 / 512) (by norm_num)
  have e3 := C86_line hp he (-244287 / 452864) (-16905 / 28304) (by norm_num)
  norm_num at e1 e2 e3
  simp only [AndersonProximalGradient, StepSpec.printCheck, StepSpec.at, Anderson.init, hubSq, lineZero, ProxOp.grad, ProxOp.prox, forRange, Anderson.body, histPush, Bind.bind, Except.bind,
    Pure.pure, Except.pure]
  norm_num [e1, e2, e3, combine, CallVal.toReal, abs_of_pos, abs_of_neg]

/-- `g(x) = -x/2` on the line. -/
noncomputable def lineLin : ProxOp ℝ := ⟨fun x => .ok (.num (-x / 2)), some fun x τ => .ok (x + τ / 2), none, none, false, 1⟩

/-- C87 refuted for the objective `f + g`: the safeguard only looks at `f`.  For `f(x) = x²/2`, `g(x) = -x/2`, `tau = 3/4` the first iteration accepts a step that increases `f + g`. -/
theorem C87_objective_refuted {pinv : ∀ n, Matrix (Fin n) (Fin n) ℝ → Matrix (Fin n) (Fin n) ℝ} (hp : PinvExact pinv) {epsr : ℝ} (he : 0 < epsr) (tol : Option ℝ) :
    ∃ x1 r, lineLin.prox (1 - 3 / 4 * 1) (1 * (3 / 4)) = .ok x1 ∧ AndersonProximalGradient lineSq lineLin (andersonAlpha pinv epsr) 1 (3 / 4) (.scalar 1) 1 2 true tol = .ok r ∧
      r.log.length = 1 ∧ x1 ^ 2 / 2 - x1 / 2 < r.x ^ 2 / 2 - r.x / 2 := by
  have e1 := C86_line hp he (-3 / 32) (1 / 4) (by norm_num)
  norm_num at e1
  simp only [AndersonProximalGradient, StepSpec.printCheck, StepSpec.at, Anderson.init, lineSq, lineLin, ProxOp.grad, ProxOp.prox, forRange, Anderson.body, histPush, Bind.bind, Except.bind,
    Pure.pure, Except.pure]
  cases tol <;> norm_num [e1, combine, CallVal.toReal]

/-- The premises of `C87_smooth_partial` are met: `f(x) = x²/2`, `g = 0`, one history vector. -/
example : (∀ x, IsGrad (fun y : ℝ => y ^ 2 / 2) x x) ∧ EvaluatesNum lineSq (fun y : ℝ => y ^ 2 / 2) ∧ (∀ x, lineSq.grad x = .ok x) ∧ (∀ x σ, lineZero.prox x σ = .ok x) ∧
    ∃ r, AndersonProximalGradient lineSq lineZero (fun _ => .ok [1]) 1 (1 / 2) (.scalar 1) 2 1 true (some 0) = .ok r ∧ r.log.length = 2 := by
  refine ⟨fun x => ?_, fun _ => rfl, fun _ => rfl, fun _ _ => rfl, ?_⟩
  · refine isGrad_of_quad (C := 1 / 2) fun y => le_of_eq ?_
    have e : y ^ 2 / 2 - x ^ 2 / 2 - ⟪x, y - x⟫_ℝ = (y - x) ^ 2 / 2 := by
      rw [show ⟪x, y - x⟫_ℝ = (y - x) * x from rfl]; ring
    rw [e, abs_of_nonneg (by positivity), Real.norm_eq_abs, sq_abs]; ring
  · simp only [AndersonProximalGradient, StepSpec.printCheck, StepSpec.at, Anderson.init, lineSq, lineZero, ProxOp.grad, ProxOp.prox, forRange, Anderson.body, histPush, Bind.bind, Except.bind,
      Pure.pure, Except.pure]
    norm_num [combine, CallVal.toReal, npRatioTest]

end Verif
