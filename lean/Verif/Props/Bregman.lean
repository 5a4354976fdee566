import Verif.Props.ProxGrad
import Verif.Model.Bregman

/-! # C65: Bregman iterations -/

open scoped RealInnerProductSpace
open Filter Topology

set_option linter.unusedSectionVars false

namespace Verif

variable {E : Type} [NormedAddCommGroup E] [InnerProductSpace ℝ E]

/-- The inner solver is exact on the problems `Bregman` gives it: whenever it returns, the result minimises `f(x) + <v, x> + alpha g(x)`; the first problem (`v = 0`) is given with `f` itself. -/
def InnerExact (f g : ProxOp E) (φ : E → ℝ) (G : XFun E) (solver : ProxOp E → ProxOp E → E → Py E) (α : ℝ) : Prop :=
  (∀ x r, solver f (g.postOp α) x = .ok r → ((XFun.ofReal φ).add (G.smul α)).IsMin r) ∧
  ∀ v x r, solver (f.sumOp v) (g.postOp α) x = .ok r → ((XFun.ofReal fun x => φ x + ⟪v, x⟫).add (G.smul α)).IsMin r

section
variable {f g : ProxOp E} {φ : E → ℝ} {G : XFun E} {solver : ProxOp E → ProxOp E → E → Py E} {x0 : E} {α : ℝ} {warm : Bool} {tolx tolf : ℝ}

lemma breg_body_inv {i : ℕ} {s s' : BregState E} {b : Bool} (h : Bregman.body f g solver x0 α warm tolx tolf i s = .ok (s', b)) :
    ∃ fq gx pf, (if i = 0 then fq = f else fq = f.sumOp (-(α • s.q))) ∧ solver fq g (if warm then s.x else x0) = .ok s'.x ∧ f.grad s'.x = .ok gx ∧ f.call s'.x = .ok pf ∧
      s'.q = s.q - (1 / α) • gx ∧ s'.log = s.log ++ [s'.x] ∧ α ≠ 0 ∧ (b = true ↔ ‖s'.x - s.x‖ < tolx ∨ pf.toReal < tolf) := by
  have hfq : ∃ fq, Bregman.problem f α s.q i = .ok fq ∧ (if i = 0 then fq = f else fq = f.sumOp (-(α • s.q))) := by
    unfold Bregman.problem
    split_ifs
    · exact ⟨f, rfl, rfl⟩
    · exact ⟨_, rfl, rfl⟩
  obtain ⟨fq, h1, h2⟩ := hfq
  rw [Bregman.body, h1] at h
  simp only [Bind.bind, Except.bind, Pure.pure, Except.pure] at h
  split at h
  · cases h
  rename_i x hx
  split_ifs at h with hα
  split at h
  · cases h
  rename_i gx hgx
  split at h
  · cases h
  rename_i pf hpf
  cases h
  exact ⟨fq, gx, pf, h2, hx, hgx, hpf, rfl, rfl, hα, by simp⟩

lemma bregman_eq (n : ℕ) : Bregman f g solver x0 (.float α) n warm tolx tolf = forRange (Bregman.body f (g.postOp α) solver x0 α warm tolx tolf) n 0 ⟨x0, 0, []⟩ := rfl

/-- A minimiser of `φ + <v,·> + α G` gives a subgradient of `G`. -/
lemma breg_subgrad (hφ : ConvexOn ℝ Set.univ φ) (hG : G.Convex) (hα : 0 < α) {v x gx : E} {Gr : E → E} (hGr : ∀ x, IsGrad φ x (Gr x)) (hgx : Gr x = gx)
    (h : ((XFun.ofReal fun x => φ x + ⟪v, x⟫).add (G.smul α)).IsMin x) : IsSubgrad G x (-(1 / α) • (gx + v)) := by
  have hφ' : ConvexOn ℝ Set.univ (fun x => φ x + ⟪v, x⟫) := by
    refine hφ.add ⟨convex_univ, fun a _ b _ s t _ _ _ => ?_⟩
    simp only [inner_add_right, real_inner_smul_right, smul_eq_mul]
    exact le_rfl
  have hGr' : ∀ x, IsGrad (fun x => φ x + ⟪v, x⟫) x (Gr x + v) := by
    intro x
    have h1 := hGr x
    have h2 : HasFDerivAt (fun x => ⟪v, x⟫) (innerSL ℝ v) x := (innerSL ℝ v).hasFDerivAt
    unfold IsGrad
    rw [map_add]
    exact h1.add h2
  have hGs : (G.smul α).Convex := smulConvex hG hα.le
  -- the minimiser is a fixed point of the proximal gradient step, whatever the proximal map
  have h3 : IsProx (G.smul α) 1 (x - (1 : ℝ) • (Gr x + v)) x := by
    refine isProx_of_subgrad one_pos ⟨h.1.2, fun y hy => ?_⟩
    -- first order optimality along segments
    have hopt : ∀ t ∈ Set.Ioc (0 : ℝ) 1, 0 ≤ (φ (x + t • (y - x)) + ⟪v, x + t • (y - x)⟫ - (φ x + ⟪v, x⟫)) / t + (α * G.val y - α * G.val x) := by
      intro t ht
      have hm : x + t • (y - x) ∈ G.dom := by
        have := hG.1 h.1.2 hy (sub_nonneg.2 ht.2) ht.1.le (by ring : 1 - t + t = 1)
        convert this using 1
        rw [smul_sub, sub_smul, one_smul]; abel
      have h1 := h.2 (x + t • (y - x)) ⟨trivial, hm⟩
      have h2 := hGs.2 h.1.2 hy (sub_nonneg.2 ht.2) ht.1.le (by ring : 1 - t + t = 1)
      rw [show (1 - t) • x + t • y = x + t • (y - x) by rw [smul_sub, sub_smul, one_smul]; abel] at h2
      simp only [XFun.add, XFun.ofReal, XFun.smul, smul_eq_mul] at h1 h2
      have h3 : 0 ≤ (φ (x + t • (y - x)) + ⟪v, x + t • (y - x)⟫ - (φ x + ⟪v, x⟫)) + t * (α * G.val y - α * G.val x) := by linarith
      have h4 := div_nonneg h3 ht.1.le
      rwa [add_div, mul_div_cancel_left₀ _ ht.1.ne'] at h4
    have hder := line_deriv hGr' x (y - x) 0
    simp only [zero_smul, add_zero] at hder
    have hlim := hder.tendsto_slope_zero_right
    have hge : 0 ≤ ⟪Gr x + v, y - x⟫ + (α * G.val y - α * G.val x) := by
      refine ge_of_tendsto (hlim.add_const _) ?_
      filter_upwards [Ioc_mem_nhdsGT (zero_lt_one (α := ℝ))] with t ht
      have := hopt t ht
      simp only [zero_add, zero_smul, add_zero, smul_eq_mul] at this ⊢
      rwa [div_eq_inv_mul] at this
    have e : (1 / (1 : ℝ)) • (x - (1 : ℝ) • (Gr x + v) - x) = -(Gr x + v) := by simp
    rw [e, inner_neg_left]
    simp only [XFun.smul]
    linarith
  have h4 := subgrad_of_isProx hGs one_pos h3
  refine ⟨h4.1, fun y hy => ?_⟩
  have h5 := h4.2 y hy
  have e : (1 / (1 : ℝ)) • (x - (1 : ℝ) • (Gr x + v) - x) = -(Gr x + v) := by simp
  rw [e, hgx] at h5
  simp only [XFun.smul, inner_neg_left] at h5
  rw [real_inner_smul_left]
  have : G.val y ≥ G.val x + -(1 / α) * ⟪gx + v, y - x⟫ := by
    rw [ge_iff_le, ← mul_le_mul_iff_right₀ hα]
    field_simp
    linarith
  linarith

/-- One outer iteration with an exact inner solver. -/
lemma breg_step (hf : GradExact f φ) (hφ : ConvexOn ℝ Set.univ φ) (hG : G.Convex) (hα : 0 < α) (hs : InnerExact f g φ G solver α) {i : ℕ} {s s' : BregState E} {b : Bool}
    (hi : i = 0 → s.q = 0) (h : Bregman.body f (g.postOp α) solver x0 α warm tolx tolf i s = .ok (s', b)) :
    IsSubgrad G s'.x s'.q ∧ (∃ gx, IsGrad φ s'.x gx ∧ s'.q = s.q - (1 / α) • gx) ∧
      ((XFun.ofReal fun x => φ x + ⟪-(α • s.q), x⟫).add (G.smul α)).IsMin s'.x := by
  obtain ⟨fq, gx, pf, h1, h2, h3, -, h5, -⟩ := breg_body_inv h
  obtain ⟨Gr, k1, k2⟩ := gradExact_map hf
  rw [k1] at h3
  cases h3
  have hmin : ((XFun.ofReal fun x => φ x + ⟪-(α • s.q), x⟫).add (G.smul α)).IsMin s'.x := by
    split_ifs at h1 with h0
    · subst h1
      have := hs.1 _ _ h2
      rw [hi h0]
      simpa using this
    · subst h1
      exact hs.2 _ _ _ h2
  refine ⟨?_, ⟨_, k2 _, h5⟩, hmin⟩
  have := breg_subgrad hφ hG hα k2 rfl hmin
  rw [h5]
  convert this using 1
  rw [smul_add, smul_neg, smul_smul, neg_smul, neg_mul, neg_smul, neg_neg, one_div, inv_mul_cancel₀ hα.ne', one_smul]
  abel

/-- C65: with an exact inner solver, after every outer iteration `q` is a subgradient of `g` at the current iterate. -/
theorem C65_subgradient (hf : GradExact f φ) (hφ : ConvexOn ℝ Set.univ φ) (hG : G.Convex) (hα : 0 < α) (hs : InnerExact f g φ G solver α) (n : ℕ) (hn : 0 < n) (s : BregState E)
    (h : Bregman f g solver x0 (.float α) n warm tolx tolf = .ok s) : IsSubgrad G s.x s.q := by
  rw [bregman_eq] at h
  have key : ∀ n i (s s' : BregState E), (i = 0 → s.q = 0) → 0 < n → forRange (Bregman.body f (g.postOp α) solver x0 α warm tolx tolf) n i s = .ok s' → IsSubgrad G s'.x s'.q := by
    intro n
    induction n with
    | zero => intro i s s' _ h; exact absurd h (lt_irrefl _)
    | succ n ih =>
      intro i s s' hi _ h
      rw [forRange] at h
      cases hb : Bregman.body f (g.postOp α) solver x0 α warm tolx tolf i s with
      | error e => rw [hb] at h; cases h
      | ok p =>
        obtain ⟨t, b⟩ := p
        rw [hb] at h
        have h1 := breg_step hf hφ hG hα hs hi hb
        cases b with
        | true => simp only [if_true, Except.ok.injEq] at h; rw [← h]; exact h1.1
        | false =>
          rcases Nat.eq_zero_or_pos n with rfl | hn
          · simp only [forRange, Bool.false_eq_true, if_false, Except.ok.injEq] at h; rw [← h]; exact h1.1
          · exact ih (i + 1) t s' (fun h => by omega) hn h
  exact key n 0 _ s (fun _ => rfl) hn h

/-- C65: the callback receives the iterate of every outer iteration, there are at most `niterouter` of them, and the loop stops early only if the last update was smaller than `tolx` or
`f` is below `tolf`. -/
theorem C65_stopping (n : ℕ) (s : BregState E) (h : Bregman f g solver x0 (.float α) n warm tolx tolf = .ok s) :
    s.log.length ≤ n ∧ (∀ j < s.log.length, ∃ t, Bregman f g solver x0 (.float α) (j + 1) warm tolx tolf = .ok t ∧ s.log[j]? = some t.x) ∧
    (s.log.length < n → ∃ (t : BregState E) (v : CallVal), Bregman f g solver x0 (.float α) (s.log.length - 1) warm tolx tolf = .ok t ∧ f.call s.x = .ok v ∧ (‖s.x - t.x‖ < tolx ∨ v.toReal < tolf)) := by
  rw [bregman_eq] at h
  obtain ⟨l, a1, a2, -, a4, a5⟩ := forRange_log (log := BregState.log) (out := BregState.x) (fun i s s' b hb => by
    obtain ⟨_, _, _, -, -, -, -, -, h6, -⟩ := breg_body_inv hb; exact h6) n 0 _ s h
  have : s.log = l := by rw [a1]; rfl
  rw [this]
  refine ⟨a2, fun j hj => ?_, fun hlt => ?_⟩
  · obtain ⟨t, b1, b2⟩ := a4 j hj
    exact ⟨t, b1, b2⟩
  · obtain ⟨j, q, c1, c2, c3, -⟩ := a5 hlt
    obtain ⟨_, _, pf, -, -, -, d1, -, -, -, d2⟩ := breg_body_inv c3
    refine ⟨q, pf, ?_, d1, d2.1 rfl⟩
    rw [c1, Nat.add_sub_cancel, bregman_eq]; exact c2

lemma breg_q0 {s : BregState E} (h : Bregman f g solver x0 (.float α) 0 warm tolx tolf = .ok s) : s.q = 0 := by
  rw [bregman_eq] at h
  simp only [forRange, Except.ok.injEq] at h
  rw [← h]

/-- C65: with an exact inner solver `f` never increases along the outer iterations. -/
theorem C65_descent (hf : GradExact f φ) (hφ : ConvexOn ℝ Set.univ φ) (hG : G.Convex) (hα : 0 < α) (hs : InnerExact f g φ G solver α) (n : ℕ) (hn : 0 < n) (s s' : BregState E)
    (h : Bregman f g solver x0 (.float α) n warm tolx tolf = .ok s) (h' : Bregman f g solver x0 (.float α) (n + 1) warm tolx tolf = .ok s') : φ s'.x ≤ φ s.x := by
  rw [bregman_eq] at h'
  have hr := h
  rw [bregman_eq] at hr
  rcases forRange_step n 0 _ s s' hr h' with e | ⟨b, hb⟩
  · rw [e]
  · obtain ⟨-, -, hmin⟩ := breg_step hf hφ hG hα hs (fun h => by omega) hb
    have hsub := C65_subgradient hf hφ hG hα hs n hn s h
    have h1 := hmin.2 s.x ⟨trivial, hsub.1⟩
    have h2 := hsub.2 s'.x hmin.1.2
    simp only [XFun.add, XFun.ofReal, XFun.smul, inner_neg_left, real_inner_smul_left] at h1
    rw [inner_sub_right] at h2
    have h3 := mul_le_mul_of_nonneg_left h2 hα.le
    linarith

/-- C65: with an exact inner solver, `f` at the `n`-th iterate exceeds `f` at any point `p` of the domain of `g` by at most `alpha (g(p) - g(x_1)) / n`: Bregman iterations drive the data
misfit to its infimum. -/
theorem C65_rate (hf : GradExact f φ) (hφ : ConvexOn ℝ Set.univ φ) (hG : G.Convex) (hα : 0 < α) (hs : InnerExact f g φ G solver α) (S : ℕ → BregState E)
    (h : ∀ n, Bregman f g solver x0 (.float α) n warm tolx tolf = .ok (S n)) (n : ℕ) (hn : 0 < n) (hlen : (S n).log.length = n) {p : E} (hp : p ∈ G.dom) :
    φ (S n).x - φ p ≤ α * (G.val p - G.val (S 1).x) / n := by
  -- no run up to `n` iterations was left early
  have hst : ∀ k, S (k + 1) = S k ∨ ∃ b, Bregman.body f (g.postOp α) solver x0 α warm tolx tolf k (S k) = .ok (S (k + 1), b) := by
    intro k
    have := forRange_step k 0 _ (S k) (S (k + 1)) (h k) (h (k + 1))
    rwa [zero_add] at this
  have hl1 : ∀ k, (S (k + 1)).log.length ≤ (S k).log.length + 1 := by
    intro k
    rcases hst k with e | ⟨b, hb⟩
    · rw [e]; omega
    · obtain ⟨_, _, _, -, -, -, -, -, h6, -⟩ := breg_body_inv hb
      rw [h6]; simp
  have hl2 : ∀ j k, (S (k + j)).log.length ≤ (S k).log.length + j := by
    intro j k
    induction j with
    | zero => exact le_rfl
    | succ j ih => have := hl1 (k + j); rw [← add_assoc]; omega
  have hl0 : ∀ k, (S k).log.length ≤ k := by
    intro k
    have := hl2 k 0
    rw [zero_add] at this
    have e0 : (S 0).log.length = 0 := by
      have := h 0
      rw [bregman_eq] at this
      simp only [forRange, Except.ok.injEq] at this
      rw [← this]; rfl
    omega
  have hstep : ∀ k < n, ∃ b, Bregman.body f (g.postOp α) solver x0 α warm tolx tolf k (S k) = .ok (S (k + 1), b) := by
    intro k hk
    refine (hst k).resolve_left fun e => ?_
    have h1 := hl2 (n - (k + 1)) (k + 1)
    rw [show k + 1 + (n - (k + 1)) = n by omega, hlen, e] at h1
    have := hl0 k
    omega
  have hq0 : ∀ k, k = 0 → (S k).q = 0 := by rintro k rfl; exact breg_q0 (h 0)
  -- the potential
  have key : ∀ k < n, (∑ j ∈ Finset.range (k + 1), (φ (S (j + 1)).x - φ p)) + α * (G.val p - G.val (S (k + 1)).x - ⟪(S (k + 1)).q, p - (S (k + 1)).x⟫)
      ≤ α * (G.val p - G.val (S 1).x) := by
    intro k
    induction k with
    | zero =>
      intro hk
      obtain ⟨b, hb⟩ := hstep 0 hk
      obtain ⟨-, ⟨gx, g1, g2⟩, -⟩ := breg_step hf hφ hG hα hs (hq0 0) hb
      rw [hq0 0 rfl, zero_sub] at g2
      have g3 := grad_ineq hφ g1 p
      simp only [zero_add, Finset.sum_range_one, g2, inner_neg_left, real_inner_smul_left, one_div]
      have e : α * (G.val p - G.val (S 1).x - -(α⁻¹ * ⟪gx, p - (S 1).x⟫)) = α * (G.val p - G.val (S 1).x) + ⟪gx, p - (S 1).x⟫ := by field_simp; ring
      rw [zero_add] at g3
      rw [e]; linarith
    | succ k ih =>
      intro hk
      have ih' := ih (by omega)
      obtain ⟨b, hb⟩ := hstep (k + 1) hk
      obtain ⟨-, ⟨gx, g1, g2⟩, hmin⟩ := breg_step hf hφ hG hα hs (fun h => by omega) hb
      have g3 := grad_ineq hφ g1 p
      have hsub := C65_subgradient hf hφ hG hα hs (k + 1) (Nat.succ_pos k) _ (h (k + 1))
      have g4 := hsub.2 (S (k + 1 + 1)).x hmin.1.2
      rw [Finset.sum_range_succ]
      rw [g2, inner_sub_left, real_inner_smul_left]
      have e : α * (G.val p - G.val (S (k + 1 + 1)).x - (⟪(S (k + 1)).q, p - (S (k + 1 + 1)).x⟫ - 1 / α * ⟪gx, p - (S (k + 1 + 1)).x⟫)) =
          α * (G.val p - G.val (S (k + 1 + 1)).x - ⟪(S (k + 1)).q, p - (S (k + 1 + 1)).x⟫) + ⟪gx, p - (S (k + 1 + 1)).x⟫ := by field_simp; ring
      rw [e]
      have e2 : ⟪(S (k + 1)).q, p - (S (k + 1)).x⟫ = ⟪(S (k + 1)).q, p - (S (k + 1 + 1)).x⟫ + ⟪(S (k + 1)).q, (S (k + 1 + 1)).x - (S (k + 1)).x⟫ := by
        rw [← inner_add_right]; congr 1; abel
      rw [e2] at ih'
      nlinarith
  obtain ⟨m, rfl⟩ : ∃ m, n = m + 1 := ⟨n - 1, by omega⟩
  have h1 := key m (Nat.lt_succ_self m)
  have hsub := C65_subgradient hf hφ hG hα hs (m + 1) hn _ (h (m + 1))
  have h2 := hsub.2 p hp
  have hmono : ∀ j i, φ (S (i + 1 + j)).x ≤ φ (S (i + 1)).x := by
    intro j i
    induction j with
    | zero => exact le_rfl
    | succ j ih => exact (C65_descent hf hφ hG hα hs (i + 1 + j) (by omega) _ _ (h _) (h _)).trans ih
  have hsum : ((m : ℝ) + 1) * (φ (S (m + 1)).x - φ p) ≤ ∑ j ∈ Finset.range (m + 1), (φ (S (j + 1)).x - φ p) := by
    have : ∑ _j ∈ Finset.range (m + 1), (φ (S (m + 1)).x - φ p) ≤ ∑ j ∈ Finset.range (m + 1), (φ (S (j + 1)).x - φ p) := by
      refine Finset.sum_le_sum fun j hj => ?_
      have hj' := Finset.mem_range.1 hj
      have := hmono (m - j) j
      rw [show j + 1 + (m - j) = m + 1 by omega] at this
      linarith
    rw [Finset.sum_const, Finset.card_range, nsmul_eq_mul] at this
    push_cast at this
    exact this
  rw [le_div_iff₀ (by positivity)]
  push_cast
  have h3 : 0 ≤ α * (G.val p - G.val (S (m + 1)).x - ⟪(S (m + 1)).q, p - (S (m + 1)).x⟫) := mul_nonneg hα.le (by linarith)
  linarith

end

/-- `alpha` has to be a float: a Python int is refused, as is everything else that is not a number. -/
theorem C65_int_alpha (f g : ProxOp E) (solver : ProxOp E → ProxOp E → E → Py E) (x0 : E) (a : ℤ) (n : ℕ) (warm : Bool) (tolx tolf : ℝ) :
    Bregman f g solver x0 (.int a) n warm tolx tolf = .error .notImplementedError := rfl

/-- The premises are met: `f(x) = ½(x - b)²`, `g = 0` and the solver that reads the minimiser off the gradient at zero. -/
example (b : ℝ) : ∃ (f g : ProxOp ℝ) (solver : ProxOp ℝ → ProxOp ℝ → ℝ → Py ℝ), GradExact f (fun x => (x - b) ^ 2 / 2) ∧ ConvexOn ℝ Set.univ (fun x : ℝ => (x - b) ^ 2 / 2) ∧
    (XFun.ofReal fun _ : ℝ => (0 : ℝ)).Convex ∧ InnerExact f g (fun x => (x - b) ^ 2 / 2) (XFun.ofReal fun _ => 0) solver 1 ∧
    ∃ s, Bregman f g solver 0 (.float 1) 1 false 0 0 = .ok s := by
  let f : ProxOp ℝ := ⟨fun x => .ok (.num ((x - b) ^ 2 / 2)), none, none, some fun x => .ok (x - b), true, 1⟩
  let g : ProxOp ℝ := ⟨fun _ => .ok (.num 0), some fun x _ => .ok x, none, none, false, 1⟩
  have key : ∀ v r x : ℝ, r = b - v → (r - b) ^ 2 / 2 + v * r ≤ (x - b) ^ 2 / 2 + v * x := by
    intro v r x hr
    subst hr
    nlinarith [sq_nonneg (x - (b - v))]
  refine ⟨f, g, fun f' _ _ => do pure (-(← f'.grad 0)), fun x => ⟨x - b, rfl, isGrad_of_quad (C := 1 / 2) fun y => ?_⟩, ?_, convexOn_const 0 convex_univ, ⟨fun x r h => ?_, fun v x r h => ?_⟩, ?_⟩
  · have e : (⟪x - b, y - x⟫ : ℝ) = (y - x) * (x - b) := by simp
    rw [e, show (y - b) ^ 2 / 2 - (x - b) ^ 2 / 2 - (y - x) * (x - b) = (y - x) ^ 2 / 2 by ring, abs_of_nonneg (by positivity), Real.norm_eq_abs, sq_abs]
    linarith
  · refine ⟨convex_univ, fun x _ y _ s t hs ht hst => ?_⟩
    simp only [smul_eq_mul]
    have : t = 1 - s := by linarith
    subst this
    nlinarith [mul_nonneg hs ht, sq_nonneg (x - y)]
  · simp only [ProxOp.grad, f, Bind.bind, Except.bind, Pure.pure, Except.pure, Except.ok.injEq] at h
    refine ⟨⟨trivial, trivial⟩, fun y _ => ?_⟩
    have := key 0 r y (by linarith)
    simp only [XFun.add, XFun.ofReal, XFun.smul]
    linarith
  · simp only [ProxOp.grad, ProxOp.sumOp, f, Bind.bind, Except.bind, Pure.pure, Except.pure, Except.ok.injEq] at h
    refine ⟨⟨trivial, trivial⟩, fun y _ => ?_⟩
    have := key v r y (by linarith)
    have e : ∀ y : ℝ, (⟪v, y⟫ : ℝ) = v * y := fun y => by simp [mul_comm]
    simp only [XFun.add, XFun.ofReal, XFun.smul, e]
    linarith
  · simp [Bregman, ProxOp.rmul, ProxOp.postcomposition, forRange, Bregman.body, Bregman.problem, ProxOp.grad, f, Bind.bind, Except.bind, Pure.pure, Except.pure]

end Verif
