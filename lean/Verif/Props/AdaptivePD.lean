import Verif.Props.PrimalDual
import Verif.Props.Calculus
import Mathlib.Analysis.SpecialFunctions.Exp

/-! # C51, C73 AdaptivePrimalDual -/

open scoped RealInnerProductSpace
open Filter Topology

set_option linter.unusedSectionVars false

namespace Verif

variable {E H : Type} [NormedAddCommGroup E] [InnerProductSpace ℝ E] [NormedAddCommGroup H] [InnerProductSpace ℝ H]
  {f : ProxOp E} {g : ProxOp H} {F : XFun E} {G : XFun H} {A : LinOp E H} {τ μ α : ℝ} {a : APDArgs E H}

lemma apd_loop_inv (Inv : APDState E H → Prop)
    (hstep : ∀ s s', Inv s → s.iiter < a.niter → APD.body f g A a s = .ok s' → Inv s') :
    ∀ fuel s r, Inv s → APD.loop f g A a fuel s = .ok r →
      Inv r ∧ (r.iiter < a.niter → r.p ≤ a.tol ∨ r.d ≤ a.tol) := by
  intro fuel
  induction fuel with
  | zero =>
    intro s r hs hr
    unfold APD.loop at hr
    by_cases hc : s.iiter < a.niter ∧ a.tol < s.p ∧ a.tol < s.d
    · rw [if_pos hc] at hr; cases hr
    · rw [if_neg hc] at hr
      cases hr
      refine ⟨hs, fun h => ?_⟩
      by_contra hn
      push Not at hn
      exact hc ⟨h, hn⟩
  | succ n ih =>
    intro s r hs hr
    unfold APD.loop at hr
    by_cases hc : s.iiter < a.niter ∧ a.tol < s.p ∧ a.tol < s.d
    · rw [if_pos hc] at hr
      cases hb : APD.body f g A a s with
      | error e => rw [hb] at hr; cases hr
      | ok s' =>
        rw [hb] at hr
        exact ih s' r (hstep s s' hs hc.1 hb) hr
    · rw [if_neg hc] at hr
      cases hr
      refine ⟨hs, fun h => ?_⟩
      by_contra hn
      push Not at hn
      exact hc ⟨h, hn⟩

/-- What one pass does, read off its result. -/
lemma apd_body_inv {s s' : APDState E H} (h : APD.body f g A a s = .ok s') :
    f.prox (s.x - s.tau • apdATy a.z s.ATy) s.tau = .ok s'.x ∧ s'.Ax = A.matvec s'.x ∧
      g.proxdual (s.y + s.mu • ((2 : ℝ) • s'.Ax - s.Ax)) s.mu = .ok s'.y ∧ s'.ATy = A.rmatvec s'.y ∧
      (a.z = none → s'.p = ‖(1 / s.tau) • (s.x - s'.x) - (s.ATy - s'.ATy)‖) ∧
      (∀ z, a.z = some z → ∃ Az, a.Az = some Az ∧ s'.p = ‖(1 / s.tau) • (s.x - s'.x) - (s.ATy - s'.ATy) - Az + z‖) ∧
      s'.d = ‖(1 / s.mu) • (s.y - s'.y) - (s.Ax - s'.Ax)‖ ∧
      apdSteps a.eta a.s a.delta s'.p s'.d s.tau s.mu s.alpha = .ok (s'.tau, s'.mu, s'.alpha) ∧ s'.iiter = s.iiter + 1 ∧
      s'.taus = s.taus ++ [s'.tau] ∧ s'.mus = s.mus ++ [s'.mu] ∧ s'.alphas = s.alphas ++ [s'.alpha] ∧ s'.log = s.log ++ [s'.x] := by
  unfold APD.body at h
  cases hx : f.prox (s.x - s.tau • apdATy a.z s.ATy) s.tau with
  | error e => rw [hx] at h; cases h
  | ok x =>
    rw [hx] at h
    simp only [Bind.bind, Except.bind] at h
    cases hy : g.proxdual (s.y + s.mu • ((2 : ℝ) • A.matvec x - s.Ax)) s.mu with
    | error e => rw [hy] at h; cases h
    | ok y =>
      rw [hy] at h
      simp only at h
      cases hz : a.z with
      | none =>
        rw [hz] at h
        simp only at h
        split at h
        · cases h
        · rename_i v heq
          cases h
          exact ⟨by simpa only [hz] using hx, rfl, hy, rfl, fun _ => rfl, by simp, rfl, heq, rfl, rfl, rfl, rfl, rfl⟩
      | some z =>
        rw [hz] at h
        cases hAz : a.Az with
        | none => rw [hAz] at h; cases h
        | some Az =>
          rw [hAz] at h
          simp only at h
          split at h
          · cases h
          · rename_i v heq
            cases h
            refine ⟨by simpa only [hz] using hx, rfl, hy, rfl, by simp, ?_, rfl, heq, rfl, rfl, rfl, rfl, rfl⟩
            intro w hw
            cases hw
            exact ⟨Az, rfl, rfl⟩

/-- C51: the three histories have one more entry than iterations performed, the callback is called once per iteration, at most `niter` iterations are
performed, and fewer only when one of the two residual tests holds. -/
theorem C51_apd_histories (x0 : E) (r : APDState E H) (hr : AdaptivePrimalDual f g A x0 τ μ α a = .ok r) :
    r.taus.length = r.iiter + 1 ∧ r.mus.length = r.iiter + 1 ∧ r.alphas.length = r.iiter + 1 ∧ r.log.length = r.iiter ∧ r.iiter ≤ a.niter ∧
      (r.iiter < a.niter → r.p ≤ a.tol ∨ r.d ≤ a.tol) := by
  have := apd_loop_inv (f := f) (g := g) (A := A) (a := a)
    (fun s => s.taus.length = s.iiter + 1 ∧ s.mus.length = s.iiter + 1 ∧ s.alphas.length = s.iiter + 1 ∧ s.log.length = s.iiter ∧ s.iiter ≤ a.niter)
    (fun s s' hs hlt hb => by
      obtain ⟨-, -, -, -, -, -, -, -, h1, h2, h3, h4, h5⟩ := apd_body_inv hb
      rw [h1, h2, h3, h4, h5]
      simp only [List.length_append, List.length_singleton]
      omega) _ _ _ (by simp) hr
  obtain ⟨⟨h1, h2, h3, h4, h5⟩, h6⟩ := this
  exact ⟨h1, h2, h3, h4, h5, h6⟩

lemma exp_le_one_sub {t b : ℝ} (ht : 0 ≤ t) (htb : t ≤ b) (hb : b < 1) : Real.exp (-(t / (1 - b))) ≤ 1 - t := by
  have h1 : 0 < 1 - t := by linarith
  have h2 : 0 < 1 - b := by linarith
  have h3 := Real.add_one_le_exp (t / (1 - t))
  have h4 : t / (1 - t) + 1 = 1 / (1 - t) := by field_simp; ring
  have h5 : t / (1 - t) ≤ t / (1 - b) := div_le_div_of_nonneg_left ht h2 (by linarith)
  have h6 : 1 / (1 - t) ≤ Real.exp (t / (1 - b)) := (h4 ▸ h3).trans (Real.exp_le_exp.2 h5)
  rw [Real.exp_neg, inv_le_comm₀ (Real.exp_pos _) h1, ← one_div]
  exact h6

/-- The invariant of the step sizes. -/
def apdInv (τ μ α η : ℝ) (t m al : ℝ) : Prop :=
  ∃ B : ℝ, 0 ≤ B ∧ B + al / ((1 - α) * (1 - η)) ≤ α / ((1 - α) * (1 - η)) ∧ 0 ≤ al ∧ al ≤ α ∧ t * m = τ * μ ∧
    τ * Real.exp (-B) ≤ t ∧ t ≤ τ * Real.exp B ∧ μ * Real.exp (-B) ≤ m ∧ m ≤ μ * Real.exp B

lemma apdInv_step {η t m al s δ p d t' m' al' : ℝ} (hτ : 0 < τ) (hμ : 0 < μ) (hα1 : α < 1) (hη0 : 0 ≤ η) (hη1 : η < 1)
    (h : apdInv τ μ α η t m al) (hs : apdSteps η s δ p d t m al = .ok (t', m', al')) : apdInv τ μ α η t' m' al' := by
  obtain ⟨B, hB0, hB, hal0, hal, hprod, ht1, ht2, hm1, hm2⟩ := h
  have hq : 0 < 1 - al := by linarith
  have hq1 : 1 - al ≤ 1 := by linarith
  have hw : 0 < (1 - α) * (1 - η) := mul_pos (by linarith) (by linarith)
  have he := exp_le_one_sub hal0 hal hα1
  set b := al / (1 - α) with hb
  have hb0 : 0 ≤ b := div_nonneg hal0 (by linarith)
  have hinv : 1 / (1 - al) ≤ Real.exp b := by
    rw [Real.exp_neg] at he
    rw [one_div]; exact inv_le_of_inv_le₀ (Real.exp_pos b) he
  have hB' : B + b + al * η / ((1 - α) * (1 - η)) ≤ α / ((1 - α) * (1 - η)) := by
    have : b + al * η / ((1 - α) * (1 - η)) = al / ((1 - α) * (1 - η)) := by
      rw [hb]; have : 1 - η ≠ 0 := by linarith
      have : 1 - α ≠ 0 := by linarith
      field_simp; ring
    linarith
  have hale : al * η ≤ α := le_trans (by nlinarith) hal
  have htp : 0 < t := lt_of_lt_of_le (by positivity) ht1
  have hmp : 0 < m := lt_of_lt_of_le (by positivity) hm1
  have up : ∀ c v : ℝ, 0 < c → 0 < v → v ≤ c * Real.exp B → v / (1 - al) ≤ c * Real.exp (B + b) := fun c v hc hv h => by
    rw [Real.exp_add, ← mul_assoc, div_eq_mul_one_div]
    exact mul_le_mul h hinv (by positivity) (by positivity)
  have lo : ∀ c v : ℝ, 0 < c → 0 < v → c * Real.exp (-B) ≤ v → c * Real.exp (-(B + b)) ≤ v * (1 - al) := fun c v hc hv h => by
    rw [neg_add, Real.exp_add, ← mul_assoc]
    exact mul_le_mul h he (by positivity) hv.le
  have lo' : ∀ c v : ℝ, 0 < c → 0 < v → c * Real.exp (-B) ≤ v → c * Real.exp (-(B + b)) ≤ v / (1 - al) := fun c v hc hv h => by
    rw [le_div_iff₀ hq]
    calc _ ≤ v * (1 - al) * (1 - al) := mul_le_mul_of_nonneg_right (lo c v hc hv h) hq.le
      _ ≤ v := by nlinarith [mul_pos hv hq]
  have up' : ∀ c v : ℝ, 0 < c → 0 < v → v ≤ c * Real.exp B → v * (1 - al) ≤ c * Real.exp (B + b) := fun c v hc hv h => by
    calc v * (1 - al) ≤ v := by nlinarith
      _ ≤ _ := h
      _ ≤ _ := mul_le_mul_of_nonneg_left (Real.exp_le_exp.2 (by linarith)) hc.le
  unfold apdSteps at hs
  by_cases h1 : s * d * δ < p
  · rw [if_pos h1, if_neg hq.ne'] at hs
    cases hs
    exact ⟨B + b, by linarith, hB', by positivity, hale, by rw [← hprod]; field_simp, lo' τ t hτ htp ht1, up τ t hτ htp ht2, lo μ m hμ hmp hm1,
      up' μ m hμ hmp hm2⟩
  · rw [if_neg h1] at hs
    by_cases h2 : δ = 0
    · rw [if_pos h2] at hs; cases hs
    · rw [if_neg h2] at hs
      by_cases h3 : p < s * d / δ
      · rw [if_pos h3, if_neg hq.ne'] at hs
        cases hs
        exact ⟨B + b, by linarith, hB', by positivity, hale, by rw [← hprod]; field_simp, lo τ t hτ htp ht1, up' τ t hτ htp ht2,
          lo' μ m hμ hmp hm1, up μ m hμ hmp hm2⟩
      · rw [if_neg h3] at hs
        cases hs
        exact ⟨B, hB0, hB, hal0, hal, hprod, ht1, ht2, hm1, hm2⟩

lemma zip_append_singleton {α β : Type} (l : List α) (l' : List β) (h : l.length = l'.length) (a : α) (b : β) :
    (l ++ [a]).zip (l' ++ [b]) = l.zip l' ++ [(a, b)] := by
  rw [List.zip_append h]; rfl

/-- C51: every pair of steps recorded in the histories has the product of the initial pair, and both steps stay within fixed positive bounds that depend
only on the initial parameters (not on the number of iterations). -/
theorem C51_apd_steps (hτ : 0 < τ) (hμ : 0 < μ) (hα0 : 0 ≤ α) (hα1 : α < 1) (hη0 : 0 ≤ a.eta) (hη1 : a.eta < 1) (x0 : E) (r : APDState E H)
    (hr : AdaptivePrimalDual f g A x0 τ μ α a = .ok r) (i : ℕ) (t m : ℝ) (ht : r.taus[i]? = some t) (hm : r.mus[i]? = some m) :
    let c := Real.exp (-(α / ((1 - α) * (1 - a.eta))))
    t * m = τ * μ ∧ 0 < t ∧ 0 < m ∧ c * τ ≤ t ∧ t ≤ τ / c ∧ c * μ ≤ m ∧ m ≤ μ / c := by
  have hw : 0 < (1 - α) * (1 - a.eta) := mul_pos (by linarith) (by linarith)
  have init : apdInv τ μ α a.eta τ μ α := ⟨0, le_rfl, by rw [zero_add], hα0, le_rfl, rfl, by simp, by simp, by simp, by simp⟩
  have := apd_loop_inv (f := f) (g := g) (A := A) (a := a)
    (fun s => apdInv τ μ α a.eta s.tau s.mu s.alpha ∧ s.taus.length = s.mus.length ∧ ∀ q ∈ s.taus.zip s.mus, ∃ al, apdInv τ μ α a.eta q.1 q.2 al)
    (fun s s' hs _ hb => by
      obtain ⟨-, -, -, -, -, -, -, hst, -, h2, h3, -, -⟩ := apd_body_inv hb
      have hi := apdInv_step hτ hμ hα1 hη0 hη1 hs.1 hst
      refine ⟨hi, by rw [h2, h3]; simp [hs.2.1], ?_⟩
      rw [h2, h3, zip_append_singleton _ _ hs.2.1]
      intro q hq
      rw [List.mem_append, List.mem_singleton] at hq
      rcases hq with hq | rfl
      · exact hs.2.2 q hq
      · exact ⟨_, hi⟩) _ _ _ ⟨init, rfl, by
        intro q hq
        simp only [List.zip_cons_cons, List.zip_nil_right, List.mem_singleton] at hq
        subst hq
        exact ⟨α, init⟩⟩ hr
  obtain ⟨⟨-, -, hall⟩, -⟩ := this
  obtain ⟨al, B, hB0, hB, hal0, hal, hprod, ht1, ht2, hm1, hm2⟩ := hall (t, m) (by
    rw [List.mem_iff_getElem?]
    exact ⟨i, by rw [List.getElem?_zip_eq_some]; exact ⟨ht, hm⟩⟩)
  simp only at hprod ht1 ht2 hm1 hm2
  set C := α / ((1 - α) * (1 - a.eta)) with hC
  have hBC : B ≤ C := by
    have : 0 ≤ al / ((1 - α) * (1 - a.eta)) := by positivity
    linarith
  have e1 : Real.exp (-C) ≤ Real.exp (-B) := Real.exp_le_exp.2 (by linarith)
  have e2 : Real.exp B ≤ Real.exp C := Real.exp_le_exp.2 hBC
  have e3 : ∀ v : ℝ, v / Real.exp (-C) = v * Real.exp C := fun v => by rw [Real.exp_neg, div_inv_eq_mul]
  simp only [e3]
  refine ⟨hprod, lt_of_lt_of_le (by positivity) ht1, lt_of_lt_of_le (by positivity) hm1, ?_, ?_, ?_, ?_⟩
  · rw [mul_comm]; exact (mul_le_mul_of_nonneg_left e1 hτ.le).trans ht1
  · exact ht2.trans (mul_le_mul_of_nonneg_left e2 hτ.le)
  · rw [mul_comm]; exact (mul_le_mul_of_nonneg_left e1 hμ.le).trans hm1
  · exact hm2.trans (mul_le_mul_of_nonneg_left e2 hμ.le)

lemma apdSteps_ok {η t m al s δ p d : ℝ} (hδ : δ ≠ 0) (hal : al < 1) : ∃ v, apdSteps η s δ p d t m al = .ok v := by
  have : 1 - al ≠ 0 := by linarith
  unfold apdSteps
  rw [if_neg this, if_neg this, if_neg hδ]
  split
  · exact ⟨_, rfl⟩
  · split <;> exact ⟨_, rfl⟩

/-- C51: without the extra vector `z`, and with positive steps, `0 ≤ alpha < 1`, `0 ≤ eta < 1` and `delta ≠ 0`, the solver returns. -/
theorem C51_apd_returns (hf : ProxExact f F) (hd : ProxdualExact g G) (hτ : 0 < τ) (hμ : 0 < μ) (hα0 : 0 ≤ α) (hα1 : α < 1) (hη0 : 0 ≤ a.eta)
    (hη1 : a.eta < 1) (hδ : a.delta ≠ 0) (hz : a.z = none) (x0 : E) : ∃ r, AdaptivePrimalDual f g A x0 τ μ α a = .ok r := by
  have key : ∀ fuel s, a.niter ≤ s.iiter + fuel → apdInv τ μ α a.eta s.tau s.mu s.alpha → ∃ r, APD.loop f g A a fuel s = .ok r := by
    intro fuel
    induction fuel with
    | zero =>
      intro s hn _
      unfold APD.loop
      rw [if_neg (by omega)]
      exact ⟨_, rfl⟩
    | succ n ih =>
      intro s hn hs
      unfold APD.loop
      by_cases hc : s.iiter < a.niter ∧ a.tol < s.p ∧ a.tol < s.d
      · rw [if_pos hc]
        have hs' := hs
        obtain ⟨B, hB0, hB, hal0, hal, hprod, ht1, ht2, hm1, hm2⟩ := hs'
        have htp : 0 < s.tau := lt_of_lt_of_le (by positivity) ht1
        have hmp : 0 < s.mu := lt_of_lt_of_le (by positivity) hm1
        have hb : ∃ s', APD.body f g A a s = .ok s' := by
          obtain ⟨x, hx, -⟩ := hf (s.x - s.tau • apdATy a.z s.ATy) s.tau htp
          obtain ⟨y, hy, -⟩ := hd (s.y + s.mu • ((2 : ℝ) • A.matvec x - s.Ax)) s.mu hmp
          obtain ⟨v, hv⟩ := apdSteps_ok (η := a.eta) (t := s.tau) (m := s.mu) (al := s.alpha) (s := a.s) (δ := a.delta)
            (p := ‖(1 / s.tau) • (s.x - x) - (s.ATy - A.rmatvec y)‖) (d := ‖(1 / s.mu) • (s.y - y) - (s.Ax - A.matvec x)‖) hδ (by linarith)
          unfold APD.body
          rw [hx]
          simp only [Bind.bind, Except.bind, hy, hz, hv]
          exact ⟨_, rfl⟩
        obtain ⟨s', hb⟩ := hb
        obtain ⟨-, -, -, -, -, -, -, hst, hi, -⟩ := apd_body_inv hb
        obtain ⟨r, hr⟩ := ih s' (by omega) (apdInv_step hτ hμ hα1 hη0 hη1 hs hst)
        exact ⟨r, by rw [hb]; exact hr⟩
      · rw [if_neg hc]; exact ⟨_, rfl⟩
  refine key _ _ (by simp) ⟨0, le_rfl, by rw [zero_add], hα0, le_rfl, rfl, by simp, by simp, by simp, by simp⟩

/-! ## C73 the residuals -/

/-- C73 (partial: only without the extra vector `z`): whenever an iteration was performed, the two numbers the stopping test looks at are the norms of the
optimality residuals at the returned point: `u + Aᵀy` for a subgradient `u` of `F` at `x`, and `v - A x` for a subgradient `v` of `G*` at `y`. -/
theorem C73_apd_residuals_partial (hF : F.Convex) (hGc : G.conj.Convex) (hf : ProxExact f F) (hd : ProxdualExact g G.conj) (hτ : 0 < τ) (hμ : 0 < μ)
    (hα0 : 0 ≤ α) (hα1 : α < 1) (hη0 : 0 ≤ a.eta) (hη1 : a.eta < 1) (hz : a.z = none) (x0 : E) (r : APDState E H)
    (hr : AdaptivePrimalDual f g A x0 τ μ α a = .ok r) (hn : 0 < r.iiter) :
    ∃ u v, IsSubgrad F r.x u ∧ IsSubgrad G.conj r.y v ∧ r.p = ‖u + A.rmatvec r.y‖ ∧ r.d = ‖v - A.matvec r.x‖ := by
  have := apd_loop_inv (f := f) (g := g) (A := A) (a := a)
    (fun s => apdInv τ μ α a.eta s.tau s.mu s.alpha ∧
      (0 < s.iiter → ∃ u v, IsSubgrad F s.x u ∧ IsSubgrad G.conj s.y v ∧ s.p = ‖u + A.rmatvec s.y‖ ∧ s.d = ‖v - A.matvec s.x‖))
    (fun s s' hs _ hb => by
      obtain ⟨h1, h2, h3, h4, h5, -, h6, hst, -⟩ := apd_body_inv hb
      have hi := apdInv_step hτ hμ hα1 hη0 hη1 hs.1 hst
      obtain ⟨B, hB0, hB, hal0, hal, hprod, ht1, ht2, hm1, hm2⟩ := hs.1
      have htp : 0 < s.tau := lt_of_lt_of_le (by positivity) ht1
      have hmp : 0 < s.mu := lt_of_lt_of_le (by positivity) hm1
      refine ⟨hi, fun _ => ?_⟩
      obtain ⟨p, hp, hp'⟩ := hf (s.x - s.tau • apdATy a.z s.ATy) s.tau htp
      obtain ⟨q, hq, hq'⟩ := hd (s.y + s.mu • ((2 : ℝ) • s'.Ax - s.Ax)) s.mu hmp
      rw [h1] at hp; injection hp with hp
      rw [h3] at hq; injection hq with hq
      rw [← hp] at hp'; rw [← hq] at hq'
      refine ⟨_, _, subgrad_of_isProx hF htp hp', subgrad_of_isProx hGc hmp hq', ?_, ?_⟩
      · rw [h5 hz, ← h4, hz]
        simp only [apdATy]
        congr 1
        rw [sub_right_comm, smul_sub (1 / s.tau) (s.x - s'.x), smul_smul, one_div_mul_cancel htp.ne', one_smul]
        abel
      · rw [h6, ← h2]
        congr 1
        rw [show s.y + s.mu • ((2 : ℝ) • s'.Ax - s.Ax) - s'.y = (s.y - s'.y) + s.mu • ((2 : ℝ) • s'.Ax - s.Ax) by abel, smul_add, smul_smul,
          one_div_mul_cancel hmp.ne', one_smul, two_smul]
        abel) _ _ _ ⟨⟨0, le_rfl, by rw [zero_add], hα0, le_rfl, rfl, by simp, by simp, by simp, by simp⟩, fun h => absurd h (by simp)⟩ hr
  exact this.1.2 hn

/-- C73 refuted for `z` with an operator that is not square: every call with `niter ≥ 1` (and a tolerance below its own start value, i.e. always)
fails. -/
theorem C73_apd_z_nonsquare_refuted (hf : ProxExact f F) (hd : ProxdualExact g G) (hτ : 0 < τ) (hμ : 0 < μ) (z : E) (hz : a.z = some z)
    (hAz : a.Az = none) (hn : 0 < a.niter) (x0 : E) : AdaptivePrimalDual f g A x0 τ μ α a = .error .valueError := by
  obtain ⟨n, hn'⟩ := Nat.exists_eq_succ_of_ne_zero hn.ne'
  unfold AdaptivePrimalDual
  rw [hn', APD.loop, if_pos ⟨by simp only; omega, by simp, by simp⟩]
  obtain ⟨x, hx, -⟩ := hf (x0 - τ • apdATy a.z 0) τ hτ
  obtain ⟨y, hy, -⟩ := hd (0 + μ • ((2 : ℝ) • A.matvec x - 0)) μ hμ
  unfold APD.body
  simp only [hx, Bind.bind, Except.bind, hy, hz, hAz]
  rw [hz] at hx
  simp only [hx, hy]

/-- C73 refuted for `z` with a square operator: at a saddle point reached exactly (every residual is zero), the number the stopping test uses for the primal
residual is `‖z - Aᵀz‖`, which need not be small. -/
theorem C73_apd_z_square_refuted (s s' : APDState E H) (z Az : E) (hz : a.z = some z) (hAz : a.Az = some Az) (hb : APD.body f g A a s = .ok s')
    (hx : s'.x = s.x) (hy : s'.ATy = s.ATy) : s'.p = ‖z - Az‖ := by
  obtain ⟨-, -, -, -, -, h6, -⟩ := apd_body_inv hb
  obtain ⟨Az', h7, h8⟩ := h6 z hz
  rw [hAz] at h7
  cases h7
  rw [h8, hx, hy]
  simp [neg_add_eq_sub]

/-- C73 refuted: the loop stops as soon as *one* residual is small.  With the zero operator (so that the problem is just `min F`) and any `g` whose dual step
fixes zero, the solver stops after one iteration, at `prox_{τF}(x0)`, whatever `niter` and however large the primal residual. -/
theorem C73_apd_one_residual_refuted (hf : ProxExact f F) (hA : ∀ x, A.matvec x = 0) (hg : g.proxdual 0 μ = .ok 0) (hτ : 0 < τ)
    (hα1 : α < 1) (hδ : a.delta ≠ 0) (hz : a.z = none) (htol : 0 ≤ a.tol) (hn : 0 < a.niter) (x0 : E) :
    ∃ r, AdaptivePrimalDual f g A x0 τ μ α a = .ok r ∧ f.prox x0 τ = .ok r.x ∧ r.iiter = 1 ∧ r.p = ‖(1 / τ) • (x0 - r.x)‖ := by
  obtain ⟨n, hn'⟩ := Nat.exists_eq_succ_of_ne_zero hn.ne'
  obtain ⟨x, hx, -⟩ := hf x0 τ hτ
  obtain ⟨v, hv⟩ := apdSteps_ok (η := a.eta) (t := τ) (m := μ) (al := α) (s := a.s) (δ := a.delta)
    (p := ‖(1 / τ) • (x0 - x)‖) (d := 0) hδ hα1
  refine ⟨⟨x, 0, 0, 0, v.1, v.2.1, v.2.2, ‖(1 / τ) • (x0 - x)‖, 0, 1, [τ] ++ [v.1], [μ] ++ [v.2.1], [α] ++ [v.2.2], [x]⟩, ?_, hx, rfl, rfl⟩
  have hbody : APD.body f g A a ⟨x0, 0, 0, 0, τ, μ, α, a.tol + 1, a.tol + 1, 0, [τ], [μ], [α], []⟩ =
      .ok ⟨x, 0, 0, 0, v.1, v.2.1, v.2.2, ‖(1 / τ) • (x0 - x)‖, 0, 1, [τ] ++ [v.1], [μ] ++ [v.2.1], [α] ++ [v.2.2], [x]⟩ := by
    unfold APD.body
    simp only [hz, apdATy, smul_zero, sub_zero, hx, Bind.bind, Except.bind, hA, add_zero, hg, map_zero, norm_zero, sub_self, hv, Pure.pure, Except.pure,
      zero_add, List.nil_append]
  unfold AdaptivePrimalDual
  rw [hn', APD.loop, if_pos ⟨by simp only; omega, by simp, by simp⟩]
  simp only [hbody, Bind.bind, Except.bind]
  cases n with
  | zero => rw [APD.loop, if_neg (by simp only; rintro ⟨-, -, h⟩; linarith)]
  | succ n => rw [APD.loop, if_neg (by simp only; rintro ⟨-, -, h⟩; linarith)]

/-! ## Instances -/

/-- Moreau's identity between `prox` and `proxdual` makes the latter exact for the conjugate. -/
lemma proxdualExact_of_moreau (hG : G.Convex) (hg : ProxExact g G)
    (hm : ∀ x τ, 0 < τ → ∃ p d, g.prox x τ = .ok p ∧ g.proxdual ((1 / τ) • x) (1 / τ) = .ok d ∧ x = p + τ • d) : ProxdualExact g G.conj := by
  intro v σ hσ
  have hσ' : 0 < 1 / σ := by positivity
  obtain ⟨p, d, h1, h2, h3⟩ := hm ((1 / σ) • v) (1 / σ) hσ'
  obtain ⟨q, h4, h5⟩ := hg ((1 / σ) • v) (1 / σ) hσ'
  rw [h1] at h4; cases h4
  have e : (1 / (1 / σ)) • (1 / σ) • v = v := by rw [smul_smul, one_div_mul_cancel hσ'.ne', one_smul]
  have e1 : 1 / (1 / σ) = σ := one_div_one_div σ
  rw [e, e1] at h2
  refine ⟨d, h2, ?_⟩
  have h6 := conj_isProx hG hσ' h5
  have e2 : (1 / (1 / σ)) • ((1 / σ) • v - p) = d := by
    rw [h3, add_sub_cancel_left, smul_smul, one_div_mul_cancel hσ'.ne', one_smul]
  rw [e, e2, e1] at h6
  exact h6

lemma l1_proxdualExact {ι : Type} [Fintype ι] :
    ProxdualExact (L1 1 (none : Option (Vec ι))) (XFun.ofReal fun x : Vec ι => 1 * ∑ i, |x i - (0 : Vec ι) i|).conj :=
  proxdualExact_of_moreau l1_convex l1_proxExact fun x τ hτ => C02_moreau_l1 1 zero_le_one none x τ hτ

/-- The hypotheses of C46, C50 are met by `‖x‖₁ + ⟪z, x⟫ + ‖A x‖₁` for every operator `A` and every `z` with entries in `[-1, 1]`. -/
example {ι κ : Type} [Fintype ι] [Fintype κ] (A : LinOp (Vec ι) (Vec κ)) (z : Vec ι) (hz : ∀ i, |z i| ≤ 1) :
    ∃ (f : ProxOp (Vec ι)) (g : ProxOp (Vec κ)) (F : XFun (Vec ι)) (G : XFun (Vec κ)), F.Convex ∧ G.Convex ∧ G.conj.Convex ∧ ProxExact f F ∧
      ProxExact g G ∧ ProxdualExact g G.conj ∧ (∃ x y, IsCertifiedComp F G A.matvec A.rmatvec z x y) ∧ g.proxdual 0 1 = .ok 0 := by
  refine ⟨L1 1 none, L1 1 none, _, _, l1_convex, l1_convex, conj_convex ⟨0, trivial⟩, l1_proxExact, l1_proxExact, l1_proxdualExact, ⟨0, 0, ?_, ?_⟩, ?_⟩
  · refine ⟨trivial, fun y _ => ?_⟩
    simp only [XFun.ofReal, map_zero, neg_zero, zero_sub, inner_neg_left, PiLp.zero_apply, sub_zero, abs_zero, Finset.sum_const_zero, one_mul, zero_add]
    rw [PiLp.inner_apply, ← Finset.sum_neg_distrib]
    refine Finset.sum_le_sum fun i _ => ?_
    have h1 : -(inner ℝ (z i) (y i)) = -(z i * y i) := by simp [mul_comm]
    rw [h1]
    have h2 := abs_mul (z i) (y i)
    have h3 := neg_abs_le (z i * y i)
    nlinarith [hz i, abs_nonneg (y i)]
  · rw [map_zero]
    refine ⟨trivial, fun y _ => ?_⟩
    simp only [XFun.ofReal, inner_zero_left, PiLp.zero_apply, sub_zero, abs_zero, Finset.sum_const_zero, one_mul, add_zero]
    exact Finset.sum_nonneg fun i _ => abs_nonneg _
  · simp only [ProxOp.proxdual, L1, checkTau_pos one_pos]
    congr 1
    ext i
    simp [boxProj, boxClip, maxLower, minUpper]

/-- C73, concretely: minimising `‖x‖₁` from `x0 = 10` with the zero operator, the solver stops after one iteration at `9` for every `niter`; the minimiser
is `0`. -/
theorem C73_apd_stops_early_refuted (niter : ℕ) (hn : 0 < niter) (A : LinOp (Vec (Fin 1)) (Vec (Fin 1))) (hA : ∀ x, A.matvec x = 0) :
    ∃ r, AdaptivePrimalDual (L1 1 none) (L1 1 none) A (WithLp.toLp 2 fun _ => 10) 1 1 (1 / 2) ⟨19 / 20, 1, 3 / 2, none, none, niter, 0⟩ = .ok r ∧
      r.x 0 = 9 ∧ r.iiter = 1 := by
  have hg : (L1 1 (none : Option (Vec (Fin 1)))).proxdual 0 1 = .ok 0 := by
    simp only [ProxOp.proxdual, L1, checkTau_pos one_pos]
    congr 1
    ext i
    simp [boxProj, boxClip, maxLower, minUpper]
  obtain ⟨r, h1, h2, h3, -⟩ := C73_apd_one_residual_refuted (α := 1 / 2) (a := ⟨19 / 20, 1, 3 / 2, none, none, niter, 0⟩) l1_proxExact hA hg one_pos
    (by norm_num) (by norm_num) rfl le_rfl hn (WithLp.toLp 2 fun _ => 10)
  refine ⟨r, h1, ?_, h3⟩
  simp only [ProxOp.prox, L1, checkTau_pos one_pos] at h2
  injection h2 with h2
  rw [← h2]
  simp [softthreshold, softScalar, npsign]
  norm_num

end Verif
