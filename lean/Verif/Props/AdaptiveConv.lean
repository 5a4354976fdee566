import Verif.Props.AdaptivePD
import Verif.Props.Slater
import Verif.Lemmas.Adaptive

/-! # C94 AdaptivePrimalDual converges -/

open scoped RealInnerProductSpace
open Filter Topology

set_option linter.unusedSectionVars false

namespace Verif

variable {E H : Type} [NormedAddCommGroup E] [InnerProductSpace ℝ E] [NormedAddCommGroup H] [InnerProductSpace ℝ H]
  {f : ProxOp E} {g : ProxOp H} {F : XFun E} {G : XFun H} {A : LinOp E H} {τ μ α K : ℝ} {a : APDArgs E H}

lemma apdATy_eq (z : Option E) (v : E) : apdATy z v = v + z.getD 0 := by cases z <;> simp [apdATy]

/-- One pass succeeds from a state with positive steps. -/
lemma apd_body_ok (hf : ProxExact f F) (hd : ProxdualExact g G) (hδ : a.delta ≠ 0) (hz : a.z = none ∨ a.Az ≠ none) (s : APDState E H)
    (ht : 0 < s.tau) (hm : 0 < s.mu) (hal : s.alpha < 1) : ∃ s', APD.body f g A a s = .ok s' := by
  obtain ⟨x, hx, -⟩ := hf (s.x - s.tau • apdATy a.z s.ATy) s.tau ht
  obtain ⟨y, hy, -⟩ := hd (s.y + s.mu • ((2 : ℝ) • A.matvec x - s.Ax)) s.mu hm
  unfold APD.body
  rw [hx]
  simp only [Bind.bind, Except.bind, hy]
  cases h : a.z with
  | none =>
    obtain ⟨v, hv⟩ := apdSteps_ok (η := a.eta) (t := s.tau) (m := s.mu) (al := s.alpha) (s := a.s) (δ := a.delta)
      (p := ‖(1 / s.tau) • (s.x - x) - (s.ATy - A.rmatvec y)‖) (d := ‖(1 / s.mu) • (s.y - y) - (s.Ax - A.matvec x)‖) hδ hal
    simp only [hv]
    exact ⟨_, rfl⟩
  | some z =>
    cases hA : a.Az with
    | none =>
      rcases hz with hz | hz
      · rw [h] at hz; cases hz
      · exact absurd hA hz
    | some Az =>
      obtain ⟨v, hv⟩ := apdSteps_ok (η := a.eta) (t := s.tau) (m := s.mu) (al := s.alpha) (s := a.s) (δ := a.delta)
        (p := ‖(1 / s.tau) • (s.x - x) - (s.ATy - A.rmatvec y) - Az + z‖) (d := ‖(1 / s.mu) • (s.y - y) - (s.Ax - A.matvec x)‖) hδ hal
      simp only [hv]
      exact ⟨_, rfl⟩

lemma apdInv_pos {η t m al : ℝ} (hτ : 0 < τ) (hμ : 0 < μ) (h : apdInv τ μ α η t m al) : 0 < t ∧ 0 < m := by
  obtain ⟨B, hB0, hB, hal0, hal, hprod, ht1, ht2, hm1, hm2⟩ := h
  exact ⟨lt_of_lt_of_le (by positivity) ht1, lt_of_lt_of_le (by positivity) hm1⟩

/-- The start of `AdaptivePrimalDual`. -/
noncomputable def apdInit (x0 : E) (τ μ α tol : ℝ) : APDState E H := ⟨x0, 0, 0, 0, τ, μ, α, tol + 1, tol + 1, 0, [τ], [μ], [α], []⟩

/-- The infinite sequence of states, and what a run with `niter = n` returns. -/
lemma apd_traj (hf : ProxExact f F) (hd : ProxdualExact g G) (hτ : 0 < τ) (hμ : 0 < μ) (hα0 : 0 ≤ α) (hα1 : α < 1) (hη0 : 0 ≤ a.eta)
    (hη1 : a.eta < 1) (hδ : a.delta ≠ 0) (hz : a.z = none ∨ a.Az ≠ none) (x0 : E) :
    ∃ S : ℕ → APDState E H, S 0 = apdInit x0 τ μ α a.tol ∧ (∀ n, APD.body f g A a (S n) = .ok (S (n + 1))) ∧
      (∀ n, apdInv τ μ α a.eta (S n).tau (S n).mu (S n).alpha) ∧ (∀ n, (S n).iiter = n) ∧
      ∀ n, ∃ j ≤ n, AdaptivePrimalDual f g A x0 τ μ α { a with niter := n } = .ok (S j) ∧ (∀ i < j, a.tol < (S i).p ∧ a.tol < (S i).d) ∧
        (j < n → ¬ (a.tol < (S j).p ∧ a.tol < (S j).d)) := by
  have hstep : ∀ s : {s : APDState E H // apdInv τ μ α a.eta s.tau s.mu s.alpha}, ∃ s' : {s : APDState E H // apdInv τ μ α a.eta s.tau s.mu s.alpha},
      APD.body f g A a s.1 = .ok s'.1 := by
    rintro ⟨s, hs⟩
    obtain ⟨ht, hm⟩ := apdInv_pos hτ hμ hs
    have hs' := hs
    obtain ⟨B, hB0, hB, hal0, hal, -⟩ := hs'
    obtain ⟨s', hb⟩ := apd_body_ok (A := A) hf hd hδ hz s ht hm (by linarith)
    obtain ⟨-, -, -, -, -, -, -, hst, -⟩ := apd_body_inv hb
    exact ⟨⟨s', apdInv_step hτ hμ hα1 hη0 hη1 hs hst⟩, hb⟩
  choose nxt hnxt using hstep
  have hinit : apdInv τ μ α a.eta (apdInit (H := H) x0 τ μ α a.tol).tau (apdInit (H := H) x0 τ μ α a.tol).mu (apdInit (H := H) x0 τ μ α a.tol).alpha :=
    ⟨0, le_rfl, by rw [zero_add]; exact le_rfl, hα0, le_rfl, rfl, by simp [apdInit], by simp [apdInit], by simp [apdInit], by simp [apdInit]⟩
  let S : ℕ → {s : APDState E H // apdInv τ μ α a.eta s.tau s.mu s.alpha} := fun n => Nat.rec ⟨_, hinit⟩ (fun _ s => nxt s) n
  have hS : ∀ n, APD.body f g A a (S n).1 = .ok (S (n + 1)).1 := fun n => hnxt (S n)
  have hit : ∀ n, (S n).1.iiter = n := by
    intro n
    induction n with
    | zero => rfl
    | succ n ih =>
      obtain ⟨-, -, -, -, -, -, -, -, h, -⟩ := apd_body_inv (hS n)
      rw [h, ih]
  refine ⟨fun n => (S n).1, rfl, hS, fun n => (S n).2, hit, fun n => ?_⟩
  have hloop : ∀ fuel k, k + fuel = n → (∀ i < k, a.tol < (S i).1.p ∧ a.tol < (S i).1.d) →
      ∃ j ≤ n, APD.loop f g A { a with niter := n } fuel (S k).1 = .ok (S j).1 ∧ (∀ i < j, a.tol < (S i).1.p ∧ a.tol < (S i).1.d) ∧
        (j < n → ¬ (a.tol < (S j).1.p ∧ a.tol < (S j).1.d)) := by
    intro fuel
    induction fuel with
    | zero =>
      intro k hk hi
      refine ⟨k, by omega, ?_, hi, fun h => by omega⟩
      unfold APD.loop
      rw [if_neg (by rw [hit]; simp only; omega)]
    | succ fuel ih =>
      intro k hk hi
      unfold APD.loop
      by_cases hc : a.tol < (S k).1.p ∧ a.tol < (S k).1.d
      · rw [if_pos ⟨by rw [hit]; simp only; omega, hc⟩]
        have hb : APD.body f g A { a with niter := n } (S k).1 = .ok (S (k + 1)).1 := hS k
        rw [hb]
        exact ih (k + 1) (by omega) fun i h => by
          rcases Nat.lt_succ_iff_lt_or_eq.1 h with h | h
          · exact hi i h
          · rw [h]; exact hc
      · exact ⟨k, by omega, by rw [if_neg fun h => hc h.2], hi, fun _ => hc⟩
  exact hloop n 0 (by omega) fun i h => absurd h (Nat.not_lt_zero i)

lemma apdSteps_rel {η s δ p d t m al t' m' al' : ℝ} (h : apdSteps η s δ p d t m al = .ok (t', m', al')) : ApdRel η t m al t' m' al' := by
  unfold apdSteps at h
  split_ifs at h <;> cases h
  · exact Or.inr (Or.inl ⟨rfl, rfl, rfl⟩)
  · exact Or.inr (Or.inr ⟨rfl, rfl, rfl⟩)
  · exact Or.inl ⟨rfl, rfl, rfl⟩

/-- What one pass means for the two functions. -/
lemma apd_step_facts (hF : F.Convex) (hG : G.Convex) (hf : ProxExact f F) (hg : ProxExact g G) (hd : ProxdualExact g G.conj) {s s' : APDState E H}
    (hb : APD.body f g A a s = .ok s') (ht : 0 < s.tau) (hm : 0 < s.mu) (hAx : s.Ax = A.matvec s.x) (hATy : s.ATy = A.rmatvec s.y) :
    IsSubgrad F s'.x ((1 / s.tau) • (s.x - s'.x) - A.rmatvec s.y - a.z.getD 0) ∧
      IsSubgrad G ((1 / s.mu) • (s.y - s'.y) + A.matvec ((2 : ℝ) • s'.x - s.x)) s'.y ∧
      ∀ c : E × H, IsCertifiedComp F G A.matvec A.rmatvec (a.z.getD 0) c.1 c.2 →
        cpGauge A s.tau s.mu ((s'.x, s'.y) - c) + cpGauge A s.tau s.mu ((s'.x, s'.y) - (s.x, s.y)) ≤ cpGauge A s.tau s.mu ((s.x, s.y) - c) := by
  obtain ⟨h1, h2, h3, h4, -⟩ := apd_body_inv hb
  obtain ⟨P, hP, hP'⟩ := proxExact_map hf ht
  obtain ⟨Pg, hPg, hD⟩ := proxdual_moreau hG hg hd hm
  have hm' : 0 < 1 / s.mu := by positivity
  have ex : s'.x = P (s.x - s.tau • (A.rmatvec s.y + a.z.getD 0)) := by
    rw [hP, apdATy_eq, hATy] at h1
    injection h1 with h1
    exact h1.symm
  have ev : s.y + s.mu • ((2 : ℝ) • s'.Ax - s.Ax) = s.y + s.mu • A.matvec ((2 : ℝ) • s'.x - s.x) := by
    rw [h2, hAx, map_sub, map_smul]
  set v := s.y + s.mu • A.matvec ((2 : ℝ) • s'.x - s.x) with hv
  have ey : s'.y = v - s.mu • Pg ((1 / s.mu) • v) := by
    rw [ev, hD] at h3
    injection h3 with h3
    exact h3.symm
  refine ⟨?_, ?_, fun c hc => ?_⟩
  · have := subgrad_of_isProx hF ht (hP' (s.x - s.tau • (A.rmatvec s.y + a.z.getD 0)))
    rw [← ex] at this
    convert this using 1
    have e : s.x - s.tau • (A.rmatvec s.y + a.z.getD 0) - s'.x = (s.x - s'.x) - s.tau • (A.rmatvec s.y + a.z.getD 0) := by abel
    rw [e, smul_sub (1 / s.tau) (s.x - s'.x), smul_smul, one_div_mul_cancel ht.ne', one_smul]
    abel
  · have := subgrad_of_isProx hG hm' (hPg ((1 / s.mu) • v))
    have e1 : (1 / (1 / s.mu)) • ((1 / s.mu) • v - Pg ((1 / s.mu) • v)) = s'.y := by
      rw [ey, smul_sub, smul_smul, one_div_one_div, mul_one_div_cancel hm.ne', one_smul]
    have e2 : Pg ((1 / s.mu) • v) = (1 / s.mu) • (s.y - s'.y) + A.matvec ((2 : ℝ) • s'.x - s.x) := by
      have : s.y - s'.y = s.mu • (Pg ((1 / s.mu) • v) - A.matvec ((2 : ℝ) • s'.x - s.x)) := by
        rw [ey, hv, smul_sub]; abel
      rw [this, smul_smul, one_div_mul_cancel hm.ne', one_smul, sub_add_cancel]
    rw [e1, e2] at this
    exact this
  · have fix := (cp_fixed_iff hF hG ht hm hP' hPg (a.z.getD 0) c.1 c.2).2 hc
    have f1 := firm_shift (firm_prox hF ht hP') (s.tau • a.z.getD 0)
    have f2 := firm_dual (firm_prox hG hm' hPg) hm
    have h := cp_fejer ht hm f1 f2 fix (s.x, s.y)
    have est : cpStep A s.tau s.mu (fun v => P (v - s.tau • a.z.getD 0)) (fun v => v - s.mu • Pg ((1 / s.mu) • v)) (s.x, s.y) = (s'.x, s'.y) := by
      have e1 : P (s.x - s.tau • A.rmatvec s.y - s.tau • a.z.getD 0) = s'.x := by
        rw [ex, smul_add, sub_sub]
      simp only [cpStep, e1, ← hv, ← ey]
    rw [est] at h
    exact h

/-- The convergence statement for the sequence of states. -/
lemma apd_states_converge [FiniteDimensional ℝ E] [FiniteDimensional ℝ H] (hF : F.Convex) (hG : G.Convex) (hf : ProxExact f F) (hg : ProxExact g G)
    (hd : ProxdualExact g G.conj) (hτ : 0 < τ) (hμ : 0 < μ) (hα0 : 0 ≤ α) (hα1 : α < 1) (hη0 : 0 ≤ a.eta) (hη1 : a.eta < 1)
    (hK : 0 ≤ K) (hA : ∀ v, ‖A.matvec v‖ ≤ K * ‖v‖) (hc : τ * μ * K ^ 2 < 1)
    (hsol : ∃ x y, IsCertifiedComp F G A.matvec A.rmatvec (a.z.getD 0) x y) (S : ℕ → APDState E H)
    (hS : ∀ n, APD.body f g A a (S n) = .ok (S (n + 1))) (hinv : ∀ n, apdInv τ μ α a.eta (S n).tau (S n).mu (S n).alpha) :
    (∃ x y, IsCertifiedComp F G A.matvec A.rmatvec (a.z.getD 0) x y ∧ Tendsto (fun n => (S n).x) atTop (𝓝 x) ∧
      Tendsto (fun n => (S n).y) atTop (𝓝 y)) ∧ Tendsto (fun n => (S n).d) atTop (𝓝 0) ∧
      (a.z = none → Tendsto (fun n => (S n).p) atTop (𝓝 0)) := by
  have hw : 0 < (1 - α) * (1 - a.eta) := mul_pos (by linarith) (by linarith)
  set C := α / ((1 - α) * (1 - a.eta)) with hC
  have hbd : ∀ n, (τ * Real.exp (-C) ≤ (S n).tau ∧ (S n).tau ≤ τ * Real.exp C) ∧ (μ * Real.exp (-C) ≤ (S n).mu ∧ (S n).mu ≤ μ * Real.exp C) ∧
      (0 ≤ (S n).alpha ∧ (S n).alpha ≤ α) ∧ (S n).tau * (S n).mu = τ * μ := fun n => by
    obtain ⟨B, hB0, hB, hal0, hal, hprod, ht1, ht2, hm1, hm2⟩ := hinv n
    have hBC : B ≤ C := by
      have : 0 ≤ (S n).alpha / ((1 - α) * (1 - a.eta)) := by positivity
      linarith
    have e1 : Real.exp (-C) ≤ Real.exp (-B) := Real.exp_le_exp.2 (by linarith)
    have e2 : Real.exp B ≤ Real.exp C := Real.exp_le_exp.2 hBC
    exact ⟨⟨(mul_le_mul_of_nonneg_left e1 hτ.le).trans ht1, ht2.trans (mul_le_mul_of_nonneg_left e2 hτ.le)⟩,
      ⟨(mul_le_mul_of_nonneg_left e1 hμ.le).trans hm1, hm2.trans (mul_le_mul_of_nonneg_left e2 hμ.le)⟩, ⟨hal0, hal⟩, hprod⟩
  set lo := min (τ * Real.exp (-C)) (μ * Real.exp (-C)) with hlo
  set up := max (τ * Real.exp C) (μ * Real.exp C) with hup
  have hlo0 : 0 < lo := lt_min (by positivity) (by positivity)
  have htb : ∀ n, lo ≤ (S n).tau ∧ (S n).tau ≤ up := fun n => ⟨(min_le_left _ _).trans (hbd n).1.1, (hbd n).1.2.trans (le_max_left _ _)⟩
  have hmb : ∀ n, lo ≤ (S n).mu ∧ (S n).mu ≤ up := fun n => ⟨(min_le_right _ _).trans (hbd n).2.1.1, (hbd n).2.1.2.trans (le_max_right _ _)⟩
  have ht : ∀ n, 0 < (S n).tau := fun n => hlo0.trans_le (htb n).1
  have hm : ∀ n, 0 < (S n).mu := fun n => hlo0.trans_le (hmb n).1
  have hAx : ∀ n, (S (n + 1)).Ax = A.matvec (S (n + 1)).x := fun n => (apd_body_inv (hS n)).2.1
  have hATy : ∀ n, (S (n + 1)).ATy = A.rmatvec (S (n + 1)).y := fun n => (apd_body_inv (hS n)).2.2.2.1
  have facts := fun n => apd_step_facts hF hG hf hg hd (hS (n + 1)) (ht (n + 1)) (hm (n + 1)) (hAx n) (hATy n)
  obtain ⟨P1, -, hP1⟩ := proxExact_map hf one_pos
  obtain ⟨Pg1, -, hPg1⟩ := proxExact_map hg one_pos
  have cA := linop_continuous A.matvec
  have cB := linop_continuous A.rmatvec
  let V : ℕ → E × H := fun n => ((S (n + 1)).x, (S (n + 1)).y)
  have hκ : τ * μ * K ^ 2 = (√(τ * μ * K ^ 2)) ^ 2 := (Real.sq_sqrt (by positivity)).symm
  have hdiv : ∀ (X : Type) [NormedAddCommGroup X] [NormedSpace ℝ X] (u : ℕ → X) (q : ℕ → ℝ), (∀ n, lo ≤ q n) → Tendsto u atTop (𝓝 0) →
      Tendsto (fun n => (1 / q n) • u n) atTop (𝓝 0) := by
    intro X _ _ u q hq hu
    rw [tendsto_zero_iff_norm_tendsto_zero]
    have h1 : Tendsto (fun n => 1 / lo * ‖u n‖) atTop (𝓝 0) := by simpa using hu.norm.const_mul (1 / lo)
    refine squeeze_zero (fun n => norm_nonneg _) (fun n => ?_) h1
    rw [norm_smul, Real.norm_eq_abs, abs_of_pos (one_div_pos.2 (hlo0.trans_le (hq n)))]
    exact mul_le_mul_of_nonneg_right (one_div_le_one_div_of_le hlo0 (hq n)) (norm_nonneg _)
  obtain ⟨x, y, hxy⟩ := hsol
  obtain ⟨c, hcS, hlim, hinc⟩ := acp_converges (κ := √(τ * μ * K ^ 2)) (η := a.eta) hlo0 hA (Real.sqrt_nonneg _) (by rw [Real.sqrt_lt' one_pos]; simpa using hc)
    hα1 hη1 (fun n => (S (n + 1)).tau) (fun n => (S (n + 1)).mu) (fun n => (S (n + 1)).alpha) V
    {c | IsCertifiedComp F G A.matvec A.rmatvec (a.z.getD 0) c.1 c.2} ⟨(x, y), hxy⟩
    (fun n => by rw [(hbd (n + 1)).2.2.2]; exact hκ.le) (fun n => htb (n + 1)) (fun n => hmb (n + 1)) (fun n => (hbd (n + 1)).2.2.1)
    (fun n => apdSteps_rel (apd_body_inv (hS (n + 1))).2.2.2.2.2.2.2.1) (fun c hc n => (facts n).2.2 c hc)
    (fun φ c hφ hφlim hinc => by
      have hx : Tendsto (fun n => (V (φ n)).1) atTop (𝓝 c.1) := (continuous_fst.tendsto _).comp hφlim
      have hy : Tendsto (fun n => (V (φ n)).2) atTop (𝓝 c.2) := (continuous_snd.tendsto _).comp hφlim
      have hi : Tendsto (fun n => V (φ n + 1) - V (φ n)) atTop (𝓝 0) := hinc.comp hφ.tendsto_atTop
      have hix : Tendsto (fun n => (V (φ n + 1)).1 - (V (φ n)).1) atTop (𝓝 0) := (continuous_fst.tendsto _).comp hi
      have hiy : Tendsto (fun n => (V (φ n + 1)).2 - (V (φ n)).2) atTop (𝓝 0) := (continuous_snd.tendsto _).comp hi
      have hx' : Tendsto (fun n => (V (φ n + 1)).1) atTop (𝓝 c.1) := by
        have := hix.add hx; simpa using this
      have hy' : Tendsto (fun n => (V (φ n + 1)).2) atTop (𝓝 c.2) := by
        have := hiy.add hy; simpa using this
      have hix' : Tendsto (fun n => (V (φ n)).1 - (V (φ n + 1)).1) atTop (𝓝 0) := by simpa using hix.neg
      have hiy' : Tendsto (fun n => (V (φ n)).2 - (V (φ n + 1)).2) atTop (𝓝 0) := by simpa using hiy.neg
      constructor
      · refine subgrad_limit hF hP1 (fun n => (facts (φ n)).1) hx' ?_
        have h1 := ((hdiv E _ (fun n => (S (φ n + 1)).tau) (fun n => (htb _).1) hix').sub ((cB.tendsto _).comp hy)).sub_const (a.z.getD 0)
        rw [zero_sub] at h1
        exact h1
      · refine subgrad_limit hG hPg1 (fun n => (facts (φ n)).2.1) ?_ hy'
        have h1 := (hdiv H _ (fun n => (S (φ n + 1)).mu) (fun n => (hmb _).1) hiy').add ((cA.tendsto _).comp ((hx'.const_smul (2 : ℝ)).sub hx))
        rw [zero_add, two_smul, add_sub_cancel_right] at h1
        exact h1)
  have hx : Tendsto (fun n => (S (n + 1)).x) atTop (𝓝 c.1) := (continuous_fst.tendsto _).comp hlim
  have hy : Tendsto (fun n => (S (n + 1)).y) atTop (𝓝 c.2) := (continuous_snd.tendsto _).comp hlim
  have hix : Tendsto (fun n => (S (n + 1)).x - (S (n + 2)).x) atTop (𝓝 0) := by
    have : Tendsto (fun n => (V (n + 1)).1 - (V n).1) atTop (𝓝 0) := (continuous_fst.tendsto _).comp hinc
    simpa using this.neg
  have hiy : Tendsto (fun n => (S (n + 1)).y - (S (n + 2)).y) atTop (𝓝 0) := by
    have : Tendsto (fun n => (V (n + 1)).2 - (V n).2) atTop (𝓝 0) := (continuous_snd.tendsto _).comp hinc
    simpa using this.neg
  refine ⟨⟨c.1, c.2, hcS, (tendsto_add_atTop_iff_nat 1).1 hx, (tendsto_add_atTop_iff_nat 1).1 hy⟩, ?_, fun hz => ?_⟩
  · rw [← tendsto_add_atTop_iff_nat 2]
    have h1 : Tendsto (fun n => (1 / (S (n + 1)).mu) • ((S (n + 1)).y - (S (n + 2)).y) - A.matvec ((S (n + 1)).x - (S (n + 2)).x)) atTop (𝓝 0) := by
      have := (hdiv H _ (fun n => (S (n + 1)).mu) (fun n => (hmb _).1) hiy).sub ((cA.tendsto _).comp hix)
      rw [map_zero, sub_zero] at this
      exact this
    have h2 := h1.norm
    rw [norm_zero] at h2
    refine h2.congr fun n => ?_
    rw [(apd_body_inv (hS (n + 1))).2.2.2.2.2.2.1, hAx n, hAx (n + 1), map_sub]
  · rw [← tendsto_add_atTop_iff_nat 2]
    have h1 : Tendsto (fun n => (1 / (S (n + 1)).tau) • ((S (n + 1)).x - (S (n + 2)).x) - A.rmatvec ((S (n + 1)).y - (S (n + 2)).y)) atTop (𝓝 0) := by
      have := (hdiv E _ (fun n => (S (n + 1)).tau) (fun n => (htb _).1) hix).sub ((cB.tendsto _).comp hiy)
      rw [map_zero, sub_zero] at this
      exact this
    have h2 := h1.norm
    rw [norm_zero] at h2
    refine h2.congr fun n => ?_
    rw [(apd_body_inv (hS (n + 1))).2.2.2.2.1 hz, hATy n, hATy (n + 1), map_sub]

/-- C94: with `tau mu ||A||^2 < 1`, `0 <= alpha < 1`, `0 <= eta < 1` and any residual weights, `AdaptivePrimalDual` without a stopping tolerance converges to a minimiser of
`F(x) + <z, x> + G(A x)`, and its dual variable to a dual solution. -/
theorem C94_apd_converges [FiniteDimensional ℝ E] [FiniteDimensional ℝ H] (hF : F.Convex) (hG : G.Convex) (hf : ProxExact f F) (hg : ProxExact g G)
    (hd : ProxdualExact g G.conj) (hτ : 0 < τ) (hμ : 0 < μ) (hα0 : 0 ≤ α) (hα1 : α < 1) (hη0 : 0 ≤ a.eta) (hη1 : a.eta < 1) (hδ : a.delta ≠ 0)
    (hz : a.z = none ∨ a.Az ≠ none) (hK : 0 ≤ K) (hA : ∀ v, ‖A.matvec v‖ ≤ K * ‖v‖) (hc : τ * μ * K ^ 2 < 1)
    (hsol : ∃ x y, IsCertifiedComp F G A.matvec A.rmatvec (a.z.getD 0) x y) (htol : a.tol < 0) (x0 : E) :
    ∃ R : ℕ → APDState E H, (∀ n, AdaptivePrimalDual f g A x0 τ μ α { a with niter := n } = .ok (R n) ∧ (R n).iiter = n) ∧
      ∃ x y, IsSaddle F G A.matvec (a.z.getD 0) x y ∧ (compObj F G A.matvec (a.z.getD 0)).IsMin x ∧
        Tendsto (fun n => (R n).x) atTop (𝓝 x) ∧ Tendsto (fun n => (R n).y) atTop (𝓝 y) := by
  obtain ⟨S, h0, hS, hinv, hit, hrun⟩ := apd_traj (A := A) hf hd hτ hμ hα0 hα1 hη0 hη1 hδ hz x0
  obtain ⟨⟨x, y, hxy, hx, hy⟩, -⟩ := apd_states_converge hF hG hf hg hd hτ hμ hα0 hα1 hη0 hη1 hK hA hc hsol S hS hinv
  have hpd : ∀ n, a.tol < (S n).p ∧ a.tol < (S n).d := by
    intro n
    cases n with
    | zero => rw [h0]; exact ⟨by simp [apdInit], by simp [apdInit]⟩
    | succ n =>
      obtain ⟨-, -, -, -, h5, h6, h7, -⟩ := apd_body_inv (hS n)
      refine ⟨htol.trans_le ?_, htol.trans_le (by rw [h7]; exact norm_nonneg _)⟩
      cases h : a.z with
      | none => rw [h5 h]; exact norm_nonneg _
      | some z =>
        obtain ⟨Az, -, h8⟩ := h6 z h
        rw [h8]; exact norm_nonneg _
  refine ⟨S, fun n => ⟨?_, hit n⟩, x, y, hxy.isSaddle, hxy.isMin, hx, hy⟩
  obtain ⟨j, hj, hr, -, hlt⟩ := hrun n
  rcases hj.lt_or_eq with h | h
  · exact absurd (hpd j) (hlt h)
  · rw [← h] at hr ⊢; exact hr

/-- C94: with a positive tolerance the number of iterations is bounded, whatever `niter`. -/
theorem C94_apd_terminates [FiniteDimensional ℝ E] [FiniteDimensional ℝ H] (hF : F.Convex) (hG : G.Convex) (hf : ProxExact f F) (hg : ProxExact g G)
    (hd : ProxdualExact g G.conj) (hτ : 0 < τ) (hμ : 0 < μ) (hα0 : 0 ≤ α) (hα1 : α < 1) (hη0 : 0 ≤ a.eta) (hη1 : a.eta < 1) (hδ : a.delta ≠ 0)
    (hz : a.z = none ∨ a.Az ≠ none) (hK : 0 ≤ K) (hA : ∀ v, ‖A.matvec v‖ ≤ K * ‖v‖) (hc : τ * μ * K ^ 2 < 1)
    (hsol : ∃ x y, IsCertifiedComp F G A.matvec A.rmatvec (a.z.getD 0) x y) (htol : 0 < a.tol) (x0 : E) :
    ∃ N, ∀ n, ∃ r, AdaptivePrimalDual f g A x0 τ μ α { a with niter := n } = .ok r ∧ r.iiter ≤ N ∧ (N < n → r.p ≤ a.tol ∨ r.d ≤ a.tol) := by
  obtain ⟨S, h0, hS, hinv, hit, hrun⟩ := apd_traj (A := A) hf hd hτ hμ hα0 hα1 hη0 hη1 hδ hz x0
  obtain ⟨-, hdl, -⟩ := apd_states_converge hF hG hf hg hd hτ hμ hα0 hα1 hη0 hη1 hK hA hc hsol S hS hinv
  obtain ⟨N, hN⟩ := ((hdl.eventually_lt_const htol).exists)
  refine ⟨N, fun n => ?_⟩
  obtain ⟨j, hj, hr, hi, hlt⟩ := hrun n
  have hjN : j ≤ N := by
    by_contra h
    have := (hi N (by omega)).2
    linarith
  refine ⟨S j, hr, by rw [hit]; exact hjN, fun h => ?_⟩
  have := hlt (by omega)
  rw [not_and_or, not_lt, not_lt] at this
  exact this

/-- C94: without `z`, both residuals tend to zero. -/
theorem C94_apd_residuals [FiniteDimensional ℝ E] [FiniteDimensional ℝ H] (hF : F.Convex) (hG : G.Convex) (hf : ProxExact f F) (hg : ProxExact g G)
    (hd : ProxdualExact g G.conj) (hτ : 0 < τ) (hμ : 0 < μ) (hα0 : 0 ≤ α) (hα1 : α < 1) (hη0 : 0 ≤ a.eta) (hη1 : a.eta < 1) (hδ : a.delta ≠ 0)
    (hz : a.z = none) (hK : 0 ≤ K) (hA : ∀ v, ‖A.matvec v‖ ≤ K * ‖v‖) (hc : τ * μ * K ^ 2 < 1)
    (hsol : ∃ x y, IsCertifiedComp F G A.matvec A.rmatvec 0 x y) (htol : a.tol < 0) (x0 : E) (R : ℕ → APDState E H)
    (hR : ∀ n, AdaptivePrimalDual f g A x0 τ μ α { a with niter := n } = .ok (R n)) :
    Tendsto (fun n => (R n).p) atTop (𝓝 0) ∧ Tendsto (fun n => (R n).d) atTop (𝓝 0) := by
  have hz0 : a.z.getD 0 = 0 := by rw [hz]; rfl
  obtain ⟨S, h0, hS, hinv, hit, hrun⟩ := apd_traj (A := A) hf hd hτ hμ hα0 hα1 hη0 hη1 hδ (Or.inl hz) x0
  obtain ⟨-, hdl, hpl⟩ := apd_states_converge hF hG hf hg hd hτ hμ hα0 hα1 hη0 hη1 hK hA hc (by rw [hz0]; exact hsol) S hS hinv
  have hpd : ∀ n, a.tol < (S n).p ∧ a.tol < (S n).d := by
    intro n
    cases n with
    | zero => rw [h0]; exact ⟨by simp [apdInit], by simp [apdInit]⟩
    | succ n =>
      obtain ⟨-, -, -, -, h5, -, h7, -⟩ := apd_body_inv (hS n)
      exact ⟨htol.trans_le (by rw [h5 hz]; exact norm_nonneg _), htol.trans_le (by rw [h7]; exact norm_nonneg _)⟩
  have hRS : R = S := by
    funext n
    obtain ⟨j, hj, hr, -, hlt⟩ := hrun n
    rcases hj.lt_or_eq with h | h
    · exact absurd (hpd j) (hlt h)
    · rw [hR n] at hr
      injection hr with hr
      rw [hr, h]
  rw [hRS]
  exact ⟨hpl hz, hdl⟩

/-- C94 under Slater's condition: a minimiser is enough. -/
theorem C94_apd_converges_slater [FiniteDimensional ℝ E] [FiniteDimensional ℝ H] (hF : F.Convex) (hG : G.Convex) (hf : ProxExact f F) (hg : ProxExact g G)
    (hd : ProxdualExact g G.conj) (hτ : 0 < τ) (hμ : 0 < μ) (hα0 : 0 ≤ α) (hα1 : α < 1) (hη0 : 0 ≤ a.eta) (hη1 : a.eta < 1) (hδ : a.delta ≠ 0)
    (hz : a.z = none ∨ a.Az ≠ none) (hK : 0 ≤ K) (hA : ∀ v, ‖A.matvec v‖ ≤ K * ‖v‖) (hc : τ * μ * K ^ 2 < 1) (hS : SlaterComp F G A.matvec)
    (hmin : ∃ x, (compObj F G A.matvec (a.z.getD 0)).IsMin x) (htol : a.tol < 0) (x0 : E) :
    ∃ R : ℕ → APDState E H, (∀ n, AdaptivePrimalDual f g A x0 τ μ α { a with niter := n } = .ok (R n) ∧ (R n).iiter = n) ∧
      ∃ x y, IsSaddle F G A.matvec (a.z.getD 0) x y ∧ (compObj F G A.matvec (a.z.getD 0)).IsMin x ∧
        Tendsto (fun n => (R n).x) atTop (𝓝 x) ∧ Tendsto (fun n => (R n).y) atTop (𝓝 y) := by
  obtain ⟨x, hx⟩ := hmin
  exact C94_apd_converges hF hG hf hg hd hτ hμ hα0 hα1 hη0 hη1 hδ hz hK hA hc ⟨x, slaterComp_certified hF hG hS _ hx⟩ htol x0

/-- The hypotheses are met: `||x||_1 + ||A x||_1` with the default `alpha`, `eta`, `s`, `delta`. -/
example {ι κ : Type} [Fintype ι] [Fintype κ] (A : LinOp (Vec ι) (Vec κ)) (hA : ∀ v, ‖A.matvec v‖ ≤ 1 / 2 * ‖v‖) (x0 : Vec ι) :
    ∃ R : ℕ → APDState (Vec ι) (Vec κ), (∀ n, AdaptivePrimalDual (L1 1 none) (L1 1 none) A x0 1 1 (1 / 2) ⟨19 / 20, 1, 3 / 2, none, none, n, -1⟩ = .ok (R n) ∧ (R n).iiter = n) ∧
      ∃ x y, IsSaddle (XFun.ofReal fun x : Vec ι => 1 * ∑ i, |x i - (0 : Vec ι) i|) (XFun.ofReal fun x : Vec κ => 1 * ∑ i, |x i - (0 : Vec κ) i|) A.matvec 0 x y ∧
        (compObj (XFun.ofReal fun x : Vec ι => 1 * ∑ i, |x i - (0 : Vec ι) i|) (XFun.ofReal fun x : Vec κ => 1 * ∑ i, |x i - (0 : Vec κ) i|) A.matvec 0).IsMin x ∧
        Tendsto (fun n => (R n).x) atTop (𝓝 x) ∧ Tendsto (fun n => (R n).y) atTop (𝓝 y) := by
  refine C94_apd_converges (a := ⟨19 / 20, 1, 3 / 2, none, none, 0, -1⟩) l1_convex l1_convex l1_proxExact l1_proxExact l1_proxdualExact one_pos one_pos (by norm_num) (by norm_num)
    (by norm_num) (by norm_num) (by norm_num) (Or.inl rfl) (by norm_num) hA (by norm_num) ⟨0, 0, ?_, ?_⟩ (by norm_num) x0
  · refine ⟨trivial, fun y _ => ?_⟩
    simp only [XFun.ofReal, map_zero, neg_zero, Option.getD_none, sub_zero, inner_zero_left, PiLp.zero_apply, abs_zero, Finset.sum_const_zero, one_mul, add_zero]
    exact Finset.sum_nonneg fun i _ => abs_nonneg _
  · rw [map_zero]
    refine ⟨trivial, fun y _ => ?_⟩
    simp only [XFun.ofReal, inner_zero_left, PiLp.zero_apply, sub_zero, abs_zero, Finset.sum_const_zero, one_mul, add_zero]
    exact Finset.sum_nonneg fun i _ => abs_nonneg _

end Verif
