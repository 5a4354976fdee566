import Verif.Props.AdaptivePD
import Verif.Props.Returns

/-! # C112: when `AdaptivePrimalDual` returns -/

open scoped RealInnerProductSpace

namespace Verif

variable {E F : Type} [NormedAddCommGroup E] [InnerProductSpace ℝ E] [NormedAddCommGroup F] [InnerProductSpace ℝ F]

lemma apd_body_returns {f : ProxOp E} {g : ProxOp F} (hf : Guarded f) (hg : Guarded g) (A : LinOp E F) (a : APDArgs E F) (hδ : a.delta ≠ 0) (s : APDState E F) (hs : s.alpha < 1) :
    Returns (APD.body f g A a s) ↔ 0 < s.tau ∧ 0 < s.mu ∧ (a.z.isSome → a.Az.isSome) := by
  unfold APD.body
  refine returns_bind (hf.prox _ _) fun x _ => returns_bind (hg.proxdual _ _) fun y _ => ?_
  have hst : ∀ p, ∃ v, apdSteps a.eta a.s a.delta p ‖(1 / s.mu) • (s.y - y) - (s.Ax - A.matvec x)‖ s.tau s.mu s.alpha = .ok v := fun p => apdSteps_ok hδ hs
  cases a.z with
  | none =>
    obtain ⟨v, hv⟩ := hst ‖(1 / s.tau) • (s.x - x) - (s.ATy - A.rmatvec y)‖
    simp only [py_ok_bind, hv]
    exact (returns_pure _).trans (by simp)
  | some z =>
    cases a.Az with
    | none => exact (returns_error _).trans (by simp)
    | some Az =>
      obtain ⟨v, hv⟩ := hst ‖(1 / s.tau) • (s.x - x) - (s.ATy - A.rmatvec y) - Az + z‖
      simp only [py_ok_bind, hv]
      exact (returns_pure _).trans (by simp)

lemma apdSteps_pos {η s δ p d t m al : ℝ} (hη0 : 0 ≤ η) (hη1 : η ≤ 1) (ht : 0 < t) (hm : 0 < m) (hal : al < 1) {v : ℝ × ℝ × ℝ} (h : apdSteps η s δ p d t m al = .ok v) :
    0 < v.1 ∧ 0 < v.2.1 ∧ v.2.2 < 1 := by
  have h1 : 0 < 1 - al := by linarith
  have h2 : al * η < 1 := by
    rcases le_or_gt al 0 with h | h
    · nlinarith
    · nlinarith
  unfold apdSteps at h
  rw [if_neg h1.ne', if_neg h1.ne'] at h
  split_ifs at h <;> cases h
  · exact ⟨by positivity, by positivity, h2⟩
  · exact ⟨by positivity, by positivity, h2⟩
  · exact ⟨ht, hm, hal⟩

/-- C112 for `AdaptivePrimalDual` with `alpha < 1`, `0 ≤ eta ≤ 1` and `delta ≠ 0`: it returns exactly when no iteration is asked for, or both steps are positive and, with `z`, the operator can be
applied to it.  No tolerance makes a difference. -/
theorem C112_adaptive {f : ProxOp E} {g : ProxOp F} (hf : Guarded f) (hg : Guarded g) (A : LinOp E F) (x0 : E) (τ μ α : ℝ) (a : APDArgs E F) (hα : α < 1) (hη0 : 0 ≤ a.eta) (hη1 : a.eta ≤ 1)
    (hδ : a.delta ≠ 0) : Returns (AdaptivePrimalDual f g A x0 τ μ α a) ↔ a.niter = 0 ∨ (0 < τ ∧ 0 < μ ∧ (a.z.isSome → a.Az.isSome)) := by
  have key : ∀ fuel s, a.niter ≤ s.iiter + fuel → s.alpha < 1 → 0 < s.tau → 0 < s.mu → (a.z.isSome → a.Az.isSome) → Returns (APD.loop f g A a fuel s) := by
    intro fuel
    induction fuel with
    | zero =>
      intro s hn _ _ _ _
      unfold APD.loop
      rw [if_neg (by omega)]
      exact ⟨_, rfl⟩
    | succ n ih =>
      intro s hn hal ht hm hz
      unfold APD.loop
      by_cases hc : s.iiter < a.niter ∧ a.tol < s.p ∧ a.tol < s.d
      · rw [if_pos hc]
        obtain ⟨s', hb⟩ := (apd_body_returns hf hg A a hδ s hal).2 ⟨ht, hm, hz⟩
        obtain ⟨-, -, -, -, -, -, -, hst, hi, -⟩ := apd_body_inv hb
        obtain ⟨h1, h2, h3⟩ := apdSteps_pos hη0 hη1 ht hm hal hst
        rw [hb, py_ok_bind]
        exact ih s' (by omega) h3 h1 h2 hz
      · rw [if_neg hc]; exact ⟨_, rfl⟩
  unfold AdaptivePrimalDual
  rcases Nat.eq_zero_or_pos a.niter with h0 | h0
  · rw [h0]
    unfold APD.loop
    rw [if_neg (by simp [h0])]
    simp [returns_ok]
  · constructor
    · rintro ⟨r, hr⟩
      right
      obtain ⟨n, hn⟩ := Nat.exists_eq_succ_of_ne_zero h0.ne'
      rw [hn, APD.loop, if_pos ⟨by simp only; omega, by simp, by simp⟩] at hr
      refine (apd_body_returns hf hg A a hδ ⟨x0, 0, 0, 0, τ, μ, α, a.tol + 1, a.tol + 1, 0, [τ], [μ], [α], []⟩ hα).1 ?_
      cases hb : APD.body f g A a ⟨x0, 0, 0, 0, τ, μ, α, a.tol + 1, a.tol + 1, 0, [τ], [μ], [α], []⟩ with
      | ok s => exact ⟨s, rfl⟩
      | error e => rw [hb] at hr; cases hr
    · rintro (h | ⟨h1, h2, h3⟩)
      · omega
      · exact key _ _ (by simp) hα h1 h2 h3

/-- The documented defaults meet the hypotheses. -/
example {f : ProxOp E} {g : ProxOp F} (hf : Guarded f) (hg : Guarded g) (A : LinOp E F) (x0 : E) (n : ℕ) (tol : ℝ) :
    Returns (AdaptivePrimalDual f g A x0 1 1 (1 / 2) ⟨19 / 20, 1, 3 / 2, none, none, n, tol⟩) :=
  (C112_adaptive hf hg A x0 1 1 (1 / 2) _ (by norm_num) (by norm_num) (by norm_num) (by norm_num)).2 (.inr ⟨by norm_num, by norm_num, by simp⟩)

end Verif
