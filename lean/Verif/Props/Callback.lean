import Verif.Spec.Callback
import Verif.Lemmas.Loop
import Verif.Model.Primal
import Verif.Model.PrimalDual
import Verif.Model.Palm
import Verif.Props.Bregman
import Verif.Props.AdaptivePD

/-! # C57: callbacks and early stopping -/

open scoped RealInnerProductSpace

namespace Verif

section generic
variable {S A : Type} {body : ℕ → S → Py (S × Bool)} {log : S → List A} {out : S → A} {s0 : S}

lemma callback_of_log (hlog : ∀ i s s' b, body i s = .ok (s', b) → log s' = log s ++ [out s']) (h0 : log s0 = []) :
    CallbackOk (fun n => forRange body n 0 s0) log out := by
  intro n r h
  obtain ⟨l, a1, a2, a3, a4, a5⟩ := forRange_log hlog n 0 s0 r h
  have e : log r = l := by rw [a1, h0]; rfl
  rw [e]
  refine ⟨a2, fun hn => ?_, a4, fun _ => a3⟩
  rcases lt_or_eq_of_le a2 with h' | h'
  · obtain ⟨j, -, hj, -⟩ := a5 h'; omega
  · omega

lemma neverEarly_of_log (hlog : ∀ i s s' b, body i s = .ok (s', b) → log s' = log s ++ [out s'] ∧ b = false) (h0 : log s0 = []) :
    NeverEarly (fun n => forRange body n 0 s0) log := by
  intro n r h
  obtain ⟨l, a1, a2, -, -, a5⟩ := forRange_log (fun i s s' b hb => (hlog i s s' b hb).1) n 0 s0 r h
  have e : log r = l := by rw [a1, h0]; rfl
  rw [e]
  rcases lt_or_eq_of_le a2 with h' | h'
  · obtain ⟨j, q, -, -, hq, -⟩ := a5 h'; cases (hlog _ _ _ _ hq).2
  · exact h'

lemma early_of_log {test : ℕ → Option S → S → Prop} (hlog : ∀ i s s' b, body i s = .ok (s', b) → log s' = log s ++ [out s']) (h0 : log s0 = [])
    (h1 : ∀ r, body 0 s0 = .ok (r, true) → test 0 none r)
    (h2 : ∀ i p q r, body i p = .ok (q, false) → body (i + 1) q = .ok (r, true) → test (i + 1) (some q) r) :
    EarlyOnlyIf (fun n => forRange body n 0 s0) log test := by
  intro n r h hlt
  obtain ⟨l, a1, a2, -, -, a5⟩ := forRange_log hlog n 0 s0 r h
  have e : log r = l := by rw [a1, h0]; rfl
  rw [e] at hlt ⊢
  obtain ⟨j, q, hj, hq, hb, hbq⟩ := a5 hlt
  rw [zero_add] at hb
  cases j with
  | zero =>
    simp only [forRange, Except.ok.injEq] at hq
    subst hq
    exact Or.inl ⟨hj, h1 r hb⟩
  | succ m =>
    obtain ⟨p, -, hp⟩ := hbq m rfl
    rw [zero_add] at hp
    exact Or.inr ⟨m, q, by omega, hq, h2 _ _ _ _ hp hb⟩

lemma callback_wrap {run run' : ℕ → Py S} (h : ∀ n, 0 < n → run n = run' n) (h0 : ∀ r, run 0 = .ok r → run' 0 = .ok r) (hr : CallbackOk run' log out) :
    CallbackOk run log out := by
  intro n r hn
  have hn' : run' n = .ok r := by
    rcases Nat.eq_zero_or_pos n with h' | h'
    · subst h'; exact h0 r hn
    · rw [← h n h']; exact hn
  obtain ⟨a1, a2, a3, a4⟩ := hr n r hn'
  refine ⟨a1, a2, fun k hk => ?_, fun hp => ?_⟩
  · obtain ⟨t, b1, b2⟩ := a3 k hk
    exact ⟨t, by rw [h _ (Nat.succ_pos k)]; exact b1, b2⟩
  · rw [h _ (a2 hp)]; exact a4 hp

lemma early_wrap {test : ℕ → Option S → S → Prop} {run run' : ℕ → Py S} (h : ∀ n, 0 < n → run n = run' n) (hr : EarlyOnlyIf run' log test) : EarlyOnlyIf run log test := by
  intro n r hn hlt
  rw [h n (by omega)] at hn
  rcases hr n r hn hlt with h' | ⟨m, q, b1, b2, b3⟩
  · exact Or.inl h'
  · exact Or.inr ⟨m, q, b1, by rw [h _ (Nat.succ_pos m)]; exact b2, b3⟩

end generic

variable {E F : Type} [NormedAddCommGroup E] [InnerProductSpace ℝ E] [NormedAddCommGroup F] [InnerProductSpace ℝ F]

/-! ## ProximalPoint -/

lemma cb_pp_body {f : ProxOp E} {τ : ℝ} {tol : Option ℝ} {i : ℕ} {s s' : PPState E} {b : Bool} (h : ProximalPoint.body f τ tol i s = .ok (s', b)) :
    s'.log = s.log ++ [s'.x] ∧ (tol = none → b = false) ∧
      ∀ t, tol = some t → ∃ v r, f.call s'.x = .ok v ∧ s'.pf = some v.toReal ∧ pyRatio v.toReal s.pf = .ok r ∧ (b = true ↔ |1 - r| < t) := by
  unfold ProximalPoint.body at h
  cases hx : f.prox s.x τ with
  | error e => rw [hx] at h; cases h
  | ok x =>
    rw [hx] at h
    cases tol with
    | none => cases h; exact ⟨rfl, fun _ => rfl, by simp⟩
    | some t =>
      simp only [Bind.bind, Except.bind, Pure.pure, Except.pure] at h
      split at h
      · cases h
      rename_i v hv
      split at h
      · cases h
      rename_i r hr
      cases h
      exact ⟨rfl, by simp, fun t' ht => ⟨v, r, hv, rfl, hr, by cases ht; simp⟩⟩

/-- C57: `ProximalPoint` calls the callback once per iteration with the new point. -/
theorem C57_proximalpoint (f : ProxOp E) (x0 : E) (τ : ℝ) (tol : Option ℝ) :
    CallbackOk (fun n => ProximalPoint f x0 τ n tol) PPState.log PPState.x :=
  callback_of_log (fun _ _ _ _ hb => (cb_pp_body hb).1) rfl

/-- C57: `ProximalPoint` stops early only when `|1 - f(x_k)/f(x_{k-1})| < tol` (with `f(x_{-1}) = inf`). -/
theorem C57_proximalpoint_early (f : ProxOp E) (x0 : E) (τ : ℝ) (tol : Option ℝ) :
    EarlyOnlyIf (fun n => ProximalPoint f x0 τ n tol) PPState.log fun _ prev r => ∃ t v, tol = some t ∧ f.call r.x = .ok v ∧
      match prev with
      | none => 1 < t
      | some q => ∃ w, f.call q.x = .ok w ∧ w.toReal ≠ 0 ∧ |1 - v.toReal / w.toReal| < t := by
  refine early_of_log (out := PPState.x) (fun _ _ _ _ hb => (cb_pp_body hb).1) rfl (fun r hb => ?_) fun i p q r hp hb => ?_
  · obtain ⟨-, h1, h2⟩ := cb_pp_body hb
    cases tol with
    | none => cases h1 rfl
    | some t =>
      obtain ⟨v, r', a1, -, a3, a4⟩ := h2 t rfl
      cases a3
      exact ⟨t, v, rfl, a1, by simpa using a4.1 rfl⟩
  · obtain ⟨-, h1, h2⟩ := cb_pp_body hb
    cases tol with
    | none => cases h1 rfl
    | some t =>
      obtain ⟨v, r', a1, -, a3, a4⟩ := h2 t rfl
      obtain ⟨-, -, h3⟩ := cb_pp_body hp
      obtain ⟨w, -, b1, b2, -, -⟩ := h3 t rfl
      rw [b2, pyRatio] at a3
      split_ifs at a3 with hw
      cases a3
      exact ⟨t, v, rfl, a1, w, b1, hw, a4.1 rfl⟩

/-! ## ProximalGradient -/

lemma cb_pg_body {f g : ProxOp E} {a : PGArgs} {bt : Bool} {i : ℕ} {s s' : PGState E} {b : Bool} (h : PG.body f g a bt i s = .ok (s', b)) :
    s'.log = s.log ++ [s'.x] ∧ (a.tol = none → b = false) ∧
      ∀ t, a.tol = some t → ∃ e v w, a.epsg.at i = .ok e ∧ f.call s'.x = .ok v ∧ g.call s'.x = .ok w ∧ s'.pfg = some (v.toReal + e * w.toReal) ∧
        b = npRatioTest (v.toReal + e * w.toReal) s.pfg t := by
  unfold PG.body at h
  cases he : a.epsg.at i with
  | error e => rw [he] at h; cases h
  | ok e =>
    rw [he] at h
    simp only [Bind.bind, Except.bind, Pure.pure, Except.pure] at h
    split at h
    · cases h
    rename_i p hp
    cases ht : a.tol with
    | none => rw [ht] at h; cases h; exact ⟨rfl, fun _ => rfl, by simp⟩
    | some t =>
      rw [ht] at h
      simp only at h
      split at h
      · cases h
      rename_i v hv
      split at h
      · cases h
      rename_i w hw
      cases h
      exact ⟨rfl, by simp, fun t' ht' => ⟨e, v, w, rfl, hv, hw, rfl, by cases ht'; rfl⟩⟩

lemma pg_run (f g : ProxOp E) (x0 : E) (a : PGArgs) (ha : a.acceleration ≠ .other) :
    ∃ bt τ, (∀ n, 0 < n → ProximalGradient f g x0 { a with niter := n } = forRange (PG.body f g a bt) n 0 ⟨x0, x0, 1, τ, none, []⟩) ∧
      ∀ r, ProximalGradient f g x0 { a with niter := 0 } = .ok r → forRange (PG.body f g a bt) 0 0 ⟨x0, x0, 1, τ, none, []⟩ = .ok r := by
  have hc : ∀ n, 0 < n → a.epsg.printCheck n = .ok () := by
    intro n hn
    unfold StepSpec.printCheck
    split
    · rw [if_neg hn.ne']
    · rw [if_neg hn.ne']
    · rfl
  cases ht : a.tau with
  | none =>
    refine ⟨true, 1, fun n hn => ?_, fun r h => ?_⟩
    · unfold ProximalGradient
      simp only [hc n hn, Bind.bind, Except.bind, ha, ht, if_false]
      rfl
    · unfold ProximalGradient at h
      simp only [Bind.bind, Except.bind, ha, ht, if_false] at h
      split at h
      · cases h
      · exact h
  | some τ =>
    refine ⟨a.backtracking, τ, fun n hn => ?_, fun r h => ?_⟩
    · unfold ProximalGradient
      simp only [hc n hn, Bind.bind, Except.bind, ha, ht, if_false]
      rfl
    · unfold ProximalGradient at h
      simp only [Bind.bind, Except.bind, ha, ht, if_false] at h
      split at h
      · cases h
      · exact h

lemma pg_other (f g : ProxOp E) (x0 : E) (a : PGArgs) (ha : a.acceleration = .other) (r : PGState E) : ProximalGradient f g x0 a ≠ .ok r := by
  intro h
  unfold ProximalGradient at h
  simp only [Bind.bind, Except.bind, ha, if_true] at h
  split at h <;> cases h

/-- C57: `ProximalGradient` (with or without backtracking, relaxation and acceleration) calls the callback once per iteration with the new point. -/
theorem C57_proximalgradient (f g : ProxOp E) (x0 : E) (a : PGArgs) :
    CallbackOk (fun n => ProximalGradient f g x0 { a with niter := n }) PGState.log PGState.x := by
  by_cases ha : a.acceleration = .other
  · intro n r h; exact absurd h (pg_other f g x0 { a with niter := n } ha r)
  · obtain ⟨bt, τ, h1, h0⟩ := pg_run f g x0 a ha
    exact callback_wrap h1 h0 (callback_of_log (fun _ _ _ _ hb => (cb_pg_body hb).1) rfl)

/-- C57: `ProximalGradient` stops early only when the objective changed relatively by less than `tol`: `|1 - J(x_k)/J(x_{k-1})| < tol`, `J = f + epsg g`. -/
theorem C57_proximalgradient_early (f g : ProxOp E) (x0 : E) (a : PGArgs) :
    EarlyOnlyIf (fun n => ProximalGradient f g x0 { a with niter := n }) PGState.log fun i prev r => ∃ t e v w, a.tol = some t ∧ a.epsg.at i = .ok e ∧
      f.call r.x = .ok v ∧ g.call r.x = .ok w ∧
      match prev with
      | none => 1 < t
      | some q => ∃ e' v' w', a.epsg.at (i - 1) = .ok e' ∧ f.call q.x = .ok v' ∧ g.call q.x = .ok w' ∧ v'.toReal + e' * w'.toReal ≠ 0 ∧
          |1 - (v.toReal + e * w.toReal) / (v'.toReal + e' * w'.toReal)| < t := by
  by_cases ha : a.acceleration = .other
  · intro n r h; exact absurd h (pg_other f g x0 { a with niter := n } ha r)
  obtain ⟨bt, τ, h1, -⟩ := pg_run f g x0 a ha
  refine early_wrap h1 (early_of_log (out := PGState.x) (fun _ _ _ _ hb => (cb_pg_body hb).1) rfl (fun r hb => ?_) fun i p q r hp hb => ?_)
  · obtain ⟨-, h1, h2⟩ := cb_pg_body hb
    cases ht : a.tol with
    | none => cases h1 ht
    | some t =>
      obtain ⟨e, v, w, a1, a2, a3, -, a5⟩ := h2 t ht
      exact ⟨t, e, v, w, rfl, a1, a2, a3, by simpa [npRatioTest] using a5.symm⟩
  · obtain ⟨-, h1, h2⟩ := cb_pg_body hb
    cases ht : a.tol with
    | none => cases h1 ht
    | some t =>
      obtain ⟨e, v, w, a1, a2, a3, -, a5⟩ := h2 t ht
      obtain ⟨-, -, h3⟩ := cb_pg_body hp
      obtain ⟨e', v', w', b1, b2, b3, b4, -⟩ := h3 t ht
      rw [b4] at a5
      have a5 := a5.symm
      simp only [npRatioTest] at a5
      split_ifs at a5 with h0
      exact ⟨t, e, v, w, rfl, a1, a2, a3, e', v', w', b1, b2, b3, h0, of_decide_eq_true a5⟩

/-! ## AndersonProximalGradient -/

lemma cb_anderson_body {f g : ProxOp E} {solve : List E → Py (List ℝ)} {τ : ℝ} {epsg : StepSpec} {nh : ℕ} {sg : Bool} {tol : Option ℝ} {i : ℕ} {s s' : AndersonState E} {b : Bool}
    (h : Anderson.body f g solve τ epsg nh sg tol i s = .ok (s', b)) :
    s'.log = s.log ++ [s'.x] ∧ (tol = none → b = false) ∧
      ∀ t, tol = some t → ∃ e v w, epsg.at i = .ok e ∧ f.call s'.x = .ok v ∧ g.call s'.x = .ok w ∧ s'.pfg = some (v.toReal + e * w.toReal) ∧
        b = npRatioTest (v.toReal + e * w.toReal) s.pfg t := by
  unfold Anderson.body at h
  simp only [Bind.bind, Except.bind, Pure.pure, Except.pure] at h
  split at h
  · cases h
  split at h
  · cases h
  split at h
  · cases h
  rename_i e he
  split at h
  · cases h
  split at h
  · cases h
  rename_i p hp
  cases tol with
  | none => cases h; exact ⟨rfl, fun _ => rfl, by simp⟩
  | some t =>
    simp only at h
    split at h
    · cases h
    rename_i v hv
    split at h
    · cases h
    rename_i w hw
    cases h
    exact ⟨rfl, by simp, fun t' ht' => ⟨e, v, w, he, hv, hw, rfl, by cases ht'; rfl⟩⟩

lemma anderson_run (f g : ProxOp E) (solve : List E → Py (List ℝ)) (x0 : E) (τ : ℝ) (epsg : StepSpec) (nh : ℕ) :
    (∀ sg tol n r, AndersonProximalGradient f g solve x0 τ epsg n nh sg tol ≠ .ok r) ∨
    ∃ s0, s0.log = [] ∧ s0.pfg = none ∧
      (∀ sg tol n, 0 < n → AndersonProximalGradient f g solve x0 τ epsg n nh sg tol = forRange (Anderson.body f g solve τ epsg nh sg tol) n 0 s0) ∧
      ∀ sg tol r, AndersonProximalGradient f g solve x0 τ epsg 0 nh sg tol = .ok r → forRange (Anderson.body f g solve τ epsg nh sg tol) 0 0 s0 = .ok r := by
  have hc : ∀ n, 0 < n → epsg.printCheck n = .ok () := by
    intro n hn
    unfold StepSpec.printCheck
    split
    · rw [if_neg hn.ne']
    · rw [if_neg hn.ne']
    · rfl
  cases he : epsg.at 0 with
  | error e =>
    refine Or.inl fun sg tol n r h => ?_
    unfold AndersonProximalGradient at h
    simp only [Bind.bind, Except.bind, he] at h
    split at h <;> cases h
  | ok e0 =>
    cases hi : Anderson.init f g x0 τ e0 with
    | error e =>
      refine Or.inl fun sg tol n r h => ?_
      unfold AndersonProximalGradient at h
      simp only [Bind.bind, Except.bind, he, hi] at h
      split at h <;> cases h
    | ok s0 =>
      have hs : s0.log = [] ∧ s0.pfg = none := by
        unfold Anderson.init at hi
        simp only [Bind.bind, Except.bind, Pure.pure, Except.pure] at hi
        repeat' split at hi
        all_goals first | (cases hi; done) | (cases hi; exact ⟨rfl, rfl⟩)
      refine Or.inr ⟨s0, hs.1, hs.2, fun sg tol n hn => ?_, fun sg tol r h => ?_⟩
      · unfold AndersonProximalGradient
        simp only [Bind.bind, Except.bind, he, hi, hc n hn]
      · unfold AndersonProximalGradient at h
        simp only [Bind.bind, Except.bind, he, hi] at h
        split at h
        · cases h
        · exact h

/-- C57: `AndersonProximalGradient` calls the callback once per iteration with the new point. -/
theorem C57_anderson (f g : ProxOp E) (solve : List E → Py (List ℝ)) (x0 : E) (τ : ℝ) (epsg : StepSpec) (nh : ℕ) (sg : Bool) (tol : Option ℝ) :
    CallbackOk (fun n => AndersonProximalGradient f g solve x0 τ epsg n nh sg tol) AndersonState.log AndersonState.x := by
  rcases anderson_run f g solve x0 τ epsg nh with h | ⟨s0, a1, -, a2, a3⟩
  · intro n r h'; exact absurd h' (h sg tol n r)
  · exact callback_wrap (a2 sg tol) (a3 sg tol) (callback_of_log (fun _ _ _ _ hb => (cb_anderson_body hb).1) a1)

/-- C57: `AndersonProximalGradient` stops early only when the objective changed relatively by less than `tol`. -/
theorem C57_anderson_early (f g : ProxOp E) (solve : List E → Py (List ℝ)) (x0 : E) (τ : ℝ) (epsg : StepSpec) (nh : ℕ) (sg : Bool) (tol : Option ℝ) :
    EarlyOnlyIf (fun n => AndersonProximalGradient f g solve x0 τ epsg n nh sg tol) AndersonState.log fun i prev r => ∃ t e v w, tol = some t ∧ epsg.at i = .ok e ∧
      f.call r.x = .ok v ∧ g.call r.x = .ok w ∧
      match prev with
      | none => 1 < t
      | some q => ∃ e' v' w', epsg.at (i - 1) = .ok e' ∧ f.call q.x = .ok v' ∧ g.call q.x = .ok w' ∧ v'.toReal + e' * w'.toReal ≠ 0 ∧
          |1 - (v.toReal + e * w.toReal) / (v'.toReal + e' * w'.toReal)| < t := by
  rcases anderson_run f g solve x0 τ epsg nh with h | ⟨s0, a1, a0, a2, -⟩
  · intro n r h'; exact absurd h' (h sg tol n r)
  refine early_wrap (a2 sg tol) (early_of_log (out := AndersonState.x) (fun _ _ _ _ hb => (cb_anderson_body hb).1) a1 (fun r hb => ?_) fun i p q r hp hb => ?_)
  · obtain ⟨-, h1, h2⟩ := cb_anderson_body hb
    cases tol with
    | none => cases h1 rfl
    | some t =>
      obtain ⟨e, v, w, a1, a2, a3, -, a5⟩ := h2 t rfl
      rw [a0] at a5
      exact ⟨t, e, v, w, rfl, a1, a2, a3, by simpa [npRatioTest] using a5.symm⟩
  · obtain ⟨-, h1, h2⟩ := cb_anderson_body hb
    cases tol with
    | none => cases h1 rfl
    | some t =>
      obtain ⟨e, v, w, a1, a2, a3, -, a5⟩ := h2 t rfl
      obtain ⟨-, -, h3⟩ := cb_anderson_body hp
      obtain ⟨e', v', w', b1, b2, b3, b4, -⟩ := h3 t rfl
      rw [b4] at a5
      have a5 := a5.symm
      simp only [npRatioTest] at a5
      split_ifs at a5 with h0
      exact ⟨t, e, v, w, rfl, a1, a2, a3, e', v', w', b1, b2, b3, h0, of_decide_eq_true a5⟩

/-! ## Solvers without an early exit -/

/-- A solver whose set-up does not depend on the number of iterations and whose loop is never left early. -/
lemma full_of_init {S A I : Type} {log : S → List A} {out : S → A} {init : Py I} {body : I → ℕ → S → Py (S × Bool)} {st : I → S} {run : ℕ → Py S}
    (hrun : ∀ n, run n = init.bind fun p => forRange (body p) n 0 (st p))
    (hlog : ∀ p i s s' b, body p i s = .ok (s', b) → log s' = log s ++ [out s'] ∧ b = false) (h0 : ∀ p, log (st p) = []) :
    CallbackOk run log out ∧ NeverEarly run log := by
  have e : run = fun n => init.bind fun p => forRange (body p) n 0 (st p) := funext hrun
  subst e
  cases init with
  | error e =>
    constructor
    · intro n r h; cases h
    · intro n r h; cases h
  | ok p => exact ⟨callback_of_log (fun i s s' b hb => (hlog p i s s' b hb).1) (h0 p), neverEarly_of_log (hlog p) (h0 p)⟩

lemma cb_hqs_body {f g : ProxOp E} {tau : StepSpec} {gf : Bool} {i : ℕ} {s s' : SplitState E} {b : Bool} (h : HQS.body f g tau gf i s = .ok (s', b)) :
    s'.log = s.log ++ [(s'.x, s'.z)] ∧ b = false := by
  unfold HQS.body at h
  simp only [Bind.bind, Except.bind, Pure.pure, Except.pure] at h
  repeat' split at h
  all_goals first | (cases h; done) | (cases h; exact ⟨rfl, rfl⟩)

/-- C57: `HQS` calls the callback (with `x` and `z`) once per iteration and performs exactly `niter` iterations. -/
theorem C57_hqs (f g : ProxOp E) (x0 z0 : Option E) (tau : StepSpec) (gf : Bool) :
    CallbackOk (fun n => HQS f g x0 z0 tau n gf) SplitState.log (fun s => (s.x, s.z)) ∧ NeverEarly (fun n => HQS f g x0 z0 tau n gf) SplitState.log :=
  full_of_init (init := x0z0Init x0 z0) (body := fun _ => HQS.body f g tau gf) (st := fun p => ⟨p.1, p.2, 0, []⟩) (fun _ => rfl) (fun _ _ _ _ _ hb => cb_hqs_body hb) fun _ => rfl

lemma cb_admm_body {f g : ProxOp E} {τ : ℝ} {gf : Bool} {i : ℕ} {s s' : SplitState E} {b : Bool} (h : ADMM.body f g τ gf i s = .ok (s', b)) :
    s'.log = s.log ++ [(s'.x, s'.z)] ∧ b = false := by
  unfold ADMM.body at h
  simp only [Bind.bind, Except.bind, Pure.pure, Except.pure] at h
  repeat' split at h
  all_goals first | (cases h; done) | (cases h; exact ⟨rfl, rfl⟩)

/-- C57: `ADMM` calls the callback (with `x` and `z`) once per iteration and performs exactly `niter` iterations. -/
theorem C57_admm (f g : ProxOp E) (x0 z0 : Option E) (τ : ℝ) (gf : Bool) :
    CallbackOk (fun n => ADMM f g x0 z0 τ n gf) SplitState.log (fun s => (s.x, s.z)) ∧ NeverEarly (fun n => ADMM f g x0 z0 τ n gf) SplitState.log :=
  full_of_init (init := x0z0Init x0 z0) (body := fun _ => ADMM.body f g τ gf) (st := fun p => ⟨p.1, p.2, 0, []⟩) (fun _ => rfl) (fun _ _ _ _ _ hb => cb_admm_body hb) fun _ => rfl

lemma cb_admml2_body {inv : E → F → ℝ → E} {g : ProxOp F} {A : LinOp E F} {τ : ℝ} {gf : Bool} {i : ℕ} {s s' : SplitOpState E F} {b : Bool}
    (h : ADMML2.body inv g A τ gf i s = .ok (s', b)) : s'.log = s.log ++ [s'.x] ∧ b = false := by
  unfold ADMML2.body at h
  simp only [Bind.bind, Except.bind, Pure.pure, Except.pure] at h
  repeat' split at h
  all_goals first | (cases h; done) | (cases h; exact ⟨rfl, rfl⟩)

/-- C57: `ADMML2` calls the callback once per iteration and performs exactly `niter` iterations. -/
theorem C57_admml2 (inv : E → F → ℝ → E) (g : ProxOp F) (A : LinOp E F) (x0 : Option E) (z0 : Option F) (τ : ℝ) (gf : Bool) :
    CallbackOk (fun n => ADMML2 inv g A x0 z0 τ n gf) SplitOpState.log SplitOpState.x ∧ NeverEarly (fun n => ADMML2 inv g A x0 z0 τ n gf) SplitOpState.log := by
  refine full_of_init (init := if τ < 0 then (x0z0InitOp A x0 z0).bind fun _ => .error .valueError else if τ = 0 then (x0z0InitOp A x0 z0).bind fun _ => .error .zeroDivisionError else x0z0InitOp A x0 z0)
    (body := fun _ => ADMML2.body inv g A τ gf) (st := fun p => ⟨p.1, p.2, 0, 0, []⟩) (fun n => ?_) (fun _ _ _ _ _ hb => cb_admml2_body hb) fun _ => rfl
  unfold ADMML2
  cases h : x0z0InitOp A x0 z0 with
  | error e => split_ifs <;> rfl
  | ok p => simp only [Bind.bind, Except.bind]; split_ifs <;> rfl

lemma cb_ladmm_body {f : ProxOp E} {g : ProxOp F} {A : LinOp E F} {τ μ : ℝ} {i : ℕ} {s s' : SplitOpState E F} {b : Bool} (h : LinearizedADMM.body f g A τ μ i s = .ok (s', b)) :
    s'.log = s.log ++ [s'.x] ∧ b = false := by
  unfold LinearizedADMM.body at h
  simp only [Bind.bind, Except.bind, Pure.pure, Except.pure] at h
  repeat' split at h
  all_goals first | (cases h; done) | (cases h; exact ⟨rfl, rfl⟩)

/-- C57: `LinearizedADMM` calls the callback once per iteration and performs exactly `niter` iterations. -/
theorem C57_linearizedadmm (f : ProxOp E) (g : ProxOp F) (A : LinOp E F) (x0 : Option E) (z0 : Option F) (τ μ : ℝ) :
    CallbackOk (fun n => LinearizedADMM f g A x0 z0 τ μ n) SplitOpState.log SplitOpState.x ∧ NeverEarly (fun n => LinearizedADMM f g A x0 z0 τ μ n) SplitOpState.log :=
  full_of_init (init := x0z0InitOp A x0 z0) (body := fun _ => LinearizedADMM.body f g A τ μ)
    (st := fun p => ⟨p.1, p.2, 0, match z0 with | none => A.matvec p.1 | some _ => p.2, []⟩) (fun _ => by unfold LinearizedADMM; cases z0 <;> rfl)
    (fun _ _ _ _ _ hb => cb_ladmm_body hb) fun _ => rfl

lemma cb_twist_body {g : ProxOp E} {A : LinOp E F} {b : F} {α β : ℝ} {rc : Bool} {i : ℕ} {s s' : TwistState E} {br : Bool} (h : TwIST.body g A b α β rc i s = .ok (s', br)) :
    s'.log = s.log ++ [s'.x] ∧ br = false := by
  unfold TwIST.body at h
  simp only [Bind.bind, Except.bind, Pure.pure, Except.pure] at h
  repeat' split at h
  all_goals first | (cases h; done) | (cases h; exact ⟨rfl, rfl⟩)

/-- C57: `TwIST` calls the callback once per iteration and performs exactly `niter` iterations. -/
theorem C57_twist (g : ProxOp E) (A : LinOp E F) (b : F) (x0 : E) (αβ : Option (ℝ × ℝ)) (eigs : ℝ × ℝ) (rc : Bool) :
    CallbackOk (fun n => TwIST g A b x0 αβ eigs n rc) TwistState.log TwistState.x ∧ NeverEarly (fun n => TwIST g A b x0 αβ eigs n rc) TwistState.log := by
  refine full_of_init (I := (ℝ × ℝ) × E)
    (init := do
      let p ← (match αβ with | some p => .ok p | none => twistParams eigs.1 eigs.2 : Py (ℝ × ℝ))
      let g0 ← twistGrad A b x0
      let x ← g.prox (x0 - g0) 1
      pure (p, x))
    (body := fun p => TwIST.body g A b p.1.1 p.1.2 rc) (st := fun p => ⟨p.2, x0, [], []⟩) (fun n => ?_) (fun _ _ _ _ _ hb => cb_twist_body hb) fun _ => rfl
  unfold TwIST
  cases αβ with
  | some p => 
    simp only [Bind.bind, Except.bind, Pure.pure, Except.pure]
    repeat' split
    all_goals simp_all
  | none =>
    simp only [Bind.bind, Except.bind, Pure.pure, Except.pure]
    repeat' split
    all_goals simp_all

lemma cb_gpg_body {l m : ℕ} {fs : Fin l → ProxOp E} {gs : Fin m → ProxOp E} {w : Fin m → ℝ} {eps : StepSpec} {τ η : ℝ} {acc : Accel} {i : ℕ} {s s' : GPGState E m} {b : Bool}
    (h : GPG.body fs gs w eps τ η acc i s = .ok (s', b)) : s'.log = s.log ++ [s'.x] ∧ b = false := by
  unfold GPG.body at h
  simp only [Bind.bind, Except.bind, Pure.pure, Except.pure] at h
  repeat' split at h
  all_goals first | (cases h; done) | (cases h; exact ⟨rfl, rfl⟩)

/-- C57: `GeneralizedProximalGradient` calls the callback once per iteration and performs exactly `niter` iterations. -/
theorem C57_gpg {l m : ℕ} (fs : Fin l → ProxOp E) (gs : Fin m → ProxOp E) (x0 : E) (tau : Option ℝ) (eps : StepSpec) (weights : Option (List ℝ)) (η : ℝ) (acc : Accel) :
    CallbackOk (fun n => GeneralizedProximalGradient fs gs x0 tau eps weights η n acc) GPGState.log GPGState.x ∧
      NeverEarly (fun n => GeneralizedProximalGradient fs gs x0 tau eps weights η n acc) GPGState.log := by
  have hrun : ∃ ws : List ℝ, ∀ n, GeneralizedProximalGradient fs gs x0 tau eps weights η n acc = if ws.length ≠ m ∨ ws.sum ≠ 1 then .error .valueError
      else if acc = .other then .error .notImplementedError
      else forRange (GPG.body fs gs (fun j => ws.getD j 0) eps (tau.getD 1) η acc) n 0 ⟨x0, x0, 1, fun _ => x0, []⟩ := by
    classical
    exact ⟨_, fun n => by unfold GeneralizedProximalGradient; congr⟩
  obtain ⟨ws, hrun⟩ := hrun
  by_cases h1 : ws.length ≠ m ∨ ws.sum ≠ 1
  · have e : ∀ n r, GeneralizedProximalGradient fs gs x0 tau eps weights η n acc ≠ .ok r := by
      intro n r h
      rw [hrun, if_pos h1] at h
      cases h
    exact ⟨fun n r h => absurd h (e n r), fun n r h => absurd h (e n r)⟩
  by_cases h2 : acc = .other
  · have e : ∀ n r, GeneralizedProximalGradient fs gs x0 tau eps weights η n acc ≠ .ok r := by
      intro n r h
      rw [hrun, if_neg h1, if_pos h2] at h
      cases h
    exact ⟨fun n r h => absurd h (e n r), fun n r h => absurd h (e n r)⟩
  refine full_of_init (I := Unit) (init := .ok ()) (body := fun _ => GPG.body fs gs (fun j => ws.getD j 0) eps (tau.getD 1) η acc) (st := fun _ => ⟨x0, x0, 1, fun _ => x0, []⟩)
    (fun n => ?_) (fun _ _ _ _ _ hb => cb_gpg_body hb) fun _ => rfl
  rw [hrun, if_neg h1, if_neg h2]
  rfl

lemma cb_pd_body {f : ProxOp E} {g : ProxOp F} {A : LinOp E F} {z : Option E} {tau mu : StepSpec} {θ : ℝ} {gf : Bool} {i : ℕ} {s s' : PDState E F} {b : Bool}
    (h : PrimalDual.body f g A z tau mu θ gf i s = .ok (s', b)) : s'.log = s.log ++ [(s'.x, s'.y)] ∧ b = false := by
  unfold PrimalDual.body at h
  simp only [Bind.bind, Except.bind, Pure.pure, Except.pure] at h
  repeat' split at h
  all_goals first | (cases h; done) | (cases h; exact ⟨rfl, rfl⟩)

/-- C57: `PrimalDual` calls the callback (with `x` and `y`) once per iteration and performs exactly `niter` iterations. -/
theorem C57_primaldual (f : ProxOp E) (g : ProxOp F) (A : LinOp E F) (x0 : E) (y0 : Option F) (z : Option E) (tau mu : StepSpec) (θ : ℝ) (gf : Bool) :
    CallbackOk (fun n => PrimalDual f g A x0 y0 z tau mu θ n gf) PDState.log (fun s => (s.x, s.y)) ∧ NeverEarly (fun n => PrimalDual f g A x0 y0 z tau mu θ n gf) PDState.log :=
  full_of_init (I := Unit) (init := .ok ()) (body := fun _ => PrimalDual.body f g A z tau mu θ gf) (st := fun _ => ⟨x0, y0.getD 0, x0, []⟩) (fun _ => rfl)
    (fun _ _ _ _ _ hb => cb_pd_body hb) fun _ => rfl

lemma palm_body_log {H : BilOp E F} {a : PalmArgs E F} {i : ℕ} {s s' : PalmState E F} {b : Bool} (h : PALM.body H a i s = .ok (s', b)) :
    s'.log = s.log ++ [(s'.x, s'.y)] ∧ b = false := by
  unfold PALM.body at h
  simp only [Bind.bind, Except.bind, Pure.pure, Except.pure] at h
  repeat' split at h
  all_goals first | (cases h; done) | (cases h; exact ⟨rfl, rfl⟩)

/-- C57: `PALM` calls the callback (with `x` and `y`) once per iteration and performs exactly `niter` iterations. -/
theorem C57_palm (H : BilOp E F) (a : PalmArgs E F) (hx : E) (hy : F) (x0 : E) (y0 : F) :
    CallbackOk (fun n => PALM H a hx hy x0 y0 n) PalmState.log (fun s => (s.x, s.y)) ∧ NeverEarly (fun n => PALM H a hx hy x0 y0 n) PalmState.log :=
  full_of_init (I := Unit) (init := .ok ()) (body := fun _ => PALM.body H a) (st := fun _ => ⟨x0, y0, 1, 1, hx, hy, []⟩) (fun _ => rfl) (fun _ _ _ _ _ hb => palm_body_log hb) fun _ => rfl

lemma ipalm_body_log {H : BilOp E F} {a : PalmArgs E F} {ax ay : ℝ} {i : ℕ} {s s' : IPalmState E F} {b : Bool} (h : iPALM.body H a ax ay i s = .ok (s', b)) :
    s'.log = s.log ++ [(s'.x, s'.y)] ∧ b = false := by
  unfold iPALM.body at h
  simp only [Bind.bind, Except.bind, Pure.pure, Except.pure] at h
  repeat' split at h
  all_goals first | (cases h; done) | (cases h; exact ⟨rfl, rfl⟩)

/-- C57: `iPALM` calls the callback (with `x` and `y`) once per iteration and performs exactly `niter` iterations. -/
theorem C57_ipalm (H : BilOp E F) (a : PalmArgs E F) (ax ay : ℝ) (hx : E) (hy : F) (x0 : E) (y0 : F) :
    CallbackOk (fun n => iPALM H a ax ay hx hy x0 y0 n) IPalmState.log (fun s => (s.x, s.y)) ∧ NeverEarly (fun n => iPALM H a ax ay hx hy x0 y0 n) IPalmState.log :=
  full_of_init (I := Unit) (init := .ok ()) (body := fun _ => iPALM.body H a ax ay) (st := fun _ => ⟨x0, y0, x0, y0, 1, if a.gammaf.isNone then some 1 else none, hx, hy, []⟩) (fun _ => rfl)
    (fun _ _ _ _ _ hb => ipalm_body_log hb) fun _ => rfl

lemma cb_dr_body {f g : ProxOp E} {τ η : ℝ} {gf : Bool} {i : ℕ} {s s' : DRState E} {b : Bool} (h : DR.body f g τ η gf i s = .ok (s', b)) :
    (∃ x, s'.x = some x ∧ s'.log = s.log ++ [(x, s'.y)]) ∧ b = false := by
  unfold DR.body at h
  simp only [Bind.bind, Except.bind, Pure.pure, Except.pure] at h
  repeat' split at h
  all_goals first | (cases h; done) | (cases h; exact ⟨⟨_, rfl, rfl⟩, rfl⟩)

/-- C57: `DouglasRachfordSplitting` calls the callback (with `x` and `y`) once per iteration and performs exactly `niter` iterations. -/
theorem C57_douglasrachford (f g : ProxOp E) (x0 : E) (τ η : ℝ) (gf : Bool) :
    CallbackOk (fun n => DouglasRachford f g x0 τ η n gf) (fun r => r.2.2) (fun r => (r.1, r.2.1)) ∧ NeverEarly (fun n => DouglasRachford f g x0 τ η n gf) (fun r => r.2.2) := by
  obtain ⟨h1, h2⟩ := full_of_init (I := Unit) (S := DRState E) (init := .ok ()) (log := DRState.log) (out := fun s => (s.x.getD 0, s.y)) (body := fun _ => DR.body f g τ η gf) (st := fun _ => ⟨none, x0, []⟩)
    (run := fun n => forRange (DR.body f g τ η gf) n 0 ⟨none, x0, []⟩) (fun _ => rfl)
    (fun _ i s s' b hb => by obtain ⟨⟨x, e1, e2⟩, e3⟩ := cb_dr_body hb; exact ⟨by rw [e2, e1]; rfl, e3⟩) fun _ => rfl
  have conv : ∀ n r, DouglasRachford f g x0 τ η n gf = .ok r → forRange (DR.body f g τ η gf) n 0 ⟨none, x0, []⟩ = .ok ⟨some r.1, r.2.1, r.2.2⟩ := by
    intro n r h
    unfold DouglasRachford at h
    simp only [Bind.bind, Except.bind, Pure.pure, Except.pure] at h
    split at h
    · cases h
    rename_i s hs
    split at h
    · cases h
    rename_i x hx
    cases h
    rw [hs, ← hx]
  have conv' : ∀ n s, 0 < n → forRange (DR.body f g τ η gf) n 0 ⟨none, x0, []⟩ = .ok s → DouglasRachford f g x0 τ η n gf = .ok (s.x.getD 0, s.y, s.log) := by
    intro n s hn h
    have hx : ∃ x, s.x = some x := by
      have key : ∀ n i (t s : DRState E), forRange (DR.body f g τ η gf) n i t = .ok s → (0 < n ∨ ∃ x, t.x = some x) → ∃ x, s.x = some x := by
        intro n
        induction n with
        | zero => intro i t s h h'; simp only [forRange, Except.ok.injEq] at h; subst h; exact h'.resolve_left (lt_irrefl _)
        | succ n ih =>
          intro i t s h _
          rw [forRange] at h
          cases hb : DR.body f g τ η gf i t with
          | error e => rw [hb] at h; cases h
          | ok p =>
            obtain ⟨u, b⟩ := p
            rw [hb] at h
            obtain ⟨⟨x, e1, -⟩, e3⟩ := cb_dr_body hb
            subst e3
            exact ih (i + 1) u s h (Or.inr ⟨x, e1⟩)
      exact key n 0 _ s h (Or.inl hn)
    obtain ⟨x, hx⟩ := hx
    unfold DouglasRachford
    simp only [h, Bind.bind, Except.bind, hx]
    rfl
  refine ⟨fun n r h => ?_, fun n r h => h2 n _ (conv n r h)⟩
  obtain ⟨a1, a2, a3, a4⟩ := h1 n _ (conv n r h)
  refine ⟨a1, a2, fun k hk => ?_, fun hn => ?_⟩
  · obtain ⟨t, b1, b2⟩ := a3 k hk
    exact ⟨_, conv' _ t (Nat.succ_pos k) b1, b2⟩
  · exact conv' _ _ (a2 hn) (a4 hn)

/-! ## PPXA and ConsensusADMM -/

lemma cb_ppxa_body {m : ℕ} {fs : Fin m → ProxOp E} {w : Fin m → ℝ} {τ η tol : ℝ} {mx : E → ℝ} {i : ℕ} {s s' : PPXAState E m} {b : Bool}
    (h : PPXA.body fs w τ η tol mx i s = .ok (s', b)) : s'.log = s.log ++ [s'.x] ∧ (b = true → mx (s'.x - s.xold) < tol) ∧ (b = false → s'.xold = s'.x) := by
  unfold PPXA.body at h
  simp only [Bind.bind, Except.bind, Pure.pure, Except.pure] at h
  split at h
  · cases h
  split_ifs at h with hc
  · cases h; exact ⟨rfl, fun _ => hc, by simp⟩
  · cases h; exact ⟨rfl, by simp, fun _ => rfl⟩

/-- C57: `PPXA` calls the callback once per iteration with the new point and stops early only when the largest change in the last iteration is below `tol`
(`mx v` is the largest modulus of an entry of `v`). -/
theorem C57_ppxa {m : ℕ} (fs : Fin m → ProxOp E) (weights : Option (Fin m → ℝ)) (y0 : Fin m → E) (τ η tol : ℝ) (mx : E → ℝ) :
    CallbackOk (fun n => PPXA fs weights y0 τ η n tol mx) PPXAState.log PPXAState.x ∧
    EarlyOnlyIf (fun n => PPXA fs weights y0 τ η n tol mx) PPXAState.log fun _ prev r =>
      match prev with
      | none => mx (r.x - (1 / (m : ℝ)) • ∑ i, y0 i) < tol
      | some q => mx (r.x - q.x) < tol := by
  by_cases hm : m = 0
  · have e : ∀ n r, PPXA fs weights y0 τ η n tol mx ≠ .ok r := by intro n r h; unfold PPXA at h; rw [if_pos hm] at h; cases h
    exact ⟨fun n r h => absurd h (e n r), fun n r h => absurd h (e n r)⟩
  have e : ∃ w, (fun n => PPXA fs weights y0 τ η n tol mx) =
      fun n => forRange (PPXA.body fs w τ η tol mx) n 0 ⟨(1 / (m : ℝ)) • ∑ i, y0 i, (1 / (m : ℝ)) • ∑ i, y0 i, y0, []⟩ :=
    ⟨_, funext fun n => by unfold PPXA; rw [if_neg hm]⟩
  obtain ⟨w, e⟩ := e
  rw [e]
  refine ⟨callback_of_log (fun _ _ _ _ hb => (cb_ppxa_body hb).1) rfl, early_of_log (out := PPXAState.x) (fun _ _ _ _ hb => (cb_ppxa_body hb).1) rfl (fun r hb => ?_) fun i p q r hp hb => ?_⟩
  · exact (cb_ppxa_body hb).2.1 rfl
  · have := (cb_ppxa_body hb).2.1 rfl
    rw [(cb_ppxa_body hp).2.2 rfl] at this
    exact this

lemma cb_cons_body {m : ℕ} {fs : Fin m → ProxOp E} {τ tol : ℝ} {mx : E → ℝ} {i : ℕ} {s s' : ConsState E m} {b : Bool}
    (h : ConsensusADMM.body fs τ tol mx i s = .ok (s', b)) : s'.log = s.log ++ [s'.xbar] ∧ (b = true → mx (s'.xbar - s.xold) < tol) ∧ (b = false → s'.xold = s'.xbar) := by
  unfold ConsensusADMM.body at h
  simp only [Bind.bind, Except.bind, Pure.pure, Except.pure] at h
  split at h
  · cases h
  split_ifs at h with h1 hc
  · cases h; exact ⟨rfl, fun _ => hc, by simp⟩
  · cases h; exact ⟨rfl, by simp, fun _ => rfl⟩

/-- C57: `ConsensusADMM` calls the callback once per iteration with the new average and stops early only when its largest change in the last iteration is below `tol`. -/
theorem C57_consensusadmm {m : ℕ} (fs : Fin m → ProxOp E) (x0 : E) (τ tol : ℝ) (mx : E → ℝ) :
    CallbackOk (fun n => ConsensusADMM fs x0 τ n tol mx) ConsState.log ConsState.xbar ∧
    EarlyOnlyIf (fun n => ConsensusADMM fs x0 τ n tol mx) ConsState.log fun _ prev r =>
      match prev with
      | none => mx (r.xbar - x0) < tol
      | some q => mx (r.xbar - q.xbar) < tol := by
  refine ⟨callback_of_log (fun _ _ _ _ hb => (cb_cons_body hb).1) rfl, early_of_log (out := ConsState.xbar) (fun _ _ _ _ hb => (cb_cons_body hb).1) rfl (fun r hb => ?_) fun i p q r hp hb => ?_⟩
  · exact (cb_cons_body hb).2.1 rfl
  · have := (cb_cons_body hb).2.1 rfl
    rw [(cb_cons_body hp).2.2 rfl] at this
    exact this

/-! ## AdaptivePrimalDual -/

lemma apd_loop_log {f : ProxOp E} {g : ProxOp F} {A : LinOp E F} {a : APDArgs E F} : ∀ fuel n s r, APD.loop f g A { a with niter := n } fuel s = .ok r →
    ∃ l : List E, r.log = s.log ++ l ∧ (∀ k < l.length, ∀ fuel', k + 1 ≤ fuel' → ∃ t, APD.loop f g A { a with niter := s.iiter + k + 1 } fuel' s = .ok t ∧ l[k]? = some t.x) ∧
      (∀ fuel', l.length ≤ fuel' → APD.loop f g A { a with niter := s.iiter + l.length } fuel' s = .ok r) := by
  have hstop : ∀ fuel (s : APDState E F), APD.loop f g A { a with niter := s.iiter } fuel s = .ok s := by
    intro fuel s
    cases fuel <;> (rw [APD.loop, if_neg]; exact fun h => lt_irrefl _ h.1)
  intro fuel
  induction fuel with
  | zero =>
    intro n s r h
    rw [APD.loop] at h
    split_ifs at h
    cases h
    exact ⟨[], by simp, fun k hk => absurd hk (Nat.not_lt_zero k), fun fuel' _ => hstop fuel' s⟩
  | succ fuel ih =>
    intro n s r h
    rw [APD.loop] at h
    split_ifs at h with hc
    · cases hb : APD.body f g A { a with niter := n } s with
      | error e => rw [hb] at h; cases h
      | ok s' =>
        rw [hb] at h
        have hb' : ∀ k, APD.body f g A { a with niter := k } s = .ok s' := fun k => hb
        obtain ⟨l, a1, a2, a3⟩ := ih n s' r h
        obtain ⟨-, -, -, -, -, -, -, -, hi, -, -, -, hl⟩ := apd_body_inv hb
        have hgo : ∀ k fuel', APD.loop f g A { a with niter := s.iiter + k + 1 } (fuel' + 1) s = APD.loop f g A { a with niter := s.iiter + k + 1 } fuel' s' := by
          intro k fuel'
          rw [APD.loop, if_pos ⟨by simp only; omega, hc.2⟩, hb']
          rfl
        refine ⟨s'.x :: l, by rw [a1, hl]; simp, fun k hk fuel' hf => ?_, fun fuel' hf => ?_⟩
        · obtain ⟨m, rfl⟩ := Nat.exists_eq_add_of_le' (show 1 ≤ fuel' by omega)
          rw [hgo]
          cases k with
          | zero => exact ⟨s', by rw [add_zero, ← hi]; exact hstop m s', rfl⟩
          | succ k =>
            obtain ⟨t, b1, b2⟩ := a2 k (by simpa using hk) m (by omega)
            rw [hi] at b1
            exact ⟨t, by rw [show s.iiter + (k + 1) + 1 = s.iiter + 1 + k + 1 by omega]; exact b1, by simpa using b2⟩
        · rw [List.length_cons] at hf
          obtain ⟨m, rfl⟩ := Nat.exists_eq_add_of_le' (show 1 ≤ fuel' by omega)
          rw [List.length_cons, ← add_assoc, hgo]
          have := a3 m (by omega)
          rw [hi] at this
          rw [show s.iiter + l.length + 1 = s.iiter + 1 + l.length by omega]
          exact this
    · cases h
      exact ⟨[], by simp, fun k hk => absurd hk (Nat.not_lt_zero k), fun fuel' _ => hstop fuel' s⟩

/-- C57: `AdaptivePrimalDual` calls the callback once per iteration with the new point and stops early only when one of the two residuals is at most `tol`. -/
theorem C57_adaptiveprimaldual (f : ProxOp E) (g : ProxOp F) (A : LinOp E F) (x0 : E) (τ μ α : ℝ) (a : APDArgs E F) :
    CallbackOk (fun n => AdaptivePrimalDual f g A x0 τ μ α { a with niter := n }) APDState.log APDState.x ∧
    EarlyOnlyIf (fun n => AdaptivePrimalDual f g A x0 τ μ α { a with niter := n }) APDState.log fun _ _ r => r.p ≤ a.tol ∨ r.d ≤ a.tol := by
  have key : CallbackOk (fun n => AdaptivePrimalDual f g A x0 τ μ α { a with niter := n }) APDState.log APDState.x := by
    intro n r h
    obtain ⟨-, -, -, c1, c2, c3⟩ := C51_apd_histories x0 r h
    obtain ⟨l, a1, a2, a3⟩ := apd_loop_log n n _ r h
    have e : r.log = l := by rw [a1]; rfl
    have hpos : 0 < n → 0 < l.length := by
      intro hn
      by_contra h0
      have h0 : l.length = 0 := by omega
      have h1 : r.iiter = 0 := by rw [← c1, e]; exact h0
      have h2 : APD.loop f g A { a with niter := 0 } 0 ⟨x0, 0, 0, 0, τ, μ, α, a.tol + 1, a.tol + 1, 0, [τ], [μ], [α], []⟩ = .ok r := by
        have := a3 0 (by omega); rw [h0] at this; exact this
      rw [APD.loop] at h2
      split_ifs at h2
      cases h2
      have h3 := c3 (by simpa using hn)
      simp only at h3
      rcases h3 with h3 | h3 <;> linarith
    rw [e] at c1 ⊢
    refine ⟨by simp only at c2; omega, hpos, fun k hk => ?_, fun _ => ?_⟩
    · obtain ⟨t, b1, b2⟩ := a2 k hk (k + 1) le_rfl
      refine ⟨t, ?_, b2⟩
      simp only [zero_add] at b1
      exact b1
    · have := a3 l.length le_rfl
      simp only [zero_add] at this
      exact this
  refine ⟨key, fun n r h hlt => ?_⟩
  obtain ⟨-, -, -, c1, c2, c3⟩ := C51_apd_histories x0 r h
  obtain ⟨b1, b2, b3, -⟩ := key n r h
  have ht := c3 (by rw [← c1]; exact hlt)
  have hp := b2 (by omega)
  rcases Nat.lt_or_ge 1 r.log.length with h1 | h1
  · obtain ⟨t, d1, -⟩ := b3 (r.log.length - 2) (by omega)
    exact Or.inr ⟨r.log.length - 2, t, by omega, d1, ht⟩
  · exact Or.inl ⟨by omega, ht⟩

/-! ## Bregman -/

/-- C57: Bregman iterations call the callback once per outer iteration (the early exit is `C65_stopping`). -/
theorem C57_bregman (f g : ProxOp E) (solver : ProxOp E → ProxOp E → E → Py E) (x0 : E) (α : ℝ) (warm : Bool) (tolx tolf : ℝ) :
    CallbackOk (fun n => Bregman f g solver x0 (.float α) n warm tolx tolf) BregState.log BregState.x :=
  callback_of_log (fun _ _ _ _ hb => by obtain ⟨_, _, _, -, -, -, -, -, h6, -⟩ := breg_body_inv hb; exact h6) rfl

/-! ## Instances -/

/-- The statements are not empty: with `f = ‖·‖₁` and a tolerance above 1 `ProximalPoint` leaves the loop after the first iteration. -/
example (x0 : Vec (Fin 1)) (n : ℕ) : ∃ r, ProximalPoint (L1 1 none) x0 1 (n + 2) (some 2) = .ok r ∧ r.log.length = 1 := by
  simp [ProximalPoint, forRange, ProximalPoint.body, ProxOp.prox, L1, checkTau_pos, pyRatio, Bind.bind, Except.bind, Pure.pure, Except.pure]

end Verif
