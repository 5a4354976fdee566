import Verif.Model.Py
import Mathlib.Analysis.Normed.Module.Basic
import Mathlib.Topology.MetricSpace.ProperSpace
import Mathlib.Topology.Order.MonotoneConvergence
import Mathlib.Topology.MetricSpace.Sequences
import Mathlib.Analysis.Real.Sqrt
import Mathlib.Analysis.SpecificLimits.Basic
import Mathlib.Tactic.Linarith
import Mathlib.Tactic.Positivity

/-! Helper lemmas: trajectories of loops, Fejér monotone sequences. -/

namespace Verif

open Filter Topology

/-- A loop whose body never fails follows a trajectory; `B n` says whether step `n` asks to stop. -/
lemma forRange_traj {S : Type} (body : ℕ → S → Py (S × Bool)) (Good : S → Prop) (R : ℕ → S → S → Bool → Prop)
    (hstep : ∀ i s, Good s → ∃ s' b, body i s = .ok (s', b) ∧ Good s' ∧ R i s s' b) (s : S) (hs : Good s) :
    ∃ (T : ℕ → S) (B : ℕ → Bool), T 0 = s ∧ (∀ n, Good (T n)) ∧ (∀ n, R n (T n) (T (n + 1)) (B n)) ∧
      ∀ n, ∃ k ≤ n, forRange body n 0 s = .ok (T k) ∧ (∀ j, j + 1 < k → B j = false) ∧
        (k < n → ∃ j, k = j + 1 ∧ B j = true) := by
  classical
  choose f g h1 h2 h3 using hstep
  let T : ℕ → {s // Good s} := fun n => Nat.rec ⟨s, hs⟩ (fun i p => ⟨f i p.1 p.2, h2 i p.1 p.2⟩) n
  let B : ℕ → Bool := fun n => g n (T n).1 (T n).2
  have hT : ∀ n, body n (T n).1 = .ok ((T (n + 1)).1, B n) := fun n => h1 n _ _
  refine ⟨fun n => (T n).1, B, rfl, fun n => (T n).2, fun n => h3 n _ _, ?_⟩
  have key : ∀ n i, ∃ k ≤ n, forRange body n i (T i).1 = .ok (T (i + k)).1 ∧ (∀ j, j + 1 < k → B (i + j) = false) ∧
      (k < n → ∃ j, k = j + 1 ∧ B (i + j) = true) := by
    intro n
    induction n with
    | zero => intro i; exact ⟨0, le_rfl, rfl, by simp, by simp⟩
    | succ n ih =>
      intro i
      by_cases hb : B i = true
      · refine ⟨1, by omega, ?_, by intro j hj; omega, fun _ => ⟨0, rfl, by simpa using hb⟩⟩
        simp only [forRange, hT i, hb, if_true]
      · obtain ⟨k, hk, h4, h5, h6⟩ := ih (i + 1)
        refine ⟨k + 1, by omega, ?_, ?_, ?_⟩
        · simp only [forRange, hT i]
          rw [if_neg hb, h4]
          rw [show i + (k + 1) = i + 1 + k by omega]
        · intro j hj
          cases j with
          | zero => simpa using hb
          | succ j =>
            have := h5 j (by omega)
            rwa [show i + (j + 1) = i + 1 + j by omega]
        · intro hk'
          obtain ⟨j, hj, hj'⟩ := h6 (by omega)
          refine ⟨j + 1, by omega, ?_⟩
          rwa [show i + (j + 1) = i + 1 + j by omega]
  intro n
  obtain ⟨k, hk, h4, h5, h6⟩ := key n 0
  refine ⟨k, hk, ?_, ?_, ?_⟩
  · have : (T 0).1 = s := rfl
    rw [← this, h4, Nat.zero_add]
  · intro j hj; simpa using h5 j hj
  · intro hk'; obtain ⟨j, hj, hj'⟩ := h6 hk'; exact ⟨j, hj, by simpa using hj'⟩

/-- The same for a loop that never stops early. -/
lemma forRange_traj_nobreak {S : Type} (body : ℕ → S → Py (S × Bool)) (Good : S → Prop) (R : ℕ → S → S → Prop)
    (hstep : ∀ i s, Good s → ∃ s', body i s = .ok (s', false) ∧ Good s' ∧ R i s s') (s : S) (hs : Good s) :
    ∃ T : ℕ → S, T 0 = s ∧ (∀ n, Good (T n)) ∧ (∀ n, R n (T n) (T (n + 1))) ∧ ∀ n, forRange body n 0 s = .ok (T n) := by
  obtain ⟨T, B, h0, h1, h2, h3⟩ := forRange_traj body Good (fun i s s' b => R i s s' ∧ b = false)
    (fun i s hs => by obtain ⟨s', h1, h2, h3⟩ := hstep i s hs; exact ⟨s', false, h1, h2, h3, rfl⟩) s hs
  refine ⟨T, h0, h1, fun n => (h2 n).1, fun n => ?_⟩
  obtain ⟨k, hk, h4, _, h6⟩ := h3 n
  rcases lt_or_eq_of_le hk with h | h
  · obtain ⟨j, _, hj⟩ := h6 h
    rw [(h2 j).2] at hj; cases hj
  · rw [h4, h]

/-- Invariants of the loop pass to its result. -/
lemma forRange_inv {σ : Type} {body : ℕ → σ → Py (σ × Bool)} {I : σ → Prop} (hb : ∀ i s s' b, I s → body i s = .ok (s', b) → I s') :
    ∀ n i s r, I s → forRange body n i s = .ok r → I r := by
  intro n
  induction n with
  | zero => intro i s r hs h; simp only [forRange] at h; cases h; exact hs
  | succ n ih =>
    intro i s r hs h
    simp only [forRange] at h
    cases hbd : body i s with
    | error e => rw [hbd] at h; cases h
    | ok p =>
      obtain ⟨s', b⟩ := p
      rw [hbd] at h
      have hs' := hb i s s' b hs hbd
      cases b with
      | true => simp only [if_true] at h; cases h; exact hs'
      | false => exact ih (i + 1) s' r hs' h

/-- Invariants indexed by the iteration, for bodies that never break. -/
lemma forRange_inv_idx {σ : Type} {body : ℕ → σ → Py (σ × Bool)} {I : ℕ → σ → Prop} (hb : ∀ i s s' b, I i s → body i s = .ok (s', b) → I (i + 1) s' ∧ b = false) :
    ∀ n i s r, I i s → forRange body n i s = .ok r → I (i + n) r := by
  intro n
  induction n with
  | zero => intro i s r hs h; simp only [forRange] at h; cases h; exact hs
  | succ n ih =>
    intro i s r hs h
    simp only [forRange] at h
    cases hbd : body i s with
    | error e => rw [hbd] at h; cases h
    | ok p =>
      obtain ⟨s', b⟩ := p
      rw [hbd] at h
      obtain ⟨hs', rfl⟩ := hb i s s' b hs hbd
      have := ih (i + 1) s' r hs' h
      rwa [show i + (n + 1) = i + 1 + n by omega]

/-- One more iteration of a loop that never breaks. -/
lemma forRange_succ {σ : Type} {body : ℕ → σ → Py (σ × Bool)} (hb : ∀ i s s' b, body i s = .ok (s', b) → b = false) :
    ∀ n i s r, forRange body (n + 1) i s = .ok r → ∃ q, forRange body n i s = .ok q ∧ body (i + n) q = .ok (r, false) := by
  intro n
  induction n with
  | zero =>
    intro i s r h
    simp only [forRange] at h
    cases hbd : body i s with
    | error e => rw [hbd] at h; cases h
    | ok p =>
      obtain ⟨s', b⟩ := p
      have := hb _ _ _ _ hbd
      subst this
      rw [hbd] at h
      cases h
      exact ⟨s, rfl, hbd⟩
  | succ n ih =>
    intro i s r h
    rw [forRange] at h
    cases hbd : body i s with
    | error e => rw [hbd] at h; cases h
    | ok p =>
      obtain ⟨s', b⟩ := p
      have := hb _ _ _ _ hbd
      subst this
      rw [hbd] at h
      obtain ⟨q, h1, h2⟩ := ih (i + 1) s' r h
      refine ⟨q, ?_, ?_⟩
      · rw [forRange, hbd]; exact h1
      · rwa [show i + (n + 1) = i + 1 + n by omega]

/-- Two loops whose bodies agree on related states have related results. -/
lemma forRange_sim {σ σ' : Type} {b1 : ℕ → σ → Py (σ × Bool)} {b2 : ℕ → σ' → Py (σ' × Bool)} {R : σ → σ' → Prop}
    (h : ∀ i s t, R s t → (∃ e, b1 i s = .error e ∧ b2 i t = .error e) ∨ ∃ s' t' b, b1 i s = .ok (s', b) ∧ b2 i t = .ok (t', b) ∧ R s' t') :
    ∀ n i s t, R s t → (∃ e, forRange b1 n i s = .error e ∧ forRange b2 n i t = .error e) ∨
      ∃ s' t', forRange b1 n i s = .ok s' ∧ forRange b2 n i t = .ok t' ∧ R s' t' := by
  intro n
  induction n with
  | zero => intro i s t hst; exact Or.inr ⟨s, t, rfl, rfl, hst⟩
  | succ n ih =>
    intro i s t hst
    simp only [forRange]
    rcases h i s t hst with ⟨e, h1, h2⟩ | ⟨s', t', b, h1, h2, h3⟩
    · rw [h1, h2]; exact Or.inl ⟨e, rfl, rfl⟩
    · rw [h1, h2]
      cases b with
      | true => exact Or.inr ⟨s', t', rfl, rfl, h3⟩
      | false => exact ih (i + 1) s' t' h3

/-- Bookkeeping of a loop whose body appends one entry to a list. -/
lemma forRange_log {S A : Type} {body : ℕ → S → Py (S × Bool)} {log : S → List A} {out : S → A}
    (hlog : ∀ i s s' b, body i s = .ok (s', b) → log s' = log s ++ [out s']) :
    ∀ n i s r, forRange body n i s = .ok r → ∃ l : List A, log r = log s ++ l ∧ l.length ≤ n ∧ forRange body l.length i s = .ok r ∧
      (∀ j < l.length, ∃ t, forRange body (j + 1) i s = .ok t ∧ l[j]? = some (out t)) ∧
      (l.length < n → ∃ j q, l.length = j + 1 ∧ forRange body j i s = .ok q ∧ body (i + j) q = .ok (r, true) ∧
        ∀ m, j = m + 1 → ∃ p, forRange body m i s = .ok p ∧ body (i + m) p = .ok (q, false)) := by
  intro n
  induction n with
  | zero =>
    intro i s r h
    simp only [forRange] at h
    cases h
    exact ⟨[], by simp, le_rfl, rfl, fun j hj => absurd hj (Nat.not_lt_zero j), fun h => absurd h (lt_irrefl _)⟩
  | succ n ih =>
    intro i s r h
    rw [forRange] at h
    cases hb : body i s with
    | error e => rw [hb] at h; cases h
    | ok p =>
      obtain ⟨s', b⟩ := p
      rw [hb] at h
      have h1 := hlog i s s' b hb
      have hone : forRange body 1 i s = .ok s' := by
        simp only [forRange, hb]
        cases b <;> rfl
      cases b with
      | true =>
        simp only [if_true, Except.ok.injEq] at h
        subst h
        refine ⟨[out s'], h1, by simp, hone, fun j hj => ?_, fun _ => ⟨0, s, rfl, rfl, hb, fun m hm => by omega⟩⟩
        have : j = 0 := by simpa using hj
        subst this
        exact ⟨s', hone, rfl⟩
      | false =>
        simp only [Bool.false_eq_true, if_false] at h
        obtain ⟨l, a1, a2, a3, a4, a5⟩ := ih (i + 1) s' r h
        have hstep : ∀ m, forRange body (m + 1) i s = forRange body m (i + 1) s' := by
          intro m; simp only [forRange, hb, Bool.false_eq_true, if_false]
        refine ⟨out s' :: l, by rw [a1, h1]; simp, by simp; omega, by rw [List.length_cons, hstep]; exact a3, fun j hj => ?_, fun hlt => ?_⟩
        · cases j with
          | zero => exact ⟨s', hone, rfl⟩
          | succ j =>
            obtain ⟨t, b1, b2⟩ := a4 j (by simpa using hj)
            exact ⟨t, by rw [hstep]; exact b1, by simpa using b2⟩
        · obtain ⟨j, q, c1, c2, c3, c4⟩ := a5 (by simpa using hlt)
          refine ⟨j + 1, q, by simp [c1], by rw [hstep]; exact c2, by rw [show i + (j + 1) = i + 1 + j by omega]; exact c3, fun m hm => ?_⟩
          have hm' : j = m := by omega
          subst hm'
          cases j with
          | zero =>
            simp only [forRange, Except.ok.injEq] at c2
            subst c2
            exact ⟨s, rfl, hb⟩
          | succ k =>
            obtain ⟨p, d1, d2⟩ := c4 k rfl
            exact ⟨p, by rw [hstep]; exact d1, by rw [show i + (k + 1) = i + 1 + k by omega]; exact d2⟩

/-- One more iteration: either the loop had been left before, or the body is run once more. -/
lemma forRange_step {S : Type} {body : ℕ → S → Py (S × Bool)} :
    ∀ n i t s s', forRange body n i t = .ok s → forRange body (n + 1) i t = .ok s' → s' = s ∨ ∃ b, body (i + n) s = .ok (s', b) := by
  intro n
  induction n with
  | zero =>
    intro i t s s' h1 h2
    simp only [forRange, Except.ok.injEq] at h1
    subst h1
    rw [forRange] at h2
    cases hb : body i t with
    | error e => rw [hb] at h2; cases h2
    | ok p =>
      obtain ⟨u, b⟩ := p
      rw [hb] at h2
      cases b
      · simp only [forRange, Bool.false_eq_true, if_false, Except.ok.injEq] at h2; subst h2; exact Or.inr ⟨false, rfl⟩
      · simp only [if_true, Except.ok.injEq] at h2; subst h2; exact Or.inr ⟨true, rfl⟩
  | succ n ih =>
    intro i t s s' h1 h2
    rw [forRange] at h1 h2
    cases hb : body i t with
    | error e => rw [hb] at h2; cases h2
    | ok p =>
      obtain ⟨u, b⟩ := p
      rw [hb] at h1 h2
      cases b with
      | true =>
        simp only [if_true, Except.ok.injEq] at h1 h2
        exact Or.inl (h2.symm.trans h1)
      | false =>
        simp only [Bool.false_eq_true, if_false] at h1 h2
        rcases ih (i + 1) u s s' h1 h2 with h | ⟨b, h⟩
        · exact Or.inl h
        · exact Or.inr ⟨b, by rw [show i + (n + 1) = i + 1 + n by omega]; exact h⟩

/-- Fejér monotone orbits of a continuous map whose steps vanish converge to a fixed point, in finite dimension.  Distances are measured
with a gauge `Q` comparable to the squared norm. -/
lemma fejer_converges {E : Type*} [NormedAddCommGroup E] [ProperSpace E] (T : E → E) (hT : Continuous T) (Q : E → ℝ) (hQc : Continuous Q)
    (hQ0 : Q 0 = 0) {k : ℝ} (hk : 0 < k) (hQ : ∀ v, k * ‖v‖ ^ 2 ≤ Q v) (x : ℕ → E)
    (hF : ∀ c, T c = c → ∀ n, Q (x (n + 1) - c) ≤ Q (x n - c)) (hne : ∃ c, T c = c)
    (hdiff' : Tendsto (fun n => T (x n) - x n) atTop (𝓝 0)) : ∃ c, T c = c ∧ Tendsto x atTop (𝓝 c) := by
  have hQnn : ∀ v, 0 ≤ Q v := fun v => le_trans (by positivity) (hQ v)
  have hanti : ∀ c, T c = c → Antitone fun n => Q (x n - c) := fun c hc => antitone_nat_of_succ_le fun n => hF c hc n
  obtain ⟨c0, hc0⟩ := hne
  have hbdd : Bornology.IsBounded (Set.range x) := by
    rw [isBounded_iff_forall_norm_le]
    refine ⟨‖c0‖ + √(Q (x 0 - c0) / k), ?_⟩
    rintro _ ⟨n, rfl⟩
    have h1 : ‖x n - c0‖ ^ 2 ≤ Q (x 0 - c0) / k := by
      rw [le_div_iff₀ hk, mul_comm]
      exact (hQ _).trans (hanti c0 hc0 (Nat.zero_le n))
    have h2 := Real.le_sqrt_of_sq_le h1
    have h3 : ‖x n‖ ≤ ‖c0‖ + ‖x n - c0‖ := by
      have := norm_add_le c0 (x n - c0); rwa [add_sub_cancel] at this
    linarith
  obtain ⟨c, -, φ, hφ, hlim⟩ := tendsto_subseq_of_bounded hbdd (fun n => Set.mem_range_self n)
  have hc : T c = c := by
    have h1 : Tendsto (fun n => T (x (φ n)) - x (φ n)) atTop (𝓝 (T c - c)) :=
      ((hT.tendsto c).comp hlim).sub hlim
    have h2 := hdiff'.comp hφ.tendsto_atTop
    exact sub_eq_zero.1 (tendsto_nhds_unique h1 h2)
  refine ⟨c, hc, ?_⟩
  have h3 : Tendsto (fun n => Q (x n - c)) atTop (𝓝 (⨅ n, Q (x n - c))) :=
    tendsto_atTop_ciInf (hanti c hc) ⟨0, by rintro _ ⟨n, rfl⟩; exact hQnn _⟩
  have h4 : Tendsto (fun n => Q (x (φ n) - c)) atTop (𝓝 0) := by
    have := (hQc.tendsto (c - c)).comp (hlim.sub_const c)
    rw [sub_self, hQ0] at this
    exact this
  have h5 : (⨅ n, Q (x n - c)) = 0 := tendsto_nhds_unique (h3.comp hφ.tendsto_atTop) h4
  rw [h5] at h3
  rw [tendsto_iff_norm_sub_tendsto_zero]
  have h6 : Tendsto (fun n => ‖x n - c‖ ^ 2) atTop (𝓝 0) := by
    have h7 := h3.div_const k
    rw [zero_div] at h7
    refine squeeze_zero (fun n => by positivity) (fun n => ?_) h7
    rw [le_div_iff₀ hk, mul_comm]; exact hQ _
  have := (Real.continuous_sqrt.tendsto 0).comp h6
  simpa [Function.comp_def, Real.sqrt_sq] using this

/-- Krasnosel'skii-Mann: a continuous map that brings every point closer to each of its fixed points (in a norm-like gauge `Q`)
by an amount controlled by the step length, has convergent orbits in finite dimension. -/
lemma km_converges {E : Type*} [NormedAddCommGroup E] [ProperSpace E] (T : E → E) (hT : Continuous T) (Q : E → ℝ) (hQc : Continuous Q)
    (hQ0 : Q 0 = 0) {k β : ℝ} (hk : 0 < k) (hβ : 0 < β) (hQ : ∀ v, k * ‖v‖ ^ 2 ≤ Q v)
    (hF : ∀ x c, T c = c → Q (T x - c) + β * ‖T x - x‖ ^ 2 ≤ Q (x - c)) (hne : ∃ c, T c = c) (x : ℕ → E)
    (hx : ∀ n, x (n + 1) = T (x n)) : ∃ c, T c = c ∧ Tendsto x atTop (𝓝 c) := by
  have hQnn : ∀ v, 0 ≤ Q v := fun v => le_trans (by positivity) (hQ v)
  have hstep : ∀ c, T c = c → ∀ n, Q (x (n + 1) - c) ≤ Q (x n - c) := by
    intro c hc n
    have := hF (x n) c hc
    rw [hx n]
    have : 0 ≤ β * ‖T (x n) - x n‖ ^ 2 := by positivity
    linarith
  refine fejer_converges T hT Q hQc hQ0 hk hQ x hstep hne ?_
  obtain ⟨c0, hc0⟩ := hne
  have hconv : Tendsto (fun n => Q (x n - c0)) atTop (𝓝 (⨅ n, Q (x n - c0))) :=
    tendsto_atTop_ciInf (antitone_nat_of_succ_le fun n => hstep c0 hc0 n) ⟨0, by rintro _ ⟨n, rfl⟩; exact hQnn _⟩
  have hdiff : Tendsto (fun n => ‖T (x n) - x n‖ ^ 2) atTop (𝓝 0) := by
    have h1 : Tendsto (fun n => (Q (x n - c0) - Q (x (n + 1) - c0)) / β) atTop (𝓝 0) := by
      have := (hconv.sub (hconv.comp (tendsto_add_atTop_nat 1))).div_const β
      simpa using this
    refine squeeze_zero (fun n => by positivity) (fun n => ?_) h1
    rw [le_div_iff₀ hβ, hx n]
    have := hF (x n) c0 hc0
    linarith
  rw [tendsto_zero_iff_norm_tendsto_zero]
  have := (Real.continuous_sqrt.tendsto 0).comp hdiff
  simpa [Function.comp_def, Real.sqrt_sq] using this

end Verif
