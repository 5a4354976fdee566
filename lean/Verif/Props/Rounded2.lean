import Verif.Props.Rounded
import Verif.Props.Splitting
import Verif.Props.LinearRate
import Verif.Props.Calculus
import Verif.Props.Lasso

/-!
# C114: runs of solvers in rounded arithmetic

`ProximalPoint` and `HQS` do no arithmetic of their own, so their runs in rounded arithmetic are the runs of the model
with rounded operators.  `ADMMR` rounds the additions and subtractions of `ADMM`.
-/

namespace Verif

variable {ι : Type} [Fintype ι]
variable {rnd : ℝ → ℝ} {u : ℝ}

/-- A run of `ProximalPoint` without tolerance for an operator whose prox is the total map `p`. -/
theorem pp_iterate {E : Type} [NormedAddCommGroup E] [InnerProductSpace ℝ E] (f : ProxOp E) {τ : ℝ} (p : E → E)
    (hp : ∀ x, f.prox x τ = .ok (p x)) (x0 : E) (n : ℕ) :
    ∃ s, ProximalPoint f x0 τ n none = .ok s ∧ s.x = p^[n] x0 := by
  have h : ∀ (n i : ℕ) (s : PPState E), ∃ s', forRange (ProximalPoint.body f τ none) n i s = .ok s' ∧ s'.x = p^[n] s.x := by
    intro n
    induction n with
    | zero => exact fun i s => ⟨s, rfl, rfl⟩
    | succ n ih =>
      intro i s
      have hb : ProximalPoint.body f τ none i s = .ok (⟨p s.x, s.pf, s.log ++ [p s.x]⟩, false) := by
        simp [ProximalPoint.body, hp, Bind.bind, Except.bind, Pure.pure, Except.pure]
      obtain ⟨s', h1, h2⟩ := ih (i + 1) ⟨p s.x, s.pf, s.log ++ [p s.x]⟩
      refine ⟨s', ?_, ?_⟩
      · simp [forRange, hb, h1]
      · rw [h2]; rfl
  exact h n 0 _

/-- **C114** `ProximalPoint` on `L1` in rounded arithmetic: no entry ever grows or changes its sign, and all entries
returned are numbers of the format. -/
theorem C114_proximal_point_l1 (hr : Rounding rnd u) (val : Vec ι → Py CallVal) {σ τ : ℝ} (hσ : 0 ≤ σ) (hτ : 0 < τ) (x0 : Vec ι)
    (hx0 : ∀ i, IsFloat rnd (x0 i)) (n : ℕ) :
    ∃ s, ProximalPoint (L1R rnd val σ none) x0 τ n none = .ok s ∧
      ∀ i, |s.x i| ≤ |x0 i| ∧ 0 ≤ s.x i * x0 i ∧ IsFloat rnd (s.x i) := by
  have ht : 0 ≤ rnd (τ * σ) := hr.nonneg (mul_nonneg hτ.le hσ)
  obtain ⟨s, hs, hx⟩ := pp_iterate (L1R rnd val σ none) _ (fun x => L1R_prox_none val σ x hτ) x0 n
  refine ⟨s, hs, fun i => ?_⟩
  rw [hx]
  clear hx hs s
  induction n with
  | zero => exact ⟨le_rfl, mul_self_nonneg _, hx0 i⟩
  | succ n ih =>
    obtain ⟨h1, h2, h3⟩ := ih
    rw [Function.iterate_succ_apply']
    set v : Vec ι := (fun x : Vec ι => (vmk fun i => softR rnd (x i) (rnd (τ * σ)) : Vec ι))^[n] x0 with hv
    refine ⟨(softR_shrinks hr ht h3).trans h1, ?_, softR_float hr _ _⟩
    simp only
    have hsg := softR_sign (rnd := rnd) (v i) (rnd (τ * σ))
    rcases eq_or_ne (v i) 0 with h0 | h0
    · rw [h0]; simp [softR, npsign]
    · rcases lt_or_gt_of_ne h0 with hneg | hpos
      · have a : softR rnd (v i) (rnd (τ * σ)) ≤ 0 := by nlinarith
        have b : x0 i ≤ 0 := by nlinarith
        exact mul_nonneg_of_nonpos_of_nonpos a b
      · have a : 0 ≤ softR rnd (v i) (rnd (τ * σ)) := by nlinarith
        have b : 0 ≤ x0 i := by nlinarith
        exact mul_nonneg a b

/-- **C114** `ProximalPoint` on `L1` in rounded arithmetic reaches the minimiser exactly: if no entry exceeds `M` and the
threshold is large enough to be seen at that size, `c = (1 + u) t - u M > 0`, then `M / c` iterations end at zero. -/
theorem C114_proximal_point_l1_reaches_zero_partial (hr : Rounding rnd u) (val : Vec ι → Py CallVal) {σ τ M : ℝ} (hσ : 0 ≤ σ)
    (hτ : 0 < τ) (x0 : Vec ι) (hM : ∀ i, |x0 i| ≤ M) (hc : 0 < (1 + u) * rnd (τ * σ) - u * M) (n : ℕ)
    (hn : M ≤ n * ((1 + u) * rnd (τ * σ) - u * M)) :
    ∃ s, ProximalPoint (L1R rnd val σ none) x0 τ n none = .ok s ∧ s.x = 0 := by
  have hu := hr.nonneg_u
  have ht : 0 ≤ rnd (τ * σ) := hr.nonneg (mul_nonneg hτ.le hσ)
  obtain ⟨s, hs, hx⟩ := pp_iterate (L1R rnd val σ none) _ (fun x => L1R_prox_none val σ x hτ) x0 n
  refine ⟨s, hs, ?_⟩
  rw [hx]
  set t := rnd (τ * σ) with hte
  set c := (1 + u) * t - u * M with hcd
  have key : ∀ (k : ℕ) (i : ι), |(fun x : Vec ι => (vmk fun i => softR rnd (x i) t : Vec ι))^[k] x0 i| ≤ max (M - k * c) 0 := by
    intro k i
    induction k with
    | zero => simpa using Or.inl (hM i)
    | succ k ih =>
      rw [Function.iterate_succ_apply']
      set v : Vec ι := (fun x : Vec ι => (vmk fun i => softR rnd (x i) t : Vec ι))^[k] x0
      have hM0 : 0 ≤ M := (abs_nonneg _).trans (hM i)
      have hvM : |v i| ≤ M := ih.trans (max_le (by nlinarith [Nat.cast_nonneg (α := ℝ) k]) hM0)
      refine (softR_abs_le (v i) t).trans (max_le ?_ (le_max_right _ _))
      rcases le_total (|v i| - t) 0 with h | h
      · exact (hr.nonpos h).trans (le_max_right _ _)
      · have h1 := hr.upper h
        have hvk : |v i| ≤ M - k * c := by
          rcases le_total (M - k * c) 0 with h0 | h0
          · rw [max_eq_right h0] at ih
            have hv0 : |v i| = 0 := le_antisymm ih (abs_nonneg _)
            exfalso
            rw [hv0] at h
            have : t = 0 := by linarith
            rw [hcd, this] at hc
            nlinarith
          · rwa [max_eq_left h0] at ih
        refine le_trans ?_ (le_max_left _ _)
        push_cast
        have : (1 + u) * (|v i| - t) ≤ |v i| - c := by rw [hcd]; nlinarith
        linarith
  ext i
  have h := key n i
  rw [max_eq_right (by linarith)] at h
  simpa using h

/-- **C114** Refuted in general: when the threshold is too small to be seen next to the entries, `ProximalPoint` on `L1`
returns its starting point whatever the number of iterations. -/
theorem C114_proximal_point_l1_stalls_refuted (val : Vec ι → Py CallVal) {σ τ : ℝ} (hτ : 0 < τ) (x0 : Vec ι)
    (habs : ∀ i, rnd (|x0 i| - rnd (τ * σ)) = |x0 i|) (n : ℕ) :
    ∃ s, ProximalPoint (L1R rnd val σ none) x0 τ n none = .ok s ∧ s.x = x0 := by
  obtain ⟨s, hs, hx⟩ := pp_iterate (L1R rnd val σ none) _ (fun x => L1R_prox_none val σ x hτ) x0 n
  refine ⟨s, hs, ?_⟩
  rw [hx]
  refine Function.iterate_fixed ?_ n
  ext i
  simp only [softR, habs i, max_eq_left (abs_nonneg (x0 i))]
  rcases npsign_cases (x0 i) with ⟨h, e⟩ | ⟨h, e⟩ | ⟨h, e⟩ <;> rw [e]
  · rw [abs_of_pos h, mul_one]
  · rw [abs_of_neg h]; ring
  · rw [h]; simp

/-- **C114** `ProximalPoint` on `L1`: after `n` iterations the rounded run is within `n u (|x0| + tau sigma)` of the exact
run, entry by entry. -/
theorem C114_proximal_point_l1_error (hr : Rounding rnd u) (val : Vec ι → Py CallVal) {σ τ : ℝ} (hσ : 0 ≤ σ) (hτ : 0 < τ)
    (x0 : Vec ι) (hx0 : ∀ i, IsFloat rnd (x0 i)) (n : ℕ) :
    ∃ s e, ProximalPoint (L1R rnd val σ none) x0 τ n none = .ok s ∧ ProximalPoint (L1 σ none) x0 τ n none = .ok e ∧
      ∀ i, |s.x i - e.x i| ≤ n * (u * (|x0 i| + τ * σ)) := by
  have hT : 0 ≤ τ * σ := mul_nonneg hτ.le hσ
  obtain ⟨e, he, hxe⟩ := pp_iterate (L1 σ none) (fun x : Vec ι => (vmk fun i => softScalar (x i) (τ * σ) : Vec ι))
    (fun x => by rw [L1_prox_val σ none x hτ]; simp) x0 n
  obtain ⟨s, hs, hxs⟩ := pp_iterate (L1R rnd val σ none) _ (fun x => L1R_prox_none val σ x hτ) x0 n
  refine ⟨s, e, hs, he, fun i => ?_⟩
  rw [hxs, hxe]
  clear hxs hxe he hs s e
  induction n with
  | zero => simp
  | succ n ih =>
    obtain ⟨s, hs, hq⟩ := C114_proximal_point_l1 hr val hσ hτ x0 hx0 n
    obtain ⟨s', hs', hxs⟩ := pp_iterate (L1R rnd val σ none) _ (fun x => L1R_prox_none val σ x hτ) x0 n
    rw [hs] at hs'
    obtain rfl : s = s' := by simpa using hs'
    have hle := (hq i).1
    rw [hxs] at hle
    rw [Function.iterate_succ_apply', Function.iterate_succ_apply']
    set v : Vec ι := (fun x : Vec ι => (vmk fun i => softR rnd (x i) (rnd (τ * σ)) : Vec ι))^[n] x0
    set w : Vec ι := (fun x : Vec ι => (vmk fun i => softScalar (x i) (τ * σ) : Vec ι))^[n] x0
    obtain ⟨y, sy, hy, hsy, hb⟩ := C113_l1 hr val hσ hτ v
    rw [L1R_prox_none val σ v hτ] at hy
    rw [L1_prox_val σ none v hτ] at hsy
    obtain rfl : (vmk fun i => softR rnd (v i) (rnd (τ * σ)) : Vec ι) = y := by simpa using hy
    have hsy' : sy = vmk fun i => softScalar (v i) (τ * σ) := by
      have := hsy.symm
      simpa using this
    have hb := (hb i).2.2.2.2
    rw [hsy'] at hb
    have hl := softScalar_lip (v i) (w i) _ hT
    have ht := abs_sub_le (softR rnd (v i) (rnd (τ * σ))) (softScalar (v i) (τ * σ)) (softScalar (w i) (τ * σ))
    have hm := mul_le_mul_of_nonneg_left (show |v i| + τ * σ ≤ |x0 i| + τ * σ by linarith) hr.nonneg_u
    push_cast
    simp only at hb ⊢
    linarith

/-- **C114** `ProximalPoint` on `L2` in rounded arithmetic: the entries decrease at least geometrically, with the factor
`(1 + u) / ((1 - u)^2 (1 + tau sigma))`. -/
theorem C114_proximal_point_l2_partial (hr : Rounding rnd u) (val : Vec ι → Py CallVal) {σ τ : ℝ} (hσ : 0 ≤ σ) (hτ : 0 < τ)
    (x0 : Vec ι) (n : ℕ) :
    ∃ s, ProximalPoint (L2R rnd val σ none) x0 τ n none = .ok s ∧
      ∀ i, |s.x i| ≤ ((1 + u) / ((1 - u) ^ 2 * (1 + τ * σ))) ^ n * |x0 i| := by
  have hT : 0 ≤ τ * σ := mul_nonneg hτ.le hσ
  have hu := hr.nonneg_u
  have hl := hr.lt
  obtain ⟨s, hs, hx⟩ := pp_iterate (L2R rnd val σ none) (τ := τ) (fun x : Vec ι => (vmk fun i => rnd (x i / rnd (1 + rnd (τ * σ))) : Vec ι))
    (fun x => by simp [ProxOp.prox, L2R, checkTau, not_le.mpr hτ]) x0 n
  refine ⟨s, hs, fun i => ?_⟩
  rw [hx]
  clear hx hs s
  induction n with
  | zero => simp
  | succ n ih =>
    rw [Function.iterate_succ_apply']
    set v : Vec ι := (fun x : Vec ι => (vmk fun i => rnd (x i / rnd (1 + rnd (τ * σ))) : Vec ι))^[n] x0
    have h := divR_err hr hT (v i)
    have h2 := abs_sub_abs_le_abs_sub (rnd (v i / rnd (1 + rnd (τ * σ)))) (v i / (1 + τ * σ))
    have h3 : |rnd (v i / rnd (1 + rnd (τ * σ)))| ≤ (1 + u) / (1 - u) ^ 2 * |v i / (1 + τ * σ)| := by linarith
    have h4 : (1 + u) / (1 - u) ^ 2 * |v i / (1 + τ * σ)| = (1 + u) / ((1 - u) ^ 2 * (1 + τ * σ)) * |v i| := by
      rw [abs_div, abs_of_pos (show 0 < 1 + τ * σ by linarith)]
      have : 0 < 1 + τ * σ := by linarith
      have : 0 < 1 - u := by linarith
      field_simp
    rw [pow_succ']
    calc _ ≤ (1 + u) / ((1 - u) ^ 2 * (1 + τ * σ)) * |v i| := by rw [← h4]; exact h3
      _ ≤ (1 + u) / ((1 - u) ^ 2 * (1 + τ * σ)) *
            (((1 + u) / ((1 - u) ^ 2 * (1 + τ * σ))) ^ n * |x0 i|) :=
          mul_le_mul_of_nonneg_left ih (div_nonneg (by linarith) (mul_nonneg (sq_nonneg _) (by linarith)))
      _ = _ := by ring

/-- **C114** Refuted in general: when `1 + tau sigma` rounds to 1, `ProximalPoint` on `L2` returns its starting point
whatever the number of iterations. -/
theorem C114_proximal_point_l2_stalls_refuted (val : Vec ι → Py CallVal) {σ τ : ℝ} (hτ : 0 < τ) (x0 : Vec ι)
    (hx0 : ∀ i, IsFloat rnd (x0 i)) (habs : rnd (1 + rnd (τ * σ)) = 1) (n : ℕ) :
    ∃ s, ProximalPoint (L2R rnd val σ none) x0 τ n none = .ok s ∧ s.x = x0 := by
  obtain ⟨s, hs, hx⟩ := pp_iterate (L2R rnd val σ none) (τ := τ) (fun x : Vec ι => (vmk fun i => rnd (x i / rnd (1 + rnd (τ * σ))) : Vec ι))
    (fun x => by simp [ProxOp.prox, L2R, checkTau, not_le.mpr hτ]) x0 n
  refine ⟨s, hs, ?_⟩
  rw [hx]
  refine Function.iterate_fixed ?_ n
  ext i
  simp only [habs, div_one]
  exact hx0 i

/-! ## ADMM -/

/-- **C114** With an exact `rnd` the rounded ADMM is the ADMM of the model. -/
theorem C114_admm_exact (f g : ProxOp (Vec ι)) (x0 z0 : Option (Vec ι)) (τ : ℝ) (n : ℕ) (gfirst : Bool) :
    ADMMR (fun v => v) f g x0 z0 τ n gfirst = ADMM f g x0 z0 τ n gfirst := by
  have ha : ∀ x y : Vec ι, addR (fun v => v) x y = x + y := fun x y => rfl
  have hs : ∀ x y : Vec ι, subR (fun v => v) x y = x - y := fun x y => rfl
  have hb : ADMMR.body (fun v => v) f g τ gfirst = ADMM.body f g τ gfirst := by
    funext i s
    simp only [ADMMR.body, ADMM.body, ha, hs]
  simp only [ADMMR, ADMM, hb]

/-- One iteration of the rounded ADMM ends with the results of the two operators. -/
theorem admmR_body_post (f g : ProxOp (Vec ι)) (τ : ℝ) (gfirst : Bool) (P Q : Vec ι → Prop)
    (hP : ∀ v y, f.prox v τ = .ok y → P y) (hQ : ∀ v y, g.prox v τ = .ok y → Q y) (i : ℕ) (s s' : SplitState (Vec ι)) (b : Bool)
    (h : ADMMR.body rnd f g τ gfirst i s = .ok (s', b)) : P s'.x ∧ Q s'.z ∧ b = false := by
  unfold ADMMR.body at h
  cases gfirst
  · simp only [Bool.false_eq_true, if_false] at h
    cases h1 : f.prox (subR rnd s.z s.u) τ with
    | error e => simp [h1, Bind.bind, Except.bind] at h
    | ok x =>
      cases h2 : g.prox (addR rnd x s.u) τ with
      | error e => simp [h1, h2, Bind.bind, Except.bind] at h
      | ok z =>
        simp [h1, h2, Bind.bind, Except.bind, Pure.pure, Except.pure] at h
        obtain ⟨rfl, rfl⟩ := h
        exact ⟨hP _ _ h1, hQ _ _ h2, rfl⟩
  · simp only [if_true] at h
    cases h1 : g.prox (addR rnd s.x s.u) τ with
    | error e => simp [h1, Bind.bind, Except.bind] at h
    | ok z =>
      cases h2 : f.prox (subR rnd z s.u) τ with
      | error e => simp [h1, h2, Bind.bind, Except.bind] at h
      | ok x =>
        simp [h1, h2, Bind.bind, Except.bind, Pure.pure, Except.pure] at h
        obtain ⟨rfl, rfl⟩ := h
        exact ⟨hP _ _ h2, hQ _ _ h1, rfl⟩

/-- **C114** Whatever every result of the two operators satisfies exactly (being in a box, being numbers of the format)
holds for the two vectors a rounded ADMM returns, if it made at least one iteration. -/
theorem C114_admm_constraints (f g : ProxOp (Vec ι)) (x0 z0 : Option (Vec ι)) (τ : ℝ) (gfirst : Bool) (P Q : Vec ι → Prop)
    (hP : ∀ v y, f.prox v τ = .ok y → P y) (hQ : ∀ v y, g.prox v τ = .ok y → Q y) (n : ℕ) (s : SplitState (Vec ι))
    (h : ADMMR rnd f g x0 z0 τ (n + 1) gfirst = .ok s) : P s.x ∧ Q s.z := by
  have key : ∀ (n i : ℕ) (s0 s : SplitState (Vec ι)), (n ≠ 0 ∨ (P s0.x ∧ Q s0.z)) →
      forRange (ADMMR.body rnd f g τ gfirst) n i s0 = .ok s → P s.x ∧ Q s.z := by
    intro n
    induction n with
    | zero =>
      intro i s0 s h0 h
      simp only [forRange] at h
      obtain rfl : s0 = s := by simpa using h
      simpa using h0
    | succ n ih =>
      intro i s0 s _ h
      simp only [forRange] at h
      cases hb : ADMMR.body rnd f g τ gfirst i s0 with
      | error e => simp [hb] at h
      | ok r =>
        obtain ⟨s', b⟩ := r
        obtain ⟨hp, hq, rfl⟩ := admmR_body_post f g τ gfirst P Q hP hQ i s0 s' b hb
        simp only [hb, Bool.false_eq_true, if_false] at h
        exact ih (i + 1) s' s (.inr ⟨hp, hq⟩) h
  unfold ADMMR at h
  cases hi : x0z0Init x0 z0 with
  | error e => simp [hi, Bind.bind, Except.bind] at h
  | ok xz =>
    simp only [hi, Bind.bind, Except.bind] at h
    exact key (n + 1) 0 _ s (.inl (Nat.succ_ne_zero n)) h

/-- **C114** A rounded ADMM with `Box` and `L1` returns a point of the box, exactly, and numbers of the format. -/
theorem C114_admm_box_l1 (hr : Rounding rnd u) (val : Vec ι → Py CallVal) {σ τ : ℝ} (hτ : 0 < τ) (lower upper : ι → ℝ)
    (hle : ∀ i, lower i ≤ upper i) (x0 z0 : Option (Vec ι)) (gfirst : Bool) (n : ℕ) (s : SplitState (Vec ι))
    (h : ADMMR rnd (Box (fun i => some (lower i)) fun i => some (upper i)) (L1R rnd val σ none) x0 z0 τ (n + 1) gfirst = .ok s) :
    (∀ i, lower i ≤ s.x i ∧ s.x i ≤ upper i) ∧ ∀ i, IsFloat rnd (s.z i) := by
  refine C114_admm_constraints _ _ x0 z0 τ gfirst (fun y => ∀ i, lower i ≤ y i ∧ y i ≤ upper i) (fun y => ∀ i, IsFloat rnd (y i))
    ?_ ?_ n s h
  · intro v y hv i
    have e : (Box (fun i => some (lower i)) fun i => some (upper i)).prox v τ =
        .ok (boxProj (fun i => some (lower i)) (fun i => some (upper i)) v) := by
      simp [ProxOp.prox, Box, checkTau, not_le.mpr hτ]
    rw [e] at hv
    obtain rfl : boxProj (fun i => some (lower i)) (fun i => some (upper i)) v = y := by simpa using hv
    have hd : boxClip (some (lower i)) (some (upper i)) (v i) = min (max (v i) (lower i)) (upper i) := rfl
    simp only [boxProj, hd]
    exact ⟨le_min (le_max_right _ _) (hle i), min_le_right _ _⟩
  · intro v y hv i
    rw [L1R_prox_none val σ v hτ] at hv
    obtain rfl : (vmk fun i => softR rnd (v i) (rnd (τ * σ)) : Vec ι) = y := by simpa using hv
    exact softR_float hr _ _

/-! ## How far rounding drives ADMM away -/

section drift

open scoped RealInnerProductSpace

theorem drStep_nonexp {E : Type} [NormedAddCommGroup E] [InnerProductSpace ℝ E] {P Q : E → E} (hP : Firm P) (hQ : Firm Q) (x y : E) :
    ‖drStep Q P 1 x - drStep Q P 1 y‖ ≤ ‖x - y‖ := by
  have h1 := hQ.reflect x y
  have h2 := hP.reflect ((2 : ℝ) • Q x - x) ((2 : ℝ) • Q y - y)
  have e : drStep Q P 1 x - drStep Q P 1 y = (1 / 2 : ℝ) • (x - y) + (1 / 2 : ℝ) •
      (((2 : ℝ) • P ((2 : ℝ) • Q x - x) - ((2 : ℝ) • Q x - x)) - ((2 : ℝ) • P ((2 : ℝ) • Q y - y) - ((2 : ℝ) • Q y - y))) := by
    unfold drStep
    module
  rw [e]
  refine (norm_add_le _ _).trans ?_
  rw [norm_smul, norm_smul, Real.norm_eq_abs, abs_of_pos (by norm_num : (0 : ℝ) < 1 / 2)]
  linarith

/-- Errors of a non-expansive iteration add up. -/
theorem drift_add {E : Type} [NormedAddCommGroup E] {T : E → E} (hT : ∀ x y, ‖T x - T y‖ ≤ ‖x - y‖) {b w : ℕ → E} {ε : ℝ}
    (hw : ∀ k, w (k + 1) = T (w k)) (n : ℕ) (hb : ∀ k, k < n → ‖b (k + 1) - T (b k)‖ ≤ ε) :
    ‖b n - w n‖ ≤ ‖b 0 - w 0‖ + n * ε := by
  induction n with
  | zero => simp
  | succ n ih =>
    have h1 := ih fun k hk => hb k (hk.trans (Nat.lt_succ_self n))
    have h2 := hb n (Nat.lt_succ_self n)
    have h3 := hT (b n) (w n)
    have h4 := norm_sub_le_norm_sub_add_norm_sub (b (n + 1)) (T (b n)) (w (n + 1))
    rw [hw n] at h4 ⊢
    push_cast
    linarith

/-- The trajectory of the rounded ADMM, `gfirst=False`. -/
theorem admmR_traj {fR gR : ProxOp (Vec ι)} {τ : ℝ} {Pf Pg : Vec ι → Vec ι} (hf : ∀ x, fR.prox x τ = .ok (Pf x))
    (hg : ∀ x, gR.prox x τ = .ok (Pg x)) (x0 z0 : Option (Vec ι)) (x z : Vec ι) (hinit : x0z0Init x0 z0 = .ok (x, z)) :
    ∃ S : ℕ → SplitState (Vec ι), (S 0).x = x ∧ (S 0).z = z ∧ (S 0).u = 0 ∧
      (∀ n, (S (n + 1)).x = Pf (subR rnd (S n).z (S n).u) ∧ (S (n + 1)).z = Pg (addR rnd (S (n + 1)).x (S n).u) ∧
        (S (n + 1)).u = subR rnd (addR rnd (S n).u (S (n + 1)).x) (S (n + 1)).z) ∧
      ∀ n, ADMMR rnd fR gR x0 z0 τ n false = .ok (S n) := by
  let next : SplitState (Vec ι) → SplitState (Vec ι) := fun s =>
    ⟨Pf (subR rnd s.z s.u), Pg (addR rnd (Pf (subR rnd s.z s.u)) s.u),
      subR rnd (addR rnd s.u (Pf (subR rnd s.z s.u))) (Pg (addR rnd (Pf (subR rnd s.z s.u)) s.u)),
      s.log ++ [(Pf (subR rnd s.z s.u), Pg (addR rnd (Pf (subR rnd s.z s.u)) s.u))]⟩
  have hbody : ∀ i s, ADMMR.body rnd fR gR τ false i s = .ok (next s, false) := by
    intro i s
    simp [ADMMR.body, hf, hg, next, Bind.bind, Except.bind, Pure.pure, Except.pure]
  obtain ⟨S, h0, -, h2, h3⟩ := forRange_traj_nobreak (ADMMR.body rnd fR gR τ false) (fun _ => True) (fun _ s s' => s' = next s)
    (fun i s _ => ⟨_, hbody i s, trivial, rfl⟩) ⟨x, z, 0, []⟩ trivial
  refine ⟨S, by rw [h0], by rw [h0], by rw [h0], fun n => ?_, fun n => ?_⟩
  · rw [h2 n]; exact ⟨rfl, rfl, rfl⟩
  · simp only [ADMMR, hinit, Bind.bind, Except.bind]; exact h3 n

/-- **C114** In a rounded ADMM (`gfirst=False`) the error grows at most linearly with the iterations.  The exact run uses
operators of convex functions; the rounded run uses operators that are within `δ` of them on the points of norm at most
`4 R` and stays within norm `R`.  Then after `n` iterations both returned vectors are within `n (4 δ + 20 u R)` of the
exact ones, and the multiplier is within twice that. -/
theorem C114_admm_error (hr : Rounding rnd u) {F G : XFun (Vec ι)} (hF : F.Convex) (hG : G.Convex) {f g fR gR : ProxOp (Vec ι)}
    (hf : ProxExact f F) (hg : ProxExact g G) {τ δ R : ℝ} (hτ : 0 < τ)
    (hfR : ∀ v, ∃ y, fR.prox v τ = .ok y ∧ (‖v‖ ≤ 4 * R → ∀ p, f.prox v τ = .ok p → ‖y - p‖ ≤ δ))
    (hgR : ∀ v, ∃ y, gR.prox v τ = .ok y ∧ (‖v‖ ≤ 4 * R → ∀ p, g.prox v τ = .ok p → ‖y - p‖ ≤ δ))
    (x0 z0 : Option (Vec ι)) (hinit : ∃ xz, x0z0Init x0 z0 = .ok xz) (n : ℕ)
    (hR : ∀ k, k ≤ n → ∀ s, ADMMR rnd fR gR x0 z0 τ k false = .ok s → ‖s.x‖ ≤ R ∧ ‖s.z‖ ≤ R ∧ ‖s.u‖ ≤ R) :
    ∃ s e, ADMMR rnd fR gR x0 z0 τ n false = .ok s ∧ ADMM f g x0 z0 τ n false = .ok e ∧
      ‖s.x - e.x‖ ≤ n * (4 * δ + 20 * u * R) ∧ ‖s.z - e.z‖ ≤ n * (4 * δ + 20 * u * R) ∧
      ‖s.u - e.u‖ ≤ 2 * n * (4 * δ + 20 * u * R) := by
  obtain ⟨⟨x, z⟩, hinit⟩ := hinit
  obtain ⟨P, hP, hP'⟩ := proxExact_map hf hτ
  obtain ⟨Q, hQ, hQ'⟩ := proxExact_map hg hτ
  have fP := firm_prox hF hτ hP'
  have fQ := firm_prox hG hτ hQ'
  choose Pr hPr hPr' using hfR
  choose Qr hQr hQr' using hgR
  have hPe : ∀ v, ‖v‖ ≤ 4 * R → ‖Pr v - P v‖ ≤ δ := fun v hv => hPr' v hv _ (hP v)
  have hQe : ∀ v, ‖v‖ ≤ 4 * R → ‖Qr v - Q v‖ ≤ δ := fun v hv => hQr' v hv _ (hQ v)
  obtain ⟨S, s1, s2, s3, hS, hSn⟩ := admmR_traj (rnd := rnd) hPr hQr x0 z0 x z hinit
  obtain ⟨T, t1, t2, t3, tu, -, tx, -, hTn⟩ := admm_traj hP hQ false x0 z0 x z hinit
  replace tx := tx rfl
  have hu := hr.nonneg_u
  have hul := hr.lt
  refine ⟨S n, T n, hSn n, hTn n, ?_⟩
  have hB : ∀ k, k ≤ n → ‖(S k).x‖ ≤ R ∧ ‖(S k).z‖ ≤ R ∧ ‖(S k).u‖ ≤ R := fun k hk => hR k hk _ (hSn k)
  have hR0 : 0 ≤ R := (norm_nonneg _).trans (hB 0 (Nat.zero_le n)).1
  have hδ : 0 ≤ δ := (norm_nonneg _).trans (hPe 0 (by simpa using hR0))
  have huR : 0 ≤ u * R := mul_nonneg hu hR0
  -- the rounded sums and differences
  have hadd : ∀ a b : Vec ι, ‖addR rnd a b - (a + b)‖ ≤ u * ‖a + b‖ := fun a b => norm_rnd_sub hr (a + b)
  have hsub : ∀ a b : Vec ι, ‖subR rnd a b - (a - b)‖ ≤ u * ‖a - b‖ := fun a b => norm_rnd_sub hr (a - b)
  have hcomm : ∀ a b : Vec ι, addR rnd a b = addR rnd b a := fun a b => by
    ext i; simp [addR, add_comm]
  -- the points the operators are applied to
  set a : ℕ → Vec ι := fun k => subR rnd (S k).z (S k).u with ha
  set b : ℕ → Vec ι := fun k => addR rnd (S (k + 1)).x (S k).u with hb
  set w : ℕ → Vec ι := fun k => (T (k + 1)).x + (T k).u with hw
  have a1 : ∀ k, k ≤ n → ‖a k - ((S k).z - (S k).u)‖ ≤ u * (2 * R) := fun k hk => by
    obtain ⟨-, h2, h3⟩ := hB k hk
    exact (hsub _ _).trans (mul_le_mul_of_nonneg_left ((norm_sub_le _ _).trans (by linarith)) hu)
  have a2 : ∀ k, k ≤ n → ‖a k‖ ≤ 4 * R := fun k hk => by
    obtain ⟨-, h2, h3⟩ := hB k hk
    have h4 := a1 k hk
    have h5 := norm_sub_norm_le (a k) ((S k).z - (S k).u)
    have h6 := norm_sub_le (S k).z (S k).u
    nlinarith
  have b1 : ∀ k, k < n → ‖b k - ((S (k + 1)).x + (S k).u)‖ ≤ u * (2 * R) := fun k hk => by
    obtain ⟨-, -, h3⟩ := hB k hk.le
    obtain ⟨h1, -, -⟩ := hB (k + 1) hk
    exact (hadd _ _).trans (mul_le_mul_of_nonneg_left ((norm_add_le _ _).trans (by linarith)) hu)
  have b2 : ∀ k, k < n → ‖b k‖ ≤ 4 * R := fun k hk => by
    obtain ⟨-, -, h3⟩ := hB k hk.le
    obtain ⟨h1, -, -⟩ := hB (k + 1) hk
    have h4 := b1 k hk
    have h5 := norm_sub_norm_le (b k) ((S (k + 1)).x + (S k).u)
    have h6 := norm_add_le (S (k + 1)).x (S k).u
    nlinarith
  have zb : ∀ k, k < n → ‖(S (k + 1)).z - Q (b k)‖ ≤ δ := fun k hk => by
    rw [(hS k).2.1]; exact hQe _ (b2 k hk)
  have ub : ∀ k, k < n → ‖(S (k + 1)).u - (b k - (S (k + 1)).z)‖ ≤ u * (5 * R) := fun k hk => by
    rw [(hS k).2.2, hcomm]
    obtain ⟨-, h2, -⟩ := hB (k + 1) hk
    exact (hsub _ _).trans (mul_le_mul_of_nonneg_left ((norm_sub_le _ _).trans (by have := b2 k hk; linarith)) hu)
  have xa : ∀ k, k ≤ n → ‖(S (k + 1)).x - P (a k)‖ ≤ δ := fun k hk => by
    rw [(hS k).1]; exact hPe _ (a2 k hk)
  -- the reflected point
  have ar : ∀ k, k < n → ‖a (k + 1) - ((2 : ℝ) • Q (b k) - b k)‖ ≤ 2 * δ + 7 * (u * R) := fun k hk => by
    have e : a (k + 1) - ((2 : ℝ) • Q (b k) - b k) = (a (k + 1) - ((S (k + 1)).z - (S (k + 1)).u)) +
        ((2 : ℝ) • ((S (k + 1)).z - Q (b k)) - ((S (k + 1)).u - (b k - (S (k + 1)).z))) := by module
    rw [e]
    have h1 := a1 (k + 1) hk
    have h2 := zb k hk
    have h3 := ub k hk
    refine (norm_add_le _ _).trans ?_
    have h4 := norm_sub_le ((2 : ℝ) • ((S (k + 1)).z - Q (b k))) ((S (k + 1)).u - (b k - (S (k + 1)).z))
    rw [norm_smul, Real.norm_eq_abs, abs_of_pos two_pos] at h4
    linarith
  have step : ∀ k, k + 1 < n → ‖b (k + 1) - drStep Q P 1 (b k)‖ ≤ 4 * δ + 20 * u * R := fun k hk => by
    have hk' : k < n := (Nat.lt_succ_self k).trans hk
    have e : b (k + 1) - drStep Q P 1 (b k) = (b (k + 1) - ((S (k + 2)).x + (S (k + 1)).u)) + ((S (k + 2)).x - P (a (k + 1))) +
        (P (a (k + 1)) - P ((2 : ℝ) • Q (b k) - b k)) + ((S (k + 1)).u - (b k - (S (k + 1)).z)) - ((S (k + 1)).z - Q (b k)) := by
      unfold drStep; module
    rw [e]
    have h1 := b1 (k + 1) hk
    have h2 := xa (k + 1) hk.le
    have h3 := (fP.nonexp (a (k + 1)) ((2 : ℝ) • Q (b k) - b k)).trans (ar k hk')
    have h4 := ub k hk'
    have h5 := zb k hk'
    refine (norm_sub_le _ _).trans ?_
    refine (add_le_add (norm_add₄_le) le_rfl).trans ?_
    linarith
  have wstep : ∀ k, w (k + 1) = drStep Q P 1 (w k) := fun k => by
    have e1 : (T (k + 1)).z = Q (w k) := (tx k).2
    have e2 : (T (k + 1)).u = w k - Q (w k) := by rw [tu k, ← e1, add_comm (T k).u]
    simp only [hw]
    rw [(tx (k + 1)).1, e2, e1]
    unfold drStep
    rw [show Q (w k) - (w k - Q (w k)) = (2 : ℝ) • Q (w k) - w k by module]
    simp only [hw]
    module
  have start : 0 < n → ‖b 0 - w 0‖ ≤ δ + 3 * (u * R) := fun hn => by
    have e1 : (T 1).x = P z := by rw [(tx 0).1, t2, t3, sub_zero]
    have e2 : ‖a 0 - z‖ ≤ u * R := by
      have := hsub (S 0).z (S 0).u
      have hz := (hB 0 (Nat.zero_le n)).2.1
      simp only [s2, s3, sub_zero] at this hz
      simp only [ha, s2, s3]
      exact this.trans (mul_le_mul_of_nonneg_left hz hu)
    have h1 := b1 0 hn
    have h2 := xa 0 (Nat.zero_le n)
    have h3 := (fP.nonexp (a 0) z).trans e2
    have e : b 0 - w 0 = (b 0 - ((S 1).x + (S 0).u)) + ((S 1).x - P (a 0)) + (P (a 0) - P z) := by
      simp only [hw]; rw [e1, s3, t3]; abel
    rw [e]
    refine (norm_add₃_le).trans ?_
    linarith
  have drift : ∀ k, k < n → ‖b k - w k‖ ≤ δ + 3 * (u * R) + k * (4 * δ + 20 * u * R) := fun k hk => by
    have h := drift_add (drStep_nonexp fP fQ) wstep k (b := b) (ε := 4 * δ + 20 * u * R)
      (fun j hj => step j (lt_of_le_of_lt (Nat.succ_le_of_lt hj) hk))
    linarith [start (lt_of_le_of_lt (Nat.zero_le k) hk)]
  rcases n with _ | n
  · simp [s1, s2, s3, t1, t2, t3]
  have hzd : ‖(S (n + 1)).z - (T (n + 1)).z‖ ≤ δ + (δ + 3 * (u * R) + n * (4 * δ + 20 * u * R)) := by
    have hn : n < n + 1 := Nat.lt_succ_self n
    have h1 := zb n hn
    have h2 := fQ.nonexp (b n) (w n)
    have h3 := drift n hn
    have e : (T (n + 1)).z = Q (w n) := (tx n).2
    have h4 := norm_sub_le_norm_sub_add_norm_sub (S (n + 1)).z (Q (b n)) (Q (w n))
    rw [e]
    linarith
  refine ⟨?_, ?_, ?_⟩
  · rcases n with _ | m
    · have e1 : (T 1).x = P z := by rw [(tx 0).1, t2, t3, sub_zero]
      have e2 : ‖a 0 - z‖ ≤ u * R := by
        have := hsub (S 0).z (S 0).u
        have hz := (hB 0 (Nat.zero_le 1)).2.1
        simp only [s2, s3, sub_zero] at this hz
        simp only [ha, s2, s3]
        exact this.trans (mul_le_mul_of_nonneg_left hz hu)
      have h2 := xa 0 (Nat.zero_le _)
      have h3 := (fP.nonexp (a 0) z).trans e2
      have h4 := norm_sub_le_norm_sub_add_norm_sub (S 1).x (P (a 0)) (P z)
      rw [e1]
      push_cast
      linarith
    · have hm : m < m + 1 + 1 := by omega
      have h2 := xa (m + 1) (by omega)
      have e1 : (T (m + 1 + 1)).x = P ((2 : ℝ) • Q (w m) - w m) := by
        have e1 : (T (m + 1)).z = Q (w m) := (tx m).2
        have e2 : (T (m + 1)).u = w m - Q (w m) := by rw [tu m, ← e1, add_comm (T m).u]
        rw [(tx (m + 1)).1, e2, e1]
        congr 1
        module
      have h3 := fP.nonexp (a (m + 1)) ((2 : ℝ) • Q (b m) - b m)
      have h4 := fP.nonexp ((2 : ℝ) • Q (b m) - b m) ((2 : ℝ) • Q (w m) - w m)
      have h5 := fQ.reflect (b m) (w m)
      have h6 := ar m hm
      have h7 := drift m hm
      have h8 : (S (m + 1 + 1)).x - P ((2 : ℝ) • Q (w m) - w m) = ((S (m + 1 + 1)).x - P (a (m + 1))) +
          (P (a (m + 1)) - P ((2 : ℝ) • Q (b m) - b m)) + (P ((2 : ℝ) • Q (b m) - b m) - P ((2 : ℝ) • Q (w m) - w m)) := by abel
      rw [e1, h8]
      refine (norm_add₃_le).trans ?_
      push_cast
      linarith
  · push_cast
    linarith
  · have h1 := ub n (Nat.lt_succ_self n)
    have h2 := drift n (Nat.lt_succ_self n)
    have e : (T (n + 1)).u = w n - (T (n + 1)).z := by rw [tu n, add_comm (T n).u]
    have e' : (S (n + 1)).u - (T (n + 1)).u = ((S (n + 1)).u - (b n - (S (n + 1)).z)) + (b n - w n) -
        ((S (n + 1)).z - (T (n + 1)).z) := by rw [e]; abel
    rw [e']
    refine (norm_sub_le _ _).trans ((add_le_add (norm_add_le _ _) hzd).trans ?_)
    push_cast
    linarith

/-- The trajectory of the rounded ADMM, `gfirst=True`. -/
theorem admmR_traj_gfirst {fR gR : ProxOp (Vec ι)} {τ : ℝ} {Pf Pg : Vec ι → Vec ι} (hf : ∀ x, fR.prox x τ = .ok (Pf x))
    (hg : ∀ x, gR.prox x τ = .ok (Pg x)) (x0 z0 : Option (Vec ι)) (x z : Vec ι) (hinit : x0z0Init x0 z0 = .ok (x, z)) :
    ∃ S : ℕ → SplitState (Vec ι), (S 0).x = x ∧ (S 0).z = z ∧ (S 0).u = 0 ∧
      (∀ n, (S (n + 1)).z = Pg (addR rnd (S n).x (S n).u) ∧ (S (n + 1)).x = Pf (subR rnd (S (n + 1)).z (S n).u) ∧
        (S (n + 1)).u = subR rnd (addR rnd (S n).u (S (n + 1)).x) (S (n + 1)).z) ∧
      ∀ n, ADMMR rnd fR gR x0 z0 τ n true = .ok (S n) := by
  let next : SplitState (Vec ι) → SplitState (Vec ι) := fun s =>
    ⟨Pf (subR rnd (Pg (addR rnd s.x s.u)) s.u), Pg (addR rnd s.x s.u),
      subR rnd (addR rnd s.u (Pf (subR rnd (Pg (addR rnd s.x s.u)) s.u))) (Pg (addR rnd s.x s.u)),
      s.log ++ [(Pf (subR rnd (Pg (addR rnd s.x s.u)) s.u), Pg (addR rnd s.x s.u))]⟩
  have hbody : ∀ i s, ADMMR.body rnd fR gR τ true i s = .ok (next s, false) := by
    intro i s
    simp [ADMMR.body, hf, hg, next, Bind.bind, Except.bind, Pure.pure, Except.pure]
  obtain ⟨S, h0, -, h2, h3⟩ := forRange_traj_nobreak (ADMMR.body rnd fR gR τ true) (fun _ => True) (fun _ s s' => s' = next s)
    (fun i s _ => ⟨_, hbody i s, trivial, rfl⟩) ⟨x, z, 0, []⟩ trivial
  refine ⟨S, by rw [h0], by rw [h0], by rw [h0], fun n => ?_, fun n => ?_⟩
  · rw [h2 n]; exact ⟨rfl, rfl, rfl⟩
  · simp only [ADMMR, hinit, Bind.bind, Except.bind]; exact h3 n

/-- **C114** The same with `gfirst=True`: the returned vectors are within `n (4 δ + 22 u R)` of the exact ones. -/
theorem C114_admm_error_gfirst (hr : Rounding rnd u) {F G : XFun (Vec ι)} (hF : F.Convex) (hG : G.Convex) {f g fR gR : ProxOp (Vec ι)}
    (hf : ProxExact f F) (hg : ProxExact g G) {τ δ R : ℝ} (hτ : 0 < τ)
    (hfR : ∀ v, ∃ y, fR.prox v τ = .ok y ∧ (‖v‖ ≤ 4 * R → ∀ p, f.prox v τ = .ok p → ‖y - p‖ ≤ δ))
    (hgR : ∀ v, ∃ y, gR.prox v τ = .ok y ∧ (‖v‖ ≤ 4 * R → ∀ p, g.prox v τ = .ok p → ‖y - p‖ ≤ δ))
    (x0 z0 : Option (Vec ι)) (hinit : ∃ xz, x0z0Init x0 z0 = .ok xz) (n : ℕ)
    (hR : ∀ k, k ≤ n → ∀ s, ADMMR rnd fR gR x0 z0 τ k true = .ok s → ‖s.x‖ ≤ R ∧ ‖s.z‖ ≤ R ∧ ‖s.u‖ ≤ R) :
    ∃ s e, ADMMR rnd fR gR x0 z0 τ n true = .ok s ∧ ADMM f g x0 z0 τ n true = .ok e ∧
      ‖s.x - e.x‖ ≤ n * (4 * δ + 22 * u * R) ∧ ‖s.z - e.z‖ ≤ n * (4 * δ + 22 * u * R) ∧
      ‖s.u - e.u‖ ≤ 2 * n * (4 * δ + 22 * u * R) := by
  obtain ⟨⟨x, z⟩, hinit⟩ := hinit
  obtain ⟨P, hP, hP'⟩ := proxExact_map hf hτ
  obtain ⟨Q, hQ, hQ'⟩ := proxExact_map hg hτ
  have fP := firm_prox hF hτ hP'
  have fQ := firm_prox hG hτ hQ'
  choose Pr hPr hPr' using hfR
  choose Qr hQr hQr' using hgR
  have hPe : ∀ v, ‖v‖ ≤ 4 * R → ‖Pr v - P v‖ ≤ δ := fun v hv => hPr' v hv _ (hP v)
  have hQe : ∀ v, ‖v‖ ≤ 4 * R → ‖Qr v - Q v‖ ≤ δ := fun v hv => hQr' v hv _ (hQ v)
  obtain ⟨S, s1, s2, s3, hS, hSn⟩ := admmR_traj_gfirst (rnd := rnd) hPr hQr x0 z0 x z hinit
  obtain ⟨T, t1, t2, t3, tu, tz, -, -, hTn⟩ := admm_traj hP hQ true x0 z0 x z hinit
  replace tz := tz rfl
  have hu := hr.nonneg_u
  have hul := hr.lt
  refine ⟨S n, T n, hSn n, hTn n, ?_⟩
  have hB : ∀ k, k ≤ n → ‖(S k).x‖ ≤ R ∧ ‖(S k).z‖ ≤ R ∧ ‖(S k).u‖ ≤ R := fun k hk => hR k hk _ (hSn k)
  have hR0 : 0 ≤ R := (norm_nonneg _).trans (hB 0 (Nat.zero_le n)).1
  have hδ : 0 ≤ δ := (norm_nonneg _).trans (hPe 0 (by simpa using hR0))
  have huR : 0 ≤ u * R := mul_nonneg hu hR0
  have hadd : ∀ a b : Vec ι, ‖addR rnd a b - (a + b)‖ ≤ u * ‖a + b‖ := fun a b => norm_rnd_sub hr (a + b)
  have hsub : ∀ a b : Vec ι, ‖subR rnd a b - (a - b)‖ ≤ u * ‖a - b‖ := fun a b => norm_rnd_sub hr (a - b)
  have hadd2 : ∀ a b : Vec ι, ‖a‖ ≤ R → ‖b‖ ≤ R → ‖addR rnd a b - (a + b)‖ ≤ u * (2 * R) ∧ ‖addR rnd a b‖ ≤ 4 * R := fun a b h1 h2 => by
    have h3 := norm_add_le a b
    have h4 := (hadd a b).trans (mul_le_mul_of_nonneg_left (show ‖a + b‖ ≤ 2 * R by linarith) hu)
    have h5 := norm_sub_norm_le (addR rnd a b) (a + b)
    exact ⟨h4, by nlinarith⟩
  have hsub2 : ∀ a b : Vec ι, ‖a‖ ≤ R → ‖b‖ ≤ R → ‖subR rnd a b - (a - b)‖ ≤ u * (2 * R) ∧ ‖subR rnd a b‖ ≤ 4 * R := fun a b h1 h2 => by
    have h3 := norm_sub_le a b
    have h4 := (hsub a b).trans (mul_le_mul_of_nonneg_left (show ‖a - b‖ ≤ 2 * R by linarith) hu)
    have h5 := norm_sub_norm_le (subR rnd a b) (a - b)
    exact ⟨h4, by nlinarith⟩
  -- the points the operators are applied to
  set c : ℕ → Vec ι := fun k => addR rnd (S k).x (S k).u with hc
  set a : ℕ → Vec ι := fun k => subR rnd (S (k + 1)).z (S k).u with ha
  set w : ℕ → Vec ι := fun k => (T (k + 1)).z - (T k).u with hw
  have c1 : ∀ k, k ≤ n → ‖c k - ((S k).x + (S k).u)‖ ≤ u * (2 * R) ∧ ‖c k‖ ≤ 4 * R := fun k hk =>
    hadd2 _ _ (hB k hk).1 (hB k hk).2.2
  have a1 : ∀ k, k < n → ‖a k - ((S (k + 1)).z - (S k).u)‖ ≤ u * (2 * R) ∧ ‖a k‖ ≤ 4 * R := fun k hk =>
    hsub2 _ _ (hB (k + 1) hk).2.1 (hB k hk.le).2.2
  have zc : ∀ k, k ≤ n → ‖(S (k + 1)).z - Q (c k)‖ ≤ δ := fun k hk => by
    rw [(hS k).1]; exact hQe _ (c1 k hk).2
  have xa : ∀ k, k < n → ‖(S (k + 1)).x - P (a k)‖ ≤ δ := fun k hk => by
    rw [(hS k).2.1]; exact hPe _ (a1 k hk).2
  have ub : ∀ k, k < n → ‖(S (k + 1)).u - ((S (k + 1)).x - a k)‖ ≤ 9 * (u * R) := fun k hk => by
    obtain ⟨h1, h2, -⟩ := hB (k + 1) hk
    obtain ⟨-, -, h3⟩ := hB k hk.le
    obtain ⟨h4, h5⟩ := hadd2 _ _ h3 h1
    have h6 := (hsub (addR rnd (S k).u (S (k + 1)).x) (S (k + 1)).z).trans
      (mul_le_mul_of_nonneg_left ((norm_sub_le _ _).trans (show _ ≤ 5 * R by linarith)) hu)
    have h7 := (a1 k hk).1
    have e : (S (k + 1)).u - ((S (k + 1)).x - a k) =
        (subR rnd (addR rnd (S k).u (S (k + 1)).x) (S (k + 1)).z - (addR rnd (S k).u (S (k + 1)).x - (S (k + 1)).z)) +
        (addR rnd (S k).u (S (k + 1)).x - ((S k).u + (S (k + 1)).x)) + (a k - ((S (k + 1)).z - (S k).u)) := by
      rw [(hS k).2.2]; abel
    rw [e]
    refine (norm_add₃_le).trans ?_
    linarith
  -- the reflected point
  have cr : ∀ k, k < n → ‖c (k + 1) - ((2 : ℝ) • P (a k) - a k)‖ ≤ 2 * δ + 11 * (u * R) := fun k hk => by
    have e : c (k + 1) - ((2 : ℝ) • P (a k) - a k) = (c (k + 1) - ((S (k + 1)).x + (S (k + 1)).u)) +
        ((S (k + 1)).u - ((S (k + 1)).x - a k)) + (2 : ℝ) • ((S (k + 1)).x - P (a k)) := by module
    rw [e]
    have h1 := (c1 (k + 1) hk).1
    have h2 := xa k hk
    have h3 := ub k hk
    refine (norm_add₃_le).trans ?_
    rw [norm_smul, Real.norm_eq_abs, abs_of_pos two_pos]
    linarith
  have step : ∀ k, k + 1 < n → ‖a (k + 1) - drStep P Q 1 (a k)‖ ≤ 4 * δ + 22 * u * R := fun k hk => by
    have hk' : k < n := (Nat.lt_succ_self k).trans hk
    have e : a (k + 1) - drStep P Q 1 (a k) = (a (k + 1) - ((S (k + 2)).z - (S (k + 1)).u)) + ((S (k + 2)).z - Q (c (k + 1))) +
        (Q (c (k + 1)) - Q ((2 : ℝ) • P (a k) - a k)) - ((S (k + 1)).u - ((S (k + 1)).x - a k)) - ((S (k + 1)).x - P (a k)) := by
      unfold drStep; module
    rw [e]
    have h1 := (a1 (k + 1) hk).1
    have h2 := zc (k + 1) hk.le
    have h3 := (fQ.nonexp (c (k + 1)) ((2 : ℝ) • P (a k) - a k)).trans (cr k hk')
    have h4 := ub k hk'
    have h5 := xa k hk'
    refine (norm_sub_le _ _).trans ?_
    refine (add_le_add ((norm_sub_le _ _).trans (add_le_add norm_add₃_le le_rfl)) le_rfl).trans ?_
    linarith
  have tP : ∀ k, (T (k + 1)).x = P (w k) := fun k => (tz k).2
  have tU : ∀ k, (T (k + 1)).u = P (w k) - w k := fun k => by
    rw [tu k, tP k]; simp only [hw]; abel
  have tQ : ∀ k, (T (k + 2)).z = Q ((2 : ℝ) • P (w k) - w k) := fun k => by
    rw [(tz (k + 1)).1, tU k, tP k]
    congr 1
    module
  have wstep : ∀ k, w (k + 1) = drStep P Q 1 (w k) := fun k => by
    have h1 := tQ k
    have h2 := tU k
    have : w (k + 1) = (T (k + 2)).z - (T (k + 1)).u := rfl
    rw [this, h1, h2]
    unfold drStep
    module
  have zstart : ‖(S 1).z - (T 1).z‖ ≤ δ + u * R := by
    have e1 : (T 1).z = Q x := by rw [(tz 0).1, t1, t3, add_zero]
    have e2 : ‖c 0 - x‖ ≤ u * R := by
      have := hadd (S 0).x (S 0).u
      have hx := (hB 0 (Nat.zero_le n)).1
      simp only [s1, s3, add_zero] at this hx
      simp only [hc, s1, s3]
      exact this.trans (mul_le_mul_of_nonneg_left hx hu)
    have h2 := zc 0 (Nat.zero_le n)
    have h3 := (fQ.nonexp (c 0) x).trans e2
    have h4 := norm_sub_le_norm_sub_add_norm_sub (S 1).z (Q (c 0)) (Q x)
    rw [e1]
    linarith
  have start : 0 < n → ‖a 0 - w 0‖ ≤ δ + 3 * (u * R) := fun hn => by
    have h1 := (a1 0 hn).1
    have e : a 0 - w 0 = (a 0 - ((S 1).z - (S 0).u)) + ((S 1).z - (T 1).z) := by
      simp only [hw]; rw [s3, t3]; abel
    rw [e]
    refine (norm_add_le _ _).trans ?_
    linarith
  have drift : ∀ k, k < n → ‖a k - w k‖ ≤ δ + 3 * (u * R) + k * (4 * δ + 22 * u * R) := fun k hk => by
    have h := drift_add (drStep_nonexp fQ fP) wstep k (b := a) (ε := 4 * δ + 22 * u * R)
      (fun j hj => step j (lt_of_le_of_lt (Nat.succ_le_of_lt hj) hk))
    linarith [start (lt_of_le_of_lt (Nat.zero_le k) hk)]
  rcases n with _ | n
  · simp [s1, s2, s3, t1, t2, t3]
  have hxd : ‖(S (n + 1)).x - (T (n + 1)).x‖ ≤ δ + (δ + 3 * (u * R) + n * (4 * δ + 22 * u * R)) := by
    have hn : n < n + 1 := Nat.lt_succ_self n
    have h1 := xa n hn
    have h2 := fP.nonexp (a n) (w n)
    have h3 := drift n hn
    have h4 := norm_sub_le_norm_sub_add_norm_sub (S (n + 1)).x (P (a n)) (P (w n))
    rw [tP n]
    linarith
  refine ⟨?_, ?_, ?_⟩
  · push_cast
    linarith
  · rcases n with _ | m
    · push_cast
      linarith
    · have hm : m < m + 1 + 1 := by omega
      have h2 := zc (m + 1) (by omega)
      have h3 := fQ.nonexp (c (m + 1)) ((2 : ℝ) • P (a m) - a m)
      have h4 := fQ.nonexp ((2 : ℝ) • P (a m) - a m) ((2 : ℝ) • P (w m) - w m)
      have h5 := fP.reflect (a m) (w m)
      have h6 := cr m hm
      have h7 := drift m hm
      have h8 : (S (m + 1 + 1)).z - Q ((2 : ℝ) • P (w m) - w m) = ((S (m + 1 + 1)).z - Q (c (m + 1))) +
          (Q (c (m + 1)) - Q ((2 : ℝ) • P (a m) - a m)) + (Q ((2 : ℝ) • P (a m) - a m) - Q ((2 : ℝ) • P (w m) - w m)) := by abel
      rw [tQ m, h8]
      refine (norm_add₃_le).trans ?_
      push_cast
      linarith
  · have h1 := ub n (Nat.lt_succ_self n)
    have h2 := drift n (Nat.lt_succ_self n)
    have e' : (S (n + 1)).u - (T (n + 1)).u = ((S (n + 1)).u - ((S (n + 1)).x - a n)) + ((S (n + 1)).x - (T (n + 1)).x) -
        (a n - w n) := by rw [tU n, tP n]; abel
    rw [e']
    refine (norm_sub_le _ _).trans ((add_le_add (norm_add_le _ _) le_rfl).trans ?_)
    push_cast
    linarith

theorem l1Sigma_convex {σ : ℝ} (hσ : 0 ≤ σ) : (XFun.ofReal fun x : Vec ι => σ * ∑ i, |x i - (0 : Vec ι) i|).Convex := by
  refine ⟨convex_univ, fun x _ y _ a b ha hb hab => ?_⟩
  simp only [XFun.ofReal, smul_eq_mul, PiLp.zero_apply, sub_zero]
  have h : ∑ i, |(a • x + b • y) i| ≤ a * ∑ i, |x i| + b * ∑ i, |y i| := by
    rw [Finset.mul_sum, Finset.mul_sum, ← Finset.sum_add_distrib]
    refine Finset.sum_le_sum fun i _ => ?_
    simp only [PiLp.add_apply, PiLp.smul_apply, smul_eq_mul]
    refine (abs_add_le _ _).trans ?_
    simp [abs_mul, abs_of_nonneg ha, abs_of_nonneg hb]
  nlinarith [mul_le_mul_of_nonneg_left h hσ]

/-- The prox of `L1` in rounded arithmetic is within `u (‖v‖ + tau sigma sqrt n)` of the exact one. -/
theorem L1R_norm_err (hr : Rounding rnd u) (val : Vec ι → Py CallVal) {σ τ : ℝ} (hσ : 0 ≤ σ) (hτ : 0 < τ) (v : Vec ι) :
    ∃ y, (L1R rnd val σ none).prox v τ = .ok y ∧ ∀ p, (L1 σ none).prox v τ = .ok p →
      ‖y - p‖ ≤ u * (‖v‖ + τ * σ * √(Fintype.card ι)) := by
  obtain ⟨y, s, hy, hs, hb⟩ := C113_l1 hr val hσ hτ v
  refine ⟨y, hy, fun p hp => ?_⟩
  obtain rfl : s = p := by rw [hs] at hp; simpa using hp
  have hu := hr.nonneg_u
  have hT : 0 ≤ τ * σ := mul_nonneg hτ.le hσ
  set a : Vec ι := vmk fun i => |v i| with ha
  set c : Vec ι := vmk fun _ => τ * σ with hc
  have h1 : ‖y - s‖ ≤ ‖u • (a + c)‖ := by
    rw [EuclideanSpace.norm_eq, EuclideanSpace.norm_eq]
    refine Real.sqrt_le_sqrt (Finset.sum_le_sum fun i _ => pow_le_pow_left₀ (norm_nonneg _) ?_ 2)
    have h2 := (hb i).2.2.2.2
    have h3 : 0 ≤ u * (|v i| + τ * σ) := mul_nonneg hu (by positivity)
    simp only [PiLp.sub_apply, PiLp.smul_apply, PiLp.add_apply, smul_eq_mul, ha, hc, Real.norm_eq_abs]
    rwa [abs_of_nonneg h3]
  have h2 : ‖a‖ = ‖v‖ := by
    rw [EuclideanSpace.norm_eq, EuclideanSpace.norm_eq]; simp [ha]
  have h3 : ‖c‖ = τ * σ * √(Fintype.card ι) := by
    rw [EuclideanSpace.norm_eq]
    simp only [hc, Real.norm_eq_abs, Finset.sum_const, Finset.card_univ, nsmul_eq_mul]
    rw [mul_comm, sq_abs, Real.sqrt_mul (sq_nonneg _), Real.sqrt_sq hT]
  refine h1.trans ?_
  rw [norm_smul, Real.norm_eq_abs, abs_of_nonneg hu]
  refine mul_le_mul_of_nonneg_left ((norm_add_le _ _).trans ?_) hu
  rw [h2, h3]

/-- **C114** ADMM with `Box` and `L1` in rounded arithmetic: while the run stays within norm `R`, the vectors returned
after `n` iterations are within `n u (38 R + 4 tau sigma sqrt d)` of the exact ones, `d` the number of entries. -/
theorem C114_admm_box_l1_error (hr : Rounding rnd u) (val : Vec ι → Py CallVal) {σ τ R : ℝ} (hσ : 0 ≤ σ) (hτ : 0 < τ)
    (lower upper : ι → ℝ) (hle : ∀ i, lower i ≤ upper i) (x0 z0 : Option (Vec ι)) (hinit : ∃ xz, x0z0Init x0 z0 = .ok xz) (n : ℕ)
    (gfirst : Bool)
    (hR : ∀ k, k ≤ n → ∀ s, ADMMR rnd (Box (fun i => some (lower i)) fun i => some (upper i)) (L1R rnd val σ none) x0 z0 τ k gfirst = .ok s →
      ‖s.x‖ ≤ R ∧ ‖s.z‖ ≤ R ∧ ‖s.u‖ ≤ R) :
    ∃ s e, ADMMR rnd (Box (fun i => some (lower i)) fun i => some (upper i)) (L1R rnd val σ none) x0 z0 τ n gfirst = .ok s ∧
      ADMM (Box (fun i => some (lower i)) fun i => some (upper i)) (L1 σ none) x0 z0 τ n gfirst = .ok e ∧
      ‖s.x - e.x‖ ≤ n * (u * (38 * R + 4 * (τ * σ * √(Fintype.card ι)))) ∧
      ‖s.z - e.z‖ ≤ n * (u * (38 * R + 4 * (τ * σ * √(Fintype.card ι)))) := by
  have hu := hr.nonneg_u
  have hR0 : 0 ≤ R := by
    obtain ⟨⟨x, z⟩, hi⟩ := hinit
    refine (norm_nonneg _).trans (hR 0 (Nat.zero_le n) ⟨x, z, 0, []⟩ ?_).1
    simp [ADMMR, hi, Bind.bind, Except.bind, forRange]
  have hT : 0 ≤ τ * σ * √(Fintype.card ι) := by positivity
  have cF := indicator_convex (boxSet_convex (fun i => some (lower i)) fun i => some (upper i))
  have cG := l1Sigma_convex (ι := ι) hσ
  have pF := box_proxExact (fun i => some (lower i)) (fun i => some (upper i)) fun i a b ha hb => by
    obtain rfl : lower i = a := by simpa using ha
    obtain rfl : upper i = b := by simpa using hb
    exact hle i
  have pG : ProxExact (L1 σ none) (XFun.ofReal fun x : Vec ι => σ * ∑ i, |x i - (0 : Vec ι) i|) := fun x τ hτ => by
    obtain ⟨p, h1, h2⟩ := C11_l1_prox σ hσ none x τ hτ
    exact ⟨p, h1, h2.1⟩
  have e : ∀ v : Vec ι, (Box (fun i => some (lower i)) fun i => some (upper i)).prox v τ =
      .ok (boxProj (fun i => some (lower i)) (fun i => some (upper i)) v) := fun v => by
    simp [ProxOp.prox, Box, checkTau, not_le.mpr hτ]
  have eF : ∀ v : Vec ι, ∃ y, (Box (fun i => some (lower i)) fun i => some (upper i)).prox v τ = .ok y ∧
      (‖v‖ ≤ 4 * R → ∀ p, (Box (fun i => some (lower i)) fun i => some (upper i)).prox v τ = .ok p →
        ‖y - p‖ ≤ u * (4 * R + τ * σ * √(Fintype.card ι))) := fun v =>
    ⟨_, e v, fun _ p hp => by
      rw [e v] at hp
      obtain rfl : boxProj (fun i => some (lower i)) (fun i => some (upper i)) v = p := by simpa using hp
      rw [sub_self, norm_zero]
      positivity⟩
  have eG : ∀ v : Vec ι, ∃ y, (L1R rnd val σ none).prox v τ = .ok y ∧
      (‖v‖ ≤ 4 * R → ∀ p, (L1 σ none).prox v τ = .ok p → ‖y - p‖ ≤ u * (4 * R + τ * σ * √(Fintype.card ι))) := fun v => by
    obtain ⟨y, hy, hb⟩ := L1R_norm_err hr val hσ hτ v
    exact ⟨y, hy, fun hv p hp => (hb p hp).trans (mul_le_mul_of_nonneg_left (by linarith) hu)⟩
  have huR : 0 ≤ n * (u * R) := by positivity
  cases gfirst with
  | false =>
    obtain ⟨s, e, h1, h2, h3, h4, -⟩ := C114_admm_error hr cF cG pF pG hτ eF eG x0 z0 hinit n hR
    exact ⟨s, e, h1, h2, by linarith, by linarith⟩
  | true =>
    obtain ⟨s, e, h1, h2, h3, h4, -⟩ := C114_admm_error_gfirst hr cF cG pF pG hτ eF eG x0 z0 hinit n hR
    exact ⟨s, e, h1, h2, by linarith, by linarith⟩

end drift

/-! ### The hypotheses are met -/

section examples

/-- A threshold of 1 is seen next to entries of size 10. -/
example : ∃ s, ProximalPoint (L1R (nearBits 52) (fun _ => .ok (.num 0)) 1 none) (vmk fun _ : Fin 2 => (10 : ℝ)) 1 20 none = .ok s ∧
    s.x = 0 := by
  have h := nearBits_rounding 52 (by norm_num)
  refine C114_proximal_point_l1_reaches_zero_partial h _ (M := 10) zero_le_one one_pos _ (fun i => by simp) ?_ 20 ?_ <;>
    · rw [mul_one, h.one]
      norm_num

/-- A threshold of `2^-60` is not seen next to 1: the run on `L1` never moves. -/
example : ∃ s, ProximalPoint (L1R (nearBits 52) (fun _ => .ok (.num 0)) 1 none) (vmk fun _ : Fin 2 => (1 : ℝ)) ((2 : ℝ) ^ (-60 : ℤ)) 1000
    none = .ok s ∧ s.x = vmk fun _ : Fin 2 => (1 : ℝ) := by
  refine C114_proximal_point_l1_stalls_refuted _ (by positivity) (vmk fun _ : Fin 2 => (1 : ℝ)) (fun i => ?_) 1000
  simp only [mul_one, nearBits_zpow, abs_one]
  exact nearBits_absorb_sub 52 (by positivity) (by norm_num)

/-- A step of `2^-60` is not seen next to 1: the run on `L2` never moves. -/
example : ∃ s, ProximalPoint (L2R (nearBits 52) (fun _ => .ok (.num 0)) 1 none) (vmk fun _ : Fin 2 => (1 : ℝ)) ((2 : ℝ) ^ (-60 : ℤ)) 1000
    none = .ok s ∧ s.x = vmk fun _ : Fin 2 => (1 : ℝ) := by
  have h := nearBits_rounding 52 (by norm_num)
  refine C114_proximal_point_l2_stalls_refuted _ (by positivity) (vmk fun _ : Fin 2 => (1 : ℝ)) (fun i => h.one) ?_ 1000
  rw [mul_one, nearBits_zpow]
  exact nearBits_absorb 52 (by positivity) (by norm_num)

/-- A rounded ADMM with a box and `L1` returns. -/
example : ∃ s, ADMMR (nearBits 52) (Box (fun _ : Fin 2 => some 0) fun _ => some 1) (L1R (nearBits 52) (fun _ => .ok (.num 0)) 1 none)
    (some (vmk fun _ : Fin 2 => (3 : ℝ))) none 1 2 false = .ok s := by
  simp [ADMMR, x0z0Init, forRange, ADMMR.body, ProxOp.prox, Box, L1R, checkTau, Bind.bind, Except.bind, Pure.pure, Except.pure,
    show ¬ (1 : ℝ) ≤ 0 by norm_num]

/-- Every run of finitely many iterations stays within some norm, so the bound on the drift applies: double precision,
five iterations. -/
example : ∃ R s e, ADMMR (nearBits 52) (Box (fun _ : Fin 2 => some 0) fun _ => some 1) (L1R (nearBits 52) (fun _ => .ok (.num 0)) 1 none)
      (some (vmk fun _ : Fin 2 => (3 : ℝ))) none 1 5 false = .ok s ∧
    ADMM (Box (fun _ : Fin 2 => some 0) fun _ => some 1) (L1 1 none) (some (vmk fun _ : Fin 2 => (3 : ℝ))) none 1 5 false = .ok e ∧
    ‖s.z - e.z‖ ≤ 5 * (1 / 2 * ((2 : ℝ) ^ 52)⁻¹ * (38 * R + 4 * (1 * 1 * √(Fintype.card (Fin 2))))) := by
  have hr := nearBits_rounding 52 (by norm_num)
  obtain ⟨S, -, -, -, -, hS⟩ := admmR_traj (rnd := nearBits 52) (τ := 1) (fR := Box (fun _ : Fin 2 => some 0) fun _ => some 1)
    (gR := L1R (nearBits 52) (fun _ => .ok (.num 0)) 1 none) (Pf := boxProj (fun _ => some 0) (fun _ => some 1))
    (Pg := fun x => vmk fun i => softR (nearBits 52) (x i) (nearBits 52 (1 * 1)))
    (fun x => by simp [ProxOp.prox, Box, checkTau, show ¬ (1 : ℝ) ≤ 0 by norm_num])
    (fun x => L1R_prox_none _ 1 x one_pos)
    (some (vmk fun _ : Fin 2 => (3 : ℝ))) none _ _ rfl
  set R : ℝ := ∑ k ∈ Finset.range 6, (‖(S k).x‖ + ‖(S k).z‖ + ‖(S k).u‖) with hR
  obtain ⟨s, e, h1, h2, -, h4⟩ := C114_admm_box_l1_error hr (fun _ => .ok (.num 0)) (R := R) zero_le_one one_pos (fun _ : Fin 2 => 0) (fun _ => 1)
    (fun _ => zero_le_one) (some (vmk fun _ : Fin 2 => (3 : ℝ))) none ⟨_, rfl⟩ 5 false (fun k hk s hs => by
      rw [hS k] at hs
      obtain rfl : S k = s := by simpa using hs
      have := Finset.single_le_sum (f := fun k => ‖(S k).x‖ + ‖(S k).z‖ + ‖(S k).u‖) (fun k _ => by positivity)
        (Finset.mem_range.mpr (Nat.lt_succ_of_le hk))
      refine ⟨?_, ?_, ?_⟩ <;> refine le_trans ?_ this <;>
        linarith [norm_nonneg (S k).x, norm_nonneg (S k).z, norm_nonneg (S k).u])
  exact ⟨R, s, e, h1, h2, by exact_mod_cast h4⟩

end examples

end Verif
