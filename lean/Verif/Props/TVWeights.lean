import Verif.Props.TV

/-! # C88: small weights in `TV`

The weights `wx`, `wy`, ... only enter through the step `1 / (4 ndim gamma mt²)` of the inner iteration (TV.py:164-183, 318-344).  A small weight makes that step too long. -/

open scoped RealInnerProductSpace

namespace Verif

/-- Two pixels on a line. -/
abbrev Line2 := Pixel fun _ : Unit => 2

lemma line2_sum (f : Line2 → ℝ) : ∑ p, f p = f (fun _ => 0) + f (fun _ => 1) := by
  rw [Fintype.sum_equiv (Equiv.funUnique Unit (Fin 2)) f (fun k => f fun _ => k) fun p => by
    congr 1]
  exact Fin.sum_univ_two _

lemma line2_grad (x : Vec Line2) : tvGrad x ((), fun _ => 0) = x (fun _ => 1) - x (fun _ => 0) ∧ tvGrad x ((), fun _ => 1) = 0 := by
  have h : ∀ k l : Fin 2, Function.update (fun _ : Unit => k) () l = fun _ => l := fun k l => by funext b; simp
  refine ⟨?_, ?_⟩
  · simp [tvGrad, fwdDiff, h]
  · simp [tvGrad, fwdDiff]

lemma line2_tv (x : Vec Line2) : totalVariation x = |x (fun _ => 1) - x (fun _ => 0)| := by
  obtain ⟨h0, h1⟩ := line2_grad x
  rw [tv_eq, line2_sum]
  simp [h0, h1, Real.sqrt_sq_eq_abs]

lemma line2_div (r : Vec (Unit × Line2)) : (tvDivMap _ r) (fun _ => 0) = r ((), fun _ => 0) ∧ (tvDivMap _ r) (fun _ => 1) = - r ((), fun _ => 0) := by
  have h : ∀ k l : Fin 2, Function.update (fun _ : Unit => k) () l = fun _ => l := fun k l => by funext b; simp
  refine ⟨?_, ?_⟩
  · simp [tvDivMap, tvDivAxis]
  · simp [tvDivMap, tvDivAxis, h]

lemma line2_clip (r : Vec (Unit × Line2)) (p : Line2) : tvClip r ((), p) = r ((), p) / max 1 |r ((), p)| := by
  simp [tvClip, Real.sqrt_sq_eq_abs]

/-- A signal with two samples. -/
noncomputable def line2 (a b : ℝ) : Vec Line2 := vmk fun p => ![a, b] (p ())

lemma clip_pos {v : ℝ} (h : 1 ≤ v) : v / max 1 |v| = 1 := by
  rw [abs_of_nonneg (by linarith), max_eq_right h]
  exact div_self (by linarith)

lemma clip_neg {v : ℝ} (h : v ≤ -1) : v / max 1 |v| = -1 := by
  rw [abs_of_nonpos (by linarith), max_eq_right (by linarith), div_neg, div_self (by linarith)]

/-- C88: with a weight `wx` of at most `1/√8` there is, for every `sigma` and `tau`, a signal with two samples for which no number of iterations gives a point near the proximal point:
the result jumps between points on either side of it. -/
theorem C88_small_weight_refuted {σ τ w : ℝ} (hσ : 0 < σ) (hτ : 0 < τ) (hw0 : w ≠ 0) (hw : w ^ 2 ≤ 1 / 8) :
    ∃ x u : Vec Line2, IsUniqueProx (XFun.ofReal fun y => σ * totalVariation y) τ x u ∧
      ∀ niter : ℤ, 1 ≤ niter → ∃ z, (TV σ 0 (fun _ => some w) niter).prox x τ = .ok z ∧ σ * τ / 2 ≤ ‖z - u‖ := by
  have hγ : 0 < σ * τ := mul_pos hσ hτ
  set γ := σ * τ with hγd
  have hn : ∀ _ : Unit, 2 ≤ 2 := fun _ => le_rfl
  let x := line2 0 γ
  let u := line2 (γ / 2) (γ / 2)
  refine ⟨x, u, ?_, fun niter hniter => ?_⟩
  · apply isUniqueProx_of_subgrad hτ
    refine ⟨trivial, fun y _ => ?_⟩
    simp only [XFun.ofReal]
    rw [line2_tv, line2_tv, vec_inner, line2_sum]
    simp [x, u, line2]
    have e1 := mul_le_mul_of_nonneg_left (le_abs_self (y (fun _ => 1) - y (fun _ => 0))) hγ.le
    have e2 := mul_nonneg hγ.le (abs_nonneg (y (fun _ => 1) - y (fun _ => 0)))
    field_simp
    rw [show τ * 2 ^ 2 * σ = 4 * γ by rw [hγd]; ring]
    linarith
  · have hmt : tvMt (fun _ : Unit => some w) = w := by simp [tvMt]
    rw [tv_prox_eq σ 0 _ niter x hτ (by simp) (by simp), hmt]
    obtain ⟨T, hT0, hT, hstep⟩ := tv_run (σ := σ) hn (by simp : 0 < Fintype.card Unit) x hγ.ne' hw0
    obtain ⟨m, hm⟩ : ∃ m : ℕ, (niter + 1).toNat = m + 1 + 1 := ⟨(niter - 1).toNat, by omega⟩
    refine ⟨(T (m + 1 + 1)).sol, ?_, ?_⟩
    · rw [hm, hT]; rfl
    set κ : ℝ := 1 / (4 * w ^ 2) with hκ
    have hw2 : 0 < w ^ 2 := by positivity
    have hκ2 : 2 ≤ κ := by rw [hκ, le_div_iff₀ (by positivity)]; linarith
    have hold : ∀ k, (T (k + 1)).old ((), fun _ => 0) = (-(2 * κ - 1) * (T k).r ((), fun _ => 0) - κ) / max 1 |-(2 * κ - 1) * (T k).r ((), fun _ => 0) - κ| := fun k => by
      have e : ((T k).r - (1 / (4 * (Fintype.card Unit : ℝ) * γ * w ^ 2)) • tvGradMap (fun _ : Unit => 2) (tvPrimal x γ (T k).r)) ((), fun _ => 0)
          = -(2 * κ - 1) * (T k).r ((), fun _ => 0) - κ := by
        change (T k).r ((), fun _ => 0) - (1 / (4 * (Fintype.card Unit : ℝ) * γ * w ^ 2)) * tvGrad (tvPrimal x γ (T k).r) ((), fun _ => 0) = _
        obtain ⟨d0, d1⟩ := line2_div (T k).r
        rw [(line2_grad _).1]
        simp only [tvPrimal, PiLp.sub_apply, PiLp.smul_apply, d0, d1, x, line2, vmk, smul_eq_mul, Fintype.card_unit, Nat.cast_one, Matrix.cons_val_zero, Matrix.cons_val_one]
        rw [hκ]
        field_simp
        ring
      rw [(hstep k).2.1, line2_clip, e]
    have hmom : ∀ k, (T (k + 1)).r ((), fun _ => 0) = (T (k + 1)).old ((), fun _ => 0) +
        ((k : ℝ) / 2 / (1 + ((k + 1 : ℕ) : ℝ) / 2)) * ((T (k + 1)).old ((), fun _ => 0) - (T k).old ((), fun _ => 0)) := fun k => by
      have h := (hstep k).2.2.2
      rw [(hstep k).2.2.1, (hstep (k + 1)).2.2.1, show 1 + (k : ℝ) / 2 - 1 = (k : ℝ) / 2 by ring] at h
      rw [h]
      rfl
    have inv : ∀ k, (T (k + 1)).old ((), fun _ => 0) = 1 ∧ 1 ≤ (T (k + 1)).r ((), fun _ => 0) ∨ (T (k + 1)).old ((), fun _ => 0) = -1 ∧ (T (k + 1)).r ((), fun _ => 0) ≤ -1 := by
      intro k
      induction k with
      | zero =>
        have h := hold 0
        rw [hT0] at h
        simp only [PiLp.zero_apply, mul_zero, zero_sub] at h
        rw [clip_neg (by linarith)] at h
        have h' := hmom 0
        rw [h] at h'
        simp only [Nat.cast_zero, zero_div, zero_mul, add_zero] at h'
        exact .inr ⟨h, h'.le⟩
      | succ k ih =>
        have hω : 0 ≤ ((k + 1 : ℕ) : ℝ) / 2 / (1 + ((k + 1 + 1 : ℕ) : ℝ) / 2) := by positivity
        have h' := hmom (k + 1)
        rcases ih with ⟨h1, h2⟩ | ⟨h1, h2⟩
        · have h := hold (k + 1)
          rw [clip_neg (by nlinarith)] at h
          rw [h, h1] at h'
          exact .inr ⟨h, by rw [h']; nlinarith⟩
        · have h := hold (k + 1)
          rw [clip_pos (by nlinarith)] at h
          rw [h, h1] at h'
          exact .inl ⟨h, by rw [h']; nlinarith⟩
    rw [(hstep (m + 1)).1]
    obtain ⟨d0, d1⟩ := line2_div (T (m + 1)).r
    have e : ‖tvPrimal x γ (T (m + 1)).r - u‖ ^ 2 = 2 * γ ^ 2 * ((T (m + 1)).r ((), fun _ => 0) + 1 / 2) ^ 2 := by
      rw [vec_norm_sq, line2_sum]
      simp only [tvPrimal, PiLp.sub_apply, PiLp.smul_apply, d0, d1, x, u, line2, vmk, smul_eq_mul, Matrix.cons_val_zero, Matrix.cons_val_one]
      ring
    refine (pow_le_pow_iff_left₀ (by positivity) (by positivity) two_ne_zero).1 ?_
    rw [e]
    have h1 : (1 : ℝ) / 4 ≤ ((T (m + 1)).r ((), fun _ => 0) + 1 / 2) ^ 2 := by
      rcases inv m with ⟨-, h⟩ | ⟨-, h⟩ <;> nlinarith
    nlinarith [sq_nonneg γ]

end Verif
