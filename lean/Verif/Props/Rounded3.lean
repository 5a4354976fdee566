import Verif.Props.Rounded
import Verif.Model.L2
import Verif.Model.Projection

/-!
# C113: the rounded operators without rounding, and `L2` with data

With an exact `rnd` the operators of `Model/Rounded` are those of the exact model, so that the two models describe the
same code.
-/

namespace Verif

variable {ι : Type} [Fintype ι] {rnd : ℝ → ℝ} {u : ℝ}

/-- **C113** With an exact `rnd` and the exact norm, the rounded operators return what the exact ones return. -/
theorem C113_exact (val : Vec ι → Py CallVal) (σ α r τ : ℝ) (g : Option (Vec ι)) (c x : Vec ι) :
    (L1R (fun v => v) val σ g).prox x τ = (L1 σ g).prox x τ ∧
    (L1R (fun v => v) val σ g).proxdual x τ = (L1 σ g).proxdual x τ ∧
    (L0R (fun v => v) val σ).prox x τ = (L0 σ).prox x τ ∧
    (EuclideanR (fun v => v) (fun v => ‖v‖) val σ).prox x τ = (Euclidean (E := Vec ι) σ).prox x τ ∧
    (EuclideanBallR (fun v => v) (fun v => ‖v‖) c r).prox x τ = (EuclideanBall c r).prox x τ ∧
    (EuclideanBallR (fun v => v) (fun v => ‖v‖) c r).call x = (EuclideanBall c r).call x ∧
    (HuberR (fun v => v) val α).prox x τ = (Huber α).prox x τ := by
  refine ⟨?_, ?_, ?_, ?_, ?_, ?_, ?_⟩
  · cases g <;> rfl
  · cases g with
    | none => rfl
    | some g =>
      simp only [ProxOp.proxdual, L1R, L1, ProxOp.moreauStep, checkTau, Bind.bind, Except.bind, Pure.pure, Except.pure]
      by_cases h : τ ≤ 0
      · simp [h]
      · by_cases h' : 1 / τ ≤ 0
        · exact absurd h' (not_le.mpr (one_div_pos.mpr (not_le.mp h)))
        · simp only [h, h', if_false]
          congr 1
          ext i
          simp [softthreshold, softR_id, div_eq_inv_mul, mul_add]
  · rfl
  · rfl
  · rfl
  · rfl
  · rfl

/-- **C113** The same for `L2` without operator: the rounded operator without rounding is the code's `prox`. -/
theorem C113_l2_exact {F C : Type} [NormedAddCommGroup F] [InnerProductSpace ℝ F] (ext : L2Ext (Vec ι) F C) (a : L2Args (Vec ι) F)
    (s : L2State (Vec ι) C) (val : Vec ι → Py CallVal) (hσ : 0 ≤ a.σ) (hq : a.q = none) (x b : Vec ι) (τ : ℝ) :
    (a.data = .nothing → (L2R (fun v => v) val a.σ none).prox x τ = (L2.prox ext a s x τ).2.1) ∧
    (a.data = .bOnly b → (L2R (fun v => v) val a.σ (some b)).prox x τ = (L2.prox ext a s x τ).2.1) := by
  by_cases h : τ ≤ 0
  · simp [ProxOp.prox, L2R, L2.prox, checkTau, h]
  · have hT : 0 ≤ τ * a.σ := mul_nonneg (not_le.mp h).le hσ
    have hD : 1 + τ * a.σ ≠ 0 := by linarith
    constructor <;> intro hd
    · simp only [ProxOp.prox, L2R, L2.prox, checkTau, h, if_false, L2.proxBody, hd, L2.subQ, hq, npDivBy_ok _ hD]
      congr 1
      ext i
      simp [div_eq_inv_mul]
    · simp only [ProxOp.prox, L2R, L2.prox, checkTau, h, if_false, L2.proxBody, hd, L2.subQ, hq, npDivBy_ok _ hD]
      congr 1
      ext i
      simp [div_eq_inv_mul, mul_add]

/-- **C113** `L2.prox` with data `b` in rounded arithmetic: the error is at most the fraction
`(1 + u)^4 / (1 - u)^2 - 1` (about `6 u`) of `(|x| + tau sigma |b|) / (1 + tau sigma)`. -/
theorem C113_l2_data (hr : Rounding rnd u) (val : Vec ι → Py CallVal) {σ τ : ℝ} (hσ : 0 ≤ σ) (hτ : 0 < τ) (b x : Vec ι) :
    ∃ y, (L2R rnd val σ (some b)).prox x τ = .ok y ∧ ∀ i, IsFloat rnd (y i) ∧
      |y i - (x i + τ * σ * b i) / (1 + τ * σ)| ≤ ((1 + u) ^ 4 / (1 - u) ^ 2 - 1) * ((|x i| + τ * σ * |b i|) / (1 + τ * σ)) := by
  have hT : 0 ≤ τ * σ := mul_nonneg hτ.le hσ
  have hu := hr.nonneg_u
  have hl := hr.lt
  refine ⟨vmk fun i => rnd (rnd (x i + rnd (rnd (τ * σ) * b i)) / rnd (1 + rnd (τ * σ))), ?_, fun i => ⟨hr.idem _, ?_⟩⟩
  · simp [ProxOp.prox, L2R, checkTau, not_le.mpr hτ]
  set T := τ * σ with hTd
  set N := rnd (x i + rnd (rnd T * b i)) with hN
  set K := |x i| + T * |b i| with hK
  have hK0 : 0 ≤ K := by positivity
  have hD : 0 < 1 + T := by linarith
  -- the numerator
  have n1 : |rnd T * b i - T * b i| ≤ u * (T * |b i|) := by
    rw [← sub_mul, abs_mul]
    calc _ ≤ u * |T| * |b i| := mul_le_mul_of_nonneg_right (hr.err T) (abs_nonneg _)
      _ = _ := by rw [abs_of_nonneg hT]; ring
  have n2 := hr.err (rnd T * b i)
  have n3 : |rnd T * b i| ≤ (1 + u) * (T * |b i|) := by
    rw [abs_mul, abs_of_nonneg (hr.nonneg hT), ← mul_assoc]
    exact mul_le_mul_of_nonneg_right (hr.upper hT) (abs_nonneg _)
  have n4 : |rnd (rnd T * b i) - T * b i| ≤ ((1 + u) ^ 2 - 1) * (T * |b i|) := by
    have := abs_sub_le (rnd (rnd T * b i)) (rnd T * b i) (T * b i)
    have h := mul_le_mul_of_nonneg_left n3 hu
    nlinarith
  have hTb : 0 ≤ T * |b i| := by positivity
  have n5 : |x i + rnd (rnd T * b i)| ≤ (1 + u) ^ 2 * K := by
    have h1 := abs_add_le (x i) (rnd (rnd T * b i))
    have h2 := abs_sub_abs_le_abs_sub (rnd (rnd T * b i)) (T * b i)
    rw [abs_mul T, abs_of_nonneg hT] at h2
    have h3 : |x i| ≤ (1 + u) ^ 2 * |x i| := le_mul_of_one_le_left (abs_nonneg _) (by nlinarith)
    simp only [hK]
    nlinarith
  have n6 : |N - (x i + T * b i)| ≤ ((1 + u) ^ 3 - 1) * K := by
    have h1 := abs_sub_le N (x i + rnd (rnd T * b i)) (x i + T * b i)
    have h2 := hr.err (x i + rnd (rnd T * b i))
    have h3 := mul_le_mul_of_nonneg_left n5 hu
    rw [show x i + rnd (rnd T * b i) - (x i + T * b i) = rnd (rnd T * b i) - T * b i by ring] at h1
    have h4 : ((1 + u) ^ 2 - 1) * (T * |b i|) ≤ ((1 + u) ^ 2 - 1) * K :=
      mul_le_mul_of_nonneg_left (by simp only [hK]; linarith [abs_nonneg (x i)]) (by nlinarith)
    nlinarith
  have n7 : |N| ≤ (1 + u) ^ 3 * K := by
    have h1 := abs_sub_abs_le_abs_sub N (x i + T * b i)
    have h2 : |x i + T * b i| ≤ K := by
      refine (abs_add_le _ _).trans ?_
      rw [abs_mul T, abs_of_nonneg hT]
    nlinarith
  -- the quotient
  have q1 := divR_err hr hT N
  have c0 : 0 ≤ (1 + u) / (1 - u) ^ 2 - 1 := by
    rw [sub_nonneg, le_div_iff₀ (pow_pos (by linarith) 2)]
    nlinarith
  have q2 : |N / (1 + T)| ≤ (1 + u) ^ 3 * K / (1 + T) := by
    rw [abs_div, abs_of_pos hD]
    exact div_le_div_of_nonneg_right n7 hD.le
  have q3 : |N / (1 + T) - (x i + T * b i) / (1 + T)| ≤ ((1 + u) ^ 3 - 1) * K / (1 + T) := by
    rw [← sub_div, abs_div, abs_of_pos hD]
    exact div_le_div_of_nonneg_right n6 hD.le
  have q4 := abs_sub_le (rnd (N / rnd (1 + rnd T))) (N / (1 + T)) ((x i + T * b i) / (1 + T))
  have q5 := mul_le_mul_of_nonneg_left q2 c0
  have e : ((1 + u) ^ 4 / (1 - u) ^ 2 - 1) * (K / (1 + T)) =
      ((1 + u) / (1 - u) ^ 2 - 1) * ((1 + u) ^ 3 * K / (1 + T)) + ((1 + u) ^ 3 - 1) * K / (1 + T) := by ring
  rw [e]
  simp only
  linarith

/-- Double precision on data that are not all zero. -/
example : ∃ y, (L2R (nearBits 52) (fun _ => .ok (.num 0)) 1 (some (vmk fun _ : Fin 3 => (1 : ℝ)))).prox (vmk fun _ : Fin 3 => (3 : ℝ)) 1 = .ok y ∧
    |y 0 - 2| ≤ ((1 + 1 / 2 * ((2 : ℝ) ^ 52)⁻¹) ^ 4 / (1 - 1 / 2 * ((2 : ℝ) ^ 52)⁻¹) ^ 2 - 1) * 2 := by
  obtain ⟨y, h1, h2⟩ := C113_l2_data (nearBits_rounding 52 (by norm_num)) (fun _ => .ok (.num 0)) zero_le_one one_pos
    (vmk fun _ : Fin 3 => (1 : ℝ)) (vmk fun _ : Fin 3 => (3 : ℝ))
  refine ⟨y, h1, ?_⟩
  have := (h2 0).2
  norm_num at this ⊢
  exact this

end Verif
