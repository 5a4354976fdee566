import Verif.Spec.Optim
import Mathlib.Analysis.SpecialFunctions.Integrals.Basic
import Mathlib.MeasureTheory.Integral.IntervalIntegral.FundThmCalculus

/-! # Scalar maps that are proximal maps

A nondecreasing function `T` with `t - T t` nondecreasing is the proximal map of a closed convex function. -/

open scoped RealInnerProductSpace
open Filter Topology

namespace Verif

/-- `∫₀ᵗ T`. -/
noncomputable def primitive (T : ℝ → ℝ) (t : ℝ) : ℝ := ∫ s in (0 : ℝ)..t, T s

/-- The function whose proximal map is `T`: the conjugate of the primitive of `T`, minus `w² / 2`. -/
noncomputable def potential (T : ℝ → ℝ) : XFun ℝ where
  dom := {w | BddAbove (Set.range fun t => t * w - primitive T t)}
  val := fun w => (⨆ t, (t * w - primitive T t)) - w ^ 2 / 2

variable {T : ℝ → ℝ}

lemma mono_continuous (hT : Monotone T) (hT' : Monotone fun t => t - T t) : Continuous T := by
  have : LipschitzWith 1 T := by
    refine LipschitzWith.of_dist_le_mul fun a b => ?_
    rw [NNReal.coe_one, one_mul, Real.dist_eq, Real.dist_eq]
    rcases le_total a b with h | h
    · have h1 := hT h
      have h2 := hT' h
      simp only at h2
      rw [abs_of_nonpos (by linarith), abs_of_nonpos (by linarith)]; linarith
    · have h1 := hT h
      have h2 := hT' h
      simp only at h2
      rw [abs_of_nonneg (by linarith), abs_of_nonneg (by linarith)]; linarith
  exact this.continuous

lemma primitive_sub (hc : Continuous T) (a b : ℝ) : primitive T b - primitive T a = ∫ s in a..b, T s := by
  unfold primitive
  rw [intervalIntegral.integral_interval_sub_left (hc.intervalIntegrable _ _) (hc.intervalIntegrable _ _)]

lemma primitive_ge (hT : Monotone T) (hc : Continuous T) (a b : ℝ) : T a * (b - a) ≤ primitive T b - primitive T a := by
  rw [primitive_sub hc]
  rcases le_total a b with h | h
  · have := intervalIntegral.integral_mono_on (μ := MeasureTheory.volume) h (intervalIntegrable_const (c := T a)) (hc.intervalIntegrable a b) fun s hs => hT hs.1
    rw [intervalIntegral.integral_const, smul_eq_mul] at this
    linarith
  · rw [intervalIntegral.integral_symm]
    have := intervalIntegral.integral_mono_on (μ := MeasureTheory.volume) h (hc.intervalIntegrable b a) (intervalIntegrable_const (c := T a)) fun s hs => hT hs.2
    rw [intervalIntegral.integral_const, smul_eq_mul] at this
    linarith

lemma primitive_le (hT' : Monotone fun t => t - T t) (hc : Continuous T) (a b : ℝ) : primitive T b - primitive T a ≤ T a * (b - a) + (b - a) ^ 2 / 2 := by
  rw [primitive_sub hc]
  have hi : ∀ a b c : ℝ, ∫ s in a..b, (c + s) = c * (b - a) + (b ^ 2 - a ^ 2) / 2 := fun a b c => by
    rw [intervalIntegral.integral_add intervalIntegrable_const (continuous_id'.intervalIntegrable a b), intervalIntegral.integral_const, integral_id, smul_eq_mul]
    ring
  have hcc : Continuous fun s : ℝ => (T a - a) + s := by fun_prop
  rcases le_total a b with h | h
  · have := intervalIntegral.integral_mono_on (μ := MeasureTheory.volume) h (hc.intervalIntegrable a b) (hcc.intervalIntegrable a b) fun s hs => by
      have := hT' hs.1
      simp only at this
      linarith
    rw [hi] at this
    nlinarith
  · rw [intervalIntegral.integral_symm]
    have := intervalIntegral.integral_mono_on (μ := MeasureTheory.volume) h (hcc.intervalIntegrable b a) (hc.intervalIntegrable b a) fun s hs => by
      have := hT' hs.2
      simp only at this
      linarith
    rw [hi] at this
    nlinarith

lemma potential_closed (T : ℝ → ℝ) : (potential T).Closed := by
  have e : {p : ℝ × ℝ | p.1 ∈ (potential T).dom ∧ (potential T).val p.1 ≤ p.2} = ⋂ t, {p : ℝ × ℝ | t * p.1 - primitive T t ≤ p.2 + p.1 ^ 2 / 2} := by
    ext p
    simp only [potential, Set.mem_ofPred_eq, Set.mem_iInter, tsub_le_iff_right]
    constructor
    · rintro ⟨h1, h2⟩ t
      have h3 := le_ciSup h1 t
      linarith
    · intro h
      refine ⟨⟨p.2 + p.1 ^ 2 / 2, ?_⟩, ?_⟩
      · rintro _ ⟨t, rfl⟩
        simpa using h t
      · exact ciSup_le fun t => by simpa using h t
  unfold XFun.Closed
  rw [e]
  exact isClosed_iInter fun t => isClosed_le (by fun_prop) (by fun_prop)

lemma potential_isLUB (hT : Monotone T) (hT' : Monotone fun t => t - T t) (t s : ℝ) : s * T t - primitive T s ≤ t * T t - primitive T t := by
  have := primitive_ge hT (mono_continuous hT hT') t s
  linarith

lemma potential_subgrad (hT : Monotone T) (hT' : Monotone fun t => t - T t) (t : ℝ) : IsSubgrad (potential T) (T t) (t - T t) := by
  have hc := mono_continuous hT hT'
  have hb : BddAbove (Set.range fun s => s * T t - primitive T s) := by
    refine ⟨t * T t - primitive T t, ?_⟩
    rintro _ ⟨s, rfl⟩
    exact potential_isLUB hT hT' t s
  refine ⟨hb, fun w hw => ?_⟩
  have h1 : (potential T).val (T t) = t * T t - primitive T t - T t ^ 2 / 2 := by
    unfold potential
    simp only
    congr 1
    exact le_antisymm (ciSup_le fun s => potential_isLUB hT hT' t s) (le_ciSup hb t)
  rw [h1]
  have h2 : (t + (w - T t)) * w - primitive T (t + (w - T t)) - w ^ 2 / 2 ≤ (potential T).val w := by
    unfold potential
    simp only
    have := le_ciSup hw (t + (w - T t))
    linarith
  refine le_trans ?_ h2
  have h3 := primitive_le hT' hc t (t + (w - T t))
  have h4 : ⟪t - T t, w - T t⟫ = (t - T t) * (w - T t) := by simp [mul_comm]
  rw [h4]
  nlinarith

end Verif
