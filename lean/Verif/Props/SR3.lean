import Verif.Model.SR3
import Verif.Props.Closed
import Verif.Lemmas.Loop
import Mathlib.Analysis.PSeries

/-! # C77, C78: sparse relaxed regularised regression -/

open scoped RealInnerProductSpace
open Filter Topology

set_option linter.unusedSectionVars false

namespace Verif

variable {E F : Type} [NormedAddCommGroup E] [InnerProductSpace ℝ E] [NormedAddCommGroup F] [InnerProductSpace ℝ F] {ι : Type} [Fintype ι]

/-- The relaxed objective in the documentation of `SR3`: `½‖A x - b‖² + λ‖z‖₁ + κ/2 ‖L x - z‖²`. -/
noncomputable def sr3Obj (A : E →ₗ[ℝ] F) (L : E →ₗ[ℝ] Vec ι) (b : F) (κ lam : ℝ) (x : E) (z : Vec ι) : ℝ :=
  1 / 2 * ‖A x - b‖ ^ 2 + lam * ∑ i, |z i| + κ / 2 * ‖L x - z‖ ^ 2

/-- `x` solves the least squares problem `M x ≈ y`. -/
def IsLeastSquares {D : Type} [NormedAddCommGroup D] [InnerProductSpace ℝ D] (M : E →ₗ[ℝ] D) (y : D) (x : E) : Prop :=
  ∀ x', ‖M x - y‖ ≤ ‖M x' - y‖

/-- The inner solver finds a least squares solution of the stacked system, whatever the right hand side and the starting point. -/
def SR3InnerExact (Op : LinOp E F) (Reg : LinOp E (Vec ι)) (κ : ℝ) (solve : WithLp 2 (F × Vec ι) → E → E) : Prop :=
  ∀ y x, IsLeastSquares (vstack2 Op (Real.sqrt κ) Reg).matvec y (solve y x)

/-! ## Lemmas -/

lemma lsq_normal {D : Type} [NormedAddCommGroup D] [InnerProductSpace ℝ D] {M : E →ₗ[ℝ] D} {y : D} {x : E} (h : IsLeastSquares M y x) (d : E) :
    ⟪M x - y, M d⟫ = 0 := by
  have key : ∀ t : ℝ, 0 ≤ 2 * t * ⟪M x - y, M d⟫ + t ^ 2 * ‖M d‖ ^ 2 := by
    intro t
    have h1 := pow_le_pow_left₀ (norm_nonneg _) (h (x + t • d)) 2
    rw [map_add, map_smul, show M x + t • M d - y = (M x - y) + t • M d by abel, norm_add_sq_real, inner_smul_right, norm_smul, mul_pow,
      Real.norm_eq_abs, sq_abs] at h1
    linarith
  by_contra hne
  set a := ⟪M x - y, M d⟫
  set n := ‖M d‖ ^ 2 with hn
  have hn0 : 0 ≤ n := sq_nonneg _
  have h2 := key (-a / (n + 1))
  have : 2 * (-a / (n + 1)) * a + (-a / (n + 1)) ^ 2 * n = -(a ^ 2 * (n + 2)) / (n + 1) ^ 2 := by field_simp; ring
  rw [this] at h2
  have h3 : 0 < a ^ 2 * (n + 2) := by positivity
  have h4 : -(a ^ 2 * (n + 2)) / (n + 1) ^ 2 < 0 := div_neg_of_neg_of_pos (by linarith) (by positivity)
  linarith

lemma vstack2_normal {Op : LinOp E F} {Reg : LinOp E (Vec ι)} {κ : ℝ} (hκ : 0 < κ) {b : F} {v : Vec ι} {x : E}
    (h : IsLeastSquares (vstack2 Op (Real.sqrt κ) Reg).matvec (WithLp.toLp 2 (b, Real.sqrt κ • v)) x) (d : E) :
    ⟪Op.matvec x - b, Op.matvec d⟫ + κ * ⟪Reg.matvec x - v, Reg.matvec d⟫ = 0 := by
  have h1 := lsq_normal h d
  have e : ∀ d, (vstack2 Op (Real.sqrt κ) Reg).matvec d = WithLp.toLp 2 (Op.matvec d, Real.sqrt κ • Reg.matvec d) := fun _ => rfl
  rw [e, e, ← WithLp.toLp_sub, Prod.mk_sub_mk, ← smul_sub, WithLp.prod_inner_apply] at h1
  simp only [real_inner_smul_left, inner_smul_right] at h1
  rw [← mul_assoc, Real.mul_self_sqrt hκ.le] at h1
  exact h1

lemma sr3Threshold_eq (t : Vec ι) (c : ℝ) : sr3Threshold t c = softthreshold t fun _ => c := by
  unfold sr3Threshold softthreshold softScalar
  congr 1; funext i; ring

/-- `w = soft(t, λ/κ)`: `κ (t - w)` is a subgradient of `λ‖·‖₁` at `w`. -/
lemma sr3_subgrad {κ lam : ℝ} (hκ : 0 < κ) (hl : 0 ≤ lam) (t z : Vec ι) :
    lam * ∑ i, |sr3Threshold t (1 / κ * lam) i| + κ * ⟪t - sr3Threshold t (1 / κ * lam), z - sr3Threshold t (1 / κ * lam)⟫ ≤ lam * ∑ i, |z i| := by
  set w := sr3Threshold t (1 / κ * lam) with hw
  have hi : ∀ i, lam * |w i| + κ * ((t i - w i) * (z i - w i)) ≤ lam * |z i| := by
    intro i
    have hwi : w i = npsign (t i) * max (|t i| - 1 / κ * lam) 0 := rfl
    have hlk : lam = κ * (1 / κ * lam) := by field_simp
    have hc : 0 ≤ 1 / κ * lam := by positivity
    set c := 1 / κ * lam
    have main : c * |w i| + (t i - w i) * (z i - w i) ≤ c * |z i| := by
      rw [hwi]
      unfold npsign
      have hz1 := le_abs_self (z i)
      have hz2 := neg_abs_le (z i)
      rcases lt_trichotomy (t i) 0 with ht | ht | ht
      · rw [if_neg (by linarith), if_pos ht, abs_of_neg ht]
        rcases le_total (-t i - c) 0 with h | h
        · rw [max_eq_right h]
          simp only [mul_zero, abs_zero, sub_zero, zero_add]
          nlinarith [abs_nonneg (z i)]
        · rw [max_eq_left h, show (-1 : ℝ) * (-t i - c) = t i + c by ring, abs_of_nonpos (by linarith)]
          nlinarith
      · rw [ht]; simp; positivity
      · rw [if_pos ht, abs_of_pos ht]
        rcases le_total (t i - c) 0 with h | h
        · rw [max_eq_right h]
          simp only [mul_zero, abs_zero, sub_zero, zero_add]
          nlinarith [abs_nonneg (z i)]
        · rw [max_eq_left h, one_mul, abs_of_nonneg h]
          nlinarith
    calc lam * |w i| + κ * ((t i - w i) * (z i - w i)) = κ * (c * |w i| + (t i - w i) * (z i - w i)) := by rw [hlk]; ring
      _ ≤ κ * (c * |z i|) := mul_le_mul_of_nonneg_left main hκ.le
      _ = lam * |z i| := by rw [hlk]; ring
  have hs := Finset.sum_le_sum fun i (_ : i ∈ Finset.univ) => hi i
  rw [Finset.sum_add_distrib, ← Finset.mul_sum, ← Finset.mul_sum, ← Finset.mul_sum] at hs
  have : ⟪t - w, z - w⟫ = ∑ i, (t i - w i) * (z i - w i) := by
    rw [PiLp.inner_apply]
    refine Finset.sum_congr rfl fun i _ => ?_
    simp [mul_comm]
  rw [this]; exact hs

section Core
variable {A : E →ₗ[ℝ] F} {L : E →ₗ[ℝ] Vec ι} {b : F} {κ lam : ℝ}

/-- One pass with the exact inner solution `x` for `v`, compared with any pair. -/
lemma sr3_pass (hκ : 0 < κ) (hl : 0 ≤ lam) {v : Vec ι} {x : E} (hx : ∀ d, ⟪A x - b, A d⟫ + κ * ⟪L x - v, L d⟫ = 0) (x' : E) (z' : Vec ι) :
    sr3Obj A L b κ lam x (sr3Threshold (L x) (1 / κ * lam)) + κ * ⟪v - sr3Threshold (L x) (1 / κ * lam), L x' - L x⟫ ≤ sr3Obj A L b κ lam x' z' := by
  set w := sr3Threshold (L x) (1 / κ * lam) with hw
  have h1 := sr3_subgrad hκ hl (L x) z'
  rw [← hw] at h1
  have h2 := hx (x' - x)
  have e1 : A x' - b = (A x - b) + A (x' - x) := by rw [map_sub]; abel
  have e2 : L x' - z' = (L x - w) + (L (x' - x) - (z' - w)) := by rw [map_sub]; abel
  have q1 : ‖A x' - b‖ ^ 2 = ‖A x - b‖ ^ 2 + 2 * ⟪A x - b, A (x' - x)⟫ + ‖A (x' - x)‖ ^ 2 := by rw [e1, norm_add_sq_real]
  have q2 : ‖L x' - z'‖ ^ 2 = ‖L x - w‖ ^ 2 + 2 * (⟪L x - w, L (x' - x)⟫ - ⟪L x - w, z' - w⟫) + ‖L (x' - x) - (z' - w)‖ ^ 2 := by
    rw [e2, norm_add_sq_real, inner_sub_right]
  have q3 : ⟪L x - w, L (x' - x)⟫ = ⟪L x - v, L (x' - x)⟫ + ⟪v - w, L x' - L x⟫ := by
    rw [← map_sub, ← inner_add_left]; congr 1; abel
  unfold sr3Obj
  rw [q1, q2, q3]
  have n1 := sq_nonneg ‖A (x' - x)‖
  have n2 := mul_nonneg hκ.le (sq_nonneg ‖L (x' - x) - (z' - w)‖)
  nlinarith

/-- One pass decreases the objective up to the extrapolation. -/
lemma sr3_descent (hκ : 0 < κ) (hl : 0 ≤ lam) {v : Vec ι} {x : E} (hx : ∀ d, ⟪A x - b, A d⟫ + κ * ⟪L x - v, L d⟫ = 0) (x' : E) (z' : Vec ι) :
    sr3Obj A L b κ lam x (sr3Threshold (L x) (1 / κ * lam)) + κ / 2 * ‖sr3Threshold (L x) (1 / κ * lam) - z'‖ ^ 2 ≤
      sr3Obj A L b κ lam x' z' + κ / 2 * ‖v - z'‖ ^ 2 := by
  set w := sr3Threshold (L x) (1 / κ * lam) with hw
  have h1 := sr3_subgrad hκ hl (L x) z'
  rw [← hw] at h1
  have h2 := hx (x' - x)
  have e1 : A x' - b = (A x - b) + A (x' - x) := by rw [map_sub]; abel
  have q1 : ‖A x' - b‖ ^ 2 = ‖A x - b‖ ^ 2 + 2 * ⟪A x - b, A (x' - x)⟫ + ‖A (x' - x)‖ ^ 2 := by rw [e1, norm_add_sq_real]
  have e2 : L x' - z' = (L x - v) + (L (x' - x) + (v - z')) := by rw [map_sub]; abel
  have q2 : ‖L x' - z'‖ ^ 2 = ‖L x - v‖ ^ 2 + 2 * (⟪L x - v, L (x' - x)⟫ + ⟪L x - v, v - z'⟫) + ‖L (x' - x) + (v - z')‖ ^ 2 := by
    rw [e2, norm_add_sq_real, inner_add_right]
  have e3 : L x - z' = (L x - v) + (v - z') := by abel
  have q3 : ‖L x - z'‖ ^ 2 = ‖L x - v‖ ^ 2 + 2 * ⟪L x - v, v - z'⟫ + ‖v - z'‖ ^ 2 := by rw [e3, norm_add_sq_real]
  have e4 : L x - z' = (L x - w) - (z' - w) := by abel
  have q4 : ‖L x - z'‖ ^ 2 = ‖L x - w‖ ^ 2 - 2 * ⟪L x - w, z' - w⟫ + ‖z' - w‖ ^ 2 := by rw [e4, norm_sub_sq_real]
  rw [norm_sub_rev w z']
  unfold sr3Obj
  rw [q1, q2]
  have n1 := sq_nonneg ‖A (x' - x)‖
  have n2 := mul_nonneg hκ.le (sq_nonneg ‖L (x' - x) + (v - z')‖)
  nlinarith

lemma sr3Obj_nonneg (hκ : 0 < κ) (hl : 0 ≤ lam) (x : E) (z : Vec ι) : 0 ≤ sr3Obj A L b κ lam x z := by
  unfold sr3Obj
  have : 0 ≤ ∑ i, |z i| := Finset.sum_nonneg fun i _ => abs_nonneg _
  positivity

end Core

lemma sr3_theta {θ : ℝ} (h0 : 0 < θ) (h1 : θ ≤ 1) {n : ℝ} (hn : 1 / θ ≤ n) :
    0 < 2 / (1 + Real.sqrt (1 + 4 / θ ^ 2)) ∧ 2 / (1 + Real.sqrt (1 + 4 / θ ^ 2)) ≤ 1 ∧ 1 / (2 / (1 + Real.sqrt (1 + 4 / θ ^ 2))) ≤ n + 1 := by
  have hs : 1 ≤ Real.sqrt (1 + 4 / θ ^ 2) := Real.one_le_sqrt.2 (by have : 0 < 4 / θ ^ 2 := by positivity
                                                                    linarith)
  have hs2 : Real.sqrt (1 + 4 / θ ^ 2) ≤ 1 + 2 * (1 / θ) := by
    rw [Real.sqrt_le_left (by positivity)]
    have : (1 + 2 * (1 / θ)) ^ 2 = 1 + 4 / θ ^ 2 + 4 / θ := by field_simp; ring
    rw [this]
    have : 0 < 4 / θ := by positivity
    linarith
  refine ⟨by positivity, (div_le_one (by linarith)).2 (by linarith), ?_⟩
  rw [one_div_div]
  linarith

lemma no_harmonic_descent {f : ℕ → ℝ} (hf : ∀ n, 0 ≤ f n) {c : ℝ} (hc : 0 < c) (h : ∀ n : ℕ, f (n + 1) + c / (n + 3) ≤ f n) : False := by
  have h1 : ∀ n, f n + c * ∑ k ∈ Finset.range n, (1 / ((k : ℝ) + 3)) ≤ f 0 := by
    intro n
    induction n with
    | zero => simp
    | succ n ih =>
      rw [Finset.sum_range_succ, mul_add]
      have := h n
      rw [div_eq_mul_one_div] at this
      linarith
  have h2 : ¬ Summable fun k : ℕ => 1 / ((k : ℝ) + 3) := by
    have := (not_congr (summable_nat_add_iff (f := fun n : ℕ => 1 / (n : ℝ)) 3)).2 Real.not_summable_one_div_natCast
    simpa using this
  refine h2 (summable_of_sum_range_le (c := f 0 / c) (fun k => by positivity) fun n => ?_)
  rw [le_div_iff₀ hc]
  have := h1 n
  have := hf n
  linarith

/-- One pass of the outer loop with an exact inner solver. -/
lemma sr3_body {Op : LinOp E F} {Reg : LinOp E (Vec ι)} {κ : ℝ} (hκ : 0 < κ) {f : WithLp 2 (F × Vec ι) → E → E} (hf : SR3InnerExact Op Reg κ f) (data : F)
    (eps : ℝ) (lim i : ℕ) (s : SR3State E (Vec ι)) : ∃ s' brk, SR3.body Op Reg data κ eps lim (some f) i s = .ok (s', brk) ∧
      (∀ d, ⟪Op.matvec s'.x - data, Op.matvec d⟫ + κ * ⟪Reg.matvec s'.x - s.v, Reg.matvec d⟫ = 0) ∧ s'.w = sr3Threshold (Reg.matvec s'.x) (1 / κ * eps) ∧
      s'.stopped = brk ∧ (brk = true → s'.v = s.v ∧ ‖s.v - s'.w‖ < 1e-6 * max 1 ‖s'.w‖) ∧
      (brk = false → 1e-6 ≤ ‖s.v - s'.w‖ ∧ s'.θ = 2 / (1 + Real.sqrt (1 + 4 / s.θ ^ 2)) ∧ s'.v = s'.w + (1 - s'.θ) • (s'.w - s.w)) := by
  have hpos : 0 < max 1 ‖sr3Threshold (Reg.matvec (f (WithLp.toLp 2 (data, Real.sqrt κ • s.v)) s.x)) (1 / κ * eps)‖ := lt_of_lt_of_le one_pos (le_max_left _ _)
  have hn := vstack2_normal hκ (hf (WithLp.toLp 2 (data, Real.sqrt κ • s.v)) s.x)
  unfold SR3.body SR3.inner
  dsimp only
  split
  · next h =>
    rw [div_lt_iff₀ hpos] at h
    exact ⟨_, _, rfl, hn, rfl, rfl, fun _ => ⟨rfl, h⟩, by simp⟩
  · next h =>
    rw [not_lt, le_div_iff₀ hpos] at h
    refine ⟨_, _, rfl, hn, rfl, rfl, by simp, fun _ => ⟨le_trans ?_ h, rfl, rfl⟩⟩
    have := le_max_left 1 ‖sr3Threshold (Reg.matvec (f (WithLp.toLp 2 (data, Real.sqrt κ • s.v)) s.x)) (1 / κ * eps)‖
    nlinarith

lemma sr3_run {Op : LinOp E F} {Reg : LinOp E (Vec ι)} {data : F} {κ : ℝ} (hκ : 0 < κ) (eps : ℝ) (x0 : Option E) (solve : Option (WithLp 2 (F × Vec ι) → E → E))
    (n lim : ℕ) : SR3 Op Reg data κ eps x0 solve n lim = forRange (SR3.body Op Reg data κ eps lim solve) n 0 ⟨x0.getD 0, 0, 0, 1, false⟩ := by
  unfold SR3
  rw [if_neg hκ.ne', if_neg (by rintro ⟨h, -⟩; linarith)]

/-- C77: `SR3(..., adaptive=False)` with an exact inner solver.  If the stopping test was met, the returned `x`, with some `z`, minimises the
relaxed objective up to an error proportional to the tolerance `1e-6`. -/
theorem C77_sr3_stop (Op : LinOp E F) (Reg : LinOp E (Vec ι)) (data : F) {κ eps : ℝ} (hκ : 0 < κ) (heps : 0 ≤ eps) (x0 : Option E)
    (solve : WithLp 2 (F × Vec ι) → E → E) (hf : SR3InnerExact Op Reg κ solve) (n lim : ℕ) (s : SR3State E (Vec ι))
    (h : SR3 Op Reg data κ eps x0 (some solve) n lim = .ok s) (hs : s.stopped = true) :
    ∃ z : Vec ι, ∀ x' z', sr3Obj Op.matvec Reg.matvec data κ eps s.x z ≤
      sr3Obj Op.matvec Reg.matvec data κ eps x' z' + κ * (1e-6 * max 1 ‖z‖) * ‖Reg.matvec x' - Reg.matvec s.x‖ := by
  rw [sr3_run hκ] at h
  have key : s.stopped = true → ∃ z : Vec ι, ∀ x' z', sr3Obj Op.matvec Reg.matvec data κ eps s.x z ≤
      sr3Obj Op.matvec Reg.matvec data κ eps x' z' + κ * (1e-6 * max 1 ‖z‖) * ‖Reg.matvec x' - Reg.matvec s.x‖ := by
    refine forRange_inv (I := fun s => s.stopped = true → ∃ z : Vec ι, ∀ x' z', sr3Obj Op.matvec Reg.matvec data κ eps s.x z ≤
      sr3Obj Op.matvec Reg.matvec data κ eps x' z' + κ * (1e-6 * max 1 ‖z‖) * ‖Reg.matvec x' - Reg.matvec s.x‖) ?_ _ _ _ _ (by simp) h
    intro i t t' brk _ hb hst
    obtain ⟨t'', brk', h1, h2, h3, h4, h5, -⟩ := sr3_body hκ hf data eps lim i t
    rw [h1] at hb
    cases hb
    rw [h4] at hst
    obtain ⟨-, h6⟩ := h5 hst
    refine ⟨t'.w, fun x' z' => ?_⟩
    have h7 := sr3_pass hκ heps h2 x' z'
    rw [← h3] at h7
    have h8 := neg_le_of_abs_le ((abs_real_inner_le_norm (t.v - t'.w) (Reg.matvec x' - Reg.matvec t'.x)).trans
      (mul_le_mul_of_nonneg_right h6.le (norm_nonneg _)))
    have h9 := mul_le_mul_of_nonneg_left h8 hκ.le
    nlinarith
  exact key hs

/-- C77: at every limit the returned point is no worse, in the relaxed objective, than any point with `z = 0`; in particular than the zero solution. -/
theorem C77_sr3_bound (Op : LinOp E F) (Reg : LinOp E (Vec ι)) (data : F) {κ eps : ℝ} (hκ : 0 < κ) (heps : 0 ≤ eps) (x0 : Option E)
    (solve : WithLp 2 (F × Vec ι) → E → E) (hf : SR3InnerExact Op Reg κ solve) (n lim : ℕ) (hn : 0 < n) :
    ∃ s, SR3 Op Reg data κ eps x0 (some solve) n lim = .ok s ∧
      ∃ z, ∀ x', sr3Obj Op.matvec Reg.matvec data κ eps s.x z ≤ sr3Obj Op.matvec Reg.matvec data κ eps x' 0 := by
  rw [sr3_run hκ]
  obtain ⟨T, B, h0, -, hR, hres⟩ := forRange_traj (SR3.body Op Reg data κ eps lim (some solve)) (fun _ => True)
    (fun _ (s s' : SR3State E (Vec ι)) brk =>
      (∀ d, ⟪Op.matvec s'.x - data, Op.matvec d⟫ + κ * ⟪Reg.matvec s'.x - s.v, Reg.matvec d⟫ = 0) ∧ s'.w = sr3Threshold (Reg.matvec s'.x) (1 / κ * eps) ∧
      s'.stopped = brk ∧ (brk = true → s'.v = s.v ∧ ‖s.v - s'.w‖ < 1e-6 * max 1 ‖s'.w‖) ∧
      (brk = false → 1e-6 ≤ ‖s.v - s'.w‖ ∧ s'.θ = 2 / (1 + Real.sqrt (1 + 4 / s.θ ^ 2)) ∧ s'.v = s'.w + (1 - s'.θ) • (s'.w - s.w)))
    (fun i s _ => by obtain ⟨s', brk, h1, h2⟩ := sr3_body hκ hf data eps lim i s; exact ⟨s', brk, h1, trivial, h2⟩) ⟨x0.getD 0, 0, 0, 1, false⟩ trivial
  obtain ⟨k, hk, hr, hnb, hbr⟩ := hres n
  have hk0 : 0 < k := by
    rcases lt_or_eq_of_le hk with h | h
    · obtain ⟨j, hj, -⟩ := hbr h; omega
    · omega
  have hθ : ∀ j, j < k → 0 < (T j).θ ∧ (T j).θ ≤ 1 := by
    intro j
    induction j with
    | zero => intro _; rw [h0]; exact ⟨one_pos, le_rfl⟩
    | succ j ih =>
      intro hj
      obtain ⟨h1, h2⟩ := ih (by omega)
      rw [((hR j).2.2.2.2 (hnb j hj)).2.1]
      obtain ⟨a, b, -⟩ := sr3_theta h1 h2 le_rfl
      exact ⟨a, b⟩
  have key : ∀ j, j + 1 ≤ k → ∀ x', sr3Obj Op.matvec Reg.matvec data κ eps (T (j + 1)).x (T (j + 1)).w + κ / 2 * ‖(T (j + 1)).w - (T j).w‖ ^ 2 ≤
      sr3Obj Op.matvec Reg.matvec data κ eps x' 0 := by
    intro j
    induction j with
    | zero =>
      intro _ x'
      have h1 := sr3_descent hκ heps (hR 0).1 x' 0
      rw [← (hR 0).2.1, h0] at h1
      rw [h0]
      simpa using h1
    | succ j ih =>
      intro hj x'
      have h1 := sr3_descent hκ heps (hR (j + 1)).1 (T (j + 1)).x (T (j + 1)).w
      rw [← (hR (j + 1)).2.1] at h1
      refine h1.trans (le_trans ?_ (ih (by omega) x'))
      have hv := ((hR j).2.2.2.2 (hnb j (by omega))).2.2
      obtain ⟨t1, t2⟩ := hθ (j + 1) (by omega)
      rw [hv, add_sub_cancel_left, norm_smul, mul_pow, Real.norm_eq_abs, sq_abs]
      have : (1 - (T (j + 1)).θ) ^ 2 ≤ 1 := by nlinarith
      have h3 := mul_le_mul_of_nonneg_right this (sq_nonneg ‖(T (j + 1)).w - (T j).w‖)
      nlinarith
  refine ⟨T k, hr, (T k).w, fun x' => ?_⟩
  obtain ⟨j, rfl⟩ : ∃ j, k = j + 1 := ⟨k - 1, by omega⟩
  have h1 := key j le_rfl x'
  have h2 : 0 ≤ κ / 2 * ‖(T (j + 1)).w - (T j).w‖ ^ 2 := by positivity
  linarith

/-- C78: with an exact inner solver the stopping test is always met: for every large enough limit the call stops early, at the same point, and that
point satisfies the bound of C77. -/
theorem C78_sr3_terminates (Op : LinOp E F) (Reg : LinOp E (Vec ι)) (data : F) {κ eps : ℝ} (hκ : 0 < κ) (heps : 0 ≤ eps) (x0 : Option E)
    (solve : WithLp 2 (F × Vec ι) → E → E) (hf : SR3InnerExact Op Reg κ solve) (lim : ℕ) :
    ∃ N s, s.stopped = true ∧ ∀ n, N ≤ n → SR3 Op Reg data κ eps x0 (some solve) n lim = .ok s := by
  simp only [sr3_run hκ]
  obtain ⟨T, B, h0, -, hR, hres⟩ := forRange_traj (SR3.body Op Reg data κ eps lim (some solve)) (fun _ => True)
    (fun _ (s s' : SR3State E (Vec ι)) brk =>
      (∀ d, ⟪Op.matvec s'.x - data, Op.matvec d⟫ + κ * ⟪Reg.matvec s'.x - s.v, Reg.matvec d⟫ = 0) ∧ s'.w = sr3Threshold (Reg.matvec s'.x) (1 / κ * eps) ∧
      s'.stopped = brk ∧ (brk = true → s'.v = s.v ∧ ‖s.v - s'.w‖ < 1e-6 * max 1 ‖s'.w‖) ∧
      (brk = false → 1e-6 ≤ ‖s.v - s'.w‖ ∧ s'.θ = 2 / (1 + Real.sqrt (1 + 4 / s.θ ^ 2)) ∧ s'.v = s'.w + (1 - s'.θ) • (s'.w - s.w)))
    (fun i s _ => by obtain ⟨s', brk, h1, h2⟩ := sr3_body hκ hf data eps lim i s; exact ⟨s', brk, h1, trivial, h2⟩) ⟨x0.getD 0, 0, 0, 1, false⟩ trivial
  by_cases hB : ∃ j, B j = true
  · classical
    set j := Nat.find hB with hj
    have hjB : B j = true := Nat.find_spec hB
    have hmin : ∀ i < j, B i = false := fun i hi => by simpa using Nat.find_min hB hi
    refine ⟨j + 1, T (j + 1), by rw [(hR j).2.2.1, hjB], fun n hn => ?_⟩
    obtain ⟨k, hk, hr, hnb, hbr⟩ := hres n
    have hkj : k ≤ j + 1 := by
      by_contra hlt
      have := hnb j (by omega)
      rw [hjB] at this; cases this
    have : k = j + 1 := by
      rcases lt_or_eq_of_le hk with h | h
      · obtain ⟨i, rfl, hi⟩ := hbr h
        rcases lt_or_eq_of_le (Nat.le_of_succ_le_succ hkj) with h' | h'
        · rw [hmin i h'] at hi; cases hi
        · rw [h']
      · omega
    rw [hr, this]
  · exfalso
    have hB' : ∀ j, B j = false := fun j => by by_contra h; exact hB ⟨j, by simpa using h⟩
    have hθ : ∀ j : ℕ, 0 < (T j).θ ∧ (T j).θ ≤ 1 ∧ 1 / (T j).θ ≤ j + 1 := by
      intro j
      induction j with
      | zero => rw [h0]; simp
      | succ j ih =>
        obtain ⟨h1, h2, h3⟩ := ih
        rw [((hR j).2.2.2.2 (hB' j)).2.1]
        push_cast
        exact sr3_theta h1 h2 h3
    set d : ℕ → ℝ := fun n => ‖(T (n + 1)).w - (T n).w‖ with hd
    set e : ℕ → ℝ := fun n => sr3Obj Op.matvec Reg.matvec data κ eps (T (n + 1)).x (T (n + 1)).w + κ / 2 * d n ^ 2 with he
    have he0 : ∀ n, 0 ≤ e n := fun n => add_nonneg (sr3Obj_nonneg hκ heps _ _) (by positivity)
    have hstep : ∀ n : ℕ, e (n + 1) + κ / 2 * (d n ^ 2 / (n + 2)) ≤ e n := by
      intro n
      have h1 := sr3_descent hκ heps (hR (n + 1)).1 (T (n + 1)).x (T (n + 1)).w
      rw [← (hR (n + 1)).2.1] at h1
      have hv := ((hR n).2.2.2.2 (hB' n)).2.2
      rw [hv, add_sub_cancel_left, norm_smul, mul_pow, Real.norm_eq_abs, sq_abs] at h1
      obtain ⟨t1, t2, t3⟩ := hθ (n + 1)
      have t4 : 1 / ((n : ℝ) + 2) ≤ (T (n + 1)).θ := by
        rw [div_le_iff₀ t1] at t3
        rw [div_le_iff₀ (by positivity)]
        push_cast at t3
        linarith
      have t5 : (1 - (T (n + 1)).θ) ^ 2 ≤ 1 - 1 / ((n : ℝ) + 2) := by nlinarith
      have t6 := mul_le_mul_of_nonneg_right t5 (sq_nonneg (d n))
      have t7 : d n ^ 2 / ((n : ℝ) + 2) = 1 / ((n : ℝ) + 2) * d n ^ 2 := by ring
      simp only [he]
      rw [t7]
      change sr3Obj Op.matvec Reg.matvec data κ eps (T (n + 1 + 1)).x (T (n + 1 + 1)).w + κ / 2 * d (n + 1) ^ 2 ≤ _ + κ / 2 * ((1 - (T (n + 1)).θ) ^ 2 * d n ^ 2) at h1
      nlinarith
    have hbig : ∀ n, 1e-6 ≤ d n + d (n + 1) := by
      intro n
      have h1 := ((hR (n + 1)).2.2.2.2 (hB' (n + 1))).1
      have hv := ((hR n).2.2.2.2 (hB' n)).2.2
      obtain ⟨t1, t2, -⟩ := hθ (n + 1)
      refine h1.trans ?_
      rw [hv, show (T (n + 1)).w + (1 - (T (n + 1)).θ) • ((T (n + 1)).w - (T n).w) - (T (n + 1 + 1)).w =
        (1 - (T (n + 1)).θ) • ((T (n + 1)).w - (T n).w) - ((T (n + 1 + 1)).w - (T (n + 1)).w) by abel]
      refine (norm_sub_le _ _).trans ?_
      rw [norm_smul, Real.norm_eq_abs, abs_of_nonneg (by linarith)]
      have : (1 - (T (n + 1)).θ) * ‖(T (n + 1)).w - (T n).w‖ ≤ 1 * ‖(T (n + 1)).w - (T n).w‖ := mul_le_mul_of_nonneg_right (by linarith) (norm_nonneg _)
      simp only [hd]; linarith
    refine no_harmonic_descent (f := fun n => e n + e (n + 1)) (fun n => add_nonneg (he0 _) (he0 _)) (c := κ / 2 * ((1e-6) ^ 2 / 2)) (by positivity) fun n => ?_
    have h1 := hstep n
    have h2 := hstep (n + 1)
    have h3 := hbig n
    have hd0 : 0 ≤ d n := norm_nonneg _
    have hd1 : 0 ≤ d (n + 1) := norm_nonneg _
    have h4 : (1e-6 : ℝ) ^ 2 / 2 ≤ d n ^ 2 + d (n + 1) ^ 2 := by nlinarith [sq_nonneg (d n - d (n + 1))]
    have h5 : (1e-6 : ℝ) ^ 2 / 2 / ((n : ℝ) + 3) ≤ d n ^ 2 / (n + 2) + d (n + 1) ^ 2 / (n + 3) := by
      have a1 : d n ^ 2 / ((n : ℝ) + 3) ≤ d n ^ 2 / (n + 2) := div_le_div_of_nonneg_left (sq_nonneg _) (by positivity) (by linarith)
      have a2 := div_le_div_of_nonneg_right h4 (show (0 : ℝ) ≤ (n : ℝ) + 3 by positivity)
      rw [add_div] at a2
      linarith
    push_cast at h2
    have e3 : (n : ℝ) + 1 + 2 = n + 3 := by ring
    rw [e3] at h2
    have h6 := mul_le_mul_of_nonneg_left h5 (show (0 : ℝ) ≤ κ / 2 by positivity)
    have h7 : κ / 2 * ((1e-6 : ℝ) ^ 2 / 2) / ((n : ℝ) + 3) = κ / 2 * ((1e-6 : ℝ) ^ 2 / 2 / ((n : ℝ) + 3)) := by ring
    rw [h7]
    linarith

/-- C77, C78 fail for the default `adaptive=True`: for every operator, regularisation and weight, data to which the starting point zero is already a least
squares solution (for instance zero data) give NaN. -/
theorem C78_adaptive_zero_residual_refuted (Op : LinOp E F) (Reg : LinOp E (Vec ι)) (data : F) (hdata : Op.rmatvec data = 0) {κ : ℝ} (hκ : 0 < κ) (eps : ℝ)
    (n lim : ℕ) (hn : 0 < n) (hlim : 0 < lim) : SR3 Op Reg data κ eps none none n lim = .error .nanResult := by
  obtain ⟨n, rfl⟩ : ∃ m, n = m + 1 := ⟨n - 1, by omega⟩
  obtain ⟨lim, rfl⟩ : ∃ m, lim = m + 1 := ⟨lim - 1, by omega⟩
  rw [sr3_run hκ]
  have h1 : (Lsqr.init (ι := ι) (vstack2 Op (Real.sqrt κ) Reg) (WithLp.toLp 2 (data, Real.sqrt κ • (0 : Vec ι))) 0 0).live = none := by
    have hr : (vstack2 Op (Real.sqrt κ) Reg).rmatvec (WithLp.toLp 2 (data, (0 : Vec ι))) = 0 := by
      change Op.rmatvec data + Real.sqrt κ • Reg.rmatvec (0 : Vec ι) = 0
      simp [hdata]
    simp only [Lsqr.init, map_zero, sub_zero, map_smul, hr, smul_zero, norm_zero, if_true, ite_self]
  have h2 : SR3.inner Op Reg data κ eps (lim + 1) none 0 0 = .error .nanResult := by
    simp only [SR3.inner, Lsqr, forRange, Lsqr.body, h1]
  simp only [forRange, SR3.body, Option.getD_none, h2]

/-- The same with `Op` and `Reg` the identity, for every data and an inner limit of at least two: the first inner pass finds the exact solution, and the
second divides by zero. -/
theorem C78_adaptive_identity_refuted (b : Vec ι) {κ : ℝ} (hκ : 0 < κ) (eps : ℝ) (n lim : ℕ) (hn : 0 < n) (hlim : 1 < lim) :
    SR3 ⟨LinearMap.id, LinearMap.id, fun _ _ => rfl⟩ ⟨LinearMap.id, LinearMap.id, fun _ _ => rfl⟩ b κ eps none none n lim = .error .nanResult := by
  by_cases hb : b = 0
  · exact C78_adaptive_zero_residual_refuted _ _ b (by rw [hb, map_zero]) hκ eps n lim hn (by omega)
  obtain ⟨n, rfl⟩ : ∃ m, n = m + 1 := ⟨n - 1, by omega⟩
  obtain ⟨lim, rfl⟩ : ∃ m, lim = m + 2 := ⟨lim - 2, by omega⟩
  rw [sr3_run hκ]
  set I : LinOp (Vec ι) (Vec ι) := ⟨LinearMap.id, LinearMap.id, fun _ _ => rfl⟩ with hI
  set q := Real.sqrt κ with hq
  have hq0 : 0 < q := Real.sqrt_pos.2 hκ
  have hbn : 0 < ‖b‖ := norm_pos_iff.2 hb
  have hmv : ∀ x : Vec ι, (vstack2 I q I).matvec x = WithLp.toLp 2 (x, q • x) := fun _ => rfl
  have hrv : ∀ y z : Vec ι, (vstack2 I q I).rmatvec (WithLp.toLp 2 (y, z)) = y + q • z := fun _ _ => rfl
  have hnorm1 : ‖(WithLp.toLp 2 (b, (0 : Vec ι)) : WithLp 2 (Vec ι × Vec ι))‖ = ‖b‖ := by
    rw [WithLp.prod_norm_eq_of_L2]; simp
  set u0 : Vec ι := (1 / ‖b‖) • b with hu0
  have hu0n : ‖u0‖ = 1 := by rw [hu0, norm_smul, Real.norm_eq_abs, abs_of_pos (by positivity)]; field_simp
  have h1 : Lsqr.init (ι := ι) (vstack2 I q I) (WithLp.toLp 2 (b, q • (0 : Vec ι))) 0 0 =
      ⟨0, 0, some ⟨WithLp.toLp 2 (u0, 0), u0, u0, 1, ‖b‖, 1⟩⟩ := by
    have e1 : (1 / ‖b‖) • (WithLp.toLp 2 (b, (0 : Vec ι)) : WithLp 2 (Vec ι × Vec ι)) = WithLp.toLp 2 (u0, 0) := by
      rw [← WithLp.toLp_smul, Prod.smul_mk, smul_zero]
    simp only [Lsqr.init, map_zero, sub_zero, smul_zero, hnorm1, e1, hrv, add_zero, hu0n, hbn.ne', if_false, one_ne_zero, div_one, one_smul]
  have h2 : Lsqr.next (vstack2 I q I) ⟨WithLp.toLp 2 (u0, 0), u0, u0, 1, ‖b‖, 1⟩ = none := by
    have e1 : (vstack2 I q I).matvec u0 - (1 : ℝ) • (WithLp.toLp 2 (u0, (0 : Vec ι)) : WithLp 2 (Vec ι × Vec ι)) = WithLp.toLp 2 (0, q • u0) := by
      rw [hmv, one_smul, ← WithLp.toLp_sub, Prod.mk_sub_mk, sub_self, sub_zero]
    have e2 : ‖(WithLp.toLp 2 ((0 : Vec ι), q • u0) : WithLp 2 (Vec ι × Vec ι))‖ = q := by
      rw [WithLp.prod_norm_eq_of_L2]; simp [norm_smul, hu0n, abs_of_pos hq0, Real.sqrt_sq hq0.le]
    have e3 : (vstack2 I q I).rmatvec ((1 / q) • WithLp.toLp 2 ((0 : Vec ι), q • u0)) - q • u0 = 0 := by
      rw [← WithLp.toLp_smul, Prod.smul_mk, smul_zero, smul_smul, one_div_mul_cancel hq0.ne', one_smul, hrv, zero_add, sub_self]
    simp only [Lsqr.next, e1, e2, e3, norm_zero, if_true, ite_self]
  have h3 : SR3.inner I I b κ eps (lim + 2) none 0 0 = .error .nanResult := by
    simp only [SR3.inner, Lsqr]
    rw [← hq, h1]
    simp only [forRange, Lsqr.body, h2, norm_zero, mul_zero, not_lt.2 (norm_nonneg _), decide_false]
    split_ifs <;> simp_all
  simp only [forRange, SR3.body, Option.getD_none, h3]

/-- Non-vacuity: on a finite dimensional space an exact inner solver exists for all operators and weights. -/
example [FiniteDimensional ℝ E] (Op : LinOp E F) (Reg : LinOp E (Vec ι)) (κ : ℝ) : ∃ solve, SR3InnerExact Op Reg κ solve := by
  set M := (vstack2 Op (Real.sqrt κ) Reg).matvec
  have h : ∀ y, ∃ x, IsLeastSquares M y x := by
    intro y
    obtain ⟨p, hp, hmin⟩ := (LinearMap.range M).exists_norm_eq_iInf_of_complete_subspace (Submodule.complete_of_finiteDimensional _) y
    obtain ⟨x, rfl⟩ := hp
    refine ⟨x, fun x' => ?_⟩
    rw [norm_sub_rev, hmin, norm_sub_rev (M x')]
    exact ciInf_le (f := fun w : LinearMap.range M => ‖y - w‖) ⟨0, by rintro _ ⟨w, rfl⟩; exact norm_nonneg _⟩ ⟨M x', ⟨x', rfl⟩⟩
  choose f hf using h
  exact ⟨fun y _ => f y, fun y _ => hf y⟩

end Verif
