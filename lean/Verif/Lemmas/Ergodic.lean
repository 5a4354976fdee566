import Verif.Lemmas.Saddle
import Verif.Lemmas.Splitting
import Verif.Lemmas.Duality
import Verif.Spec.Rates

/-! # Averages of iterates: convexity, telescoping bounds, and what a bound on the Lagrangian gap implies -/

open scoped RealInnerProductSpace
open Finset

namespace Verif

variable {E H : Type} [NormedAddCommGroup E] [InnerProductSpace ℝ E] [NormedAddCommGroup H] [InnerProductSpace ℝ H]

lemma avg_real (a : ℕ → ℝ) (N : ℕ) : avg a N = (1 / (N : ℝ)) * ∑ k ∈ range N, a k := by simp [avg]

lemma avg_dom {F : XFun E} (hF : F.Convex) {v : ℕ → E} (hv : ∀ k, v k ∈ F.dom) {N : ℕ} (hN : 0 < N) : avg v N ∈ F.dom := by
  unfold avg
  rw [smul_sum]
  refine hF.1.sum_mem (fun _ _ => by positivity) ?_ (fun k _ => hv k)
  rw [sum_const, card_range, nsmul_eq_mul, mul_one_div_cancel (by positivity)]

lemma avg_le {F : XFun E} (hF : F.Convex) {v : ℕ → E} (hv : ∀ k, v k ∈ F.dom) {N : ℕ} (hN : 0 < N) :
    F.val (avg v N) ≤ (1 / (N : ℝ)) * ∑ k ∈ range N, F.val (v k) := by
  unfold avg
  rw [smul_sum, mul_sum]
  have h := hF.map_sum_le (t := range N) (w := fun _ => 1 / (N : ℝ)) (p := v) (fun _ _ => by positivity)
    (by rw [sum_const, card_range, nsmul_eq_mul, mul_one_div_cancel (by positivity)]) (fun k _ => hv k)
  simpa only [smul_eq_mul] using h

lemma avg_map {V W : Type} [AddCommGroup V] [Module ℝ V] [AddCommGroup W] [Module ℝ W] (L : V →ₗ[ℝ] W) (v : ℕ → V) (N : ℕ) : L (avg v N) = avg (fun k => L (v k)) N := by
  simp [avg, map_sum]

lemma avg_sub {V : Type} [AddCommGroup V] [Module ℝ V] (v w : ℕ → V) (N : ℕ) : avg v N - avg w N = avg (fun k => v k - w k) N := by
  simp [avg, sum_sub_distrib, smul_sub]

lemma inner_avg (a : E) (v : ℕ → E) (N : ℕ) : ⟪a, avg v N⟫ = (1 / (N : ℝ)) * ∑ k ∈ range N, ⟪a, v k⟫ := by
  simp [avg, real_inner_smul_right, inner_sum]

lemma avg_const (c : ℝ) {N : ℕ} (hN : 0 < N) : (1 / (N : ℝ)) * ∑ _k ∈ range N, c = c := by
  rw [sum_const, card_range, nsmul_eq_mul]; field_simp

/-- Telescoping. -/
lemma sum_telescope {a V : ℕ → ℝ} (h : ∀ n, a n ≤ V n - V (n + 1)) (hV : ∀ n, 0 ≤ V n) (N : ℕ) : ∑ k ∈ range N, a k ≤ V 0 := by
  have : ∑ k ∈ range N, a k ≤ V 0 - V N := by
    rw [← sum_range_sub']
    exact sum_le_sum fun k _ => h k
  linarith [hV N]

/-- `⟪a - b, c - b⟫` by polarisation. -/
lemma inner_polar (a b c : E) : -(2 * ⟪a - b, c - b⟫) = ‖c - a‖ ^ 2 - ‖c - b‖ ^ 2 - ‖a - b‖ ^ 2 := by
  have : c - a = (c - b) - (a - b) := by abel
  rw [this, norm_sub_sq_real, real_inner_comm]; ring

/-- `⟪d, A v⟫` is bounded by the two weighted squares when `τ μ K² ≤ 1`. -/
lemma cross_bound {A : LinOp E H} {τ μ K : ℝ} (hτ : 0 < τ) (hμ : 0 < μ) (hK : 0 ≤ K) (hA : ∀ v, ‖A.matvec v‖ ≤ K * ‖v‖) (hc : τ * μ * K ^ 2 ≤ 1)
    (v : E) (d : H) : 2 * |⟪A.matvec v, d⟫| ≤ ‖v‖ ^ 2 / τ + ‖d‖ ^ 2 / μ := by
  have h1 := cp_gauge_nonneg hτ hμ hK hA hc (v, d)
  have h2 := cp_gauge_nonneg hτ hμ hK hA hc (v, -d)
  simp only [cpGauge, inner_neg_right, norm_neg] at h1 h2
  rcases abs_cases ⟪A.matvec v, d⟫ with ⟨h, -⟩ | ⟨h, -⟩ <;> rw [h] <;> linarith

/-- A real convex function on a finite-dimensional space has a subgradient everywhere, of norm at most its Lipschitz constant. -/
lemma subgrad_lipschitz [FiniteDimensional ℝ E] {φ : E → ℝ} (hφ : ConvexOn ℝ Set.univ φ) {M : ℝ} (hM : 0 ≤ M) (hL : ∀ x y, |φ x - φ y| ≤ M * ‖x - y‖) (x : E) :
    ∃ s, IsSubgrad (XFun.ofReal φ) x s ∧ ‖s‖ ≤ M := by
  obtain ⟨s, -, hs⟩ := certified_of_min_add (F := XFun.indicator {x}) (G := XFun.ofReal φ) (x := x) (xs := x)
    ⟨convex_singleton x, fun a _ b _ s t _ _ _ => by simp [XFun.indicator]⟩ hφ
    ⟨⟨rfl, trivial⟩, by rintro y ⟨rfl, -⟩; exact le_rfl⟩ rfl (by simp [XFun.ofReal])
  refine ⟨s, hs, ?_⟩
  have h := hs.2 (x + s) trivial
  simp only [XFun.ofReal, add_sub_cancel_left, real_inner_self_eq_norm_sq] at h
  have h2 := (abs_le.1 (hL (x + s) x)).2
  rw [add_sub_cancel_left] at h2
  by_contra h3
  push Not at h3
  nlinarith [hM]

/-- An average that violates a constraint by `r` while a Lagrangian bound holds for every multiplier violates it by `O(1/N)`. -/
lemma violation_bound {r s : H} {d B κ : ℝ} (hκ : 0 ≤ κ) (hlow : -⟪s, r⟫ ≤ d) (h : ∀ l : H, d + ⟪l, r⟫ ≤ B + κ * ‖l‖ ^ 2) : ‖r‖ ≤ B + κ * (‖s‖ + 1) ^ 2 := by
  by_cases hr : r = 0
  · subst hr
    have h0 := h s
    simp only [inner_zero_right, neg_zero, norm_zero] at *
    have : ‖s‖ ^ 2 ≤ (‖s‖ + 1) ^ 2 := by nlinarith [norm_nonneg s]
    nlinarith
  · have hn : 0 < ‖r‖ := norm_pos_iff.2 hr
    have h1 := h (s + (1 / ‖r‖) • r)
    rw [inner_add_left, real_inner_smul_left, real_inner_self_eq_norm_sq] at h1
    have e : 1 / ‖r‖ * ‖r‖ ^ 2 = ‖r‖ := by field_simp
    have h2 : ‖s + (1 / ‖r‖) • r‖ ≤ ‖s‖ + 1 := by
      refine (norm_add_le _ _).trans ?_
      rw [norm_smul, norm_div, norm_one, norm_norm, one_div_mul_cancel hn.ne']
    have h3 : ‖s + (1 / ‖r‖) • r‖ ^ 2 ≤ (‖s‖ + 1) ^ 2 := pow_le_pow_left₀ (norm_nonneg _) h2 2
    nlinarith [mul_le_mul_of_nonneg_left h3 hκ]

end Verif
