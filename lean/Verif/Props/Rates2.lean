import Verif.Props.Rates
import Verif.Props.ADMML2
import Verif.Props.HQSConv
import Verif.Props.Inexact
import Verif.Props.AdaptivePD
import Mathlib.Algebra.Order.Chebyshev

/-! # C106, continued: LinearizedADMM, ADMML2, HQS, and the residuals of DouglasRachford and ADMM -/

open scoped RealInnerProductSpace
open Finset

set_option linter.unusedSectionVars false

namespace Verif

section Comp

variable {E H D : Type} [NormedAddCommGroup E] [InnerProductSpace ℝ E] [NormedAddCommGroup H] [InnerProductSpace ℝ H] [NormedAddCommGroup D]
  [InnerProductSpace ℝ D] {f : ProxOp E} {g : ProxOp H} {F : XFun E} {G : XFun H} {A : LinOp E H} {τ μ K : ℝ}

lemma comp_avg (hF : F.Convex) (hG : G.Convex) (A : LinOp E H) {X : ℕ → E} {Z : ℕ → H} (hX : ∀ k, X k ∈ F.dom) (hZ : ∀ k, Z k ∈ G.dom) (l : H) (c B : ℝ)
    {N : ℕ} (hN : 0 < N) (h : ∑ k ∈ range N, (F.val (X k) + G.val (Z k) + ⟪l, A.matvec (X k) - Z k⟫ - c) ≤ B) :
    F.val (avg X N) + G.val (avg Z N) + ⟪l, A.matvec (avg X N) - avg Z N⟫ - c ≤ B / N := by
  have hN' : (0 : ℝ) < N := by exact_mod_cast hN
  have a1 := mul_le_mul_of_nonneg_right (avg_le hF hX hN) hN'.le
  have a2 := mul_le_mul_of_nonneg_right (avg_le hG hZ hN) hN'.le
  rw [one_div, mul_comm (N : ℝ)⁻¹, mul_assoc, inv_mul_cancel₀ hN'.ne', mul_one] at a1 a2
  have b : ⟪l, A.matvec (avg X N) - avg Z N⟫ * N = ∑ k ∈ range N, ⟪l, A.matvec (X k) - Z k⟫ := by
    rw [avg_map, avg_sub, inner_avg]; field_simp
  rw [sum_sub_distrib, sum_add_distrib, sum_add_distrib, sum_const, card_range, nsmul_eq_mul, ← b] at h
  rw [le_div_iff₀ hN']
  linarith

/-- C106: the averaged iterates of `LinearizedADMM` (`mu/tau·‖A‖² ≤ 1`), with or without a user-supplied `z0`: the sum of the two functions plus any
multiplier times `A x - z` exceeds the objective at any point by at most a constant over `N`. -/
theorem C106_linadmm_gap (hF : F.Convex) (hG : G.Convex) (hf : ProxExact f F) (hg : ProxExact g G) (hτ : 0 < τ) (hμ : 0 < μ) (hK : 0 ≤ K)
    (hA : ∀ v, ‖A.matvec v‖ ≤ K * ‖v‖) (hc : μ / τ * K ^ 2 ≤ 1) (x0 : E) (z0 : Option H) (R : ℕ → SplitOpState E H)
    (hR : ∀ n, LinearizedADMM f g A (some x0) z0 τ μ n = .ok (R n)) (N : ℕ) (hN : 0 < N) (x : E) (hx : x ∈ (compObj F G A.matvec 0).dom) (l : H) :
    avg (fun k => (R (k + 1)).x) N ∈ F.dom ∧ avg (fun k => (R (k + 1)).z) N ∈ G.dom ∧
      F.val (avg (fun k => (R (k + 1)).x) N) + G.val (avg (fun k => (R (k + 1)).z) N) +
          ⟪l, A.matvec (avg (fun k => (R (k + 1)).x) N) - avg (fun k => (R (k + 1)).z) N⟫ - (F.val x + G.val (A.matvec x)) ≤
        (‖x - x0‖ ^ 2 / μ + τ * ‖l‖ ^ 2) / (2 * N) := by
  obtain ⟨P, hP, hP'⟩ := proxExact_map hf hμ
  obtain ⟨Q, hQ, hQ'⟩ := proxExact_map hg hτ
  obtain ⟨X, Z, U, hX0, -, hU0, hX1, hX, hZ, hU, h⟩ := ladmm_traj (A := A) hτ.ne' hP hQ x0 z0
  have hRx : ∀ n, (R n).x = X n ∧ (R n).z = Z n := fun n => by
    obtain ⟨ax, h⟩ := h n
    have := (hR n).symm.trans h; injection this with this
    rw [this]; exact ⟨rfl, rfl⟩
  simp only [fun n => (hRx n).1, fun n => (hRx n).2]
  let d : ℕ → H := fun n => match n with
    | 0 => 0
    | n + 1 => U (n + 1) - U n
  have hd0 : d 0 = 0 := rfl
  have hd : ∀ n, d (n + 1) = U (n + 1) - U n := fun n => rfl
  have hXn : ∀ n, X (n + 1) = P (X n - (μ / τ) • A.rmatvec (d n + U n)) := by
    intro n
    cases n with
    | zero => rw [hd0, hU0, add_zero, map_zero, smul_zero, sub_zero, hX0]; exact hX1
    | succ n =>
      rw [hX n, hd n]
      congr 4
      rw [hU n]; abel
  have hXd : ∀ k, X (k + 1) ∈ F.dom := fun k => by rw [hXn]; exact (hP' _).1
  have hZd : ∀ k, Z (k + 1) ∈ G.dom := fun k => by rw [hZ]; exact (hQ' _).1
  refine ⟨avg_dom hF hXd hN, avg_dom hG hZd hN, ?_⟩
  have hN' : (0 : ℝ) < N := by exact_mod_cast hN
  have hs := sum_telescope (a := fun k => 2 * (F.val (X (k + 1)) + G.val (Z (k + 1)) + ⟪l, A.matvec (X (k + 1)) - Z (k + 1)⟫ - (F.val x + G.val (A.matvec x))))
    (V := fun n => ‖x - X n‖ ^ 2 / μ + ‖τ • l - U n‖ ^ 2 / τ + ‖d n‖ ^ 2 / τ + 2 / τ * ⟪A.matvec (x - X n), d n⟫) (fun n => ?_) (fun n => ?_) N
  · rw [hd0, hU0, hX0, ← mul_sum] at hs
    simp only [norm_zero, inner_zero_right, sub_zero, norm_smul, Real.norm_of_nonneg hτ.le, mul_pow] at hs
    have := comp_avg hF hG A hXd hZd l (F.val x + G.val (A.matvec x)) ((‖x - x0‖ ^ 2 / μ + τ * ‖l‖ ^ 2) / 2) hN (by
      have e : τ ^ 2 * ‖l‖ ^ 2 / τ = τ * ‖l‖ ^ 2 := by field_simp
      rw [e] at hs
      simp only [ne_eq, OfNat.ofNat_ne_zero, not_false_eq_true, zero_pow, zero_div, mul_zero, add_zero] at hs
      linarith)
    refine this.trans (le_of_eq ?_)
    field_simp
  · have h1 := hP' (X n - (μ / τ) • A.rmatvec (d n + U n))
    have h2 := hQ' (A.matvec (X (n + 1)) + U n)
    rw [← hXn n] at h1
    rw [← hZ n] at h2
    have s1 := (subgrad_of_isProx hF hμ h1).2 x hx.1
    have s2 := (subgrad_of_isProx hG hτ h2).2 (A.matvec x) hx.2
    have hU' : A.matvec (X (n + 1)) - Z (n + 1) = U (n + 1) - U n := by rw [hU n]; abel
    have e2 : A.matvec (X (n + 1)) + U n - Z (n + 1) = U (n + 1) := by rw [hU n]; abel
    have e3 : A.matvec x - Z (n + 1) = A.matvec (x - X (n + 1)) + (U (n + 1) - U n) := by rw [← hU', map_sub]; abel
    rw [e2, e3, real_inner_smul_left, inner_add_right] at s2
    have e1 : (1 / μ) • (X n - (μ / τ) • A.rmatvec (d n + U n) - X (n + 1)) = (1 / μ) • (X n - X (n + 1)) - (1 / τ) • A.rmatvec (d n + U n) := by
      rw [smul_sub, smul_sub, smul_sub, smul_smul, sub_right_comm]
      congr 2
      field_simp
    rw [e1, inner_sub_left, real_inner_smul_left, real_inner_smul_left, adj_flip] at s1
    have p1 := inner_polar (X n) (X (n + 1)) x
    have p2 := inner_polar (U n) (U (n + 1)) (τ • l)
    have cb := cross_bound (τ := μ) (μ := 1 / τ) hμ (by positivity) hK hA (by rw [mul_one_div]; exact hc) (X n - X (n + 1)) ((1 / τ) • d n)
    have cb2 := (abs_le.1 (le_refl |⟪A.matvec (X n - X (n + 1)), (1 / τ) • d n⟫|)).2
    rw [real_inner_smul_right] at cb cb2
    rw [norm_smul, mul_pow, Real.norm_eq_abs, sq_abs] at cb
    have e4 : (1 / τ) ^ 2 * ‖d n‖ ^ 2 / (1 / τ) = ‖d n‖ ^ 2 / τ := by field_simp
    rw [e4] at cb
    have e5 : ⟪A.matvec (X n - X (n + 1)), d n⟫ = ⟪A.matvec (x - X (n + 1)), d n⟫ - ⟪A.matvec (x - X n), d n⟫ := by
      rw [← inner_sub_left, ← map_sub]; congr 2; abel
    have e6 : ⟪d n + U n, A.matvec (x - X (n + 1))⟫ = ⟪A.matvec (x - X (n + 1)), d n⟫ + ⟪A.matvec (x - X (n + 1)), U n⟫ := by
      rw [inner_add_left, real_inner_comm, real_inner_comm (A.matvec (x - X (n + 1))) (U n)]
    have e7 : ⟪U (n + 1), A.matvec (x - X (n + 1))⟫ = ⟪A.matvec (x - X (n + 1)), U (n + 1)⟫ := real_inner_comm _ _
    have e8 : ⟪U n - U (n + 1), τ • l - U (n + 1)⟫ = -(τ * ⟪l, U (n + 1) - U n⟫) + ⟪U (n + 1), U (n + 1) - U n⟫ := by
      rw [inner_sub_right, real_inner_smul_right, real_inner_comm l, ← neg_sub (U (n + 1)) (U n), inner_neg_right, inner_neg_left,
        real_inner_comm (U (n + 1)) (U (n + 1) - U n)]
      ring
    rw [e5] at cb cb2
    rw [e6] at s1
    rw [e7] at s2
    rw [e8] at p2
    simp only [hd n]
    rw [hU', inner_sub_right (A.matvec (x - X (n + 1))) (U (n + 1))]
    rw [norm_sub_rev (U n) (U (n + 1))] at p2
    have q1 : (‖x - X n‖ ^ 2 - ‖x - X (n + 1)‖ ^ 2 - ‖X n - X (n + 1)‖ ^ 2) / μ = -(2 * (1 / μ * ⟪X n - X (n + 1), x - X (n + 1)⟫)) := by rw [← p1]; ring
    have q2 : (‖τ • l - U n‖ ^ 2 - ‖τ • l - U (n + 1)‖ ^ 2 - ‖U (n + 1) - U n‖ ^ 2) / τ =
        2 * ⟪l, U (n + 1) - U n⟫ - 2 * (1 / τ * ⟪U (n + 1), U (n + 1) - U n⟫) := by rw [← p2]; field_simp; ring
    simp only [sub_div] at q1 q2
    have q3 : (2 / τ) = 2 * (1 / τ) := by ring
    rw [q3]
    generalize (1 / τ) = t at *
    generalize (1 / μ) = m at *
    rw [mul_add] at s1 s2
    linarith
  · have cb := cross_bound (τ := μ) (μ := 1 / τ) hμ (by positivity) hK hA (by rw [mul_one_div]; exact hc) (x - X n) ((1 / τ) • d n)
    have cb2 := (abs_le.1 (le_refl |⟪A.matvec (x - X n), (1 / τ) • d n⟫|)).1
    rw [real_inner_smul_right] at cb cb2
    rw [norm_smul, mul_pow, Real.norm_eq_abs, sq_abs] at cb
    have e4 : (1 / τ) ^ 2 * ‖d n‖ ^ 2 / (1 / τ) = ‖d n‖ ^ 2 / τ := by field_simp
    rw [e4] at cb
    have q3 : (2 / τ) * ⟪A.matvec (x - X n), d n⟫ = 2 * (1 / τ * ⟪A.matvec (x - X n), d n⟫) := by ring
    have : 0 ≤ ‖τ • l - U n‖ ^ 2 / τ := by positivity
    rw [q3]
    linarith

/-- From a bound for every multiplier to a bound on the mismatch and on the value. -/
lemma comp_rate {xb a : E} {zb s : H} {Q κ : ℝ} {N : ℕ} (hN : 0 < N) (hκ : 0 ≤ κ) (has : IsCertifiedComp F G A.matvec A.rmatvec 0 a s) (hx : xb ∈ F.dom)
    (hz : zb ∈ G.dom) (h : ∀ l, F.val xb + G.val zb + ⟪l, A.matvec xb - zb⟫ - (F.val a + G.val (A.matvec a)) ≤ (Q + κ * ‖l‖ ^ 2) / (2 * N)) :
    ‖A.matvec xb - zb‖ ≤ (Q + κ * (‖s‖ + 1) ^ 2) / (2 * N) ∧ F.val xb + G.val zb - (F.val a + G.val (A.matvec a)) ≤ Q / (2 * N) ∧
      -(‖s‖ * ((Q + κ * (‖s‖ + 1) ^ 2) / (2 * N))) ≤ F.val xb + G.val zb - (F.val a + G.val (A.matvec a)) := by
  have hN' : (0 : ℝ) < N := by exact_mod_cast hN
  have s1 := has.1.2 xb hx
  have s2 := has.2.2 zb hz
  rw [sub_zero, inner_neg_left, adj_flip, map_sub] at s1
  have hlow : -⟪s, A.matvec xb - zb⟫ ≤ F.val xb + G.val zb - (F.val a + G.val (A.matvec a)) := by
    simp only [inner_sub_right] at s1 s2 ⊢
    linarith
  have hv : ‖A.matvec xb - zb‖ ≤ (Q + κ * (‖s‖ + 1) ^ 2) / (2 * N) := by
    have := violation_bound (r := A.matvec xb - zb) (s := s) (d := F.val xb + G.val zb - (F.val a + G.val (A.matvec a))) (B := Q / (2 * N))
      (κ := κ / (2 * N)) (by positivity) hlow (fun l => by
        have := h l
        rw [add_div] at this
        have e : κ * ‖l‖ ^ 2 / (2 * N) = κ / (2 * N) * ‖l‖ ^ 2 := by ring
        linarith)
    refine this.trans (le_of_eq ?_)
    ring
  refine ⟨hv, ?_, ?_⟩
  · have h0 := h 0
    simp only [inner_zero_left, norm_zero, ne_eq, OfNat.ofNat_ne_zero, not_false_eq_true, zero_pow, mul_zero, add_zero] at h0
    exact h0
  · have h1 := real_inner_le_norm s (A.matvec xb - zb)
    have h2 := mul_le_mul_of_nonneg_left hv (norm_nonneg s)
    linarith

/-- From a bound for every multiplier to a bound on the objective, when `G` is Lipschitz. -/
lemma comp_objective [FiniteDimensional ℝ H] {φ : H → ℝ} {M : ℝ} (hφ : ConvexOn ℝ Set.univ φ) (hM : 0 ≤ M) (hL : ∀ v w, |φ v - φ w| ≤ M * ‖v - w‖)
    {xb x : E} {zb : H} {Q κ : ℝ} {N : ℕ} (hN : 0 < N) (hκ : 0 ≤ κ)
    (h : ∀ l, F.val xb + φ zb + ⟪l, A.matvec xb - zb⟫ - (F.val x + φ (A.matvec x)) ≤ (Q + κ * ‖l‖ ^ 2) / (2 * N)) :
    F.val xb + φ (A.matvec xb) - (F.val x + φ (A.matvec x)) ≤ (Q + κ * M ^ 2) / (2 * N) := by
  obtain ⟨s, hs, hsM⟩ := subgrad_lipschitz hφ hM hL (A.matvec xb)
  have h1 := hs.2 zb trivial
  have hN' : (0 : ℝ) < N := by exact_mod_cast hN
  have h2 : (Q + κ * ‖s‖ ^ 2) / (2 * N) ≤ (Q + κ * M ^ 2) / (2 * N) := by gcongr
  have h3 := h s
  simp only [XFun.ofReal, inner_sub_right] at h3 h1
  linarith

/-- C106: for a problem with a certified minimiser `(a, s)` the averaged iterates of `LinearizedADMM` satisfy `z = A x` up to a constant over `N`, and the
sum of the two functions is within a constant over `N` of the minimum, on both sides. -/
theorem C106_linadmm_rate (hF : F.Convex) (hG : G.Convex) (hf : ProxExact f F) (hg : ProxExact g G) (hτ : 0 < τ) (hμ : 0 < μ) (hK : 0 ≤ K)
    (hA : ∀ v, ‖A.matvec v‖ ≤ K * ‖v‖) (hc : μ / τ * K ^ 2 ≤ 1) (x0 : E) (z0 : Option H) (R : ℕ → SplitOpState E H)
    (hR : ∀ n, LinearizedADMM f g A (some x0) z0 τ μ n = .ok (R n)) (N : ℕ) (hN : 0 < N) (a : E) (s : H)
    (has : IsCertifiedComp F G A.matvec A.rmatvec 0 a s) :
    let B := (‖a - x0‖ ^ 2 / μ + τ * (‖s‖ + 1) ^ 2) / (2 * N)
    let xb := avg (fun k => (R (k + 1)).x) N
    let zb := avg (fun k => (R (k + 1)).z) N
    ‖A.matvec xb - zb‖ ≤ B ∧ F.val xb + G.val zb - (F.val a + G.val (A.matvec a)) ≤ ‖a - x0‖ ^ 2 / μ / (2 * N) ∧
      -(‖s‖ * B) ≤ F.val xb + G.val zb - (F.val a + G.val (A.matvec a)) := by
  have h := C106_linadmm_gap hF hG hf hg hτ hμ hK hA hc x0 z0 R hR N hN a ⟨has.1.1, has.2.1⟩
  exact comp_rate hN hτ.le has (h 0).1 (h 0).2.1 fun l => (h l).2.2

/-- C106: when `G` is a convex function with Lipschitz constant `M`, the objective at the averaged `x` of `LinearizedADMM` is within a constant over `N` of
its value at any point. -/
theorem C106_linadmm_objective [FiniteDimensional ℝ H] {φ : H → ℝ} {M : ℝ} (hF : F.Convex) (hφ : ConvexOn ℝ Set.univ φ) (hM : 0 ≤ M)
    (hL : ∀ v w, |φ v - φ w| ≤ M * ‖v - w‖) (hf : ProxExact f F) (hg : ProxExact g (XFun.ofReal φ)) (hτ : 0 < τ) (hμ : 0 < μ) (hK : 0 ≤ K)
    (hA : ∀ v, ‖A.matvec v‖ ≤ K * ‖v‖) (hc : μ / τ * K ^ 2 ≤ 1) (x0 : E) (z0 : Option H) (R : ℕ → SplitOpState E H)
    (hR : ∀ n, LinearizedADMM f g A (some x0) z0 τ μ n = .ok (R n)) (N : ℕ) (hN : 0 < N) (x : E) (hx : x ∈ F.dom) :
    let xb := avg (fun k => (R (k + 1)).x) N
    F.val xb + φ (A.matvec xb) - (F.val x + φ (A.matvec x)) ≤ (‖x - x0‖ ^ 2 / μ + τ * M ^ 2) / (2 * N) :=
  comp_objective hφ hM hL hN hτ.le fun l => (C106_linadmm_gap (G := XFun.ofReal φ) hF hφ hf hg hτ hμ hK hA hc x0 z0 R hR N hN x ⟨hx, trivial⟩ l).2.2

/-! ## ADMML2 -/

/-- C106: the averaged iterates of `ADMML2` with `gfirst=False`, for every step `tau`: the misfit plus `G` plus any multiplier times `A x - z` exceeds the
objective at any point by at most a constant over `N`.  (With `gfirst=True` the solver need not converge at all: `C47_admml2_gfirst_refuted`.) -/
theorem C106_admml2_gap {Op : LinOp E D} {b : D} {inv : E → H → ℝ → E} (hG : G.Convex) (hg : ProxExact g G) (hτ : 0 < τ)
    (hinv : SolvesReg Op b A inv) (x0 : E) (z0 : Option H) (R : ℕ → SplitOpState E H)
    (hR : ∀ n, ADMML2 inv g A (some x0) z0 τ n false = .ok (R n)) (N : ℕ) (hN : 0 < N) (x : E) (hx : A.matvec x ∈ G.dom) (l : H) :
    avg (fun k => (R (k + 1)).z) N ∈ G.dom ∧
      (misfit Op b).val (avg (fun k => (R (k + 1)).x) N) + G.val (avg (fun k => (R (k + 1)).z) N) +
          ⟪l, A.matvec (avg (fun k => (R (k + 1)).x) N) - avg (fun k => (R (k + 1)).z) N⟫ - ((misfit Op b).val x + G.val (A.matvec x)) ≤
        (‖A.matvec x - z0.getD (A.matvec x0)‖ ^ 2 / τ + τ * ‖l‖ ^ 2) / (2 * N) := by
  obtain ⟨Q, hQ, hQ'⟩ := proxExact_map hg hτ
  obtain ⟨X, Z, U, hX0, hZ0, hU0, hfl, -, h⟩ := admml2_traj (A := A) (inv := inv) hτ hQ x0 z0 false
  have hfl := hfl rfl
  have hRx : ∀ n, (R n).x = X n ∧ (R n).z = Z n := fun n => by
    obtain ⟨ax, h⟩ := h n
    have := (hR n).symm.trans h; injection this with this
    rw [this]; exact ⟨rfl, rfl⟩
  simp only [fun n => (hRx n).1, fun n => (hRx n).2]
  have hZd : ∀ k, Z (k + 1) ∈ G.dom := fun k => by rw [(hfl k).2.1]; exact (hQ' _).1
  refine ⟨avg_dom hG hZd hN, ?_⟩
  have hF : (misfit Op b).Convex := by
    refine ⟨convex_univ, fun u _ v _ s t hs ht hst => ?_⟩
    simp only [misfit, XFun.ofReal, smul_eq_mul]
    have e : Op.matvec (s • u + t • v) - b = s • (Op.matvec u - b) + t • (Op.matvec v - b) := by
      rw [map_add, map_smul, map_smul, smul_sub, smul_sub]
      nth_rewrite 1 [show b = (s + t) • b by rw [hst, one_smul]]
      rw [add_smul]; abel
    have e2 : ‖s • (Op.matvec u - b) + t • (Op.matvec v - b)‖ ^ 2 = s * ‖Op.matvec u - b‖ ^ 2 + t * ‖Op.matvec v - b‖ ^ 2 - s * t * ‖(Op.matvec u - b) - (Op.matvec v - b)‖ ^ 2 := by
      obtain rfl : t = 1 - s := by linarith
      rw [norm_add_sq_real, norm_sub_sq_real (Op.matvec u - b) (Op.matvec v - b), norm_smul, norm_smul, mul_pow, mul_pow, Real.norm_eq_abs, Real.norm_eq_abs, sq_abs, sq_abs, real_inner_smul_left,
        real_inner_smul_right]
      ring
    rw [e, e2]
    nlinarith [mul_nonneg (mul_nonneg hs ht) (sq_nonneg ‖(Op.matvec u - b) - (Op.matvec v - b)‖)]
  have hs := sum_telescope (a := fun k => 2 * (τ * ((misfit Op b).val (X (k + 1)) + G.val (Z (k + 1)) + ⟪l, A.matvec (X (k + 1)) - Z (k + 1)⟫ -
      ((misfit Op b).val x + G.val (A.matvec x)))))
    (V := fun n => ‖A.matvec x - Z n‖ ^ 2 + ‖τ • l - U n‖ ^ 2) (fun n => ?_) (fun n => by positivity) N
  · rw [← mul_sum, ← mul_sum, hZ0, hU0, sub_zero, norm_smul, Real.norm_of_nonneg hτ.le, mul_pow] at hs
    have := comp_avg hF hG A (X := fun k => X (k + 1)) (fun _ => trivial) hZd l ((misfit Op b).val x + G.val (A.matvec x))
      ((‖A.matvec x - z0.getD (A.matvec x0)‖ ^ 2 / τ + τ * ‖l‖ ^ 2) / 2) hN (by
        have e : ‖A.matvec x - z0.getD (A.matvec x0)‖ ^ 2 / τ + τ * ‖l‖ ^ 2 = (‖A.matvec x - z0.getD (A.matvec x0)‖ ^ 2 + τ ^ 2 * ‖l‖ ^ 2) / τ := by
          field_simp
        rw [e, div_div, le_div_iff₀ (by positivity)]
        linarith)
    refine this.trans (le_of_eq ?_)
    field_simp
  · obtain ⟨hX, hZ, hU⟩ := hfl n
    -- the least-squares step is a proximal step in the image of `A`
    have hsub : IsSubgrad (misfit Op b) (X (n + 1)) (-(1 / τ) • A.rmatvec (A.matvec (X (n + 1)) - (Z n - U n))) := by
      rw [misfit_subgrad_iff]
      intro w
      have := solvesReg_normal hinv (X n) (Z n - U n) (1 / √τ) w
      rw [← hX, div_pow, one_pow, Real.sq_sqrt hτ.le] at this
      rw [real_inner_smul_left, adj_flip]
      linarith
    have s1 := hsub.2 x trivial
    rw [real_inner_smul_left, adj_flip, map_sub] at s1
    have h2 := hQ' (A.matvec (X (n + 1)) + U n)
    rw [← hZ] at h2
    have s2 := (subgrad_of_isProx hG hτ h2).2 (A.matvec x) hx
    rw [real_inner_smul_left] at s2
    have k1 := mul_le_mul_of_nonneg_left s1 hτ.le
    have k2 := mul_le_mul_of_nonneg_left s2 hτ.le
    rw [mul_add, ← mul_assoc τ, show τ * -(1 / τ) = -1 by field_simp] at k1
    rw [mul_add, ← mul_assoc τ, mul_one_div_cancel hτ.ne', one_mul] at k2
    have p1 := inner_polar (Z n) (Z (n + 1)) (A.matvec x)
    have p2 := inner_polar (U n) (U n + A.matvec (X (n + 1)) - Z (n + 1)) (τ • l)
    set a := A.matvec (X (n + 1))
    set bb := Z (n + 1)
    set c := Z n
    set u := U n
    set v := A.matvec x
    have q : 0 ≤ ‖(c - bb) - (a - bb)‖ ^ 2 := sq_nonneg _
    rw [norm_sub_sq_real] at q
    have e : u - (u + a - bb) = -(a - bb) := by abel
    rw [e, norm_neg] at p2
    have r1 : -1 * ⟪a - (c - u), v - a⟫ + ⟪a + u - bb, v - bb⟫ = ⟪c - bb, v - bb⟫ - ⟪c - bb, a - bb⟫ + ⟪a - bb, u + a - bb⟫ := by
      simp only [inner_sub_left, inner_sub_right, inner_add_left, inner_add_right]
      rw [real_inner_comm u a, real_inner_comm u bb]; ring
    have r2 : ⟪-(a - bb), τ • l - (u + a - bb)⟫ = -(τ * ⟪l, a - bb⟫) + ⟪a - bb, u + a - bb⟫ := by
      rw [inner_neg_left, inner_sub_right, real_inner_comm, real_inner_smul_left]; ring
    rw [r2] at p2
    rw [hU]
    linarith

/-- C106: with a certified minimiser `(a, s)`, the averaged iterates of `ADMML2` satisfy `z = A x` up to a constant over `N`, and the misfit plus `G` is
within a constant over `N` of the minimum, on both sides. -/
theorem C106_admml2_rate {Op : LinOp E D} {b : D} {inv : E → H → ℝ → E} (hG : G.Convex) (hg : ProxExact g G) (hτ : 0 < τ)
    (hinv : SolvesReg Op b A inv) (x0 : E) (z0 : Option H) (R : ℕ → SplitOpState E H)
    (hR : ∀ n, ADMML2 inv g A (some x0) z0 τ n false = .ok (R n)) (N : ℕ) (hN : 0 < N) (a : E) (s : H)
    (has : IsCertifiedComp (misfit Op b) G A.matvec A.rmatvec 0 a s) :
    let Q := ‖A.matvec a - z0.getD (A.matvec x0)‖ ^ 2 / τ
    let B := (Q + τ * (‖s‖ + 1) ^ 2) / (2 * N)
    let xb := avg (fun k => (R (k + 1)).x) N
    let zb := avg (fun k => (R (k + 1)).z) N
    ‖A.matvec xb - zb‖ ≤ B ∧ (misfit Op b).val xb + G.val zb - ((misfit Op b).val a + G.val (A.matvec a)) ≤ Q / (2 * N) ∧
      -(‖s‖ * B) ≤ (misfit Op b).val xb + G.val zb - ((misfit Op b).val a + G.val (A.matvec a)) := by
  have h := C106_admml2_gap hG hg hτ hinv x0 z0 R hR N hN a has.2.1
  exact comp_rate hN hτ.le has trivial (h 0).1 fun l => (h l).2

/-- C106: when `G` is Lipschitz, the objective at the averaged `x` of `ADMML2` is within a constant over `N` of its value at any point. -/
theorem C106_admml2_objective [FiniteDimensional ℝ H] {φ : H → ℝ} {M : ℝ} {Op : LinOp E D} {b : D} {inv : E → H → ℝ → E}
    (hφ : ConvexOn ℝ Set.univ φ) (hM : 0 ≤ M) (hL : ∀ v w, |φ v - φ w| ≤ M * ‖v - w‖) (hg : ProxExact g (XFun.ofReal φ)) (hτ : 0 < τ)
    (hinv : SolvesReg Op b A inv) (x0 : E) (z0 : Option H) (R : ℕ → SplitOpState E H)
    (hR : ∀ n, ADMML2 inv g A (some x0) z0 τ n false = .ok (R n)) (N : ℕ) (hN : 0 < N) (x : E) :
    let xb := avg (fun k => (R (k + 1)).x) N
    1 / 2 * ‖Op.matvec xb - b‖ ^ 2 + φ (A.matvec xb) - (1 / 2 * ‖Op.matvec x - b‖ ^ 2 + φ (A.matvec x)) ≤
      (‖A.matvec x - z0.getD (A.matvec x0)‖ ^ 2 / τ + τ * M ^ 2) / (2 * N) :=
  comp_objective (F := misfit Op b) hφ hM hL hN hτ.le fun l =>
    (C106_admml2_gap (G := XFun.ofReal φ) hφ hg hτ hinv x0 z0 R hR N hN x trivial l).2

end Comp

section Two

variable {E : Type} [NormedAddCommGroup E] [InnerProductSpace ℝ E] {f g : ProxOp E} {F G : XFun E} {τ η : ℝ}

/-! ## HQS -/

/-- One pass of alternating proximal maps: `w ↦ p = prox_G(w) ↦ q = prox_F(p)`. -/
lemma alt_gap_step (hF : F.Convex) (hG : G.Convex) (hτ : 0 < τ) {w p q a b : E} (h1 : IsProx G τ w p) (h2 : IsProx F τ p q) (ha : a ∈ F.dom)
    (hb : b ∈ G.dom) :
    2 * (τ * ((F.val q + G.val p + ‖q - p‖ ^ 2 / (2 * τ)) - (F.val a + G.val b + ‖a - b‖ ^ 2 / (2 * τ)))) ≤ ‖a - w‖ ^ 2 - ‖a - q‖ ^ 2 := by
  have s1 := (subgrad_of_isProx hG hτ h1).2 b hb
  have s2 := (subgrad_of_isProx hF hτ h2).2 a ha
  rw [real_inner_smul_left] at s1 s2
  have k1 := mul_le_mul_of_nonneg_left s1 hτ.le
  have k2 := mul_le_mul_of_nonneg_left s2 hτ.le
  rw [mul_add, ← mul_assoc τ, mul_one_div_cancel hτ.ne', one_mul] at k1 k2
  have e1 : τ * (‖q - p‖ ^ 2 / (2 * τ)) = ‖q - p‖ ^ 2 / 2 := by field_simp
  have e2 : τ * (‖a - b‖ ^ 2 / (2 * τ)) = ‖a - b‖ ^ 2 / 2 := by field_simp
  have hsq : 0 ≤ ‖(w - p) + (b - p) - (a - p)‖ ^ 2 := sq_nonneg _
  have n1 : ‖a - w‖ ^ 2 = ‖(a - p) - (w - p)‖ ^ 2 := by congr 2; abel
  have n2 : ‖a - q‖ ^ 2 = ‖(a - p) - (q - p)‖ ^ 2 := by congr 2; abel
  have n3 : ‖a - b‖ ^ 2 = ‖(a - p) - (b - p)‖ ^ 2 := by congr 2; abel
  have n4 : ⟪p - q, a - q⟫ = -⟪q - p, a - p⟫ + ‖q - p‖ ^ 2 := by
    rw [← neg_sub q p, inner_neg_left, show a - q = (a - p) - (q - p) by abel, inner_sub_right, real_inner_self_eq_norm_sq]; ring
  rw [n4] at k2
  rw [n3] at e2
  rw [n1, n2, n3]
  generalize a - p = α at *
  generalize b - p = β at *
  generalize w - p = ζ at *
  generalize q - p = δ at *
  rw [norm_sub_sq_real, norm_sub_sq_real]
  rw [norm_sub_sq_real] at e2 hsq
  rw [norm_add_sq_real, inner_add_left, real_inner_comm α ζ, real_inner_comm α β] at hsq
  rw [real_inner_comm α δ] at k2
  rw [norm_sub_sq_real] 
  nlinarith

/-- C106: after `N` iterations with a constant step, the penalised objective `F(x) + G(z) + ‖x-z‖²/(2 tau)` at the outputs of `HQS`, in either order, is
within a constant over `N` of its value at any pair. -/
theorem C106_hqs_rate (hF : F.Convex) (hG : G.Convex) (hf : ProxExact f F) (hg : ProxExact g G) (hτ : 0 < τ) (gfirst : Bool) (x0 z0 : Option E)
    (R : ℕ → SplitState E) (hR : ∀ n, HQS f g x0 z0 (.scalar τ) n gfirst = .ok (R n)) (N : ℕ) (hN : 0 < N) (a b : E) (ha : a ∈ F.dom) (hb : b ∈ G.dom) :
    (F.val (R N).x + G.val (R N).z + ‖(R N).x - (R N).z‖ ^ 2 / (2 * τ)) - (F.val a + G.val b + ‖a - b‖ ^ 2 / (2 * τ)) ≤
      (if gfirst then ‖a - (R 0).x‖ ^ 2 else ‖b - (R 0).z‖ ^ 2) / (2 * τ * N) := by
  obtain ⟨Pf, hPf, hPf'⟩ := proxExact_map hf hτ
  obtain ⟨Pg, hPg, hPg'⟩ := proxExact_map hg hτ
  have hstep : ∀ n, (if gfirst then (R (n + 1)).z = Pg (R n).x ∧ (R (n + 1)).x = Pf (R (n + 1)).z else
      (R (n + 1)).x = Pf (R n).z ∧ (R (n + 1)).z = Pg (R (n + 1)).x) := by
    intro n
    rcases hinit : x0z0Init x0 z0 with e | ⟨x, z⟩
    · have := hR 0; simp [HQS, hinit, Bind.bind, Except.bind] at this
    have h1 := hR n
    have h2 := hR (n + 1)
    simp only [HQS, hinit, Bind.bind, Except.bind] at h1 h2
    obtain ⟨q, hq, hb⟩ := forRange_succ (fun i s s' b h => hqs_nobreak _ _ i s s' b h) n 0 _ (R (n + 1)) h2
    rw [h1] at hq
    injection hq with hq
    subst hq
    cases gfirst with
    | true =>
      simp only [HQS.body, StepSpec.at, if_true, hPf, hPg, Bind.bind, Except.bind, Pure.pure, Except.pure] at hb
      injection hb with hb
      injection hb with hb
      rw [← hb]; simp
    | false =>
      simp only [HQS.body, StepSpec.at, Bool.false_eq_true, if_false, hPf, hPg, Bind.bind, Except.bind, Pure.pure, Except.pure] at hb
      injection hb with hb
      injection hb with hb
      rw [← hb]; simp
  have hN' : (0 : ℝ) < N := by exact_mod_cast hN
  set v : ℕ → ℝ := fun n => F.val (R n).x + G.val (R n).z + ‖(R n).x - (R n).z‖ ^ 2 / (2 * τ) with hv
  have hmono : ∀ n, 1 ≤ n → v (n + 1) ≤ v n := by
    intro n hn
    obtain ⟨m, rfl⟩ : ∃ m, n = m + 1 := ⟨n - 1, by omega⟩
    have k0 := hstep m
    have k1 := hstep (m + 1)
    cases gfirst with
    | true =>
      simp only [if_true] at k0 k1
      have c1 := (hPg' (R (m + 1)).x).2 (R (m + 1)).z (by rw [k0.1]; exact (hPg' _).1)
      have c2 := (hPf' (R (m + 1 + 1)).z).2 (R (m + 1)).x (by rw [k0.2]; exact (hPf' _).1)
      rw [← k1.1] at c1
      rw [← k1.2] at c2
      unfold proxObj at c1 c2
      rw [norm_sub_rev (R (m + 1 + 1)).z, norm_sub_rev (R (m + 1)).z] at c1
      simp only [hv]; linarith
    | false =>
      simp only [Bool.false_eq_true, if_false] at k0 k1
      have c1 := (hPf' (R (m + 1)).z).2 (R (m + 1)).x (by rw [k0.1]; exact (hPf' _).1)
      have c2 := (hPg' (R (m + 1 + 1)).x).2 (R (m + 1)).z (by rw [k0.2]; exact (hPg' _).1)
      rw [← k1.1] at c1
      rw [← k1.2] at c2
      unfold proxObj at c1 c2
      rw [norm_sub_rev (R (m + 1 + 1)).z, norm_sub_rev (R (m + 1)).z] at c2
      simp only [hv]; linarith
  have hanti : ∀ k, k < N → v N ≤ v (k + 1) := by
    intro k hk
    have : ∀ j, v (k + 1 + j) ≤ v (k + 1) := by
      intro j
      induction j with
      | zero => exact le_rfl
      | succ j ih => exact (hmono (k + 1 + j) (by omega)).trans ih
    have h := this (N - (k + 1))
    rwa [show k + 1 + (N - (k + 1)) = N by omega] at h
  have hsum := sum_telescope (a := fun k => 2 * (τ * (v (k + 1) - (F.val a + G.val b + ‖a - b‖ ^ 2 / (2 * τ)))))
    (V := fun n => if gfirst then ‖a - (R n).x‖ ^ 2 else ‖b - (R n).z‖ ^ 2) (fun n => ?_) (fun n => by split <;> positivity) N
  · have : ∑ k ∈ range N, 2 * (τ * (v N - (F.val a + G.val b + ‖a - b‖ ^ 2 / (2 * τ)))) ≤
        ∑ k ∈ range N, 2 * (τ * (v (k + 1) - (F.val a + G.val b + ‖a - b‖ ^ 2 / (2 * τ)))) := by
      refine sum_le_sum fun k hk => ?_
      have := hanti k (mem_range.1 hk)
      have := mul_le_mul_of_nonneg_left this hτ.le
      nlinarith
    rw [sum_const, card_range, nsmul_eq_mul] at this
    rw [le_div_iff₀ (by positivity)]
    nlinarith [this.trans hsum]
  · have k0 := hstep n
    cases gfirst with
    | true =>
      simp only [if_true] at k0 ⊢
      have c1 := hPg' (R n).x
      have c2 := hPf' (R (n + 1)).z
      rw [← k0.1] at c1
      rw [← k0.2] at c2
      exact alt_gap_step hF hG hτ c1 c2 ha hb
    | false =>
      simp only [Bool.false_eq_true, if_false] at k0 ⊢
      have c1 := hPf' (R n).z
      have c2 := hPg' (R (n + 1)).x
      rw [← k0.1] at c1
      rw [← k0.2] at c2
      have := alt_gap_step hG hF hτ c1 c2 hb ha
      rw [norm_sub_rev (R (n + 1)).z, norm_sub_rev b a] at this
      simp only [hv]
      linarith

/-! ## Residuals -/

/-- An averaged map: the fixed-point residual decreases like `1/√n`. -/
lemma residual_rate {T : E → E} {β : ℝ} (hβ : 0 < β) {c : E} (hF : ∀ x, ‖T x - c‖ ^ 2 + β * ‖T x - x‖ ^ 2 ≤ ‖x - c‖ ^ 2) (hT : ∀ x y, ‖T x - T y‖ ≤ ‖x - y‖)
    (Y : ℕ → E) (hY : ∀ n, Y (n + 1) = T (Y n)) (n : ℕ) : ‖Y (n + 1) - Y n‖ ^ 2 ≤ ‖Y 0 - c‖ ^ 2 / (β * (n + 1)) := by
  have hmono : ∀ k, ‖Y (k + 2) - Y (k + 1)‖ ≤ ‖Y (k + 1) - Y k‖ := fun k => by
    have := hT (Y (k + 1)) (Y k)
    rwa [← hY, ← hY] at this
  have hanti : ∀ k j, ‖Y (k + j + 1) - Y (k + j)‖ ≤ ‖Y (k + 1) - Y k‖ := by
    intro k j
    induction j with
    | zero => exact le_rfl
    | succ j ih => exact (hmono (k + j)).trans ih
  have hsum := sum_telescope (a := fun k => β * ‖Y (k + 1) - Y k‖ ^ 2) (V := fun n => ‖Y n - c‖ ^ 2)
    (fun k => by have := hF (Y k); rw [← hY] at this; linarith) (fun k => by positivity) (n + 1)
  have : ∑ k ∈ range (n + 1), β * ‖Y (n + 1) - Y n‖ ^ 2 ≤ ∑ k ∈ range (n + 1), β * ‖Y (k + 1) - Y k‖ ^ 2 := by
    refine sum_le_sum fun k hk => mul_le_mul_of_nonneg_left ?_ hβ.le
    have h := hanti k (n - k)
    have hk' : k ≤ n := by have := mem_range.1 hk; omega
    rw [show k + (n - k) = n by omega] at h
    exact pow_le_pow_left₀ (norm_nonneg _) h 2
  rw [sum_const, card_range, nsmul_eq_mul] at this
  push_cast at this
  rw [le_div_iff₀ (by positivity)]
  nlinarith [this.trans hsum]

/-- C106: the change of `y` in iteration `n` of `DouglasRachford` (`0 < eta < 2`, either order) is at most `‖y₀ - c‖·√(η/((2-η)(n+1)))`, where `c` is any `y`
that one iteration leaves unchanged. -/
theorem C106_dr_residual (hF : F.Convex) (hG : G.Convex) (hf : ProxExact f F) (hg : ProxExact g G) (hτ : 0 < τ) (hη : 0 < η) (hη2 : η < 2) (gfirst : Bool)
    (x0 c xc : E) (lc : List (E × E)) (hc : DouglasRachford f g c τ η 1 gfirst = .ok (xc, c, lc)) (n : ℕ) (r r' : E × E × List (E × E))
    (hr : DouglasRachford f g x0 τ η (n + 1) gfirst = .ok r) (hr' : DouglasRachford f g x0 τ η (n + 2) gfirst = .ok r') :
    ‖r'.2.1 - r.2.1‖ ^ 2 ≤ η / (2 - η) * ‖x0 - c‖ ^ 2 / (n + 2) := by
  obtain ⟨Pf, hPf, hPf'⟩ := proxExact_map hf hτ
  obtain ⟨Pg, hPg, hPg'⟩ := proxExact_map hg hτ
  have f1 := firm_prox hF hτ hPf'
  have f2 := firm_prox hG hτ hPg'
  obtain ⟨Y, h0, hY, h⟩ := dr_traj hPf hPg η gfirst x0
  obtain ⟨Yc, hc0, hYc, hcc⟩ := dr_traj hPf hPg η gfirst c
  rw [h n] at hr; rw [h (n + 1)] at hr'; rw [hcc 0] at hc
  cases hr; cases hr'
  injection hc with hc
  injection hc with _ hc
  injection hc with hc _
  rw [zero_add, show (1 : ℕ) = 0 + 1 from rfl, hYc 0, hc0] at hc
  have fa : Firm (if gfirst then Pg else Pf) := by cases gfirst <;> assumption
  have fb : Firm (if gfirst then Pf else Pg) := by cases gfirst <;> assumption
  have := residual_rate (T := drStep (if gfirst then Pg else Pf) (if gfirst then Pf else Pg) η) (β := (2 - η) / η) (c := c)
    (div_pos (by linarith) hη) (fun x => dr_fejer fa fb hη hc x) (fun x y => dr_nonexp fa fb hη.le hη2.le x y) Y hY (n + 1)
  refine this.trans (le_of_eq ?_)
  rw [h0]
  push_cast
  have : 2 - η ≠ 0 := by linarith
  field_simp
  ring

/-- C106: the two variables of `ADMM` approach each other at least like `1/√n`, for every certified minimiser `(a, s)`: the change of the first variable
computed in an iteration with respect to the last value of the other. -/
theorem C106_admm_residual (hF : F.Convex) (hG : G.Convex) (hf : ProxExact f F) (hg : ProxExact g G) (hτ : 0 < τ) (gfirst : Bool) (x0 z0 : Option E)
    (R : ℕ → SplitState E) (hR : ∀ n, ADMM f g x0 z0 τ n gfirst = .ok (R n)) (a s : E) (has : IsCertified F G a s) (n : ℕ) :
    if gfirst then ‖(R (n + 2)).z - (R (n + 1)).x‖ ^ 2 ≤ ‖(R 1).z - (a - τ • s)‖ ^ 2 / (n + 1)
    else ‖(R (n + 2)).x - (R (n + 1)).z‖ ^ 2 ≤ ‖(R 1).x - (a + τ • s)‖ ^ 2 / (n + 1) := by
  obtain ⟨Pf, hPf, hPf'⟩ := proxExact_map hf hτ
  obtain ⟨Pg, hPg, hPg'⟩ := proxExact_map hg hτ
  have f1 := firm_prox hF hτ hPf'
  have f2 := firm_prox hG hτ hPg'
  rcases hinit : x0z0Init x0 z0 with e | ⟨x, z⟩
  · have := hR 0; simp [ADMM, hinit, Bind.bind, Except.bind] at this
  obtain ⟨S, -, -, hu0, hu, ht, hff, -, hS⟩ := admm_traj hPf hPg gfirst x0 z0 x z hinit
  have hRS : ∀ n, R n = S n := fun n => by have := (hR n).symm.trans (hS n); injection this
  simp only [hRS]
  cases gfirst with
  | false =>
    simp only [Bool.false_eq_true, if_false]
    have hff := hff rfl
    let V : ℕ → E := fun n => (S (n + 1)).x + (S n).u
    have hz : ∀ n, (S (n + 1)).z = Pg (V n) := fun n => (hff n).2
    have hun : ∀ n, (S (n + 1)).u = V n - Pg (V n) := fun n => by rw [hu, hz]; simp only [V]; abel
    have hx : ∀ n, (S (n + 2)).x = Pf ((2 : ℝ) • Pg (V n) - V n) := fun n => by
      rw [(hff (n + 1)).1, hz, hun, two_smul]; congr 1; abel
    have hV : ∀ n, V (n + 1) = drStep Pg Pf 1 (V n) := fun n => by
      show (S (n + 2)).x + (S (n + 1)).u = _
      rw [hx, hun]; unfold drStep; rw [one_smul]; abel
    have hc := (dr_fixed_exists hF hG hτ one_ne_zero hPf' hPg' has).1
    have := residual_rate (T := drStep Pg Pf 1) (β := (2 - 1) / 1) (c := a + τ • s) (by norm_num) (fun x => dr_fejer f2 f1 one_pos hc x)
      (fun x y => dr_nonexp f2 f1 zero_le_one one_le_two x y) V hV n
    have e1 : V (n + 1) - V n = (S (n + 2)).x - (S (n + 1)).z := by
      show (S (n + 2)).x + (S (n + 1)).u - V n = _
      rw [hun, hz]; abel
    have e2 : V 0 = (S 1).x := by show (S 1).x + (S 0).u = _; rw [hu0, add_zero]
    rw [e1, e2] at this
    norm_num at this
    exact this
  | true =>
    simp only [if_true]
    have hff := ht rfl
    let V : ℕ → E := fun n => (S (n + 1)).z - (S n).u
    have hx : ∀ n, (S (n + 1)).x = Pf (V n) := fun n => (hff n).2
    have hun : ∀ n, (S (n + 1)).u = Pf (V n) - V n := fun n => by rw [hu, hx]; simp only [V]; abel
    have hz : ∀ n, (S (n + 2)).z = Pg ((2 : ℝ) • Pf (V n) - V n) := fun n => by
      rw [(hff (n + 1)).1, hx, hun, two_smul]; congr 1; abel
    have hV : ∀ n, V (n + 1) = drStep Pf Pg 1 (V n) := fun n => by
      show (S (n + 2)).z - (S (n + 1)).u = _
      rw [hz, hun]; unfold drStep; rw [one_smul]; abel
    have has' : IsCertified G F a (-s) := ⟨by rw [neg_neg]; exact has.2, has.1⟩
    have hc := (dr_fixed_exists hG hF hτ one_ne_zero hPg' hPf' has').1
    rw [smul_neg, ← sub_eq_add_neg] at hc
    have := residual_rate (T := drStep Pf Pg 1) (β := (2 - 1) / 1) (c := a - τ • s) (by norm_num) (fun x => dr_fejer f1 f2 one_pos hc x)
      (fun x y => dr_nonexp f1 f2 zero_le_one one_le_two x y) V hV n
    have e1 : V (n + 1) - V n = (S (n + 2)).z - (S (n + 1)).x := by
      show (S (n + 2)).z - (S (n + 1)).u - V n = _
      rw [hun, hx]; abel
    have e2 : V 0 = (S 1).z := by show (S 1).z - (S 0).u = _; rw [hu0, sub_zero]
    rw [e1, e2] at this
    norm_num at this
    exact this

end Two

/-! ## At work: least squares with an L1 penalty

Every hypothesis of the theorems above is met by the `L2` data term, with any operator and data, and the L1 norm of any linear image. -/

section Lasso

variable {ι κ : Type} [Fintype ι] [Fintype κ] {D C : Type} [NormedAddCommGroup D] [InnerProductSpace ℝ D]

lemma l1_lipschitz (v w : Vec ι) :
    |(XFun.ofReal fun x : Vec ι => 1 * ∑ i, |x i - (0 : Vec ι) i|).val v - (XFun.ofReal fun x : Vec ι => 1 * ∑ i, |x i - (0 : Vec ι) i|).val w| ≤
      √(Fintype.card ι) * ‖v - w‖ := by
  simp only [XFun.ofReal, one_mul, PiLp.zero_apply, sub_zero]
  rw [← sum_sub_distrib]
  refine (abs_sum_le_sum_abs _ _).trans ?_
  have h1 : ∑ i, |(|v i| - |w i|)| ≤ ∑ i, |(v - w) i| := sum_le_sum fun i _ => by simpa using abs_abs_sub_abs_le_abs_sub (v i) (w i)
  refine h1.trans ?_
  have h2 : (∑ i, |(v - w) i|) ^ 2 ≤ (Fintype.card ι : ℝ) * ∑ i, |(v - w) i| ^ 2 := by
    have := _root_.sq_sum_le_card_mul_sum_sq (s := (univ : Finset ι)) (f := fun i => |(v - w) i|)
    simpa using this
  have h3 : ∑ i, |(v - w) i| ^ 2 = ‖v - w‖ ^ 2 := by rw [EuclideanSpace.norm_sq_eq]; simp
  rw [h3] at h2
  refine le_of_sq_le_sq ?_ (by positivity)
  rw [mul_pow, Real.sq_sqrt (by positivity)]
  exact h2

variable (ext : L2Ext (Vec ι) D C) (Op : LinOp (Vec ι) D) (e : Bool) (b : D) (nt : NIter) (warm : Bool) (sv : L2Solver) (ds : DenseSolver)

lemma lasso_l2 (hext : L2ExtWithin ext 0) (st : L2State (Vec ι) C) (x0 : Option (Vec ι)) (hst : L2.init ⟨.opB Op e b, none, 1, 1, true, nt, warm, sv, ds⟩ x0 = .ok st)
    (calls : List (Vec ι × ℝ)) :
    ProxExact (L2.obj ext ⟨.opB Op e b, none, 1, 1, true, nt, warm, sv, ds⟩ (L2.after ext ⟨.opB Op e b, none, 1, 1, true, nt, warm, sv, ds⟩ st calls))
      (XFun.ofReal fun x => 1 / 2 * ‖Op.matvec x - b‖ ^ 2) := by
  have := l2obj_prox ext hext ⟨.opB Op e b, none, 1, 1, true, nt, warm, sv, ds⟩ one_pos x0 st hst calls
  convert this using 2
  funext x
  simp [l2Spec]

lemma lassoData_convex : (XFun.ofReal fun x => 1 / 2 * ‖Op.matvec x - b‖ ^ 2).Convex := by
  have := l2_convex (⟨.opB Op true b, none, 1, 1, true, .const 1, true, .cg, .default⟩ : L2Args (Vec ι) D) zero_le_one
  unfold XFun.Convex XFun.ofReal
  convert this using 2
  funext x
  simp [l2Spec]

/-- C106 for `ADMM(L2(Op, b), L1(), x0, tau, N)`: the run returns, and the averaged `x` has an objective `½‖Op x - b‖² + ‖x‖₁` at most
`(‖c - x0‖²/tau + tau·n)/(2N)` above that of any point `c`, `n` being the number of entries. -/
theorem C106_lasso_admm (hext : L2ExtWithin ext 0) (st : L2State (Vec ι) C) (xi : Option (Vec ι))
    (hst : L2.init ⟨.opB Op e b, none, 1, 1, true, nt, warm, sv, ds⟩ xi = .ok st) (calls : List (Vec ι × ℝ)) {τ : ℝ} (hτ : 0 < τ) (gfirst : Bool)
    (x0 : Vec ι) (N : ℕ) (hN : 0 < N) (c : Vec ι) :
    ∃ R : ℕ → SplitState (Vec ι),
      (∀ n, ADMM (L2.obj ext ⟨.opB Op e b, none, 1, 1, true, nt, warm, sv, ds⟩ (L2.after ext ⟨.opB Op e b, none, 1, 1, true, nt, warm, sv, ds⟩ st calls))
        (L1 1 none) (some x0) none τ n gfirst = .ok (R n)) ∧
      let xb := avg (fun k => (R (k + 1)).x) N
      1 / 2 * ‖Op.matvec xb - b‖ ^ 2 + ∑ i, |xb i| - (1 / 2 * ‖Op.matvec c - b‖ ^ 2 + ∑ i, |c i|) ≤
        (‖c - x0‖ ^ 2 / τ + τ * Fintype.card ι) / (2 * N) := by
  have hf := lasso_l2 ext Op e b nt warm sv ds hext st xi hst calls
  obtain ⟨Pf, hPf, -⟩ := proxExact_map hf hτ
  obtain ⟨Pg, hPg, -⟩ := proxExact_map (l1_proxExact (ι := ι)) hτ
  obtain ⟨S, hx, hz, -, -, -, -, -, hS⟩ := admm_traj hPf hPg gfirst (some x0) none x0 x0 rfl
  refine ⟨S, hS, ?_⟩
  have := C106_admm_objective (lassoData_convex Op b) l1_convex (Real.sqrt_nonneg _) l1_lipschitz hf l1_proxExact hτ gfirst (some x0) none S hS N hN c
    trivial
  rw [hx, hz, ite_self, Real.sq_sqrt (by positivity)] at this
  simpa [XFun.ofReal] using this

/-- C106 for `PrimalDual(L2(Op, b), L1(), A, x0, tau, mu, N)` with `tau·mu·‖A‖² ≤ 1`: the run returns, and the averaged `x` has an objective
`½‖Op x - b‖² + ‖A x‖₁` at most `(‖c - x0‖²/tau + m/mu)/N` above that of any point `c`, `m` being the number of entries of `A x`. -/
theorem C106_lasso_pd (hext : L2ExtWithin ext 0) (st : L2State (Vec ι) C) (xi : Option (Vec ι))
    (hst : L2.init ⟨.opB Op e b, none, 1, 1, true, nt, warm, sv, ds⟩ xi = .ok st) (calls : List (Vec ι × ℝ)) {τ μ K : ℝ} (hτ : 0 < τ) (hμ : 0 < μ)
    (A : LinOp (Vec ι) (Vec κ)) (hK : 0 ≤ K) (hA : ∀ v, ‖A.matvec v‖ ≤ K * ‖v‖) (hc : τ * μ * K ^ 2 ≤ 1) (gfirst : Bool)
    (x0 : Vec ι) (N : ℕ) (hN : 0 < N) (c : Vec ι) :
    ∃ R : ℕ → PDState (Vec ι) (Vec κ),
      (∀ n, PrimalDual (L2.obj ext ⟨.opB Op e b, none, 1, 1, true, nt, warm, sv, ds⟩ (L2.after ext ⟨.opB Op e b, none, 1, 1, true, nt, warm, sv, ds⟩ st calls))
        (L1 1 none) A x0 none none (.scalar τ) (.scalar μ) 1 n gfirst = .ok (R n)) ∧
      let xb := avg (fun k => (R (k + 1)).x) N
      1 / 2 * ‖Op.matvec xb - b‖ ^ 2 + ∑ i, |A.matvec xb i| - (1 / 2 * ‖Op.matvec c - b‖ ^ 2 + ∑ i, |A.matvec c i|) ≤
        (‖c - x0‖ ^ 2 / τ + Fintype.card κ / μ) / N := by
  have hf := lasso_l2 ext Op e b nt warm sv ds hext st xi hst calls
  choose R hR using C50_pd_returns (A := A) hf l1_proxExact l1_proxdualExact l1_convex hτ hμ x0 none none 1 gfirst
  refine ⟨R, hR, ?_⟩
  have := C106_pd_objective (A := A) (lassoData_convex Op b) l1_convex (Real.sqrt_nonneg _) l1_lipschitz hf l1_proxExact l1_proxdualExact hτ hμ hK hA hc
    none gfirst x0 none R hR N hN c trivial
  simp only [Option.getD_none, norm_zero, add_zero] at this
  rw [Real.sq_sqrt (by positivity)] at this
  simpa [XFun.ofReal, compObj] using this

end Lasso

end Verif
