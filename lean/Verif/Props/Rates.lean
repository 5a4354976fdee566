import Verif.Lemmas.Ergodic
import Verif.Props.PrimalDual
import Verif.Props.Splitting

/-! # C106: how fast the splitting solvers approach the solution

The bounds are for the averages of the iterates (`callback` receives every iterate), for every starting point and every number of iterations. -/

open scoped RealInnerProductSpace
open Finset

set_option linter.unusedSectionVars false

namespace Verif

variable {E H : Type} [NormedAddCommGroup E] [InnerProductSpace ℝ E] [NormedAddCommGroup H] [InnerProductSpace ℝ H]

/-! ## PrimalDual -/

section PD

variable {f : ProxOp E} {g : ProxOp H} {F : XFun E} {G : XFun H} {A : LinOp E H} {τ μ K : ℝ}

lemma proxdualExact_map {g : ProxOp H} {G : XFun H} (h : ProxdualExact g G) {σ : ℝ} (hσ : 0 < σ) :
    ∃ D : H → H, (∀ x, g.proxdual x σ = .ok (D x)) ∧ ∀ x, IsProx G σ x (D x) := by
  choose D h1 h2 using fun x => h x σ hσ
  exact ⟨D, h1, h2⟩

/-- What one primal and one dual step give. -/
lemma pd_step {Gc : XFun H} (hF : F.Convex) (hG : Gc.Convex) (hτ : 0 < τ) (hμ : 0 < μ) {z xn xp x' : E} {y yn yp xh : H} {yu : H}
    (h1 : IsProx F τ (xn - τ • (A.rmatvec yu + z)) xp) (h2 : IsProx Gc μ (yn + μ • xh) yp) (hx : x' ∈ F.dom) (hy : y ∈ Gc.dom) :
    2 * ((F.val xp + ⟪z, xp⟫ + ⟪A.matvec xp, y⟫ - Gc.val y) - (F.val x' + ⟪z, x'⟫ + ⟪A.matvec x', yp⟫ - Gc.val yp)) ≤
      (‖x' - xn‖ ^ 2 - ‖x' - xp‖ ^ 2 - ‖xn - xp‖ ^ 2) / τ + (‖y - yn‖ ^ 2 - ‖y - yp‖ ^ 2 - ‖yn - yp‖ ^ 2) / μ +
        2 * (⟪A.matvec x' - A.matvec xp, yu - yp⟫ + ⟪A.matvec xp - xh, y - yp⟫) := by
  have s1 := (subgrad_of_isProx hF hτ h1).2 x' hx
  have s2 := (subgrad_of_isProx hG hμ h2).2 y hy
  rw [← inner_polar, ← inner_polar]
  rw [real_inner_smul_left] at s1 s2
  rw [show xn - τ • (A.rmatvec yu + z) - xp = (xn - xp) - τ • (A.rmatvec yu + z) by abel, inner_sub_left, real_inner_smul_left, inner_add_left] at s1
  rw [show yn + μ • xh - yp = (yn - yp) + μ • xh by abel, inner_add_left, real_inner_smul_left] at s2
  rw [real_inner_comm (x' - xp) (A.rmatvec yu), ← A.dot, map_sub] at s1
  have e1 : 1 / τ * (⟪xn - xp, x' - xp⟫ - τ * (⟪A.matvec x' - A.matvec xp, yu⟫ + ⟪z, x' - xp⟫)) =
      ⟪xn - xp, x' - xp⟫ / τ - (⟪A.matvec x' - A.matvec xp, yu⟫ + ⟪z, x' - xp⟫) := by field_simp
  have e2 : 1 / μ * (⟪yn - yp, y - yp⟫ + μ * ⟪xh, y - yp⟫) = ⟪yn - yp, y - yp⟫ / μ + ⟪xh, y - yp⟫ := by field_simp
  rw [e1] at s1
  rw [e2] at s2
  have e3 : -(2 * ⟪xn - xp, x' - xp⟫) / τ = -2 * (⟪xn - xp, x' - xp⟫ / τ) := by ring
  have e4 : -(2 * ⟪yn - yp, y - yp⟫) / μ = -2 * (⟪yn - yp, y - yp⟫ / μ) := by ring
  rw [e3, e4]
  simp only [inner_sub_left, inner_sub_right] at s1 s2 ⊢
  linarith

/-- The Lagrangian gap, for every number of iterations. -/
lemma pd_gap_sum (hF : F.Convex) {Gc : XFun H} (hG : Gc.Convex) (hτ : 0 < τ) (hμ : 0 < μ) (hK : 0 ≤ K) (hA : ∀ v, ‖A.matvec v‖ ≤ K * ‖v‖)
    (hc : τ * μ * K ^ 2 ≤ 1) {P : E → E} {D : H → H} (hP : ∀ x, IsProx F τ x (P x)) (hD : ∀ y, IsProx Gc μ y (D y)) {X Xh : ℕ → E} {Y : ℕ → H} {z : E}
    {gfirst : Bool} (hXh0 : Xh 0 = X 0) (hXh : ∀ n, Xh (n + 1) = X (n + 1) + (1 : ℝ) • (X (n + 1) - X n))
    (ht : gfirst = true → ∀ n, Y (n + 1) = D (Y n + μ • A.matvec (Xh n)) ∧ X (n + 1) = P (X n - τ • (A.rmatvec (Y (n + 1)) + z)))
    (hfl : gfirst = false → ∀ n, X (n + 1) = P (X n - τ • (A.rmatvec (Y n) + z)) ∧ Y (n + 1) = D (Y n + μ • A.matvec (Xh (n + 1))))
    {x' : E} {y : H} (hx : x' ∈ F.dom) (hy : y ∈ Gc.dom) (N : ℕ) :
    ∑ k ∈ range N, 2 * ((F.val (X (k + 1)) + ⟪z, X (k + 1)⟫ + ⟪A.matvec (X (k + 1)), y⟫ - Gc.val y) -
      (F.val x' + ⟪z, x'⟫ + ⟪A.matvec x', Y (k + 1)⟫ - Gc.val (Y (k + 1)))) ≤
      ‖x' - X 0‖ ^ 2 / τ + ‖y - Y 0‖ ^ 2 / μ - (if gfirst then 0 else 2 * ⟪A.matvec (x' - X 0), y - Y 0⟫) := by
  cases gfirst with
  | false =>
    have hfl := hfl rfl
    refine sum_telescope (V := fun n => ‖x' - X n‖ ^ 2 / τ + ‖y - Y n‖ ^ 2 / μ - (if false then 0 else 2 * ⟪A.matvec (x' - X n), y - Y n⟫))
      (fun n => ?_) (fun n => ?_) N
    · have h1 := hP (X n - τ • (A.rmatvec (Y n) + z))
      have h2 := hD (Y n + μ • A.matvec (Xh (n + 1)))
      rw [← (hfl n).1] at h1
      rw [← (hfl n).2] at h2
      have h3 := pd_step (A := A) hF hG hτ hμ h1 h2 hx hy
      have h4 := cross_bound hτ hμ hK hA hc (X n - X (n + 1)) (Y n - Y (n + 1))
      have h5 := (abs_le.1 (le_refl |⟪A.matvec (X n - X (n + 1)), Y n - Y (n + 1)⟫|)).2
      rw [hXh n, one_smul, map_add, map_sub] at h3
      simp only [Bool.false_eq_true, if_false]
      simp only [map_sub, inner_sub_left, inner_sub_right, inner_add_left, sub_div] at h3 h4 h5 ⊢
      linarith
    · have h4 := cross_bound hτ hμ hK hA hc (x' - X n) (y - Y n)
      have h5 := (abs_le.1 (le_refl |⟪A.matvec (x' - X n), y - Y n⟫|)).2
      simp only [Bool.false_eq_true, if_false]
      linarith
  | true =>
    have ht := ht rfl
    let W : ℕ → E := fun n => Xh n - X n
    have hW0 : W 0 = 0 := by simp only [W, hXh0, sub_self]
    have hW : ∀ n, W (n + 1) = X (n + 1) - X n := fun n => by simp only [W, hXh, one_smul, add_sub_cancel_left]
    have h0 := sum_telescope (a := fun k => 2 * ((F.val (X (k + 1)) + ⟪z, X (k + 1)⟫ + ⟪A.matvec (X (k + 1)), y⟫ - Gc.val y) -
        (F.val x' + ⟪z, x'⟫ + ⟪A.matvec x', Y (k + 1)⟫ - Gc.val (Y (k + 1)))))
      (V := fun n => ‖x' - X n‖ ^ 2 / τ + ‖y - Y n‖ ^ 2 / μ + ‖W n‖ ^ 2 / τ - 2 * ⟪A.matvec (W n), y - Y n⟫)
      (fun n => ?_) (fun n => ?_) N
    · simpa [hW0] using h0
    · have h2 := hD (Y n + μ • A.matvec (Xh n))
      have h1 := hP (X n - τ • (A.rmatvec (Y (n + 1)) + z))
      rw [← (ht n).1] at h2
      rw [← (ht n).2] at h1
      have h3 := pd_step (A := A) hF hG hτ hμ h1 h2 hx hy
      have h4 := cross_bound hτ hμ hK hA hc (W n) (Y n - Y (n + 1))
      have h5 := (abs_le.1 (le_refl |⟪A.matvec (W n), Y n - Y (n + 1)⟫|)).1
      have e : Xh n = X n + W n := by simp only [W]; abel
      simp only [e, map_add] at h3
      simp only [hW]
      rw [norm_sub_rev (X (n + 1)) (X n)]
      simp only [map_sub, inner_sub_left, inner_sub_right, inner_add_left, sub_div, sub_self, inner_zero_right] at h3 h4 h5 ⊢
      linarith
    · have h4 := cross_bound hτ hμ hK hA hc (W n) (y - Y n)
      have h5 := (abs_le.1 (le_refl |⟪A.matvec (W n), y - Y n⟫|)).2
      have : 0 ≤ ‖x' - X n‖ ^ 2 / τ := by positivity
      linarith

/-- C106: the saddle-point gap of the averaged iterates of `PrimalDual` (`theta = 1`, `tau·mu·‖A‖² ≤ 1`, either order) is at most a constant over the
number of iterations: against every primal point `x` and every dual point `y`. -/
theorem C106_pd_gap (hF : F.Convex) (hf : ProxExact f F) (hg : ProxExact g G) (hd : ProxdualExact g G.conj) (hτ : 0 < τ) (hμ : 0 < μ) (hK : 0 ≤ K)
    (hA : ∀ v, ‖A.matvec v‖ ≤ K * ‖v‖) (hc : τ * μ * K ^ 2 ≤ 1) (z : Option E) (gfirst : Bool) (x0 : E) (y0 : Option H) (R : ℕ → PDState E H)
    (hR : ∀ n, PrimalDual f g A x0 y0 z (.scalar τ) (.scalar μ) 1 n gfirst = .ok (R n)) (N : ℕ) (hN : 0 < N) (x : E) (hx : x ∈ F.dom) (y : H)
    (hy : y ∈ G.conj.dom) :
    avg (fun k => (R (k + 1)).x) N ∈ F.dom ∧ avg (fun k => (R (k + 1)).y) N ∈ G.conj.dom ∧
      lagrangian F G A.matvec (z.getD 0) (avg (fun k => (R (k + 1)).x) N) y - lagrangian F G A.matvec (z.getD 0) x (avg (fun k => (R (k + 1)).y) N) ≤
        (‖x - x0‖ ^ 2 / τ + ‖y - y0.getD 0‖ ^ 2 / μ - (if gfirst then 0 else 2 * ⟪A.matvec (x - x0), y - y0.getD 0⟫)) / (2 * N) := by
  obtain ⟨P, hP, hP'⟩ := proxExact_map hf hτ
  obtain ⟨D, hD, hD'⟩ := proxdualExact_map hd hμ
  obtain ⟨X, Y, Xh, hX0, hXh0, hY0, hXh, ht, hfl, h⟩ := pd_traj (A := A) hP hD x0 y0 z 1 gfirst
  have hRn : ∀ n, R n = ⟨X n, Y n, Xh n, (List.range n).map fun i => (X (i + 1), Y (i + 1))⟩ := fun n => by
    have := (hR n).symm.trans (h n); injection this
  have hGc : G.conj.Convex := by
    obtain ⟨p, -, hp⟩ := hg 0 1 one_pos
    exact conj_convex ⟨p, hp.1⟩
  have hXd : ∀ k, X (k + 1) ∈ F.dom := fun k => by
    cases gfirst with
    | true => rw [(ht rfl k).2]; exact (hP' _).1
    | false => rw [(hfl rfl k).1]; exact (hP' _).1
  have hYd : ∀ k, Y (k + 1) ∈ G.conj.dom := fun k => by
    cases gfirst with
    | true => rw [(ht rfl k).1]; exact (hD' _).1
    | false => rw [(hfl rfl k).2]; exact (hD' _).1
  simp only [hRn]
  refine ⟨avg_dom hF hXd hN, avg_dom hGc hYd hN, ?_⟩
  have hs := pd_gap_sum (A := A) hF hGc hτ hμ hK hA hc hP' hD' (hXh0.trans hX0.symm) hXh ht hfl hx hy N
  rw [hX0, hY0] at hs
  have a1 := avg_le hF hXd hN
  have a2 := avg_le hGc hYd hN
  have hN' : (0 : ℝ) < N := by exact_mod_cast hN
  rw [le_div_iff₀ (by positivity)]
  refine le_trans ?_ hs
  rw [← mul_sum, sum_sub_distrib, sum_sub_distrib, sum_sub_distrib]
  simp only [sum_add_distrib, sum_const, card_range, nsmul_eq_mul]
  unfold lagrangian
  have b1 : ⟪z.getD 0, avg (fun k => X (k + 1)) N⟫ * N = ∑ k ∈ range N, ⟪z.getD 0, X (k + 1)⟫ := by rw [inner_avg]; field_simp
  have b2 : ⟪A.matvec (avg (fun k => X (k + 1)) N), y⟫ * N = ∑ k ∈ range N, ⟪A.matvec (X (k + 1)), y⟫ := by
    rw [avg_map, real_inner_comm, inner_avg]; field_simp; exact sum_congr rfl fun _ _ => real_inner_comm _ _
  have b3 : ⟪A.matvec x, avg (fun k => Y (k + 1)) N⟫ * N = ∑ k ∈ range N, ⟪A.matvec x, Y (k + 1)⟫ := by rw [inner_avg]; field_simp
  have a1' := mul_le_mul_of_nonneg_right a1 hN'.le
  have a2' := mul_le_mul_of_nonneg_right a2 hN'.le
  rw [one_div, mul_comm (N : ℝ)⁻¹, mul_assoc, inv_mul_cancel₀ hN'.ne', mul_one] at a1' a2'
  nlinarith

lemma conj_of_subgrad {G : XFun H} {w s : H} (h : IsSubgrad G w s) : s ∈ G.conj.dom ∧ G.conj.val s = ⟪s, w⟫ - G.val w := by
  have hub : ∀ a ∈ (fun v => ⟪s, v⟫ - G.val v) '' G.dom, a ≤ ⟪s, w⟫ - G.val w := by
    rintro a ⟨v, hv, rfl⟩
    have := h.2 v hv
    rw [inner_sub_right] at this
    simp only; linarith
  exact ⟨⟨_, hub⟩, le_antisymm (csSup_le ⟨_, _, h.1, rfl⟩ hub) (le_csSup ⟨_, hub⟩ ⟨_, h.1, rfl⟩)⟩

/-- C106: when `G` is a convex function with Lipschitz constant `M` (a norm, for instance), the objective at the averaged primal iterate of `PrimalDual`
is within a constant over `N` of its value at any point, the minimiser included. -/
theorem C106_pd_objective [FiniteDimensional ℝ H] {φ : H → ℝ} {M : ℝ} (hF : F.Convex) (hφ : ConvexOn ℝ Set.univ φ) (hM : 0 ≤ M)
    (hL : ∀ v w, |φ v - φ w| ≤ M * ‖v - w‖) (hf : ProxExact f F) (hg : ProxExact g (XFun.ofReal φ)) (hd : ProxdualExact g (XFun.ofReal φ).conj)
    (hτ : 0 < τ) (hμ : 0 < μ) (hK : 0 ≤ K) (hA : ∀ v, ‖A.matvec v‖ ≤ K * ‖v‖) (hc : τ * μ * K ^ 2 ≤ 1) (z : Option E) (gfirst : Bool) (x0 : E)
    (y0 : Option H) (R : ℕ → PDState E H) (hR : ∀ n, PrimalDual f g A x0 y0 z (.scalar τ) (.scalar μ) 1 n gfirst = .ok (R n)) (N : ℕ) (hN : 0 < N)
    (x : E) (hx : x ∈ F.dom) :
    (compObj F (XFun.ofReal φ) A.matvec (z.getD 0)).val (avg (fun k => (R (k + 1)).x) N) - (compObj F (XFun.ofReal φ) A.matvec (z.getD 0)).val x ≤
      (‖x - x0‖ ^ 2 / τ + (M + ‖y0.getD 0‖) ^ 2 / μ) / N := by
  set xb := avg (fun k => (R (k + 1)).x) N with hxb
  obtain ⟨s, hs, hsM⟩ := subgrad_lipschitz hφ hM hL (A.matvec xb)
  obtain ⟨hsd, hsv⟩ := conj_of_subgrad hs
  obtain ⟨-, hyb, hgap⟩ := C106_pd_gap hF hf hg hd hτ hμ hK hA hc z gfirst x0 y0 R hR N hN x hx s hsd
  set yb := avg (fun k => (R (k + 1)).y) N
  have hfy : ⟪yb, A.matvec x⟫ - φ (A.matvec x) ≤ (XFun.ofReal φ).conj.val yb := le_csSup hyb ⟨A.matvec x, trivial, rfl⟩
  have hN' : (0 : ℝ) < N := by exact_mod_cast hN
  have h1 := cross_bound hτ hμ hK hA hc (x - x0) (s - y0.getD 0)
  have h2 := (abs_le.1 (le_refl |⟪A.matvec (x - x0), s - y0.getD 0⟫|)).1
  have h3 : ‖s - y0.getD 0‖ ^ 2 / μ ≤ (M + ‖y0.getD 0‖) ^ 2 / μ := by
    refine div_le_div_of_nonneg_right (pow_le_pow_left₀ (norm_nonneg _) ((norm_sub_le _ _).trans (by linarith)) 2) hμ.le
  have h4 : (‖x - x0‖ ^ 2 / τ + ‖s - y0.getD 0‖ ^ 2 / μ - (if gfirst then 0 else 2 * ⟪A.matvec (x - x0), s - y0.getD 0⟫)) / (2 * N) ≤
      (‖x - x0‖ ^ 2 / τ + (M + ‖y0.getD 0‖) ^ 2 / μ) / N := by
    rw [div_le_div_iff₀ (by positivity) hN']
    have h5 : 0 ≤ ‖x - x0‖ ^ 2 / τ := by positivity
    have h6 : 0 ≤ ‖s - y0.getD 0‖ ^ 2 / μ := by positivity
    have : ‖x - x0‖ ^ 2 / τ + ‖s - y0.getD 0‖ ^ 2 / μ - (if gfirst then 0 else 2 * ⟪A.matvec (x - x0), s - y0.getD 0⟫) ≤
        2 * (‖x - x0‖ ^ 2 / τ + (M + ‖y0.getD 0‖) ^ 2 / μ) := by
      cases gfirst <;> simp only [Bool.false_eq_true, if_false, if_true] <;> linarith
    nlinarith
  simp only [lagrangian, hsv] at hgap
  simp only [compObj]
  have e1 : ⟪A.matvec xb, s⟫ = ⟪s, A.matvec xb⟫ := real_inner_comm _ _
  have e2 : ⟪A.matvec x, yb⟫ = ⟪yb, A.matvec x⟫ := real_inner_comm _ _
  simp only [XFun.ofReal] at hgap hfy ⊢
  linarith

end PD

/-! ## ADMM -/

section ADMM

variable {f g : ProxOp E} {F G : XFun E} {τ η : ℝ}

/-- One iteration, `f` first: `a`, `b` are the two proximal points, `c` the point the first one starts from, `u` the scaled multiplier. -/
lemma admm_gap_step (hF : F.Convex) (hG : G.Convex) (hτ : 0 < τ) {a b c u x l : E} (h1 : IsProx F τ (c - u) a) (h2 : IsProx G τ (a + u) b)
    (hx : x ∈ F.dom) (hx' : x ∈ G.dom) :
    2 * τ * (F.val a + G.val b + ⟪l, a - b⟫ - (F.val x + G.val x)) ≤
      (‖x - c‖ ^ 2 + ‖τ • l - u‖ ^ 2) - (‖x - b‖ ^ 2 + ‖τ • l - (u + a - b)‖ ^ 2) := by
  have s1 := (subgrad_of_isProx hF hτ h1).2 x hx
  have s2 := (subgrad_of_isProx hG hτ h2).2 x hx'
  rw [real_inner_smul_left] at s1 s2
  have k1 : τ * F.val a + ⟪c - u - a, x - a⟫ ≤ τ * F.val x := by
    have := mul_le_mul_of_nonneg_left s1 hτ.le
    rwa [mul_add, ← mul_assoc τ, mul_one_div_cancel hτ.ne', one_mul] at this
  have k2 : τ * G.val b + ⟪a + u - b, x - b⟫ ≤ τ * G.val x := by
    have := mul_le_mul_of_nonneg_left s2 hτ.le
    rwa [mul_add, ← mul_assoc τ, mul_one_div_cancel hτ.ne', one_mul] at this
  have p1 := inner_polar c b x
  have p2 := inner_polar u (u + a - b) (τ • l)
  have q : 0 ≤ ‖(c - b) - (a - b)‖ ^ 2 := sq_nonneg _
  rw [norm_sub_sq_real] at q
  have e : u - (u + a - b) = -(a - b) := by abel
  rw [e, norm_neg] at p2
  have e2 : τ * ⟪l, a - b⟫ = ⟪τ • l, a - b⟫ := (real_inner_smul_left _ _ _).symm
  have key : 2 * (τ * F.val a + τ * G.val b + ⟪τ • l, a - b⟫ - (τ * F.val x + τ * G.val x)) ≤
      (-(2 * ⟪c - b, x - b⟫) + ‖c - b‖ ^ 2) + (-(2 * ⟪-(a - b), τ • l - (u + a - b)⟫) + ‖a - b‖ ^ 2) := by
    have r1 : ⟪c - u - a, x - a⟫ + ⟪a + u - b, x - b⟫ = ⟪c - b, x - b⟫ - ⟪c - b, a - b⟫ + ⟪a - b, u + a - b⟫ := by
      simp only [inner_sub_left, inner_sub_right, inner_add_left, inner_add_right]
      rw [real_inner_comm u a, real_inner_comm u b]; ring
    have r2 : ⟪-(a - b), τ • l - (u + a - b)⟫ = -⟪τ • l, a - b⟫ + ⟪a - b, u + a - b⟫ := by
      rw [inner_neg_left, inner_sub_right, real_inner_comm]; ring
    rw [r2]
    linarith
  rw [p1, p2] at key
  nlinarith [key, e2]

/-- C106: the averaged iterates of `ADMM`, in either order: the sum of the two functions plus any multiplier times the mismatch `x - z` exceeds the
objective at any point by at most a constant over `N`. -/
theorem C106_admm_gap (hF : F.Convex) (hG : G.Convex) (hf : ProxExact f F) (hg : ProxExact g G) (hτ : 0 < τ) (gfirst : Bool) (x0 z0 : Option E)
    (R : ℕ → SplitState E) (hR : ∀ n, ADMM f g x0 z0 τ n gfirst = .ok (R n)) (N : ℕ) (hN : 0 < N) (x : E) (hx : x ∈ (F.add G).dom) (l : E) :
    avg (fun k => (R (k + 1)).x) N ∈ F.dom ∧ avg (fun k => (R (k + 1)).z) N ∈ G.dom ∧
      F.val (avg (fun k => (R (k + 1)).x) N) + G.val (avg (fun k => (R (k + 1)).z) N) +
          ⟪l, avg (fun k => (R (k + 1)).x) N - avg (fun k => (R (k + 1)).z) N⟫ - (F.add G).val x ≤
        (‖x - (if gfirst then (R 0).x else (R 0).z)‖ ^ 2 / τ + τ * ‖l‖ ^ 2) / (2 * N) := by
  obtain ⟨Pf, hPf, hPf'⟩ := proxExact_map hf hτ
  obtain ⟨Pg, hPg, hPg'⟩ := proxExact_map hg hτ
  obtain ⟨xi, zi, hinit⟩ : ∃ x z, x0z0Init x0 z0 = .ok (x, z) := by
    rcases x0 with _ | x <;> rcases z0 with _ | z
    · have := hR 0
      simp [ADMM, x0z0Init, Bind.bind, Except.bind] at this
    all_goals exact ⟨_, _, rfl⟩
  obtain ⟨S, -, -, hu0, hu, ht, hff, -, hS⟩ := admm_traj hPf hPg gfirst x0 z0 xi zi hinit
  have hRS : ∀ n, R n = S n := fun n => by
    have := (hR n).symm.trans (hS n); injection this
  simp only [hRS]
  have hxd : ∀ k, (S (k + 1)).x ∈ F.dom := fun k => by
    cases gfirst with
    | true => rw [(ht rfl k).2]; exact (hPf' _).1
    | false => rw [(hff rfl k).1]; exact (hPf' _).1
  have hzd : ∀ k, (S (k + 1)).z ∈ G.dom := fun k => by
    cases gfirst with
    | true => rw [(ht rfl k).1]; exact (hPg' _).1
    | false => rw [(hff rfl k).2]; exact (hPg' _).1
  refine ⟨avg_dom hF hxd hN, avg_dom hG hzd hN, ?_⟩
  have hs : ∑ k ∈ range N, 2 * τ * (F.val (S (k + 1)).x + G.val (S (k + 1)).z + ⟪l, (S (k + 1)).x - (S (k + 1)).z⟫ - (F.val x + G.val x)) ≤
      ‖x - (if gfirst then (S 0).x else (S 0).z)‖ ^ 2 + ‖τ • l - (S 0).u‖ ^ 2 := by
    cases gfirst with
    | false =>
      refine sum_telescope (V := fun n => ‖x - (if false then (S n).x else (S n).z)‖ ^ 2 + ‖τ • l - (S n).u‖ ^ 2) (fun n => ?_) (fun n => by positivity) N
      simp only [Bool.false_eq_true, if_false]
      have h1 := hPf' ((S n).z - (S n).u)
      have h2 := hPg' ((S (n + 1)).x + (S n).u)
      rw [← (hff rfl n).1] at h1
      rw [← (hff rfl n).2] at h2
      have := admm_gap_step (l := l) hF hG hτ h1 h2 hx.1 hx.2
      rw [hu n]
      exact this
    | true =>
      refine sum_telescope (V := fun n => ‖x - (if true then (S n).x else (S n).z)‖ ^ 2 + ‖τ • l - (S n).u‖ ^ 2) (fun n => ?_) (fun n => by positivity) N
      simp only [if_true]
      have h1 := hPg' ((S n).x + (S n).u)
      have h2 := hPf' ((S (n + 1)).z - (S n).u)
      rw [← (ht rfl n).1] at h1
      rw [← (ht rfl n).2] at h2
      have := admm_gap_step (l := -l) (u := -(S n).u) (c := (S n).x) (a := (S (n + 1)).z) (b := (S (n + 1)).x) hG hF hτ (by rwa [sub_neg_eq_add])
        (by rwa [← sub_eq_add_neg]) hx.2 hx.1
      rw [hu n]
      have e1 : τ • -l - -(S n).u = -(τ • l - (S n).u) := by rw [smul_neg]; abel
      have e2 : τ • -l - (-(S n).u + (S (n + 1)).z - (S (n + 1)).x) = -(τ • l - ((S n).u + (S (n + 1)).x - (S (n + 1)).z)) := by rw [smul_neg]; abel
      have e3 : ⟪-l, (S (n + 1)).z - (S (n + 1)).x⟫ = ⟪l, (S (n + 1)).x - (S (n + 1)).z⟫ := by
        rw [inner_neg_left, ← inner_neg_right, neg_sub]
      rw [e1, e2, norm_neg, norm_neg, e3] at this
      linarith
  rw [hu0, sub_zero, norm_smul, Real.norm_of_nonneg hτ.le, mul_pow] at hs
  have a1 := avg_le hF hxd hN
  have a2 := avg_le hG hzd hN
  have hN' : (0 : ℝ) < N := by exact_mod_cast hN
  have b1 : ⟪l, avg (fun k => (S (k + 1)).x) N - avg (fun k => (S (k + 1)).z) N⟫ * N = ∑ k ∈ range N, ⟪l, (S (k + 1)).x - (S (k + 1)).z⟫ := by
    rw [avg_sub, inner_avg]; field_simp
  have a1' := mul_le_mul_of_nonneg_right a1 hN'.le
  have a2' := mul_le_mul_of_nonneg_right a2 hN'.le
  rw [one_div, mul_comm (N : ℝ)⁻¹, mul_assoc, inv_mul_cancel₀ hN'.ne', mul_one] at a1' a2'
  rw [← mul_sum, sum_sub_distrib, sum_add_distrib, sum_add_distrib, sum_const, card_range, nsmul_eq_mul, ← b1] at hs
  rw [le_div_iff₀ (by positivity)]
  set Q := ‖x - (if gfirst then (S 0).x else (S 0).z)‖ ^ 2
  have e : Q / τ + τ * ‖l‖ ^ 2 = (Q + τ ^ 2 * ‖l‖ ^ 2) / τ := by field_simp
  rw [e, le_div_iff₀ hτ]
  refine le_trans ?_ hs
  have := mul_le_mul_of_nonneg_left (add_le_add a1' a2') (by positivity : 0 ≤ 2 * τ)
  simp only [XFun.add]
  nlinarith

/-- C106: for a problem with a certified minimiser `(a, s)` the two averages of `ADMM` agree up to a constant over `N`, and the sum of the two functions at
the averages is within a constant over `N` of the minimum, on both sides. -/
theorem C106_admm_rate (hF : F.Convex) (hG : G.Convex) (hf : ProxExact f F) (hg : ProxExact g G) (hτ : 0 < τ) (gfirst : Bool) (x0 z0 : Option E)
    (R : ℕ → SplitState E) (hR : ∀ n, ADMM f g x0 z0 τ n gfirst = .ok (R n)) (N : ℕ) (hN : 0 < N) (a s : E) (has : IsCertified F G a s) :
    let c := if gfirst then (R 0).x else (R 0).z
    let B := (‖a - c‖ ^ 2 / τ + τ * (‖s‖ + 1) ^ 2) / (2 * N)
    let xb := avg (fun k => (R (k + 1)).x) N
    let zb := avg (fun k => (R (k + 1)).z) N
    ‖xb - zb‖ ≤ B ∧ F.val xb + G.val zb - (F.add G).val a ≤ ‖a - c‖ ^ 2 / (2 * τ * N) ∧ -(‖s‖ * B) ≤ F.val xb + G.val zb - (F.add G).val a := by
  intro c B xb zb
  have hN' : (0 : ℝ) < N := by exact_mod_cast hN
  have hgap := C106_admm_gap hF hG hf hg hτ gfirst x0 z0 R hR N hN a ⟨has.1.1, has.2.1⟩
  obtain ⟨hxd, hzd, h0⟩ := hgap 0
  have s1 := has.1.2 xb hxd
  have s2 := has.2.2 zb hzd
  have hlow : -⟪s, xb - zb⟫ ≤ F.val xb + G.val zb - (F.add G).val a := by
    simp only [XFun.add]
    simp only [inner_neg_left, inner_sub_right] at s1 s2 ⊢
    linarith
  have hv : ‖xb - zb‖ ≤ B := by
    have := violation_bound (r := xb - zb) (s := s) (d := F.val xb + G.val zb - (F.add G).val a) (B := ‖a - c‖ ^ 2 / τ / (2 * N)) (κ := τ / (2 * N))
      (by positivity) hlow (fun l => by
        have := (hgap l).2.2
        rw [add_div] at this
        have e : τ * ‖l‖ ^ 2 / (2 * N) = τ / (2 * N) * ‖l‖ ^ 2 := by ring
        linarith)
    refine this.trans (le_of_eq ?_)
    simp only [B]; ring
  refine ⟨hv, ?_, ?_⟩
  · rw [inner_zero_left, norm_zero] at h0
    refine le_trans (by linarith) (h0.trans (le_of_eq ?_))
    simp only [c]; field_simp; ring
  · have h1 := real_inner_le_norm s (xb - zb)
    have h2 := mul_le_mul_of_nonneg_left hv (norm_nonneg s)
    linarith

/-- C106: when `G` is a convex function with Lipschitz constant `M`, the objective at the averaged `x` of `ADMM` is within a constant over `N` of its value
at any point. -/
theorem C106_admm_objective [FiniteDimensional ℝ E] {φ : E → ℝ} {M : ℝ} (hF : F.Convex) (hφ : ConvexOn ℝ Set.univ φ) (hM : 0 ≤ M)
    (hL : ∀ v w, |φ v - φ w| ≤ M * ‖v - w‖) (hf : ProxExact f F) (hg : ProxExact g (XFun.ofReal φ)) (hτ : 0 < τ) (gfirst : Bool) (x0 z0 : Option E)
    (R : ℕ → SplitState E) (hR : ∀ n, ADMM f g x0 z0 τ n gfirst = .ok (R n)) (N : ℕ) (hN : 0 < N) (x : E) (hx : x ∈ F.dom) :
    F.val (avg (fun k => (R (k + 1)).x) N) + φ (avg (fun k => (R (k + 1)).x) N) - (F.val x + φ x) ≤
      (‖x - (if gfirst then (R 0).x else (R 0).z)‖ ^ 2 / τ + τ * M ^ 2) / (2 * N) := by
  set xb := avg (fun k => (R (k + 1)).x) N with hxb
  obtain ⟨s, hs, hsM⟩ := subgrad_lipschitz hφ hM hL xb
  have hgap := (C106_admm_gap (G := XFun.ofReal φ) hF hφ hf hg hτ gfirst x0 z0 R hR N hN x ⟨hx, trivial⟩ s).2.2
  set zb := avg (fun k => (R (k + 1)).z) N
  have h1 := hs.2 zb trivial
  have hN' : (0 : ℝ) < N := by exact_mod_cast hN
  have h2 : (‖x - (if gfirst then (R 0).x else (R 0).z)‖ ^ 2 / τ + τ * ‖s‖ ^ 2) / (2 * N) ≤
      (‖x - (if gfirst then (R 0).x else (R 0).z)‖ ^ 2 / τ + τ * M ^ 2) / (2 * N) := by
    gcongr
  simp only [XFun.add, XFun.ofReal, inner_sub_right] at hgap h1
  linarith

end ADMM

end Verif
