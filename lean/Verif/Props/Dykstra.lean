import Verif.Spec.Contract
import Verif.Spec.Optim
import Verif.Model.Dykstra
import Verif.Lemmas.Dykstra
import Verif.Lemmas.Loop
import Verif.Lemmas.Product
import Verif.Lemmas.Saddle
import Verif.Props.Lasso

/-! # C37: Dykstra's iterations -/

open scoped RealInnerProductSpace
open Filter Topology

set_option linter.unusedSectionVars false

namespace Verif

variable {E : Type} [NormedAddCommGroup E] [InnerProductSpace ℝ E] {m : ℕ}

lemma sumObj_subgrad {F : Fin m → XFun E} {x : E} {s : Fin m → E} (h : ∀ i, IsSubgrad (F i) x (s i)) : IsSubgrad (sumObj F) x (∑ i, s i) := by
  refine ⟨fun i => (h i).1, fun y hy => ?_⟩
  have h1 : ∑ i, ((F i).val x + ⟪s i, y - x⟫) ≤ ∑ i, (F i).val y := Finset.sum_le_sum fun i _ => (h i).2 y (hy i)
  rw [Finset.sum_add_distrib, ← sum_inner] at h1
  exact h1

lemma add_subgrad {F G : XFun E} {x s t : E} (hs : IsSubgrad F x s) (ht : IsSubgrad G x t) : IsSubgrad (F.add G) x (s + t) := by
  refine ⟨⟨hs.1, ht.1⟩, fun y hy => ?_⟩
  have h1 := hs.2 y hy.1
  have h2 := ht.2 y hy.2
  simp only [XFun.add]
  rw [inner_add_left]
  linarith

/-! ## Two operators -/

section two
variable {step1 step2 : E → Py E} {F G : XFun E} {τ : ℝ}

lemma dyk_body_eq {tol : ℝ} {mx : E → ℝ} {i : ℕ} {s s' : DykState E} {b : Bool} (h : dykstraTwo.body step1 step2 tol mx i s = .ok (s', b)) :
    ∃ y x, step1 (s.x + s.p) = .ok y ∧ step2 (y + s.q) = .ok x ∧ s' = ⟨x, some y, s.p + s.x - y, s.q + y - x⟩ := by
  unfold dykstraTwo.body at h
  cases h1 : step1 (s.x + s.p) with
  | error e => rw [h1] at h; cases h
  | ok y =>
    rw [h1] at h
    cases h2 : step2 (y + s.q) with
    | error e => simp only [Bind.bind, Except.bind, h2] at h; cases h
    | ok x =>
      simp only [Bind.bind, Except.bind, h2] at h
      cases h
      exact ⟨y, x, rfl, h2, rfl⟩

/-- C37 (two operators): whatever the two steps compute, after any number of iterations `x + p + q` is the input. -/
theorem C37_two_conserved (step1 step2 : E → Py E) (x0 : E) (n : ℕ) (tol : ℝ) (mx : E → ℝ) (r : DykState E)
    (hr : dykstraTwo x0 step1 step2 n tol mx = .ok r) : r.x + r.p + r.q = x0 := by
  refine forRange_inv (I := fun s : DykState E => s.x + s.p + s.q = x0) ?_ n 0 _ r (by simp) hr
  intro i s s' b hs h
  obtain ⟨y, x, -, -, rfl⟩ := dyk_body_eq h
  simp only
  rw [← hs]; abel

/-- After at least one iteration `p/τ` and `q/τ` are sub-gradients at `y` and `x`. -/
lemma dyk_subgrads (hF : F.Convex) (hG : G.Convex) (hτ : 0 < τ) (h1 : ∀ v p, step1 v = .ok p → IsProx F τ v p) (h2 : ∀ v p, step2 v = .ok p → IsProx G τ v p)
    (x0 : E) (n : ℕ) (tol : ℝ) (mx : E → ℝ) (r : DykState E) (hr : dykstraTwo x0 step1 step2 n tol mx = .ok r) (y : E) (hy : r.y = some y) :
    IsSubgrad F y ((1 / τ) • r.p) ∧ IsSubgrad G r.x ((1 / τ) • r.q) := by
  refine forRange_inv (I := fun s : DykState E => ∀ y, s.y = some y → IsSubgrad F y ((1 / τ) • s.p) ∧ IsSubgrad G s.x ((1 / τ) • s.q)) ?_ n 0 _ r
    (by simp) hr y hy
  intro i s s' b _ h
  obtain ⟨y, x, e1, e2, rfl⟩ := dyk_body_eq h
  intro y' hy'
  cases hy'
  have g1 := subgrad_of_isProx hF hτ (h1 _ _ e1)
  have g2 := subgrad_of_isProx hG hτ (h2 _ _ e2)
  rw [add_comm s.x] at g1
  rw [add_comm y] at g2
  exact ⟨g1, g2⟩

/-- C37 (two operators): whenever the two proximal steps of the last iteration agree (`y = x`, the situation the stopping test looks for), the point returned is
the proximal point of `F + G` at the input; for any number of iterations and any tolerance. -/
theorem C37_two_stationary (hF : F.Convex) (hG : G.Convex) (hτ : 0 < τ) (h1 : ∀ v p, step1 v = .ok p → IsProx F τ v p)
    (h2 : ∀ v p, step2 v = .ok p → IsProx G τ v p) (x0 : E) (n : ℕ) (tol : ℝ) (mx : E → ℝ) (r : DykState E)
    (hr : dykstraTwo x0 step1 step2 n tol mx = .ok r) (hy : r.y = some r.x) : IsUniqueProx (F.add G) τ x0 r.x := by
  obtain ⟨g1, g2⟩ := dyk_subgrads hF hG hτ h1 h2 x0 n tol mx r hr r.x hy
  refine isUniqueProx_of_subgrad hτ ?_
  have := add_subgrad g1 g2
  rw [← smul_add] at this
  rwa [← C37_two_conserved step1 step2 x0 n tol mx r hr, show r.x + r.p + r.q - r.x = r.p + r.q by abel]

/-- C37 (two operators): how far the returned point is from the proximal point `c` of `F + G` when the last two proximal steps disagree by `y - x`: the error is controlled
by their distance. -/
theorem C37_two_error_bound (hF : F.Convex) (hG : G.Convex) (hτ : 0 < τ) (h1 : ∀ v p, step1 v = .ok p → IsProx F τ v p)
    (h2 : ∀ v p, step2 v = .ok p → IsProx G τ v p) (x0 : E) (n : ℕ) (tol : ℝ) (mx : E → ℝ) (r : DykState E)
    (hr : dykstraTwo x0 step1 step2 n tol mx = .ok r) (y : E) (hy : r.y = some y) (c s t : E) (hs : IsSubgrad F c s) (ht : IsSubgrad G c t)
    (hc : c + τ • (s + t) = x0) : ‖r.x - c‖ ^ 2 ≤ ‖r.p - τ • s‖ * ‖y - r.x‖ := by
  obtain ⟨g1, g2⟩ := dyk_subgrads hF hG hτ h1 h2 x0 n tol mx r hr y hy
  have hcons := C37_two_conserved step1 step2 x0 n tol mx r hr
  have m1 : 0 ≤ ⟪r.p - τ • s, y - c⟫ := by
    have a := g1.2 c hs.1
    have b := hs.2 y g1.1
    have e : c - y = -(y - c) := by abel
    rw [e, inner_neg_right, real_inner_smul_left] at a
    rw [inner_sub_left, real_inner_smul_left]
    have : 0 ≤ τ * (1 / τ * ⟪r.p, y - c⟫ - ⟪s, y - c⟫) := mul_nonneg hτ.le (by linarith)
    have e2 : τ * (1 / τ * ⟪r.p, y - c⟫ - ⟪s, y - c⟫) = ⟪r.p, y - c⟫ - τ * ⟪s, y - c⟫ := by field_simp
    linarith
  have m2 : 0 ≤ ⟪r.q - τ • t, r.x - c⟫ := by
    have a := g2.2 c ht.1
    have b := ht.2 r.x g2.1
    have e : c - r.x = -(r.x - c) := by abel
    rw [e, inner_neg_right, real_inner_smul_left] at a
    rw [inner_sub_left, real_inner_smul_left]
    have : 0 ≤ τ * (1 / τ * ⟪r.q, r.x - c⟫ - ⟪t, r.x - c⟫) := mul_nonneg hτ.le (by linarith)
    have e2 : τ * (1 / τ * ⟪r.q, r.x - c⟫ - ⟪t, r.x - c⟫) = ⟪r.q, r.x - c⟫ - τ * ⟪t, r.x - c⟫ := by field_simp
    linarith
  have e1 : y - c = (y - r.x) + (r.x - c) := by abel
  have e2 : (r.p - τ • s) + (r.q - τ • t) = -(r.x - c) := by
    have : r.p + r.q = c + τ • (s + t) - r.x := by rw [hc, ← hcons]; abel
    rw [show (r.p - τ • s) + (r.q - τ • t) = (r.p + r.q) - (τ • s + τ • t) by abel, this, smul_add]; abel
  rw [e1, inner_add_right] at m1
  have e3 : ⟪r.p - τ • s, r.x - c⟫ + ⟪r.q - τ • t, r.x - c⟫ = -‖r.x - c‖ ^ 2 := by
    rw [← inner_add_left, e2, inner_neg_left, real_inner_self_eq_norm_sq]
  have e4 := real_inner_le_norm (r.p - τ • s) (y - r.x)
  linarith

/-- The trajectory of `dykstra_two` when the stopping test is never met. -/
lemma dyk_traj {P Q : E → E} (h1 : ∀ v, step1 v = .ok (P v)) (h2 : ∀ v, step2 v = .ok (Q v)) (x0 : E) (mx : E → ℝ) (hmx : ∀ v, 0 ≤ mx v) :
    ∃ (X p q : ℕ → E), X 0 = x0 ∧ p 0 = 0 ∧ q 0 = 0 ∧ (∀ n, p (n + 1) = p n + X n - P (X n + p n)) ∧ (∀ n, X (n + 1) = Q (P (X n + p n) + q n)) ∧
      (∀ n, q (n + 1) = q n + P (X n + p n) - X (n + 1)) ∧ ∀ n, ∃ yo, dykstraTwo x0 step1 step2 n 0 mx = .ok ⟨X n, yo, p n, q n⟩ := by
  let nxt : DykState E → DykState E := fun s => ⟨Q (P (s.x + s.p) + s.q), some (P (s.x + s.p)), s.p + s.x - P (s.x + s.p),
    s.q + P (s.x + s.p) - Q (P (s.x + s.p) + s.q)⟩
  have hbody : ∀ i (s : DykState E), dykstraTwo.body step1 step2 0 mx i s = .ok (nxt s, false) := by
    intro i s
    have hno : ¬ max (mx ((nxt s).x - s.x)) (mx (P (s.x + s.p) - s.x)) < 0 := not_lt.2 (le_max_of_le_left (hmx _))
    simp only [dykstraTwo.body, h1, h2, Bind.bind, Except.bind, Pure.pure, Except.pure, nxt] at hno ⊢
    rw [decide_eq_false hno]
  obtain ⟨S, h0, -, h3, h4⟩ := forRange_traj_nobreak (dykstraTwo.body step1 step2 0 mx) (fun _ => True) (fun _ s s' => s' = nxt s)
    (fun i s _ => ⟨_, hbody i s, trivial, rfl⟩) ⟨x0, none, 0, 0⟩ trivial
  refine ⟨fun n => (S n).x, fun n => (S n).p, fun n => (S n).q, by simp [h0], by simp [h0], by simp [h0], fun n => by simp only [h3 n, nxt],
    fun n => by simp only [h3 n, nxt], fun n => by simp only [h3 n, nxt], fun n => ⟨(S n).y, h4 n⟩⟩

/-- Composition of two firmly non-expansive maps. -/
lemma firm_comp_fejer {A B : E → E} (hA : Firm A) (hB : Firm B) {c : E} (hc : B (A c) = c) (x : E) :
    ‖B (A x) - c‖ ^ 2 + 1 / 2 * ‖B (A x) - x‖ ^ 2 ≤ ‖x - c‖ ^ 2 := by
  have h1 := hA x c
  have h2 := hB (A x) (A c)
  rw [hc] at h2
  set a := A x - A c with ha
  set b := B (A x) - c with hb
  set d := x - c with hd
  have e1 : ‖d‖ ^ 2 = ‖a‖ ^ 2 + 2 * ⟪a, d - a⟫ + ‖d - a‖ ^ 2 := by
    conv_lhs => rw [show d = a + (d - a) by abel]
    rw [norm_add_sq_real]
  have e2 : ‖a‖ ^ 2 = ‖b‖ ^ 2 + 2 * ⟪b, a - b⟫ + ‖a - b‖ ^ 2 := by
    conv_lhs => rw [show a = b + (a - b) by abel]
    rw [norm_add_sq_real]
  have e3 : 0 ≤ ⟪a, d - a⟫ := by rw [inner_sub_right, real_inner_self_eq_norm_sq]; linarith
  have e4 : 0 ≤ ⟪b, a - b⟫ := by rw [inner_sub_right, real_inner_self_eq_norm_sq]; linarith
  have e5 : B (A x) - x = -((d - a) + (a - b)) := by rw [hd, hb]; abel
  have e6 : ‖(d - a) + (a - b)‖ ^ 2 ≤ 2 * (‖d - a‖ ^ 2 + ‖a - b‖ ^ 2) := by
    have := parallelogram_law_with_norm ℝ (d - a) (a - b)
    nlinarith [mul_self_nonneg ‖(d - a) - (a - b)‖]
  rw [e5, norm_neg]
  linarith

/-- C37 (two operators): convergence.  In finite dimension, with `tol = 0`, if the proximal point `c` of `F + G` at the input has a certificate
(`x0 - c = τ (s + t)` with sub-gradients `s` of `F` and `t` of `G` at `c`), the points returned converge to it. -/
theorem C37_two_converges [ProperSpace E] (hF : F.Convex) (hG : G.Convex) (hτ : 0 < τ) (h1 : ∀ v, ∃ p, step1 v = .ok p ∧ IsProx F τ v p)
    (h2 : ∀ v, ∃ p, step2 v = .ok p ∧ IsProx G τ v p) (x0 : E) (mx : E → ℝ) (hmx : ∀ v, 0 ≤ mx v) (c s t : E) (hs : IsSubgrad F c s)
    (ht : IsSubgrad G c t) (hc : c + τ • (s + t) = x0) (R : ℕ → DykState E) (hR : ∀ n, dykstraTwo x0 step1 step2 n 0 mx = .ok (R n)) :
    Tendsto (fun n => (R n).x) atTop (𝓝 c) := by
  choose P hP hP' using h1
  choose Q hQ hQ' using h2
  obtain ⟨X, p, q, hX0, hp0, hq0, hp, hX, hq, h⟩ := dyk_traj hP hQ x0 mx hmx
  have hRX : ∀ n, (R n).x = X n ∧ (R n).p = p n ∧ (R n).q = q n := fun n => by
    obtain ⟨yo, hn⟩ := h n
    rw [hR] at hn
    injection hn with hn
    rw [hn]; exact ⟨rfl, rfl, rfl⟩
  have hcons : ∀ n, X n + p n + q n = x0 := fun n => by
    have := C37_two_conserved step1 step2 x0 n 0 mx (R n) (hR n)
    rw [(hRX n).1, (hRX n).2.1, (hRX n).2.2] at this
    exact this
  have fP : Firm P := firm_prox hF hτ hP'
  have fQ : Firm Q := firm_prox hG hτ hQ'
  -- `q` follows the composition of `A q = x0 - (I - P)(x0 - q)` and `B v = v - Q v`
  set A : E → E := fun q => x0 - ((x0 - q) - P (x0 - q)) with hA
  set B : E → E := fun v => v - Q v with hB
  have fA : Firm A := fun u v => by
    have := fP (x0 - u) (x0 - v)
    have e : A u - A v = (u - v) + (P (x0 - u) - P (x0 - v)) := by rw [hA]; simp only; abel
    have e2 : x0 - u - (x0 - v) = -(u - v) := by abel
    rw [e2, inner_neg_right] at this
    rw [e, norm_add_sq_real, inner_add_left, real_inner_self_eq_norm_sq, real_inner_comm (P (x0 - u) - P (x0 - v)) (u - v)]
    linarith
  have fB : Firm B := fun u v => by
    have := fQ u v
    have e : B u - B v = (u - v) - (Q u - Q v) := by rw [hB]; simp only; abel
    rw [e, norm_sub_sq_real, inner_sub_left (u - v) (Q u - Q v) (u - v), real_inner_self_eq_norm_sq, real_inner_comm (Q u - Q v) (u - v)]
    linarith
  have hu : ∀ n, X n + p n = x0 - q n := fun n => by rw [← hcons n]; abel
  have hAq : ∀ n, A (q n) = x0 - p (n + 1) := fun n => by
    rw [hp n, hA]; simp only
    rw [add_comm (p n), hu n]
  have hBq : ∀ n, q (n + 1) = B (A (q n)) := fun n => by
    have e : P (X n + p n) + q n = x0 - p (n + 1) := by
      rw [hp n, ← hcons n]; abel
    rw [hAq n, hq n, hX n, hB]
    simp only
    rw [← e]; abel
  have hPc : P (c + τ • s) = c := by
    have : IsProx F τ (c + τ • s) c := by
      refine isProx_of_subgrad hτ ?_
      rw [add_sub_cancel_left, smul_smul, one_div_mul_cancel hτ.ne', one_smul]; exact hs
    exact IsProx.unique hF hτ this (hP' _)
  have hQc : Q (c + τ • t) = c := by
    have : IsProx G τ (c + τ • t) c := by
      refine isProx_of_subgrad hτ ?_
      rw [add_sub_cancel_left, smul_smul, one_div_mul_cancel hτ.ne', one_smul]; exact ht
    exact IsProx.unique hG hτ this (hQ' _)
  have hfix : B (A (τ • t)) = τ • t := by
    have e1 : x0 - τ • t = c + τ • s := by rw [← hc, smul_add]; abel
    have e2 : A (τ • t) = c + τ • t := by
      rw [hA]; simp only
      rw [e1, hPc, ← hc, smul_add]; abel
    rw [e2, hB]; simp only
    rw [hQc]; abel
  have hcont : Continuous fun v => B (A v) := fB.continuous.comp fA.continuous
  obtain ⟨q', hq', hlim⟩ := km_converges (fun v => B (A v)) hcont (fun v => ‖v‖ ^ 2) (by fun_prop) (by simp) one_pos (β := 1 / 2) (by norm_num)
    (fun v => by rw [one_mul]) (fun x c hc => firm_comp_fejer fA fB hc x) ⟨_, hfix⟩ q hBq
  -- the limit of `X`
  have hXlim : Tendsto (fun n => X (n + 1)) atTop (𝓝 (A q' - q')) := by
    have e : ∀ n, X (n + 1) = A (q n) - q (n + 1) := fun n => by rw [hAq n, ← hcons (n + 1)]; abel
    simp only [e]
    exact ((fA.continuous.tendsto q').comp hlim).sub (hlim.comp (tendsto_add_atTop_nat 1))
  have hQlim : Q (A q') = A q' - q' := by
    have : A q' - Q (A q') = q' := hq'
    exact eq_sub_of_add_eq' (sub_eq_iff_eq_add.1 this).symm
  have hPlim : P (x0 - q') = A q' - q' := by
    have : A q' = x0 - ((x0 - q') - P (x0 - q')) := rfl
    rw [this]; abel
  have hxstar : A q' - q' = c := by
    have g1 := subgrad_of_isProx hF hτ (hP' (x0 - q'))
    have g2 := subgrad_of_isProx hG hτ (hQ' (A q'))
    rw [hPlim] at g1; rw [hQlim] at g2
    have g3 := add_subgrad g1 g2
    rw [← smul_add, show x0 - q' - (A q' - q') + (A q' - (A q' - q')) = x0 - (A q' - q') by abel] at g3
    have u1 := isUniqueProx_of_subgrad hτ g3
    have g4 := add_subgrad hs ht
    have : (1 / τ) • (x0 - c) = s + t := by rw [← hc, add_sub_cancel_left, smul_smul, one_div_mul_cancel hτ.ne', one_smul]
    rw [← this] at g4
    exact (u1.2 c (isProx_of_subgrad hτ g4)).symm
  rw [hxstar] at hXlim
  rw [← tendsto_add_atTop_iff_nat 1]
  exact hXlim.congr fun n => (hRX (n + 1)).1.symm

end two

/-! ## Cyclic projections -/

section cyc
variable {projs : Fin m → E → Py E} {F : Fin m → XFun E} {τ : ℝ}

lemma sum_update_add (z : Fin m → E) (j : Fin m) (v : E) : ∑ i, Function.update z j v i = ∑ i, z i - z j + v := by
  rw [Finset.sum_update_of_mem (Finset.mem_univ j), ← Finset.add_sum_erase Finset.univ z (Finset.mem_univ j), Finset.sdiff_singleton_eq_erase]; abel

lemma inner_eq {i : ℕ} {s s' : E × (Fin m → E) × (Fin m → E)} {b : Bool} (h : cyc.inner projs i s = .ok (s', b)) :
    ∃ (hi : i < m) (u : E), projs ⟨i, hi⟩ (s.2.2 (prevIdx ⟨i, hi⟩) + s.2.1 ⟨i, hi⟩) = .ok u ∧ b = false ∧
      s' = (u, Function.update s.2.1 ⟨i, hi⟩ (s.2.1 ⟨i, hi⟩ + s.2.2 (prevIdx ⟨i, hi⟩) - u), Function.update s.2.2 ⟨i, hi⟩ u) := by
  unfold cyc.inner at h
  split_ifs at h with hi
  cases h1 : projs ⟨i, hi⟩ (s.2.2 (prevIdx ⟨i, hi⟩) + s.2.1 ⟨i, hi⟩) with
  | error e => simp only [Bind.bind, Except.bind, h1] at h; cases h
  | ok u =>
    simp only [Bind.bind, Except.bind, h1] at h
    cases h
    exact ⟨hi, u, h1, rfl, rfl⟩

/-- The invariant of a sweep: the identity, the freshness of `u_prev`, and the property `K j u_prev[j] z[j]` of the operators already visited. -/
lemma sweep_inv {K : Fin m → E → E → Prop} (hK : ∀ j v u, projs j v = .ok u → K j u (v - u)) (x0 u0 : E) (z0 : Fin m → E) (h0 : u0 + ∑ i, z0 i = x0)
    (r : E × (Fin m → E) × (Fin m → E)) (hr : forRange (cyc.inner projs) m 0 (u0, z0, fun _ => u0) = .ok r) :
    r.1 + ∑ i, r.2.1 i = x0 ∧ ∀ j, K j (r.2.2 j) (r.2.1 j) := by
  have key := forRange_inv_idx (body := cyc.inner projs) (I := fun i s => s.1 + ∑ j, s.2.1 j = x0 ∧ (∀ j : Fin m, j.1 < i → K j (s.2.2 j) (s.2.1 j)) ∧
    (∀ j : Fin m, i ≤ j.1 → s.2.2 j = u0) ∧ (i = 0 → s.1 = u0) ∧ ∀ j : Fin m, j.1 + 1 = i → s.2.2 j = s.1) ?_ m 0 _ r ?_ hr
  · exact ⟨key.1, fun j => key.2.1 j (by omega)⟩
  · rintro i s s' b ⟨hsum, hvis, hfresh, hzero, hprev⟩ h
    obtain ⟨hi, u, hu, rfl, rfl⟩ := inner_eq h
    set j : Fin m := ⟨i, hi⟩ with hj
    have hcur : s.2.2 (prevIdx j) = s.1 := by
      by_cases hi0 : i = 0
      · rw [hzero hi0]; exact hfresh _ (by omega)
      · refine hprev _ ?_
        simp only [prevIdx, hj, hi0, if_false]; omega
    refine ⟨⟨?_, ?_, ?_, ?_, ?_⟩, rfl⟩
    · simp only
      rw [sum_update_add, hcur, ← hsum]; abel
    · intro l hl
      by_cases hlj : l = j
      · subst hlj
        simp only [Function.update_self]
        have := hK _ _ _ hu
        rwa [add_comm] at this
      · simp only [Function.update_of_ne hlj]
        refine hvis l ?_
        have : l.1 ≠ i := fun hh => hlj (Fin.ext hh)
        omega
    · intro l hl
      have hlj : l ≠ j := fun hh => by subst hh; simp [hj] at hl
      simp only [Function.update_of_ne hlj]
      exact hfresh l (by omega)
    · intro hh; omega
    · intro l hl
      have : l = j := Fin.ext (by simp [hj]; omega)
      subst this
      simp
  · exact ⟨h0, fun j hj => absurd hj (Nat.not_lt_zero _), fun _ _ => rfl, fun _ => rfl, fun j hj => absurd hj (Nat.succ_ne_zero _)⟩

lemma cyc_inv {K : Fin m → E → E → Prop} (hK : ∀ j v u, projs j v = .ok u → K j u (v - u)) (x0 : E) (n : ℕ) (tol : ℝ) (mx : E → ℝ) (r : CycState E m)
    (hr : parallelDykstraProjection x0 projs n tol mx = .ok r) : r.u + ∑ i, r.z i = x0 ∧ ∀ up, r.up = some up → ∀ j, K j (up j) (r.z j) := by
  refine forRange_inv (I := fun s : CycState E m => s.u + ∑ i, s.z i = x0 ∧ ∀ up, s.up = some up → ∀ j, K j (up j) (s.z j)) ?_ n 0 _ r (by simp) hr
  rintro i s s' b ⟨hs, -⟩ h
  unfold cyc.body at h
  cases h1 : forRange (cyc.inner projs) m 0 (s.u, s.z, fun _ => s.u) with
  | error e => rw [h1] at h; cases h
  | ok q =>
    rw [h1] at h
    cases h
    obtain ⟨a, b⟩ := sweep_inv hK x0 s.u s.z hs q h1
    refine ⟨a, ?_⟩
    rintro up hup j
    cases hup
    exact b j

/-- C37 (cyclic variant): whatever the steps compute, for any number of operators and iterations, `u + ∑ z_i` is the input. -/
theorem C37_cyclic_conserved (projs : Fin m → E → Py E) (x0 : E) (n : ℕ) (tol : ℝ) (mx : E → ℝ) (r : CycState E m)
    (hr : parallelDykstraProjection x0 projs n tol mx = .ok r) : r.u + ∑ i, r.z i = x0 :=
  (cyc_inv (K := fun _ _ _ => True) (fun _ _ _ _ => trivial) x0 n tol mx r hr).1

/-- C37 (cyclic variant): if all the intermediate points of the last sweep agree with the point returned, that point is the proximal point of `∑ F_i`. -/
theorem C37_cyclic_stationary (hF : ∀ i, (F i).Convex) (hτ : 0 < τ) (hP : ∀ i v p, projs i v = .ok p → IsProx (F i) τ v p) (x0 : E) (n : ℕ) (tol : ℝ)
    (mx : E → ℝ) (r : CycState E m) (hr : parallelDykstraProjection x0 projs n tol mx = .ok r) (hup : r.up = some fun _ => r.u) :
    IsUniqueProx (sumObj F) τ x0 r.u := by
  obtain ⟨h1, h2⟩ := cyc_inv (K := fun j u z => IsSubgrad (F j) u ((1 / τ) • z)) (fun j v u hu => subgrad_of_isProx (hF j) hτ (hP j v u hu)) x0 n tol mx r hr
  have h3 := sumObj_subgrad fun j => h2 _ hup j
  rw [← Finset.smul_sum] at h3
  refine isUniqueProx_of_subgrad hτ ?_
  rwa [← h1, add_sub_cancel_left]

/-- C37 (cyclic variant), for projections: a stationary sweep has found the projection of the input onto the intersection. -/
theorem C37_cyclic_projection {C : Fin m → Set E} (hC : ∀ i, _root_.Convex ℝ (C i)) (hP : ∀ i v p, projs i v = .ok p → IsProj (C i) v p) (x0 : E) (n : ℕ)
    (tol : ℝ) (mx : E → ℝ) (r : CycState E m) (hr : parallelDykstraProjection x0 projs n tol mx = .ok r) (hup : r.up = some fun _ => r.u) :
    IsUniqueProj (⋂ i, C i) x0 r.u := by
  have h := C37_cyclic_stationary (F := fun i => XFun.indicator (C i)) (fun i => indicator_convex (hC i)) one_pos
    (fun i v p hp => (isProj_iff_isProx one_pos).2 (hP i v p hp)) x0 n tol mx r hr hup
  rw [← isUniqueProj_iff_isUniqueProx one_pos]
  have e : (sumObj fun i => XFun.indicator (C i)) = XFun.indicator (⋂ i, C i) := by
    simp only [sumObj, XFun.indicator, Finset.sum_const_zero]
    congr 1
    ext x; simp
  rwa [e] at h

/-- The points visited by a sweep: the starting point, then `u_prev[0]`, `u_prev[1]`, …. -/
def sweepPath (u0 : E) (up : Fin m → E) : ℕ → E
  | 0 => u0
  | j + 1 => if h : j < m then up ⟨j, h⟩ else u0

lemma sweepPath_succ (u0 : E) (up : Fin m → E) (j : Fin m) : sweepPath u0 up (j + 1) = up j := by simp [sweepPath]

lemma sweepPath_update (u0 u : E) (up : Fin m → E) (j : Fin m) {i : ℕ} (hi : i ≤ j) : sweepPath u0 (Function.update up j u) i = sweepPath u0 up i := by
  cases i with
  | zero => rfl
  | succ i =>
    have him : i < m := lt_of_lt_of_le (by omega) j.2.le
    simp only [sweepPath, him, dif_pos]
    exact Function.update_of_ne (fun h => by have := congrArg Fin.val h; simp at this; omega) _ _

/-- A sweep with steps that always succeed. -/
lemma sweep_total {Q : Fin m → E → E} (hQ : ∀ j v, projs j v = .ok (Q j v)) (u0 : E) (z0 : Fin m → E) :
    ∃ r, forRange (cyc.inner projs) m 0 (u0, z0, fun _ => u0) = .ok r ∧ r.1 = sweepPath u0 r.2.2 m ∧
      ∀ j : Fin m, r.2.1 j = z0 j + sweepPath u0 r.2.2 j - r.2.2 j ∧ r.2.2 j = Q j (sweepPath u0 r.2.2 j + z0 j) := by
  have key : ∀ n i s, i + n = m → (s.1 = sweepPath u0 s.2.2 i ∧ (∀ j : Fin m, j.1 < i → s.2.1 j = z0 j + sweepPath u0 s.2.2 j - s.2.2 j ∧
      s.2.2 j = Q j (sweepPath u0 s.2.2 j + z0 j)) ∧ ∀ j : Fin m, i ≤ j.1 → s.2.1 j = z0 j ∧ s.2.2 j = u0) →
      ∃ r, forRange (cyc.inner projs) n i s = .ok r ∧ r.1 = sweepPath u0 r.2.2 m ∧
      ∀ j : Fin m, r.2.1 j = z0 j + sweepPath u0 r.2.2 j - r.2.2 j ∧ r.2.2 j = Q j (sweepPath u0 r.2.2 j + z0 j) := by
    intro n
    induction n with
    | zero =>
      intro i s hi hI
      rw [add_zero] at hi
      subst hi
      exact ⟨s, rfl, hI.1, fun j => hI.2.1 j j.2⟩
    | succ n ih =>
      intro i s hi hI
      have him : i < m := by omega
      set j : Fin m := ⟨i, him⟩ with hj
      have hcur : s.2.2 (prevIdx j) = s.1 := by
        rw [hI.1]
        by_cases hi0 : i = 0
        · rw [(hI.2.2 _ (by omega)).2]; subst hi0; rfl
        · obtain ⟨i', rfl⟩ : ∃ i', i = i' + 1 := ⟨i - 1, by omega⟩
          have : prevIdx j = ⟨i', by omega⟩ := Fin.ext (by simp [prevIdx, hj])
          rw [this]
          simp [sweepPath, show i' < m by omega]
      set v := s.1 + s.2.1 j with hv
      have hb : cyc.inner projs i s = .ok ((Q j v, Function.update s.2.1 j (s.2.1 j + s.1 - Q j v), Function.update s.2.2 j (Q j v)), false) := by
        unfold cyc.inner
        rw [dif_pos him]
        simp only [Bind.bind, Except.bind, Pure.pure, Except.pure, ← hj, hcur, hQ, ← hv]
      rw [forRange, hb]
      simp only [Bool.false_eq_true, if_false]
      refine ih (i + 1) _ (by omega) ⟨?_, ?_, ?_⟩
      · simp only
        rw [sweepPath_succ u0 _ j, Function.update_self]
      · intro l hl
        simp only
        by_cases hlj : l = j
        · subst hlj
          rw [Function.update_self, Function.update_self, sweepPath_update u0 _ _ j le_rfl, (hI.2.2 j le_rfl).1]
          have : sweepPath u0 s.2.2 (j : ℕ) = s.1 := hI.1.symm
          rw [this, hv, (hI.2.2 j le_rfl).1]
          exact ⟨rfl, rfl⟩
        · have hli : l.1 < i := by
            have : l.1 ≠ i := fun hh => hlj (Fin.ext hh)
            omega
          rw [Function.update_of_ne hlj, Function.update_of_ne hlj, sweepPath_update u0 _ _ j (show l.1 ≤ j.1 from hli.le)]
          exact hI.2.1 l hli
      · intro l hl
        have hlj : l ≠ j := fun hh => by subst hh; simp [hj] at hl
        simp only [Function.update_of_ne hlj]
        exact hI.2.2 l (by omega)
  exact key m 0 _ (by omega) ⟨rfl, fun j hj => absurd hj (Nat.not_lt_zero _), fun _ _ => ⟨rfl, rfl⟩⟩

lemma smul_closed {F : XFun E} (h : F.Closed) {τ : ℝ} (hτ : 0 < τ) : (F.smul τ).Closed := by
  have : {p : E × ℝ | p.1 ∈ (F.smul τ).dom ∧ (F.smul τ).val p.1 ≤ p.2} = (fun p : E × ℝ => (p.1, p.2 / τ)) ⁻¹' {p : E × ℝ | p.1 ∈ F.dom ∧ F.val p.1 ≤ p.2} := by
    ext p
    simp only [Set.mem_setOf_eq, Set.mem_preimage, XFun.smul, le_div_iff₀ hτ, mul_comm]
  unfold XFun.Closed
  rw [this]
  exact IsClosed.preimage (by fun_prop) h

/-- C37 (cyclic variant): for closed convex functions with a common point of finite value and exact proximal steps, the points computed with a zero tolerance converge, as the
number of iterations grows, to the proximal point of `∑ F_i` at the input. -/
theorem C37_cyclic_converges [ProperSpace E] [NeZero m] (hF : ∀ i, (F i).Convex) (hcl : ∀ i, (F i).Closed) (hτ : 0 < τ)
    (hP : ∀ i v, ∃ p, projs i v = .ok p ∧ IsProx (F i) τ v p) (hne : ∃ c, ∀ i, c ∈ (F i).dom) (x0 : E) (mx : E → ℝ) (hmx : ∀ v, 0 ≤ mx v) :
    ∃ p, IsUniqueProx (sumObj F) τ x0 p ∧
      ∃ r : ℕ → CycState E m, (∀ n, parallelDykstraProjection x0 projs n 0 mx = .ok (r n)) ∧ Tendsto (fun n => (r n).u) atTop (𝓝 p) := by
  choose Q hQ hQp using hP
  obtain ⟨T, h0, -, hR, hres⟩ := forRange_traj_nobreak (cyc.body projs 0 mx) (fun _ => True)
    (fun _ (s s' : CycState E m) => ∃ up, s'.up = some up ∧ s'.u = sweepPath s.u up m ∧ ∀ j : Fin m, s'.z j = s.z j + sweepPath s.u up j - up j ∧
      up j = Q j (sweepPath s.u up j + s.z j)) (fun i s _ => by
        obtain ⟨r, h1, h2, h3⟩ := sweep_total hQ s.u s.z
        refine ⟨⟨r.1, r.2.1, some r.2.2⟩, ?_, trivial, r.2.2, rfl, h2, h3⟩
        unfold cyc.body
        simp only [Bind.bind, Except.bind, Pure.pure, Except.pure, h1, Except.ok.injEq, Prod.mk.injEq, true_and, decide_eq_false_iff_not]
        rintro ⟨h4, -⟩
        exact absurd h4 (not_lt.2 (hmx _))) ⟨x0, fun _ => 0, none⟩ trivial
  choose up hup hu hz using hR
  have hrun : DykRun (fun j => (F j).smul τ) x0 (fun k => sweepPath (T k).u (up k)) (fun k => (T k).z) := by
    refine ⟨by rw [h0]; rfl, fun j => by rw [h0], fun k => ?_, fun k j => ?_, fun k j => ?_⟩
    · change (T (k + 1)).u = _
      rw [hu]
    · rw [sweepPath_succ]; exact (hz k j).1
    · rw [sweepPath_succ]
      have h1 := subgrad_of_isProx (hF j) hτ (hQp j (sweepPath (T k).u (up k) j + (T k).z j))
      rw [← (hz k j).2] at h1
      have h2 : (T (k + 1)).z j = sweepPath (T k).u (up k) j + (T k).z j - up k j := by rw [(hz k j).1]; abel
      rw [h2]
      refine ⟨h1.1, fun y hy => ?_⟩
      have h3 := mul_le_mul_of_nonneg_left (h1.2 y hy) hτ.le
      rw [real_inner_smul_left, mul_add, ← mul_assoc, mul_one_div_cancel hτ.ne', one_mul] at h3
      exact h3
  obtain ⟨c, hc⟩ := hne
  obtain ⟨p, hp, hsub⟩ := dyk_converges hrun (fun j => smul_closed (hcl j) hτ) (c0 := c) hc
  refine ⟨p, isUniqueProx_of_subgrad hτ ⟨hsub.1, fun y hy => ?_⟩, T, hres, hp⟩
  have h1 := hsub.2 y hy
  have e : ∀ x, (sumObj fun j => (F j).smul τ).val x = τ * (sumObj F).val x := fun x => by simp only [sumObj, XFun.smul, Finset.mul_sum]
  rw [e, e] at h1
  rw [real_inner_smul_left]
  have h2 : (sumObj F).val p + 1 / τ * ⟪x0 - p, y - p⟫ = 1 / τ * (τ * (sumObj F).val p + ⟪x0 - p, y - p⟫) := by field_simp
  rw [h2, one_div, inv_mul_le_iff₀ hτ]
  exact h1

lemma closed_of_proj {C : Set E} (h : ∀ v, ∃ p, IsProj C v p) : IsClosed C := by
  rw [← closure_subset_iff_isClosed]
  intro x hx
  obtain ⟨p, hp, hmin⟩ := h x
  have : ‖x - p‖ ≤ 0 := by
    refine le_of_forall_pos_le_add fun ε hε => ?_
    obtain ⟨y, hy, hd⟩ := Metric.mem_closure_iff.1 hx ε hε
    rw [dist_eq_norm] at hd
    have := hmin y hy
    linarith
  have h2 : x = p := sub_eq_zero.1 (norm_le_zero_iff.1 this)
  rwa [h2]

lemma indicator_closed {C : Set E} (h : IsClosed C) : (XFun.indicator C).Closed := by
  have : {p : E × ℝ | p.1 ∈ (XFun.indicator C).dom ∧ (XFun.indicator C).val p.1 ≤ p.2} = C ×ˢ Set.Ici 0 := by
    ext p; simp [XFun.indicator]
  unfold XFun.Closed
  rw [this]
  exact h.prod isClosed_Ici

/-- C37 (cyclic variant), for projections: the points converge to the projection of the input onto the intersection, whenever that is not empty. -/
theorem C37_cyclic_projection_converges [ProperSpace E] [NeZero m] {C : Fin m → Set E} (hC : ∀ i, _root_.Convex ℝ (C i)) (hP : ∀ i v, ∃ p, projs i v = .ok p ∧ IsProj (C i) v p)
    (hne : (⋂ i, C i).Nonempty) (x0 : E) (mx : E → ℝ) (hmx : ∀ v, 0 ≤ mx v) :
    ∃ p, IsUniqueProj (⋂ i, C i) x0 p ∧
      ∃ r : ℕ → CycState E m, (∀ n, parallelDykstraProjection x0 projs n 0 mx = .ok (r n)) ∧ Tendsto (fun n => (r n).u) atTop (𝓝 p) := by
  obtain ⟨c, hc⟩ := hne
  obtain ⟨p, h1, h2⟩ := C37_cyclic_converges (F := fun i => XFun.indicator (C i)) (fun i => indicator_convex (hC i))
    (fun i => indicator_closed (closed_of_proj fun v => by obtain ⟨p, -, h⟩ := hP i v; exact ⟨p, h⟩)) one_pos
    (fun i v => by obtain ⟨p, h, h'⟩ := hP i v; exact ⟨p, h, (isProj_iff_isProx one_pos).2 h'⟩) ⟨c, fun i => Set.mem_iInter.1 hc i⟩ x0 mx hmx
  refine ⟨p, ?_, h2⟩
  rw [← isUniqueProj_iff_isUniqueProx one_pos]
  have e : (sumObj fun i => XFun.indicator (C i)) = XFun.indicator (⋂ i, C i) := by
    simp only [sumObj, XFun.indicator, Finset.sum_const_zero]
    congr 1
    ext x; simp
  rwa [e] at h1

end cyc

/-! ## Weighted parallel variant -/

section par
variable {proxs : Fin m → E → ℝ → Py E} {F : Fin m → XFun E} {w t : Fin m → ℝ}

lemma par_body_eq {ws ts : List ℝ} {tol : ℝ} {mx : E → ℝ} {i : ℕ} {s s' : ParState E m} {b : Bool} (h : par.body proxs ws ts tol mx i s = .ok (s', b)) :
    ∃ pz, ws.length = m ∧ mapPy (par.proxAt proxs ts s.z) = .ok pz ∧
      s' = ⟨∑ i : Fin m, ws.getD i 0 • pz i, fun i => s.z i + (∑ i : Fin m, ws.getD i 0 • pz i) - pz i, some pz⟩ := by
  unfold par.body at h
  revert h
  cases h1 : mapPy (par.proxAt proxs ts s.z) with
  | error e => intro h; cases h
  | ok pz =>
    intro h
    simp only [Bind.bind, Except.bind] at h
    split_ifs at h with h2
    cases h
    exact ⟨pz, not_not.1 h2, rfl, rfl⟩

lemma mapPy_inv {α : Type} : ∀ {m : ℕ} {h : Fin m → Py α} {v : Fin m → α}, mapPy h = .ok v → ∀ i, h i = .ok (v i)
  | 0, _, _, _ => fun i => i.elim0
  | m + 1, h, v, hv => by
    simp only [mapPy] at hv
    cases h0 : h 0 with
    | error e => rw [h0] at hv; cases hv
    | ok a =>
      rw [h0] at hv
      cases h1 : mapPy (fun i => h i.succ) with
      | error e => rw [h1] at hv; cases hv
      | ok b =>
        rw [h1] at hv
        cases hv
        have ih := mapPy_inv h1
        intro i
        refine Fin.cases ?_ (fun j => ?_) i
        · simpa using h0
        · simpa using ih j

lemma normalise_sum {ws : List ℝ} (h : ws.sum ≠ 0) : (normalise ws).sum = 1 := by
  unfold normalise
  simp only [div_eq_mul_inv]
  rw [List.sum_map_mul_right, List.map_id']
  exact mul_inv_cancel₀ h

lemma normalise_length (ws : List ℝ) : (normalise ws).length = ws.length := by simp [normalise]

lemma sum_getD' {ws : List ℝ} (h : ws.length = m) : ∑ j : Fin m, ws.getD j 0 = ws.sum := by
  subst h
  rw [← List.sum_ofFn]
  congr 1
  refine List.ext_getElem (by simp) fun i h1 h2 => ?_
  simp

/-- C37 (weighted variant): whatever the operators compute, if the weights match the operators and do not sum to zero, the weighted sum of the `z_i` is the input after
any number of iterations. -/
theorem C37_weighted_conserved (proxs : Fin m → E → ℝ → Py E) (x0 : E) (ws ts : List ℝ) (hlen : ws.length = m) (n : ℕ) (tol : ℝ) (mx : E → ℝ)
    (r : ParState E m) (hr : parallelDykstraProx x0 proxs ws ts n tol mx = .ok r) : ∑ i : Fin m, (ws.getD i 0 / ws.sum) • r.z i = x0 := by
  unfold parallelDykstraProx at hr
  split_ifs at hr with h0
  have e : ∀ i : Fin m, ws.getD i 0 / ws.sum = (normalise ws).getD i 0 := fun i => by simp [normalise, hlen]
  have h1 : ∑ i : Fin m, (normalise ws).getD i 0 = 1 := by rw [sum_getD' (by rw [normalise_length, hlen]), normalise_sum h0]
  simp only [e]
  refine forRange_inv (I := fun s : ParState E m => ∑ i : Fin m, (normalise ws).getD i 0 • s.z i = x0) ?_ n 0 _ r ?_ hr
  · intro i s s' b hs h
    obtain ⟨pz, -, -, rfl⟩ := par_body_eq h
    simp only [smul_sub, smul_add, Finset.sum_sub_distrib, Finset.sum_add_distrib]
    rw [hs, ← Finset.sum_smul, h1, one_smul]; abel
  · simp only
    rw [← Finset.sum_smul, h1, one_smul]

lemma ofFn_sum (w : Fin m → ℝ) : (List.ofFn w).sum = ∑ i, w i := List.sum_ofFn

lemma normalise_ofFn (w : Fin m → ℝ) (i : Fin m) : (normalise (List.ofFn w)).getD i 0 = w i / ∑ j, w j := by
  simp [normalise, List.sum_ofFn]

/-- C37 (weighted variant): if the proximal steps of the last iteration all returned the point `x` that is returned, it is the proximal point of
`∑ (w_i t_i / ∑ w) F_i` at the input, where `t_i` are the steps given to the operators. -/
theorem C37_weighted_stationary (hF : ∀ i, (F i).Convex) (hw : ∀ i, 0 < w i) (ht : ∀ i, 0 < t i) (hP : ∀ i v p, proxs i v (t i) = .ok p → IsProx (F i) (t i) v p)
    (x0 : E) (n : ℕ) (tol : ℝ) (mx : E → ℝ) (r : ParState E m) (hr : parallelDykstraProx x0 proxs (List.ofFn w) (List.ofFn t) n tol mx = .ok r)
    (hpz : r.pz = some fun _ => r.x) : IsUniqueProx (sumObj fun i => (F i).smul (w i * t i / ∑ j, w j)) 1 x0 r.x := by
  have hcons := C37_weighted_conserved proxs x0 (List.ofFn w) (List.ofFn t) (by simp) n tol mx r hr
  have hm : 0 < ∑ j, w j := by
    rcases Nat.eq_zero_or_pos m with rfl | hm
    · unfold parallelDykstraProx at hr
      simp at hr
    · haveI : NeZero m := ⟨hm.ne'⟩
      exact Finset.sum_pos (fun i _ => hw i) ⟨0, Finset.mem_univ _⟩
  have hw1 : ∑ i, w i / ∑ j, w j = 1 := by rw [← Finset.sum_div, div_self hm.ne']
  have hsub : ∀ i, IsSubgrad (F i) r.x ((1 / t i) • (r.z i - r.x)) := by
    unfold parallelDykstraProx at hr
    split_ifs at hr with h0
    have := forRange_inv (I := fun s : ParState E m => ∀ pz, s.pz = some pz → ∀ i, IsSubgrad (F i) (pz i) ((1 / t i) • (s.z i - s.x))) ?_ n 0 _ r (by simp) hr _ hpz
    · exact this
    · rintro i s s' b - h
      obtain ⟨pz, -, hmap, rfl⟩ := par_body_eq h
      rintro pz' hpz' j
      cases hpz'
      have hj := mapPy_inv hmap j
      simp only [par.proxAt, List.getElem?_ofFn, j.2, dif_pos] at hj
      have := subgrad_of_isProx (hF j) (ht j) (hP j _ _ hj)
      simp only
      rwa [show s.z j + (∑ i : Fin m, (normalise (List.ofFn w)).getD i 0 • pz i) - pz j - (∑ i : Fin m, (normalise (List.ofFn w)).getD i 0 • pz i) =
        s.z j - pz j by abel]
  refine isUniqueProx_of_subgrad one_pos ?_
  have h3 := sumObj_subgrad (F := fun i => (F i).smul (w i * t i / ∑ j, w j)) (x := r.x)
    (s := fun i => (w i * t i / ∑ j, w j) • (1 / t i) • (r.z i - r.x)) fun i => ⟨(hsub i).1, fun y hy => by
      have := (hsub i).2 y hy
      have hpos : 0 ≤ w i * t i / ∑ j, w j := by have := hw i; have := ht i; positivity
      simp only [XFun.smul]
      rw [real_inner_smul_left, ← mul_add]
      exact mul_le_mul_of_nonneg_left this hpos⟩
  have e : ∑ i, (w i * t i / ∑ j, w j) • (1 / t i) • (r.z i - r.x) = x0 - r.x := by
    have e1 : ∀ i, (w i * t i / ∑ j, w j) • (1 / t i) • (r.z i - r.x) = (w i / ∑ j, w j) • (r.z i - r.x) := fun i => by
      rw [smul_smul]; congr 1; have := (ht i).ne'; field_simp
    simp only [e1]
    simp only [smul_sub, Finset.sum_sub_distrib]
    rw [← Finset.sum_smul, hw1, one_smul]
    congr 1
    rw [← hcons]
    refine Finset.sum_congr rfl fun i _ => ?_
    rw [ofFn_sum]; simp
  rw [e] at h3
  rwa [div_one, one_smul]

/-- The weighted parallel step on the hyperplane of families with weighted sum `x0`. -/
noncomputable def parStep (w : Fin m → ℝ) (P : Fin m → E → E) (x0 : E) (z : Fin m → E) : Fin m → E :=
  fun i => z i - P i (z i) + (x0 - ∑ j, w j • (z j - P j (z j)))

lemma par_fejer (hw : ∀ i, 0 < w i) (hw1 : ∑ i, w i = 1) {P : Fin m → E → E} (hP : ∀ i, Firm (P i)) {x0 : E} {c : Fin m → E} (hc : parStep w P x0 c = c)
    (z : Fin m → E) : wGauge w (parStep w P x0 z - c) + 1 / 2 * wGauge w (parStep w P x0 z - z) ≤ wGauge w (z - c) := by
  set d : Fin m → E := fun i => z i - c i with hd
  set a : Fin m → E := fun i => P i (z i) - P i (c i) with ha
  set b : Fin m → E := fun i => d i - a i with hb
  set B := ∑ i, w i • b i with hB
  have hBs : ∑ j, w j • (z j - P j (z j)) - ∑ j, w j • (c j - P j (c j)) = B := by
    rw [← Finset.sum_sub_distrib, hB]
    refine Finset.sum_congr rfl fun i _ => ?_
    rw [← smul_sub]; congr 1
    simp only [hb, hd, ha]; abel
  have e1 : parStep w P x0 z - c = fun i => B - b i - (2 : ℝ) • (B - b i) := by
    funext i
    have hci := congrFun hc i
    simp only [Pi.sub_apply]
    conv_lhs => rw [← hci]
    simp only [parStep]
    rw [two_smul, show B - b i - (B - b i + (B - b i)) = b i - B by abel, ← hBs]
    simp only [hb, hd, ha]; abel
  have e1' : wGauge w (parStep w P x0 z - c) = wGauge w fun i => B - b i := by
    rw [e1]
    unfold wGauge
    refine Finset.sum_congr rfl fun i _ => ?_
    beta_reduce
    rw [two_smul, show B - b i - (B - b i + (B - b i)) = -(B - b i) by abel, norm_neg]
  have e2 : wGauge w (parStep w P x0 z - z) = wGauge w fun i => B + a i := by
    unfold wGauge
    refine Finset.sum_congr rfl fun i _ => ?_
    congr 2
    have := congrFun e1 i
    simp only [Pi.sub_apply] at this ⊢
    rw [show parStep w P x0 z i - z i = (parStep w P x0 z i - c i) - d i by simp only [hd]; abel, this]
    rw [two_smul, show B - b i - (B - b i + (B - b i)) - d i = -(B + (d i - b i)) by abel, norm_neg]
    simp only [hb]; congr 2; abel
  have q1 : wGauge w (fun i => B - b i) = wGauge w b - ‖B‖ ^ 2 := by
    rw [wGauge_shift w hw1 b B, ← hB, real_inner_self_eq_norm_sq]; ring
  have q2 : wGauge w b ≤ wGauge w d - wGauge w a := by
    unfold wGauge
    rw [← Finset.sum_sub_distrib]
    refine Finset.sum_le_sum fun i _ => ?_
    rw [← mul_sub]
    refine mul_le_mul_of_nonneg_left ?_ (hw i).le
    have := hP i (z i) (c i)
    simp only [hb]
    rw [norm_sub_sq_real, real_inner_comm]
    simp only [hd, ha] at this ⊢
    linarith
  have q3 : wGauge w (fun i => B + a i) ≤ 2 * ‖B‖ ^ 2 + 2 * wGauge w a := by
    have : 2 * ‖B‖ ^ 2 = ∑ i, w i * (2 * ‖B‖ ^ 2) := by rw [← Finset.sum_mul, hw1, one_mul]
    rw [this]
    unfold wGauge
    rw [Finset.mul_sum, ← Finset.sum_add_distrib]
    refine Finset.sum_le_sum fun i _ => ?_
    have h1 := parallelogram_law_with_norm ℝ B (a i)
    have h2 : ‖B + a i‖ ^ 2 ≤ 2 * ‖B‖ ^ 2 + 2 * ‖a i‖ ^ 2 := by nlinarith [mul_self_nonneg ‖B - a i‖]
    have h3 := mul_le_mul_of_nonneg_left h2 (hw i).le
    linarith
  have e5 : z - c = d := rfl
  rw [e1', e2, q1, e5]
  linarith

lemma par_continuous {P : Fin m → E → E} (hP : ∀ i, Firm (P i)) (x0 : E) : Continuous (parStep w P x0) := by
  have h2 : ∀ i, Continuous fun y : Fin m → E => P i (y i) := fun i => (hP i).continuous.comp (continuous_apply i)
  refine continuous_pi fun i => ?_
  unfold parStep
  have h3 : Continuous fun y : Fin m → E => ∑ j, w j • (y j - P j (y j)) :=
    continuous_finset_sum _ fun j _ => ((continuous_apply j).sub (h2 j)).const_smul _
  exact ((continuous_apply i).sub (h2 i)).add (continuous_const.sub h3)

/-- C37 (weighted variant): convergence.  In finite dimension, with `tol = 0` and positive weights and steps, if `c` has sub-gradients `s_i` of the `F_i` with
`x0 - c = ∑ (w_i t_i / ∑ w) s_i`, the points returned converge to `c`, the proximal point of `∑ (w_i t_i / ∑ w) F_i`. -/
theorem C37_weighted_converges [ProperSpace E] [NeZero m] (hF : ∀ i, (F i).Convex) (hw : ∀ i, 0 < w i) (ht : ∀ i, 0 < t i)
    (hP : ∀ i v, ∃ p, proxs i v (t i) = .ok p ∧ IsProx (F i) (t i) v p) (x0 : E) (mx : E → ℝ) (hmx : ∀ v, 0 ≤ mx v) (c : E) (s : Fin m → E)
    (hs : ∀ i, IsSubgrad (F i) c (s i)) (hc : c + ∑ i, (w i * t i / ∑ j, w j) • s i = x0) (R : ℕ → ParState E m)
    (hR : ∀ n, parallelDykstraProx x0 proxs (List.ofFn w) (List.ofFn t) n 0 mx = .ok (R n)) : Tendsto (fun n => (R n).x) atTop (𝓝 c) := by
  choose P hP1 hP2 using hP
  have hm : 0 < ∑ j, w j := Finset.sum_pos (fun i _ => hw i) ⟨0, Finset.mem_univ _⟩
  set W : Fin m → ℝ := fun i => w i / ∑ j, w j with hW
  have hW0 : ∀ i, 0 < W i := fun i => div_pos (hw i) hm
  have hW1 : ∑ i, W i = 1 := by rw [hW, ← Finset.sum_div, div_self hm.ne']
  let nxt : ParState E m → ParState E m := fun s =>
    ⟨∑ i, W i • P i (s.z i), fun i => s.z i + (∑ i, W i • P i (s.z i)) - P i (s.z i), some fun i => P i (s.z i)⟩
  have hbody : ∀ i (s : ParState E m), par.body proxs (normalise (List.ofFn w)) (List.ofFn t) 0 mx i s = .ok (nxt s, false) := by
    intro i s
    have e1 : mapPy (par.proxAt proxs (List.ofFn t) s.z) = .ok fun i => P i (s.z i) := by
      refine mapPy_ok fun i => ?_
      simp only [par.proxAt, List.getElem?_ofFn, i.2, dif_pos]
      exact hP1 i _
    have e2 : ∑ i : Fin m, (normalise (List.ofFn w)).getD i 0 • P i (s.z i) = ∑ i, W i • P i (s.z i) :=
      Finset.sum_congr rfl fun i _ => by rw [normalise_ofFn]
    unfold par.body
    rw [e1]
    simp only [Bind.bind, Except.bind, Pure.pure, Except.pure, normalise_length, List.length_ofFn, ne_eq, not_true_eq_false, if_false, nxt]
    rw [e2, decide_eq_false (not_lt.2 (hmx _))]
  obtain ⟨S, h0, -, h3, h4⟩ := forRange_traj_nobreak (par.body proxs (normalise (List.ofFn w)) (List.ofFn t) 0 mx) (fun _ => True) (fun _ s s' => s' = nxt s)
    (fun i s _ => ⟨_, hbody i s, trivial, rfl⟩) ⟨x0, fun _ => x0, none⟩ trivial
  have hRS : ∀ n, R n = S n := fun n => by
    have := hR n
    unfold parallelDykstraProx at this
    rw [if_neg (by rw [ofFn_sum]; exact hm.ne'), h4 n] at this
    injection this with this
    exact this.symm
  have hcons : ∀ n, ∑ i, W i • (S n).z i = x0 := fun n => by
    have := C37_weighted_conserved proxs x0 (List.ofFn w) (List.ofFn t) (by simp) n 0 mx (R n) (hR n)
    rw [hRS n] at this
    rw [← this]
    refine Finset.sum_congr rfl fun i _ => ?_
    rw [ofFn_sum]; simp [hW]
  have hz : ∀ n, (S (n + 1)).z = parStep W P x0 (S n).z := fun n => by
    funext i
    rw [h3 n]
    simp only [nxt, parStep, smul_sub, Finset.sum_sub_distrib]
    rw [hcons n]; abel
  have firm : ∀ i, Firm (P i) := fun i => firm_prox (hF i) (ht i) (hP2 i)
  have hPc : ∀ i, P i (c + t i • s i) = c := fun i => by
    have : IsProx (F i) (t i) (c + t i • s i) c := by
      refine isProx_of_subgrad (ht i) ?_
      rw [add_sub_cancel_left, smul_smul, one_div_mul_cancel (ht i).ne', one_smul]; exact hs i
    exact IsProx.unique (hF i) (ht i) this (hP2 i _)
  have hsum : ∑ i, W i • (t i • s i) = x0 - c := by
    rw [← hc, add_sub_cancel_left]
    refine Finset.sum_congr rfl fun i _ => ?_
    rw [smul_smul]; congr 1; simp only [hW]; ring
  have hne : parStep W P x0 (fun i => c + t i • s i) = fun i => c + t i • s i := by
    funext i
    simp only [parStep, hPc, add_sub_cancel_left]
    rw [hsum]; abel
  obtain ⟨k, hk, hk'⟩ := wGauge_lower (E := E) W hW0
  obtain ⟨z', hz', hlim⟩ := km_converges (parStep W P x0) (par_continuous firm x0) (wGauge W) (by unfold wGauge; fun_prop) (by simp [wGauge]) hk
    (β := 1 / 2 * k) (by positivity) hk' (fun x c hc => by
      have h1 := par_fejer hW0 hW1 firm hc x
      have h2 := mul_le_mul_of_nonneg_left (hk' (parStep W P x0 x - x)) (by norm_num : (0 : ℝ) ≤ 1 / 2)
      linarith) ⟨_, hne⟩ (fun n => (S n).z) hz
  -- at the limit all proximal points agree
  set y := ∑ j, W j • P j (z' j) with hy
  have hmean : ∑ j, W j • z' j = x0 := by
    have : ∑ j, W j • parStep W P x0 z' j = x0 := by
      simp only [parStep, smul_add, Finset.sum_add_distrib]
      rw [← Finset.sum_smul, hW1, one_smul]; abel
    rwa [hz'] at this
  have hagree : ∀ i, P i (z' i) = y := fun i => by
    have := congrFun hz' i
    simp only [parStep, smul_sub, Finset.sum_sub_distrib] at this
    rw [hmean, ← hy] at this
    have h3 : z' i - P i (z' i) + y = z' i - P i (z' i) + P i (z' i) := by
      rw [sub_sub_cancel] at this
      rw [this]; abel
    exact (add_left_cancel h3).symm
  have hyc : y = c := by
    have g : ∀ i, IsSubgrad (F i) y ((1 / t i) • (z' i - y)) := fun i => by
      have := subgrad_of_isProx (hF i) (ht i) (hP2 i (z' i))
      rwa [hagree i] at this
    have key : ∀ {x : E} {u : Fin m → E}, (∀ i, IsSubgrad (F i) x (u i)) → x + ∑ i, (w i * t i / ∑ j, w j) • u i = x0 →
        IsUniqueProx (sumObj fun i => (F i).smul (w i * t i / ∑ j, w j)) 1 x0 x := by
      intro x u hu hx
      refine isUniqueProx_of_subgrad one_pos ?_
      have h3 := sumObj_subgrad (F := fun i => (F i).smul (w i * t i / ∑ j, w j)) (x := x) (s := fun i => (w i * t i / ∑ j, w j) • u i) fun i =>
        ⟨(hu i).1, fun y hy => by
          have := (hu i).2 y hy
          have hpos : 0 ≤ w i * t i / ∑ j, w j := by have := hw i; have := ht i; positivity
          simp only [XFun.smul]
          rw [real_inner_smul_left, ← mul_add]
          exact mul_le_mul_of_nonneg_left this hpos⟩
      rwa [← hx, add_sub_cancel_left, div_one, one_smul]
    have u1 := key hs hc
    have u2 := key g (by
      have e1 : ∀ i, (w i * t i / ∑ j, w j) • (1 / t i) • (z' i - y) = W i • (z' i - y) := fun i => by
        rw [smul_smul]; congr 1; have := (ht i).ne'; simp only [hW]; field_simp
      simp only [e1]
      simp only [smul_sub, Finset.sum_sub_distrib]
      rw [hmean, ← Finset.sum_smul, hW1, one_smul]; abel)
    exact u1.2 y u2.1
  rw [← hyc, ← tendsto_add_atTop_iff_nat 1]
  have e : ∀ n, (R (n + 1)).x = ∑ j, W j • P j ((S n).z j) := fun n => by rw [hRS, h3 n]
  simp only [e]
  exact tendsto_finsetSum _ fun j _ => (((firm j).continuous.tendsto _).comp ((tendsto_pi_nhds.1 hlim) j)).const_smul (W j)

end par

end Verif
