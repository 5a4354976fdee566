import Verif.Spec.Contract
import Verif.Spec.Smooth
import Verif.Model.Primal
import Verif.Lemmas.Loop
import Verif.Lemmas.Smooth
import Verif.Lemmas.Calculus
import Verif.Lemmas.Forward

/-! # C41, C42, C43, C58: ProximalGradient -/

open scoped RealInnerProductSpace
open Filter Topology

set_option linter.unusedSectionVars false

namespace Verif

variable {E : Type} [NormedAddCommGroup E] [InnerProductSpace ℝ E]

/-- The composite objective `φ + ε F`. -/
def compositeObj (φ : E → ℝ) (ε : ℝ) (F : XFun E) : XFun E := (XFun.ofReal φ).add (F.smul ε)

/-- Arguments of a call `ProximalGradient(f, g, x0, epsg=ε, tau=τ, niter=n, acceleration=acc)`, everything else at its default. -/
noncomputable def pgArgs (τ ε : ℝ) (acc : Accel) (n : ℕ) : PGArgs := ⟨some τ, false, 1 / 2, .scalar ε, n, 100, acc, 1, none⟩

lemma gradExact_map {f : ProxOp E} {φ : E → ℝ} (h : GradExact f φ) : ∃ G : E → E, (∀ x, f.grad x = .ok (G x)) ∧ ∀ x, IsGrad φ x (G x) := by
  choose G h1 h2 using h
  exact ⟨G, h1, h2⟩

/-- The trajectory of `ProximalGradient` without tolerance. -/
lemma pg_traj {f g : ProxOp E} {τ ε : ℝ} {G P : E → E} (hG : ∀ x, f.grad x = .ok (G x)) (hP : ∀ x, g.prox x (ε * τ) = .ok (P x))
    (acc : Accel) (hacc : acc ≠ .other) (x0 : E) :
    ∃ (X Y : ℕ → E) (t : ℕ → ℝ), X 0 = x0 ∧ Y 0 = x0 ∧ t 0 = 1 ∧
      (∀ n, X (n + 1) = P (Y n - τ • G (Y n))) ∧ (∀ n, t (n + 1) = (momentum acc n (t n)).2) ∧
      (∀ n, Y (n + 1) = X (n + 1) + (momentum acc n (t n)).1 • (X (n + 1) - X n)) ∧
      ∀ n, 0 < n → ProximalGradient f g x0 (pgArgs τ ε acc n) = .ok ⟨X n, Y n, t n, τ, none, (List.range n).map fun i => X (i + 1)⟩ := by
  have hbody : ∀ n i (s : PGState E), s.tau = τ → s.pfg = none → PG.body f g (pgArgs τ ε acc n) false i s =
      .ok (⟨P (s.y - τ • G s.y), P (s.y - τ • G s.y) + (momentum acc i s.t).1 • (P (s.y - τ • G s.y) - s.x), (momentum acc i s.t).2, τ, none,
        s.log ++ [P (s.y - τ • G s.y)]⟩, false) := by
    intro n i s hs1 hs2
    simp [PG.body, PG.step, pgArgs, StepSpec.at, hG, hP, hs1, hs2, Bind.bind, Except.bind, Pure.pure, Except.pure]
  obtain ⟨S, h0, h1, h2, h3⟩ := forRange_traj_nobreak (PG.body f g (pgArgs τ ε acc 0) false) (fun s => s.tau = τ ∧ s.pfg = none)
    (fun i s s' => s' = ⟨P (s.y - τ • G s.y), P (s.y - τ • G s.y) + (momentum acc i s.t).1 • (P (s.y - τ • G s.y) - s.x), (momentum acc i s.t).2,
      τ, none, s.log ++ [P (s.y - τ • G s.y)]⟩) (fun i s hs => ⟨_, hbody 0 i s hs.1 hs.2, ⟨rfl, rfl⟩, rfl⟩) ⟨x0, x0, 1, τ, none, []⟩ ⟨rfl, rfl⟩
  have hS : ∀ n, (S n).log = (List.range n).map fun i => (S (i + 1)).x := by
    intro n
    induction n with
    | zero => rw [h0]; rfl
    | succ n ih => rw [h2 n, ih, List.range_succ, List.map_append]; simp [h2 n]
  refine ⟨fun n => (S n).x, fun n => (S n).y, fun n => (S n).t, by simp [h0], by simp [h0], by simp [h0], fun n => by simp only [h2 n],
    fun n => by simp only [h2 n], fun n => by simp only [h2 n], fun n hn => ?_⟩
  have e : ProximalGradient f g x0 (pgArgs τ ε acc n) = forRange (PG.body f g (pgArgs τ ε acc 0) false) n 0 ⟨x0, x0, 1, τ, none, []⟩ := by
    have e1 : (pgArgs τ ε acc n).epsg.printCheck (pgArgs τ ε acc n).niter = .ok () := by simp [pgArgs, StepSpec.printCheck, hn.ne']
    rw [ProximalGradient, e1]
    have e2 : (pgArgs τ ε acc n).acceleration ≠ .other := hacc
    simp only [Bind.bind, Except.bind, if_neg e2]
    rfl
  rw [e, h3 n, ← hS n, ← (h1 n).1, ← (h1 n).2]

section
variable {f g : ProxOp E} {φ : E → ℝ} {F : XFun E} {L ε τ : ℝ}

lemma smulConvex (hF : F.Convex) (hε : 0 ≤ ε) : (F.smul ε).Convex := by
  refine ⟨hF.1, fun x hx y hy a b ha hb hab => ?_⟩
  have := hF.2 hx hy ha hb hab
  simp only [XFun.smul, smul_eq_mul] at *
  calc ε * F.val (a • x + b • y) ≤ ε * (a * F.val x + b * F.val y) := mul_le_mul_of_nonneg_left this hε
    _ = _ := by ring

lemma pg_maps (hg : ProxExact g F) (hε : 0 < ε) (hτ : 0 < τ) :
    ∃ P : E → E, (∀ x, g.prox x (ε * τ) = .ok (P x)) ∧ ∀ x, IsProx (F.smul ε) τ x (P x) := by
  obtain ⟨P, h1, h2⟩ := proxExact_map hg (mul_pos hε hτ)
  exact ⟨P, h1, fun x => (smul_isProx hε hτ).2 (h2 x)⟩

/-- C41: `ProximalGradient` returns for every number of iterations `≥ 1`. -/
theorem C41_pg_returns (hf : GradExact f φ) (hg : ProxExact g F) (hε : 0 < ε) (hτ : 0 < τ) (acc : Accel) (hacc : acc ≠ .other)
    (x0 : E) (n : ℕ) (hn : 0 < n) : ∃ s, ProximalGradient f g x0 (pgArgs τ ε acc n) = .ok s := by
  obtain ⟨G, hG, -⟩ := gradExact_map hf
  obtain ⟨P, hP, -⟩ := pg_maps hg hε hτ
  obtain ⟨X, Y, t, -, -, -, -, -, -, h⟩ := pg_traj hG hP acc hacc x0
  exact ⟨_, h n hn⟩

/-- C41: without acceleration and with `tau <= 1/L` one more iteration never increases `φ + ε F`; `φ` need not be convex. -/
theorem C41_pg_descent (hf : GradExact f φ) (hL : LipschitzGrad φ L) (hF : F.Convex) (hg : ProxExact g F) (hε : 0 < ε) (hτ : 0 < τ)
    (hτL : τ * L ≤ 1) (x0 : E) (n : ℕ) (hn : 0 < n) (s s' : PGState E) (hs : ProximalGradient f g x0 (pgArgs τ ε .none n) = .ok s)
    (hs' : ProximalGradient f g x0 (pgArgs τ ε .none (n + 1)) = .ok s') :
    s.x ∈ (compositeObj φ ε F).dom ∧ s'.x ∈ (compositeObj φ ε F).dom ∧
      (compositeObj φ ε F).val s'.x + ‖s.x - s'.x‖ ^ 2 / (2 * τ) ≤ (compositeObj φ ε F).val s.x := by
  obtain ⟨G, hG, hGr⟩ := gradExact_map hf
  obtain ⟨P, hP, hPx⟩ := pg_maps hg hε hτ
  obtain ⟨X, Y, t, hX0, hY0, ht0, hX, ht, hY, h⟩ := pg_traj hG hP .none (by decide) x0
  have hYX : ∀ n, Y n = X n := by
    intro n
    cases n with
    | zero => rw [hX0, hY0]
    | succ n => rw [hY]; simp [momentum]
  rw [h n hn] at hs
  rw [h (n + 1) (Nat.succ_pos _)] at hs'
  cases hs; cases hs'
  simp only
  have hdom : ∀ n, X (n + 1) ∈ F.dom := fun n => by rw [hX]; exact (hPx _).1
  obtain ⟨k, rfl⟩ : ∃ k, n = k + 1 := ⟨n - 1, by omega⟩
  have hp := hPx (Y (k + 1) - τ • G (Y (k + 1)))
  rw [← hX, hYX] at hp
  have := pg_step hGr (fun x y => hL x y _ _ (hGr x) (hGr y)) (smulConvex hF hε.le) hτ hτL hp (z := X (k + 1)) (hdom k)
  simp only [sub_self, inner_zero_right, norm_zero, XFun.smul] at this
  refine ⟨⟨trivial, hdom k⟩, ⟨trivial, hdom (k + 1)⟩, ?_⟩
  simp only [compositeObj, XFun.add, XFun.ofReal, XFun.smul]
  simp only [ne_eq, OfNat.ofNat_ne_zero, not_false_eq_true, zero_pow, zero_div, add_zero] at this
  exact this

/-- C41: without acceleration, `tau <= 1/L` and `φ` convex, `F(x_n) - F(c) <= ‖x0-c‖²/(2 tau n)` for every point `c`. -/
theorem C41_pg_rate (hf : GradExact f φ) (hL : LipschitzGrad φ L) (hφ : ConvexOn ℝ Set.univ φ) (hF : F.Convex) (hg : ProxExact g F) (hε : 0 < ε)
    (hτ : 0 < τ) (hτL : τ * L ≤ 1) (x0 : E) (n : ℕ) (hn : 0 < n) (s : PGState E)
    (hs : ProximalGradient f g x0 (pgArgs τ ε .none n) = .ok s) (c : E) (hc : c ∈ (compositeObj φ ε F).dom) :
    (compositeObj φ ε F).val s.x - (compositeObj φ ε F).val c ≤ ‖x0 - c‖ ^ 2 / (2 * τ * n) := by
  obtain ⟨G, hG, hGr⟩ := gradExact_map hf
  obtain ⟨P, hP, hPx⟩ := pg_maps hg hε hτ
  obtain ⟨X, Y, t, hX0, hY0, ht0, hX, ht, hY, h⟩ := pg_traj hG hP .none (by decide) x0
  have hYX : ∀ n, Y n = X n := by
    intro n
    cases n with
    | zero => rw [hX0, hY0]
    | succ n => rw [hY]; simp [momentum]
  set Φ := (compositeObj φ ε F).val with hΦ
  have hdesc : ∀ k, Φ (X (k + 2)) ≤ Φ (X (k + 1)) := by
    intro k
    have := (C41_pg_descent hf hL hF hg hε hτ hτL x0 (k + 1) (Nat.succ_pos _) _ _ (h _ (Nat.succ_pos _)) (h _ (Nat.succ_pos _))).2.2
    simp only at this
    have h2 : 0 ≤ ‖X (k + 1) - X (k + 2)‖ ^ 2 / (2 * τ) := by positivity
    linarith
  have hstep : ∀ k, Φ (X (k + 1)) + ‖X (k + 1) - c‖ ^ 2 / (2 * τ) ≤ Φ c + ‖X k - c‖ ^ 2 / (2 * τ) := by
    intro k
    have hp := hPx (Y k - τ • G (Y k))
    rw [← hX, hYX] at hp
    have := pg_step hGr (fun x y => hL x y _ _ (hGr x) (hGr y)) (smulConvex hF hε.le) hτ hτL hp (z := c) hc.2
    have h2 := grad_ineq hφ (hGr (X k)) c
    rw [norm_sub_rev c, norm_sub_rev c] at this
    simp only [hΦ, compositeObj, XFun.add, XFun.ofReal]
    linarith
  have hsum : ∀ k : ℕ, (k + 1 : ℝ) * (Φ (X (k + 1)) - Φ c) + ‖X (k + 1) - c‖ ^ 2 / (2 * τ) ≤ ‖x0 - c‖ ^ 2 / (2 * τ) := by
    intro k
    induction k with
    | zero => have := hstep 0; rw [hX0] at this; norm_num at *; linarith
    | succ k ih =>
      have h1 := hstep (k + 1)
      have h3 := hdesc k
      push_cast
      have h4 : (k + 1 : ℝ) * (Φ (X (k + 1 + 1)) - Φ c) ≤ (k + 1 : ℝ) * (Φ (X (k + 1)) - Φ c) :=
        mul_le_mul_of_nonneg_left (by linarith) (by positivity)
      linarith
  rw [h n hn] at hs
  cases hs
  simp only
  obtain ⟨k, rfl⟩ : ∃ k, n = k + 1 := ⟨n - 1, by omega⟩
  have h5 := hsum k
  have h6 : 0 ≤ ‖X (k + 1) - c‖ ^ 2 / (2 * τ) := by positivity
  push_cast
  rw [← div_div, le_div_iff₀ (by positivity)]
  linarith

/-- Fixed points of the proximal gradient map are the minimisers. -/
lemma pg_fixed_iff (hφ : ConvexOn ℝ Set.univ φ) (hF : F.Convex) (hτ : 0 < τ) {G P : E → E} (hGr : ∀ x, IsGrad φ x (G x))
    (hPx : ∀ x, IsProx F τ x (P x)) (c : E) : P (c - τ • G c) = c ↔ ((XFun.ofReal φ).add F).IsMin c := by
  have key : IsProx F τ (c - τ • G c) c ↔ ((XFun.ofReal φ).add F).IsMin c := by
    constructor
    · intro h
      have hs := subgrad_of_isProx hF hτ h
      refine ⟨⟨trivial, h.1⟩, fun y hy => ?_⟩
      have h1 := hs.2 y hy.2
      have h2 := grad_ineq hφ (hGr c) y
      rw [show c - τ • G c - c = -(τ • G c) by abel, smul_neg, smul_smul, one_div, inv_mul_cancel₀ hτ.ne', one_smul, inner_neg_left] at h1
      simp only [XFun.add, XFun.ofReal]
      linarith
    · intro h
      refine isProx_of_subgrad hτ ⟨h.1.2, fun y hy => ?_⟩
      rw [show c - τ • G c - c = -(τ • G c) by abel, smul_neg, smul_smul, one_div, inv_mul_cancel₀ hτ.ne', one_smul, inner_neg_left]
      set d := y - c with hd
      -- the difference quotient along the segment is nonnegative
      have hq : ∀ t ∈ Set.Ioc (0 : ℝ) 1, 0 ≤ (φ (c + t • d) - φ c) / t + (F.val y - F.val c) := by
        intro t ht
        have hm : c + t • d ∈ F.dom := by
          have := hF.1 h.1.2 hy (sub_nonneg.2 ht.2) ht.1.le (by ring : 1 - t + t = 1)
          convert this using 1
          rw [hd, smul_sub, sub_smul, one_smul]; abel
        have h1 := h.2 (c + t • d) ⟨trivial, hm⟩
        have h2 := hF.2 h.1.2 hy (sub_nonneg.2 ht.2) ht.1.le (by ring : 1 - t + t = 1)
        rw [show (1 - t) • c + t • y = c + t • d by rw [hd, smul_sub, sub_smul, one_smul]; abel] at h2
        simp only [XFun.add, XFun.ofReal, smul_eq_mul] at h1 h2
        have h3 : 0 ≤ φ (c + t • d) - φ c + t * (F.val y - F.val c) := by linarith
        have h4 := div_nonneg h3 ht.1.le
        rwa [add_div, mul_div_cancel_left₀ _ ht.1.ne'] at h4
      have hder := line_deriv hGr c d 0
      rw [zero_smul, add_zero] at hder
      have hlim := hder.tendsto_slope_zero_right
      have : 0 ≤ ⟪G c, d⟫ + (F.val y - F.val c) := by
        refine ge_of_tendsto (hlim.add_const (F.val y - F.val c)) ?_
        have : Set.Ioc (0 : ℝ) 1 ∈ 𝓝[>] (0 : ℝ) := Ioc_mem_nhdsGT one_pos
        filter_upwards [this] with t ht
        have := hq t ht
        simp only [zero_add, zero_smul, add_zero, smul_eq_mul]
        rw [div_eq_inv_mul] at this
        exact this
      linarith
  rw [← key]
  constructor
  · intro h; have := hPx (c - τ • G c); rwa [h] at this
  · intro h; exact IsProx.unique hF hτ h (hPx _)

/-- C41: in finite dimension, if `φ + ε F` has a minimiser and `tau < 2/L`, the points returned without acceleration converge to a minimiser. -/
theorem C41_pg_converges [ProperSpace E] (hf : GradExact f φ) (hL : LipschitzGrad φ L) (hφ : ConvexOn ℝ Set.univ φ) (hF : F.Convex)
    (hg : ProxExact g F) (hε : 0 < ε) (hτ : 0 < τ) (hτL : τ * L < 2) (x0 : E) (hmin : ∃ c, (compositeObj φ ε F).IsMin c) (S : ℕ → PGState E)
    (hS : ∀ n, 0 < n → ProximalGradient f g x0 (pgArgs τ ε .none n) = .ok (S n)) :
    ∃ c, (compositeObj φ ε F).IsMin c ∧ Tendsto (fun n => (S n).x) atTop (𝓝 c) := by
  obtain ⟨G, hG, hGr⟩ := gradExact_map hf
  obtain ⟨P, hP, hPx⟩ := pg_maps hg hε hτ
  obtain ⟨X, Y, t, hX0, hY0, ht0, hX, ht, hY, h⟩ := pg_traj hG hP .none (by decide) x0
  have hYX : ∀ n, Y n = X n := by
    intro n
    cases n with
    | zero => rw [hX0, hY0]
    | succ n => rw [hY]; simp [momentum]
  have hLip : ∀ x y, ‖G x - G y‖ ≤ L * ‖x - y‖ := fun x y => hL x y _ _ (hGr x) (hGr y)
  have hFc := smulConvex hF hε.le
  have hfix : ∀ c, P (c - τ • G c) = c ↔ (compositeObj φ ε F).IsMin c := fun c => pg_fixed_iff hφ hFc hτ hGr hPx c
  obtain ⟨c0, hc0⟩ := hmin
  obtain ⟨c, hc, hlim⟩ := fb_converges (firm_prox hFc hτ hPx) hGr hLip hφ hτ hτL one_pos le_rfl ⟨c0, (hfix c0).2 hc0⟩ X
    (fun n => by rw [hX, hYX, one_smul]; abel)
  refine ⟨c, (hfix c).1 hc, hlim.congr' ?_⟩
  filter_upwards [eventually_gt_atTop 0] with n hn
  have := (hS n hn).symm.trans (h n hn)
  injection this with this
  rw [this]

/-- One accelerated step in the potential `2 tau s² (Φ(x)-Φ(c)) + ‖U‖²`. -/
lemma fista_step (hφ : ConvexOn ℝ Set.univ φ) {H : XFun E} (hH : H.Convex) (hτ : 0 < τ) {G : E → E}
    (hGr : ∀ x, IsGrad φ x (G x)) {x y p c : E} {s : ℝ} (hs : 1 ≤ s)
    (hp : IsProx H τ (y - τ • G y) p) (hsuff : φ p ≤ φ y + ⟪G y, p - y⟫ + ‖p - y‖ ^ 2 / (2 * τ)) (hx : s = 1 ∨ x ∈ H.dom) (hc : c ∈ H.dom) :
    2 * τ * s ^ 2 * (φ p + H.val p - (φ c + H.val c)) + ‖s • p - (s - 1) • x - c‖ ^ 2 ≤
      2 * τ * (s ^ 2 - s) * (φ x + H.val x - (φ c + H.val c)) + ‖s • y - (s - 1) • x - c‖ ^ 2 := by
  have hs0 : 0 < s := by linarith
  set z := (1 - 1 / s) • x + (1 / s) • c with hz
  have ha : 0 ≤ 1 - 1 / s := by rw [sub_nonneg, div_le_one hs0]; exact hs
  have hb : 0 ≤ 1 / s := by positivity
  have hzd : z ∈ H.dom ∧ φ z + H.val z ≤ (1 - 1 / s) * (φ x + H.val x) + 1 / s * (φ c + H.val c) := by
    rcases hx with h1 | hx
    · have : z = c := by rw [hz, h1]; simp
      rw [this, h1]
      exact ⟨hc, by norm_num⟩
    · have h1 := hH.2 hx hc ha hb (by ring)
      have h2 := hφ.2 (Set.mem_univ x) (Set.mem_univ c) ha hb (by ring)
      refine ⟨hH.1 hx hc ha hb (by ring), ?_⟩
      simp only [smul_eq_mul] at h1 h2
      linarith
  have h1 := pg_step_suff hH hτ hp hsuff hzd.1
  have h2 := grad_ineq hφ (hGr y) z
  have h3 : φ p + H.val p + ‖z - p‖ ^ 2 / (2 * τ) ≤ (1 - 1 / s) * (φ x + H.val x) + 1 / s * (φ c + H.val c) + ‖z - y‖ ^ 2 / (2 * τ) := by
    linarith [hzd.2]
  have e : ∀ w : E, ‖s • w - (s - 1) • x - c‖ ^ 2 = s ^ 2 * ‖z - w‖ ^ 2 := by
    intro w
    have : s • w - (s - 1) • x - c = -(s • (z - w)) := by
      rw [hz, smul_sub, smul_add, smul_smul, smul_smul, mul_sub, mul_one, mul_one_div_cancel hs0.ne', one_smul]; abel
    rw [this, norm_neg, norm_smul, mul_pow, Real.norm_eq_abs, sq_abs]
  rw [e p, e y]
  have h4 := mul_le_mul_of_nonneg_left h3 (show 0 ≤ 2 * τ * s ^ 2 by positivity)
  have e2 : 2 * τ * s ^ 2 * ((1 - 1 / s) * (φ x + H.val x) + 1 / s * (φ c + H.val c) + ‖z - y‖ ^ 2 / (2 * τ)) =
      2 * τ * ((s ^ 2 - s) * (φ x + H.val x) + s * (φ c + H.val c)) + s ^ 2 * ‖z - y‖ ^ 2 := by
    field_simp
  rw [e2] at h4
  have e3 : 2 * τ * s ^ 2 * (φ p + H.val p + ‖z - p‖ ^ 2 / (2 * τ)) = 2 * τ * s ^ 2 * (φ p + H.val p) + s ^ 2 * ‖z - p‖ ^ 2 := by field_simp
  rw [e3] at h4
  linarith

/-- The accelerated scheme with non-increasing steps that satisfy the sufficient decrease condition. -/
lemma fista_rate (hφ : ConvexOn ℝ Set.univ φ) {H : XFun E} (hH : H.Convex) {G : E → E} (hGr : ∀ x, IsGrad φ x (G x)) {X Y : ℕ → E}
    {s θ : ℕ → ℝ} (hθ : ∀ n, 0 < θ n) (hanti : ∀ n, θ (n + 1) ≤ θ n) (h0 : Y 0 = X 0)
    (hX : ∀ n, IsProx H (θ n) (Y n - θ n • G (Y n)) (X (n + 1)))
    (hsuff : ∀ n, φ (X (n + 1)) ≤ φ (Y n) + ⟪G (Y n), X (n + 1) - Y n⟫ + ‖X (n + 1) - Y n‖ ^ 2 / (2 * θ n)) (hs0 : s 0 = 1)
    (hs1 : ∀ n, 1 ≤ s n) (hs : ∀ n, s (n + 1) ^ 2 - s (n + 1) ≤ s n ^ 2)
    (hY : ∀ n, Y (n + 1) = X (n + 1) + ((s n - 1) / s (n + 1)) • (X (n + 1) - X n)) {c : E}
    (hc : ((XFun.ofReal φ).add H).IsMin c) (n : ℕ) :
    2 * θ n * s n ^ 2 * (φ (X (n + 1)) + H.val (X (n + 1)) - (φ c + H.val c)) + ‖s n • X (n + 1) - (s n - 1) • X n - c‖ ^ 2 ≤
      ‖X 0 - c‖ ^ 2 := by
  induction n with
  | zero =>
    have := fista_step hφ hH (hθ 0) hGr (hs1 0) (hX 0) (hsuff 0) (x := X 0) (Or.inl hs0) hc.1.2
    rw [h0, hs0] at this
    rw [hs0]
    simp only [one_smul, sub_self, zero_smul, sub_zero, one_pow, mul_zero, zero_mul, zero_add] at this ⊢
    exact this
  | succ n ih =>
    have := fista_step hφ hH (hθ (n + 1)) hGr (hs1 (n + 1)) (hX (n + 1)) (hsuff (n + 1)) (x := X (n + 1)) (Or.inr (hX n).1) hc.1.2
    have hv : 0 ≤ φ (X (n + 1)) + H.val (X (n + 1)) - (φ c + H.val c) := by
      have := hc.2 (X (n + 1)) ⟨trivial, (hX n).1⟩
      simp only [XFun.add, XFun.ofReal] at this
      linarith
    have e : s (n + 1) • Y (n + 1) - (s (n + 1) - 1) • X (n + 1) - c = s n • X (n + 1) - (s n - 1) • X n - c := by
      have hne : s (n + 1) ≠ 0 := by have := hs1 (n + 1); linarith
      rw [hY, smul_add, smul_smul, mul_div_cancel₀ _ hne, smul_sub, sub_smul (s (n + 1)), one_smul, sub_smul (s n) 1 (X (n + 1)), one_smul]
      abel
    rw [e] at this
    have h2 := mul_le_mul_of_nonneg_right (hs n) hv
    have h3 : 2 * θ (n + 1) * (s (n + 1) ^ 2 - s (n + 1)) * (φ (X (n + 1)) + H.val (X (n + 1)) - (φ c + H.val c)) ≤
        2 * θ n * s n ^ 2 * (φ (X (n + 1)) + H.val (X (n + 1)) - (φ c + H.val c)) := by
      have h4 : θ (n + 1) * (s (n + 1) ^ 2 - s (n + 1)) ≤ θ n * s n ^ 2 :=
        (mul_le_mul_of_nonneg_left (hs n) (hθ (n + 1)).le).trans (mul_le_mul_of_nonneg_right (hanti n) (sq_nonneg _))
      have := mul_le_mul_of_nonneg_right h4 hv
      linarith
    linarith

lemma fista_t {t : ℕ → ℝ} (h0 : t 0 = 1) (h : ∀ n, t (n + 1) = (1 + √(1 + 4 * t n ^ 2)) / 2) (n : ℕ) :
    ((n : ℝ) + 2) / 2 ≤ t n ∧ t (n + 1) ^ 2 - t (n + 1) = t n ^ 2 := by
  constructor
  · induction n with
    | zero => rw [h0]; norm_num
    | succ n ih =>
      rw [h]
      have h1 : 2 * t n ≤ √(1 + 4 * t n ^ 2) := Real.le_sqrt_of_sq_le (by nlinarith)
      push_cast
      linarith
  · rw [h]
    have := Real.sq_sqrt (show 0 ≤ 1 + 4 * t n ^ 2 by positivity)
    nlinarith

/-- C58: the parameters `t_k` computed by the `fista` rule (`t_0 = 1`) satisfy `t_k ≥ (k+2)/2`, `t_{k+1}² - t_{k+1} = t_k²`, and the weight
used to extrapolate lies in `[0, 1)`. -/
theorem C58_fista_parameters (t : ℕ → ℝ) (h0 : t 0 = 1) (h : ∀ n, t (n + 1) = (momentum .fista n (t n)).2) (n : ℕ) :
    ((n : ℝ) + 2) / 2 ≤ t n ∧ t (n + 1) ^ 2 - t (n + 1) = t n ^ 2 ∧ 0 ≤ (momentum .fista n (t n)).1 ∧ (momentum .fista n (t n)).1 < 1 := by
  have h' : ∀ n, t (n + 1) = (1 + √(1 + 4 * t n ^ 2)) / 2 := h
  have h1 := fista_t h0 h' n
  have h2 := fista_t h0 h' (n + 1)
  refine ⟨h1.1, h1.2, ?_⟩
  have e : (momentum .fista n (t n)).1 = (t n - 1) / t (n + 1) := by rw [h' n]; rfl
  rw [e]
  have h3 : 1 ≤ t n := le_trans (by have := Nat.cast_nonneg (α := ℝ) n; linarith) h1.1
  have h4 : 0 < t (n + 1) := lt_of_lt_of_le (by positivity) h2.1
  refine ⟨div_nonneg (by linarith) h4.le, ?_⟩
  rw [div_lt_one h4]
  by_contra hcon
  push Not at hcon
  nlinarith [h1.2]

/-- C58: the weights of the `vandenberghe` rule lie in `[0, 1)` as well. -/
theorem C58_vandenberghe_weights (t : ℝ) (n : ℕ) : 0 ≤ (momentum .vandenberghe n t).1 ∧ (momentum .vandenberghe n t).1 < 1 := by
  simp only [momentum]
  exact ⟨by positivity, by rw [div_lt_one (by positivity)]; linarith⟩

/-- C58: in a run of `ProximalGradient` with `acceleration='fista'` the parameter held after `n` iterations is `t_n`: at least `(n+2)/2`, and
two consecutive ones satisfy the recursion. -/
theorem C58_fista_run (hf : GradExact f φ) (hg : ProxExact g F) (hε : 0 < ε) (hτ : 0 < τ) (x0 : E) (n : ℕ) (hn : 0 < n) (s s' : PGState E)
    (hs : ProximalGradient f g x0 (pgArgs τ ε .fista n) = .ok s) (hs' : ProximalGradient f g x0 (pgArgs τ ε .fista (n + 1)) = .ok s') :
    ((n : ℝ) + 2) / 2 ≤ s.t ∧ s'.t ^ 2 - s'.t = s.t ^ 2 ∧
      ∃ ω : ℝ, 0 ≤ ω ∧ ω < 1 ∧ s'.y = s'.x + ω • (s'.x - s.x) := by
  obtain ⟨G, hG, hGr⟩ := gradExact_map hf
  obtain ⟨P, hP, hPx⟩ := pg_maps hg hε hτ
  obtain ⟨X, Y, t, hX0, hY0, ht0, hX, ht, hY, h⟩ := pg_traj hG hP .fista (by decide) x0
  rw [h n hn] at hs
  rw [h (n + 1) (Nat.succ_pos _)] at hs'
  cases hs; cases hs'
  have := C58_fista_parameters t ht0 ht n
  exact ⟨this.1, this.2.1, (momentum .fista n (t n)).1, this.2.2.1, this.2.2.2, hY n⟩

/-- Both acceleration rules are instances of one scheme. -/
lemma accel_scheme {acc : Accel} (hacc : acc = .fista ∨ acc = .vandenberghe) {X Y : ℕ → E} {t : ℕ → ℝ} (ht0 : t 0 = 1)
    (ht : ∀ n, t (n + 1) = (momentum acc n (t n)).2) (hY : ∀ n, Y (n + 1) = X (n + 1) + (momentum acc n (t n)).1 • (X (n + 1) - X n)) :
    ∃ σ : ℕ → ℝ, σ 0 = 1 ∧ (∀ n : ℕ, ((n : ℝ) + 2) / 2 ≤ σ n) ∧ (∀ n, σ (n + 1) ^ 2 - σ (n + 1) ≤ σ n ^ 2) ∧
      ∀ n, Y (n + 1) = X (n + 1) + ((σ n - 1) / σ (n + 1)) • (X (n + 1) - X n) := by
  rcases hacc with rfl | rfl
  · have h' : ∀ n, t (n + 1) = (1 + √(1 + 4 * t n ^ 2)) / 2 := ht
    refine ⟨t, ht0, fun n => (fista_t ht0 h' n).1, fun n => (fista_t ht0 h' n).2.le, fun n => ?_⟩
    rw [hY n, h' n]; rfl
  · refine ⟨fun n => ((n : ℝ) + 2) / 2, by norm_num, fun n => le_rfl, fun n => ?_, fun n => ?_⟩
    · push_cast; nlinarith
    · rw [hY n]
      simp only [momentum]
      congr 2
      have : (n : ℝ) + 3 ≠ 0 := by positivity
      have : (n : ℝ) + 1 + 2 ≠ 0 := by positivity
      push_cast
      field_simp
      ring

lemma rate_of_potential {v d τ : ℝ} {σ : ℝ} {k : ℕ} (hτ : 0 < τ) (hσ : ((k : ℝ) + 2) / 2 ≤ σ) (hv : 0 ≤ v) (h : 2 * τ * σ ^ 2 * v ≤ d) :
    v ≤ 2 * d / (τ * (((k + 1 : ℕ) : ℝ) + 1) ^ 2) := by
  have h7 : (((k : ℝ) + 2) / 2) ^ 2 ≤ σ ^ 2 := pow_le_pow_left₀ (by positivity) hσ 2
  have h8 := mul_le_mul_of_nonneg_right h7 hv
  have h9 := mul_le_mul_of_nonneg_left h8 hτ.le
  push_cast
  rw [le_div_iff₀ (by positivity)]
  nlinarith

/-- C42: with `acceleration='fista'` or `'vandenberghe'` and `tau <= 1/L`, after `n ≥ 1` iterations the objective exceeds its minimum by at
most `2‖x0-c‖²/(tau (n+1)²)`, for every minimiser `c`; `x0` may lie outside the domain of `F`. -/
theorem C42_accelerated_rate (hf : GradExact f φ) (hL : LipschitzGrad φ L) (hφ : ConvexOn ℝ Set.univ φ) (hF : F.Convex) (hg : ProxExact g F)
    (hε : 0 < ε) (hτ : 0 < τ) (hτL : τ * L ≤ 1) (acc : Accel) (hacc : acc = .fista ∨ acc = .vandenberghe) (x0 : E) (n : ℕ) (hn : 0 < n)
    (s : PGState E) (hs : ProximalGradient f g x0 (pgArgs τ ε acc n) = .ok s) (c : E) (hc : (compositeObj φ ε F).IsMin c) :
    (compositeObj φ ε F).val s.x - (compositeObj φ ε F).val c ≤ 2 * ‖x0 - c‖ ^ 2 / (τ * (n + 1) ^ 2) := by
  obtain ⟨G, hG, hGr⟩ := gradExact_map hf
  obtain ⟨P, hP, hPx⟩ := pg_maps hg hε hτ
  obtain ⟨X, Y, t, hX0, hY0, ht0, hX, ht, hY, h⟩ := pg_traj hG hP acc (by rcases hacc with h | h <;> rw [h] <;> decide) x0
  have hLip : ∀ x y, ‖G x - G y‖ ≤ L * ‖x - y‖ := fun x y => hL x y _ _ (hGr x) (hGr y)
  obtain ⟨σ, hσ0, hσ, hσr, hσY⟩ := accel_scheme hacc ht0 ht hY
  have hσ1 : ∀ n, 1 ≤ σ n := fun n => le_trans (by have := Nat.cast_nonneg (α := ℝ) n; linarith) (hσ n)
  obtain ⟨k, rfl⟩ : ∃ k, n = k + 1 := ⟨n - 1, by omega⟩
  have hr := fista_rate hφ (smulConvex hF hε.le) hGr (θ := fun _ => τ) (fun _ => hτ) (fun _ => le_rfl) (hY0.trans hX0.symm)
    (fun n => by rw [hX]; exact hPx _) (fun n => suff_of_lipschitz hGr hLip hτ hτL _ _) hσ0 hσ1 hσr hσY hc k
  rw [h _ hn] at hs
  cases hs
  simp only
  have e : ∀ x, (compositeObj φ ε F).val x = φ x + (F.smul ε).val x := fun x => rfl
  have hv : 0 ≤ (compositeObj φ ε F).val (X (k + 1)) - (compositeObj φ ε F).val c := by
    have := hc.2 (X (k + 1)) ⟨trivial, by rw [hX]; exact (hPx _).1⟩
    linarith
  rw [← e, ← e, hX0] at hr
  exact rate_of_potential hτ (hσ k) hv (by have : 0 ≤ ‖σ k • X (k + 1) - (σ k - 1) • X k - c‖ ^ 2 := by positivity
                                           linarith)

end

/-! ## Backtracking -/

section
variable {f g : ProxOp E} {φ : E → ℝ} {F : XFun E} {L ε τ β : ℝ}

lemma backtrack_pos (hfc : EvaluatesNum f φ) {x G z : E} (hG : f.grad x = .ok G) (hz : g.prox (x - τ • G) (ε * τ) = .ok z)
    (hc : φ z ≤ φ x + ⟪G, z - x⟫ + 1 / (2 * τ) * ‖z - x‖ ^ 2) (n : ℕ) (z0 : Option E) :
    backtrack f g x ε β (n + 1) τ z0 = .ok (z, τ) := by
  have hc' : (CallVal.num (φ z)).toReal ≤ (CallVal.num (φ x)).toReal + ⟪G, z - x⟫ + 1 / (2 * τ) * ‖z - x‖ ^ 2 := hc
  simp only [backtrack, hG, hz, hfc x, hfc z, Bind.bind, Except.bind]
  rw [if_pos hc']

lemma backtrack_neg (hfc : EvaluatesNum f φ) {x G z : E} (hG : f.grad x = .ok G) (hz : g.prox (x - τ • G) (ε * τ) = .ok z)
    (hc : ¬ φ z ≤ φ x + ⟪G, z - x⟫ + 1 / (2 * τ) * ‖z - x‖ ^ 2) (n : ℕ) (z0 : Option E) :
    backtrack f g x ε β (n + 1) τ z0 = backtrack f g x ε β n (τ * β) (some z) := by
  have hc' : ¬ (CallVal.num (φ z)).toReal ≤ (CallVal.num (φ x)).toReal + ⟪G, z - x⟫ + 1 / (2 * τ) * ‖z - x‖ ^ 2 := hc
  rw [backtrack]
  simp only [hG, hz, hfc x, hfc z, Bind.bind, Except.bind]
  rw [if_neg hc']

/-- C43: what the search returns.  With a limit of `n ≥ 1` trials it always returns a pair `(z, tau')` with `tau' = tau beta^j` for some
`j ≤ n`.  If it stopped before the limit (`j < n`), `z` is the proximal gradient point for the returned step, the sufficient decrease condition
holds there, and it holds for none of the larger steps tried.  If `tau beta^(n-1) ≤ 1/L` it does stop before the limit. -/
theorem C43_backtracking (hfc : EvaluatesNum f φ) (hf : GradExact f φ) (hg : ProxExact g F) (hε : 0 < ε) (hβ : 0 < β) (hτ : 0 < τ) (x : E)
    (n : ℕ) (hn : 0 < n) :
    ∃ (z : E) (j : ℕ), j ≤ n ∧ backtrack f g x ε β n τ none = .ok (z, τ * β ^ j) ∧
      (j < n → ∃ G, IsGrad φ x G ∧ IsProx (F.smul ε) (τ * β ^ j) (x - (τ * β ^ j) • G) z ∧
        φ z ≤ φ x + ⟪G, z - x⟫ + ‖z - x‖ ^ 2 / (2 * (τ * β ^ j))) ∧
      (LipschitzGrad φ L → τ * β ^ (n - 1) * L ≤ 1 → j < n) := by
  obtain ⟨G, hG, hGr⟩ := gradExact_map hf
  have key : ∀ (n : ℕ) (τ : ℝ) (z0 : Option E), 0 < τ → (0 < n ∨ z0.isSome) →
      ∃ (z : E) (j : ℕ), j ≤ n ∧ backtrack f g x ε β n τ z0 = .ok (z, τ * β ^ j) ∧
      (j < n → IsProx (F.smul ε) (τ * β ^ j) (x - (τ * β ^ j) • G x) z ∧
        φ z ≤ φ x + ⟪G x, z - x⟫ + ‖z - x‖ ^ 2 / (2 * (τ * β ^ j))) ∧
      (LipschitzGrad φ L → 0 < n → τ * β ^ (n - 1) * L ≤ 1 → j < n) := by
    intro n
    induction n with
    | zero =>
      intro τ z0 hτ h
      obtain ⟨z, rfl⟩ := Option.isSome_iff_exists.1 (h.resolve_left (lt_irrefl _))
      refine ⟨z, 0, le_rfl, by simp [backtrack], fun h => absurd h (lt_irrefl _), fun _ h => absurd h (lt_irrefl _)⟩
    | succ n ih =>
      intro τ z0 hτ _
      obtain ⟨z, hz, hzx⟩ := hg (x - τ • G x) (ε * τ) (mul_pos hε hτ)
      have hzx' := (smul_isProx hε hτ).2 hzx
      by_cases hc : φ z ≤ φ x + ⟪G x, z - x⟫ + 1 / (2 * τ) * ‖z - x‖ ^ 2
      · refine ⟨z, 0, Nat.zero_le _, ?_, fun _ => ?_, fun _ _ _ => Nat.succ_pos _⟩
        · rw [backtrack_pos hfc (hG x) hz hc, pow_zero, mul_one]
        · rw [pow_zero, mul_one]
          exact ⟨hzx', by rw [one_div_mul_eq_div] at hc; exact hc⟩
      · obtain ⟨z', j, hj, h1, h2, h3⟩ := ih (τ * β) (some z) (mul_pos hτ hβ) (Or.inr rfl)
        have e : τ * β * β ^ j = τ * β ^ (j + 1) := by ring
        rw [e] at h1 h2
        refine ⟨z', j + 1, Nat.succ_le_succ hj, ?_, fun h => h2 (Nat.lt_of_succ_lt_succ h), fun hL _ hl => ?_⟩
        · rw [backtrack_neg hfc (hG x) hz hc, h1]
        · rcases Nat.eq_zero_or_pos n with rfl | hn
          · exfalso
            apply hc
            have := suff_of_lipschitz hGr (fun x y => hL x y _ _ (hGr x) (hGr y)) hτ (by simpa using hl) x z
            rwa [one_div_mul_eq_div]
          · refine Nat.succ_lt_succ (h3 hL hn ?_)
            rw [Nat.succ_sub_one] at hl
            calc τ * β * β ^ (n - 1) * L = τ * (β ^ (n - 1) * β) * L := by ring
              _ = τ * β ^ n * L := by rw [← pow_succ, Nat.sub_add_cancel hn]
              _ ≤ 1 := hl
  obtain ⟨z, j, h1, h2, h3, h4⟩ := key n τ none hτ (Or.inl hn)
  exact ⟨z, j, h1, h2, fun h => ⟨G x, hGr x, h3 h⟩, fun hL h => h4 hL hn h⟩

/-- C43: the step returned never exceeds the initial one (`0 < beta ≤ 1`). -/
theorem C43_backtracking_step_le (hfc : EvaluatesNum f φ) (hf : GradExact f φ) (hg : ProxExact g F) (hε : 0 < ε) (hβ : 0 < β) (hβ1 : β ≤ 1)
    (hτ : 0 < τ) (x : E) (n : ℕ) (z : E) (τ' : ℝ) (h : backtrack f g x ε β n τ none = .ok (z, τ')) : 0 < τ' ∧ τ' ≤ τ := by
  rcases Nat.eq_zero_or_pos n with rfl | hn
  · simp [backtrack] at h
  · obtain ⟨z', j, -, h2, -⟩ := C43_backtracking (L := 0) hfc hf hg hε hβ hτ x n hn
    rw [h2] at h
    cases h
    exact ⟨by positivity, mul_le_of_le_one_right hτ.le (pow_le_one₀ hβ.le hβ1)⟩

/-- C43: with `niterback = 0` the search fails instead of returning. -/
theorem C43_backtracking_no_trials (f g : ProxOp E) (x : E) (ε β τ : ℝ) : backtrack f g x ε β 0 τ none = .error .unboundLocalError := rfl

/-- C43 (what happens at the limit): if the condition fails for all `n+1` steps tried, the point returned is the one computed with the step
`tau beta^n`, while the step returned is `tau beta^(n+1)`: the pair does not belong together. -/
theorem C43_backtracking_exhausted (hfc : EvaluatesNum f φ) (x G : E) (hG : f.grad x = .ok G) (ε β τ : ℝ) (n : ℕ) (z : ℕ → E)
    (hz : ∀ j ≤ n, g.prox (x - (τ * β ^ j) • G) (ε * (τ * β ^ j)) = .ok (z j))
    (hfail : ∀ j ≤ n, φ x + ⟪G, z j - x⟫ + 1 / (2 * (τ * β ^ j)) * ‖z j - x‖ ^ 2 < φ (z j)) :
    backtrack f g x ε β (n + 1) τ none = .ok (z n, τ * β ^ (n + 1)) := by
  have key : ∀ (n : ℕ) (τ : ℝ) (z : ℕ → E) (z0 : Option E), (∀ j ≤ n, g.prox (x - (τ * β ^ j) • G) (ε * (τ * β ^ j)) = .ok (z j)) →
      (∀ j ≤ n, φ x + ⟪G, z j - x⟫ + 1 / (2 * (τ * β ^ j)) * ‖z j - x‖ ^ 2 < φ (z j)) →
      backtrack f g x ε β (n + 1) τ z0 = .ok (z n, τ * β ^ (n + 1)) := by
    intro n
    induction n with
    | zero =>
      intro τ z z0 hz hfail
      have h1 := hz 0 le_rfl
      have h2 := hfail 0 le_rfl
      rw [pow_zero, mul_one] at h1 h2
      rw [backtrack_neg hfc hG h1 (not_le.2 h2), zero_add, pow_one]
      rfl
    | succ n ih =>
      intro τ z z0 hz hfail
      have h1 := hz 0 (Nat.zero_le _)
      have h2 := hfail 0 (Nat.zero_le _)
      rw [pow_zero, mul_one] at h1 h2
      have e : ∀ j, τ * β * β ^ j = τ * β ^ (j + 1) := fun j => by ring
      have h3 := ih (τ * β) (fun j => z (j + 1)) (some (z 0)) (fun j hj => by rw [e]; exact hz (j + 1) (Nat.succ_le_succ hj))
        (fun j hj => by rw [e]; exact hfail (j + 1) (Nat.succ_le_succ hj))
      rw [backtrack_neg hfc hG h1 (not_le.2 h2), h3, e]
  exact key n τ z none hz hfail

/-- The search never goes below `min(lower bound, beta/L)`. -/
lemma backtrack_lower (hfc : EvaluatesNum f φ) {G : E → E} (hG : ∀ x, f.grad x = .ok (G x)) (hGr : ∀ x, IsGrad φ x (G x))
    (hLip : ∀ x y, ‖G x - G y‖ ≤ L * ‖x - y‖) (hL0 : 0 < L) (hg : ProxExact g F) (hε : 0 < ε) (hβ : 0 < β) (x : E) {m : ℝ} (hm : m ≤ β / L) :
    ∀ (n : ℕ) (τ : ℝ) (z0 : Option E) (z : E) (τ' : ℝ), 0 < τ → m ≤ τ → backtrack f g x ε β n τ z0 = .ok (z, τ') → m ≤ τ' := by
  intro n
  induction n with
  | zero =>
    intro τ z0 z τ' hτ hmτ h
    cases z0 with
    | none => simp [backtrack] at h
    | some z0 => simp only [backtrack] at h; cases h; exact hmτ
  | succ n ih =>
    intro τ z0 z τ' hτ hmτ h
    obtain ⟨w, hw, hwx⟩ := hg (x - τ • G x) (ε * τ) (mul_pos hε hτ)
    by_cases hc : φ w ≤ φ x + ⟪G x, w - x⟫ + 1 / (2 * τ) * ‖w - x‖ ^ 2
    · rw [backtrack_pos hfc (hG x) hw hc] at h
      cases h; exact hmτ
    · rw [backtrack_neg hfc (hG x) hw hc] at h
      refine ih (τ * β) _ z τ' (mul_pos hτ hβ) ?_ h
      have h1 : 1 < τ * L := by
        by_contra hcon
        apply hc
        rw [one_div_mul_eq_div]
        exact suff_of_lipschitz hGr hLip hτ (not_lt.1 hcon) x w
      refine hm.trans ?_
      rw [div_le_iff₀ hL0]
      nlinarith

/-- Arguments of `ProximalGradient(f, g, x0, epsg=ε, tau=τ, beta=β, backtracking=True, niter=n, niterback=nb, acceleration=acc)`. -/
noncomputable def pgBackArgs (τ β ε : ℝ) (acc : Accel) (nb n : ℕ) : PGArgs := ⟨some τ, true, β, .scalar ε, n, nb, acc, 1, none⟩

/-- The trajectory with backtracking: steps never increase, stay above `min(tau, beta/L)`, and satisfy the sufficient decrease condition. -/
lemma pg_back_traj (hfc : EvaluatesNum f φ) (hf : GradExact f φ) (hL : LipschitzGrad φ L) (hL0 : 0 < L) (hg : ProxExact g F) (hε : 0 < ε)
    (hβ : 0 < β) (hβ1 : β ≤ 1) (hτ : 0 < τ) (acc : Accel) (hacc : acc ≠ .other) (nb : ℕ) (hnb : 0 < nb) (hlim : τ * β ^ (nb - 1) * L ≤ 1) (x0 : E) :
    ∃ (G : E → E) (X Y : ℕ → E) (t θ : ℕ → ℝ), (∀ x, IsGrad φ x (G x)) ∧ X 0 = x0 ∧ Y 0 = x0 ∧ t 0 = 1 ∧ (∀ n, 0 < θ n) ∧ (∀ n, θ (n + 1) ≤ θ n) ∧
      (∀ n, min τ (β / L) ≤ θ n) ∧ (∀ n, θ n ≤ τ) ∧ (∀ n, IsProx (F.smul ε) (θ n) (Y n - θ n • G (Y n)) (X (n + 1))) ∧
      (∀ n, φ (X (n + 1)) ≤ φ (Y n) + ⟪G (Y n), X (n + 1) - Y n⟫ + ‖X (n + 1) - Y n‖ ^ 2 / (2 * θ n)) ∧
      (∀ n, t (n + 1) = (momentum acc n (t n)).2) ∧
      (∀ n, Y (n + 1) = X (n + 1) + (momentum acc n (t n)).1 • (X (n + 1) - X n)) ∧
      ∀ n, ProximalGradient f g x0 (pgBackArgs τ β ε acc nb (n + 1)) =
        .ok ⟨X (n + 1), Y (n + 1), t (n + 1), θ n, none, (List.range (n + 1)).map fun i => X (i + 1)⟩ := by
  obtain ⟨G, hG, hGr⟩ := gradExact_map hf
  have hLip : ∀ x y, ‖G x - G y‖ ≤ L * ‖x - y‖ := fun x y => hL x y _ _ (hGr x) (hGr y)
  let Good : PGState E → Prop := fun s => 0 < s.tau ∧ s.tau ≤ τ ∧ min τ (β / L) ≤ s.tau ∧ s.pfg = none
  let R : ℕ → PGState E → PGState E → Prop := fun i s s' =>
    0 < s'.tau ∧ s'.tau ≤ s.tau ∧ IsProx (F.smul ε) s'.tau (s.y - s'.tau • G s.y) s'.x ∧
      φ s'.x ≤ φ s.y + ⟪G s.y, s'.x - s.y⟫ + ‖s'.x - s.y‖ ^ 2 / (2 * s'.tau) ∧ s'.t = (momentum acc i s.t).2 ∧
      s'.y = s'.x + (momentum acc i s.t).1 • (s'.x - s.x) ∧ s'.log = s.log ++ [s'.x]
  have hbody : ∀ n i (s : PGState E), Good s → ∃ s', PG.body f g (pgBackArgs τ β ε acc nb n) true i s = .ok (s', false) ∧ Good s' ∧ R i s s' := by
    intro n i s hs
    obtain ⟨hs1, hs2, hs3, hs4⟩ := hs
    obtain ⟨z, j, hj, h1, h2, h3⟩ := C43_backtracking (L := L) hfc hf hg hε hβ hs1 s.y nb hnb
    have hlt : j < nb := h3 hL ((mul_le_mul_of_nonneg_right (mul_le_mul_of_nonneg_right hs2 (by positivity)) hL0.le).trans hlim)
    obtain ⟨G', hG', h4, h5⟩ := h2 hlt
    have hGG : G' = G s.y := by
      have h1 : HasFDerivAt φ (innerSL ℝ G') s.y := hG'
      have h2 : HasFDerivAt φ (innerSL ℝ (G s.y)) s.y := hGr s.y
      have h3 := h1.unique h2
      exact ext_inner_right ℝ fun v => by simpa using congrArg (fun l => l v) h3
    rw [hGG] at h4 h5
    set θ := s.tau * β ^ j with hθ
    have hθ0 : 0 < θ := by positivity
    have hθs : θ ≤ s.tau := mul_le_of_le_one_right hs1.le (pow_le_one₀ hβ.le hβ1)
    have hlow : min τ (β / L) ≤ θ := backtrack_lower hfc hG hGr hLip hL0 hg hε hβ s.y (min_le_right _ _) nb s.tau none z θ hs1 hs3 h1
    refine ⟨⟨z, z + (momentum acc i s.t).1 • (z - s.x), (momentum acc i s.t).2, θ, none, s.log ++ [z]⟩, ?_, ⟨hθ0, hθs.trans hs2, hlow, rfl⟩,
      hθ0, hθs, h4, h5, rfl, rfl, rfl⟩
    simp [PG.body, PG.step, pgBackArgs, StepSpec.at, h1, hs4, Bind.bind, Except.bind, Pure.pure, Except.pure]
  obtain ⟨S, h0, h1, h2, h3⟩ := forRange_traj_nobreak (PG.body f g (pgBackArgs τ β ε acc nb 0) true) Good R (hbody 0) ⟨x0, x0, 1, τ, none, []⟩
    ⟨hτ, le_rfl, min_le_left _ _, rfl⟩
  have hS : ∀ n, (S n).log = (List.range n).map fun i => (S (i + 1)).x := by
    intro n
    induction n with
    | zero => rw [h0]; rfl
    | succ n ih => rw [(h2 n).2.2.2.2.2.2, ih, List.range_succ, List.map_append]; simp
  refine ⟨G, fun n => (S n).x, fun n => (S n).y, fun n => (S n).t, fun n => (S (n + 1)).tau, hGr, by simp [h0], by simp [h0], by simp [h0],
    fun n => (h1 _).1, fun n => (h2 (n + 1)).2.1, fun n => (h1 _).2.2.1, fun n => (h1 _).2.1, fun n => (h2 n).2.2.1, fun n => (h2 n).2.2.2.1,
    fun n => (h2 n).2.2.2.2.1, fun n => (h2 n).2.2.2.2.2.1, fun n => ?_⟩
  have e : ProximalGradient f g x0 (pgBackArgs τ β ε acc nb (n + 1)) =
      forRange (PG.body f g (pgBackArgs τ β ε acc nb 0) true) (n + 1) 0 ⟨x0, x0, 1, τ, none, []⟩ := by
    have e1 : (pgBackArgs τ β ε acc nb (n + 1)).epsg.printCheck (pgBackArgs τ β ε acc nb (n + 1)).niter = .ok () := by
      simp [pgBackArgs, StepSpec.printCheck]
    rw [ProximalGradient, e1]
    have e2 : (pgBackArgs τ β ε acc nb (n + 1)).acceleration ≠ .other := hacc
    simp only [Bind.bind, Except.bind, if_neg e2]
    rfl
  rw [e, h3 (n + 1), ← hS (n + 1), ← (h1 (n + 1)).2.2.2]

/-- C43: with backtracking and no acceleration every iteration decreases `φ + ε F`, for any initial step and `0 < beta ≤ 1`, provided the limit
`niterback` reaches `1/L`. -/
theorem C43_pg_backtracking_descent (hfc : EvaluatesNum f φ) (hf : GradExact f φ) (hL : LipschitzGrad φ L) (hL0 : 0 < L) (hF : F.Convex)
    (hg : ProxExact g F) (hε : 0 < ε) (hβ : 0 < β) (hβ1 : β ≤ 1) (hτ : 0 < τ) (nb : ℕ) (hnb : 0 < nb) (hlim : τ * β ^ (nb - 1) * L ≤ 1) (x0 : E)
    (n : ℕ) (hn : 0 < n) :
    ∃ s s', ProximalGradient f g x0 (pgBackArgs τ β ε .none nb n) = .ok s ∧ ProximalGradient f g x0 (pgBackArgs τ β ε .none nb (n + 1)) = .ok s' ∧
      s.x ∈ (compositeObj φ ε F).dom ∧ s'.x ∈ (compositeObj φ ε F).dom ∧
      (compositeObj φ ε F).val s'.x + ‖s.x - s'.x‖ ^ 2 / (2 * s'.tau) ≤ (compositeObj φ ε F).val s.x := by
  obtain ⟨G, X, Y, t, θ, hGr, hX0, hY0, ht0, hθ, hanti, hlow, hub, hX, hsuff, ht, hY, h⟩ :=
    pg_back_traj hfc hf hL hL0 hg hε hβ hβ1 hτ .none (by decide) nb hnb hlim x0
  obtain ⟨k, rfl⟩ : ∃ k, n = k + 1 := ⟨n - 1, by omega⟩
  refine ⟨_, _, h k, h (k + 1), ⟨trivial, (hX k).1⟩, ⟨trivial, (hX (k + 1)).1⟩, ?_⟩
  have hYX : Y (k + 1) = X (k + 1) := by rw [hY]; simp [momentum]
  have := pg_step_suff (smulConvex hF hε.le) (hθ _) (hX (k + 1)) (hsuff (k + 1)) (z := X (k + 1)) (hX k).1
  rw [hYX] at this
  simp only [sub_self, inner_zero_right, norm_zero, ne_eq, OfNat.ofNat_ne_zero, not_false_eq_true, zero_pow, zero_div, add_zero] at this
  simp only [compositeObj, XFun.add, XFun.ofReal]
  exact this

/-- C42 with backtracking: the same bound with the smallest step the search can reach, `min(tau, beta/L)`. -/
theorem C42_accelerated_rate_backtracking (hfc : EvaluatesNum f φ) (hf : GradExact f φ) (hL : LipschitzGrad φ L) (hL0 : 0 < L)
    (hφ : ConvexOn ℝ Set.univ φ) (hF : F.Convex) (hg : ProxExact g F) (hε : 0 < ε) (hβ : 0 < β) (hβ1 : β ≤ 1) (hτ : 0 < τ) (acc : Accel)
    (hacc : acc = .fista ∨ acc = .vandenberghe) (nb : ℕ) (hnb : 0 < nb) (hlim : τ * β ^ (nb - 1) * L ≤ 1) (x0 : E) (n : ℕ) (hn : 0 < n) (c : E)
    (hc : (compositeObj φ ε F).IsMin c) :
    ∃ s, ProximalGradient f g x0 (pgBackArgs τ β ε acc nb n) = .ok s ∧ min τ (β / L) ≤ s.tau ∧ s.tau ≤ τ ∧
      (compositeObj φ ε F).val s.x - (compositeObj φ ε F).val c ≤ 2 * ‖x0 - c‖ ^ 2 / (s.tau * (n + 1) ^ 2) := by
  obtain ⟨G, X, Y, t, θ, hGr, hX0, hY0, ht0, hθ, hanti, hlow, hub, hX, hsuff, ht, hY, h⟩ :=
    pg_back_traj hfc hf hL hL0 hg hε hβ hβ1 hτ acc (by rcases hacc with h | h <;> rw [h] <;> decide) nb hnb hlim x0
  obtain ⟨σ, hσ0, hσ, hσr, hσY⟩ := accel_scheme hacc ht0 ht hY
  have hσ1 : ∀ n, 1 ≤ σ n := fun n => le_trans (by have := Nat.cast_nonneg (α := ℝ) n; linarith) (hσ n)
  obtain ⟨k, rfl⟩ : ∃ k, n = k + 1 := ⟨n - 1, by omega⟩
  refine ⟨_, h k, hlow k, hub k, ?_⟩
  have hr := fista_rate hφ (smulConvex hF hε.le) hGr hθ hanti (hY0.trans hX0.symm) hX hsuff hσ0 hσ1 hσr hσY hc k
  have e : ∀ x, (compositeObj φ ε F).val x = φ x + (F.smul ε).val x := fun x => rfl
  have hv : 0 ≤ (compositeObj φ ε F).val (X (k + 1)) - (compositeObj φ ε F).val c := by
    have := hc.2 (X (k + 1)) ⟨trivial, (hX k).1⟩
    linarith
  rw [← e, ← e, hX0] at hr
  exact rate_of_potential (hθ k) (hσ k) hv (by have : 0 ≤ ‖σ k • X (k + 1) - (σ k - 1) • X k - c‖ ^ 2 := by positivity
                                               linarith)

/-- C43 with `tau=None`, whatever `backtracking` says: the search is switched on and starts at one. -/
theorem C43_pg_tau_none (hfc : EvaluatesNum f φ) (hf : GradExact f φ) (hL : LipschitzGrad φ L) (hL0 : 0 < L) (hF : F.Convex)
    (hg : ProxExact g F) (hε : 0 < ε) (hβ : 0 < β) (hβ1 : β ≤ 1) (nb : ℕ) (hnb : 0 < nb) (hlim : β ^ (nb - 1) * L ≤ 1) (x0 : E) (n : ℕ) (hn : 0 < n) (bt : Bool) :
    ∃ s s', ProximalGradient f g x0 ⟨none, bt, β, .scalar ε, n, nb, .none, 1, none⟩ = .ok s ∧
      ProximalGradient f g x0 ⟨none, bt, β, .scalar ε, n + 1, nb, .none, 1, none⟩ = .ok s' ∧ s.x ∈ (compositeObj φ ε F).dom ∧ s'.x ∈ (compositeObj φ ε F).dom ∧
      (compositeObj φ ε F).val s'.x + ‖s.x - s'.x‖ ^ 2 / (2 * s'.tau) ≤ (compositeObj φ ε F).val s.x :=
  C43_pg_backtracking_descent hfc hf hL hL0 hF hg hε hβ hβ1 one_pos nb hnb (by rwa [one_mul]) x0 n hn

/-- C42 with `tau=None`, whatever `backtracking` says. -/
theorem C42_accelerated_rate_tau_none (hfc : EvaluatesNum f φ) (hf : GradExact f φ) (hL : LipschitzGrad φ L) (hL0 : 0 < L)
    (hφ : ConvexOn ℝ Set.univ φ) (hF : F.Convex) (hg : ProxExact g F) (hε : 0 < ε) (hβ : 0 < β) (hβ1 : β ≤ 1) (acc : Accel)
    (hacc : acc = .fista ∨ acc = .vandenberghe) (nb : ℕ) (hnb : 0 < nb) (hlim : β ^ (nb - 1) * L ≤ 1) (x0 : E) (n : ℕ) (hn : 0 < n) (c : E)
    (hc : (compositeObj φ ε F).IsMin c) (bt : Bool) :
    ∃ s, ProximalGradient f g x0 ⟨none, bt, β, .scalar ε, n, nb, acc, 1, none⟩ = .ok s ∧ min 1 (β / L) ≤ s.tau ∧ s.tau ≤ 1 ∧
      (compositeObj φ ε F).val s.x - (compositeObj φ ε F).val c ≤ 2 * ‖x0 - c‖ ^ 2 / (s.tau * (n + 1) ^ 2) :=
  C42_accelerated_rate_backtracking hfc hf hL hL0 hφ hF hg hε hβ hβ1 one_pos acc hacc nb hnb (by rwa [one_mul]) x0 n hn c hc

end

end Verif
