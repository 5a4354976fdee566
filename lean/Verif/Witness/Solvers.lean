import Verif.Witness.Kit
import Verif.Props.Rates2
import Verif.Props.Bregman
import Verif.Props.GPG
import Verif.Props.ProxPoint
import Verif.Props.ADMML2

/-! # Concrete cases for C40-C53, C58, C65, C95, C101, C106

Each `example` applies one theorem of `Verif/Props` to the problem of `Verif/Witness/Kit.lean`, so that every hypothesis of the theorem is met by a run that
exists.  The runs `ppRun`, `pgRun`, … are obtained from the theorems that say the solvers return. -/

open scoped RealInnerProductSpace
open Filter Topology

set_option linter.unnecessarySeqFocus false

namespace Verif
namespace Kit

/-! ## ProximalPoint (C40, C101) -/

noncomputable def ppRun : ℕ → PPState V2 := fun n => (C40_point_returns f F hf 0 1 one_pos n).choose
lemma ppRun_ok (n : ℕ) : ProximalPoint f 0 1 n none = .ok (ppRun n) := (C40_point_returns f F hf 0 1 one_pos n).choose_spec

lemma isMin_b : F.IsMin b := ⟨trivial, fun y _ => by simp [F, φ, XFun.ofReal]⟩

example (n : ℕ) := C40_point_descent f F hf 0 1 one_pos n (Or.inr trivial) _ _ (ppRun_ok n) (ppRun_ok (n + 1))
example (n : ℕ) := C40_point_fejer f F hF hf 0 1 one_pos n _ _ (ppRun_ok n) (ppRun_ok (n + 1)) b isMin_b
example (n : ℕ) := C40_point_rate f F hF hf 0 1 one_pos (n + 1) n.succ_pos _ (ppRun_ok (n + 1)) xs trivial
example := C40_point_converges f F hF hf 0 1 one_pos ⟨b, isMin_b⟩ ppRun ppRun_ok
example (n : ℕ) : ‖(ppRun n).x - b‖ ≤ (1 / (1 + 1 * 1)) ^ n * ‖0 - b‖ := C101_proximalpoint_rate strong zero_le_one hf 0 one_pos n _ (ppRun_ok n) b isMin_b
example (n : ℕ) (s : PPState V2) (hs : ProximalPoint f xs 1 n none = .ok s) := C101_proximalpoint_two_starts strong zero_le_one hf 0 xs one_pos n _ s (ppRun_ok n) hs

/-! ## ProximalGradient (C41-C43, C58, C101) -/

noncomputable def pgRun (acc : Accel) (h : acc ≠ .other) : ℕ → PGState V2 := fun n =>
  (C41_pg_returns hfg hg one_pos one_pos acc h 0 (n + 1) n.succ_pos).choose
lemma pgRun_ok (acc : Accel) (h : acc ≠ .other) (n : ℕ) : ProximalGradient f g 0 (pgArgs 1 1 acc (n + 1)) = .ok (pgRun acc h n) :=
  (C41_pg_returns hfg hg one_pos one_pos acc h 0 (n + 1) n.succ_pos).choose_spec

example (n : ℕ) := C41_pg_descent hfg hL hG hg one_pos one_pos (by norm_num) 0 (n + 1) n.succ_pos _ _ (pgRun_ok .none (by decide) n) (pgRun_ok .none (by decide) (n + 1))
example (n : ℕ) := C41_pg_rate hfg hL hφ hG hg one_pos one_pos (by norm_num) 0 (n + 1) n.succ_pos _ (pgRun_ok .none (by decide) n) xs ⟨trivial, trivial⟩
example : ∃ c, (compositeObj φ 1 G).IsMin c ∧ Tendsto (fun n => (pgRun .none (by decide) (n - 1)).x) atTop (𝓝 c) :=
  C41_pg_converges hfg hL hφ hG hg one_pos one_pos (by norm_num) 0 ⟨xs, isMin⟩ (fun n => pgRun .none (by decide) (n - 1)) fun n hn => by
    obtain ⟨m, rfl⟩ := Nat.exists_eq_succ_of_ne_zero hn.ne'
    exact pgRun_ok _ _ m
/-- The parameters of C58 exist: the recurrence started at 1. -/
example (n : ℕ) := C58_fista_parameters (fun n => Nat.rec 1 (fun k t => (momentum .fista k t).2) n) rfl (fun _ => rfl) n
example (n : ℕ) := C58_fista_run hfg hg one_pos one_pos 0 (n + 1) n.succ_pos _ _ (pgRun_ok .fista (by decide) n) (pgRun_ok .fista (by decide) (n + 1))
example (n : ℕ) := C42_accelerated_rate hfg hL hφ hG hg one_pos one_pos (by norm_num) .vandenberghe (Or.inr rfl) 0 (n + 1) n.succ_pos _
  (pgRun_ok .vandenberghe (by decide) n) xs isMin
/-- Backtracking from the step 8 with factor 1/2: four trials reach an accepted step. -/
example := C43_backtracking (L := 1) hfc hfg hg one_pos (β := 1 / 2) (by norm_num) (τ := 8) (by norm_num) xs 4 (by norm_num)
example (z : V2) (t : ℝ) (h : backtrack f g xs 1 (1 / 2) 4 8 none = .ok (z, t)) : 0 < t ∧ t ≤ 8 :=
  C43_backtracking_step_le hfc hfg hg one_pos (by norm_num) (by norm_num) (by norm_num) xs 4 z t h
example (n : ℕ) := C43_pg_backtracking_descent hfc hfg hL one_pos hG hg one_pos (β := 1 / 2) (by norm_num) (by norm_num) (τ := 8) (by norm_num) 4 (by norm_num)
  (by norm_num) 0 (n + 1) n.succ_pos
example (n : ℕ) := C42_accelerated_rate_backtracking hfc hfg hL one_pos hφ hG hg one_pos (β := 1 / 2) (by norm_num) (by norm_num) (τ := 8) (by norm_num) .fista (Or.inl rfl) 4
  (by norm_num) (by norm_num) 0 (n + 1) n.succ_pos xs isMin
example (n : ℕ) := C43_pg_tau_none hfc hfg hL one_pos hG hg one_pos (β := 1 / 2) (by norm_num) (by norm_num) 1 one_pos (by norm_num) 0 (n + 1) n.succ_pos false
example (n : ℕ) := C42_accelerated_rate_tau_none hfc hfg hL one_pos hφ hG hg one_pos (β := 1 / 2) (by norm_num) (by norm_num) .fista (Or.inl rfl) 1 one_pos
  (by norm_num) 0 (n + 1) n.succ_pos xs isMin false

lemma fgrad (x : V2) : f.grad x = .ok (x - b) := by
  obtain ⟨u, h1, h2⟩ := hfg x
  rw [h1, grad_unique h2]

/-- A backtracking that is exhausted after one trial: for `f = L2(b)` with the unbounded box the step 4 overshoots from `xs`. -/
example : ∃ z, backtrack f (Box (fun _ => none) fun _ => none) xs 1 (1 / 2) 1 4 none = .ok (z, 4 * (1 / 2) ^ 1) := by
  refine ⟨_, C43_backtracking_exhausted (φ := φ) (z := fun j => xs - (4 * (1 / 2 : ℝ) ^ j) • (xs - b)) hfc xs (xs - b) (fgrad xs) 1 (1 / 2) 4 0 ?_ ?_⟩
  · intro j hj
    have hp : (0 : ℝ) < 1 * (4 * (1 / 2) ^ j) := by positivity
    obtain ⟨p, h1, h2⟩ := box_proxExact (ι := Fin 2) (fun _ => none) (fun _ => none) (by simp) (xs - (4 * (1 / 2 : ℝ) ^ j) • (xs - b)) _ hp
    have h3 := h2.2 (xs - (4 * (1 / 2 : ℝ) ^ j) • (xs - b)) (by simp [XFun.indicator, boxSet])
    simp only [proxObj, XFun.indicator, sub_self, norm_zero] at h3
    have h4 : ‖p - (xs - (4 * (1 / 2 : ℝ) ^ j) • (xs - b))‖ ^ 2 / (2 * (1 * (4 * (1 / 2) ^ j))) ≤ 0 := by simpa using h3
    have h5 : ‖p - (xs - (4 * (1 / 2 : ℝ) ^ j) • (xs - b))‖ ^ 2 ≤ 0 := by
      by_contra hc
      push Not at hc
      exact absurd h4 (not_le.2 (by positivity))
    have h6 : p = xs - (4 * (1 / 2 : ℝ) ^ j) • (xs - b) := sub_eq_zero.1 (norm_eq_zero.1 (by nlinarith [norm_nonneg (p - (xs - (4 * (1 / 2 : ℝ) ^ j) • (xs - b)))]))
    rw [h1, h6]
  · intro j hj
    obtain rfl : j = 0 := by omega
    have hp : 0 < ‖xs - b‖ ^ 2 := by
      rw [xs_sub, norm_neg]
      have : ss ≠ 0 := fun h => by simpa [ss] using congrArg (fun v : V2 => v 0) h
      positivity
    simp only [φ, pow_zero, mul_one]
    have e1 : xs - (4 : ℝ) • (xs - b) - xs = (-4 : ℝ) • (xs - b) := by rw [neg_smul]; abel
    have e2 : xs - (4 : ℝ) • (xs - b) - b = (-3 : ℝ) • (xs - b) := by
      rw [show (-3 : ℝ) = 1 - 4 by norm_num, sub_smul, one_smul]; abel
    rw [e1, e2, inner_smul_right, real_inner_self_eq_norm_sq, norm_smul, norm_smul, mul_pow, mul_pow]
    norm_num
    nlinarith

lemma strongG : StrongConvexOn G.dom 0 G.val := by
  have h := hG
  refine ⟨h.1, fun x hx y hy a c ha hc hac => ?_⟩
  simpa using h.2 hx hy ha hc hac

example (n : ℕ) := C101_proximalgradient_rate hfg hL strong zero_le_one le_rfl strongG le_rfl hg one_pos one_pos (by norm_num) 0 (n + 1) n.succ_pos _
  (pgRun_ok .none (by decide) n) xs isMin
example (n : ℕ) (s : PGState V2) (hs : ProximalGradient f g xs (pgArgs 1 1 .none (n + 1)) = .ok s) := C101_proximalgradient_two_starts hfg hL strong le_rfl strongG le_rfl hg
  one_pos one_pos (by norm_num) 0 xs (n + 1) n.succ_pos _ _ (pgRun_ok .none (by decide) n) hs

/-! ## DouglasRachford, ADMM, HQS (C44, C45, C52, C95, C101, C106) -/

noncomputable def drRun (gf : Bool) : ℕ → V2 × V2 × List (V2 × V2) := fun n => (C44_dr_returns hf hg one_pos 1 gf 0 n).1.choose
lemma drRun_ok (gf : Bool) (n : ℕ) : DouglasRachford f g 0 1 1 (n + 1) gf = .ok (drRun gf n) := (C44_dr_returns hf hg one_pos 1 gf 0 n).1.choose_spec

/-- `prox` of the data term keeps its minimiser. -/
lemma fprox_b {τ : ℝ} (hτ : 0 < τ) : f.prox b τ = .ok b := by
  obtain ⟨p, h1, h2⟩ := hf b τ hτ
  have h3 := h2.2 b trivial
  have : p = b := by
    simp only [proxObj, F, φ, XFun.ofReal, sub_self, norm_zero] at h3
    have h4 : 0 ≤ ‖p - b‖ ^ 2 / (2 * τ) := by positivity
    norm_num at h3
    exact sub_eq_zero.1 (norm_eq_zero.1 (by nlinarith [norm_nonneg (p - b)]))
  rw [h1, this]

/-- A fixed point of the iteration: with `f = g`, the minimiser. -/
lemma dr_fixed (η : ℝ) (gf : Bool) : DouglasRachford f f b 1 η 1 gf = .ok (b, b, [(b, b)]) := by
  have e : b + η • (b - b) = b := by simp
  have e2 : (2 : ℝ) • b - b = b := by rw [two_smul]; abel
  cases gf <;> simp [DouglasRachford, forRange, DR.body, fprox_b one_pos, Bind.bind, Except.bind, Pure.pure, Except.pure, e2]

example (gf : Bool) : (F.add F).IsMin b := C44_dr_stationary hF hF hf hf one_pos one_ne_zero gf b b _ (dr_fixed 1 gf)
example (gf : Bool) (n : ℕ) (r r' : V2 × V2 × List (V2 × V2)) (hr : DouglasRachford f f 0 1 2 (n + 1) gf = .ok r)
    (hr' : DouglasRachford f f 0 1 2 (n + 2) gf = .ok r') := C44_dr_fejer hF hF hf hf one_pos two_pos le_rfl gf 0 b b _ (dr_fixed 2 gf) n r r' hr hr'
example (gf : Bool) := C44_dr_converges hF hG hf hg one_pos one_pos one_lt_two gf 0 ⟨xs, ss, cert⟩ (drRun gf) (drRun_ok gf)
example (gf : Bool) (n : ℕ) (r r' : V2 × V2 × List (V2 × V2)) (hr : DouglasRachford f f 0 1 1 (n + 1) gf = .ok r)
    (hr' : DouglasRachford f f 0 1 1 (n + 2) gf = .ok r') := C106_dr_residual hF hF hf hf one_pos one_pos one_lt_two gf 0 b b _ (dr_fixed 1 gf) n r r' hr hr'

/-- The stationary state of ADMM at the solution `[2, 0]` with the multiplier `[1, 1]`. -/
example (gf : Bool) : ADMM.body f g 1 gf 0 ⟨xs, xs, (1 : ℝ) • ss, []⟩ = .ok (⟨xs, xs, (1 : ℝ) • ss, [(xs, xs)]⟩, false) :=
  C45_admm_stationary_of_min hF hG hf hg one_pos gf 0 xs ss cert []
example (gf : Bool) : xs = xs ∧ (F.add G).IsMin xs ∧ IsCertified F G xs ((1 / 1 : ℝ) • ((1 : ℝ) • ss)) :=
  C45_admm_stationary hF hG hf hg one_pos gf 0 _ _ _ (C45_admm_stationary_of_min hF hG hf hg one_pos gf 0 xs ss cert []) rfl rfl rfl
example (gf : Bool) := C45_admm_converges hF hG hf hg one_pos gf (some 0) none (Or.inl rfl) ⟨xs, ss, cert⟩

noncomputable def admmRun (gf : Bool) : ℕ → SplitState V2 := (C45_admm_converges hF hG hf hg one_pos gf (some 0) none (Or.inl rfl) ⟨xs, ss, cert⟩).choose
lemma admmRun_ok (gf : Bool) (n : ℕ) : ADMM f g (some 0) none 1 n gf = .ok (admmRun gf n) :=
  (C45_admm_converges hF hG hf hg one_pos gf (some 0) none (Or.inl rfl) ⟨xs, ss, cert⟩).choose_spec.1 n

lemma ψ_lip (v w : V2) : |ψ v - ψ w| ≤ Real.sqrt 2 * ‖v - w‖ := by
  simpa [ψ, XFun.ofReal] using l1_lipschitz v w

example (gf : Bool) (N : ℕ) (l : V2) := C106_admm_gap hF hG hf hg one_pos gf (some 0) none (admmRun gf) (admmRun_ok gf) (N + 1) N.succ_pos xs ⟨trivial, trivial⟩ l
example (gf : Bool) (N : ℕ) := C106_admm_rate hF hG hf hg one_pos gf (some 0) none (admmRun gf) (admmRun_ok gf) (N + 1) N.succ_pos xs ss cert
example (gf : Bool) (N : ℕ) := C106_admm_objective hF hψ (Real.sqrt_nonneg 2) ψ_lip hf hg one_pos gf (some 0) none (admmRun gf) (admmRun_ok gf) (N + 1) N.succ_pos xs trivial
example (gf : Bool) (n : ℕ) := C106_admm_residual hF hG hf hg one_pos gf (some 0) none (admmRun gf) (admmRun_ok gf) xs ss cert n

lemma isMinAdd : ((XFun.ofReal φ).add G).IsMin xs := by
  refine ⟨⟨trivial, trivial⟩, fun y _ => ?_⟩
  have h1 := isMin.2 y ⟨trivial, trivial⟩
  simpa [compositeObj, XFun.add, XFun.smul] using h1

example (gf : Bool) (n : ℕ) := C101_dr_rate isGrad hL strong le_rfl hG hf hg one_pos one_pos one_pos (by norm_num) (by norm_num) gf 0 n _ (drRun_ok gf n) xs isMinAdd
example (n : ℕ) (w : V2) (hw : g.prox 0 1 = .ok w) := C101_admm_rate isGrad hL strong le_rfl hG hf hg one_pos one_pos (by norm_num) (by norm_num) 0 w none hw n _ (admmRun_ok true (n + 1)) xs isMinAdd

noncomputable def hqsRun (gf : Bool) : ℕ → SplitState V2 := fun n => (C52_hqs_returns hf hg one_pos gf (some 0) none (Or.inl rfl) n).choose
lemma hqsRun_ok (gf : Bool) (n : ℕ) : HQS f g (some 0) none (.scalar 1) n gf = .ok (hqsRun gf n) :=
  (C52_hqs_returns hf hg one_pos gf (some 0) none (Or.inl rfl) n).choose_spec

/-- The solution of the penalised problem: `x = [2, 1/2]`, `z = [1, 0]`. -/
lemma penalised : IsPenalisedMin F G 1 !₂[2, 1 / 2] !₂[1, 0] := by
  refine ⟨trivial, trivial, fun a _ c _ => ?_⟩
  have e : (!₂[2, 1 / 2] : V2) - b = -!₂[1, 1 / 2] := by ext i; fin_cases i <;> simp [b] <;> norm_num
  have e' : (!₂[2, 1 / 2] : V2) - !₂[1, 0] = !₂[1, 1 / 2] := by ext i; fin_cases i <;> simp <;> norm_num
  have h1 := (f_subgrad !₂[2, 1 / 2]).2 a trivial
  have h2 := (l1_subgrad (x := !₂[1, 0]) (s := !₂[1, 1 / 2]) (by intro i; fin_cases i <;> simp <;> norm_num) (by intro i; fin_cases i <;> simp)).2 c trivial
  rw [e, inner_neg_left] at h1
  rw [e']
  have h3 : ‖a - c‖ ^ 2 = ‖(!₂[1, 1 / 2] : V2)‖ ^ 2 + 2 * ⟪!₂[1, 1 / 2], (a - !₂[2, 1 / 2]) - (c - !₂[1, 0])⟫ + ‖(a - !₂[2, 1 / 2]) - (c - !₂[1, 0])‖ ^ 2 := by
    rw [← norm_add_sq_real]
    congr 2
    rw [← e']; abel
  rw [h3, inner_sub_right]
  nlinarith [sq_nonneg ‖(a - !₂[2, 1 / 2]) - (c - !₂[1, 0])‖]

lemma G_lip (v w : V2) : G.val v - G.val w ≤ Real.sqrt 2 * ‖v - w‖ := (le_abs_self _).trans (ψ_lip v w)

example (gf : Bool) (n : ℕ) := C52_hqs_descent hf hg one_pos gf (some 0) none n _ _ (hqsRun_ok gf (n + 1)) (hqsRun_ok gf (n + 2))
example (gf : Bool) := C95_hqs_converges hF hG hf hg one_pos ⟨_, _, penalised⟩ gf (some 0) none (hqsRun gf) (hqsRun_ok gf)
/-- The minimisers `b` and `0` differ: the two variables of this run do not come together. -/
example (gf : Bool) : ¬ Tendsto (fun n => ‖(hqsRun gf n).x - (hqsRun gf n).z‖) atTop (𝓝 0) := by
  rw [C95_hqs_agree_iff hF hG hf hg one_pos ⟨_, _, penalised⟩ gf (some 0) none (hqsRun gf) (hqsRun_ok gf)]
  rintro ⟨c, h1, h2⟩
  have h3 := h1.2 b trivial
  have h4 := h2.2 0 trivial
  simp only [F, G, φ, ψ, XFun.ofReal, sub_self, norm_zero] at h3 h4
  have hc : c = b := sub_eq_zero.1 (norm_eq_zero.1 (by nlinarith [norm_nonneg (c - b), sq_nonneg ‖c - b‖]))
  rw [hc] at h4
  simp [b] at h4
  norm_num at h4
example (gf : Bool) := C95_hqs_gap hF hG hf hg one_pos ⟨_, _, penalised⟩ rfl G_lip gf (some 0) none (hqsRun gf) (hqsRun_ok gf)
example (gf : Bool) (n : ℕ) := C95_hqs_continuation hF hG hf hg rfl G_lip gf (some 0) none 0 0 rfl (.scalar 1) (fun _ => 1) n fun _ _ => ⟨rfl, one_pos⟩
/-- The steps `1/(i+1)`: they go to 0 and their sum diverges. -/
example (gf : Bool) (ε : ℝ) (hε : 0 < ε) := C95_hqs_continuation_converges hF hG hf hg rfl G_lip gf (some 0) none 0 0 rfl (fun i => 1 / ((i : ℝ) + 1))
  (fun i => by positivity) tendsto_one_div_add_atTop_nhds_zero_nat
  Real.tendsto_sum_range_one_div_nat_succ_atTop xs trivial ε hε
example (gf : Bool) (N : ℕ) := C106_hqs_rate hF hG hf hg one_pos gf (some 0) none (hqsRun gf) (hqsRun_ok gf) (N + 1) N.succ_pos xs xs trivial trivial

/-! ## PrimalDual, LinearizedADMM, ADMML2 (C46, C47, C50, C106) -/

noncomputable def pdRun (gf : Bool) : ℕ → PDState V2 V2 := fun n =>
  (C50_pd_returns (A := A) hf hg hd hG (τ := 1 / 2) (μ := 1 / 2) (by norm_num) (by norm_num) 0 none none 1 gf n).choose
lemma pdRun_ok (gf : Bool) (n : ℕ) : PrimalDual f g A 0 none none (.scalar (1 / 2)) (.scalar (1 / 2)) 1 n gf = .ok (pdRun gf n) :=
  (C50_pd_returns (A := A) hf hg hd hG (τ := 1 / 2) (μ := 1 / 2) (by norm_num) (by norm_num) 0 none none 1 gf n).choose_spec

example (gf : Bool) (n : ℕ) := C50_pd_fejer hF hG hf hg hd (by norm_num) (by norm_num) zero_le_two opA (by norm_num) none gf 0 none xa ya certA n (pdRun gf) (pdRun_ok gf)
example (gf : Bool) := C50_pd_converges hF hG hf hg hd (by norm_num) (by norm_num) zero_le_two opA (by norm_num) none gf 0 none ⟨xa, ya, certA⟩ (pdRun gf) (pdRun_ok gf)
example (gf : Bool) (N : ℕ) := C106_pd_gap hF hf hg hd (by norm_num) (by norm_num) zero_le_two opA (by norm_num) none gf 0 none (pdRun gf) (pdRun_ok gf) (N + 1) N.succ_pos xa trivial
example (gf : Bool) (N : ℕ) := C106_pd_objective hF hψ (Real.sqrt_nonneg 2) ψ_lip hf hg hd (by norm_num) (by norm_num) zero_le_two opA (by norm_num) none gf 0 none (pdRun gf)
  (pdRun_ok gf) (N + 1) N.succ_pos xa trivial

/-- A run of one iteration started at the saddle point `([1, 0], [1, 1/2])` stays there. -/
example : IsSaddle F G A.matvec 0 xa ya := by
  obtain ⟨r1, hr⟩ := C50_pd_returns (A := A) hf hg hd hG (τ := 1 / 4) (μ := 1 / 4) (by norm_num) (by norm_num) xa (some ya) none 1 false 1
  choose R hR using fun n => C50_pd_returns (A := A) hf hg hd hG (τ := 1 / 4) (μ := 1 / 4) (by norm_num) (by norm_num) xa (some ya) none 1 false n
  have h0 : R 0 = ⟨xa, ya, xa, []⟩ := by
    have := hR 0
    simp [PrimalDual, forRange] at this
    exact this.symm
  have h1 := C50_pd_fejer hF hG hf hg hd (by norm_num) (by norm_num) zero_le_two opA (by norm_num) none false xa (some ya) xa ya certA 0 R hR
  simp only [Bool.false_eq_true, if_false, h0, sub_self, norm_zero, map_zero, inner_zero_left, zero_add] at h1
  have h2 := h1.2
  have h3 := real_inner_le_norm (A.matvec ((R 1).x - xa)) ((R 1).y - ya)
  have h4 := opA ((R 1).x - xa)
  have h5 := mul_le_mul_of_nonneg_right h4 (norm_nonneg ((R 1).y - ya))
  norm_num at h2
  have h6 : ‖(R 1).x - xa‖ ^ 2 + ‖(R 1).y - ya‖ ^ 2 ≤ 0 := by nlinarith [sq_nonneg (‖(R 1).x - xa‖ - ‖(R 1).y - ya‖)]
  have hx : (R 1).x = xa := sub_eq_zero.1 (norm_eq_zero.1 (by nlinarith [norm_nonneg ((R 1).x - xa), sq_nonneg ‖(R 1).y - ya‖]))
  have hy : (R 1).y = ya := sub_eq_zero.1 (norm_eq_zero.1 (by nlinarith [norm_nonneg ((R 1).y - ya), sq_nonneg ‖(R 1).x - xa‖]))
  exact (C50_pd_stationary hF hG hf hg hd (by norm_num) (by norm_num) none 1 false xa ya (R 1) (hR 1) hx hy).1

noncomputable def ladmmRun : ℕ → SplitOpState V2 V2 := fun n => (C46_linadmm_returns (A := A) hf hg (τ := 1) (μ := 1 / 4) one_pos (by norm_num) 0 none n).choose
lemma ladmmRun_ok (n : ℕ) : LinearizedADMM f g A (some 0) none 1 (1 / 4) n = .ok (ladmmRun n) :=
  (C46_linadmm_returns (A := A) hf hg (τ := 1) (μ := 1 / 4) one_pos (by norm_num) 0 none n).choose_spec

example := C46_linadmm_converges hF hG hf hg one_pos (by norm_num) zero_le_two opA (by norm_num) 0 none ⟨xa, ya, certA⟩ ladmmRun ladmmRun_ok
example (N : ℕ) (l : V2) := C106_linadmm_gap hF hG hf hg one_pos (by norm_num) zero_le_two opA (by norm_num) 0 none ladmmRun ladmmRun_ok (N + 1) N.succ_pos xa ⟨trivial, trivial⟩ l
example (N : ℕ) := C106_linadmm_rate hF hG hf hg one_pos (by norm_num) zero_le_two opA (by norm_num) 0 none ladmmRun ladmmRun_ok (N + 1) N.succ_pos xa ya certA
example (N : ℕ) := C106_linadmm_objective hF hψ (Real.sqrt_nonneg 2) ψ_lip hf hg one_pos (by norm_num) zero_le_two opA (by norm_num) 0 none ladmmRun ladmmRun_ok (N + 1) N.succ_pos xa trivial

/-- A stationary run of `LinearizedADMM`: `f = g = L2(b)`, `A = I`, started at `b`. -/
lemma ladmm_fixed (n : ℕ) : ∃ l, LinearizedADMM f f (idOp V2) (some b) none 1 (1 / 4) n = .ok ⟨b, b, 0, b, l⟩ := by
  have h : ∀ (n i : ℕ) (l : List V2), ∃ l', forRange (LinearizedADMM.body f f (idOp V2) 1 (1 / 4)) n i ⟨b, b, 0, b, l⟩ = .ok ⟨b, b, 0, b, l'⟩ := by
    intro n
    induction n with
    | zero => exact fun i l => ⟨l, rfl⟩
    | succ n ih =>
      intro i l
      have e : LinearizedADMM.body f f (idOp V2) 1 (1 / 4) i ⟨b, b, 0, b, l⟩ = .ok (⟨b, b, 0, b, l ++ [b]⟩, false) := by
        simp [LinearizedADMM.body, idOp, fprox_b, Bind.bind, Except.bind, Pure.pure, Except.pure]
      obtain ⟨l', h⟩ := ih (i + 1) (l ++ [b])
      exact ⟨l', by rw [forRange, e]; exact h⟩
  obtain ⟨l, h⟩ := h n 0 []
  exact ⟨l, by simpa [LinearizedADMM, x0z0InitOp, idOp, Bind.bind, Except.bind] using h⟩

example : b = b ∧ (compObj F F (idOp V2).matvec 0).IsMin b := by
  obtain ⟨l, h⟩ := ladmm_fixed 1
  obtain ⟨l', h'⟩ := ladmm_fixed 2
  exact C46_linadmm_stationary hF hF hf hf one_pos (by norm_num) b none 0 _ _ h h' rfl rfl rfl

/-- The exact solver of the regularised problem for `Op = I`, `A = 2 I`: `(b + 2 ε² d) / (1 + 4 ε²)`. -/
noncomputable def inv : V2 → V2 → ℝ → V2 := fun _ d ε => (1 / (1 + 4 * ε ^ 2)) • (b + (2 * ε ^ 2) • d)

lemma solvesReg : SolvesReg (idOp V2) b A inv := by
  intro x0 d ε y
  have hpos : (0 : ℝ) < 1 + 4 * ε ^ 2 := by positivity
  set p := inv x0 d ε with hp
  have hA : ∀ v, A.matvec v = (2 : ℝ) • v := fun v => by simp [A, idOp, LinOp.scale]
  have hI : ∀ v, (idOp V2).matvec v = v := fun v => rfl
  have key : (p - b) + ε ^ 2 • ((2 : ℝ) • ((2 : ℝ) • p - d)) = 0 := by
    have : (1 + 4 * ε ^ 2) • p = b + (2 * ε ^ 2) • d := by rw [hp, inv, smul_smul, mul_one_div_cancel hpos.ne', one_smul]
    have h2 : (p - b) + ε ^ 2 • ((2 : ℝ) • ((2 : ℝ) • p - d)) = (1 + 4 * ε ^ 2) • p - (b + (2 * ε ^ 2) • d) := by module
    rw [h2, this, sub_self]
  rw [hI, hI, hA, hA]
  have e1 : ‖y - b‖ ^ 2 = ‖p - b‖ ^ 2 + 2 * ⟪p - b, y - p⟫ + ‖y - p‖ ^ 2 := by
    rw [← norm_add_sq_real]; congr 2; abel
  have e2 : ‖(2 : ℝ) • y - d‖ ^ 2 = ‖(2 : ℝ) • p - d‖ ^ 2 + 2 * ⟪(2 : ℝ) • p - d, (2 : ℝ) • (y - p)⟫ + ‖(2 : ℝ) • (y - p)‖ ^ 2 := by
    rw [← norm_add_sq_real]; congr 2; module
  have h0 : ⟪p - b, y - p⟫ + ε ^ 2 * ⟪(2 : ℝ) • p - d, (2 : ℝ) • (y - p)⟫ = 0 := by
    have := congrArg (fun v => ⟪v, y - p⟫) key
    simpa [inner_add_left, inner_smul_left, inner_smul_right] using this
  rw [e1, e2]
  nlinarith [sq_nonneg ‖y - p‖, mul_nonneg (sq_nonneg ε) (sq_nonneg ‖(2 : ℝ) • (y - p)‖)]

lemma certMisfit : IsCertifiedComp (misfit (idOp V2) b) G A.matvec A.rmatvec 0 xa ya := certA

noncomputable def al2Run : ℕ → SplitOpState V2 V2 := fun n => (C47_admml2_returns (A := A) hg one_pos inv 0 none false n).choose
lemma al2Run_ok (n : ℕ) : ADMML2 inv g A (some 0) none 1 n false = .ok (al2Run n) := (C47_admml2_returns (A := A) hg one_pos inv 0 none false n).choose_spec

example := C47_admml2_converges_partial hG hg one_pos solvesReg 0 none ⟨xa, ya, certMisfit⟩ al2Run al2Run_ok
example (N : ℕ) (l : V2) := C106_admml2_gap hG hg one_pos solvesReg 0 none al2Run al2Run_ok (N + 1) N.succ_pos xa trivial l
example (N : ℕ) := C106_admml2_rate hG hg one_pos solvesReg 0 none al2Run al2Run_ok (N + 1) N.succ_pos xa ya certMisfit
example (N : ℕ) := C106_admml2_objective hψ (Real.sqrt_nonneg 2) ψ_lip hg one_pos solvesReg 0 none al2Run al2Run_ok (N + 1) N.succ_pos xa

/-! ## The lasso corollaries of C106 -/

example (gf : Bool) (N : ℕ) (calls : List (V2 × ℝ)) := C106_lasso_admm ext A true b (.const 10) false .legacy .default hext ⟨0, none, 0, none⟩ none rfl calls one_pos gf 0 (N + 1) N.succ_pos xa
example (gf : Bool) (N : ℕ) (calls : List (V2 × ℝ)) := C106_lasso_pd ext A true b (.const 10) false .legacy .default hext ⟨0, none, 0, none⟩ none rfl calls (τ := 1 / 2) (μ := 1 / 2)
  (by norm_num) (by norm_num) A zero_le_two opA (by norm_num) gf 0 (N + 1) N.succ_pos xa
example (N : ℕ) := C42_lasso ext A true b (.const 10) false .legacy .default st zero_le_two opA (τ := 1 / 4) (by norm_num) (by norm_num) one_pos 0 (N + 1) N.succ_pos

end Kit
end Verif
