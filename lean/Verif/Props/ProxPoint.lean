import Verif.Spec.Contract
import Verif.Model.Primal
import Verif.Model.Proximal
import Verif.Lemmas.Loop
import Verif.Lemmas.Smooth
import Verif.Props.Closed

/-! # C40: ProximalPoint -/

open scoped RealInnerProductSpace
open Filter Topology

set_option linter.unusedSectionVars false

namespace Verif

variable {E : Type} [NormedAddCommGroup E] [InnerProductSpace ℝ E]

/-- Without tolerance `ProximalPoint` never fails and applies the proximal map `niter` times. -/
lemma pp_traj {f : ProxOp E} {τ : ℝ} {P : E → E} (hP : ∀ x, f.prox x τ = .ok (P x)) (x0 : E) :
    ∃ T : ℕ → E, T 0 = x0 ∧ (∀ n, T (n + 1) = P (T n)) ∧
      ∀ n, ProximalPoint f x0 τ n none = .ok ⟨T n, none, (List.range n).map fun i => T (i + 1)⟩ := by
  let T : ℕ → E := fun n => P^[n] x0
  have hT : ∀ n, T (n + 1) = P (T n) := fun n => Function.iterate_succ_apply' P n x0
  have hbody : ∀ i (s : PPState E), ProximalPoint.body f τ none i s = .ok (⟨P s.x, s.pf, s.log ++ [P s.x]⟩, false) := by
    intro i s
    simp only [ProximalPoint.body, hP, Bind.bind, Except.bind, Pure.pure, Except.pure]
  refine ⟨T, rfl, hT, ?_⟩
  obtain ⟨S, h0, -, h2, h3⟩ := forRange_traj_nobreak (ProximalPoint.body f τ none) (fun _ => True)
    (fun _ s s' => s' = ⟨P s.x, s.pf, s.log ++ [P s.x]⟩) (fun i s _ => ⟨_, hbody i s, trivial, rfl⟩) ⟨x0, none, []⟩ trivial
  have hS : ∀ n, S n = ⟨T n, none, (List.range n).map fun i => T (i + 1)⟩ := by
    intro n
    induction n with
    | zero => rw [h0]; rfl
    | succ n ih => rw [h2 n, ih, List.range_succ, List.map_append, hT]; simp [hT]
  intro n
  rw [ProximalPoint, h3 n, hS n]

/-- C40: with an exact `prox`, `ProximalPoint` always returns (any number of iterations). -/
theorem C40_point_returns (f : ProxOp E) (F : XFun E) (hf : ProxExact f F) (x0 : E) (τ : ℝ) (hτ : 0 < τ) (n : ℕ) :
    ∃ s, ProximalPoint f x0 τ n none = .ok s := by
  obtain ⟨P, hP, -⟩ := proxExact_map hf hτ
  obtain ⟨T, -, -, h⟩ := pp_traj hP x0
  exact ⟨_, h n⟩

/-- C40: one more iteration never increases the objective (from the first iteration on, or from the start if `x0` is in the domain). -/
theorem C40_point_descent (f : ProxOp E) (F : XFun E) (hf : ProxExact f F) (x0 : E) (τ : ℝ) (hτ : 0 < τ) (n : ℕ)
    (hn : 0 < n ∨ x0 ∈ F.dom) (s s' : PPState E) (hs : ProximalPoint f x0 τ n none = .ok s) (hs' : ProximalPoint f x0 τ (n + 1) none = .ok s') :
    s.x ∈ F.dom ∧ s'.x ∈ F.dom ∧ F.val s'.x ≤ F.val s.x := by
  obtain ⟨P, hP, hPx⟩ := proxExact_map hf hτ
  obtain ⟨T, h0, h1, h⟩ := pp_traj hP x0
  rw [h] at hs hs'
  cases hs; cases hs'
  simp only
  have hd : T n ∈ F.dom := by
    cases n with
    | zero => rw [h0]; exact hn.resolve_left (lt_irrefl _)
    | succ n => rw [h1]; exact (hPx _).1
  rw [h1 n]
  refine ⟨hd, (hPx _).1, ?_⟩
  have := (hPx (T n)).2 (T n) hd
  unfold proxObj at this
  rw [sub_self, norm_zero] at this
  have h2 : 0 ≤ ‖P (T n) - T n‖ ^ 2 / (2 * τ) := by positivity
  simp only [ne_eq, OfNat.ofNat_ne_zero, not_false_eq_true, zero_pow, zero_div, add_zero] at this
  linarith

/-- C40: the iterates never move away from a minimiser. -/
theorem C40_point_fejer (f : ProxOp E) (F : XFun E) (hF : F.Convex) (hf : ProxExact f F) (x0 : E) (τ : ℝ) (hτ : 0 < τ) (n : ℕ)
    (s s' : PPState E) (hs : ProximalPoint f x0 τ n none = .ok s) (hs' : ProximalPoint f x0 τ (n + 1) none = .ok s') (c : E) (hc : F.IsMin c) :
    ‖s'.x - c‖ ≤ ‖s.x - c‖ := by
  obtain ⟨P, hP, hPx⟩ := proxExact_map hf hτ
  obtain ⟨T, h0, h1, h⟩ := pp_traj hP x0
  rw [h] at hs hs'
  cases hs; cases hs'
  simp only
  have := proxMap_nonexpansive hF hτ hPx (T n) c
  rwa [(isMin_iff_fixed hF hτ hPx).1 hc, ← h1 n] at this

/-- C40: after `n ≥ 1` iterations the objective exceeds its value at any point `c` by at most `‖x0-c‖²/(2 tau n)`. -/
theorem C40_point_rate (f : ProxOp E) (F : XFun E) (hF : F.Convex) (hf : ProxExact f F) (x0 : E) (τ : ℝ) (hτ : 0 < τ) (n : ℕ) (hn : 0 < n)
    (s : PPState E) (hs : ProximalPoint f x0 τ n none = .ok s) (c : E) (hc : c ∈ F.dom) :
    s.x ∈ F.dom ∧ F.val s.x - F.val c ≤ ‖x0 - c‖ ^ 2 / (2 * τ * n) := by
  obtain ⟨P, hP, hPx⟩ := proxExact_map hf hτ
  obtain ⟨T, h0, h1, h⟩ := pp_traj hP x0
  rw [h] at hs
  cases hs
  simp only
  have hdom : ∀ k, T (k + 1) ∈ F.dom := fun k => by rw [h1]; exact (hPx _).1
  have hdesc : ∀ k, F.val (T (k + 2)) ≤ F.val (T (k + 1)) := fun k =>
    (C40_point_descent f F hf x0 τ hτ (k + 1) (Or.inl (Nat.succ_pos _)) _ _ (h _) (h _)).2.2
  have hsum : ∀ k : ℕ, (k + 1 : ℝ) * (F.val (T (k + 1)) - F.val c) + ‖T (k + 1) - c‖ ^ 2 / (2 * τ) ≤ ‖x0 - c‖ ^ 2 / (2 * τ) := by
    intro k
    induction k with
    | zero =>
      have := prox_three_point hF hτ (hPx (T 0)) hc
      rw [← h1 0, norm_sub_rev c (T (0 + 1)), norm_sub_rev c (T 0), h0] at this
      have h2 : 0 ≤ ‖T (0 + 1) - x0‖ ^ 2 / (2 * τ) := by positivity
      norm_num at *
      linarith
    | succ k ih =>
      have := prox_three_point hF hτ (hPx (T (k + 1))) hc
      rw [← h1 (k + 1), norm_sub_rev c (T (k + 1 + 1)), norm_sub_rev c (T (k + 1))] at this
      have h2 : 0 ≤ ‖T (k + 1 + 1) - T (k + 1)‖ ^ 2 / (2 * τ) := by positivity
      have h3 := hdesc k
      push_cast
      have h4 : (k + 1 : ℝ) * (F.val (T (k + 1 + 1)) - F.val c) ≤ (k + 1 : ℝ) * (F.val (T (k + 1)) - F.val c) :=
        mul_le_mul_of_nonneg_left (by linarith) (by positivity)
      linarith
  obtain ⟨k, rfl⟩ : ∃ k, n = k + 1 := ⟨n - 1, by omega⟩
  refine ⟨hdom k, ?_⟩
  have h5 := hsum k
  have h6 : 0 ≤ ‖T (k + 1) - c‖ ^ 2 / (2 * τ) := by positivity
  have h7 : (k + 1 : ℝ) * (F.val (T (k + 1)) - F.val c) ≤ ‖x0 - c‖ ^ 2 / (2 * τ) := by linarith
  push_cast
  rw [← div_div, le_div_iff₀ (by positivity)]
  linarith

/-- C40: in finite dimension, if the objective has a minimiser, the returned points converge to a minimiser as `niter` grows. -/
theorem C40_point_converges [ProperSpace E] (f : ProxOp E) (F : XFun E) (hF : F.Convex) (hf : ProxExact f F) (x0 : E) (τ : ℝ) (hτ : 0 < τ)
    (hmin : ∃ c, F.IsMin c) (S : ℕ → PPState E) (hS : ∀ n, ProximalPoint f x0 τ n none = .ok (S n)) :
    ∃ c, F.IsMin c ∧ Tendsto (fun n => (S n).x) atTop (𝓝 c) := by
  obtain ⟨P, hP, hPx⟩ := proxExact_map hf hτ
  obtain ⟨T, h0, h1, h⟩ := pp_traj hP x0
  have hST : (fun n => (S n).x) = T := by
    funext n
    have := (hS n).symm.trans (h n)
    injection this with this
    rw [this]
  rw [hST]
  obtain ⟨c, hc, hlim⟩ := km_converges P (proxMap_continuous hF hτ hPx) (fun v => ‖v‖ ^ 2) (by fun_prop) (by simp) one_pos one_pos
    (fun v => by rw [one_mul]) (fun x c hc => by
      have := prox_firm hF hτ (hPx x) (hPx c)
      rw [hc, sub_self, sub_zero, norm_sub_rev x (P x)] at this
      linarith) (by obtain ⟨c, hc⟩ := hmin; exact ⟨c, (isMin_iff_fixed hF hτ hPx).1 hc⟩) T h1
  exact ⟨c, (isMin_iff_fixed hF hτ hPx).2 hc, hlim⟩

/-- The hypotheses of C40 are met by the L1 norm in any dimension. -/
example {ι : Type} [Fintype ι] : ∃ (f : ProxOp (Vec ι)) (F : XFun (Vec ι)), F.Convex ∧ ProxExact f F ∧ ∃ c, F.IsMin c := by
  refine ⟨L1 1 none, XFun.ofReal fun x => 1 * ∑ i, |x i|, ?_, ?_, 0, ?_⟩
  · refine ⟨convex_univ, fun x _ y _ a b ha hb hab => ?_⟩
    simp only [XFun.ofReal, one_mul, smul_eq_mul, Finset.mul_sum, ← Finset.sum_add_distrib]
    refine Finset.sum_le_sum fun i _ => (abs_add_le _ _).trans ?_
    simp [abs_mul, abs_of_nonneg ha, abs_of_nonneg hb]
  · intro x τ hτ
    obtain ⟨p, h1, h2⟩ := C11_l1_prox 1 zero_le_one none x τ hτ
    exact ⟨p, h1, by simpa using h2.1⟩
  · refine ⟨trivial, fun y _ => ?_⟩
    simp only [XFun.ofReal, PiLp.zero_apply, abs_zero, Finset.sum_const_zero, one_mul]
    exact Finset.sum_nonneg fun i _ => abs_nonneg _

end Verif
