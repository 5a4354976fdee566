import Verif.Props.Reruns
import Verif.Props.LinearRate
import Verif.Props.Calculus

/-! # C102: what inexact inner solvers do to the solvers

An operator object whose `prox` solves an inner problem iteratively (`L2` with `Op`, with `niter` inner iterations) returns a point near the prox.  `ProxWithin f I d F` says that the
call number `k` of `f.prox` (in a state at level `k`, `I k s`) is within `d k` of the prox of `F`, whatever the argument. -/

open scoped RealInnerProductSpace
open Filter Topology

set_option linter.unusedSectionVars false

namespace Verif

variable {E S SF SG : Type} [NormedAddCommGroup E] [InnerProductSpace ℝ E]

/-- In every state at level `k`, `prox` returns a point within `d k` of the prox of `F` and moves to level `k + 1`. -/
def ProxWithin (f : MutOp S E) (I : ℕ → S → Prop) (d : ℕ → ℝ) (F : XFun E) : Prop :=
  ∀ k s, I k s → ∀ x τ, 0 < τ → ∃ z p, (f.prox s x τ).2.1 = .ok z ∧ I (k + 1) (f.prox s x τ).1 ∧ IsProx F τ x p ∧ ‖z - p‖ ≤ d k

/-- In every state at level `k`, `grad` returns a point within `d k` of the gradient of `φ` and moves to level `k + 1`. -/
def GradWithin (f : MutOp S E) (I : ℕ → S → Prop) (d : ℕ → ℝ) (φ : E → ℝ) : Prop :=
  ∀ k s, I k s → ∀ x, ∃ v D, (f.grad s x).2 = .ok v ∧ I (k + 1) (f.grad s x).1 ∧ IsGrad φ x D ∧ ‖v - D‖ ≤ d k

/-! ## Inexact fixed-point iterations -/

/-- Trajectories with an invariant that depends on the iteration. -/
lemma forRange_traj_idx {σ : Type} (body : ℕ → σ → Py (σ × Bool)) (Good : ℕ → σ → Prop) (R : ℕ → σ → σ → Prop)
    (hstep : ∀ i s, Good i s → ∃ s', body i s = .ok (s', false) ∧ Good (i + 1) s' ∧ R i s s') (s : σ) (hs : Good 0 s) :
    ∃ T : ℕ → σ, T 0 = s ∧ (∀ n, Good n (T n)) ∧ (∀ n, R n (T n) (T (n + 1))) ∧ ∀ n, forRange body n 0 s = .ok (T n) := by
  classical
  choose f h1 h2 h3 using hstep
  let T : (n : ℕ) → {s // Good n s} := fun n => Nat.rec ⟨s, hs⟩ (fun i p => ⟨f i p.1 p.2, h2 i p.1 p.2⟩) n
  have hT : ∀ n, body n (T n).1 = .ok ((T (n + 1)).1, false) := fun n => h1 n _ _
  refine ⟨fun n => (T n).1, rfl, fun n => (T n).2, fun n => h3 n _ _, ?_⟩
  have key : ∀ n i, forRange body n i (T i).1 = .ok (T (i + n)).1 := by
    intro n
    induction n with
    | zero => intro i; rfl
    | succ n ih =>
      intro i
      simp only [forRange, hT i, Bool.false_eq_true, if_false]
      rw [ih (i + 1), show i + (n + 1) = i + 1 + n by omega]
  intro n
  have := key n 0
  rwa [Nat.zero_add] at this

section Generic
variable {V : Type} [NormedAddCommGroup V] {T : V → V} {X Y : ℕ → V} {e : ℕ → ℝ} {q : ℝ}

/-- Errors accumulate geometrically along a contraction. -/
lemma inexact_bound (hq : 0 ≤ q) (hT : ∀ x y, ‖T x - T y‖ ≤ q * ‖x - y‖) (hX : ∀ n, ‖X (n + 1) - T (X n)‖ ≤ e n) (hY : ∀ n, Y (n + 1) = T (Y n)) (n : ℕ) :
    ‖X n - Y n‖ ≤ q ^ n * ‖X 0 - Y 0‖ + ∑ i ∈ Finset.range n, q ^ (n - 1 - i) * e i := by
  induction n with
  | zero => simp
  | succ n ih =>
    have h1 : ‖X (n + 1) - Y (n + 1)‖ ≤ e n + q * ‖X n - Y n‖ := by
      rw [hY, ← sub_add_sub_cancel (X (n + 1)) (T (X n)) (T (Y n))]
      exact (norm_add_le _ _).trans (add_le_add (hX n) (hT _ _))
    have h2 : ∑ i ∈ Finset.range (n + 1), q ^ (n + 1 - 1 - i) * e i = q * (∑ i ∈ Finset.range n, q ^ (n - 1 - i) * e i) + e n := by
      rw [Finset.sum_range_succ, Finset.mul_sum, Nat.add_sub_cancel, Nat.sub_self, pow_zero, one_mul]
      congr 1
      refine Finset.sum_congr rfl fun i hi => ?_
      rw [← mul_assoc, ← pow_succ', show n - 1 - i + 1 = n - i by have := Finset.mem_range.1 hi; omega]
    rw [h2, pow_succ' q]
    have := mul_le_mul_of_nonneg_left ih hq
    linarith

/-- The geometric sum is at most `δ / (1 - q)`. -/
lemma geom_errors (hq : 0 ≤ q) (hq1 : q < 1) {δ : ℝ} (hδ : 0 ≤ δ) (n : ℕ) : ∑ i ∈ Finset.range n, q ^ (n - 1 - i) * δ ≤ δ / (1 - q) := by
  rw [← Finset.sum_mul, Finset.sum_range_reflect (fun j => q ^ j) n]
  have h := geom_sum_eq hq1.ne n
  have h1 : ∑ i ∈ Finset.range n, q ^ i ≤ 1 / (1 - q) := by
    rw [h, ← neg_div_neg_eq, neg_sub, neg_sub]
    exact div_le_div_of_nonneg_right (by linarith [pow_nonneg hq n]) (by linarith)
  calc _ ≤ 1 / (1 - q) * δ := mul_le_mul_of_nonneg_right h1 hδ
    _ = _ := by ring

/-- Inexact iterations of a non-expansive map with summable errors converge to a fixed point if the exact iterations do. -/
lemma inexact_converges [CompleteSpace V] (hT : ∀ x y, ‖T x - T y‖ ≤ ‖x - y‖) (hconv : ∀ Z : ℕ → V, (∀ n, Z (n + 1) = T (Z n)) → ∃ c, T c = c ∧ Tendsto Z atTop (𝓝 c))
    (hX : ∀ n, ‖X (n + 1) - T (X n)‖ ≤ e n) (he : Summable e) : ∃ c, T c = c ∧ Tendsto X atTop (𝓝 c) := by
  have he0 : ∀ n, 0 ≤ e n := fun n => (norm_nonneg _).trans (hX n)
  -- the tail of the errors bounds the distance to the exact orbit started at `X m`
  have hdist : ∀ m k, ‖X (m + k) - T^[k] (X m)‖ ≤ ∑' i, e (i + m) := by
    intro m k
    have h := inexact_bound (q := 1) (X := fun k => X (m + k)) (Y := fun k => T^[k] (X m)) (e := fun i => e (i + m)) zero_le_one (by simpa using hT)
      (fun n => by rw [add_comm n m]; exact hX (m + n)) (fun n => Function.iterate_succ_apply' T n _) k
    simp only [one_pow, one_mul, Nat.add_zero, Function.iterate_zero, id_eq, sub_self, norm_zero, zero_add] at h
    exact h.trans (((summable_nat_add_iff m).2 he).sum_le_tsum _ fun i _ => he0 _)
  have htail : Tendsto (fun m => ∑' i, e (i + m)) atTop (𝓝 0) := tendsto_sum_nat_add e
  have hcau : CauchySeq X := by
    rw [Metric.cauchySeq_iff']
    intro ε hε
    obtain ⟨m, hm⟩ := (htail.eventually (gt_mem_nhds (show (0 : ℝ) < ε / 4 by positivity))).exists
    obtain ⟨c, -, hc⟩ := hconv (fun k => T^[k] (X m)) fun n => Function.iterate_succ_apply' T n _
    obtain ⟨K, hK⟩ := (Metric.tendsto_atTop.1 hc) (ε / 4) (by positivity)
    have hclose : ∀ k ≥ K, dist (X (m + k)) c < ε / 2 := fun k hk => by
      have h1 := hdist m k
      have h2 := hK k hk
      rw [← dist_eq_norm] at h1
      linarith [dist_triangle (X (m + k)) (T^[k] (X m)) c]
    refine ⟨m + K, fun n hn => ?_⟩
    have h1 := hclose (n - m) (by omega)
    have h2 := hclose K le_rfl
    rw [show m + (n - m) = n by omega] at h1
    rw [dist_comm] at h2
    linarith [dist_triangle (X n) c (X (m + K))]
  obtain ⟨c, hc⟩ := cauchySeq_tendsto_of_complete hcau
  refine ⟨c, ?_, hc⟩
  have hTc : Continuous T := continuous_iff_continuousAt.2 fun x => by
    rw [ContinuousAt, tendsto_iff_norm_sub_tendsto_zero]
    refine squeeze_zero (fun _ => norm_nonneg _) (fun y => hT y x) ?_
    have : Tendsto (fun y => y - x) (𝓝 x) (𝓝 (x - x)) := (continuous_id.sub continuous_const).tendsto x
    rw [sub_self] at this
    simpa using this.norm
  have h1 : Tendsto (fun n => X (n + 1) - T (X n)) atTop (𝓝 (c - T c)) :=
    ((tendsto_add_atTop_iff_nat 1).2 hc).sub ((hTc.tendsto c).comp hc)
  have h2 : Tendsto (fun n => X (n + 1) - T (X n)) atTop (𝓝 0) := squeeze_zero_norm hX he.tendsto_atTop_zero
  exact (sub_eq_zero.1 (tendsto_nhds_unique h1 h2)).symm

end Generic

section Maps
variable {f : MutOp S E} {I : ℕ → S → Prop} {d : ℕ → ℝ} {F : XFun E} {φ : E → ℝ} {τ : ℝ}

lemma ProxWithin.map (h : ProxWithin f I d F) {k : ℕ} {s : S} (hs : I k s) (hτ : 0 < τ) : ∃ P : E → E, ∀ x, IsProx F τ x (P x) := by
  choose z p _ _ h3 _ using fun x => h k s hs x τ hτ
  exact ⟨p, h3⟩

lemma ProxWithin.step (h : ProxWithin f I d F) (hF : F.Convex) (hτ : 0 < τ) {P : E → E} (hP : ∀ x, IsProx F τ x (P x)) {k : ℕ} {s : S} (hs : I k s) (x : E) :
    ∃ z s', f.proxPy s x τ = .ok (s', z, (f.prox s x τ).2.2) ∧ I (k + 1) s' ∧ ‖z - P x‖ ≤ d k := by
  obtain ⟨z, p, h1, h2, h3, h4⟩ := h k s hs x τ hτ
  rw [← IsProx.unique hF hτ h3 (hP x)] at h4
  exact ⟨z, _, by rw [MutOp.proxPy, h1]; rfl, h2, h4⟩

lemma GradWithin.map (h : GradWithin f I d φ) {k : ℕ} {s : S} (hs : I k s) : ∃ G : E → E, ∀ x, IsGrad φ x (G x) := by
  choose v D _ _ h3 _ using fun x => h k s hs x
  exact ⟨D, h3⟩

lemma isGrad_unique {x v w : E} (h : IsGrad φ x v) (h' : IsGrad φ x w) : v = w :=
  ext_inner_right ℝ fun u => congrArg (fun T => T u) (HasFDerivAt.unique h h')

lemma GradWithin.step (h : GradWithin f I d φ) {G : E → E} (hG : ∀ x, IsGrad φ x (G x)) {k : ℕ} {s : S} (hs : I k s) (x : E) :
    ∃ v s', f.gradPy s x = .ok (s', v) ∧ I (k + 1) s' ∧ ‖v - G x‖ ≤ d k := by
  obtain ⟨v, D, h1, h2, h3, h4⟩ := h k s hs x
  rw [isGrad_unique h3 (hG x)] at h4
  exact ⟨v, _, by rw [MutOp.gradPy, h1]; rfl, h2, h4⟩

end Maps

/-! ## ProximalPoint -/

section Point
variable {f : MutOp S E} {I : ℕ → S → Prop} {d : ℕ → ℝ} {F : XFun E} {τ μ : ℝ}

lemma ppmut_traj (h : ProxWithin f I d F) (hF : F.Convex) (hτ : 0 < τ) {P : E → E} (hP : ∀ x, IsProx F τ x (P x)) {sf : S} (hs : I 0 sf) (x0 : E) :
    ∃ T : ℕ → S × PPState E, (T 0).2.x = x0 ∧ (∀ n, I n (T n).1) ∧ (∀ n, ‖(T (n + 1)).2.x - P (T n).2.x‖ ≤ d n) ∧ ∀ n, PPMut f sf x0 τ n none = .ok (T n) := by
  obtain ⟨T, h0, h1, h2, h3⟩ := forRange_traj_idx (PPMut.body f τ none) (fun n s => I n s.1) (fun n s s' => ‖s'.2.x - P s.2.x‖ ≤ d n) (fun i s hs => by
    obtain ⟨z, s', e1, e2, e3⟩ := h.step hF hτ hP hs s.2.x
    exact ⟨(s', ⟨z, s.2.pf, s.2.log ++ [z]⟩), by simp [PPMut.body, e1, Bind.bind, Except.bind, Pure.pure, Except.pure], e2, e3⟩) (sf, ⟨x0, none, []⟩) hs
  exact ⟨T, by rw [h0], h1, h2, h3⟩

/-- C102 for `ProximalPoint`: with errors `d 0, d 1, ...` in its prox calls, the solver is within the exact rate plus the discounted errors of the minimiser. -/
theorem C102_proximalpoint_inexact (h : ProxWithin f I d F) (hF : StrongConvexOn F.dom μ F.val) (hμ : 0 ≤ μ) (hτ : 0 < τ) (sf : S) (hs : I 0 sf) (x0 : E) (n : ℕ) :
    ∃ r, PPMut f sf x0 τ n none = .ok r ∧ ∀ c, F.IsMin c →
      ‖r.2.x - c‖ ≤ (1 / (1 + τ * μ)) ^ n * ‖x0 - c‖ + ∑ i ∈ Finset.range n, (1 / (1 + τ * μ)) ^ (n - 1 - i) * d i := by
  obtain ⟨P, hP⟩ := h.map hs hτ
  have hFc := strong_xconvex hF hμ
  obtain ⟨T, h0, -, h2, h3⟩ := ppmut_traj h hFc hτ hP hs x0
  refine ⟨T n, h3 n, fun c hc => ?_⟩
  have hfix := (isMin_iff_fixed hFc hτ hP).1 hc
  have := inexact_bound (by positivity) (fun x y => prox_contract hF hμ hτ (hP x) (hP y)) (X := fun n => (T n).2.x) h2 (Y := fun _ => c) (fun _ => hfix.symm) n
  rwa [h0] at this

/-- C102 for `ProximalPoint`: with errors of at most `δ` on a strongly convex function, the solver reaches a neighbourhood of radius `δ (1 + tau μ)/(tau μ)` of the minimiser. -/
theorem C102_proximalpoint_neighbourhood {δ : ℝ} (h : ProxWithin f I (fun _ => δ) F) (hF : StrongConvexOn F.dom μ F.val) (hμ : 0 < μ) (hτ : 0 < τ) (sf : S) (hs : I 0 sf)
    (x0 : E) (n : ℕ) :
    ∃ r, PPMut f sf x0 τ n none = .ok r ∧ ∀ c, F.IsMin c → ‖r.2.x - c‖ ≤ (1 / (1 + τ * μ)) ^ n * ‖x0 - c‖ + δ * (1 + τ * μ) / (τ * μ) := by
  obtain ⟨r, h1, h2⟩ := C102_proximalpoint_inexact h hF hμ.le hτ sf hs x0 n
  refine ⟨r, h1, fun c hc => (h2 c hc).trans (add_le_add_right ?_ _)⟩
  obtain ⟨z, p, -, -, -, hz⟩ := h 0 sf hs x0 τ hτ
  have hδ : 0 ≤ δ := (norm_nonneg _).trans hz
  have hm : 0 < τ * μ := mul_pos hτ hμ
  refine (geom_errors (by positivity) (by rw [div_lt_one (by linarith)]; linarith) hδ n).trans_eq ?_
  field_simp
  ring

/-- C102 for `ProximalPoint`: if the errors are summable and `F` has a minimiser, the iterates converge to a minimiser. -/
theorem C102_proximalpoint_inexact_converges [ProperSpace E] (h : ProxWithin f I d F) (hd : Summable d) (hF : F.Convex) (hτ : 0 < τ) (hmin : ∃ c, F.IsMin c) (sf : S) (hs : I 0 sf) (x0 : E) :
    ∃ R : ℕ → S × PPState E, (∀ n, PPMut f sf x0 τ n none = .ok (R n)) ∧ ∃ c, F.IsMin c ∧ Tendsto (fun n => (R n).2.x) atTop (𝓝 c) := by
  obtain ⟨P, hP⟩ := h.map hs hτ
  obtain ⟨T, h0, -, h2, h3⟩ := ppmut_traj h hF hτ hP hs x0
  have hfirm := firm_prox hF hτ hP
  obtain ⟨c0, hc0⟩ := hmin
  obtain ⟨c, hc, hlim⟩ := inexact_converges (fun x y => hfirm.nonexp x y) (fun Z hZ => by
    refine km_converges P hfirm.continuous (fun v => ‖v‖ ^ 2) (by fun_prop) (by simp) one_pos one_pos (fun v => by simp) (fun x c hc => ?_)
      ⟨c0, (isMin_iff_fixed hF hτ hP).1 hc0⟩ Z hZ
    have h4 := hfirm x c
    rw [hc] at h4
    have e : x - c = (P x - c) - (P x - x) := by abel
    have h5 : ‖x - c‖ ^ 2 = ‖P x - c‖ ^ 2 - 2 * ⟪P x - c, P x - x⟫ + ‖P x - x‖ ^ 2 := by rw [e, norm_sub_sq_real]
    have h6 : ⟪P x - c, x - c⟫ = ‖P x - c‖ ^ 2 - ⟪P x - c, P x - x⟫ := by
      conv_lhs => rw [e, inner_sub_right, real_inner_self_eq_norm_sq]
    show ‖P x - c‖ ^ 2 + 1 * ‖P x - x‖ ^ 2 ≤ ‖x - c‖ ^ 2
    linarith) (X := fun n => (T n).2.x) h2 hd
  exact ⟨T, h3, c, (isMin_iff_fixed hF hτ hP).2 hc, hlim⟩

end Point

/-! ## ProximalGradient -/

section Gradient
variable {f : MutOp SF E} {g : MutOp SG E} {If : ℕ → SF → Prop} {Ig : ℕ → SG → Prop} {df dg : ℕ → ℝ} {F : XFun E} {φ : E → ℝ} {τ ε μ ν L : ℝ}

lemma pgmut_traj (hf : GradWithin f If df φ) (hg : ProxWithin g Ig dg F) (hF : F.Convex) (hε : 0 < ε) (hτ : 0 < τ) {G P : E → E} (hG : ∀ x, IsGrad φ x (G x))
    (hP : ∀ x, IsProx F (ε * τ) x (P x)) {sf : SF} {sg : SG} (hsf : If 0 sf) (hsg : Ig 0 sg) (x0 : E) :
    ∃ T : ℕ → SF × SG × PGState E, (T 0).2.2.x = x0 ∧ (∀ n, ‖(T (n + 1)).2.2.x - P ((T n).2.2.x - τ • G (T n).2.2.x)‖ ≤ τ * df n + dg n) ∧
      ∀ n, 0 < n → PGMut f g sf sg x0 (pgArgs τ ε .none n) = .ok (T n) := by
  have hfirm := firm_prox hF (mul_pos hε hτ) hP
  obtain ⟨T, h0, h1, h2, h3⟩ := forRange_traj_idx (PGMut.body f g (pgArgs τ ε .none 0) false)
    (fun n s => If n s.1 ∧ Ig n s.2.1 ∧ s.2.2.y = s.2.2.x ∧ s.2.2.tau = τ) (fun n s s' => ‖s'.2.2.x - P (s.2.2.x - τ • G s.2.2.x)‖ ≤ τ * df n + dg n) (fun i s hs => by
    obtain ⟨k1, k2, k3, k4⟩ := hs
    obtain ⟨v, sf', e1, e2, e3⟩ := hf.step hG k1 s.2.2.y
    obtain ⟨z, sg', q1, q2, q3⟩ := hg.step hF (mul_pos hε hτ) hP k2 (s.2.2.y - τ • v)
    refine ⟨(sf', sg', ⟨z, z + (momentum .none i s.2.2.t).1 • (z - s.2.2.x), (momentum .none i s.2.2.t).2, τ, s.2.2.pfg, s.2.2.log ++ [z]⟩), ?_, ⟨e2, q2, ?_, rfl⟩, ?_⟩
    · simp [PGMut.body, PGMut.step, pgArgs, StepSpec.at, k4, e1, q1, Bind.bind, Except.bind, Pure.pure, Except.pure]
    · show z + (0 : ℝ) • (z - s.2.2.x) = z
      simp
    · show ‖z - _‖ ≤ _
      rw [k3] at e3 q3
      have h4 := hfirm.nonexp (s.2.2.x - τ • v) (s.2.2.x - τ • G s.2.2.x)
      rw [show s.2.2.x - τ • v - (s.2.2.x - τ • G s.2.2.x) = -(τ • (v - G s.2.2.x)) by module, norm_neg, norm_smul, Real.norm_of_nonneg hτ.le] at h4
      have h5 := norm_add_le (z - P (s.2.2.x - τ • v)) (P (s.2.2.x - τ • v) - P (s.2.2.x - τ • G s.2.2.x))
      rw [sub_add_sub_cancel] at h5
      have := mul_le_mul_of_nonneg_left e3 hτ.le
      linarith) (sf, sg, ⟨x0, x0, 1, τ, none, []⟩) ⟨hsf, hsg, rfl, rfl⟩
  refine ⟨T, by rw [h0], h2, fun n hn => ?_⟩
  have hc : (StepSpec.scalar ε).printCheck n = .ok () := by simp [StepSpec.printCheck, hn.ne']
  rw [← h3 n]
  simp only [PGMut, pgArgs, hc, Bind.bind, Except.bind]
  simp only [reduceCtorEq, if_false]
  rfl

/-- C102 for `ProximalGradient` (no acceleration): errors `df i` in the gradients and `dg i` in the prox calls add the discounted `tau df i + dg i` to the exact rate. -/
theorem C102_proximalgradient_inexact (hf : GradWithin f If df φ) (hg : ProxWithin g Ig dg F) (hL : LipschitzGrad φ L) (hφ : StrongConvexOn Set.univ μ φ) (hμ : 0 ≤ μ) (hμL : μ ≤ L)
    (hF : StrongConvexOn F.dom ν F.val) (hν : 0 ≤ ν) (hε : 0 < ε) (hτ : 0 < τ) (hτL : τ * (L + μ) ≤ 2) (sf : SF) (sg : SG) (hsf : If 0 sf) (hsg : Ig 0 sg) (x0 : E) (n : ℕ) (hn : 0 < n) :
    ∃ r, PGMut f g sf sg x0 (pgArgs τ ε .none n) = .ok r ∧ ∀ c, (compositeObj φ ε F).IsMin c →
      ‖r.2.2.x - c‖ ≤ ((1 - τ * μ) / (1 + ε * τ * ν)) ^ n * ‖x0 - c‖ + ∑ i ∈ Finset.range n, ((1 - τ * μ) / (1 + ε * τ * ν)) ^ (n - 1 - i) * (τ * df i + dg i) := by
  obtain ⟨G, hG⟩ := hf.map hsf
  obtain ⟨P, hP⟩ := hg.map hsg (mul_pos hε hτ)
  have hFc := strong_xconvex hF hν
  have hφc : ConvexOn ℝ Set.univ φ := by simpa using hφ.mono hμ
  obtain ⟨T, h0, h2, h3⟩ := pgmut_traj hf hg hFc hε hτ hG hP hsf hsg x0
  refine ⟨T n, h3 n hn, fun c hc => ?_⟩
  have hP' : ∀ x, IsProx (F.smul ε) τ x (P x) := fun x => (smul_isProx hε hτ).2 (hP x)
  have hfix := (pg_fixed_iff hφc (smulConvex hFc hε.le) hτ hG hP' c).2 hc
  have := inexact_bound (T := fun x => P (x - τ • G x)) (fb_factor_nonneg hμL hν hε hτ hτL) (fun x y => fb_contract hG hL hφ hμL hF hν hε hτ hτL hP x y) (X := fun n => (T n).2.2.x) h2
    (Y := fun _ => c) (fun _ => hfix.symm) n
  rwa [h0] at this

/-- C102 for `ProximalGradient`: with summable errors in the gradients and the prox calls, the iterates converge to a minimiser. -/
theorem C102_proximalgradient_inexact_converges [ProperSpace E] (hf : GradWithin f If df φ) (hg : ProxWithin g Ig dg F) (hdf : Summable df) (hdg : Summable dg) (hL : LipschitzGrad φ L)
    (hφ : ConvexOn ℝ Set.univ φ) (hF : F.Convex) (hL0 : 0 ≤ L) (hε : 0 < ε) (hτ : 0 < τ) (hτL : τ * L < 2) (hmin : ∃ c, (compositeObj φ ε F).IsMin c)
    (sf : SF) (sg : SG) (hsf : If 0 sf) (hsg : Ig 0 sg) (x0 : E) :
    ∃ R : ℕ → SF × SG × PGState E, (∀ n, 0 < n → PGMut f g sf sg x0 (pgArgs τ ε .none n) = .ok (R n)) ∧
      ∃ c, (compositeObj φ ε F).IsMin c ∧ Tendsto (fun n => (R n).2.2.x) atTop (𝓝 c) := by
  obtain ⟨G, hG⟩ := hf.map hsf
  obtain ⟨P, hP⟩ := hg.map hsg (mul_pos hε hτ)
  obtain ⟨T, h0, h2, h3⟩ := pgmut_traj hf hg hF hε hτ hG hP hsf hsg x0
  have hP' : ∀ x, IsProx (F.smul ε) τ x (P x) := fun x => (smul_isProx hε hτ).2 (hP x)
  have hfixiff := pg_fixed_iff hφ (smulConvex hF hε.le) hτ hG hP'
  obtain ⟨c0, hc0⟩ := hmin
  have hfirm := firm_prox hF (mul_pos hε hτ) hP
  have hL' : ∀ x y, ‖G x - G y‖ ≤ L * ‖x - y‖ := fun x y => hL x y _ _ (hG x) (hG y)
  obtain ⟨c, hc, hlim⟩ := inexact_converges (T := fun x => P (x - τ • G x)) (e := fun n => τ * df n + dg n) (fun x y => by
      refine (hfirm.nonexp _ _).trans ?_
      have := forward_contract (μ := 0) hG hL' (by simpa using hφ) hL0 hτ (by linarith) x y
      simpa using this) (fun Z hZ =>
      fb_converges hfirm hG hL' hφ hτ hτL one_pos le_rfl ⟨c0, (hfixiff c0).2 hc0⟩ Z fun n => by rw [hZ, one_smul]; abel) (X := fun n => (T n).2.2.x) h2 ((hdf.mul_left τ).add hdg)
  exact ⟨T, h3, c, (hfixiff c).1 hc, hlim⟩

end Gradient

/-! ## DouglasRachfordSplitting and ADMM -/

section DR
variable {f : MutOp SF E} {g : MutOp SG E} {If : ℕ → SF → Prop} {Ig : ℕ → SG → Prop} {df dg : ℕ → ℝ} {F G : XFun E} {φ : E → ℝ} {D : E → E} {τ η μ γ L : ℝ}

/-- One step with errors `a` and `b` in the two prox calls. -/
lemma dr_inexact_step {P₁ P₂ : E → E} (h₂ : Firm P₂) (hη : 0 ≤ η) {x p y : E} {a b : ℝ} (hx : ‖x - P₁ y‖ ≤ a) (hp : ‖p - P₂ ((2 : ℝ) • x - y)‖ ≤ b) :
    ‖y + η • (p - x) - drStep P₁ P₂ η y‖ ≤ η * (3 * a + b) := by
  have e : y + η • (p - x) - drStep P₁ P₂ η y =
      η • ((p - P₂ ((2 : ℝ) • x - y)) + (P₂ ((2 : ℝ) • x - y) - P₂ ((2 : ℝ) • P₁ y - y)) - (x - P₁ y)) := by
    unfold drStep; module
  have h3 := h₂.nonexp ((2 : ℝ) • x - y) ((2 : ℝ) • P₁ y - y)
  rw [show (2 : ℝ) • x - y - ((2 : ℝ) • P₁ y - y) = (2 : ℝ) • (x - P₁ y) by module, norm_smul] at h3
  norm_num at h3
  rw [e, norm_smul, Real.norm_of_nonneg hη]
  refine mul_le_mul_of_nonneg_left ?_ hη
  have h4 := norm_sub_le ((p - P₂ ((2 : ℝ) • x - y)) + (P₂ ((2 : ℝ) • x - y) - P₂ ((2 : ℝ) • P₁ y - y))) (x - P₁ y)
  have h5 := norm_add_le (p - P₂ ((2 : ℝ) • x - y)) (P₂ ((2 : ℝ) • x - y) - P₂ ((2 : ℝ) • P₁ y - y))
  linarith

/-- The step is non-expansive for `0 <= eta <= 2`. -/
lemma dr_nonexp {P₁ P₂ : E → E} (h₁ : Firm P₁) (h₂ : Firm P₂) (hη : 0 ≤ η) (hη2 : η ≤ 2) (x y : E) : ‖drStep P₁ P₂ η x - drStep P₁ P₂ η y‖ ≤ ‖x - y‖ := by
  have := dr_contract (P₁ := P₁) (P₂ := P₂) (δ := 1) (fun x y => by rw [one_mul]; exact (h₂.reflect _ _).trans (h₁.reflect x y)) hη x y
  rw [abs_of_nonneg (by linarith)] at this
  linarith

/-- Errors of one iteration of `DouglasRachfordSplitting`: the first prox counts three times. -/
def drErr (η : ℝ) (df dg : ℕ → ℝ) (gfirst : Bool) (n : ℕ) : ℝ := if gfirst then η * (3 * dg n + df n) else η * (3 * df n + dg n)

lemma drmut_traj (hf : ProxWithin f If df F) (hg : ProxWithin g Ig dg G) (hF : F.Convex) (hG : G.Convex) (hτ : 0 < τ) (hη : 0 ≤ η) (gfirst : Bool)
    (hleave : if gfirst then LeavesArg g else LeavesArg f) {Pf Pg : E → E} (hPf : ∀ x, IsProx F τ x (Pf x)) (hPg : ∀ x, IsProx G τ x (Pg x)) {sf : SF} {sg : SG} (hsf : If 0 sf)
    (hsg : Ig 0 sg) (x0 : E) :
    ∃ (Y : ℕ → E) (R : ℕ → SF × SG × E × E × List (E × E)), Y 0 = x0 ∧
      (∀ n, ‖Y (n + 1) - drStep (if gfirst then Pg else Pf) (if gfirst then Pf else Pg) η (Y n)‖ ≤ drErr η df dg gfirst n) ∧
      ∀ n, DRMut f g sf sg x0 τ η (n + 1) gfirst = .ok (R n) ∧ ‖(R n).2.2.1 - (if gfirst then Pg else Pf) (Y n)‖ ≤ (if gfirst then dg n else df n) ∧ (R n).2.2.2.1 = Y (n + 1) := by
  have f1 := firm_prox hF hτ hPf
  have f2 := firm_prox hG hτ hPg
  obtain ⟨T, h0, h1, h2, h3⟩ := forRange_traj_idx (DRMut.body f g τ η gfirst) (fun n s => If n s.1 ∧ Ig n s.2.1)
    (fun n s s' => ∃ x, s'.2.2.x = some x ∧ ‖x - (if gfirst then Pg else Pf) s.2.2.y‖ ≤ (if gfirst then dg n else df n) ∧
      ‖s'.2.2.y - drStep (if gfirst then Pg else Pf) (if gfirst then Pf else Pg) η s.2.2.y‖ ≤ drErr η df dg gfirst n) (fun i s hs => by
    cases gfirst with
    | true =>
      simp only [if_true] at hleave ⊢
      obtain ⟨x, sg', e1, e2, e3⟩ := hg.step hG hτ hPg hs.2 s.2.2.y
      rw [hleave] at e1
      obtain ⟨p, sf', q1, q2, q3⟩ := hf.step hF hτ hPf hs.1 ((2 : ℝ) • x - s.2.2.y)
      refine ⟨(sf', sg', ⟨some x, s.2.2.y + η • (p - x), s.2.2.log ++ [(x, s.2.2.y + η • (p - x))]⟩), ?_, ⟨q2, e2⟩, x, rfl, e3, dr_inexact_step f1 hη e3 q3⟩
      simp [DRMut.body, e1, q1, Bind.bind, Except.bind, Pure.pure, Except.pure]
    | false =>
      simp only [Bool.false_eq_true, if_false] at hleave ⊢
      obtain ⟨x, sf', e1, e2, e3⟩ := hf.step hF hτ hPf hs.1 s.2.2.y
      rw [hleave] at e1
      obtain ⟨p, sg', q1, q2, q3⟩ := hg.step hG hτ hPg hs.2 ((2 : ℝ) • x - s.2.2.y)
      refine ⟨(sf', sg', ⟨some x, s.2.2.y + η • (p - x), s.2.2.log ++ [(x, s.2.2.y + η • (p - x))]⟩), ?_, ⟨e2, q2⟩, x, rfl, e3, dr_inexact_step f2 hη e3 q3⟩
      simp [DRMut.body, e1, q1, Bind.bind, Except.bind, Pure.pure, Except.pure]) (sf, sg, ⟨none, x0, []⟩) ⟨hsf, hsg⟩
  choose X hX hX1 hX2 using h2
  refine ⟨fun n => (T n).2.2.y, fun n => ((T (n + 1)).1, (T (n + 1)).2.1, X n, (T (n + 1)).2.2.y, (T (n + 1)).2.2.log), congrArg (fun s => s.2.2.y) h0, hX2, fun n => ⟨?_, hX1 n, rfl⟩⟩
  simp only [DRMut, h3 (n + 1), Bind.bind, Except.bind, hX n]
  rfl

/-- C102 for `DouglasRachfordSplitting`, in either order, `f` strongly convex and smooth: the exact rate plus the discounted errors of the prox calls, the first one counted three times; the
operator called first must not write into its argument. -/
theorem C102_dr_inexact (hD : ∀ x, IsGrad φ x (D x)) (hL : LipschitzGrad φ L) (hφ : StrongConvexOn Set.univ μ φ) (hμL : μ ≤ L) (hG : G.Convex) (hf : ProxWithin f If df (XFun.ofReal φ))
    (hg : ProxWithin g Ig dg G) (hτ : 0 < τ) (hη : 0 < η) (hγ : 0 < γ) (hγμ : γ ≤ τ * μ) (hγL : γ * (τ * L) ≤ 1) (gfirst : Bool) (hleave : if gfirst then LeavesArg g else LeavesArg f)
    (sf : SF) (sg : SG) (hsf : If 0 sf) (hsg : Ig 0 sg) (x0 : E) (n : ℕ) :
    ∃ r, DRMut f g sf sg x0 τ η (n + 1) gfirst = .ok r ∧ ∀ c, ((XFun.ofReal φ).add G).IsMin c →
      ‖r.2.2.1 - c‖ ≤ (if gfirst then dg n else df n) + ((|1 - η / 2| + η / 2 * ((1 - γ) / (1 + γ))) ^ n * ‖x0 - (if gfirst then c - τ • D c else c + τ • D c)‖ +
        ∑ i ∈ Finset.range n, (|1 - η / 2| + η / 2 * ((1 - γ) / (1 + γ))) ^ (n - 1 - i) * (if gfirst then η * (3 * dg i + df i) else η * (3 * df i + dg i))) := by
  obtain ⟨Pf, hPf'⟩ := hf.map hsf hτ
  obtain ⟨Pg, hPg'⟩ := hg.map hsg hτ
  obtain ⟨P1, hP1⟩ := hg.map hsg one_pos
  have hμ : 0 ≤ μ := by
    by_contra hneg; push Not at hneg; nlinarith [mul_neg_of_pos_of_neg hτ hneg]
  have hφc : ConvexOn ℝ Set.univ φ := by simpa using hφ.mono hμ
  have hγ1 : γ ≤ 1 := by
    by_contra hcon
    push Not at hcon
    have : τ * μ ≤ τ * L := mul_le_mul_of_nonneg_left hμL hτ.le
    nlinarith
  have hδ : 0 ≤ (1 - γ) / (1 + γ) := div_nonneg (by linarith) (by linarith)
  have hq : 0 ≤ |1 - η / 2| + η / 2 * ((1 - γ) / (1 + γ)) := by positivity
  have f1 := firm_prox (F := XFun.ofReal φ) hφc hτ hPf'
  have f2 := firm_prox hG hτ hPg'
  have hrefl : ∀ x y, ‖((2 : ℝ) • Pf x - x) - ((2 : ℝ) • Pf y - y)‖ ≤ (1 - γ) / (1 + γ) * ‖x - y‖ := fun x y =>
    reflect_contract hD (fun x y => hL x y _ _ (hD x) (hD y)) hφ hμL hγ hτ hγμ hγL (prox_smooth_eq hφc hD hτ (hPf' x)) (prox_smooth_eq hφc hD hτ (hPf' y))
  obtain ⟨Y, R, hY0, hY, hrun⟩ := drmut_traj (F := XFun.ofReal φ) hf hg hφc hG hτ hη.le gfirst hleave hPf' hPg' hsf hsg x0
  refine ⟨R n, (hrun n).1, fun c hc => ?_⟩
  have hcert := certified_of_smooth hφc hD hG hc hP1
  have htri : ∀ (P : E → E) (v : E), ‖(R n).2.2.1 - c‖ ≤ ‖(R n).2.2.1 - P v‖ + ‖P v - c‖ := fun P v => by
    have := norm_add_le ((R n).2.2.1 - P v) (P v - c)
    rwa [sub_add_sub_cancel] at this
  have hr := (hrun n).2.1
  cases gfirst with
  | true =>
    simp only [if_true, drErr] at hY hr ⊢
    have hfix := dr_fixed_exists (F := XFun.ofReal φ) (η := η) hφc hG hτ hη.ne' hPf' hPg' hcert
    rw [smul_neg, ← sub_eq_add_neg] at hfix
    have h1 := inexact_bound hq (fun x y => dr_contract (P₁ := Pg) (P₂ := Pf) (δ := (1 - γ) / (1 + γ)) (fun x y =>
      (hrefl _ _).trans (mul_le_mul_of_nonneg_left (f2.reflect x y) hδ)) hη.le x y) hY (Y := fun _ => c - τ • D c) (fun _ => hfix.1.symm) n
    rw [hY0] at h1
    have h2 := f2.nonexp (Y n) (c - τ • D c)
    rw [hfix.2] at h2
    exact (htri Pg (Y n)).trans (add_le_add hr (h2.trans h1))
  | false =>
    simp only [Bool.false_eq_true, if_false, drErr] at hY hr ⊢
    have hfix := dr_fixed_exists (G := XFun.ofReal φ) (η := η) hG hφc hτ hη.ne' hPg' hPf' hcert.swap
    rw [neg_neg] at hfix
    have h1 := inexact_bound hq (fun x y => dr_contract (P₁ := Pf) (P₂ := Pg) (δ := (1 - γ) / (1 + γ)) (fun x y =>
      (f2.reflect _ _).trans (hrefl x y)) hη.le x y) hY (Y := fun _ => c + τ • D c) (fun _ => hfix.1.symm) n
    rw [hY0] at h1
    have h2 := f1.nonexp (Y n) (c + τ • D c)
    rw [hfix.2] at h2
    exact (htri Pf (Y n)).trans (add_le_add hr (h2.trans h1))

lemma tendsto_of_close {X Z : ℕ → E} {e : ℕ → ℝ} {c : E} (h : ∀ n, ‖X n - Z n‖ ≤ e n) (he : Tendsto e atTop (𝓝 0)) (hZ : Tendsto Z atTop (𝓝 c)) : Tendsto X atTop (𝓝 c) := by
  have h1 : Tendsto (fun n => X n - Z n) atTop (𝓝 0) := squeeze_zero_norm h he
  simpa using h1.add hZ

/-- C102 for `DouglasRachfordSplitting`: with summable errors the returned points converge to a minimiser. -/
theorem C102_dr_inexact_converges [ProperSpace E] (hf : ProxWithin f If df F) (hg : ProxWithin g Ig dg G) (hdf : Summable df) (hdg : Summable dg) (hF : F.Convex) (hG : G.Convex)
    (hτ : 0 < τ) (hη : 0 < η) (hη2 : η < 2) (gfirst : Bool) (hleave : if gfirst then LeavesArg g else LeavesArg f) (hsol : ∃ x s, IsCertified F G x s) (sf : SF) (sg : SG)
    (hsf : If 0 sf) (hsg : Ig 0 sg) (x0 : E) :
    ∃ R : ℕ → SF × SG × E × E × List (E × E), (∀ n, DRMut f g sf sg x0 τ η (n + 1) gfirst = .ok (R n)) ∧ ∃ c, (F.add G).IsMin c ∧ Tendsto (fun n => (R n).2.2.1) atTop (𝓝 c) := by
  obtain ⟨Pf, hPf'⟩ := hf.map hsf hτ
  obtain ⟨Pg, hPg'⟩ := hg.map hsg hτ
  have f1 := firm_prox hF hτ hPf'
  have f2 := firm_prox hG hτ hPg'
  obtain ⟨Y, R, hY0, hY, hrun⟩ := drmut_traj hf hg hF hG hτ hη.le gfirst hleave hPf' hPg' hsf hsg x0
  refine ⟨R, fun n => (hrun n).1, ?_⟩
  have hr := fun n => (hrun n).2.1
  obtain ⟨x, s, hxs⟩ := hsol
  cases gfirst with
  | true =>
    simp only [if_true, drErr] at hY hr
    obtain ⟨c, hc, hlim⟩ := inexact_converges (fun x y => dr_nonexp f2 f1 hη.le hη2.le x y) (fun Z hZ =>
      dr_converges f2 f1 hη hη2 ⟨_, (dr_fixed_exists hF hG hτ hη.ne' hPf' hPg' hxs).1⟩ Z hZ) hY (((hdg.mul_left 3).add hdf).mul_left η)
    exact ⟨Pg c, ((dr_fixed_iff hF hG hτ hη.ne' hPf' hPg' c).1 hc).isMin, tendsto_of_close hr hdg.tendsto_atTop_zero ((f2.continuous.tendsto c).comp hlim)⟩
  | false =>
    simp only [Bool.false_eq_true, if_false, drErr] at hY hr
    obtain ⟨c, hc, hlim⟩ := inexact_converges (fun x y => dr_nonexp f1 f2 hη.le hη2.le x y) (fun Z hZ =>
      dr_converges f1 f2 hη hη2 ⟨_, (dr_fixed_exists hG hF hτ hη.ne' hPg' hPf' hxs.swap).1⟩ Z hZ) hY (((hdf.mul_left 3).add hdg).mul_left η)
    exact ⟨Pf c, ((dr_fixed_iff hG hF hτ hη.ne' hPg' hPf' c).1 hc).swap.isMin, tendsto_of_close hr hdf.tendsto_atTop_zero ((f1.continuous.tendsto c).comp hlim)⟩

/-- C102 for `ADMM`, in either order and for operators that may write into their argument: with summable errors both returned sequences converge to one minimiser. -/
theorem C102_admm_inexact_converges [ProperSpace E] (hf : ProxWithin f If df F) (hg : ProxWithin g Ig dg G) (hdf : Summable df) (hdg : Summable dg) (hF : F.Convex) (hG : G.Convex)
    (hτ : 0 < τ) (gfirst : Bool) (hsol : ∃ x s, IsCertified F G x s) (sf : SF) (sg : SG) (hsf : If 0 sf) (hsg : Ig 0 sg) (x0 z0 : Option E) (h0 : x0.isSome ∨ z0.isSome) :
    ∃ R : ℕ → SF × SG × SplitState E, (∀ n, ADMMMut f g sf sg x0 z0 τ n gfirst = .ok (R n)) ∧
      ∃ c, (F.add G).IsMin c ∧ Tendsto (fun n => (R n).2.2.x) atTop (𝓝 c) ∧ Tendsto (fun n => (R n).2.2.z) atTop (𝓝 c) := by
  obtain ⟨Pf, hPf'⟩ := hf.map hsf hτ
  obtain ⟨Pg, hPg'⟩ := hg.map hsg hτ
  have f1 := firm_prox hF hτ hPf'
  have f2 := firm_prox hG hτ hPg'
  obtain ⟨x, z, hinit⟩ : ∃ x z, x0z0Init x0 z0 = .ok (x, z) := by
    rcases x0 with _ | x <;> rcases z0 with _ | z
    · simp at h0
    all_goals exact ⟨_, _, rfl⟩
  obtain ⟨xs, s, hxs⟩ := hsol
  cases gfirst with
  | false =>
    obtain ⟨T, -, -, h2, h3⟩ := forRange_traj_idx (ADMMMut.body f g τ false) (fun n s => If n s.1 ∧ Ig n s.2.1)
      (fun n s s' => ‖s'.2.2.x - Pf (s.2.2.z - s.2.2.u)‖ ≤ df n ∧ ‖s'.2.2.z - Pg (s'.2.2.x + s.2.2.u)‖ ≤ dg n ∧ s'.2.2.u = s.2.2.u + s'.2.2.x - s'.2.2.z) (fun i s hs => by
      obtain ⟨x, sf', e1, e2, e3⟩ := hf.step hF hτ hPf' hs.1 (s.2.2.z - s.2.2.u)
      obtain ⟨z, sg', q1, q2, q3⟩ := hg.step hG hτ hPg' hs.2 (x + s.2.2.u)
      exact ⟨(sf', sg', ⟨x, z, s.2.2.u + x - z, s.2.2.log ++ [(x, z)]⟩), by simp [ADMMMut.body, e1, q1, Bind.bind, Except.bind, Pure.pure, Except.pure], ⟨e2, q2⟩, e3, q3, rfl⟩)
      (sf, sg, ⟨x, z, 0, []⟩) ⟨hsf, hsg⟩
    refine ⟨T, fun n => by simp only [ADMMMut, hinit, Bind.bind, Except.bind]; exact h3 n, ?_⟩
    let V : ℕ → E := fun n => (T (n + 1)).2.2.x + (T n).2.2.u
    have hz : ∀ n, ‖(T (n + 1)).2.2.z - Pg (V n)‖ ≤ dg n := fun n => (h2 n).2.1
    have hx : ∀ n, ‖(T (n + 2)).2.2.x - Pf ((2 : ℝ) • (T (n + 1)).2.2.z - V n)‖ ≤ df (n + 1) := fun n => by
      have h4 := (h2 (n + 1)).1
      rw [(h2 n).2.2] at h4
      convert h4 using 4
      simp only [V, two_smul]; abel
    have hV : ∀ n, ‖V (n + 1) - drStep Pg Pf 1 (V n)‖ ≤ 1 * (3 * dg n + df (n + 1)) := fun n => by
      have h4 := dr_inexact_step f1 zero_le_one (hz n) (hx n)
      convert h4 using 3
      simp only [V, one_smul]
      rw [(h2 n).2.2]; abel
    obtain ⟨c, hc, hlim⟩ := inexact_converges (fun x y => dr_nonexp f2 f1 zero_le_one one_le_two x y) (fun Z hZ =>
      dr_converges f2 f1 one_pos one_lt_two ⟨_, (dr_fixed_exists hF hG hτ one_ne_zero hPf' hPg' hxs).1⟩ Z hZ) hV
      (((hdg.mul_left 3).add ((summable_nat_add_iff 1).2 hdf)).mul_left 1)
    have e : Pf ((2 : ℝ) • Pg c - c) = Pg c := by
      unfold drStep at hc
      rw [one_smul] at hc
      exact sub_eq_zero.1 (add_eq_left.1 hc)
    have hlimz : Tendsto (fun n => (T (n + 1)).2.2.z) atTop (𝓝 (Pg c)) := tendsto_of_close hz hdg.tendsto_atTop_zero ((f2.continuous.tendsto c).comp hlim)
    refine ⟨Pg c, ((dr_fixed_iff hF hG hτ one_ne_zero hPf' hPg' c).1 hc).isMin, ?_, (tendsto_add_atTop_iff_nat 1).1 hlimz⟩
    rw [← tendsto_add_atTop_iff_nat 2]
    refine tendsto_of_close hx ((summable_nat_add_iff 1).2 hdf).tendsto_atTop_zero ?_
    have h5 : Tendsto (fun n => (2 : ℝ) • (T (n + 1)).2.2.z - V n) atTop (𝓝 ((2 : ℝ) • Pg c - c)) := (hlimz.const_smul (2 : ℝ)).sub hlim
    have h6 := (f1.continuous.tendsto _).comp h5
    rw [e] at h6
    exact h6
  | true =>
    obtain ⟨T, -, -, h2, h3⟩ := forRange_traj_idx (ADMMMut.body f g τ true) (fun n s => If n s.1 ∧ Ig n s.2.1)
      (fun n s s' => ‖s'.2.2.z - Pg (s.2.2.x + s.2.2.u)‖ ≤ dg n ∧ ‖s'.2.2.x - Pf (s'.2.2.z - s.2.2.u)‖ ≤ df n ∧ s'.2.2.u = s.2.2.u + s'.2.2.x - s'.2.2.z) (fun i s hs => by
      obtain ⟨z, sg', e1, e2, e3⟩ := hg.step hG hτ hPg' hs.2 (s.2.2.x + s.2.2.u)
      obtain ⟨x, sf', q1, q2, q3⟩ := hf.step hF hτ hPf' hs.1 (z - s.2.2.u)
      exact ⟨(sf', sg', ⟨x, z, s.2.2.u + x - z, s.2.2.log ++ [(x, z)]⟩), by simp [ADMMMut.body, e1, q1, Bind.bind, Except.bind, Pure.pure, Except.pure], ⟨q2, e2⟩, e3, q3, rfl⟩)
      (sf, sg, ⟨x, z, 0, []⟩) ⟨hsf, hsg⟩
    refine ⟨T, fun n => by simp only [ADMMMut, hinit, Bind.bind, Except.bind]; exact h3 n, ?_⟩
    let V : ℕ → E := fun n => (T (n + 1)).2.2.z - (T n).2.2.u
    have hx : ∀ n, ‖(T (n + 1)).2.2.x - Pf (V n)‖ ≤ df n := fun n => (h2 n).2.1
    have hz : ∀ n, ‖(T (n + 2)).2.2.z - Pg ((2 : ℝ) • (T (n + 1)).2.2.x - V n)‖ ≤ dg (n + 1) := fun n => by
      have h4 := (h2 (n + 1)).1
      rw [(h2 n).2.2] at h4
      convert h4 using 4
      simp only [V, two_smul]; abel
    have hV : ∀ n, ‖V (n + 1) - drStep Pf Pg 1 (V n)‖ ≤ 1 * (3 * df n + dg (n + 1)) := fun n => by
      have h4 := dr_inexact_step f2 zero_le_one (hx n) (hz n)
      convert h4 using 3
      simp only [V, one_smul]
      rw [(h2 n).2.2]; abel
    obtain ⟨c, hc, hlim⟩ := inexact_converges (fun x y => dr_nonexp f1 f2 zero_le_one one_le_two x y) (fun Z hZ =>
      dr_converges f1 f2 one_pos one_lt_two ⟨_, (dr_fixed_exists hG hF hτ one_ne_zero hPg' hPf' hxs.swap).1⟩ Z hZ) hV
      (((hdf.mul_left 3).add ((summable_nat_add_iff 1).2 hdg)).mul_left 1)
    have e : Pg ((2 : ℝ) • Pf c - c) = Pf c := by
      unfold drStep at hc
      rw [one_smul] at hc
      exact sub_eq_zero.1 (add_eq_left.1 hc)
    have hlimx : Tendsto (fun n => (T (n + 1)).2.2.x) atTop (𝓝 (Pf c)) := tendsto_of_close hx hdf.tendsto_atTop_zero ((f1.continuous.tendsto c).comp hlim)
    refine ⟨Pf c, ((dr_fixed_iff hG hF hτ one_ne_zero hPg' hPf' c).1 hc).swap.isMin, (tendsto_add_atTop_iff_nat 1).1 hlimx, ?_⟩
    rw [← tendsto_add_atTop_iff_nat 2]
    refine tendsto_of_close hz ((summable_nat_add_iff 1).2 hdg).tendsto_atTop_zero ?_
    have h5 : Tendsto (fun n => (2 : ℝ) • (T (n + 1)).2.2.x - V n) atTop (𝓝 ((2 : ℝ) • Pf c - c)) := (hlimx.const_smul (2 : ℝ)).sub hlim
    have h6 := (f2.continuous.tendsto _).comp h5
    rw [e] at h6
    exact h6

end DR

/-! ## `L2` with inexact inner solvers -/

section L2
variable {H C : Type} [NormedAddCommGroup H] [InnerProductSpace ℝ H]

/-- The external solvers with the number of inner iterations fixed to `n`. -/
def L2Ext.at (ext : L2Ext E H C) (n : ℕ) : L2Ext E H C :=
  { ext with lsqr := fun M y _ x0 => ext.lsqr M y n x0, cg := fun M y _ x0 => ext.cg M y n x0, regInv := fun A d y _ x0 => ext.regInv A d y n x0 }

lemma l2_prox_at (ext : L2Ext E H C) (a : L2Args E H) (s : L2State E C) (x : E) (τ : ℝ) :
    L2.prox ext a s x τ = L2.prox (ext.at (a.niter.get (s.count + 1))) a s x τ := rfl

lemma l2_prox_count (ext : L2Ext E H C) (a : L2Args E H) (s : L2State E C) (x : E) (τ : ℝ) : (L2.prox ext a s x τ).1.count = s.count + 1 := by
  obtain ⟨data, q, σ, α, qgrad, niter, warm, solver, ds⟩ := a
  unfold L2.prox
  by_cases hτ : τ ≤ 0
  · simp only [if_pos hτ]
  · simp only [if_neg hτ]
    cases data with
    | opB Op e b =>
      simp only [L2.proxBody]
      cases e <;> simp only [Bool.false_eq_true, if_false, if_true]
      · by_cases hs : solver.normaleqs = true
        · simp only [if_pos hs]; cases warm <;> rfl
        · simp only [if_neg hs]; cases warm <;> rfl
      · by_cases hd : ds ≠ .factorize
        · simp only [if_pos hd]; cases warm <;> rfl
        · simp only [if_neg hd]
          by_cases ht : s.tausigma ≠ τ * σ
          · simp only [if_pos ht]; cases warm <;> rfl
          · simp only [if_neg ht]
            cases hc : s.cl with
            | none => simp
            | some cl => cases warm <;> simp
    | opOnly Op e => rfl
    | bOnly b => rfl
    | nothing => rfl

/-- An `L2` object whose inner solver leaves a residual of at most `δ n` after `n` inner iterations: its `k`-th prox call (from `k = 0`) is within `δ (niter(k + 1))` of the prox. -/
lemma l2_proxWithin [FiniteDimensional ℝ E] (ext : L2Ext E H C) (δ : ℕ → ℝ) (hext : ∀ n, L2ExtWithin (ext.at n) (δ n)) (a : L2Args E H) (hσ : 0 < a.σ) :
    ProxWithin (L2.toMut ext a) (fun k s => s.count = k ∧ CacheOk ext a s) (fun k => δ (a.niter.get (k + 1))) (XFun.ofReal (l2Spec a)) := by
  rintro k s ⟨rfl, hc⟩ x τ hτ
  obtain ⟨z, p, h1, h2, h3⟩ := l2_prox_of_cache (ext.at (a.niter.get (s.count + 1))) _ (hext _) a hσ s hc x τ hτ
  exact ⟨z, p, h1, ⟨l2_prox_count ext a s x τ, cacheOk_prox ext a s hc x τ⟩, h2.1, h3⟩

/-- C102 for `ADMM` with an `L2` data term: if the residuals left by the inner solver are summable along the schedule `niter(1), niter(2), ...`, `ADMM` converges to a minimiser, with any
configuration of the inner solver, with or without warm start. -/
theorem C102_admm_l2_schedule [FiniteDimensional ℝ E] (ext : L2Ext E H C) (δ : ℕ → ℝ) (hext : ∀ n, L2ExtWithin (ext.at n) (δ n)) (a : L2Args E H) (hσ : 0 < a.σ)
    (hsum : Summable fun k => δ (a.niter.get (k + 1))) {g : ProxOp E} {G : XFun E} (hG : G.Convex) (hg : ProxExact g G) {τ : ℝ} (hτ : 0 < τ) (gfirst : Bool)
    (hsol : ∃ x s, IsCertified (XFun.ofReal (l2Spec a)) G x s) (w : Option E) (s : L2State E C) (hs : L2.init a w = .ok s) (x0 z0 : Option E) (h0 : x0.isSome ∨ z0.isSome) :
    ∃ R : ℕ → L2State E C × Unit × SplitState E, (∀ n, ADMMMut (L2.toMut ext a) g.toMut s () x0 z0 τ n gfirst = .ok (R n)) ∧
      ∃ c, ((XFun.ofReal (l2Spec a)).add G).IsMin c ∧ Tendsto (fun n => (R n).2.2.x) atTop (𝓝 c) ∧ Tendsto (fun n => (R n).2.2.z) atTop (𝓝 c) := by
  have hcount : s.count = 0 := by
    unfold L2.init at hs
    split_ifs at hs
    cases hs
    rfl
  have : ProperSpace E := FiniteDimensional.proper ℝ E
  exact C102_admm_inexact_converges (l2_proxWithin ext δ hext a hσ) (dg := fun _ => 0) (Ig := fun _ _ => True) (fun k s _ x τ hτ => by
    obtain ⟨p, h1, h2⟩ := hg x τ hτ
    exact ⟨p, p, h1, trivial, h2, by simp⟩) hsum summable_zero (show (XFun.ofReal (l2Spec a)).Convex from l2_convex a hσ.le) hG hτ gfirst hsol s () ⟨hcount, cacheOk_init ext a w s hs⟩ trivial x0 z0 h0

/-- C102 for `ProximalPoint` on a `μ`-strongly convex `L2` whose inner solves leave a residual of at most `δ`: the iterates reach a neighbourhood of radius
`δ (1 + tau μ)/(tau μ)` of the minimiser. -/
theorem C102_l2_point_neighbourhood [FiniteDimensional ℝ E] (ext : L2Ext E H C) (δ : ℝ) (hext : L2ExtWithin ext δ) (a : L2Args E H) (hσ : 0 < a.σ) {μ τ : ℝ} (hμ : 0 < μ) (hτ : 0 < τ)
    (hstrong : StrongConvexOn Set.univ μ (l2Spec a)) (w : Option E) (s : L2State E C) (hs : L2.init a w = .ok s) (x0 : E) (n : ℕ) :
    ∃ r, PPMut (L2.toMut ext a) s x0 τ n none = .ok r ∧ ∀ c, (XFun.ofReal (l2Spec a)).IsMin c → ‖r.2.x - c‖ ≤ (1 / (1 + τ * μ)) ^ n * ‖x0 - c‖ + δ * (1 + τ * μ) / (τ * μ) := by
  refine C102_proximalpoint_neighbourhood (F := XFun.ofReal (l2Spec a)) (I := fun _ s => CacheOk ext a s) (fun k s hc x τ hτ => ?_) hstrong hμ hτ s (cacheOk_init ext a w s hs) x0 n
  obtain ⟨z, p, h1, h2, h3⟩ := l2_prox_of_cache ext δ hext a hσ s hc x τ hτ
  exact ⟨z, p, h1, cacheOk_prox ext a s hc x τ, h2.1, h3⟩

end L2

/-! ## Sharpness and non-vacuity -/

/-- An operator with an error `v k` in its `k`-th prox call. -/
noncomputable def noisy (f : ProxOp E) (v : ℕ → E) : MutOp ℕ E := ⟨fun _ => f.call, fun k x τ => (k + 1, (f.prox x τ).map (· + v k), x), fun k x => (k, f.grad x)⟩

/-- It satisfies the hypothesis of the theorems, with errors that need not vanish. -/
lemma noisy_within {f : ProxOp E} {F : XFun E} (hf : ProxExact f F) (v : ℕ → E) : ProxWithin (noisy f v) (fun k s => s = k) (fun k => ‖v k‖) F := by
  rintro k s rfl x τ hτ
  obtain ⟨p, h1, h2⟩ := hf x τ hτ
  exact ⟨p + v s, p, by simp [noisy, h1, Except.map], rfl, h2, by simp⟩

/-- C102: without strong convexity an error of constant size need not keep the iterates near the minimisers.  For `Euclidean(sigma)`, whose only minimiser is `0`, errors of size
`δ > sigma tau` drive `ProximalPoint` to infinity. -/
theorem C102_constant_errors_diverge {σ τ δ : ℝ} (hσ : 0 < σ) (hτ : 0 < τ) (hδ : σ * τ < δ) (u : E) (hu : ‖u‖ = 1) (x0 : E) (hx0 : x0 = (σ * τ) • u) :
    ProxWithin (noisy (Euclidean σ) fun _ => δ • u) (fun k s => s = k) (fun _ => δ) (XFun.ofReal fun y : E => σ * ‖y‖) ∧
      (∀ c, (XFun.ofReal fun y : E => σ * ‖y‖).IsMin c ↔ c = 0) ∧
      ∀ n : ℕ, ∃ r, PPMut (noisy (Euclidean σ) fun _ => δ • u) 0 x0 τ n none = .ok r ∧ ‖r.2.x - 0‖ = σ * τ + n * (δ - σ * τ) := by
  have hst : 0 < σ * τ := mul_pos hσ hτ
  refine ⟨?_, fun c => ⟨fun h => ?_, ?_⟩, fun n => ?_⟩
  · have := noisy_within (euclidean_proxExact (E := E) hσ) (fun _ => δ • u)
    simpa [norm_smul, hu, abs_of_pos (hst.trans hδ)] using this
  · have := h.2 0 trivial
    simp only [XFun.ofReal, norm_zero, mul_zero] at this
    have h2 : ‖c‖ ≤ 0 := by nlinarith [norm_nonneg c]
    exact norm_le_zero_iff.1 h2
  · rintro rfl
    exact ⟨trivial, fun y _ => by simp only [XFun.ofReal, norm_zero, mul_zero]; positivity⟩
  · have hprox : ∀ r : ℝ, σ * τ ≤ r → (Euclidean σ).prox (r • u) τ = .ok ((r - σ * τ) • u) := fun r hr => by
      have hr0 : 0 < r := hst.trans_le hr
      have hn : ‖r • u‖ = r := by rw [norm_smul, hu, mul_one, Real.norm_of_nonneg hr0.le]
      have hmax : max ‖r • u‖ (τ * σ) = r := by rw [hn, max_eq_left (by linarith)]
      have e : (1 - τ * σ / r) • r • u = (r - σ * τ) • u := by rw [smul_smul]; congr 1; field_simp
      show checkTau τ (if max ‖r • u‖ (τ * σ) = 0 then .error .zeroDivisionError else .ok ((1 - (τ * σ) / max ‖r • u‖ (τ * σ)) • (r • u))) = _
      rw [hmax, checkTau, if_neg (not_le.2 hτ), if_neg hr0.ne', e]
    have key : ∀ (n i : ℕ) (k : ℕ) (r : ℝ) (l : List E), σ * τ ≤ r →
        ∃ q, forRange (PPMut.body (noisy (Euclidean σ) fun _ => δ • u) τ none) n i (k, ⟨r • u, none, l⟩) = .ok q ∧ q.2.x = (r + n * (δ - σ * τ)) • u := by
      intro n
      induction n with
      | zero => intro i k r l _; exact ⟨_, rfl, by simp⟩
      | succ n ih =>
        intro i k r l hr
        have hstep : PPMut.body (noisy (Euclidean σ) fun _ => δ • u) τ none i (k, ⟨r • u, none, l⟩) =
            .ok ((k + 1, ⟨(r + (δ - σ * τ)) • u, none, l ++ [(r + (δ - σ * τ)) • u]⟩), false) := by
          have e : (r - σ * τ) • u + δ • u = (r + (δ - σ * τ)) • u := by rw [← add_smul]; congr 1; ring
          simp [PPMut.body, MutOp.proxPy, noisy, hprox r hr, Bind.bind, Except.bind, Pure.pure, Except.pure, Except.map, e]
        obtain ⟨q, h1, h2⟩ := ih (i + 1) (k + 1) (r + (δ - σ * τ)) (l ++ [(r + (δ - σ * τ)) • u]) (by linarith)
        refine ⟨q, by rw [forRange, hstep]; exact h1, ?_⟩
        rw [h2]; congr 1; push_cast; ring
    obtain ⟨q, h1, h2⟩ := key n 0 0 (σ * τ) [] le_rfl
    refine ⟨q, by rw [hx0]; exact h1, ?_⟩
    rw [h2, sub_zero, norm_smul, hu, mul_one, Real.norm_of_nonneg]
    have : (0 : ℝ) ≤ n * (δ - σ * τ) := mul_nonneg n.cast_nonneg (by linarith)
    linarith

/-- Non-vacuity: non-zero summable errors on a function with a minimiser. -/
example (u : E) {σ : ℝ} (hσ : 0 < σ) : ProxWithin (noisy (Euclidean σ) fun k => (1 / 2 : ℝ) ^ k • u) (fun k s => s = k) (fun k => ‖(1 / 2 : ℝ) ^ k • u‖) (XFun.ofReal fun y : E => σ * ‖y‖) ∧
    Summable fun k : ℕ => ‖(1 / 2 : ℝ) ^ k • u‖ := by
  refine ⟨noisy_within (euclidean_proxExact hσ) _, ?_⟩
  simp only [norm_smul, norm_pow]
  exact (summable_geometric_of_lt_one (by norm_num) (by norm_num)).mul_right _

/-- Non-vacuity: `L2` without `Op` and `b` is strongly convex. -/
example {σ : ℝ} : StrongConvexOn Set.univ σ (l2Spec (l2Plain (E := E) (F' := E) .nothing σ)) := by
  have h := strong_half_sq (E := E) σ
  have e : l2Spec (l2Plain (E := E) (F' := E) .nothing σ) = fun x => σ / 2 * ‖x‖ ^ 2 := by funext x; simp [l2Spec, l2Plain]
  rwa [e]

/-- Non-vacuity: exact inner solvers exist, and `L2ExtWithin` allows any larger residual. -/
example [FiniteDimensional ℝ E] : ∃ ext : L2Ext E E (E →ₗ[ℝ] E), ∀ n, L2ExtWithin (ext.at n) ((1 / 2 : ℝ) ^ n) := by
  obtain ⟨ext, h⟩ := exists_exactExt (E := E) (F := E)
  have hp : ∀ n : ℕ, (0 : ℝ) ≤ (1 / 2) ^ n := fun n => by positivity
  exact ⟨ext, fun n => ⟨fun d M y hM => (h.div d M y hM).trans (hp n), fun M y hM => (h.cho M y hM).trans (hp n), fun M y k x0 hM => (h.lsqr M y n x0 hM).trans (hp n),
    fun M y k x0 hM => (h.cg M y n x0 hM).trans (hp n), fun A d y k x0 => (h.regInv A d y n x0).trans (hp n)⟩⟩

end Verif
