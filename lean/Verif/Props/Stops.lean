import Verif.Props.Tolerance
import Verif.Props.ProxPoint
import Verif.Props.ProxGrad
import Verif.Props.Parallel
import Verif.Props.HQSConv

/-! # C97: a tolerance stops the run

With a positive `tol` the solvers that take one should stop after finitely many iterations however large `niter` is.  `PPXA` and `ConsensusADMM` compare
the change of the solution and always do.  `ProximalPoint` and `ProximalGradient` compare the relative change of the objective (the docstring says change):
they stop, within an explicit number of iterations, if the minimum of the objective is positive, and need not stop if it is zero. -/

open scoped RealInnerProductSpace
open Filter Topology

set_option linter.unusedSectionVars false

namespace Verif

variable {E : Type} [NormedAddCommGroup E] [InnerProductSpace ℝ E]

/-- The runs `run n` (`n` is `niter`) return the same state for all `n` from `N` on, after exactly `N` callbacks: the solver has stopped by itself. -/
def StopsAt {S A : Type} (run : ℕ → Py S) (log : S → List A) (N : ℕ) : Prop := ∃ r, (log r).length = N ∧ ∀ n, N ≤ n → run n = .ok r

/-- A loop whose body never fails either stops at its first request to do so or never. -/
lemma forRange_stop {S : Type} (body : ℕ → S → Py (S × Bool)) (Good : S → Prop) (R : ℕ → S → S → Bool → Prop)
    (hstep : ∀ i s, Good s → ∃ s' b, body i s = .ok (s', b) ∧ Good s' ∧ R i s s' b) (s : S) (hs : Good s) :
    ∃ (T : ℕ → S) (B : ℕ → Bool), T 0 = s ∧ (∀ n, Good (T n)) ∧ (∀ n, R n (T n) (T (n + 1)) (B n)) ∧
      (∀ J, B J = true → ∃ N, 0 < N ∧ N ≤ J + 1 ∧ ∀ n, N ≤ n → forRange body n 0 s = .ok (T N)) ∧
      ((∀ J, B J = false) → ∀ n, forRange body n 0 s = .ok (T n)) := by
  classical
  obtain ⟨T, B, h0, h1, h2, h3⟩ := forRange_traj body Good R hstep s hs
  refine ⟨T, B, h0, h1, h2, fun J hJ => ?_, fun hB n => ?_⟩
  · have hex : ∃ j, B j = true := ⟨J, hJ⟩
    refine ⟨Nat.find hex + 1, Nat.succ_pos _, Nat.succ_le_succ (Nat.find_le hJ), fun n hn => ?_⟩
    obtain ⟨k, hk, e, hlt, hbr⟩ := h3 n
    have hk' : k = Nat.find hex + 1 := by
      have u : k ≤ Nat.find hex + 1 := by
        by_contra hc
        have := hlt (Nat.find hex) (by omega)
        rw [Nat.find_spec hex] at this; cases this
      rcases eq_or_lt_of_le hk with h | h
      · omega
      · obtain ⟨j, hj, hj'⟩ := hbr h
        have := Nat.find_min' hex hj'
        omega
    rw [e, hk']
  · obtain ⟨k, hk, e, -, hbr⟩ := h3 n
    rcases eq_or_lt_of_le hk with h | h
    · rw [e, h]
    · obtain ⟨j, -, hj⟩ := hbr h
      rw [hB] at hj; cases hj

/-- The relative change of two values between `m` and `m + B` is below `t` if `B < t m`. -/
lemma ratio_test {m u v B t : ℝ} (hm : 0 < m) (hu : m ≤ u) (hv : m ≤ v) (hu' : u - m ≤ B) (hv' : v - m ≤ B) (hB : B < t * m) : |1 - v / u| < t := by
  have hu0 : 0 < u := hm.trans_le hu
  have e : 1 - v / u = (u - v) / u := by field_simp
  rw [e, abs_div, abs_of_pos hu0, div_lt_iff₀ hu0]
  have ht : 0 < t := by
    by_contra h
    have : t * m ≤ 0 := mul_nonpos_of_nonpos_of_nonneg (not_lt.1 h) hm.le
    linarith
  have : t * m ≤ t * u := mul_le_mul_of_nonneg_left hu ht.le
  rw [abs_lt]; constructor <;> linarith

/-! ## ProximalPoint -/

/-- C97 for `ProximalPoint`, partial: if the values computed by the object are those of a convex function with positive minimum `F(c)`, a run with `tol=t`
stops within `‖x0-c‖²/(2 tau t F(c)) + 2` iterations.  Missing: minimum zero (`C97_proximalpoint_never_stops_refuted`, `C75_proximalpoint_refuted`). -/
theorem C97_proximalpoint_stops_partial (f : ProxOp E) (F : XFun E) (hF : F.Convex) (hf : ProxExact f F)
    (hcall : ∀ x ∈ F.dom, ∃ v, f.call x = .ok v ∧ v.toReal = F.val x) (x0 : E) (τ t : ℝ) (hτ : 0 < τ) (ht : 0 < t) (c : E) (hc : F.IsMin c) (hm : 0 < F.val c) :
    ∃ N : ℕ, 0 < N ∧ (N : ℝ) ≤ ‖x0 - c‖ ^ 2 / (2 * τ * t * F.val c) + 2 ∧ StopsAt (fun n => ProximalPoint f x0 τ n (some t)) PPState.log N := by
  obtain ⟨P, hP, hPx⟩ := proxExact_map hf hτ
  obtain ⟨X, X0, hX, hrun⟩ := pp_traj hP x0
  have hd : ∀ x, P x ∈ F.dom := fun x => (hPx x).1
  have hmin : ∀ x ∈ F.dom, F.val c ≤ F.val x := fun x hx => hc.2 x hx
  obtain ⟨T, B, T0, hG, hR, hstop, -⟩ := forRange_stop (ProximalPoint.body f τ (some t)) (fun s => ∀ d, s.pf = some d → d = F.val s.x ∧ s.x ∈ F.dom)
    (fun _ s s' b => s'.x = P s.x ∧ s'.log = s.log ++ [P s.x] ∧ s'.pf = some (F.val (P s.x)) ∧ ∀ d, s.pf = some d → b = decide (|1 - F.val (P s.x) / d| < t))
    (fun i s hs => by
      obtain ⟨v, hv, hv'⟩ := hcall (P s.x) (hd _)
      cases hpf : s.pf with
      | none =>
        refine ⟨⟨P s.x, some v.toReal, s.log ++ [P s.x]⟩, decide (|1 - 0| < t), ?_, ?_, rfl, rfl, by rw [hv'], by simp⟩
        · simp only [ProximalPoint.body, hP, hv, hpf, pyRatio, Bind.bind, Except.bind, Pure.pure, Except.pure]
        · intro d hd'; cases hd'; exact ⟨hv', hd _⟩
      | some d =>
        obtain ⟨e1, e2⟩ := hs d hpf
        have hd0 : d ≠ 0 := by rw [e1]; exact (hm.trans_le (hmin _ e2)).ne'
        refine ⟨⟨P s.x, some v.toReal, s.log ++ [P s.x]⟩, decide (|1 - v.toReal / d| < t), ?_, ?_, rfl, rfl, by rw [hv'], ?_⟩
        · simp only [ProximalPoint.body, hP, hv, hpf, pyRatio, if_neg hd0, Bind.bind, Except.bind, Pure.pure, Except.pure]
        · intro d hd'; cases hd'; exact ⟨hv', hd _⟩
        · intro d' h'; cases h'; rw [hv']) ⟨x0, none, []⟩ (by simp)
  have hT : ∀ n, (T n).x = X n ∧ (T n).log.length = n := by
    intro n
    induction n with
    | zero => rw [T0, X0]; exact ⟨rfl, rfl⟩
    | succ n ih => rw [(hR n).1, (hR n).2.1, ih.1, hX]; exact ⟨rfl, by simp [ih.2]⟩
  set q := ‖x0 - c‖ ^ 2 / (2 * τ * t * F.val c) with hq
  have hq0 : 0 ≤ q := by positivity
  set J := ⌊q⌋₊ + 1 with hJ
  have hJq : q < J := by rw [hJ]; push_cast; exact Nat.lt_floor_add_one q
  have hJpos : (0 : ℝ) < J := hq0.trans_lt hJq
  have hgap : ∀ n, J ≤ n → F.val (X n) - F.val c ≤ ‖x0 - c‖ ^ 2 / (2 * τ * J) := fun n hn => by
    have h1 := (C40_point_rate f F hF hf x0 τ hτ n (by omega) _ (hrun n) c hc.1).2
    refine h1.trans ?_
    have : (J : ℝ) ≤ n := by exact_mod_cast hn
    gcongr
  have hBJ : ‖x0 - c‖ ^ 2 / (2 * τ * J) < t * F.val c := by
    rw [hq, div_lt_iff₀ (by positivity)] at hJq
    rw [div_lt_iff₀ (by positivity)]
    linarith
  have hpf : (T J).pf = some (F.val (X J)) := by
    have := (hR ⌊q⌋₊).2.2.1
    rw [this, (hT _).1, ← hX]
  have hb : B J = true := by
    rw [(hR J).2.2.2 _ hpf, (hT J).1, ← hX, decide_eq_true_eq]
    exact ratio_test hm (hmin _ (by rw [hJ, hX]; exact hd _)) (hmin _ (by rw [hX]; exact hd _)) (hgap J le_rfl) (hgap (J + 1) (by omega)) hBJ
  obtain ⟨N, hN0, hN, hst⟩ := hstop J hb
  refine ⟨N, hN0, ?_, T N, (hT N).2, hst⟩
  have h1 : (N : ℝ) ≤ J + 1 := by exact_mod_cast hN
  have h2 : (J : ℝ) ≤ q + 1 := by rw [hJ]; push_cast; linarith [Nat.floor_le hq0]
  linarith

section Refuted
variable {F' C : Type} [NormedAddCommGroup F'] [InnerProductSpace ℝ F']

/-- C97, counterexample: for `f = s/2 ‖x‖²` and any nonzero starting point, `ProximalPoint` with any `tol <= 1 - 1/(1+tau s)²` runs through all `niter`
iterations, whatever `niter`, although objective and iterates converge to zero. -/
theorem C97_proximalpoint_never_stops_refuted (ext : L2Ext E F' C) (st : L2State E C) {s τ t : ℝ} (hs : 0 < s) (hτ : 0 < τ)
    (ht : t ≤ 1 - (1 / (1 + τ * s)) ^ 2) {x0 : E} (hx0 : x0 ≠ 0) (n : ℕ) :
    ∃ r, ProximalPoint (L2.obj ext (l2Plain .nothing s) st) x0 τ n (some t) = .ok r ∧ r.log.length = n ∧ r.x = (1 / (1 + τ * s)) ^ n • x0 := by
  set κ := 1 / (1 + τ * s) with hκ
  have hκ0 : 0 < κ := by positivity
  have hP : ∀ x, (L2.obj ext (l2Plain .nothing s) st).prox x τ = .ok (κ • x) := fun x => by
    simp only [ProxOp.prox, L2.obj, L2.prox, if_neg (not_le.2 hτ), L2.proxBody, l2Plain, L2.subQ, hκ, npDivBy_ok _ (show 1 + τ * s ≠ 0 by positivity)]
  have hcall : ∀ x, (L2.obj ext (l2Plain .nothing s) st).call x = .ok (.num (s / 2 * ‖x‖ ^ 2)) := fun x => rfl
  obtain ⟨T, T0, hG, hR, hrun⟩ := forRange_traj_nobreak (ProximalPoint.body (L2.obj ext (l2Plain .nothing s) st) τ (some t))
    (fun p => p.x ≠ 0 ∧ ∀ d, p.pf = some d → d = s / 2 * ‖p.x‖ ^ 2)
    (fun _ p p' => p'.x = κ • p.x ∧ p'.log.length = p.log.length + 1) (fun i p hp => by
      have hn : 0 < ‖p.x‖ := norm_pos_iff.2 hp.1
      have hne : κ • p.x ≠ 0 := smul_ne_zero hκ0.ne' hp.1
      refine ⟨⟨κ • p.x, some (s / 2 * ‖κ • p.x‖ ^ 2), p.log ++ [κ • p.x]⟩, ?_, ⟨hne, fun d hd => by cases hd; rfl⟩, rfl, by simp⟩
      cases hpf : p.pf with
      | none =>
        have : ¬ (|1 - (0 : ℝ)| < t) := by
          rw [sub_zero, abs_one, not_lt]; nlinarith
        simp only [ProximalPoint.body, hP, hcall, hpf, pyRatio, Bind.bind, Except.bind, Pure.pure, Except.pure, CallVal.toReal, decide_eq_false this]
      | some d =>
        have hd := hp.2 d hpf
        have hd0 : d ≠ 0 := by rw [hd]; positivity
        have hr : s / 2 * ‖κ • p.x‖ ^ 2 / d = κ ^ 2 := by
          rw [hd, norm_smul, Real.norm_of_nonneg hκ0.le]; field_simp
        have : ¬ (|1 - s / 2 * ‖κ • p.x‖ ^ 2 / d| < t) := by
          rw [hr, not_lt]; exact ht.trans (le_abs_self _)
        simp only [ProximalPoint.body, hP, hcall, hpf, pyRatio, if_neg hd0, Bind.bind, Except.bind, Pure.pure, Except.pure, CallVal.toReal, decide_eq_false this])
    ⟨x0, none, []⟩ ⟨hx0, by simp⟩
  refine ⟨T n, hrun n, ?_⟩
  induction n with
  | zero => rw [T0]; exact ⟨rfl, by simp⟩
  | succ n ih => rw [(hR n).1, (hR n).2, ih.1, ih.2, smul_smul, ← pow_succ']; exact ⟨rfl, rfl⟩

end Refuted

/-! ## ProximalGradient -/

section PG
variable {f g : ProxOp E} {φ : E → ℝ} {F : XFun E} {L ε τ t k : ℝ}

/-- `ProximalGradient` with a tolerance stops once an upper bound of the gap falls below `t` times the minimum. -/
lemma pg_stops (hfc : EvaluatesNum f φ) (hf : GradExact f φ) (hg : ProxExact g F) (hgc : ∀ x ∈ F.dom, ∃ v, g.call x = .ok v ∧ v.toReal = F.val x + k)
    (hε : 0 < ε) (hτ : 0 < τ) (acc : Accel) (hacc : acc ≠ .other) (x0 c : E) (hc : (compositeObj φ ε F).IsMin c) (hm : 0 < (compositeObj φ ε F).val c + ε * k)
    {b : ℝ} (hb : b < t * ((compositeObj φ ε F).val c + ε * k)) {J : ℕ} (hJ : 0 < J)
    (hgap : ∀ n s, J ≤ n → ProximalGradient f g x0 (pgArgs τ ε acc n) = .ok s → (compositeObj φ ε F).val s.x - (compositeObj φ ε F).val c ≤ b) :
    ∃ N : ℕ, 0 < N ∧ N ≤ J + 1 ∧ StopsAt (fun n => ProximalGradient f g x0 { pgArgs τ ε acc n with tol := some t }) PGState.log N := by
  obtain ⟨G, hG, -⟩ := gradExact_map hf
  obtain ⟨P, hP, hPx⟩ := pg_maps hg hε hτ
  obtain ⟨X, Y, θ, X0, Y0, t0, hX, ht, hY, hrun⟩ := pg_traj hG hP acc hacc x0
  have hd : ∀ x, P x ∈ F.dom := fun x => (hPx x).1
  let V : E → ℝ := fun x => (compositeObj φ ε F).val x + ε * k
  have hV : ∀ x v w, f.call x = .ok v → g.call x = .ok w → w.toReal = F.val x + k → v.toReal + ε * w.toReal = V x := fun x v w hv hw h => by
    rw [hfc x] at hv; cases hv
    rw [h]
    simp only [V, compositeObj, XFun.add, XFun.ofReal, XFun.smul, CallVal.toReal]; ring
  have hmin : ∀ x ∈ F.dom, V c ≤ V x := fun x hx => add_le_add_left (hc.2 x ⟨trivial, hx⟩) _
  obtain ⟨T, B, T0, hGd, hR, hstop, -⟩ := forRange_stop (PG.body f g { pgArgs τ ε acc 0 with tol := some t } false)
    (fun s => s.tau = τ ∧ ∀ d, s.pfg = some d → d ≠ 0)
    (fun i s s' b => s'.x = P (s.y - τ • G s.y) ∧ s'.y = s'.x + (momentum acc i s.t).1 • (s'.x - s.x) ∧ s'.t = (momentum acc i s.t).2 ∧
      s'.log.length = s.log.length + 1 ∧ s'.pfg = some (V s'.x) ∧ ∀ d, s.pfg = some d → b = decide (|1 - V s'.x / d| < t))
    (fun i s hs => by
      obtain ⟨w, hw, hw'⟩ := hgc (P (s.y - τ • G s.y)) (hd _)
      have hv := hfc (P (s.y - τ • G s.y))
      have e := hV _ _ _ hv hw hw'
      refine ⟨⟨P (s.y - τ • G s.y), P (s.y - τ • G s.y) + (momentum acc i s.t).1 • (P (s.y - τ • G s.y) - s.x), (momentum acc i s.t).2, τ,
        some (V (P (s.y - τ • G s.y))), s.log ++ [P (s.y - τ • G s.y)]⟩, npRatioTest (V (P (s.y - τ • G s.y))) s.pfg t, ?_, ⟨rfl, ?_⟩, rfl, rfl, rfl, by simp, rfl, ?_⟩
      · rw [← e]
        simp [PG.body, PG.step, pgArgs, StepSpec.at, hG, hP, hs.1, hv, hw, Bind.bind, Except.bind, Pure.pure, Except.pure]
      · intro d hd'; cases hd'; exact (hm.trans_le (hmin _ (hd _))).ne'
      · intro d hd'
        rw [hd']
        simp [npRatioTest, hs.2 d hd']) ⟨x0, x0, 1, τ, none, []⟩ ⟨rfl, by simp⟩
  have hT : ∀ n, (T n).x = X n ∧ (T n).y = Y n ∧ (T n).t = θ n ∧ (T n).log.length = n := by
    intro n
    induction n with
    | zero => rw [T0, X0, Y0, t0]; exact ⟨rfl, rfl, rfl, rfl⟩
    | succ n ih =>
      obtain ⟨i1, i2, i3, i4⟩ := ih
      obtain ⟨r1, r2, r3, r4, -⟩ := hR n
      have e1 : (T (n + 1)).x = X (n + 1) := by rw [r1, i2, hX]
      refine ⟨e1, ?_, ?_, ?_⟩
      · rw [r2, e1, i1, i3, hY]
      · rw [r3, i3, ht]
      · rw [r4, i4]
  have hgap' : ∀ n, J ≤ n → V (X n) - V c ≤ b := fun n hn => by
    have := hgap n _ hn (hrun n (by omega))
    simp only [V]; linarith
  obtain ⟨j, rfl⟩ : ∃ j, J = j + 1 := ⟨J - 1, by omega⟩
  have hbr : B (j + 1) = true := by
    have hpf := (hR j).2.2.2.2.1
    rw [(hT (j + 1)).1] at hpf
    rw [(hR (j + 1)).2.2.2.2.2 _ hpf, (hT (j + 1 + 1)).1, decide_eq_true_eq]
    exact ratio_test hm (hmin _ (by rw [hX]; exact hd _)) (hmin _ (by rw [hX]; exact hd _)) (hgap' _ le_rfl) (hgap' _ (by omega)) hb
  obtain ⟨N, hN0, hN, hst⟩ := hstop _ hbr
  refine ⟨N, hN0, hN, T N, (hT N).2.2.2, fun n hn => ?_⟩
  rw [← hst n hn]
  have e1 : (pgArgs τ ε acc n).epsg.printCheck n = .ok () := by simp [pgArgs, StepSpec.printCheck, show n ≠ 0 by omega]
  have e2 : (pgArgs τ ε acc n).acceleration ≠ .other := hacc
  show ProximalGradient f g x0 { pgArgs τ ε acc n with tol := some t } = _
  rw [ProximalGradient]
  change ((pgArgs τ ε acc n).epsg.printCheck n >>= fun _ => _) = _
  rw [e1]
  simp only [Bind.bind, Except.bind, if_neg e2]
  rfl

/-- C97 for `ProximalGradient` without acceleration, partial: if the minimum `m` of the computed objective `f + epsg g` is positive (`k = 1` for an indicator,
whose call returns `True`, `k = 0` for a function), a run with `tol=t` and `tau <= 1/L` stops within `‖x0-c‖²/(2 tau t m) + 2` iterations. -/
theorem C97_proximalgradient_stops_partial (hfc : EvaluatesNum f φ) (hf : GradExact f φ) (hL : LipschitzGrad φ L) (hφ : ConvexOn ℝ Set.univ φ) (hF : F.Convex)
    (hg : ProxExact g F) (hgc : ∀ x ∈ F.dom, ∃ v, g.call x = .ok v ∧ v.toReal = F.val x + k) (hε : 0 < ε) (hτ : 0 < τ) (hτL : τ * L ≤ 1) (ht : 0 < t) (x0 c : E)
    (hc : (compositeObj φ ε F).IsMin c) {m : ℝ} (hm : m = φ c + ε * (F.val c + k)) (hm0 : 0 < m) :
    ∃ N : ℕ, 0 < N ∧ (N : ℝ) ≤ ‖x0 - c‖ ^ 2 / (2 * τ * t * m) + 2 ∧
      StopsAt (fun n => ProximalGradient f g x0 { pgArgs τ ε .none n with tol := some t }) PGState.log N := by
  have hmV : m = (compositeObj φ ε F).val c + ε * k := by
    rw [hm]; simp only [compositeObj, XFun.add, XFun.ofReal, XFun.smul]; ring
  set q := ‖x0 - c‖ ^ 2 / (2 * τ * t * m) with hq
  have hq0 : 0 ≤ q := by positivity
  have hJq : q < ((⌊q⌋₊ + 1 : ℕ) : ℝ) := by push_cast; exact Nat.lt_floor_add_one q
  have hJpos : (0 : ℝ) < ((⌊q⌋₊ + 1 : ℕ) : ℝ) := hq0.trans_lt hJq
  obtain ⟨N, hN0, hN, hst⟩ := pg_stops (t := t) (b := ‖x0 - c‖ ^ 2 / (2 * τ * ((⌊q⌋₊ + 1 : ℕ) : ℝ))) hfc hf hg hgc hε hτ .none (by decide) x0 c hc (by rw [← hmV]; exact hm0) (by
      rw [hq, div_lt_iff₀ (by positivity)] at hJq
      rw [div_lt_iff₀ (by positivity), ← hmV]
      linarith) (Nat.succ_pos ⌊q⌋₊) (fun n s hn hs => by
      refine (C41_pg_rate hf hL hφ hF hg hε hτ hτL x0 n (by omega) s hs c hc.1).trans ?_
      have : ((⌊q⌋₊ + 1 : ℕ) : ℝ) ≤ n := by exact_mod_cast hn
      gcongr)
  refine ⟨N, hN0, ?_, hst⟩
  have h1 : (N : ℝ) ≤ ((⌊q⌋₊ + 1 : ℕ) : ℝ) + 1 := by exact_mod_cast hN
  push_cast at h1
  linarith [Nat.floor_le hq0]

/-- C97 for accelerated `ProximalGradient`, partial: the same with at most `√(2 ‖x0-c‖²/(tau t m)) + 2` iterations. -/
theorem C97_accelerated_stops_partial (hfc : EvaluatesNum f φ) (hf : GradExact f φ) (hL : LipschitzGrad φ L) (hφ : ConvexOn ℝ Set.univ φ) (hF : F.Convex)
    (hg : ProxExact g F) (hgc : ∀ x ∈ F.dom, ∃ v, g.call x = .ok v ∧ v.toReal = F.val x + k) (hε : 0 < ε) (hτ : 0 < τ) (hτL : τ * L ≤ 1) (ht : 0 < t)
    (acc : Accel) (hacc : acc = .fista ∨ acc = .vandenberghe) (x0 c : E) (hc : (compositeObj φ ε F).IsMin c) {m : ℝ} (hm : m = φ c + ε * (F.val c + k)) (hm0 : 0 < m) :
    ∃ N : ℕ, 0 < N ∧ (N : ℝ) ≤ √(2 * ‖x0 - c‖ ^ 2 / (τ * t * m)) + 2 ∧
      StopsAt (fun n => ProximalGradient f g x0 { pgArgs τ ε acc n with tol := some t }) PGState.log N := by
  have hmV : m = (compositeObj φ ε F).val c + ε * k := by
    rw [hm]; simp only [compositeObj, XFun.add, XFun.ofReal, XFun.smul]; ring
  set q := √(2 * ‖x0 - c‖ ^ 2 / (τ * t * m)) with hq
  have hq0 : 0 ≤ q := Real.sqrt_nonneg _
  have hq2 : q ^ 2 = 2 * ‖x0 - c‖ ^ 2 / (τ * t * m) := Real.sq_sqrt (by positivity)
  have hJq : q < ((⌊q⌋₊ + 1 : ℕ) : ℝ) := by push_cast; exact Nat.lt_floor_add_one q
  have hJpos : (0 : ℝ) < ((⌊q⌋₊ + 1 : ℕ) : ℝ) := hq0.trans_lt hJq
  obtain ⟨N, hN0, hN, hst⟩ := pg_stops (t := t) (b := 2 * ‖x0 - c‖ ^ 2 / (τ * (((⌊q⌋₊ + 1 : ℕ) : ℝ) + 1) ^ 2)) hfc hf hg hgc hε hτ acc
    (by rcases hacc with rfl | rfl <;> decide) x0 c hc (by rw [← hmV]; exact hm0) (by
      have h1 : q ^ 2 < (((⌊q⌋₊ + 1 : ℕ) : ℝ) + 1) ^ 2 := by nlinarith
      rw [hq2, div_lt_iff₀ (by positivity)] at h1
      rw [div_lt_iff₀ (by positivity), ← hmV]
      linarith) (Nat.succ_pos ⌊q⌋₊) (fun n s hn hs => by
      refine (C42_accelerated_rate hf hL hφ hF hg hε hτ hτL acc hacc x0 n (by omega) s hs c hc).trans ?_
      have : ((⌊q⌋₊ + 1 : ℕ) : ℝ) ≤ n := by exact_mod_cast hn
      gcongr)
  refine ⟨N, hN0, ?_, hst⟩
  have h1 : (N : ℝ) ≤ ((⌊q⌋₊ + 1 : ℕ) : ℝ) + 1 := by exact_mod_cast hN
  push_cast at h1
  linarith [Nat.floor_le hq0]

end PG

section Refuted
variable {F' C : Type} [NormedAddCommGroup F'] [InnerProductSpace ℝ F']

/-- C97, counterexample: for `f = s/2 ‖x‖²`, `g = r/2 ‖x‖²`, any nonzero starting point and any `tau < 1/s`, `ProximalGradient` with any
`tol <= 1 - q²`, `q = (1 - tau s)/(1 + epsg tau r)`, runs through all `niter` iterations, whatever `niter`. -/
theorem C97_proximalgradient_never_stops_refuted (ext : L2Ext E F' C) (st st' : L2State E C) {s r ε τ t : ℝ} (hs : 0 < s) (hr : 0 < r) (hε : 0 < ε) (hτ : 0 < τ)
    (hτs : τ * s < 1) (ht : t ≤ 1 - ((1 - τ * s) / (1 + ε * τ * r)) ^ 2) {x0 : E} (hx0 : x0 ≠ 0) (n : ℕ) (hn : 0 < n) :
    ∃ R, ProximalGradient (L2.obj ext (l2Plain .nothing s) st) (L2.obj ext (l2Plain .nothing r) st') x0 { pgArgs τ ε .none n with tol := some t } = .ok R ∧
      R.log.length = n ∧ R.x = ((1 - τ * s) / (1 + ε * τ * r)) ^ n • x0 := by
  set κ := (1 - τ * s) / (1 + ε * τ * r) with hκ
  have hετ : 0 < ε * τ := mul_pos hε hτ
  have hκ0 : 0 < κ := div_pos (by linarith) (by positivity)
  set f := L2.obj ext (l2Plain .nothing s) st with hfdef
  set g := L2.obj ext (l2Plain .nothing r) st' with hgdef
  have hG : ∀ x, f.grad x = .ok (s • x) := fun x => rfl
  have hP : ∀ x, g.prox x (ε * τ) = .ok ((1 / (1 + ε * τ * r)) • x) := fun x => by
    simp only [hgdef, ProxOp.prox, L2.obj, L2.prox, if_neg (not_le.2 hετ), L2.proxBody, l2Plain, L2.subQ, npDivBy_ok _ (show 1 + ε * τ * r ≠ 0 by positivity)]
  have hstepx : ∀ x : E, (1 / (1 + ε * τ * r)) • (x - τ • s • x) = κ • x := fun x => by
    rw [hκ]; module
  have hPG : ∀ x : E, g.prox (x - τ • s • x) (ε * τ) = .ok (κ • x) := fun x => by rw [hP, hstepx]
  have hcf : ∀ x, f.call x = .ok (.num (s / 2 * ‖x‖ ^ 2)) := fun x => rfl
  have hcg : ∀ x, g.call x = .ok (.num (r / 2 * ‖x‖ ^ 2)) := fun x => rfl
  clear_value f g
  obtain ⟨T, T0, hGd, hR, hrun⟩ := forRange_traj_nobreak (PG.body f g { pgArgs τ ε .none 0 with tol := some t } false)
    (fun p => p.x ≠ 0 ∧ p.y = p.x ∧ p.tau = τ ∧ ∀ d, p.pfg = some d → d = (s / 2 + ε * (r / 2)) * ‖p.x‖ ^ 2)
    (fun _ p p' => p'.x = κ • p.x ∧ p'.log.length = p.log.length + 1) (fun i p hp => by
      obtain ⟨h1, h2, h3, h4⟩ := hp
      have hn : 0 < ‖p.x‖ := norm_pos_iff.2 h1
      have hne : κ • p.x ≠ 0 := smul_ne_zero hκ0.ne' h1
      have htest : npRatioTest (s / 2 * ‖κ • p.x‖ ^ 2 + ε * (r / 2 * ‖κ • p.x‖ ^ 2)) p.pfg t = false := by
        cases hpf : p.pfg with
        | none =>
          rw [npRatioTest, decide_eq_false_iff_not, sub_zero, abs_one, not_lt]
          nlinarith [sq_nonneg κ]
        | some d =>
          have hd := h4 d hpf
          have hc0 : 0 < s / 2 + ε * (r / 2) := by positivity
          have hd0 : d ≠ 0 := by rw [hd]; positivity
          have hr' : (s / 2 * ‖κ • p.x‖ ^ 2 + ε * (r / 2 * ‖κ • p.x‖ ^ 2)) / d = κ ^ 2 := by
            rw [div_eq_iff hd0, hd, norm_smul, Real.norm_of_nonneg hκ0.le]; ring
          simp only [npRatioTest, if_neg hd0, hr', decide_eq_false_iff_not, not_lt]
          exact ht.trans (le_abs_self _)
      refine ⟨⟨κ • p.x, κ • p.x + (momentum .none i p.t).1 • (κ • p.x - p.x), (momentum .none i p.t).2, τ,
        some (s / 2 * ‖κ • p.x‖ ^ 2 + ε * (r / 2 * ‖κ • p.x‖ ^ 2)), p.log ++ [κ • p.x]⟩, ?_, ⟨hne, ?_, rfl, fun d hd => ?_⟩, rfl, by simp⟩
      · simp [PG.body, PG.step, pgArgs, StepSpec.at, hG, hPG, h2, h3, hcf, hcg, htest, CallVal.toReal, Bind.bind, Except.bind, Pure.pure, Except.pure]
      · simp [momentum]
      · cases hd; ring) ⟨x0, x0, 1, τ, none, []⟩ ⟨hx0, rfl, rfl, by simp⟩
  have hT : ∀ n, (T n).log.length = n ∧ (T n).x = κ ^ n • x0 := by
    intro n
    induction n with
    | zero => rw [T0]; exact ⟨rfl, by simp⟩
    | succ n ih => rw [(hR n).1, (hR n).2, ih.1, ih.2, smul_smul, ← pow_succ']; exact ⟨rfl, rfl⟩
  refine ⟨T n, ?_, hT n⟩
  rw [← hrun n]
  have e1 : (pgArgs τ ε .none n).epsg.printCheck n = .ok () := by simp [pgArgs, StepSpec.printCheck, hn.ne']
  rw [ProximalGradient]
  change ((pgArgs τ ε .none n).epsg.printCheck n >>= fun _ => _) = _
  rw [e1]
  rfl

/-- The hypotheses can be met: a lasso problem with the identity, `½‖x-b‖² + ε‖x‖₁`, `b ≠ 0`, has a positive minimum. -/
example {ι : Type} [Fintype ι] (ext : L2Ext (Vec ι) (Vec ι) C) (st : L2State (Vec ι) C) (b : Vec ι) (hb : b ≠ 0) {ε : ℝ} (hε : 0 < ε) :
    ∃ (f g : ProxOp (Vec ι)) (φ : Vec ι → ℝ) (F : XFun (Vec ι)) (c : Vec ι) (m : ℝ), EvaluatesNum f φ ∧ GradExact f φ ∧ LipschitzGrad φ 1 ∧ ConvexOn ℝ Set.univ φ ∧
      F.Convex ∧ ProxExact g F ∧ (∀ x ∈ F.dom, ∃ v, g.call x = .ok v ∧ v.toReal = F.val x + 0) ∧ (compositeObj φ ε F).IsMin c ∧ m = φ c + ε * (F.val c + 0) ∧ 0 < m := by
  set a : L2Args (Vec ι) (Vec ι) := l2Plain (.opB ⟨LinearMap.id, LinearMap.id, fun _ _ => rfl⟩ false b) 1 with ha
  obtain ⟨c, -, hc⟩ := l1_proxExact (ι := ι) b ε hε
  have hval : ∀ x, l2Spec a x = 1 / 2 * ‖x - b‖ ^ 2 := fun x => by simp [ha, l2Spec, l2Plain]
  have hcm : (compositeObj (l2Spec a) ε (XFun.ofReal fun x : Vec ι => 1 * ∑ i, |x i - (0 : Vec ι) i|)).IsMin c := by
    refine ⟨⟨trivial, trivial⟩, fun y _ => ?_⟩
    have := hc.2 y trivial
    simp only [compositeObj, XFun.add, XFun.ofReal, XFun.smul, proxObj, hval] at this ⊢
    have e : ∀ A B : ℝ, 1 / 2 * B + ε * A = ε * (A + B / (2 * ε)) := fun A B => by field_simp; ring
    rw [e, e]
    exact mul_le_mul_of_nonneg_left this hε.le
  refine ⟨L2.obj ext a st, L1 1 none, l2Spec a, _, c, _, l2obj_call ext a st, l2obj_grad ext a rfl st, ?_, l2_convex a zero_le_one, l1_convex, l1_proxExact,
    fun x _ => ⟨_, rfl, ?_⟩, hcm, rfl, ?_⟩
  · have := l2_lipschitz a zero_le_one (⟨LinearMap.id, LinearMap.id, fun _ _ => rfl⟩) false b rfl (K := 1) zero_le_one (fun v => by simp)
    simpa [ha, l2Plain] using this
  · simp [CallVal.toReal, XFun.ofReal]
  · have h1 : 0 ≤ 1 / 2 * ‖c - b‖ ^ 2 := by positivity
    have h2 : 0 ≤ ∑ i, |c i - (0 : Vec ι) i| := Finset.sum_nonneg fun i _ => abs_nonneg _
    simp only [hval, XFun.ofReal, one_mul, add_zero]
    by_contra hcon
    have h3 : ∑ i, |c i - (0 : Vec ι) i| = 0 := by nlinarith
    have h4 : ‖c - b‖ ^ 2 = 0 := by rw [h3] at hcon; nlinarith
    have h5 : c = b := by rw [← sub_eq_zero, ← norm_eq_zero]; exact pow_eq_zero_iff (two_ne_zero) |>.1 h4
    apply hb
    rw [← h5]
    ext i
    have := (Finset.sum_eq_zero_iff_of_nonneg (fun i _ => abs_nonneg _)).1 h3 i (Finset.mem_univ _)
    simpa using this

/-- The hypotheses of `C97_proximalpoint_stops_partial` can be met: `f = ½‖x-b‖² + q·x` with `q·b > ‖q‖²/2`. -/
example (ext : L2Ext E F' C) (st : L2State E C) (b q : E) (h : ‖q‖ ^ 2 / 2 < ⟪q, b⟫) :
    ∃ (f : ProxOp E) (F : XFun E) (c : E), F.Convex ∧ ProxExact f F ∧ (∀ x ∈ F.dom, ∃ v, f.call x = .ok v ∧ v.toReal = F.val x) ∧ F.IsMin c ∧ 0 < F.val c := by
  set a : L2Args E F' := { l2Plain (.bOnly b) 1 with q := some q } with ha
  have hval : ∀ x, l2Spec a x = 1 / 2 * ‖x - (b - q)‖ ^ 2 + (⟪q, b⟫ - ‖q‖ ^ 2 / 2) := fun x => by
    simp only [ha, l2Spec, l2Plain]
    rw [show x - (b - q) = (x - b) + q by abel, norm_add_sq_real, inner_sub_left, real_inner_comm q x, real_inner_comm q b]
    ring
  refine ⟨L2.obj ext a st, XFun.ofReal (l2Spec a), b - q, l2_convex a zero_le_one, fun x τ hτ => ?_, fun x _ => ⟨_, l2obj_call ext a st x, rfl⟩, ⟨trivial, fun y _ => ?_⟩, ?_⟩
  · obtain ⟨p, h1, h2⟩ := C17_l2_prox_closed ext a zero_lt_one (by simp [ha, l2Plain]) st x τ hτ
    exact ⟨p, h1, h2.1⟩
  · show l2Spec a (b - q) ≤ l2Spec a y
    rw [hval, hval, sub_self, norm_zero]
    have : 0 ≤ 1 / 2 * ‖y - (b - q)‖ ^ 2 := by positivity
    linarith
  · show 0 < l2Spec a (b - q)
    rw [hval, sub_self, norm_zero]; linarith

end Refuted

/-! ## PPXA and ConsensusADMM -/

section Parallel
variable {m : ℕ} {fs : Fin m → ProxOp E} {F : Fin m → XFun E} {w : Fin m → ℝ} {τ η : ℝ}

/-- C97: `PPXA` with any `tol > 0` (positive weights summing to one, any starting points, `0 < eta < 2`) stops by itself. -/
theorem C97_ppxa_stops [ProperSpace E] [NeZero m] (hF : ∀ i, (F i).Convex) (hf : ∀ i, ProxExact (fs i) (F i)) (hw : ∀ i, 0 < w i) (hw1 : ∑ i, w i = 1)
    (hτ : 0 < τ) (hη : 0 < η) (hη2 : η < 2) (y0 : Fin m → E) (mx : E → ℝ) (hmx : ∀ v, 0 ≤ mx v) (hmx' : ∀ v, mx v ≤ ‖v‖)
    (hsol : ∃ x s, IsCertifiedSum F ((1 / τ) • startGap w y0) x s) {tol : ℝ} (htol : 0 < tol) :
    ∃ N, 0 < N ∧ StopsAt (fun n => PPXA fs (some w) y0 τ η n tol mx) PPXAState.log N := by
  classical
  have hm : m ≠ 0 := NeZero.ne m
  choose P hP _ using fun i => proxExact_map (hf i) (div_pos hτ (hw i))
  have hrun : ∀ tol' n, PPXA fs (some w) y0 τ η n tol' mx = forRange (PPXA.body fs w τ η tol' mx) n 0 ⟨(1 / (m : ℝ)) • ∑ i, y0 i, (1 / (m : ℝ)) • ∑ i, y0 i, y0, []⟩ :=
    fun tol' n => by rw [PPXA, if_neg hm]
  have hmap : ∀ s : PPXAState E m, mapPy (fun i => if w i = 0 then (.error .nanResult : Py E) else (fs i).prox (s.y i) (τ / w i)) = .ok fun i => P i (s.y i) :=
    fun s => mapPy_ok fun i => by rw [if_neg (hw i).ne', hP]
  obtain ⟨T, B, T0, -, hR, hstop, hnever⟩ := forRange_stop (PPXA.body fs w τ η tol mx) (fun _ => True)
    (fun i s s' b => PPXA.body fs w τ η tol mx i s = .ok (s', b) ∧ s'.log.length = s.log.length + 1 ∧ (b = false → PPXA.body fs w τ η 0 mx i s = .ok (s', false) ∧ s'.xold = s'.x ∧
      tol ≤ mx (s'.x - s.xold)))
    (fun i s _ => by
      unfold PPXA.body
      rw [hmap]
      simp only [Bind.bind, Except.bind, Pure.pure, Except.pure]
      by_cases h : mx (s.x + η • (∑ j, w j • P j (s.y j) - s.x) - s.xold) < tol
      · simp only [if_pos h]; exact ⟨_, _, rfl, trivial, rfl, by simp, by simp⟩
      · simp only [if_neg h, if_neg (not_lt.2 (hmx _))]; exact ⟨_, _, rfl, trivial, rfl, by simp, fun _ => ⟨rfl, rfl, not_lt.1 h⟩⟩)
    ⟨(1 / (m : ℝ)) • ∑ i, y0 i, (1 / (m : ℝ)) • ∑ i, y0 i, y0, []⟩ trivial
  have hlen : ∀ n, (T n).log.length = n := by
    intro n
    induction n with
    | zero => rw [T0]; rfl
    | succ n ih => rw [(hR n).2.1, ih]
  by_cases hB : ∃ J, B J = true
  · obtain ⟨J, hJ⟩ := hB
    obtain ⟨N, hN0, -, hst⟩ := hstop J hJ
    exact ⟨N, hN0, T N, hlen N, fun n hn => by show PPXA fs (some w) y0 τ η n tol mx = _; rw [hrun]; exact hst n hn⟩
  · exfalso
    have hB' : ∀ J, B J = false := fun J => by by_contra h; exact hB ⟨J, by simpa using h⟩
    have hstep : ∀ n, PPXA.body fs w τ η 0 mx n (T n) = .ok (T (n + 1), false) ∧ (T (n + 1)).xold = (T (n + 1)).x ∧ tol ≤ mx ((T (n + 1)).x - (T n).xold) := fun n => (hR n).2.2 (hB' n)
    have hgen : ∀ n i, forRange (PPXA.body fs w τ η 0 mx) n i (T i) = .ok (T (i + n)) := by
      intro n
      induction n with
      | zero => intro i; rfl
      | succ n ih =>
        intro i
        simp only [forRange, (hstep i).1]
        rw [if_neg (by simp), ih (i + 1), show i + 1 + n = i + (n + 1) by omega]
    obtain ⟨x, -, hlim⟩ := C48_ppxa_converges_tilted hF hf hw hw1 hτ hη hη2 y0 mx hmx hsol T fun n => by
      rw [hrun, ← T0, hgen n 0, Nat.zero_add]
    have h1 : Tendsto (fun n => ‖(T (n + 1 + 1)).x - (T (n + 1)).x‖) atTop (𝓝 0) := by
      have := ((hlim.comp (tendsto_add_atTop_nat 2)).sub (hlim.comp (tendsto_add_atTop_nat 1))).norm
      simpa using this
    have h2 := ge_of_tendsto h1 (Eventually.of_forall fun n => ((hstep (n + 1)).2.2.trans (hmx' _)).trans_eq (by rw [(hstep n).2.1]))
    linarith

/-- C97: `ConsensusADMM` with any `tol > 0` stops by itself. -/
theorem C97_cons_stops [ProperSpace E] [NeZero m] (hF : ∀ i, (F i).Convex) (hf : ∀ i, ProxExact (fs i) (F i)) (hτ : 0 < τ) (x0 : E) (mx : E → ℝ)
    (hmx : ∀ v, 0 ≤ mx v) (hmx' : ∀ v, mx v ≤ ‖v‖) (hsol : ∃ x s, IsCertifiedSum F 0 x s) {tol : ℝ} (htol : 0 < tol) :
    ∃ N, 0 < N ∧ StopsAt (fun n => ConsensusADMM fs x0 τ n tol mx) ConsState.log N := by
  classical
  have hm : m ≠ 0 := NeZero.ne m
  choose P hP _ using fun i => proxExact_map (hf i) hτ
  have hmap : ∀ s : ConsState E m, mapPy (fun i => (fs i).prox (s.xbar - s.y i) τ) = .ok fun i => P i (s.xbar - s.y i) := fun s => mapPy_ok fun i => hP i _
  obtain ⟨T, B, T0, -, hR, hstop, hnever⟩ := forRange_stop (ConsensusADMM.body fs τ tol mx) (fun _ => True)
    (fun i s s' b => ConsensusADMM.body fs τ tol mx i s = .ok (s', b) ∧ s'.log.length = s.log.length + 1 ∧ (b = false → ConsensusADMM.body fs τ 0 mx i s = .ok (s', false) ∧
      s'.xold = s'.xbar ∧ tol ≤ mx (s'.xbar - s.xold)))
    (fun i s _ => by
      unfold ConsensusADMM.body
      rw [hmap]
      simp only [Bind.bind, Except.bind, Pure.pure, Except.pure, if_neg hm]
      by_cases h : mx ((1 / (m : ℝ)) • ∑ i, P i (s.xbar - s.y i) - s.xold) < tol
      · simp only [if_pos h]; exact ⟨_, _, rfl, trivial, rfl, by simp, by simp⟩
      · simp only [if_neg h, if_neg (not_lt.2 (hmx _))]; exact ⟨_, _, rfl, trivial, rfl, by simp, fun _ => ⟨rfl, rfl, not_lt.1 h⟩⟩)
    ⟨x0, x0, fun _ => x0, fun _ => 0, []⟩ trivial
  have hlen : ∀ n, (T n).log.length = n := by
    intro n
    induction n with
    | zero => rw [T0]; rfl
    | succ n ih => rw [(hR n).2.1, ih]
  by_cases hB : ∃ J, B J = true
  · obtain ⟨J, hJ⟩ := hB
    obtain ⟨N, hN0, -, hst⟩ := hstop J hJ
    exact ⟨N, hN0, T N, hlen N, hst⟩
  · exfalso
    have hB' : ∀ J, B J = false := fun J => by by_contra h; exact hB ⟨J, by simpa using h⟩
    have hstep : ∀ n, ConsensusADMM.body fs τ 0 mx n (T n) = .ok (T (n + 1), false) ∧ (T (n + 1)).xold = (T (n + 1)).xbar ∧ tol ≤ mx ((T (n + 1)).xbar - (T n).xold) :=
      fun n => (hR n).2.2 (hB' n)
    have hgen : ∀ n i, forRange (ConsensusADMM.body fs τ 0 mx) n i (T i) = .ok (T (i + n)) := by
      intro n
      induction n with
      | zero => intro i; rfl
      | succ n ih =>
        intro i
        simp only [forRange, (hstep i).1]
        rw [if_neg (by simp), ih (i + 1), show i + 1 + n = i + (n + 1) by omega]
    obtain ⟨x, -, hlim⟩ := C49_cons_converges hF hf hτ x0 mx hmx hsol T fun n => by
      rw [ConsensusADMM, ← T0, hgen n 0, Nat.zero_add]
    have h1 : Tendsto (fun n => ‖(T (n + 1 + 1)).xbar - (T (n + 1)).xbar‖) atTop (𝓝 0) := by
      have := ((hlim.comp (tendsto_add_atTop_nat 2)).sub (hlim.comp (tendsto_add_atTop_nat 1))).norm
      simpa using this
    have h2 := ge_of_tendsto h1 (Eventually.of_forall fun n => ((hstep (n + 1)).2.2.trans (hmx' _)).trans_eq (by rw [(hstep n).2.1]))
    linarith

end Parallel

end Verif
