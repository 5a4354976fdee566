import Verif.Props.ProxGrad
import Verif.Props.L2

/-! # C64: TwIST; C59: the histories of AndersonProximalGradient -/

open scoped RealInnerProductSpace
open Filter Topology

set_option linter.unusedSectionVars false

namespace Verif

variable {E D : Type} [NormedAddCommGroup E] [InnerProductSpace ℝ E] [NormedAddCommGroup D] [InnerProductSpace ℝ D]

/-- The objective `½‖A x - b‖² + g(x)` of TwIST. -/
noncomputable def lsqObj (A : E →ₗ[ℝ] D) (b : D) (F : XFun E) : XFun E := (XFun.ofReal fun x => ‖A x - b‖ ^ 2 / 2).add F

section
variable {g : ProxOp E} {F : XFun E} {A : LinOp E D} {b : D} {x0 : E} {α β : ℝ} {rc : Bool}

lemma twistGrad_eq (x : E) : twistGrad A b x = .ok (A.rmatvec (A.matvec x - b)) := by
  simp [twistGrad, L2.grad]

lemma lsq_isGrad (x : E) : ∀ [FiniteDimensional ℝ E], IsGrad (fun x => ‖A.matvec x - b‖ ^ 2 / 2) x (A.rmatvec (A.matvec x - b)) := by
  intro _
  obtain ⟨K, hK, h⟩ := linop_bound A.matvec
  refine isGrad_of_quad (C := K ^ 2 / 2) fun y => ?_
  have e : ‖A.matvec y - b‖ ^ 2 / 2 - ‖A.matvec x - b‖ ^ 2 / 2 - ⟪A.rmatvec (A.matvec x - b), y - x⟫ = ‖A.matvec (y - x)‖ ^ 2 / 2 := by
    have h1 : A.matvec y - b = (A.matvec x - b) + A.matvec (y - x) := by rw [map_sub]; abel
    rw [real_inner_comm, ← A.dot, h1, norm_add_sq_real, real_inner_comm]; ring
  rw [e, abs_of_nonneg (by positivity)]
  have := pow_le_pow_left₀ (norm_nonneg _) (h (y - x)) 2
  rw [mul_pow] at this
  linarith

lemma lsq_convex : ConvexOn ℝ Set.univ (fun x => ‖A.matvec x - b‖ ^ 2 / 2) := by
  refine ⟨convex_univ, fun x _ y _ s t hs ht hst => ?_⟩
  have e : A.matvec (s • x + t • y) - b = s • (A.matvec x - b) + t • (A.matvec y - b) := by
    rw [map_add, map_smul, map_smul, smul_sub, smul_sub]
    have : b = s • b + t • b := by rw [← add_smul, hst, one_smul]
    nth_rw 1 [this]; abel
  simp only [e, smul_eq_mul]
  have h1 : ‖s • (A.matvec x - b) + t • (A.matvec y - b)‖ ≤ s * ‖A.matvec x - b‖ + t * ‖A.matvec y - b‖ := by
    refine (norm_add_le _ _).trans (le_of_eq ?_)
    rw [norm_smul, norm_smul, Real.norm_of_nonneg hs, Real.norm_of_nonneg ht]
  have h2 := pow_le_pow_left₀ (norm_nonneg _) h1 2
  nlinarith [mul_nonneg hs ht, sq_nonneg (‖A.matvec x - b‖ - ‖A.matvec y - b‖)]

lemma twist_nobreak : ∀ i (s s' : TwistState E) b', TwIST.body g A b α β rc i s = .ok (s', b') → b' = false := by
  intro i s s' b' h
  simp only [TwIST.body, twistGrad_eq, Bind.bind, Except.bind] at h
  split at h
  · cases h
  · split_ifs at h
    · split at h
      · cases h
      · cases h; rfl
    · cases h; rfl

lemma twist_body_inv {i : ℕ} {s s' : TwistState E} (h : TwIST.body g A b α β rc i s = .ok (s', false)) :
    ∃ p, g.prox (s.x - A.rmatvec (A.matvec s.x - b)) 1 = .ok p ∧ s'.x = (1 - α) • s.xold + (α - β) • s.x + β • p ∧ s'.xold = s.x ∧ s'.log = s.log ++ [s'.x] := by
  simp only [TwIST.body, twistGrad_eq, Bind.bind, Except.bind] at h
  split at h
  · cases h
  · rename_i p hp
    refine ⟨p, hp, ?_⟩
    split_ifs at h
    · split at h
      · cases h
      · cases h; exact ⟨rfl, rfl, rfl⟩
    · cases h; exact ⟨rfl, rfl, rfl⟩

/-- Consecutive runs of TwIST. -/
lemma twist_succ {eigs : ℝ × ℝ} {n : ℕ} {s s' : TwistState E} (h : TwIST g A b x0 (some (α, β)) eigs n rc = .ok s)
    (h' : TwIST g A b x0 (some (α, β)) eigs (n + 1) rc = .ok s') :
    ∃ p, g.prox (s.x - A.rmatvec (A.matvec s.x - b)) 1 = .ok p ∧ s'.x = (1 - α) • s.xold + (α - β) • s.x + β • p ∧ s'.xold = s.x := by
  simp only [TwIST, twistGrad_eq, Bind.bind, Except.bind, Pure.pure, Except.pure] at h h'
  split at h
  · cases h
  · rename_i p hp
    rw [hp] at h'
    simp only at h'
    obtain ⟨q, h1, h2⟩ := forRange_succ twist_nobreak n 0 _ s' h'
    have := h1.symm.trans h
    cases this
    obtain ⟨p, e1, e2, e3, -⟩ := twist_body_inv h2
    exact ⟨p, e1, e2, e3⟩

/-- C64: when an iteration of TwIST leaves the iterate where the two previous ones were, that point minimises `½‖A x - b‖² + g(x)`; conversely TwIST does not leave a minimiser. -/
theorem C64_stationary [FiniteDimensional ℝ E] (hg : ProxExact g F) (hF : F.Convex) (hβ : β ≠ 0) (eigs : ℝ × ℝ) (n : ℕ) (s s' : TwistState E)
    (h : TwIST g A b x0 (some (α, β)) eigs n rc = .ok s) (h' : TwIST g A b x0 (some (α, β)) eigs (n + 1) rc = .ok s') (hold : s.xold = s.x) :
    s'.x = s.x ↔ (lsqObj A.matvec b F).IsMin s.x := by
  obtain ⟨p, h1, h2, -⟩ := twist_succ h h'
  obtain ⟨P, hP, hP'⟩ := proxExact_map hg one_pos
  rw [hP] at h1
  cases h1
  have key := pg_fixed_iff (φ := fun x => ‖A.matvec x - b‖ ^ 2 / 2) (F := F) lsq_convex hF one_pos (fun x => lsq_isGrad (A := A) (b := b) x) hP' s.x
  rw [one_smul] at key
  rw [lsqObj, ← key, h2, hold]
  have e : (1 - α) • s.x + (α - β) • s.x + β • P (s.x - A.rmatvec (A.matvec s.x - b)) = s.x + β • (P (s.x - A.rmatvec (A.matvec s.x - b)) - s.x) := by
    rw [smul_sub, ← add_smul, show (1 - α + (α - β)) = 1 - β by ring, sub_smul, one_smul]; abel
  rw [e, add_eq_left, smul_eq_zero, sub_eq_zero]
  exact ⟨fun h => h.resolve_left hβ, Or.inr⟩

/-- C64: if the iterates of TwIST converge, for whatever `alpha` and `beta ≠ 0`, the limit minimises `½‖A x - b‖² + g(x)`. -/
theorem C64_limit [FiniteDimensional ℝ E] (hg : ProxExact g F) (hF : F.Convex) (hβ : β ≠ 0) (eigs : ℝ × ℝ) (s : ℕ → TwistState E)
    (h : ∀ n, TwIST g A b x0 (some (α, β)) eigs n rc = .ok (s n)) {c : E} (hc : Tendsto (fun n => (s n).x) atTop (𝓝 c)) : (lsqObj A.matvec b F).IsMin c := by
  obtain ⟨P, hP, hP'⟩ := proxExact_map hg one_pos
  have hPc : Continuous P := proxMap_continuous hF one_pos hP'
  have hA : Continuous A.matvec := LinearMap.continuous_of_finiteDimensional _
  obtain ⟨K, hK, hK'⟩ := linop_bound A.matvec
  have hG : Continuous fun x => A.rmatvec (A.matvec x - b) := by
    have e : (fun x => A.rmatvec (A.matvec x - b)) = fun x => (A.rmatvec ∘ₗ A.matvec) x - A.rmatvec b := by funext x; simp
    rw [e]
    exact (LinearMap.continuous_of_finiteDimensional (A.rmatvec ∘ₗ A.matvec)).sub continuous_const
  have hT : Continuous fun x => P (x - A.rmatvec (A.matvec x - b)) := hPc.comp (continuous_id.sub hG)
  have e1 : ∀ n, (s (n + 2)).x = (1 - α) • (s n).x + (α - β) • (s (n + 1)).x + β • P ((s (n + 1)).x - A.rmatvec (A.matvec (s (n + 1)).x - b)) := by
    intro n
    obtain ⟨p, h1, h2, h3⟩ := twist_succ (h (n + 1)) (h (n + 2))
    obtain ⟨p', h1', h2', h3'⟩ := twist_succ (h n) (h (n + 1))
    rw [hP] at h1
    cases h1
    rw [h2, h3']
  have l0 := hc.comp (tendsto_add_atTop_nat 2)
  have l1 : Tendsto (fun n => (1 - α) • (s n).x + (α - β) • (s (n + 1)).x + β • P ((s (n + 1)).x - A.rmatvec (A.matvec (s (n + 1)).x - b))) atTop
      (𝓝 ((1 - α) • c + (α - β) • c + β • P (c - A.rmatvec (A.matvec c - b)))) :=
    ((hc.const_smul _).add ((hc.comp (tendsto_add_atTop_nat 1)).const_smul _)).add ((((hT.tendsto c).comp (hc.comp (tendsto_add_atTop_nat 1)))).const_smul _)
  have hfix := tendsto_nhds_unique (l0.congr e1) l1
  have key := pg_fixed_iff (φ := fun x => ‖A.matvec x - b‖ ^ 2 / 2) (F := F) lsq_convex hF one_pos (fun x => lsq_isGrad (A := A) (b := b) x) hP' c
  rw [one_smul] at key
  rw [lsqObj, ← key]
  have e : (1 - α) • c + (α - β) • c + β • P (c - A.rmatvec (A.matvec c - b)) = c + β • (P (c - A.rmatvec (A.matvec c - b)) - c) := by
    rw [smul_sub, ← add_smul, show (1 - α + (α - β)) = 1 - β by ring, sub_smul, one_smul]; abel
  rw [e, eq_comm, add_eq_left, smul_eq_zero, sub_eq_zero] at hfix
  exact hfix.resolve_left hβ

/-- C64: the parameters derived from the extreme eigenvalues `emax > 0`, `0 ≤ emin` satisfy the premise `beta ≠ 0` (and `1 ≤ alpha ≤ 2`). -/
theorem C64_default_parameters (emax emin : ℝ) (h1 : 0 < emax) (h2 : 0 ≤ emin) :
    ∃ α β, twistParams emax emin = .ok (α, β) ∧ β ≠ 0 ∧ 1 ≤ α ∧ ∀ x0 : E, ∀ n, TwIST g A b x0 none (emax, emin) n rc = TwIST g A b x0 (some (α, β)) (emax, emin) n rc := by
  have hk : ¬ emin / emax < 0 := not_lt.2 (by positivity)
  have hs : ¬ emax + emin = 0 := by positivity
  have e : twistParams emax emin = .ok (1 + ((1 - √(emin / emax)) / (1 + √(emin / emax))) ^ 2, 2 * (1 + ((1 - √(emin / emax)) / (1 + √(emin / emax))) ^ 2) / (emax + emin)) := by
    simp only [twistParams, if_neg h1.ne', if_neg hk, if_neg hs]
  refine ⟨_, _, e, ?_, ?_, fun x0 n => ?_⟩
  · positivity
  · nlinarith [sq_nonneg ((1 - √(emin / emax)) / (1 + √(emin / emax)))]
  · simp only [TwIST, e]
    rfl

/-- C64: with `alpha = beta = 1` TwIST is proximal gradient with unit step: `n` iterations of TwIST return what `n+1` iterations of `ProximalGradient` return. -/
theorem C64_ist (f : ProxOp E) (hgr : ∀ x, f.grad x = .ok (A.rmatvec (A.matvec x - b))) (hg : ProxExact g F) (x0 : E) (eigs : ℝ × ℝ) (n : ℕ) :
    ∃ s r, TwIST g A b x0 (some (1, 1)) eigs n false = .ok s ∧ ProximalGradient f g x0 (pgArgs 1 1 .none (n + 1)) = .ok r ∧ s.x = r.x := by
  obtain ⟨P, hP, hP'⟩ := proxExact_map hg one_pos
  obtain ⟨X, Y, t, hX0, hY0, -, hX, -, hY, hrun⟩ := pg_traj (τ := 1) (ε := 1) hgr (P := P) (fun x => by rw [one_mul]; exact hP x) .none (by decide) x0
  have hYX : ∀ n, Y n = X n := by
    intro n
    cases n with
    | zero => rw [hX0, hY0]
    | succ n => rw [hY n]; simp [momentum]
  obtain ⟨S, h0, -, h2, h3⟩ := forRange_traj_nobreak (TwIST.body g A b 1 1 false) (fun _ => True)
    (fun _ s s' => s'.x = P (s.x - A.rmatvec (A.matvec s.x - b)))
    (fun i s _ => by
      refine ⟨⟨(1 - 1 : ℝ) • s.xold + (1 - 1 : ℝ) • s.x + (1 : ℝ) • P (s.x - A.rmatvec (A.matvec s.x - b)), s.x, s.log ++ [(1 - 1 : ℝ) • s.xold + (1 - 1 : ℝ) • s.x + (1 : ℝ) • P (s.x - A.rmatvec (A.matvec s.x - b))], s.cost⟩, ?_, trivial, ?_⟩
      · simp [TwIST.body, twistGrad_eq, hP, Bind.bind, Except.bind, Pure.pure, Except.pure]
      · simp) ⟨P (x0 - A.rmatvec (A.matvec x0 - b)), x0, [], []⟩ trivial
  have hS : ∀ n, (S n).x = X (n + 1) := by
    intro n
    induction n with
    | zero => rw [h0, hX 0, hY0, one_smul]
    | succ n ih => rw [h2 n, ih, hX (n + 1), hYX (n + 1), one_smul]
  refine ⟨S n, _, ?_, hrun (n + 1) (Nat.succ_pos n), hS n⟩
  simp only [TwIST, twistGrad_eq, hP, Bind.bind, Except.bind, Pure.pure, Except.pure]
  exact h3 n

end

/-! ## C59 -/

section anderson
variable {f g : ProxOp E} {solve : List E → Py (List ℝ)} {τ : ℝ} {epsg : StepSpec} {nh : ℕ} {sg : Bool} {x0 : E}

lemma anderson_nobreak : ∀ i (s s' : AndersonState E) b', Anderson.body f g solve τ epsg nh sg none i s = .ok (s', b') → b' = false := by
  intro i s s' b' h
  simp only [Anderson.body, Bind.bind, Except.bind, Pure.pure, Except.pure] at h
  repeat' split at h
  all_goals first | (cases h; done) | (cases h; rfl)

/-- What one iteration does to the histories, with or without tolerance and safeguard. -/
lemma anderson_hist {tol : Option ℝ} {i : ℕ} {s s' : AndersonState E} {b' : Bool} (h : Anderson.body f g solve τ epsg nh sg tol i s = .ok (s', b')) :
    ∃ gx, f.grad s.x = .ok gx ∧ s'.R = histPush nh i (s.x - τ • gx - s.y) s.R ∧ s'.G = histPush nh i (s.x - τ • gx) s.G := by
  simp only [Anderson.body, Bind.bind, Except.bind, Pure.pure, Except.pure] at h
  split at h
  · cases h
  · rename_i gx hgx
    refine ⟨gx, hgx, ?_⟩
    repeat' split at h
    all_goals first | (cases h; done) | (cases h; exact ⟨rfl, rfl⟩)

lemma histPush_take {α : Type} {nh i : ℕ} (hnh : 1 ≤ nh) (a : α) (l : List α) (hl : l.length = i + 1) : histPush nh i a (l.take nh) = (a :: l).take nh := by
  obtain ⟨m, rfl⟩ : ∃ m, nh = m + 1 := ⟨nh - 1, by omega⟩
  unfold histPush
  split_ifs with h
  · have h' : m ≤ i := by push_cast at h; omega
    rw [List.dropLast_eq_take, List.length_cons, List.length_take, hl, Nat.add_sub_cancel, min_eq_left (by omega), List.take_succ_cons, List.take_succ_cons, List.take_take]
    rw [min_eq_left (by omega)]
  · have h' : i < m := by push_cast at h; omega
    rw [List.take_of_length_le (by omega), List.take_of_length_le (by rw [List.length_cons]; omega)]

/-- The run without tolerance, one iteration at a time. -/
lemma anderson_succ {e0 : ℝ} (he : epsg.at 0 = .ok e0) {s0 : AndersonState E} (h0 : Anderson.init f g x0 τ e0 = .ok s0) {n : ℕ} {s' : AndersonState E}
    (h' : AndersonProximalGradient f g solve x0 τ epsg (n + 1) nh sg none = .ok s') :
    ∃ s, (n = 0 → s = s0) ∧ (0 < n → AndersonProximalGradient f g solve x0 τ epsg n nh sg none = .ok s) ∧ Anderson.body f g solve τ epsg nh sg none n s = .ok (s', false) := by
  have hpc : ∀ m, 0 < m → epsg.printCheck m = .ok () := by
    intro m hm
    unfold StepSpec.printCheck
    split <;> simp [hm.ne']
  rw [AndersonProximalGradient, hpc (n + 1) (Nat.succ_pos n), he] at h'
  simp only [Bind.bind, Except.bind, h0] at h'
  obtain ⟨q, h1, h2⟩ := forRange_succ anderson_nobreak n 0 _ s' h'
  rw [zero_add] at h2
  refine ⟨q, ?_, ?_, h2⟩
  · rintro rfl
    simp only [forRange] at h1
    cases h1; rfl
  · intro hn
    rw [AndersonProximalGradient, hpc n hn, he]
    simp only [Bind.bind, Except.bind, h0]
    exact h1

/-- C59, exact contents of the two histories after `n` iterations (no tolerance): the most recent `nhistory` entries of the residuals (fixed-point values) of the iterations performed,
followed by one entry from the start, which is a fixed-point value in the list of residuals and a residual in the list of fixed-point values. -/
theorem C59_history (hnh : 1 ≤ nh) {e0 : ℝ} (he : epsg.at 0 = .ok e0) {Gr : E → E} (hG : ∀ x, f.grad x = .ok (Gr x)) (S : ℕ → AndersonState E)
    (h0 : Anderson.init f g x0 τ e0 = .ok (S 0)) (n : ℕ) (h : ∀ k, 0 < k → k ≤ n → AndersonProximalGradient f g solve x0 τ epsg k nh sg none = .ok (S k)) :
    (S n).R = (((List.range n).reverse.map fun k => (S k).x - τ • Gr (S k).x - (S k).y) ++ [x0 - τ • Gr x0]).take nh ∧
    (S n).G = (((List.range n).reverse.map fun k => (S k).x - τ • Gr (S k).x) ++ [x0 - τ • Gr x0 - x0]).take nh := by
  induction n with
  | zero =>
    simp only [Anderson.init, hG, Bind.bind, Except.bind, Pure.pure, Except.pure] at h0
    split at h0
    · cases h0
    · split at h0
      · cases h0
      · simp only [Except.ok.injEq] at h0
        rw [← h0]
        obtain ⟨m, rfl⟩ : ∃ m, nh = m + 1 := ⟨nh - 1, by omega⟩
        simp
  | succ n ih =>
    obtain ⟨i1, i2⟩ := ih fun k hk hkn => h k hk (by omega)
    obtain ⟨s, e1, e2, e3⟩ := anderson_succ he h0 (h (n + 1) (Nat.succ_pos n) le_rfl)
    have hs : s = S n := by
      rcases Nat.eq_zero_or_pos n with rfl | hn
      · exact e1 rfl
      · have := (e2 hn).symm.trans (h n hn (by omega))
        cases this; rfl
    subst hs
    obtain ⟨gx, k1, k2, k3⟩ := anderson_hist e3
    rw [hG] at k1
    cases k1
    rw [k2, k3, i1, i2, List.range_succ, List.reverse_append]
    constructor
    · exact histPush_take hnh _ _ (by simp)
    · exact histPush_take hnh _ _ (by simp)

/-- C59: whatever the tolerance and the safeguard, the two histories always have the same length, at most `nhistory` (and at least one). -/
theorem C59_lengths (hnh : 1 ≤ nh) (tol : Option ℝ) (n : ℕ) (s : AndersonState E) (h : AndersonProximalGradient f g solve x0 τ epsg n nh sg tol = .ok s) :
    s.R.length = s.G.length ∧ s.R.length ≤ nh ∧ 1 ≤ s.R.length := by
  simp only [AndersonProximalGradient, Bind.bind, Except.bind] at h
  split at h
  · cases h
  split at h
  · cases h
  split at h
  · cases h
  rename_i s0 hs0
  have hinit : s0.R.length = 1 ∧ s0.G.length = 1 := by
    simp only [Anderson.init, Bind.bind, Except.bind, Pure.pure, Except.pure] at hs0
    repeat' split at hs0
    all_goals first | (cases hs0; done) | (cases hs0; exact ⟨rfl, rfl⟩)
  -- the length after the iteration with index `i` is `min (i + 2) nh`, also when the loop is left there
  have key : ∀ n i (s s' : AndersonState E), s.R.length = min (i + 1) nh → s.G.length = min (i + 1) nh →
      forRange (Anderson.body f g solve τ epsg nh sg tol) n i s = .ok s' → s'.R.length = s'.G.length ∧ s'.R.length ≤ nh ∧ 1 ≤ s'.R.length := by
    intro n
    induction n with
    | zero =>
      intro i s s' h1 h2 h3
      simp only [forRange] at h3
      cases h3
      rw [h1, h2]; omega
    | succ n ih =>
      intro i s s' h1 h2 h3
      rw [forRange] at h3
      cases hb : Anderson.body f g solve τ epsg nh sg tol i s with
      | error e => rw [hb] at h3; cases h3
      | ok q =>
        obtain ⟨t, b⟩ := q
        rw [hb] at h3
        obtain ⟨gx, -, k2, k3⟩ := anderson_hist hb
        have hlen : ∀ (a : E) (l : List E), l.length = min (i + 1) nh → (histPush nh i a l).length = min (i + 1 + 1) nh := by
          intro a l hl
          unfold histPush
          split_ifs with hc
          · rw [List.length_dropLast, List.length_cons, hl]; omega
          · rw [List.length_cons, hl]; omega
        have l1 : t.R.length = min (i + 1 + 1) nh := by rw [k2]; exact hlen _ _ h1
        have l2 : t.G.length = min (i + 1 + 1) nh := by rw [k3]; exact hlen _ _ h2
        cases b with
        | true =>
          simp only [if_true] at h3
          cases h3
          rw [l1, l2]; omega
        | false => exact ih (i + 1) t s' l1 l2 h3
  exact key n 0 s0 s (by rw [hinit.1]; omega) (by rw [hinit.2]; omega) h

/-- C59 from iteration `nhistory` on: the histories hold exactly the residuals and the fixed-point values of the last `nhistory` iterations, pairwise aligned.  Missing: the iterations before
(refuted below). -/
theorem C59_aligned_partial (hnh : 1 ≤ nh) {e0 : ℝ} (he : epsg.at 0 = .ok e0) {Gr : E → E} (hG : ∀ x, f.grad x = .ok (Gr x)) (S : ℕ → AndersonState E)
    (h0 : Anderson.init f g x0 τ e0 = .ok (S 0)) (n : ℕ) (h : ∀ k, 0 < k → k ≤ n → AndersonProximalGradient f g solve x0 τ epsg k nh sg none = .ok (S k)) (hn : nh ≤ n) :
    (S n).R = ((List.range n).reverse.take nh).map (fun k => (S k).x - τ • Gr (S k).x - (S k).y) ∧
    (S n).G = ((List.range n).reverse.take nh).map (fun k => (S k).x - τ • Gr (S k).x) := by
  obtain ⟨h1, h2⟩ := C59_history hnh he hG S h0 n h
  rw [h1, h2, List.take_append_of_le_length (by simpa using hn), List.take_append_of_le_length (by simpa using hn), List.map_take, List.map_take]
  exact ⟨rfl, rfl⟩

/-- In the first `nhistory - 1` iterations the histories contain the starting entries the wrong way round: the list of residuals ends with the fixed-point value `x0 - tau ∇f(x0)` and the
list of fixed-point values with the residual `(x0 - tau ∇f(x0)) - x0`; for `x0 ≠ 0` these differ. -/
theorem C59_start_refuted {e0 : ℝ} (he : epsg.at 0 = .ok e0) {Gr : E → E} (hG : ∀ x, f.grad x = .ok (Gr x)) (S : ℕ → AndersonState E)
    (h0 : Anderson.init f g x0 τ e0 = .ok (S 0)) (n : ℕ) (h : ∀ k, 0 < k → k ≤ n → AndersonProximalGradient f g solve x0 τ epsg k nh sg none = .ok (S k)) (hn : n < nh) (hx0 : x0 ≠ 0) :
    (S n).R.getLast? = some (x0 - τ • Gr x0) ∧ (S n).G.getLast? = some (x0 - τ • Gr x0 - x0) ∧ x0 - τ • Gr x0 ≠ x0 - τ • Gr x0 - x0 := by
  obtain ⟨h1, h2⟩ := C59_history (by omega) he hG S h0 n h
  rw [h1, h2, List.take_of_length_le (by simp; omega), List.take_of_length_le (by simp; omega)]
  refine ⟨by simp, by simp, fun e => hx0 ?_⟩
  rw [eq_comm, sub_eq_self] at e
  exact e

end anderson

/-- The premises are met: zero functions, `nhistory = 2`. -/
example : ∃ (f g : ProxOp ℝ) (S : AndersonState ℝ), (∀ x, f.grad x = .ok 0) ∧ Anderson.init f g 1 1 1 = .ok S ∧ (StepSpec.scalar 1).at 0 = .ok 1 ∧
    ∃ s, AndersonProximalGradient f g (fun _ => .ok [1]) 1 1 (.scalar 1) 1 2 false none = .ok s := by
  let z : ProxOp ℝ := ⟨fun _ => .ok (.num 0), some fun x _ => .ok x, none, some fun _ => .ok 0, true, 1⟩
  refine ⟨z, z, ⟨1, 1, [1], [0], 0, none, []⟩, fun _ => rfl, ?_, rfl, ?_⟩
  · simp [Anderson.init, z, ProxOp.grad, ProxOp.prox, Bind.bind, Except.bind, Pure.pure, Except.pure, CallVal.toReal]
  · simp [AndersonProximalGradient, StepSpec.printCheck, StepSpec.at, Anderson.init, forRange, Anderson.body, z, ProxOp.grad, ProxOp.prox, Bind.bind, Except.bind, Pure.pure, Except.pure]

/-- The premises of the TwIST theorems are met: zero `g`, the identity operator. -/
example : ∃ (g : ProxOp ℝ) (s : TwistState ℝ), ProxExact g (XFun.ofReal fun _ => 0) ∧ (XFun.ofReal fun _ : ℝ => (0 : ℝ)).Convex ∧
    TwIST g ⟨LinearMap.id, LinearMap.id, fun _ _ => rfl⟩ (1 : ℝ) 1 (some (1, 1)) (1, 1) 3 false = .ok s ∧ s.xold = s.x := by
  refine ⟨⟨fun _ => .ok (.num 0), some fun x _ => .ok x, none, none, false, 1⟩, ⟨1, 1, [1, 1, 1], []⟩, fun x τ hτ => ⟨x, rfl, trivial, fun y _ => ?_⟩, convexOn_const 0 convex_univ, ?_, rfl⟩
  · simp only [proxObj, XFun.ofReal, sub_self, norm_zero]
    have : 0 ≤ ‖y - x‖ ^ 2 / (2 * τ) := by positivity
    simpa using this
  · simp [TwIST, twistGrad_eq, forRange, TwIST.body, ProxOp.prox, Bind.bind, Except.bind, Pure.pure, Except.pure]

end Verif
