import Verif.Model.RoundedPG
import Verif.Props.RoundedBound
import Verif.Props.ProxGrad
import Verif.Props.HQSConv
import Verif.Props.LinearRate
import Verif.Props.Projections
import Verif.Props.Lasso

/-!
# C132: `ProximalGradient` in rounded arithmetic
-/

open scoped RealInnerProductSpace

namespace Verif

variable {ι : Type} [Fintype ι]
variable {rnd : ℝ → ℝ} {u : ℝ}

/-- **C132** Without rounding the rounded solver is the solver. -/
theorem C132_exact (f g : ProxOp (Vec ι)) (x0 : Vec ι) (τ ε : ℝ) (acc : Accel) (n : ℕ) :
    ProximalGradientR (fun v => v) f g x0 τ ε acc n = ProximalGradient f g x0 (pgArgs τ ε acc n) := by
  have ha : ∀ x y : Vec ι, addR (fun v => v) x y = x + y := fun x y => rfl
  have hs : ∀ x y : Vec ι, subR (fun v => v) x y = x - y := fun x y => rfl
  have hm : ∀ (c : ℝ) (x : Vec ι), smulR (fun v => v) c x = c • x := fun c x => rfl
  have hw : ∀ i t, momentumR (fun v => v) acc i t = momentum acc i t := fun i t => by
    cases acc <;> rfl
  unfold ProximalGradientR ProximalGradient
  have e : (pgArgs τ ε acc n).epsg.printCheck (pgArgs τ ε acc n).niter = (StepSpec.scalar ε).printCheck n := rfl
  rw [e]
  cases (StepSpec.scalar ε).printCheck n with
  | error er => rfl
  | ok v =>
    simp only [Bind.bind, Except.bind]
    by_cases h : acc = .other
    · rw [if_pos h, if_pos (show (pgArgs τ ε acc n).acceleration = .other from h)]
    rw [if_neg h, if_neg (show ¬ (pgArgs τ ε acc n).acceleration = .other from h)]
    -- the two loops agree because `tau` and `pfg` never change
    have key : ∀ (k i : ℕ) (s : PGState (Vec ι)), s.tau = τ → s.pfg = none →
        forRange (PGR.body (fun v => v) f g τ ε acc) k i s = forRange (PG.body f g (pgArgs τ ε acc n) false) k i s := by
      intro k
      induction k with
      | zero => intro i s _ _; rfl
      | succ k ih =>
        intro i s h1 h2
        have hb : PGR.body (fun v => v) f g τ ε acc i s = PG.body f g (pgArgs τ ε acc n) false i s := by
          simp only [PGR.body, PG.body, PG.step, pgArgs, StepSpec.at, ha, hs, hm, hw, h1, h2, Bind.bind, Except.bind, Pure.pure,
            Except.pure, Bool.false_eq_true, if_false, if_true]
          cases f.grad s.y with
          | error er => rfl
          | ok gy =>
            simp only []
            cases g.prox (s.y - τ • gy) (ε * τ) <;> rfl
        simp only [forRange, ← hb]
        cases hr : PGR.body (fun v => v) f g τ ε acc i s with
        | error er => rfl
        | ok r =>
          obtain ⟨s', b⟩ := r
          have hst : s'.tau = τ ∧ s'.pfg = none := by
            simp only [PGR.body, Bind.bind, Except.bind, Pure.pure, Except.pure] at hr
            cases hg : f.grad s.y with
            | error er => rw [hg] at hr; cases hr
            | ok gy =>
              rw [hg] at hr
              simp only [] at hr
              cases hp : g.prox (subR (fun v => v) s.y (smulR (fun v => v) τ gy)) (ε * τ) with
              | error er => rw [hp] at hr; cases hr
              | ok x => rw [hp] at hr; cases hr; exact ⟨rfl, rfl⟩
          cases b with
          | true => rfl
          | false => exact ih (i + 1) s' hst.1 hst.2
    exact key n 0 _ rfl rfl

/-- The trajectory of the rounded solver. -/
theorem pgR_traj {fR gR : ProxOp (Vec ι)} {τ ε : ℝ} {G P : Vec ι → Vec ι} (hG : ∀ x, fR.grad x = .ok (G x))
    (hP : ∀ x, gR.prox x (rnd (ε * τ)) = .ok (P x)) (acc : Accel) (hacc : acc ≠ .other) (x0 : Vec ι) :
    ∃ S : ℕ → PGState (Vec ι), (S 0).x = x0 ∧ (S 0).y = x0 ∧
      (∀ n, (S (n + 1)).x = P (subR rnd (S n).y (smulR rnd τ (G (S n).y))) ∧
        (S (n + 1)).y = addR rnd (S (n + 1)).x (smulR rnd (momentumR rnd acc n (S n).t).1 (subR rnd (S (n + 1)).x (S n).x))) ∧
      ∀ n, 0 < n → ProximalGradientR rnd fR gR x0 τ ε acc n = .ok (S n) := by
  let next : ℕ → PGState (Vec ι) → PGState (Vec ι) := fun i s =>
    ⟨P (subR rnd s.y (smulR rnd τ (G s.y))),
      addR rnd (P (subR rnd s.y (smulR rnd τ (G s.y)))) (smulR rnd (momentumR rnd acc i s.t).1 (subR rnd (P (subR rnd s.y (smulR rnd τ (G s.y)))) s.x)),
      (momentumR rnd acc i s.t).2, τ, none, s.log ++ [P (subR rnd s.y (smulR rnd τ (G s.y)))]⟩
  have hbody : ∀ i s, PGR.body rnd fR gR τ ε acc i s = .ok (next i s, false) := by
    intro i s
    simp [PGR.body, hG, hP, next, Bind.bind, Except.bind, Pure.pure, Except.pure]
  obtain ⟨S, h0, -, h2, h3⟩ := forRange_traj_nobreak (PGR.body rnd fR gR τ ε acc) (fun _ => True) (fun i s s' => s' = next i s)
    (fun i s _ => ⟨_, hbody i s, trivial, rfl⟩) ⟨x0, x0, 1, τ, none, []⟩ trivial
  refine ⟨S, by rw [h0], by rw [h0], fun n => ?_, fun n hn => ?_⟩
  · rw [h2 n]; exact ⟨rfl, rfl⟩
  · have e1 : (StepSpec.scalar ε).printCheck n = .ok () := by simp [StepSpec.printCheck, hn.ne']
    rw [ProximalGradientR, e1]
    simp only [Bind.bind, Except.bind, if_neg hacc]
    exact h3 n

/-- **C132** Whatever the rounding and the acceleration, what `ProximalGradient` returns after one or more iterations is a
result of the prox of `g`: a constraint that this prox meets exactly is met exactly. -/
theorem C132_constraint (f g : ProxOp (Vec ι)) (x0 : Vec ι) (τ ε : ℝ) (acc : Accel) (C : Vec ι → Prop)
    (hC : ∀ v y, g.prox v (rnd (ε * τ)) = .ok y → C y) (n : ℕ) (s : PGState (Vec ι))
    (h : ProximalGradientR rnd f g x0 τ ε acc n = .ok s) : C s.x := by
  unfold ProximalGradientR at h
  rcases n with _ | n
  · simp [StepSpec.printCheck, Bind.bind, Except.bind] at h
  have e1 : (StepSpec.scalar ε).printCheck (n + 1) = .ok () := by simp [StepSpec.printCheck]
  rw [e1] at h
  simp only [Bind.bind, Except.bind] at h
  by_cases ha : acc = .other
  · rw [if_pos ha] at h; cases h
  rw [if_neg ha] at h
  have hb : ∀ i (s s' : PGState (Vec ι)) b, PGR.body rnd f g τ ε acc i s = .ok (s', b) → C s'.x ∧ b = false := by
    intro i s s' b hr
    simp only [PGR.body, Bind.bind, Except.bind, Pure.pure, Except.pure] at hr
    cases hg : f.grad s.y with
    | error er => rw [hg] at hr; cases hr
    | ok gy =>
      rw [hg] at hr
      simp only [] at hr
      cases hp : g.prox (subR rnd s.y (smulR rnd τ gy)) (rnd (ε * τ)) with
      | error er => rw [hp] at hr; cases hr
      | ok x => rw [hp] at hr; cases hr; exact ⟨hC _ _ hp, rfl⟩
  have key : ∀ (k i : ℕ) (s s' : PGState (Vec ι)), (C s.x ∨ 0 < k) → forRange (PGR.body rnd f g τ ε acc) k i s = .ok s' → C s'.x := by
    intro k
    induction k with
    | zero =>
      intro i s s' hs hr
      simp only [forRange] at hr
      cases hr
      exact hs.resolve_right (lt_irrefl 0)
    | succ k ih =>
      intro i s s' _ hr
      simp only [forRange] at hr
      cases hbd : PGR.body rnd f g τ ε acc i s with
      | error er => rw [hbd] at hr; cases hr
      | ok r =>
        obtain ⟨s1, b⟩ := r
        obtain ⟨h1, rfl⟩ := hb i s s1 b hbd
        rw [hbd] at hr
        exact ih (i + 1) s1 s' (Or.inl h1) hr
  exact key (n + 1) 0 _ s (Or.inr (Nat.succ_pos n)) h

/-- The computed run and the exact run, in terms of the maps: an error of one iteration is multiplied by `q` in the next. -/
theorem pgR_drift_q (hr : Rounding rnd u) {f g fR gR : ProxOp (Vec ι)} {τ ε δ γ M B q : ℝ} {G P : Vec ι → Vec ι} (hτ : 0 < τ)
    (hG : ∀ x, f.grad x = .ok (G x)) (hP : ∀ x, g.prox x (ε * τ) = .ok (P x)) (hPn : ∀ x y, ‖P x - P y‖ ≤ ‖x - y‖)
    (hq0 : 0 ≤ q) (hq1 : q ≤ 1)
    (hGq : ∀ x y, ‖(x - τ • G x) - (y - τ • G y)‖ ≤ q * ‖x - y‖) (x0 c : Vec ι) (hc : P (c - τ • G c) = c) (hB : ‖x0 - c‖ + ‖c‖ ≤ B)
    (hM : 0 ≤ M) (hδ : 0 ≤ δ) (hγ : 0 ≤ γ)
    (hfR : ∀ v, ∃ y, fR.grad v = .ok y ∧ (‖v‖ ≤ 4 * B → ‖y‖ ≤ M ∧ ‖y - G v‖ ≤ γ))
    (hgR : ∀ v, ∃ y, gR.prox v (rnd (ε * τ)) = .ok y ∧ (‖v‖ ≤ 8 * B + 4 * (τ * M) → ‖y - P v‖ ≤ δ)) (n : ℕ) (hn0 : 0 < n)
    (hn : (∑ i ∈ Finset.range n, q ^ i) * (δ + τ * γ + 3 * u * (2 * B + τ * M)) ≤ B) :
    ∃ s e, ProximalGradientR rnd fR gR x0 τ ε .none n = .ok s ∧ ProximalGradient f g x0 (pgArgs τ ε .none n) = .ok e ∧
      ‖s.x - e.x‖ ≤ (∑ i ∈ Finset.range n, q ^ i) * (δ + τ * γ + 3 * u * (2 * B + τ * M)) ∧ ‖s.x‖ ≤ 2 * B := by
  have hu := hr.nonneg_u
  have hul := hr.lt
  have hGn : ∀ x y, ‖(x - τ • G x) - (y - τ • G y)‖ ≤ ‖x - y‖ := fun x y => (hGq x y).trans (mul_le_of_le_one_left (norm_nonneg _) hq1)
  choose Gr hGr hGr' using hfR
  choose Pr hPr hPr' using hgR
  obtain ⟨S, s1, s2, hS, hSn⟩ := pgR_traj (rnd := rnd) hGr hPr .none (by decide) x0
  obtain ⟨X, Y, t, hX0, hY0, -, hX, -, hY, h⟩ := pg_traj hG hP .none (by decide) x0
  have hYX : ∀ n, Y n = X n := by
    intro n
    cases n with
    | zero => rw [hX0, hY0]
    | succ n => rw [hY]; simp [momentum]
  have hB0 : 0 ≤ B := by linarith [norm_nonneg (x0 - c), norm_nonneg c]
  have hτM : 0 ≤ τ * M := mul_nonneg hτ.le hM
  have huB : 0 ≤ u * B := mul_nonneg hu hB0
  have huB1 : u * B ≤ B := mul_le_of_le_one_left hB0 hul.le
  have huM : 0 ≤ u * (τ * M) := mul_nonneg hu hτM
  have huM1 : u * (τ * M) ≤ τ * M := mul_le_of_le_one_left hτM hul.le
  set η := δ + τ * γ + 3 * u * (2 * B + τ * M) with hη
  have hη0 : 0 ≤ η := by positivity
  have hXc : ∀ k, ‖X k - c‖ ≤ ‖x0 - c‖ := by
    intro k
    induction k with
    | zero => rw [hX0]
    | succ k ih =>
      have h1 := hPn (X k - τ • G (X k)) (c - τ • G c)
      rw [hc] at h1
      rw [hX k, hYX k]
      exact h1.trans ((hGn _ _).trans ih)
  have hXB : ∀ k, ‖X k‖ ≤ B := fun k => by
    have h1 := norm_sub_norm_le (X k) c
    linarith [hXc k]
  have hz : rnd 0 = 0 := by
    have h := hr.odd 0
    rw [neg_zero] at h
    linarith
  have hy : ∀ k, ‖(S k).y - (S k).x‖ ≤ u * ‖(S k).x‖ := by
    rintro (_ | k)
    · rw [s1, s2, sub_self, norm_zero]; positivity
    · have e : (S (k + 1)).y = vmk fun i => rnd ((S (k + 1)).x i) := by
        rw [(hS k).2]
        ext i
        simp [addR, smulR, momentumR, hz]
      rw [e]
      exact norm_rnd_sub hr _
  have hd : ∀ k, k ≤ n → ‖(S k).x - X k‖ ≤ (∑ i ∈ Finset.range k, q ^ i) * η := by
    intro k
    induction k with
    | zero => intro _; rw [s1, hX0, sub_self, norm_zero]; simp
    | succ k ih =>
      intro hk
      have ih := ih (by omega)
      have hkn : (∑ i ∈ Finset.range k, q ^ i) * η ≤ (∑ i ∈ Finset.range n, q ^ i) * η :=
        mul_le_mul_of_nonneg_right (Finset.sum_le_sum_of_subset_of_nonneg (Finset.range_subset_range.2 (by omega)) fun i _ _ => pow_nonneg hq0 i) hη0
      have bx : ‖(S k).x‖ ≤ 2 * B := by
        have h1 := norm_sub_norm_le (S k).x (X k)
        linarith [hXB k]
      have hy1 : ‖(S k).y - (S k).x‖ ≤ 2 * (u * B) := (hy k).trans (by linarith [mul_le_mul_of_nonneg_left bx hu])
      have by' : ‖(S k).y‖ ≤ 4 * B := by
        have h1 := norm_sub_norm_le (S k).y (S k).x
        linarith
      obtain ⟨g1, g2⟩ := hGr' _ by'
      have hm0 : ‖τ • Gr (S k).y‖ ≤ τ * M := by
        rw [norm_smul, Real.norm_eq_abs, abs_of_pos hτ]
        exact mul_le_mul_of_nonneg_left g1 hτ.le
      have hm1 : ‖smulR rnd τ (Gr (S k).y) - τ • Gr (S k).y‖ ≤ u * (τ * M) :=
        (norm_rnd_sub hr (τ • Gr (S k).y)).trans (mul_le_mul_of_nonneg_left hm0 hu)
      have hx1 := (hS k).1
      generalize smulR rnd τ (Gr (S k).y) = m at hm1 hx1
      have hm2 : ‖m‖ ≤ 2 * (τ * M) := by
        have h1 := norm_sub_norm_le m (τ • Gr (S k).y)
        linarith
      have hs0 : ‖(S k).y - m‖ ≤ 4 * B + 2 * (τ * M) := (norm_sub_le _ _).trans (by linarith)
      have hs0' : ‖(S k).y - m‖ ≤ 2 * B + 2 * (u * B) + (τ * M + u * (τ * M)) := by
        have h1 := norm_sub_norm_le (S k).y (S k).x
        have h2 := norm_sub_norm_le m (τ • Gr (S k).y)
        exact (norm_sub_le _ _).trans (by linarith)
      have hs1 : ‖subR rnd (S k).y m - ((S k).y - m)‖ ≤ u * ‖(S k).y - m‖ := norm_rnd_sub hr ((S k).y - m)
      generalize subR rnd (S k).y m = v at hs1 hx1
      have hs2 : ‖v‖ ≤ 8 * B + 4 * (τ * M) := by
        have h1 := norm_sub_norm_le v ((S k).y - m)
        have h2 : u * ‖(S k).y - m‖ ≤ ‖(S k).y - m‖ := mul_le_of_le_one_left (norm_nonneg _) hul.le
        linarith
      have hs3 : u * ‖(S k).y - m‖ ≤ 4 * (u * B) + 2 * (u * (τ * M)) := by
        have := mul_le_mul_of_nonneg_left (show ‖(S k).y - m‖ ≤ 4 * B + 2 * (τ * M) by linarith) hu
        linarith
      have hτγ : ‖τ • (Gr (S k).y - G (S k).y)‖ ≤ τ * γ := by
        rw [norm_smul, Real.norm_eq_abs, abs_of_pos hτ]
        exact mul_le_mul_of_nonneg_left g2 hτ.le
      have hv : ‖v - ((S k).x - τ • G (S k).x)‖ ≤ 6 * (u * B) + 3 * (u * (τ * M)) + τ * γ := by
        have e : v - ((S k).x - τ • G (S k).x) = (v - ((S k).y - m)) + (((S k).y - τ • G (S k).y) - ((S k).x - τ • G (S k).x)) -
            (m - τ • Gr (S k).y) - τ • (Gr (S k).y - G (S k).y) := by module
        rw [e]
        have h1 := (hGn (S k).y (S k).x).trans hy1
        refine (norm_sub_le _ _).trans ((add_le_add ((norm_sub_le _ _).trans (add_le_add (norm_add_le _ _) le_rfl)) le_rfl).trans ?_)
        linarith
      have h1 := hPr' v hs2
      have h2 := (hPn v ((S k).x - τ • G (S k).x)).trans hv
      have h3 := (hPn ((S k).x - τ • G (S k).x) (X k - τ • G (X k))).trans ((hGq _ _).trans (mul_le_mul_of_nonneg_left ih hq0))
      have e : (S (k + 1)).x - X (k + 1) = (Pr v - P v) + (P v - P ((S k).x - τ • G (S k).x)) +
          (P ((S k).x - τ • G (S k).x) - P (X k - τ • G (X k))) := by rw [hx1, hX k, hYX k]; abel
      rw [e]
      refine (norm_add₃_le).trans ?_
      rw [geom_sum_succ, add_mul, one_mul, mul_assoc]
      have : η = δ + τ * γ + (6 * (u * B) + 3 * (u * (τ * M))) := by rw [hη]; ring
      linarith
  refine ⟨S n, _, hSn n hn0, h n hn0, hd n le_rfl, ?_⟩
  have h1 := norm_sub_norm_le (S n).x (X n)
  linarith [hd n le_rfl, hXB n]

/-- The computed run and the exact run, in terms of the maps. -/
theorem pgR_drift (hr : Rounding rnd u) {f g fR gR : ProxOp (Vec ι)} {τ ε δ γ M B : ℝ} {G P : Vec ι → Vec ι} (hτ : 0 < τ)
    (hG : ∀ x, f.grad x = .ok (G x)) (hP : ∀ x, g.prox x (ε * τ) = .ok (P x)) (hPn : ∀ x y, ‖P x - P y‖ ≤ ‖x - y‖)
    (hGn : ∀ x y, ‖(x - τ • G x) - (y - τ • G y)‖ ≤ ‖x - y‖) (x0 c : Vec ι) (hc : P (c - τ • G c) = c) (hB : ‖x0 - c‖ + ‖c‖ ≤ B)
    (hM : 0 ≤ M) (hδ : 0 ≤ δ) (hγ : 0 ≤ γ)
    (hfR : ∀ v, ∃ y, fR.grad v = .ok y ∧ (‖v‖ ≤ 4 * B → ‖y‖ ≤ M ∧ ‖y - G v‖ ≤ γ))
    (hgR : ∀ v, ∃ y, gR.prox v (rnd (ε * τ)) = .ok y ∧ (‖v‖ ≤ 8 * B + 4 * (τ * M) → ‖y - P v‖ ≤ δ)) (n : ℕ) (hn0 : 0 < n)
    (hn : n * (δ + τ * γ + 3 * u * (2 * B + τ * M)) ≤ B) :
    ∃ s e, ProximalGradientR rnd fR gR x0 τ ε .none n = .ok s ∧ ProximalGradient f g x0 (pgArgs τ ε .none n) = .ok e ∧
      ‖s.x - e.x‖ ≤ n * (δ + τ * γ + 3 * u * (2 * B + τ * M)) ∧ ‖s.x‖ ≤ 2 * B := by
  have h1 : ∑ i ∈ Finset.range n, (1 : ℝ) ^ i = n := by simp
  have h := pgR_drift_q hr (q := 1) hτ hG hP hPn zero_le_one le_rfl (fun x y => by rw [one_mul]; exact hGn x y) x0 c hc hB hM hδ hγ hfR hgR n hn0
    (by rw [h1]; exact hn)
  rwa [h1] at h

/-- The gradient step of a convex function with an `L`-Lipschitz gradient and `tau L ≤ 2` does not increase distances. -/
theorem forward_nonexp {φ : Vec ι → ℝ} {G : Vec ι → Vec ι} {L τ : ℝ} (hgrad : ∀ x, IsGrad φ x (G x))
    (hL : ∀ x y, ‖G x - G y‖ ≤ L * ‖x - y‖) (hφ : ConvexOn ℝ Set.univ φ) (hτ : 0 < τ) (hτL : τ * L ≤ 2) (x y : Vec ι) :
    ‖(x - τ • G x) - (y - τ • G y)‖ ≤ ‖x - y‖ := by
  obtain ⟨L', hL'0, hL', hτL'⟩ : ∃ L', 0 < L' ∧ (∀ x y, ‖G x - G y‖ ≤ L' * ‖x - y‖) ∧ τ * L' ≤ 2 := by
    by_cases h : 0 < L
    · exact ⟨L, h, hL, hτL⟩
    · refine ⟨1 / τ, by positivity, fun x y => (hL x y).trans (mul_le_mul_of_nonneg_right ?_ (norm_nonneg _)), ?_⟩
      · have : 0 < 1 / τ := by positivity
        linarith [not_lt.1 h]
      · rw [mul_one_div_cancel hτ.ne']; norm_num
  have hco := grad_cocoercive hgrad hL' hφ hL'0 x y
  have e : (x - τ • G x) - (y - τ • G y) = (x - y) - τ • (G x - G y) := by module
  rw [e]
  refine le_of_sq_le_sq ?_ (norm_nonneg _)
  rw [norm_sub_sq_real, inner_smul_right, norm_smul, mul_pow, Real.norm_eq_abs, sq_abs, real_inner_comm]
  have h0 : 0 ≤ ⟪G x - G y, x - y⟫ := by
    by_contra hneg
    push Not at hneg
    nlinarith [sq_nonneg ‖G x - G y‖]
  nlinarith [mul_le_mul_of_nonneg_left hco (sq_nonneg τ), mul_le_mul_of_nonneg_right hτL' (mul_nonneg hτ.le h0)]

/-- **C132** `ProximalGradient` in rounded arithmetic (no acceleration, a given step with `tau L ≤ 2`) follows the exact run:
its error grows at most linearly with the iterations.  `c` is a minimiser of `φ + eps F` and `‖x0 - c‖ + ‖c‖ ≤ B`; on the
points of norm at most `4 B` the computed gradient is within `γ` of the exact one and at most `M`; on the points of norm at
most `8 B + 4 tau M` the computed prox is within `δ` of the exact one.  Nothing is supposed of the computed run, which
stays within norm `2 B`. -/
theorem C132_error (hr : Rounding rnd u) {φ : Vec ι → ℝ} {F : XFun (Vec ι)} {f g fR gR : ProxOp (Vec ι)} {τ ε δ γ M B L : ℝ}
    (hf : GradExact f φ) (hL : LipschitzGrad φ L) (hφ : ConvexOn ℝ Set.univ φ) (hF : F.Convex) (hg : ProxExact g F) (hε : 0 < ε)
    (hτ : 0 < τ) (hτL : τ * L ≤ 2) (x0 c : Vec ι) (hc : (compositeObj φ ε F).IsMin c) (hB : ‖x0 - c‖ + ‖c‖ ≤ B)
    (hfR : ∀ v, ∃ y, fR.grad v = .ok y ∧ (‖v‖ ≤ 4 * B → ‖y‖ ≤ M ∧ ∀ p, f.grad v = .ok p → ‖y - p‖ ≤ γ))
    (hgR : ∀ v, ∃ y, gR.prox v (rnd (ε * τ)) = .ok y ∧
      (‖v‖ ≤ 8 * B + 4 * (τ * M) → ∀ p, g.prox v (ε * τ) = .ok p → ‖y - p‖ ≤ δ))
    (n : ℕ) (hn0 : 0 < n) (hn : n * (δ + τ * γ + 3 * u * (2 * B + τ * M)) ≤ B) :
    ∃ s e, ProximalGradientR rnd fR gR x0 τ ε .none n = .ok s ∧ ProximalGradient f g x0 (pgArgs τ ε .none n) = .ok e ∧
      ‖s.x - e.x‖ ≤ n * (δ + τ * γ + 3 * u * (2 * B + τ * M)) ∧ ‖s.x‖ ≤ 2 * B := by
  obtain ⟨G, hG, hGr⟩ := gradExact_map hf
  obtain ⟨P, hP, hPx⟩ := pg_maps hg hε hτ
  have hFc := smulConvex hF hε.le
  have hLip : ∀ x y, ‖G x - G y‖ ≤ L * ‖x - y‖ := fun x y => hL x y _ _ (hGr x) (hGr y)
  have hB0 : 0 ≤ B := by linarith [norm_nonneg (x0 - c), norm_nonneg c]
  have hM : 0 ≤ M := by
    obtain ⟨y, -, h⟩ := hfR 0
    exact (norm_nonneg _).trans (h (by simpa using hB0)).1
  have hγ : 0 ≤ γ := by
    obtain ⟨y, -, h⟩ := hfR 0
    exact (norm_nonneg _).trans ((h (by simpa using hB0)).2 _ (hG 0))
  have hδ : 0 ≤ δ := by
    obtain ⟨y, -, h⟩ := hgR 0
    exact (norm_nonneg _).trans (h (by rw [norm_zero]; positivity) _ (hP 0))
  refine pgR_drift hr hτ hG hP (fun x y => (firm_prox hFc hτ hPx).nonexp x y) (forward_nonexp hGr hLip hφ hτ hτL) x0 c
    ((pg_fixed_iff hφ hFc hτ hGr hPx c).2 hc) hB hM hδ hγ (fun v => ?_) (fun v => ?_) n hn0 hn
  · obtain ⟨y, h1, h2⟩ := hfR v
    exact ⟨y, h1, fun hv => ⟨(h2 hv).1, (h2 hv).2 _ (hG v)⟩⟩
  · obtain ⟨y, h1, h2⟩ := hgR v
    exact ⟨y, h1, fun hv => h2 hv _ (hP v)⟩

/-- The minimiser of `sigma/2 ‖x - b‖² + eps lam ‖x‖₁` is a fixed point of the exact step. -/
theorem soft_fixed {σ τ ε lam : ℝ} (hσ : 0 < σ) (hτ : 0 < τ) (hε : 0 < ε) (hlam : 0 ≤ lam) (b : ℝ) :
    softScalar (softScalar b (ε * lam / σ) - τ * (σ * (softScalar b (ε * lam / σ) - b))) (ε * τ * lam) = softScalar b (ε * lam / σ) := by
  have hT : 0 ≤ ε * lam / σ := by positivity
  have hk : 0 < τ * σ := mul_pos hτ hσ
  have e : ε * τ * lam = τ * σ * (ε * lam / σ) := by field_simp
  rw [e]
  generalize ε * lam / σ = T at *
  have hkT : 0 ≤ τ * σ * T := mul_nonneg hk.le hT
  rw [soft_eq_clip hkT, soft_eq_clip hT]
  rcases lt_or_ge T b with h1 | h1
  · have e1 : max (-T) (min b T) = T := by rw [min_eq_right h1.le, max_eq_right (by linarith)]
    rw [e1]
    have h2 : τ * σ * T ≤ b - T - τ * (σ * (b - T - b)) := by linarith
    rw [min_eq_right h2, max_eq_right (by linarith)]
    ring
  · rcases lt_or_ge b (-T) with h2 | h2
    · have e1 : max (-T) (min b T) = -T := by rw [min_eq_left h1, max_eq_left h2.le]
      rw [e1]
      have h3 : b - -T - τ * (σ * (b - -T - b)) ≤ -(τ * σ * T) := by linarith
      rw [min_eq_left (by linarith), max_eq_left h3]
      ring
    · have e1 : max (-T) (min b T) = b := by rw [min_eq_left h1, max_eq_right h2]
      rw [e1]
      have h3 := mul_le_mul_of_nonneg_left h1 hk.le
      have h4 := mul_le_mul_of_nonneg_left h2 hk.le
      rw [min_eq_left (by linarith), max_eq_right (by linarith)]
      ring

/-- The step along the gradient of `L2(b=b)` multiplies distances by `|1 - tau sigma|`. -/
theorem l2_forward (τ σ : ℝ) (b x y : Vec ι) : ‖(x - τ • σ • (x - b)) - (y - τ • σ • (y - b))‖ = |1 - τ * σ| * ‖x - y‖ := by
  have e : x - τ • σ • (x - b) - (y - τ • σ • (y - b)) = (1 - τ * σ) • (x - y) := by module
  rw [e, norm_smul, Real.norm_eq_abs]

/-- A sum of powers of a number in `[0, 1]`. -/
theorem geom_sum_le_card {q : ℝ} (h0 : 0 ≤ q) (h1 : q ≤ 1) (n : ℕ) : ∑ i ∈ Finset.range n, q ^ i ≤ n := by
  have := Finset.sum_le_card_nsmul (Finset.range n) (fun i => q ^ i) 1 fun i _ => pow_le_one₀ h0 h1
  simpa using this

/-- A sum of powers of a number in `[0, 1)`. -/
theorem geom_sum_le_inv {q : ℝ} (h0 : 0 ≤ q) (h1 : q < 1) (n : ℕ) : ∑ i ∈ Finset.range n, q ^ i ≤ 1 / (1 - q) := by
  rw [le_div_iff₀ (by linarith), geom_sum_mul_neg]
  linarith [pow_nonneg h0 n]

/-- The run with the gradient of `L2(b=b)` and the prox of `L1`. -/
theorem pgR_l2_l1_q (hr : Rounding rnd u) (val val' : Vec ι → Py CallVal) {σ τ ε lam : ℝ} (hσ : 0 < σ) (hτ : 0 < τ) (hτσ : τ * σ ≤ 2)
    (hε : 0 < ε) (hlam : 0 ≤ lam) (b x0 : Vec ι) {f : ProxOp (Vec ι)} (hf : ∀ v, f.grad v = .ok (σ • (v - b))) (n : ℕ) (hn0 : 0 < n)
    (hn : (∑ i ∈ Finset.range n, |1 - τ * σ| ^ i) * (u * (324 * (‖x0‖ + 2 * ‖b‖) + 3 * (ε * τ * lam * √(Fintype.card ι)))) ≤ ‖x0‖ + 2 * ‖b‖) :
    ∃ s e, ProximalGradientR rnd (L2GradR rnd val σ (some b)) (L1R rnd val' lam none) x0 τ ε .none n = .ok s ∧
      ProximalGradient f (L1 lam none) x0 (pgArgs τ ε .none n) = .ok e ∧
      ‖s.x - e.x‖ ≤ (∑ i ∈ Finset.range n, |1 - τ * σ| ^ i) * (u * (324 * (‖x0‖ + 2 * ‖b‖) + 3 * (ε * τ * lam * √(Fintype.card ι)))) ∧ ‖s.x‖ ≤ 2 * (‖x0‖ + 2 * ‖b‖) := by
  have hu := hr.nonneg_u
  have hul := hr.lt
  have hετ : 0 < ε * τ := mul_pos hε hτ
  have hT : 0 ≤ ε * τ * lam := mul_nonneg hετ.le hlam
  have hd : 0 ≤ √(Fintype.card ι : ℝ) := Real.sqrt_nonneg _
  have hTd := mul_nonneg hT hd
  have herr := abs_le.1 (hr.err (ε * τ))
  rw [abs_of_pos hετ] at herr
  have hu1 : u * (ε * τ) < ε * τ := mul_lt_of_lt_one_left hετ hul
  have hτ'0 : 0 < rnd (ε * τ) := by linarith [herr.1]
  have hτ'1 : rnd (ε * τ) ≤ 2 * (ε * τ) := by linarith [herr.2]
  set B := ‖x0‖ + 2 * ‖b‖ with hB
  have hb0 := norm_nonneg b
  have hx0 := norm_nonneg x0
  have hB0 : 0 ≤ B := by positivity
  have hbB : ‖b‖ ≤ B := by linarith
  have huB : 0 ≤ u * B := mul_nonneg hu hB0
  have huB1 : u * B ≤ B := mul_le_of_le_one_left hB0 hul.le
  have hτσB : τ * σ * B ≤ 2 * B := mul_le_mul_of_nonneg_right hτσ hB0
  have hτσ0 : 0 ≤ τ * σ * B := by positivity
  have hτσu : τ * σ * (u * B) ≤ 2 * (u * B) := mul_le_mul_of_nonneg_right hτσ huB
  have hη : u * (168 * B + 3 * (ε * τ * lam * √(Fintype.card ι))) + τ * (15 * (σ * (u * B))) + 3 * u * (2 * B + τ * (20 * (σ * B))) ≤
      u * (324 * B + 3 * (ε * τ * lam * √(Fintype.card ι))) := by
    linarith
  have hPs : ∀ x : Vec ι, (L1 lam none).prox x (ε * τ) = .ok (softthreshold x fun _ => ε * τ * lam) := fun x => by
    simp [ProxOp.prox, L1, checkTau, not_le.mpr hετ]
  have hPs' : ∀ x : Vec ι, (L1 lam none).prox x (rnd (ε * τ)) = .ok (softthreshold x fun _ => rnd (ε * τ) * lam) := fun x => by
    simp [ProxOp.prox, L1, checkTau, not_le.mpr hτ'0]
  set c : Vec ι := softthreshold b fun _ => ε * lam / σ with hc
  have hcb : ‖c‖ ≤ ‖b‖ := by
    rw [hc, EuclideanSpace.norm_eq, EuclideanSpace.norm_eq]
    exact Real.sqrt_le_sqrt (Finset.sum_le_sum fun i _ => pow_le_pow_left₀ (norm_nonneg _) (softScalar_abs_le (by positivity)) 2)
  have hnn : 0 ≤ ∑ i ∈ Finset.range n, |1 - τ * σ| ^ i := Finset.sum_nonneg fun i _ => by positivity
  obtain ⟨s, e, h1, h2, h3, h4⟩ := pgR_drift_q (q := |1 - τ * σ|) (B := B) (M := 20 * (σ * B)) (γ := 15 * (σ * (u * B)))
    (δ := u * (168 * B + 3 * (ε * τ * lam * √(Fintype.card ι)))) (fR := L2GradR rnd val σ (some b)) (gR := L1R rnd val' lam none) hr hτ hf hPs
    (fun x y => by
      rw [EuclideanSpace.norm_eq, EuclideanSpace.norm_eq]
      exact Real.sqrt_le_sqrt (Finset.sum_le_sum fun i _ => pow_le_pow_left₀ (norm_nonneg _) (softScalar_lip (x i) (y i) _ hT) 2))
    (abs_nonneg _) (abs_le.2 ⟨by linarith, by linarith [mul_pos hτ hσ]⟩) (fun x y => (l2_forward τ σ b x y).le)
    x0 c (by
      ext i
      exact soft_fixed hσ hτ hε hlam (b i))
    (by linarith [norm_sub_le x0 c]) (by positivity) (by positivity) (by positivity)
    (fun v => by
      refine ⟨smulR rnd σ (subR rnd v b), rfl, fun hv => ?_⟩
      have h0 : ‖v - b‖ ≤ 5 * B := (norm_sub_le _ _).trans (by linarith)
      have h1 : ‖subR rnd v b - (v - b)‖ ≤ 5 * (u * B) :=
        (norm_rnd_sub hr (v - b)).trans ((mul_le_mul_of_nonneg_left h0 hu).trans (by linarith))
      generalize subR rnd v b = r at h1
      have h2 : ‖r‖ ≤ 10 * B := by
        have := norm_sub_norm_le r (v - b)
        linarith
      have h3 : ‖smulR rnd σ r - σ • r‖ ≤ 10 * (σ * (u * B)) := by
        refine (norm_rnd_sub hr (σ • r)).trans ?_
        rw [norm_smul, Real.norm_eq_abs, abs_of_pos hσ]
        have := mul_le_mul_of_nonneg_left (mul_le_mul_of_nonneg_left h2 hσ.le) hu
        linarith
      have h4 : ‖smulR rnd σ r - σ • (v - b)‖ ≤ 15 * (σ * (u * B)) := by
        have e : smulR rnd σ r - σ • (v - b) = (smulR rnd σ r - σ • r) + σ • (r - (v - b)) := by module
        rw [e]
        refine (norm_add_le _ _).trans ?_
        rw [norm_smul, Real.norm_eq_abs, abs_of_pos hσ]
        have := mul_le_mul_of_nonneg_left h1 hσ.le
        linarith
      refine ⟨?_, h4⟩
      have h5 := norm_sub_norm_le (smulR rnd σ r) (σ • (v - b))
      rw [norm_smul, Real.norm_eq_abs, abs_of_pos hσ] at h5
      have h6 := mul_le_mul_of_nonneg_left h0 hσ.le
      have h7 := mul_le_mul_of_nonneg_left huB1 hσ.le
      linarith)
    (fun v => by
      obtain ⟨y, hy, hb⟩ := L1R_norm_err hr val' hlam hτ'0 v
      refine ⟨y, hy, fun hv => ?_⟩
      have h1 := hb _ (hPs' v)
      have h2 : ‖(softthreshold v fun _ => rnd (ε * τ) * lam) - softthreshold v fun _ => ε * τ * lam‖ ≤
          u * (ε * τ) * lam * √(Fintype.card ι) := by
        refine norm_le_of_entries (by positivity) fun i => ?_
        have h := softScalar_thresh (v i) (rnd (ε * τ) * lam) (ε * τ * lam)
        rw [← sub_mul, abs_mul, abs_of_nonneg hlam] at h
        refine h.trans (mul_le_mul_of_nonneg_right ?_ hlam)
        have := hr.err (ε * τ)
        rwa [abs_of_pos hετ] at this
      have h3 := norm_sub_le_norm_sub_add_norm_sub y (softthreshold v fun _ => rnd (ε * τ) * lam) (softthreshold v fun _ => ε * τ * lam)
      have h4 : ‖v‖ ≤ 168 * B := by linarith
      have h5 : rnd (ε * τ) * lam * √(Fintype.card ι) ≤ 2 * (ε * τ * lam * √(Fintype.card ι)) := by
        have := mul_le_mul_of_nonneg_right (mul_le_mul_of_nonneg_right hτ'1 hlam) hd
        linarith
      have h6 := mul_le_mul_of_nonneg_left (add_le_add h4 h5) hu
      linarith) n hn0 ((mul_le_mul_of_nonneg_left hη hnn).trans hn)
  exact ⟨s, e, h1, h2, h3.trans (mul_le_mul_of_nonneg_left hη hnn), h4⟩

/-- The run with the gradient of `L2(b=b)` and the prox of `L1`. -/
theorem pgR_l2_l1 (hr : Rounding rnd u) (val val' : Vec ι → Py CallVal) {σ τ ε lam : ℝ} (hσ : 0 < σ) (hτ : 0 < τ) (hτσ : τ * σ ≤ 2)
    (hε : 0 < ε) (hlam : 0 ≤ lam) (b x0 : Vec ι) {f : ProxOp (Vec ι)} (hf : ∀ v, f.grad v = .ok (σ • (v - b))) (n : ℕ) (hn0 : 0 < n)
    (hn : n * (u * (324 * (‖x0‖ + 2 * ‖b‖) + 3 * (ε * τ * lam * √(Fintype.card ι)))) ≤ ‖x0‖ + 2 * ‖b‖) :
    ∃ s e, ProximalGradientR rnd (L2GradR rnd val σ (some b)) (L1R rnd val' lam none) x0 τ ε .none n = .ok s ∧
      ProximalGradient f (L1 lam none) x0 (pgArgs τ ε .none n) = .ok e ∧
      ‖s.x - e.x‖ ≤ n * (u * (324 * (‖x0‖ + 2 * ‖b‖) + 3 * (ε * τ * lam * √(Fintype.card ι)))) ∧ ‖s.x‖ ≤ 2 * (‖x0‖ + 2 * ‖b‖) := by
  have hs : ∑ i ∈ Finset.range n, |1 - τ * σ| ^ i ≤ n := geom_sum_le_card (abs_nonneg _) (abs_le.2 ⟨by linarith, by linarith [mul_pos hτ hσ]⟩) n
  have hη : 0 ≤ u * (324 * (‖x0‖ + 2 * ‖b‖) + 3 * (ε * τ * lam * √(Fintype.card ι))) := mul_nonneg hr.nonneg_u (by positivity)
  obtain ⟨s, e, h1, h2, h3, h4⟩ := pgR_l2_l1_q hr val val' hσ hτ hτσ hε hlam b x0 hf n hn0 ((mul_le_mul_of_nonneg_right hs hη).trans hn)
  exact ⟨s, e, h1, h2, h3.trans (mul_le_mul_of_nonneg_right hs hη), h4⟩

/-- **C132** `ProximalGradient` with `f = L2(b=b, sigma=σ)` and `g = L1(sigma=lam)`, all in rounded arithmetic, for every start
`x0` and every step with `tau sigma ≤ 2`: with `B = ‖x0‖ + 2 ‖b‖`, as long as `n u (324 B + 3 eps tau lam sqrt d) ≤ B` the
vector returned after `n` iterations is within `n u (324 B + 3 eps tau lam sqrt d)` of the exact one and within norm `2 B`. -/
theorem C132_l2_l1 (hr : Rounding rnd u) (val val' : Vec ι → Py CallVal) {H C : Type} [NormedAddCommGroup H] [InnerProductSpace ℝ H]
    (ext : L2Ext (Vec ι) H C) (st : L2State (Vec ι) C) {σ τ ε lam : ℝ} (hσ : 0 < σ) (hτ : 0 < τ) (hτσ : τ * σ ≤ 2) (hε : 0 < ε)
    (hlam : 0 ≤ lam) (b x0 : Vec ι) (n : ℕ) (hn0 : 0 < n)
    (hn : n * (u * (324 * (‖x0‖ + 2 * ‖b‖) + 3 * (ε * τ * lam * √(Fintype.card ι)))) ≤ ‖x0‖ + 2 * ‖b‖) :
    ∃ s e, ProximalGradientR rnd (L2GradR rnd val σ (some b)) (L1R rnd val' lam none) x0 τ ε .none n = .ok s ∧
      ProximalGradient (L2.obj ext (l2Plain (.bOnly b) σ) st) (L1 lam none) x0 (pgArgs τ ε .none n) = .ok e ∧
      ‖s.x - e.x‖ ≤ n * (u * (324 * (‖x0‖ + 2 * ‖b‖) + 3 * (ε * τ * lam * √(Fintype.card ι)))) ∧ ‖s.x‖ ≤ 2 * (‖x0‖ + 2 * ‖b‖) :=
  pgR_l2_l1 hr val val' hσ hτ hτσ hε hlam b x0 (fun _ => rfl) n hn0 hn

/-- The exact run contracts towards a fixed point. -/
theorem pg_contract {f g : ProxOp (Vec ι)} {τ ε q : ℝ} {G P : Vec ι → Vec ι} (hG : ∀ x, f.grad x = .ok (G x))
    (hP : ∀ x, g.prox x (ε * τ) = .ok (P x)) (hPn : ∀ x y, ‖P x - P y‖ ≤ ‖x - y‖) (hq : 0 ≤ q)
    (hGn : ∀ x y, ‖(x - τ • G x) - (y - τ • G y)‖ ≤ q * ‖x - y‖) (x0 c : Vec ι) (hc : P (c - τ • G c) = c) (n : ℕ) (hn0 : 0 < n)
    {e : PGState (Vec ι)} (he : ProximalGradient f g x0 (pgArgs τ ε .none n) = .ok e) : ‖e.x - c‖ ≤ q ^ n * ‖x0 - c‖ := by
  obtain ⟨X, Y, t, hX0, hY0, -, hX, -, hY, h⟩ := pg_traj hG hP .none (by decide) x0
  have hYX : ∀ n, Y n = X n := by
    intro n
    cases n with
    | zero => rw [hX0, hY0]
    | succ n => rw [hY]; simp [momentum]
  have hXc : ∀ k, ‖X k - c‖ ≤ q ^ k * ‖x0 - c‖ := by
    intro k
    induction k with
    | zero => rw [hX0, pow_zero, one_mul]
    | succ k ih =>
      have h1 := hPn (X k - τ • G (X k)) (c - τ • G c)
      rw [hc] at h1
      rw [hX k, hYX k, pow_succ']
      have h2 := mul_le_mul_of_nonneg_left ih hq
      have h3 := hGn (X k) c
      linarith
  rw [h n hn0] at he
  cases he
  exact hXc n

/-- The computed gradient of `L2(b=b)`. -/
theorem l2GradR_err (hr : Rounding rnd u) {σ B : ℝ} (hσ : 0 < σ) {b v : Vec ι} (hbB : ‖b‖ ≤ B) (hv : ‖v‖ ≤ 4 * B) :
    ‖smulR rnd σ (subR rnd v b)‖ ≤ 20 * (σ * B) ∧ ‖smulR rnd σ (subR rnd v b) - σ • (v - b)‖ ≤ 15 * (σ * (u * B)) := by
  have hu := hr.nonneg_u
  have hB0 : 0 ≤ B := (norm_nonneg b).trans hbB
  have huB : 0 ≤ u * B := mul_nonneg hu hB0
  have huB1 : u * B ≤ B := mul_le_of_le_one_left hB0 hr.lt.le
  have h0 : ‖v - b‖ ≤ 5 * B := (norm_sub_le _ _).trans (by linarith)
  have h1 : ‖subR rnd v b - (v - b)‖ ≤ 5 * (u * B) :=
    (norm_rnd_sub hr (v - b)).trans ((mul_le_mul_of_nonneg_left h0 hu).trans (by linarith))
  generalize subR rnd v b = r at h1
  have h2 : ‖r‖ ≤ 10 * B := by
    have := norm_sub_norm_le r (v - b)
    linarith
  have h3 : ‖smulR rnd σ r - σ • r‖ ≤ 10 * (σ * (u * B)) := by
    refine (norm_rnd_sub hr (σ • r)).trans ?_
    rw [norm_smul, Real.norm_eq_abs, abs_of_pos hσ]
    have := mul_le_mul_of_nonneg_left (mul_le_mul_of_nonneg_left h2 hσ.le) hu
    linarith
  have h4 : ‖smulR rnd σ r - σ • (v - b)‖ ≤ 15 * (σ * (u * B)) := by
    have e : smulR rnd σ r - σ • (v - b) = (smulR rnd σ r - σ • r) + σ • (r - (v - b)) := by module
    rw [e]
    refine (norm_add_le _ _).trans ?_
    rw [norm_smul, Real.norm_eq_abs, abs_of_pos hσ]
    have := mul_le_mul_of_nonneg_left h1 hσ.le
    linarith
  refine ⟨?_, h4⟩
  have h5 := norm_sub_norm_le (smulR rnd σ r) (σ • (v - b))
  rw [norm_smul, Real.norm_eq_abs, abs_of_pos hσ] at h5
  have h6 := mul_le_mul_of_nonneg_left h0 hσ.le
  have h7 := mul_le_mul_of_nonneg_left huB1 hσ.le
  linarith

/-- The point of an interval closest to `b` is a fixed point of the exact step. -/
theorem boxClip_fixed {l h : Bound} (hne : ∀ a c, l = some a → h = some c → a ≤ c) {k : ℝ} (hk : 0 < k) (b : ℝ) :
    boxClip l h (boxClip l h b - k * (boxClip l h b - b)) = boxClip l h b := by
  rcases l with _ | l <;> rcases h with _ | h <;> simp only [boxClip, maxLower, minUpper]
  · ring
  · rcases le_total b h with h1 | h1
    · rw [min_eq_left h1, sub_self, mul_zero, sub_zero, min_eq_left h1]
    · rw [min_eq_right h1, min_eq_right]
      have := mul_nonneg hk.le (sub_nonneg.2 h1)
      linarith
  · rcases le_total b l with h1 | h1
    · rw [max_eq_right h1, max_eq_right]
      have := mul_nonneg hk.le (sub_nonneg.2 h1)
      linarith
    · rw [max_eq_left h1, sub_self, mul_zero, sub_zero, max_eq_left h1]
  · have hlh := hne l h rfl rfl
    rcases le_total b l with h1 | h1
    · have := mul_nonneg hk.le (sub_nonneg.2 h1)
      rw [max_eq_right h1, min_eq_left hlh, max_eq_right (by linarith), min_eq_left hlh]
    · rcases le_total b h with h2 | h2
      · rw [max_eq_left h1, min_eq_left h2, sub_self, mul_zero, sub_zero, max_eq_left h1, min_eq_left h2]
      · have := mul_nonneg hk.le (sub_nonneg.2 h2)
        rw [max_eq_left h1, min_eq_right h2, max_eq_left (by linarith), min_eq_right (by linarith)]

/-- The run with the gradient of `L2(b=b)` and the prox of `Box`. -/
theorem pgR_l2_box_q (hr : Rounding rnd u) (val : Vec ι → Py CallVal) {σ τ ε B : ℝ} (hσ : 0 < σ) (hτ : 0 < τ) (hτσ : τ * σ ≤ 2)
    (hε : 0 < ε) (lower upper : ι → Option ℝ) (hne : ∀ i a b, lower i = some a → upper i = some b → a ≤ b) (b x0 c : Vec ι)
    (hc : IsProj (boxSet lower upper) b c) (hB : ‖x0‖ + 2 * ‖c‖ ≤ B) (hbB : ‖b‖ ≤ B) (n : ℕ) (hn0 : 0 < n)
    (hn : (∑ i ∈ Finset.range n, |1 - τ * σ| ^ i) * (156 * (u * B)) ≤ B) :
    ∃ s, ProximalGradientR rnd (L2GradR rnd val σ (some b)) (Box lower upper) x0 τ ε .none n = .ok s ∧
      s.x ∈ boxSet lower upper ∧ ‖s.x - c‖ ≤ |1 - τ * σ| ^ n * ‖x0 - c‖ + (∑ i ∈ Finset.range n, |1 - τ * σ| ^ i) * (156 * (u * B)) := by
  have hu := hr.nonneg_u
  have hετ : 0 < ε * τ := mul_pos hε hτ
  have hr0 : 0 < rnd (ε * τ) := by
    have herr := abs_le.1 (hr.err (ε * τ))
    rw [abs_of_pos hετ] at herr
    have hu1 : u * (ε * τ) < ε * τ := mul_lt_of_lt_one_left hετ hr.lt
    linarith [herr.1]
  have hP : ∀ t, 0 < t → ∀ x : Vec ι, (Box lower upper).prox x t = .ok (boxProj lower upper x) := fun t ht x => by
    simp [ProxOp.prox, Box, checkTau, not_le.mpr ht]
  obtain ⟨p, hp1, hp2⟩ := C21_box_prox lower upper hne b 1 one_pos
  rw [hP 1 one_pos] at hp1
  cases hp1
  obtain rfl := hp2.2 c hc
  set c := boxProj lower upper b with hcd
  have hB0 : 0 ≤ B := (norm_nonneg b).trans hbB
  have huB : 0 ≤ u * B := mul_nonneg hu hB0
  have hτσu : τ * σ * (u * B) ≤ 2 * (u * B) := mul_le_mul_of_nonneg_right hτσ huB
  have hfix : boxProj lower upper (c - τ • σ • (c - b)) = c := by
    ext i
    change boxClip (lower i) (upper i) (boxClip (lower i) (upper i) (b i) - τ * (σ * (boxClip (lower i) (upper i) (b i) - b i))) = _
    rw [← mul_assoc]
    exact boxClip_fixed (hne i) (mul_pos hτ hσ) (b i)
  have habs : |1 - τ * σ| ≤ 1 := abs_le.2 ⟨by linarith, by linarith [mul_pos hτ hσ]⟩
  have hη : 0 + τ * (15 * (σ * (u * B))) + 3 * u * (2 * B + τ * (20 * (σ * B))) ≤ 156 * (u * B) := by linarith
  have hnn : 0 ≤ ∑ i ∈ Finset.range n, |1 - τ * σ| ^ i := Finset.sum_nonneg fun i _ => by positivity
  let f : ProxOp (Vec ι) := L2GradR (fun v => v) val σ (some b)
  have hf : ∀ v, f.grad v = .ok (σ • (v - b)) := fun v => rfl
  obtain ⟨s, e, h1, h2, h3, -⟩ := pgR_drift_q (q := |1 - τ * σ|) (B := B) (M := 20 * (σ * B)) (γ := 15 * (σ * (u * B))) (δ := 0) (fR := L2GradR rnd val σ (some b))
    (gR := Box lower upper) hr hτ hf (hP _ hετ) (boxProj_lip lower upper)
    (abs_nonneg _) habs (fun x y => (l2_forward τ σ b x y).le) x0 c hfix
    (by linarith [norm_sub_le x0 c]) (by positivity) le_rfl (by positivity)
    (fun v => ⟨_, rfl, fun hv => l2GradR_err hr hσ hbB hv⟩)
    (fun v => ⟨_, hP _ hr0 v, fun _ => by rw [sub_self, norm_zero]⟩) n hn0 ((mul_le_mul_of_nonneg_left hη hnn).trans hn)
  have h4 := pg_contract hf (hP _ hετ) (boxProj_lip lower upper) (abs_nonneg _) (fun x y => (l2_forward τ σ b x y).le) x0 c hfix n hn0 h2
  refine ⟨s, h1, ?_, ?_⟩
  · refine C132_constraint _ _ x0 τ ε .none (· ∈ boxSet lower upper) (fun v y hy => ?_) n s h1
    obtain ⟨p, h5, h6⟩ := C21_box_prox lower upper hne v _ hr0
    rw [h5] at hy
    cases hy
    exact h6.1.1
  · have h5 := norm_sub_le_norm_sub_add_norm_sub s.x e.x c
    have h6 := mul_le_mul_of_nonneg_left hη hnn
    linarith

/-- **C132** `ProximalGradient` with `f = L2(b=b, sigma=σ)` and `g = Box(lower, upper)` in rounded arithmetic: `c` is the point of
the box closest to `b`, which is the solution.  As long as `156 n u B ≤ B`, for a `B` that bounds `‖x0‖ + 2 ‖c‖` and `‖b‖`, the
vector returned after `n` iterations is in the box and within `|1 - tau sigma|^n ‖x0 - c‖ + 156 n u B` of the solution. -/
theorem C132_l2_box (hr : Rounding rnd u) (val : Vec ι → Py CallVal) {σ τ ε B : ℝ} (hσ : 0 < σ) (hτ : 0 < τ) (hτσ : τ * σ ≤ 2)
    (hε : 0 < ε) (lower upper : ι → Option ℝ) (hne : ∀ i a b, lower i = some a → upper i = some b → a ≤ b) (b x0 c : Vec ι)
    (hc : IsProj (boxSet lower upper) b c) (hB : ‖x0‖ + 2 * ‖c‖ ≤ B) (hbB : ‖b‖ ≤ B) (n : ℕ) (hn0 : 0 < n)
    (hn : n * (156 * (u * B)) ≤ B) :
    ∃ s, ProximalGradientR rnd (L2GradR rnd val σ (some b)) (Box lower upper) x0 τ ε .none n = .ok s ∧
      s.x ∈ boxSet lower upper ∧ ‖s.x - c‖ ≤ |1 - τ * σ| ^ n * ‖x0 - c‖ + n * (156 * (u * B)) := by
  have hs : ∑ i ∈ Finset.range n, |1 - τ * σ| ^ i ≤ n := geom_sum_le_card (abs_nonneg _) (abs_le.2 ⟨by linarith, by linarith [mul_pos hτ hσ]⟩) n
  have hη : 0 ≤ 156 * (u * B) := mul_nonneg (by norm_num) (mul_nonneg hr.nonneg_u ((norm_nonneg b).trans hbB))
  obtain ⟨s, h1, h2, h3⟩ := pgR_l2_box_q hr val hσ hτ hτσ hε lower upper hne b x0 c hc hB hbB n hn0 ((mul_le_mul_of_nonneg_right hs hη).trans hn)
  exact ⟨s, h1, h2, h3.trans (by linarith [mul_le_mul_of_nonneg_right hs hη])⟩

/-- **C132** The rounding errors do not add up for ever: if `tau sigma < 2` and `156 u ≤ 1 - |1 - tau sigma|`, then after any number of
iterations, however large, the vector returned is in the box and within `|1 - tau sigma|^n ‖x0 - c‖ + 156 u B / (1 - |1 - tau sigma|)`
of the solution. -/
theorem C132_l2_box_forever (hr : Rounding rnd u) (val : Vec ι → Py CallVal) {σ τ ε B : ℝ} (hσ : 0 < σ) (hτ : 0 < τ) (hτσ : τ * σ < 2)
    (hε : 0 < ε) (hu156 : 156 * u ≤ 1 - |1 - τ * σ|) (lower upper : ι → Option ℝ)
    (hne : ∀ i a b, lower i = some a → upper i = some b → a ≤ b) (b x0 c : Vec ι) (hc : IsProj (boxSet lower upper) b c)
    (hB : ‖x0‖ + 2 * ‖c‖ ≤ B) (hbB : ‖b‖ ≤ B) (n : ℕ) (hn0 : 0 < n) :
    ∃ s, ProximalGradientR rnd (L2GradR rnd val σ (some b)) (Box lower upper) x0 τ ε .none n = .ok s ∧
      s.x ∈ boxSet lower upper ∧ ‖s.x - c‖ ≤ |1 - τ * σ| ^ n * ‖x0 - c‖ + 156 * (u * B) / (1 - |1 - τ * σ|) := by
  have hq : |1 - τ * σ| < 1 := abs_lt.2 ⟨by linarith, by linarith [mul_pos hτ hσ]⟩
  have hB0 : 0 ≤ B := (norm_nonneg b).trans hbB
  have hη : 0 ≤ 156 * (u * B) := mul_nonneg (by norm_num) (mul_nonneg hr.nonneg_u hB0)
  have hs := mul_le_mul_of_nonneg_right (geom_sum_le_inv (abs_nonneg (1 - τ * σ)) hq n) hη
  rw [one_div_mul_eq_div] at hs
  have hle : 156 * (u * B) / (1 - |1 - τ * σ|) ≤ B := by
    rw [div_le_iff₀ (by linarith)]
    linarith [mul_le_mul_of_nonneg_right hu156 hB0]
  obtain ⟨s, h1, h2, h3⟩ := pgR_l2_box_q hr val hσ hτ hτσ.le hε lower upper hne b x0 c hc hB hbB n hn0 (hs.trans hle)
  exact ⟨s, h1, h2, h3.trans (by linarith)⟩

/-- The distance to the minimiser. -/
theorem pgR_l2_l1_solution_q (hr : Rounding rnd u) (val val' : Vec ι → Py CallVal) {σ τ ε lam : ℝ} (hσ : 0 < σ) (hτ : 0 < τ)
    (hτσ : τ * σ ≤ 2) (hε : 0 < ε) (hlam : 0 ≤ lam) (b x0 c : Vec ι)
    (hc : ∀ y : Vec ι, σ / 2 * ‖c - b‖ ^ 2 + ε * (lam * ∑ i, |c i|) ≤ σ / 2 * ‖y - b‖ ^ 2 + ε * (lam * ∑ i, |y i|)) (n : ℕ) (hn0 : 0 < n)
    (hn : (∑ i ∈ Finset.range n, |1 - τ * σ| ^ i) * (u * (324 * (‖x0‖ + 2 * ‖b‖) + 3 * (ε * τ * lam * √(Fintype.card ι)))) ≤ ‖x0‖ + 2 * ‖b‖) :
    ∃ s, ProximalGradientR rnd (L2GradR rnd val σ (some b)) (L1R rnd val' lam none) x0 τ ε .none n = .ok s ∧
      ‖s.x - c‖ ≤ |1 - τ * σ| ^ n * ‖x0 - c‖ + (∑ i ∈ Finset.range n, |1 - τ * σ| ^ i) * (u * (324 * (‖x0‖ + 2 * ‖b‖) + 3 * (ε * τ * lam * √(Fintype.card ι)))) := by
  have hετ : 0 < ε * τ := mul_pos hε hτ
  have hT : 0 ≤ ε * τ * lam := mul_nonneg hετ.le hlam
  let f : ProxOp (Vec ι) := L2GradR (fun v => v) val σ (some b)
  have hf : ∀ v, f.grad v = .ok (σ • (v - b)) := fun v => rfl
  have hPs : ∀ x : Vec ι, (L1 lam none).prox x (ε * τ) = .ok (softthreshold x fun _ => ε * τ * lam) := fun x => by
    simp [ProxOp.prox, L1, checkTau, not_le.mpr hετ]
  obtain ⟨p, hp1, hp2⟩ := C11_l1_prox lam hlam none b (ε / σ) (div_pos hε hσ)
  have hp3 : (L1 lam none).prox b (ε / σ) = .ok (softthreshold b fun _ => ε / σ * lam) := by
    simp [ProxOp.prox, L1, checkTau, not_le.mpr (div_pos hε hσ)]
  rw [hp3] at hp1
  cases hp1
  obtain rfl := hp2.2 c (by
    refine ⟨trivial, fun y _ => ?_⟩
    have e : ∀ z : Vec ι, proxObj (XFun.ofReal fun y : Vec ι => lam * ∑ i, |y i - ((none : Option (Vec ι)).getD 0) i|) (ε / σ) b z =
        (σ / 2 * ‖z - b‖ ^ 2 + ε * (lam * ∑ i, |z i|)) / ε := fun z => by
      simp only [proxObj, XFun.ofReal, Option.getD_none, PiLp.zero_apply, sub_zero]
      field_simp
      ring
    rw [e, e]
    exact div_le_div_of_nonneg_right (hc y) hε.le)
  obtain ⟨s, e, h1, h2, h3, -⟩ := pgR_l2_l1_q hr val val' hσ hτ hτσ hε hlam b x0 hf n hn0 hn
  refine ⟨s, h1, ?_⟩
  have h4 := pg_contract hf hPs (fun x y => by
      rw [EuclideanSpace.norm_eq, EuclideanSpace.norm_eq]
      exact Real.sqrt_le_sqrt (Finset.sum_le_sum fun i _ => pow_le_pow_left₀ (norm_nonneg _) (softScalar_lip (x i) (y i) _ hT) 2))
    (abs_nonneg _) (fun x y => (l2_forward τ σ b x y).le) x0 (softthreshold b fun _ => ε / σ * lam) (by
      ext i
      have := soft_fixed hσ hτ hε hlam (b i)
      rw [mul_div_right_comm] at this
      exact this) n hn0 h2
  have h5 := norm_sub_le_norm_sub_add_norm_sub s.x e.x (softthreshold b fun _ => ε / σ * lam)
  linarith

/-- **C132** The same for `g = L1(sigma=lam)`: what is returned after `n` iterations is within
`|1 - tau sigma|^n ‖x0 - c‖ + n u (324 B + 3 eps tau lam sqrt d)` of the minimiser `c` of `sigma/2 ‖x - b‖² + eps lam ‖x‖₁`. -/
theorem C132_l2_l1_solution (hr : Rounding rnd u) (val val' : Vec ι → Py CallVal) {σ τ ε lam : ℝ} (hσ : 0 < σ) (hτ : 0 < τ)
    (hτσ : τ * σ ≤ 2) (hε : 0 < ε) (hlam : 0 ≤ lam) (b x0 c : Vec ι)
    (hc : ∀ y : Vec ι, σ / 2 * ‖c - b‖ ^ 2 + ε * (lam * ∑ i, |c i|) ≤ σ / 2 * ‖y - b‖ ^ 2 + ε * (lam * ∑ i, |y i|)) (n : ℕ) (hn0 : 0 < n)
    (hn : n * (u * (324 * (‖x0‖ + 2 * ‖b‖) + 3 * (ε * τ * lam * √(Fintype.card ι)))) ≤ ‖x0‖ + 2 * ‖b‖) :
    ∃ s, ProximalGradientR rnd (L2GradR rnd val σ (some b)) (L1R rnd val' lam none) x0 τ ε .none n = .ok s ∧
      ‖s.x - c‖ ≤ |1 - τ * σ| ^ n * ‖x0 - c‖ + n * (u * (324 * (‖x0‖ + 2 * ‖b‖) + 3 * (ε * τ * lam * √(Fintype.card ι)))) := by
  have hs : ∑ i ∈ Finset.range n, |1 - τ * σ| ^ i ≤ n := geom_sum_le_card (abs_nonneg _) (abs_le.2 ⟨by linarith, by linarith [mul_pos hτ hσ]⟩) n
  have hη : 0 ≤ u * (324 * (‖x0‖ + 2 * ‖b‖) + 3 * (ε * τ * lam * √(Fintype.card ι))) := mul_nonneg hr.nonneg_u (by positivity)
  obtain ⟨s, h1, h2⟩ := pgR_l2_l1_solution_q hr val val' hσ hτ hτσ hε hlam b x0 c hc n hn0 ((mul_le_mul_of_nonneg_right hs hη).trans hn)
  exact ⟨s, h1, h2.trans (by linarith [mul_le_mul_of_nonneg_right hs hη])⟩

/-- **C132** For `L1` too the rounding errors do not add up for ever: if `tau sigma < 2` and the errors of one iteration are at most
`(1 - |1 - tau sigma|) B`, the bound holds with `1 / (1 - |1 - tau sigma|)` in place of the number of iterations. -/
theorem C132_l2_l1_forever (hr : Rounding rnd u) (val val' : Vec ι → Py CallVal) {σ τ ε lam : ℝ} (hσ : 0 < σ) (hτ : 0 < τ)
    (hτσ : τ * σ < 2) (hε : 0 < ε) (hlam : 0 ≤ lam) (b x0 c : Vec ι)
    (hc : ∀ y : Vec ι, σ / 2 * ‖c - b‖ ^ 2 + ε * (lam * ∑ i, |c i|) ≤ σ / 2 * ‖y - b‖ ^ 2 + ε * (lam * ∑ i, |y i|))
    (hu1 : u * (324 * (‖x0‖ + 2 * ‖b‖) + 3 * (ε * τ * lam * √(Fintype.card ι))) ≤ (1 - |1 - τ * σ|) * (‖x0‖ + 2 * ‖b‖)) (n : ℕ) (hn0 : 0 < n) :
    ∃ s, ProximalGradientR rnd (L2GradR rnd val σ (some b)) (L1R rnd val' lam none) x0 τ ε .none n = .ok s ∧
      ‖s.x - c‖ ≤ |1 - τ * σ| ^ n * ‖x0 - c‖ + u * (324 * (‖x0‖ + 2 * ‖b‖) + 3 * (ε * τ * lam * √(Fintype.card ι))) / (1 - |1 - τ * σ|) := by
  have hq : |1 - τ * σ| < 1 := abs_lt.2 ⟨by linarith, by linarith [mul_pos hτ hσ]⟩
  have hη : 0 ≤ u * (324 * (‖x0‖ + 2 * ‖b‖) + 3 * (ε * τ * lam * √(Fintype.card ι))) := mul_nonneg hr.nonneg_u (by positivity)
  have hs := mul_le_mul_of_nonneg_right (geom_sum_le_inv (abs_nonneg (1 - τ * σ)) hq n) hη
  rw [one_div_mul_eq_div] at hs
  have hle : u * (324 * (‖x0‖ + 2 * ‖b‖) + 3 * (ε * τ * lam * √(Fintype.card ι))) / (1 - |1 - τ * σ|) ≤ ‖x0‖ + 2 * ‖b‖ := by
    rw [div_le_iff₀ (by linarith), mul_comm (‖x0‖ + 2 * ‖b‖)]
    exact hu1
  obtain ⟨s, h1, h2⟩ := pgR_l2_l1_solution_q hr val val' hσ hτ hτσ.le hε hlam b x0 c hc n hn0 (hs.trans hle)
  exact ⟨s, h1, h2.trans (by linarith)⟩

/-- **C132** The general form, for a `μ`-strongly convex `f` and `tau (L + μ) ≤ 2`: with `η` the error of one iteration and
`η ≤ tau μ B`, the vector returned after any number `n` of iterations is within `(1 - tau μ)^n ‖x0 - c‖ + η / (tau μ)` of the
minimiser `c` of `φ + eps F`. -/
theorem C132_error_forever (hr : Rounding rnd u) {φ : Vec ι → ℝ} {F : XFun (Vec ι)} {f g fR gR : ProxOp (Vec ι)} {τ ε δ γ M B L μ : ℝ}
    (hf : GradExact f φ) (hL : LipschitzGrad φ L) (hφ : StrongConvexOn Set.univ μ φ) (hμ : 0 < μ) (hμL : μ ≤ L) (hF : F.Convex)
    (hg : ProxExact g F) (hε : 0 < ε) (hτ : 0 < τ) (hτL : τ * (L + μ) ≤ 2) (x0 c : Vec ι) (hc : (compositeObj φ ε F).IsMin c)
    (hB : ‖x0 - c‖ + ‖c‖ ≤ B)
    (hfR : ∀ v, ∃ y, fR.grad v = .ok y ∧ (‖v‖ ≤ 4 * B → ‖y‖ ≤ M ∧ ∀ p, f.grad v = .ok p → ‖y - p‖ ≤ γ))
    (hgR : ∀ v, ∃ y, gR.prox v (rnd (ε * τ)) = .ok y ∧
      (‖v‖ ≤ 8 * B + 4 * (τ * M) → ∀ p, g.prox v (ε * τ) = .ok p → ‖y - p‖ ≤ δ))
    (hη : δ + τ * γ + 3 * u * (2 * B + τ * M) ≤ τ * μ * B) (n : ℕ) (hn0 : 0 < n) :
    ∃ s, ProximalGradientR rnd fR gR x0 τ ε .none n = .ok s ∧
      ‖s.x - c‖ ≤ (1 - τ * μ) ^ n * ‖x0 - c‖ + (δ + τ * γ + 3 * u * (2 * B + τ * M)) / (τ * μ) := by
  obtain ⟨G, hG, hGr⟩ := gradExact_map hf
  obtain ⟨P, hP, hPx⟩ := pg_maps hg hε hτ
  have hφc : ConvexOn ℝ Set.univ φ := by simpa using hφ.mono hμ.le
  have hFc := smulConvex hF hε.le
  have hLip : ∀ x y, ‖G x - G y‖ ≤ L * ‖x - y‖ := fun x y => hL x y _ _ (hGr x) (hGr y)
  have hτμ : 0 < τ * μ := mul_pos hτ hμ
  have hτμ1 : τ * μ ≤ 1 := by linarith [mul_le_mul_of_nonneg_left hμL hτ.le]
  have hq := fun x y => forward_contract hGr hLip hφ hμL hτ hτL x y
  have hu := hr.nonneg_u
  have hB0 : 0 ≤ B := by linarith [norm_nonneg (x0 - c), norm_nonneg c]
  have hM : 0 ≤ M := by
    obtain ⟨y, -, h⟩ := hfR 0
    exact (norm_nonneg _).trans (h (by simpa using hB0)).1
  have hγ : 0 ≤ γ := by
    obtain ⟨y, -, h⟩ := hfR 0
    exact (norm_nonneg _).trans ((h (by simpa using hB0)).2 _ (hG 0))
  have hδ : 0 ≤ δ := by
    obtain ⟨y, -, h⟩ := hgR 0
    exact (norm_nonneg _).trans (h (by rw [norm_zero]; positivity) _ (hP 0))
  have hfix := (pg_fixed_iff hφc hFc hτ hGr hPx c).2 hc
  have hs := mul_le_mul_of_nonneg_right (geom_sum_le_inv (sub_nonneg.2 hτμ1) (by linarith : 1 - τ * μ < 1) n)
    (show 0 ≤ δ + τ * γ + 3 * u * (2 * B + τ * M) by positivity)
  rw [one_div_mul_eq_div, sub_sub_cancel] at hs
  have hle : (δ + τ * γ + 3 * u * (2 * B + τ * M)) / (τ * μ) ≤ B := by
    rw [div_le_iff₀ hτμ, mul_comm B]
    exact hη
  obtain ⟨s, e, h1, h2, h3, -⟩ := pgR_drift_q hr hτ hG hP (fun x y => (firm_prox hFc hτ hPx).nonexp x y) (sub_nonneg.2 hτμ1)
    (by linarith) hq x0 c hfix hB hM hδ hγ
    (fun v => by
      obtain ⟨y, h1, h2⟩ := hfR v
      exact ⟨y, h1, fun hv => ⟨(h2 hv).1, (h2 hv).2 _ (hG v)⟩⟩)
    (fun v => by
      obtain ⟨y, h1, h2⟩ := hgR v
      exact ⟨y, h1, fun hv => h2 hv _ (hP v)⟩) n hn0 (hs.trans hle)
  have h4 := pg_contract hG hP (fun x y => (firm_prox hFc hτ hPx).nonexp x y) (sub_nonneg.2 hτμ1) hq x0 c hfix n hn0 h2
  refine ⟨s, h1, ?_⟩
  have h5 := norm_sub_le_norm_sub_add_norm_sub s.x e.x c
  linarith

/-- **C132** Where the rounded solver stalls: if the step cannot be seen next to the entries of `x0` and the prox of `g` keeps
`x0`, then every number of iterations and every acceleration return `x0`, however far `x0` is from a minimiser. -/
theorem C132_stalls (hr : Rounding rnd u) (f g : ProxOp (Vec ι)) (x0 gy : Vec ι) (τ ε : ℝ) (acc : Accel) (hacc : acc ≠ .other)
    (hx : ∀ i, IsFloat rnd (x0 i)) (hg : f.grad x0 = .ok gy) (hs : ∀ i, rnd (x0 i - rnd (τ * gy i)) = x0 i)
    (hp : g.prox x0 (rnd (ε * τ)) = .ok x0) (n : ℕ) (hn : 0 < n) :
    ∃ s, ProximalGradientR rnd f g x0 τ ε acc n = .ok s ∧ s.x = x0 := by
  have hz : rnd 0 = 0 := by
    have h := hr.odd 0
    rw [neg_zero] at h
    linarith
  have e1 : (StepSpec.scalar ε).printCheck n = .ok () := by simp [StepSpec.printCheck, hn.ne']
  have hv : subR rnd x0 (smulR rnd τ gy) = x0 := by
    ext i
    exact hs i
  have hy : ∀ w, addR rnd x0 (smulR rnd w (subR rnd x0 x0)) = x0 := fun w => by
    ext i
    have := hx i
    simp only [IsFloat] at this
    simp [addR, smulR, subR, hz, this]
  have key : ∀ (k i : ℕ) (s : PGState (Vec ι)), s.x = x0 → s.y = x0 → ∃ s', forRange (PGR.body rnd f g τ ε acc) k i s = .ok s' ∧ s'.x = x0 := by
    intro k
    induction k with
    | zero => intro i s h _; exact ⟨s, rfl, h⟩
    | succ k ih =>
      intro i s h1 h2
      have hb : PGR.body rnd f g τ ε acc i s = .ok (⟨x0, x0, (momentumR rnd acc i s.t).2, τ, none, s.log ++ [x0]⟩, false) := by
        simp [PGR.body, h1, h2, hg, hv, hp, hy, Bind.bind, Except.bind, Pure.pure, Except.pure]
      simp only [forRange, hb]
      exact ih (i + 1) _ rfl rfl
  unfold ProximalGradientR
  rw [e1]
  simp only [Bind.bind, Except.bind, if_neg hacc]
  exact key n 0 _ rfl rfl

/-! ### The hypotheses are met -/

/-- Double precision, a million iterations. -/
example (ext : L2Ext (Vec (Fin 2)) (Vec (Fin 2)) ℝ) (st : L2State (Vec (Fin 2)) ℝ) :
    ∃ s e, ProximalGradientR (nearBits 52) (L2GradR (nearBits 52) (fun _ => .ok (.num 0)) 1 (some (vmk fun _ : Fin 2 => (1 : ℝ))))
        (L1R (nearBits 52) (fun _ => .ok (.num 0)) 0 none) 0 1 1 .none 1000000 = .ok s ∧
      ProximalGradient (L2.obj ext (l2Plain (.bOnly (vmk fun _ : Fin 2 => (1 : ℝ))) 1) st) (L1 0 none) 0 (pgArgs 1 1 .none 1000000) = .ok e ∧ ‖s.x - e.x‖ ≤ (2 : ℝ) ^ (-20 : ℤ) := by
  have hb : ‖(vmk fun _ : Fin 2 => (1 : ℝ) : Vec (Fin 2))‖ ≤ 2 := by
    rw [EuclideanSpace.norm_eq]
    exact Real.sqrt_le_iff.2 ⟨by norm_num, by norm_num⟩
  obtain ⟨s, e, h1, h2, h3, -⟩ := C132_l2_l1 (nearBits_rounding 52 (by norm_num)) (fun _ => .ok (.num 0)) (fun _ => .ok (.num 0)) ext st (σ := 1) (τ := 1)
    (ε := 1) (lam := 0) one_pos one_pos (by norm_num) one_pos le_rfl (vmk fun _ : Fin 2 => (1 : ℝ)) 0 1000000 (by norm_num) (by
      norm_num
      linarith [norm_nonneg (vmk fun _ : Fin 2 => (1 : ℝ) : Vec (Fin 2))])
  refine ⟨s, e, h1, h2, h3.trans ?_⟩
  norm_num
  linarith

/-- Double precision, a thousand iterations with `tau = 1/2` on the box `[0, 1]`: the result is in the box and within `2^-30` of the solution. -/
example : ∃ s, ProximalGradientR (nearBits 52) (L2GradR (nearBits 52) (fun _ => .ok (.num 0)) 1 (some (vmk fun _ : Fin 2 => (2 : ℝ))))
    (Box (fun _ : Fin 2 => some 0) fun _ => some 1) 0 (1 / 2) 1 .none 1000 = .ok s ∧
    s.x ∈ boxSet (fun _ : Fin 2 => some 0) (fun _ => some 1) ∧ ‖s.x - vmk fun _ : Fin 2 => (1 : ℝ)‖ ≤ (2 : ℝ) ^ (-30 : ℤ) := by
  have hn1 : ‖(vmk fun _ : Fin 2 => (1 : ℝ) : Vec (Fin 2))‖ ≤ 2 := by
    rw [EuclideanSpace.norm_eq]
    exact Real.sqrt_le_iff.2 ⟨by norm_num, by norm_num⟩
  have hn2 : ‖(vmk fun _ : Fin 2 => (2 : ℝ) : Vec (Fin 2))‖ ≤ 4 := by
    rw [EuclideanSpace.norm_eq]
    exact Real.sqrt_le_iff.2 ⟨by norm_num, by norm_num⟩
  have hne : ∀ (i : Fin 2) (a b : ℝ), (fun _ : Fin 2 => some (0 : ℝ)) i = some a → (fun _ : Fin 2 => some (1 : ℝ)) i = some b → a ≤ b := by
    rintro i a b ⟨⟩ ⟨⟩
    norm_num
  have hc : IsProj (boxSet (fun _ : Fin 2 => some (0 : ℝ)) (fun _ => some 1)) (vmk fun _ : Fin 2 => (2 : ℝ)) (vmk fun _ : Fin 2 => (1 : ℝ)) := by
    obtain ⟨p, h1, h2⟩ := C21_box_prox _ _ hne (vmk fun _ : Fin 2 => (2 : ℝ)) 1 one_pos
    have h3 : (Box (fun _ : Fin 2 => some (0 : ℝ)) fun _ => some 1).prox (vmk fun _ : Fin 2 => (2 : ℝ)) 1 = .ok (vmk fun _ : Fin 2 => (1 : ℝ)) := by
      simp only [ProxOp.prox, Box, checkTau, if_neg (not_le.2 (one_pos (α := ℝ)))]
      congr 1
      ext i
      change min (max (2 : ℝ) 0) 1 = 1
      norm_num
    rw [h3] at h1
    cases h1
    exact h2.1
  obtain ⟨s, h1, h2, h3⟩ := C132_l2_box (nearBits_rounding 52 (by norm_num)) (fun _ => .ok (.num 0)) (σ := 1) (τ := 1 / 2) (ε := 1) (B := 4)
    one_pos (by norm_num) (by norm_num) one_pos _ _ hne (vmk fun _ : Fin 2 => (2 : ℝ)) 0 _ hc (by rw [norm_zero]; linarith) hn2 1000
    (by norm_num) (by norm_num)
  refine ⟨s, h1, h2, h3.trans ?_⟩
  rw [zero_sub, norm_neg]
  have h4 : |1 - 1 / 2 * (1 : ℝ)| ^ 1000 ≤ (2 : ℝ) ^ (-40 : ℤ) := by
    rw [show |1 - 1 / 2 * (1 : ℝ)| = 1 / 2 by rw [abs_of_pos] <;> norm_num]
    refine (pow_le_pow_of_le_one (by norm_num) (by norm_num) (show 40 ≤ 1000 by norm_num)).trans ?_
    norm_num
  have h5 := mul_le_mul h4 hn1 (norm_nonneg _) (by positivity)
  refine (add_le_add_left h5 _).trans ?_
  norm_num

/-- Double precision, `L1` with `sigma = 1`, `b = (2, 2)`, `tau = 1/2`: after any number of iterations from zero the result is within
`2^-n ‖c‖ + 2^-40` of the minimiser `c`. -/
example : ∃ c : Vec (Fin 2), ∀ n, 0 < n → ∃ s, ProximalGradientR (nearBits 52)
    (L2GradR (nearBits 52) (fun _ => .ok (.num 0)) 1 (some (vmk fun _ : Fin 2 => (2 : ℝ)))) (L1R (nearBits 52) (fun _ => .ok (.num 0)) 1 none)
    0 (1 / 2) 1 .none n = .ok s ∧ ‖s.x - c‖ ≤ (1 / 2 : ℝ) ^ n * ‖c‖ + (2 : ℝ) ^ (-40 : ℤ) := by
  obtain ⟨c, -, hc⟩ := C11_l1_prox 1 zero_le_one none (vmk fun _ : Fin 2 => (2 : ℝ)) 1 one_pos
  have hb1 : 2 ≤ ‖(vmk fun _ : Fin 2 => (2 : ℝ) : Vec (Fin 2))‖ := by
    rw [EuclideanSpace.norm_eq]
    refine Real.le_sqrt_of_sq_le ?_
    rw [Fin.sum_univ_two]
    norm_num
  have hb2 : ‖(vmk fun _ : Fin 2 => (2 : ℝ) : Vec (Fin 2))‖ ≤ 4 := by
    rw [EuclideanSpace.norm_eq]
    exact Real.sqrt_le_iff.2 ⟨by norm_num, by norm_num⟩
  have h2 : √(2 : ℝ) ≤ 2 := Real.sqrt_le_iff.2 ⟨by norm_num, by norm_num⟩
  have hq : |1 - 1 / 2 * (1 : ℝ)| = 1 / 2 := by rw [abs_of_pos] <;> norm_num
  refine ⟨c, fun n hn => ?_⟩
  obtain ⟨s, h1, h3⟩ := C132_l2_l1_forever (nearBits_rounding 52 (by norm_num)) (fun _ => .ok (.num 0)) (fun _ => .ok (.num 0)) (σ := 1)
    (τ := 1 / 2) (ε := 1) (lam := 1) one_pos (by norm_num) (by norm_num) one_pos zero_le_one (vmk fun _ : Fin 2 => (2 : ℝ)) 0 c
    (fun y => by
      have h := hc.1.2 y trivial
      simp only [proxObj, XFun.ofReal, Option.getD_none, PiLp.zero_apply, sub_zero] at h
      linarith)
    (by
      rw [hq, norm_zero, Fintype.card_fin]
      push_cast
      norm_num
      linarith) n hn
  refine ⟨s, h1, h3.trans ?_⟩
  rw [hq, zero_sub, norm_neg, norm_zero, Fintype.card_fin]
  refine add_le_add_right ?_ _
  push_cast
  norm_num
  linarith

/-- The same for the box `[0, 1]`, without a bound on the number of iterations. -/
example (n : ℕ) (hn : 0 < n) (c : Vec (Fin 2)) (hc : IsProj (boxSet (fun _ : Fin 2 => some (0 : ℝ)) (fun _ => some 1)) 0 c) (hc0 : ‖c‖ ≤ 2) :
    ∃ s, ProximalGradientR (nearBits 52) (L2GradR (nearBits 52) (fun _ => .ok (.num 0)) 1 (some 0))
      (Box (fun _ : Fin 2 => some 0) fun _ => some 1) 0 (1 / 2) 1 .none n = .ok s ∧
      s.x ∈ boxSet (fun _ : Fin 2 => some 0) (fun _ => some 1) ∧
      ‖s.x - c‖ ≤ |1 - 1 / 2 * (1 : ℝ)| ^ n * ‖0 - c‖ + 156 * ((2 : ℝ) ^ (-53 : ℤ) * 4) / (1 - |1 - 1 / 2 * (1 : ℝ)|) := by
  have hq : |1 - 1 / 2 * (1 : ℝ)| = 1 / 2 := by rw [abs_of_pos] <;> norm_num
  have h := C132_l2_box_forever (nearBits_rounding 52 (by norm_num)) (fun _ => .ok (.num 0)) (σ := 1) (τ := 1 / 2) (ε := 1) (B := 4)
    one_pos (by norm_num) (by norm_num) one_pos (by rw [hq]; norm_num) _ _ (by rintro i a b ⟨⟩ ⟨⟩; norm_num) 0 0 c hc
    (by rw [norm_zero]; linarith) (by norm_num) n hn
  norm_num at h ⊢
  exact h

/-- Used in the next instance. -/
theorem isGrad_half_norm_sq {E : Type} [NormedAddCommGroup E] [InnerProductSpace ℝ E] (x : E) : IsGrad (fun x : E => 1 / 2 * ‖x‖ ^ 2) x x := by
  have h1 : HasFDerivAt (fun x : E => 1 / 2 * ‖x‖ ^ 2) ((1 / 2 : ℝ) • (2 • innerSL ℝ x)) x := ((hasStrictFDerivAt_norm_sq x).hasFDerivAt).const_mul (1 / 2)
  unfold IsGrad
  convert h1 using 1
  ext v
  simp

/-- The hypotheses of `C132_error_forever` hold for `‖x‖²/2` on the box `[0, 1]` in double precision, `tau = 1/2`, a start of norm at most 4. -/
example (x0 : Vec (Fin 2)) (hx0 : ‖x0‖ ≤ 4) (n : ℕ) (hn : 0 < n) :
    ∃ s, ProximalGradientR (nearBits 52) (L2GradR (nearBits 52) (fun _ => .ok (.num 0)) 1 (some 0))
      (Box (fun _ : Fin 2 => some 0) fun _ => some 1) x0 (1 / 2) 1 .none n = .ok s ∧ ‖s.x‖ ≤ (1 / 2 : ℝ) ^ n * ‖x0‖ + (2 : ℝ) ^ (-40 : ℤ) := by
  have hr := nearBits_rounding 52 (by norm_num)
  have hgr : ∀ x : Vec (Fin 2), IsGrad (fun x : Vec (Fin 2) => 1 / 2 * ‖x‖ ^ 2) x x := isGrad_half_norm_sq
  have huniq : ∀ x g : Vec (Fin 2), IsGrad (fun x : Vec (Fin 2) => 1 / 2 * ‖x‖ ^ 2) x g → g = x := fun x g h => by
    have := HasFDerivAt.unique h (hgr x)
    exact ext_inner_right ℝ fun v => congrArg (fun T => T v) this
  have hgrad : ∀ x : Vec (Fin 2), (L2GradR (fun v => v) (fun _ => .ok (.num 0)) 1 (some 0)).grad x = .ok ((1 : ℝ) • (x - 0)) := fun x => rfl
  have hne : ∀ (i : Fin 2) (a b : ℝ), (fun _ : Fin 2 => some (0 : ℝ)) i = some a → (fun _ : Fin 2 => some (1 : ℝ)) i = some b → a ≤ b := by
    rintro i a b ⟨⟩ ⟨⟩
    norm_num
  have hP : ∀ t, 0 < t → ∀ x : Vec (Fin 2), (Box (fun _ : Fin 2 => some (0 : ℝ)) fun _ => some 1).prox x t = .ok (boxProj (fun _ : Fin 2 => some (0 : ℝ)) (fun _ => some 1) x) := fun t ht x => by
    simp [ProxOp.prox, Box, checkTau, not_le.mpr ht]
  have hrt : 0 < nearBits 52 (1 * (1 / 2)) := by
    have : (1 * (1 / 2) : ℝ) = (2 : ℝ) ^ (-1 : ℤ) := by norm_num
    rw [this, nearBits_zpow]
    positivity
  obtain ⟨s, h1, h2⟩ := C132_error_forever hr (φ := fun x : Vec (Fin 2) => 1 / 2 * ‖x‖ ^ 2)
    (F := XFun.indicator (boxSet (fun _ : Fin 2 => some (0 : ℝ)) fun _ => some 1)) (f := L2GradR (fun v => v) (fun _ => .ok (.num 0)) 1 (some 0))
    (fR := L2GradR (nearBits 52) (fun _ => .ok (.num 0)) 1 (some 0)) (τ := 1 / 2) (ε := 1) (L := 1) (μ := 1) (B := 4) (δ := 0)
    (γ := 15 * (1 * (1 / 2 * (2 ^ 52)⁻¹ * 4))) (M := 20 * (1 * 4))
    (fun x => ⟨_, hgrad x, by rw [one_smul, sub_zero]; exact hgr x⟩)
    (fun x y gx gy hx hy => by rw [huniq x gx hx, huniq y gy hy, one_mul]) (strong_half_sq 1) one_pos le_rfl
    (indicator_convex (boxSet_convex _ _)) (box_proxExact _ _ hne) one_pos (by norm_num) (by norm_num) x0 0
    ⟨⟨trivial, fun i => ⟨fun l hl => by cases hl; exact le_rfl, fun l hl => by cases hl; exact zero_le_one⟩⟩, fun y _ => by
      simp only [compositeObj, XFun.add, XFun.ofReal, XFun.smul, XFun.indicator]
      have := sq_nonneg ‖y‖
      simp⟩
    (by simpa using hx0)
    (fun v => ⟨_, rfl, fun hv => by
      have h := l2GradR_err hr (σ := 1) (B := 4) one_pos (b := (0 : Vec (Fin 2))) (by norm_num) hv
      refine ⟨h.1, fun p hp => ?_⟩
      rw [hgrad] at hp
      cases hp
      exact h.2⟩)
    (fun v => ⟨_, hP _ hrt v, fun _ p hp => by
      rw [hP _ (by norm_num)] at hp
      cases hp
      rw [sub_self, norm_zero]⟩)
    (by norm_num) n hn
  refine ⟨s, h1, ?_⟩
  rw [sub_zero, sub_zero] at h2
  refine h2.trans ?_
  rw [show (1 - 1 / 2 * 1 : ℝ) = 1 / 2 by norm_num]
  refine add_le_add_right ?_ _
  norm_num

/-- A step of `2^-60` is not seen next to 1: with any acceleration a thousand iterations on `‖x‖²/2` over the box `[0, 1]`
return the start, although the minimiser is 0. -/
example (acc : Accel) (hacc : acc ≠ .other) : ∃ s, ProximalGradientR (nearBits 52) (L2GradR (nearBits 52) (fun _ => .ok (.num 0)) 1 none)
    (Box (fun _ : Fin 2 => some 0) fun _ => some 1) (vmk fun _ : Fin 2 => (1 : ℝ)) ((2 : ℝ) ^ (-60 : ℤ)) 1 acc 1000 = .ok s ∧
    s.x = vmk fun _ : Fin 2 => (1 : ℝ) := by
  have h := nearBits_rounding 52 (by norm_num)
  refine C132_stalls h _ _ (vmk fun _ : Fin 2 => (1 : ℝ)) (smulR (nearBits 52) 1 (vmk fun _ : Fin 2 => (1 : ℝ))) _ _ acc hacc
    (fun i => show nearBits 52 1 = 1 from h.one) rfl (fun i => ?_) ?_ 1000 (by norm_num)
  · change nearBits 52 (1 - nearBits 52 ((2 : ℝ) ^ (-60 : ℤ) * nearBits 52 (1 * 1))) = 1
    rw [mul_one, h.one, mul_one, nearBits_zpow]
    exact nearBits_absorb_sub 52 (by positivity) (by norm_num)
  · have hpos : ¬ (2 : ℝ) ^ (-60 : ℤ) ≤ 0 := not_le.2 (by positivity)
    rw [one_mul, nearBits_zpow]
    simp only [ProxOp.prox, Box, checkTau, if_neg hpos]
    congr 1
    ext i
    change min (max (1 : ℝ) 0) 1 = 1
    norm_num

end Verif
