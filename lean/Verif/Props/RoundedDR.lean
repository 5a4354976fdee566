import Verif.Model.RoundedDR
import Verif.Props.RoundedPG
import Verif.Props.Inexact
import Verif.Props.PnP
import Verif.Props.Rounded3

/-!
# C133: `DouglasRachfordSplitting` in rounded arithmetic
-/

open scoped RealInnerProductSpace

namespace Verif

variable {ι : Type} [Fintype ι]
variable {rnd : ℝ → ℝ} {u : ℝ}

/-- **C133** Without rounding the rounded solver is the solver. -/
theorem C133_exact (f g : ProxOp (Vec ι)) (x0 : Vec ι) (τ η : ℝ) (n : ℕ) (gfirst : Bool) :
    DouglasRachfordR (fun v => v) f g x0 τ η n gfirst = DouglasRachford f g x0 τ η n gfirst := by
  have ha : ∀ x y : Vec ι, addR (fun v => v) x y = x + y := fun x y => rfl
  have hs : ∀ x y : Vec ι, subR (fun v => v) x y = x - y := fun x y => rfl
  have hm : ∀ (c : ℝ) (x : Vec ι), smulR (fun v => v) c x = c • x := fun c x => rfl
  have hb : DRR.body (fun v => v) f g τ η gfirst = DR.body f g τ η gfirst := by
    funext i s
    simp only [DRR.body, DR.body, ha, hs, hm]
  simp only [DouglasRachfordR, DouglasRachford, hb, Bind.bind, Except.bind]
  cases forRange (DR.body f g τ η gfirst) n 0 ⟨none, x0, []⟩ with
  | error er => rfl
  | ok s =>
    obtain ⟨x, y, l⟩ := s
    cases x <;> rfl

/-- One rounded iteration in terms of the computed maps. -/
noncomputable def drStepR (rnd : ℝ → ℝ) (P₁ P₂ : Vec ι → Vec ι) (η : ℝ) (y : Vec ι) : Vec ι :=
  addR rnd y (smulR rnd η (subR rnd (P₂ (subR rnd (smulR rnd 2 (P₁ y)) y)) (P₁ y)))

/-- The trajectory of the rounded solver: `P₁` is the computed map applied first. -/
theorem drR_traj {f g : ProxOp (Vec ι)} {τ : ℝ} {Pf Pg : Vec ι → Vec ι} (hf : ∀ x, f.prox x τ = .ok (Pf x))
    (hg : ∀ x, g.prox x τ = .ok (Pg x)) (η : ℝ) (gfirst : Bool) (x0 : Vec ι) :
    ∃ Y : ℕ → Vec ι, Y 0 = x0 ∧ (∀ n, Y (n + 1) = drStepR rnd (if gfirst then Pg else Pf) (if gfirst then Pf else Pg) η (Y n)) ∧
      ∀ n, DouglasRachfordR rnd f g x0 τ η (n + 1) gfirst =
        .ok ((if gfirst then Pg else Pf) (Y n), Y (n + 1), (List.range (n + 1)).map fun i => ((if gfirst then Pg else Pf) (Y i), Y (i + 1))) := by
  set P₁ := if gfirst then Pg else Pf with hP₁
  set P₂ := if gfirst then Pf else Pg with hP₂
  have hbody : ∀ i (s : DRState (Vec ι)), DRR.body rnd f g τ η gfirst i s =
      .ok (⟨some (P₁ s.y), drStepR rnd P₁ P₂ η s.y, s.log ++ [(P₁ s.y, drStepR rnd P₁ P₂ η s.y)]⟩, false) := by
    intro i s
    cases gfirst <;> simp [DRR.body, hf, hg, hP₁, hP₂, drStepR, Bind.bind, Except.bind, Pure.pure, Except.pure]
  obtain ⟨S, h0, -, h2, h3⟩ := forRange_traj_nobreak (DRR.body rnd f g τ η gfirst) (fun _ => True)
    (fun _ s s' => s' = ⟨some (P₁ s.y), drStepR rnd P₁ P₂ η s.y, s.log ++ [(P₁ s.y, drStepR rnd P₁ P₂ η s.y)]⟩)
    (fun i s _ => ⟨_, hbody i s, trivial, rfl⟩) ⟨none, x0, []⟩ trivial
  have hlog : ∀ n, (S n).log = (List.range n).map fun i => (P₁ (S i).y, (S (i + 1)).y) := by
    intro n
    induction n with
    | zero => rw [h0]; rfl
    | succ n ih => rw [h2 n, ih, List.range_succ, List.map_append]; simp [h2 n]
  refine ⟨fun n => (S n).y, by simp [h0], fun n => by simp [h2 n], fun n => ?_⟩
  simp only [DouglasRachfordR, h3 (n + 1), Bind.bind, Except.bind, Pure.pure, Except.pure]
  rw [← hlog (n + 1), h2 n]

/-- **C133** Whatever the rounding, the `x` that `DouglasRachfordSplitting` returns is a result of the prox applied first (that of `g`
if `gfirst`, otherwise that of `f`): a constraint this prox meets exactly is met exactly. -/
theorem C133_constraint (f g : ProxOp (Vec ι)) (x0 : Vec ι) (τ η : ℝ) (gfirst : Bool) (C : Vec ι → Prop)
    (hC : ∀ v y, (if gfirst then g else f).prox v τ = .ok y → C y) (n : ℕ) (r : Vec ι × Vec ι × List (Vec ι × Vec ι))
    (h : DouglasRachfordR rnd f g x0 τ η n gfirst = .ok r) : C r.1 := by
  have hb : ∀ i s s' b, DRR.body rnd f g τ η gfirst i s = .ok (s', b) → (∀ x, s'.x = some x → C x) ∧ b = false := by
    intro i s s' b hr
    cases gfirst with
    | true =>
      simp only [DRR.body, if_true, Bind.bind, Except.bind, Pure.pure, Except.pure] at hr
      cases h1 : g.prox s.y τ with
      | error er => rw [h1] at hr; cases hr
      | ok x =>
        rw [h1] at hr
        simp only [] at hr
        cases h2 : f.prox (subR rnd (smulR rnd 2 x) s.y) τ with
        | error er => rw [h2] at hr; cases hr
        | ok p =>
          rw [h2] at hr
          cases hr
          exact ⟨fun z hz => by cases hz; exact hC _ _ h1, rfl⟩
    | false =>
      simp only [DRR.body, Bool.false_eq_true, if_false, Bind.bind, Except.bind, Pure.pure, Except.pure] at hr
      cases h1 : f.prox s.y τ with
      | error er => rw [h1] at hr; cases hr
      | ok x =>
        rw [h1] at hr
        simp only [] at hr
        cases h2 : g.prox (subR rnd (smulR rnd 2 x) s.y) τ with
        | error er => rw [h2] at hr; cases hr
        | ok p =>
          rw [h2] at hr
          cases hr
          exact ⟨fun z hz => by cases hz; exact hC _ _ h1, rfl⟩
  have key : ∀ (n i : ℕ) (s0 s : DRState (Vec ι)), (∀ x, s0.x = some x → C x) →
      forRange (DRR.body rnd f g τ η gfirst) n i s0 = .ok s → ∀ x, s.x = some x → C x := by
    intro n
    induction n with
    | zero => intro i s0 s h0 h; cases h; exact h0
    | succ n ih =>
      intro i s0 s h0 h
      simp only [forRange] at h
      cases hr : DRR.body rnd f g τ η gfirst i s0 with
      | error er => rw [hr] at h; cases h
      | ok r =>
        obtain ⟨s1, b⟩ := r
        obtain ⟨h1, rfl⟩ := hb i s0 s1 b hr
        rw [hr] at h
        exact ih (i + 1) s1 s h1 h
  unfold DouglasRachfordR at h
  cases hr : forRange (DRR.body rnd f g τ η gfirst) n 0 ⟨none, x0, []⟩ with
  | error er => rw [hr] at h; cases h
  | ok s =>
    rw [hr] at h
    simp only [Bind.bind, Except.bind] at h
    cases hx : s.x with
    | none => rw [hx] at h; cases h
    | some x =>
      rw [hx] at h
      cases h
      exact key n 0 _ s (fun x hx => by cases hx) hr x hx

/-- The error of one iteration. -/
theorem drStepR_err (hr : Rounding rnd u) {P₁ P₂ Q₁ Q₂ : Vec ι → Vec ι} (h₁ : Firm P₁) (h₂ : Firm P₂) {η δ B : ℝ} (hη : 0 < η) (hη2 : η ≤ 2)
    (hδ : 0 ≤ δ) (hδB : δ ≤ B) {c : Vec ι} (hfix : P₂ ((2 : ℝ) • P₁ c - c) = P₁ c) (hc : ‖c‖ ≤ B) (hPc : ‖P₁ c‖ ≤ B)
    (hQ₁ : ∀ v, ‖v‖ ≤ 44 * B → ‖Q₁ v - P₁ v‖ ≤ δ) (hQ₂ : ∀ v, ‖v‖ ≤ 44 * B → ‖Q₂ v - P₂ v‖ ≤ δ) {y : Vec ι} (hy : ‖y‖ ≤ 2 * B) :
    ‖drStepR rnd Q₁ Q₂ η y - drStep P₁ P₂ η y‖ ≤ 8 * δ + 766 * (u * B) ∧ ‖Q₁ y - P₁ y‖ ≤ δ := by
  have hu := hr.nonneg_u
  have hB : 0 ≤ B := hδ.trans hδB
  have huB : 0 ≤ u * B := mul_nonneg hu hB
  have huB1 : u * B ≤ B := mul_le_of_le_one_left hB hr.lt.le
  have hsub : ∀ a b : Vec ι, ‖subR rnd a b - (a - b)‖ ≤ u * ‖a - b‖ := fun a b => norm_rnd_sub hr (a - b)
  have hadd : ∀ a b : Vec ι, ‖addR rnd a b - (a + b)‖ ≤ u * ‖a + b‖ := fun a b => norm_rnd_sub hr (a + b)
  have hmul : ∀ (k : ℝ) (a : Vec ι), ‖smulR rnd k a - k • a‖ ≤ u * ‖k • a‖ := fun k a => norm_rnd_sub hr (k • a)
  have hx := hQ₁ y (by linarith)
  have hX : ‖P₁ y‖ ≤ 4 * B := by
    have h1 := h₁.nonexp y c
    have h2 := norm_sub_norm_le (P₁ y) (P₁ c)
    linarith [norm_sub_le y c]
  have hX2 : ‖P₂ ((2 : ℝ) • P₁ y - y)‖ ≤ 10 * B := by
    have h1 := h₂.nonexp ((2 : ℝ) • P₁ y - y) ((2 : ℝ) • P₁ c - c)
    rw [hfix] at h1
    have h2 := norm_sub_norm_le (P₂ ((2 : ℝ) • P₁ y - y)) (P₁ c)
    have e : (2 : ℝ) • P₁ y - y - ((2 : ℝ) • P₁ c - c) = (2 : ℝ) • (P₁ y - P₁ c) - (y - c) := by module
    rw [e] at h1
    have h3 := norm_sub_le ((2 : ℝ) • (P₁ y - P₁ c)) (y - c)
    rw [norm_smul, Real.norm_two] at h3
    have h4 := h₁.nonexp y c
    linarith [norm_sub_le y c]
  unfold drStepR drStep
  refine ⟨?_, hx⟩
  generalize Q₁ y = x at *
  generalize P₁ y = X at *
  have hxn : ‖x‖ ≤ 5 * B := by linarith [norm_sub_norm_le x X]
  have d1 := hmul 2 x
  have n1 : ‖(2 : ℝ) • x‖ ≤ 10 * B := by rw [norm_smul, Real.norm_two]; linarith
  have d1' : ‖smulR rnd 2 x - (2 : ℝ) • x‖ ≤ 10 * (u * B) := d1.trans (by linarith [mul_le_mul_of_nonneg_left n1 hu])
  generalize smulR rnd 2 x = t at *
  have n2 : ‖t‖ ≤ 20 * B := by linarith [norm_sub_norm_le t ((2 : ℝ) • x)]
  have n3 : ‖t - y‖ ≤ 22 * B := (norm_sub_le _ _).trans (by linarith)
  have d2 : ‖subR rnd t y - (t - y)‖ ≤ 22 * (u * B) := (hsub t y).trans (by linarith [mul_le_mul_of_nonneg_left n3 hu])
  generalize subR rnd t y = w at *
  have n4 : ‖w‖ ≤ 44 * B := by linarith [norm_sub_norm_le w (t - y)]
  have d3 : ‖w - ((2 : ℝ) • X - y)‖ ≤ 2 * δ + 32 * (u * B) := by
    have e : w - ((2 : ℝ) • X - y) = (w - (t - y)) + (t - (2 : ℝ) • x) + (2 : ℝ) • (x - X) := by module
    rw [e]
    refine norm_add₃_le.trans ?_
    rw [norm_smul, Real.norm_two]
    linarith
  have d4 := hQ₂ w n4
  have d5 := (h₂.nonexp w ((2 : ℝ) • X - y)).trans d3
  generalize Q₂ w = p at *
  generalize P₂ ((2 : ℝ) • X - y) = Z at *
  have d6 : ‖p - Z‖ ≤ 3 * δ + 32 * (u * B) := (norm_sub_le_norm_sub_add_norm_sub p (P₂ w) Z).trans (by linarith)
  have n5 : ‖p‖ ≤ 45 * B := by linarith [norm_sub_norm_le p Z]
  have n6 : ‖p - x‖ ≤ 50 * B := (norm_sub_le _ _).trans (by linarith)
  have d7 : ‖subR rnd p x - (p - x)‖ ≤ 50 * (u * B) := (hsub p x).trans (by linarith [mul_le_mul_of_nonneg_left n6 hu])
  generalize subR rnd p x = q at *
  have n7 : ‖q‖ ≤ 100 * B := by linarith [norm_sub_norm_le q (p - x)]
  have d8 : ‖q - (Z - X)‖ ≤ 4 * δ + 82 * (u * B) := by
    have e : q - (Z - X) = (q - (p - x)) + (p - Z) - (x - X) := by module
    rw [e]
    refine (norm_sub_le _ _).trans ((add_le_add (norm_add_le _ _) le_rfl).trans ?_)
    linarith
  have n8 : ‖η • q‖ ≤ 200 * B := by
    rw [norm_smul, Real.norm_eq_abs, abs_of_pos hη]
    have := mul_le_mul hη2 n7 (norm_nonneg _) (by norm_num : (0 : ℝ) ≤ 2)
    linarith
  have d9 : ‖smulR rnd η q - η • q‖ ≤ 200 * (u * B) := (hmul η q).trans (by linarith [mul_le_mul_of_nonneg_left n8 hu])
  have d10 : ‖η • (q - (Z - X))‖ ≤ 8 * δ + 164 * (u * B) := by
    rw [norm_smul, Real.norm_eq_abs, abs_of_pos hη]
    have := mul_le_mul hη2 d8 (norm_nonneg _) (by norm_num : (0 : ℝ) ≤ 2)
    linarith
  generalize smulR rnd η q = m at *
  have n9 : ‖m‖ ≤ 400 * B := by linarith [norm_sub_norm_le m (η • q)]
  have n10 : ‖y + m‖ ≤ 402 * B := (norm_add_le _ _).trans (by linarith)
  have d11 : ‖addR rnd y m - (y + m)‖ ≤ 402 * (u * B) := (hadd y m).trans (by linarith [mul_le_mul_of_nonneg_left n10 hu])
  have e : addR rnd y m - (y + η • (Z - X)) = (addR rnd y m - (y + m)) + (m - η • q) + η • (q - (Z - X)) := by module
  rw [e]
  exact norm_add₃_le.trans (by linarith)

/-- **C133** `DouglasRachfordSplitting` in rounded arithmetic (either order, `0 < eta ≤ 2`) follows the exact run: the error grows at most
linearly with the iterations.  `c` is a value of `y` that an exact iteration leaves unchanged and `xc` the `x` it returns, a minimiser of
`F + G`; `B` bounds `‖x0 - c‖ + ‖c‖` and `‖xc‖`; on the points of norm at most `44 B` the computed prox are within `δ` of the exact ones.
Nothing is supposed of the computed run. -/
theorem C133_error (hr : Rounding rnd u) {F G : XFun (Vec ι)} (hF : F.Convex) (hG : G.Convex) {f g fR gR : ProxOp (Vec ι)}
    (hf : ProxExact f F) (hg : ProxExact g G) {τ η δ B : ℝ} (hτ : 0 < τ) (hη : 0 < η) (hη2 : η ≤ 2) (gfirst : Bool)
    (hfR : ∀ v, ∃ y, fR.prox v τ = .ok y ∧ (‖v‖ ≤ 44 * B → ∀ p, f.prox v τ = .ok p → ‖y - p‖ ≤ δ))
    (hgR : ∀ v, ∃ y, gR.prox v τ = .ok y ∧ (‖v‖ ≤ 44 * B → ∀ p, g.prox v τ = .ok p → ‖y - p‖ ≤ δ))
    (x0 c xc : Vec ι) (lc : List (Vec ι × Vec ι)) (hc : DouglasRachford f g c τ η 1 gfirst = .ok (xc, c, lc)) (hB : ‖x0 - c‖ + ‖c‖ ≤ B)
    (hxc : ‖xc‖ ≤ B) (n : ℕ) (hn0 : 0 < n) (hn : n * (8 * δ + 766 * (u * B)) ≤ B) :
    ∃ s e, DouglasRachfordR rnd fR gR x0 τ η n gfirst = .ok s ∧ DouglasRachford f g x0 τ η n gfirst = .ok e ∧
      ‖s.1 - e.1‖ ≤ n * (8 * δ + 766 * (u * B)) ∧ ‖s.2.1 - e.2.1‖ ≤ n * (8 * δ + 766 * (u * B)) ∧ ‖s.2.1‖ ≤ 2 * B := by
  have hu := hr.nonneg_u
  obtain ⟨Pf, hPf, hPf'⟩ := proxExact_map hf hτ
  obtain ⟨Pg, hPg, hPg'⟩ := proxExact_map hg hτ
  choose Qf hQf hQf' using hfR
  choose Qg hQg hQg' using hgR
  obtain ⟨Y, hY0, hY, h⟩ := dr_traj hPf hPg η gfirst x0
  obtain ⟨W, hW0, hW, hw⟩ := drR_traj (rnd := rnd) hQf hQg η gfirst x0
  obtain ⟨Z, hZ0, hZ, hz⟩ := dr_traj hPf hPg η gfirst c
  have firm1 : Firm (if gfirst then Pg else Pf) := by cases gfirst; exacts [firm_prox hF hτ hPf', firm_prox hG hτ hPg']
  have firm2 : Firm (if gfirst then Pf else Pg) := by cases gfirst; exacts [firm_prox hG hτ hPg', firm_prox hF hτ hPf']
  have q1 : ∀ v, ‖v‖ ≤ 44 * B → ‖(if gfirst then Qg else Qf) v - (if gfirst then Pg else Pf) v‖ ≤ δ := fun v hv => by
    cases gfirst; exacts [hQf' v hv _ (hPf v), hQg' v hv _ (hPg v)]
  have q2 : ∀ v, ‖v‖ ≤ 44 * B → ‖(if gfirst then Qf else Qg) v - (if gfirst then Pf else Pg) v‖ ≤ δ := fun v hv => by
    cases gfirst; exacts [hQg' v hv _ (hPg v), hQf' v hv _ (hPf v)]
  rw [hz 0] at hc
  injection hc with hc
  obtain ⟨c1, c2⟩ := Prod.mk.inj hc
  have c3 := (Prod.mk.inj c2).1
  have c4 := hZ 0
  rw [c3, hZ0] at c4
  rw [hZ0] at c1
  generalize (if gfirst then Pg else Pf) = P₁ at *
  generalize (if gfirst then Pf else Pg) = P₂ at *
  generalize (if gfirst then Qg else Qf) = Q₁ at *
  generalize (if gfirst then Qf else Qg) = Q₂ at *
  have hfix := (dr_fixed_firm hη.ne' c).1 c4.symm
  have hB0 : 0 ≤ B := (norm_nonneg _).trans hxc
  have hδ : 0 ≤ δ := (norm_nonneg _).trans (q1 0 (by rw [norm_zero]; positivity))
  have huB : 0 ≤ u * B := mul_nonneg hu hB0
  have hκ : 0 ≤ 8 * δ + 766 * (u * B) := by positivity
  have hn1 : 1 * (8 * δ + 766 * (u * B)) ≤ n * (8 * δ + 766 * (u * B)) := mul_le_mul_of_nonneg_right (by exact_mod_cast hn0) hκ
  have hδB : δ ≤ B := by linarith
  have hcB : ‖c‖ ≤ B := by linarith [norm_nonneg (x0 - c)]
  have hYc : ∀ k, ‖Y k - c‖ ≤ ‖x0 - c‖ := by
    intro k
    induction k with
    | zero => rw [hY0]
    | succ k ih =>
      have h1 := dr_nonexp firm1 firm2 hη.le hη2 (Y k) c
      rw [← hY, ← c4] at h1
      exact h1.trans ih
  have hYB : ∀ k, ‖Y k‖ ≤ B := fun k => by linarith [norm_sub_norm_le (Y k) c, hYc k]
  have hd : ∀ k, k ≤ n → ‖W k - Y k‖ ≤ k * (8 * δ + 766 * (u * B)) := by
    intro k
    induction k with
    | zero => intro _; rw [hW0, hY0, sub_self, norm_zero]; simp
    | succ k ih =>
      intro hk
      have ih := ih (by omega)
      have hkn : (k : ℝ) * (8 * δ + 766 * (u * B)) ≤ n * (8 * δ + 766 * (u * B)) :=
        mul_le_mul_of_nonneg_right (by exact_mod_cast (by omega : k ≤ n)) hκ
      have hWB : ‖W k‖ ≤ 2 * B := by linarith [norm_sub_norm_le (W k) (Y k), hYB k]
      have h1 := (drStepR_err hr firm1 firm2 hη hη2 hδ hδB hfix hcB (by rw [c1]; exact hxc) q1 q2 hWB).1
      have h2 := dr_nonexp firm1 firm2 hη.le hη2 (W k) (Y k)
      have h3 := norm_sub_le_norm_sub_add_norm_sub (W (k + 1)) (drStep P₁ P₂ η (W k)) (Y (k + 1))
      rw [hW, hY] at h3 ⊢
      push_cast
      linarith
  obtain ⟨m, rfl⟩ : ∃ m, n = m + 1 := ⟨n - 1, by omega⟩
  refine ⟨_, _, hw m, h m, ?_, hd _ le_rfl, ?_⟩
  · have h1 := hd m (Nat.le_succ m)
    have hWB : ‖W m‖ ≤ 2 * B := by
      push_cast at hn
      linarith [norm_sub_norm_le (W m) (Y m), hYB m]
    have h2 := q1 (W m) (by linarith)
    have h3 := firm1.nonexp (W m) (Y m)
    have h4 := norm_sub_le_norm_sub_add_norm_sub (Q₁ (W m)) (P₁ (W m)) (P₁ (Y m))
    push_cast
    linarith
  · have h1 := hd (m + 1) le_rfl
    linarith [norm_sub_norm_le (W (m + 1)) (Y (m + 1)), hYB (m + 1)]

/-- **C133** `Box` and `L1` in rounded arithmetic, either order, any start: if the box contains zero, then with `B = ‖x0‖`, as long as
`n u (1118 B + 8 tau sigma sqrt d) ≤ B`, the vectors returned after `n` iterations are within `n u (1118 B + 8 tau sigma sqrt d)` of the
exact ones. -/
theorem C133_box_l1 (hr : Rounding rnd u) (val : Vec ι → Py CallVal) {σ τ η : ℝ} (hσ : 0 ≤ σ) (hτ : 0 < τ) (hη : 0 < η) (hη2 : η ≤ 2)
    (lower upper : ι → Option ℝ) (hl : ∀ i a, lower i = some a → a ≤ 0) (hu0 : ∀ i a, upper i = some a → 0 ≤ a) (gfirst : Bool) (x0 : Vec ι)
    (n : ℕ) (hn0 : 0 < n) (hn : n * (u * (1118 * ‖x0‖ + 8 * (τ * σ * √(Fintype.card ι)))) ≤ ‖x0‖) :
    ∃ s e, DouglasRachfordR rnd (Box lower upper) (L1R rnd val σ none) x0 τ η n gfirst = .ok s ∧
      DouglasRachford (Box lower upper) (L1 σ none) x0 τ η n gfirst = .ok e ∧
      ‖s.1 - e.1‖ ≤ n * (u * (1118 * ‖x0‖ + 8 * (τ * σ * √(Fintype.card ι)))) ∧
      ‖s.2.1 - e.2.1‖ ≤ n * (u * (1118 * ‖x0‖ + 8 * (τ * σ * √(Fintype.card ι)))) ∧ ‖s.2.1‖ ≤ 2 * ‖x0‖ := by
  have hu := hr.nonneg_u
  have hTd : 0 ≤ τ * σ * √(Fintype.card ι : ℝ) := by positivity
  have hne : ∀ i a b, lower i = some a → upper i = some b → a ≤ b := fun i a b h1 h2 => (hl i a h1).trans (hu0 i b h2)
  have hPb : ∀ x : Vec ι, (Box lower upper).prox x τ = .ok (boxProj lower upper x) := fun x => by
    simp [ProxOp.prox, Box, checkTau, not_le.mpr hτ]
  have hPs : ∀ x : Vec ι, (L1 σ none).prox x τ = .ok (softthreshold x fun _ => τ * σ) := fun x => by
    simp [ProxOp.prox, L1, checkTau, not_le.mpr hτ]
  have hb0 : boxProj lower upper (0 : Vec ι) = 0 := by
    ext i
    refine boxClip_of_mem ?_ ?_
    · cases h : lower i with
      | none => trivial
      | some a => exact hl i a h
    · cases h : upper i with
      | none => trivial
      | some a => exact hu0 i a h
  have hs0 : (softthreshold (0 : Vec ι) fun _ => τ * σ) = 0 := by
    ext i
    exact abs_nonpos_iff.1 ((softScalar_abs_le (x := 0) (mul_nonneg hτ.le hσ)).trans (by rw [abs_zero]))
  have pG : ProxExact (L1 σ none) (XFun.ofReal fun x : Vec ι => σ * ∑ i, |x i - (0 : Vec ι) i|) := fun x t ht => by
    obtain ⟨p, h1, h2⟩ := C11_l1_prox σ hσ none x t ht
    exact ⟨p, h1, h2.1⟩
  have e : 8 * (u * (44 * ‖x0‖ + τ * σ * √(Fintype.card ι))) + 766 * (u * ‖x0‖) = u * (1118 * ‖x0‖ + 8 * (τ * σ * √(Fintype.card ι))) := by ring
  have h := C133_error hr (δ := u * (44 * ‖x0‖ + τ * σ * √(Fintype.card ι))) (B := ‖x0‖) (indicator_convex (boxSet_convex lower upper))
    (l1Sigma_convex hσ) (box_proxExact lower upper hne) pG hτ hη hη2 gfirst
    (fR := Box lower upper) (gR := L1R rnd val σ none)
    (fun v => ⟨_, hPb v, fun _ p hp => by
      rw [hPb] at hp
      cases hp
      rw [sub_self, norm_zero]
      positivity⟩)
    (fun v => by
      obtain ⟨y, hy, hb⟩ := L1R_norm_err hr val hσ hτ v
      exact ⟨y, hy, fun hv p hp => (hb p hp).trans (mul_le_mul_of_nonneg_left (by linarith) hu)⟩)
    x0 0 0 [(0, 0)] (by
      cases gfirst <;> simp [DouglasRachford, forRange, DR.body, hPb, hPs, hb0, hs0, Bind.bind, Except.bind, Pure.pure, Except.pure])
    (by simp) (by simp) n hn0 (by rw [e]; exact hn)
  rwa [e] at h

/-- The error of the computed prox of `L2(b=b)`, in norm. -/
theorem L2R_norm_err (hr : Rounding rnd u) (val : Vec ι → Py CallVal) {σ τ : ℝ} (hσ : 0 ≤ σ) (hτ : 0 < τ) (b v : Vec ι) :
    ∃ y, (L2R rnd val σ (some b)).prox v τ = .ok y ∧
      ‖y - vmk fun i => (v i + τ * σ * b i) / (1 + τ * σ)‖ ≤ ((1 + u) ^ 4 / (1 - u) ^ 2 - 1) * (‖v‖ + ‖b‖) := by
  obtain ⟨y, hy, h⟩ := C113_l2_data hr val hσ hτ b v
  refine ⟨y, hy, ?_⟩
  have hu := hr.nonneg_u
  have hl := hr.lt
  have hκ : 0 ≤ (1 + u) ^ 4 / (1 - u) ^ 2 - 1 := by
    rw [sub_nonneg, one_le_div (pow_pos (by linarith) 2)]
    exact (pow_le_one₀ (by linarith) (by linarith)).trans (one_le_pow₀ (by linarith))
  have hT : 0 ≤ τ * σ := mul_nonneg hτ.le hσ
  let w : Vec ι := vmk fun i => |v i|
  let z : Vec ι := vmk fun i => |b i|
  have hw : ‖w‖ = ‖v‖ := by simp [w, vmk, EuclideanSpace.norm_eq]
  have hz : ‖z‖ = ‖b‖ := by simp [z, vmk, EuclideanSpace.norm_eq]
  have h1 : ‖y - vmk fun i => (v i + τ * σ * b i) / (1 + τ * σ)‖ ≤ ‖((1 + u) ^ 4 / (1 - u) ^ 2 - 1) • (w + z)‖ := by
    rw [EuclideanSpace.norm_eq, EuclideanSpace.norm_eq]
    refine Real.sqrt_le_sqrt (Finset.sum_le_sum fun i _ => pow_le_pow_left₀ (norm_nonneg _) ?_ 2)
    rw [Real.norm_eq_abs, Real.norm_eq_abs]
    refine ((h i).2.trans (mul_le_mul_of_nonneg_left ?_ hκ)).trans (le_abs_self _)
    change _ ≤ |v i| + |b i|
    rw [div_le_iff₀ (by linarith)]
    have := mul_nonneg hT (abs_nonneg (v i))
    have := abs_nonneg (b i)
    linarith
  refine h1.trans ?_
  rw [norm_smul, Real.norm_of_nonneg hκ]
  exact mul_le_mul_of_nonneg_left ((norm_add_le _ _).trans (by rw [hw, hz])) hκ

/-- **C133** `L2(b=b, sigma=σ)` and `L1(sigma=lam)` in rounded arithmetic, either order, any start: with `B = ‖x0‖ + 2 (1 + tau sigma) ‖b‖`
and `E = 360 ((1 + u)^4 / (1 - u)^2 - 1) B + u (1118 B + 8 tau lam sqrt d)` (about `3300 u B`), as long as `n E ≤ B` the vectors returned
after `n` iterations are within `n E` of the exact ones. -/
theorem C133_l2_l1 (hr : Rounding rnd u) (val val' : Vec ι → Py CallVal) {H C : Type} [NormedAddCommGroup H] [InnerProductSpace ℝ H]
    (ext : L2Ext (Vec ι) H C) (st : L2State (Vec ι) C) {σ τ η lam B E : ℝ} (hσ : 0 < σ) (hτ : 0 < τ) (hη : 0 < η) (hη2 : η ≤ 2)
    (hlam : 0 ≤ lam) (gfirst : Bool) (b x0 : Vec ι) (hB : B = ‖x0‖ + 2 * ((1 + τ * σ) * ‖b‖))
    (hE : E = 360 * (((1 + u) ^ 4 / (1 - u) ^ 2 - 1) * B) + u * (1118 * B + 8 * (τ * lam * √(Fintype.card ι)))) (n : ℕ) (hn0 : 0 < n)
    (hn : n * E ≤ B) :
    ∃ s e, DouglasRachfordR rnd (L2R rnd val σ (some b)) (L1R rnd val' lam none) x0 τ η n gfirst = .ok s ∧
      DouglasRachford (L2.obj ext (l2Plain (.bOnly b) σ) st) (L1 lam none) x0 τ η n gfirst = .ok e ∧
      ‖s.1 - e.1‖ ≤ n * E ∧ ‖s.2.1 - e.2.1‖ ≤ n * E ∧ ‖s.2.1‖ ≤ 2 * B := by
  have hu := hr.nonneg_u
  have hl := hr.lt
  have hκ : 0 ≤ (1 + u) ^ 4 / (1 - u) ^ 2 - 1 := by
    rw [sub_nonneg, one_le_div (pow_pos (by linarith) 2)]
    exact (pow_le_one₀ (by linarith) (by linarith)).trans (one_le_pow₀ (by linarith))
  have hL2 := fun v => L2R_norm_err hr val hσ.le hτ b v
  have hT : 0 < τ * σ := mul_pos hτ hσ
  have hTd : 0 ≤ τ * lam * √(Fintype.card ι : ℝ) := by positivity
  have hb0 := norm_nonneg b
  have hx0 := norm_nonneg x0
  have hTb : 0 ≤ τ * σ * ‖b‖ := mul_nonneg hT.le hb0
  have hbB : ‖b‖ ≤ B := by rw [hB]; linarith
  have hB0 : 0 ≤ B := hb0.trans hbB
  have hPf : ∀ v : Vec ι, (L2.obj ext (l2Plain (.bOnly b) σ) st).prox v τ = .ok (vmk fun i => (v i + τ * σ * b i) / (1 + τ * σ)) := fun v => by
    have h := (C113_l2_exact ext (l2Plain (.bOnly b) σ) st val hσ.le rfl v b τ).2 rfl
    have h2 : (L2R (fun v => v) val σ (some b)).prox v τ = .ok (vmk fun i => (v i + τ * σ * b i) / (1 + τ * σ)) := by
      simp [ProxOp.prox, L2R, checkTau, not_le.mpr hτ]
    exact (h.symm.trans h2)
  have hPs : ∀ x : Vec ι, (L1 lam none).prox x τ = .ok (softthreshold x fun _ => τ * lam) := fun x => by
    simp [ProxOp.prox, L1, checkTau, not_le.mpr hτ]
  have pG : ProxExact (L1 lam none) (XFun.ofReal fun x : Vec ι => lam * ∑ i, |x i - (0 : Vec ι) i|) := fun x t ht => by
    obtain ⟨p, h1, h2⟩ := C11_l1_prox lam hlam none x t ht
    exact ⟨p, h1, h2.1⟩
  set c : Vec ι := softthreshold b fun _ => 1 * lam / σ with hc
  have hci : ∀ i, |c i| ≤ |b i| := fun i => softScalar_abs_le (by positivity)
  have hcb : ‖c‖ ≤ ‖b‖ := by
    rw [EuclideanSpace.norm_eq, EuclideanSpace.norm_eq]
    exact Real.sqrt_le_sqrt (Finset.sum_le_sum fun i _ => pow_le_pow_left₀ (norm_nonneg _) (hci i) 2)
  have hcb2 : ‖c - b‖ ≤ ‖b‖ := by
    rw [EuclideanSpace.norm_eq, EuclideanSpace.norm_eq]
    refine Real.sqrt_le_sqrt (Finset.sum_le_sum fun i _ => pow_le_pow_left₀ (norm_nonneg _) ?_ 2)
    rw [Real.norm_eq_abs, Real.norm_eq_abs]
    change |softScalar (b i) (1 * lam / σ) - b i| ≤ |b i|
    have hk : 0 ≤ 1 * lam / σ := by positivity
    rw [soft_eq_clip hk, sub_sub_cancel_left, abs_neg]
    generalize 1 * lam / σ = k at *
    rcases le_total 0 (b i) with h | h
    · rw [max_eq_right ((neg_nonpos.2 hk).trans (le_min h hk)), abs_of_nonneg (le_min h hk), abs_of_nonneg h]
      exact min_le_left _ _
    · rw [min_eq_left (h.trans hk), abs_of_nonpos h, abs_of_nonpos (max_le (neg_nonpos.2 hk) h)]
      exact neg_le_neg (le_max_right _ _)
  have hsoft : (softthreshold (c - (τ * σ) • (c - b)) fun _ => τ * lam) = c := by
    ext i
    have h := soft_fixed hσ hτ one_pos hlam (b i)
    rw [show 1 * τ * lam = τ * lam by ring, ← mul_assoc τ σ] at h
    exact h
  have hl2 : (vmk fun i => ((c + (τ * σ) • (c - b)) i + τ * σ * b i) / (1 + τ * σ) : Vec ι) = c := by
    ext i
    change (c i + τ * σ * (c i - b i) + τ * σ * b i) / (1 + τ * σ) = c i
    field_simp
    ring
  have e : 8 * (((1 + u) ^ 4 / (1 - u) ^ 2 - 1) * (45 * B) + u * (44 * B + τ * lam * √(Fintype.card ι))) + 766 * (u * B) = E := by
    rw [hE]; ring
  have hfix : ∀ w : Vec ι, ‖w‖ ≤ (1 + τ * σ) * ‖b‖ → ‖x0 - w‖ + ‖w‖ ≤ B := fun w hw => by
    rw [hB]; linarith [norm_sub_le x0 w]
  have hδ2 : 0 ≤ u * (44 * B + τ * lam * √(Fintype.card ι)) := mul_nonneg hu (by positivity)
  have hδ1 : 0 ≤ ((1 + u) ^ 4 / (1 - u) ^ 2 - 1) * (45 * B) := mul_nonneg hκ (by positivity)
  have hnorm : ‖(τ * σ) • (c - b)‖ ≤ τ * σ * ‖b‖ := by
    rw [norm_smul, Real.norm_of_nonneg hT.le]
    exact mul_le_mul_of_nonneg_left hcb2 hT.le
  have main := fun (w : Vec ι) (lc : List (Vec ι × Vec ι)) (hw : ‖w‖ ≤ (1 + τ * σ) * ‖b‖)
      (hst : DouglasRachford (L2.obj ext (l2Plain (.bOnly b) σ) st) (L1 lam none) w τ η 1 gfirst = .ok (c, w, lc)) =>
    C133_error hr (δ := ((1 + u) ^ 4 / (1 - u) ^ 2 - 1) * (45 * B) + u * (44 * B + τ * lam * √(Fintype.card ι))) (B := B)
      (F := XFun.ofReal (l2Spec (l2Plain (.bOnly b) σ))) (l2_convex (l2Plain (.bOnly b) σ) hσ.le) (l1Sigma_convex hlam)
      (l2Plain_exact ext (.bOnly b) (by rintro _ _ _ ⟨⟩) hσ st) pG hτ hη hη2 gfirst
      (fR := L2R rnd val σ (some b)) (gR := L1R rnd val' lam none)
      (fun v => by
        obtain ⟨y, h1, h2⟩ := hL2 v
        refine ⟨y, h1, fun hv p hp => ?_⟩
        rw [hPf] at hp
        cases hp
        refine h2.trans ((mul_le_mul_of_nonneg_left ?_ hκ).trans (le_add_of_nonneg_right hδ2))
        linarith)
      (fun v => by
        obtain ⟨y, hy, hb⟩ := L1R_norm_err hr val' hlam hτ v
        exact ⟨y, hy, fun hv p hp => (hb p hp).trans ((mul_le_mul_of_nonneg_left (by linarith) hu).trans (le_add_of_nonneg_left hδ1))⟩)
      x0 w c lc hst (hfix w hw) (hcb.trans hbB) n hn0 (by rw [e]; exact hn)
  rw [e] at main
  cases gfirst with
  | false =>
    refine main (c + (τ * σ) • (c - b)) [(c, c + (τ * σ) • (c - b))] ((norm_add_le _ _).trans (by linarith)) ?_
    have e1 : (2 : ℝ) • c - (c + (τ * σ) • (c - b)) = c - (τ * σ) • (c - b) := by module
    simp only [DouglasRachford, forRange, DR.body, Bool.false_eq_true, if_false, hPf, hPs, hl2, e1, hsoft, Bind.bind, Except.bind, Pure.pure,
      Except.pure, sub_self, smul_zero, add_zero, List.nil_append]
  | true =>
    refine main (c - (τ * σ) • (c - b)) [(c, c - (τ * σ) • (c - b))] ((norm_sub_le _ _).trans (by linarith)) ?_
    have e1 : (2 : ℝ) • c - (c - (τ * σ) • (c - b)) = c + (τ * σ) • (c - b) := by module
    simp only [DouglasRachford, forRange, DR.body, if_true, Bool.false_eq_true, if_false, hPf, hPs, hsoft, e1, hl2, Bind.bind, Except.bind, Pure.pure,
      Except.pure, sub_self, smul_zero, add_zero, List.nil_append]

/-- Non-vacuity: one entry of data, `rnd` a rounding with `u = 2^-53`, one thousand iterations. -/
example (rnd : ℝ → ℝ) (hr : Rounding rnd ((2 : ℝ)⁻¹ ^ 53)) (val val' : Vec (Fin 1) → Py CallVal) (ext : L2Ext (Vec (Fin 1)) ℝ Unit)
    (st : L2State (Vec (Fin 1)) Unit) :
    ∃ s e, DouglasRachfordR rnd (L2R rnd val 1 (some (vmk fun _ => 3))) (L1R rnd val' 1 none) 0 1 1 1000 true = .ok s ∧
      DouglasRachford (L2.obj ext (l2Plain (.bOnly (vmk fun _ => 3)) 1) st) (L1 1 none) 0 1 1 1000 true = .ok e ∧ ‖s.1 - e.1‖ ≤ 1 / 10 ^ 8 := by
  have hb : ‖(vmk fun _ => 3 : Vec (Fin 1))‖ = 3 := by simp [vmk, EuclideanSpace.norm_eq]
  obtain ⟨s, e, h1, h2, h3, -⟩ := C133_l2_l1 hr val val' ext st (B := 12) (σ := 1) (τ := 1) (η := 1) (lam := 1) one_pos one_pos one_pos
    (by norm_num) zero_le_one true (vmk fun _ => 3) 0 (by rw [hb]; norm_num) rfl 1000 (by norm_num) (by norm_num)
  exact ⟨s, e, h1, h2, h3.trans (by norm_num)⟩

/-- **C133** Where the rounded solver stalls: if the update cannot be seen next to the entries of `x0`, then every number of iterations
returns the `x` of the first one and `x0`. -/
theorem C133_stalls (f g : ProxOp (Vec ι)) (x0 x p : Vec ι) (τ η : ℝ) (gfirst : Bool)
    (hx : (if gfirst then g else f).prox x0 τ = .ok x)
    (hp : (if gfirst then f else g).prox (vmk fun i => rnd (rnd (2 * x i) - x0 i)) τ = .ok p)
    (hs : ∀ i, rnd (x0 i + rnd (η * rnd (p i - x i))) = x0 i) (n : ℕ) (hn : 0 < n) :
    ∃ l, DouglasRachfordR rnd f g x0 τ η n gfirst = .ok (x, x0, l) := by
  have hv : addR rnd x0 (smulR rnd η (subR rnd p x)) = x0 := by
    ext i
    exact hs i
  have hb : ∀ i (s : DRState (Vec ι)), s.y = x0 → DRR.body rnd f g τ η gfirst i s = .ok (⟨some x, x0, s.log ++ [(x, x0)]⟩, false) := by
    intro i s h
    change (if gfirst then f else g).prox (subR rnd (smulR rnd 2 x) x0) τ = .ok p at hp
    cases gfirst <;> simp only [if_true, Bool.false_eq_true, if_false] at hx hp <;>
      simp [DRR.body, h, hx, hp, hv, Bind.bind, Except.bind, Pure.pure, Except.pure]
  have key : ∀ (n i : ℕ) (s : DRState (Vec ι)), s.y = x0 → (n ≠ 0 ∨ s.x = some x) →
      ∃ l, forRange (DRR.body rnd f g τ η gfirst) n i s = .ok ⟨some x, x0, l⟩ := by
    intro n
    induction n with
    | zero =>
      rintro i ⟨sx, sy, sl⟩ h1 h2
      obtain rfl : sy = x0 := h1
      obtain rfl : sx = some x := h2.resolve_left fun h => h rfl
      exact ⟨sl, rfl⟩
    | succ n ih =>
      intro i s h1 _
      simp only [forRange, hb i s h1]
      exact ih (i + 1) _ rfl (Or.inr rfl)
  obtain ⟨l, h⟩ := key n 0 ⟨none, x0, []⟩ rfl (Or.inl hn.ne')
  exact ⟨l, by simp only [DouglasRachfordR, h, Bind.bind, Except.bind, Pure.pure, Except.pure]⟩

/-- A relaxation of `2^-60` is not seen next to 1: the run stays at `(1, 1)`. -/
example (n : ℕ) (hn : 0 < n) : ∃ l, DouglasRachfordR (nearBits 52) (Box (fun _ : Fin 2 => some 1) fun _ => some 1)
    (Box (fun _ : Fin 2 => some 0) fun _ => some 0) (vmk fun _ : Fin 2 => (1 : ℝ)) 1 ((2 : ℝ) ^ (-60 : ℤ)) n false =
      .ok (vmk fun _ : Fin 2 => (1 : ℝ), vmk fun _ : Fin 2 => (1 : ℝ), l) := by
  have h := nearBits_rounding 52 (by norm_num)
  have h1 : ¬ (1 : ℝ) ≤ 0 := by norm_num
  refine C133_stalls _ _ _ _ (vmk fun _ : Fin 2 => (0 : ℝ)) _ _ false ?_ ?_ (fun i => ?_) n hn
  · simp only [Bool.false_eq_true, if_false, ProxOp.prox, Box, checkTau, if_neg h1]
    congr 1
    ext i
    change min (max (1 : ℝ) 1) 1 = 1
    norm_num
  · simp only [Bool.false_eq_true, if_false, ProxOp.prox, Box, checkTau, if_neg h1]
    congr 1
    ext i
    change min (max _ (0 : ℝ)) 0 = 0
    exact min_eq_right (le_max_right _ _)
  · change nearBits 52 (1 + nearBits 52 ((2 : ℝ) ^ (-60 : ℤ) * nearBits 52 (0 - 1))) = 1
    rw [zero_sub, h.odd, h.one, mul_neg, mul_one, h.odd, nearBits_zpow, ← sub_eq_add_neg]
    exact nearBits_absorb_sub 52 (by positivity) (by norm_num)

/-- Double precision, ten thousand iterations from `(1, 1)` on the box `[-1, 1]`. -/
example (gfirst : Bool) : ∃ s e, DouglasRachfordR (nearBits 52) (Box (fun _ : Fin 2 => some (-1)) fun _ => some 1)
      (L1R (nearBits 52) (fun _ => .ok (.num 0)) 1 none) (vmk fun _ : Fin 2 => (1 : ℝ)) 1 1 10000 gfirst = .ok s ∧
    DouglasRachford (Box (fun _ : Fin 2 => some (-1)) fun _ => some 1) (L1 1 none) (vmk fun _ : Fin 2 => (1 : ℝ)) 1 1 10000 gfirst = .ok e ∧
    ‖s.1 - e.1‖ ≤ (2 : ℝ) ^ (-20 : ℤ) := by
  have hn1 : ‖(vmk fun _ : Fin 2 => (1 : ℝ) : Vec (Fin 2))‖ ≤ 2 := by
    rw [EuclideanSpace.norm_eq]
    exact Real.sqrt_le_iff.2 ⟨by norm_num, by norm_num⟩
  have hn2 : 1 ≤ ‖(vmk fun _ : Fin 2 => (1 : ℝ) : Vec (Fin 2))‖ := by
    rw [EuclideanSpace.norm_eq]
    refine Real.le_sqrt_of_sq_le ?_
    rw [Fin.sum_univ_two]
    norm_num
  have h2 : √(2 : ℝ) ≤ 2 := Real.sqrt_le_iff.2 ⟨by norm_num, by norm_num⟩
  obtain ⟨s, e, h3, h4, h5, -⟩ := C133_box_l1 (nearBits_rounding 52 (by norm_num)) (fun _ => .ok (.num 0)) (σ := 1) (τ := 1) (η := 1)
    zero_le_one one_pos one_pos (by norm_num) (fun _ : Fin 2 => some (-1)) (fun _ => some 1) (by rintro i a ⟨⟩; norm_num)
    (by rintro i a ⟨⟩; norm_num) gfirst (vmk fun _ : Fin 2 => (1 : ℝ)) 10000 (by norm_num)
    (by
      rw [Fintype.card_fin]
      push_cast
      norm_num
      linarith)
  refine ⟨s, e, h3, h4, h5.trans ?_⟩
  rw [Fintype.card_fin]
  push_cast
  norm_num
  linarith

end Verif
