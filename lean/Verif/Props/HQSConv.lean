import Verif.Props.Splitting
import Mathlib.Analysis.PSeries

/-! # C95: what HQS converges to

With a constant step the two outputs converge to a minimiser of `F(x) + G(z) + ‖x-z‖²/(2 tau)`, not of `F + G` under `x = z`.  They converge to
each other exactly when `F` and `G` have a common minimiser.  With decreasing steps (continuation) the best iterate approaches the minimum of
`F + G`. -/

open scoped RealInnerProductSpace
open Filter Topology

set_option linter.unusedSectionVars false

namespace Verif

variable {E : Type} [NormedAddCommGroup E] [InnerProductSpace ℝ E] {f g : ProxOp E} {F G : XFun E} {τ : ℝ}

/-- `(x, z)` minimises `F(x) + G(z) + ‖x-z‖²/(2 tau)`. -/
def IsPenalisedMin (F G : XFun E) (τ : ℝ) (x z : E) : Prop :=
  x ∈ F.dom ∧ z ∈ G.dom ∧ ∀ a ∈ F.dom, ∀ b ∈ G.dom, F.val x + G.val z + ‖x - z‖ ^ 2 / (2 * τ) ≤ F.val a + G.val b + ‖a - b‖ ^ 2 / (2 * τ)

lemma IsPenalisedMin.swap {x z : E} (h : IsPenalisedMin F G τ x z) : IsPenalisedMin G F τ z x :=
  ⟨h.2.1, h.1, fun a ha b hb => by
    have := h.2.2 b hb a ha
    rw [norm_sub_rev z x, norm_sub_rev a b]; linarith⟩

lemma penalised_of_prox (hF : F.Convex) (hG : G.Convex) (hτ : 0 < τ) {x z : E} (hx : IsProx F τ z x) (hz : IsProx G τ x z) : IsPenalisedMin F G τ x z := by
  refine ⟨hx.1, hz.1, fun a ha b hb => ?_⟩
  have h1 := (subgrad_of_isProx hF hτ hx).2 a ha
  have h2 := (subgrad_of_isProx hG hτ hz).2 b hb
  rw [real_inner_smul_left] at h1 h2
  have e1 : ⟪z - x, a - x⟫ + ⟪x - z, b - z⟫ = ‖x - z‖ ^ 2 - ⟪x - z, a - b⟫ := by
    have : ⟪x - z, a - b⟫ = ⟪x - z, a - x⟫ - ⟪x - z, b - z⟫ + ⟪x - z, x - z⟫ := by
      rw [← inner_sub_right, ← inner_add_right]; congr 1; abel
    rw [this, ← neg_sub x z, inner_neg_left, ← real_inner_self_eq_norm_sq]; ring
  have e2 : 0 ≤ ‖(a - b) - (x - z)‖ ^ 2 := by positivity
  rw [norm_sub_sq_real, real_inner_comm] at e2
  have e3 : 1 / τ * ⟪z - x, a - x⟫ + 1 / τ * ⟪x - z, b - z⟫ + ‖a - b‖ ^ 2 / (2 * τ) - ‖x - z‖ ^ 2 / (2 * τ)
      = 1 / (2 * τ) * (‖a - b‖ ^ 2 - 2 * ⟪x - z, a - b⟫ + ‖x - z‖ ^ 2) := by
    rw [← mul_add, e1]; field_simp; ring
  have e4 : 0 ≤ 1 / (2 * τ) * (‖a - b‖ ^ 2 - 2 * ⟪x - z, a - b⟫ + ‖x - z‖ ^ 2) := by positivity
  linarith

lemma prox_of_penalised {x z : E} (h : IsPenalisedMin F G τ x z) : IsProx F τ z x ∧ IsProx G τ x z := by
  refine ⟨⟨h.1, fun a ha => ?_⟩, ⟨h.2.1, fun b hb => ?_⟩⟩
  · have := h.2.2 a ha z h.2.1
    unfold proxObj; linarith
  · have := h.2.2 x h.1 b hb
    unfold proxObj; rw [norm_sub_rev z x, norm_sub_rev b x]; linarith

/-! ## The trajectory -/

/-- `forRange` with one more iteration, for a body that never breaks. -/
lemma forRange_snoc {S : Type} {body : ℕ → S → Py (S × Bool)} (hb : ∀ i s s' b, body i s = .ok (s', b) → b = false) :
    ∀ n i s q r, forRange body n i s = .ok q → body (i + n) q = .ok (r, false) → forRange body (n + 1) i s = .ok r := by
  intro n
  induction n with
  | zero =>
    intro i s q r h1 h2
    simp only [forRange] at h1; cases h1
    rw [add_zero] at h2
    simp [forRange, h2]
  | succ n ih =>
    intro i s q r h1 h2
    rw [forRange] at h1 ⊢
    rcases h : body i s with e | ⟨s', b⟩
    · rw [h] at h1; cases h1
    · have := hb _ _ _ _ h; subst this
      rw [h] at h1
      simp only [Bool.false_eq_true, if_false] at h1 ⊢
      exact ih (i + 1) s' q r h1 (by rwa [show i + 1 + n = i + (n + 1) by ring])

lemma hqs_nobreak (tau : StepSpec) (gfirst : Bool) (i : ℕ) (s s' : SplitState E) (b : Bool) (h : HQS.body f g tau gfirst i s = .ok (s', b)) : b = false := by
  unfold HQS.body at h
  rcases h0 : tau.at i with e | t
  · simp [h0, Bind.bind, Except.bind] at h
  · cases gfirst
    · rcases h1 : f.prox s.z t with e | x
      · simp [h0, h1, Bind.bind, Except.bind] at h
      · rcases h2 : g.prox x t with e | z
        · simp [h0, h1, h2, Bind.bind, Except.bind] at h
        · simp [h0, h1, h2, Bind.bind, Except.bind, Pure.pure, Except.pure] at h
          exact h.2
    · rcases h1 : g.prox s.x t with e | z
      · simp [h0, h1, Bind.bind, Except.bind] at h
      · rcases h2 : f.prox z t with e | x
        · simp [h0, h1, h2, Bind.bind, Except.bind] at h
        · simp [h0, h1, h2, Bind.bind, Except.bind, Pure.pure, Except.pure] at h
          exact h.2

/-- The variable that drives the iteration: `x` when `g` comes first, `z` otherwise. -/
def hqsW (P₁ P₂ : ℝ → E → E) (t : ℕ → ℝ) (w : E) : ℕ → E
  | 0 => w
  | n + 1 => P₂ (t n) (P₁ (t n) (hqsW P₁ P₂ t w n))

/-- The pair `(x, z)` after iteration `i`. -/
def hqsPair (gfirst : Bool) (P₁ P₂ : ℝ → E → E) (t : ℕ → ℝ) (w : E) (i : ℕ) : E × E :=
  if gfirst then (hqsW P₁ P₂ t w (i + 1), P₁ (t i) (hqsW P₁ P₂ t w i)) else (P₁ (t i) (hqsW P₁ P₂ t w i), hqsW P₁ P₂ t w (i + 1))

lemma hqs_traj {Pf Pg : ℝ → E → E} (hPf : ∀ τ, 0 < τ → ∀ x, f.prox x τ = .ok (Pf τ x)) (hPg : ∀ τ, 0 < τ → ∀ x, g.prox x τ = .ok (Pg τ x))
    (tau : StepSpec) (t : ℕ → ℝ) (gfirst : Bool) (x0 z0 : Option E) (x z : E) (hinit : x0z0Init x0 z0 = .ok (x, z)) (n : ℕ)
    (ht : ∀ i < n, tau.at i = .ok (t i) ∧ 0 < t i) :
    ∃ s, HQS f g x0 z0 tau n gfirst = .ok s ∧
      s.log = (List.range n).map (hqsPair gfirst (if gfirst then Pg else Pf) (if gfirst then Pf else Pg) t (if gfirst then x else z)) ∧
      (if gfirst then s.x else s.z) = hqsW (if gfirst then Pg else Pf) (if gfirst then Pf else Pg) t (if gfirst then x else z) n ∧
      ∀ m, n = m + 1 → (s.x, s.z) = hqsPair gfirst (if gfirst then Pg else Pf) (if gfirst then Pf else Pg) t (if gfirst then x else z) m := by
  simp only [HQS, hinit, Bind.bind, Except.bind]
  induction n with
  | zero => exact ⟨_, rfl, rfl, by cases gfirst <;> rfl, fun m hm => by omega⟩
  | succ n ih =>
    obtain ⟨s, h1, h2, h3, -⟩ := ih fun i hi => ht i (by omega)
    obtain ⟨k1, k2⟩ := ht n (by omega)
    cases gfirst with
    | true =>
      simp only [if_true] at h2 h3 ⊢
      have hb : HQS.body f g tau true (0 + n) s = .ok (⟨Pf (t n) (Pg (t n) s.x), Pg (t n) s.x, s.u, s.log ++ [(Pf (t n) (Pg (t n) s.x), Pg (t n) s.x)]⟩, false) := by
        simp [HQS.body, k1, hPg _ k2, hPf _ k2, Bind.bind, Except.bind, Pure.pure, Except.pure]
      refine ⟨_, forRange_snoc (hqs_nobreak tau true) n 0 _ s _ h1 hb, ?_, ?_, fun m hm => ?_⟩
      · rw [List.range_succ, List.map_append, ← h2, h3]; rfl
      · rw [h3]; rfl
      · obtain rfl : n = m := by omega
        simp only [h3]; rfl
    | false =>
      simp only [Bool.false_eq_true, if_false] at h2 h3 ⊢
      have hb : HQS.body f g tau false (0 + n) s = .ok (⟨Pf (t n) s.z, Pg (t n) (Pf (t n) s.z), s.u, s.log ++ [(Pf (t n) s.z, Pg (t n) (Pf (t n) s.z))]⟩, false) := by
        simp [HQS.body, k1, hPg _ k2, hPf _ k2, Bind.bind, Except.bind, Pure.pure, Except.pure]
      refine ⟨_, forRange_snoc (hqs_nobreak tau false) n 0 _ s _ h1 hb, ?_, ?_, fun m hm => ?_⟩
      · rw [List.range_succ, List.map_append, ← h2, h3]; rfl
      · rw [h3]; rfl
      · obtain rfl : n = m := by omega
        simp only [h3]; rfl

/-- The proximal maps for all positive steps at once. -/
lemma proxExact_maps (h : ProxExact f F) : ∃ P : ℝ → E → E, (∀ τ, 0 < τ → ∀ x, f.prox x τ = .ok (P τ x)) ∧ ∀ τ, 0 < τ → ∀ x, IsProx F τ x (P τ x) := by
  classical
  choose P h1 h2 using fun (τ : ℝ) (hτ : 0 < τ) (x : E) => h x τ hτ
  exact ⟨fun τ x => if hτ : 0 < τ then P τ hτ x else 0, fun τ hτ x => by simp only [dif_pos hτ]; exact h1 τ hτ x, fun τ hτ x => by
    simp only [dif_pos hτ]; exact h2 τ hτ x⟩

/-! ## Constant step -/

/-- The alternating proximal maps converge to a fixed point. -/
lemma altprox_converges [ProperSpace E] (hF : F.Convex) (hG : G.Convex) (hτ : 0 < τ) {P₁ P₂ : E → E} (h1 : ∀ x, IsProx G τ x (P₁ x))
    (h2 : ∀ x, IsProx F τ x (P₂ x)) (hsol : ∃ x z, IsPenalisedMin F G τ x z) (W : ℕ → E) (hW : ∀ n, W (n + 1) = P₂ (P₁ (W n))) :
    ∃ c, P₂ (P₁ c) = c ∧ Tendsto W atTop (𝓝 c) := by
  have c1 := (firm_prox hG hτ h1).continuous
  have c2 := (firm_prox hF hτ h2).continuous
  obtain ⟨x, z, hxz⟩ := hsol
  refine km_converges (fun w => P₂ (P₁ w)) (c2.comp c1) (fun v => ‖v‖ ^ 2) (by fun_prop) (by simp) one_pos (by norm_num : (0 : ℝ) < 1 / 2) (by simp) (fun x c hc => ?_)
    ⟨x, ?_⟩ W hW
  · beta_reduce at hc ⊢
    have k1 := prox_firm hG hτ (h1 x) (h1 c)
    have k2 := prox_firm hF hτ (h2 (P₁ x)) (h2 (P₁ c))
    rw [hc] at k2
    have e : P₂ (P₁ x) - x = -((x - P₁ x - (c - P₁ c)) + (P₁ x - P₂ (P₁ x) - (P₁ c - c))) := by abel
    have k3 := parallelogram_law_with_norm ℝ (x - P₁ x - (c - P₁ c)) (P₁ x - P₂ (P₁ x) - (P₁ c - c))
    rw [e, norm_neg]
    nlinarith [norm_nonneg (x - P₁ x - (c - P₁ c) - (P₁ x - P₂ (P₁ x) - (P₁ c - c)))]
  · obtain ⟨p1, p2⟩ := prox_of_penalised hxz
    have e1 : P₁ x = z := IsProx.unique hG hτ p2 (h1 x)
    rw [e1]; exact IsProx.unique hF hτ p1 (h2 z)

/-- C95: with a constant step both outputs converge, to a minimiser of the penalised objective `F(x) + G(z) + ‖x-z‖²/(2 tau)`, whenever it has one. -/
theorem C95_hqs_converges [ProperSpace E] (hF : F.Convex) (hG : G.Convex) (hf : ProxExact f F) (hg : ProxExact g G) (hτ : 0 < τ)
    (hsol : ∃ x z, IsPenalisedMin F G τ x z) (gfirst : Bool) (x0 z0 : Option E) (R : ℕ → SplitState E)
    (hR : ∀ n, HQS f g x0 z0 (.scalar τ) n gfirst = .ok (R n)) :
    ∃ x z, IsPenalisedMin F G τ x z ∧ Tendsto (fun n => (R n).x) atTop (𝓝 x) ∧ Tendsto (fun n => (R n).z) atTop (𝓝 z) := by
  obtain ⟨Pf, hPf, hPf'⟩ := proxExact_maps hf
  obtain ⟨Pg, hPg, hPg'⟩ := proxExact_maps hg
  rcases hinit : x0z0Init x0 z0 with e | ⟨x, z⟩
  · have := hR 0; simp [HQS, hinit, Bind.bind, Except.bind] at this
  have hrun : ∀ n, ((R (n + 1)).x, (R (n + 1)).z) =
      hqsPair gfirst (if gfirst then Pg else Pf) (if gfirst then Pf else Pg) (fun _ => τ) (if gfirst then x else z) n := by
    intro n
    obtain ⟨s, h1, -, -, h2⟩ := hqs_traj hPf hPg (.scalar τ) (fun _ => τ) gfirst x0 z0 x z hinit (n + 1) (fun i _ => ⟨rfl, hτ⟩)
    rw [hR] at h1
    injection h1 with h1
    rw [h1]; exact h2 n rfl
  cases gfirst with
  | true =>
    simp only [if_true, hqsPair, Prod.mk.injEq] at hrun
    obtain ⟨c, hc, hlim⟩ := altprox_converges hF hG hτ (hPg' τ hτ) (hPf' τ hτ) hsol (hqsW Pg Pf (fun _ => τ) x) fun n => rfl
    refine ⟨c, Pg τ c, penalised_of_prox hF hG hτ ?_ (hPg' τ hτ c), ?_, ?_⟩
    · have := hPf' τ hτ (Pg τ c); rwa [hc] at this
    · rw [← tendsto_add_atTop_iff_nat 1]
      exact (hlim.comp (tendsto_add_atTop_nat 1)).congr fun n => ((hrun n).1).symm
    · rw [← tendsto_add_atTop_iff_nat 1]
      exact (((firm_prox hG hτ (hPg' τ hτ)).continuous.tendsto c).comp hlim).congr fun n => ((hrun n).2).symm
  | false =>
    simp only [Bool.false_eq_true, if_false, hqsPair, Prod.mk.injEq] at hrun
    have hsol' : ∃ z x, IsPenalisedMin G F τ z x := by obtain ⟨x, z, h⟩ := hsol; exact ⟨z, x, h.swap⟩
    obtain ⟨c, hc, hlim⟩ := altprox_converges hG hF hτ (hPf' τ hτ) (hPg' τ hτ) hsol' (hqsW Pf Pg (fun _ => τ) z) fun n => rfl
    refine ⟨Pf τ c, c, penalised_of_prox hF hG hτ (hPf' τ hτ c) ?_, ?_, ?_⟩
    · have := hPg' τ hτ (Pf τ c); rwa [hc] at this
    · rw [← tendsto_add_atTop_iff_nat 1]
      exact (((firm_prox hF hτ (hPf' τ hτ)).continuous.tendsto c).comp hlim).congr fun n => ((hrun n).1).symm
    · rw [← tendsto_add_atTop_iff_nat 1]
      exact (hlim.comp (tendsto_add_atTop_nat 1)).congr fun n => ((hrun n).2).symm

lemma penalised_eq {x : E} (hF : F.Convex) (hG : G.Convex) (hτ : 0 < τ) (h : IsPenalisedMin F G τ x x) : F.IsMin x ∧ G.IsMin x := by
  obtain ⟨h1, h2⟩ := prox_of_penalised h
  have k1 := subgrad_of_isProx hF hτ h1
  have k2 := subgrad_of_isProx hG hτ h2
  rw [sub_self, smul_zero] at k1 k2
  exact ⟨⟨k1.1, fun y hy => by simpa using k1.2 y hy⟩, ⟨k2.1, fun y hy => by simpa using k2.2 y hy⟩⟩

lemma penalised_common {c x z : E} (hτ : 0 < τ) (h1 : F.IsMin c) (h2 : G.IsMin c) (h : IsPenalisedMin F G τ x z) : x = z := by
  have k := h.2.2 c h1.1 c h2.1
  have k1 := h1.2 x h.1
  have k2 := h2.2 z h.2.1
  rw [sub_self, norm_zero] at k
  have : ‖x - z‖ ^ 2 / (2 * τ) ≤ 0 := by norm_num at k; linarith
  have h0 : ‖x - z‖ ^ 2 ≤ 0 := by
    by_contra hc
    push Not at hc
    have : 0 < ‖x - z‖ ^ 2 / (2 * τ) := by positivity
    linarith
  exact sub_eq_zero.1 (norm_eq_zero.1 (by nlinarith [norm_nonneg (x - z)]))

/-- C95: with a constant step the two outputs converge to each other exactly when `F` and `G` have a common minimiser. -/
theorem C95_hqs_agree_iff [ProperSpace E] (hF : F.Convex) (hG : G.Convex) (hf : ProxExact f F) (hg : ProxExact g G) (hτ : 0 < τ)
    (hsol : ∃ x z, IsPenalisedMin F G τ x z) (gfirst : Bool) (x0 z0 : Option E) (R : ℕ → SplitState E)
    (hR : ∀ n, HQS f g x0 z0 (.scalar τ) n gfirst = .ok (R n)) :
    Tendsto (fun n => ‖(R n).x - (R n).z‖) atTop (𝓝 0) ↔ ∃ c, F.IsMin c ∧ G.IsMin c := by
  obtain ⟨x, z, hp, hx, hz⟩ := C95_hqs_converges hF hG hf hg hτ hsol gfirst x0 z0 R hR
  have hlim := (hx.sub hz).norm
  constructor
  · intro h
    have := tendsto_nhds_unique hlim h
    obtain rfl := sub_eq_zero.1 (norm_eq_zero.1 this)
    exact ⟨x, penalised_eq hF hG hτ hp⟩
  · rintro ⟨c, h1, h2⟩
    obtain rfl := penalised_common hτ h1 h2 hp
    simpa using hlim

lemma penalised_gap {x z : E} (hτ : 0 < τ) {K : ℝ} (hdom : G.dom = Set.univ) (hlip : ∀ a b, G.val a - G.val b ≤ K * ‖a - b‖)
    (hp : IsPenalisedMin F G τ x z) (u : E) (hu : u ∈ F.dom) :
    F.val x + G.val x ≤ F.val u + G.val u + τ * K ^ 2 / 2 := by
  have k := hp.2.2 u hu u (by rw [hdom]; trivial)
  have k1 := hlip x z
  rw [sub_self, norm_zero] at k
  have k2 : K * ‖x - z‖ ≤ τ * K ^ 2 / 2 + ‖x - z‖ ^ 2 / (2 * τ) := by
    have : 0 ≤ (τ * K - ‖x - z‖) ^ 2 / (2 * τ) := by positivity
    have e : (τ * K - ‖x - z‖) ^ 2 / (2 * τ) = τ * K ^ 2 / 2 + ‖x - z‖ ^ 2 / (2 * τ) - K * ‖x - z‖ := by field_simp; ring
    linarith
  norm_num at k
  linarith

/-- C95: how far the limit of `x` is from solving the problem in the docstring: for a finite `K`-Lipschitz `G` its objective exceeds every other value
of the objective by at most `tau K²/2`. -/
theorem C95_hqs_gap [ProperSpace E] (hF : F.Convex) (hG : G.Convex) (hf : ProxExact f F) (hg : ProxExact g G) (hτ : 0 < τ)
    (hsol : ∃ x z, IsPenalisedMin F G τ x z) {K : ℝ} (hdom : G.dom = Set.univ) (hlip : ∀ a b, G.val a - G.val b ≤ K * ‖a - b‖)
    (gfirst : Bool) (x0 z0 : Option E) (R : ℕ → SplitState E) (hR : ∀ n, HQS f g x0 z0 (.scalar τ) n gfirst = .ok (R n)) :
    ∃ x ∈ F.dom, Tendsto (fun n => (R n).x) atTop (𝓝 x) ∧ ∀ u ∈ F.dom, F.val x + G.val x ≤ F.val u + G.val u + τ * K ^ 2 / 2 := by
  obtain ⟨x, z, hp, hx, -⟩ := C95_hqs_converges hF hG hf hg hτ hsol gfirst x0 z0 R hR
  exact ⟨x, hp.1, hx, fun u hu => penalised_gap hτ hdom hlip hp u hu⟩

/-! ## The documented problem is not solved -/

section Refuted
variable {F' C : Type} [NormedAddCommGroup F'] [InnerProductSpace ℝ F'] [ProperSpace E]

/-- `L2(sigma=s)` and `L2(sigma=s, b=b)`. -/
def l2Plain (d : L2Data E F') (s : ℝ) : L2Args E F' := ⟨d, none, s, 1, true, .const 10, false, .legacy, .default⟩

lemma l2Plain_exact (ext : L2Ext E F' C) (d : L2Data E F') (hd : ∀ Op e b, d ≠ .opB Op e b) {s : ℝ} (hs : 0 < s) (st : L2State E C) :
    ProxExact (L2.obj ext (l2Plain d s) st) (XFun.ofReal (l2Spec (l2Plain d s))) := fun x τ hτ => by
  obtain ⟨p, h1, h2⟩ := C17_l2_prox_closed ext (l2Plain d s) hs hd st x τ hτ
  exact ⟨p, h1, h2.1⟩

/-- C95: for the squared distances `s/2 ‖x‖²` and `r/2 ‖x-b‖²` (any positive weights, any `b ≠ 0`, any step, either order, any starting points) HQS
converges to `r b/(s+r+tau s r)` in `x` and to `(1+tau s)` times that in `z`: the outputs do not converge to each other, and neither minimises the
sum, whose only minimiser is `r b/(s+r)`. -/
theorem C95_hqs_solves_refuted (ext : L2Ext E F' C) (st st' : L2State E C) {s r : ℝ} (hs : 0 < s) (hr : 0 < r) {b : E} (hb : b ≠ 0) (hτ : 0 < τ)
    (gfirst : Bool) (x0 z0 : Option E) (R : ℕ → SplitState E)
    (hR : ∀ n, HQS (L2.obj ext (l2Plain .nothing s) st) (L2.obj ext (l2Plain (.bOnly b) r) st') x0 z0 (.scalar τ) n gfirst = .ok (R n)) :
    ∃ x z, Tendsto (fun n => (R n).x) atTop (𝓝 x) ∧ Tendsto (fun n => (R n).z) atTop (𝓝 z) ∧ x ≠ z ∧
      x = (r / (s + r + τ * s * r)) • b ∧ z = ((1 + τ * s) * (r / (s + r + τ * s * r))) • b ∧
      ∀ y, ((XFun.ofReal (l2Spec (l2Plain (F' := F') .nothing s))).add (XFun.ofReal (l2Spec (l2Plain (F' := F') (.bOnly b) r)))).IsMin y →
        y = (r / (s + r)) • b ∧ y ≠ x ∧ y ≠ z := by
  have hc1 : (XFun.ofReal (l2Spec (l2Plain (F' := F') (.nothing : L2Data E F') s))).Convex := l2_convex (l2Plain .nothing s) hs.le
  have hc2 : (XFun.ofReal (l2Spec (l2Plain (F' := F') (.bOnly b) r))).Convex := l2_convex (l2Plain (.bOnly b) r) hr.le
  have hD : 0 < s + r + τ * s * r := by positivity
  have hsol : ∃ x z, IsPenalisedMin (XFun.ofReal (l2Spec (l2Plain (F' := F') (.nothing : L2Data E F') s))) (XFun.ofReal (l2Spec (l2Plain (F' := F') (.bOnly b) r))) τ x z := by
    refine ⟨(r / (s + r + τ * s * r)) • b, ((1 + τ * s) * (r / (s + r + τ * s * r))) • b, penalised_of_prox hc1 hc2 hτ
      (l2_isUniqueProx _ hs.le hτ ?_).1 (l2_isUniqueProx _ hr.le hτ ?_).1⟩
    · simp only [l2Res, l2Grad, l2Plain, add_zero]
      module
    · simp only [l2Res, l2Grad, l2Plain, add_zero]
      have : (1 + τ * s) * (r / (s + r + τ * s * r)) + τ * r * ((1 + τ * s) * (r / (s + r + τ * s * r)) - 1) - r / (s + r + τ * s * r) = 0 := by
        field_simp; ring
      calc _ = ((1 + τ * s) * (r / (s + r + τ * s * r)) + τ * r * ((1 + τ * s) * (r / (s + r + τ * s * r)) - 1) - r / (s + r + τ * s * r)) • b := by module
        _ = 0 := by rw [this, zero_smul]
  obtain ⟨x, z, hp, hx, hz⟩ := C95_hqs_converges hc1 hc2 (l2Plain_exact ext .nothing (by simp) hs st) (l2Plain_exact ext (.bOnly b) (by simp) hr st') hτ hsol
    gfirst x0 z0 R hR
  obtain ⟨p1, p2⟩ := prox_of_penalised hp
  have e1 : x = (1 / (1 + τ * s)) • z := (l2_isUniqueProx _ hs.le hτ (closed_res (l2Plain (F' := F') (.nothing : L2Data E F') s) hs hτ z (by simp [l2Plain]))).2 _ p1
  have e2 : z = (1 / (1 + τ * r)) • (x + (τ * r) • b) := (l2_isUniqueProx _ hr.le hτ (closed_res (l2Plain (F' := F') (.bOnly b) r) hr hτ x (by simp [l2Plain]))).2 _ p2
  have hs1 : (1 + τ * s) ≠ 0 := by positivity
  have hr1 : (1 + τ * r) ≠ 0 := by positivity
  have e3 : z = (1 + τ * s) • x := by rw [e1, smul_smul, mul_one_div, div_self hs1, one_smul]
  have e4 : (1 + τ * r) • z = x + (τ * r) • b := by rw [e2, smul_smul, mul_one_div, div_self hr1, one_smul]
  have e5 : (τ * (s + r + τ * s * r)) • x = (τ * r) • b := by
    have : (τ * (s + r + τ * s * r)) • x = (1 + τ * r) • ((1 + τ * s) • x) - x := by module
    rw [this, ← e3, e4]; abel
  have ex : x = (r / (s + r + τ * s * r)) • b := by
    have : x = (τ * (s + r + τ * s * r))⁻¹ • ((τ * (s + r + τ * s * r)) • x) := by rw [smul_smul, inv_mul_cancel₀ (by positivity), one_smul]
    rw [this, e5, smul_smul]
    congr 1
    field_simp
  have ez : z = ((1 + τ * s) * (r / (s + r + τ * s * r))) • b := by rw [e3, ex, smul_smul]
  have inj : ∀ {p q : ℝ}, p ≠ q → p • b ≠ q • b := fun h h' => h (smul_left_injective ℝ hb h')
  have hmul : ∀ {p q : ℝ}, p - q ≠ 0 → p • b ≠ q • b := fun h => inj (sub_ne_zero.1 h)
  refine ⟨x, z, hx, hz, ?_, ex, ez, fun y hy => ?_⟩
  · rw [ex, ez]
    apply inj
    have : 0 < τ * s * (r / (s + r + τ * s * r)) := by positivity
    intro h; nlinarith
  · have ey : y = (r / (s + r)) • b := by
      have h := hy.2 ((r / (s + r)) • b) ⟨trivial, trivial⟩
      simp only [XFun.add, XFun.ofReal, l2Spec, l2Plain, add_zero] at h
      have hexp : ∀ v : E, s / 2 * ‖v‖ ^ 2 + r / 2 * ‖v - b‖ ^ 2 = (s + r) / 2 * ‖v - (r / (s + r)) • b‖ ^ 2 + s * r / (2 * (s + r)) * ‖b‖ ^ 2 := by
        intro v
        rw [norm_sub_sq_real, norm_sub_sq_real, real_inner_smul_right, norm_smul, mul_pow, Real.norm_eq_abs, sq_abs]
        field_simp
        ring
      rw [hexp, hexp, sub_self, norm_zero] at h
      have : ‖y - (r / (s + r)) • b‖ ^ 2 ≤ 0 := by
        by_contra hc
        push Not at hc
        have : 0 < (s + r) / 2 * ‖y - (r / (s + r)) • b‖ ^ 2 := by positivity
        norm_num at h; linarith
      exact sub_eq_zero.1 (norm_eq_zero.1 (by nlinarith [norm_nonneg (y - (r / (s + r)) • b)]))
    refine ⟨ey, ?_, ?_⟩
    · rw [ey, ex]
      apply hmul
      have : r / (s + r) - r / (s + r + τ * s * r) = τ * s * r ^ 2 / ((s + r) * (s + r + τ * s * r)) := by field_simp; ring
      rw [this]; positivity
    · rw [ey, ez]
      apply Ne.symm
      apply hmul
      have : (1 + τ * s) * (r / (s + r + τ * s * r)) - r / (s + r) = τ * s ^ 2 * r / ((s + r) * (s + r + τ * s * r)) := by field_simp; ring
      rw [this]; positivity

end Refuted

/-! ## Continuation -/

/-- One proximal step, in the form used for telescoping. -/
lemma prox_step_le (hF : F.Convex) {t : ℝ} (ht : 0 < t) {x p u : E} (hp : IsProx F t x p) (hu : u ∈ F.dom) :
    2 * t * (F.val p - F.val u) ≤ ‖x - u‖ ^ 2 - ‖p - u‖ ^ 2 - ‖x - p‖ ^ 2 := by
  have h := prox_three_point hF ht hp hu
  rw [norm_sub_rev p x, norm_sub_rev u p, norm_sub_rev u x] at h
  have e : 2 * t * (F.val p - F.val u + ‖x - p‖ ^ 2 / (2 * t) + ‖p - u‖ ^ 2 / (2 * t) - ‖x - u‖ ^ 2 / (2 * t))
      = 2 * t * (F.val p - F.val u) + ‖x - p‖ ^ 2 + ‖p - u‖ ^ 2 - ‖x - u‖ ^ 2 := by field_simp
  have : 2 * t * (F.val p - F.val u + ‖x - p‖ ^ 2 / (2 * t) + ‖p - u‖ ^ 2 / (2 * t) - ‖x - u‖ ^ 2 / (2 * t)) ≤ 0 :=
    mul_nonpos_of_nonneg_of_nonpos (by linarith) (by linarith)
  linarith

/-- C95: continuation.  For any positive steps `t 0, …, t (n-1)` (a scalar, or an array of at least `n` entries) HQS returns after `n` iterations, the callback
has seen `n` pairs `(x, z)`, and against every competitor `u` the weighted objective gaps of the `x` add up to at most
`(‖w - u‖² + K² Σ t²)/2`, where `w` is the starting point of the variable that drives the iteration and `G` is finite and `K`-Lipschitz. -/
theorem C95_hqs_continuation (hF : F.Convex) (hG : G.Convex) (hf : ProxExact f F) (hg : ProxExact g G) {K : ℝ} (hdom : G.dom = Set.univ)
    (hlip : ∀ a b, G.val a - G.val b ≤ K * ‖a - b‖) (gfirst : Bool) (x0 z0 : Option E) (x z : E) (hinit : x0z0Init x0 z0 = .ok (x, z))
    (tau : StepSpec) (t : ℕ → ℝ) (n : ℕ) (ht : ∀ i < n, tau.at i = .ok (t i) ∧ 0 < t i) :
    ∃ s, HQS f g x0 z0 tau n gfirst = .ok s ∧ ∃ L : ℕ → E × E, s.log = (List.range n).map L ∧ (∀ i < n, (L i).1 ∈ F.dom) ∧ ∀ u ∈ F.dom,
      ∑ i ∈ Finset.range n, t i * (F.val (L i).1 + G.val (L i).1 - (F.val u + G.val u)) ≤
        (‖(if gfirst then x else z) - u‖ ^ 2 + K ^ 2 * ∑ i ∈ Finset.range n, t i ^ 2) / 2 := by
  obtain ⟨Pf, hPf, hPf'⟩ := proxExact_maps hf
  obtain ⟨Pg, hPg, hPg'⟩ := proxExact_maps hg
  obtain ⟨s, h1, h2, -, -⟩ := hqs_traj hPf hPg tau t gfirst x0 z0 x z hinit n ht
  refine ⟨s, h1, _, h2, ?_, ?_⟩
  · intro i hi
    cases gfirst with
    | true => exact (hPf' _ (ht i hi).2 _).1
    | false => exact (hPf' _ (ht i hi).2 _).1
  · intro u hu
    have hug : u ∈ G.dom := by rw [hdom]; trivial
    have main : ∀ m ≤ n, ∑ i ∈ Finset.range m, t i * (F.val (hqsPair gfirst (if gfirst then Pg else Pf) (if gfirst then Pf else Pg) t (if gfirst then x else z) i).1
          + G.val (hqsPair gfirst (if gfirst then Pg else Pf) (if gfirst then Pf else Pg) t (if gfirst then x else z) i).1 - (F.val u + G.val u)) ≤
        (‖(if gfirst then x else z) - u‖ ^ 2 + K ^ 2 * ∑ i ∈ Finset.range m, t i ^ 2) / 2
          - ‖hqsW (if gfirst then Pg else Pf) (if gfirst then Pf else Pg) t (if gfirst then x else z) m - u‖ ^ 2 / 2 := by
      intro m
      induction m with
      | zero => intro _; simp [hqsW]
      | succ m ih =>
        intro hm
        have ih := ih (by omega)
        have htm := (ht m (by omega)).2
        rw [Finset.sum_range_succ, Finset.sum_range_succ]
        have hsq : ∀ d : ℝ, 2 * t m * (K * d) ≤ d ^ 2 + t m ^ 2 * K ^ 2 := fun d => by nlinarith [sq_nonneg (t m * K - d)]
        cases gfirst with
        | true =>
          simp only [if_true, hqsPair, hqsW] at ih ⊢
          have k1 := prox_step_le hG htm (hPg' _ htm (hqsW Pg Pf t x m)) hug
          have k2 := prox_step_le hF htm (hPf' _ htm (Pg (t m) (hqsW Pg Pf t x m))) hu
          have k3 := mul_le_mul_of_nonneg_left (hlip (Pf (t m) (Pg (t m) (hqsW Pg Pf t x m))) (Pg (t m) (hqsW Pg Pf t x m))) (by linarith : (0 : ℝ) ≤ 2 * t m)
          have k4 := hsq ‖Pf (t m) (Pg (t m) (hqsW Pg Pf t x m)) - Pg (t m) (hqsW Pg Pf t x m)‖
          rw [norm_sub_rev (Pg (t m) (hqsW Pg Pf t x m)) (Pf (t m) (Pg (t m) (hqsW Pg Pf t x m)))] at k2
          have k5 : 0 ≤ ‖hqsW Pg Pf t x m - Pg (t m) (hqsW Pg Pf t x m)‖ ^ 2 := by positivity
          linarith
        | false =>
          simp only [Bool.false_eq_true, if_false, hqsPair, hqsW] at ih ⊢
          have k1 := prox_step_le hF htm (hPf' _ htm (hqsW Pf Pg t z m)) hu
          have k2 := prox_step_le hG htm (hPg' _ htm (Pf (t m) (hqsW Pf Pg t z m))) hug
          have k3 := mul_le_mul_of_nonneg_left (hlip (Pf (t m) (hqsW Pf Pg t z m)) (Pg (t m) (Pf (t m) (hqsW Pf Pg t z m)))) (by linarith : (0 : ℝ) ≤ 2 * t m)
          have k4 := hsq ‖Pf (t m) (hqsW Pf Pg t z m) - Pg (t m) (Pf (t m) (hqsW Pf Pg t z m))‖
          have k5 : 0 ≤ ‖hqsW Pf Pg t z m - Pf (t m) (hqsW Pf Pg t z m)‖ ^ 2 := by positivity
          linarith
    have := main n le_rfl
    have h0 : 0 ≤ ‖hqsW (if gfirst then Pg else Pf) (if gfirst then Pf else Pg) t (if gfirst then x else z) n - u‖ ^ 2 / 2 := by positivity
    linarith

/-- C95: with steps that tend to zero but whose sum diverges, the best `x` seen by the callback gets arbitrarily close to any attainable objective value
(continuation solves the problem of the docstring). -/
theorem C95_hqs_continuation_converges (hF : F.Convex) (hG : G.Convex) (hf : ProxExact f F) (hg : ProxExact g G) {K : ℝ} (hdom : G.dom = Set.univ)
    (hlip : ∀ a b, G.val a - G.val b ≤ K * ‖a - b‖) (gfirst : Bool) (x0 z0 : Option E) (x z : E) (hinit : x0z0Init x0 z0 = .ok (x, z))
    (t : ℕ → ℝ) (hpos : ∀ i, 0 < t i) (h0 : Tendsto t atTop (𝓝 0)) (hsum : Tendsto (fun n => ∑ i ∈ Finset.range n, t i) atTop atTop)
    (u : E) (hu : u ∈ F.dom) (ε : ℝ) (hε : 0 < ε) :
    ∃ N, ∀ n ≥ N, ∃ s, HQS f g x0 z0 (.arr ((List.range n).map t)) n gfirst = .ok s ∧
      ∃ p ∈ s.log, F.val p.1 + G.val p.1 ≤ F.val u + G.val u + ε := by
  -- steps below δ from M on
  obtain ⟨M, hM⟩ := (h0.eventually (gt_mem_nhds (show (0 : ℝ) < ε / (K ^ 2 + 1) by positivity))).exists_forall_of_atTop
  set C := ‖(if gfirst then x else z) - u‖ ^ 2 + K ^ 2 * ∑ i ∈ Finset.range M, t i ^ 2 with hC
  obtain ⟨N, hN⟩ := (hsum.eventually (eventually_gt_atTop (C / ε))).exists_forall_of_atTop
  refine ⟨max (max N M) 2, fun n hn => ?_⟩
  have hat : ∀ i < n, (StepSpec.arr ((List.range n).map t)).at i = .ok (t i) := by
    intro i hi
    have h2 : ((List.range n).map t)[i]? = some (t i) := by simp [hi]
    obtain ⟨k, rfl⟩ : ∃ k, n = k + 2 := ⟨n - 2, by omega⟩
    rcases hl : (List.range (k + 2)).map t with _ | ⟨a, _ | ⟨b, l⟩⟩
    · simp at hl
    · have := congrArg List.length hl; simp at this
    · rw [hl] at h2; simp only [StepSpec.at, h2]
  obtain ⟨s, h1, L, h2, h3, h4⟩ := C95_hqs_continuation hF hG hf hg hdom hlip gfirst x0 z0 x z hinit (.arr ((List.range n).map t)) t n
    (fun i hi => ⟨hat i hi, hpos i⟩)
  refine ⟨s, h1, ?_⟩
  by_contra hno
  push Not at hno
  have k := h4 u hu
  have hS := hN n (by omega)
  have hSpos : 0 < ∑ i ∈ Finset.range n, t i := Finset.sum_pos (fun i _ => hpos i) ⟨0, by simp; omega⟩
  -- every gap exceeds ε
  have k1 : ε * ∑ i ∈ Finset.range n, t i ≤ ∑ i ∈ Finset.range n, t i * (F.val (L i).1 + G.val (L i).1 - (F.val u + G.val u)) := by
    rw [Finset.mul_sum]
    apply Finset.sum_le_sum
    intro i hi
    have := hno (L i) (by rw [h2]; exact List.mem_map.2 ⟨i, by simpa using hi, rfl⟩)
    rw [mul_comm]
    exact mul_le_mul_of_nonneg_left (by linarith) (hpos i).le
  have k2 : K ^ 2 * ∑ i ∈ Finset.range n, t i ^ 2 ≤ K ^ 2 * (∑ i ∈ Finset.range M, t i ^ 2) + ε * ∑ i ∈ Finset.range n, t i := by
    have hsplit : ∑ i ∈ Finset.range n, t i ^ 2 ≤ ∑ i ∈ Finset.range M, t i ^ 2 + ε / (K ^ 2 + 1) * ∑ i ∈ Finset.range n, t i := by
      obtain ⟨m, rfl⟩ : ∃ m, n = M + m := ⟨n - M, by omega⟩
      rw [Finset.sum_range_add, Finset.sum_range_add (fun i => t i)]
      have a1 : ∑ i ∈ Finset.range m, t (M + i) ^ 2 ≤ ε / (K ^ 2 + 1) * ∑ i ∈ Finset.range m, t (M + i) := by
        rw [Finset.mul_sum]
        apply Finset.sum_le_sum
        intro i _
        rw [sq]
        exact mul_le_mul_of_nonneg_right (hM (M + i) (by omega)).le (hpos _).le
      have a2 : 0 ≤ ε / (K ^ 2 + 1) * ∑ i ∈ Finset.range M, t i := mul_nonneg (by positivity) (Finset.sum_nonneg fun i _ => (hpos i).le)
      rw [mul_add]; linarith
    have a3 := mul_le_mul_of_nonneg_left hsplit (sq_nonneg K)
    have a4 : K ^ 2 * (ε / (K ^ 2 + 1)) ≤ ε := by
      rw [mul_div_assoc', div_le_iff₀ (by positivity)]; nlinarith
    have a5 := mul_le_mul_of_nonneg_right a4 hSpos.le
    linarith
  have k3 : C < ε * ∑ i ∈ Finset.range n, t i := by
    rw [div_lt_iff₀ hε] at hS; linarith
  linarith

/-- The hypotheses are met: for the L1 norm twice the penalised problem has the minimiser `(0, 0)`, and HQS converges in both orders. -/
example {ι : Type} [Fintype ι] (x0 : Vec ι) (gfirst : Bool) : ∃ R : ℕ → SplitState (Vec ι), (∀ n, HQS (L1 1 none) (L1 1 none) (some x0) none (.scalar 1) n gfirst = .ok (R n)) ∧
    Tendsto (fun n => ‖(R n).x - (R n).z‖) atTop (𝓝 0) := by
  choose R hR using fun n => C52_hqs_returns (l1_proxExact (ι := ι)) (l1_proxExact (ι := ι)) one_pos gfirst (some x0) none (Or.inl rfl) n
  have hmin : (XFun.ofReal fun x : Vec ι => 1 * ∑ i, |x i - (0 : Vec ι) i|).IsMin 0 := ⟨trivial, fun y _ => by
    simp only [XFun.ofReal, sub_self, abs_zero, Finset.sum_const_zero, mul_zero]; positivity⟩
  refine ⟨R, hR, (C95_hqs_agree_iff l1_convex l1_convex l1_proxExact l1_proxExact one_pos ⟨0, 0, hmin.1, hmin.1, fun a _ b _ => ?_⟩ gfirst (some x0) none R hR).2
    ⟨0, hmin, hmin⟩⟩
  have h1 := hmin.2 a trivial
  have h2 := hmin.2 b trivial
  have : 0 ≤ ‖a - b‖ ^ 2 / (2 * 1) := by positivity
  have h0 : ‖(0 : Vec ι) - 0‖ ^ 2 / (2 * 1) = 0 := by simp
  linarith

/-- The steps `1/(i+1)` meet the hypotheses of the continuation theorem. -/
example : (∀ i : ℕ, 0 < 1 / ((i : ℝ) + 1)) ∧ Tendsto (fun i : ℕ => 1 / ((i : ℝ) + 1)) atTop (𝓝 0) ∧
    Tendsto (fun n => ∑ i ∈ Finset.range n, 1 / ((i : ℝ) + 1)) atTop atTop :=
  ⟨fun i => by positivity, tendsto_one_div_add_atTop_nhds_zero_nat, Real.tendsto_sum_range_one_div_nat_succ_atTop⟩

end Verif
