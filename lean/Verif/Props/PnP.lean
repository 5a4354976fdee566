import Verif.Model.PnP
import Verif.Props.Splitting
import Verif.Props.Relaxed

/-! # C81: PlugAndPlay -/

open scoped RealInnerProductSpace
open Filter Topology

set_option linter.unusedSectionVars false

namespace Verif

section firm
variable {E : Type} [NormedAddCommGroup E] [InnerProductSpace ℝ E]

/-- An equilibrium of the maps `P` and `D`: `x` is what `P` makes of `x - u` and `D` of `x + u`. -/
def IsEquilibrium (P D : E → E) (x u : E) : Prop := P (x - u) = x ∧ D (x + u) = x

lemma dr_fixed_firm {P₁ P₂ : E → E} {η : ℝ} (hη : η ≠ 0) (c : E) : drStep P₁ P₂ η c = c ↔ P₂ ((2 : ℝ) • P₁ c - c) = P₁ c := by
  unfold drStep
  rw [add_eq_left, smul_eq_zero]
  simp [hη, sub_eq_zero]

/-- ADMM with firmly non-expansive maps. -/
lemma admm_firm_converges [ProperSpace E] {f g : ProxOp E} {τ : ℝ} {Pf Pg : E → E} (hPf : ∀ x, f.prox x τ = .ok (Pf x)) (hPg : ∀ x, g.prox x τ = .ok (Pg x))
    (f1 : Firm Pf) (f2 : Firm Pg) (gfirst : Bool) (x0 : E) (hsol : ∃ x u, IsEquilibrium Pf Pg x u) :
    ∃ S : ℕ → SplitState E, (∀ n, ADMM f g (some x0) none τ n gfirst = .ok (S n)) ∧
      ∃ c u, IsEquilibrium Pf Pg c u ∧ Tendsto (fun n => (S n).x) atTop (𝓝 c) ∧ Tendsto (fun n => (S n).z) atTop (𝓝 c) := by
  obtain ⟨S, -, -, -, hu, ht, hff, -, hS⟩ := admm_traj hPf hPg gfirst (some x0) none x0 x0 rfl
  refine ⟨S, hS, ?_⟩
  obtain ⟨xs, us, h1, h2⟩ := hsol
  cases gfirst with
  | false =>
    have hff := hff rfl
    let V : ℕ → E := fun n => (S (n + 1)).x + (S n).u
    have hz : ∀ n, (S (n + 1)).z = Pg (V n) := fun n => (hff n).2
    have hun : ∀ n, (S (n + 1)).u = V n - Pg (V n) := fun n => by rw [hu, hz]; simp only [V]; abel
    have hx : ∀ n, (S (n + 2)).x = Pf ((2 : ℝ) • Pg (V n) - V n) := fun n => by
      rw [(hff (n + 1)).1, hz, hun, two_smul]; congr 1; abel
    have hV : ∀ n, V (n + 1) = drStep Pg Pf 1 (V n) := fun n => by
      show (S (n + 2)).x + (S (n + 1)).u = _
      rw [hx, hun]; unfold drStep; rw [one_smul]; abel
    obtain ⟨c, hc, hlim⟩ := dr_converges f2 f1 one_pos one_lt_two ⟨xs + us, (dr_fixed_firm one_ne_zero _).2 (by
      rw [h2, two_smul, show xs + xs - (xs + us) = xs - us by abel, h1])⟩ V hV
    have hc' := (dr_fixed_firm one_ne_zero c).1 hc
    refine ⟨Pg c, c - Pg c, ⟨?_, ?_⟩, ?_, ?_⟩
    · rw [← hc', two_smul]; congr 1; rw [← two_smul ℝ (Pg c), hc', two_smul]; abel
    · congr 1; abel
    · rw [← tendsto_add_atTop_iff_nat 2]
      have hcont : Continuous fun v => Pf ((2 : ℝ) • Pg v - v) := by
        have := f1.continuous; have := f2.continuous; fun_prop
      have := (hcont.tendsto c).comp hlim
      rw [hc'] at this
      exact this.congr fun n => (hx n).symm
    · rw [← tendsto_add_atTop_iff_nat 1]
      exact ((f2.continuous.tendsto c).comp hlim).congr fun n => (hz n).symm
  | true =>
    have hff := ht rfl
    let V : ℕ → E := fun n => (S (n + 1)).z - (S n).u
    have hx : ∀ n, (S (n + 1)).x = Pf (V n) := fun n => (hff n).2
    have hun : ∀ n, (S (n + 1)).u = Pf (V n) - V n := fun n => by rw [hu, hx]; simp only [V]; abel
    have hz : ∀ n, (S (n + 2)).z = Pg ((2 : ℝ) • Pf (V n) - V n) := fun n => by
      rw [(hff (n + 1)).1, hx, hun, two_smul]; congr 1; abel
    have hV : ∀ n, V (n + 1) = drStep Pf Pg 1 (V n) := fun n => by
      show (S (n + 2)).z - (S (n + 1)).u = _
      rw [hz, hun]; unfold drStep; rw [one_smul]; abel
    obtain ⟨c, hc, hlim⟩ := dr_converges f1 f2 one_pos one_lt_two ⟨xs - us, (dr_fixed_firm one_ne_zero _).2 (by
      rw [h1, two_smul, show xs + xs - (xs - us) = xs + us by abel, h2])⟩ V hV
    have hc' := (dr_fixed_firm one_ne_zero c).1 hc
    refine ⟨Pf c, Pf c - c, ⟨?_, ?_⟩, ?_, ?_⟩
    · congr 1; abel
    · rw [show Pf c + (Pf c - c) = (2 : ℝ) • Pf c - c by rw [two_smul]; abel, hc']
    · rw [← tendsto_add_atTop_iff_nat 1]
      exact ((f1.continuous.tendsto c).comp hlim).congr fun n => (hx n).symm
    · rw [← tendsto_add_atTop_iff_nat 2]
      have hcont : Continuous fun v => Pg ((2 : ℝ) • Pf v - v) := by
        have := f1.continuous; have := f2.continuous; fun_prop
      have := (hcont.tendsto c).comp hlim
      rw [hc'] at this
      exact this.congr fun n => (hz n).symm
end firm

variable {ι κ : Type} [Fintype ι] [Fintype κ]

@[simp] lemma ravel_reshape (e : ι ≃ κ) (x : Vec ι) : ravelFrom e (reshapeTo e x) = x := by ext i; simp [ravelFrom, reshapeTo]

@[simp] lemma reshape_ravel (e : ι ≃ κ) (y : Vec κ) : reshapeTo e (ravelFrom e y) = y := by ext i; simp [ravelFrom, reshapeTo]

lemma ravel_sub (e : ι ≃ κ) (x y : Vec κ) : ravelFrom e x - ravelFrom e y = ravelFrom e (x - y) := by ext i; simp [ravelFrom]

lemma reshape_sub (e : ι ≃ κ) (x y : Vec ι) : reshapeTo e x - reshapeTo e y = reshapeTo e (x - y) := by ext i; simp [reshapeTo]

lemma reshape_norm (e : ι ≃ κ) (x : Vec ι) : ‖reshapeTo e x‖ = ‖x‖ := by
  rw [EuclideanSpace.norm_eq, EuclideanSpace.norm_eq]
  congr 1
  exact Equiv.sum_comp e.symm (fun i => ‖x i‖ ^ 2)

lemma reshape_inner (e : ι ≃ κ) (x y : Vec ι) : ⟪reshapeTo e x, reshapeTo e y⟫ = ⟪x, y⟫ := by
  simp only [PiLp.inner_apply]
  exact Equiv.sum_comp e.symm (fun i => inner ℝ (x i) (y i))

lemma denoise_prox (e : ι ≃ κ) (den : Vec κ → ℝ → Py (Vec κ)) {τ : ℝ} (hτ : 0 < τ) {D : Vec κ → Vec κ} (hD : ∀ y, den y τ = .ok (D y)) (x : Vec ι) :
    (Denoise (some e) den).prox x τ = .ok (ravelFrom e (D (reshapeTo e x))) := by
  simp [Denoise, ProxOp.prox, checkTau, not_le.2 hτ, denoiseBody, hD, Bind.bind, Except.bind, Pure.pure, Except.pure]

lemma firm_ravel (e : ι ≃ κ) {D : Vec κ → Vec κ} (hD : Firm D) : Firm fun x => ravelFrom e (D (reshapeTo e x)) := by
  intro x y
  have h := hD (reshapeTo e x) (reshapeTo e y)
  have e1 : reshapeTo e (ravelFrom e (D (reshapeTo e x)) - ravelFrom e (D (reshapeTo e y))) = D (reshapeTo e x) - D (reshapeTo e y) := by
    rw [ravel_sub, reshape_ravel]
  rw [← reshape_norm e, ← reshape_inner e, e1, ← reshape_sub]
  exact h

/-- C81: if the denoiser of every strength `tau` returns the proximal point of `tau G`, the operator built from it is an exact operator of `G` on the flat arrays.  Every
solver theorem stated for exact operators then applies to `PlugAndPlay`. -/
theorem C81_pnp_prox (e : ι ≃ κ) (den : Vec κ → ℝ → Py (Vec κ)) (G : XFun (Vec κ)) (h : ∀ y τ, 0 < τ → ∃ p, den y τ = .ok p ∧ IsProx G τ y p) :
    ProxExact (Denoise (some e) den) (G.comp (reshapeTo e)) := by
  intro x τ hτ
  obtain ⟨p, h1, h2, h3⟩ := h (reshapeTo e x) τ hτ
  refine ⟨ravelFrom e p, by simp [Denoise, ProxOp.prox, checkTau, not_le.2 hτ, denoiseBody, h1, Bind.bind, Except.bind, Pure.pure, Except.pure], ?_, fun y hy => ?_⟩
  · show reshapeTo e (ravelFrom e p) ∈ G.dom
    rw [reshape_ravel]; exact h2
  · have := h3 (reshapeTo e y) hy
    unfold proxObj at this ⊢
    simp only [XFun.comp, reshape_ravel]
    rwa [reshape_sub, reshape_norm, show p - reshapeTo e x = reshapeTo e (ravelFrom e p - x) by rw [← reshape_sub, reshape_ravel], reshape_norm] at this

/-- C81: with a denoiser that is the proximal map of a convex `G`, `PlugAndPlay` with ADMM (the default solver) converges to a minimiser of `F + G`. -/
theorem C81_pnp_admm_minimises (e : ι ≃ κ) (den : Vec κ → ℝ → Py (Vec κ)) {f : ProxOp (Vec ι)} {F : XFun (Vec ι)} {G : XFun (Vec κ)} (hF : F.Convex)
    (hG : G.Convex) (hf : ProxExact f F) (hden : ∀ y τ, 0 < τ → ∃ p, den y τ = .ok p ∧ IsProx G τ y p) {τ : ℝ} (hτ : 0 < τ) (gfirst : Bool) (x0 : Vec ι)
    (hsol : ∃ x s, IsCertified F (G.comp (reshapeTo e)) x s) :
    ∃ S : ℕ → SplitState (Vec ι), (∀ n, PlugAndPlay f den (some e) x0 (fun f g x0 => ADMM f g (some x0) none τ n gfirst) = .ok (S n)) ∧
      ∃ c, (F.add (G.comp (reshapeTo e))).IsMin c ∧ Tendsto (fun n => (S n).x) atTop (𝓝 c) ∧ Tendsto (fun n => (S n).z) atTop (𝓝 c) := by
  refine C45_admm_converges hF ?_ hf (C81_pnp_prox e den G hden) hτ gfirst (some x0) none (Or.inl rfl) hsol
  have hadd : ∀ (a b : ℝ) (x y : Vec ι), reshapeTo e (a • x + b • y) = a • reshapeTo e x + b • reshapeTo e y := fun a b x y => by ext k; simp [reshapeTo]
  refine ⟨fun x hx y hy a b ha hb hab => ?_, fun x hx y hy a b ha hb hab => ?_⟩
  · show reshapeTo e (a • x + b • y) ∈ G.dom
    rw [hadd]; exact hG.1 hx hy ha hb hab
  · show G.val (reshapeTo e (a • x + b • y)) ≤ _
    rw [hadd]; exact hG.2 hx hy ha hb hab

/-- C81: a firmly non-expansive denoiser that is not the proximal map of anything: `PlugAndPlay` with ADMM converges to an equilibrium of the proximal map of `F` and the
denoiser, whenever there is one. -/
theorem C81_pnp_admm_converges (e : ι ≃ κ) (den : Vec κ → ℝ → Py (Vec κ)) {f : ProxOp (Vec ι)} {F : XFun (Vec ι)} (hF : F.Convex) (hf : ProxExact f F) {τ : ℝ}
    (hτ : 0 < τ) {D : Vec κ → Vec κ} (hD : ∀ y, den y τ = .ok (D y)) (hfirm : Firm D) (gfirst : Bool) (x0 : Vec ι) {Pf : Vec ι → Vec ι}
    (hPf : ∀ x, f.prox x τ = .ok (Pf x)) (hsol : ∃ x u, IsEquilibrium Pf (fun x => ravelFrom e (D (reshapeTo e x))) x u) :
    ∃ S : ℕ → SplitState (Vec ι), (∀ n, PlugAndPlay f den (some e) x0 (fun f g x0 => ADMM f g (some x0) none τ n gfirst) = .ok (S n)) ∧
      ∃ c u, IsEquilibrium Pf (fun x => ravelFrom e (D (reshapeTo e x))) c u ∧ Tendsto (fun n => (S n).x) atTop (𝓝 c) ∧ Tendsto (fun n => (S n).z) atTop (𝓝 c) := by
  refine admm_firm_converges hPf (denoise_prox e den hτ hD) (firm_prox hF hτ fun x => ?_) (firm_ravel e hfirm) gfirst x0 hsol
  obtain ⟨p, h1, h2⟩ := hf x τ hτ
  rw [hPf] at h1
  cases h1
  exact h2

/-- C81: `PlugAndPlay` with ProximalGradient and a firmly non-expansive denoiser converges to a fixed point of "gradient step, then denoise", when there is one. -/
theorem C81_pnp_pg_converges (e : ι ≃ κ) (den : Vec κ → ℝ → Py (Vec κ)) {f : ProxOp (Vec ι)} {φ : Vec ι → ℝ} {G : Vec ι → Vec ι} (hG : ∀ x, f.grad x = .ok (G x))
    (hGr : ∀ x, IsGrad φ x (G x)) {L : ℝ} (hL : LipschitzGrad φ L) (hφ : ConvexOn ℝ Set.univ φ) {τ : ℝ} (hτ : 0 < τ) (hτL : τ * L < 2) {D : Vec κ → Vec κ}
    (hD : ∀ y, den y τ = .ok (D y)) (hfirm : Firm D) (x0 : Vec ι) (hsol : ∃ c, ravelFrom e (D (reshapeTo e (c - τ • G c))) = c) :
    ∃ S : ℕ → PGState (Vec ι), (∀ n, 0 < n → PlugAndPlay f den (some e) x0 (fun f g x0 => ProximalGradient f g x0 (pgArgs τ 1 .none n)) = .ok (S n)) ∧
      ∃ c, ravelFrom e (D (reshapeTo e (c - τ • G c))) = c ∧ Tendsto (fun n => (S n).x) atTop (𝓝 c) := by
  obtain ⟨X, Y, t, hX0, hY0, ht0, hX, ht, hY, h⟩ := pg_traj (f := f) (g := Denoise (some e) den) (τ := τ) (ε := 1) hG
    (P := fun x => ravelFrom e (D (reshapeTo e x))) (by rw [one_mul]; exact denoise_prox e den hτ hD) .none (by decide) x0
  have hYX : ∀ n, Y n = X n := by
    intro n
    cases n with
    | zero => rw [hX0, hY0]
    | succ n => rw [hY]; simp [momentum]
  refine ⟨_, h, ?_⟩
  exact fb_converges (firm_ravel e hfirm) hGr (fun x y => hL x y _ _ (hGr x) (hGr y)) hφ hτ hτL one_pos le_rfl hsol X
    (fun n => by rw [hX, hYX, one_smul]; abel)

/-- C81: the denoiser is never asked for a non-positive strength: results do not depend on what it does there, for any solver, and the operator rejects such steps. -/
theorem C81_pnp_strength (e : Option (ι ≃ κ)) (den den' : Vec κ → ℝ → Py (Vec κ)) (h : ∀ y τ, 0 < τ → den y τ = den' y τ) {R : Type} (f : ProxOp (Vec ι)) (x0 : Vec ι)
    (solver : ProxOp (Vec ι) → ProxOp (Vec ι) → Vec ι → R) :
    PlugAndPlay f den e x0 solver = PlugAndPlay f den' e x0 solver ∧ RejectsBadTau (Denoise e den) := by
  refine ⟨?_, fun x τ hτ => by simp [Denoise, ProxOp.prox, ProxOp.proxdual, ProxOp.moreauStep, checkTau, hτ]⟩
  have : Denoise e den = Denoise e den' := by
    simp only [Denoise, ProxOp.mk.injEq, true_and, and_true, Option.some.injEq]
    funext x τ
    by_cases hτ : τ ≤ 0
    · simp [checkTau, hτ]
    · simp only [checkTau, hτ, if_false]
      cases e with
      | none => rfl
      | some e => simp [denoiseBody, h _ _ (not_le.1 hτ)]
  simp only [PlugAndPlay, this]

/-- C81: `dims` that do not fit the size of `x0` are reported as `ValueError` by the first iteration. -/
theorem C81_pnp_dims (den : Vec κ → ℝ → Py (Vec κ)) (f : ProxOp (Vec ι)) (x0 : Vec ι) {τ : ℝ} (hτ : 0 < τ) (n : ℕ) :
    PlugAndPlay f den none x0 (fun f g x0 => ADMM f g (some x0) none τ (n + 1) true) = .error .valueError ∧
      ∀ p, f.prox x0 τ = .ok p → PlugAndPlay f den none x0 (fun f g x0 => ADMM f g (some x0) none τ (n + 1) false) = .error .valueError := by
  constructor
  · simp [PlugAndPlay, ADMM, x0z0Init, forRange, ADMM.body, Denoise, ProxOp.prox, checkTau, not_le.2 hτ, denoiseBody, Bind.bind, Except.bind]
  · intro p hp
    simp [PlugAndPlay, ADMM, x0z0Init, forRange, ADMM.body, Denoise, checkTau, not_le.2 hτ, denoiseBody, Bind.bind, Except.bind, hp]
    simp [ProxOp.prox, checkTau, not_le.2 hτ]

/-- The hypothesis on the denoiser cannot be weakened to "non-expansive": with `D y = -y` and `F = 0` the iterates of ADMM alternate between `x0` and `-x0`. -/
theorem C81_pnp_needs_firm (x0 : Vec ι) {τ : ℝ} (hτ : 0 < τ) (f : ProxOp (Vec ι)) (hf : ∀ x, f.prox x τ = .ok x) (n : ℕ) :
    ∃ s, PlugAndPlay f (fun y _ => .ok (-y)) (some (Equiv.refl ι)) x0 (fun f g x0 => ADMM f g (some x0) none τ n false) = .ok s ∧ s.z = (-1 : ℝ) ^ n • x0 := by
  obtain ⟨S, -, h0, hu0, hu, ht, hff, -, hS⟩ := admm_traj (f := f) (g := Denoise (some (Equiv.refl ι)) fun y _ => .ok (-y)) (τ := τ) (Pf := id)
    (Pg := fun x => ravelFrom (Equiv.refl ι) (-(reshapeTo (Equiv.refl ι) x))) hf (denoise_prox _ _ hτ fun y => rfl) false (some x0) none x0 x0 rfl
  refine ⟨S n, hS n, ?_⟩
  have hP : ∀ x : Vec ι, ravelFrom (Equiv.refl ι) (-(reshapeTo (Equiv.refl ι) x)) = -x := fun x => by ext i; simp [ravelFrom, reshapeTo]
  induction n with
  | zero => simp [h0]
  | succ n ih =>
    have h1 := (hff rfl n).1
    have h2 := (hff rfl n).2
    rw [hP, h1, id, sub_add_cancel, ih] at h2
    rw [h2, pow_succ, mul_neg_one, neg_smul]

/-- A soft-thresholding denoiser, any reshaping, data term `‖x‖₁`: the hypotheses of `C81_pnp_prox` and `C81_pnp_admm_minimises` hold. -/
example (e : ι ≃ κ) : ∃ (f : ProxOp (Vec ι)) (F : XFun (Vec ι)) (den : Vec κ → ℝ → Py (Vec κ)) (G : XFun (Vec κ)), F.Convex ∧ G.Convex ∧ ProxExact f F ∧
    (∀ y τ, 0 < τ → ∃ p, den y τ = .ok p ∧ IsProx G τ y p) ∧ ∃ x s, IsCertified F (G.comp (reshapeTo e)) x s := by
  refine ⟨L1 1 none, _, (L1 1 none).prox, _, l1_convex, l1_convex, l1_proxExact, l1_proxExact, 0, 0, ?_, ?_⟩ <;>
  · refine ⟨trivial, fun y _ => ?_⟩
    simp only [XFun.ofReal, XFun.comp, reshapeTo, neg_zero, inner_zero_left, PiLp.zero_apply, sub_zero, abs_zero, Finset.sum_const_zero, one_mul, add_zero]
    exact Finset.sum_nonneg fun i _ => abs_nonneg _

/-- The averaging denoiser `D y = y / 2` on any array is firmly non-expansive, and with the zero data term `0` is an equilibrium. -/
example (e : ι ≃ κ) : ∃ D : Vec κ → Vec κ, Firm D ∧ ∃ x u, IsEquilibrium id (fun x => ravelFrom e (D (reshapeTo e x))) x u := by
  refine ⟨fun y => (1 / 2 : ℝ) • y, fun x y => ?_, 0, 0, by simp, ?_⟩
  · rw [← smul_sub, norm_smul, inner_smul_left, real_inner_self_eq_norm_sq]
    have : (0 : ℝ) ≤ ‖x - y‖ ^ 2 := sq_nonneg _
    norm_num
    nlinarith
  · ext i; simp [ravelFrom, reshapeTo]

end Verif
