import Verif.Model.Aliasing
import Verif.Props.BilinearPG
import Verif.Props.Equivalences
import Verif.Props.HQSConv
import Verif.Props.InPlace
import Verif.Props.AdaptivePD

/-! # C98: linear operators that return the array they are given

With `A = pylops.Identity(n)`, which returns its argument, `PrimalDual(..., z=z)` changes its dual variable when it adds `z` to `A.rmatvec(y)`. -/

set_option linter.unusedSectionVars false

open Filter Topology
open scoped RealInnerProductSpace

namespace Verif

variable {E : Type} [NormedAddCommGroup E] [InnerProductSpace ℝ E]

/-- C98: without `z` it makes no difference whether the identity returns its argument or a copy. -/
theorem C98_primaldual_identity (f g : ProxOp E) (x0 : E) (y0 : Option E) (tau mu : StepSpec) (θ : ℝ) (n : ℕ) (gfirst : Bool) :
    PDAlias f g x0 y0 none tau mu θ n gfirst = PrimalDual f g (idOp E) x0 y0 none tau mu θ n gfirst := by
  have : PDAlias.body f g none tau mu θ gfirst = PrimalDual.body f g (idOp E) none tau mu θ gfirst := by
    funext i s
    rfl
  simp only [PDAlias, PrimalDual, this]

/-- C98: with `z`, the run is the documented one of another problem: the dual step is that of `g(x + z/mu)` in place of `g(x)` (`g'` below), and, if `g` is called first, the starting point of the dual
variable is `y0 - z`. -/
theorem C98_primaldual_identity_shifted (f g g' : ProxOp E) (x0 : E) (y0 : Option E) (z : E) (tau : StepSpec) (μ θ : ℝ) (n : ℕ) (hg : ∀ v, g'.proxdual v μ = g.proxdual (v + z) μ) :
    PDAlias f g x0 y0 (some z) tau (.scalar μ) θ n true =
      (PrimalDual f g' (idOp E) x0 (some (y0.getD 0 - z)) (some z) tau (.scalar μ) θ n true).map (fun s => ⟨s.x, s.y + z, s.xhat, s.log.map fun p => (p.1, p.2 + z)⟩) ∧
    PDAlias f g x0 y0 (some z) tau (.scalar μ) θ n false = PrimalDual f g' (idOp E) x0 y0 (some z) tau (.scalar μ) θ n false := by
  have hid : ∀ x, (idOp E).matvec x = x := fun _ => rfl
  have hid' : ∀ x, (idOp E).rmatvec x = x := fun _ => rfl
  have hm : ∀ i, (StepSpec.scalar μ).atStrict i = .ok μ := fun _ => rfl
  constructor
  · have h := (forRange_map (b1 := PrimalDual.body f g' (idOp E) (some z) tau (.scalar μ) θ true) (b2 := PDAlias.body f g (some z) tau (.scalar μ) θ true) (J := fun _ => True)
      (π := fun s : PDState E E => (⟨s.x, s.y + z, s.xhat, s.log.map fun p => (p.1, p.2 + z)⟩ : PDState E E)) (fun i s _ => ?_) n 0 ⟨x0, y0.getD 0 - z, x0, []⟩ trivial).1
    · rw [PrimalDual, PDAlias]
      refine Eq.trans ?_ h.symm
      simp
    · cases ht : tau.atStrict i with
      | error e => left; exact ⟨e, by simp [PrimalDual.body, ht, Bind.bind, Except.bind], by simp [PDAlias.body, ht, Bind.bind, Except.bind]⟩
      | ok τ =>
        have e1 : s.y + z + μ • s.xhat = s.y + μ • s.xhat + z := by abel
        cases hd : g.proxdual (s.y + μ • s.xhat + z) μ with
        | error e =>
          left
          refine ⟨e, ?_, ?_⟩
          · simp [PrimalDual.body, ht, hm, hid, hg, hd, Bind.bind, Except.bind]
          · simp [PDAlias.body, ht, hm, e1, hd, Bind.bind, Except.bind]
        | ok y =>
          cases hp : f.prox (s.x - τ • (y + z)) τ with
          | error e =>
            left
            refine ⟨e, ?_, ?_⟩
            · simp only [PrimalDual.body, ht, hm, hid, hid', hg, hd, pdATy, hp, Bind.bind, Except.bind, if_true]
            · simp only [PDAlias.body, ht, hm, e1, hd, addInPlace, hp, Bind.bind, Except.bind, if_true]
          | ok x =>
            right
            refine ⟨⟨x, y, x + θ • (x - s.x), s.log ++ [(x, y)]⟩, false, ?_, ?_, trivial⟩
            · simp only [PrimalDual.body, ht, hm, hid, hid', hg, hd, pdATy, hp, Bind.bind, Except.bind, if_true, Pure.pure, Except.pure]
            · simp only [PDAlias.body, ht, hm, e1, hd, addInPlace, hp, Bind.bind, Except.bind, if_true, Pure.pure, Except.pure, List.map_append, List.map_cons, List.map_nil]
  · have : PDAlias.body f g (some z) tau (.scalar μ) θ false = PrimalDual.body f g' (idOp E) (some z) tau (.scalar μ) θ false := by
      funext i s
      cases ht : tau.atStrict i with
      | error e => simp [PrimalDual.body, PDAlias.body, ht, Bind.bind, Except.bind]
      | ok τ =>
        simp only [PDAlias.body, PrimalDual.body, ht, hm, pdATy, addInPlace, hid, hid', add_right_comm s.y z, Bind.bind, Except.bind, hg, Bool.false_eq_true, if_false]
    simp only [PDAlias, PrimalDual, this]

/-- C98: for a `g` that inherits `proxdual`, the operator `g'` is `g.precomposition(1.0, z / mu)`. -/
theorem C98_shift_precomposition (g : ProxOp E) (hp : g.prox?.isSome) (hd : g.proxdual? = none) (z : E) {μ : ℝ} (hμ : 0 < μ) (v : E) :
    (g.preOp 1 ((1 / μ) • z)).proxdual v μ = g.proxdual (v + z) μ := by
  obtain ⟨m, hm⟩ := Option.isSome_iff_exists.1 hp
  have h1 : ¬ μ ≤ 0 := hμ.not_ge
  have h2 : ¬ 1 / μ ≤ 0 := by have : 0 < 1 / μ := by positivity
                              exact this.not_ge
  have e : (1 : ℝ) • (1 / μ) • v + (1 / μ) • z = (1 / μ) • (v + z) := by module
  have e' : ((1 : ℝ) ^ 2 * (1 / μ)) = 1 / μ := by ring
  simp only [ProxOp.proxdual, ProxOp.preOp, hd, ProxOp.moreauStep, checkTau, h1, h2, if_false, e, e', ProxOp.prox, hm, Bind.bind, Except.bind, Pure.pure, Except.pure]
  cases m ((1 / μ) • (v + z)) (1 / μ) with
  | error e => rfl
  | ok p =>
    simp only [Except.ok.injEq]
    have : μ • (1 / (1:ℝ)) • (p - (1 / μ) • z) = μ • p - z := by
      rw [div_one, one_smul, smul_sub, smul_smul, mul_one_div_cancel hμ.ne', one_smul]
    rw [this]; abel

/-- C98: the same for every convex `g` with an exact `prox` and `proxdual`. -/
lemma shift_proxdual {g : ProxOp E} {G : XFun E} (hG : G.Convex) (hg : ProxExact g G) (hd : ProxdualExact g G.conj) (z : E) {μ : ℝ} (hμ : 0 < μ) (v : E) :
    (g.preOp 1 ((1 / μ) • z)).proxdual v μ = g.proxdual (v + z) μ := by
  obtain ⟨P, hP, hD⟩ := proxdual_moreau hG hg hd hμ
  have hμ' : 0 < 1 / μ := by positivity
  have hpr : ∀ w, g.prox w (1 / μ) = .ok (P w) := fun w => by
    obtain ⟨p, h1, h2⟩ := hg w (1 / μ) hμ'
    rw [h1, IsProx.unique hG hμ' h2 (hP w)]
  have e : (1 : ℝ) • (1 / μ) • v + (1 / μ) • z = (1 / μ) • (v + z) := by module
  have e' : ((1 : ℝ) ^ 2 * (1 / μ)) = 1 / μ := by ring
  rw [hD]
  simp only [ProxOp.proxdual, ProxOp.preOp, ProxOp.moreauStep, checkTau, hμ.not_ge, hμ'.not_ge, if_false, e, e', hpr, Bind.bind, Except.bind, Pure.pure, Except.pure, Except.ok.injEq]
  have : μ • (1 / (1:ℝ)) • (P ((1 / μ) • (v + z)) - (1 / μ) • z) = μ • P ((1 / μ) • (v + z)) - z := by
    rw [div_one, one_smul, smul_sub, smul_smul, mul_one_div_cancel hμ.ne', one_smul]
  rw [this]; abel

lemma comp_shift_convex {G : XFun E} (hG : G.Convex) (c : E) : (G.comp fun x => x + c).Convex := by
  have h := ConvexOn.translate_left hG c
  have e : (fun z => c + z) ⁻¹' G.dom = (G.comp fun x => x + c).dom := by
    ext v
    change c + v ∈ G.dom ↔ v + c ∈ G.dom
    rw [add_comm]
  rw [e] at h
  exact h

/-- C98: what the run with an in-place identity converges to: a minimiser of `f(x) + <z, x> + g(x + z/mu)`, for every start and every pair of step sizes with `tau * mu <= 1`. -/
theorem C98_primaldual_identity_limit [FiniteDimensional ℝ E] {f g : ProxOp E} {F G : XFun E} (hF : F.Convex) (hG : G.Convex) (hf : ProxExact f F) (hg : ProxExact g G) (hd : ProxdualExact g G.conj)
    {τ μ : ℝ} (hτ : 0 < τ) (hμ : 0 < μ) (hc : τ * μ ≤ 1) (z x0 : E) (y0 : Option E) (gfirst : Bool)
    (hsol : ∃ a b, IsCertifiedComp F (G.comp fun x => x + (1 / μ) • z) id id z a b) :
    ∃ (R : ℕ → PDState E E) (x : E), (∀ n, PDAlias f g x0 y0 (some z) (.scalar τ) (.scalar μ) 1 n gfirst = .ok (R n)) ∧ Tendsto (fun n => (R n).x) atTop (𝓝 x) ∧
      (compObj F (G.comp fun x => x + (1 / μ) • z) id z).IsMin x := by
  have hg' : ProxExact (g.preOp 1 ((1 / μ) • z)) (G.comp fun x => x + (1 / μ) • z) := by
    obtain ⟨q, hq, h, -⟩ := C06_precomposition (fun _ => (0 : E)) g G 1 one_ne_zero ((1 / μ) • z) hg
    simp only [ProxOp.precomposition, Except.ok.injEq] at hq
    subst hq
    simpa only [one_smul] using h
  have hG' : (G.comp fun x => x + (1 / μ) • z).Convex := comp_shift_convex hG _
  have hd' : ProxdualExact (g.preOp 1 ((1 / μ) • z)) (G.comp fun x => x + (1 / μ) • z).conj := C03_proxdual_conjugate _ _ hG' rfl rfl hg'
  have hK : ∀ v : E, ‖(idOp E).matvec v‖ ≤ 1 * ‖v‖ := fun v => by rw [one_mul]; rfl
  cases gfirst with
  | true =>
    choose R hR using fun n => C50_pd_returns (A := idOp E) hf hg' hd' hG' hτ hμ x0 (some (y0.getD 0 - z)) (some z) 1 true n
    obtain ⟨x, y, -, hm, hx, -⟩ := C50_pd_converges hF hG' hf hg' hd' hτ hμ zero_le_one hK (by linarith) (some z) true x0 _ hsol R hR
    refine ⟨fun n => ⟨(R n).x, (R n).y + z, (R n).xhat, (R n).log.map fun p => (p.1, p.2 + z)⟩, x, fun n => ?_, hx, hm⟩
    rw [(C98_primaldual_identity_shifted f g _ x0 y0 z (.scalar τ) μ 1 n (shift_proxdual hG hg hd z hμ)).1, hR n]
    rfl
  | false =>
    choose R hR using fun n => C50_pd_returns (A := idOp E) hf hg' hd' hG' hτ hμ x0 y0 (some z) 1 false n
    obtain ⟨x, y, -, hm, hx, -⟩ := C50_pd_converges hF hG' hf hg' hd' hτ hμ zero_le_one hK (by linarith) (some z) false x0 _ hsol R hR
    refine ⟨R, x, fun n => ?_, hx, hm⟩
    rw [(C98_primaldual_identity_shifted f g _ x0 y0 z (.scalar τ) μ 1 n (shift_proxdual hG hg hd z hμ)).2, hR n]

section L2

variable {F' C : Type} [NormedAddCommGroup F'] [InnerProductSpace ℝ F']

/-- Minimisers of `<z, x> + ½‖x + c‖²`. -/
lemma lin_quad_min (z c : E) (x : E) : (compObj (XFun.ofReal fun _ => 0) ((XFun.ofReal fun v : E => 1 / 2 * ‖v‖ ^ 2).comp fun x => x + c) id z).IsMin x ↔ x = -z - c := by
  have e : ∀ v, ⟪z, v⟫ + 1 / 2 * ‖v + c‖ ^ 2 = 1 / 2 * ‖v - (-z - c)‖ ^ 2 - 1 / 2 * ‖z‖ ^ 2 - ⟪z, c⟫ := fun v => by
    have : v - (-z - c) = z + (v + c) := by abel
    rw [this, norm_add_sq_real z (v + c), inner_add_right]; ring
  simp only [XFun.IsMin, compObj, XFun.comp, XFun.ofReal, id, zero_add, e]
  constructor
  · rintro ⟨-, h⟩
    have := h (-z - c) ⟨trivial, trivial⟩
    rw [sub_self, norm_zero] at this
    have : ‖x - (-z - c)‖ = 0 := by nlinarith [norm_nonneg (x - (-z - c))]
    exact sub_eq_zero.1 (norm_eq_zero.1 this)
  · rintro rfl
    refine ⟨⟨trivial, trivial⟩, fun y _ => ?_⟩
    rw [sub_self, norm_zero]
    nlinarith [norm_nonneg (y - (-z - c))]

/-- C98: `PrimalDual` with an in-place identity on `<z, x> + ½‖x‖²` converges, from every start and in either order, to `-(1 + 1/mu) z`; the only minimiser is `-z`. -/
theorem C98_primaldual_identity_refuted [FiniteDimensional ℝ E] (ext : L2Ext E F' C) (st : L2State E C) {τ μ : ℝ} (hτ : 0 < τ) (hμ : 0 < μ) (hc : τ * μ ≤ 1) {z : E} (hz : z ≠ 0) (x0 : E)
    (y0 : Option E) (gfirst : Bool) :
    ∃ R : ℕ → PDState E E, (∀ n, PDAlias (noPenalty E) (L2.obj ext (l2Plain .nothing 1) st) x0 y0 (some z) (.scalar τ) (.scalar μ) 1 n gfirst = .ok (R n)) ∧
      Tendsto (fun n => (R n).x) atTop (𝓝 (-(1 + 1 / μ) • z)) ∧ -(1 + 1 / μ) • z ≠ -z ∧
      ∀ x, (compObj (XFun.ofReal fun _ => 0) (XFun.ofReal fun v : E => 1 / 2 * ‖v‖ ^ 2) id z).IsMin x ↔ x = -z := by
  have : ProperSpace E := FiniteDimensional.proper_real E
  have eG : XFun.ofReal (l2Spec (l2Plain (F' := F') (.nothing : L2Data E F') 1)) = XFun.ofReal fun v : E => 1 / 2 * ‖v‖ ^ 2 := by
    congr 1; funext v; simp [l2Spec, l2Plain]
  have hg := l2Plain_exact ext .nothing (by simp) one_pos st
  have hG : (XFun.ofReal (l2Spec (l2Plain (F' := F') (.nothing : L2Data E F') 1))).Convex := l2_convex (l2Plain (F' := F') (.nothing : L2Data E F') 1) (by norm_num [l2Plain])
  rw [eG] at hg hG
  have hF : (XFun.ofReal fun _ : E => (0 : ℝ)).Convex := convexOn_const _ convex_univ
  have hsol : IsCertifiedComp (XFun.ofReal fun _ : E => (0 : ℝ)) ((XFun.ofReal fun v : E => 1 / 2 * ‖v‖ ^ 2).comp fun x => x + (1 / μ) • z) id id z (-z - (1 / μ) • z) (-z) := by
    refine ⟨?_, ?_⟩
    · refine ⟨trivial, fun y _ => ?_⟩
      simp [XFun.ofReal]
    · refine ⟨trivial, fun y _ => ?_⟩
      simp only [XFun.comp, XFun.ofReal, id, sub_add_cancel]
      have e : y - (-z - (1 / μ) • z) = (y + (1 / μ) • z) - (-z) := by abel
      rw [e]
      generalize y + (1 / μ) • z = w
      have := norm_sub_sq_real w (-z)
      rw [inner_sub_right, real_inner_self_eq_norm_sq]
      nlinarith [sq_nonneg ‖w - -z‖, real_inner_comm w (-z), real_inner_comm (-z) w]
  obtain ⟨R, x, h1, h2, h3⟩ := C98_primaldual_identity_limit (z := z) (x0 := x0) (y0 := y0) (gfirst := gfirst) hF hG (noPenalty_exact E) hg (C03_proxdual_conjugate _ _ hG rfl rfl hg) hτ hμ hc
    ⟨_, _, hsol⟩
  have e : x = -(1 + 1 / μ) • z := by
    rw [lin_quad_min] at h3
    rw [h3]; module
  refine ⟨R, h1, e ▸ h2, ?_, fun x => ?_⟩
  · intro h
    have : (1 / μ) • z = 0 := by
      have := congrArg (fun v => -v - z) h
      simp only [neg_smul, neg_neg, add_smul, one_smul] at this
      simpa using this
    rcases smul_eq_zero.1 this with h | h
    · exact absurd h (by positivity)
    · exact hz h
  · have := lin_quad_min z 0 x
    simp only [add_zero, sub_zero] at this
    exact this

end L2

/-! ## AdaptivePrimalDual -/

/-- C98: without `z` the adaptive solver is not affected either. -/
theorem C98_adaptive_identity (f g : ProxOp E) (x0 : E) (tau mu alpha : ℝ) (a : APDArgs E E) (hz : a.z = none) :
    APDAlias f g x0 tau mu alpha a = AdaptivePrimalDual f g (idOp E) x0 tau mu alpha a := by
  have hb : ∀ s, APDAlias.body f g a s = APD.body f g (idOp E) a s := fun s => by
    simp only [APDAlias.body, APD.body, hz, addInPlace, apdATy, ite_self]
    rfl
  have : ∀ n s, APDAlias.loop f g a n s = APD.loop f g (idOp E) a n s := fun n => by
    induction n with
    | zero => intro s; rfl
    | succ n ih => intro s; simp only [APDAlias.loop, APD.loop, hb, ih]
  exact this _ _

/-- C98: with `z` the first pass is the one of the documented method: `ATy` is not yet the array `y`. -/
theorem C98_adaptive_identity_first (f g : ProxOp E) (x0 : E) (tau mu alpha : ℝ) (a : APDArgs E E) (hz : a.Az = a.z) (hn : a.niter ≤ 1) :
    APDAlias f g x0 tau mu alpha a = AdaptivePrimalDual f g (idOp E) x0 tau mu alpha a := by
  have hb : ∀ s : APDState E E, s.iiter = 0 → APDAlias.body f g a s = APD.body f g (idOp E) a s := fun s h0 => by
    simp only [APDAlias.body, APD.body, h0, if_true, hz]
    cases a.z <;> rfl
  unfold APDAlias AdaptivePrimalDual
  have hcases : a.niter = 0 ∨ a.niter = 1 := by omega
  rcases hcases with h | h <;> rw [h]
  · rfl
  · simp only [APDAlias.loop, APD.loop, hb]

/-- C98: with `z`, a pass after the first that changes neither `x` nor `y` is at a minimiser of `f(x) + <z, x> + g(x + z/mu)`, `mu` being the current step. -/
theorem C98_adaptive_identity_stationary {f g : ProxOp E} {F G : XFun E} (hF : F.Convex) (hG : G.Convex) (hf : ProxExact f F) (hg : ProxExact g G) (hd : ProxdualExact g G.conj)
    (a : APDArgs E E) {z : E} (hz : a.z = some z) (s r : APDState E E) (hi : 0 < s.iiter) (hτ : 0 < s.tau) (hμ : 0 < s.mu) (hAx : s.Ax = s.x) (hATy : s.ATy = s.y)
    (hr : APDAlias.body f g a s = .ok r) (hx : r.x = s.x) (hy : r.y = s.y) : (compObj F (G.comp fun x => x + (1 / s.mu) • z) id z).IsMin s.x := by
  have hg' : ProxExact (g.preOp 1 ((1 / s.mu) • z)) (G.comp fun x => x + (1 / s.mu) • z) := by
    obtain ⟨q, hq, h, -⟩ := C06_precomposition (fun _ => (0 : E)) g G 1 one_ne_zero ((1 / s.mu) • z) hg
    simp only [ProxOp.precomposition, Except.ok.injEq] at hq
    subst hq
    simpa only [one_smul] using h
  have hG' := comp_shift_convex hG ((1 / s.mu) • z)
  have hd' := C03_proxdual_conjugate _ _ hG' rfl rfl hg'
  have hsh := (C98_primaldual_identity_shifted f g _ s.x (some s.y) z (.scalar s.tau) s.mu 1 1 (shift_proxdual hG hg hd z hμ)).2
  have key : ∃ q, PDAlias f g s.x (some s.y) (some z) (.scalar s.tau) (.scalar s.mu) 1 1 false = .ok q ∧ q.x = r.x ∧ q.y = r.y := by
    have e0 : s.iiter ≠ 0 := hi.ne'
    simp only [APDAlias.body, hz, addInPlace, hATy, hAx, e0, if_false] at hr
    cases h1 : f.prox (s.x - s.tau • (s.y + z)) s.tau with
    | error e => simp only [h1, Bind.bind, Except.bind] at hr; cases hr
    | ok x =>
      have e1 : (2 : ℝ) • x - s.x = x + (1 : ℝ) • (x - s.x) := by module
      cases h2 : g.proxdual (s.y + z + s.mu • (x + (1 : ℝ) • (x - s.x))) s.mu with
      | error e => simp only [h1, e1, h2, Bind.bind, Except.bind] at hr; cases hr
      | ok y =>
        refine ⟨⟨x, y, x + (1 : ℝ) • (x - s.x), [(x, y)]⟩, ?_, ?_⟩
        · simp only [PDAlias, forRange, PDAlias.body, StepSpec.atStrict, addInPlace, Option.getD_some, h1, h2, Bind.bind, Except.bind, Pure.pure, Except.pure, Bool.false_eq_true, if_false,
            List.nil_append]
        · simp only [h1, e1, h2, Bind.bind, Except.bind] at hr
          split at hr
          · cases hr
          · simp only [Pure.pure, Except.pure, Except.ok.injEq] at hr
            subst hr; exact ⟨rfl, rfl⟩
  obtain ⟨q, hq, hqx, hqy⟩ := key
  rw [hsh] at hq
  exact (C50_pd_stationary hF hG' hf hg' hd' hτ hμ (some z) 1 false s.x s.y q hq (hqx.trans hx) (hqy.trans hy)).2

section L2

variable {F' C : Type} [NormedAddCommGroup F'] [InnerProductSpace ℝ F'] [ProperSpace E]

lemma l2half_prox (ext : L2Ext E F' C) (st : L2State E C) {τ : ℝ} (hτ : 0 < τ) (v : E) : (L2.obj ext (l2Plain .nothing 1) st).prox v τ = .ok ((1 / (1 + τ)) • v) := by
  obtain ⟨p, h1, h2⟩ := l2Plain_exact ext (.nothing : L2Data E F') (by simp) one_pos st v τ hτ
  have := (l2_isUniqueProx _ (zero_le_one) hτ (closed_res (l2Plain (F' := F') (.nothing : L2Data E F') 1) one_pos hτ v (by simp [l2Plain]))).2 _ h2
  rw [h1, this]
  simp [l2Plain, L2.subQ]

lemma l2half_proxdual (ext : L2Ext E F' C) (st : L2State E C) {μ : ℝ} (hμ : 0 < μ) (v : E) : (L2.obj ext (l2Plain .nothing 1) st).proxdual v μ = .ok ((1 / (1 + μ)) • v) := by
  have hp := l2half_prox ext st (τ := 1 / μ) (by positivity) ((1 / μ) • v)
  have h1 : ¬ μ ≤ 0 := hμ.not_ge
  have hm : (L2.obj ext (l2Plain .nothing 1) st).proxdual v μ = checkTau μ (ProxOp.moreauStep (fun y t => (L2.obj ext (l2Plain .nothing 1) st).prox y t) v μ) := rfl
  rw [hm]
  simp only [ProxOp.moreauStep, checkTau, h1, if_false, hp, Bind.bind, Except.bind, Pure.pure, Except.pure, Except.ok.injEq, smul_smul]
  have : 1 + 1 / μ ≠ 0 := by positivity
  have : 1 + μ ≠ 0 := by positivity
  have e : μ * (1 / (1 + 1 / μ) * (1 / μ)) = μ / (1 + μ) := by field_simp; ring
  rw [e]
  have : v - (μ / (1 + μ)) • v = (1 - μ / (1 + μ)) • v := by module
  rw [this]; congr 1; field_simp; ring

/-- C98: at the solution `x = y = -z` of `<z, x> + ½‖x‖²` a pass of the adaptive solver with an operator that copies stays there; a pass (after the first) with an in-place identity leaves it. -/
theorem C98_adaptive_identity_refuted (ext : L2Ext E F' C) (st : L2State E C) {z : E} (hz : z ≠ 0) (a : APDArgs E E) (ha : a.z = some z) (hA : a.Az = some z) (hδ : a.delta ≠ 0) (s : APDState E E)
    (hi : 0 < s.iiter) (hτ : 0 < s.tau) (hμ : 0 < s.mu) (hα : s.alpha < 1) (hx : s.x = -z) (hy : s.y = -z) (hAx : s.Ax = -z) (hATy : s.ATy = -z) :
    (∃ r, APD.body (noPenalty E) (L2.obj ext (l2Plain .nothing 1) st) (idOp E) a s = .ok r ∧ r.x = -z ∧ r.y = -z) ∧
    ∃ r, APDAlias.body (noPenalty E) (L2.obj ext (l2Plain .nothing 1) st) a s = .ok r ∧ r.x = -z ∧ r.y = -(s.mu / (1 + s.mu)) • z ∧ r.y ≠ -z := by
  have hμ1 : 1 + s.mu ≠ 0 := by positivity
  have hα' : 1 - s.alpha ≠ 0 := by linarith
  have hf : ∀ v, (noPenalty E).prox v s.tau = .ok v := fun v => by simp [ProxOp.prox, noPenalty, checkTau, hτ.not_ge]
  have hst : ∀ p d, ∃ q, apdSteps a.eta a.s a.delta p d s.tau s.mu s.alpha = .ok q := fun p d => by
    unfold apdSteps
    simp only [if_neg hα', if_neg hδ]
    split_ifs <;> exact ⟨_, rfl⟩
  have e0 : s.iiter ≠ 0 := hi.ne'
  have eA : -z + s.mu • ((2 : ℝ) • -z - -z) = (1 + s.mu) • -z := by module
  have eB : -z + z + s.mu • ((2 : ℝ) • -z - -z) = s.mu • -z := by module
  have ex : -z - s.tau • (-z + z) = -z := by simp
  constructor
  · obtain ⟨q, hq⟩ := hst ‖(1 / s.tau) • (-z - -z) - (-z - (1 / (1 + s.mu)) • (1 + s.mu) • -z) - z + z‖ ‖(1 / s.mu) • (-z - (1 / (1 + s.mu)) • (1 + s.mu) • -z) - (-z - -z)‖
    simp only [APD.body, ha, hA, hx, hy, hAx, hATy, apdATy, ex, hf, Bind.bind, Except.bind, show ∀ v, (idOp E).matvec v = v from fun _ => rfl, show ∀ v, (idOp E).rmatvec v = v from fun _ => rfl, eA,
      l2half_proxdual ext st hμ, hq]
    refine ⟨_, rfl, rfl, ?_⟩
    simp only [smul_smul, one_div_mul_cancel hμ1, one_smul]
  · obtain ⟨q, hq⟩ := hst ‖(1 / s.tau) • (-z - -z) - (-z - (1 / (1 + s.mu)) • s.mu • -z) - z + z‖ ‖(1 / s.mu) • (-z - (1 / (1 + s.mu)) • s.mu • -z) - (-z - -z)‖
    simp only [APDAlias.body, ha, hx, hy, hAx, hATy, addInPlace, ex, hf, Bind.bind, Except.bind, e0, if_false, eB, l2half_proxdual ext st hμ, hq]
    refine ⟨_, rfl, rfl, ?_, ?_⟩
    · simp only [smul_smul]
      rw [smul_neg, neg_smul]; congr 2; field_simp
    · simp only [smul_smul]
      intro h
      have h3 : (1 - 1 / (1 + s.mu) * s.mu) • z = 0 := by
        have := congrArg (fun v => v + z) h
        simp only [neg_add_cancel] at this
        rw [← this]; module
      rcases smul_eq_zero.1 h3 with h | h
      · have : 1 - 1 / (1 + s.mu) * s.mu = 1 / (1 + s.mu) := by field_simp; ring
        rw [this] at h
        exact absurd h (by positivity)
      · exact hz h

end L2

/-! ## Orthogonal -/

/-- C98: the value of `Orthogonal(f, Q, b=b)` with an in-place identity `Q` is the right one, but the call adds `b` to the caller's array: the next call with the same array gives `f(x + 2b)`. -/
theorem C98_orthogonal_call_refuted (f : ProxOp E) (isPartial : Bool) (α : ℝ) (b x : E) (v : CallVal) (hv : f.call (x + b) = .ok v) :
    Orthogonal.callAlias f b x = .ok (v, x + b) ∧ (Orthogonal f (idOp E) isPartial b α).call x = .ok v ∧ (b ≠ 0 → x + b ≠ x) ∧
    (Orthogonal.callAlias f b (x + b)).map Prod.fst = (Orthogonal f (idOp E) isPartial ((2 : ℝ) • b) α).call x := by
  refine ⟨by simp [Orthogonal.callAlias, hv, Bind.bind, Except.bind, Pure.pure, Except.pure], hv, fun h => by simpa using h, ?_⟩
  have e : x + b + b = x + (2 : ℝ) • b := by module
  simp only [Orthogonal.callAlias, Orthogonal, e, show (idOp E).matvec x = x from rfl]
  cases f.call (x + (2 : ℝ) • b) <;> rfl

/-- Hypotheses met by `L1`: the two proximal operators `sigma=1`, any `z`, and a point where `-y - z` and `y` are subgradients. -/
example (x0 : Vec (Fin 3)) (gfirst : Bool) : ∃ (R : ℕ → PDState (Vec (Fin 3)) (Vec (Fin 3))) (x : Vec (Fin 3)),
    (∀ n, PDAlias (L1 1 none) (L1 1 none) x0 none (some 0) (.scalar 1) (.scalar 1) 1 n gfirst = .ok (R n)) ∧ Tendsto (fun n => (R n).x) atTop (𝓝 x) := by
  obtain ⟨R, x, h1, h2, -⟩ := C98_primaldual_identity_limit (z := 0) (x0 := x0) (y0 := none) (gfirst := gfirst) l1_convex l1_convex l1_proxExact l1_proxExact l1_proxdualExact one_pos one_pos
    (by norm_num) ⟨0, 0, ⟨trivial, fun y _ => by simp [XFun.ofReal, Finset.sum_nonneg]⟩, ⟨trivial, fun y _ => by simp [XFun.ofReal, XFun.comp, Finset.sum_nonneg]⟩⟩
  exact ⟨R, x, h1, h2⟩

end Verif
