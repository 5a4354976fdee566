import Verif.Props.Dtype2
import Verif.Props.Intersection

/-! # C104, continued: operators and solvers that do not depend on the dtype, and further ones that do -/

open scoped RealInnerProductSpace

namespace Verif

variable {ι κ : Type} [Fintype ι] [Fintype κ]

/-- `t` returns the values of `f` for every array, whatever its dtype. -/
structure Erases (t : TOp ι) (f : ProxOp (Vec ι)) : Prop where
  prox : ∀ a τ, (t.prox a τ).map Arr.val = f.prox a.val τ
  call : ∀ a, t.call a = f.call a.val

lemma Erases.cases {t : TOp ι} {f : ProxOp (Vec ι)} (h : Erases t f) (a : Arr ι) (τ : ℝ) :
    (∃ e, t.prox a τ = .error e ∧ f.prox a.val τ = .error e) ∨ ∃ b, t.prox a τ = .ok b ∧ f.prox a.val τ = .ok b.val := by
  have := h.prox a τ
  cases ht : t.prox a τ with
  | error e => rw [ht] at this; exact .inl ⟨e, rfl, this.symm⟩
  | ok b => rw [ht] at this; exact .inr ⟨b, rfl, this.symm⟩

/-- C104: an object with these values does not depend on how whole numbers are stored. -/
theorem C104_erases_blind {t : TOp ι} {f : ProxOp (Vec ι)} (h : Erases t f) (τ : ℝ) : DtypeBlind fun a => t.prox a τ := fun k => by
  rw [h.prox, h.prox]; rfl

/-- C104: operators whose methods are arithmetic expressions. -/
theorem C104_expression (f : ProxOp (Vec ι)) : Erases f.toT f := by
  refine ⟨fun a τ => ?_, fun a => rfl⟩
  simp only [ProxOp.toT]
  cases f.prox a.val τ <;> rfl

/-- C104: hard thresholding writes only zeros. -/
theorem C104_l0 (σ : ℝ) (call : Arr ι → Py CallVal) (hc : ∀ a, call a = (L0 σ).call a.val) (grad : Arr ι → Py (Arr ι)) : Erases ⟨call, L0T.prox σ, grad⟩ (L0 (ι := ι) σ) := by
  classical
  refine ⟨fun a τ => ?_, hc⟩
  by_cases hτ : τ ≤ 0
  · simp [L0T.prox, ProxOp.prox, L0, checkTau, hτ, Except.map]
  · simp only [L0T.prox, ProxOp.prox, L0, checkTau, hτ, if_false, Except.map, hardthresholdT, Arr.put, hardthreshold]
    refine congrArg _ ?_
    ext i
    cases a.dt <;> simp [DT.cast, truncZ_zero]

/-- C104: the projection on the L0 ball writes only zeros. -/
theorem C104_l0ball (argsort : Vec ι → List ι) (radius : ℕ) (call : Arr ι → Py CallVal) (hc : ∀ a, call a = (L0Ball argsort radius).call a.val) (grad : Arr ι → Py (Arr ι)) :
    Erases ⟨call, L0BallT.prox argsort radius, grad⟩ (L0Ball argsort radius) := by
  classical
  refine ⟨fun a τ => ?_, hc⟩
  by_cases hτ : τ ≤ 0
  · simp [L0BallT.prox, ProxOp.prox, L0Ball, checkTau, hτ, Except.map]
  · simp only [L0BallT.prox, ProxOp.prox, L0Ball, checkTau, hτ, if_false, Except.map, Arr.put, l0BallProj]
    refine congrArg _ ?_
    ext i
    cases a.dt <;> simp [DT.cast, truncZ_zero]

/-- C104: the projection on the L1,0 ball writes only zeros. -/
theorem C104_l10ball (argsort : (κ → ℝ) → List κ) (radius : ℕ) (call : Arr (ι × κ) → Py CallVal) (hc : ∀ a, call a = (L10Ball argsort radius).call a.val)
    (grad : Arr (ι × κ) → Py (Arr (ι × κ))) : Erases ⟨call, L10BallT.prox argsort radius, grad⟩ (L10Ball (ι := ι) argsort radius) := by
  classical
  refine ⟨fun a τ => ?_, hc⟩
  by_cases hτ : τ ≤ 0
  · simp [L10BallT.prox, ProxOp.prox, L10Ball, checkTau, hτ, Except.map]
  · simp only [L10BallT.prox, ProxOp.prox, L10Ball, checkTau, hτ, if_false, Except.map, Arr.put, l10BallProj]
    refine congrArg _ ?_
    ext i
    cases a.dt <;> simp [DT.cast, truncZ_zero]

/-! ## Solvers -/

/-- C104 for `ProximalPoint`: the values do not depend on the dtype of the starting point. -/
theorem C104_proximalpoint {t : TOp ι} {f : ProxOp (Vec ι)} (h : Erases t f) (x0 : Arr ι) (τ : ℝ) (n : ℕ) (tol : Option ℝ) :
    (ProximalPointT t x0 τ n tol).map (fun s => (⟨s.x.val, s.pf, s.log.map Arr.val⟩ : PPState (Vec ι))) = ProximalPoint f x0.val τ n tol := by
  refine (forRange_map (J := fun _ : PPState (Arr ι) => True) (π := fun s => (⟨s.x.val, s.pf, s.log.map Arr.val⟩ : PPState (Vec ι))) (fun i s _ => ?_) n 0 ⟨x0, none, []⟩ trivial).1
  rcases h.cases s.x τ with ⟨e, e1, e2⟩ | ⟨b, e1, e2⟩
  · left; exact ⟨e, by simp [ProximalPointT.body, e1, Bind.bind, Except.bind], by simp [ProximalPoint.body, e2, Bind.bind, Except.bind]⟩
  · cases tol with
    | none =>
      right
      exact ⟨_, _, by simp only [ProximalPointT.body, e1, Bind.bind, Except.bind, Pure.pure, Except.pure]; rfl,
        by simp [ProximalPoint.body, e2, Bind.bind, Except.bind, Pure.pure, Except.pure], trivial⟩
    | some t' =>
      have hc := h.call b
      cases hcv : f.call b.val with
      | error e =>
        left
        exact ⟨e, by simp [ProximalPointT.body, e1, hc, hcv, Bind.bind, Except.bind], by simp [ProximalPoint.body, e2, hcv, Bind.bind, Except.bind]⟩
      | ok v =>
        cases hr : pyRatio v.toReal s.pf with
        | error e =>
          left
          exact ⟨e, by simp [ProximalPointT.body, e1, hc, hcv, hr, Bind.bind, Except.bind], by simp [ProximalPoint.body, e2, hcv, hr, Bind.bind, Except.bind]⟩
        | ok r =>
          right
          exact ⟨_, _, by simp only [ProximalPointT.body, e1, hc, hcv, hr, Bind.bind, Except.bind, Pure.pure, Except.pure]; rfl,
            by simp [ProximalPoint.body, e2, hcv, hr, Bind.bind, Except.bind, Pure.pure, Except.pure], trivial⟩

/-- The values of the loop variables of `ADMM`. -/
noncomputable def splitVal (s : SplitState (Arr ι)) : SplitState (Vec ι) := ⟨s.x.val, s.z.val, s.u.val, s.log.map fun p => (p.1.val, p.2.val)⟩

/-- C104 for `ADMM`. -/
theorem C104_admm {tf tg : TOp ι} {f g : ProxOp (Vec ι)} (hf : Erases tf f) (hg : Erases tg g) (x0 z0 : Option (Arr ι)) (τ : ℝ) (n : ℕ) (gfirst : Bool) :
    (ADMMT tf tg x0 z0 τ n gfirst).map splitVal = ADMM f g (x0.map Arr.val) (z0.map Arr.val) τ n gfirst := by
  have key : ∀ x z : Arr ι, (forRange (ADMMT.body tf tg τ gfirst) n 0 ⟨x, z, x.zerosLike, []⟩).map splitVal = forRange (ADMM.body f g τ gfirst) n 0 ⟨x.val, z.val, 0, []⟩ := by
    intro x z
    refine (forRange_map (J := fun _ : SplitState (Arr ι) => True) (π := splitVal) (fun i s _ => ?_) n 0 ⟨x, z, x.zerosLike, []⟩ trivial).1
    cases gfirst with
    | true =>
      rcases hg.cases (s.x.add s.u) τ with ⟨e, e1, e2⟩ | ⟨b, e1, e2⟩
      · left; exact ⟨e, by simp [ADMMT.body, e1, Bind.bind, Except.bind], by simp [ADMM.body, splitVal, Arr.add] at e2 ⊢; simp [e2, Bind.bind, Except.bind]⟩
      · rcases hf.cases (b.sub s.u) τ with ⟨e, e3, e4⟩ | ⟨c, e3, e4⟩ <;> simp only [Arr.add, Arr.sub] at e2 e4
        · left; exact ⟨e, by simp [ADMMT.body, e1, e3, Bind.bind, Except.bind], by simp [ADMM.body, splitVal, e2, e4, Bind.bind, Except.bind]⟩
        · right
          exact ⟨_, _, by simp only [ADMMT.body, if_true, e1, e3, Bind.bind, Except.bind, Pure.pure, Except.pure]; rfl,
            by simp [ADMM.body, splitVal, e2, e4, Arr.add, Arr.sub, Bind.bind, Except.bind, Pure.pure, Except.pure], trivial⟩
    | false =>
      rcases hf.cases (s.z.sub s.u) τ with ⟨e, e1, e2⟩ | ⟨b, e1, e2⟩
      · left; exact ⟨e, by simp [ADMMT.body, e1, Bind.bind, Except.bind], by simp [ADMM.body, splitVal, Arr.sub] at e2 ⊢; simp [e2, Bind.bind, Except.bind]⟩
      · rcases hg.cases (b.add s.u) τ with ⟨e, e3, e4⟩ | ⟨c, e3, e4⟩ <;> simp only [Arr.add, Arr.sub] at e2 e4
        · left; exact ⟨e, by simp [ADMMT.body, e1, e3, Bind.bind, Except.bind], by simp [ADMM.body, splitVal, e2, e4, Bind.bind, Except.bind]⟩
        · right
          exact ⟨_, _, by simp only [ADMMT.body, Bool.false_eq_true, if_false, e1, e3, Bind.bind, Except.bind, Pure.pure, Except.pure]; rfl,
            by simp [ADMM.body, splitVal, e2, e4, Arr.add, Arr.sub, Bind.bind, Except.bind, Pure.pure, Except.pure], trivial⟩
  rcases x0 with - | x <;> rcases z0 with - | z
  · rfl
  all_goals exact key _ _

/-- The values of the loop variables of `DouglasRachfordSplitting`. -/
noncomputable def drVal (s : DRState (Arr ι)) : DRState (Vec ι) := ⟨s.x.map Arr.val, s.y.val, s.log.map fun p => (p.1.val, p.2.val)⟩

/-- C104 for `DouglasRachfordSplitting`. -/
theorem C104_douglasrachford {tf tg : TOp ι} {f g : ProxOp (Vec ι)} (hf : Erases tf f) (hg : Erases tg g) (x0 : Arr ι) (τ η : ℝ) (n : ℕ) (gfirst : Bool) :
    (DRT tf tg x0 τ η n gfirst).map drVal = forRange (DR.body f g τ η gfirst) n 0 ⟨none, x0.val, []⟩ := by
  refine (forRange_map (J := fun _ : DRState (Arr ι) => True) (π := drVal) (fun i s _ => ?_) n 0 ⟨none, x0, []⟩ trivial).1
  cases gfirst with
  | true =>
    rcases hg.cases s.y τ with ⟨e, e1, e2⟩ | ⟨b, e1, e2⟩
    · left; exact ⟨e, by simp [DRT.body, e1, Bind.bind, Except.bind], by simp [DR.body, drVal, e2, Bind.bind, Except.bind]⟩
    · rcases hf.cases (b.twice.sub s.y) τ with ⟨e, e3, e4⟩ | ⟨c, e3, e4⟩ <;> simp only [Arr.twice, Arr.sub] at e4
      · left; exact ⟨e, by simp [DRT.body, e1, e3, Bind.bind, Except.bind], by simp [DR.body, drVal, e2, e4, Bind.bind, Except.bind]⟩
      · right
        exact ⟨_, _, by simp only [DRT.body, if_true, e1, e3, Bind.bind, Except.bind, Pure.pure, Except.pure]; rfl,
          by simp [DR.body, drVal, e2, e4, Arr.add, Arr.sub, Arr.scale, Bind.bind, Except.bind, Pure.pure, Except.pure], trivial⟩
  | false =>
    rcases hf.cases s.y τ with ⟨e, e1, e2⟩ | ⟨b, e1, e2⟩
    · left; exact ⟨e, by simp [DRT.body, e1, Bind.bind, Except.bind], by simp [DR.body, drVal, e2, Bind.bind, Except.bind]⟩
    · rcases hg.cases (b.twice.sub s.y) τ with ⟨e, e3, e4⟩ | ⟨c, e3, e4⟩ <;> simp only [Arr.twice, Arr.sub] at e4
      · left; exact ⟨e, by simp [DRT.body, e1, e3, Bind.bind, Except.bind], by simp [DR.body, drVal, e2, e4, Bind.bind, Except.bind]⟩
      · right
        exact ⟨_, _, by simp only [DRT.body, Bool.false_eq_true, if_false, e1, e3, Bind.bind, Except.bind, Pure.pure, Except.pure]; rfl,
          by simp [DR.body, drVal, e2, e4, Arr.add, Arr.sub, Arr.scale, Bind.bind, Except.bind, Pure.pure, Except.pure], trivial⟩

/-- The values of the loop variables of `dykstra_two`. -/
noncomputable def dykVal (s : DykState (Arr ι)) : DykState (Vec ι) := ⟨s.x.val, s.y.map Arr.val, s.p.val, s.q.val⟩

/-- C104 for `dykstra_two` (`Sum` and `GenericIntersection` with two operators). -/
theorem C104_dykstra_two {tf tg : TOp ι} {f g : ProxOp (Vec ι)} (hf : Erases tf f) (hg : Erases tg g) (x0 : Arr ι) (τ : ℝ) (n : ℕ) (tol : ℝ) (mx : Vec ι → ℝ) :
    (dykstraTwoT x0 (fun v => tf.prox v τ) (fun v => tg.prox v τ) n tol mx).map dykVal = dykstraTwo x0.val (fun v => f.prox v τ) (fun v => g.prox v τ) n tol mx := by
  refine (forRange_map (J := fun _ : DykState (Arr ι) => True) (π := dykVal) (fun i s _ => ?_) n 0 ⟨x0, none, x0.zerosLike, x0.zerosLike⟩ trivial).1
  rcases hf.cases (s.x.add s.p) τ with ⟨e, e1, e2⟩ | ⟨b, e1, e2⟩ <;> simp only [Arr.add] at e2
  · left; exact ⟨e, by simp [dykstraTwoT.body, e1, Bind.bind, Except.bind], by simp [dykstraTwo.body, dykVal, e2, Bind.bind, Except.bind]⟩
  · rcases hg.cases (b.add s.q) τ with ⟨e, e3, e4⟩ | ⟨c, e3, e4⟩ <;> simp only [Arr.add] at e4
    · left; exact ⟨e, by simp [dykstraTwoT.body, e1, e3, Bind.bind, Except.bind], by simp [dykstraTwo.body, dykVal, e2, e4, Bind.bind, Except.bind]⟩
    · right
      exact ⟨_, _, by simp only [dykstraTwoT.body, e1, e3, Bind.bind, Except.bind, Pure.pure, Except.pure]; rfl,
        by simp [dykstraTwo.body, dykVal, e2, e4, Arr.add, Arr.sub, Bind.bind, Except.bind, Pure.pure, Except.pure], trivial⟩

end Verif
