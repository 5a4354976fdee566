import Verif.Model.Mutable
import Verif.Lemmas.Loop
import Verif.Lemmas.Product
import Verif.Props.HQSConv
import Verif.Props.Counters

/-! # C98: results depend only on the values returned by the operators

`Model/Mutable` runs the solvers on operator objects that have attributes and may write into the array they are given.  A solver should return what the pure model
returns when the operators return the same values.  `ProximalPoint`, `ProximalGradient` and `ADMM` do, whatever the operators do to their arguments; `HQS`,
`DouglasRachfordSplitting` and `PPXA` pass loop variables to `prox` and use them again: with `L2(q=...)`, which subtracts from its argument in place, they return wrong results. -/

open scoped RealInnerProductSpace
open Filter Topology

set_option linter.unusedSectionVars false

namespace Verif

variable {E SF SG : Type} [NormedAddCommGroup E] [InnerProductSpace ℝ E]

/-- In all states satisfying `Inv`, which the calls preserve, the object `f` returns what the pure operator `p` returns. -/
structure Computes {S : Type} (f : MutOp S E) (Inv : S → Prop) (p : ProxOp E) : Prop where
  prox : ∀ s, Inv s → ∀ x τ, (f.prox s x τ).2.1 = p.prox x τ ∧ Inv (f.prox s x τ).1
  grad : ∀ s, Inv s → ∀ x, (f.grad s x).2 = p.grad x ∧ Inv (f.grad s x).1
  call : ∀ s, Inv s → ∀ x, f.call s x = p.call x

/-- `prox` does not write into its argument. -/
def LeavesArg {S : Type} (f : MutOp S E) : Prop := ∀ s x τ, (f.prox s x τ).2.2 = x

section Aux
variable {S : Type} {f : MutOp S E} {Inv : S → Prop} {p : ProxOp E}

lemma Computes.proxPy (h : Computes f Inv p) {s : S} (hs : Inv s) (x : E) (τ : ℝ) :
    (∃ e, p.prox x τ = .error e ∧ f.proxPy s x τ = .error e) ∨
      ∃ q s', p.prox x τ = .ok q ∧ f.proxPy s x τ = .ok (s', q, (f.prox s x τ).2.2) ∧ Inv s' := by
  obtain ⟨h1, h2⟩ := h.prox s hs x τ
  cases hp : p.prox x τ with
  | error e => left; exact ⟨e, rfl, by rw [MutOp.proxPy, h1, hp]; rfl⟩
  | ok q => right; exact ⟨q, _, rfl, by rw [MutOp.proxPy, h1, hp]; rfl, h2⟩

lemma Computes.gradPy (h : Computes f Inv p) {s : S} (hs : Inv s) (x : E) :
    (∃ e, p.grad x = .error e ∧ f.gradPy s x = .error e) ∨ ∃ q s', p.grad x = .ok q ∧ f.gradPy s x = .ok (s', q) ∧ Inv s' := by
  obtain ⟨h1, h2⟩ := h.grad s hs x
  cases hp : p.grad x with
  | error e => left; exact ⟨e, rfl, by rw [MutOp.gradPy, h1, hp]; rfl⟩
  | ok q => right; exact ⟨q, _, rfl, by rw [MutOp.gradPy, h1, hp]; rfl, h2⟩

/-- A loop simulated by another one returns the same, up to the projection. -/
lemma forRange_map {σ σ' : Type} {b1 : ℕ → σ → Py (σ × Bool)} {b2 : ℕ → σ' → Py (σ' × Bool)} {J : σ → Prop} {π : σ → σ'}
    (h : ∀ i s, J s → (∃ e, b1 i s = .error e ∧ b2 i (π s) = .error e) ∨ ∃ s' b, b1 i s = .ok (s', b) ∧ b2 i (π s) = .ok (π s', b) ∧ J s') (n i : ℕ) (s : σ) (hs : J s) :
    (forRange b1 n i s).map π = forRange b2 n i (π s) ∧ ∀ r, forRange b1 n i s = .ok r → J r := by
  rcases forRange_sim (b1 := b1) (b2 := b2) (R := fun s t => J s ∧ π s = t) (fun i s t hst => by
      obtain ⟨h1, rfl⟩ := hst
      rcases h i s h1 with ⟨e, e1, e2⟩ | ⟨s', b, e1, e2, e3⟩
      · exact .inl ⟨e, e1, e2⟩
      · exact .inr ⟨s', _, b, e1, e2, e3, rfl⟩) n i s (π s) ⟨hs, rfl⟩ with ⟨e, e1, e2⟩ | ⟨s', t', e1, e2, e3, rfl⟩
  · rw [e1, e2]; exact ⟨rfl, by simp⟩
  · rw [e1, e2]; exact ⟨rfl, fun r hr => by cases hr; exact e3⟩

end Aux

variable {f : MutOp SF E} {g : MutOp SG E} {If : SF → Prop} {Ig : SG → Prop} {pf pg : ProxOp E}

/-! ## Solvers that do not care -/

/-- C98 for `ProximalPoint`: an object that returns the values of `pf` gives the result of `pf`, and ends in an admissible state. -/
theorem C98_proximalpoint_inplace (hf : Computes f If pf) (sf : SF) (hsf : If sf) (x0 : E) (τ : ℝ) (n : ℕ) (tol : Option ℝ) :
    (PPMut f sf x0 τ n tol).map Prod.snd = ProximalPoint pf x0 τ n tol ∧ ∀ r, PPMut f sf x0 τ n tol = .ok r → If r.1 := by
  refine forRange_map (J := fun s : SF × PPState E => If s.1) (π := Prod.snd) (fun i s hs => ?_) n 0 (sf, ⟨x0, none, []⟩) hsf
  rcases hf.proxPy hs s.2.x τ with ⟨e, e1, e2⟩ | ⟨q, s', e1, e2, e3⟩
  · left; refine ⟨e, ?_, ?_⟩ <;> simp [PPMut.body, ProximalPoint.body, e1, e2, Bind.bind, Except.bind]
  · cases tol with
    | none =>
      right
      exact ⟨(s', ⟨q, s.2.pf, s.2.log ++ [q]⟩), false, by simp [PPMut.body, e2, Bind.bind, Except.bind, Pure.pure, Except.pure],
        by simp [ProximalPoint.body, e1, Bind.bind, Except.bind, Pure.pure, Except.pure], e3⟩
    | some t =>
      have hc := hf.call s' e3 q
      cases hv : pf.call q with
      | error e => left; refine ⟨e, ?_, ?_⟩ <;> simp [PPMut.body, ProximalPoint.body, e1, e2, hc, hv, Bind.bind, Except.bind]
      | ok v =>
        cases hr : pyRatio v.toReal s.2.pf with
        | error e => left; refine ⟨e, ?_, ?_⟩ <;> simp [PPMut.body, ProximalPoint.body, e1, e2, hc, hv, hr, Bind.bind, Except.bind]
        | ok d =>
          right
          exact ⟨(s', ⟨q, some v.toReal, s.2.log ++ [q]⟩), decide (|1 - d| < t), by simp [PPMut.body, e2, hc, hv, hr, Bind.bind, Except.bind, Pure.pure, Except.pure],
            by simp [ProximalPoint.body, e1, hv, hr, Bind.bind, Except.bind, Pure.pure, Except.pure], e3⟩

lemma backtrackMut_eq (hf : Computes f If pf) (hg : Computes g Ig pg) (x : E) (e β : ℝ) :
    ∀ (n : ℕ) (sf : SF) (sg : SG) (τ : ℝ) (z : Option E), If sf → Ig sg →
      (∃ er, backtrackMut f g x e β n sf sg τ z = .error er ∧ backtrack pf pg x e β n τ z = .error er) ∨
        ∃ sf' sg' y t, backtrackMut f g x e β n sf sg τ z = .ok (sf', sg', y, t) ∧ backtrack pf pg x e β n τ z = .ok (y, t) ∧ If sf' ∧ Ig sg' := by
  intro n
  induction n with
  | zero =>
    intro sf sg τ z h1 h2
    cases z with
    | none => exact .inl ⟨_, rfl, rfl⟩
    | some z => exact .inr ⟨sf, sg, z, τ, rfl, rfl, h1, h2⟩
  | succ n ih =>
    intro sf sg τ z h1 h2
    rcases hf.gradPy h1 x with ⟨er, e1, e2⟩ | ⟨gx, sf1, e1, e2, e3⟩
    · left; refine ⟨er, ?_, ?_⟩ <;> simp [backtrackMut, backtrack, e1, e2, Bind.bind, Except.bind]
    rcases hg.proxPy h2 (x - τ • gx) (e * τ) with ⟨er, p1, p2⟩ | ⟨y, sg1, p1, p2, p3⟩
    · left; refine ⟨er, ?_, ?_⟩ <;> simp [backtrackMut, backtrack, e1, e2, p1, p2, Bind.bind, Except.bind]
    have c1 := hf.call sf1 e3 x
    cases hv : pf.call x with
    | error er => left; refine ⟨er, ?_, ?_⟩ <;> simp [backtrackMut, backtrack, e1, e2, p1, p2, c1, hv, Bind.bind, Except.bind]
    | ok v =>
      rcases hf.gradPy e3 x with ⟨er, d1, d2⟩ | ⟨gx', sf2, d1, d2, d3⟩
      · rw [e1] at d1; cases d1
      rw [e1] at d1; cases d1
      have c2 := hf.call sf2 d3 y
      cases hw : pf.call y with
      | error er => left; refine ⟨er, ?_, ?_⟩ <;> simp [backtrackMut, backtrack, e1, e2, p1, p2, c1, hv, d2, c2, hw, Bind.bind, Except.bind]
      | ok w =>
        by_cases hle : w.toReal ≤ v.toReal + ⟪gx, y - x⟫ + 1 / (2 * τ) * ‖y - x‖ ^ 2
        · right
          refine ⟨sf2, sg1, y, τ, ?_, ?_, d3, p3⟩
          · simp only [backtrackMut, e2, p2, c1, hv, d2, c2, hw, Bind.bind, Except.bind, if_pos hle]
          · simp only [backtrack, e1, p1, hv, hw, Bind.bind, Except.bind, if_pos hle]
        · rcases ih sf2 sg1 (τ * β) (some y) d3 p3 with ⟨er, q1, q2⟩ | ⟨sf', sg', y', t, q1, q2, q3, q4⟩
          · left
            refine ⟨er, ?_, ?_⟩
            · simp only [backtrackMut, e2, p2, c1, hv, d2, c2, hw, Bind.bind, Except.bind, if_neg hle, q1]
            · simp only [backtrack, e1, p1, hv, hw, Bind.bind, Except.bind, if_neg hle, q2]
          · right
            refine ⟨sf', sg', y', t, ?_, ?_, q3, q4⟩
            · simp only [backtrackMut, e2, p2, c1, hv, d2, c2, hw, Bind.bind, Except.bind, if_neg hle, q1]
            · simp only [backtrack, e1, p1, hv, hw, Bind.bind, Except.bind, if_neg hle, q2]

lemma pgmut_step (hf : Computes f If pf) (hg : Computes g Ig pg) (a : PGArgs) (bt : Bool) (e : ℝ) {sf : SF} {sg : SG} (h1 : If sf) (h2 : Ig sg) (s : PGState E) :
    (∃ er, PGMut.step f g a bt e sf sg s = .error er ∧ PG.step pf pg a bt e s = .error er) ∨
      ∃ sf' sg' x t, PGMut.step f g a bt e sf sg s = .ok (sf', sg', x, t) ∧ PG.step pf pg a bt e s = .ok (x, t) ∧ If sf' ∧ Ig sg' := by
  have key : ∀ (sf : SF) (sg : SG), If sf → Ig sg → ∀ (x : E) (τ : ℝ), (∃ er, (pf.grad x = .error er ∧ f.gradPy sf x = .error er) ∨
      ∃ gx sf1, pf.grad x = .ok gx ∧ f.gradPy sf x = .ok (sf1, gx) ∧ pg.prox (x - τ • gx) (e * τ) = .error er ∧ g.proxPy sg (x - τ • gx) (e * τ) = .error er) ∨
      ∃ gx sf1 y sg1 b, pf.grad x = .ok gx ∧ f.gradPy sf x = .ok (sf1, gx) ∧ pg.prox (x - τ • gx) (e * τ) = .ok y ∧ g.proxPy sg (x - τ • gx) (e * τ) = .ok (sg1, y, b) ∧
        If sf1 ∧ Ig sg1 := by
    intro sf sg h1 h2 x τ
    rcases hf.gradPy h1 x with ⟨er, e1, e2⟩ | ⟨gx, sf1, e1, e2, e3⟩
    · exact .inl ⟨er, .inl ⟨e1, e2⟩⟩
    rcases hg.proxPy h2 (x - τ • gx) (e * τ) with ⟨er, p1, p2⟩ | ⟨y, sg1, p1, p2, p3⟩
    · exact .inl ⟨er, .inr ⟨gx, sf1, e1, e2, p1, p2⟩⟩
    · exact .inr ⟨gx, sf1, y, sg1, _, e1, e2, p1, p2, e3, p3⟩
  cases bt with
  | true =>
    rcases backtrackMut_eq hf hg s.y e a.β a.niterback sf sg s.tau none h1 h2 with ⟨er, b1, b2⟩ | ⟨sf1, sg1, y, t, b1, b2, b3, b4⟩
    · left; refine ⟨er, ?_, ?_⟩ <;> simp [PGMut.step, PG.step, b1, b2, Bind.bind, Except.bind]
    by_cases he : a.eta = 1
    · right; refine ⟨sf1, sg1, y, t, ?_, ?_, b3, b4⟩ <;> simp [PGMut.step, PG.step, b1, b2, he, Bind.bind, Except.bind, Pure.pure, Except.pure]
    · rcases key sf1 sg1 b3 b4 y t with ⟨er, ⟨q1, q2⟩ | ⟨gx, sf2, q1, q2, q3, q4⟩⟩ | ⟨gx, sf2, y2, sg2, b, q1, q2, q3, q4, q5, q6⟩
      · left; refine ⟨er, ?_, ?_⟩ <;> simp [PGMut.step, PG.step, b1, b2, he, q1, q2, Bind.bind, Except.bind]
      · left; refine ⟨er, ?_, ?_⟩ <;> simp [PGMut.step, PG.step, b1, b2, he, q1, q2, q3, q4, Bind.bind, Except.bind]
      · right; refine ⟨sf2, sg2, y + a.eta • (y2 - y), t, ?_, ?_, q5, q6⟩ <;>
          simp [PGMut.step, PG.step, b1, b2, he, q1, q2, q3, q4, Bind.bind, Except.bind, Pure.pure, Except.pure]
  | false =>
    by_cases he : a.eta = 1
    · rcases key sf sg h1 h2 s.y s.tau with ⟨er, ⟨q1, q2⟩ | ⟨gx, sf2, q1, q2, q3, q4⟩⟩ | ⟨gx, sf2, y2, sg2, b, q1, q2, q3, q4, q5, q6⟩
      · left; refine ⟨er, ?_, ?_⟩ <;> simp [PGMut.step, PG.step, he, q1, q2, Bind.bind, Except.bind]
      · left; refine ⟨er, ?_, ?_⟩ <;> simp [PGMut.step, PG.step, he, q1, q2, q3, q4, Bind.bind, Except.bind]
      · right; refine ⟨sf2, sg2, y2, s.tau, ?_, ?_, q5, q6⟩ <;> simp [PGMut.step, PG.step, he, q1, q2, q3, q4, Bind.bind, Except.bind, Pure.pure, Except.pure]
    · rcases key sf sg h1 h2 s.x s.tau with ⟨er, ⟨q1, q2⟩ | ⟨gx, sf2, q1, q2, q3, q4⟩⟩ | ⟨gx, sf2, y2, sg2, b, q1, q2, q3, q4, q5, q6⟩
      · left; refine ⟨er, ?_, ?_⟩ <;> simp [PGMut.step, PG.step, he, q1, q2, Bind.bind, Except.bind]
      · left; refine ⟨er, ?_, ?_⟩ <;> simp [PGMut.step, PG.step, he, q1, q2, q3, q4, Bind.bind, Except.bind]
      · right; refine ⟨sf2, sg2, s.x + a.eta • (y2 - s.x), s.tau, ?_, ?_, q5, q6⟩ <;>
          simp [PGMut.step, PG.step, he, q1, q2, q3, q4, Bind.bind, Except.bind, Pure.pure, Except.pure]

/-- C98 for `ProximalGradient`, with all its options. -/
theorem C98_proximalgradient_inplace (hf : Computes f If pf) (hg : Computes g Ig pg) (sf : SF) (hsf : If sf) (sg : SG) (hsg : Ig sg) (x0 : E) (a : PGArgs) :
    (PGMut f g sf sg x0 a).map (fun r => r.2.2) = ProximalGradient pf pg x0 a ∧ ∀ r, PGMut f g sf sg x0 a = .ok r → If r.1 ∧ Ig r.2.1 := by
  have main : ∀ bt τ, (forRange (PGMut.body f g a bt) a.niter 0 (sf, sg, ⟨x0, x0, 1, τ, none, []⟩)).map (fun r => r.2.2) =
      forRange (PG.body pf pg a bt) a.niter 0 ⟨x0, x0, 1, τ, none, []⟩ ∧
      ∀ r, forRange (PGMut.body f g a bt) a.niter 0 (sf, sg, ⟨x0, x0, 1, τ, none, []⟩) = .ok r → If r.1 ∧ Ig r.2.1 := by
    intro bt τ
    refine forRange_map (J := fun s : SF × SG × PGState E => If s.1 ∧ Ig s.2.1) (π := fun s => s.2.2) (fun i s hs => ?_) a.niter 0 (sf, sg, ⟨x0, x0, 1, τ, none, []⟩) ⟨hsf, hsg⟩
    cases he : a.epsg.at i with
    | error er => left; refine ⟨er, ?_, ?_⟩ <;> simp [PGMut.body, PG.body, he, Bind.bind, Except.bind]
    | ok e =>
      rcases pgmut_step hf hg a bt e hs.1 hs.2 s.2.2 with ⟨er, q1, q2⟩ | ⟨sf', sg', x, t, q1, q2, q3, q4⟩
      · left; refine ⟨er, ?_, ?_⟩ <;> simp [PGMut.body, PG.body, he, q1, q2, Bind.bind, Except.bind]
      cases ht : a.tol with
      | none =>
        right
        refine ⟨(sf', sg', ⟨x, x + (momentum a.acceleration i s.2.2.t).1 • (x - s.2.2.x), (momentum a.acceleration i s.2.2.t).2, t, s.2.2.pfg, s.2.2.log ++ [x]⟩), false, ?_, ?_, q3, q4⟩
        · simp [PGMut.body, he, q1, ht, Bind.bind, Except.bind, Pure.pure, Except.pure]
        · simp [PG.body, he, q2, ht, Bind.bind, Except.bind, Pure.pure, Except.pure]
      | some tol =>
        have c1 := hf.call sf' q3 x
        have c2 := hg.call sg' q4 x
        cases hv : pf.call x with
        | error er => left; refine ⟨er, ?_, ?_⟩ <;> simp [PGMut.body, PG.body, he, q1, q2, ht, c1, hv, Bind.bind, Except.bind]
        | ok v =>
          cases hw : pg.call x with
          | error er => left; refine ⟨er, ?_, ?_⟩ <;> simp [PGMut.body, PG.body, he, q1, q2, ht, c1, c2, hv, hw, Bind.bind, Except.bind]
          | ok w =>
            right
            refine ⟨(sf', sg', ⟨x, x + (momentum a.acceleration i s.2.2.t).1 • (x - s.2.2.x), (momentum a.acceleration i s.2.2.t).2, t, some (v.toReal + e * w.toReal), s.2.2.log ++ [x]⟩),
              npRatioTest (v.toReal + e * w.toReal) s.2.2.pfg tol, ?_, ?_, q3, q4⟩
            · simp [PGMut.body, he, q1, ht, c1, c2, hv, hw, Bind.bind, Except.bind, Pure.pure, Except.pure]
            · simp [PG.body, he, q2, ht, hv, hw, Bind.bind, Except.bind, Pure.pure, Except.pure]
  unfold PGMut ProximalGradient
  cases hp : a.epsg.printCheck a.niter with
  | error er => exact ⟨rfl, by simp [Bind.bind, Except.bind]⟩
  | ok u =>
    by_cases ho : a.acceleration = .other
    · simp only [Bind.bind, Except.bind, if_pos ho]; exact ⟨rfl, by simp⟩
    · simp only [Bind.bind, Except.bind, if_neg ho]
      cases a.tau with
      | none => exact main true 1
      | some τ => exact main a.backtracking τ

/-- C98 for `ADMM`. -/
theorem C98_admm_inplace (hf : Computes f If pf) (hg : Computes g Ig pg) (sf : SF) (hsf : If sf) (sg : SG) (hsg : Ig sg) (x0 z0 : Option E) (τ : ℝ) (n : ℕ) (gfirst : Bool) :
    (ADMMMut f g sf sg x0 z0 τ n gfirst).map (fun r => r.2.2) = ADMM pf pg x0 z0 τ n gfirst ∧ ∀ r, ADMMMut f g sf sg x0 z0 τ n gfirst = .ok r → If r.1 ∧ Ig r.2.1 := by
  unfold ADMMMut ADMM
  cases hi : x0z0Init x0 z0 with
  | error er => exact ⟨rfl, by simp [Bind.bind, Except.bind]⟩
  | ok p =>
    simp only [Bind.bind, Except.bind]
    refine forRange_map (J := fun s : SF × SG × SplitState E => If s.1 ∧ Ig s.2.1) (π := fun s => s.2.2) (fun i s hs => ?_) n 0 (sf, sg, ⟨p.1, p.2, 0, []⟩) ⟨hsf, hsg⟩
    cases gfirst with
    | true =>
      rcases hg.proxPy hs.2 (s.2.2.x + s.2.2.u) τ with ⟨er, e1, e2⟩ | ⟨z, sg', e1, e2, e3⟩
      · left; refine ⟨er, ?_, ?_⟩ <;> simp [ADMMMut.body, ADMM.body, e1, e2, Bind.bind, Except.bind]
      rcases hf.proxPy hs.1 (z - s.2.2.u) τ with ⟨er, q1, q2⟩ | ⟨x, sf', q1, q2, q3⟩
      · left; refine ⟨er, ?_, ?_⟩ <;> simp [ADMMMut.body, ADMM.body, e1, e2, q1, q2, Bind.bind, Except.bind]
      right
      refine ⟨(sf', sg', ⟨x, z, s.2.2.u + x - z, s.2.2.log ++ [(x, z)]⟩), false, ?_, ?_, q3, e3⟩ <;>
        simp [ADMMMut.body, ADMM.body, e1, e2, q1, q2, Bind.bind, Except.bind, Pure.pure, Except.pure]
    | false =>
      rcases hf.proxPy hs.1 (s.2.2.z - s.2.2.u) τ with ⟨er, q1, q2⟩ | ⟨x, sf', q1, q2, q3⟩
      · left; refine ⟨er, ?_, ?_⟩ <;> simp [ADMMMut.body, ADMM.body, q1, q2, Bind.bind, Except.bind]
      rcases hg.proxPy hs.2 (x + s.2.2.u) τ with ⟨er, e1, e2⟩ | ⟨z, sg', e1, e2, e3⟩
      · left; refine ⟨er, ?_, ?_⟩ <;> simp [ADMMMut.body, ADMM.body, e1, e2, q1, q2, Bind.bind, Except.bind]
      right
      refine ⟨(sf', sg', ⟨x, z, s.2.2.u + x - z, s.2.2.log ++ [(x, z)]⟩), false, ?_, ?_, q3, e3⟩ <;>
        simp [ADMMMut.body, ADMM.body, e1, e2, q1, q2, Bind.bind, Except.bind, Pure.pure, Except.pure]

/-! ## Solvers that do -/

/-- C98 for `HQS`, partial: if the operator called second leaves its argument alone the result is that of the pure operators (and so is the object state admissible).
Missing: `C98_hqs_refuted`. -/
theorem C98_hqs_partial (hf : Computes f If pf) (hg : Computes g Ig pg) (sf : SF) (hsf : If sf) (sg : SG) (hsg : Ig sg) (x0 z0 : Option E) (tau : StepSpec) (n : ℕ)
    (gfirst : Bool) (hl : if gfirst then LeavesArg f else LeavesArg g) :
    (HQSMut f g sf sg x0 z0 tau n gfirst).map (fun r => r.2.2) = HQS pf pg x0 z0 tau n gfirst ∧ ∀ r, HQSMut f g sf sg x0 z0 tau n gfirst = .ok r → If r.1 ∧ Ig r.2.1 := by
  unfold HQSMut HQS
  cases hi : x0z0Init x0 z0 with
  | error er => exact ⟨rfl, by simp [Bind.bind, Except.bind]⟩
  | ok p =>
    simp only [Bind.bind, Except.bind]
    refine forRange_map (J := fun s : SF × SG × SplitState E => If s.1 ∧ Ig s.2.1) (π := fun s => s.2.2) (fun i s hs => ?_) n 0 (sf, sg, ⟨p.1, p.2, 0, []⟩) ⟨hsf, hsg⟩
    cases ht : tau.at i with
    | error er => left; refine ⟨er, ?_, ?_⟩ <;> simp [HQSMut.body, HQS.body, ht, Bind.bind, Except.bind]
    | ok τ =>
      cases gfirst with
      | true =>
        have hl : LeavesArg f := hl
        rcases hg.proxPy hs.2 s.2.2.x τ with ⟨er, e1, e2⟩ | ⟨z, sg', e1, e2, e3⟩
        · left; refine ⟨er, ?_, ?_⟩ <;> simp [HQSMut.body, HQS.body, ht, e1, e2, Bind.bind, Except.bind]
        rcases hf.proxPy hs.1 z τ with ⟨er, q1, q2⟩ | ⟨x, sf', q1, q2, q3⟩
        · left; refine ⟨er, ?_, ?_⟩ <;> simp [HQSMut.body, HQS.body, ht, e1, e2, q1, q2, Bind.bind, Except.bind]
        rw [hl] at q2
        right
        refine ⟨(sf', sg', ⟨x, z, s.2.2.u, s.2.2.log ++ [(x, z)]⟩), false, ?_, ?_, q3, e3⟩ <;>
          simp [HQSMut.body, HQS.body, ht, e1, e2, q1, q2, Bind.bind, Except.bind, Pure.pure, Except.pure]
      | false =>
        have hl : LeavesArg g := hl
        rcases hf.proxPy hs.1 s.2.2.z τ with ⟨er, q1, q2⟩ | ⟨x, sf', q1, q2, q3⟩
        · left; refine ⟨er, ?_, ?_⟩ <;> simp [HQSMut.body, HQS.body, ht, q1, q2, Bind.bind, Except.bind]
        rcases hg.proxPy hs.2 x τ with ⟨er, e1, e2⟩ | ⟨z, sg', e1, e2, e3⟩
        · left; refine ⟨er, ?_, ?_⟩ <;> simp [HQSMut.body, HQS.body, ht, e1, e2, q1, q2, Bind.bind, Except.bind]
        rw [hl] at e2
        right
        refine ⟨(sf', sg', ⟨x, z, s.2.2.u, s.2.2.log ++ [(x, z)]⟩), false, ?_, ?_, q3, e3⟩ <;>
          simp [HQSMut.body, HQS.body, ht, e1, e2, q1, q2, Bind.bind, Except.bind, Pure.pure, Except.pure]

/-- C98 for `DouglasRachfordSplitting`, partial: the same if the operator called first leaves its argument alone.  Missing: `C98_dr_refuted`. -/
theorem C98_dr_partial (hf : Computes f If pf) (hg : Computes g Ig pg) (sf : SF) (hsf : If sf) (sg : SG) (hsg : Ig sg) (x0 : E) (τ η : ℝ) (n : ℕ)
    (gfirst : Bool) (hl : if gfirst then LeavesArg g else LeavesArg f) :
    (DRMut f g sf sg x0 τ η n gfirst).map (fun r => r.2.2) = DouglasRachford pf pg x0 τ η n gfirst ∧ ∀ r, DRMut f g sf sg x0 τ η n gfirst = .ok r → If r.1 ∧ Ig r.2.1 := by
  have main := forRange_map (b1 := DRMut.body f g τ η gfirst) (b2 := DR.body pf pg τ η gfirst) (J := fun s : SF × SG × DRState E => If s.1 ∧ Ig s.2.1) (π := fun s => s.2.2)
    (fun i s hs => by
      cases gfirst with
      | true =>
        have hl : LeavesArg g := hl
        rcases hg.proxPy hs.2 s.2.2.y τ with ⟨er, e1, e2⟩ | ⟨x, sg', e1, e2, e3⟩
        · left; refine ⟨er, ?_, ?_⟩ <;> simp [DRMut.body, DR.body, e1, e2, Bind.bind, Except.bind]
        rw [hl] at e2
        rcases hf.proxPy hs.1 ((2 : ℝ) • x - s.2.2.y) τ with ⟨er, q1, q2⟩ | ⟨p, sf', q1, q2, q3⟩
        · left; refine ⟨er, ?_, ?_⟩ <;> simp [DRMut.body, DR.body, e1, e2, q1, q2, Bind.bind, Except.bind]
        right
        refine ⟨(sf', sg', ⟨some x, s.2.2.y + η • (p - x), s.2.2.log ++ [(x, s.2.2.y + η • (p - x))]⟩), false, ?_, ?_, q3, e3⟩ <;>
          simp [DRMut.body, DR.body, e1, e2, q1, q2, Bind.bind, Except.bind, Pure.pure, Except.pure]
      | false =>
        have hl : LeavesArg f := hl
        rcases hf.proxPy hs.1 s.2.2.y τ with ⟨er, e1, e2⟩ | ⟨x, sf', e1, e2, e3⟩
        · left; refine ⟨er, ?_, ?_⟩ <;> simp [DRMut.body, DR.body, e1, e2, Bind.bind, Except.bind]
        rw [hl] at e2
        rcases hg.proxPy hs.2 ((2 : ℝ) • x - s.2.2.y) τ with ⟨er, q1, q2⟩ | ⟨p, sg', q1, q2, q3⟩
        · left; refine ⟨er, ?_, ?_⟩ <;> simp [DRMut.body, DR.body, e1, e2, q1, q2, Bind.bind, Except.bind]
        right
        refine ⟨(sf', sg', ⟨some x, s.2.2.y + η • (p - x), s.2.2.log ++ [(x, s.2.2.y + η • (p - x))]⟩), false, ?_, ?_, e3, q3⟩ <;>
          simp [DRMut.body, DR.body, e1, e2, q1, q2, Bind.bind, Except.bind, Pure.pure, Except.pure]) n 0 (sf, sg, ⟨none, x0, []⟩) ⟨hsf, hsg⟩
  unfold DRMut DouglasRachford
  obtain ⟨m1, m2⟩ := main
  rw [← m1]
  cases hr : forRange (DRMut.body f g τ η gfirst) n 0 (sf, sg, ⟨none, x0, []⟩) with
  | error er => exact ⟨rfl, by simp [Bind.bind, Except.bind]⟩
  | ok r =>
    cases hx : r.2.2.x with
    | none => simp [hx, Bind.bind, Except.bind, Except.map]
    | some x =>
      refine ⟨by simp [hx, Bind.bind, Except.bind, Except.map, Pure.pure, Except.pure], fun q hq => ?_⟩
      simp only [hx, Bind.bind, Except.bind, Pure.pure, Except.pure, Except.ok.injEq] at hq
      subst hq
      exact m2 r hr

/-- C98 for `PPXA`, partial: the same if no operator writes into its argument.  Missing: `C98_ppxa_refuted`. -/
theorem C98_ppxa_partial {m : ℕ} {fs : Fin m → MutOp SF E} {ps : Fin m → ProxOp E} (hf : ∀ i, Computes (fs i) If (ps i)) (hl : ∀ i, LeavesArg (fs i)) (sf : Fin m → SF)
    (hsf : ∀ i, If (sf i)) (w : Fin m → ℝ) (y0 : Fin m → E) (τ η : ℝ) (n : ℕ) (tol : ℝ) (mx : E → ℝ) :
    (PPXAMut fs sf w y0 τ η n tol mx).map Prod.snd = PPXA ps (some w) y0 τ η n tol mx ∧ ∀ r, PPXAMut fs sf w y0 τ η n tol mx = .ok r → ∀ i, If (r.1 i) := by
  unfold PPXAMut PPXA
  by_cases hm : m = 0
  · rw [if_pos hm, if_pos hm]; exact ⟨rfl, by simp⟩
  rw [if_neg hm, if_neg hm]
  refine forRange_map (J := fun s : (Fin m → SF) × PPXAState E m => ∀ i, If (s.1 i)) (π := Prod.snd) (fun i s hs => ?_) n 0 (sf, _) hsf
  have hmap : ∀ (k : ℕ) (h1 : Fin k → Py (SF × E × E)) (h2 : Fin k → Py E) (y : Fin k → E),
      (∀ i, (∃ er, h1 i = .error er ∧ h2 i = .error er) ∨ ∃ s' q, h1 i = .ok (s', q, y i) ∧ h2 i = .ok q ∧ If s') →
      (∃ er, mapPy h1 = .error er ∧ mapPy h2 = .error er) ∨ ∃ (s' : Fin k → SF) (q : Fin k → E), mapPy h1 = .ok (fun i => (s' i, q i, y i)) ∧ mapPy h2 = .ok q ∧ ∀ i, If (s' i) := by
    intro k
    induction k with
    | zero => intro h1 h2 y _; right; exact ⟨Fin.elim0, Fin.elim0, by simp only [mapPy]; congr 1; exact Subsingleton.elim _ _, rfl, fun i => i.elim0⟩
    | succ k ih =>
      intro h1 h2 y h
      rcases h 0 with ⟨er, e1, e2⟩ | ⟨s', q, e1, e2, e3⟩
      · left; exact ⟨er, by simp only [mapPy, e1], by simp only [mapPy, e2]⟩
      rcases ih (fun i => h1 i.succ) (fun i => h2 i.succ) (fun i => y i.succ) (fun i => h i.succ) with ⟨er, q1, q2⟩ | ⟨s'', q', q1, q2, q3⟩
      · left; exact ⟨er, by simp only [mapPy, e1, q1], by simp only [mapPy, e2, q2]⟩
      · right
        refine ⟨Fin.cons s' s'', Fin.cons q q', ?_, by simp only [mapPy, e2, q2], fun i => ?_⟩
        · simp only [mapPy, e1, q1]
          congr 1
          funext i
          refine Fin.cases ?_ (fun j => ?_) i <;> simp
        · refine Fin.cases ?_ (fun j => ?_) i
          · exact e3
          · exact q3 j
  rcases hmap m (fun i => if w i = 0 then .error .nanResult else (fs i).proxPy (s.1 i) (s.2.y i) (τ / w i))
    (fun i => if w i = 0 then .error .nanResult else (ps i).prox (s.2.y i) (τ / w i)) s.2.y (fun i => by
      by_cases hw : w i = 0
      · left; exact ⟨.nanResult, by simp [hw], by simp [hw]⟩
      · rcases (hf i).proxPy (hs i) (s.2.y i) (τ / w i) with ⟨er, e1, e2⟩ | ⟨q, s', e1, e2, e3⟩
        · left; exact ⟨er, by simp [hw, e2], by simp [hw, e1]⟩
        · right; exact ⟨s', q, by simp [hw, e2, hl i (s.1 i) (s.2.y i) (τ / w i)], by simp [hw, e1], e3⟩) with ⟨er, e1, e2⟩ | ⟨s', q, e1, e2, e3⟩
  · left; refine ⟨er, ?_, ?_⟩
    · unfold PPXAMut.body; rw [e1]; rfl
    · unfold PPXA.body; rw [e2]; rfl
  · right
    unfold PPXAMut.body PPXA.body
    rw [e1, e2]
    simp only [Bind.bind, Except.bind, Pure.pure, Except.pure]
    by_cases hc : mx (s.2.x + η • (∑ i, w i • q i - s.2.x) - s.2.xold) < tol
    · simp only [if_pos hc]; exact ⟨_, _, rfl, rfl, e3⟩
    · simp only [if_neg hc]; exact ⟨_, _, rfl, rfl, e3⟩

/-! ## `L2(q=...)` writes into its argument -/

section Refuted
variable {H C : Type} [NormedAddCommGroup H] [InnerProductSpace ℝ H]

/-- `L2(sigma=s, q=q)`: the function `s/2 ‖x‖² + q·x`. -/
def l2Lin (s : ℝ) (q : E) : L2Args E H := { l2Plain .nothing s with q := some q }

lemma l2Lin_prox (ext : L2Ext E H C) {s : ℝ} (hs : 0 ≤ s) (q : E) (st : L2State E C) (x : E) {τ : ℝ} (hτ : 0 < τ) :
    (L2.toMut ext (l2Lin (H := H) s q)).prox st x τ = ({ st with count := st.count + 1 }, .ok ((1 / (1 + τ * s)) • (x - τ • q)), x - τ • q) := by
  simp [L2.toMut, L2.prox, if_neg (not_le.2 hτ), L2.proxBody, l2Lin, l2Plain, L2.subQ, npDivBy_ok _ (show 1 + τ * s ≠ 0 by positivity)]

lemma l2Lin_proxPy (ext : L2Ext E H C) {s : ℝ} (hs : 0 ≤ s) (q : E) (st : L2State E C) (x : E) {τ : ℝ} (hτ : 0 < τ) :
    (L2.toMut ext (l2Lin (H := H) s q)).proxPy st x τ = .ok ({ st with count := st.count + 1 }, (1 / (1 + τ * s)) • (x - τ • q), x - τ • q) := by
  rw [MutOp.proxPy, l2Lin_prox ext hs q st x hτ]; rfl

lemma l2Plain_proxPy (ext : L2Ext E H C) {s : ℝ} (hs : 0 ≤ s) (st : L2State E C) (x : E) {τ : ℝ} (hτ : 0 < τ) :
    (L2.toMut ext (l2Plain (F' := H) .nothing s)).proxPy st x τ = .ok ({ st with count := st.count + 1 }, (1 / (1 + τ * s)) • x, x) := by
  simp [MutOp.proxPy, L2.toMut, L2.prox, if_neg (not_le.2 hτ), L2.proxBody, l2Plain, L2.subQ, Except.map, npDivBy_ok _ (show 1 + τ * s ≠ 0 by positivity)]

/-- An `L2` object without operator computes the same in every state. -/
lemma l2mut_computes (ext : L2Ext E H C) (a : L2Args E H) (hd : ∀ Op e b, a.data ≠ .opB Op e b) (st : L2State E C) :
    Computes (L2.toMut ext a) (fun _ => True) (L2.obj ext a st) where
  prox := fun s _ x τ => ⟨by
    have hnop : ∀ s : L2State E C, (L2.proxBody ext a s x τ).2.1 = (L2.proxBody ext a st x τ).2.1 := fun s => by
      unfold L2.proxBody
      cases hdat : a.data with
      | opB Op e b => exact absurd hdat (hd Op e b)
      | _ => rfl
    show (L2.prox ext a s x τ).2.1 = (L2.prox ext a st x τ).2.1
    unfold L2.prox
    by_cases hτ : τ ≤ 0
    · simp [if_pos hτ]
    · simp only [if_neg hτ]; rw [hnop, hnop { st with count := st.count + 1 }], trivial⟩
  grad := fun _ _ _ => ⟨rfl, trivial⟩
  call := fun _ _ _ => rfl

/-- C98, counterexample for `HQS`: with `f = L2(sigma=s, q=q)` called second, `x` is right, but the returned `z`, and every `z` given to the callback, is off by `tau q`. -/
theorem C98_hqs_refuted (ext : L2Ext E H C) {s : ℝ} (hs : 0 ≤ s) (q : E) (st : L2State E C) (hg : Computes g Ig pg) (sg : SG) (hsg : Ig sg) {τ : ℝ} (hτ : 0 < τ) (x0 z0 : Option E)
    (n : ℕ) (r : SplitState E) (hr : HQS (L2.obj ext (l2Lin (H := H) s q) st) pg x0 z0 (.scalar τ) (n + 1) true = .ok r) :
    ∃ r', HQSMut (L2.toMut ext (l2Lin (H := H) s q)) g st sg x0 z0 (.scalar τ) (n + 1) true = .ok r' ∧ r'.2.2.x = r.x ∧ r'.2.2.z = r.z - τ • q ∧
      r'.2.2.log = r.log.map fun p => (p.1, p.2 - τ • q) := by
  unfold HQS at hr
  unfold HQSMut
  cases hi : x0z0Init x0 z0 with
  | error er => rw [hi] at hr; simp [Bind.bind, Except.bind] at hr
  | ok p =>
    rw [hi] at hr
    simp only [Bind.bind, Except.bind] at hr ⊢
    have hP : ∀ x, (L2.obj ext (l2Lin (H := H) s q) st).prox x τ = .ok ((1 / (1 + τ * s)) • (x - τ • q)) := fun x => by
      have := (l2mut_computes ext (l2Lin (H := H) s q) (by simp [l2Lin, l2Plain]) st).prox st trivial x τ
      rw [← this.1, l2Lin_prox ext hs q st x hτ]
    rcases forRange_sim (b1 := HQSMut.body (L2.toMut ext (l2Lin (H := H) s q)) g (.scalar τ) true) (b2 := HQS.body (L2.obj ext (l2Lin (H := H) s q) st) pg (.scalar τ) true)
      (R := fun u t => Ig u.2.1 ∧ u.2.2.x = t.x ∧ (t.log ≠ [] → u.2.2.z = t.z - τ • q) ∧ u.2.2.log = t.log.map fun p => (p.1, p.2 - τ • q))
      (fun i u t hut => by
        obtain ⟨h1, h2, -, h4⟩ := hut
        rcases hg.proxPy h1 u.2.2.x τ with ⟨er, e1, e2⟩ | ⟨z, sg', e1, e2, e3⟩
        · left; rw [h2] at e1; refine ⟨er, ?_, ?_⟩ <;> simp [HQSMut.body, HQS.body, StepSpec.at, e1, e2, Bind.bind, Except.bind]
        · rw [h2] at e1
          right
          refine ⟨({ u.1 with count := u.1.count + 1 }, sg', ⟨(1 / (1 + τ * s)) • (z - τ • q), z - τ • q, u.2.2.u, u.2.2.log ++ [((1 / (1 + τ * s)) • (z - τ • q), z - τ • q)]⟩),
            ⟨(1 / (1 + τ * s)) • (z - τ • q), z, t.u, t.log ++ [((1 / (1 + τ * s)) • (z - τ • q), z)]⟩, false, ?_, ?_, e3, rfl, fun _ => rfl, ?_⟩
          · simp only [HQSMut.body, StepSpec.at, e2, l2Lin_proxPy ext hs q _ _ hτ, Bind.bind, Except.bind, Pure.pure, Except.pure, if_true]
          · simp only [HQS.body, StepSpec.at, e1, hP, Bind.bind, Except.bind, Pure.pure, Except.pure, if_true]
          · rw [h4]; simp) (n + 1) 0 (st, sg, ⟨p.1, p.2, 0, []⟩) ⟨p.1, p.2, 0, []⟩ ⟨hsg, rfl, by simp, by simp⟩ with ⟨e, e1, e2⟩ | ⟨u, t, e1, e2, e3⟩
    · rw [hr] at e2; cases e2
    · rw [hr] at e2; cases e2
      refine ⟨u, e1, e3.2.1, e3.2.2.1 ?_, e3.2.2.2⟩
      obtain ⟨a, ha, hb⟩ := forRange_succ (body := HQS.body (L2.obj ext (l2Lin (H := H) s q) st) pg (.scalar τ) true) (fun i s s' b h => by
        revert h
        simp only [HQS.body, StepSpec.at, hP, Bind.bind, Except.bind, Pure.pure, Except.pure, if_true]
        cases pg.prox s.x τ with
        | error e => simp
        | ok z => simp only [Except.ok.injEq, Prod.mk.injEq]; rintro ⟨-, rfl⟩; rfl) n 0 _ _ hr
      revert hb
      simp only [HQS.body, StepSpec.at, hP, Bind.bind, Except.bind, Pure.pure, Except.pure, if_true]
      cases pg.prox a.x τ with
      | error e => simp
      | ok z => simp only [Except.ok.injEq, Prod.mk.injEq]; rintro ⟨rfl, -⟩; simp

/-- C98, counterexample: `HQS` with `g = L2(sigma=s, q=q)` called first changes the caller's array `x0`. -/
theorem C98_hqs_initial_refuted (ext : L2Ext E H C) {s : ℝ} (hs : 0 ≤ s) {q : E} (hq : q ≠ 0) (sf : SF) (sg : L2State E C) (x0 z0 : E) {τ : ℝ} (hτ : 0 < τ) (n : ℕ) :
    (HQSMut.callerArrays f (L2.toMut ext (l2Lin (H := H) s q)) sf sg x0 z0 τ (n + 1) true).1 = x0 - τ • q ∧ x0 - τ • q ≠ x0 := by
  refine ⟨?_, ?_⟩
  · simp only [HQSMut.callerArrays, if_neg (Nat.succ_ne_zero n), if_true, l2Lin_prox ext hs q sg x0 hτ]
  · rw [Ne, sub_eq_self]; exact smul_ne_zero hτ.ne' hq

/-- C98, counterexample: `HQS` with `f = L2(sigma=s, q=q)` called first changes the caller's array `z0`. -/
theorem C98_hqs_initial_z_refuted (ext : L2Ext E H C) {s : ℝ} (hs : 0 ≤ s) {q : E} (hq : q ≠ 0) (g : MutOp SG E) (sf : L2State E C) (sg : SG) (x0 z0 : E) {τ : ℝ}
    (hτ : 0 < τ) (n : ℕ) :
    (HQSMut.callerArrays (L2.toMut ext (l2Lin (H := H) s q)) g sf sg x0 z0 τ (n + 1) false).2 = z0 - τ • q ∧ z0 - τ • q ≠ z0 ∧
      (HQSMut.callerArrays (L2.toMut ext (l2Lin (H := H) s q)) g sf sg x0 z0 τ (n + 1) false).1 = x0 := by
  refine ⟨?_, ?_, ?_⟩
  · simp only [HQSMut.callerArrays, if_neg (Nat.succ_ne_zero n), Bool.false_eq_true, if_false, l2Lin_prox ext hs q sf z0 hτ]
  · rw [Ne, sub_eq_self]; exact smul_ne_zero hτ.ne' hq
  · simp only [HQSMut.callerArrays, if_neg (Nat.succ_ne_zero n), Bool.false_eq_true, if_false]

/-- C98 for the caller's arrays of `HQS`: a call without iterations changes none, the array that the first `prox` does not get is never changed, and neither is the other one if
the operator called first leaves its argument alone. -/
theorem C98_hqs_initial_kept (sf : SF) (sg : SG) (x0 z0 : E) (τ : ℝ) (n : ℕ) :
    HQSMut.callerArrays f g sf sg x0 z0 τ 0 true = (x0, z0) ∧ HQSMut.callerArrays f g sf sg x0 z0 τ 0 false = (x0, z0) ∧
      (HQSMut.callerArrays f g sf sg x0 z0 τ n true).2 = z0 ∧ (HQSMut.callerArrays f g sf sg x0 z0 τ n false).1 = x0 ∧
      (LeavesArg g → HQSMut.callerArrays f g sf sg x0 z0 τ n true = (x0, z0)) ∧
      (LeavesArg f → HQSMut.callerArrays f g sf sg x0 z0 τ n false = (x0, z0)) := by
  rcases n with _ | n
  · simp [HQSMut.callerArrays]
  · refine ⟨by simp [HQSMut.callerArrays], by simp [HQSMut.callerArrays], by simp [HQSMut.callerArrays], by simp [HQSMut.callerArrays], fun h => ?_, fun h => ?_⟩
    · simp [HQSMut.callerArrays, h sg x0 τ]
    · simp [HQSMut.callerArrays, h sf z0 τ]

/-- C98: `DouglasRachfordSplitting` without iterations raises, with every pair of operators: the returned variable was never assigned. -/
theorem C98_dr_no_iterations (sf : SF) (sg : SG) (x0 : E) (τ η : ℝ) (gfirst : Bool) : DRMut f g sf sg x0 τ η 0 gfirst = .error .unboundLocalError := rfl

/-- C98, counterexample for `DouglasRachfordSplitting`: with `f = r/2 ‖x‖²` and `g = s/2 ‖x‖² + q·x`, both `L2` objects, `g` called first, the returned point converges to
`-(1 + tau r)/(eta (s + r)) q`, which is not the minimiser `-q/(s + r)` of the sum unless `eta = 1 + tau r`. -/
theorem C98_dr_refuted (ext : L2Ext E H C) {s r τ η : ℝ} (hs : 0 < s) (hr : 0 < r) (hτ : 0 < τ) (hη : 0 < η) (hη2 : η < 2) (hne : η ≠ 1 + τ * r) {q : E} (hq : q ≠ 0)
    (sf sg : L2State E C) (x0 : E) :
    ∃ R : ℕ → L2State E C × L2State E C × E × E × List (E × E), (∀ n, DRMut (L2.toMut ext (l2Plain (F' := H) .nothing r)) (L2.toMut ext (l2Lin (H := H) s q)) sf sg x0 τ η (n + 1) true = .ok (R n)) ∧
      Tendsto (fun n => (R n).2.2.1) atTop (𝓝 (-((1 + τ * r) / (η * (s + r))) • q)) ∧
      ¬ ((XFun.ofReal (l2Spec (l2Plain (F' := H) .nothing r))).add (XFun.ofReal (l2Spec (l2Lin (H := H) s q)))).IsMin (-((1 + τ * r) / (η * (s + r))) • q) := by
  set κ := 1 / (1 + τ * s) with hκ
  set μ := 1 / (1 + τ * r) with hμ
  have hs1 : 0 < 1 + τ * s := by positivity
  have hr1 : 0 < 1 + τ * r := by positivity
  obtain ⟨T, T0, -, hR, hrun⟩ := forRange_traj_nobreak (DRMut.body (L2.toMut ext (l2Plain (F' := H) .nothing r)) (L2.toMut ext (l2Lin (H := H) s q)) τ η true) (fun _ => True)
    (fun _ u u' => u'.2.2.x = some (κ • (u.2.2.y - τ • q)) ∧
      u'.2.2.y = (u.2.2.y - τ • q) + η • (μ • ((2 : ℝ) • κ • (u.2.2.y - τ • q) - (u.2.2.y - τ • q)) - κ • (u.2.2.y - τ • q))) (fun i u _ => by
      refine ⟨({ u.1 with count := u.1.count + 1 }, { u.2.1 with count := u.2.1.count + 1 }, ⟨some (κ • (u.2.2.y - τ • q)),
        (u.2.2.y - τ • q) + η • (μ • ((2 : ℝ) • κ • (u.2.2.y - τ • q) - (u.2.2.y - τ • q)) - κ • (u.2.2.y - τ • q)),
        u.2.2.log ++ [(κ • (u.2.2.y - τ • q), (u.2.2.y - τ • q) + η • (μ • ((2 : ℝ) • κ • (u.2.2.y - τ • q) - (u.2.2.y - τ • q)) - κ • (u.2.2.y - τ • q)))]⟩), ?_, trivial, rfl, rfl⟩
      simp only [DRMut.body, if_true, l2Lin_proxPy ext hs.le q _ _ hτ, l2Plain_proxPy ext hr.le _ _ hτ, Bind.bind, Except.bind, Pure.pure, Except.pure, hκ, hμ])
    (sf, sg, ⟨none, x0, []⟩) trivial
  set θ := τ * (s + r) * κ * μ with hθ
  have hθ0 : 0 < θ := by positivity
  have hθ1 : θ < 1 := by
    rw [hθ, hκ, hμ, mul_assoc, one_div_mul_one_div, mul_one_div, div_lt_one (by positivity)]
    have : 0 < τ * s * (τ * r) := by positivity
    nlinarith
  have hcoef : 1 + η * (μ * (2 * κ - 1) - κ) = 1 - η * θ := by
    rw [hθ, hκ, hμ]; field_simp; ring
  have hv : ∀ n, (T (n + 1)).2.2.y - τ • q = (1 - η * θ) • ((T n).2.2.y - τ • q) - τ • q := fun n => by
    rw [(hR n).2, ← hcoef]; module
  have hv' : ∀ n, (T n).2.2.y - τ • q = (1 - η * θ) ^ n • (x0 - τ • q + (τ / (η * θ)) • q) - (τ / (η * θ)) • q := by
    intro n
    induction n with
    | zero => rw [T0, pow_zero, one_smul]; abel
    | succ n ih =>
      rw [hv, ih, pow_succ']
      have : (τ / (η * θ)) * (η * θ) = τ := by field_simp
      have e : τ • q = ((τ / (η * θ)) * (η * θ)) • q := by rw [this]
      rw [smul_sub, sub_sub, smul_smul]
      congr 1
      rw [e]; module
  refine ⟨fun n => ((T (n + 1)).1, (T (n + 1)).2.1, κ • ((T n).2.2.y - τ • q), (T (n + 1)).2.2.y, (T (n + 1)).2.2.log), fun n => ?_, ?_, ?_⟩
  · rw [DRMut, hrun]
    simp only [Bind.bind, Except.bind, Pure.pure, Except.pure, (hR n).1]
  · have habs : |1 - η * θ| < 1 := by
      rw [abs_lt]
      have : 0 < η * θ := by positivity
      have : η * θ < 2 := by nlinarith
      constructor <;> linarith
    have h1 : Tendsto (fun n => (1 - η * θ) ^ n • (x0 - τ • q + (τ / (η * θ)) • q)) atTop (𝓝 ((0 : ℝ) • (x0 - τ • q + (τ / (η * θ)) • q))) :=
      (tendsto_pow_atTop_nhds_zero_of_abs_lt_one habs).smul_const _
    rw [zero_smul] at h1
    have h2 := (h1.sub_const ((τ / (η * θ)) • q)).const_smul κ
    have e : κ • ((0 : E) - (τ / (η * θ)) • q) = -((1 + τ * r) / (η * (s + r))) • q := by
      rw [zero_sub, smul_neg, smul_smul, neg_smul]
      congr 2
      rw [hθ, hκ, hμ]; field_simp
    rw [e] at h2
    exact h2.congr fun n => (congrArg (κ • ·) (hv' n)).symm
  · intro hmin
    have h := hmin.2 (-(1 / (s + r)) • q) ⟨trivial, trivial⟩
    have hexp : ∀ v : E, r / 2 * ‖v‖ ^ 2 + (s / 2 * ‖v‖ ^ 2 + 1 * ⟪q, v⟫) = (s + r) / 2 * ‖v - (-(1 / (s + r)) • q)‖ ^ 2 - 1 / (2 * (s + r)) * ‖q‖ ^ 2 := by
      intro v
      rw [norm_sub_sq_real, real_inner_smul_right, norm_smul, mul_pow, Real.norm_eq_abs, sq_abs, real_inner_comm q v]
      field_simp
      ring
    simp only [XFun.add, XFun.ofReal, l2Spec, l2Plain, l2Lin, add_zero] at h
    rw [hexp, hexp, sub_self, norm_zero, ← sub_smul, norm_smul, mul_pow, Real.norm_eq_abs, sq_abs] at h
    have hqn : 0 < ‖q‖ ^ 2 := by have := norm_pos_iff.2 hq; positivity
    have hd : -((1 + τ * r) / (η * (s + r))) - -(1 / (s + r)) = (η - (1 + τ * r)) / (η * (s + r)) := by field_simp; ring
    rw [hd] at h
    have : 0 < ((η - (1 + τ * r)) / (η * (s + r))) ^ 2 := by
      have : (η - (1 + τ * r)) / (η * (s + r)) ≠ 0 := div_ne_zero (sub_ne_zero.2 hne) (by positivity)
      positivity
    have : 0 < (s + r) / 2 * (((η - (1 + τ * r)) / (η * (s + r))) ^ 2 * ‖q‖ ^ 2) := by positivity
    linarith

/-- C98, counterexample for `PPXA`: with `m` functions `s/2 ‖x‖² + q_i·x` (`L2` objects, equal weights, any starting points) whose linear terms do not cancel, the iterates are
unbounded (the sum is strongly convex). -/
theorem C98_ppxa_refuted {m : ℕ} [NeZero m] (ext : L2Ext E H C) {s τ η : ℝ} (hs : 0 < s) (hτ : 0 < τ) (hη : 0 < η) (q : Fin m → E) (hq : ∑ i, q i ≠ 0) (sf : Fin m → L2State E C)
    (y0 : Fin m → E) (mx : E → ℝ) (hmx : ∀ v, 0 ≤ mx v) :
    ∃ R : ℕ → (Fin m → L2State E C) × PPXAState E m, (∀ n, PPXAMut (fun i => L2.toMut ext (l2Lin (H := H) s (q i))) sf (fun _ => 1 / (m : ℝ)) y0 τ η n 0 mx = .ok (R n)) ∧
      ¬ ∃ M, ∀ n, ‖(R n).2.x‖ ≤ M := by
  have hm : m ≠ 0 := NeZero.ne m
  have hm0 : (0 : ℝ) < m := by exact_mod_cast Nat.pos_of_ne_zero hm
  have hw : (1 / (m : ℝ)) ≠ 0 := by positivity
  have hτw : 0 < τ / (1 / (m : ℝ)) := by positivity
  set κ := 1 / (1 + τ / (1 / (m : ℝ)) * s) with hκ
  have hκ0 : 0 < κ := by positivity
  set Q := ∑ i, q i with hQ
  have hmean : ∀ y : Fin m → E, (1 / (m : ℝ)) • ∑ i, (y i - (τ / (1 / (m : ℝ))) • q i) = (1 / (m : ℝ)) • ∑ i, y i - τ • Q := fun y => by
    rw [Finset.sum_sub_distrib, ← Finset.smul_sum, smul_sub, smul_smul]
    congr 2
    field_simp
  obtain ⟨T, T0, -, hR, hrun⟩ := forRange_traj_nobreak (PPXAMut.body (fun i => L2.toMut ext (l2Lin (H := H) s (q i))) (fun _ => 1 / (m : ℝ)) τ η 0 mx) (fun _ => True)
    (fun _ u u' => u'.2.x = u.2.x + η • (κ • ((1 / (m : ℝ)) • ∑ i, u.2.y i - τ • Q) - u.2.x) ∧
      (1 / (m : ℝ)) • ∑ i, u'.2.y i - u'.2.x = (1 / (m : ℝ)) • ∑ i, u.2.y i - u.2.x - τ • Q) (fun i u _ => by
      have hmap : mapPy (fun i => if (1 / (m : ℝ)) = 0 then (.error .nanResult : Py (L2State E C × E × E)) else
          (L2.toMut ext (l2Lin (H := H) s (q i))).proxPy (u.1 i) (u.2.y i) (τ / (1 / (m : ℝ)))) =
          .ok fun i => ({ u.1 i with count := (u.1 i).count + 1 }, κ • (u.2.y i - (τ / (1 / (m : ℝ))) • q i), u.2.y i - (τ / (1 / (m : ℝ))) • q i) :=
        mapPy_ok fun i => by rw [if_neg hw, l2Lin_proxPy ext hs.le (q i) _ _ hτw]
      have hpn : ∑ i, (1 / (m : ℝ)) • κ • (u.2.y i - (τ / (1 / (m : ℝ))) • q i) = κ • ((1 / (m : ℝ)) • ∑ i, u.2.y i - τ • Q) := by
        rw [← hmean, ← Finset.smul_sum, ← Finset.smul_sum, smul_comm]
      refine ⟨(fun i => { u.1 i with count := (u.1 i).count + 1 }, ⟨u.2.x + η • (κ • ((1 / (m : ℝ)) • ∑ i, u.2.y i - τ • Q) - u.2.x),
        u.2.x + η • (κ • ((1 / (m : ℝ)) • ∑ i, u.2.y i - τ • Q) - u.2.x),
        fun i => (u.2.y i - (τ / (1 / (m : ℝ))) • q i) + η • ((2 : ℝ) • κ • ((1 / (m : ℝ)) • ∑ i, u.2.y i - τ • Q) - u.2.x - κ • (u.2.y i - (τ / (1 / (m : ℝ))) • q i)),
        u.2.log ++ [u.2.x + η • (κ • ((1 / (m : ℝ)) • ∑ i, u.2.y i - τ • Q) - u.2.x)]⟩), ?_, trivial, rfl, ?_⟩
      · unfold PPXAMut.body
        rw [hmap]
        simp only [Bind.bind, Except.bind, Pure.pure, Except.pure, hpn, if_neg (not_lt.2 (hmx _))]
      · set p := κ • ((1 / (m : ℝ)) • ∑ i, u.2.y i - τ • Q) with hp
        show (1 / (m : ℝ)) • ∑ i, ((u.2.y i - (τ / (1 / (m : ℝ))) • q i) + η • ((2 : ℝ) • p - u.2.x - κ • (u.2.y i - (τ / (1 / (m : ℝ))) • q i))) - (u.2.x + η • (p - u.2.x)) = _
        have e1 : (1 / (m : ℝ)) • ∑ i, ((u.2.y i - (τ / (1 / (m : ℝ))) • q i) + η • ((2 : ℝ) • p - u.2.x - κ • (u.2.y i - (τ / (1 / (m : ℝ))) • q i))) =
            (1 / (m : ℝ)) • ∑ i, (u.2.y i - (τ / (1 / (m : ℝ))) • q i) + η • ((2 : ℝ) • p - u.2.x - κ • ((1 / (m : ℝ)) • ∑ i, (u.2.y i - (τ / (1 / (m : ℝ))) • q i))) := by
          rw [Finset.sum_add_distrib, smul_add, ← Finset.smul_sum, Finset.sum_sub_distrib (f := fun _ => (2 : ℝ) • p - u.2.x), ← Finset.smul_sum, Finset.sum_const,
            Finset.card_univ, Fintype.card_fin, smul_comm (1 / (m : ℝ)) η, smul_sub (1 / (m : ℝ)) (m • _), smul_comm (1 / (m : ℝ)) κ, ← Nat.cast_smul_eq_nsmul ℝ m, smul_smul (1 / (m : ℝ)) (m : ℝ),
            one_div_mul_cancel hm0.ne', one_smul]
        rw [e1, hmean, ← hp]
        module)
    (sf, ⟨(1 / (m : ℝ)) • ∑ i, y0 i, (1 / (m : ℝ)) • ∑ i, y0 i, y0, []⟩) trivial
  refine ⟨T, fun n => by rw [PPXAMut, if_neg hm]; exact hrun n, ?_⟩
  have hgap : ∀ n : ℕ, (1 / (m : ℝ)) • ∑ i, (T n).2.y i - (T n).2.x = -((n : ℝ) * τ) • Q := by
    intro n
    induction n with
    | zero => rw [T0]; simp
    | succ n ih => rw [(hR n).2, ih]; push_cast; module
  rintro ⟨M, hM⟩
  have hkey : ∀ n : ℕ, (η * κ * τ * (n + 1)) • Q = (1 + η * (κ - 1)) • (T n).2.x - (T (n + 1)).2.x := fun n => by
    have e : (1 / (m : ℝ)) • ∑ i, (T n).2.y i = (T n).2.x + -((n : ℝ) * τ) • Q := by rw [← hgap]; abel
    rw [(hR n).1, e]; module
  have hQn : 0 < ‖Q‖ := norm_pos_iff.2 hq
  have hM0 : 0 ≤ M := (norm_nonneg _).trans (hM 0)
  have hbound : ∀ n : ℕ, η * κ * τ * ‖Q‖ * (n + 1) ≤ |1 + η * (κ - 1)| * M + M := fun n => by
    have h1 : ‖(η * κ * τ * (n + 1)) • Q‖ ≤ |1 + η * (κ - 1)| * M + M := by
      rw [hkey]
      refine (norm_sub_le _ _).trans (add_le_add ?_ (hM _))
      rw [norm_smul, Real.norm_eq_abs]
      exact mul_le_mul_of_nonneg_left (hM n) (abs_nonneg _)
    rw [norm_smul, Real.norm_of_nonneg (by positivity)] at h1
    linarith
  obtain ⟨n, hn⟩ := exists_nat_gt ((|1 + η * (κ - 1)| * M + M) / (η * κ * τ * ‖Q‖))
  rw [div_lt_iff₀ (by positivity)] at hn
  have := hbound n
  have h3 : 0 < η * κ * τ * ‖Q‖ := by positivity
  nlinarith

/-- Concrete cases: pure operators are objects that compute themselves and leave their argument alone, and so are objects with a call counter and a constant parameter. -/
example (p : ProxOp E) : Computes p.toMut (fun _ => True) p ∧ LeavesArg p.toMut :=
  ⟨⟨fun _ _ _ _ => ⟨rfl, trivial⟩, fun _ _ _ => ⟨rfl, trivial⟩, fun _ _ _ => rfl⟩, fun _ _ _ => rfl⟩

/-- `L2(q=...)` computes, but does not leave its argument alone. -/
example (ext : L2Ext E H C) {s : ℝ} (hs : 0 ≤ s) {q : E} (hq : q ≠ 0) (st : L2State E C) :
    Computes (L2.toMut ext (l2Lin (H := H) s q)) (fun _ => True) (L2.obj ext (l2Lin (H := H) s q) st) ∧ ¬ LeavesArg (L2.toMut ext (l2Lin (H := H) s q)) := by
  refine ⟨l2mut_computes ext _ (by simp [l2Lin, l2Plain]) st, fun h => ?_⟩
  have := h st 0 1
  rw [l2Lin_prox ext hs q st 0 one_pos] at this
  simp at this
  exact hq this

end Refuted

end Verif
