import Verif.Model.Dykstra
import Verif.Model.L2
import Verif.Model.NonConvex
import Verif.Model.Nuclear
import Verif.Model.ProjOps
import Verif.Model.Proximal
import Verif.Model.Stack
import Verif.Lemmas.Calculus
import Verif.Spec.Contract

/-! # C01: the step is checked before anything else -/

open scoped RealInnerProductSpace

namespace Verif

variable {E F C : Type} [NormedAddCommGroup E] [InnerProductSpace ℝ E] [NormedAddCommGroup F] [InnerProductSpace ℝ F] {ι κ ρ : Type} [Fintype ι] [Fintype κ] [Fintype ρ]

/-- Specification: with a positive step `prox` and `proxdual` return a vector. -/
def AcceptsGoodTau (f : ProxOp E) : Prop := ∀ (x : E) (τ : ℝ), 0 < τ → (∃ y, f.prox x τ = .ok y) ∧ ∃ y, f.proxdual x τ = .ok y

/-- Specification: an operator that a constructor returns (if it does not raise) has the property `P`. -/
def Returned {α : Type} (r : Py α) (P : α → Prop) : Prop := ∀ f, r = .ok f → P f

/-- Closes a goal `RejectsBadTau X` for a class whose methods are guarded. -/
local macro "guarded" : tactic => `(tactic|
  (refine rejects_of_guarded _ (fun m hm x τ hτ => ?_) (fun m hm x τ hτ => ?_) <;> first
    | (cases hm; done)
    | (cases hm; exact checkTau_nonpos hτ _)))

/-- C01 for the convex functions with a closed-form prox. -/
theorem C01_norms (σ σ' ρ' α : ℝ) (s : κ → ℝ) (g : Option (Vec ι)) (g' : Option (Vec (ι × κ))) :
    RejectsBadTau (L1 σ g) ∧ RejectsBadTau (L1cols s g') ∧ RejectsBadTau (Euclidean σ : ProxOp E) ∧ RejectsBadTau (L21 σ : ProxOp (Vec (ι × κ)))
      ∧ RejectsBadTau (L21plusL1 σ' ρ' : ProxOp (Vec (ι × κ))) ∧ RejectsBadTau (HuberCircular α : ProxOp E) ∧ RejectsBadTau (Huber α : ProxOp (Vec ι)) := by
  refine ⟨?_, ?_, ?_, ?_, ?_, ?_, ?_⟩ <;> guarded

/-- C01 for the indicator functions. -/
theorem C01_indicators (lo up : ι → Bound) (w c : E) (b r tol : ℝ) (bis : (ℝ → ℝ) → ℝ → ℝ → ℝ) (fuel n : ℕ) (as : Vec ι → List ι) (as' : (κ → ℝ) → List κ)
    (cg : (Vec κ → Vec κ) → Vec κ → Vec κ) (Op : LinOp E (Vec κ)) (d : Vec κ) {p q : ℕ} {m : ℕ} (P : Fin m → E → Py E) (par : Bool) (mx : E → ℝ) :
    RejectsBadTau (Box lo up) ∧ RejectsBadTau (HalfSpace w b) ∧ RejectsBadTau (EuclideanBall c r) ∧ RejectsBadTau (L1Ball bis fuel r tol : ProxOp (Vec ι))
      ∧ RejectsBadTau (L0Ball as n) ∧ RejectsBadTau (L10Ball as' n : ProxOp (Vec (ι × κ))) ∧ RejectsBadTau (AffineSet cg Op d) ∧ RejectsBadTau (Hankel : ProxOp (Vec (Fin p × Fin q)))
      ∧ RejectsBadTau (GenericIntersectionProx P n tol par mx) := by
  refine ⟨?_, ?_, ?_, ?_, ?_, ?_, ?_, ?_, ?_⟩ <;> guarded

/-- C01 for the non-convex penalties. -/
theorem C01_nonconvex (σ k μ : ℝ) (lambertw : ℝ → ℝ) (a γ : ℝ) :
    RejectsBadTau (L0 σ : ProxOp (Vec ι)) ∧ RejectsBadTau (QuadraticEnvelopeCard μ : ProxOp (Vec ι)) ∧ RejectsBadTau (RelaxedMS σ k : ProxOp (Vec ι))
      ∧ Returned (SCAD (ι := ι) σ a) RejectsBadTau ∧ Returned (Log (ι := ι) σ γ) RejectsBadTau ∧ Returned (Log1 (ι := ι) σ γ) RejectsBadTau
      ∧ Returned (ETP (ι := ι) lambertw σ γ) RejectsBadTau ∧ Returned (Geman (ι := ι) σ γ) RejectsBadTau := by
  refine ⟨?_, ?_, ?_, ?_, ?_, ?_, ?_, ?_⟩
  · guarded
  · guarded
  · guarded
  · intro f h
    unfold SCAD at h
    repeat' split at h
    all_goals first | (cases h; done) | (cases h; guarded)
  · intro f h
    unfold Log at h
    repeat' split at h
    all_goals first | (cases h; done) | (cases h; guarded)
  · intro f h
    unfold Log1 at h
    repeat' split at h
    all_goals first | (cases h; done) | (cases h; guarded)
  · intro f h
    unfold ETP at h
    repeat' split at h
    all_goals first | (cases h; done) | (cases h; guarded)
  · intro f h
    unfold Geman at h
    repeat' split at h
    all_goals first | (cases h; done) | (cases h; guarded)

/-- C01 for the operators on matrices. -/
theorem C01_matrices (svd : Vec (ι × κ) → SVD ι κ ρ) (eig : Vec (ι × κ) → κ → ℝ) (nuc : Vec (ι × κ) → ℝ) (σ r tol : ℝ) (bis : (ℝ → ℝ) → ℝ → ℝ → ℝ) (fuel : ℕ)
    (pc : Vec κ → Py CallVal) (pen : ProxOp (Vec ρ)) :
    RejectsBadTau (Nuclear svd eig σ) ∧ RejectsBadTau (NuclearBall svd nuc bis fuel r tol) ∧ RejectsBadTau (SingularValuePenalty svd eig pc pen) := by
  refine ⟨?_, ?_, ?_⟩ <;> guarded

/-- C01 for the classes with state: the answer is `ValueError`, and nothing but the call counter of `L2` changes. -/
theorem C01_stateful (ext : L2Ext E F C) (a : L2Args E F) (s : L2State E C) (qe : QuadExt E) (d : QuadData E) (niter : ℕ) (warm : Bool) (x0 : Option E) {m : ℕ} (c : SumCfg E m)
    (mx : E → ℝ) (ss : SumState) (x : E) (τ : ℝ) (hτ : τ ≤ 0) :
    L2.prox ext a s x τ = ({ s with count := s.count + 1 }, .error .valueError, x) ∧ Quadratic.prox qe d niter warm x0 x τ = (x0, .error .valueError)
      ∧ Sum.prox c mx ss x τ = (.error .valueError, ss) := by
  simp [L2.prox, Quadratic.prox, Sum.prox, hτ]

/-- C01 for `VStack`: rejected whatever the blocks are. -/
theorem C01_vstack (ops : List ListOp) (b : StackBy) (x : List ℝ) (τ : ℝ) (hτ : τ ≤ 0) : VStack.prox ops b x τ = .error .valueError := checkTau_nonpos hτ _

/-- Specification: expressions with operators.  `leaf` is a class of the library or of a user. -/
inductive OpExpr (E : Type) [NormedAddCommGroup E] [InnerProductSpace ℝ E]
  | leaf (f : ProxOp E)
  | add (e : OpExpr E) (v : E)
  | scale (σ : ℝ) (e : OpExpr E)
  | pre (e : OpExpr E) (a : ℝ) (b : E)
  | chain (e e' : OpExpr E)
  | adj (e : OpExpr E)

namespace OpExpr

/-- The object the expression evaluates to (`f + v`, `σ * f`, `f.precomposition(a, b)`, `f * g`, `f.H`). -/
noncomputable def eval : OpExpr E → ProxOp E
  | leaf f => f
  | add e v => e.eval.sumOp v
  | scale σ e => e.eval.postOp σ
  | pre e a b => e.eval.preOp a b
  | chain e e' => e.eval.chainOp e'.eval
  | adj e => e.eval.adjoint

/-- All leaves have the property `P`. -/
def Leaves (P : ProxOp E → Prop) : OpExpr E → Prop
  | leaf f => P f
  | add e _ => e.Leaves P
  | scale _ e => e.Leaves P
  | pre e _ _ => e.Leaves P
  | chain e e' => e.Leaves P ∧ e'.Leaves P
  | adj e => e.Leaves P

/-- All scalings are positive, all precompositions invertible. -/
def Admissible : OpExpr E → Prop
  | leaf _ => True
  | add e _ => e.Admissible
  | scale σ e => 0 < σ ∧ e.Admissible
  | pre e a _ => a ≠ 0 ∧ e.Admissible
  | chain e e' => e.Admissible ∧ e'.Admissible
  | adj e => e.Admissible

end OpExpr

/-- C01 for expressions of any depth: a non-positive step is rejected. -/
theorem C01_derived (e : OpExpr E) (h : e.Leaves RejectsBadTau) : RejectsBadTau e.eval := by
  cases e with
  | leaf f => exact h
  | add e v => guarded
  | scale σ e => guarded
  | pre e a b => guarded
  | chain e e' => guarded
  | adj e => guarded

lemma accepts_dual {f : ProxOp E} (hd : f.proxdual? = none) (hs : f.prox? ≠ none) (h : ∀ (x : E) (τ : ℝ), 0 < τ → ∃ y, f.prox x τ = .ok y) : AcceptsGoodTau f := by
  intro x τ hτ
  refine ⟨h x τ hτ, ?_⟩
  obtain ⟨m, hm⟩ := Option.ne_none_iff_exists'.1 hs
  obtain ⟨y, hy⟩ := h ((1 / τ) • x) (1 / τ) (one_div_pos.2 hτ)
  rw [prox_of_some hm] at hy
  refine ⟨x - τ • y, ?_⟩
  unfold ProxOp.proxdual
  rw [hd]
  simp only [hm, checkTau_pos hτ, ProxOp.moreauStep, hy]
  rfl

/-- C01 for expressions of any depth: a positive step is never rejected, when the leaves accept it. -/
theorem C01_derived_accepts (e : OpExpr E) (ha : e.Admissible) (h : e.Leaves AcceptsGoodTau) : AcceptsGoodTau e.eval := by
  induction e with
  | leaf f => exact h
  | add e v ih =>
    refine accepts_dual rfl (by simp [OpExpr.eval, ProxOp.sumOp]) fun x τ hτ => ?_
    obtain ⟨y, hy⟩ := (ih ha h (x - τ • v) τ hτ).1
    exact ⟨y, by rw [← hy]; exact checkTau_pos hτ _⟩
  | scale σ e ih =>
    refine accepts_dual rfl (by simp [OpExpr.eval, ProxOp.postOp]) fun x τ hτ => ?_
    obtain ⟨y, hy⟩ := (ih ha.2 h x (σ * τ) (mul_pos ha.1 hτ)).1
    exact ⟨y, by rw [← hy]; exact checkTau_pos hτ _⟩
  | pre e a b ih =>
    refine accepts_dual rfl (by simp [OpExpr.eval, ProxOp.preOp]) fun x τ hτ => ?_
    have h0 : a ≠ 0 := ha.1
    obtain ⟨y, hy⟩ := (ih ha.2 h (a • x + b) (a ^ 2 * τ) (by positivity)).1
    exact ⟨(1 / a) • (y - b), by
      show checkTau τ _ = _
      rw [checkTau_pos hτ, hy]; rfl⟩
  | chain e e' ih ih' =>
    refine accepts_dual rfl (by simp [OpExpr.eval, ProxOp.chainOp]) fun x τ hτ => ?_
    obtain ⟨y, hy⟩ := (ih ha.1 h.1 x τ hτ).1
    obtain ⟨z, hz⟩ := (ih' ha.2 h.2 y τ hτ).1
    exact ⟨z, by
      show checkTau τ _ = _
      rw [checkTau_pos hτ, hy]; exact hz⟩
  | adj e ih =>
    intro x τ hτ
    obtain ⟨⟨y, hy⟩, z, hz⟩ := ih ha h x τ hτ
    exact ⟨⟨z, by rw [← hz]; exact checkTau_pos hτ _⟩, ⟨y, by rw [← hy]; exact checkTau_pos hτ _⟩⟩

lemma l1_accepts (σ : ℝ) (g : Option (Vec ι)) : AcceptsGoodTau (L1 σ g) := by
  intro x τ hτ
  refine ⟨⟨_, checkTau_pos hτ _⟩, ?_⟩
  cases g with
  | none => exact ⟨_, checkTau_pos hτ _⟩
  | some g =>
    refine ⟨x - τ • (softthreshold ((1 / τ) • x - g) (fun _ => 1 / τ * σ) + g), ?_⟩
    show checkTau τ (ProxOp.moreauStep _ x τ) = _
    rw [checkTau_pos hτ, ProxOp.moreauStep, checkTau_pos hτ, checkTau_pos (one_div_pos.2 hτ)]
    rfl

/-- C01: the classes whose methods always return a vector for a positive step. -/
theorem C01_classes_accept (σ σ' α μ k : ℝ) (s : κ → ℝ) (g : Option (Vec ι)) (g' : Option (Vec (ι × κ))) (lo up : ι → Bound) (n : ℕ) (as : Vec ι → List ι)
    (as' : (κ → ℝ) → List κ) (svd : Vec (ι × κ) → SVD ι κ ρ) (eig : Vec (ι × κ) → κ → ℝ) (cg : (Vec κ → Vec κ) → Vec κ → Vec κ) (Op : LinOp E (Vec κ)) (d : Vec κ) {p q : ℕ}
    (hσ : σ' ≠ 0) (_hα : 0 < α) :
    AcceptsGoodTau (L1 σ g) ∧ AcceptsGoodTau (L1cols s g') ∧ AcceptsGoodTau (Huber α : ProxOp (Vec ι)) ∧ AcceptsGoodTau (Box lo up)
      ∧ AcceptsGoodTau (L0 σ : ProxOp (Vec ι)) ∧ AcceptsGoodTau (QuadraticEnvelopeCard μ : ProxOp (Vec ι)) ∧ AcceptsGoodTau (RelaxedMS σ' k : ProxOp (Vec ι))
      ∧ AcceptsGoodTau (L0Ball as n) ∧ AcceptsGoodTau (L10Ball as' n : ProxOp (Vec (ι × κ))) ∧ AcceptsGoodTau (Nuclear svd eig σ) ∧ AcceptsGoodTau (AffineSet cg Op d)
      ∧ AcceptsGoodTau (Hankel : ProxOp (Vec (Fin p × Fin q))) := by
  refine ⟨l1_accepts σ g, ?_, ?_, ?_, ?_, ?_, ?_, ?_, ?_, ?_, ?_, ?_⟩
  · intro x τ hτ
    refine ⟨⟨_, checkTau_pos hτ _⟩, ?_⟩
    cases g' with
    | none => exact ⟨_, checkTau_pos hτ _⟩
    | some g =>
      refine ⟨?_, ?_⟩
      rotate_left
      · show checkTau τ (ProxOp.moreauStep _ x τ) = _
        rw [checkTau_pos hτ, ProxOp.moreauStep, checkTau_pos hτ, checkTau_pos (one_div_pos.2 hτ)]
        rfl
  on_goal 5 => exact accepts_dual rfl (fun h => nomatch h) fun x τ hτ => ⟨_, (checkTau_pos hτ _).trans (if_neg hσ)⟩
  all_goals exact accepts_dual rfl (fun h => nomatch h) fun x τ hτ => ⟨_, checkTau_pos hτ _⟩

/-- C01 for a step per entry (`tau` an array): one non-positive entry is enough for a rejection, and with positive entries the guard lets the call through. -/
theorem C01_array {α ι : Type} (τ : ι → ℝ) (k : Py α) :
    ((∃ i, τ i ≤ 0) → checkTauArr τ k = .error .valueError) ∧ ((∀ i, 0 < τ i) → checkTauArr τ k = k) := by
  refine ⟨fun h => by simp [checkTauArr, h], fun h => ?_⟩
  rw [checkTauArr, if_neg]
  rintro ⟨i, hi⟩
  exact absurd hi (not_le.2 (h i))

/-- The guard reads the step by position: a step passed by keyword raises `IndexError`, whatever its sign. -/
theorem C01_keyword {α : Type} (τ : ℝ) (k : Py α) : checkTauCall false τ k = .error .indexError ∧ checkTauCall true τ k = checkTau τ k := ⟨rfl, rfl⟩

/-- A derived operator of depth three that meets the hypotheses of both theorems. -/
example (v b : Vec ι) : RejectsBadTau (((((L1 2 none : ProxOp (Vec ι)).sumOp v).postOp 3).preOp (-2) b).adjoint)
    ∧ AcceptsGoodTau (((((L1 2 none : ProxOp (Vec ι)).sumOp v).postOp 3).preOp (-2) b).adjoint) := by
  have h1 : RejectsBadTau (L1 2 none : ProxOp (Vec ι)) := (C01_norms (E := Vec ι) (κ := ι) 2 0 0 0 0 none none).1
  have h2 : AcceptsGoodTau (L1 2 none : ProxOp (Vec ι)) := l1_accepts 2 none
  exact ⟨C01_derived (.adj (.pre (.scale 3 (.add (.leaf (L1 2 none)) v)) (-2) b)) h1,
    C01_derived_accepts (.adj (.pre (.scale 3 (.add (.leaf (L1 2 none)) v)) (-2) b)) ⟨by norm_num, by norm_num, trivial⟩ h2⟩

end Verif
