import Verif.Model.MutCalculus
import Verif.Props.InPlace
import Verif.Props.Calculus
import Verif.Props.Invariance

/-! # C98, continued: the operator calculus on objects that write into their argument

`c * f` hands its argument on; `f + v`, `f.precomposition(a, b)` and `f.H` make a new array first and so protect the caller, which gives a way around
`C98_hqs_refuted`, `C98_dr_refuted` and `C98_ppxa_refuted`.  `pyproximal.utils.moreau` passes its argument to `prox` and uses it again: it rejects `L2(q=...)`, whose
`prox` and `proxdual` do satisfy the identity, and changes the array of its caller. -/

open scoped RealInnerProductSpace

set_option linter.unusedSectionVars false

namespace Verif

variable {E S SF SG : Type} [NormedAddCommGroup E] [InnerProductSpace ℝ E]
variable {f : MutOp S E} {Inv : S → Prop} {p : ProxOp E}

lemma pymap_bind {α β : Type} (x : Py α) (k : α → β) : (x >>= fun v => pure (k v)) = x.map k := by cases x <;> rfl

/-- `c * f` computes what `c *` the pure operator computes, and leaves its argument alone if `f` does. -/
theorem C98_postcomposition (h : Computes f Inv p) (c : ℝ) : Computes (f.post c) Inv (p.postOp c) ∧ (LeavesArg f → LeavesArg (f.post c)) := by
  refine ⟨⟨fun s hs x τ => ?_, fun s hs x => ?_, fun s hs x => ?_⟩, fun hl s x τ => ?_⟩
  · show (if τ ≤ 0 then (s, (.error .valueError : Py E), x) else f.prox s x (c * τ)).2.1 = checkTau τ (p.prox x (c * τ)) ∧
      Inv (if τ ≤ 0 then (s, (.error .valueError : Py E), x) else f.prox s x (c * τ)).1
    unfold checkTau
    split_ifs
    · exact ⟨rfl, hs⟩
    · exact h.prox s hs x _
  · obtain ⟨h1, h2⟩ := h.grad s hs x
    refine ⟨?_, h2⟩
    rw [postOp_grad, ← h1]; rfl
  · rw [postOp_call, ← h.call s hs x]
    exact pymap_bind _ _
  · show (if τ ≤ 0 then (s, (.error .valueError : Py E), x) else f.prox s x (c * τ)).2.2 = x
    split_ifs
    · rfl
    · exact hl s x _

/-- `f.precomposition(a, b)` computes what the pure one computes, and never changes its argument, whatever `f` does. -/
theorem C98_precomposition (h : Computes f Inv p) (a : ℝ) (b : E) : Computes (f.pre a b) Inv (p.preOp a b) ∧ LeavesArg (f.pre a b) := by
  refine ⟨⟨fun s hs x τ => ?_, fun s hs x => ?_, fun s hs x => ?_⟩, fun s x τ => ?_⟩
  · obtain ⟨h1, h2⟩ := h.prox s hs (a • x + b) (a ^ 2 * τ)
    by_cases hτ : τ ≤ 0
    · simp only [MutOp.pre, if_pos hτ]
      refine ⟨?_, hs⟩
      show _ = checkTau τ _
      rw [checkTau, if_pos hτ]
    · simp only [MutOp.pre, if_neg hτ, h1]
      refine ⟨?_, h2⟩
      rw [preOp_prox p a b (not_le.mp hτ)]; rfl
  · obtain ⟨h1, h2⟩ := h.grad s hs (a • x + b)
    refine ⟨?_, h2⟩
    rw [preOp_grad]
    show (f.grad s (a • x + b)).2.map (a • ·) = _
    rw [h1]; rfl
  · exact h.call s hs _
  · show (if τ ≤ 0 then (s, (.error .valueError : Py E), x) else _).2.2 = x
    split_ifs <;> rfl

/-- The same for `f + v`. -/
theorem C98_affine_addition (h : Computes f Inv p) (v : E) : Computes (f.sum v) Inv (p.sumOp v) ∧ LeavesArg (f.sum v) := by
  refine ⟨⟨fun s hs x τ => ?_, fun s hs x => ?_, fun s hs x => ?_⟩, fun s x τ => ?_⟩
  · obtain ⟨h1, h2⟩ := h.prox s hs (x - τ • v) τ
    show (if τ ≤ 0 then (s, (.error .valueError : Py E), x) else _).2.1 = checkTau τ (p.prox (x - τ • v) τ) ∧
      Inv (if τ ≤ 0 then (s, (.error .valueError : Py E), x) else _).1
    unfold checkTau
    split_ifs
    · exact ⟨rfl, hs⟩
    · exact ⟨h1, h2⟩
  · obtain ⟨h1, h2⟩ := h.grad s hs x
    refine ⟨?_, h2⟩
    show (f.grad s x).2.map (· + v) = (do pure ((← p.grad x) + v) : Py E)
    rw [h1, pymap_bind]
  · show (do pure (ProxOp.addCall (← f.call s x) (inner ℝ v x)) : Py CallVal) = (do pure (ProxOp.addCall (← p.call x) ⟪v, x⟫) : Py CallVal)
    rw [h.call s hs x]
  · show (if τ ≤ 0 then (s, (.error .valueError : Py E), x) else _).2.2 = x
    split_ifs <;> rfl

lemma mut_proxdual (h : Computes f Inv p) {m : E → ℝ → Py E} (hm : p.prox? = some m) (hd : p.proxdual? = none) {s : S} (hs : Inv s) (x : E) (τ : ℝ) :
    (f.proxdual s x τ).2.1 = p.proxdual x τ ∧ Inv (f.proxdual s x τ).1 ∧ (f.proxdual s x τ).2.2 = x := by
  have hp : ∀ y t, p.prox y t = m y t := fun y t => by simp only [ProxOp.prox, hm]
  have hpd : p.proxdual x τ = checkTau τ (ProxOp.moreauStep m x τ) := by
    simp only [ProxOp.proxdual, hd, hm]
  obtain ⟨h1, h2⟩ := h.prox s hs ((1 / τ) • x) (1 / τ)
  rw [hpd]
  by_cases hτ : τ ≤ 0
  · simp only [MutOp.proxdual, checkTau, if_pos hτ]
    exact ⟨trivial, hs, trivial⟩
  · simp only [MutOp.proxdual, checkTau, ProxOp.moreauStep, if_neg hτ, h1, hp]
    exact ⟨(pymap_bind _ _).symm, h2, trivial⟩

/-- The same for `f.H`, when `f` has a `prox` but no `proxdual` of its own. -/
theorem C98_adjoint (h : Computes f Inv p) {m : E → ℝ → Py E} (hm : p.prox? = some m) (hd : p.proxdual? = none) :
    Computes f.adjoint Inv p.adjoint ∧ LeavesArg f.adjoint := by
  refine ⟨⟨fun s hs x τ => ?_, fun s hs x => ?_, fun s hs x => h.call s hs x⟩, fun s x τ => ?_⟩
  · obtain ⟨h1, h2, -⟩ := mut_proxdual h hm hd hs x τ
    refine ⟨?_, h2⟩
    show (f.proxdual s x τ).2.1 = checkTau τ (p.proxdual x τ)
    rw [h1]
    simp only [checkTau, ProxOp.proxdual, hd]
    split_ifs <;> rfl
  · obtain ⟨h1, h2, h3⟩ := mut_proxdual h hm hd hs x 1
    refine ⟨?_, h2⟩
    show (f.proxdual s x 1).2.1.map (fun q => (1 / (1 : ℝ)) • ((f.proxdual s x 1).2.2 - q)) = (do
      let q ← checkTau 1 (p.proxdual x 1)
      pure ((1 / (1 : ℝ)) • (x - q)) : Py E)
    rw [h1, h3, checkTau, if_neg (by norm_num), pymap_bind]
  · show (f.proxdual s x τ).2.2 = x
    unfold MutOp.proxdual
    split_ifs <;> rfl

lemma preOp_one_prox (p : ProxOp E) {τ : ℝ} (hτ : 0 < τ) (x : E) : (p.preOp 1 0).prox x τ = p.prox x τ := by
  rw [preOp_prox p 1 0 hτ, subst, one_smul, add_zero, one_pow, one_mul]
  cases p.prox x τ with
  | error e => rfl
  | ok q => simp [Except.map]

variable {f : MutOp SF E} {g : MutOp SG E} {If : SF → Prop} {Ig : SG → Prop} {pf pg : ProxOp E}

/-- A way around `C98_hqs_refuted`: with every operator wrapped as `f.precomposition(1.0, 0.0)`, `HQS` returns what the pure operators give, whatever the objects do to their
arguments. -/
theorem C98_hqs_wrapped (hf : Computes f If pf) (hg : Computes g Ig pg) (sf : SF) (hsf : If sf) (sg : SG) (hsg : Ig sg) (x0 z0 : Option E) (tau : StepSpec)
    (hτ : ∀ i t, tau.at i = .ok t → 0 < t) (n : ℕ) (gfirst : Bool) :
    (HQSMut (f.pre 1 0) (g.pre 1 0) sf sg x0 z0 tau n gfirst).map (fun r => r.2.2) = HQS pf pg x0 z0 tau n gfirst := by
  obtain ⟨h1, h2⟩ := C98_precomposition hf 1 0
  obtain ⟨h3, h4⟩ := C98_precomposition hg 1 0
  rw [(C98_hqs_partial h1 h3 sf hsf sg hsg x0 z0 tau n gfirst (by cases gfirst; exacts [h4, h2])).1]
  have : HQS.body (pf.preOp 1 0) (pg.preOp 1 0) tau gfirst = HQS.body pf pg tau gfirst := by
    funext i s
    simp only [HQS.body]
    cases ht : tau.at i with
    | error e => rfl
    | ok t => simp only [Bind.bind, Except.bind, preOp_one_prox _ (hτ i t ht)]
  simp only [HQS, this]

/-- The same for Douglas-Rachford. -/
theorem C98_dr_wrapped (hf : Computes f If pf) (hg : Computes g Ig pg) (sf : SF) (hsf : If sf) (sg : SG) (hsg : Ig sg) (x0 : E) {τ : ℝ} (hτ : 0 < τ) (η : ℝ) (n : ℕ)
    (gfirst : Bool) :
    (DRMut (f.pre 1 0) (g.pre 1 0) sf sg x0 τ η n gfirst).map (fun r => r.2.2) = DouglasRachford pf pg x0 τ η n gfirst := by
  obtain ⟨h1, h2⟩ := C98_precomposition hf 1 0
  obtain ⟨h3, h4⟩ := C98_precomposition hg 1 0
  rw [(C98_dr_partial h1 h3 sf hsf sg hsg x0 τ η n gfirst (by cases gfirst; exacts [h2, h4])).1]
  have : DR.body (pf.preOp 1 0) (pg.preOp 1 0) τ η gfirst = DR.body pf pg τ η gfirst := by
    funext i s
    simp only [DR.body, preOp_one_prox _ hτ]
  simp only [DouglasRachford, this]

/-- `pyproximal.utils.moreau`, partial: on an object that leaves its argument alone, the answer is that of the pure operator and the caller's array is not changed.
Missing: `C98_moreau_refuted`. -/
theorem C98_moreau_partial {f : MutOp S E} (h : Computes f Inv p) (hl : LeavesArg f) {m : E → ℝ → Py E} (hm : p.prox? = some m) (hd : p.proxdual? = none) {s : S} (hs : Inv s)
    (x : E) (τ tol : ℝ) (raiseerror : Bool) :
    f.moreauTest s x τ tol raiseerror = (moreauTest p x τ tol raiseerror).map fun r => (r, x) := by
  unfold MutOp.moreauTest moreauTest
  rcases h.proxPy hs x τ with ⟨e, e1, e2⟩ | ⟨q, s', e1, e2, e3⟩
  · rw [e1, e2]; rfl
  · rw [hl] at e2
    rw [e1, e2]
    simp only [Bind.bind, Except.bind, (mut_proxdual h hm hd e3 _ _).1]
    cases p.proxdual ((1 / τ) • x) (1 / τ) with
    | error e => rfl
    | ok d =>
      simp only []
      split_ifs <;> rfl

section L2
variable {H C : Type} [NormedAddCommGroup H] [InnerProductSpace ℝ H]

/-- C98, counterexample for `pyproximal.utils.moreau`: for `f = L2(sigma=s, q=q)` without operator and data, `prox` and `proxdual` satisfy the Moreau identity (first part), but
the test fails for every point `x` and every tolerance below `tau ‖q‖/(1 + tau s)`, and it changes the caller's `x` to `x - tau q`. -/
theorem C98_moreau_refuted (ext : L2Ext E H C) {s τ tol : ℝ} (hs : 0 ≤ s) (hτ : 0 < τ) {q : E} (htol : tol < τ * ‖q‖ / (1 + τ * s)) (st : L2State E C) (x : E) :
    (∃ p d, ((L2.toMut ext (l2Lin (H := H) s q)).prox st x τ).2.1 = .ok p ∧ ((L2.toMut ext (l2Lin (H := H) s q)).proxdual st ((1 / τ) • x) (1 / τ)).2.1 = .ok d ∧
      x = p + τ • d) ∧
    (L2.toMut ext (l2Lin (H := H) s q)).moreauTest st x τ tol true = .error .valueError ∧
      (L2.toMut ext (l2Lin (H := H) s q)).moreauTest st x τ tol false = .ok (false, x - τ • q) := by
  have h1s : 0 < 1 + τ * s := by positivity
  have hdual : ∀ (st : L2State E C) (y : E), ((L2.toMut ext (l2Lin (H := H) s q)).proxdual st ((1 / τ) • y) (1 / τ)).2.1 =
      .ok ((1 / τ) • y - (1 / τ) • ((1 / (1 + τ * s)) • (y - τ • q))) := by
    intro st y
    have h2 : ¬ (1 / τ ≤ 0) := not_le.mpr (one_div_pos.mpr hτ)
    simp only [MutOp.proxdual, if_neg h2, one_div_one_div]
    rw [l2Lin_prox ext hs q st _ hτ, smul_smul, mul_one_div_cancel hτ.ne', one_smul]
    rfl
  have hgap : ∀ y : E, ‖y - ((1 / (1 + τ * s)) • y + τ • ((1 / τ) • y - (1 / τ) • ((1 / (1 + τ * s)) • (y - τ • q))))‖ = τ * ‖q‖ / (1 + τ * s) := by
    intro y
    have : y - ((1 / (1 + τ * s)) • y + τ • ((1 / τ) • y - (1 / τ) • ((1 / (1 + τ * s)) • (y - τ • q)))) = (-(τ / (1 + τ * s))) • q := by
      rw [smul_sub, smul_smul, smul_smul, mul_one_div_cancel hτ.ne', one_smul, one_smul]
      module
    rw [this, norm_smul, norm_neg, Real.norm_of_nonneg (by positivity)]
    ring
  refine ⟨⟨_, _, by rw [l2Lin_prox ext hs q st x hτ], hdual st x, ?_⟩, ?_, ?_⟩
  · generalize (1 / (1 + τ * s)) • (x - τ • q) = w
    rw [smul_sub, smul_smul, smul_smul, mul_one_div_cancel hτ.ne', one_smul, one_smul]
    abel
  · simp only [MutOp.moreauTest, l2Lin_proxPy ext hs q st x hτ, Bind.bind, Except.bind, hdual, hgap, if_neg (not_le.mpr htol), if_true]
  · simp only [MutOp.moreauTest, l2Lin_proxPy ext hs q st x hτ, Bind.bind, Except.bind, hdual, hgap, if_neg (not_le.mpr htol), Bool.false_eq_true, if_false]
    rfl

/-- `c * f` hands its argument on: with `f = L2(sigma=s, q=q)` it changes the caller's array. -/
theorem C98_postcomposition_refuted (ext : L2Ext E H C) {s c τ : ℝ} (hs : 0 ≤ s) (hc : 0 < c) (hτ : 0 < τ) {q : E} (hq : q ≠ 0) (st : L2State E C) (x : E) :
    (((L2.toMut ext (l2Lin (H := H) s q)).post c).prox st x τ).2.2 = x - (c * τ) • q ∧ x - (c * τ) • q ≠ x := by
  refine ⟨?_, ?_⟩
  · simp only [MutOp.post, if_neg (not_le.mpr hτ), l2Lin_prox ext hs q st x (mul_pos hc hτ)]
  · rw [Ne, sub_eq_self]; exact smul_ne_zero (mul_pos hc hτ).ne' hq

/-- The tolerance of the statement is positive for `q ≠ 0`: with `s = 1`, `tau = 1`, every tolerance up to `‖q‖/2`, so also the default `1e-10`. -/
example (ext : L2Ext E H C) {q : E} (hq : 1 ≤ ‖q‖) (st : L2State E C) (x : E) :
    (L2.toMut ext (l2Lin (H := H) 1 q)).moreauTest st x 1 (1 / 10 ^ 10) true = .error .valueError :=
  (C98_moreau_refuted ext zero_le_one one_pos (by norm_num at hq ⊢; linarith) st x).2.1

/-- Douglas-Rachford on the operators of `C98_dr_refuted`, wrapped: the run is that of the pure operators. -/
example (ext : L2Ext E H C) (s r : ℝ) (q : E) (sf sg : L2State E C) (x0 : E) (n : ℕ) :
    (DRMut ((L2.toMut ext (l2Plain (F' := H) .nothing r)).pre 1 0) ((L2.toMut ext (l2Lin (H := H) s q)).pre 1 0) sf sg x0 2 1 n true).map (fun r => r.2.2) =
      DouglasRachford (L2.obj ext (l2Plain (F' := H) .nothing r) sf) (L2.obj ext (l2Lin (H := H) s q) sg) x0 2 1 n true :=
  C98_dr_wrapped (l2mut_computes ext _ (fun Op e b h => by simp [l2Plain] at h) sf) (l2mut_computes ext _ (fun Op e b h => by simp [l2Lin, l2Plain] at h) sg) sf trivial sg
    trivial x0 two_pos 1 n true

end L2

end Verif
