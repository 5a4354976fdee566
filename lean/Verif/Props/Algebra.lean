import Verif.Spec.Contract
import Verif.Model.Proximal
import Verif.Model.MutCalculus

/-!
# C118: nested constructions can be merged and reordered

`f + v`, `sigma * f`, `f.precomposition(a, b)`, `f.chain(g)`, `f.H` return new operators on which the same methods can be used.  An equation between two `Py (ProxOp E)` says
that the two ways of writing an operator both raise the same exception or give operators with the same `__call__`, `prox`, `proxdual`, `grad` (on every array and every
step, including the exceptions) and the same `hasgrad`; every solver then returns the same.
-/

namespace Verif

open scoped RealInnerProductSpace
open ProxOp

variable {E S : Type} [NormedAddCommGroup E] [InnerProductSpace ℝ E]

/-! ## Merging -/

omit [NormedAddCommGroup E] [InnerProductSpace ℝ E] in
lemma proxOp_ext {f g : ProxOp E} (h1 : ∀ x, f.call x = g.call x) (h2 : f.prox? = g.prox?) (h3 : f.proxdual? = g.proxdual?) (h4 : f.grad? = g.grad?) (h5 : f.hasgrad = g.hasgrad)
    (h6 : f.sigmame = g.sigmame) : f = g := by
  cases f; cases g
  simp only [ProxOp.mk.injEq]
  exact ⟨funext h1, h2, h3, h4, h5, h6⟩

lemma checkTau_scale {α : Type} {σ : ℝ} (hσ : 0 < σ) (τ : ℝ) (k : Py α) : checkTau τ (checkTau (σ * τ) k) = checkTau τ k := by
  unfold checkTau
  by_cases h : τ ≤ 0
  · rw [if_pos h, if_pos h]
  · rw [if_neg h, if_neg h, if_neg (not_le.2 (mul_pos hσ (not_le.1 h)))]

lemma checkTau_idem {α : Type} (τ : ℝ) (k : Py α) : checkTau τ (checkTau τ k) = checkTau τ k := by
  have := checkTau_scale one_pos τ k
  rwa [one_mul] at this

lemma py_map_map {α β γ : Type} (m : Py α) (g : α → β) (h : β → γ) : (do let b ← (do let a ← m; pure (g a)); pure (h b) : Py γ) = (do let a ← m; pure (h (g a))) := by
  cases m <;> rfl

lemma sumOp_sumOp (f : ProxOp E) (v w : E) : (f.sumOp v).sumOp w = f.sumOp (v + w) := by
  refine proxOp_ext (fun x => ?_) ?_ rfl ?_ rfl rfl
  · simp only [sumOp]
    rw [py_map_map]
    cases f.call x <;> simp [addCall, inner_add_left, CallVal.toReal, add_assoc]
  · simp only [sumOp, Option.some.injEq]
    funext x τ
    rw [ProxOp.prox]
    simp only
    rw [checkTau_idem, sub_sub, ← smul_add, add_comm w v]
  · simp only [sumOp, Option.some.injEq]
    funext x
    rw [ProxOp.grad]
    simp only
    rw [py_map_map]
    simp only [add_assoc]

lemma postOp_postOp (f : ProxOp E) {σ : ℝ} (hσ : 0 < σ) (ρ : ℝ) : (f.postOp ρ).postOp σ = f.postOp (σ * ρ) := by
  refine proxOp_ext (fun x => ?_) ?_ rfl ?_ rfl rfl
  · simp only [postOp]
    rw [py_map_map]
    simp only [CallVal.toReal, mul_assoc]
  · simp only [postOp, Option.some.injEq]
    funext x τ
    rw [ProxOp.prox]
    simp only
    rw [checkTau_scale hσ, show ρ * (σ * τ) = σ * ρ * τ by ring]
  · simp only [postOp, Option.some.injEq]
    funext x
    rw [ProxOp.grad]
    simp only
    rw [py_map_map]
    simp only [smul_smul]

lemma postOp_sumOp (f : ProxOp E) {σ : ℝ} (hσ : 0 < σ) (v : E) : (f.sumOp v).postOp σ = (f.postOp σ).sumOp (σ • v) := by
  refine proxOp_ext (fun x => ?_) ?_ rfl ?_ rfl rfl
  · simp only [postOp, sumOp]
    rw [py_map_map, py_map_map]
    simp only [CallVal.toReal, addCall, real_inner_smul_left, mul_add]
  · simp only [postOp, sumOp, Option.some.injEq]
    funext x τ
    rw [ProxOp.prox, ProxOp.prox]
    simp only
    rw [checkTau_scale hσ, checkTau_idem, smul_smul, mul_comm τ σ]
  · simp only [postOp, sumOp, Option.some.injEq]
    funext x
    rw [ProxOp.grad, ProxOp.grad]
    simp only
    rw [py_map_map, py_map_map]
    simp only [smul_add]

lemma preOp_preOp (f : ProxOp E) (a : ℝ) (b : E) {c : ℝ} (ha : a ≠ 0) (hc : c ≠ 0) (d : E) : (f.preOp a b).preOp c d = f.preOp (a * c) (a • d + b) := by
  have e : ∀ x : E, a • (c • x + d) + b = (a * c) • x + (a • d + b) := fun x => by rw [smul_add, smul_smul]; abel
  refine proxOp_ext (fun x => ?_) ?_ rfl ?_ rfl rfl
  · simp only [preOp, e]
  · simp only [preOp, Option.some.injEq]
    funext x τ
    rw [ProxOp.prox]
    simp only
    have hc2 : 0 < c ^ 2 := by positivity
    unfold checkTau
    by_cases h : τ ≤ 0
    · rw [if_pos h, if_pos h]
    · rw [if_neg h, if_neg h, if_neg (not_le.2 (mul_pos hc2 (not_le.1 h))), py_map_map, e, show a ^ 2 * (c ^ 2 * τ) = (a * c) ^ 2 * τ by ring]
      refine congrArg _ (funext fun p => ?_)
      rw [show p - (a • d + b) = (p - b) - a • d by abel, smul_sub _ (p - b), smul_smul, one_div_mul_eq_div, smul_sub, smul_smul]
      congr 3
      · field_simp
      · field_simp
  · simp only [preOp, Option.some.injEq]
    funext x
    rw [ProxOp.grad]
    simp only
    rw [py_map_map]
    simp only [e, smul_smul, mul_comm c a]

lemma postOp_preOp (f : ProxOp E) {σ a : ℝ} (hσ : 0 < σ) (ha : a ≠ 0) (b : E) : (f.preOp a b).postOp σ = (f.postOp σ).preOp a b := by
  refine proxOp_ext (fun x => ?_) ?_ rfl ?_ rfl rfl
  · rfl
  · simp only [postOp, preOp, Option.some.injEq]
    funext x τ
    rw [ProxOp.prox, ProxOp.prox]
    simp only
    have ha2 : 0 < a ^ 2 := by positivity
    rw [checkTau_scale hσ]
    unfold checkTau
    by_cases h : τ ≤ 0
    · rw [if_pos h, if_pos h]
    · rw [if_neg h, if_neg h, if_neg (not_le.2 (mul_pos ha2 (not_le.1 h))), show a ^ 2 * (σ * τ) = σ * (a ^ 2 * τ) by ring]
  · simp only [postOp, preOp, Option.some.injEq]
    funext x
    rw [ProxOp.grad, ProxOp.grad]
    simp only
    rw [py_map_map, py_map_map]
    simp only [smul_smul, mul_comm σ a]

/-- **C118** `(f + v) + w` is `f + (v + w)`. -/
theorem C118_add_add (f : ProxOp E) (v w : E) :
    (do (← f.affineAddition (.array v)).affineAddition (.array w) : Py (ProxOp E)) = f.affineAddition (.array (v + w)) :=
  congrArg Except.ok (sumOp_sumOp f v w)

/-- **C118** `(f - v) - w` is `f - (v + w)`. -/
theorem C118_sub_sub (f : ProxOp E) (v w : E) : (do (← f.subOp (.array v)).subOp (.array w) : Py (ProxOp E)) = f.subOp (.array (v + w)) := by
  refine congrArg Except.ok ((sumOp_sumOp f (-v) (-w)).trans ?_)
  rw [neg_add]

/-- **C118** `sigma * (rho * f)` is `(sigma rho) * f` for `sigma > 0` and any `rho`. -/
theorem C118_mul_mul (f : ProxOp E) {σ : ℝ} (hσ : 0 < σ) (ρ : ℝ) :
    (do (← f.rmul (.float ρ)).rmul (.float σ) : Py (ProxOp E)) = f.rmul (.float (σ * ρ)) :=
  congrArg Except.ok (postOp_postOp f hσ ρ)

/-- **C118** `sigma * (f + v)` is `sigma * f + sigma v`. -/
theorem C118_mul_add (f : ProxOp E) {σ : ℝ} (hσ : 0 < σ) (v : E) :
    (do (← f.affineAddition (.array v)).rmul (.float σ) : Py (ProxOp E)) = (do (← f.rmul (.float σ)).affineAddition (.array (σ • v))) :=
  congrArg Except.ok (postOp_sumOp f hσ v)

/-- **C118** precomposing twice: `f(a (c x + d) + b)` is `f((a c) x + (a d + b))`. -/
theorem C118_pre_pre (const : ℝ → E) (f : ProxOp E) {a c : ℝ} (ha : a ≠ 0) (hc : c ≠ 0) (b d : E) :
    (do precomposition const (← precomposition const f (.float a) (.array b)) (.float c) (.array d) : Py (ProxOp E)) =
      precomposition const f (.float (a * c)) (.array (a • d + b)) :=
  congrArg Except.ok (preOp_preOp f a b ha hc d)

/-- **C118** scaling and precomposition can be exchanged. -/
theorem C118_mul_pre (const : ℝ → E) (f : ProxOp E) {σ a : ℝ} (hσ : 0 < σ) (ha : a ≠ 0) (b : E) :
    (do (← precomposition const f (.float a) (.array b)).rmul (.float σ) : Py (ProxOp E)) = (do precomposition const (← f.rmul (.float σ)) (.float a) (.array b)) :=
  congrArg Except.ok (postOp_preOp f hσ ha b)

/-- **C118** precomposing `f + v`: `prox`, `proxdual` and `grad` are those of `f(a x + b) + (a v)`; the values differ by the constant `<v, b>`. -/
theorem C118_pre_add (const : ℝ → E) (f : ProxOp E) {a : ℝ} (ha : a ≠ 0) (b v : E) {g h : ProxOp E}
    (hg : (do precomposition const (← f.affineAddition (.array v)) (.float a) (.array b)) = .ok g)
    (hh : (do (← precomposition const f (.float a) (.array b)).affineAddition (.array (a • v))) = .ok h) :
    (∀ x τ, g.prox x τ = h.prox x τ) ∧ (∀ x τ, g.proxdual x τ = h.proxdual x τ) ∧ (∀ x, g.grad x = h.grad x) ∧
      ∀ x c, f.call (a • x + b) = .ok c → ∃ r s : ℝ, g.call x = .ok (.num r) ∧ h.call x = .ok (.num s) ∧ r = s + ⟪v, b⟫ := by
  have e1 : g = (f.sumOp v).preOp a b := by
    have : (.ok ((f.sumOp v).preOp a b) : Py (ProxOp E)) = .ok g := hg
    cases this; rfl
  have e2 : h = (f.preOp a b).sumOp (a • v) := by
    have : (.ok ((f.preOp a b).sumOp (a • v)) : Py (ProxOp E)) = .ok h := hh
    cases this; rfl
  subst e1 e2
  have hp : ((f.sumOp v).preOp a b).prox? = ((f.preOp a b).sumOp (a • v)).prox? := by
    simp only [sumOp, preOp, Option.some.injEq]
    funext x τ
    rw [ProxOp.prox, ProxOp.prox]
    simp only
    have ha2 : 0 < a ^ 2 := by positivity
    rw [checkTau_idem]
    unfold checkTau
    by_cases h : τ ≤ 0
    · rw [if_pos h, if_pos h]
    · rw [if_neg h, if_neg h, if_neg (not_le.2 (mul_pos ha2 (not_le.1 h)))]
      congr 2
      rw [smul_sub, smul_smul, smul_smul, show a ^ 2 * τ = a * τ * a by ring]
      abel
  refine ⟨fun x τ => ?_, fun x τ => ?_, fun x => ?_, fun x c hc => ?_⟩
  · rw [ProxOp.prox, ProxOp.prox, hp]; rfl
  · rw [ProxOp.proxdual, ProxOp.proxdual, hp]; rfl
  · show (do pure (a • (← (do pure ((← f.grad (a • x + b)) + v)))) : Py E) = (do pure ((← (do pure (a • (← f.grad (a • x + b))))) + a • v))
    rw [py_map_map, py_map_map]
    simp only [smul_add]
  · refine ⟨c.toReal + ⟪v, a • x + b⟫, c.toReal + ⟪a • v, x⟫, ?_, ?_, ?_⟩
    · simp only [preOp, sumOp, hc, addCall]; rfl
    · simp only [preOp, sumOp, hc, addCall]; rfl
    · rw [inner_add_right, inner_smul_right, real_inner_smul_left]; ring

/-- **C118** chaining is associative. -/
theorem C118_chain_assoc (f g h : ProxOp E) : (f.chainOp g).chainOp h = f.chainOp (g.chainOp h) := by
  refine proxOp_ext (fun x => rfl) ?_ rfl rfl (Bool.and_assoc _ _ _) rfl
  simp only [chainOp, Option.some.injEq]
  funext x τ
  by_cases hτ : τ ≤ 0
  · simp [checkTau, hτ]
  · simp only [ProxOp.prox, checkTau, if_neg hτ, bind_assoc]

/-! ## Undoing -/

/-- What a user sees of two operators: the same `prox` and `proxdual` for every step, the same `grad`, the same flag, and values that are the same number. -/
structure LooksLike (f g : ProxOp E) : Prop where
  prox : ∀ x τ, f.prox x τ = g.prox x τ
  grad : ∀ x, f.grad x = g.grad x
  hasgrad : f.hasgrad = g.hasgrad
  call : ∀ x, (f.call x).map CallVal.toReal = (g.call x).map CallVal.toReal

lemma checkTau_rejects {f : ProxOp E} (hf : RejectsBadTau f) (x : E) (τ : ℝ) : checkTau τ (f.prox x τ) = f.prox x τ := by
  unfold checkTau
  by_cases h : τ ≤ 0
  · rw [if_pos h, (hf x τ h).1]
  · rw [if_neg h]

lemma py_map_pure {α : Type} (m : Py α) : (m >>= fun a => pure a) = m := by cases m <;> rfl

lemma sumOp_zero {f : ProxOp E} (hf : RejectsBadTau f) : LooksLike (f.sumOp 0) f where
  prox := fun x τ => by
    rw [ProxOp.prox]
    simp only [sumOp, smul_zero, sub_zero]
    exact checkTau_rejects hf x τ
  grad := fun x => by
    show (do pure ((← f.grad x) + 0) : Py E) = _
    simp only [add_zero]
    exact py_map_pure _
  hasgrad := rfl
  call := fun x => by
    simp only [sumOp]
    cases f.call x <;> simp [addCall, CallVal.toReal, Except.map, Bind.bind, Except.bind, Pure.pure, Except.pure]

lemma postOp_one {f : ProxOp E} (hf : RejectsBadTau f) : LooksLike (f.postOp 1) f where
  prox := fun x τ => by
    rw [ProxOp.prox]
    simp only [postOp, one_mul]
    exact checkTau_rejects hf x τ
  grad := fun x => by
    show (do pure ((1 : ℝ) • (← f.grad x)) : Py E) = _
    simp only [one_smul]
    exact py_map_pure _
  hasgrad := rfl
  call := fun x => by
    simp only [postOp]
    cases f.call x <;> simp [CallVal.toReal, Except.map, Bind.bind, Except.bind, Pure.pure, Except.pure]

lemma preOp_one {f : ProxOp E} (hf : RejectsBadTau f) : LooksLike (f.preOp 1 0) f where
  prox := fun x τ => by
    rw [ProxOp.prox]
    simp only [preOp, one_smul, add_zero, one_pow, one_mul, sub_zero, div_one]
    rw [py_map_pure]
    exact checkTau_rejects hf x τ
  grad := fun x => by
    show (do pure ((1 : ℝ) • (← f.grad ((1 : ℝ) • x + 0))) : Py E) = _
    simp only [one_smul, add_zero]
    exact py_map_pure _
  hasgrad := rfl
  call := fun x => by simp [preOp]

/-- **C118** `(f + v) - v` looks like `f`. -/
theorem C118_add_sub {f : ProxOp E} (hf : RejectsBadTau f) (v : E) :
    ∃ g, (do (← f.affineAddition (.array v)).subOp (.array v)) = .ok g ∧ LooksLike g f :=
  ⟨(f.sumOp v).sumOp (-v), rfl, by rw [sumOp_sumOp, add_neg_cancel]; exact sumOp_zero hf⟩

/-- **C118** `(1 / sigma) * (sigma * f)` looks like `f`. -/
theorem C118_mul_inv {f : ProxOp E} (hf : RejectsBadTau f) {σ : ℝ} (hσ : 0 < σ) :
    ∃ g, (do (← f.rmul (.float σ)).rmul (.float (1 / σ))) = .ok g ∧ LooksLike g f :=
  ⟨(f.postOp σ).postOp (1 / σ), rfl, by rw [postOp_postOp f (by positivity), one_div_mul_cancel hσ.ne']; exact postOp_one hf⟩

/-- **C118** precomposition with `x -> a x + b` is undone by precomposition with `x -> (x - b) / a`. -/
theorem C118_pre_inv (const : ℝ → E) {f : ProxOp E} (hf : RejectsBadTau f) {a : ℝ} (ha : a ≠ 0) (b : E) :
    ∃ g, (do precomposition const (← precomposition const f (.float a) (.array b)) (.float (1 / a)) (.array (-(1 / a) • b))) = .ok g ∧ LooksLike g f :=
  ⟨(f.preOp a b).preOp (1 / a) (-(1 / a) • b), rfl, by
    rw [preOp_preOp f a b ha (one_div_ne_zero ha), mul_one_div_cancel ha, smul_smul, mul_neg, mul_one_div_cancel ha, neg_one_smul, neg_add_cancel]
    exact preOp_one hf⟩

/-! ## The dual methods of a construction -/

lemma proxdual_eq_moreau {f : ProxOp E} {m : E → ℝ → Py E} (hp : f.prox? = some m) (hd : f.proxdual? = none) {τ : ℝ} (hτ : 0 < τ) (x : E) :
    f.proxdual x τ = (do let d ← f.prox ((1 / τ) • x) (1 / τ); pure (x - τ • d)) := by
  rw [ProxOp.proxdual, hd]
  simp only [moreauStep, checkTau, if_neg (not_le.2 hτ), hp, ProxOp.prox]

/-- **C118** `(f + v).proxdual(x, tau)` is `v + f.proxdual(x - v, tau)`. -/
theorem C118_dual_add {f : ProxOp E} (hp : f.prox?.isSome) (hd : f.proxdual? = none) (v : E) {τ : ℝ} (hτ : 0 < τ) (x : E) {g : ProxOp E}
    (hg : f.affineAddition (.array v) = .ok g) : g.proxdual x τ = (do let p ← f.proxdual (x - v) τ; pure (v + p)) := by
  obtain ⟨m, hm⟩ := Option.isSome_iff_exists.1 hp
  cases hg
  rw [proxdual_eq_moreau rfl rfl hτ, proxdual_eq_moreau hm hd hτ, py_map_map]
  have h1 : 0 < 1 / τ := by positivity
  rw [ProxOp.prox]
  simp only [sumOp, checkTau, if_neg (not_le.2 h1), ← smul_sub]
  refine congrArg _ (funext fun p => ?_)
  congr 1
  abel

/-- **C118** `(sigma * f).proxdual(x, tau)` is `sigma * f.proxdual(x / sigma, tau / sigma)`. -/
theorem C118_dual_mul {f : ProxOp E} (hp : f.prox?.isSome) (hd : f.proxdual? = none) {σ : ℝ} (hσ : 0 < σ) {τ : ℝ} (hτ : 0 < τ) (x : E) {g : ProxOp E}
    (hg : f.rmul (.float σ) = .ok g) : g.proxdual x τ = (do let p ← f.proxdual ((1 / σ) • x) (τ / σ); pure (σ • p)) := by
  obtain ⟨m, hm⟩ := Option.isSome_iff_exists.1 hp
  cases hg
  rw [proxdual_eq_moreau rfl rfl hτ, proxdual_eq_moreau hm hd (div_pos hτ hσ), py_map_map]
  have h1 : 0 < 1 / τ := by positivity
  rw [ProxOp.prox]
  simp only [postOp, checkTau, if_neg (not_le.2 h1)]
  rw [smul_smul, show 1 / (τ / σ) * (1 / σ) = 1 / τ by field_simp, show σ * (1 / τ) = 1 / (τ / σ) by field_simp]
  refine congrArg _ (funext fun p => ?_)
  congr 1
  rw [smul_sub, smul_smul, smul_smul, mul_one_div_cancel hσ.ne', one_smul, mul_div_cancel₀ _ hσ.ne']

/-- **C118** the dual of a precomposition: `a * f.proxdual(x / a + tau b / a², tau / a²)`. -/
theorem C118_dual_pre (const : ℝ → E) {f : ProxOp E} (hp : f.prox?.isSome) (hd : f.proxdual? = none) {a : ℝ} (ha : a ≠ 0) (b : E) {τ : ℝ} (hτ : 0 < τ) (x : E) {g : ProxOp E}
    (hg : precomposition const f (.float a) (.array b) = .ok g) :
    g.proxdual x τ = (do let p ← f.proxdual ((1 / a) • x + (τ / a ^ 2) • b) (τ / a ^ 2); pure (a • p)) := by
  obtain ⟨m, hm⟩ := Option.isSome_iff_exists.1 hp
  cases hg
  have ha2 : 0 < a ^ 2 := by positivity
  rw [proxdual_eq_moreau rfl rfl hτ, proxdual_eq_moreau hm hd (div_pos hτ ha2), py_map_map]
  have h1 : 0 < 1 / τ := by positivity
  rw [ProxOp.prox]
  simp only [preOp, checkTau, if_neg (not_le.2 h1)]
  rw [py_map_map, smul_add, smul_smul, smul_smul, smul_smul, show 1 / (τ / a ^ 2) * (1 / a) = a * (1 / τ) by field_simp, show 1 / (τ / a ^ 2) * (τ / a ^ 2) = 1 by field_simp,
    one_smul, show a ^ 2 * (1 / τ) = 1 / (τ / a ^ 2) by field_simp]
  refine congrArg _ (funext fun p => ?_)
  congr 1
  rw [smul_sub (1 / a), smul_sub τ, smul_sub a, smul_add, smul_smul, smul_smul, smul_smul, smul_smul, smul_smul, mul_one_div_cancel ha, one_smul,
    show a * (τ / a ^ 2) = τ * (1 / a) by field_simp]
  abel

/-! ## Objects with state

The same for objects that change between calls and may write into the array they are given: the state after every call and the contents of the caller's array are the same too. -/

omit [NormedAddCommGroup E] [InnerProductSpace ℝ E] in
lemma mutOp_ext {f g : MutOp S E} (h1 : f.call = g.call) (h2 : f.prox = g.prox) (h3 : f.grad = g.grad) : f = g := by
  cases f; cases g; simp_all

lemma except_map_map {α β γ : Type} (m : Py α) (g : α → β) (h : β → γ) : (m.map g).map h = m.map fun a => h (g a) := by cases m <;> rfl

/-- **C118** `(f + v) + w` on an object with state. -/
theorem C118_state_add_add (f : MutOp S E) (v w : E) : (f.sum v).sum w = f.sum (v + w) := by
  refine mutOp_ext ?_ ?_ ?_
  · funext s x
    simp only [MutOp.sum]
    rw [py_map_map]
    simp only [addCall, CallVal.toReal, inner_add_left, add_assoc]
  · funext s x τ
    simp only [MutOp.sum]
    split_ifs
    · rfl
    · rw [sub_sub, ← smul_add, add_comm w v]
  · funext s x
    simp only [MutOp.sum, except_map_map, add_assoc]

/-- **C118** `sigma * (rho * f)` on an object with state. -/
theorem C118_state_mul_mul (f : MutOp S E) {σ : ℝ} (hσ : 0 < σ) (ρ : ℝ) : (f.post ρ).post σ = f.post (σ * ρ) := by
  refine mutOp_ext ?_ ?_ ?_
  · funext s x
    simp only [MutOp.post]
    rw [py_map_map]
    simp only [CallVal.toReal, mul_assoc]
  · funext s x τ
    simp only [MutOp.post]
    by_cases h : τ ≤ 0
    · simp [h]
    · rw [if_neg h, if_neg h, if_neg (not_le.2 (mul_pos hσ (not_le.1 h))), show ρ * (σ * τ) = σ * ρ * τ by ring]
  · funext s x
    simp only [MutOp.post, except_map_map, smul_smul]

/-- **C118** `sigma * (f + v)` on an object with state. -/
theorem C118_state_mul_add (f : MutOp S E) {σ : ℝ} (hσ : 0 < σ) (v : E) : (f.sum v).post σ = (f.post σ).sum (σ • v) := by
  refine mutOp_ext ?_ ?_ ?_
  · funext s x
    simp only [MutOp.post, MutOp.sum]
    rw [py_map_map, py_map_map]
    simp only [CallVal.toReal, addCall, real_inner_smul_left, mul_add]
  · funext s x τ
    simp only [MutOp.post, MutOp.sum]
    by_cases h : τ ≤ 0
    · simp [h]
    · simp only [if_neg h, if_neg (not_le.2 (mul_pos hσ (not_le.1 h))), smul_smul, mul_comm τ σ]
  · funext s x
    simp only [MutOp.post, MutOp.sum, except_map_map, smul_add]

/-- **C118** precomposing twice on an object with state. -/
theorem C118_state_pre_pre (f : MutOp S E) {a c : ℝ} (ha : a ≠ 0) (hc : c ≠ 0) (b d : E) : (f.pre a b).pre c d = f.pre (a * c) (a • d + b) := by
  have e : ∀ x : E, a • (c • x + d) + b = (a * c) • x + (a • d + b) := fun x => by rw [smul_add, smul_smul]; abel
  have hc2 : 0 < c ^ 2 := by positivity
  refine mutOp_ext ?_ ?_ ?_
  · funext s x
    simp only [MutOp.pre, e]
  · funext s x τ
    simp only [MutOp.pre]
    by_cases h : τ ≤ 0
    · simp [h]
    · simp only [if_neg h, if_neg (not_le.2 (mul_pos hc2 (not_le.1 h))), e, except_map_map, show a ^ 2 * (c ^ 2 * τ) = (a * c) ^ 2 * τ by ring]
      refine congrArg _ (congrArg₂ _ (congrArg (fun k => Except.map k _) (funext fun p => ?_)) rfl)
      rw [show p - (a • d + b) = (p - b) - a • d by abel, smul_sub (1 / c), smul_sub (1 / (a * c)), smul_smul, smul_smul]
      congr 2
      · field_simp
      · field_simp
  · funext s x
    simp only [MutOp.pre, e, except_map_map, smul_smul, mul_comm c a]

/-- **C118** scaling and precomposition on an object with state. -/
theorem C118_state_mul_pre (f : MutOp S E) {σ a : ℝ} (hσ : 0 < σ) (ha : a ≠ 0) (b : E) : (f.pre a b).post σ = (f.post σ).pre a b := by
  have ha2 : 0 < a ^ 2 := by positivity
  refine mutOp_ext rfl ?_ ?_
  · funext s x τ
    simp only [MutOp.post, MutOp.pre]
    by_cases h : τ ≤ 0
    · simp [h]
    · simp only [if_neg h, if_neg (not_le.2 (mul_pos hσ (not_le.1 h))), if_neg (not_le.2 (mul_pos ha2 (not_le.1 h))), show a ^ 2 * (σ * τ) = σ * (a ^ 2 * τ) by ring]
  · funext s x
    simp only [MutOp.post, MutOp.pre, except_map_map, smul_smul, mul_comm σ a]

/-! ## Two negative factors -/

/-- **C118** why `sigma > 0` in `C118_mul_mul`: with two negative factors the nested form raises for every step, the merged one works. -/
theorem C118_negative_factors {f : ProxOp E} {F : XFun E} (hf : ProxExact f F) {σ ρ : ℝ} (hσ : σ < 0) (hρ : ρ < 0) {τ : ℝ} (hτ : 0 < τ) (x : E) :
    (∃ g, (do (← f.rmul (.float ρ)).rmul (.float σ)) = .ok g ∧ g.prox x τ = .error .valueError) ∧
      ∃ h p, f.rmul (.float (σ * ρ)) = .ok h ∧ h.prox x τ = .ok p := by
  obtain ⟨p, hp, -⟩ := hf x (σ * ρ * τ) (mul_pos (mul_pos_of_neg_of_neg hσ hρ) hτ)
  refine ⟨⟨(f.postOp ρ).postOp σ, rfl, ?_⟩, ⟨f.postOp (σ * ρ), p, rfl, ?_⟩⟩
  · simp only [postOp, ProxOp.prox, checkTau, if_neg (not_le.2 hτ), if_pos (mul_neg_of_neg_of_pos hσ hτ).le]
  · simp only [postOp, ProxOp.prox, checkTau, if_neg (not_le.2 hτ)]
    exact hp

/-! ## Instances -/

/-- A nested expression and its merged form give the same prox: `2 * (3 * ||x|| + v)` against `6 * ||x|| + 2 v`. -/
example (v x : E) (τ : ℝ) (g h : ProxOp E)
    (hg : (do (← (do (← (Euclidean (E := E) 1).rmul (.float 3)).affineAddition (.array v))).rmul (.float 2)) = .ok g)
    (hh : (do (← (Euclidean (E := E) 1).rmul (.float 6)).affineAddition (.array ((2 : ℝ) • v))) = .ok h) : g.prox x τ = h.prox x τ := by
  have e1 : g = (((Euclidean (E := E) 1).postOp 3).sumOp v).postOp 2 := by
    have : (.ok ((((Euclidean (E := E) 1).postOp 3).sumOp v).postOp 2) : Py (ProxOp E)) = .ok g := hg
    cases this; rfl
  have e2 : h = ((Euclidean (E := E) 1).postOp 6).sumOp ((2 : ℝ) • v) := by
    have : (.ok (((Euclidean (E := E) 1).postOp 6).sumOp ((2 : ℝ) • v)) : Py (ProxOp E)) = .ok h := hh
    cases this; rfl
  rw [e1, e2, postOp_sumOp _ two_pos, postOp_postOp _ two_pos]
  norm_num

end Verif
