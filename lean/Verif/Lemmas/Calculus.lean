import Verif.Lemmas.Prox
import Verif.Spec.Contract
import Mathlib.Analysis.Asymptotics.Lemmas
import Mathlib.Analysis.Calculus.FDeriv.Add
import Mathlib.Tactic.Module

/-! Helper lemmas for the operator calculus. -/

open scoped RealInnerProductSpace

set_option linter.unusedSectionVars false

namespace Verif

variable {E : Type} [NormedAddCommGroup E] [InnerProductSpace ℝ E]

@[simp] lemma checkTau_pos {α : Type} {τ : ℝ} (h : 0 < τ) (k : Py α) : checkTau τ k = k := by
  simp [checkTau, not_le.2 h]

@[simp] lemma checkTau_nonpos {α : Type} {τ : ℝ} (h : τ ≤ 0) (k : Py α) :
    checkTau τ k = .error .valueError := by
  simp [checkTau, h]

/-- A class whose own methods are guarded rejects bad steps. -/
lemma rejects_of_guarded (f : ProxOp E)
    (h1 : ∀ m, f.prox? = some m → ∀ x τ, τ ≤ 0 → m x τ = .error .valueError)
    (h2 : ∀ m, f.proxdual? = some m → ∀ x τ, τ ≤ 0 → m x τ = .error .valueError) :
    RejectsBadTau f := by
  intro x τ hτ
  constructor
  · unfold ProxOp.prox
    cases hp : f.prox? with
    | none => simp [checkTau_nonpos hτ]
    | some m => exact h1 m hp x τ hτ
  · unfold ProxOp.proxdual
    cases hp : f.proxdual? with
    | none => simp [checkTau_nonpos hτ]
    | some m => exact h2 m hp x τ hτ

lemma prox_of_some {f : ProxOp E} {m} (h : f.prox? = some m) : f.prox = m := by
  funext x τ; simp [ProxOp.prox, h]

lemma proxdual_of_some {f : ProxOp E} {m} (h : f.proxdual? = some m) : f.proxdual = m := by
  funext x τ; simp [ProxOp.proxdual, h]

/-- The inherited `proxdual` in terms of `prox`. -/
lemma proxdual_inherited {f : ProxOp E} {m} (hp : f.prox? = some m) (hd : f.proxdual? = none)
    {x : E} {τ : ℝ} (hτ : 0 < τ) {p : E} (h : f.prox ((1 / τ) • x) (1 / τ) = .ok p) :
    f.proxdual x τ = .ok (x - τ • p) := by
  rw [prox_of_some hp] at h
  simp only [ProxOp.proxdual, hd, checkTau_pos hτ, ProxOp.moreauStep, hp, h]
  rfl

lemma prox_inherited {f : ProxOp E} {m} (hp : f.prox? = none) (hd : f.proxdual? = some m)
    {x : E} {τ : ℝ} (hτ : 0 < τ) {p : E} (h : f.proxdual ((1 / τ) • x) (1 / τ) = .ok p) :
    f.prox x τ = .ok (x - τ • p) := by
  rw [proxdual_of_some hd] at h
  simp only [ProxOp.prox, hd, checkTau_pos hτ, ProxOp.moreauStep, hp, h]
  rfl

/-- `(x-p)/τ` is the proximal point of the conjugate. -/
lemma conj_isProx {F : XFun E} (hF : F.Convex) {τ : ℝ} (hτ : 0 < τ) {x p : E}
    (h : IsProx F τ x p) : IsProx F.conj (1 / τ) ((1 / τ) • x) ((1 / τ) • (x - p)) := by
  have hs := subgrad_of_isProx hF hτ h
  set s := (1 / τ) • (x - p) with hsdef
  have hub : ∀ a ∈ (fun y => ⟪s, y⟫ - F.val y) '' F.dom, a ≤ ⟪s, p⟫ - F.val p := by
    rintro a ⟨y, hy, rfl⟩
    have := hs.2 y hy
    rw [inner_sub_right] at this
    simp only; linarith
  have hval : F.conj.val s = ⟪s, p⟫ - F.val p := by
    apply le_antisymm
    · exact csSup_le ⟨_, p, h.1, rfl⟩ hub
    · exact le_csSup ⟨_, hub⟩ ⟨p, h.1, rfl⟩
  apply isProx_of_subgrad (by positivity)
  refine ⟨⟨_, hub⟩, fun u hu => ?_⟩
  have h1 : ⟪u, p⟫ - F.val p ≤ F.conj.val u := le_csSup hu ⟨p, h.1, rfl⟩
  rw [hval]
  have : (1 / (1 / τ)) • ((1 / τ) • x - s) = p := by
    rw [hsdef, ← smul_sub, smul_smul]
    have : 1 / (1 / τ) * (1 / τ) = 1 := by field_simp
    rw [this, one_smul]; abel
  rw [this, inner_sub_right, real_inner_comm u p, real_inner_comm s p]
  linarith

lemma addLinear_proxObj (F : XFun E) (v : E) {τ : ℝ} (hτ : 0 < τ) (x y : E) :
    proxObj (F.addLinear v) τ x y
      = proxObj F τ (x - τ • v) y + (⟪v, x⟫ - τ / 2 * ‖v‖ ^ 2) := by
  unfold proxObj XFun.addLinear
  have h : ‖y - (x - τ • v)‖ ^ 2 = ‖y - x‖ ^ 2 + 2 * τ * (⟪v, y⟫ - ⟪v, x⟫) + τ ^ 2 * ‖v‖ ^ 2 := by
    have : y - (x - τ • v) = (y - x) + τ • v := by abel
    rw [this, norm_add_sq_real, inner_smul_right, norm_smul, Real.norm_eq_abs, mul_pow, sq_abs,
      inner_sub_left, real_inner_comm v y, real_inner_comm v x]
    ring
  simp only
  rw [h]; field_simp; ring

lemma addLinear_isProx {F : XFun E} {v : E} {τ : ℝ} (hτ : 0 < τ) {x p : E} :
    IsProx (F.addLinear v) τ x p ↔ IsProx F τ (x - τ • v) p := by
  unfold IsProx
  simp only [addLinear_proxObj F v hτ, add_le_add_iff_right]
  rfl

lemma smul_isProx {F : XFun E} {σ τ : ℝ} (hσ : 0 < σ) (hτ : 0 < τ) {x p : E} :
    IsProx (F.smul σ) τ x p ↔ IsProx F (σ * τ) x p := by
  have key : ∀ y, proxObj (F.smul σ) τ x y = σ * proxObj F (σ * τ) x y := by
    intro y
    unfold proxObj XFun.smul
    simp only; field_simp
  unfold IsProx
  simp only [key, mul_le_mul_iff_right₀ hσ]
  rfl

lemma comp_affine_isProx {F : XFun E} {a τ : ℝ} {b : E} (ha : a ≠ 0) (hτ : 0 < τ) {x p : E} :
    IsProx (F.comp fun x => a • x + b) τ x ((1 / a) • (p - b)) ↔ IsProx F (a ^ 2 * τ) (a • x + b) p := by
  have ha2 : 0 < a ^ 2 := by positivity
  have key : ∀ y, proxObj (F.comp fun x => a • x + b) τ x ((1 / a) • (y - b))
      = proxObj F (a ^ 2 * τ) (a • x + b) y := by
    intro y
    unfold proxObj XFun.comp
    have e1 : a • ((1 / a) • (y - b)) + b = y := by
      rw [smul_smul, mul_one_div_cancel ha, one_smul]; abel
    have e2 : y - (a • x + b) = a • ((1 / a) • (y - b) - x) := by
      rw [smul_sub, smul_smul, mul_one_div_cancel ha, one_smul]; abel
    simp only [e1]
    rw [e2, norm_smul, mul_pow, Real.norm_eq_abs, sq_abs]
    field_simp
  have hsurj : ∀ y, (1 / a) • ((a • y + b) - b) = y := by
    intro y
    rw [add_sub_cancel_right, smul_smul, one_div_mul_cancel ha, one_smul]
  have hmem : ∀ y, (1 / a) • (y - b) ∈ (F.comp fun x => a • x + b).dom ↔ y ∈ F.dom := by
    intro y
    have e1 : a • ((1 / a) • (y - b)) + b = y := by
      rw [smul_smul, mul_one_div_cancel ha, one_smul]; abel
    simp only [XFun.comp, Set.mem_ofPred_eq, e1]
  constructor
  · rintro ⟨h1, h2⟩
    refine ⟨(hmem p).1 h1, fun y hy => ?_⟩
    have := h2 _ ((hmem y).2 hy)
    rwa [key, key] at this
  · rintro ⟨h1, h2⟩
    refine ⟨(hmem p).2 h1, fun y hy => ?_⟩
    rw [← hsurj y, key, key]
    apply h2
    rw [← hsurj y] at hy
    exact (hmem _).1 hy

/-- A quadratic bound on the linearisation error gives the gradient. -/
lemma isGrad_of_quad {f : E → ℝ} {x g : E} {C : ℝ}
    (h : ∀ y, |f y - f x - ⟪g, y - x⟫| ≤ C * ‖y - x‖ ^ 2) : IsGrad f x g := by
  unfold IsGrad
  rw [hasFDerivAt_iff_isLittleO]
  have hO : (fun y => f y - f x - (innerSL ℝ g) (y - x)) =O[nhds x] fun y => ‖y - x‖ ^ 2 := by
    apply Asymptotics.IsBigO.of_bound C
    filter_upwards with y
    have := h y
    simpa [Real.norm_eq_abs] using this
  refine hO.trans_isLittleO ?_
  have := Asymptotics.isLittleO_norm_pow_id (E' := E) (n := 2) one_lt_two
  have h2 : Filter.Tendsto (fun y : E => y - x) (nhds x) (nhds 0) := by
    have : Filter.Tendsto (fun y : E => y - x) (nhds x) (nhds (x - x)) :=
      (continuous_id.sub continuous_const).tendsto x
    rwa [sub_self] at this
  exact this.comp_tendsto h2

lemma moreauEnv_eq {F : XFun E} {σ : ℝ} {x p : E} (h : IsProx F σ x p) :
    moreauEnv F σ x = proxObj F σ x p := by
  apply le_antisymm
  · exact csInf_le ⟨proxObj F σ x p, by rintro _ ⟨y, hy, rfl⟩; exact h.2 y hy⟩ ⟨p, h.1, rfl⟩
  · exact le_csInf ⟨_, p, h.1, rfl⟩ (by rintro _ ⟨y, hy, rfl⟩; exact h.2 y hy)

lemma moreauEnv_bound {F : XFun E} (hF : F.Convex) {σ : ℝ} (hσ : 0 < σ) {x y p q : E}
    (hp : IsProx F σ x p) (hq : IsProx F σ y q) :
    |moreauEnv F σ y - moreauEnv F σ x - ⟪(1 / σ) • (x - p), y - x⟫| ≤ 1 / (2 * σ) * ‖y - x‖ ^ 2 := by
  rw [moreauEnv_eq hp, moreauEnv_eq hq]
  have h1 := hq.2 p hp.1
  have h2 := hp.2 q hq.1
  have hf := prox_firm hF hσ hp hq
  unfold proxObj at *
  rw [real_inner_smul_left]
  have e1 : ‖p - y‖ ^ 2 = ‖p - x‖ ^ 2 + ‖y - x‖ ^ 2 + 2 * ⟪x - p, y - x⟫ := by
    have : p - y = -((x - p) + (y - x)) := by abel
    rw [this, norm_neg, norm_add_sq_real, norm_sub_rev p x]; ring
  have e2 : ‖q - x‖ ^ 2 = ‖q - y‖ ^ 2 + ‖y - x‖ ^ 2 - 2 * ⟪y - q, y - x⟫ := by
    have : q - x = -((y - q) - (y - x)) := by abel
    rw [this, norm_neg, norm_sub_sq_real, norm_sub_rev q y]; ring
  have hmono : 0 ≤ ⟪(y - q) - (x - p), y - x⟫ := by
    have a1 : y - x = ((y - q) - (x - p)) + (q - p) := by abel
    have a2 : 0 ≤ ⟪(y - q) - (x - p), q - p⟫ := by
      have := subgrad_mono (subgrad_of_isProx hF hσ hq) (subgrad_of_isProx hF hσ hp)
      rw [← smul_sub, real_inner_smul_left] at this
      by_contra hc
      push Not at hc
      have := mul_neg_of_pos_of_neg (by positivity : 0 < 1 / σ) hc
      linarith
    rw [a1, inner_add_right, real_inner_self_eq_norm_sq]
    positivity
  rw [inner_sub_left] at hmono
  have d1 : ‖p - y‖ ^ 2 / (2 * σ) = ‖p - x‖ ^ 2 / (2 * σ) + 1 / (2 * σ) * ‖y - x‖ ^ 2
      + 1 / σ * ⟪x - p, y - x⟫ := by rw [e1]; field_simp
  have d2 : ‖q - x‖ ^ 2 / (2 * σ) = ‖q - y‖ ^ 2 / (2 * σ) + 1 / (2 * σ) * ‖y - x‖ ^ 2
      - 1 / σ * ⟪y - q, y - x⟫ := by rw [e2]; field_simp
  have hm2 : 1 / σ * ⟪x - p, y - x⟫ ≤ 1 / σ * ⟪y - q, y - x⟫ :=
    mul_le_mul_of_nonneg_left (by linarith) (by positivity)
  rw [abs_le]
  constructor <;> linarith

end Verif
