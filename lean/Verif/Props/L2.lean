import Verif.Model.L2
import Verif.Lemmas.Calculus
import Verif.Spec.Contract
import Mathlib.Analysis.InnerProductSpace.Adjoint
import Mathlib.LinearAlgebra.FiniteDimensional.Basic

/-! # C17, C18, C19, C36: `L2`; C20: `Quadratic` -/

open scoped RealInnerProductSpace

namespace Verif

variable {E F C : Type} [NormedAddCommGroup E] [InnerProductSpace ℝ E] [NormedAddCommGroup F] [InnerProductSpace ℝ F]

/-- The documented function `sigma/2 ||Op x - b||^2 + alpha <q, x>` of each configuration. -/
noncomputable def l2Spec (a : L2Args E F) (x : E) : ℝ :=
  (match a.data with
    | .opB Op _ b => a.σ / 2 * ‖Op.matvec x - b‖ ^ 2
    | .bOnly b => a.σ / 2 * ‖x - b‖ ^ 2
    | .opOnly _ _ => a.σ / 2 * ‖x‖ ^ 2
    | .nothing => a.σ / 2 * ‖x‖ ^ 2) +
  (match a.q with
    | some q => a.α * ⟪q, x⟫
    | none => 0)

/-- Coercive self-adjoint systems, the only ones `L2` solves. -/
def WellPosed (M : E →ₗ[ℝ] E) : Prop := (∀ v w, ⟪M v, w⟫ = ⟪v, M w⟫) ∧ ∀ v, ‖v‖ ^ 2 ≤ ⟪M v, v⟫

/-- Every external solver leaves a residual of norm at most `δ` on the well-posed systems it is given; `regularized_inversion`
is measured by its normal equations.  `δ = 0` means exact solves. -/
structure L2ExtWithin (ext : L2Ext E F C) (δ : ℝ) : Prop where
  div : ∀ d M y, WellPosed M → ‖M (ext.div d M y) - y‖ ≤ δ
  cho : ∀ M y, WellPosed M → ‖M (ext.choSolve (ext.choFactor M) y) - y‖ ≤ δ
  lsqr : ∀ M y n x0, WellPosed M → ‖M (ext.lsqr M y n x0) - y‖ ≤ δ
  cg : ∀ M y n x0, WellPosed M → ‖M (ext.cg M y n x0) - y‖ ≤ δ
  regInv : ∀ A d y n x0, ‖A.rmatvec (A.matvec (ext.regInv A d y n x0) - d) + (ext.regInv A d y n x0 - y)‖ ≤ δ

lemma wellPosed_regNormal (A : LinOp E F) {t : ℝ} (ht : 0 ≤ t) : WellPosed (A.regNormal t) := by
  constructor
  · intro v w
    simp only [LinOp.regNormal, LinearMap.add_apply, LinearMap.id_apply, LinearMap.smul_apply, LinearMap.comp_apply,
      inner_add_left, inner_add_right, real_inner_smul_left, real_inner_smul_right, ← A.dot]
    rw [real_inner_comm (A.rmatvec (A.matvec v)) w |>.symm, ← A.dot, real_inner_comm (A.matvec w)]
  · intro v
    simp only [LinOp.regNormal, LinearMap.add_apply, LinearMap.id_apply, LinearMap.smul_apply, LinearMap.comp_apply,
      inner_add_left, real_inner_smul_left, real_inner_self_eq_norm_sq]
    rw [real_inner_comm, ← A.dot, real_inner_self_eq_norm_sq]
    have : 0 ≤ t * ‖A.matvec v‖ ^ 2 := by positivity
    linarith

lemma wellPosed_inj {M : E →ₗ[ℝ] E} (h : WellPosed M) (v : E) : ‖v‖ ≤ ‖M v‖ := by
  have h1 := h.2 v
  have h2 := real_inner_le_norm (M v) v
  by_cases hv : ‖v‖ = 0
  · rw [hv]; exact norm_nonneg _
  · have : 0 < ‖v‖ := lt_of_le_of_ne (norm_nonneg v) (Ne.symm hv)
    nlinarith

lemma wellPosed_solve [FiniteDimensional ℝ E] {M : E →ₗ[ℝ] E} (h : WellPosed M) (y : E) : ∃ z, M z = y := by
  have hinj : Function.Injective M := by
    rw [← LinearMap.ker_eq_bot, LinearMap.ker_eq_bot']
    intro v hv
    have := wellPosed_inj h v
    rw [hv, norm_zero] at this
    exact norm_le_zero_iff.1 this
  exact LinearMap.surjective_of_injective hinj y

/-- A quadratic whose stationarity equation is solved is minimised there: `f(y) = f(p) + <g, y-p> + (non-negative)`. -/
lemma quad_prox {f : E → ℝ} {τ : ℝ} (hτ : 0 < τ) {x p g : E}
    (hf : ∀ y, f p + ⟪g, y - p⟫ ≤ f y) (hg : p + τ • g = x) : IsUniqueProx (XFun.ofReal f) τ x p := by
  apply isUniqueProx_of_subgrad hτ
  refine ⟨trivial, fun y _ => ?_⟩
  have e : (1 / τ) • (x - p) = g := by
    rw [← hg, add_sub_cancel_left, smul_smul, one_div, inv_mul_cancel₀ hτ.ne', one_smul]
  rw [e]; exact hf y

/-- Gradient of the smooth part of each configuration. -/
noncomputable def l2Grad (a : L2Args E F) (x : E) : E :=
  (match a.data with
    | .opB Op _ b => a.σ • Op.rmatvec (Op.matvec x - b)
    | .bOnly b => a.σ • (x - b)
    | _ => a.σ • x) +
  (match a.q with
    | some q => a.α • q
    | none => 0)

/-- Exact second-order expansion of `l2Spec`. -/
lemma l2Spec_expand (a : L2Args E F) (x y : E) :
    l2Spec a y = l2Spec a x + ⟪l2Grad a x, y - x⟫ + a.σ / 2 * (match a.data with
      | .opB Op _ _ => ‖Op.matvec (y - x)‖ ^ 2
      | _ => ‖y - x‖ ^ 2) := by
  have hn : ∀ {G : Type} [NormedAddCommGroup G] [InnerProductSpace ℝ G] (u v : G),
      ‖u‖ ^ 2 = ‖v‖ ^ 2 + 2 * ⟪v, u - v⟫ + ‖u - v‖ ^ 2 := by
    intro G _ _ u v
    have : u = v + (u - v) := by abel
    conv_lhs => rw [this]
    rw [norm_add_sq_real]
  have hq : (match a.q with | some q => a.α * ⟪q, y⟫ | none => 0) =
      (match a.q with | some q => a.α * ⟪q, x⟫ | none => 0) +
      ⟪(match a.q with | some q => a.α • q | none => (0:E)), y - x⟫ := by
    cases a.q with
    | none => simp
    | some q => simp only [real_inner_smul_left, inner_sub_right]; ring
  unfold l2Spec l2Grad
  rw [hq, inner_add_left]
  cases a.data with
  | opB Op e b =>
    simp only [real_inner_smul_left]
    have h1 := hn (Op.matvec y - b) (Op.matvec x - b)
    have h2 : Op.matvec y - b - (Op.matvec x - b) = Op.matvec (y - x) := by rw [map_sub]; abel
    rw [h2] at h1
    have h3 : ⟪Op.rmatvec (Op.matvec x - b), y - x⟫ = ⟪Op.matvec x - b, Op.matvec (y - x)⟫ := by
      rw [real_inner_comm, ← Op.dot, real_inner_comm]
    rw [h1, h3]; ring
  | opOnly Op e =>
    simp only [real_inner_smul_left]
    rw [hn y x]; ring
  | bOnly b =>
    simp only [real_inner_smul_left]
    have h1 := hn (y - b) (x - b)
    have h2 : y - b - (x - b) = y - x := by abel
    rw [h2] at h1
    rw [h1]; ring
  | nothing =>
    simp only [real_inner_smul_left]
    rw [hn y x]; ring

/-- The convex quadratic of each configuration lies above its tangent. -/
lemma l2Spec_above (a : L2Args E F) (hσ : 0 ≤ a.σ) (x y : E) : l2Spec a x + ⟪l2Grad a x, y - x⟫ ≤ l2Spec a y := by
  rw [l2Spec_expand a x y]
  have : 0 ≤ a.σ / 2 * (match a.data with
      | .opB Op _ _ => ‖Op.matvec (y - x)‖ ^ 2
      | _ => ‖y - x‖ ^ 2) := by
    apply mul_nonneg (by linarith)
    split <;> positivity
  linarith

/-- Stationarity residual of the proximal objective (times `tau`): zero exactly at the minimiser. -/
noncomputable def l2Res (a : L2Args E F) (τ : ℝ) (x z : E) : E := z + τ • l2Grad a z - x

/-- Strong monotonicity: the distance to the minimiser is at most the residual. -/
lemma l2_dist (a : L2Args E F) (hσ : 0 ≤ a.σ) {τ : ℝ} (hτ : 0 < τ) {x p z : E} (hp : l2Res a τ x p = 0) :
    ‖z - p‖ ≤ ‖l2Res a τ x z‖ := by
  have h1 := l2Spec_above a hσ z p
  have h2 := l2Spec_above a hσ p z
  have e : l2Res a τ x z = (z - p) + τ • (l2Grad a z - l2Grad a p) := by
    have : x = p + τ • l2Grad a p := by
      unfold l2Res at hp; exact (sub_eq_zero.1 hp).symm
    unfold l2Res
    conv_lhs => rw [this]
    rw [smul_sub]; abel
  have hmono : 0 ≤ ⟪l2Grad a z - l2Grad a p, z - p⟫ := by
    have h3 : ⟪l2Grad a z, p - z⟫ = -⟪l2Grad a z, z - p⟫ := by rw [← neg_sub, inner_neg_right]
    rw [inner_sub_left]; linarith
  have h4 : ‖z - p‖ ^ 2 ≤ ⟪l2Res a τ x z, z - p⟫ := by
    rw [e, inner_add_left, real_inner_self_eq_norm_sq, real_inner_smul_left]
    nlinarith [mul_nonneg hτ.le hmono]
  have h5 := real_inner_le_norm (l2Res a τ x z) (z - p)
  by_cases hv : ‖z - p‖ = 0
  · rw [hv]; exact norm_nonneg _
  · have : 0 < ‖z - p‖ := lt_of_le_of_ne (norm_nonneg _) (Ne.symm hv)
    nlinarith

lemma l2_isUniqueProx (a : L2Args E F) (hσ : 0 ≤ a.σ) {τ : ℝ} (hτ : 0 < τ) {x p : E} (hp : l2Res a τ x p = 0) :
    IsUniqueProx (XFun.ofReal (l2Spec a)) τ x p :=
  quad_prox hτ (l2Spec_above a hσ p) (sub_eq_zero.1 hp)

/-- The cache invariant: the stored factorization is that of the stored `tau*sigma`; none is stored only while that is `0`. -/
def CacheOk (ext : L2Ext E F C) (a : L2Args E F) (s : L2State E C) : Prop :=
  match a.data with
  | .opB Op _ _ => (s.cl = none ∧ s.tausigma = 0) ∨ s.cl = some (ext.choFactor (Op.regNormal s.tausigma))
  | _ => True

lemma cacheOk_prox (ext : L2Ext E F C) (a : L2Args E F) (s : L2State E C) (h : CacheOk ext a s) (x : E) (τ : ℝ) :
    CacheOk ext a (L2.prox ext a s x τ).1 := by
  obtain ⟨data, q, σ, α, qgrad, niter, warm, solver, ds⟩ := a
  unfold L2.prox
  cases data with
  | opB Op e b =>
    simp only [CacheOk] at h ⊢
    by_cases hτ : τ ≤ 0
    · simp only [if_pos hτ]; exact h
    · simp only [if_neg hτ, L2.proxBody]
      cases e <;> simp only [Bool.false_eq_true, if_false, if_true]
      · by_cases hs : solver.normaleqs = true
        · simp only [if_pos hs]
          cases warm <;> simpa using h
        · simp only [if_neg hs]
          cases warm <;> simpa using h
      · by_cases hd : ds ≠ .factorize
        · simp only [if_pos hd]
          cases warm <;> simpa using h
        · simp only [if_neg hd]
          by_cases ht : s.tausigma ≠ τ * σ
          · simp only [if_pos ht]
            cases warm <;> simp
          · simp only [if_neg ht]
            rcases h with ⟨h1, h2⟩ | h1
            · simp only [h1]; left; exact ⟨trivial, h2⟩
            · simp only [h1]
              cases warm <;> simp
  | opOnly => trivial
  | bOnly => trivial
  | nothing => trivial

lemma cacheOk_after (ext : L2Ext E F C) (a : L2Args E F) (calls : List (E × ℝ)) (s : L2State E C) (h : CacheOk ext a s) :
    CacheOk ext a (L2.after ext a s calls) := by
  induction calls generalizing s with
  | nil => exact h
  | cons c cs ih => exact ih _ (cacheOk_prox ext a s h c.1 c.2)

lemma cacheOk_init (ext : L2Ext E F C) (a : L2Args E F) (x0 : Option E) (s : L2State E C) (h : L2.init a x0 = .ok s) :
    CacheOk ext a s := by
  unfold L2.init at h
  split_ifs at h
  cases h
  unfold CacheOk
  split
  · left; exact ⟨rfl, rfl⟩
  · trivial

/-- Residual of the system in terms of the objective. -/
lemma regNormal_res (Op : LinOp E F) (e : Bool) (b : F) (q : Option E) (σ α : ℝ) (qgrad niter warm solver ds) (τ : ℝ) (x z : E) :
    Op.regNormal (τ * σ) z - L2.subQ ⟨.opB Op e b, q, σ, α, qgrad, niter, warm, solver, ds⟩ (x + τ • (σ • Op.rmatvec b)) τ
      = l2Res ⟨.opB Op e b, q, σ, α, qgrad, niter, warm, solver, ds⟩ τ x z := by
  unfold l2Res l2Grad L2.subQ LinOp.regNormal
  cases q <;>
  · simp only [LinearMap.add_apply, LinearMap.id_apply, LinearMap.smul_apply, LinearMap.comp_apply, map_sub, smul_sub,
      smul_add, smul_smul, mul_comm, add_zero]
    abel

/-- The closed forms have zero residual. -/
lemma closed_res (a : L2Args E F) (hσ : 0 < a.σ) {τ : ℝ} (hτ : 0 < τ) (x : E) (h : ∀ Op e b, a.data ≠ .opB Op e b) :
    l2Res a τ x ((1 / (1 + τ * a.σ)) • L2.subQ a (match a.data with | .bOnly b => x + (τ * a.σ) • b | _ => x) τ) = 0 := by
  obtain ⟨data, q, σ, α, qgrad, niter, warm, solver, ds⟩ := a
  simp only at hσ h
  have hne : 1 + τ * σ ≠ 0 := by positivity
  have key : ∀ w : E, (1 / (1 + τ * σ)) • w + (τ * σ) • ((1 / (1 + τ * σ)) • w) = w := by
    intro w
    rw [smul_smul, ← add_smul]
    have : 1 / (1 + τ * σ) + τ * σ * (1 / (1 + τ * σ)) = 1 := by field_simp
    rw [this, one_smul]
  unfold l2Res l2Grad
  cases data with
  | opB Op e b => exact absurd rfl (h Op e b)
  | opOnly Op e =>
    simp only [L2.subQ]
    cases q with
    | none => simp only [add_zero, smul_smul τ σ]; rw [key, sub_self]
    | some q =>
      simp only [smul_add, smul_smul τ σ, smul_smul τ α]
      rw [← add_assoc, key]; abel
  | bOnly b =>
    simp only [L2.subQ]
    cases q with
    | none =>
      simp only [add_zero, smul_smul τ σ, smul_sub]
      rw [← add_sub_assoc, key]; abel
    | some q =>
      simp only [smul_add, smul_smul τ σ, smul_smul τ α]
      rw [smul_sub (τ * σ), ← add_assoc, ← add_sub_assoc, key]; abel
  | nothing =>
    simp only [L2.subQ]
    cases q with
    | none => simp only [add_zero, smul_smul τ σ]; rw [key, sub_self]
    | some q =>
      simp only [smul_add, smul_smul τ σ, smul_smul τ α]
      rw [← add_assoc, key]; abel

/-- C17: without `Op` (or with `Op` but no `b`, which is ignored) the closed form is the unique minimiser, in any state. -/
theorem C17_l2_prox_closed (ext : L2Ext E F C) (a : L2Args E F) (hσ : 0 < a.σ) (h : ∀ Op e b, a.data ≠ .opB Op e b)
    (st : L2State E C) (x : E) (τ : ℝ) (hτ : 0 < τ) :
    ∃ p, (L2.prox ext a st x τ).2.1 = .ok p ∧ IsUniqueProx (XFun.ofReal (l2Spec a)) τ x p := by
  refine ⟨_, ?_, l2_isUniqueProx a hσ.le hτ (closed_res a hσ hτ x h)⟩
  obtain ⟨data, q, σ, α, qgrad, niter, warm, solver, ds⟩ := a
  unfold L2.prox
  simp only [if_neg (not_le.2 hτ)]
  simp only at hσ
  have hne : 1 + τ * σ ≠ 0 := by positivity
  cases data with
  | opB Op e b => exact absurd rfl (h Op e b)
  | opOnly Op e => exact if_neg hne
  | bOnly b => exact if_neg hne
  | nothing => exact if_neg hne

/-- The same in every state whose cached factorization is consistent. -/
lemma l2_prox_of_cache [FiniteDimensional ℝ E] (ext : L2Ext E F C) (δ : ℝ) (hext : L2ExtWithin ext δ) (a : L2Args E F)
    (hσ : 0 < a.σ) (st : L2State E C) (hcache : CacheOk ext a st) (x : E) (τ : ℝ) (hτ : 0 < τ) :
    ∃ z p, (L2.prox ext a st x τ).2.1 = .ok z ∧ IsUniqueProx (XFun.ofReal (l2Spec a)) τ x p ∧ ‖z - p‖ ≤ δ := by
  -- a point with zero residual
  have hδ : 0 ≤ δ := (norm_nonneg _).trans (hext.lsqr LinearMap.id 0 0 none ⟨fun _ _ => rfl, fun v => by simp⟩)
  have hsuff : ∀ z p, l2Res a τ x p = 0 → ‖l2Res a τ x z‖ ≤ δ →
      IsUniqueProx (XFun.ofReal (l2Spec a)) τ x p ∧ ‖z - p‖ ≤ δ := fun z p hp hz =>
    ⟨l2_isUniqueProx a hσ.le hτ hp, (l2_dist a hσ.le hτ hp).trans hz⟩
  have hclosed : (∀ Op e b, a.data ≠ .opB Op e b) → ∃ z p, (L2.prox ext a st x τ).2.1 = .ok z ∧
      IsUniqueProx (XFun.ofReal (l2Spec a)) τ x p ∧ ‖z - p‖ ≤ δ := fun h => by
    obtain ⟨p, h1, h2⟩ := C17_l2_prox_closed ext a hσ h st x τ hτ
    exact ⟨p, p, h1, h2, by rw [sub_self, norm_zero]; exact hδ⟩
  obtain ⟨data, q, σ, α, qgrad, niter, warm, solver, ds⟩ := a
  unfold L2.prox at hclosed
  simp only [if_neg (not_le.2 hτ)] at hclosed
  simp only at hσ
  have hts : 0 < τ * σ := mul_pos hτ hσ
  unfold L2.prox
  simp only [if_neg (not_le.2 hτ)]
  cases data with
  | opB Op e b =>
    have hwp := wellPosed_regNormal Op hts.le
    obtain ⟨p, hp⟩ := wellPosed_solve hwp (L2.subQ ⟨.opB Op e b, q, σ, α, qgrad, niter, warm, solver, ds⟩
      (x + τ • (σ • Op.rmatvec b)) τ)
    have hp0 : l2Res ⟨.opB Op e b, q, σ, α, qgrad, niter, warm, solver, ds⟩ τ x p = 0 := by
      rw [← regNormal_res, hp, sub_self]
    simp only [L2.proxBody]
    cases e <;> simp only [Bool.false_eq_true, if_false, if_true]
    · by_cases hn : solver.normaleqs = true
      · simp only [if_pos hn]
        refine ⟨_, p, rfl, ?_⟩
        apply hsuff _ _ hp0
        rw [← regNormal_res]
        split_ifs
        · exact hext.lsqr _ _ _ _ hwp
        · exact hext.cg _ _ _ _ hwp
      · simp only [if_neg hn]
        refine ⟨_, p, rfl, ?_⟩
        apply hsuff _ _ hp0
        refine le_trans (le_of_eq ?_) (hext.regInv (Op.scale √(τ * σ)) (√(τ * σ) • b)
          (L2.subQ ⟨.opB Op false b, q, σ, α, qgrad, niter, warm, solver, ds⟩ x τ) (niter.get (st.count + 1)) st.x0)
        congr 1
        set z := ext.regInv (Op.scale √(τ * σ)) (√(τ * σ) • b) _ (niter.get (st.count + 1)) st.x0
        have h2 : (Op.scale √(τ * σ)).rmatvec ((Op.scale √(τ * σ)).matvec z - √(τ * σ) • b) =
            (τ * σ) • Op.rmatvec (Op.matvec z - b) := by
          simp only [LinOp.scale, LinearMap.smul_apply, ← smul_sub, map_smul, smul_smul]
          rw [Real.mul_self_sqrt hts.le]
        rw [h2]
        unfold l2Res l2Grad L2.subQ
        cases q <;>
        · simp only [smul_add, smul_smul, smul_zero]
          abel
    · by_cases hd : ds ≠ .factorize
      · simp only [if_pos hd]
        refine ⟨_, p, rfl, ?_⟩
        apply hsuff _ _ hp0
        rw [← regNormal_res]
        exact hext.div _ _ _ hwp
      · simp only [if_neg hd]
        have hfin : l2Res ⟨.opB Op true b, q, σ, α, qgrad, niter, warm, solver, ds⟩ τ x
            (ext.choSolve (ext.choFactor (Op.regNormal (τ * σ)))
              (L2.subQ ⟨.opB Op true b, q, σ, α, qgrad, niter, warm, solver, ds⟩ (x + τ • (σ • Op.rmatvec b)) τ)) =
            Op.regNormal (τ * σ) (ext.choSolve (ext.choFactor (Op.regNormal (τ * σ)))
              (L2.subQ ⟨.opB Op true b, q, σ, α, qgrad, niter, warm, solver, ds⟩ (x + τ • (σ • Op.rmatvec b)) τ)) -
            (L2.subQ ⟨.opB Op true b, q, σ, α, qgrad, niter, warm, solver, ds⟩ (x + τ • (σ • Op.rmatvec b)) τ) :=
          (regNormal_res Op true b q σ α qgrad niter warm solver ds τ x _).symm
        by_cases ht : st.tausigma ≠ τ * σ
        · simp only [if_pos ht]
          exact ⟨_, p, rfl, hsuff _ _ hp0 (by rw [hfin]; exact hext.cho _ _ hwp)⟩
        · simp only [if_neg ht]
          push Not at ht
          simp only [CacheOk] at hcache
          rcases hcache with ⟨-, h0⟩ | h1
          · exfalso; rw [h0] at ht; exact hts.ne ht
          · simp only [h1]
            refine ⟨_, p, rfl, ?_⟩
            rw [ht]
            exact hsuff _ _ hp0 (by rw [hfin]; exact hext.cho _ _ hwp)
  | opOnly Op e => exact hclosed fun _ _ _ => by simp
  | bOnly b => exact hclosed fun _ _ _ => by simp
  | nothing => exact hclosed fun _ _ _ => by simp

/-- C17: in every configuration, after any history of `prox` calls (with any steps, accepted or not), `prox(x, tau)` returns a point whose
distance to the unique minimiser is at most the residual `δ` of the inner solve; with exact inner solves it
is the minimiser. -/
theorem C17_l2_prox [FiniteDimensional ℝ E] (ext : L2Ext E F C) (δ : ℝ) (hext : L2ExtWithin ext δ) (a : L2Args E F)
    (hσ : 0 < a.σ) (x0 : Option E) (s : L2State E C) (hs : L2.init a x0 = .ok s) (calls : List (E × ℝ)) (x : E) (τ : ℝ) (hτ : 0 < τ) :
    ∃ z p, (L2.prox ext a (L2.after ext a s calls) x τ).2.1 = .ok z ∧ IsUniqueProx (XFun.ofReal (l2Spec a)) τ x p ∧
      ‖z - p‖ ≤ δ :=
  l2_prox_of_cache ext δ hext a hσ _ (cacheOk_after ext a calls s (cacheOk_init ext a x0 s hs)) x τ hτ

/-- Exact solvers exist in finite dimension, so the hypothesis of C17 can be met with `δ = 0`. -/
theorem exists_exactExt [FiniteDimensional ℝ E] [FiniteDimensional ℝ F] : ∃ ext : L2Ext E F (E →ₗ[ℝ] E), L2ExtWithin ext 0 := by
  classical
  have h1 : ∀ (M : E →ₗ[ℝ] E) (y : E), ∃ z, WellPosed M → M z = y := fun M y => by
    by_cases h : WellPosed M
    · obtain ⟨z, hz⟩ := wellPosed_solve h y
      exact ⟨z, fun _ => hz⟩
    · exact ⟨0, fun h' => absurd h' h⟩
  choose S hS using h1
  refine ⟨⟨fun _ => S, id, S, fun M y _ _ => S M y, fun M y _ _ => S M y,
    fun A d y _ _ => S (A.regNormal 1) (y + A.rmatvec d)⟩, ?_⟩
  refine ⟨fun _ M y h => ?_, fun M y h => ?_, fun M y _ _ h => ?_, fun M y _ _ h => ?_, fun A d y _ _ => ?_⟩
  · simp [hS M y h]
  · simp [hS M y h]
  · simp [hS M y h]
  · simp [hS M y h]
  · have := hS (A.regNormal 1) (y + A.rmatvec d) (wellPosed_regNormal A zero_le_one)
    simp only
    set z := S (A.regNormal 1) (y + A.rmatvec d)
    simp only [LinOp.regNormal, LinearMap.add_apply, LinearMap.id_apply, LinearMap.smul_apply, LinearMap.comp_apply,
      one_smul] at this
    have e : A.rmatvec (A.matvec z - d) + (z - y) = (z + A.rmatvec (A.matvec z)) - (y + A.rmatvec d) := by
      rw [map_sub]; abel
    rw [e, this, sub_self, norm_zero]

/-- C17: with `densesolver="factorize"`, `sigma = 0` (a legal argument) makes the first call fail with `AttributeError`: the sentinel
`tausigma = 0` already equals `tau * sigma`. -/
theorem C17_l2_sigma_zero_raises (ext : L2Ext E F C) (a : L2Args E F) (Op : LinOp E F) (b : F) (hd : a.data = .opB Op true b)
    (hf : a.densesolver = .factorize) (hσ : a.σ = 0) (x0 : Option E) (s : L2State E C) (hs : L2.init a x0 = .ok s) (x : E) (τ : ℝ)
    (hτ : 0 < τ) : (L2.prox ext a s x τ).2.1 = .error .attributeError := by
  unfold L2.init at hs
  split_ifs at hs
  cases hs
  obtain ⟨data, q, σ, α, qgrad, niter, warm, solver, ds⟩ := a
  simp only at hd hf hσ
  subst hd hf hσ
  simp [L2.prox, L2.proxBody, not_le.2 hτ]

/-! ## C18 -/

/-- C18: `__call__` evaluates the documented function. -/
theorem C18_l2_call (a : L2Args E F) (x : E) : L2.call a x = .ok (.num (l2Spec a x)) := by
  obtain ⟨data, q, σ, α, qgrad, niter, warm, solver, ds⟩ := a
  unfold L2.call l2Spec
  cases data <;> cases q <;> simp

/-- A matrix in finite dimension is bounded. -/
lemma linop_bound [FiniteDimensional ℝ E] (A : E →ₗ[ℝ] F) : ∃ K, 0 ≤ K ∧ ∀ v, ‖A v‖ ≤ K * ‖v‖ := by
  refine ⟨‖LinearMap.toContinuousLinearMap A‖, norm_nonneg _, fun v => ?_⟩
  exact (LinearMap.toContinuousLinearMap A).le_opNorm v

lemma l2Spec_isGrad [FiniteDimensional ℝ E] (a : L2Args E F) (x : E) : IsGrad (l2Spec a) x (l2Grad a x) := by
  have hb : ∃ K, 0 ≤ K ∧ ∀ v : E, (match a.data with
      | .opB Op _ _ => ‖Op.matvec v‖ ^ 2
      | _ => ‖v‖ ^ 2) ≤ K * ‖v‖ ^ 2 := by
    cases a.data with
    | opB Op e b =>
      obtain ⟨K, hK, h⟩ := linop_bound Op.matvec
      refine ⟨K ^ 2, by positivity, fun v => ?_⟩
      simp only
      rw [← mul_pow]
      exact pow_le_pow_left₀ (norm_nonneg _) (h v) 2
    | opOnly => exact ⟨1, zero_le_one, fun v => by simp⟩
    | bOnly => exact ⟨1, zero_le_one, fun v => by simp⟩
    | nothing => exact ⟨1, zero_le_one, fun v => by simp⟩
  obtain ⟨K, hK, hb⟩ := hb
  apply isGrad_of_quad (C := |a.σ| / 2 * K)
  intro y
  rw [l2Spec_expand a x y]
  have h0 : 0 ≤ (match a.data with
      | .opB Op _ _ => ‖Op.matvec (y - x)‖ ^ 2
      | _ => ‖y - x‖ ^ 2) := by split <;> positivity
  have h1 := hb (y - x)
  set m := (match a.data with
      | .opB Op _ _ => ‖Op.matvec (y - x)‖ ^ 2
      | _ => ‖y - x‖ ^ 2)
  have : l2Spec a x + ⟪l2Grad a x, y - x⟫ + a.σ / 2 * m - l2Spec a x - ⟪l2Grad a x, y - x⟫ = a.σ / 2 * m := by ring
  rw [this, abs_mul, abs_of_nonneg h0, abs_div, abs_two, mul_assoc]
  exact mul_le_mul_of_nonneg_left h1 (by positivity)

/-- C18: `grad` is the gradient of the evaluated function at every point; with `qgrad=False` it is that of the function without the
linear term. -/
theorem C18_l2_grad [FiniteDimensional ℝ E] (a : L2Args E F) (x : E) :
    ∃ g, L2.grad a x = .ok g ∧ (a.qgrad = true → IsGrad (fun y => (Except.toOption (L2.call a y)).elim 0 CallVal.toReal) x g) ∧
      (a.qgrad = false → IsGrad (l2Spec { a with q := none }) x g) := by
  have hcall : (fun y => (Except.toOption (L2.call a y)).elim 0 CallVal.toReal) = l2Spec a := by
    funext y; rw [C18_l2_call]; rfl
  rw [hcall]
  refine ⟨_, rfl, fun h => ?_, fun h => ?_⟩
  · have := l2Spec_isGrad a x
    convert this using 1
    obtain ⟨data, q, σ, α, qgrad, niter, warm, solver, ds⟩ := a
    simp only at h
    subst h
    unfold l2Grad
    cases data <;> cases q <;> simp
  · have := l2Spec_isGrad { a with q := none } x
    convert this using 1
    obtain ⟨data, q, σ, α, qgrad, niter, warm, solver, ds⟩ := a
    simp only at h
    subst h
    unfold l2Grad
    cases data <;> cases q <;> simp

/-! ## C19 -/

/-- C19: with an explicit operator and `densesolver="factorize"`, after any history of calls with any steps `prox` returns
exactly what a freshly built operator returns (also when it fails), whatever the factorization routines compute. -/
theorem C19_l2_cache (ext : L2Ext E F C) (a : L2Args E F) (Op : LinOp E F) (b : F) (hd : a.data = .opB Op true b)
    (hf : a.densesolver = .factorize) (x0 : Option E) (s : L2State E C) (hs : L2.init a x0 = .ok s) (calls : List (E × ℝ))
    (x : E) (τ : ℝ) : (L2.prox ext a (L2.after ext a s calls) x τ).2.1 = (L2.prox ext a s x τ).2.1 := by
  have key : ∀ st : L2State E C, CacheOk ext a st → (a.σ = 0 → st.cl = none) → (L2.prox ext a st x τ).2.1 =
      if τ ≤ 0 then .error .valueError else if a.σ = 0 then .error .attributeError else
        .ok (ext.choSolve (ext.choFactor (Op.regNormal (τ * a.σ))) (L2.subQ a (x + τ • (a.σ • Op.rmatvec b)) τ)) := by
    intro st hst h0
    obtain ⟨data, q, σ, α, qgrad, niter, warm, solver, ds⟩ := a
    simp only at hd hf h0
    subst hd hf
    simp only [CacheOk] at hst
    unfold L2.prox
    by_cases hτ : τ ≤ 0
    · simp only [if_pos hτ]
    · have hτ' := not_le.1 hτ
      simp only [if_neg hτ, L2.proxBody, if_true, ne_eq, not_true, if_false]
      by_cases ht : st.tausigma = τ * σ
      · simp only [ht, not_true, if_false]
        rcases hst with ⟨h1, h2⟩ | h1
        · simp only [h1]
          have : σ = 0 := by
            rw [h2] at ht
            rcases mul_eq_zero.1 ht.symm with h | h
            · exact absurd h hτ'.ne'
            · exact h
          rw [if_pos this]
        · have hσ0 : σ ≠ 0 := fun h => by rw [h0 h] at h1; cases h1
          simp only [h1, if_neg hσ0, ht]
      · simp only [ht, not_false_eq_true, if_true]
        by_cases hσ0 : σ = 0
        · exfalso
          rcases hst with ⟨h1, h2⟩ | h1
          · apply ht; rw [h2, hσ0, mul_zero]
          · rw [h0 hσ0] at h1; cases h1
        · rw [if_neg hσ0]
  have hcl : a.σ = 0 → (L2.after ext a s calls).cl = none ∧ (L2.after ext a s calls).tausigma = 0 := by
    intro hσ
    have h0 : s.cl = none ∧ s.tausigma = 0 := by
      unfold L2.init at hs; split_ifs at hs; cases hs; exact ⟨rfl, rfl⟩
    clear hs
    induction calls generalizing s with
    | nil => exact h0
    | cons c cs ih =>
      apply ih
      obtain ⟨data, q, σ, α, qgrad, niter, warm, solver, ds⟩ := a
      simp only at hd hf hσ
      subst hd hf hσ
      unfold L2.prox
      by_cases hτ : c.2 ≤ 0
      · simp only [if_pos hτ]; exact h0
      · simp only [if_neg hτ, L2.proxBody, if_true, ne_eq, not_true, if_false, mul_zero, h0.2, h0.1]
        exact ⟨trivial, trivial⟩
  have hinit := cacheOk_init ext a x0 s hs
  rw [key _ (cacheOk_after ext a calls s hinit) fun h => (hcl h).1, key s hinit fun _ => by
    unfold L2.init at hs; split_ifs at hs; cases hs; rfl]

/-! ## C36 -/

/-- C36, partial: `L2.prox` leaves the caller's array unchanged unless `q` is given and either there is no data `b` or the
`cgls` solver is used with a non-explicit operator.  Missing: those two cases, where it is false (`C36_l2_input_refuted`). -/
theorem C36_l2_input_partial (ext : L2Ext E F C) (a : L2Args E F) (st : L2State E C) (x : E) (τ : ℝ)
    (h : a.q = none ∨ (∃ b, a.data = .bOnly b) ∨ ∃ Op e b, a.data = .opB Op e b ∧ (e = true ∨ a.solver.normaleqs = true)) :
    (L2.prox ext a st x τ).2.2 = x := by
  obtain ⟨data, q, σ, α, qgrad, niter, warm, solver, ds⟩ := a
  simp only at h
  unfold L2.prox
  by_cases hτ : τ ≤ 0
  · simp only [if_pos hτ]
  · simp only [if_neg hτ]
    cases data with
    | opB Op e b =>
      simp only [L2.proxBody]
      cases e <;> simp only [Bool.false_eq_true, if_false, if_true]
      · by_cases hn : solver.normaleqs = true
        · simp only [if_pos hn]
        · simp only [if_neg hn]
          rcases h with h | ⟨b', h⟩ | ⟨Op', e', b', h, h'⟩
          · simp only [L2.subQ, h]
          · cases h
          · cases h; simp at h'; exact absurd h' hn
      · by_cases hd : ds ≠ .factorize
        · simp only [if_pos hd]
        · simp only [if_neg hd]
          by_cases ht : st.tausigma ≠ τ * σ
          · simp only [if_pos ht]
          · simp only [if_neg ht]
            cases st.cl <;> rfl
    | opOnly Op e =>
      rcases h with h | ⟨b', h⟩ | ⟨Op', e', b', h, h'⟩
      · simp only [L2.proxBody, L2.subQ, h]
      · cases h
      · cases h
    | bOnly b => rfl
    | nothing =>
      rcases h with h | ⟨b', h⟩ | ⟨Op', e', b', h, h'⟩
      · simp only [L2.proxBody, L2.subQ, h]
      · cases h
      · cases h

/-- C36, refutation: with `q` and no data, or with `q` and `solver="cgls"` on a non-explicit operator, every accepted call overwrites the
caller's array with `x - tau alpha q`. -/
theorem C36_l2_input_refuted (ext : L2Ext E F C) (a : L2Args E F) (st : L2State E C) (x q : E) (τ : ℝ) (hτ : 0 < τ)
    (hq : a.q = some q) (hα : a.α ≠ 0) (hq0 : q ≠ 0)
    (h : a.data = .nothing ∨ (∃ Op b, a.data = .opB Op false b) ∧ a.solver = .cgls) :
    (L2.prox ext a st x τ).2.2 = x - (τ * a.α) • q ∧ (L2.prox ext a st x τ).2.2 ≠ x := by
  have h1 : (L2.prox ext a st x τ).2.2 = x - (τ * a.α) • q := by
    obtain ⟨data, q', σ, α, qgrad, niter, warm, solver, ds⟩ := a
    simp only at h hq
    subst hq
    unfold L2.prox
    simp only [if_neg (not_le.2 hτ)]
    rcases h with h | ⟨⟨Op, b, h⟩, h'⟩
    · subst h; rfl
    · subst h h'; rfl
  refine ⟨h1, ?_⟩
  rw [h1]
  intro h2
  have : (τ * a.α) • q = 0 := by
    have := sub_eq_self.1 h2
    exact this
  rcases smul_eq_zero.1 this with h3 | h3
  · exact mul_ne_zero hτ.ne' hα h3
  · exact hq0 h3

/-! ## C20: `Quadratic` -/

/-- `<x, Op x>/2 + <b, x> + c`. -/
noncomputable def quadSpec (A : E →ₗ[ℝ] E) (b : E) (c : ℝ) (x : E) : ℝ := ⟪x, A x⟫ / 2 + ⟪b, x⟫ + c

lemma quadSpec_expand (A : E →ₗ[ℝ] E) (b : E) (c : ℝ) (p y : E) :
    quadSpec A b c y = quadSpec A b c p + (⟪A p, y - p⟫ + ⟪p, A (y - p)⟫) / 2 + ⟪b, y - p⟫ + ⟪y - p, A (y - p)⟫ / 2 := by
  obtain ⟨d, rfl⟩ : ∃ d, y = p + d := ⟨y - p, by abel⟩
  simp only [quadSpec, add_sub_cancel_left, map_add, inner_add_left, inner_add_right]
  rw [real_inner_comm d (A p)]; ring

/-- C20: the evaluated function, in each configuration. -/
theorem C20_quadratic_call (c : ℝ) (x : E) (Op : LinOp E E) (e : Bool) (b : E) :
    Quadratic.call (.op Op e (some b)) c x = .ok (.num (quadSpec Op.matvec b c x)) ∧
      Quadratic.call (.op Op e none) c x = .ok (.num (quadSpec Op.matvec 0 c x)) ∧
      Quadratic.call (.bOnly b) c x = .ok (.num (⟪b, x⟫ + c)) ∧ Quadratic.call (QuadData.nothing (E := E)) c x = .ok (.num c) :=
  ⟨rfl, rfl, rfl, rfl⟩

/-- C20: a non-square operator is rejected. -/
theorem C20_quadratic_shape (m n : ℕ) : quadShapeCheck m n = .ok () ↔ m = n := by
  unfold quadShapeCheck
  by_cases h : m = n <;> simp [h]

/-- C20, partial: for a symmetric `Op` such that `I + tau Op` is bounded below by `mu > 0`, `prox` returns a point within
`residual / mu` of the unique minimiser (so the minimiser itself for an exact solve).  Missing: the other square operators the
constructor accepts, see `C20_quadratic_prox_refuted`. -/
theorem C20_quadratic_prox_partial [FiniteDimensional ℝ E] (ext : QuadExt E) (Op : LinOp E E) (explicit : Bool) (b : Option E) (c : ℝ) (niter : ℕ)
    (warm : Bool) (x0 : Option E) (x : E) (τ μ δ : ℝ) (hτ : 0 < τ) (hμ : 0 < μ) (hsym : ∀ v w, ⟪Op.matvec v, w⟫ = ⟪v, Op.matvec w⟫)
    (hpos : ∀ v, μ * ‖v‖ ^ 2 ≤ ⟪v + τ • Op.matvec v, v⟫)
    (hdiv : ∀ y z, z = ext.div (LinearMap.id + τ • Op.matvec) y → ‖z + τ • Op.matvec z - y‖ ≤ δ)
    (hlsqr : ∀ y z, z = ext.lsqr (LinearMap.id + τ • Op.matvec) y niter x0 → ‖z + τ • Op.matvec z - y‖ ≤ δ) :
    ∃ z p, (Quadratic.prox ext (.op Op explicit b) niter warm x0 x τ).2 = .ok z ∧
      IsUniqueProx (XFun.ofReal (quadSpec Op.matvec (quadB b) c)) τ x p ∧ ‖z - p‖ ≤ δ / μ := by
  obtain ⟨p, hp⟩ : ∃ p, p + τ • (Op.matvec p + quadB b) = x := by
    set M : E →ₗ[ℝ] E := LinearMap.id + τ • Op.matvec with hM
    have hinj : Function.Injective M := by
      rw [← LinearMap.ker_eq_bot, LinearMap.ker_eq_bot']
      intro v hv
      have h1 := hpos v
      have h2 : v + τ • Op.matvec v = M v := rfl
      rw [h2, hv, inner_zero_left] at h1
      have h3 : ‖v‖ ^ 2 ≤ 0 := by nlinarith
      exact norm_eq_zero.1 (pow_eq_zero_iff two_ne_zero |>.1 (le_antisymm h3 (sq_nonneg _)))
    obtain ⟨p, hp⟩ := LinearMap.surjective_of_injective hinj (x - τ • quadB b)
    refine ⟨p, ?_⟩
    have h2 : p + τ • Op.matvec p = M p := rfl
    rw [smul_add, ← add_assoc, h2, hp]; abel
  simp only [Quadratic.prox, if_neg (not_le.2 hτ)]
  refine ⟨_, p, rfl, ?_, ?_⟩
  · -- strict minimality by the exact expansion
    have hexp : ∀ y, proxObj (XFun.ofReal (quadSpec Op.matvec (quadB b) c)) τ x y =
        proxObj (XFun.ofReal (quadSpec Op.matvec (quadB b) c)) τ x p + ⟪(y - p) + τ • Op.matvec (y - p), y - p⟫ / (2 * τ) := by
      intro y
      simp only [proxObj, XFun.ofReal]
      rw [quadSpec_expand _ _ _ p y, norm_sub_sq_expand y x p, ← hsym p (y - p)]
      have e : x - p = τ • (Op.matvec p + quadB b) := by rw [← hp]; abel
      rw [e, real_inner_smul_left, inner_add_left, inner_add_left, real_inner_smul_left, real_inner_self_eq_norm_sq,
        hsym (y - p) (y - p)]
      field_simp
      ring
    refine ⟨⟨trivial, fun y _ => ?_⟩, fun q hq => ?_⟩
    · rw [hexp y]
      have := hpos (y - p)
      have h2 : 0 ≤ ⟪(y - p) + τ • Op.matvec (y - p), y - p⟫ / (2 * τ) :=
        div_nonneg (le_trans (by positivity) this) (by positivity)
      linarith
    · have h1 := hq.2 p trivial
      rw [hexp q] at h1
      have h2 := hpos (q - p)
      have h3 : ⟪(q - p) + τ • Op.matvec (q - p), q - p⟫ / (2 * τ) ≤ 0 := by linarith
      have h4 : ⟪(q - p) + τ • Op.matvec (q - p), q - p⟫ ≤ 0 := by
        rw [div_le_iff₀ (by positivity)] at h3; linarith
      have h5 : ‖q - p‖ ^ 2 ≤ 0 := by nlinarith
      have h6 : ‖q - p‖ = 0 := by
        have := sq_nonneg ‖q - p‖
        exact pow_eq_zero_iff two_ne_zero |>.1 (le_antisymm h5 this)
      exact sub_eq_zero.1 (norm_eq_zero.1 h6)
  · set M : E →ₗ[ℝ] E := LinearMap.id + τ • Op.matvec
    set z := (if explicit = true then ext.div M (x - τ • quadB b) else ext.lsqr M (x - τ • quadB b) niter x0) with hz
    have hres : ‖M z - (x - τ • quadB b)‖ ≤ δ := by
      rw [hz]; split_ifs
      · exact hdiv _ _ rfl
      · exact hlsqr _ _ rfl
    have hMp : M p = x - τ • quadB b := by
      simp only [M, LinearMap.add_apply, LinearMap.id_apply, LinearMap.smul_apply]
      rw [← hp, smul_add]; abel
    rw [← hMp, ← map_sub] at hres
    have h1 := hpos (z - p)
    have h2 : z - p + τ • Op.matvec (z - p) = M (z - p) := rfl
    rw [h2] at h1
    have h3 := (h1.trans (real_inner_le_norm _ _)).trans (mul_le_mul_of_nonneg_right hres (norm_nonneg _))
    rw [le_div_iff₀ hμ]
    by_cases hv : ‖z - p‖ = 0
    · rw [hv]
      have := (norm_nonneg _).trans hres
      linarith
    · have : 0 < ‖z - p‖ := lt_of_le_of_ne (norm_nonneg _) (Ne.symm hv)
      nlinarith

/-- C20: the configurations without `Op` are exact. -/
theorem C20_quadratic_prox_linear (ext : QuadExt E) (b : E) (c : ℝ) (niter : ℕ) (warm : Bool) (x0 : Option E) (x : E) (τ : ℝ) (hτ : 0 < τ) :
    (∃ p, (Quadratic.prox ext (.bOnly b) niter warm x0 x τ).2 = .ok p ∧ IsUniqueProx (XFun.ofReal fun y => ⟪b, y⟫ + c) τ x p) ∧
    ∃ p, (Quadratic.prox ext .nothing niter warm x0 x τ).2 = .ok p ∧ IsUniqueProx (XFun.ofReal fun _ : E => c) τ x p := by
  simp only [Quadratic.prox, if_neg (not_le.2 hτ)]
  refine ⟨⟨_, rfl, quad_prox hτ (g := b) (fun y => ?_) (by abel)⟩, ⟨_, rfl, quad_prox hτ (g := 0) (fun y => ?_) (by simp)⟩⟩
  · have := inner_sub_right (𝕜 := ℝ) b y (x - τ • b)
    linarith
  · simp

/-- C20, partial: for a symmetric `Op` `grad` is the gradient of the evaluated function.  Missing: non-symmetric operators, see
`C20_quadratic_grad_refuted`. -/
theorem C20_quadratic_grad_partial [FiniteDimensional ℝ E] (Op : LinOp E E) (e : Bool) (b : Option E) (c : ℝ)
    (hsym : ∀ v w, ⟪Op.matvec v, w⟫ = ⟪v, Op.matvec w⟫) (x : E) :
    ∃ g, Quadratic.grad (.op Op e b) x = .ok g ∧ IsGrad (quadSpec Op.matvec (quadB b) c) x g := by
  refine ⟨_, rfl, ?_⟩
  obtain ⟨K, hK, hb⟩ := linop_bound Op.matvec
  apply isGrad_of_quad (C := K / 2)
  intro y
  rw [quadSpec_expand _ _ _ x y, ← hsym x (y - x), inner_add_left]
  have e1 : ∀ u v w z : ℝ, u + (v + v) / 2 + w + z / 2 - u - (v + w) = z / 2 := by intros; ring
  rw [e1, abs_div, abs_two]
  have := (abs_real_inner_le_norm (y - x) (Op.matvec (y - x))).trans (mul_le_mul_of_nonneg_left (hb (y - x)) (norm_nonneg _))
  nlinarith

/-- C20: the gradient of the configurations without `Op`. -/
theorem C20_quadratic_grad_linear (b : E) (c : ℝ) (x : E) :
    (∃ g, Quadratic.grad (.bOnly b) x = .ok g ∧ IsGrad (fun y => ⟪b, y⟫ + c) x g) ∧
      ∃ g, Quadratic.grad .nothing x = .ok g ∧ IsGrad (fun _ : E => c) x g := by
  refine ⟨⟨_, rfl, isGrad_of_quad (C := 0) fun y => ?_⟩, ⟨_, rfl, isGrad_of_quad (C := 0) fun y => ?_⟩⟩
  · rw [inner_sub_right]
    have : ⟪b, y⟫ + c - (⟪b, x⟫ + c) - (⟪b, y⟫ - ⟪b, x⟫) = 0 := by ring
    rw [this]; simp
  · simp

/-- C20, refutation: for *every* operator that is not symmetric there is a point where `grad` is not the gradient. -/
theorem C20_quadratic_grad_refuted [FiniteDimensional ℝ E] (Op : LinOp E E) (e : Bool) (b : Option E) (c : ℝ)
    (hns : ∃ v w, ⟪Op.matvec v, w⟫ ≠ ⟪v, Op.matvec w⟫) :
    ∃ x g, Quadratic.grad (.op Op e b) x = .ok g ∧ ¬ IsGrad (quadSpec Op.matvec (quadB b) c) x g := by
  obtain ⟨v, w, hvw⟩ := hns
  refine ⟨v, _, rfl, fun h => hvw ?_⟩
  have hg : IsGrad (quadSpec Op.matvec (quadB b) c) v ((1 / 2 : ℝ) • (Op.matvec v + Op.rmatvec v) + quadB b) := by
    obtain ⟨K, hK, hb⟩ := linop_bound Op.matvec
    apply isGrad_of_quad (C := K / 2)
    intro y
    rw [quadSpec_expand _ _ _ v y, inner_add_left, real_inner_smul_left, inner_add_left]
    have h1 : ⟪Op.rmatvec v, y - v⟫ = ⟪v, Op.matvec (y - v)⟫ := by
      rw [real_inner_comm, ← Op.dot, real_inner_comm]
    rw [h1]
    have e1 : ∀ u a b w z : ℝ, u + (a + b) / 2 + w + z / 2 - u - (1 / 2 * (a + b) + w) = z / 2 := by intros; ring
    rw [e1, abs_div, abs_two]
    have := (abs_real_inner_le_norm (y - v) (Op.matvec (y - v))).trans (mul_le_mul_of_nonneg_left (hb (y - v)) (norm_nonneg _))
    nlinarith
  have := congrArg (fun L => L w) (HasFDerivAt.unique h hg)
  simp only [innerSL_apply_apply, inner_add_left, real_inner_smul_left] at this
  have h1 : ⟪Op.rmatvec v, w⟫ = ⟪v, Op.matvec w⟫ := by rw [real_inner_comm, ← Op.dot, real_inner_comm]
  rw [h1] at this
  linarith

/-- C20, refutation: for *every* operator that is not symmetric (with `I + tau Op` invertible and an exact solve) there is a point
where `prox` does not return a minimiser. -/
theorem C20_quadratic_prox_refuted (ext : QuadExt E) (Op : LinOp E E) (b : Option E) (c : ℝ) (niter : ℕ) (warm : Bool)
    (x0 : Option E) (τ : ℝ) (hτ : 0 < τ) (hns : ∃ v w, ⟪Op.matvec v, w⟫ ≠ ⟪v, Op.matvec w⟫)
    (hdiv : ∀ z, ext.div (LinearMap.id + τ • Op.matvec) (z + τ • Op.matvec z) = z) :
    ∃ x z, (Quadratic.prox ext (.op Op true b) niter warm x0 x τ).2 = .ok z ∧
      ¬ IsProx (XFun.ofReal (quadSpec Op.matvec (quadB b) c)) τ x z := by
  obtain ⟨v, w, hvw⟩ := hns
  refine ⟨v + τ • (Op.matvec v + quadB b), v, ?_, fun h => hvw ?_⟩
  · simp only [Quadratic.prox, if_neg (not_le.2 hτ), if_true]
    congr 1
    have : v + τ • (Op.matvec v + quadB b) - τ • quadB b = v + τ • Op.matvec v := by
      rw [smul_add]; abel
    rw [this]; exact hdiv v
  · -- along v + t w the objective has derivative (<v, Op w> - <Op v, w>)/2 at t = 0
    set k := (⟪v, Op.matvec w⟫ - ⟪Op.matvec v, w⟫) / 2 with hk
    set m := ⟪w, Op.matvec w⟫ / 2 + ‖w‖ ^ 2 / (2 * τ) with hm
    have hexp : ∀ t : ℝ, 0 ≤ t * k + t ^ 2 * m := by
      intro t
      have h1 := h.2 (v + t • w) trivial
      simp only [proxObj, XFun.ofReal] at h1
      rw [quadSpec_expand _ _ _ v (v + t • w), norm_sub_sq_expand (v + t • w) _ v] at h1
      simp only [add_sub_cancel_left, map_smul, real_inner_smul_left, real_inner_smul_right, norm_smul, mul_pow,
        Real.norm_eq_abs, sq_abs, inner_add_left] at h1
      have e : t * k + t ^ 2 * m = (t * ⟪Op.matvec v, w⟫ + t * ⟪v, Op.matvec w⟫) / 2 + t * ⟪quadB b, w⟫ +
          t * (t * ⟪w, Op.matvec w⟫) / 2 + (t ^ 2 * ‖w‖ ^ 2 - 2 * (τ * (t * ⟪Op.matvec v, w⟫ + t * ⟪quadB b, w⟫))) / (2 * τ) := by
        rw [hk, hm]; field_simp; ring
      rw [e]
      have e2 : ∀ A B : ℝ, (A + t ^ 2 * ‖w‖ ^ 2 - B) / (2 * τ) = A / (2 * τ) + (t ^ 2 * ‖w‖ ^ 2 - B) / (2 * τ) := by
        intro A B; rw [← add_div]; congr 1; ring
      rw [e2] at h1
      have e3 : t * (τ * (⟪Op.matvec v, w⟫ + ⟪quadB b, w⟫)) = τ * (t * ⟪Op.matvec v, w⟫ + t * ⟪quadB b, w⟫) := by ring
      rw [e3] at h1
      linarith
    have hk0 : k = 0 := by
      by_contra hne
      have hM : 0 < |m| + 1 := by positivity
      have h1 := hexp (-k / (2 * (|m| + 1)))
      have h2 : 0 < k ^ 2 := by positivity
      have h3 : -k / (2 * (|m| + 1)) * k + (-k / (2 * (|m| + 1))) ^ 2 * m = k ^ 2 / (4 * (|m| + 1) ^ 2) * (m - 2 * (|m| + 1)) := by
        field_simp; ring
      rw [h3] at h1
      have h4 : m - 2 * (|m| + 1) < 0 := by linarith [le_abs_self m, abs_nonneg m]
      have h5 : 0 < k ^ 2 / (4 * (|m| + 1) ^ 2) := by positivity
      nlinarith [mul_pos h5 (neg_pos.2 h4)]
    linarith

/-- A rotation is a non-symmetric square operator: the hypotheses of the refutations can be met. -/
example : ∃ (Op : LinOp (Vec (Fin 2)) (Vec (Fin 2))) (v w : Vec (Fin 2)), ⟪Op.matvec v, w⟫ ≠ ⟪v, Op.matvec w⟫ := by
  let L : Vec (Fin 2) →ₗ[ℝ] Vec (Fin 2) := Matrix.toEuclideanLin !![0, 1; 0, 0]
  refine ⟨⟨L, LinearMap.adjoint L, fun x y => by rw [LinearMap.adjoint_inner_right]⟩, EuclideanSpace.single 1 1, EuclideanSpace.single 0 1, ?_⟩
  have h0 : L (EuclideanSpace.single 1 1) = EuclideanSpace.single 0 1 := by
    ext i; fin_cases i <;> simp [L, Matrix.toEuclideanLin, Matrix.toLpLin_apply, Matrix.mulVec, dotProduct, Fin.sum_univ_two]
  have h1 : L (EuclideanSpace.single 0 1) = 0 := by
    ext i; fin_cases i <;> simp [L, Matrix.toEuclideanLin, Matrix.toLpLin_apply, Matrix.mulVec, dotProduct, Fin.sum_univ_two]
  simp [h0, h1]

end Verif
