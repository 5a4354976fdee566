import Verif.Props.Accuracy
import Verif.Props.Inexact
import Verif.Props.NonConvex
import Verif.Props.Calculus
import Verif.Props.L2

/-!
# C117: how much the result changes when the arguments change

First what one `prox` call returns, then whole runs, then the solutions the runs converge to.
-/

namespace Verif

open Filter Topology
open scoped RealInnerProductSpace

variable {E H : Type} [NormedAddCommGroup E] [InnerProductSpace ℝ E] [NormedAddCommGroup H] [InnerProductSpace ℝ H]
variable {ι : Type} [Fintype ι]

/-! ## Any convex function -/

lemma sq_le_cancel {a b : ℝ} (ha : 0 ≤ a) (h : a ^ 2 ≤ b * a) (hb : 0 ≤ b) : a ≤ b := by
  rcases ha.eq_or_lt with h0 | h0
  · rw [← h0]; exact hb
  · exact le_of_mul_le_mul_right (by nlinarith) h0

lemma prox_two_steps {F : XFun E} (hF : F.Convex) {τ τ' : ℝ} (hτ : 0 < τ) (hτ' : 0 < τ') {x p p' : E} (hp : IsProx F τ x p) (hp' : IsProx F τ' x p') :
    ‖p - p'‖ ≤ |τ - τ'| / τ * ‖x - p‖ := by
  have h1 := subgrad_le (subgrad_of_isProx hF hτ hp) hp'.1
  have h2 := subgrad_le (subgrad_of_isProx hF hτ' hp') hp.1
  rw [real_inner_smul_left] at h1 h2
  rw [← neg_sub p p', inner_neg_right] at h2
  have h3 : ⟪x - p', p - p'⟫ ≤ τ' * (1 / τ * ⟪x - p, p - p'⟫) := by
    have := mul_le_mul_of_nonneg_left (show 1 / τ' * ⟪x - p', p - p'⟫ ≤ 1 / τ * ⟪x - p, p - p'⟫ by linarith) hτ'.le
    rwa [← mul_assoc, mul_one_div_cancel hτ'.ne', one_mul] at this
  have h4 : ‖p - p'‖ ^ 2 = ⟪x - p', p - p'⟫ - ⟪x - p, p - p'⟫ := by
    rw [← inner_sub_left, ← real_inner_self_eq_norm_sq]; congr 1; abel
  have h5 : τ' * (1 / τ * ⟪x - p, p - p'⟫) - ⟪x - p, p - p'⟫ = (τ' - τ) / τ * ⟪x - p, p - p'⟫ := by field_simp
  have h6 : (τ' - τ) / τ * ⟪x - p, p - p'⟫ ≤ |τ - τ'| / τ * (‖x - p‖ * ‖p - p'‖) := by
    refine (le_abs_self _).trans ?_
    rw [abs_mul, abs_div, abs_of_pos hτ, abs_sub_comm]
    exact mul_le_mul_of_nonneg_left (abs_real_inner_le_norm _ _) (by positivity)
  exact sq_le_cancel (norm_nonneg _) (by nlinarith) (by positivity)

lemma prox_nonexp' {F : XFun E} (hF : F.Convex) {τ : ℝ} (hτ : 0 < τ) {x x' p p' : E} (hp : IsProx F τ x p) (hp' : IsProx F τ x' p') :
    ‖p - p'‖ ≤ ‖x - x'‖ ∧ ‖(x - p) - (x' - p')‖ ≤ ‖x - x'‖ := by
  have h1 := subgrad_le (subgrad_of_isProx hF hτ hp) hp'.1
  have h2 := subgrad_le (subgrad_of_isProx hF hτ hp') hp.1
  rw [real_inner_smul_left] at h1 h2
  rw [← neg_sub p p', inner_neg_right] at h2
  have h3 : 0 ≤ ⟪(x - p) - (x' - p'), p - p'⟫ := by
    rw [inner_sub_left]
    have : 0 ≤ 1 / τ * (⟪x - p, p - p'⟫ - ⟪x' - p', p - p'⟫) := by linarith
    exact nonneg_of_mul_nonneg_right this (by positivity)
  have h4 : ‖x - x'‖ ^ 2 = ‖(x - p) - (x' - p')‖ ^ 2 + 2 * ⟪(x - p) - (x' - p'), p - p'⟫ + ‖p - p'‖ ^ 2 := by
    rw [← norm_add_sq_real]; congr 2; abel
  constructor
  · exact le_of_sq_le_sq (by nlinarith [sq_nonneg ‖(x - p) - (x' - p')‖]) (norm_nonneg _)
  · exact le_of_sq_le_sq (by nlinarith [sq_nonneg ‖p - p'‖]) (norm_nonneg _)

lemma proxExact_of {f : ProxOp E} {F : XFun E} (hf : ProxExact f F) {x p : E} {τ : ℝ} (hτ : 0 < τ) (h : f.prox x τ = .ok p) : IsProx F τ x p := by
  obtain ⟨q, h1, h2⟩ := hf x τ hτ
  rw [h1] at h
  cases h
  exact h2

/-- **C117** a change of the input and of the step, any convex function. -/
theorem C117_step {f : ProxOp E} {F : XFun E} (hF : F.Convex) (hf : ProxExact f F) {τ τ' : ℝ} (hτ : 0 < τ) (hτ' : 0 < τ') {x x' p p' : E}
    (hp : f.prox x τ = .ok p) (hp' : f.prox x' τ' = .ok p') : ‖p - p'‖ ≤ ‖x - x'‖ + |τ - τ'| / τ * ‖x - p‖ := by
  obtain ⟨q, h1, h2⟩ := hf x τ' hτ'
  have k1 := prox_two_steps hF hτ hτ' (proxExact_of hf hτ hp) h2
  have k2 := (prox_nonexp' hF hτ' h2 (proxExact_of hf hτ' hp')).1
  have := norm_sub_le_norm_sub_add_norm_sub p q p'
  linarith

/-- **C117** a change of the weight: `σ * f` against `σ' * f`. -/
theorem C117_weight {f : ProxOp E} {F : XFun E} (hF : F.Convex) (hf : ProxExact f F) {σ σ' τ : ℝ} (hσ : 0 < σ) (hσ' : 0 < σ') (hτ : 0 < τ) {g g' : ProxOp E}
    (hg : f.rmul (.float σ) = .ok g) (hg' : f.rmul (.float σ') = .ok g') {x p p' : E} (hp : g.prox x τ = .ok p) (hp' : g'.prox x τ = .ok p') :
    ‖p - p'‖ ≤ |σ - σ'| / σ * ‖x - p‖ := by
  have key : ∀ {s : ℝ} {k : ProxOp E} {q : E}, 0 < s → f.rmul (.float s) = .ok k → k.prox x τ = .ok q → IsProx F (s * τ) x q := by
    intro s k q hs hk hq
    obtain ⟨k', e, h1, -⟩ := C05_scaling f F s hs hf
    rw [e] at hk
    cases hk
    have h2 := proxExact_of h1 hτ hq
    refine ⟨h2.1, fun y hy => ?_⟩
    have := h2.2 y hy
    simp only [proxObj, XFun.smul] at this ⊢
    have e : ∀ a b : ℝ, s * a + b / (2 * τ) = s * (a + b / (2 * (s * τ))) := fun a b => by field_simp
    rw [e, e] at this
    exact le_of_mul_le_mul_left this hs
  have := prox_two_steps hF (mul_pos hσ hτ) (mul_pos hσ' hτ) (key hσ hg hp) (key hσ' hg' hp')
  rwa [← sub_mul, abs_mul, abs_of_pos hτ, mul_div_mul_right _ _ hτ.ne'] at this

/-- **C117** a change of the linear term: `f + q` against `f + q'`. -/
theorem C117_linear {f : ProxOp E} {F : XFun E} (hF : F.Convex) (hf : ProxExact f F) {τ : ℝ} (hτ : 0 < τ) {q q' : E} {g g' : ProxOp E}
    (hg : f.affineAddition (.array q) = .ok g) (hg' : f.affineAddition (.array q') = .ok g') {x p p' : E} (hp : g.prox x τ = .ok p) (hp' : g'.prox x τ = .ok p') :
    ‖p - p'‖ ≤ τ * ‖q - q'‖ := by
  have key : ∀ {v : E} {k : ProxOp E} {y : E}, f.affineAddition (.array v) = .ok k → k.prox x τ = .ok y → IsProx F τ (x - τ • v) y := by
    intro v k y hk hy
    obtain ⟨k', e, h1, -⟩ := C04_add_linear f F v hf
    rw [e] at hk
    cases hk
    have h2 := proxExact_of h1 hτ hy
    refine ⟨h2.1, fun z hz => ?_⟩
    have := h2.2 z hz
    simp only [proxObj, XFun.addLinear] at this ⊢
    have e : ∀ w : E, ‖w - (x - τ • v)‖ ^ 2 / (2 * τ) = ‖w - x‖ ^ 2 / (2 * τ) + ⟪v, w⟫ + (τ * ‖v‖ ^ 2 / 2 - ⟪v, x⟫) := fun w => by
      rw [show w - (x - τ • v) = (w - x) + τ • v by abel, norm_add_sq_real, norm_smul, inner_smul_right, mul_pow, Real.norm_eq_abs, sq_abs, inner_sub_left,
        real_inner_comm v w, real_inner_comm v x]
      field_simp
      ring
    rw [e, e]
    linarith
  have := (prox_nonexp' hF hτ (key hg hp) (key hg' hp')).1
  rwa [sub_sub_sub_cancel_left, ← smul_sub, norm_smul, Real.norm_of_nonneg hτ.le, norm_sub_rev q'] at this

/-- **C117** a change of the shift: `f(a x + b)` against `f(a x + b')`. -/
theorem C117_shift {f : ProxOp E} {F : XFun E} (hF : F.Convex) (hf : ProxExact f F) (const : ℝ → E) {a τ : ℝ} (ha : a ≠ 0) (hτ : 0 < τ) {b b' : E} {g g' : ProxOp E}
    (hg : f.precomposition const (.float a) (.array b) = .ok g) (hg' : f.precomposition const (.float a) (.array b') = .ok g') {x p p' : E}
    (hp : g.prox x τ = .ok p) (hp' : g'.prox x τ = .ok p') : |a| * ‖p - p'‖ ≤ ‖b - b'‖ := by
  have key : ∀ {v : E} {k : ProxOp E} {y : E}, f.precomposition const (.float a) (.array v) = .ok k → k.prox x τ = .ok y →
      IsProx F (a ^ 2 * τ) (a • x + v) (a • y + v) := by
    intro v k y hk hy
    obtain ⟨k', e, h1, -⟩ := C06_precomposition const f F a ha v hf
    rw [e] at hk
    cases hk
    have h2 := proxExact_of h1 hτ hy
    refine ⟨h2.1, fun z hz => ?_⟩
    have hz' : a • ((1 / a) • (z - v)) + v = z := by rw [smul_smul, mul_one_div_cancel ha, one_smul, sub_add_cancel]
    have := h2.2 ((1 / a) • (z - v)) (by show a • ((1 / a) • (z - v)) + v ∈ F.dom; rw [hz']; exact hz)
    simp only [proxObj, XFun.comp] at this ⊢
    rw [hz'] at this
    have e : ∀ w : E, ‖a • w + v - (a • x + v)‖ ^ 2 / (2 * (a ^ 2 * τ)) = ‖w - x‖ ^ 2 / (2 * τ) := fun w => by
      rw [add_sub_add_right_eq_sub, ← smul_sub, norm_smul, mul_pow, Real.norm_eq_abs, sq_abs]
      field_simp
    have e2 := e ((1 / a) • (z - v))
    rw [hz'] at e2
    rw [e, e2]
    exact this
  have := (prox_nonexp' hF (by positivity) (key hg hp) (key hg' hp')).2
  rw [add_sub_add_left_eq_sub, show a • x + b - (a • p + b) - (a • x + b' - (a • p' + b')) = -(a • (p - p')) by rw [smul_sub]; abel, norm_neg, norm_smul,
    Real.norm_eq_abs] at this
  exact this

/-- **C117** a change of the set: two convex sets whose points are within `d` of each other, projected onto by any two operators. -/
theorem C117_sets {f f' : ProxOp E} {A A' : Set E} (hA : Convex ℝ A) (hA' : Convex ℝ A') (hf : ProxExact f (XFun.indicator A)) (hf' : ProxExact f' (XFun.indicator A'))
    {d : ℝ} (h : ∀ y ∈ A, ∃ z ∈ A', ‖y - z‖ ≤ d) (h' : ∀ z ∈ A', ∃ y ∈ A, ‖y - z‖ ≤ d) {τ τ' : ℝ} (hτ : 0 < τ) (hτ' : 0 < τ') {x p p' : E}
    (hp : f.prox x τ = .ok p) (hp' : f'.prox x τ' = .ok p') : ‖p - p'‖ ^ 2 ≤ d * (‖x - p‖ + ‖x - p'‖) := by
  have hF : (XFun.indicator A).Convex := ⟨hA, fun y _ z _ a b _ _ _ => by simp [XFun.indicator]⟩
  have hF' : (XFun.indicator A').Convex := ⟨hA', fun y _ z _ a b _ _ _ => by simp [XFun.indicator]⟩
  have q := proxExact_of hf hτ hp
  have q' := proxExact_of hf' hτ' hp'
  obtain ⟨z, hz, hzd⟩ := h p q.1
  obtain ⟨y, hy, hyd⟩ := h' p' q'.1
  have k1 := (subgrad_of_isProx hF hτ q).2 y hy
  have k2 := (subgrad_of_isProx hF' hτ' q').2 z hz
  simp only [XFun.indicator, zero_add, real_inner_smul_left] at k1 k2
  have k1 : ⟪x - p, y - p⟫ ≤ 0 := by
    by_contra hc
    have := mul_pos (one_div_pos.2 hτ) (not_le.1 hc)
    linarith
  have k2 : ⟪x - p', z - p'⟫ ≤ 0 := by
    by_contra hc
    have := mul_pos (one_div_pos.2 hτ') (not_le.1 hc)
    linarith
  have b1 := real_inner_le_norm (x - p) (p' - y)
  have b2 := real_inner_le_norm (x - p') (p - z)
  have b3 : ‖x - p‖ * ‖p' - y‖ ≤ ‖x - p‖ * d := mul_le_mul_of_nonneg_left (by rw [norm_sub_rev]; exact hyd) (norm_nonneg _)
  have b4 : ‖x - p'‖ * ‖p - z‖ ≤ ‖x - p'‖ * d := mul_le_mul_of_nonneg_left hzd (norm_nonneg _)
  have e : ‖p - p'‖ ^ 2 = ⟪x - p, p' - p⟫ + ⟪x - p', p - p'⟫ := by
    rw [← real_inner_self_eq_norm_sq, ← neg_sub p p', inner_neg_right, ← sub_eq_neg_add, ← inner_sub_left]; congr 1; abel
  simp only [inner_sub_right] at k1 k2 b1 b2 e
  linarith

/-! ## The parameters of the closed-form operators -/

lemma soft_eq_clip {x T : ℝ} (hT : 0 ≤ T) : softScalar x T = x - max (-T) (min x T) := by
  unfold softScalar npsign
  rcases lt_trichotomy x 0 with h | h | h
  · rw [if_neg (not_lt.2 h.le), if_pos h, abs_of_neg h, min_eq_left (by linarith)]
    rcases le_total (-x) T with k | k
    · rw [max_eq_right (by linarith), max_eq_right (by linarith)]; ring
    · rw [max_eq_left (by linarith), max_eq_left (by linarith)]; ring
  · subst h; simp [hT]
  · rw [if_pos h, abs_of_pos h]
    rcases le_total x T with k | k
    · rw [max_eq_right (by linarith), min_eq_left k, max_eq_right (by linarith)]; ring
    · rw [max_eq_left (by linarith), min_eq_right k, max_eq_right (by linarith)]; ring

lemma clip_lip (v v' T T' : ℝ) : |max (-T) (min v T) - max (-T') (min v' T')| ≤ max |v - v'| |T - T'| := by
  refine (abs_max_sub_max_le_max _ _ _ _).trans (max_le ?_ ((abs_min_sub_min_le_max _ _ _ _).trans (max_le (le_max_left _ _) (le_max_right _ _))))
  rw [show -T - -T' = -(T - T') by ring, abs_neg]
  exact le_max_right _ _

lemma soft_lip {T : ℝ} (hT : 0 ≤ T) (v v' : ℝ) : |softScalar v T - softScalar v' T| ≤ |v - v'| := by
  have mono : ∀ a b : ℝ, a ≤ b → softScalar a T ≤ softScalar b T := fun a b h => by
    rw [soft_eq_clip hT, soft_eq_clip hT]
    have := clip_lip b a T T
    rw [sub_self, abs_zero, max_eq_left (abs_nonneg (b - a)), abs_of_nonneg (by linarith : 0 ≤ b - a)] at this
    have := (abs_le.1 this).2
    linarith
  have bnd : ∀ a b : ℝ, a ≤ b → softScalar b T - softScalar a T ≤ b - a := fun a b h => by
    rw [soft_eq_clip hT, soft_eq_clip hT]
    have : max (-T) (min a T) ≤ max (-T) (min b T) := max_le_max le_rfl (min_le_min_right _ h)
    linarith
  rcases le_total v v' with h | h
  · rw [abs_sub_comm, abs_sub_comm v, abs_of_nonneg (by linarith [mono _ _ h]), abs_of_nonneg (by linarith)]; exact bnd _ _ h
  · rw [abs_of_nonneg (by linarith [mono _ _ h]), abs_of_nonneg (by linarith)]; exact bnd _ _ h

/-- **C117** `L1`: entry by entry, a change of the input, of the centre `g`, of the weight and of the step. -/
theorem C117_l1 {σ σ' τ τ' : ℝ} (hσ : 0 ≤ σ) (hσ' : 0 ≤ σ') (hτ : 0 < τ) (hτ' : 0 < τ') (g g' : Option (Vec ι)) {x x' p p' : Vec ι}
    (hp : (L1 σ g).prox x τ = .ok p) (hp' : (L1 σ' g').prox x' τ' = .ok p') (i : ι) :
    |p i - p' i| ≤ |x i - x' i| + |(g.getD 0) i - (g'.getD 0) i| + |τ * σ - τ' * σ'| := by
  have form : ∀ {s t : ℝ} {h : Option (Vec ι)} {y q : Vec ι}, 0 ≤ s → 0 < t → (L1 s h).prox y t = .ok q →
      q i = softScalar (y i - (h.getD 0) i) (t * s) + (h.getD 0) i := by
    intro s t h y q hs ht hq
    cases h with
    | none =>
      simp only [L1, ProxOp.prox, checkTau, if_neg (not_le.2 ht)] at hq
      cases hq
      simp [softthreshold, vmk]
    | some h =>
      simp only [L1, ProxOp.prox, checkTau, if_neg (not_le.2 ht)] at hq
      cases hq
      simp [softthreshold, vmk]
  rw [form hσ hτ hp, form hσ' hτ' hp']
  set a := (g.getD 0) i
  set a' := (g'.getD 0) i
  have hT : 0 ≤ τ * σ := by positivity
  have hT' : 0 ≤ τ' * σ' := by positivity
  have s1 := soft_lip hT (x i - a) (x' i - a)
  rw [show x i - a - (x' i - a) = x i - x' i by ring] at s1
  have s2 := clip_lip (x' i - a) (x' i - a') (τ * σ) (τ * σ)
  rw [sub_self, abs_zero, max_eq_left (abs_nonneg (x' i - a - (x' i - a'))), show x' i - a - (x' i - a') = -(a - a') by ring, abs_neg] at s2
  have s3 := clip_lip (x' i - a') (x' i - a') (τ * σ) (τ' * σ')
  rw [sub_self, abs_zero, max_eq_right (abs_nonneg (τ * σ - τ' * σ'))] at s3
  have e : softScalar (x i - a) (τ * σ) + a - (softScalar (x' i - a') (τ' * σ') + a') =
      (softScalar (x i - a) (τ * σ) - softScalar (x' i - a) (τ * σ)) -
        (max (-(τ * σ)) (min (x' i - a) (τ * σ)) - max (-(τ * σ)) (min (x' i - a') (τ * σ))) -
        (max (-(τ * σ)) (min (x' i - a') (τ * σ)) - max (-(τ' * σ')) (min (x' i - a') (τ' * σ'))) := by
    rw [soft_eq_clip hT (x := x' i - a), soft_eq_clip hT']; ring
  rw [e]
  refine (abs_sub _ _).trans (add_le_add ((abs_sub _ _).trans (add_le_add s1 s2)) s3)

/-- Two bounds are within `d`: both absent, or both numbers that differ by at most `d`. -/
def BoundNear (d : ℝ) : Bound → Bound → Prop
  | none, none => True
  | some a, some b => |a - b| ≤ d
  | _, _ => False

/-- **C117** `Box`: an entry changes by no more than the largest change of its input and its two bounds. -/
theorem C117_box (lower upper lower' upper' : ι → Bound) {τ τ' d : ℝ} {x x' p p' : Vec ι} (hp : (Box lower upper).prox x τ = .ok p)
    (hp' : (Box lower' upper').prox x' τ' = .ok p') (i : ι) (hx : |x i - x' i| ≤ d) (hl : BoundNear d (lower i) (lower' i)) (hu : BoundNear d (upper i) (upper' i)) :
    |p i - p' i| ≤ d := by
  have form : ∀ {l u : ι → Bound} {t : ℝ} {y q : Vec ι}, (Box l u).prox y t = .ok q → q i = minUpper (maxLower (y i) (l i)) (u i) := by
    intro l u t y q hq
    simp only [Box, ProxOp.prox, checkTau] at hq
    split_ifs at hq
    cases hq
    rfl
  rw [form hp, form hp']
  have h1 : |maxLower (x i) (lower i) - maxLower (x' i) (lower' i)| ≤ d := by
    generalize lower i = l at hl; generalize lower' i = l' at hl
    cases l <;> cases l' <;> simp only [BoundNear, maxLower] at hl ⊢
    · exact hx
    · exact (abs_max_sub_max_le_max _ _ _ _).trans (max_le hx hl)
  generalize upper i = u at hu; generalize upper' i = u' at hu
  cases u <;> cases u' <;> simp only [BoundNear, minUpper] at hu ⊢
  · exact h1
  · exact (abs_min_sub_min_le_max _ _ _ _).trans (max_le h1 hu)

lemma ray_min (a : ℝ) {T : ℝ} (hT : 0 < T) : T / max a T * a = min a T := by
  rcases le_total a T with h | h
  · rw [max_eq_right h, min_eq_left h, div_self hT.ne', one_mul]
  · rw [max_eq_left h, min_eq_right h, div_mul_cancel₀ _ (by linarith)]

/-- **C117** `Euclidean`: a change of the input, of the weight and of the step. -/
theorem C117_euclidean {σ σ' τ τ' : ℝ} (hσ : 0 < σ) (hσ' : 0 < σ') (hτ : 0 < τ) (hτ' : 0 < τ') {x x' p p' : E} (hp : (Euclidean σ).prox x τ = .ok p)
    (hp' : (Euclidean σ').prox x' τ' = .ok p') : ‖p - p'‖ ≤ ‖x - x'‖ + |τ * σ - τ' * σ'| := by
  have form : ∀ {s t : ℝ} {y q : E}, 0 < s → 0 < t → (Euclidean s).prox y t = .ok q → q = (1 - (t * s) / max ‖y‖ (t * s)) • y := by
    intro s t y q hs ht hq
    have : max ‖y‖ (t * s) ≠ 0 := (lt_max_of_lt_right (by positivity)).ne'
    simp only [Euclidean, ProxOp.prox, checkTau, if_neg (not_le.2 ht), if_neg this] at hq
    cases hq; rfl
  have hF : (XFun.ofReal fun y : E => σ' * ‖y‖).Convex :=
    ⟨convex_univ, fun y _ z _ a b ha hb _ => by
      have := norm_add_le (a • y) (b • z)
      rw [norm_smul, norm_smul, Real.norm_of_nonneg ha, Real.norm_of_nonneg hb] at this
      simp only [XFun.ofReal, smul_eq_mul]
      nlinarith⟩
  obtain ⟨q, h1, h2⟩ := C12_euclidean_prox σ' hσ' x τ' hτ'
  obtain ⟨q', h1', h2'⟩ := C12_euclidean_prox σ' hσ' x' τ' hτ'
  rw [h1'] at hp'
  cases hp'
  have k1 := (prox_nonexp' hF hτ' h2.1 h2'.1).1
  have k2 : ‖p - q‖ ≤ |τ * σ - τ' * σ'| := by
    have hT : 0 < τ * σ := by positivity
    have hT' : 0 < τ' * σ' := by positivity
    rw [form hσ hτ hp, form hσ' hτ' h1, ← sub_smul, norm_smul, Real.norm_eq_abs, ← abs_norm x, ← abs_mul, abs_norm, sub_sub_sub_cancel_left, sub_mul,
      ray_min _ hT, ray_min _ hT', abs_sub_comm]
    refine (abs_min_sub_min_le_max _ _ _ _).trans ?_
    simp
  have := norm_sub_le_norm_sub_add_norm_sub p q p'
  linarith

/-- **C117** `EuclideanBall`: a change of the input, of the centre and of the radius. -/
theorem C117_ball {r r' τ τ' : ℝ} (hr : 0 < r) (hr' : 0 < r') (hτ : 0 < τ) (hτ' : 0 < τ') (c c' : E) {x x' p p' : E} (hp : (EuclideanBall c r).prox x τ = .ok p)
    (hp' : (EuclideanBall c' r').prox x' τ' = .ok p') : ‖p - p'‖ ≤ ‖x - x'‖ + ‖c - c'‖ + |r - r'| := by
  have form : ∀ {s t : ℝ} {b y q : E}, 0 < s → 0 < t → (EuclideanBall b s).prox y t = .ok q → q = b + (s / max ‖y - b‖ s) • (y - b) := by
    intro s t b y q hs ht hq
    have : max ‖y - b‖ s ≠ 0 := (lt_max_of_lt_right hs).ne'
    simp only [EuclideanBall, ProxOp.prox, checkTau, euclideanBallProj, if_neg (not_le.2 ht), if_neg this] at hq
    cases hq; rfl
  rw [form hr hτ hp, form hr' hτ' hp']
  -- projection onto the ball of radius `r` around `0`
  have hconv : (XFun.indicator {y : E | ‖y - 0‖ ≤ r'}).Convex := by
    refine ⟨?_, fun y _ z _ a b _ _ _ => by simp [XFun.indicator]⟩
    have : {y : E | ‖y - 0‖ ≤ r'} = Metric.closedBall 0 r' := by ext y; simp
    show Convex ℝ {y : E | ‖y - 0‖ ≤ r'}
    rw [this]
    exact convex_closedBall _ _
  have hproj : ∀ v : E, IsProx (XFun.indicator {y : E | ‖y - 0‖ ≤ r'}) 1 v ((r' / max ‖v‖ r') • v) := fun v => by
    obtain ⟨q, h1, h2⟩ := C23_ball_prox (0 : E) r' hr' v 1 one_pos
    have := form hr' one_pos h1
    rw [zero_add, sub_zero] at this
    rw [← this]
    exact (isProj_iff_isProx one_pos).2 h2.1
  have k1 : ‖(r / max ‖x - c‖ r) • (x - c) - (r' / max ‖x - c‖ r') • (x - c)‖ ≤ |r - r'| := by
    rw [← sub_smul, norm_smul, Real.norm_eq_abs, ← abs_norm (x - c), ← abs_mul, abs_norm, sub_mul, ray_min _ hr, ray_min _ hr']
    refine (abs_min_sub_min_le_max _ _ _ _).trans ?_
    simp
  have k2 := (prox_nonexp' hconv one_pos (hproj (x - c)) (hproj (x' - c))).1
  have k3 := (prox_nonexp' hconv one_pos (hproj (x' - c)) (hproj (x' - c'))).2
  rw [sub_sub_sub_cancel_right] at k2
  rw [sub_sub_sub_cancel_left, norm_sub_rev c'] at k3
  have e : c + (r / max ‖x - c‖ r) • (x - c) - (c' + (r' / max ‖x' - c'‖ r') • (x' - c')) =
      ((r / max ‖x - c‖ r) • (x - c) - (r' / max ‖x - c‖ r') • (x - c)) +
        ((r' / max ‖x - c‖ r') • (x - c) - (r' / max ‖x' - c‖ r') • (x' - c)) +
        -((x' - c - (r' / max ‖x' - c‖ r') • (x' - c)) - (x' - c' - (r' / max ‖x' - c'‖ r') • (x' - c'))) := by abel
  rw [e]
  refine (norm_add_le _ _).trans ?_
  have := norm_add_le ((r / max ‖x - c‖ r) • (x - c) - (r' / max ‖x - c‖ r') • (x - c)) ((r' / max ‖x - c‖ r') • (x - c) - (r' / max ‖x' - c‖ r') • (x' - c))
  rw [norm_neg]
  linarith

/-- **C117** `HalfSpace`: a change of the input and of the offset. -/
theorem C117_halfspace {w : E} (hw : w ≠ 0) {τ τ' b b' : ℝ} (hτ : 0 < τ) (hτ' : 0 < τ') {x x' p p' : E} (hp : (HalfSpace w b).prox x τ = .ok p)
    (hp' : (HalfSpace w b').prox x' τ' = .ok p') : ‖p - p'‖ ≤ ‖x - x'‖ + |b - b'| / ‖w‖ := by
  have hw2 : ⟪w, w⟫ ≠ 0 := by rw [real_inner_self_eq_norm_sq]; exact pow_ne_zero _ (norm_ne_zero_iff.2 hw)
  have hwn : 0 < ‖w‖ := norm_pos_iff.2 hw
  have form : ∀ {s t : ℝ} {y q : E}, 0 < t → (HalfSpace w s).prox y t = .ok q → q = y - (max (⟪w, y⟫ - s) 0 / ‖w‖ ^ 2) • w := by
    intro s t y q ht hq
    by_cases h : ⟪w, y⟫ ≤ s
    · simp only [HalfSpace, ProxOp.prox, checkTau, halfSpaceProj, if_neg (not_le.2 ht), if_pos h] at hq
      cases hq
      rw [max_eq_right (by linarith)]; simp
    · simp only [HalfSpace, ProxOp.prox, checkTau, halfSpaceProj, if_neg (not_le.2 ht), if_neg h, if_neg hw2] at hq
      cases hq
      rw [max_eq_left (by linarith), real_inner_self_eq_norm_sq]
  have hconv : (XFun.indicator {y : E | ⟪w, y⟫ ≤ b'}).Convex := by
    refine ⟨fun y hy z hz a b ha hb hab => ?_, fun y _ z _ a b _ _ _ => by simp [XFun.indicator]⟩
    show ⟪w, a • y + b • z⟫ ≤ b'
    have hy : ⟪w, y⟫ ≤ b' := hy
    have hz : ⟪w, z⟫ ≤ b' := hz
    rw [inner_add_right, inner_smul_right, inner_smul_right]
    have h1 := mul_le_mul_of_nonneg_left hy ha
    have h2 := mul_le_mul_of_nonneg_left hz hb
    have h3 : a * b' + b * b' = b' := by rw [← add_mul, hab, one_mul]
    linarith
  obtain ⟨q, h1, h2, -⟩ := C22_halfspace_prox w hw b' x τ' hτ'
  obtain ⟨q', h1', h2', -⟩ := C22_halfspace_prox w hw b' x' τ' hτ'
  rw [h1'] at hp'
  cases hp'
  have k1 := (prox_nonexp' hconv one_pos ((isProj_iff_isProx one_pos).2 h2.1) ((isProj_iff_isProx one_pos).2 h2'.1)).1
  have k2 : ‖p - q‖ ≤ |b - b'| / ‖w‖ := by
    rw [form hτ hp, form hτ' h1, sub_sub_sub_cancel_left, ← sub_smul, norm_smul, ← sub_div, Real.norm_eq_abs, abs_div, abs_of_pos (by positivity : 0 < ‖w‖ ^ 2),
      div_mul_eq_mul_div, div_le_div_iff₀ (by positivity) hwn]
    have h3 := abs_max_sub_max_le_max (⟪w, x⟫ - b') 0 (⟪w, x⟫ - b) 0
    rw [sub_self, abs_zero, max_eq_left (abs_nonneg (⟪w, x⟫ - b' - (⟪w, x⟫ - b))), show ⟪w, x⟫ - b' - (⟪w, x⟫ - b) = b - b' by ring] at h3
    have := mul_le_mul_of_nonneg_right h3 (sq_nonneg ‖w‖)
    nlinarith
  have := norm_sub_le_norm_sub_add_norm_sub p q p'
  linarith

lemma l2Grad_opB (a : L2Args E H) (Op : LinOp E H) (e : Bool) :
    ∃ Q, ∀ b x, l2Grad { a with data := .opB Op e b } x = a.σ • Op.rmatvec (Op.matvec x - b) + Q := by
  cases a.q with
  | none => exact ⟨0, fun b x => by simp [l2Grad]⟩
  | some q => exact ⟨a.α • q, fun b x => by simp [l2Grad]⟩

section L2
variable [FiniteDimensional ℝ E] {C : Type}

/-- **C117** `L2` with `Op`: a change of the data. -/
theorem C117_l2_data (ext : L2Ext E H C) (hext : L2ExtWithin ext 0) (a : L2Args E H) (hσ : 0 < a.σ) (Op : LinOp E H) (e : Bool) (b b' : H)
    (w : Option E) (s s' : L2State E C) (hs : L2.init { a with data := .opB Op e b } w = .ok s) (hs' : L2.init { a with data := .opB Op e b' } w = .ok s')
    (calls calls' : List (E × ℝ)) (x : E) {τ : ℝ} (hτ : 0 < τ) :
    ∃ p p', (L2.prox ext { a with data := .opB Op e b } (L2.after ext { a with data := .opB Op e b } s calls) x τ).2.1 = .ok p ∧
      (L2.prox ext { a with data := .opB Op e b' } (L2.after ext { a with data := .opB Op e b' } s' calls') x τ).2.1 = .ok p' ∧
      ‖p - p'‖ ≤ √(τ * a.σ) / 2 * ‖b - b'‖ := by
  obtain ⟨p, h1, h2⟩ := l2obj_prox ext hext { a with data := .opB Op e b } hσ w s hs calls x τ hτ
  obtain ⟨p', h1', h2'⟩ := l2obj_prox ext hext { a with data := .opB Op e b' } hσ w s' hs' calls' x τ hτ
  refine ⟨p, p', h1, h1', ?_⟩
  have e1 := prox_smooth_eq (l2_convex { a with data := .opB Op e b } hσ.le) (l2Spec_isGrad _) hτ h2
  have e2 := prox_smooth_eq (l2_convex { a with data := .opB Op e b' } hσ.le) (l2Spec_isGrad _) hτ h2'
  obtain ⟨Q, hQ⟩ := l2Grad_opB a Op e
  rw [hQ] at e1 e2
  have e3 : p - p' = (τ * a.σ) • Op.rmatvec ((b - b') - Op.matvec (p - p')) := by
    have : p - p' = τ • (a.σ • Op.rmatvec (Op.matvec p' - b') + Q) - τ • (a.σ • Op.rmatvec (Op.matvec p - b) + Q) := by
      have := e1.symm.trans e2
      rw [sub_eq_sub_iff_add_eq_add, this]; abel
    refine this.trans ?_
    rw [mul_smul, ← smul_sub, add_sub_add_right_eq_sub, ← smul_sub, ← map_sub, map_sub Op.matvec p p']
    congr 3; abel
  have e4 : ‖p - p'‖ ^ 2 = τ * a.σ * (⟪b - b', Op.matvec (p - p')⟫ - ‖Op.matvec (p - p')‖ ^ 2) := by
    rw [← real_inner_self_eq_norm_sq, ← real_inner_self_eq_norm_sq, ← inner_sub_left, real_inner_comm _ (b - b' - _), Op.dot, ← inner_smul_right, ← e3]
  have hT : 0 < τ * a.σ := by positivity
  have h3 : ⟪b - b', Op.matvec (p - p')⟫ - ‖Op.matvec (p - p')‖ ^ 2 ≤ ‖b - b'‖ ^ 2 / 4 := by
    have := real_inner_le_norm (b - b') (Op.matvec (p - p'))
    nlinarith [sq_nonneg (‖b - b'‖ / 2 - ‖Op.matvec (p - p')‖)]
  refine le_of_sq_le_sq ?_ (by positivity)
  rw [mul_pow, div_pow, Real.sq_sqrt hT.le, e4]
  have := mul_le_mul_of_nonneg_left h3 hT.le
  linarith

end L2

/-! ## Whole runs

`f` is the operator that was meant, `f'` the one that was passed (other data, weights, bounds, ...): `δ` bounds what the theorems above bound. -/

section Runs
variable {f f' g g' : ProxOp E} {F F' G G' : XFun E} {τ : ℝ}

/-- The two operators return points within `δ` of each other at step `τ`. -/
def ProxNear (f f' : ProxOp E) (τ δ : ℝ) : Prop := ∀ x p p', f.prox x τ = .ok p → f'.prox x τ = .ok p' → ‖p - p'‖ ≤ δ

lemma ProxNear.nonneg (h : ProxNear f f' τ δ) (hτ : 0 < τ) (hf : ProxExact f F) (hf' : ProxExact f' F') : 0 ≤ δ := by
  obtain ⟨p, h1, -⟩ := hf 0 τ hτ
  obtain ⟨p', h1', -⟩ := hf' 0 τ hτ
  exact (norm_nonneg _).trans (h 0 p p' h1 h1')

omit [InnerProductSpace ℝ E] in
lemma run_drift {T : E → E} (hT : ∀ x y, ‖T x - T y‖ ≤ ‖x - y‖) {X X' : ℕ → E} {δ : ℝ} (hX : ∀ n, X (n + 1) = T (X n)) (hX' : ∀ n, ‖X' (n + 1) - T (X' n)‖ ≤ δ) (n : ℕ) :
    ‖X n - X' n‖ ≤ ‖X 0 - X' 0‖ + n * δ := by
  have := inexact_bound (q := 1) zero_le_one (by simpa using hT) hX' hX n
  simp only [one_pow, one_mul, Finset.sum_const, Finset.card_range, nsmul_eq_mul] at this
  rwa [norm_sub_rev, norm_sub_rev (X 0)]

omit [InnerProductSpace ℝ E] in
lemma run_drift_contract {T : E → E} {q : ℝ} (hq : 0 ≤ q) (hq1 : q < 1) (hT : ∀ x y, ‖T x - T y‖ ≤ q * ‖x - y‖) {X X' : ℕ → E} {δ : ℝ} (hX : ∀ n, X (n + 1) = T (X n))
    (hX' : ∀ n, ‖X' (n + 1) - T (X' n)‖ ≤ δ) (n : ℕ) : ‖X n - X' n‖ ≤ q ^ n * ‖X 0 - X' 0‖ + δ / (1 - q) := by
  have := inexact_bound hq hT hX' hX n
  have h2 := geom_errors hq hq1 ((norm_nonneg _).trans (hX' 0)) n
  rw [norm_sub_rev, norm_sub_rev (X 0)]
  linarith

/-- **C117** `ProximalPoint`: two runs with different starts and operators drift apart at most linearly. -/
theorem C117_proximalpoint {δ : ℝ} (hF : F.Convex) (hf : ProxExact f F) (hf' : ProxExact f' F') (hτ : 0 < τ) (hδ : ProxNear f f' τ δ) (x0 x0' : E) (n : ℕ)
    {r r' : PPState E} (hr : ProximalPoint f x0 τ n none = .ok r) (hr' : ProximalPoint f' x0' τ n none = .ok r') : ‖r.x - r'.x‖ ≤ ‖x0 - x0'‖ + n * δ := by
  obtain ⟨P, hP, hPx⟩ := proxExact_map hf hτ
  obtain ⟨P', hP', -⟩ := proxExact_map hf' hτ
  obtain ⟨X, hX0, hX, hXr⟩ := pp_traj hP x0
  obtain ⟨X', hX0', hX', hXr'⟩ := pp_traj hP' x0'
  rw [hXr] at hr; rw [hXr'] at hr'
  cases hr; cases hr'
  have := run_drift (X' := X') (δ := δ) (firm_prox hF hτ hPx).nonexp hX (fun n => by rw [hX', norm_sub_rev]; exact hδ _ _ _ (hP _) (hP' _)) n
  rwa [hX0, hX0'] at this

/-- **C117** `ProximalPoint` on a strongly convex function: the distance stays bounded however long the runs are. -/
theorem C117_proximalpoint_strong {δ μ : ℝ} (hF : StrongConvexOn F.dom μ F.val) (hμ : 0 < μ) (hf : ProxExact f F) (hf' : ProxExact f' F') (hτ : 0 < τ)
    (hδ : ProxNear f f' τ δ) (x0 x0' : E) (n : ℕ) {r r' : PPState E} (hr : ProximalPoint f x0 τ n none = .ok r) (hr' : ProximalPoint f' x0' τ n none = .ok r') :
    ‖r.x - r'.x‖ ≤ (1 / (1 + τ * μ)) ^ n * ‖x0 - x0'‖ + δ * (1 + τ * μ) / (τ * μ) := by
  obtain ⟨P, hP, hPx⟩ := proxExact_map hf hτ
  obtain ⟨P', hP', -⟩ := proxExact_map hf' hτ
  obtain ⟨X, hX0, hX, hXr⟩ := pp_traj hP x0
  obtain ⟨X', hX0', hX', hXr'⟩ := pp_traj hP' x0'
  rw [hXr] at hr; rw [hXr'] at hr'
  cases hr; cases hr'
  have hm : 0 < τ * μ := mul_pos hτ hμ
  have := run_drift_contract (q := 1 / (1 + τ * μ)) (by positivity) (by rw [div_lt_one (by linarith)]; linarith) (fun x y => prox_contract hF hμ.le hτ (hPx x) (hPx y)) hX (X' := X') (δ := δ)
    (fun n => by rw [hX', norm_sub_rev]; exact hδ _ _ _ (hP _) (hP' _)) n
  rw [hX0, hX0'] at this
  refine this.trans_eq ?_
  congr 1
  field_simp
  ring

/-- **C117** `ProximalGradient` without acceleration. -/
theorem C117_proximalgradient {φ φ' : E → ℝ} {L ε δf δg : ℝ} (hf : GradExact f φ) (hf' : GradExact f' φ') (hL : LipschitzGrad φ L) (hL0 : 0 ≤ L) (hφ : ConvexOn ℝ Set.univ φ)
    (hG : G.Convex) (hg : ProxExact g G) (hg' : ProxExact g' G') (hε : 0 < ε) (hτ : 0 < τ) (hτL : τ * L ≤ 2)
    (hδf : ∀ x v v', f.grad x = .ok v → f'.grad x = .ok v' → ‖v - v'‖ ≤ δf) (hδg : ProxNear g g' (ε * τ) δg) (x0 x0' : E) (n : ℕ) (hn : 0 < n) {r r' : PGState E}
    (hr : ProximalGradient f g x0 (pgArgs τ ε .none n) = .ok r) (hr' : ProximalGradient f' g' x0' (pgArgs τ ε .none n) = .ok r') :
    ‖r.x - r'.x‖ ≤ ‖x0 - x0'‖ + n * (τ * δf + δg) := by
  obtain ⟨D, hD, hDg⟩ := gradExact_map hf
  obtain ⟨D', hD', -⟩ := gradExact_map hf'
  obtain ⟨P, hP, hPx⟩ := proxExact_map hg (mul_pos hε hτ)
  obtain ⟨P', hP', -⟩ := proxExact_map hg' (mul_pos hε hτ)
  obtain ⟨X, Y, t, hX0, hY0, -, hX, -, hY, hXr⟩ := pg_traj hD hP .none (by simp) x0
  obtain ⟨X', Y', t', hX0', hY0', -, hX', -, hY', hXr'⟩ := pg_traj hD' hP' .none (by simp) x0'
  have hYX : ∀ n, Y n = X n := fun n => by
    cases n with
    | zero => rw [hX0, hY0]
    | succ n => rw [hY]; simp [momentum]
  have hYX' : ∀ n, Y' n = X' n := fun n => by
    cases n with
    | zero => rw [hX0', hY0']
    | succ n => rw [hY']; simp [momentum]
  rw [hXr n hn] at hr; rw [hXr' n hn] at hr'
  cases hr; cases hr'
  have hfirm := firm_prox hG (mul_pos hε hτ) hPx
  have := run_drift (T := fun x => P (x - τ • D x)) (X := X) (X' := X') (δ := τ * δf + δg) (fun x y => by
    have := fb_contract hDg hL (strongConvexOn_zero.2 hφ) hL0 (strongConvexOn_zero.2 hG) le_rfl hε hτ (by simpa using hτL) hPx x y
    simpa using this) (fun n => by rw [hX, hYX]) (fun n => by
    rw [hX', hYX']
    have h1 := hδg (X' n - τ • D' (X' n)) _ _ (hP _) (hP' _)
    have h2 := hfirm.nonexp (X' n - τ • D' (X' n)) (X' n - τ • D (X' n))
    rw [sub_sub_sub_cancel_left, ← smul_sub, norm_smul, Real.norm_of_nonneg hτ.le] at h2
    have h3 := mul_le_mul_of_nonneg_left (hδf (X' n) _ _ (hD _) (hD' _)) hτ.le
    rw [norm_sub_rev] at h1
    have := norm_sub_le_norm_sub_add_norm_sub (P' (X' n - τ • D' (X' n))) (P (X' n - τ • D' (X' n))) (P (X' n - τ • D (X' n)))
    linarith) n
  rwa [hX0, hX0'] at this

/-- **C117** `ProximalGradient` without acceleration on a strongly convex smooth part: the distance stays bounded. -/
theorem C117_proximalgradient_strong {φ φ' : E → ℝ} {L μ ε δf δg : ℝ} (hf : GradExact f φ) (hf' : GradExact f' φ') (hL : LipschitzGrad φ L) (hφ : StrongConvexOn Set.univ μ φ)
    (hμ : 0 < μ) (hμL : μ ≤ L) (hG : G.Convex) (hg : ProxExact g G) (hg' : ProxExact g' G') (hε : 0 < ε) (hτ : 0 < τ) (hτL : τ * (L + μ) ≤ 2)
    (hδf : ∀ x v v', f.grad x = .ok v → f'.grad x = .ok v' → ‖v - v'‖ ≤ δf) (hδg : ProxNear g g' (ε * τ) δg) (x0 x0' : E) (n : ℕ) (hn : 0 < n) {r r' : PGState E}
    (hr : ProximalGradient f g x0 (pgArgs τ ε .none n) = .ok r) (hr' : ProximalGradient f' g' x0' (pgArgs τ ε .none n) = .ok r') :
    ‖r.x - r'.x‖ ≤ (1 - τ * μ) ^ n * ‖x0 - x0'‖ + (δf + δg / τ) / μ := by
  obtain ⟨D, hD, hDg⟩ := gradExact_map hf
  obtain ⟨D', hD', -⟩ := gradExact_map hf'
  obtain ⟨P, hP, hPx⟩ := proxExact_map hg (mul_pos hε hτ)
  obtain ⟨P', hP', -⟩ := proxExact_map hg' (mul_pos hε hτ)
  obtain ⟨X, Y, t, hX0, hY0, -, hX, -, hY, hXr⟩ := pg_traj hD hP .none (by simp) x0
  obtain ⟨X', Y', t', hX0', hY0', -, hX', -, hY', hXr'⟩ := pg_traj hD' hP' .none (by simp) x0'
  have hYX : ∀ n, Y n = X n := fun n => by
    cases n with
    | zero => rw [hX0, hY0]
    | succ n => rw [hY]; simp [momentum]
  have hYX' : ∀ n, Y' n = X' n := fun n => by
    cases n with
    | zero => rw [hX0', hY0']
    | succ n => rw [hY']; simp [momentum]
  rw [hXr n hn] at hr; rw [hXr' n hn] at hr'
  cases hr; cases hr'
  have hfirm := firm_prox hG (mul_pos hε hτ) hPx
  have hm : 0 < τ * μ := mul_pos hτ hμ
  have := run_drift_contract (T := fun x => P (x - τ • D x)) (X := X) (X' := X') (q := 1 - τ * μ) (δ := τ * δf + δg) (by nlinarith) (by linarith) (fun x y => by
    have := fb_contract hDg hL hφ hμL (strongConvexOn_zero.2 hG) le_rfl hε hτ hτL hPx x y
    simpa using this) (fun n => by rw [hX, hYX]) (fun n => by
    rw [hX', hYX']
    have h1 := hδg (X' n - τ • D' (X' n)) _ _ (hP _) (hP' _)
    have h2 := hfirm.nonexp (X' n - τ • D' (X' n)) (X' n - τ • D (X' n))
    rw [sub_sub_sub_cancel_left, ← smul_sub, norm_smul, Real.norm_of_nonneg hτ.le] at h2
    have h3 := mul_le_mul_of_nonneg_left (hδf (X' n) _ _ (hD _) (hD' _)) hτ.le
    rw [norm_sub_rev] at h1
    have := norm_sub_le_norm_sub_add_norm_sub (P' (X' n - τ • D' (X' n))) (P (X' n - τ • D' (X' n))) (P (X' n - τ • D (X' n)))
    linarith) n
  rw [hX0, hX0'] at this
  refine this.trans_eq ?_
  congr 1
  field_simp
  ring

/-- **C117** `DouglasRachford` in both orders; `δ₁` belongs to the operator that is applied first. -/
theorem C117_dr {η δf δg : ℝ} (hF : F.Convex) (hG : G.Convex) (hf : ProxExact f F) (hf' : ProxExact f' F') (hg : ProxExact g G) (hg' : ProxExact g' G') (hτ : 0 < τ)
    (hη : 0 ≤ η) (hη2 : η ≤ 2) (hδf : ProxNear f f' τ δf) (hδg : ProxNear g g' τ δg) (gfirst : Bool) (x0 x0' : E) (n : ℕ) {r r' : E × E × List (E × E)}
    (hr : DouglasRachford f g x0 τ η (n + 1) gfirst = .ok r) (hr' : DouglasRachford f' g' x0' τ η (n + 1) gfirst = .ok r') :
    ‖r.1 - r'.1‖ ≤ ‖x0 - x0'‖ + (if gfirst then n * (η * (3 * δg + δf)) + δg else n * (η * (3 * δf + δg)) + δf) := by
  obtain ⟨Pf, hPf, hPfx⟩ := proxExact_map hf hτ
  obtain ⟨Pf', hPf', -⟩ := proxExact_map hf' hτ
  obtain ⟨Pg, hPg, hPgx⟩ := proxExact_map hg hτ
  obtain ⟨Pg', hPg', -⟩ := proxExact_map hg' hτ
  obtain ⟨Y, hY0, hY, hYr⟩ := dr_traj hPf hPg η gfirst x0
  obtain ⟨Y', hY0', hY', hYr'⟩ := dr_traj hPf' hPg' η gfirst x0'
  rw [hYr] at hr; rw [hYr'] at hr'
  cases hr; cases hr'
  have kf := firm_prox hF hτ hPfx
  have kg := firm_prox hG hτ hPgx
  have df : ∀ x, ‖Pf' x - Pf x‖ ≤ δf := fun x => by rw [norm_sub_rev]; exact hδf x _ _ (hPf x) (hPf' x)
  have dg : ∀ x, ‖Pg' x - Pg x‖ ≤ δg := fun x => by rw [norm_sub_rev]; exact hδg x _ _ (hPg x) (hPg' x)
  have gen : ∀ {P₁ P₂ P₁' P₂' : E → E} {d₁ d₂ : ℝ}, Firm P₁ → Firm P₂ → (∀ x, ‖P₁' x - P₁ x‖ ≤ d₁) → (∀ x, ‖P₂' x - P₂ x‖ ≤ d₂) → (∀ n, Y (n + 1) = drStep P₁ P₂ η (Y n)) →
      (∀ n, Y' (n + 1) = drStep P₁' P₂' η (Y' n)) → ‖P₁ (Y n) - P₁' (Y' n)‖ ≤ ‖x0 - x0'‖ + (n * (η * (3 * d₁ + d₂)) + d₁) := by
    intro P₁ P₂ P₁' P₂' d₁ d₂ k₁ k₂ h₁ h₂ hY hY'
    have := run_drift (X' := Y') (δ := η * (3 * d₁ + d₂)) (dr_nonexp k₁ k₂ hη hη2) hY (fun n => by rw [hY']; exact dr_inexact_step k₂ hη (h₁ (Y' n)) (h₂ _)) n
    rw [hY0, hY0'] at this
    have h3 := k₁.nonexp (Y n) (Y' n)
    have h4 := norm_sub_le_norm_sub_add_norm_sub (P₁ (Y n)) (P₁ (Y' n)) (P₁' (Y' n))
    have h5 := h₁ (Y' n)
    rw [norm_sub_rev] at h5
    linarith
  cases gfirst with
  | true => simpa using gen kg kf dg df (by simpa using hY) (by simpa using hY')
  | false => simpa using gen kf kg df dg (by simpa using hY) (by simpa using hY')

/-- The ADMM recursion with two pairs of operators. -/
lemma admm_drift {P₁ P₂ P₁' P₂' : E → E} {d₁ d₂ : ℝ} (k₁ : Firm P₁) (k₂ : Firm P₂) (h₁ : ∀ x, ‖P₁' x - P₁ x‖ ≤ d₁) (h₂ : ∀ x, ‖P₂' x - P₂ x‖ ≤ d₂) {A B U A' B' U' : ℕ → E}
    (hU0 : U 0 = 0) (hU0' : U' 0 = 0) (hA : ∀ n, A (n + 1) = P₁ (B n + U n)) (hB : ∀ n, B (n + 1) = P₂ (A (n + 1) - U n)) (hU : ∀ n, U (n + 1) = U n + B (n + 1) - A (n + 1))
    (hA' : ∀ n, A' (n + 1) = P₁' (B' n + U' n)) (hB' : ∀ n, B' (n + 1) = P₂' (A' (n + 1) - U' n)) (hU' : ∀ n, U' (n + 1) = U' n + B' (n + 1) - A' (n + 1)) (n : ℕ) :
    ‖A (n + 1) - A' (n + 1)‖ ≤ ‖B 0 - B' 0‖ + (n + 1) * (3 * d₂ + d₁) ∧ ‖B (n + 1) - B' (n + 1)‖ ≤ ‖B 0 - B' 0‖ + (n + 1) * (3 * d₂ + d₁) := by
  have hd₁ : 0 ≤ d₁ := (norm_nonneg _).trans (h₁ 0)
  have hd₂ : 0 ≤ d₂ := (norm_nonneg _).trans (h₂ 0)
  have step : ∀ {Q₁ Q₂ : E → E} {a b u : ℕ → E}, (∀ n, a (n + 1) = Q₁ (b n + u n)) → (∀ n, b (n + 1) = Q₂ (a (n + 1) - u n)) → (∀ n, u (n + 1) = u n + b (n + 1) - a (n + 1)) →
      ∀ n, a (n + 2) - u (n + 1) = drStep Q₂ Q₁ 1 (a (n + 1) - u n) := by
    intro Q₁ Q₂ a b u ha hb hu n
    rw [drStep, one_smul, ← hb, show (2 : ℝ) • b (n + 1) - (a (n + 1) - u n) = b (n + 1) + u (n + 1) by rw [hu, two_smul]; abel, ← ha, hu]
    abel
  have first : ‖A 1 - A' 1‖ ≤ ‖B 0 - B' 0‖ + d₁ := by
    rw [hA, hA', hU0, hU0', add_zero, add_zero]
    have h3 := k₁.nonexp (B 0) (B' 0)
    have h4 := norm_sub_le_norm_sub_add_norm_sub (P₁ (B 0)) (P₁ (B' 0)) (P₁' (B' 0))
    have h5 := h₁ (B' 0)
    rw [norm_sub_rev] at h5
    linarith
  have drift : ∀ n : ℕ, ‖(A (n + 1) - U n) - (A' (n + 1) - U' n)‖ ≤ ‖B 0 - B' 0‖ + d₁ + n * (3 * d₂ + d₁) := fun n => by
    have := run_drift (X := fun n => A (n + 1) - U n) (X' := fun n => A' (n + 1) - U' n) (dr_nonexp k₂ k₁ zero_le_one one_le_two) (fun n => step hA hB hU n)
      (fun n => by
        show ‖(A' (n + 2) - U' (n + 1)) - drStep P₂ P₁ 1 (A' (n + 1) - U' n)‖ ≤ _
        rw [step hA' hB' hU' n]
        exact dr_inexact_step k₁ zero_le_one (h₂ _) (h₁ _)) n
    simp only [zero_add, hU0, hU0', sub_zero, one_mul] at this
    linarith
  refine ⟨?_, ?_⟩
  · cases n with
    | zero => rw [zero_add]; simp only [Nat.cast_zero]; linarith
    | succ n =>
      have hv := drift n
      set v := A (n + 1) - U n with hvd
      set v' := A' (n + 1) - U' n with hvd'
      have e : B (n + 1) + U (n + 1) = (2 : ℝ) • P₂ v - v := by rw [hvd, ← hB, hU, two_smul]; abel
      have e' : B' (n + 1) + U' (n + 1) = (2 : ℝ) • P₂' v' - v' := by rw [hvd', ← hB', hU', two_smul]; abel
      rw [hA (n + 1), hA' (n + 1), e, e']
      have s1 := k₂.reflect v v'
      have s2 : ‖((2 : ℝ) • P₂ v' - v') - ((2 : ℝ) • P₂' v' - v')‖ ≤ 2 * d₂ := by
        rw [sub_sub_sub_cancel_right, ← smul_sub, norm_smul, norm_sub_rev]
        norm_num
        exact h₂ v'
      have s3 := k₁.nonexp ((2 : ℝ) • P₂ v - v) ((2 : ℝ) • P₂' v' - v')
      have s4 := norm_sub_le_norm_sub_add_norm_sub ((2 : ℝ) • P₂ v - v) ((2 : ℝ) • P₂ v' - v') ((2 : ℝ) • P₂' v' - v')
      have s5 := norm_sub_le_norm_sub_add_norm_sub (P₁ ((2 : ℝ) • P₂ v - v)) (P₁ ((2 : ℝ) • P₂' v' - v')) (P₁' ((2 : ℝ) • P₂' v' - v'))
      have s6 := h₁ ((2 : ℝ) • P₂' v' - v')
      rw [norm_sub_rev] at s6
      push_cast
      linarith
  · rw [hB, hB']
    have hv := drift n
    set v := A (n + 1) - U n
    set v' := A' (n + 1) - U' n
    have s1 := k₂.nonexp v v'
    have s2 := h₂ v'
    rw [norm_sub_rev] at s2
    have s3 := norm_sub_le_norm_sub_add_norm_sub (P₂ v) (P₂ v') (P₂' v')
    linarith

/-- **C117** `ADMM` in both orders: both results. -/
theorem C117_admm {δf δg : ℝ} (hF : F.Convex) (hG : G.Convex) (hf : ProxExact f F) (hf' : ProxExact f' F') (hg : ProxExact g G) (hg' : ProxExact g' G') (hτ : 0 < τ)
    (hδf : ProxNear f f' τ δf) (hδg : ProxNear g g' τ δg) (gfirst : Bool) (x0 x0' z0 z0' : E) (n : ℕ) {r r' : SplitState E}
    (hr : ADMM f g (some x0) (some z0) τ (n + 1) gfirst = .ok r) (hr' : ADMM f' g' (some x0') (some z0') τ (n + 1) gfirst = .ok r') :
    let D := if gfirst then ‖x0 - x0'‖ + (n + 1) * (3 * δf + δg) else ‖z0 - z0'‖ + (n + 1) * (3 * δg + δf)
    ‖r.x - r'.x‖ ≤ D ∧ ‖r.z - r'.z‖ ≤ D := by
  intro D
  obtain ⟨Pf, hPf, hPfx⟩ := proxExact_map hf hτ
  obtain ⟨Pf', hPf', -⟩ := proxExact_map hf' hτ
  obtain ⟨Pg, hPg, hPgx⟩ := proxExact_map hg hτ
  obtain ⟨Pg', hPg', -⟩ := proxExact_map hg' hτ
  obtain ⟨S, hx, hz, hu, hU, ht, hfa, -, hS⟩ := admm_traj hPf hPg gfirst (some x0) (some z0) x0 z0 rfl
  obtain ⟨S', hx', hz', hu', hU', ht', hfa', -, hS'⟩ := admm_traj hPf' hPg' gfirst (some x0') (some z0') x0' z0' rfl
  rw [hS] at hr; rw [hS'] at hr'
  cases hr; cases hr'
  have kf := firm_prox hF hτ hPfx
  have kg := firm_prox hG hτ hPgx
  have df : ∀ x, ‖Pf' x - Pf x‖ ≤ δf := fun x => by rw [norm_sub_rev]; exact hδf x _ _ (hPf x) (hPf' x)
  have dg : ∀ x, ‖Pg' x - Pg x‖ ≤ δg := fun x => by rw [norm_sub_rev]; exact hδg x _ _ (hPg x) (hPg' x)
  cases gfirst with
  | true =>
    have := admm_drift kg kf dg df (A := fun n => (S n).z) (B := fun n => (S n).x) (U := fun n => (S n).u) (A' := fun n => (S' n).z) (B' := fun n => (S' n).x) (U' := fun n => (S' n).u)
      hu hu' (fun n => (ht rfl n).1) (fun n => (ht rfl n).2) hU (fun n => (ht' rfl n).1) (fun n => (ht' rfl n).2) hU' n
    rw [hx, hx'] at this
    exact ⟨this.2, this.1⟩
  | false =>
    have := admm_drift kf kg df dg (A := fun n => (S n).x) (B := fun n => (S n).z) (U := fun n => -(S n).u) (A' := fun n => (S' n).x) (B' := fun n => (S' n).z) (U' := fun n => -(S' n).u)
      (by simp [hu]) (by simp [hu']) (fun n => by rw [(hfa rfl n).1, sub_eq_add_neg]) (fun n => by rw [(hfa rfl n).2, sub_neg_eq_add]) (fun n => by rw [hU]; abel)
      (fun n => by rw [(hfa' rfl n).1, sub_eq_add_neg]) (fun n => by rw [(hfa' rfl n).2, sub_neg_eq_add]) (fun n => by rw [hU']; abel) n
    rw [hz, hz'] at this
    exact this

end Runs

/-! ## The solutions themselves -/

section Solutions

lemma min_subgrad {φ : E → ℝ} {F : XFun E} {G : E → E} (hGr : ∀ x, IsGrad φ x (G x)) (hF : F.Convex) {c : E} (h : ((XFun.ofReal φ).add F).IsMin c) {y : E} (hy : y ∈ F.dom) :
    F.val c - ⟪G c, y - c⟫ ≤ F.val y := by
  set d := y - c with hd
  have hq : ∀ t ∈ Set.Ioc (0 : ℝ) 1, 0 ≤ (φ (c + t • d) - φ c) / t + (F.val y - F.val c) := by
    intro t ht
    have e : (1 - t) • c + t • y = c + t • d := by rw [hd, smul_sub, sub_smul, one_smul]; abel
    have hm : c + t • d ∈ F.dom := by
      have := hF.1 h.1.2 hy (sub_nonneg.2 ht.2) ht.1.le (by ring : 1 - t + t = 1)
      rwa [e] at this
    have h1 := h.2 (c + t • d) ⟨trivial, hm⟩
    have h2 := hF.2 h.1.2 hy (sub_nonneg.2 ht.2) ht.1.le (by ring : 1 - t + t = 1)
    rw [e] at h2
    simp only [XFun.add, XFun.ofReal, smul_eq_mul] at h1 h2
    have h3 : 0 ≤ φ (c + t • d) - φ c + t * (F.val y - F.val c) := by linarith
    have h4 := div_nonneg h3 ht.1.le
    rwa [add_div, mul_div_cancel_left₀ _ ht.1.ne'] at h4
  have hder := line_deriv hGr c d 0
  rw [zero_smul, add_zero] at hder
  have hlim := hder.tendsto_slope_zero_right
  have : 0 ≤ ⟪G c, d⟫ + (F.val y - F.val c) := by
    refine ge_of_tendsto (hlim.add_const (F.val y - F.val c)) ?_
    have : Set.Ioc (0 : ℝ) 1 ∈ 𝓝[>] (0 : ℝ) := Ioc_mem_nhdsGT one_pos
    filter_upwards [this] with t ht
    have := hq t ht
    simp only [zero_add, zero_smul, add_zero, smul_eq_mul]
    rw [div_eq_inv_mul] at this
    exact this
  linarith

/-- Regularised least squares: the predicted data of two solutions are no further apart than the data, for every regulariser and weight. -/
lemma solution_data [FiniteDimensional ℝ E] (a : L2Args E H) (hσ : 0 < a.σ) (Op : LinOp E H) (e : Bool) (b b' : H) {G : XFun E} (hG : G.Convex) {ε : ℝ} (hε : 0 ≤ ε) {c c' : E}
    (hc : (compositeObj (l2Spec { a with data := .opB Op e b }) ε G).IsMin c) (hc' : (compositeObj (l2Spec { a with data := .opB Op e b' }) ε G).IsMin c') :
    ‖Op.matvec c - Op.matvec c'‖ ≤ ‖b - b'‖ ∧ ∀ m, 0 < m → (∀ v, m * ‖v‖ ≤ ‖Op.matvec v‖) → ‖c - c'‖ ≤ ‖b - b'‖ / m := by
  have hF := smulConvex hG hε
  have h1 := min_subgrad (fun x => l2Spec_isGrad { a with data := .opB Op e b } x) hF hc hc'.1.2
  have h2 := min_subgrad (fun x => l2Spec_isGrad { a with data := .opB Op e b' } x) hF hc' hc.1.2
  obtain ⟨Q, hQ⟩ := l2Grad_opB a Op e
  rw [hQ] at h1 h2
  rw [← neg_sub c c', inner_neg_right] at h1
  simp only [inner_add_left, real_inner_smul_left] at h1 h2
  rw [real_inner_comm (c - c') (Op.rmatvec _), ← Op.dot] at h1 h2
  have h3 : a.σ * ⟪Op.matvec (c - c'), Op.matvec (c - c') - (b - b')⟫ ≤ 0 := by
    rw [map_sub, show Op.matvec c - Op.matvec c' - (b - b') = (Op.matvec c - b) - (Op.matvec c' - b') by abel, inner_sub_right, ← map_sub]
    linarith
  have h4 : ⟪Op.matvec (c - c'), Op.matvec (c - c') - (b - b')⟫ ≤ 0 := by
    by_contra hcon
    have := mul_pos hσ (not_le.1 hcon)
    linarith
  rw [inner_sub_right, real_inner_self_eq_norm_sq] at h4
  have h5 := real_inner_le_norm (Op.matvec (c - c')) (b - b')
  have h6 : ‖Op.matvec (c - c')‖ ≤ ‖b - b'‖ := sq_le_cancel (norm_nonneg _) (by linarith) (norm_nonneg _)
  refine ⟨by rwa [← map_sub], fun m hm hop => ?_⟩
  rw [le_div_iff₀ hm, mul_comm]
  exact (hop _).trans h6

/-- **C117** `ProximalGradient` on regularised least squares with two data vectors: both runs converge, and the predicted data of the limits are no further apart than the data. -/
theorem C117_lasso_limits [FiniteDimensional ℝ E] {C : Type} (ext : L2Ext E H C) (a : L2Args E H) (hσ : 0 < a.σ) (hq : a.qgrad = true) (Op : LinOp E H) (e : Bool) (b b' : H) (st st' : L2State E C)
    {g : ProxOp E} {G : XFun E} (hG : G.Convex) (hg : ProxExact g G) {ε τ K : ℝ} (hε : 0 < ε) (hτ : 0 < τ) (hK : 0 ≤ K) (hop : ∀ v, ‖Op.matvec v‖ ≤ K * ‖v‖) (hτL : τ * (a.σ * K ^ 2) < 2)
    (hmin : ∃ c, (compositeObj (l2Spec { a with data := .opB Op e b }) ε G).IsMin c) (hmin' : ∃ c, (compositeObj (l2Spec { a with data := .opB Op e b' }) ε G).IsMin c) (x0 x0' : E)
    (S S' : ℕ → PGState E) (hS : ∀ n, 0 < n → ProximalGradient (L2.obj ext { a with data := .opB Op e b } st) g x0 (pgArgs τ ε .none n) = .ok (S n))
    (hS' : ∀ n, 0 < n → ProximalGradient (L2.obj ext { a with data := .opB Op e b' } st') g x0' (pgArgs τ ε .none n) = .ok (S' n)) :
    ∃ c c', Tendsto (fun n => (S n).x) atTop (𝓝 c) ∧ Tendsto (fun n => (S' n).x) atTop (𝓝 c') ∧ ‖Op.matvec c - Op.matvec c'‖ ≤ ‖b - b'‖ ∧
      ∀ m, 0 < m → (∀ v, m * ‖v‖ ≤ ‖Op.matvec v‖) → ‖c - c'‖ ≤ ‖b - b'‖ / m := by
  have : ProperSpace E := FiniteDimensional.proper ℝ E
  obtain ⟨c, h1, h2⟩ := C41_pg_converges (l2obj_grad ext { a with data := .opB Op e b } hq st) (l2_lipschitz { a with data := .opB Op e b } hσ.le Op e b rfl hK hop)
    (l2_convex _ hσ.le) hG hg hε hτ hτL x0 hmin S hS
  obtain ⟨c', h1', h2'⟩ := C41_pg_converges (l2obj_grad ext { a with data := .opB Op e b' } hq st') (l2_lipschitz { a with data := .opB Op e b' } hσ.le Op e b' rfl hK hop)
    (l2_convex _ hσ.le) hG hg hε hτ hτL x0' hmin' S' hS'
  obtain ⟨k1, k2⟩ := solution_data a hσ Op e b b' hG hε.le h1 h1'
  exact ⟨c, c', h2, h2', k1, k2⟩

omit [NormedAddCommGroup E] [InnerProductSpace ℝ E] in
/-- The regularisation path is monotone: a larger `epsg` never gives a larger value of the regulariser nor a smaller misfit. -/
lemma path_monotone {φ : E → ℝ} {G : XFun E} {ε ε' : ℝ} (hε : 0 < ε) (h : ε < ε') {c c' : E} (hc : (compositeObj φ ε G).IsMin c) (hc' : (compositeObj φ ε' G).IsMin c') :
    G.val c' ≤ G.val c ∧ φ c ≤ φ c' := by
  have h1 := hc.2 c' hc'.1
  have h2 := hc'.2 c hc.1
  simp only [compositeObj, XFun.add, XFun.ofReal, XFun.smul] at h1 h2
  have h3 : G.val c' ≤ G.val c := by
    by_contra hcon
    have := mul_pos (sub_pos.2 h) (sub_pos.2 (not_le.1 hcon))
    nlinarith
  refine ⟨h3, ?_⟩
  have := mul_le_mul_of_nonneg_left h3 hε.le
  linarith

/-- The regularisation path is locally Lipschitz in `epsg` when the smooth part is strongly convex. -/
lemma path_lipschitz {φ : E → ℝ} {G : XFun E} (hG : G.Convex) {D : E → E} (hD : ∀ x, IsGrad φ x (D x)) {μ ε ε' : ℝ} (hμ : 0 < μ) (hφ : StrongConvexOn Set.univ μ φ) (hε : 0 < ε)
    (hε' : 0 < ε') {c c' : E} (hc : (compositeObj φ ε G).IsMin c) (hc' : (compositeObj φ ε' G).IsMin c') : ‖c - c'‖ ≤ |ε - ε'| / (ε' * μ) * ‖D c'‖ := by
  have h1 := min_subgrad hD (smulConvex hG hε.le) hc hc'.1.2
  have h2 := min_subgrad hD (smulConvex hG hε'.le) hc' hc.1.2
  simp only [XFun.smul] at h1 h2
  have g1 := grad_ineq_mu hφ (hD c) c'
  have g2 := grad_ineq_mu hφ (hD c') c
  rw [norm_sub_rev c' c] at g1
  rw [← neg_sub c c', inner_neg_right] at h1 g1
  -- `ε Δ + ⟪D c, c - c'⟫ ≤ 0` and `-ε' Δ - ⟪D c', c - c'⟫ ≤ 0`
  set Δ := G.val c - G.val c'
  have k1 : ε * Δ + ⟪D c, c - c'⟫ ≤ 0 := by simp only [Δ]; linarith
  have k2 : -⟪D c', c - c'⟫ ≤ ε' * Δ := by simp only [Δ]; linarith
  have k3 : μ * ‖c - c'‖ ^ 2 ≤ ⟪D c, c - c'⟫ - ⟪D c', c - c'⟫ := by linarith
  have k4 : -⟪D c', c - c'⟫ / ε' ≤ Δ := by rw [div_le_iff₀ hε']; linarith
  have k5 := mul_le_mul_of_nonneg_left k4 hε.le
  have k6 : μ * ‖c - c'‖ ^ 2 ≤ (ε - ε') / ε' * ⟪D c', c - c'⟫ := by
    have : (ε - ε') / ε' * ⟪D c', c - c'⟫ = -(ε * (-⟪D c', c - c'⟫ / ε')) - ⟪D c', c - c'⟫ := by field_simp
    linarith
  have k7 : (ε - ε') / ε' * ⟪D c', c - c'⟫ ≤ |ε - ε'| / ε' * (‖D c'‖ * ‖c - c'‖) := by
    refine (le_abs_self _).trans ?_
    rw [abs_mul, abs_div, abs_of_pos hε']
    exact mul_le_mul_of_nonneg_left (abs_real_inner_le_norm _ _) (by positivity)
  refine sq_le_cancel (norm_nonneg _) ?_ (by positivity)
  have : |ε - ε'| / (ε' * μ) * ‖D c'‖ * ‖c - c'‖ = (|ε - ε'| / ε' * (‖D c'‖ * ‖c - c'‖)) / μ := by field_simp
  rw [this, le_div_iff₀ hμ]
  linarith

/-- **C117** `ProximalGradient` with two values of `epsg`: both runs converge, a larger `epsg` gives no larger value of `g` and no smaller value of `f`, and on a strongly convex `f` the limits
are within a multiple of the change. -/
theorem C117_path [ProperSpace E] {f g : ProxOp E} {φ : E → ℝ} {G : XFun E} {L ε ε' τ τ' : ℝ} (hf : GradExact f φ) (hL : LipschitzGrad φ L) (hφ : ConvexOn ℝ Set.univ φ) (hG : G.Convex)
    (hg : ProxExact g G) (hε : 0 < ε) (hεε : ε < ε') (hτ : 0 < τ) (hτ' : 0 < τ') (hτL : τ * L < 2) (hτL' : τ' * L < 2) (hmin : ∃ c, (compositeObj φ ε G).IsMin c)
    (hmin' : ∃ c, (compositeObj φ ε' G).IsMin c) (x0 x0' : E) (S S' : ℕ → PGState E) (hS : ∀ n, 0 < n → ProximalGradient f g x0 (pgArgs τ ε .none n) = .ok (S n))
    (hS' : ∀ n, 0 < n → ProximalGradient f g x0' (pgArgs τ' ε' .none n) = .ok (S' n)) :
    ∃ c c', Tendsto (fun n => (S n).x) atTop (𝓝 c) ∧ Tendsto (fun n => (S' n).x) atTop (𝓝 c') ∧ G.val c' ≤ G.val c ∧ φ c ≤ φ c' ∧
      ∀ μ v, 0 < μ → StrongConvexOn Set.univ μ φ → f.grad c' = .ok v → ‖c - c'‖ ≤ (ε' - ε) / (ε' * μ) * ‖v‖ := by
  obtain ⟨c, h1, h2⟩ := C41_pg_converges hf hL hφ hG hg hε hτ hτL x0 hmin S hS
  obtain ⟨c', h1', h2'⟩ := C41_pg_converges hf hL hφ hG hg (hε.trans hεε) hτ' hτL' x0' hmin' S' hS'
  obtain ⟨k1, k2⟩ := path_monotone hε hεε h1 h1'
  refine ⟨c, c', h2, h2', k1, k2, fun μ v hμ hst hv => ?_⟩
  obtain ⟨D, hD, hDg⟩ := gradExact_map hf
  have := path_lipschitz hG hDg hμ hst hε (hε.trans hεε) h1 h1'
  rw [hD] at hv
  cases hv
  rwa [abs_sub_comm, abs_of_pos (sub_pos.2 hεε)] at this

end Solutions

/-! ## Where it fails -/

/-- **C117** `L0` is discontinuous: arbitrarily close inputs, and arbitrarily close weights, give results a threshold apart. -/
theorem C117_l0_refuted [Nonempty ι] {σ τ δ : ℝ} (hσ : 0 < σ) (hτ : 0 < τ) (hδ : 0 < δ) :
    (∃ x x' p p' : Vec ι, (∀ i, |x i - x' i| ≤ δ) ∧ (L0 σ).prox x τ = .ok p ∧ (L0 σ).prox x' τ = .ok p' ∧ ∀ i, τ * σ ≤ |p i - p' i|) ∧
      ∃ (σ' : ℝ) (x p p' : Vec ι), |σ - σ'| ≤ δ ∧ (L0 σ).prox x τ = .ok p ∧ (L0 σ').prox x τ = .ok p' ∧ ∀ i, τ * σ ≤ |p i - p' i| := by
  have hT : 0 < τ * σ := by positivity
  have form : ∀ (s : ℝ) (y : Vec ι), (L0 s).prox y τ = .ok (hardthreshold y (τ * s)) := fun s y => by simp only [L0, ProxOp.prox, checkTau, if_neg (not_le.2 hτ)]
  refine ⟨⟨vmk fun _ => τ * σ, vmk fun _ => τ * σ + δ, _, _, fun i => ?_, form _ _, form _ _, fun i => ?_⟩,
    ⟨σ + δ, vmk fun _ => τ * (σ + δ), _, _, ?_, form _ _, form _ _, fun i => ?_⟩⟩
  · simp [abs_of_pos hδ]
  · simp only [hardthreshold, vmk]
    rw [if_pos (abs_of_pos hT).le, if_neg (by rw [abs_of_pos (by positivity)]; linarith), zero_sub, abs_neg, abs_of_pos (by positivity)]
    linarith
  · simp [abs_of_pos hδ]
  · have h1 : τ * σ < τ * (σ + δ) := mul_lt_mul_of_pos_left (by linarith) hτ
    simp only [hardthreshold, vmk]
    rw [abs_of_pos (show 0 < τ * (σ + δ) by positivity), if_neg (not_le.2 h1), if_pos le_rfl, sub_zero, abs_of_pos (by positivity)]
    exact h1.le

/-! ## Instances -/

/-- The hypotheses are met: `ADMM` on `||x - b||² / 2 + ||x||₁` with two data vectors. -/
example {C : Type} (ext : L2Ext (Vec ι) H C) (st : L2State (Vec ι) C) (b b' : Vec ι) (x0 : Vec ι) (n : ℕ) :
    ∃ r r', ADMM (L2.obj ext (l2Plain (.bOnly b) 1) st) (L1 1 none) (some x0) (some x0) 1 (n + 1) true = .ok r ∧
      ADMM (L2.obj ext (l2Plain (.bOnly b') 1) st) (L1 1 none) (some x0) (some x0) 1 (n + 1) true = .ok r' ∧
      ‖r.x - r'.x‖ ≤ (n + 1) * (3 * (‖b - b'‖ / 2)) := by
  have hf := l2Plain_exact ext (.bOnly b) (by simp) one_pos st
  have hf' := l2Plain_exact ext (.bOnly b') (by simp) one_pos st
  have hg := l1_proxExact (ι := ι)
  obtain ⟨Pf, hPf, -⟩ := proxExact_map hf one_pos
  obtain ⟨Pf', hPf', -⟩ := proxExact_map hf' one_pos
  obtain ⟨Pg, hPg, -⟩ := proxExact_map hg one_pos
  obtain ⟨S, -, -, -, -, -, -, -, hS⟩ := admm_traj hPf hPg true (some x0) (some x0) x0 x0 rfl
  obtain ⟨S', -, -, -, -, -, -, -, hS'⟩ := admm_traj hPf' hPg true (some x0) (some x0) x0 x0 rfl
  refine ⟨_, _, hS (n + 1), hS' (n + 1), ?_⟩
  have form : ∀ (d x : Vec ι), (L2.obj ext (l2Plain (.bOnly d) 1) st).prox x 1 = .ok ((1 / 2 : ℝ) • (x + d)) := fun d x => by
    simp only [ProxOp.prox, L2.obj, L2.prox, if_neg (not_le.2 one_pos), L2.proxBody, l2Plain, L2.subQ, npDivBy_ok _ (show (1 : ℝ) + 1 * 1 ≠ 0 by norm_num)]
    norm_num
  have := (C117_admm (F := XFun.ofReal (l2Spec (l2Plain (.bOnly b) 1))) (l2_convex (l2Plain (.bOnly b) 1) zero_le_one) l1_convex hf hf' hg hg one_pos
    (δf := ‖b - b'‖ / 2) (δg := 0) (fun x p p' h h' => by
      rw [form] at h h'; cases h; cases h'
      rw [← smul_sub, norm_smul, add_sub_add_left_eq_sub]; norm_num; linarith)
    (fun x p p' h h' => by rw [h] at h'; cases h'; simp) true x0 x0 x0 x0 n (hS (n + 1)) (hS' (n + 1))).1
  simpa using this

/-- Halving the step moves the prox of `L1` by at most half of what the prox moved its input. -/
example (x p p' : Vec ι) (hp : (L1 1 none).prox x 2 = .ok p) (hp' : (L1 1 none).prox x 1 = .ok p') : ‖p - p'‖ ≤ 1 / 2 * ‖x - p‖ := by
  have := C117_step l1_convex l1_proxExact two_pos one_pos hp hp'
  norm_num at this ⊢
  exact this

end Verif
