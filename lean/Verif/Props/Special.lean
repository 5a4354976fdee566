import Verif.Model.Special
import Verif.Model.L2
import Verif.Model.ProjOps
import Verif.Props.NonConvex

/-!
# C105: infinities and NaN

Specification: `IsFin`, `Agrees` (on finite arrays the computation with infinities and NaN returns the finite array of the real model, and where the real model reports `nanResult` it returns an
array with an entry that is not finite), `KeepsNan`, `SpreadsNan`.
-/

namespace Verif

open XF

variable {ι κ : Type} [Fintype ι] [Fintype κ]

open Classical

/-- A float that is a real number. -/
def XF.IsFin : XF → Prop
  | fin _ => True
  | _ => False

/-- The computation on floats and the real model say the same. -/
def Agrees (r : Py (ι → XF)) (m : Py (Vec ι)) : Prop := match m with
  | .ok v => r = .ok (liftX v)
  | .error .nanResult => ∃ y, r = .ok y ∧ ∃ i, ¬ (y i).IsFin
  | .error e => r = .error e

/-- The same for values. -/
def AgreesVal (r : XF) (m : Py CallVal) : Prop := match m with
  | .ok v => r = fin v.toReal
  | .error .nanResult => ¬ r.IsFin
  | .error _ => False

/-- The same for membership tests. -/
def AgreesTest (r : Prop) (m : Py CallVal) : Prop := ∃ b : Bool, m = .ok (.bool b) ∧ (b = true ↔ r)

/-- A NaN in the input is still there in the output. -/
def KeepsNan (p : (ι → XF) → ℝ → Py (ι → XF)) : Prop := ∀ x τ i, 0 < τ → x i = nan → ∃ y, p x τ = .ok y ∧ y i = nan

/-- A NaN in the input makes the whole output NaN. -/
def SpreadsNan (p : (ι → XF) → ℝ → Py (ι → XF)) : Prop := ∀ x τ, 0 < τ → (∃ i, x i = nan) → ∃ y, p x τ = .ok y ∧ ∀ j, y j = nan

/-! ## Arithmetic -/

namespace XF

@[simp] theorem fin_add' (a b : ℝ) : fin a + fin b = fin (a + b) := rfl
@[simp] theorem fin_sub' (a b : ℝ) : fin a - fin b = fin (a - b) := by change fin (a + -b) = _; rw [sub_eq_add_neg]
@[simp] theorem fin_mul' (a b : ℝ) : fin a * fin b = fin (a * b) := rfl
@[simp] theorem fin_neg' (a : ℝ) : -fin a = fin (-a) := rfl
theorem fin_div' {b : ℝ} (h : b ≠ 0) (a : ℝ) : fin a / fin b = fin (a / b) := if_neg h
theorem fin_div_zero (a : ℝ) : fin a / fin 0 = infSign a := if_pos rfl
@[simp] theorem fin_abs (a : ℝ) : (fin a).abs = fin |a| := rfl
@[simp] theorem fin_sign (a : ℝ) : (fin a).sign = fin (npsign a) := rfl
theorem fin_sqrt {a : ℝ} (h : 0 ≤ a) : sqrt (fin a) = fin √a := if_neg (not_lt.2 h)
theorem fin_log {a : ℝ} (h : 0 < a) : log (fin a) = fin (Real.log a) := by simp [log, not_lt.2 h.le, h.ne']
@[simp] theorem fin_exp (a : ℝ) : exp (fin a) = fin (Real.exp a) := rfl
@[simp] theorem fin_le (a b : ℝ) : le (fin a) (fin b) ↔ a ≤ b := Iff.rfl
@[simp] theorem fin_lt (a b : ℝ) : lt (fin a) (fin b) ↔ a < b := Iff.rfl
@[simp] theorem fin_npmax (a b : ℝ) : npmax (fin a) (fin b) = fin (max a b) := by
  simp only [npmax, fin_le]
  split_ifs with h
  · rw [max_eq_left h]
  · rw [max_eq_right (not_le.1 h).le]
@[simp] theorem fin_npmin (a b : ℝ) : npmin (fin a) (fin b) = fin (min a b) := by
  simp only [npmin, fin_le]
  split_ifs with h
  · rw [min_eq_left h]
  · rw [min_eq_right (not_le.1 h).le]
@[simp] theorem fin_pymax (a b : ℝ) : pymax (fin a) (fin b) = fin (max a b) := by
  simp only [pymax, fin_lt]
  split_ifs with h
  · rw [max_eq_right h.le]
  · rw [max_eq_left (not_lt.1 h)]
@[simp] theorem nan_add (a : XF) : nan + a = nan := by cases a <;> rfl
@[simp] theorem add_nan (a : XF) : a + nan = nan := by cases a <;> rfl
@[simp] theorem nan_sub (a : XF) : nan - a = nan := by cases a <;> rfl
@[simp] theorem sub_nan (a : XF) : a - nan = nan := by cases a <;> rfl
@[simp] theorem nan_mul (a : XF) : nan * a = nan := by cases a <;> rfl
@[simp] theorem mul_nan (a : XF) : a * nan = nan := by cases a <;> rfl
@[simp] theorem nan_div (a : XF) : nan / a = nan := by cases a <;> rfl
@[simp] theorem div_nan (a : XF) : a / nan = nan := by cases a <;> rfl
@[simp] theorem neg_nan : -nan = nan := rfl
@[simp] theorem nan_abs : nan.abs = nan := rfl
@[simp] theorem nan_sign : nan.sign = nan := rfl
@[simp] theorem nan_sqrt : nan.sqrt = nan := rfl
@[simp] theorem nan_log : nan.log = nan := rfl
@[simp] theorem nan_exp : nan.exp = nan := rfl
@[simp] theorem nan_npmax (a : XF) : npmax nan a = nan := by cases a <;> rfl
@[simp] theorem npmax_nan (a : XF) : npmax a nan = nan := by cases a <;> rfl
@[simp] theorem nan_npmin (a : XF) : npmin nan a = nan := by cases a <;> rfl
@[simp] theorem npmin_nan (a : XF) : npmin a nan = nan := by cases a <;> rfl
@[simp] theorem nan_le (a : XF) : ¬ le nan a := by cases a <;> exact not_false
@[simp] theorem le_nan (a : XF) : ¬ le a nan := by cases a <;> exact not_false
@[simp] theorem nan_lt (a : XF) : ¬ lt nan a := by cases a <;> exact not_false
@[simp] theorem lt_nan (a : XF) : ¬ lt a nan := by cases a <;> exact not_false
@[simp] theorem nan_pymax (a : XF) : pymax nan a = nan := by simp [pymax]

/-- The inclusion of the reals as a homomorphism of additive monoids. -/
noncomputable def finHom : ℝ →+ XF := ⟨⟨fin, rfl⟩, fun _ _ => rfl⟩

theorem sum_fin {α : Type} (s : Finset α) (f : α → ℝ) : ∑ i ∈ s, fin (f i) = fin (∑ i ∈ s, f i) := (map_sum finHom f s).symm

theorem sum_nan {α : Type} (s : Finset α) (f : α → XF) {i : α} (hi : i ∈ s) (h : f i = nan) : ∑ i ∈ s, f i = nan := by
  classical
  rw [← Finset.add_sum_erase s f hi, h, nan_add]

end XF

theorem xnorm_lift (x : Vec ι) : xnorm (liftX x) = fin ‖x‖ := by
  simp only [xnorm, liftX, fin_mul', sum_fin]
  rw [fin_sqrt (Finset.sum_nonneg fun i _ => mul_self_nonneg _), EuclideanSpace.norm_eq]
  simp [sq]

theorem xnorm_nan {x : ι → XF} {i : ι} (h : x i = nan) : xnorm x = nan := by
  rw [xnorm, sum_nan Finset.univ _ (Finset.mem_univ i) (by rw [h, nan_mul]), nan_sqrt]

theorem xdot_lift (w x : Vec ι) : xdot w (liftX x) = fin (inner ℝ w x) := by
  simp only [xdot, liftX, fin_mul', sum_fin, PiLp.inner_apply, RCLike.inner_apply, conj_trivial]
  exact congrArg fin (Finset.sum_congr rfl fun i _ => mul_comm _ _)

theorem xdot_nan (w : Vec ι) {x : ι → XF} {i : ι} (h : x i = nan) : xdot w x = nan :=
  sum_nan Finset.univ _ (Finset.mem_univ i) (by rw [h, mul_nan])

theorem colNormX_lift (x : Vec (ι × κ)) (j : κ) : colNormX (liftX x) j = fin (colNorm x j) := by
  simp only [colNormX, liftX, fin_mul', sum_fin, colNorm]
  rw [fin_sqrt (Finset.sum_nonneg fun i _ => mul_self_nonneg _)]
  simp only [sq]

theorem colNormX_nan {x : ι × κ → XF} {ij : ι × κ} (h : x ij = nan) : colNormX x ij.2 = nan := by
  rw [colNormX, sum_nan Finset.univ _ (Finset.mem_univ ij.1) (by rw [show (ij.1, ij.2) = ij from rfl, h, nan_mul]), nan_sqrt]

theorem infSign_not_fin (a : ℝ) : ¬ (infSign a).IsFin := by
  unfold infSign; split_ifs <;> exact not_false

theorem agrees_check {τ : ℝ} {r : Py (ι → XF)} {m : Py (Vec ι)} (h : 0 < τ → Agrees r m) : Agrees (checkTau τ r) (checkTau τ m) := by
  rcases le_or_gt τ 0 with hτ | hτ
  · simp only [checkTau, if_pos hτ, Agrees]
  · rw [checkTau_pos hτ, checkTau_pos hτ]; exact h hτ

theorem agrees_ok {r : ι → XF} {v : Vec ι} (h : ∀ i, r i = fin (v i)) : Agrees (.ok r) (.ok v) := congrArg Except.ok (funext h)

theorem softX_fin (x t : ℝ) : softX (fin x) t = fin (softScalar x t) := by simp [softX, softScalar]

/-! ## Finite in, finite out -/

/-- C105: `L1` (any `sigma`, with or without `g`). -/
theorem C105_l1_agrees (σ : ℝ) (g : Option (Vec ι)) (x : Vec ι) (τ : ℝ) : Agrees (L1X.prox σ g (liftX x) τ) ((L1 σ g).prox x τ) := by
  refine agrees_check fun hτ => agrees_ok fun i => ?_
  cases g with
  | none => simp [liftX, softX_fin, softthreshold]
  | some g => simp [liftX, softX_fin, softthreshold]

/-- C105: the value of `L1`. -/
theorem C105_l1_call_agrees (σ : ℝ) (g : Option (Vec ι)) (x : Vec ι) : AgreesVal (L1X.call σ g (liftX x)) ((L1 σ g).call x) := by
  cases g with
  | none => simp [L1X.call, L1, AgreesVal, liftX, sum_fin, CallVal.toReal]
  | some g => simp [L1X.call, L1, AgreesVal, liftX, sum_fin, CallVal.toReal]

/-- C105: `Box` with any bounds, absent ones being infinite. -/
theorem C105_box_agrees (lower upper : ι → Bound) (x : Vec ι) (τ : ℝ) : Agrees (BoxX.prox lower upper (liftX x) τ) ((Box lower upper).prox x τ) := by
  refine agrees_check fun hτ => agrees_ok fun i => ?_
  simp only [boxProj, vmk, boxClip, liftX]
  have h1 : npmax (fin (x i)) (lowerX (lower i)) = fin (maxLower (x i) (lower i)) := by
    cases lower i with
    | none => simp [lowerX, maxLower, npmax, le]
    | some l => exact fin_npmax _ _
  rw [h1]
  cases upper i with
  | none => simp [upperX, minUpper, npmin, le]
  | some u => exact fin_npmin _ _

/-- C105: `L0`. -/
theorem C105_l0_agrees (σ : ℝ) (x : Vec ι) (τ : ℝ) : Agrees (L0X.prox σ (liftX x) τ) ((L0 σ).prox x τ) := by
  refine agrees_check fun hτ => agrees_ok fun i => ?_
  simp only [hardthreshold, vmk, liftX, fin_abs, fin_le]
  split_ifs <;> rfl

/-- C105: `Huber`, `alpha > 0`. -/
theorem C105_huber_agrees {α : ℝ} (hα : 0 < α) (x : Vec ι) (τ : ℝ) : Agrees (HuberX.prox α (liftX x) τ) ((Huber α).prox x τ) := by
  refine agrees_check fun hτ => agrees_ok fun i => ?_
  have h : 1 + τ * (1 / α) ≠ 0 := by positivity
  simp only [vmk, liftX, fin_abs, fin_lt, softX_fin, fin_div' h]
  by_cases hm : α < |x i|
  · rw [if_pos hm, if_pos hm]
  · rw [if_neg hm, if_neg hm]

/-- C105: the value of `Huber`. -/
theorem C105_huber_call_agrees {α : ℝ} (hα : 0 < α) (x : Vec ι) : AgreesVal (HuberX.call α (liftX x)) ((Huber α).call x) := by
  have h : 2 * α ≠ 0 := by positivity
  have e : ∀ i, (if lt (fin α) (liftX x i).abs then (liftX x i).abs - fin (α / 2) else (liftX x i).abs * (liftX x i).abs / fin (2 * α))
      = fin (if |x i| > α then |x i| - α / 2 else |x i| ^ 2 / (2 * α)) := fun i => by
    simp only [liftX, fin_abs, fin_lt, fin_sub', fin_mul', fin_div' h, sq]
    by_cases hm : α < |x i|
    · rw [if_pos hm, if_pos hm]
    · rw [if_neg hm, if_neg hm]
  show HuberX.call α (liftX x) = fin _
  rw [HuberX.call, Finset.sum_congr rfl fun i _ => e i, sum_fin]
  rfl

theorem pyDivX_fin {b : ℝ} (h : b ≠ 0) (a : ℝ) : pyDivX (fin a) (fin b) = .ok (fin (a / b)) := by
  simp only [pyDivX, if_neg h, fin_div' h]

theorem pyDivX_zero (a : XF) : pyDivX a (fin 0) = .error .zeroDivisionError := by simp [pyDivX]

/-- C105: `HuberCircular` (any `alpha`; where the real model raises `ZeroDivisionError` so does the code). -/
theorem C105_huberCircular_agrees (α : ℝ) (x : Vec ι) (τ : ℝ) : Agrees (HuberCircularX.prox α (liftX x) τ) ((HuberCircular α).prox x τ) := by
  refine agrees_check fun hτ => ?_
  rw [xnorm_lift, fin_pymax]
  by_cases h : max ‖x‖ (τ + α) = 0
  · rw [h, pyDivX_zero, if_pos rfl]; rfl
  · rw [pyDivX_fin h, if_neg h]
    exact agrees_ok fun i => by simp [liftX]

/-- C105: `Euclidean.prox`, any `sigma`. -/
theorem C105_euclidean_agrees (σ : ℝ) (x : Vec ι) (τ : ℝ) : Agrees (EuclideanX.prox σ (liftX x) τ) ((Euclidean σ).prox x τ) := by
  refine agrees_check fun hτ => ?_
  rw [xnorm_lift, fin_pymax]
  by_cases h : max ‖x‖ (τ * σ) = 0
  · rw [h, pyDivX_zero, if_pos rfl]; rfl
  · rw [pyDivX_fin h, if_neg h]
    exact agrees_ok fun i => by simp [liftX]

/-- C105: `Euclidean.proxdual` on non-empty arrays, any `sigma`. -/
theorem C105_euclidean_dual_agrees [Nonempty ι] (σ : ℝ) (x : Vec ι) (τ : ℝ) : Agrees (EuclideanX.proxdual σ (liftX x) τ) ((Euclidean σ).proxdual x τ) := by
  refine agrees_check fun hτ => ?_
  rw [xnorm_lift, fin_pymax]
  by_cases h : max ‖x‖ σ = 0
  · rw [if_pos h, h]
    obtain ⟨i⟩ := (inferInstance : Nonempty ι)
    refine ⟨_, rfl, i, ?_⟩
    simp only [liftX, fin_mul', fin_div_zero]
    exact infSign_not_fin _
  · rw [if_neg h]
    exact agrees_ok fun i => by simp [liftX, fin_div' h, div_eq_inv_mul]

/-- C105: `Euclidean.grad` on non-empty arrays: NaN exactly at the origin. -/
theorem C105_euclidean_grad_agrees [Nonempty ι] (σ : ℝ) (x : Vec ι) : Agrees (EuclideanX.grad σ (liftX x)) ((Euclidean σ).grad x) := by
  show Agrees (.ok fun i => fin σ * liftX x i / xnorm (liftX x)) (if ‖x‖ = 0 then .error .nanResult else .ok ((1 / ‖x‖) • (σ • x)))
  rw [xnorm_lift]
  by_cases h : ‖x‖ = 0
  · rw [if_pos h, h]
    obtain ⟨i⟩ := (inferInstance : Nonempty ι)
    refine ⟨_, rfl, i, ?_⟩
    simp only [liftX, fin_mul', fin_div_zero]
    exact infSign_not_fin _
  · rw [if_neg h]
    exact agrees_ok fun i => by simp [liftX, fin_div' h, div_eq_inv_mul]

/-- C105: `EuclideanBall`, any radius. -/
theorem C105_euclideanBall_agrees (center : Vec ι) (radius : ℝ) (x : Vec ι) (τ : ℝ) :
    Agrees (EuclideanBallX.prox center radius (liftX x) τ) ((EuclideanBall center radius).prox x τ) := by
  refine agrees_check fun hτ => ?_
  have e : (fun i => liftX x i - fin (center i)) = liftX (x - center) := by funext i; simp [liftX]
  have e' : ∀ i, liftX x i - fin (center i) = fin ((x - center) i) := fun i => congrFun e i
  rw [e, xnorm_lift, fin_pymax, euclideanBallProj]
  by_cases h : max ‖x - center‖ radius = 0
  · rw [h, pyDivX_zero, if_pos rfl]; rfl
  · rw [pyDivX_fin h, if_neg h]
    exact agrees_ok fun i => by rw [e']; simp

/-- C105: `HalfSpace` on non-empty arrays, any `w` and `b`; with `w = 0` and `b < 0` (no point satisfies the inequality) the result is NaN. -/
theorem C105_halfSpace_agrees [Nonempty ι] (w : Vec ι) (b : ℝ) (x : Vec ι) (τ : ℝ) : Agrees (HalfSpaceX.prox w b (liftX x) τ) ((HalfSpace w b).prox x τ) := by
  refine agrees_check fun hτ => ?_
  simp only [xdot_lift, fin_le, halfSpaceProj]
  by_cases h : inner ℝ w x ≤ b
  · rw [if_pos h, if_pos h]; rfl
  · rw [if_neg h, if_neg h]
    by_cases h0 : inner ℝ w w = 0
    · rw [if_pos h0, h0]
      obtain ⟨i⟩ := (inferInstance : Nonempty ι)
      refine ⟨_, rfl, i, ?_⟩
      have hw : w i = 0 := by rw [inner_self_eq_zero.1 h0]; rfl
      simp only [liftX, fin_sub', fin_div_zero, hw]
      unfold infSign
      split_ifs <;> simp [XF.IsFin, HMul.hMul, Mul.mul, mul, infSign]
    · rw [if_neg h0]
      exact agrees_ok fun i => by simp only [liftX, fin_sub', fin_div' h0, fin_mul']; rfl

/-- C105: `L21.prox`, any `sigma`. -/
theorem C105_l21_agrees (σ : ℝ) (x : Vec (ι × κ)) (τ : ℝ) : Agrees (L21X.prox σ (liftX x) τ) ((L21 σ).prox x τ) := by
  refine agrees_check fun hτ => ?_
  simp only [colNormX_lift, fin_npmax]
  by_cases h : ∃ ij : ι × κ, max (colNorm x ij.2) (τ * σ) = 0
  · rw [if_pos h]
    obtain ⟨ij, h⟩ := h
    refine ⟨_, rfl, ij, ?_⟩
    simp only [h, fin_div_zero]
    have hc : ∀ i, x (i, ij.2) = 0 := fun i => by
      have h0 : colNorm x ij.2 = 0 := le_antisymm (h ▸ le_max_left _ _) (Real.sqrt_nonneg _)
      rw [colNorm, Real.sqrt_eq_zero (Finset.sum_nonneg fun i _ => sq_nonneg _), Finset.sum_eq_zero_iff_of_nonneg fun i _ => sq_nonneg _] at h0
      simpa using h0 i (Finset.mem_univ i)
    have : liftX x ij = fin 0 := by rw [liftX, show x ij = 0 from hc ij.1]
    rw [this]
    unfold infSign
    split_ifs <;> simp [XF.IsFin, HMul.hMul, Mul.mul, mul, infSign, HSub.hSub, Sub.sub, add, neg]
  · rw [if_neg h]
    have h' : ∀ ij : ι × κ, max (colNorm x ij.2) (τ * σ) ≠ 0 := fun ij hh => h ⟨ij, hh⟩
    exact agrees_ok fun ij => by simp [liftX, fin_div' (h' ij)]

/-- C105: `L21.proxdual`, any `sigma`. -/
theorem C105_l21_dual_agrees (σ : ℝ) (x : Vec (ι × κ)) (τ : ℝ) : Agrees (L21X.proxdual σ (liftX x) τ) ((L21 σ).proxdual x τ) := by
  refine agrees_check fun hτ => ?_
  simp only [colNormX_lift, fin_npmax]
  by_cases h : ∃ ij : ι × κ, max (colNorm x ij.2) σ = 0
  · rw [if_pos h]
    obtain ⟨ij, h⟩ := h
    refine ⟨_, rfl, ij, ?_⟩
    simp only [h, liftX, fin_mul', fin_div_zero]
    exact infSign_not_fin _
  · rw [if_neg h]
    have h' : ∀ ij : ι × κ, max (colNorm x ij.2) σ ≠ 0 := fun ij hh => h ⟨ij, hh⟩
    exact agrees_ok fun ij => by simp [liftX, fin_div' (h' ij)]

theorem signNan_fin (x : ℝ) : nanToNum (fin x / (fin x).abs) = fin (signNan x) := by
  by_cases h : x = 0
  · simp [h, signNan, fin_div_zero, infSign, nanToNum]
  · rw [fin_abs, fin_div' (abs_ne_zero.2 h), signNan, if_neg h]; rfl

theorem shrink_fin {a b : ℝ} (h : shrinkFactor a b ≠ .error .nanResult) : npmax (fin 1 - fin a / fin b) (fin 0) = fin (Py.get (shrinkFactor a b)) := by
  unfold shrinkFactor at h ⊢
  by_cases hb : b = 0
  · subst hb
    rw [if_pos rfl] at h ⊢
    by_cases ha : a = 0
    · exact absurd (by rw [if_pos ha]) h
    · by_cases hp : 0 < a
      · rw [if_neg ha, if_pos hp, fin_div_zero]
        simp [infSign, ha, hp, Py.get, HSub.hSub, Sub.sub, add, neg, npmax, le]
      · exact absurd (by rw [if_neg ha, if_neg hp]) h
  · rw [if_neg hb, fin_div' hb]
    simp [Py.get]

/-- C105: `L21_plus_L1.prox` for `sigma >= 0` and `rho <= 1`; with `rho = 1` or `sigma = 0` a column that is thresholded to zero is NaN. -/
theorem C105_l21plusl1_agrees {σ ρ : ℝ} (hσ : 0 ≤ σ) (hρ : ρ ≤ 1) (x : Vec (ι × κ)) (τ : ℝ) :
    Agrees (L21plusL1X.prox σ ρ (liftX x) τ) ((L21plusL1 σ ρ).prox x τ) := by
  refine agrees_check fun hτ => ?_
  have e : l1X σ ρ τ (liftX x) = liftX (l1Shrink σ ρ τ x) := by funext ij; simp [l1X, liftX, l1Shrink]
  simp only [e, colNormX_lift]
  by_cases h : ∃ ij : ι × κ, shrinkFactor (σ * τ * (1 - ρ)) (colNorm (l1Shrink σ ρ τ x) ij.2) = .error .nanResult
  · rw [if_pos h]
    obtain ⟨ij, h⟩ := h
    refine ⟨_, rfl, ij, ?_⟩
    have hb : colNorm (l1Shrink σ ρ τ x) ij.2 = 0 := by
      by_contra hb; rw [shrinkFactor, if_neg hb] at h; cases h
    have ha : σ * τ * (1 - ρ) = 0 := by
      by_contra ha
      have : 0 < σ * τ * (1 - ρ) := lt_of_le_of_ne (mul_nonneg (mul_nonneg hσ hτ.le) (by linarith)) (Ne.symm ha)
      rw [shrinkFactor, if_pos hb, if_neg ha, if_pos this] at h; cases h
    simp only [hb, ha, fin_div_zero]
    simp [infSign, XF.IsFin]
  · rw [if_neg h]
    have h' : ∀ ij : ι × κ, shrinkFactor (σ * τ * (1 - ρ)) (colNorm (l1Shrink σ ρ τ x) ij.2) ≠ .error .nanResult := fun ij hh => h ⟨ij, hh⟩
    refine agrees_ok fun ij => ?_
    rw [shrink_fin (h' ij)]
    simp only [liftX, signNan_fin, fin_mul', vmk]

/-- C105: the membership tests of `Box`, `EuclideanBall`, `HalfSpace`, `L1Ball` and `Simplex` on finite arrays. -/
theorem C105_tests_agree (lower upper : ι → Bound) (center w : Vec ι) (radius b tol : ℝ) (bis : (ℝ → ℝ) → ℝ → ℝ → ℝ) (fuel : ℕ) (x : Vec ι) :
    AgreesTest (BoxX.call lower upper (liftX x)) ((Box lower upper).call x)
      ∧ AgreesTest (EuclideanBallX.call center radius (liftX x)) ((EuclideanBall center radius).call x)
      ∧ AgreesTest (HalfSpaceX.call w b (liftX x)) ((HalfSpace w b).call x)
      ∧ AgreesTest (L1BallX.call radius tol (liftX x)) ((L1Ball bis fuel radius tol).call x)
      ∧ AgreesTest (SimplexX.call radius tol (liftX x)) ((Simplex bis fuel radius tol true).call x) := by
  refine ⟨⟨_, rfl, ?_⟩, ⟨_, rfl, ?_⟩, ⟨_, rfl, ?_⟩, ⟨_, rfl, ?_⟩, ⟨_, rfl, ?_⟩⟩
  · rw [decide_eq_true_iff]
    refine forall_congr' fun i => ?_
    cases lower i <;> cases upper i <;> simp [lowerX, upperX, geLower, leUpper, le, liftX]
  · have e : (fun i => liftX x i - fin (center i)) = liftX (x - center) := by funext i; simp [liftX]
    rw [decide_eq_true_iff, EuclideanBallX.call, e, xnorm_lift]; rfl
  · rw [decide_eq_true_iff, HalfSpaceX.call, xdot_lift]; rfl
  · rw [decide_eq_true_iff, L1BallX.call]
    simp only [liftX, fin_abs, sum_fin, fin_sub', fin_lt]
  · rw [decide_eq_true_iff, SimplexX.call]
    simp only [liftX, sum_fin, fin_sub', fin_lt, gt_iff_lt]

/-! ## Non-convex penalties -/

/-- C105: `SCAD` with the parameters its constructor accepts, at every positive step, also at `tau = a - 1` where the second formula divides by zero (no entry reaches it). -/
theorem C105_scad_agrees {σ a : ℝ} {op : ProxOp (Vec ι)} (hop : SCAD σ a = .ok op) (x : Vec ι) (τ : ℝ) :
    Agrees (eachX (scadProxX σ a) (liftX x) τ) (op.prox x τ) := by
  unfold SCAD at hop
  split_ifs at hop with h1 h2
  cases hop
  push Not at h1 h2
  refine agrees_check fun hτ => agrees_ok fun i => ?_
  have ha : a - 1 ≠ 0 := by linarith
  have ha' : 0 < a - 1 := by linarith
  simp only [scadProxX, liftX, fin_div' ha, fin_abs, fin_le, fin_sign, fin_sub', fin_npmax, fin_mul', fin_lt, scadProx, vmk]
  by_cases hA : |x i| ≤ σ * (a - 1 - τ + τ * a) / (a - 1)
  · rw [if_neg (fun h => absurd hA (not_le.2 h.1)), if_pos hA, if_pos hA]
  · rw [if_neg hA, if_neg hA]
    by_cases hB : |x i| ≤ a * σ
    · rw [if_pos ⟨not_le.1 hA, hB⟩, if_pos hB]
      have hd : a - 1 - τ ≠ 0 := by
        intro hd
        apply hA
        rw [hd, zero_add, show τ = a - 1 by linarith, le_div_iff₀ ha']
        nlinarith
      rw [fin_div' hd]
      ring_nf
    · rw [if_neg (fun h => hB h.2), if_neg hB]

/-- C105: `QuadraticEnvelopeCard`, any `mu`: for a negative one the square root is NaN and `prox` returns its input. -/
theorem C105_qec_agrees (μ : ℝ) (x : Vec ι) (τ : ℝ) : Agrees (eachX (qecProxX μ) (liftX x) τ) ((QuadraticEnvelopeCard μ).prox x τ) := by
  refine agrees_check fun hτ => agrees_ok fun i => ?_
  show qecProxX μ τ (fin (x i)) = fin (qecProx μ τ (x i))
  rw [qecProxX, qecProx]
  rcases lt_or_ge μ 0 with hμ | hμ
  · have e : sqrt (fin (2 * μ)) = nan := if_pos (by linarith)
    have e' : √(2 * μ) = 0 := Real.sqrt_eq_zero_of_nonpos (by linarith)
    rw [if_neg (e ▸ lt_nan _), e', if_neg (not_lt.2 (abs_nonneg _)), fin_abs, fin_sign, fin_mul']
  · have e := fin_sqrt (show 0 ≤ 2 * μ by linarith)
    have hc : lt (fin (x i)).abs (sqrt (fin (2 * μ))) ↔ |x i| < √(2 * μ) := by rw [e]; rfl
    by_cases hm : |x i| < √(2 * μ)
    · rw [if_pos (hc.2 hm), if_pos hm]
      by_cases ht : τ ≥ 1
      · rw [if_pos ht, if_pos ht, fin_sign, fin_mul']
      · rw [if_neg ht, if_neg ht, e, fin_abs, fin_sign, fin_mul', fin_sub', fin_div' (by intro h; exact ht (by linarith)), fin_npmax, fin_mul']
    · rw [if_neg fun hh => hm (hc.1 hh), if_neg hm, fin_abs, fin_sign, fin_mul']

/-- C105: `RelaxedMumfordShah` with `sigma` not zero and `kappa` any number. -/
theorem C105_rms_agrees {σ : ℝ} (hσ : σ ≠ 0) (k : ℝ) (x : Vec ι) (τ : ℝ) : Agrees (eachX (rmsProxX σ k) (liftX x) τ) ((RelaxedMS σ k).prox x τ) := by
  refine agrees_check fun hτ => ?_
  rw [if_neg hσ]
  refine agrees_ok fun i => ?_
  show rmsProxX σ k τ (fin (x i)) = fin (if |x i| ≤ √(k / σ * (1 + 2 * τ * σ)) then 1 / (1 + 2 * (τ * σ)) * x i else x i)
  rw [rmsProxX]
  rcases lt_or_ge (k / σ * (1 + 2 * τ * σ)) 0 with h | h
  · have e : sqrt (fin (k / σ * (1 + 2 * τ * σ))) = nan := if_pos h
    rw [if_neg (e ▸ le_nan _), Real.sqrt_eq_zero_of_nonpos h.le]
    by_cases h0 : |x i| ≤ 0
    · rw [if_pos h0, abs_nonpos_iff.1 h0, mul_zero]
    · rw [if_neg h0]
  · have hc : le (fin (x i)).abs (sqrt (fin (k / σ * (1 + 2 * τ * σ)))) ↔ |x i| ≤ √(k / σ * (1 + 2 * τ * σ)) := by rw [fin_sqrt h]; rfl
    by_cases hm : |x i| ≤ √(k / σ * (1 + 2 * τ * σ))
    · rw [if_pos (hc.2 hm), if_pos hm, fin_mul']
    · rw [if_neg fun hh => hm (hc.1 hh), if_neg hm]

theorem logElemX_fin {σ γ : ℝ} (hγ : 0 < γ) (x : ℝ) : logElemX σ γ (fin x) = fin (logElem σ γ x) := by
  have h1 : Real.log (γ + 1) ≠ 0 := (Real.log_pos (by linarith)).ne'
  have h2 : 0 < γ * |x| + 1 := by positivity
  simp only [logElemX, logElem, fin_abs, fin_mul', fin_add', fin_log h2, fin_log (show 0 < γ + 1 by linarith), fin_div' h1]

theorem argminSecond_fin (a b : ℝ) : argminSecond (fin a) (fin b) ↔ b < a := Iff.rfl

/-- C105: `Log.prox` with the parameters its constructor accepts, `gamma = 0` included (zeros are returned). -/
theorem C105_log_agrees {σ γ : ℝ} {op : ProxOp (Vec ι)} (hop : Log σ γ = .ok op) (x : Vec ι) (τ : ℝ) : Agrees (eachX (logProxX σ γ) (liftX x) τ) (op.prox x τ) := by
  have h1 : ¬ σ < 0 := fun h => by rw [Log, if_pos h] at hop; cases hop
  have h2 : ¬ γ < 0 := fun h => by rw [Log, if_neg h1, if_pos h] at hop; cases hop
  rw [Log, if_neg h1, if_neg h2] at hop
  cases hop
  push Not at h1 h2
  refine agrees_check fun hτ => agrees_ok fun i => ?_
  rcases h2.eq_or_lt with h0 | hγ
  · subst h0
    show logProxX σ 0 τ (liftX x i) = fin (if (0:ℝ) = 0 then 0 else logProx σ 0 τ (x i))
    rw [if_pos rfl]
    have hk : ∀ c : ℝ, (fin c / log (fin (0 + 1))) * fin 0 = nan := fun c => by
      rw [show log (fin (0 + 1)) = fin 0 by rw [fin_log (by norm_num)]; simp, fin_div_zero]
      unfold infSign
      split_ifs <;> simp [HMul.hMul, Mul.mul, mul, infSign]
    simp only [logProxX, hk, nan_sub, mul_nan, sub_nan, if_neg (le_nan _), liftX, fin_sign, fin_mul', zero_mul]
  · have hl : Real.log (γ + 1) ≠ 0 := (Real.log_pos (by linarith)).ne'
    show logProxX σ γ τ (liftX x i) = fin (if γ = 0 then 0 else logProx σ γ τ (x i))
    rw [if_neg hγ.ne']
    simp only [logProxX, logProx, liftX, fin_abs, fin_mul', fin_sub', fin_sign, fin_log (show 0 < γ + 1 by linarith), fin_div' hl, fin_le, ge_iff_le]
    rw [show (γ * |x i| - 1) * (γ * |x i| - 1) = (γ * |x i| - 1) ^ 2 by ring]
    by_cases hd : 0 ≤ (γ * |x i| - 1) ^ 2 - 4 * γ * (τ * σ / Real.log (γ + 1) * γ - |x i|)
    · rw [if_pos hd, if_pos hd]
      simp only [fin_sqrt hd, fin_add', fin_div' (show 2 * γ ≠ 0 by positivity), logElemX_fin hγ, fin_mul', fin_sub', fin_div' (show (2:ℝ) ≠ 0 by norm_num), argminSecond_fin]
      simp only [← sq]
      split_ifs with hA hB hB
      · exact absurd hB (not_le.2 hA)
      · rfl
      · simp
      · exact absurd (not_le.1 hB) hA
    · rw [if_neg hd, if_neg hd, fin_mul']

/-- C105: the value of `Log`: NaN for `gamma = 0` on non-empty arrays, finite otherwise. -/
theorem C105_log_call_agrees [Nonempty ι] {σ γ : ℝ} {op : ProxOp (Vec ι)} (hop : Log σ γ = .ok op) (x : Vec ι) :
    AgreesVal (∑ i, logElemX σ γ (liftX x i)) (op.call x) := by
  have h1 : ¬ σ < 0 := fun h => by rw [Log, if_pos h] at hop; cases hop
  have h2 : ¬ γ < 0 := fun h => by rw [Log, if_neg h1, if_pos h] at hop; cases hop
  rw [Log, if_neg h1, if_neg h2] at hop
  cases hop
  push Not at h1 h2
  rcases h2.eq_or_lt with h0 | hγ
  · subst h0
    show AgreesVal _ (if (0:ℝ) = 0 then .error .nanResult else _)
    rw [if_pos rfl]
    obtain ⟨i⟩ := (inferInstance : Nonempty ι)
    rw [sum_nan Finset.univ _ (Finset.mem_univ i)]
    · exact not_false
    · simp only [logElemX, liftX, fin_abs, fin_mul', fin_add', zero_mul]
      rw [show log (fin (0 + 1)) = fin 0 by rw [fin_log (by norm_num)]; simp, fin_div_zero]
      unfold infSign
      split_ifs <;> simp [HMul.hMul, Mul.mul, mul, infSign]
  · simp only [if_neg hγ.ne', AgreesVal, liftX, logElemX_fin hγ, sum_fin, CallVal.toReal]

/-- C105: `Log1.prox` with the parameters its constructor accepts, any `sigma`: no square root of a negative number is taken. -/
theorem C105_log1_agrees {σ δ : ℝ} {op : ProxOp (Vec ι)} (hop : Log1 σ δ = .ok op) (x : Vec ι) (τ : ℝ) : Agrees (eachX (log1ProxX σ δ) (liftX x) τ) (op.prox x τ) := by
  have h1 : ¬ δ < 0 := fun h => by rw [Log1, if_pos h] at hop; cases hop
  rw [Log1, if_neg h1] at hop
  cases hop
  push Not at h1
  refine agrees_check fun hτ => ?_
  rcases lt_or_ge σ 0 with hσ | hσ
  · rw [if_pos hσ]
    refine agrees_ok fun i => ?_
    have e : sqrt (fin (2 * (σ * τ))) = nan := if_pos (by nlinarith)
    simp only [log1ProxX, e, nan_sub, neg_nan, if_neg (nan_lt _), if_neg (lt_nan _)]
    rfl
  · rw [if_neg (not_lt.2 hσ)]
    refine agrees_ok fun i => ?_
    have h0 : 0 ≤ 2 * (σ * τ) := by positivity
    have hs : √(2 * (σ * τ)) ^ 2 = 2 * (σ * τ) := Real.sq_sqrt h0
    have hs0 := Real.sqrt_nonneg (2 * (σ * τ))
    simp only [log1ProxX, liftX, log1Prox, fin_sqrt h0, fin_sub', fin_neg', fin_lt, fin_add', fin_abs, fin_mul', vmk]
    by_cases hA : x i < -(√(2 * (σ * τ)) - δ)
    · rw [if_pos hA, if_pos hA, fin_sqrt, fin_sub', fin_mul', ← sq]
      have := abs_mul_abs_self (x i - δ)
      rw [this]
      nlinarith
    · rw [if_neg hA, if_neg hA]
      by_cases hB : √(2 * (σ * τ)) - δ < x i
      · rw [if_pos hB, if_pos hB, fin_sqrt, fin_add', fin_mul', ← sq]
        rw [abs_mul_abs_self]
        nlinarith
      · rw [if_neg hB, if_neg hB]

/-- C105: the value of `Log1`: minus infinity exactly for `delta = 0` and a zero entry. -/
theorem C105_log1_call_agrees {σ δ : ℝ} {op : ProxOp (Vec ι)} (hop : Log1 σ δ = .ok op) (x : Vec ι) :
    AgreesVal (∑ i, log1ElemX δ (liftX x i)) (op.call x) := by
  have h1 : ¬ δ < 0 := fun h => by rw [Log1, if_pos h] at hop; cases hop
  rw [Log1, if_neg h1] at hop
  cases hop
  push Not at h1
  by_cases h : ∃ i, |x i| + δ = 0
  · simp only [if_pos h, AgreesVal]
    obtain ⟨i, hi⟩ := h
    have hsum : ∀ s : Finset ι, (∀ j ∈ s, log1ElemX δ (liftX x j) ≠ nan ∧ log1ElemX δ (liftX x j) ≠ pinf) ∧ (∑ j ∈ s, log1ElemX δ (liftX x j) ≠ nan ∧ ∑ j ∈ s, log1ElemX δ (liftX x j) ≠ pinf) := by
      have h0 : ∀ j, log1ElemX δ (liftX x j) ≠ nan ∧ log1ElemX δ (liftX x j) ≠ pinf := fun j => by
        simp only [log1ElemX, liftX, fin_abs, fin_add', log, if_neg (not_lt.2 (add_nonneg (abs_nonneg (x j)) h1))]
        split_ifs <;> simp
      intro s
      refine ⟨fun j _ => h0 j, ?_⟩
      induction s using Finset.induction_on with
      | empty => exact ⟨(fun h => nomatch h), (fun h => nomatch h)⟩
      | insert a s ha ih =>
        rw [Finset.sum_insert ha]
        have := h0 a
        revert ih this
        generalize log1ElemX δ (liftX x a) = u
        generalize ∑ j ∈ s, log1ElemX δ (liftX x j) = v
        intro ih this
        cases u <;> cases v <;> simp_all [HAdd.hAdd, Add.add, add]
    rw [← Finset.add_sum_erase Finset.univ _ (Finset.mem_univ i)]
    have hi' : log1ElemX δ (liftX x i) = ninf := by
      simp [log1ElemX, liftX, hi, log]
    rw [hi']
    have := (hsum (Finset.univ.erase i)).2
    revert this
    generalize ∑ j ∈ Finset.univ.erase i, log1ElemX δ (liftX x j) = v
    intro this
    cases v <;> simp_all [HAdd.hAdd, Add.add, add, XF.IsFin]
  · simp only [if_neg h, AgreesVal]
    push Not at h
    rw [Finset.sum_congr rfl fun i _ => show log1ElemX δ (liftX x i) = fin (Real.log (|x i| + δ)) by
      simp only [log1ElemX, liftX, fin_abs, fin_add']
      exact fin_log (lt_of_le_of_ne (add_nonneg (abs_nonneg _) h1) (Ne.symm (h i))), sum_fin]
    rfl

theorem etpElemX_fin {σ γ : ℝ} (hγ : 0 < γ) (x : ℝ) : etpElemX σ γ (fin x) = fin (etpElem σ γ x) := by
  have h : 1 - Real.exp (-γ) ≠ 0 := by
    have : Real.exp (-γ) < 1 := Real.exp_lt_one_iff.2 (by linarith)
    linarith
  simp only [etpElemX, etpElem, fin_abs, fin_mul', fin_exp, fin_sub', fin_div' h]

/-- C105: `ETP.prox` with the parameters its constructor accepts, for any function in place of Lambert's. -/
theorem C105_etp_agrees (lambertw : ℝ → ℝ) {σ γ : ℝ} {op : ProxOp (Vec ι)} (hop : ETP lambertw σ γ = .ok op) (x : Vec ι) (τ : ℝ) :
    Agrees (eachX (etpProxX lambertw σ γ) (liftX x) τ) (op.prox x τ) := by
  unfold ETP at hop
  split_ifs at hop with h1 h2
  cases hop
  push Not at h1 h2
  refine agrees_check fun hτ => agrees_ok fun i => ?_
  have h : 1 - Real.exp (-γ) ≠ 0 := by
    have : Real.exp (-γ) < 1 := Real.exp_lt_one_iff.2 (by linarith)
    linarith
  simp only [etpProxX, liftX, etpProx, vmk, fin_abs, fin_exp, fin_sub', fin_div' h, fin_neg', fin_mul', fin_sign, lambertX, fin_div' h2.ne', fin_add', etpElemX_fin h2,
    fin_div' (show (2:ℝ) ≠ 0 by norm_num), fin_le, fin_lt, ← sq]
  by_cases hA : Real.exp (-|x i| * γ) * (τ * σ / (1 - Real.exp (-γ))) * γ ^ 2 ≤ Real.exp (-1)
  · rw [if_pos hA]
    split_ifs with hB hC hC
    · rfl
    · exact absurd hB.2 hC
    · exact absurd ⟨hA, hC⟩ hB
    · rfl
  · rw [if_neg hA, if_neg fun hh => hA hh.1]

theorem gemanElemX_fin {σ γ : ℝ} (hγ : 0 < γ) (x : ℝ) : gemanElemX σ γ (fin x) = fin (gemanElem σ γ x) := by
  have h : |x| + γ ≠ 0 := by positivity
  simp only [gemanElemX, gemanElem, fin_abs, fin_mul', fin_add', fin_div' h]

/-- C105: `Geman.prox` with the parameters its constructor accepts: where an entry is selected, the square root, the division by it and the arc cosine are all defined. -/
theorem C105_geman_agrees {σ γ : ℝ} {op : ProxOp (Vec ι)} (hop : Geman σ γ = .ok op) (x : Vec ι) (τ : ℝ) :
    Agrees (eachX (gemanProxX σ γ) (liftX x) τ) (op.prox x τ) := by
  unfold Geman at hop
  split_ifs at hop with h1 h2
  cases hop
  push Not at h1 h2
  refine agrees_check fun hτ => agrees_ok fun i => ?_
  have n2 : (2:ℝ) ≠ 0 := by norm_num
  have n3 : (3:ℝ) ≠ 0 := by norm_num
  have n4 : (4:ℝ) ≠ 0 := by norm_num
  have n27 : (27:ℝ) ≠ 0 := by norm_num
  set b := 2 * γ - |x i| with hb
  set c := γ ^ 2 - 2 * γ * |x i| with hc
  set d := γ * σ * τ - γ ^ 2 * |x i| with hd
  set f := -((c - b ^ 2 / 3) ^ 3) / 27 with hf
  set g := (2 * b ^ 3 - 9 * b * c + 27 * d) / 27 with hg
  have hfp : 0 < f := by
    have : c - b ^ 2 / 3 = -((γ + |x i|) ^ 2 / 3) := by rw [hb, hc]; ring
    rw [hf, this]
    have : 0 < γ + |x i| := by positivity
    have e : -((-((γ + |x i|) ^ 2 / 3)) ^ 3) / 27 = ((γ + |x i|) ^ 2 / 3) ^ 3 / 27 := by ring
    rw [e]; positivity
  have hs : 2 * √f ≠ 0 := by positivity
  have e1 : ∀ y : XF, y = fin ((c - b * b / 3) * (c - b * b / 3) * (c - b * b / 3)) → -y / fin 27 = fin f := fun y hy => by
    rw [hy, fin_neg', fin_div' n27, hf]; congr 1; ring
  have e2 : (fin 2 * (fin b * fin b * fin b) - fin 9 * fin b * fin c + fin 27 * fin d) / fin 27 = fin g := by
    simp only [fin_mul', fin_sub', fin_add', fin_div' n27, hg]; congr 1; ring
  show gemanProxX σ γ τ (fin (x i)) = fin (gemanProx σ γ τ (x i))
  simp only [gemanProxX, fin_abs, fin_sub', fin_mul', ← hb, ← hc, ← hd, fin_div' n3]
  rw [e1 _ rfl]
  simp only [fin_mul', fin_sub'] at e2
  rw [e2, fin_sqrt hfp.le]
  simp only [gemanProx, gemanLocalMin, ← hb, ← hc, ← hd, ← hf, ← hg, fin_mul', fin_div' n4, fin_sub', fin_le, fin_div' hs, fin_neg', cbrt, if_neg (not_lt.2 (Real.sqrt_nonneg f)), ← sq]
  by_cases hA : g ^ 2 / 4 - f ≤ 0
  · have hgs : |g| ≤ 2 * √f := by
      rw [← Real.sqrt_sq_eq_abs, show 2 * √f = √(4 * f) by
        rw [Real.sqrt_mul (by norm_num), show (4:ℝ) = 2 ^ 2 by norm_num, Real.sqrt_sq (by norm_num)]]
      exact Real.sqrt_le_sqrt (by linarith)
    have hr : -1 ≤ -(g / (2 * √f)) ∧ -(g / (2 * √f)) ≤ 1 := by
      have hp : 0 < 2 * √f := by positivity
      rw [abs_le] at hgs
      constructor
      · rw [neg_le_neg_iff, div_le_one hp]; exact hgs.2
      · rw [neg_le, le_div_iff₀ hp]; linarith [hgs.1]
    rw [if_pos hA]
    simp only [arccos, if_pos hr, fin_div' n3, cos, fin_mul', fin_sub', gemanElemX_fin h2, fin_div' n2, fin_add', fin_lt, hA, true_and, fin_sign, ← sq]
    split_ifs <;> rfl
  · rw [if_neg hA, if_neg fun hh => hA hh.1]

end Verif
