import Verif.Model.Dtype
import Verif.Props.NonConvex
import Verif.Props.NonConvex2
import Verif.Props.NonConvex3
import Verif.Props.Projections2
import Verif.Props.InPlace

/-! # C104: whole numbers give the same result whether the array holds them as integers or as floats -/

open scoped RealInnerProductSpace

namespace Verif

variable {ι κ : Type} [Fintype ι] [Fintype κ]

/-! ## Specification -/

/-- The whole numbers `k`, stored in an array of dtype `d`. -/
noncomputable def stored (d : DT) (k : ι → ℤ) : Arr ι := ⟨d, vmk fun i => (k i : ℝ)⟩

/-- The values returned do not depend on how whole numbers are stored. -/
def DtypeBlind (m : Arr ι → Py (Arr ι)) : Prop := ∀ k : ι → ℤ, (m (stored .int k)).map Arr.val = (m (stored .float k)).map Arr.val

/-- `r` is `v` without its fractional part. -/
def IsTrunc (v r : ℝ) : Prop := (∃ k : ℤ, r = k) ∧ |v - r| < 1 ∧ |r| ≤ |v|

/-- With integers stored, the result is the one for floats with the fractional part of every entry removed. -/
def Truncates (m : Arr ι → Py (Arr ι)) : Prop :=
  ∀ k : ι → ℤ, (∀ e, m (stored .float k) = .error e → m (stored .int k) = .error e) ∧
    ∀ r, m (stored .float k) = .ok r → ∃ q, m (stored .int k) = .ok q ∧ ∀ i, IsTrunc (r.val i) (q.val i)

/-- On arrays of floats the method is the one of the model without dtypes. -/
def FloatIs (m : Arr ι → ℝ → Py (Arr ι)) (f : ProxOp (Vec ι)) : Prop := ∀ x τ, m ⟨.float, x⟩ τ = (f.prox x τ).map fun v => ⟨.float, v⟩

/-! ## Removing the fractional part -/

lemma truncZ_spec (v : ℝ) : IsTrunc v (truncZ v) := by
  unfold truncZ
  split_ifs with h
  · refine ⟨⟨⌊v⌋, rfl⟩, ?_, ?_⟩
    · rw [abs_of_nonneg (by linarith [Int.floor_le v])]; linarith [Int.lt_floor_add_one v]
    · have : (0 : ℝ) ≤ (⌊v⌋ : ℝ) := by exact_mod_cast Int.floor_nonneg.2 h
      rw [abs_of_nonneg this, abs_of_nonneg h]; exact Int.floor_le v
  · push Not at h
    refine ⟨⟨⌈v⌉, rfl⟩, ?_, ?_⟩
    · rw [abs_of_nonpos (by linarith [Int.le_ceil v])]; linarith [Int.ceil_lt_add_one v]
    · have : (⌈v⌉ : ℝ) ≤ 0 := by exact_mod_cast Int.ceil_le.2 (by simpa using h.le)
      rw [abs_of_nonpos this, abs_of_neg h]; linarith [Int.le_ceil v]

lemma truncZ_int (k : ℤ) : truncZ (k : ℝ) = k := by unfold truncZ; split_ifs <;> simp

lemma truncZ_zero : truncZ 0 = 0 := by simpa using truncZ_int 0

lemma truncZ_one : truncZ 1 = 1 := by simpa using truncZ_int 1

lemma truncZ_neg (v : ℝ) : truncZ (-v) = -truncZ v := by
  unfold truncZ
  rcases lt_trichotomy v 0 with h | h | h
  · rw [if_pos (by linarith), if_neg (by linarith), Int.floor_neg]; push_cast; ring
  · simp [h]
  · rw [if_neg (by linarith), if_pos h.le, Int.ceil_neg]; push_cast; ring

lemma truncZ_mul_sign (v x : ℝ) : truncZ v * npsign x = truncZ (v * npsign x) := by
  unfold npsign
  split_ifs <;> simp [truncZ_neg, truncZ_zero]

lemma truncZ_of_lt_one {v : ℝ} (h0 : 0 ≤ v) (h1 : v < 1) : truncZ v = 0 := by
  unfold truncZ
  rw [if_pos h0, Int.floor_eq_zero_iff.2 ⟨h0, h1⟩]; simp

/-- Removing the fractional part changes every number that has one, and no other. -/
lemma isTrunc_eq_iff {v r : ℝ} (h : IsTrunc v r) : r = v ↔ ∃ k : ℤ, v = k := by
  obtain ⟨⟨k, hk⟩, h1, h2⟩ := h
  constructor
  · intro e; exact ⟨k, by rw [← e, hk]⟩
  · rintro ⟨j, hj⟩
    rw [hk, hj] at h1
    have : |((j - k : ℤ) : ℝ)| < 1 := by push_cast; exact h1
    rw [← Int.cast_abs] at this
    have h3 : |j - k| < 1 := by exact_mod_cast this
    have : j - k = 0 := Int.abs_lt_one_iff.1 h3
    rw [hk, hj]; exact_mod_cast (by omega : k = j)

section Tools

lemma arr_ext {a b : Arr ι} (hd : a.dt = b.dt) (hv : ∀ i, a.val i = b.val i) : a = b := by
  cases a; cases b
  simp only [Arr.mk.injEq]
  exact ⟨hd, by ext i; exact hv i⟩

variable {m : Arr ι → ℝ → Py (Arr ι)}

lemma ite_ite_and (P Q : Prop) [Decidable P] [Decidable Q] [Decidable (P ∧ Q)] (t : ℝ) : (if P then (if Q then t else 0) else 0) = if P ∧ Q then t else 0 := by
  by_cases hP : P <;> by_cases hQ : Q <;> simp [hP, hQ]

/-- A method computed entry by entry. -/
lemma truncates_of {τ : ℝ} {h : ι → ℝ → ℝ} {g : DT → ι → ℝ → ℝ} (hm : ∀ a : Arr ι, m a τ = .ok ⟨a.dt, vmk fun i => g a.dt i (a.val i)⟩)
    (hf : ∀ i x, g .float i x = h i x) (hi : ∀ i (k : ℤ), g .int i k = truncZ (h i k)) : Truncates fun a => m a τ := by
  intro k
  refine ⟨fun e he => ?_, fun r hr => ?_⟩
  · simp only [hm] at he; cases he
  · simp only [hm] at hr
    cases hr
    refine ⟨_, hm _, fun i => ?_⟩
    simp only [stored, vmk, hf, hi]
    exact truncZ_spec _

lemma truncates_nonpos {τ : ℝ} (hm : ∀ a : Arr ι, m a τ = .error .valueError) : Truncates fun a => m a τ := by
  intro k
  refine ⟨fun e he => ?_, fun r hr => ?_⟩
  · simp only [hm] at he ⊢; exact he
  · simp only [hm] at hr; cases hr

/-- A method that drops fractional parts gives the same values for both ways of storing `k` exactly when the result has no fractional part. -/
theorem C104_agree_iff_partial {m : Arr ι → Py (Arr ι)} (hm : Truncates m) (k : ι → ℤ) (r : Arr ι) (hr : m (stored .float k) = .ok r) :
    (m (stored .int k)).map Arr.val = (m (stored .float k)).map Arr.val ↔ ∀ i, ∃ j : ℤ, r.val i = j := by
  obtain ⟨q, hq, ht⟩ := (hm k).2 r hr
  rw [hq, hr]
  constructor
  · intro h i
    have : q.val = r.val := by simpa [Except.map] using h
    exact (isTrunc_eq_iff (ht i)).1 (by rw [this])
  · intro h
    have : q.val = r.val := by ext i; exact (isTrunc_eq_iff (ht i)).2 (h i)
    simp [Except.map, this]

end Tools

/-! ## Operators that drop fractional parts -/

/-- C104, Huber: `prox` of an integer array loses the fractional parts. -/
theorem C104_huber_partial (α : ℝ) : FloatIs (HuberT.prox α) (Huber (ι := ι) α) ∧ ∀ τ, Truncates fun a : Arr ι => HuberT.prox α a τ := by
  classical
  constructor
  · intro x τ
    by_cases hτ : τ ≤ 0
    · simp [HuberT.prox, ProxOp.prox, Huber, checkTau, hτ, Except.map]
    · simp only [HuberT.prox, ProxOp.prox, Huber, checkTau, hτ, if_false, Except.map]
      refine congrArg _ (arr_ext rfl fun i => ?_)
      by_cases h : |x i| > α <;> simp [Arr.put, Arr.zerosLike, DT.cast, h]
  · intro τ
    by_cases hτ : τ ≤ 0
    · exact truncates_nonpos fun a => by simp [HuberT.prox, checkTau, hτ]
    · refine truncates_of (h := fun _ x => if |x| > α then softScalar x (τ * 1) else x / (1 + τ * (1 / α)))
        (g := fun d _ x => if |x| > α then d.cast (softScalar x (τ * 1)) else d.cast (x / (1 + τ * (1 / α)))) (fun a => ?_) (fun i x => rfl) (fun i k => ?_)
      · simp only [HuberT.prox, checkTau, hτ, if_false]
        refine congrArg _ (arr_ext rfl fun i => ?_)
        by_cases h : |a.val i| > α <;> simp [Arr.put, Arr.zerosLike, h]
      · simp only [DT.cast]; split_ifs <;> rfl

/-- C104, SCAD. -/
theorem C104_scad_partial (σ a : ℝ) (op : ProxOp (Vec ι)) (hop : SCAD σ a = .ok op) :
    FloatIs (SCADT.prox σ a) op ∧ ∀ τ, Truncates fun x : Arr ι => SCADT.prox σ a x τ := by
  classical
  have hop' : op.prox? = some fun x τ => checkTau τ (.ok (vmk fun i => scadProx σ a τ (x i))) := by
    unfold SCAD at hop
    split_ifs at hop
    cases hop; rfl
  have key : ∀ (τ : ℝ) (x : Arr ι), ((x.put (fun i => |x.val i| ≤ σ * (a - 1 - τ + τ * a) / (a - 1)) fun i => npsign (x.val i) * max 0 (|x.val i| - σ * τ)).put
      (fun i => σ * (a - 1 - τ + τ * a) / (a - 1) < |x.val i| ∧ |x.val i| ≤ a * σ) fun i => ((a - 1) * x.val i - npsign (x.val i) * a * σ * τ) / (a - 1 - τ)) =
      ⟨x.dt, vmk fun i => if |x.val i| ≤ σ * (a - 1 - τ + τ * a) / (a - 1) then x.dt.cast (npsign (x.val i) * max 0 (|x.val i| - σ * τ))
        else if |x.val i| ≤ a * σ then x.dt.cast (((a - 1) * x.val i - npsign (x.val i) * a * σ * τ) / (a - 1 - τ)) else x.val i⟩ := by
    intro τ x
    simp only [Arr.put]
    congr 1
    ext i
    by_cases h1 : |x.val i| ≤ σ * (a - 1 - τ + τ * a) / (a - 1)
    · simp [h1, not_lt.2 h1]
    · by_cases h2 : |x.val i| ≤ a * σ <;> simp [h1, h2, not_le.1 h1]
  constructor
  · intro x τ
    by_cases hτ : τ ≤ 0
    · simp [SCADT.prox, ProxOp.prox, hop', checkTau, hτ, Except.map]
    · simp only [SCADT.prox, ProxOp.prox, hop', checkTau, hτ, if_false, Except.map, key]
      rfl
  · intro τ
    by_cases hτ : τ ≤ 0
    · exact truncates_nonpos fun a => by simp [SCADT.prox, checkTau, hτ]
    · refine truncates_of (h := fun _ x => scadProx σ a τ x)
        (g := fun d _ x => if |x| ≤ σ * (a - 1 - τ + τ * a) / (a - 1) then d.cast (npsign x * max 0 (|x| - σ * τ))
          else if |x| ≤ a * σ then d.cast (((a - 1) * x - npsign x * a * σ * τ) / (a - 1 - τ)) else x) (fun x => ?_) (fun i x => rfl) (fun i k => ?_)
      · simp only [SCADT.prox, checkTau, hτ, if_false, key]
      · simp only [DT.cast, scadProx]; split_ifs <;> first | rfl | exact (truncZ_int k).symm

/-- C104, Log. -/
theorem C104_log_partial (σ γ : ℝ) (hγ : 0 < γ) (op : ProxOp (Vec ι)) (hop : Log σ γ = .ok op) :
    FloatIs (LogT.prox σ γ) op ∧ ∀ τ, Truncates fun x : Arr ι => LogT.prox σ γ x τ := by
  classical
  have hop' : op.prox? = some fun x τ => checkTau τ (.ok (vmk fun i => logProx σ γ τ (x i))) := by
    unfold Log at hop
    rw [if_neg hγ.le.not_gt] at hop
    split at hop
    · cases hop
    · cases hop; simp [hγ.ne']
  have hpick : ∀ τ x, logProx σ γ τ x = (if (γ * |x| - 1) ^ 2 - 4 * γ * (τ * σ / Real.log (γ + 1) * γ - |x|) ≥ 0 then logPick σ γ τ x else 0) * npsign x :=
    fun _ _ => rfl
  constructor
  · intro x τ
    by_cases hτ : τ ≤ 0
    · simp [LogT.prox, ProxOp.prox, hop', checkTau, hτ, Except.map]
    · simp only [LogT.prox, ProxOp.prox, hop', checkTau, hτ, if_false, Except.map, hpick]
      refine congrArg _ (arr_ext rfl fun i => ?_)
      simp [Arr.put, Arr.zerosLike, DT.cast]
  · intro τ
    by_cases hτ : τ ≤ 0
    · exact truncates_nonpos fun a => by simp [LogT.prox, checkTau, hτ]
    · refine truncates_of (h := fun _ x => logProx σ γ τ x)
        (g := fun d _ x => (if (γ * |x| - 1) ^ 2 - 4 * γ * (τ * σ / Real.log (γ + 1) * γ - |x|) ≥ 0 then d.cast (logPick σ γ τ x) else 0) * npsign x)
        (fun x => ?_) (fun i x => rfl) (fun i k => ?_)
      · simp only [LogT.prox, checkTau, hτ, if_false, Arr.put, Arr.zerosLike]
        congr 2
      · simp only [DT.cast, hpick]
        rw [← truncZ_mul_sign]
        split_ifs
        · rfl
        · rw [truncZ_zero]

/-- C104, Log1. -/
theorem C104_log1_partial (σ δ : ℝ) (hσ : 0 ≤ σ) (op : ProxOp (Vec ι)) (hop : Log1 σ δ = .ok op) :
    FloatIs (Log1T.prox σ δ) op ∧ ∀ τ, Truncates fun x : Arr ι => Log1T.prox σ δ x τ := by
  classical
  have hop' : op.prox? = some fun x τ => checkTau τ (.ok (vmk fun i => log1Prox σ δ τ (x i))) := by
    unfold Log1 at hop
    split at hop
    · cases hop
    · cases hop; simp [not_lt.2 hσ]
  constructor
  · intro x τ
    by_cases hτ : τ ≤ 0
    · simp [Log1T.prox, ProxOp.prox, hop', checkTau, hτ, Except.map]
    · simp only [Log1T.prox, ProxOp.prox, hop', checkTau, hτ, if_false, Except.map, log1Prox]
      congr 2
  · intro τ
    by_cases hτ : τ ≤ 0
    · exact truncates_nonpos fun a => by simp [Log1T.prox, checkTau, hτ]
    · refine truncates_of (h := fun _ x => log1Prox σ δ τ x)
        (g := fun d _ x => if x < -(√(2 * (σ * τ)) - δ) then d.cast (0.5 * (x + δ - √(|x - δ| ^ 2 - 2 * (σ * τ))))
          else if x > √(2 * (σ * τ)) - δ then d.cast (0.5 * (x - δ + √(|x + δ| ^ 2 - 2 * (σ * τ)))) else 0)
        (fun x => ?_) (fun i x => rfl) (fun i k => ?_)
      · simp only [Log1T.prox, checkTau, hτ, if_false, Arr.put, Arr.zerosLike]
        congr 2
      · simp only [DT.cast, log1Prox]; split_ifs <;> first | rfl | exact truncZ_zero.symm

/-- C104, ETP. -/
theorem C104_etp_partial (W : ℝ → ℝ) (σ γ : ℝ) (op : ProxOp (Vec ι)) (hop : ETP W σ γ = .ok op) :
    FloatIs (ETPT.prox W σ γ) op ∧ ∀ τ, Truncates fun x : Arr ι => ETPT.prox W σ γ x τ := by
  classical
  have hop' : op.prox? = some fun x τ => checkTau τ (.ok (vmk fun i => etpProx W σ γ τ (x i))) := by
    unfold ETP at hop
    split_ifs at hop
    cases hop; rfl
  have hpick : ∀ τ x, etpProx W σ γ τ x = if Real.exp (-|x| * γ) * (τ * σ / (1 - Real.exp (-γ))) * γ ^ 2 ≤ Real.exp (-1) ∧
      τ * etpElem σ γ (etpStat W σ γ τ x) + (etpStat W σ γ τ x - x) ^ 2 / 2 < x ^ 2 / 2 then etpStat W σ γ τ x else 0 := by
    intro τ x
    exact ite_ite_and _ _ _
  constructor
  · intro x τ
    by_cases hτ : τ ≤ 0
    · simp [ETPT.prox, ProxOp.prox, hop', checkTau, hτ, Except.map]
    · simp only [ETPT.prox, ProxOp.prox, hop', checkTau, hτ, if_false, Except.map, hpick]
      refine congrArg _ (arr_ext rfl fun i => ?_)
      simp only [Arr.put, Arr.zerosLike, DT.cast, vmk]
      split_ifs <;> rfl
  · intro τ
    by_cases hτ : τ ≤ 0
    · exact truncates_nonpos fun a => by simp [ETPT.prox, checkTau, hτ]
    · refine truncates_of (h := fun _ x => etpProx W σ γ τ x)
        (g := fun d _ x => if Real.exp (-|x| * γ) * (τ * σ / (1 - Real.exp (-γ))) * γ ^ 2 ≤ Real.exp (-1) ∧
          τ * etpElem σ γ (etpStat W σ γ τ x) + (etpStat W σ γ τ x - x) ^ 2 / 2 < x ^ 2 / 2 then d.cast (etpStat W σ γ τ x) else 0)
        (fun x => ?_) (fun i x => (hpick τ x).symm) (fun i k => ?_)
      · simp only [ETPT.prox, checkTau, hτ, if_false, Arr.put, Arr.zerosLike]
        refine congrArg _ (arr_ext rfl fun i => ?_)
        dsimp only
        split_ifs <;> rfl
      · simp only [DT.cast, hpick]; split_ifs <;> first | rfl | exact truncZ_zero.symm

/-- C104, Geman. -/
theorem C104_geman_partial (σ γ : ℝ) (op : ProxOp (Vec ι)) (hop : Geman σ γ = .ok op) :
    FloatIs (GemanT.prox σ γ) op ∧ ∀ τ, Truncates fun x : Arr ι => GemanT.prox σ γ x τ := by
  classical
  have hop' : op.prox? = some fun x τ => checkTau τ (.ok (vmk fun i => gemanProx σ γ τ (x i))) := by
    unfold Geman at hop
    split_ifs at hop
    cases hop; rfl
  have hpick : ∀ τ x, gemanProx σ γ τ x = if ∃ r, gemanFound σ γ τ x = some r ∧ τ * gemanElem σ γ r + (r - |x|) ^ 2 / 2 < |x| ^ 2 / 2
      then npsign x * (gemanFound σ γ τ x).getD 0 else 0 := by
    intro τ x
    show (match gemanFound σ γ τ x with
      | none => 0
      | some r => if τ * gemanElem σ γ r + (r - |x|) ^ 2 / 2 < |x| ^ 2 / 2 then npsign x * r else 0) = _
    cases h : gemanFound σ γ τ x with
    | none => simp
    | some r => simp
  constructor
  · intro x τ
    by_cases hτ : τ ≤ 0
    · simp [GemanT.prox, ProxOp.prox, hop', checkTau, hτ, Except.map]
    · simp only [GemanT.prox, ProxOp.prox, hop', checkTau, hτ, if_false, Except.map, hpick]
      refine congrArg _ (arr_ext rfl fun i => ?_)
      simp only [Arr.put, Arr.zerosLike, DT.cast, vmk]
      split_ifs <;> rfl
  · intro τ
    by_cases hτ : τ ≤ 0
    · exact truncates_nonpos fun a => by simp [GemanT.prox, checkTau, hτ]
    · refine truncates_of (h := fun _ x => gemanProx σ γ τ x)
        (g := fun d _ x => if ∃ r, gemanFound σ γ τ x = some r ∧ τ * gemanElem σ γ r + (r - |x|) ^ 2 / 2 < |x| ^ 2 / 2
          then d.cast (npsign x * (gemanFound σ γ τ x).getD 0) else 0)
        (fun x => ?_) (fun i x => (hpick τ x).symm) (fun i k => ?_)
      · simp only [GemanT.prox, checkTau, hτ, if_false, Arr.put, Arr.zerosLike]
        refine congrArg _ (arr_ext rfl fun i => ?_)
        dsimp only
        split_ifs <;> rfl
      · simp only [DT.cast, hpick]; split_ifs <;> first | rfl | exact truncZ_zero.symm

/-- C104, QuadraticEnvelopeCard. -/
theorem C104_qec_partial (μ : ℝ) (hμ : 0 ≤ μ) : FloatIs (QECT.prox μ) (QuadraticEnvelopeCard (ι := ι) μ) ∧ ∀ τ, Truncates fun x : Arr ι => QECT.prox μ x τ := by
  classical
  have key : ∀ (τ : ℝ), ¬ τ ≤ 0 → ∀ (x : Arr ι), QECT.prox μ x τ = .ok ⟨x.dt, vmk fun i => (if |x.val i| < √(2 * μ) then
      (if τ ≥ 1 then x.dt.cast 0 else x.dt.cast (max 0 ((|x.val i| - τ * √(2 * μ)) / (1 - τ)))) else |x.val i|) * npsign (x.val i)⟩ := by
    intro τ hτ x
    by_cases h1 : τ ≥ 1 <;> simp [QECT.prox, checkTau, hτ, h1, Arr.put]
  constructor
  · intro x τ
    by_cases hτ : τ ≤ 0
    · simp [QECT.prox, ProxOp.prox, QuadraticEnvelopeCard, checkTau, hτ, Except.map]
    · rw [key τ hτ]
      simp [ProxOp.prox, QuadraticEnvelopeCard, checkTau, hτ, Except.map, not_lt.2 hμ, qecProx, DT.cast]
  · intro τ
    by_cases hτ : τ ≤ 0
    · exact truncates_nonpos fun a => by simp [QECT.prox, checkTau, hτ]
    · refine truncates_of (h := fun _ x => qecProx μ τ x) (g := fun d _ x => (if |x| < √(2 * μ) then
        (if τ ≥ 1 then d.cast 0 else d.cast (max 0 ((|x| - τ * √(2 * μ)) / (1 - τ)))) else |x|) * npsign x) (fun x => key τ hτ x) (fun i x => ?_) (fun i k => ?_)
      · simp [qecProx, DT.cast]
      · simp only [DT.cast, qecProx]
        rw [← truncZ_mul_sign]
        split_ifs
        · rw [truncZ_zero]
        · rfl
        · rw [← Int.cast_abs, truncZ_int]

/-- C104, Simplex with `dims`. -/
theorem C104_simplex_partial (bisect : (ℝ → ℝ) → ℝ → ℝ → ℝ) (fuel : ℕ) (radius tol : ℝ) (callFlag : Bool) :
    FloatIs (SimplexRowsT.prox bisect fuel radius) (SimplexRows (ι := ι) (κ := κ) bisect fuel radius tol callFlag) ∧
      ∀ τ, Truncates fun x : Arr (ι × κ) => SimplexRowsT.prox bisect fuel radius x τ := by
  classical
  constructor
  · intro x τ
    by_cases hτ : τ ≤ 0
    · simp [SimplexRowsT.prox, ProxOp.prox, SimplexRows, checkTau, hτ, Except.map]
    · by_cases h : ∃ i, simplexProj bisect fuel radius (vmk fun j : κ => x (i, j)) = .error .outOfFuel
      · simp only [SimplexRowsT.prox, ProxOp.prox, SimplexRows, checkTau, hτ, if_false, h, if_true, Except.map]
      · simp only [SimplexRowsT.prox, ProxOp.prox, SimplexRows, checkTau, hτ, if_false, h, Except.map, Arr.put, Arr.zerosLike, if_true, DT.cast]
        rfl
  · intro τ k
    by_cases hτ : τ ≤ 0
    · refine ⟨fun e he => ?_, fun r hr => ?_⟩
      · simpa [SimplexRowsT.prox, checkTau, hτ] using he
      · simp [SimplexRowsT.prox, checkTau, hτ] at hr
    · by_cases h : ∃ i, simplexProj bisect fuel radius (vmk fun j : κ => ((k (i, j) : ℤ) : ℝ)) = .error .outOfFuel
      · refine ⟨fun e he => ?_, fun r hr => ?_⟩
        · simpa only [SimplexRowsT.prox, stored, checkTau, hτ, if_false, h, if_true] using he
        · simp only [SimplexRowsT.prox, stored, checkTau, hτ, if_false, h, if_true] at hr
          cases hr
      · refine ⟨fun e he => ?_, fun r hr => ?_⟩
        · simp only [SimplexRowsT.prox, stored, checkTau, hτ, if_false, h] at he
          cases he
        · simp only [SimplexRowsT.prox, stored, checkTau, hτ, if_false, h] at hr ⊢
          cases hr
          refine ⟨_, rfl, fun i => ?_⟩
          simp only [Arr.put, Arr.zerosLike, if_true, DT.cast, vmk]
          exact truncZ_spec _

end Verif
