import Verif.Props.Symmetry
import Verif.Props.Projections2
import Verif.Props.Closed
import Verif.Props.TV
import Verif.Props.Nuclear
import Verif.Props.NonConvex3

/-! # C108 for the operators of the library -/

open scoped RealInnerProductSpace

namespace Verif

variable {E E' : Type} [NormedAddCommGroup E] [InnerProductSpace ℝ E] [NormedAddCommGroup E'] [InnerProductSpace ℝ E']
variable {ι κ : Type} [Fintype ι] [Fintype κ]

/-! ## Specification: another order of the entries, and other signs -/

/-- The sign of an entry: `true` is a change of sign. -/
def signOf (b : Bool) : ℝ := if b then -1 else 1

/-- Another order of the entries: entry `k` of the new array is entry `e.symm k` of the old one. -/
noncomputable def reindex (e : ι ≃ κ) : Vec ι ≃ₗᵢ[ℝ] Vec κ := LinearIsometryEquiv.piLpCongrLeft 2 ℝ ℝ e

/-- Another order of the entries and other signs: entry `k` of the new array is plus or minus entry `e.symm k` of the old one. -/
noncomputable def resign (e : ι ≃ κ) (s : κ → Bool) : Vec ι ≃ₗᵢ[ℝ] Vec κ :=
  (reindex e).trans (LinearIsometryEquiv.piLpCongrRight 2 fun k => if s k then LinearIsometryEquiv.neg ℝ else LinearIsometryEquiv.refl ℝ ℝ)

lemma reindex_apply (e : ι ≃ κ) (x : Vec ι) (k : κ) : reindex e x k = x (e.symm k) := rfl

lemma resign_apply (e : ι ≃ κ) (s : κ → Bool) (x : Vec ι) (k : κ) : resign e s x k = signOf (s k) * x (e.symm k) := by
  show (if s k then LinearIsometryEquiv.neg ℝ else LinearIsometryEquiv.refl ℝ ℝ) (x (e.symm k)) = _
  cases s k <;> simp [signOf]

lemma resign_none (e : ι ≃ κ) : resign e (fun _ => false) = reindex e := by
  ext x k
  rw [resign_apply, reindex_apply]; simp [signOf]

lemma signOf_abs (b : Bool) (v : ℝ) : |signOf b * v| = |v| := by cases b <;> simp [signOf]

lemma signOf_sq (b : Bool) : signOf b * signOf b = 1 := by cases b <;> simp [signOf]

lemma npsign_neg' (v : ℝ) : npsign (-v) = -npsign v := by
  simp only [npsign]
  split_ifs <;> linarith

lemma signOf_npsign (b : Bool) (v : ℝ) : npsign (signOf b * v) = signOf b * npsign v := by
  cases b <;> simp [signOf, npsign_neg']

/-! ## Operators that work entry by entry -/

/-- An operator that evaluates the sum of `φ` over the entries and applies `h` to every entry. -/
lemma same_entrywise {op : ProxOp (Vec ι)} {op' : ProxOp (Vec κ)} {U : Vec ι ≃ₗᵢ[ℝ] Vec κ} (e : ι ≃ κ) (s : κ → Bool) (hU : U = resign e s) {h : ℝ → ℝ → ℝ}
    (hd : op.proxdual? = none) (hd' : op'.proxdual? = none) (hg : op.grad? = none) (hg' : op'.grad? = none) (hs : op'.sigmame = op.sigmame)
    (hc : ∀ x, op'.call (U x) = op.call x)
    (hm : op.prox? = some fun x τ => checkTau τ (.ok (vmk fun i => h τ (x i)))) (hm' : op'.prox? = some fun x τ => checkTau τ (.ok (vmk fun i => h τ (x i))))
    (ho : ∀ τ k v, h τ (signOf (s k) * v) = signOf (s k) * h τ v) : SameOp U op op' := by
  refine sameOp_of_prox hd hd' hg hg' hs hc hm hm' fun x τ => ?_
  simp only [checkTau]
  split_ifs
  · rfl
  · refine congrArg Except.ok ?_
    ext k
    subst hU
    rw [resign_apply]
    change h τ (resign e s x k) = _
    rw [resign_apply, ho]

lemma sum_resign (e : ι ≃ κ) (s : κ → Bool) (φ : ℝ → ℝ) (hφ : ∀ b v, φ (signOf b * v) = φ v) (x : Vec ι) : ∑ k, φ (resign e s x k) = ∑ i, φ (x i) := by
  simp only [resign_apply, hφ]
  exact Equiv.sum_comp e.symm fun i => φ (x i)

lemma even_of_abs {φ : ℝ → ℝ} (ψ : ℝ → ℝ) (h : ∀ v, φ v = ψ |v|) (b : Bool) (v : ℝ) : φ (signOf b * v) = φ v := by
  rw [h, h, signOf_abs]

lemma odd_mul_npsign {h : ℝ → ℝ} (k : ℝ → ℝ) (hk : ∀ v, h v = k |v| * npsign v) (b : Bool) (v : ℝ) : h (signOf b * v) = signOf b * h v := by
  rw [hk, hk, signOf_abs, signOf_npsign]; ring

lemma softScalar_resign (t : ℝ) (b : Bool) (v : ℝ) : softScalar (signOf b * v) t = signOf b * softScalar v t :=
  odd_mul_npsign (h := fun v => softScalar v t) (fun r => max (r - t) 0) (fun _ => rfl) b v

/-- C108 for the penalties that look at the absolute value of each entry: another order and other signs of the entries of the input only reorder and change the signs of the result. -/
theorem C108_entrywise (e : ι ≃ κ) (s : κ → Bool) (σ a μ γ : ℝ) (lambertw : ℝ → ℝ) :
    SameOp (resign e s) (Huber a) (Huber a) ∧ SameOp (resign e s) (L0 σ) (L0 σ) ∧ SameOp (resign e s) (QuadraticEnvelopeCard μ) (QuadraticEnvelopeCard μ) ∧
      (∀ op op', SCAD σ a = .ok op → SCAD σ a = .ok op' → SameOp (resign e s) op op') ∧ (∀ op op', Log σ γ = .ok op → Log σ γ = .ok op' → SameOp (resign e s) op op') ∧
      (∀ op op', ETP lambertw σ γ = .ok op → ETP lambertw σ γ = .ok op' → SameOp (resign e s) op op') ∧
      (∀ op op', Geman σ γ = .ok op → Geman σ γ = .ok op' → SameOp (resign e s) op op') := by
  classical
  refine ⟨?_, ?_, ?_, fun op op' h h' => ?_, fun op op' h h' => ?_, fun op op' h h' => ?_, fun op op' h h' => ?_⟩
  · refine same_entrywise e s rfl (h := fun τ v => if |v| > a then softScalar v (τ * 1) else v / (1 + τ * (1 / a))) rfl rfl rfl rfl rfl (fun x => ?_) rfl rfl fun τ k v => ?_
    · simp only [Huber]
      rw [sum_resign e s (fun v => if |v| > a then |v| - a / 2 else |v| ^ 2 / (2 * a)) (even_of_abs (fun r => if r > a then r - a / 2 else r ^ 2 / (2 * a)) fun _ => rfl)]
    · simp only [signOf_abs, softScalar_resign]
      split_ifs
      · rfl
      · rw [mul_div_assoc]
  · refine same_entrywise e s rfl (h := fun τ v => if |v| ≤ τ * σ then 0 else v) rfl rfl rfl rfl rfl (fun x => ?_) rfl rfl fun τ k v => ?_
    · simp only [L0, Finset.card_filter]
      have := sum_resign e s (fun v => if |v| > 0 then (1 : ℝ) else 0) (even_of_abs (fun r => if r > 0 then 1 else 0) fun _ => rfl) x
      push_cast
      rw [this]
    · simp only [signOf_abs]
      split_ifs
      · rw [mul_zero]
      · rfl
  · refine same_entrywise e s rfl (h := qecProx μ) rfl rfl rfl rfl rfl (fun x => ?_) rfl rfl fun τ k v => ?_
    · simp only [QuadraticEnvelopeCard]
      rw [sum_resign e s (qecElem μ) (even_of_abs (fun r => μ - 0.5 * (max 0 (√(2 * μ) - r)) ^ 2) fun _ => rfl)]
    · exact odd_mul_npsign (h := qecProx μ τ) (fun r => if r < √(2 * μ) then (if τ ≥ 1 then 0 else max 0 ((r - τ * √(2 * μ)) / (1 - τ))) else r) (fun _ => rfl) _ _
  · simp only [SCAD] at h h'
    split_ifs at h h'
    cases h; cases h'
    refine same_entrywise e s rfl (h := scadProx σ a) rfl rfl rfl rfl rfl (fun x => ?_) rfl rfl fun τ k v => ?_
    · refine congrArg (fun r => Except.ok (CallVal.num r)) (sum_resign e s (scadElem σ a) (fun b v => ?_) x)
      cases b <;> simp [signOf, scadElem]
    · cases s k
      · simp [signOf]
      · simp only [signOf, if_true, neg_one_mul, scadProx, abs_neg, npsign_neg']
        split_ifs <;> ring
  · simp only [Log] at h h'
    split_ifs at h h' with h1 h2 h3
    · cases h; cases h'
      exact same_entrywise e s rfl (h := fun _ _ => 0) rfl rfl rfl rfl rfl (fun x => rfl) rfl rfl fun τ k v => (mul_zero _).symm
    · cases h; cases h'
      refine same_entrywise e s rfl (h := logProx σ γ) rfl rfl rfl rfl rfl (fun x => ?_) rfl rfl fun τ k v => ?_
      · refine congrArg (fun r => Except.ok (CallVal.num r)) (sum_resign e s (logElem σ γ) (even_of_abs (fun r => σ / Real.log (γ + 1) * Real.log (γ * r + 1)) fun _ => rfl) x)
      · cases s k
        · simp [signOf]
        · simp only [signOf, if_true, neg_one_mul, logProx, abs_neg, npsign_neg', mul_neg]
  · simp only [ETP] at h h'
    split_ifs at h h'
    cases h; cases h'
    have hev : ∀ v, etpElem σ γ (-v) = etpElem σ γ v := fun v => by simp only [etpElem, abs_neg]
    refine same_entrywise e s rfl (h := etpProx lambertw σ γ) rfl rfl rfl rfl rfl (fun x => ?_) rfl rfl fun τ k v => ?_
    · refine congrArg (fun r => Except.ok (CallVal.num r)) (sum_resign e s (etpElem σ γ) (fun b v => ?_) x)
      cases b <;> simp [signOf, hev]
    · cases s k
      · simp [signOf]
      · simp only [signOf, if_true, neg_one_mul, etpProx, abs_neg, npsign_neg']
        have e1 : ∀ w, -npsign v * w / γ + -v = -(npsign v * w / γ + v) := fun w => by ring
        simp only [e1, hev, neg_sq]
        have e2 : ∀ w, -(w + v) - -v = -w := fun w => by ring
        have e3 : ∀ w, w + v - v = w := fun w => by ring
        simp only [e2, e3, neg_sq]
        split_ifs <;> simp
  · simp only [Geman] at h h'
    split_ifs at h h'
    cases h; cases h'
    refine same_entrywise e s rfl (h := gemanProx σ γ) rfl rfl rfl rfl rfl (fun x => ?_) rfl rfl fun τ k v => ?_
    · refine congrArg (fun r => Except.ok (CallVal.num r)) (sum_resign e s (gemanElem σ γ) (even_of_abs (fun r => σ * r / (r + γ)) fun _ => rfl) x)
    · simp only [gemanProx, signOf_abs, signOf_npsign]
      cases gemanLocalMin (2 * γ - |v|) (γ ^ 2 - 2 * γ * |v|) (γ * σ * τ - γ ^ 2 * |v|) with
      | none => simp
      | some r =>
        simp only []
        split_ifs
        · ring
        · rw [mul_zero]

/-- C108 for `L1`, whose shift `g` is reordered as well, and its own `proxdual`. -/
theorem C108_l1 (e : ι ≃ κ) (s : κ → Bool) (σ : ℝ) (hσ : 0 ≤ σ) (g : Option (Vec ι)) : SameOp (resign e s) (L1 σ g) (L1 σ (g.map (resign e s))) := by
  have hst : ∀ (x : Vec ι) (t : ℝ), softthreshold (resign e s x) (fun _ => t) = resign e s (softthreshold x fun _ => t) := fun x t => by
    ext k
    rw [resign_apply]
    change softScalar (resign e s x k) t = _
    rw [resign_apply, softScalar_resign]
    rfl
  have hp : ∀ x τ, (L1 σ (g.map (resign e s))).prox (resign e s x) τ = resign e s <$> (L1 σ g).prox x τ := fun x τ => by
    cases g with
    | none =>
      simp only [L1, ProxOp.prox, Option.map_none, checkTau, hst]
      split_ifs <;> rfl
    | some g =>
      simp only [L1, ProxOp.prox, Option.map_some, checkTau, ← map_sub, hst, ← map_add]
      split_ifs <;> rfl
  have hsum : ∀ x, ∑ k, |resign e s x k| = ∑ i, |x i| := fun x => sum_resign e s (fun v => |v|) (even_of_abs id fun _ => rfl) x
  refine ⟨fun x => ?_, hp, fun x τ => ?_, fun x => ?_⟩
  · cases g with
    | none => simp only [L1, Option.map_none, hsum]
    | some g => simp only [L1, Option.map_some, ← map_sub, hsum]
  · cases hg : g with
    | none =>
      have e1 : ∀ (r : ℝ) {D : Type} [Fintype D] (x : Vec D) i, boxProj (fun _ => some (-r)) (fun _ => some r) x i = min (max (x i) (-r)) r := fun r D _ x i => rfl
      simp only [L1, ProxOp.proxdual, Option.map_none, checkTau]
      split_ifs
      · rfl
      · refine congrArg Except.ok ?_
        ext k
        rw [resign_apply, e1, resign_apply, e1]
        cases s k
        · simp [signOf]
        · simp only [signOf, if_true, neg_one_mul]
          rw [← max_neg_neg, ← min_neg_neg, neg_neg, max_min_distrib_right, max_eq_left (by linarith : -σ ≤ σ)]
    | some g' =>
      subst hg
      have e1 : ∀ (r : ℝ) {D : Type} [Fintype D] (c x : Vec D) (t : ℝ), (L1 r (some c)).proxdual x t = checkTau t (ProxOp.moreauStep (L1 r (some c)).prox x t) := fun r D _ c x t => rfl
      simp only [Option.map_some] at hp ⊢
      rw [e1, e1, moreauStep_commute hp]
      simp only [checkTau]
      split_ifs <;> rfl
  · have e1 : ∀ {D : Type} [Fintype D] (c : Option (Vec D)) (y : Vec D), (L1 σ c).grad y = (do
        let p ← (L1 σ c).prox y 1
        pure ((1 / (1 : ℝ)) • (y - p))) := fun c y => rfl
    rw [e1, e1, hp]
    simp

/-- C108 for `RelaxedMumfordShah`. -/
theorem C108_relaxedms (e : ι ≃ κ) (s : κ → Bool) (σ c : ℝ) : SameOp (resign e s) (RelaxedMS σ c) (RelaxedMS σ c) := by
  refine sameOp_of_prox rfl rfl rfl rfl rfl (fun x => ?_) rfl rfl fun x τ => ?_
  · simp only [RelaxedMS, LinearIsometryEquiv.norm_map]
  · simp only [checkTau]
    split_ifs
    · rfl
    · rfl
    · refine congrArg Except.ok ?_
      ext k
      rw [resign_apply]
      change (if |resign e s x k| ≤ _ then _ * resign e s x k else resign e s x k) = signOf (s k) * (if |x (e.symm k)| ≤ _ then _ * x (e.symm k) else x (e.symm k))
      rw [resign_apply, signOf_abs]
      split_ifs
      · ring
      · rfl

/-- C108 for `Log1` and another order of the entries. -/
theorem C108_log1_partial (e : ι ≃ κ) (σ δ : ℝ) (op : ProxOp (Vec ι)) (op' : ProxOp (Vec κ)) (h : Log1 σ δ = .ok op) (h' : Log1 σ δ = .ok op') : SameOp (reindex e) op op' := by
  classical
  rw [← resign_none]
  have hc : ∀ x : Vec ι, ∑ k, Real.log (|resign e (fun _ => false) x k| + δ) = ∑ i, Real.log (|x i| + δ) := fun x =>
    sum_resign e _ (fun v => Real.log (|v| + δ)) (even_of_abs (fun r => Real.log (r + δ)) fun _ => rfl) x
  have hex : ∀ x : Vec ι, (∃ k, |resign e (fun _ => false) x k| + δ = 0) ↔ ∃ i, |x i| + δ = 0 := fun x => by
    simp only [resign_apply, signOf_abs]
    exact ⟨fun ⟨k, hk⟩ => ⟨e.symm k, hk⟩, fun ⟨i, hi⟩ => ⟨e i, by rwa [e.symm_apply_apply]⟩⟩
  simp only [Log1] at h h'
  by_cases hδ : δ < 0
  · simp only [if_pos hδ] at h; cases h
  · simp only [if_neg hδ] at h h'
    cases h; cases h'
    by_cases hσ : σ < 0
    · exact same_entrywise e _ rfl (h := fun _ _ => 0) rfl rfl rfl rfl rfl (fun x => by simp only [hc, hex]) (by simp only [if_pos hσ]; rfl) (by simp only [if_pos hσ]; rfl)
        fun τ k v => (mul_zero _).symm
    · exact same_entrywise e _ rfl (h := log1Prox σ δ) rfl rfl rfl rfl rfl (fun x => by simp only [hc, hex]) (by simp only [if_neg hσ]) (by simp only [if_neg hσ])
        fun τ k v => by simp [signOf]

/-- C108 fails for `Log1` and a change of sign: at zero, which is its own opposite, a small step returns a positive entry. -/
theorem C108_log1_sign_refuted (σ δ τ : ℝ) (hσ : 0 < σ) (hτ : 0 < τ) (h1 : √(2 * (σ * τ)) < δ) (op : ProxOp (Vec (Fin 1))) (hop : Log1 σ δ = .ok op) :
    ¬ SameOp (resign (Equiv.refl _) fun _ => true) op op := by
  intro h
  obtain ⟨op', p, e1, e2, e3, -⟩ := C68_log1_zero_refuted σ δ τ hσ hτ h1
  rw [hop] at e1; cases e1
  have := h.prox 0 τ
  rw [map_zero, e2, py_map_ok, Except.ok.injEq] at this
  have h2 := congrArg (fun y : Vec (Fin 1) => y 0) this
  simp only [resign_apply, signOf, if_true] at h2
  change p 0 = -1 * p 0 at h2
  linarith

/-! ## Operators that only use norms and inner products -/

/-- C108 for every orthonormal change of coordinates: `Euclidean`, `HuberCircular`, the half space and the ball, whose normal vector and centre change with the coordinates. -/
theorem C108_rotations (U : E ≃ₗᵢ[ℝ] E') (σ a b r : ℝ) (w c : E) :
    SameOp U (Euclidean σ) (Euclidean σ) ∧ SameOp U (HuberCircular a) (HuberCircular a) ∧ SameOp U (HalfSpace w b) (HalfSpace (U w) b) ∧
      SameOp U (EuclideanBall c r) (EuclideanBall (U c) r) := by
  classical
  have m1 : ∀ v : E, U <$> (Except.ok v : Py E) = Except.ok (U v) := fun _ => rfl
  have m2 : ∀ er : PyErr, U <$> (Except.error er : Py E) = Except.error er := fun _ => rfl
  refine ⟨⟨fun x => ?_, fun x τ => ?_, fun x τ => ?_, fun x => ?_⟩, sameOp_of_prox rfl rfl rfl rfl rfl (fun x => ?_) rfl rfl fun x τ => ?_,
    sameOp_of_prox rfl rfl rfl rfl rfl (fun x => ?_) rfl rfl fun x τ => ?_, sameOp_of_prox rfl rfl rfl rfl rfl (fun x => ?_) rfl rfl fun x τ => ?_⟩
  · simp only [Euclidean, LinearIsometryEquiv.norm_map]
  · simp only [Euclidean, ProxOp.prox, LinearIsometryEquiv.norm_map, checkTau]
    split_ifs <;> simp only [m1, m2, map_smul, map_add, map_sub]
  · simp only [Euclidean, ProxOp.proxdual, LinearIsometryEquiv.norm_map, checkTau]
    split_ifs <;> simp only [m1, m2, map_smul, map_add, map_sub]
  · simp only [Euclidean, ProxOp.grad, LinearIsometryEquiv.norm_map]
    split_ifs <;> simp only [m1, m2, map_smul, map_add, map_sub]
  · simp only [HuberCircular, LinearIsometryEquiv.norm_map]
  · simp only [LinearIsometryEquiv.norm_map, checkTau]
    split_ifs <;> simp only [m1, m2, map_smul, map_add, map_sub]
  · simp only [HalfSpace, LinearIsometryEquiv.inner_map_map]
  · simp only [halfSpaceProj, LinearIsometryEquiv.inner_map_map, checkTau]
    split_ifs <;> simp only [m1, m2, map_smul, map_add, map_sub]
  · simp only [EuclideanBall, ← map_sub, LinearIsometryEquiv.norm_map]
  · simp only [euclideanBallProj, ← map_sub, LinearIsometryEquiv.norm_map, checkTau]
    split_ifs <;> simp only [m1, m2, map_smul, map_add, map_sub]

/-! ## Sets given by bounds and sums -/

lemma boxProj_reindex (e : ι ≃ κ) (l u : ι → Bound) (x : Vec ι) :
    boxProj (fun k => l (e.symm k)) (fun k => u (e.symm k)) (reindex e x) = reindex e (boxProj l u x) := by
  ext k; rfl

/-- C108 for `Box` and another order of the entries (the bounds are reordered as well). -/
theorem C108_box (e : ι ≃ κ) (l u : ι → Bound) : SameOp (reindex e) (Box l u) (Box (fun k => l (e.symm k)) fun k => u (e.symm k)) := by
  classical
  refine sameOp_of_prox rfl rfl rfl rfl rfl (fun x => ?_) rfl rfl fun x τ => ?_
  · refine congrArg (fun b => Except.ok (CallVal.bool b)) (decide_eq_decide.2 ⟨fun h i => ?_, fun h k => h (e.symm k)⟩)
    have := h (e i)
    simpa only [reindex_apply, e.symm_apply_apply] using this
  · simp only [checkTau, boxProj_reindex]
    split_ifs <;> rfl

lemma hyperPlaneBoxProj_reindex (bisect : (ℝ → ℝ) → ℝ → ℝ → ℝ) (fuel : ℕ) (e : ι ≃ κ) (c : Vec ι) (r : ℝ) (l u : ι → Bound) (x : Vec ι) :
    hyperPlaneBoxProj bisect fuel (reindex e c) r (fun k => l (e.symm k)) (fun k => u (e.symm k)) (reindex e x) = reindex e <$> hyperPlaneBoxProj bisect fuel c r l u x := by
  have h : hpbFun (reindex e c) r (fun k => l (e.symm k)) (fun k => u (e.symm k)) (reindex e x) = hpbFun c r l u x := by
    funext m
    simp only [hpbFun, ← map_smul, ← map_sub, boxProj_reindex, LinearIsometryEquiv.inner_map_map]
  simp only [hyperPlaneBoxProj, h, ← map_smul, ← map_sub, boxProj_reindex]
  simp

lemma reindex_const (e : ι ≃ κ) (r : ℝ) : reindex e (vmk fun _ => r) = vmk fun _ => r := by ext k; rfl

lemma simplexProj_reindex (bisect : (ℝ → ℝ) → ℝ → ℝ → ℝ) (fuel : ℕ) (e : ι ≃ κ) (r : ℝ) (x : Vec ι) :
    simplexProj bisect fuel r (reindex e x) = reindex e <$> simplexProj bisect fuel r x := by
  have := hyperPlaneBoxProj_reindex bisect fuel e (vmk fun _ => 1) r (fun _ => some 0) (fun _ => none) x
  rw [reindex_const] at this
  exact this

/-- C108 for the simplex, whatever the root finder, and another order of the entries. -/
theorem C108_simplex (bisect : (ℝ → ℝ) → ℝ → ℝ → ℝ) (fuel : ℕ) (e : ι ≃ κ) (r tol : ℝ) (flag : Bool) :
    SameOp (reindex e) (Simplex bisect fuel r tol flag) (Simplex bisect fuel r tol flag) := by
  classical
  refine sameOp_of_prox rfl rfl rfl rfl rfl (fun x => ?_) rfl rfl fun x τ => ?_
  · have h1 : ∑ k, reindex e x k = ∑ i, x i := Equiv.sum_comp e.symm fun i => x i
    have h2 : (∃ k, reindex e x k < 0) ↔ ∃ i, x i < 0 := ⟨fun ⟨k, hk⟩ => ⟨e.symm k, hk⟩, fun ⟨i, hi⟩ => ⟨e i, by rwa [reindex_apply, e.symm_apply_apply]⟩⟩
    simp only [Simplex, h1, h2]
  · simp only [checkTau, simplexProj_reindex]
    split_ifs <;> rfl

/-- C108 for the L1 ball, whatever the root finder, another order and other signs. -/
theorem C108_l1ball (bisect : (ℝ → ℝ) → ℝ → ℝ → ℝ) (fuel : ℕ) (e : ι ≃ κ) (s : κ → Bool) (r tol : ℝ) :
    SameOp (resign e s) (L1Ball bisect fuel r tol) (L1Ball bisect fuel r tol) := by
  classical
  refine sameOp_of_prox rfl rfl rfl rfl rfl (fun x => ?_) rfl rfl fun x τ => ?_
  · have h1 : ∑ k, |resign e s x k| = ∑ i, |x i| := sum_resign e s (fun v => |v|) (even_of_abs id fun _ => rfl) x
    simp only [L1Ball, h1]
  · have h1 : (vmk fun k => |resign e s x k|) = reindex e (vmk fun i => |x i|) := by
      ext k; rw [reindex_apply]; change |resign e s x k| = |x (e.symm k)|; rw [resign_apply, signOf_abs]
    simp only [checkTau, l1BallProj, h1, simplexProj_reindex]
    split_ifs
    · rfl
    · simp only [bind_map_left, map_bind, map_pure]
      refine bind_congr fun p => congrArg Except.ok ?_
      ext k
      rw [resign_apply]
      change npsign (resign e s x k) * p (e.symm k) = signOf (s k) * (npsign (x (e.symm k)) * p (e.symm k))
      rw [resign_apply, signOf_npsign]; ring

/-! ## The L0 ball: ties -/

/-- C108 fails for `L0Ball` whenever the radius is neither zero nor at least the number of entries: of equal entries some are kept and some are not, so that exchanging two of them
changes the array returned, although it does not change the input. -/
theorem C108_l0ball_ties_refuted (argsort : Vec ι → List ι) (hsort : ∀ x, IsArgsort (fun i => |x i|) (argsort x)) (radius : ℕ) (hr : 1 ≤ radius)
    (hr' : radius < Fintype.card ι) (c : ℝ) (hc : c ≠ 0) :
    ∃ (e : ι ≃ ι) (x : Vec ι), reindex e x = x ∧ (∀ i, x i = c) ∧ ∀ τ, 0 < τ → (L0Ball argsort radius).prox (reindex e x) τ ≠ reindex e <$> (L0Ball argsort radius).prox x τ := by
  classical
  set x : Vec ι := vmk fun _ => c
  obtain ⟨hnd, hall, -⟩ := hsort x
  have hlen := argsort_length (hsort x)
  set o := argsort x
  have hsl : sliceMinus o radius = o.take (o.length - radius) := if_neg (by omega)
  have hpos : 0 < o.length - radius := by omega
  obtain ⟨i, hi⟩ : ∃ i, i ∈ sliceMinus o radius := by
    rw [hsl]
    exact List.exists_mem_of_ne_nil _ (by rw [ne_eq, List.take_eq_nil_iff]; rintro (h | h) <;> [omega; simp [h] at hpos])
  obtain ⟨j, hj⟩ : ∃ j, j ∉ sliceMinus o radius := by
    by_contra hcon
    push Not at hcon
    have h1 : (sliceMinus o radius).toFinset = Finset.univ := by ext k; simp [hcon k]
    have h2 : (sliceMinus o radius).toFinset.card ≤ (sliceMinus o radius).length := List.toFinset_card_le _
    rw [h1, Finset.card_univ, hsl, List.length_take] at h2
    omega
  have hx : reindex (Equiv.swap i j) x = x := reindex_const _ _
  refine ⟨Equiv.swap i j, x, hx, fun _ => rfl, fun τ hτ h => ?_⟩
  rw [hx] at h
  have e1 : (L0Ball argsort radius).prox x τ = .ok (l0BallProj radius o x) := by simp only [L0Ball, ProxOp.prox, checkTau, if_neg (not_le.2 hτ)]; rfl
  rw [e1, py_map_ok, Except.ok.injEq] at h
  have h2 := congrArg (fun y : Vec ι => y i) h
  simp only [reindex_apply, Equiv.symm_swap, Equiv.swap_apply_left] at h2
  change (if i ∈ sliceMinus o radius then 0 else x i) = (if j ∈ sliceMinus o radius then 0 else x j) at h2
  rw [if_pos hi, if_neg hj] at h2
  exact hc h2.symm

/-- C108 for `L0Ball` when the entries that are dropped are smaller than the ones that are kept, whatever the sorting algorithm does with ties. -/
theorem C108_l0ball_partial (argsort : Vec ι → List ι) (argsort' : Vec κ → List κ) (hsort : ∀ x, IsArgsort (fun i => |x i|) (argsort x))
    (hsort' : ∀ x, IsArgsort (fun i => |x i|) (argsort' x)) (e : ι ≃ κ) (s : κ → Bool) (radius : ℕ) (hr : 1 ≤ radius) (x : Vec ι)
    (hx : ∀ i j, i ∈ (argsort x).take (Fintype.card ι - radius) → j ∉ (argsort x).take (Fintype.card ι - radius) → |x i| < |x j|) (τ : ℝ) :
    (L0Ball argsort' radius).prox (resign e s x) τ = resign e s <$> (L0Ball argsort radius).prox x τ := by
  classical
  have hab : ∀ k, |resign e s x k| = |x (e.symm k)| := fun k => by rw [resign_apply, signOf_abs]
  have hl := argsort_length (hsort x)
  have hl' := argsort_length (hsort' (resign e s x))
  have hcard : Fintype.card κ = Fintype.card ι := Fintype.card_congr e.symm
  set K := Fintype.card ι - radius
  -- the dropped sets correspond
  have key : ∀ k, k ∈ (argsort' (resign e s x)).take K ↔ e.symm k ∈ (argsort x).take K := by
    set D := ((argsort x).take K).toFinset
    set D' := (((argsort' (resign e s x)).take K).toFinset).map e.symm.toEmbedding
    have hD : D.card = K := by rw [List.toFinset_card_of_nodup ((hsort x).1.sublist (List.take_sublist _ _)), List.length_take, hl]; omega
    have hD' : D'.card = K := by
      rw [Finset.card_map, List.toFinset_card_of_nodup ((hsort' _).1.sublist (List.take_sublist _ _)), List.length_take, hl', hcard]; omega
    have hord := argsort_take (hsort' (resign e s x)) K
    have hsub : D' ⊆ D := by
      intro i hi
      by_contra hni
      -- some dropped index is missing from `D'`
      obtain ⟨j, hj, hj'⟩ : ∃ j ∈ D, j ∉ D' := by
        by_contra hcon
        push Not at hcon
        have : D = D' := Finset.eq_of_subset_of_card_le hcon (by rw [hD, hD'])
        exact hni (this ▸ hi)
      have h1 : |x j| < |x i| := hx j i (List.mem_toFinset.1 hj) fun h => hni (List.mem_toFinset.2 h)
      obtain ⟨k, hk, rfl⟩ := Finset.mem_map.1 hi
      have h2 := hord k (List.mem_toFinset.1 hk) (e j) fun h => hj' (Finset.mem_map.2 ⟨e j, List.mem_toFinset.2 h, by simp⟩)
      rw [hab, hab, e.symm_apply_apply] at h2
      exact absurd (h1.trans_le h2) (lt_irrefl _)
    have heq : D' = D := Finset.eq_of_subset_of_card_le hsub (by rw [hD, hD'])
    intro k
    rw [← List.mem_toFinset, ← List.mem_toFinset, show ((argsort x).take K).toFinset = D' from heq.symm]
    simp [D']
  simp only [L0Ball, ProxOp.prox, checkTau]
  split_ifs
  · rfl
  · refine congrArg Except.ok ?_
    ext k
    rw [resign_apply]
    have e1 : sliceMinus (argsort' (resign e s x)) radius = (argsort' (resign e s x)).take K := by
      rw [sliceMinus, if_neg (by omega), hl', hcard]
    have e2 : sliceMinus (argsort x) radius = (argsort x).take K := by rw [sliceMinus, if_neg (by omega), hl]
    simp only [l0BallProj, e1, e2]
    change (if k ∈ (argsort' (resign e s x)).take K then 0 else resign e s x k) = signOf (s k) * (if e.symm k ∈ (argsort x).take K then 0 else x (e.symm k))
    by_cases h : e.symm k ∈ (argsort x).take K
    · rw [if_pos h, if_pos ((key k).2 h), mul_zero]
    · rw [if_neg h, if_neg (mt (key k).1 h), resign_apply]

/-! ## Convex functions -/

/-- C108 for every operator with exact `prox`: if the two convex functions have the same values in the two coordinate systems, the two operators return the same point. -/
theorem C108_convex {U : E ≃ₗᵢ[ℝ] E'} {f : ProxOp E} {f' : ProxOp E'} {F : XFun E} {F' : XFun E'} (hF : F'.Convex) (hf : ProxExact f F) (hf' : ProxExact f' F')
    (hdom : ∀ x, U x ∈ F'.dom ↔ x ∈ F.dom) (hval : ∀ x, x ∈ F.dom → F'.val (U x) = F.val x) (x : E) (τ : ℝ) (hτ : 0 < τ) : f'.prox (U x) τ = U <$> f.prox x τ := by
  obtain ⟨p, ep, hp⟩ := hf x τ hτ
  obtain ⟨q, eq, hq⟩ := hf' (U x) τ hτ
  have : IsProx F' τ (U x) (U p) := by
    refine ⟨(hdom p).2 hp.1, fun y hy => ?_⟩
    obtain ⟨y, rfl⟩ := U.surjective y
    have h1 := (hdom y).1 hy
    have h2 := hp.2 y h1
    simp only [proxObj, ← map_sub, LinearIsometryEquiv.norm_map, hval y h1, hval p hp.1] at h2 ⊢
    exact h2
  rw [eq, ep, py_map_ok, IsProx.unique hF hτ hq this]

/-! ## Total variation: the direction of the axes matters -/

/-- The mirror image along every axis. -/
noncomputable def mirror {A : Type} [Fintype A] [DecidableEq A] (n : A → ℕ) : Vec ((a : A) → Fin (n a)) ≃ₗᵢ[ℝ] Vec ((a : A) → Fin (n a)) := reindex (Equiv.piCongrRight fun _ => Fin.revPerm)

/-- C108 fails for `TV` and mirror images: with a single bright pixel in the corner of a two by two image the value is `√2` times the brightness, and twice the brightness in the mirror image. -/
theorem C108_tv_mirror_refuted (σ rtol c : ℝ) (hσ : 0 < σ) (hc : 0 < c) (w : Fin 2 → Option ℝ) (niter : ℤ) :
    ∃ x : Vec ((a : Fin 2) → Fin ((fun _ => 2) a)), (TV σ rtol w niter).call x = .ok (.num (σ * (√2 * c))) ∧ (TV σ rtol w niter).call (mirror _ x) = .ok (.num (σ * (2 * c))) ∧
      ¬ SameOp (mirror _) (TV (n := fun _ : Fin 2 => 2) σ rtol w niter) (TV σ rtol w niter) := by
  have expand : ∀ φ : (Fin 2 → Fin 2) → ℝ, ∑ p, φ p = φ ![0, 0] + φ ![0, 1] + (φ ![1, 0] + φ ![1, 1]) := fun φ => by
    rw [← (finTwoArrowEquiv (Fin 2)).symm.sum_comp, Fintype.sum_prod_type]
    simp [Fin.sum_univ_two, finTwoArrowEquiv]
  have upd : ∀ (i j k : Fin 2), Function.update ![i, j] 0 k = ![k, j] ∧ Function.update ![i, j] 1 k = ![i, k] := by decide
  have tv : ∀ y : Vec (Fin 2 → Fin 2), totalVariation (n := fun _ : Fin 2 => 2) y = √((y ![1, 0] - y ![0, 0]) ^ 2 + (y ![0, 1] - y ![0, 0]) ^ 2) + √((y ![1, 1] - y ![0, 1]) ^ 2) + √((y ![1, 1] - y ![1, 0]) ^ 2) := by
    intro y
    unfold totalVariation
    rw [expand]
    simp [Fin.sum_univ_two, nextPixel, upd]
  have k0 : 0 < Fintype.card (Fin 2) := by simp
  set x : Vec (Fin 2 → Fin 2) := vmk fun p => if p = ![0, 0] then c else 0
  have hx : ∀ i j, x ![i, j] = if i = 0 ∧ j = 0 then c else 0 := by
    intro i j
    fin_cases i <;> fin_cases j <;> simp [x, vmk]
  have hmx : ∀ i j : Fin 2, mirror (fun _ : Fin 2 => 2) x ![i, j] = x ![i.rev, j.rev] := by
    intro i j
    refine congrArg x.ofLp (funext fun a => ?_)
    fin_cases a <;> rfl
  have v1 : totalVariation (n := fun _ : Fin 2 => 2) x = √2 * c := by
    rw [tv]
    simp only [hx]
    norm_num
    rw [show c ^ 2 + c ^ 2 = 2 * c ^ 2 by ring, Real.sqrt_mul (by norm_num), Real.sqrt_sq hc.le]
  have v2 : totalVariation (n := fun _ : Fin 2 => 2) (mirror (fun _ : Fin 2 => 2) x) = 2 * c := by
    rw [tv]
    have r0 : Fin.rev (0 : Fin 2) = 1 := rfl
    have r1 : Fin.rev (1 : Fin 2) = 0 := rfl
    simp only [hmx, hx, r0, r1]
    norm_num
    rw [Real.sqrt_sq hc.le]; ring
  have e1 := C88_value (n := fun _ : Fin 2 => 2) σ rtol w niter x k0
  have e2 := C88_value (n := fun _ : Fin 2 => 2) σ rtol w niter (mirror (fun _ : Fin 2 => 2) x) k0
  rw [v1] at e1
  rw [v2] at e2
  refine ⟨x, e1, e2, fun h => ?_⟩
  have h3 := h.call x
  rw [e1, e2] at h3
  have h4 : σ * (2 * c) = σ * (√2 * c) := by simpa using h3
  have h5 : (2 : ℝ) = √2 := mul_right_cancel₀ hc.ne' (mul_left_cancel₀ hσ.ne' h4)
  have h6 := Real.sq_sqrt (show (0 : ℝ) ≤ 2 by norm_num)
  rw [← h5] at h6
  norm_num at h6

/-! ## Matrices -/

variable {ι' κ' : Type} [Fintype ι'] [Fintype κ']

lemma colNorm_resign (e : ι ≃ ι') (e' : κ ≃ κ') (s : ι' × κ' → Bool) (x : Vec (ι × κ)) (j : κ') : colNorm (resign (e.prodCongr e') s x) j = colNorm x (e'.symm j) := by
  unfold colNorm
  congr 1
  rw [← e.symm.sum_comp]
  refine Finset.sum_congr rfl fun i _ => ?_
  rw [resign_apply, mul_pow, pow_two (signOf _), signOf_sq, one_mul]
  rfl

lemma l1Shrink_resign (σ ρ τ : ℝ) (e : ι ≃ ι') (e' : κ ≃ κ') (s : ι' × κ' → Bool) (x : Vec (ι × κ)) :
    l1Shrink σ ρ τ (resign (e.prodCongr e') s x) = resign (e.prodCongr e') (fun _ => false) (l1Shrink σ ρ τ x) := by
  ext k
  rw [resign_none, reindex_apply]
  show max (|resign (e.prodCongr e') s x k| - σ * τ * ρ) 0 = max (|x ((e.prodCongr e').symm k)| - σ * τ * ρ) 0
  rw [resign_apply, signOf_abs]

lemma signNan_signOf (b : Bool) (v : ℝ) : signNan (signOf b * v) = signOf b * signNan v := by
  cases b
  · simp [signOf]
  · simp only [signOf, signNan, if_true, neg_mul, one_mul, abs_neg, neg_eq_zero]
    split_ifs <;> simp [neg_div]

/-- C108 for the operators on groups of entries: the rows and the columns may be stored in any order, and the signs of the entries may be changed. -/
theorem C108_groups (e : ι ≃ ι') (e' : κ ≃ κ') (s : ι' × κ' → Bool) (σ ρ : ℝ) :
    SameOp (resign (e.prodCongr e') s) (L21 (ι := ι) (κ := κ) σ) (L21 σ) ∧ SameOp (resign (e.prodCongr e') s) (L21plusL1 (ι := ι) (κ := κ) σ ρ) (L21plusL1 σ ρ) := by
  have hex : ∀ q : κ → Prop, (∃ ij : ι' × κ', q (e'.symm ij.2)) ↔ ∃ ij : ι × κ, q ij.2 := fun q =>
    ⟨fun ⟨ij, h⟩ => ⟨(e.symm ij.1, e'.symm ij.2), h⟩, fun ⟨ij, h⟩ => ⟨(e ij.1, e' ij.2), by simpa using h⟩⟩
  have hsum : ∀ x : Vec (ι × κ), ∑ j, colNorm (resign (e.prodCongr e') s x) j = ∑ j, colNorm x j := fun x => by
    simp only [colNorm_resign]
    exact e'.symm.sum_comp (colNorm x)
  have hp : ∀ (x : Vec (ι × κ)) τ, (L21 σ).prox (resign (e.prodCongr e') s x) τ = resign (e.prodCongr e') s <$> (L21 σ).prox x τ := fun x τ => by
    simp only [L21, ProxOp.prox, checkTau, colNorm_resign, hex fun j => max (colNorm x j) (τ * σ) = 0]
    split_ifs
    · rfl
    · rfl
    · refine congrArg Except.ok ?_
      ext k
      rw [resign_apply]
      show _ * resign (e.prodCongr e') s x k = signOf (s k) * (_ * x ((e.prodCongr e').symm k))
      rw [resign_apply]
      exact mul_left_comm _ _ _
  refine ⟨⟨fun x => ?_, hp, fun x τ => ?_, fun x => ?_⟩, sameOp_of_prox rfl rfl rfl rfl rfl (fun x => ?_) rfl rfl fun x τ => ?_⟩
  · simp only [L21, hsum]
  · simp only [L21, ProxOp.proxdual, checkTau, colNorm_resign, hex fun j => max (colNorm x j) σ = 0]
    split_ifs
    · rfl
    · rfl
    · refine congrArg Except.ok ?_
      ext k
      rw [resign_apply]
      show σ * resign (e.prodCongr e') s x k / _ = signOf (s k) * (σ * x ((e.prodCongr e').symm k) / _)
      rw [resign_apply, mul_left_comm, mul_div_assoc]
      rfl
  · have h1 : ∀ (ρ₁ ρ₂ : Type) [Fintype ρ₁] [Fintype ρ₂], (L21 (ι := ρ₁) (κ := ρ₂) σ).grad? = none := fun _ _ _ _ => rfl
    have h2 : ∀ (ρ₁ ρ₂ : Type) [Fintype ρ₁] [Fintype ρ₂], (L21 (ι := ρ₁) (κ := ρ₂) σ).sigmame = 1 := fun _ _ _ _ => rfl
    simp only [ProxOp.grad, h1, h2, hp]
    simp
  · simp only [L21plusL1, hsum]
    have : ∑ k, |resign (e.prodCongr e') s x k| = ∑ k, |x k| := by
      simp only [resign_apply, signOf_abs]
      exact (e.prodCongr e').symm.sum_comp fun k => |x k|
    rw [this]
  · simp only [checkTau, l1Shrink_resign, colNorm_resign, hex fun j => shrinkFactor (σ * τ * (1 - ρ)) (colNorm (l1Shrink σ ρ τ x) j) = .error .nanResult]
    split_ifs
    · rfl
    · rfl
    · refine congrArg Except.ok ?_
      ext k
      rw [resign_apply, resign_none]
      show signNan (resign (e.prodCongr e') s x k) * reindex (e.prodCongr e') (l1Shrink σ ρ τ x) k * _ = signOf (s k) * (signNan (x ((e.prodCongr e').symm k)) * l1Shrink σ ρ τ x ((e.prodCongr e').symm k) * _)
      rw [resign_apply, signNan_signOf, reindex_apply, mul_assoc (signOf _), mul_assoc (signOf _)]
      rfl

/-- `U` is the change of coordinates `X ↦ P X Qᵀ` of matrices: rows and columns are expressed in other orthonormal bases. -/
def IsBasisChange (P : Vec ι ≃ₗᵢ[ℝ] Vec ι') (Q : Vec κ ≃ₗᵢ[ℝ] Vec κ') (U : Vec (ι × κ) ≃ₗᵢ[ℝ] Vec (ι' × κ')) : Prop := ∀ x v, matVec (U x) (Q v) = P (matVec x v)

lemma nucNorm_basis {P : Vec ι ≃ₗᵢ[ℝ] Vec ι'} {Q : Vec κ ≃ₗᵢ[ℝ] Vec κ'} {U : Vec (ι × κ) ≃ₗᵢ[ℝ] Vec (ι' × κ')} (h : IsBasisChange P Q U) (x : Vec (ι × κ)) : nucNorm (U x) = nucNorm x := by
  unfold nucNorm
  congr 1
  ext t
  constructor
  · rintro ⟨w, hw, rfl⟩
    obtain ⟨w, rfl⟩ := U.surjective w
    refine ⟨w, fun v => ?_, U.inner_map_map w x⟩
    have := hw (Q v)
    rwa [h, LinearIsometryEquiv.norm_map, LinearIsometryEquiv.norm_map] at this
  · rintro ⟨w, hw, rfl⟩
    refine ⟨U w, fun v => ?_, (U.inner_map_map w x).symm⟩
    obtain ⟨v, rfl⟩ := Q.surjective v
    rw [h, LinearIsometryEquiv.norm_map, LinearIsometryEquiv.norm_map]
    exact hw v

lemma nuclear_proxExact {ρ : Type} [Fintype ρ] (hρ : Fintype.card ρ = min (Fintype.card ι) (Fintype.card κ)) (svd : Vec (ι × κ) → SVD ι κ ρ)
    (hsvd : SvdExact svd) (eig : Vec (ι × κ) → κ → ℝ) (σ : ℝ) (hσ : 0 ≤ σ) : ProxExact (Nuclear svd eig σ) (XFun.ofReal fun y => σ * nucNorm y) := fun x τ hτ => by
  obtain ⟨p, ep, hp⟩ := C60_nuclear_prox hρ svd hsvd eig σ hσ x τ hτ
  exact ⟨p, ep, hp.1⟩

/-- C108 for `Nuclear`: rows and columns may be expressed in any orthonormal bases, whichever singular vectors the decompositions of the two matrices return. -/
theorem C108_nuclear {ρ ρ' : Type} [Fintype ρ] [Fintype ρ'] {P : Vec ι ≃ₗᵢ[ℝ] Vec ι'} {Q : Vec κ ≃ₗᵢ[ℝ] Vec κ'} {U : Vec (ι × κ) ≃ₗᵢ[ℝ] Vec (ι' × κ')} (h : IsBasisChange P Q U)
    (hρ : Fintype.card ρ = min (Fintype.card ι) (Fintype.card κ)) (hρ' : Fintype.card ρ' = min (Fintype.card ι') (Fintype.card κ'))
    (svd : Vec (ι × κ) → SVD ι κ ρ) (hsvd : SvdExact svd) (svd' : Vec (ι' × κ') → SVD ι' κ' ρ') (hsvd' : SvdExact svd')
    (eig : Vec (ι × κ) → κ → ℝ) (heig : ∀ x, IsEigGram x (eig x)) (eig' : Vec (ι' × κ') → κ' → ℝ) (heig' : ∀ x, IsEigGram x (eig' x)) (σ : ℝ) (hσ : 0 ≤ σ) :
    SameOp U (Nuclear svd eig σ) (Nuclear svd' eig' σ) := by
  refine sameOp_of_prox rfl rfl rfl rfl rfl (fun x => ?_) rfl rfl fun x τ => ?_
  · rw [C60_nuclear_call svd' eig' heig' σ, C60_nuclear_call svd eig heig σ]
    simp only [nucNorm_basis h]
  · rcases le_or_gt τ 0 with hτ | hτ
    · simp only [checkTau, if_pos hτ]; rfl
    · exact C108_convex (by
        have := (nucNorm_convex (ι := ι') (κ := κ')).smul hσ
        simpa only [XFun.Convex, XFun.ofReal, smul_eq_mul] using this) (nuclear_proxExact hρ svd hsvd eig σ hσ) (nuclear_proxExact hρ' svd' hsvd' eig' σ hσ)
        (fun x => Iff.rfl) (fun x _ => by simp only [XFun.ofReal, nucNorm_basis h]) x τ hτ

/-! ## The hypotheses are satisfiable -/

/-- Storing the rows and the columns in another order is a change of bases. -/
example (e : ι ≃ ι') (e' : κ ≃ κ') : IsBasisChange (reindex e) (reindex e') (reindex (e.prodCongr e')) := by
  intro x v
  ext i
  rw [reindex_apply]
  show ∑ j, x (e.symm i, e'.symm j) * v (e'.symm j) = ∑ j, x (e.symm i, j) * v j
  exact e'.symm.sum_comp fun j => x (e.symm i, j) * v j

/-- `ADMM` on a sparse problem with bounds: storing the entries in another order reorders both results, after any number of iterations. -/
example (e : ι ≃ κ) (σ : ℝ) (hσ : 0 ≤ σ) (l u : ι → Bound) (x0 : Vec ι) (τ : ℝ) (n : ℕ) :
    ADMM (L1 σ none) (Box (fun k => l (e.symm k)) fun k => u (e.symm k)) (some (reindex e x0)) none τ n false = SplitState.map (reindex e) <$> ADMM (L1 σ none) (Box l u) (some x0) none τ n false := by
  have h := C108_l1 e (fun _ => false) σ hσ none
  rw [resign_none] at h
  exact C108_admm h (C108_box e l u) (some x0) none τ n false

/-- The operators of `SameOp` may differ: a ball and its rotated copy. -/
example (U : E ≃ₗᵢ[ℝ] E') (c : E) (r : ℝ) : SameOp U (EuclideanBall c r) (EuclideanBall (U c) r) := (C108_rotations U 1 1 1 r 0 c).2.2.2

end Verif
