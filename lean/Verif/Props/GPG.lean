import Verif.Props.Parallel
import Verif.Props.ProxGrad
import Verif.Spec.Smooth

/-! # C53 GeneralizedProximalGradient -/

open scoped RealInnerProductSpace
open Filter Topology

set_option linter.unusedSectionVars false

namespace Verif

variable {E : Type} [NormedAddCommGroup E] [InnerProductSpace ℝ E] {l m : ℕ}

/-- Co-coercivity of the gradient of a convex function with Lipschitz gradient. -/
lemma cocoercive {φ : E → ℝ} {G : E → E} {L : ℝ} (hφ : ConvexOn ℝ Set.univ φ) (hG : ∀ x, IsGrad φ x (G x)) (hL0 : 0 < L)
    (hL : ∀ x y, ‖G x - G y‖ ≤ L * ‖x - y‖) (x y : E) : 1 / L * ‖G x - G y‖ ^ 2 ≤ ⟪x - y, G x - G y⟫ := by
  have half : ∀ x y, φ y + ⟪G y, x - y⟫ + 1 / (2 * L) * ‖G x - G y‖ ^ 2 ≤ φ x := by
    intro x y
    set g := G x - G y with hg
    set z := x - (1 / L) • g with hz
    have h1 := descent_lemma hG hL x z
    have h2 := grad_ineq hφ (hG y) z
    have e1 : z - x = -((1 / L) • g) := by rw [hz]; abel
    have e2 : z - y = (x - y) - (1 / L) • g := by rw [hz]; abel
    rw [e1, inner_neg_right, inner_smul_right, norm_neg, norm_smul, mul_pow, Real.norm_eq_abs, sq_abs] at h1
    rw [e2, inner_sub_right, inner_smul_right] at h2
    have e3 : ⟪G x, g⟫ - ⟪G y, g⟫ = ‖g‖ ^ 2 := by rw [← inner_sub_left, ← hg, real_inner_self_eq_norm_sq]
    have e4 : L / 2 * ((1 / L) ^ 2 * ‖g‖ ^ 2) = 1 / (2 * L) * ‖g‖ ^ 2 := by field_simp
    have e5 : 1 / L * ⟪G x, g⟫ - 1 / L * ⟪G y, g⟫ = 2 * (1 / (2 * L) * ‖g‖ ^ 2) := by rw [← mul_sub, e3]; field_simp
    linarith
  have h1 := half x y
  have h2 := half y x
  rw [norm_sub_rev (G y)] at h2
  have e : ⟪x - y, G x - G y⟫ = ⟪G x, x - y⟫ - ⟪G y, x - y⟫ := by rw [← inner_sub_left, real_inner_comm]
  have e2 : ⟪G x, y - x⟫ = -⟪G x, x - y⟫ := by rw [← inner_neg_right, neg_sub]
  have e3 : 1 / L * ‖G x - G y‖ ^ 2 = 2 * (1 / (2 * L) * ‖G x - G y‖ ^ 2) := by field_simp
  linarith

/-- One step of the generalised forward-backward splitting, without acceleration. -/
noncomputable def gfbStep (w : Fin m → ℝ) (P : Fin m → E → E) (G : E → E) (τ η : ℝ) (z : Fin m → E) : Fin m → E :=
  fun i => z i + η • (P i ((2 : ℝ) • (∑ j, w j • z j) - z i - τ • G (∑ j, w j • z j)) - ∑ j, w j • z j)

lemma gfb_fejer {w : Fin m → ℝ} (hw : ∀ i, 0 < w i) (hw1 : ∑ i, w i = 1) {P : Fin m → E → E} (hP : ∀ i, Firm (P i)) {G : E → E} {τ η L : ℝ} (hτ : 0 ≤ τ)
    (hη : 0 < η) (hL0 : 0 < L) (hG : ∀ x y, 1 / L * ‖G x - G y‖ ^ 2 ≤ ⟪x - y, G x - G y⟫) {c : Fin m → E} (hc : gfbStep w P G τ η c = c) (z : Fin m → E) :
    wGauge w (gfbStep w P G τ η z - c) + (2 - τ * L / 2 - η) / η * wGauge w (gfbStep w P G τ η z - z) ≤ wGauge w (z - c) := by
  set xc := ∑ j, w j • c j with hxc
  set x := ∑ j, w j • z j with hx
  have hc' : ∀ i, P i ((2 : ℝ) • xc - c i - τ • G xc) = xc := fun i => by
    have := congrFun hc i
    simp only [gfbStep] at this
    rw [← hxc, add_eq_left, smul_eq_zero] at this
    exact sub_eq_zero.1 (this.resolve_left hη.ne')
  set p : Fin m → E := fun i => P i ((2 : ℝ) • x - z i - τ • G x) with hp
  set a : Fin m → E := fun i => p i - xc with ha
  set d : Fin m → E := fun i => z i - c i with hd
  set A := ∑ i, w i • a i with hA
  set D := ∑ i, w i • d i with hD
  set Γ := G x - G xc with hΓ
  have hxD : x = D + xc := by
    rw [hD, hd]; simp only [smul_sub, Finset.sum_sub_distrib]
    rw [← hxc, ← hx, sub_add_cancel]
  set s : Fin m → E := fun i => a i - D with hs
  have e1 : gfbStep w P G τ η z - c = fun i => d i + η • s i := by
    funext i
    simp only [Pi.sub_apply, gfbStep, hs, hd, ha, hp]
    rw [← hx, show P i ((2 : ℝ) • x - z i - τ • G x) - xc - D = P i ((2 : ℝ) • x - z i - τ • G x) - x by rw [hxD]; abel]
    abel
  have e2 : gfbStep w P G τ η z - z = fun i => η • s i := by
    funext i
    have := congrFun e1 i
    simp only [Pi.sub_apply, hd] at this ⊢
    rw [show gfbStep w P G τ η z i - z i = (gfbStep w P G τ η z i - c i) - (z i - c i) by abel, this]; abel
  have e3 : wGauge w (fun i => η • s i) = η ^ 2 * wGauge w s := by
    unfold wGauge
    rw [Finset.mul_sum]
    refine Finset.sum_congr rfl fun i _ => ?_
    rw [norm_smul, mul_pow, Real.norm_eq_abs, sq_abs]; ring
  have e4 : (2 - τ * L / 2 - η) / η * (η ^ 2 * wGauge w s) = (2 - τ * L / 2 - η) * η * wGauge w s := by field_simp
  have e5 : z - c = d := rfl
  rw [e1, e2, e3, e4, e5, wGauge_expand]
  have q1 : wGauge w s = ‖D‖ ^ 2 - 2 * ⟪A, D⟫ + wGauge w a := by
    rw [← wGauge_shift w hw1 a D]
    unfold wGauge
    refine Finset.sum_congr rfl fun i _ => ?_
    rw [norm_sub_rev]
  have q2 : ∑ i, w i * ⟪d i, s i⟫ = ∑ i, w i * ⟪a i, d i⟫ - ‖D‖ ^ 2 := by
    rw [← real_inner_self_eq_norm_sq]
    conv_rhs => rw [show (⟪D, D⟫ : ℝ) = ⟪∑ i, w i • d i, D⟫ from rfl, ← wsum_inner]
    rw [← Finset.sum_sub_distrib]
    refine Finset.sum_congr rfl fun i _ => ?_
    simp only [hs]
    rw [inner_sub_right, real_inner_comm (a i) (d i)]; ring
  have q3 : wGauge w a ≤ 2 * ⟪A, D⟫ - ∑ i, w i * ⟪a i, d i⟫ - τ * ⟪A, Γ⟫ := by
    have : ∀ i, w i * ‖a i‖ ^ 2 ≤ w i * (2 * ⟪a i, D⟫ - ⟪a i, d i⟫ - τ * ⟪a i, Γ⟫) := fun i => by
      refine mul_le_mul_of_nonneg_left ?_ (hw i).le
      have := hP i ((2 : ℝ) • x - z i - τ • G x) ((2 : ℝ) • xc - c i - τ • G xc)
      rw [hc' i] at this
      have e : (2 : ℝ) • x - z i - τ • G x - ((2 : ℝ) • xc - c i - τ • G xc) = (2 : ℝ) • D - d i - τ • Γ := by
        have e0 : (2 : ℝ) • x = (2 : ℝ) • D + (2 : ℝ) • xc := by rw [← smul_add, ← hxD]
        rw [show d i = z i - c i from rfl, hΓ, smul_sub τ, e0]; abel
      rw [e, inner_sub_right, inner_sub_right, inner_smul_right, inner_smul_right] at this
      exact this
    have h2 := Finset.sum_le_sum fun i (_ : i ∈ Finset.univ) => this i
    have e1 : ∑ i, w i * (2 * ⟪a i, D⟫ - ⟪a i, d i⟫ - τ * ⟪a i, Γ⟫) = 2 * ⟪A, D⟫ - ∑ i, w i * ⟪a i, d i⟫ - τ * ⟪A, Γ⟫ := by
      rw [hA, ← wsum_inner, ← wsum_inner, Finset.mul_sum, Finset.mul_sum, ← Finset.sum_sub_distrib, ← Finset.sum_sub_distrib]
      refine Finset.sum_congr rfl fun i _ => ?_
      ring
    rw [e1] at h2
    exact h2
  have q4 : -(L / 4) * ‖A - D‖ ^ 2 ≤ ⟪A, Γ⟫ := by
    have h1 := hG x xc
    rw [show x - xc = D by rw [hxD]; abel, ← hΓ] at h1
    have h2 : ⟪A, Γ⟫ = ⟪D, Γ⟫ + ⟪A - D, Γ⟫ := by rw [← inner_add_left]; congr 1; abel
    have h3 : 0 ≤ ‖(L / 2) • (A - D) + Γ‖ ^ 2 := sq_nonneg _
    rw [norm_add_sq_real, norm_smul, mul_pow, Real.norm_eq_abs, sq_abs, real_inner_smul_left] at h3
    have h4 : 0 ≤ 1 / L * ((L / 2) ^ 2 * ‖A - D‖ ^ 2 + 2 * (L / 2 * ⟪A - D, Γ⟫) + ‖Γ‖ ^ 2) := mul_nonneg (by positivity) h3
    have h5 : 1 / L * ((L / 2) ^ 2 * ‖A - D‖ ^ 2 + 2 * (L / 2 * ⟪A - D, Γ⟫) + ‖Γ‖ ^ 2) = L / 4 * ‖A - D‖ ^ 2 + ⟪A - D, Γ⟫ + 1 / L * ‖Γ‖ ^ 2 := by
      field_simp
      ring
    linarith
  have q5 : ‖A - D‖ ^ 2 ≤ wGauge w s := by
    have h1 : ∑ i, w i • s i = A - D := by
      simp only [hs, smul_sub, Finset.sum_sub_distrib]; rw [← Finset.sum_smul, hw1, one_smul]
    have h2 := wGauge_shift w hw1 s (A - D)
    rw [h1, real_inner_self_eq_norm_sq] at h2
    have h3 : 0 ≤ wGauge w fun i => A - D - s i := Finset.sum_nonneg fun i _ => mul_nonneg (hw i).le (sq_nonneg _)
    linarith
  have q6 : ∑ i, w i * ⟪d i, s i⟫ ≤ -(1 - τ * L / 4) * wGauge w s := by
    have h1 : -τ * ⟪A, Γ⟫ ≤ τ * (L / 4) * ‖A - D‖ ^ 2 := by nlinarith
    have h2 : τ * (L / 4) * ‖A - D‖ ^ 2 ≤ τ * (L / 4) * wGauge w s := mul_le_mul_of_nonneg_left q5 (by positivity)
    nlinarith
  nlinarith

lemma gfb_continuous {w : Fin m → ℝ} {P : Fin m → E → E} (hP : ∀ i, Firm (P i)) {G : E → E} (hG : Continuous G) (τ η : ℝ) :
    Continuous (gfbStep w P G τ η) := by
  have hc : ∀ i, Continuous (P i) := fun i => (hP i).continuous
  refine continuous_pi fun i => ?_
  unfold gfbStep
  have h1 : Continuous fun z : Fin m → E => ∑ j, w j • z j := by fun_prop
  have h2 : Continuous fun z : Fin m → E => G (∑ j, w j • z j) := hG.comp h1
  have h3 : Continuous fun z : Fin m → E => P i ((2 : ℝ) • (∑ j, w j • z j) - z i - τ • G (∑ j, w j • z j)) :=
    (hc i).comp (((h1.const_smul _).sub (continuous_apply i)).sub (h2.const_smul _))
  exact (continuous_apply i).add ((h3.sub h1).const_smul _)

lemma gfb_converges [ProperSpace E] [NeZero m] {w : Fin m → ℝ} (hw : ∀ i, 0 < w i) (hw1 : ∑ i, w i = 1) {P : Fin m → E → E} (hP : ∀ i, Firm (P i))
    {G : E → E} {τ η L : ℝ} (hτ : 0 ≤ τ) (hη : 0 < η) (hL0 : 0 < L) (hη2 : η < 2 - τ * L / 2)
    (hG : ∀ x y, 1 / L * ‖G x - G y‖ ^ 2 ≤ ⟪x - y, G x - G y⟫) (hGc : Continuous G) (hne : ∃ c, gfbStep w P G τ η c = c)
    (z : ℕ → Fin m → E) (hz : ∀ n, z (n + 1) = gfbStep w P G τ η (z n)) :
    ∃ c, gfbStep w P G τ η c = c ∧ Tendsto z atTop (𝓝 c) := by
  obtain ⟨k, hk, hk'⟩ := wGauge_lower (E := E) w hw
  have hq : 0 < (2 - τ * L / 2 - η) / η := div_pos (by linarith) hη
  refine km_converges (gfbStep w P G τ η) (gfb_continuous hP hGc τ η) (wGauge w) (by unfold wGauge; fun_prop) (by simp [wGauge]) hk
    (β := (2 - τ * L / 2 - η) / η * k) (mul_pos hq hk) hk' (fun x c hc => ?_) hne z hz
  have h1 := gfb_fejer hw hw1 hP hτ hη hL0 hG hc x
  have h2 := mul_le_mul_of_nonneg_left (hk' (gfbStep w P G τ η x - x)) hq.le
  linarith

section
variable {fs : Fin l → ProxOp E} {gs : Fin m → ProxOp E} {φ : Fin l → E → ℝ} {F : Fin m → XFun E} {w : Fin m → ℝ} {e : Fin m → ℝ} {eps : StepSpec}
  {τ η : ℝ}

/-- The objective `∑ φ_i + ∑ e_j F_j`. -/
noncomputable def gpgObj (φ : Fin l → E → ℝ) (e : Fin m → ℝ) (F : Fin m → XFun E) : XFun E :=
  (XFun.ofReal fun x => ∑ i, φ i x).add (sumObj fun j => (F j).smul (e j))

/-- C53: a weight list of the wrong length, or not summing to one, is rejected with `ValueError`, and an unknown acceleration with `NotImplementedError`; whatever the
operators, starting point and number of iterations. -/
theorem C53_gpg_rejects (fs : Fin l → ProxOp E) (gs : Fin m → ProxOp E) (x0 : E) (tau : Option ℝ) (eps : StepSpec) (ws : List ℝ) (η : ℝ) (n : ℕ) (acc : Accel) :
    (ws.length ≠ m ∨ ws.sum ≠ 1 → GeneralizedProximalGradient fs gs x0 tau eps (some ws) η n acc = .error .valueError) ∧
    (ws.length = m → ws.sum = 1 → GeneralizedProximalGradient fs gs x0 tau eps (some ws) η n .other = .error .notImplementedError) := by
  constructor
  · intro h
    simp only [GeneralizedProximalGradient, if_pos h]
  · intro h1 h2
    simp [GeneralizedProximalGradient, h1, h2]

lemma sum_getD {ws : List ℝ} (h : ws.length = m) : ∑ j : Fin m, ws.getD j 0 = ws.sum := by
  subst h
  rw [← List.sum_ofFn]
  congr 1
  refine List.ext_getElem (by simp) fun i h1 h2 => ?_
  simp [h2]

/-- C53: whatever the operators do, the weights, acceleration and number of iterations, a run that returns returns the weighted sum of the auxiliary variables. -/
theorem C53_gpg_weighted_sum (fs : Fin l → ProxOp E) (gs : Fin m → ProxOp E) (x0 : E) (tau : Option ℝ) (eps : StepSpec) (ws : List ℝ) (η : ℝ) (n : ℕ)
    (acc : Accel) (r : GPGState E m) (hr : GeneralizedProximalGradient fs gs x0 tau eps (some ws) η n acc = .ok r) :
    r.x = ∑ j : Fin m, ws.getD j 0 • r.zs j := by
  unfold GeneralizedProximalGradient at hr
  simp only at hr
  split_ifs at hr with h1 h2
  push Not at h1
  refine forRange_inv (I := fun s : GPGState E m => s.x = ∑ j : Fin m, ws.getD j 0 • s.zs j) ?_ _ _ _ _ ?_ hr
  · intro i s s' b _ hs
    simp only [GPG.body, Bind.bind, Except.bind] at hs
    cases hgr : mapPy fun j => (fs j).grad s.x with
    | error e => rw [hgr] at hs; cases hs
    | ok gr =>
      rw [hgr] at hs
      simp only at hs
      split at hs
      · cases hs
      · cases hs; rfl
  · simp only
    rw [← Finset.sum_smul, sum_getD h1.1, h1.2, one_smul]

/-- The trajectory of `GeneralizedProximalGradient`. -/
lemma gpg_traj {G : E → E} {P : Fin m → E → E} (hG : ∀ x, ∃ gr : Fin l → E, (∀ i, (fs i).grad x = .ok (gr i)) ∧ ∑ i, gr i = G x)
    (heps : ∀ j : Fin m, eps.at j = .ok (e j)) (hP : ∀ j v, (gs j).prox v (τ * e j / w j) = .ok (P j v)) (hw : ∀ j, w j ≠ 0) (hw1 : ∑ j, w j = 1) (x0 : E)
    (acc : Accel) (hacc : acc ≠ .other) :
    ∃ (X Y : ℕ → E) (t : ℕ → ℝ) (Z : ℕ → Fin m → E), X 0 = x0 ∧ Y 0 = x0 ∧ (∀ j, Z 0 j = x0) ∧
      (∀ n j, Z (n + 1) j = Z n j + η • (P j ((2 : ℝ) • Y n - Z n j - τ • G (X n)) - Y n)) ∧ (∀ n, X (n + 1) = ∑ j, w j • Z (n + 1) j) ∧
      (∀ n, Y (n + 1) = X (n + 1) + (momentum acc n (t n)).1 • (X (n + 1) - X n)) ∧
      ∀ n, GeneralizedProximalGradient fs gs x0 (some τ) eps (some (List.ofFn w)) η n acc =
        .ok ⟨X n, Y n, t n, Z n, (List.range n).map fun i => X (i + 1)⟩ := by
  let nz : GPGState E m → Fin m → E := fun s j => s.zs j + η • (P j ((2 : ℝ) • s.y - s.zs j - τ • G s.x) - s.y)
  let nx : GPGState E m → E := fun s => ∑ j, w j • nz s j
  let nxt : ℕ → GPGState E m → GPGState E m := fun i s =>
    ⟨nx s, nx s + (momentum acc i s.t).1 • (nx s - s.x), (momentum acc i s.t).2, nz s, s.log ++ [nx s]⟩
  have hbody : ∀ i (s : GPGState E m), GPG.body fs gs w eps τ η acc i s = .ok (nxt i s, false) := by
    intro i s
    obtain ⟨gr, hgr, hsum⟩ := hG s.x
    have e1 : mapPy (fun j => (fs j).grad s.x) = .ok gr := mapPy_ok hgr
    have e2 : mapPy (fun j : Fin m => (do
        let e ← eps.at j
        if w j = 0 then .error .nanResult else (gs j).prox ((2 : ℝ) • s.y - s.zs j - τ • ∑ i, gr i) (τ * e / w j) : Py E)) =
        .ok fun j => P j ((2 : ℝ) • s.y - s.zs j - τ • G s.x) := by
      refine mapPy_ok fun j => ?_
      rw [heps j]
      simp only [Bind.bind, Except.bind]
      rw [if_neg (hw j), hsum, hP]
    unfold GPG.body
    rw [e1]
    simp only [Bind.bind, Except.bind] at e2 ⊢
    rw [e2]
    rfl
  obtain ⟨S, h0, h1, h2, h3⟩ := forRange_traj_nobreak (GPG.body fs gs w eps τ η acc) (fun _ => True) (fun i s s' => s' = nxt i s)
    (fun i s hs => ⟨_, hbody i s, trivial, rfl⟩) ⟨x0, x0, 1, fun _ => x0, []⟩ trivial
  have hS : ∀ n, (S n).log = (List.range n).map fun i => (S (i + 1)).x := by
    intro n
    induction n with
    | zero => rw [h0]; rfl
    | succ n ih => rw [h2 n, List.range_succ, List.map_append, ← ih]; simp [h2 n, nxt]
  refine ⟨fun n => (S n).x, fun n => (S n).y, fun n => (S n).t, fun n => (S n).zs, by simp [h0], by simp [h0], by simp [h0],
    fun n j => by simp only [h2 n, nxt, nz], fun n => by simp only [h2 n, nxt, nx], fun n => by simp only [h2 n, nxt], fun n => ?_⟩
  have hlist : (fun j : Fin m => (List.ofFn w).getD j 0) = w := by funext j; simp
  have hsum : (List.ofFn w).sum = 1 := by rw [List.sum_ofFn]; exact hw1
  unfold GeneralizedProximalGradient
  simp only [List.length_ofFn, hsum, ne_eq, not_true_eq_false, or_self, if_false, hacc, Option.getD_some, hlist]
  rw [h3 n, ← hS n]

lemma gradsExact_map {fs : Fin l → ProxOp E} (hf : ∀ i, GradExact (fs i) (φ i)) :
    ∃ G : E → E, (∀ x, ∃ gr : Fin l → E, (∀ i, (fs i).grad x = .ok (gr i)) ∧ ∑ i, gr i = G x) ∧ ∀ x, IsGrad (fun x => ∑ i, φ i x) x (G x) := by
  choose G h1 h2 using fun i => gradExact_map (hf i)
  refine ⟨fun x => ∑ i, G i x, fun x => ⟨fun i => G i x, fun i => h1 i x, rfl⟩, fun x => ?_⟩
  unfold IsGrad
  have := HasFDerivAt.fun_sum (u := Finset.univ) fun i (_ : i ∈ Finset.univ) => h2 i x
  have e : innerSL ℝ (∑ i, G i x) = ∑ i, innerSL ℝ (G i x) := map_sum _ _ _
  rw [e]
  exact this

/-- C53: every run with the weights accepted and positive parameters returns. -/
theorem C53_gpg_returns (hf : ∀ i, GradExact (fs i) (φ i)) (hg : ∀ j, ProxExact (gs j) (F j)) (heps : ∀ j : Fin m, eps.at j = .ok (e j)) (he : ∀ j, 0 < e j)
    (hw : ∀ j, 0 < w j) (hw1 : ∑ j, w j = 1) (hτ : 0 < τ) (x0 : E) (η : ℝ) (n : ℕ) (acc : Accel) (hacc : acc ≠ .other) :
    ∃ r, GeneralizedProximalGradient fs gs x0 (some τ) eps (some (List.ofFn w)) η n acc = .ok r := by
  obtain ⟨G, hG, -⟩ := gradsExact_map hf
  choose P hP _ using fun j => proxExact_map (hg j) (div_pos (mul_pos hτ (he j)) (hw j))
  obtain ⟨X, Y, t, Z, -, -, -, -, -, -, h⟩ := gpg_traj hG heps hP (fun j => (hw j).ne') hw1 x0 acc hacc
  exact ⟨_, h n⟩

lemma gpg_cert (hφ : ConvexOn ℝ Set.univ fun x => ∑ i, φ i x) {G : E → E} (hGr : ∀ x, IsGrad (fun x => ∑ i, φ i x) x (G x)) (hF : ∀ j, (F j).Convex)
    (he : ∀ j, 0 < e j) (hw : ∀ j, 0 < w j) (hw1 : ∑ j, w j = 1) (hτ : 0 < τ) {P : Fin m → E → E}
    (hP : ∀ j v, IsProx (F j) (τ * e j / w j) v (P j v)) {x : E} {z : Fin m → E} (hx : ∑ j, w j • z j = x)
    (h : ∀ j, P j ((2 : ℝ) • x - z j - τ • G x) = x) : (gpgObj φ e F).IsMin x := by
  have hs : ∀ j, IsSubgrad (F j) x ((1 / (τ * e j / w j)) • ((2 : ℝ) • x - z j - τ • G x - x)) := fun j => by
    have := subgrad_of_isProx (hF j) (div_pos (mul_pos hτ (he j)) (hw j)) (hP j ((2 : ℝ) • x - z j - τ • G x))
    rwa [h j] at this
  refine ⟨⟨trivial, fun j => (hs j).1⟩, fun y hy => ?_⟩
  have h1 := grad_ineq hφ (hGr x) y
  have h2 : ∑ j, e j * ((F j).val x + ⟪(1 / (τ * e j / w j)) • ((2 : ℝ) • x - z j - τ • G x - x), y - x⟫) ≤ ∑ j, e j * (F j).val y :=
    Finset.sum_le_sum fun j _ => mul_le_mul_of_nonneg_left ((hs j).2 y (hy.2 j)) (he j).le
  have h3 : ∑ j, e j * ⟪(1 / (τ * e j / w j)) • ((2 : ℝ) • x - z j - τ • G x - x), y - x⟫ = -⟪G x, y - x⟫ := by
    have e1 : ∀ j, e j * ⟪(1 / (τ * e j / w j)) • ((2 : ℝ) • x - z j - τ • G x - x), y - x⟫ = (1 / τ) * (w j * ⟪x - z j - τ • G x, y - x⟫) := fun j => by
      rw [real_inner_smul_left, show (2 : ℝ) • x - z j - τ • G x - x = x - z j - τ • G x by rw [two_smul]; abel]
      have := (he j).ne'
      have := (hw j).ne'
      field_simp
    simp only [e1]
    rw [← Finset.mul_sum, wsum_inner]
    simp only [smul_sub, Finset.sum_sub_distrib]
    rw [hx, ← Finset.sum_smul, ← Finset.sum_smul, hw1, one_smul, one_smul, sub_self, zero_sub, inner_neg_left, real_inner_smul_left]
    field_simp
  simp only [mul_add, Finset.sum_add_distrib] at h2
  rw [h3] at h2
  simp only [gpgObj, XFun.add, XFun.ofReal, sumObj, XFun.smul]
  linarith

/-- C53: for every acceleration, if an iteration started with `y = x` leaves the auxiliary variables unchanged, `x` minimises `∑ φ_i + ∑ e_j F_j`.  (Without
acceleration `y = x` always holds, see `C53_gpg_y_eq_x`.) -/
theorem C53_gpg_stationary (hf : ∀ i, GradExact (fs i) (φ i)) (hφ : ∀ i, ConvexOn ℝ Set.univ (φ i)) (hF : ∀ j, (F j).Convex) (hg : ∀ j, ProxExact (gs j) (F j))
    (heps : ∀ j : Fin m, eps.at j = .ok (e j)) (he : ∀ j, 0 < e j) (hw : ∀ j, 0 < w j) (hw1 : ∑ j, w j = 1) (hτ : 0 < τ) (hη : η ≠ 0) (x0 : E) (n : ℕ)
    (acc : Accel) (hacc : acc ≠ .other) (r r' : GPGState E m)
    (hr : GeneralizedProximalGradient fs gs x0 (some τ) eps (some (List.ofFn w)) η n acc = .ok r)
    (hr' : GeneralizedProximalGradient fs gs x0 (some τ) eps (some (List.ofFn w)) η (n + 1) acc = .ok r') (hy : r.y = r.x) (hz : r'.zs = r.zs) :
    (gpgObj φ e F).IsMin r.x := by
  obtain ⟨G, hG, hGr⟩ := gradsExact_map hf
  choose P hP hP' using fun j => proxExact_map (hg j) (div_pos (mul_pos hτ (he j)) (hw j))
  obtain ⟨X, Y, t, Z, hX0, hY0, hZ0, hZ, hX, hY, h⟩ := gpg_traj (η := η) hG heps hP (fun j => (hw j).ne') hw1 x0 acc hacc
  rw [h n] at hr; rw [h (n + 1)] at hr'
  cases hr; cases hr'
  simp only at hy hz ⊢
  have hXn : ∑ j, w j • Z n j = X n := by
    cases n with
    | zero => simp only [hZ0, hX0]; rw [← Finset.sum_smul, hw1, one_smul]
    | succ n => exact (hX n).symm
  have hφs : ConvexOn ℝ Set.univ fun x => ∑ i, φ i x := by
    refine ⟨convex_univ, fun x _ y _ a b ha hb hab => ?_⟩
    simp only [smul_eq_mul]
    rw [Finset.mul_sum, Finset.mul_sum, ← Finset.sum_add_distrib]
    exact Finset.sum_le_sum fun i _ => (hφ i).2 (Set.mem_univ x) (Set.mem_univ y) ha hb hab
  refine gpg_cert hφs hGr hF he hw hw1 hτ hP' hXn fun j => ?_
  have := hZ n j
  rw [hz, left_eq_add, smul_eq_zero, hy] at this
  exact sub_eq_zero.1 (this.resolve_left hη)

/-- C53: without acceleration every returned state has `y = x`. -/
theorem C53_gpg_y_eq_x (hf : ∀ i, GradExact (fs i) (φ i)) (hg : ∀ j, ProxExact (gs j) (F j)) (heps : ∀ j : Fin m, eps.at j = .ok (e j)) (he : ∀ j, 0 < e j)
    (hw : ∀ j, 0 < w j) (hw1 : ∑ j, w j = 1) (hτ : 0 < τ) (x0 : E) (n : ℕ) (r : GPGState E m)
    (hr : GeneralizedProximalGradient fs gs x0 (some τ) eps (some (List.ofFn w)) η n .none = .ok r) : r.y = r.x := by
  obtain ⟨G, hG, hGr⟩ := gradsExact_map hf
  choose P hP hP' using fun j => proxExact_map (hg j) (div_pos (mul_pos hτ (he j)) (hw j))
  obtain ⟨X, Y, t, Z, hX0, hY0, hZ0, hZ, hX, hY, h⟩ := gpg_traj (η := η) hG heps hP (fun j => (hw j).ne') hw1 x0 .none (by decide)
  rw [h n] at hr
  cases hr
  cases n with
  | zero => exact hY0.trans hX0.symm
  | succ n => simp only; rw [hY n]; simp [momentum]

/-- C53: convergence without acceleration.  In finite dimension, if the sum of the smooth terms has an `L`-Lipschitz gradient, `0 < eta < 2 - tau L / 2`, and the problem
has a minimiser certified by subgradients `s_j` of the `F_j` (`∇φ(x) + ∑ e_j s_j = 0`), the returned `x` converge to a minimiser. -/
theorem C53_gpg_converges [ProperSpace E] [NeZero m] {L : ℝ} (hf : ∀ i, GradExact (fs i) (φ i)) (hφ : ∀ i, ConvexOn ℝ Set.univ (φ i))
    (hL0 : 0 < L) (hL : LipschitzGrad (fun x => ∑ i, φ i x) L) (hF : ∀ j, (F j).Convex) (hg : ∀ j, ProxExact (gs j) (F j))
    (heps : ∀ j : Fin m, eps.at j = .ok (e j)) (he : ∀ j, 0 < e j) (hw : ∀ j, 0 < w j) (hw1 : ∑ j, w j = 1) (hτ : 0 < τ) (hη : 0 < η)
    (hη2 : η < 2 - τ * L / 2) (x0 : E)
    (hsol : ∃ (x g : E) (s : Fin m → E), IsGrad (fun x => ∑ i, φ i x) x g ∧ (∀ j, IsSubgrad (F j) x (s j)) ∧ g + ∑ j, e j • s j = 0) (R : ℕ → GPGState E m)
    (hR : ∀ n, GeneralizedProximalGradient fs gs x0 (some τ) eps (some (List.ofFn w)) η n .none = .ok (R n)) :
    ∃ x, (gpgObj φ e F).IsMin x ∧ Tendsto (fun n => (R n).x) atTop (𝓝 x) := by
  obtain ⟨G, hG, hGr⟩ := gradsExact_map hf
  choose P hP hP' using fun j => proxExact_map (hg j) (div_pos (mul_pos hτ (he j)) (hw j))
  obtain ⟨X, Y, t, Z, hX0, hY0, hZ0, hZ, hX, hY, h⟩ := gpg_traj (η := η) hG heps hP (fun j => (hw j).ne') hw1 x0 .none (by decide)
  have hYX : ∀ n, Y n = X n := fun n => by
    cases n with
    | zero => exact hY0.trans hX0.symm
    | succ n => rw [hY n]; simp [momentum]
  have hXn : ∀ n, ∑ j, w j • Z n j = X n := fun n => by
    cases n with
    | zero => simp only [hZ0, hX0]; rw [← Finset.sum_smul, hw1, one_smul]
    | succ n => exact (hX n).symm
  have hφs : ConvexOn ℝ Set.univ fun x => ∑ i, φ i x := by
    refine ⟨convex_univ, fun x _ y _ a b ha hb hab => ?_⟩
    simp only [smul_eq_mul]
    rw [Finset.mul_sum, Finset.mul_sum, ← Finset.sum_add_distrib]
    exact Finset.sum_le_sum fun i _ => (hφ i).2 (Set.mem_univ x) (Set.mem_univ y) ha hb hab
  have hLip : ∀ x y, ‖G x - G y‖ ≤ L * ‖x - y‖ := fun x y => hL x y _ _ (hGr x) (hGr y)
  have hstep : ∀ n, Z (n + 1) = gfbStep w P G τ η (Z n) := fun n => by
    funext j
    rw [hZ n j]; simp only [gfbStep]; rw [hXn n, hYX n]
  have hne : ∃ c, gfbStep w P G τ η c = c := by
    obtain ⟨x, g, s, hg1, hs1, hs2⟩ := hsol
    have hgG : g = G x := by
      have := hL x x g (G x) hg1 (hGr x)
      rw [sub_self, norm_zero, mul_zero] at this
      exact sub_eq_zero.1 (norm_eq_zero.1 (le_antisymm this (norm_nonneg _)))
    refine ⟨fun j => x - τ • G x - (τ * e j / w j) • s j, funext fun j => ?_⟩
    have e1 : ∑ j, w j • (x - τ • G x - (τ * e j / w j) • s j) = x := by
      simp only [smul_sub, Finset.sum_sub_distrib]
      rw [← Finset.sum_smul, ← Finset.sum_smul, hw1, one_smul, one_smul]
      have : ∀ j, w j • (τ * e j / w j) • s j = τ • e j • s j := fun j => by
        rw [smul_smul, smul_smul]; congr 1; have := (hw j).ne'; field_simp
      simp only [this]
      rw [← Finset.smul_sum, show ∑ j, e j • s j = -G x by rw [← hgG]; exact (neg_eq_of_add_eq_zero_right hs2).symm, smul_neg]; abel
    simp only [gfbStep]
    rw [e1]
    have hp := div_pos (mul_pos hτ (he j)) (hw j)
    have : IsProx (F j) (τ * e j / w j) ((2 : ℝ) • x - (x - τ • G x - (τ * e j / w j) • s j) - τ • G x) x := by
      refine isProx_of_subgrad hp ?_
      rw [show (2 : ℝ) • x - (x - τ • G x - (τ * e j / w j) • s j) - τ • G x - x = (τ * e j / w j) • s j by rw [two_smul]; abel, smul_smul,
        one_div_mul_cancel hp.ne', one_smul]
      exact hs1 j
    rw [IsProx.unique (hF j) hp this (hP' j _), sub_self, smul_zero, add_zero]
  obtain ⟨c, hc, hlim⟩ := gfb_converges hw hw1 (fun j => firm_prox (hF j) (div_pos (mul_pos hτ (he j)) (hw j)) (hP' j)) hτ.le hη hL0 hη2
    (cocoercive hφs hGr hL0 hLip) (continuous_of_nonexpansive hLip) hne Z hstep
  refine ⟨∑ j, w j • c j, gpg_cert hφs hGr hF he hw hw1 hτ hP' rfl fun j => ?_, ?_⟩
  · have := congrFun hc j
    simp only [gfbStep] at this
    rw [add_eq_left, smul_eq_zero] at this
    exact sub_eq_zero.1 (this.resolve_left hη.ne')
  · have e : ∀ n, (R n).x = ∑ j, w j • Z n j := fun n => by
      have := (hR n).symm.trans (h n)
      injection this with this
      rw [this, hXn]
    simp only [e]
    exact tendsto_finsetSum _ fun j _ => ((tendsto_pi_nhds.1 hlim) j).const_smul (w j)

end

/-- The hypotheses of C53 on the regularisers and weights are met: two L1 norms, unequal weights and a per-operator `epsg`. -/
example {ι : Type} [Fintype ι] : ∃ (gs : Fin 2 → ProxOp (Vec ι)) (F : Fin 2 → XFun (Vec ι)) (w e : Fin 2 → ℝ) (eps : StepSpec), (∀ i, (F i).Convex) ∧
    (∀ i, ProxExact (gs i) (F i)) ∧ (∀ j, 0 < w j) ∧ ∑ j, w j = 1 ∧ (∀ j, 0 < e j) ∧ ∀ j : Fin 2, eps.at j = .ok (e j) := by
  refine ⟨fun _ => L1 1 none, _, ![1 / 4, 3 / 4], ![2, 3], .arr [2, 3], fun _ => l1_convex, fun _ => l1_proxExact, ?_, ?_, ?_, ?_⟩
  · intro j; fin_cases j <;> norm_num
  · rw [Fin.sum_univ_two]; norm_num
  · intro j; fin_cases j <;> norm_num
  · intro j; fin_cases j <;> rfl

end Verif
