import Verif.Lemmas.Splitting
import Verif.Model.Primal

/-! # Parallel splitting: weighted products of proximal steps -/

open scoped RealInnerProductSpace
open Filter Topology

namespace Verif

variable {E : Type} [NormedAddCommGroup E] [InnerProductSpace ℝ E] {m : ℕ}

lemma mapPy_ok {α : Type} : ∀ {m : ℕ} {h : Fin m → Py α} {v : Fin m → α}, (∀ i, h i = .ok (v i)) → mapPy h = .ok v
  | 0, _, v, _ => by simp only [mapPy]; congr 1; exact Subsingleton.elim _ _
  | m + 1, h, v, hv => by
    have ih := mapPy_ok (h := fun i => h i.succ) (v := fun i => v i.succ) fun i => hv i.succ
    simp only [mapPy, hv 0, ih]
    congr 1
    funext i
    refine Fin.cases ?_ (fun j => ?_) i <;> simp

/-- The weighted gauge of a family. -/
noncomputable def wGauge (w : Fin m → ℝ) (v : Fin m → E) : ℝ := ∑ i, w i * ‖v i‖ ^ 2

lemma wGauge_lower [NeZero m] (w : Fin m → ℝ) (hw : ∀ i, 0 < w i) : ∃ k : ℝ, 0 < k ∧ ∀ v : Fin m → E, k * ‖v‖ ^ 2 ≤ wGauge w v := by
  obtain ⟨j, hj⟩ := Finite.exists_min w
  refine ⟨w j, hw j, fun v => ?_⟩
  obtain ⟨l, hl⟩ : ∃ l, ‖v‖ = ‖v l‖ := by
    haveI : Nonempty (Fin m) := ⟨j⟩
    obtain ⟨l, hl⟩ := Finite.exists_max fun i => ‖v i‖
    exact ⟨l, le_antisymm ((pi_norm_le_iff_of_nonneg (norm_nonneg _)).2 hl) (norm_le_pi_norm v l)⟩
  rw [hl]
  calc w j * ‖v l‖ ^ 2 ≤ w l * ‖v l‖ ^ 2 := mul_le_mul_of_nonneg_right (hj l) (sq_nonneg _)
    _ ≤ _ := Finset.single_le_sum (f := fun i => w i * ‖v i‖ ^ 2) (fun i _ => mul_nonneg (hw i).le (sq_nonneg _)) (Finset.mem_univ l)

lemma wGauge_expand (w : Fin m → ℝ) (d s : Fin m → E) (η : ℝ) :
    wGauge w (fun i => d i + η • s i) = wGauge w d + 2 * η * ∑ i, w i * ⟪d i, s i⟫ + η ^ 2 * wGauge w s := by
  unfold wGauge
  rw [Finset.mul_sum, Finset.mul_sum, ← Finset.sum_add_distrib, ← Finset.sum_add_distrib]
  refine Finset.sum_congr rfl fun i _ => ?_
  rw [norm_add_sq_real, inner_smul_right, norm_smul, mul_pow, Real.norm_eq_abs, sq_abs]; ring

lemma wsum_inner (w : Fin m → ℝ) (a : Fin m → E) (u : E) : ∑ i, w i * ⟪a i, u⟫ = ⟪∑ i, w i • a i, u⟫ := by
  rw [sum_inner]; simp only [real_inner_smul_left]

/-- Gauge of a family shifted by a constant vector. -/
lemma wGauge_shift (w : Fin m → ℝ) (hw : ∑ i, w i = 1) (a : Fin m → E) (u : E) :
    wGauge w (fun i => u - a i) = ‖u‖ ^ 2 - 2 * ⟪∑ i, w i • a i, u⟫ + wGauge w a := by
  rw [← wsum_inner, Finset.mul_sum]
  unfold wGauge
  have : ‖u‖ ^ 2 = ∑ i, w i * ‖u‖ ^ 2 := by rw [← Finset.sum_mul, hw, one_mul]
  rw [this, ← Finset.sum_sub_distrib, ← Finset.sum_add_distrib]
  refine Finset.sum_congr rfl fun i _ => ?_
  rw [norm_sub_sq_real, real_inner_comm]; ring

/-- One step of the parallel proximal algorithm, on the family `y`. -/
noncomputable def ppStep (w : Fin m → ℝ) (P : Fin m → E → E) (η : ℝ) (y : Fin m → E) : Fin m → E :=
  fun i => y i + η • ((2 : ℝ) • (∑ j, w j • P j (y j)) - (∑ j, w j • y j) - P i (y i))

lemma pp_fixed {w : Fin m → ℝ} (hw1 : ∑ i, w i = 1) {P : Fin m → E → E} {η : ℝ} (hη : η ≠ 0) {c : Fin m → E} (hc : ppStep w P η c = c) :
    ∀ i, P i (c i) = ∑ j, w j • c j := by
  set pn := ∑ j, w j • P j (c j) with hpn
  set x := ∑ j, w j • c j with hx
  have h1 : ∀ i, P i (c i) = (2 : ℝ) • pn - x := by
    intro i
    have := congrFun hc i
    simp only [ppStep] at this
    rw [← hpn, ← hx, add_eq_left, smul_eq_zero] at this
    exact (sub_eq_zero.1 (this.resolve_left hη)).symm
  have h2 : pn = (2 : ℝ) • pn - x := by
    rw [hpn]
    conv_lhs => rw [Finset.sum_congr rfl fun i _ => by rw [h1 i]]
    rw [← Finset.sum_smul, hw1, one_smul]
  have h3 : pn = x := by
    have h4 := eq_sub_iff_add_eq.1 h2
    rw [two_smul] at h4
    exact (add_left_cancel h4).symm
  intro i
  rw [h1 i, h3, two_smul, add_sub_cancel_right]

lemma pp_fixed_of {w : Fin m → ℝ} (hw1 : ∑ i, w i = 1) {P : Fin m → E → E} {η : ℝ} {c : Fin m → E} (hc : ∀ i, P i (c i) = ∑ j, w j • c j) :
    ppStep w P η c = c := by
  funext i
  have : ∑ j, w j • P j (c j) = ∑ j, w j • c j := by
    rw [Finset.sum_congr rfl fun i _ => by rw [hc i], ← Finset.sum_smul, hw1, one_smul]
  simp only [ppStep]
  rw [this, hc i, two_smul, add_sub_cancel_right, sub_self, smul_zero, add_zero]

lemma pp_fejer {w : Fin m → ℝ} (hw : ∀ i, 0 < w i) (hw1 : ∑ i, w i = 1) {P : Fin m → E → E} (hP : ∀ i, Firm (P i)) {η : ℝ} (hη : 0 < η)
    {c : Fin m → E} (hc : ppStep w P η c = c) (y : Fin m → E) :
    wGauge w (ppStep w P η y - c) + (2 - η) / η * wGauge w (ppStep w P η y - y) ≤ wGauge w (y - c) := by
  have hc' := pp_fixed hw1 hη.ne' hc
  set xc := ∑ j, w j • c j with hxc
  set a : Fin m → E := fun i => P i (y i) - xc with ha
  set d : Fin m → E := fun i => y i - c i with hd
  set A := ∑ i, w i • a i with hA
  set D := ∑ i, w i • d i with hD
  have hpn : ∑ j, w j • P j (y j) = A + xc := by
    rw [hA, ha]; simp only [smul_sub, Finset.sum_sub_distrib]
    rw [← Finset.sum_smul, hw1, one_smul, sub_add_cancel]
  have hxy : ∑ j, w j • y j = D + xc := by
    rw [hD, hd]; simp only [smul_sub, Finset.sum_sub_distrib]
    rw [← hxc, sub_add_cancel]
  set s : Fin m → E := fun i => (2 : ℝ) • A - D - a i with hs
  have e1 : ppStep w P η y - c = fun i => d i + η • s i := by
    funext i
    simp only [Pi.sub_apply, ppStep, hpn, hxy, hs, hd, ha]
    rw [show (2 : ℝ) • (A + xc) - (D + xc) - P i (y i) = (2 : ℝ) • A - D - (P i (y i) - xc) by rw [smul_add, two_smul ℝ xc]; abel]
    abel
  have e2 : ppStep w P η y - y = fun i => η • s i := by
    funext i
    have := congrFun e1 i
    simp only [Pi.sub_apply, hd] at this ⊢
    rw [show ppStep w P η y i - y i = (ppStep w P η y i - c i) - (y i - c i) by abel, this]; abel
  have e3 : wGauge w (fun i => η • s i) = η ^ 2 * wGauge w s := by
    unfold wGauge
    rw [Finset.mul_sum]
    refine Finset.sum_congr rfl fun i _ => ?_
    rw [norm_smul, mul_pow, Real.norm_eq_abs, sq_abs]; ring
  have e4 : (2 - η) / η * (η ^ 2 * wGauge w s) = (2 - η) * η * wGauge w s := by field_simp
  have e5 : y - c = d := rfl
  rw [e1, e2, e3, e4, e5, wGauge_expand]
  have q1 : wGauge w s = ‖(2 : ℝ) • A - D‖ ^ 2 - 2 * ⟪A, (2 : ℝ) • A - D⟫ + wGauge w a := wGauge_shift w hw1 a _
  have q2 : ∑ i, w i * ⟪d i, s i⟫ = ⟪D, (2 : ℝ) • A - D⟫ - ∑ i, w i * ⟪a i, d i⟫ := by
    rw [hD, ← wsum_inner, ← Finset.sum_sub_distrib, ← hD]
    refine Finset.sum_congr rfl fun i _ => ?_
    simp only [hs]
    rw [inner_sub_right, real_inner_comm (a i) (d i)]; ring
  have q3 : wGauge w a ≤ ∑ i, w i * ⟪a i, d i⟫ := by
    refine Finset.sum_le_sum fun i _ => mul_le_mul_of_nonneg_left ?_ (hw i).le
    have := hP i (y i) (c i)
    rw [hc' i] at this
    exact this
  have q4 : ⟪D, (2 : ℝ) • A - D⟫ + (‖(2 : ℝ) • A - D‖ ^ 2 - 2 * ⟪A, (2 : ℝ) • A - D⟫) = 0 := by
    rw [← real_inner_self_eq_norm_sq, ← real_inner_smul_left, ← inner_sub_left, ← inner_add_left]
    rw [show D + ((2 : ℝ) • A - D - (2 : ℝ) • A) = 0 by abel, inner_zero_left]
  nlinarith

lemma pp_continuous {w : Fin m → ℝ} {P : Fin m → E → E} (hP : ∀ i, Firm (P i)) (η : ℝ) : Continuous (ppStep w P η) := by
  have hc : ∀ i, Continuous (P i) := fun i => (hP i).continuous
  refine continuous_pi fun i => ?_
  unfold ppStep
  have h2 : ∀ i, Continuous fun y : Fin m → E => P i (y i) := fun i => (hc i).comp (continuous_apply i)
  fun_prop

lemma pp_converges [ProperSpace E] [NeZero m] {w : Fin m → ℝ} (hw : ∀ i, 0 < w i) (hw1 : ∑ i, w i = 1) {P : Fin m → E → E} (hP : ∀ i, Firm (P i))
    {η : ℝ} (hη : 0 < η) (hη2 : η < 2) (hne : ∃ c, ppStep w P η c = c) (y : ℕ → Fin m → E) (hy : ∀ n, y (n + 1) = ppStep w P η (y n)) :
    ∃ c, ppStep w P η c = c ∧ Tendsto y atTop (𝓝 c) := by
  obtain ⟨k, hk, hk'⟩ := wGauge_lower (E := E) w hw
  have hq : 0 < (2 - η) / η := div_pos (by linarith) hη
  refine km_converges (ppStep w P η) (pp_continuous hP η) (wGauge w) (by unfold wGauge; fun_prop) (by simp [wGauge]) hk
    (β := (2 - η) / η * k) (mul_pos hq hk) hk' (fun x c hc => ?_) hne y hy
  have h1 := pp_fejer hw hw1 hP hη hc x
  have h2 := mul_le_mul_of_nonneg_left (hk' (ppStep w P η x - x)) hq.le
  linarith

lemma IsCertifiedSum.isMin {F : Fin m → XFun E} {v x : E} {s : Fin m → E} (h : IsCertifiedSum F v x s) : ((sumObj F).addLinear v).IsMin x := by
  refine ⟨fun i => (h.1 i).1, fun y hy => ?_⟩
  have h1 : ∑ i, ((F i).val x + ⟪s i, y - x⟫) ≤ ∑ i, (F i).val y := Finset.sum_le_sum fun i _ => (h.1 i).2 y (hy i)
  rw [Finset.sum_add_distrib, ← sum_inner, h.2, inner_neg_left, inner_sub_right] at h1
  simp only [XFun.addLinear, sumObj]
  linarith

end Verif
