import Verif.Spec.Optim
import Mathlib.Analysis.LocallyConvex.Separation
import Mathlib.Analysis.Convex.Continuous
import Mathlib.Analysis.InnerProductSpace.Dual
import Mathlib.Topology.Algebra.Module.FiniteDimension

/-! Helper lemmas: a minimiser of a composite objective has a dual certificate under Slater's condition. -/

open scoped RealInnerProductSpace
open Filter Topology

namespace Verif

variable {E : Type*} [NormedAddCommGroup E] [InnerProductSpace ℝ E] {H : Type*} [NormedAddCommGroup H] [InnerProductSpace ℝ H]

/-- An affine minorant on the interior of the domain of a convex function is one on the whole domain. -/
lemma minorant_of_interior {G : XFun H} (hG : G.Convex) {u₀ : H} (h₀ : u₀ ∈ interior G.dom) {w : H} {c : ℝ} (h : ∀ u ∈ interior G.dom, ⟪w, u⟫ - c ≤ G.val u) {u : H}
    (hu : u ∈ G.dom) : ⟪w, u⟫ - c ≤ G.val u := by
  have key : ∀ t : ℝ, 0 < t → t ≤ 1 → (⟪w, u⟫ - c) + t * (⟪w, u₀⟫ - ⟪w, u⟫) ≤ G.val u + t * (G.val u₀ - G.val u) := by
    intro t ht ht1
    have h1 : (1 - t) • u + t • u₀ ∈ interior G.dom :=
      hG.1.combo_self_interior_mem_interior hu h₀ (by linarith) ht (by ring)
    have h2 := hG.2 hu (interior_subset h₀) (by linarith : 0 ≤ 1 - t) ht.le (by ring)
    have h3 := h _ h1
    rw [inner_add_right, inner_smul_right, inner_smul_right] at h3
    simp only [smul_eq_mul] at h2
    linarith
  have hlim : Tendsto (fun t : ℝ => (G.val u + t * (G.val u₀ - G.val u)) - ((⟪w, u⟫ - c) + t * (⟪w, u₀⟫ - ⟪w, u⟫))) (𝓝[>] 0) (𝓝 (G.val u - (⟪w, u⟫ - c))) := by
    have : Continuous fun t : ℝ => (G.val u + t * (G.val u₀ - G.val u)) - ((⟪w, u⟫ - c) + t * (⟪w, u₀⟫ - ⟪w, u⟫)) := by fun_prop
    have := (this.tendsto 0).mono_left (nhdsWithin_le_nhds (s := Set.Ioi 0))
    simpa using this
  have := ge_of_tendsto hlim (b := 0) (by
    filter_upwards [Ioc_mem_nhdsGT (zero_lt_one' ℝ)] with t ht
    linarith [key t ht.1 ht.2])
  linarith

/-- Under Slater's condition every minimiser of `F(x) + ⟪z, x⟫ + G(A x)` is certified. -/
lemma certified_of_min [FiniteDimensional ℝ H] {F : XFun E} {G : XFun H} (hF : F.Convex) (hG : G.Convex) (A : E →ₗ[ℝ] H) (At : H → E) (hdot : ∀ x y, ⟪A x, y⟫ = ⟪x, At y⟫) (z : E)
    {x : E} (hx : (compObj F G A z).IsMin x) {xs : E} (hxs : xs ∈ F.dom) (hint : A xs ∈ interior G.dom) : ∃ y, IsCertifiedComp F G A At z x y := by
  have : CompleteSpace H := FiniteDimensional.complete ℝ H
  obtain ⟨⟨hxF, hxG⟩, hmin⟩ := hx
  set m := F.val x + ⟪z, x⟫ + G.val (A x) with hm
  have hcont : ContinuousOn G.val (interior G.dom) := ConvexOn.continuousOn_interior hG
  let S1 : Set (H × ℝ) := {p | p.1 ∈ interior G.dom ∧ G.val p.1 < p.2}
  let S2 : Set (H × ℝ) := {p | ∃ x' ∈ F.dom, p.1 = A x' ∧ p.2 ≤ m - F.val x' - ⟪z, x'⟫}
  have hS1o : IsOpen S1 := by
    rw [isOpen_iff_mem_nhds]
    rintro ⟨u, t⟩ ⟨h1, h2⟩
    have hu : Tendsto (fun p : H × ℝ => G.val p.1) (𝓝 (u, t)) (𝓝 (G.val u)) :=
      ((hcont.continuousAt (isOpen_interior.mem_nhds h1)).tendsto).comp (continuous_fst.tendsto (u, t))
    have ht : Tendsto (fun p : H × ℝ => p.2) (𝓝 (u, t)) (𝓝 t) := continuous_snd.tendsto (u, t)
    exact ((continuous_fst.tendsto (u, t)).eventually (isOpen_interior.mem_nhds h1)).and (hu.eventually_lt ht h2)
  have hS1c : Convex ℝ S1 := by
    rintro ⟨u, t⟩ ⟨h1, h2⟩ ⟨u', t'⟩ ⟨h1', h2'⟩ a b ha hb hab
    refine ⟨hG.1.interior h1 h1' ha hb hab, ?_⟩
    have h3 := hG.2 (interior_subset h1) (interior_subset h1') ha hb hab
    simp only [smul_eq_mul] at h3
    show G.val (a • u + b • u') < a * t + b * t'
    rcases ha.eq_or_lt with h | h
    · subst h
      have : b = 1 := by linarith
      subst this
      simpa using h2'
    · have h4 : a * G.val u < a * t := mul_lt_mul_of_pos_left h2 h
      have h5 : b * G.val u' ≤ b * t' := mul_le_mul_of_nonneg_left h2'.le hb
      linarith
  have hS2c : Convex ℝ S2 := by
    rintro ⟨u, t⟩ ⟨x1, h1, e1, h2⟩ ⟨u', t'⟩ ⟨x2, h1', e2, h2'⟩ a b ha hb hab
    simp only at e1 e2 h2 h2'
    refine ⟨a • x1 + b • x2, hF.1 h1 h1' ha hb hab, ?_, ?_⟩
    · show a • u + b • u' = _
      rw [e1, e2, map_add, map_smul, map_smul]
    · have h3 := hF.2 h1 h1' ha hb hab
      simp only [smul_eq_mul] at h3
      show a * t + b * t' ≤ _
      rw [inner_add_right, inner_smul_right, inner_smul_right]
      have h4 : a * t ≤ a * (m - F.val x1 - ⟪z, x1⟫) := mul_le_mul_of_nonneg_left h2 ha
      have h5 : b * t' ≤ b * (m - F.val x2 - ⟪z, x2⟫) := mul_le_mul_of_nonneg_left h2' hb
      have h6 : a * m + b * m = m := by rw [← add_mul, hab, one_mul]
      linarith
  have hdisj : Disjoint S1 S2 := by
    rw [Set.disjoint_left]
    rintro ⟨u, t⟩ ⟨h1, h2⟩ ⟨x', h3, h4, h5⟩
    simp only at h4 h5
    subst h4
    have := hmin x' ⟨h3, interior_subset h1⟩
    simp only [compObj] at this
    simp only at h2
    linarith
  obtain ⟨f, c, hf1, hf2⟩ := geometric_hahn_banach_open hS1c hS1o hS2c hdisj
  set β := f (0, 1) with hβ
  let w : H := (InnerProductSpace.toDual ℝ H).symm (f.comp (ContinuousLinearMap.inl ℝ H ℝ))
  have hf : ∀ u t, f (u, t) = ⟪w, u⟫ + t * β := by
    intro u t
    have h1 : ⟪w, u⟫ = f (u, 0) := by simp [w]
    have h2 : f (0, t) = t * β := by
      rw [hβ, ← smul_eq_mul, ← map_smul]; simp
    rw [h1, ← h2, ← map_add]; simp
  have hxs2 : ∀ u ∈ interior G.dom, ∀ t, G.val u < t → ⟪w, u⟫ + t * β < c := fun u hu t ht => by
    rw [← hf]; exact hf1 (u, t) ⟨hu, ht⟩
  have hS2' : ∀ x' ∈ F.dom, c ≤ ⟪w, A x'⟫ + (m - F.val x' - ⟪z, x'⟫) * β := fun x' hx' => by
    rw [← hf]; exact hf2 _ ⟨x', hx', rfl, le_rfl⟩
  have hβneg : β < 0 := by
    by_contra hcon
    push Not at hcon
    have h1 := hS2' xs hxs
    have h2 := hxs2 (A xs) hint (max (G.val (A xs) + 1) (m - F.val xs - ⟪z, xs⟫)) (lt_max_of_lt_left (by linarith))
    have h3 : (m - F.val xs - ⟪z, xs⟫) * β ≤ max (G.val (A xs) + 1) (m - F.val xs - ⟪z, xs⟫) * β := mul_le_mul_of_nonneg_right (le_max_right _ _) hcon
    linarith
  have hb : 0 < -β := by linarith
  let y : H := (1 / -β) • w
  have hy : ∀ u, ⟪y, u⟫ = ⟪w, u⟫ / -β := fun u => by simp only [y]; rw [inner_smul_left]; simp; ring
  have hGint : ∀ u ∈ interior G.dom, ⟪y, u⟫ - c / -β ≤ G.val u := by
    intro u hu
    refine le_of_forall_gt_imp_ge_of_dense fun t ht => ?_
    have := hxs2 u hu t ht
    rw [hy, ← sub_div, div_le_iff₀ hb]
    linarith
  have hGall : ∀ u ∈ G.dom, ⟪y, u⟫ - c / -β ≤ G.val u := fun u hu => minorant_of_interior hG hint hGint hu
  have hFall : ∀ x' ∈ F.dom, c / -β ≤ ⟪y, A x'⟫ - (m - F.val x' - ⟪z, x'⟫) := fun x' hx' => by
    rw [hy, div_le_iff₀ hb, sub_mul, div_mul_cancel₀ _ hb.ne']
    linarith [hS2' x' hx']
  have e1 : c / -β = ⟪y, A x⟫ - G.val (A x) := by
    apply le_antisymm
    · have := hFall x hxF
      rw [hm] at this
      linarith
    · linarith [hGall (A x) hxG]
  refine ⟨y, ⟨hxF, fun x' hx' => ?_⟩, hxG, fun u hu => ?_⟩
  · have := hFall x' hx'
    rw [e1, hm] at this
    have h2 : ⟪-At y - z, x' - x⟫ = -(⟪y, A x'⟫ - ⟪y, A x⟫) - (⟪z, x'⟫ - ⟪z, x⟫) := by
      rw [inner_sub_left, inner_neg_left, inner_sub_right z, real_inner_comm, ← hdot, map_sub, inner_sub_left, real_inner_comm, real_inner_comm y (A x)]
    rw [h2]
    linarith
  · have := hGall u hu
    rw [e1] at this
    rw [inner_sub_right]
    linarith

/-- The sum rule: under Slater's condition every minimiser of `F + G` is certified. -/
lemma certified_of_min_add [FiniteDimensional ℝ E] {F G : XFun E} (hF : F.Convex) (hG : G.Convex) {x : E} (hx : (F.add G).IsMin x) {xs : E} (hxs : xs ∈ F.dom)
    (hint : xs ∈ interior G.dom) : ∃ s, IsCertified F G x s := by
  obtain ⟨y, h1, h2⟩ := certified_of_min hF hG (LinearMap.id) id (fun _ _ => rfl) 0 (x := x) ⟨hx.1, fun y hy => by
    have := hx.2 y hy
    simpa [compObj, XFun.add] using this⟩ hxs hint
  exact ⟨y, by simpa using h1, h2⟩

end Verif
