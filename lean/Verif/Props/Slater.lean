import Verif.Lemmas.Duality
import Verif.Props.Splitting
import Verif.Props.PrimalDual
import Verif.Props.ADMML2
import Verif.Props.Parallel

/-! # Convergence of the solvers under Slater's condition

The convergence theorems of C44-C50 ask for a minimiser with a dual certificate.  Here the certificate is derived: a minimiser and one point where the functions are finite, all but one
of them in a neighbourhood, are enough. -/

open scoped RealInnerProductSpace
open Filter Topology

set_option linter.unusedSectionVars false

namespace Verif

variable {E H : Type} [NormedAddCommGroup E] [InnerProductSpace ℝ E] [NormedAddCommGroup H] [InnerProductSpace ℝ H]

/-- Slater's condition for `F + G`: a point where both are finite, one of them in a neighbourhood. -/
def Slater (F G : XFun E) : Prop := ∃ x, (x ∈ F.dom ∧ x ∈ interior G.dom) ∨ (x ∈ interior F.dom ∧ x ∈ G.dom)

/-- Slater's condition for `F(x) + G(A x)`. -/
def SlaterComp (F : XFun E) (G : XFun H) (A : E → H) : Prop := ∃ x ∈ F.dom, A x ∈ interior G.dom

/-- Slater's condition for `∑ F_i`: a point where all are finite, all but `F_i₀` in a neighbourhood. -/
def SlaterSum {m : ℕ} (F : Fin m → XFun E) : Prop := ∃ x i₀, x ∈ (F i₀).dom ∧ ∀ i, i ≠ i₀ → x ∈ interior (F i).dom

lemma slater_certified [FiniteDimensional ℝ E] {F G : XFun E} (hF : F.Convex) (hG : G.Convex) (hS : Slater F G) {x : E} (hx : (F.add G).IsMin x) :
    ∃ s, IsCertified F G x s := by
  obtain ⟨xs, ⟨h1, h2⟩ | ⟨h1, h2⟩⟩ := hS
  · exact certified_of_min_add hF hG hx h1 h2
  · obtain ⟨s, hs⟩ := certified_of_min_add hG hF (x := x) ⟨⟨hx.1.2, hx.1.1⟩, fun y hy => by
      have := hx.2 y ⟨hy.2, hy.1⟩
      simp only [XFun.add] at this ⊢
      linarith⟩ h2 h1
    exact ⟨-s, by simpa using hs.2, hs.1⟩

/-- The sum rule for several functions. -/
lemma slater_certified_sum [FiniteDimensional ℝ E] {m : ℕ} {F : Fin m → XFun E} (hF : ∀ i, (F i).Convex) (hS : SlaterSum F) {x : E} (hx : (sumObj F).IsMin x) :
    ∃ s, IsCertifiedSum F 0 x s := by
  classical
  obtain ⟨xs, i₀, h0, hi⟩ := hS
  let J := {i : Fin m // i ≠ i₀}
  let HJ := PiLp 2 fun _ : J => E
  let G : XFun HJ := ⟨{y | ∀ j : J, y j ∈ (F j).dom}, fun y => ∑ j : J, (F j).val (y j)⟩
  have hG : G.Convex := by
    refine ⟨fun y hy y' hy' a b ha hb hab j => (hF j).1 (hy j) (hy' j) ha hb hab, fun y hy y' hy' a b ha hb hab => ?_⟩
    show ∑ j : J, (F j).val (a • y j + b • y' j) ≤ a * ∑ j : J, (F j).val (y j) + b * ∑ j : J, (F j).val (y' j)
    rw [Finset.mul_sum, Finset.mul_sum, ← Finset.sum_add_distrib]
    exact Finset.sum_le_sum fun j _ => (hF j).2 (hy j) (hy' j) ha hb hab
  let A : E →ₗ[ℝ] HJ :=
    { toFun := fun v => WithLp.toLp 2 fun _ => v
      map_add' := fun _ _ => rfl
      map_smul' := fun _ _ => rfl }
  have hdot : ∀ v (y : HJ), ⟪A v, y⟫ = ⟪v, ∑ j, y j⟫ := fun v y => by
    rw [PiLp.inner_apply, inner_sum]; rfl
  have hsplit : ∀ v, ∑ i, (F i).val v = (F i₀).val v + ∑ j : J, (F j).val v := fun v => by
    rw [← Finset.add_sum_erase _ _ (Finset.mem_univ i₀)]
    congr 1
    rw [← Finset.sum_subtype (Finset.univ.erase i₀) (p := fun i => i ≠ i₀) (by simp) (fun i => (F i).val v)]
  have hmin : (compObj (F i₀) G A 0).IsMin x := by
    refine ⟨⟨hx.1 i₀, fun j => hx.1 j⟩, fun y hy => ?_⟩
    have h1 := hx.2 y (fun i => by
      by_cases h : i = i₀
      · rw [h]; exact hy.1
      · exact hy.2 ⟨i, h⟩)
    simp only [sumObj, hsplit] at h1
    simp only [compObj, inner_zero_left, add_zero]
    exact h1
  have hint : A xs ∈ interior G.dom := by
    rw [mem_interior]
    refine ⟨⋂ j : J, (fun y : HJ => y j) ⁻¹' interior (F j).dom, fun y hy j => interior_subset (Set.mem_iInter.1 hy j), isOpen_iInter_of_finite fun j => ?_,
      Set.mem_iInter.2 fun j => hi j j.2⟩
    exact isOpen_interior.preimage (PiLp.continuous_apply 2 _ j)
  obtain ⟨y, h1, h2⟩ := certified_of_min (hF i₀) hG A (fun y => ∑ j, y j) hdot 0 hmin h0 hint
  refine ⟨fun i => if h : i = i₀ then -∑ j, y j else y ⟨i, h⟩, fun i => ?_, ?_⟩
  · by_cases h : i = i₀
    · subst h; simpa using h1
    · simp only [h, dif_neg, not_false_eq_true]
      refine ⟨hx.1 i, fun v hv => ?_⟩
      have h3 := h2.2 (WithLp.toLp 2 (Function.update (fun _ : J => x) ⟨i, h⟩ v)) (fun j => by
        show Function.update (fun _ : J => x) ⟨i, h⟩ v j ∈ _
        by_cases hj : j = ⟨i, h⟩
        · subst hj; simpa using hv
        · rw [Function.update_of_ne hj]; exact hx.1 j)
      have e1 : ⟪y, WithLp.toLp 2 (Function.update (fun _ : J => x) ⟨i, h⟩ v) - A x⟫ = ⟪y ⟨i, h⟩, v - x⟫ := by
        rw [PiLp.inner_apply, Finset.sum_eq_single ⟨i, h⟩]
        · show ⟪y ⟨i, h⟩, Function.update (fun _ : J => x) ⟨i, h⟩ v ⟨i, h⟩ - x⟫ = _
          rw [Function.update_self]
        · intro j _ hj
          show ⟪y j, Function.update (fun _ : J => x) ⟨i, h⟩ v j - x⟫ = _
          rw [Function.update_of_ne hj, sub_self, inner_zero_right]
        · simp
      have e2 : G.val (WithLp.toLp 2 (Function.update (fun _ : J => x) ⟨i, h⟩ v)) = G.val (A x) + ((F i).val v - (F i).val x) := by
        show ∑ j : J, (F j).val (Function.update (fun _ : J => x) ⟨i, h⟩ v j) = ∑ j : J, (F j).val x + _
        rw [← Finset.add_sum_erase _ _ (Finset.mem_univ (⟨i, h⟩ : J)), ← Finset.add_sum_erase (a := (⟨i, h⟩ : J)) _ (fun j : J => (F j).val x) (Finset.mem_univ _)]
        rw [Function.update_self, Finset.sum_congr rfl fun j hj => by rw [Function.update_of_ne (Finset.ne_of_mem_erase hj)]]
        ring
      rw [e1, e2] at h3
      linarith
  · rw [neg_zero, ← Finset.add_sum_erase _ _ (Finset.mem_univ i₀)]
    simp only [dif_pos]
    rw [Finset.sum_subtype (Finset.univ.erase i₀) (p := fun i => i ≠ i₀) (by simp)]
    have : ∀ j : J, (if h : (j : Fin m) = i₀ then -∑ j, y j else y ⟨j, h⟩) = y j := fun j => dif_neg j.2
    simp only [this]
    exact neg_add_cancel _

variable {f g : ProxOp E} {F G : XFun E} {τ η : ℝ}

/-- C44 under Slater's condition: if `F + G` has a minimiser, DouglasRachfordSplitting converges to one. -/
theorem C44_dr_converges_slater [FiniteDimensional ℝ E] (hF : F.Convex) (hG : G.Convex) (hf : ProxExact f F) (hg : ProxExact g G) (hτ : 0 < τ) (hη : 0 < η) (hη2 : η < 2)
    (gfirst : Bool) (x0 : E) (hS : Slater F G) (hmin : ∃ x, (F.add G).IsMin x) (R : ℕ → E × E × List (E × E))
    (hR : ∀ n, DouglasRachford f g x0 τ η (n + 1) gfirst = .ok (R n)) : ∃ x, (F.add G).IsMin x ∧ Tendsto (fun n => (R n).1) atTop (𝓝 x) := by
  have : ProperSpace E := FiniteDimensional.proper_real E
  obtain ⟨x, hx⟩ := hmin
  exact C44_dr_converges hF hG hf hg hτ hη hη2 gfirst x0 ⟨x, slater_certified hF hG hS hx⟩ R hR

/-- C45 under Slater's condition: if `F + G` has a minimiser, both sequences of ADMM converge to one. -/
theorem C45_admm_converges_slater [FiniteDimensional ℝ E] (hF : F.Convex) (hG : G.Convex) (hf : ProxExact f F) (hg : ProxExact g G) (hτ : 0 < τ) (gfirst : Bool)
    (x0 z0 : Option E) (h0 : x0.isSome ∨ z0.isSome) (hS : Slater F G) (hmin : ∃ x, (F.add G).IsMin x) :
    ∃ S : ℕ → SplitState E, (∀ n, ADMM f g x0 z0 τ n gfirst = .ok (S n)) ∧
      ∃ c, (F.add G).IsMin c ∧ Tendsto (fun n => (S n).x) atTop (𝓝 c) ∧ Tendsto (fun n => (S n).z) atTop (𝓝 c) := by
  have : ProperSpace E := FiniteDimensional.proper_real E
  obtain ⟨x, hx⟩ := hmin
  exact C45_admm_converges hF hG hf hg hτ gfirst x0 z0 h0 ⟨x, slater_certified hF hG hS hx⟩

section comp
variable {g : ProxOp H} {G : XFun H} {A : LinOp E H} {μ K : ℝ}

lemma slaterComp_certified [FiniteDimensional ℝ H] (hF : F.Convex) (hG : G.Convex) (hS : SlaterComp F G A.matvec) (z : E) {x : E} (hx : (compObj F G A.matvec z).IsMin x) :
    ∃ y, IsCertifiedComp F G A.matvec A.rmatvec z x y := by
  obtain ⟨xs, h1, h2⟩ := hS
  exact certified_of_min hF hG A.matvec A.rmatvec A.dot z hx h1 h2

/-- C46 under Slater's condition. -/
theorem C46_linadmm_converges_slater [FiniteDimensional ℝ E] [FiniteDimensional ℝ H] (hF : F.Convex) (hG : G.Convex) (hf : ProxExact f F) (hg : ProxExact g G) (hτ : 0 < τ)
    (hμ : 0 < μ) (hK : 0 ≤ K) (hA : ∀ v, ‖A.matvec v‖ ≤ K * ‖v‖) (hc : μ / τ * K ^ 2 ≤ 1) (x0 : E) (z0 : Option H) (hS : SlaterComp F G A.matvec)
    (hmin : ∃ x, (compObj F G A.matvec 0).IsMin x) (R : ℕ → SplitOpState E H) (hR : ∀ n, LinearizedADMM f g A (some x0) z0 τ μ n = .ok (R n)) :
    ∃ x, (compObj F G A.matvec 0).IsMin x ∧ Tendsto (fun n => (R n).x) atTop (𝓝 x) ∧ Tendsto (fun n => (R n).z) atTop (𝓝 (A.matvec x)) := by
  obtain ⟨x, hx⟩ := hmin
  exact C46_linadmm_converges hF hG hf hg hτ hμ hK hA hc x0 z0 ⟨x, slaterComp_certified hF hG hS 0 hx⟩ R hR

lemma misfit_convex {D : Type} [NormedAddCommGroup D] [InnerProductSpace ℝ D] (Op : LinOp E D) (b : D) : (misfit Op b).Convex := by
  refine convexOn_of_above (G := fun x => Op.rmatvec (Op.matvec x - b)) fun x y => ?_
  have h1 : Op.matvec y - b = (Op.matvec x - b) + Op.matvec (y - x) := by rw [map_sub]; abel
  have h2 : ⟪Op.rmatvec (Op.matvec x - b), y - x⟫ = ⟪Op.matvec x - b, Op.matvec (y - x)⟫ := by
    rw [real_inner_comm, ← Op.dot, real_inner_comm]
  simp only [misfit, XFun.ofReal]
  rw [h1, norm_add_sq_real, h2]
  nlinarith [sq_nonneg ‖Op.matvec (y - x)‖]

/-- C47 under Slater's condition (partial: only the default order). -/
theorem C47_admml2_converges_slater_partial {D : Type} [NormedAddCommGroup D] [InnerProductSpace ℝ D] {Op : LinOp E D} {b : D} {inv : E → H → ℝ → E} [FiniteDimensional ℝ E]
    [FiniteDimensional ℝ H] (hG : G.Convex) (hg : ProxExact g G) (hτ : 0 < τ) (hinv : SolvesReg Op b A inv) (x0 : E) (z0 : Option H)
    (hS : ∃ x, A.matvec x ∈ interior G.dom) (hmin : ∃ x, (compObj (misfit Op b) G A.matvec 0).IsMin x)
    (R : ℕ → SplitOpState E H) (hR : ∀ n, ADMML2 inv g A (some x0) z0 τ n false = .ok (R n)) :
    ∃ x, (compObj (misfit Op b) G A.matvec 0).IsMin x ∧ Tendsto (fun n => A.matvec (R n).x) atTop (𝓝 (A.matvec x)) ∧
      Tendsto (fun n => (R n).z) atTop (𝓝 (A.matvec x)) ∧ Tendsto (fun n => Op.matvec (R n).x) atTop (𝓝 (Op.matvec x)) ∧
      ((∀ v, Op.matvec v = 0 → A.matvec v = 0 → v = 0) → Tendsto (fun n => (R n).x) atTop (𝓝 x)) := by
  obtain ⟨x, hx⟩ := hmin
  obtain ⟨xs, hxs⟩ := hS
  exact C47_admml2_converges_partial hG hg hτ hinv x0 z0 ⟨x, slaterComp_certified (misfit_convex Op b) hG ⟨xs, trivial, hxs⟩ 0 hx⟩ R hR

/-- C50 under Slater's condition. -/
theorem C50_pd_converges_slater [FiniteDimensional ℝ E] [FiniteDimensional ℝ H] (hF : F.Convex) (hG : G.Convex) (hf : ProxExact f F) (hg : ProxExact g G)
    (hd : ProxdualExact g G.conj) (hτ : 0 < τ) (hμ : 0 < μ) (hK : 0 ≤ K) (hA : ∀ v, ‖A.matvec v‖ ≤ K * ‖v‖) (hc : τ * μ * K ^ 2 ≤ 1)
    (z : Option E) (gfirst : Bool) (x0 : E) (y0 : Option H) (hS : SlaterComp F G A.matvec) (hmin : ∃ x, (compObj F G A.matvec (z.getD 0)).IsMin x)
    (R : ℕ → PDState E H) (hR : ∀ n, PrimalDual f g A x0 y0 z (.scalar τ) (.scalar μ) 1 n gfirst = .ok (R n)) :
    ∃ x y, IsSaddle F G A.matvec (z.getD 0) x y ∧ (compObj F G A.matvec (z.getD 0)).IsMin x ∧
      Tendsto (fun n => (R n).x) atTop (𝓝 x) ∧ Tendsto (fun n => (R n).y) atTop (𝓝 y) := by
  obtain ⟨x, hx⟩ := hmin
  exact C50_pd_converges hF hG hf hg hd hτ hμ hK hA hc z gfirst x0 y0 ⟨x, slaterComp_certified hF hG hS _ hx⟩ R hR

end comp

section sums
variable {m : ℕ} {fs : Fin m → ProxOp E} {F : Fin m → XFun E} {w : Fin m → ℝ}

/-- C48 under Slater's condition (partial: a single starting vector). -/
theorem C48_ppxa_converges_slater_partial [FiniteDimensional ℝ E] [NeZero m] (hF : ∀ i, (F i).Convex) (hf : ∀ i, ProxExact (fs i) (F i)) (hw : ∀ i, 0 < w i)
    (hw1 : ∑ i, w i = 1) (hτ : 0 < τ) (hη : 0 < η) (hη2 : η < 2) (x0 : E) (mx : E → ℝ) (hmx : ∀ v, 0 ≤ mx v) (hS : SlaterSum F) (hmin : ∃ x, (sumObj F).IsMin x)
    (R : ℕ → PPXAState E m) (hR : ∀ n, PPXA fs (some w) (fun _ => x0) τ η n 0 mx = .ok (R n)) :
    ∃ x, (sumObj F).IsMin x ∧ Tendsto (fun n => (R n).x) atTop (𝓝 x) := by
  have : ProperSpace E := FiniteDimensional.proper_real E
  obtain ⟨x, hx⟩ := hmin
  exact C48_ppxa_converges_partial hF hf hw hw1 hτ hη hη2 x0 mx hmx ⟨x, slater_certified_sum hF hS hx⟩ R hR

/-- C49 under Slater's condition. -/
theorem C49_cons_converges_slater [FiniteDimensional ℝ E] [NeZero m] (hF : ∀ i, (F i).Convex) (hf : ∀ i, ProxExact (fs i) (F i)) (hτ : 0 < τ) (x0 : E) (mx : E → ℝ)
    (hmx : ∀ v, 0 ≤ mx v) (hS : SlaterSum F) (hmin : ∃ x, (sumObj F).IsMin x) (R : ℕ → ConsState E m) (hR : ∀ n, ConsensusADMM fs x0 τ n 0 mx = .ok (R n)) :
    ∃ x, (sumObj F).IsMin x ∧ Tendsto (fun n => (R n).xbar) atTop (𝓝 x) := by
  have : ProperSpace E := FiniteDimensional.proper_real E
  obtain ⟨x, hx⟩ := hmin
  exact C49_cons_converges hF hf hτ x0 mx hmx ⟨x, slater_certified_sum hF hS hx⟩ R hR

end sums

/-- Functions that are finite everywhere meet Slater's condition, whatever the other one is. -/
example (F : XFun E) (φ : E → ℝ) {x : E} (hx : x ∈ F.dom) : Slater F (XFun.ofReal φ) :=
  ⟨x, Or.inl ⟨hx, by simp [XFun.ofReal]⟩⟩

/-- So do two boxes with overlapping interiors: `[0, 2]` and `[1, 3]`. -/
example : Slater (XFun.indicator (Set.Icc (0 : ℝ) 2)) (XFun.indicator (Set.Icc (1 : ℝ) 3)) :=
  ⟨3 / 2, Or.inl ⟨by constructor <;> norm_num, by show _ ∈ interior (Set.Icc (1 : ℝ) 3); rw [interior_Icc]; constructor <;> norm_num⟩⟩

end Verif
