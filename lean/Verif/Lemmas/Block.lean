import Verif.Lemmas.Prox
import Mathlib.Analysis.InnerProductSpace.PiL2

/-! Separable functions: the proximal map acts block by block. -/

open scoped RealInnerProductSpace

set_option linter.unusedSectionVars false

namespace Verif

variable {E : Type*} [NormedAddCommGroup E] [InnerProductSpace ℝ E]
variable {κ : Type*} [Fintype κ] {β : κ → Type*} [∀ j, NormedAddCommGroup (β j)] [∀ j, InnerProductSpace ℝ (β j)]

lemma block_isProx (π : ∀ j, E →ₗ[ℝ] β j) (hπ : ∀ x, ‖x‖ ^ 2 = ∑ j, ‖π j x‖ ^ 2)
    (φ : ∀ j, XFun (β j)) (F : XFun E)
    (hdom : ∀ y, y ∈ F.dom ↔ ∀ j, π j y ∈ (φ j).dom)
    (hval : ∀ y ∈ F.dom, F.val y = ∑ j, (φ j).val (π j y)) {τ : ℝ} {x p : E}
    (h : ∀ j, IsProx (φ j) τ (π j x) (π j p)) : IsProx F τ x p := by
  have obj : ∀ y ∈ F.dom, proxObj F τ x y = ∑ j, proxObj (φ j) τ (π j x) (π j y) := by
    intro y hy
    unfold proxObj
    rw [hval y hy, hπ, Finset.sum_div, ← Finset.sum_add_distrib]
    simp only [map_sub]
  have hp : p ∈ F.dom := (hdom p).2 fun j => (h j).1
  refine ⟨hp, fun y hy => ?_⟩
  rw [obj p hp, obj y hy]
  exact Finset.sum_le_sum fun j _ => (h j).2 _ ((hdom y).1 hy j)

lemma block_isUniqueProx (π : ∀ j, E →ₗ[ℝ] β j) (hπ : ∀ x, ‖x‖ ^ 2 = ∑ j, ‖π j x‖ ^ 2)
    (φ : ∀ j, XFun (β j)) (F : XFun E)
    (hdom : ∀ y, y ∈ F.dom ↔ ∀ j, π j y ∈ (φ j).dom)
    (hval : ∀ y ∈ F.dom, F.val y = ∑ j, (φ j).val (π j y)) {τ : ℝ} {x p : E}
    (h : ∀ j, IsUniqueProx (φ j) τ (π j x) (π j p)) : IsUniqueProx F τ x p := by
  have obj : ∀ y ∈ F.dom, proxObj F τ x y = ∑ j, proxObj (φ j) τ (π j x) (π j y) := by
    intro y hy
    unfold proxObj
    rw [hval y hy, hπ, Finset.sum_div, ← Finset.sum_add_distrib]
    simp only [map_sub]
  have hP := block_isProx π hπ φ F hdom hval (fun j => (h j).1)
  refine ⟨hP, fun q hq => ?_⟩
  have hle : ∀ j ∈ Finset.univ, proxObj (φ j) τ (π j x) (π j p) ≤ proxObj (φ j) τ (π j x) (π j q) :=
    fun j _ => (h j).1.2 _ ((hdom q).1 hq.1 j)
  have heq : ∑ j, proxObj (φ j) τ (π j x) (π j p) = ∑ j, proxObj (φ j) τ (π j x) (π j q) := by
    rw [← obj p hP.1, ← obj q hq.1]
    exact le_antisymm (hP.2 q hq.1) (hq.2 p hP.1)
  have hj := (Finset.sum_eq_sum_iff_of_le hle).1 heq
  have hcoord : ∀ j, π j q = π j p := fun j => by
    apply (h j).2
    refine ⟨(hdom q).1 hq.1 j, fun y hy => ?_⟩
    rw [← hj j (Finset.mem_univ j)]
    exact (h j).1.2 y hy
  have : ‖q - p‖ ^ 2 = 0 := by
    rw [hπ]
    exact Finset.sum_eq_zero fun j _ => by rw [map_sub, hcoord j]; simp
  have h0 : ‖q - p‖ = 0 := by simpa using this
  exact sub_eq_zero.1 (norm_eq_zero.1 h0)

/-- Coordinates of an array as linear maps. -/
noncomputable def coordMap {ι : Type*} [Fintype ι] (i : ι) : EuclideanSpace ℝ ι →ₗ[ℝ] ℝ where
  toFun x := x i
  map_add' _ _ := rfl
  map_smul' _ _ := rfl

lemma coord_norm_sq {ι : Type*} [Fintype ι] (x : EuclideanSpace ℝ ι) :
    ‖x‖ ^ 2 = ∑ i, ‖coordMap i x‖ ^ 2 := by
  rw [EuclideanSpace.norm_sq_eq]; rfl

/-- Elementwise version. -/
lemma sep_isProx {ι : Type*} [Fintype ι] (φ : ι → XFun ℝ) (F : XFun (EuclideanSpace ℝ ι))
    (hdom : ∀ y, y ∈ F.dom ↔ ∀ j, y j ∈ (φ j).dom)
    (hval : ∀ y ∈ F.dom, F.val y = ∑ j, (φ j).val (y j)) {τ : ℝ} {x p : EuclideanSpace ℝ ι}
    (h : ∀ j, IsProx (φ j) τ (x j) (p j)) : IsProx F τ x p :=
  block_isProx coordMap coord_norm_sq φ F hdom hval h

lemma sep_isUniqueProx {ι : Type*} [Fintype ι] (φ : ι → XFun ℝ) (F : XFun (EuclideanSpace ℝ ι))
    (hdom : ∀ y, y ∈ F.dom ↔ ∀ j, y j ∈ (φ j).dom)
    (hval : ∀ y ∈ F.dom, F.val y = ∑ j, (φ j).val (y j)) {τ : ℝ} {x p : EuclideanSpace ℝ ι}
    (h : ∀ j, IsUniqueProx (φ j) τ (x j) (p j)) : IsUniqueProx F τ x p :=
  block_isUniqueProx coordMap coord_norm_sq φ F hdom hval h

lemma sep_isProx_real {ι : Type*} [Fintype ι] (φ : ι → ℝ → ℝ) (f : EuclideanSpace ℝ ι → ℝ)
    (hval : ∀ y, f y = ∑ j, φ j (y j)) {τ : ℝ} {x p : EuclideanSpace ℝ ι}
    (h : ∀ j, IsProx (XFun.ofReal (φ j)) τ (x j) (p j)) : IsProx (XFun.ofReal f) τ x p :=
  sep_isProx (fun j => XFun.ofReal (φ j)) (XFun.ofReal f) (fun _ => ⟨fun _ _ => trivial, fun _ => trivial⟩)
    (fun y _ => hval y) h

lemma sep_isUniqueProx_real {ι : Type*} [Fintype ι] (φ : ι → ℝ → ℝ) (f : EuclideanSpace ℝ ι → ℝ)
    (hval : ∀ y, f y = ∑ j, φ j (y j)) {τ : ℝ} {x p : EuclideanSpace ℝ ι}
    (h : ∀ j, IsUniqueProx (XFun.ofReal (φ j)) τ (x j) (p j)) : IsUniqueProx (XFun.ofReal f) τ x p :=
  sep_isUniqueProx (fun j => XFun.ofReal (φ j)) (XFun.ofReal f) (fun _ => ⟨fun _ _ => trivial, fun _ => trivial⟩)
    (fun y _ => hval y) h

/-- Columns of a matrix as linear maps. -/
noncomputable def colMap {ι κ : Type*} [Fintype ι] [Fintype κ] (j : κ) :
    EuclideanSpace ℝ (ι × κ) →ₗ[ℝ] EuclideanSpace ℝ ι where
  toFun x := WithLp.toLp 2 fun i => x (i, j)
  map_add' _ _ := rfl
  map_smul' _ _ := rfl

@[simp] lemma colMap_apply {ι κ : Type*} [Fintype ι] [Fintype κ] (j : κ) (x : EuclideanSpace ℝ (ι × κ)) (i : ι) :
    colMap j x i = x (i, j) := rfl

lemma col_norm_sq {ι κ : Type*} [Fintype ι] [Fintype κ] (x : EuclideanSpace ℝ (ι × κ)) :
    ‖x‖ ^ 2 = ∑ j, ‖colMap j x‖ ^ 2 := by
  simp only [EuclideanSpace.norm_sq_eq, colMap_apply]
  rw [Fintype.sum_prod_type_right]

lemma cols_isUniqueProx_real {ι κ : Type*} [Fintype ι] [Fintype κ] (φ : κ → EuclideanSpace ℝ ι → ℝ)
    (f : EuclideanSpace ℝ (ι × κ) → ℝ)
    (hval : ∀ y, f y = ∑ j, φ j (colMap j y)) {τ : ℝ} {x p : EuclideanSpace ℝ (ι × κ)}
    (h : ∀ j, IsUniqueProx (XFun.ofReal (φ j)) τ (colMap j x) (colMap j p)) : IsUniqueProx (XFun.ofReal f) τ x p := by
  have := block_isUniqueProx (β := fun _ : κ => EuclideanSpace ℝ ι)
    (fun j => (colMap j : EuclideanSpace ℝ (ι × κ) →ₗ[ℝ] EuclideanSpace ℝ ι)) col_norm_sq
    (fun j => XFun.ofReal (φ j)) (XFun.ofReal f) (τ := τ) (x := x) (p := p)
  exact this (fun _ => ⟨fun _ _ => trivial, fun _ => trivial⟩) (fun y _ => hval y) h

lemma inner_real (a b : ℝ) : ⟪a, b⟫ = a * b := by
  simp only [RCLike.inner_apply, conj_trivial]; ring

/-- One-dimensional sub-gradient certificate. -/
lemma scalar_isUniqueProx {φ : XFun ℝ} {τ : ℝ} (hτ : 0 < τ) {x p : ℝ} (hp : p ∈ φ.dom)
    (h : ∀ y ∈ φ.dom, φ.val p + (x - p) / τ * (y - p) ≤ φ.val y) : IsUniqueProx φ τ x p := by
  apply isUniqueProx_of_subgrad hτ
  refine ⟨hp, fun y hy => ?_⟩
  have := h y hy
  have e : ⟪(1 / τ) • (x - p), y - p⟫ = (x - p) / τ * (y - p) := by
    rw [real_inner_smul_left, inner_real]; ring
  rw [e]; exact this

end Verif
