import Verif.Model.Segment
import Verif.Props.Slater
import Verif.Props.Calculus
import Verif.Lemmas.Svd

/-! # C83: image segmentation -/

open scoped RealInnerProductSpace
open Filter Topology

set_option linter.unusedSectionVars false

namespace Verif

variable {A : Type} [Fintype A] [DecidableEq A] {n : A → ℕ} {m : ℕ} {β : Type} [Fintype β]

/-! ## Specification -/

/-- Class probabilities of every pixel, in the layout of the first result (pixels times classes). -/
def probImages (n : A → ℕ) (m : ℕ) : Set (Vec (Pixel n × Fin (m + 1))) := {x | ∀ p, (∀ k, 0 ≤ x (p, k)) ∧ ∑ k, x (p, k) = 1}

/-- The same in the layout of the arrays handed to the solver (classes times pixels), on which `Simplex` projects. -/
def simplexImages (n : A → ℕ) (m : ℕ) : Set (Vec (Fin (m + 1) × Pixel n)) := {x | ∀ p, (∀ k, 0 ≤ x (k, p)) ∧ ∑ k, x (k, p) = 1}

/-- The documented objective: `sigma/2 <x, f> + <x, z> + alpha/2 ‖∇x‖_{2,1}` over the class probabilities, with `f_k = (y - c_k)²/s_k`. -/
noncomputable def segObj (y : Vec (Pixel n)) (cl : Fin (m + 1) → ℝ) (σ α : ℝ) (s : Fin (m + 1) → ℝ) (z : Fin (m + 1) → Pixel n → ℝ) : XFun (Vec (Pixel n × Fin (m + 1))) where
  dom := probImages n m
  val x := σ / 2 * (∑ p, ∑ k, x (p, k) * ((y p - cl k) ^ 2 / s k)) + ∑ p, ∑ k, x (p, k) * z k p +
    α / 2 * ∑ k, ∑ p, √(∑ a, fwdDiff (fun q => x (q, k)) a p ^ 2)

/-! ## Stacks of one operator -/

lemma hstackBlocks_ok {ncl : ℕ} {r : Fin ncl → Py (Vec β)} {v : Fin ncl → Vec β} (h : ∀ k, r k = .ok (v k)) : hstackBlocks r = .ok (vmk fun q => v q.1 q.2) := by
  have e : ((List.finRange ncl).findSome? fun k => blockErr (r k)) = none := by
    rw [List.findSome?_eq_none_iff]
    intro k _
    rw [h k]; rfl
  rw [hstackBlocks, e]
  simp only [h, blockVal]

/-- `segBlock` as a linear map. -/
noncomputable def segBlockMap {ncl : ℕ} (k : Fin ncl) : Vec (Fin ncl × β) →ₗ[ℝ] Vec β where
  toFun x := segBlock x k
  map_add' _ _ := rfl
  map_smul' _ _ := rfl

lemma segBlock_norm_sq {ncl : ℕ} (x : Vec (Fin ncl × β)) : ‖x‖ ^ 2 = ∑ k, ‖segBlockMap k x‖ ^ 2 := by
  simp only [EuclideanSpace.norm_sq_eq]
  rw [Fintype.sum_prod_type]
  rfl

lemma vstackSame_exact {op : ProxOp (Vec β)} {φ : Vec β → ℝ} (ncl : ℕ) (h : ProxExact op (XFun.ofReal φ)) :
    ProxExact (VStackSame op ncl) (XFun.ofReal fun x => ∑ k, φ (segBlock x k)) := by
  intro x τ hτ
  choose p hp1 hp2 using fun k => h (segBlock x k) τ hτ
  refine ⟨_, (checkTau_pos hτ _).trans (hstackBlocks_ok hp1), ?_⟩
  exact block_isProx (β := fun _ => Vec β) segBlockMap segBlock_norm_sq (fun _ => XFun.ofReal φ) (XFun.ofReal fun x => ∑ k, φ (segBlock x k)) (fun _ => ⟨fun _ _ => trivial, fun _ => trivial⟩) (fun _ _ => rfl) fun k => hp2 k

/-- `‖·‖_{2,1}` of one class. -/
noncomputable def l21Norm {ι κ : Type} [Fintype ι] [Fintype κ] (x : Vec (ι × κ)) : ℝ := ∑ j, √(∑ i, x (i, j) ^ 2)

lemma l21_exact {ι κ : Type} [Fintype ι] [Fintype κ] {σ : ℝ} (hσ : 0 < σ) : ProxExact (L21 σ) (XFun.ofReal fun y : Vec (ι × κ) => σ * l21Norm y) := fun x τ hτ => by
  obtain ⟨p, h1, h2, -⟩ := C13_l21_prox σ hσ x τ hτ
  exact ⟨p, h1, h2.1⟩

lemma l21Norm_eq {ι κ : Type} [Fintype ι] [Fintype κ] (x : Vec (ι × κ)) : l21Norm x = ∑ j, ‖colMap j x‖ :=
  Finset.sum_congr rfl fun j _ => by rw [EuclideanSpace.norm_eq]; simp

/-- The regulariser as the function of the gradient that `l21` stands for. -/
noncomputable def segReg (α : ℝ) (ncl : ℕ) (κ : Type) [Fintype κ] : XFun (Vec (Fin ncl × (A × κ))) := XFun.ofReal fun y => ∑ k, 1 / 2 * α * l21Norm (segBlock y k)

lemma segReg_convex {α : ℝ} (hα : 0 < α) (ncl : ℕ) (κ : Type) [Fintype κ] : (segReg (A := A) α ncl κ).Convex := by
  refine ⟨convex_univ, fun x _ y _ a b ha hb hab => ?_⟩
  show ∑ k, 1 / 2 * α * l21Norm (segBlock (a • x + b • y) k) ≤ a * ∑ k, 1 / 2 * α * l21Norm (segBlock x k) + b * ∑ k, 1 / 2 * α * l21Norm (segBlock y k)
  rw [Finset.mul_sum, Finset.mul_sum, ← Finset.sum_add_distrib]
  refine Finset.sum_le_sum fun k _ => ?_
  have e : segBlock (a • x + b • y) k = a • segBlock x k + b • segBlock y k := rfl
  have h : l21Norm (a • segBlock x k + b • segBlock y k) ≤ a * l21Norm (segBlock x k) + b * l21Norm (segBlock y k) := by
    simp only [l21Norm_eq, map_add, map_smul]
    rw [Finset.mul_sum, Finset.mul_sum, ← Finset.sum_add_distrib]
    refine Finset.sum_le_sum fun j _ => (norm_add_le _ _).trans ?_
    rw [norm_smul, norm_smul, Real.norm_of_nonneg ha, Real.norm_of_nonneg hb]
  rw [e]
  have := mul_le_mul_of_nonneg_left h (by positivity : 0 ≤ 1 / 2 * α)
  linarith

lemma simplexImages_convex : (XFun.indicator (simplexImages n m)).Convex := by
  refine ⟨fun x hx y hy a b ha hb hab p => ⟨fun k => ?_, ?_⟩, fun x _ y _ a b _ _ _ => by simp [XFun.indicator]⟩
  · have h1 := (hx p).1 k
    have h2 := (hy p).1 k
    show 0 ≤ a * x (k, p) + b * y (k, p)
    positivity
  · show ∑ k, (a * x (k, p) + b * y (k, p)) = 1
    rw [Finset.sum_add_distrib, ← Finset.mul_sum, ← Finset.mul_sum, (hx p).2, (hy p).2, mul_one, mul_one, hab]

/-! ## The gradient -/

/-- The norm of the gradient: each axis contributes at most 4. -/
lemma fwdDiff_sq_sum (x : Pixel n → ℝ) (a : A) : ∑ p, fwdDiff x a p ^ 2 ≤ 4 * ∑ p, x p ^ 2 := by
  classical
  let S : Finset (Pixel n) := Finset.univ.filter fun p => (p a : ℕ) + 1 < n a
  let nx : Pixel n → Pixel n := fun p => if h : (p a : ℕ) + 1 < n a then Function.update p a ⟨p a + 1, h⟩ else p
  have h1 : ∀ p, fwdDiff x a p ^ 2 ≤ if p ∈ S then 2 * x (nx p) ^ 2 + 2 * x p ^ 2 else 0 := fun p => by
    by_cases h : (p a : ℕ) + 1 < n a
    · have hS : p ∈ S := by simp [S, h]
      simp only [fwdDiff, nx, h, dif_pos, hS, if_true]
      nlinarith [sq_nonneg (x (Function.update p a ⟨p a + 1, h⟩) + x p)]
    · have hS : p ∉ S := by simp [S, h]
      simp [fwdDiff, h, hS]
  have hinj : Set.InjOn nx S := by
    intro p hp q hq hpq
    have hp' : (p a : ℕ) + 1 < n a := by simpa [S] using hp
    have hq' : (q a : ℕ) + 1 < n a := by simpa [S] using hq
    simp only [nx, hp', hq', dif_pos] at hpq
    funext b
    have hb := congrFun hpq b
    by_cases hba : b = a
    · subst hba
      simp only [Function.update_self, Fin.mk.injEq] at hb
      exact Fin.ext (by omega)
    · rwa [Function.update_of_ne hba, Function.update_of_ne hba] at hb
  have h2 : ∑ p ∈ S, x (nx p) ^ 2 ≤ ∑ p, x p ^ 2 := by
    rw [← Finset.sum_image (f := fun p => x p ^ 2) hinj]
    exact Finset.sum_le_sum_of_subset_of_nonneg (Finset.subset_univ _) fun _ _ _ => sq_nonneg _
  have h3 : ∑ p ∈ S, x p ^ 2 ≤ ∑ p, x p ^ 2 := Finset.sum_le_sum_of_subset_of_nonneg (Finset.subset_univ _) fun _ _ _ => sq_nonneg _
  calc ∑ p, fwdDiff x a p ^ 2 ≤ ∑ p, if p ∈ S then 2 * x (nx p) ^ 2 + 2 * x p ^ 2 else 0 := Finset.sum_le_sum fun p _ => h1 p
    _ = ∑ p ∈ S, (2 * x (nx p) ^ 2 + 2 * x p ^ 2) := by rw [Finset.sum_ite_mem, Finset.univ_inter]
    _ = 2 * ∑ p ∈ S, x (nx p) ^ 2 + 2 * ∑ p ∈ S, x p ^ 2 := by rw [Finset.sum_add_distrib, Finset.mul_sum, Finset.mul_sum]
    _ ≤ _ := by linarith

lemma segGrad_norm_sq {ncl : ℕ} (x : Vec (Fin ncl × Pixel n)) : ‖(segGrad n ncl).matvec x‖ ^ 2 ≤ 4 * Fintype.card A * ‖x‖ ^ 2 := by
  simp only [EuclideanSpace.norm_sq_eq, Real.norm_eq_abs, sq_abs]
  rw [Fintype.sum_prod_type, Fintype.sum_prod_type, Finset.mul_sum]
  refine Finset.sum_le_sum fun k _ => ?_
  rw [Fintype.sum_prod_type]
  calc ∑ a, ∑ p, ((segGrad n ncl).matvec x) (k, a, p) ^ 2 ≤ ∑ _a : A, 4 * ∑ p, x (k, p) ^ 2 :=
        Finset.sum_le_sum fun a _ => fwdDiff_sq_sum (fun p => x (k, p)) a
    _ = _ := by rw [Finset.sum_const, Finset.card_univ, nsmul_eq_mul]; ring

lemma segGrad_bound {ncl : ℕ} (hA : Fintype.card A ≤ 2) (x : Vec (Fin ncl × Pixel n)) : ‖(segGrad n ncl).matvec x‖ ≤ √8 * ‖x‖ := by
  have h := segGrad_norm_sq x
  have h2 : (Fintype.card A : ℝ) ≤ 2 := by exact_mod_cast hA
  rw [← Real.sqrt_sq (norm_nonneg x), ← Real.sqrt_mul (by norm_num), ← Real.sqrt_sq (norm_nonneg ((segGrad n ncl).matvec x))]
  apply Real.sqrt_le_sqrt
  nlinarith [sq_nonneg ‖x‖]

/-! ## Results -/

/-- The transposition `x.reshape(ncl, dimsprod).T`. -/
noncomputable def segT (x : Vec (Fin (m + 1) × Pixel n)) : Vec (Pixel n × Fin (m + 1)) := vmk fun q => x (q.2, q.1)

lemma argmaxScan_spec (v : ℕ → ℝ) (k : ℕ) : (∀ j ≤ k, v j ≤ v (argmaxScan v k)) ∧ ∀ j < argmaxScan v k, v j < v (argmaxScan v k) := by
  induction k with
  | zero => exact ⟨fun j hj => by rw [Nat.le_zero.1 hj]; rfl, fun j hj => absurd hj (Nat.not_lt_zero _)⟩
  | succ k ih =>
    simp only [argmaxScan]
    split
    · rename_i h
      refine ⟨fun j hj => ?_, fun j hj => lt_of_le_of_lt (ih.1 j (by omega)) h⟩
      rcases Nat.lt_or_eq_of_le hj with hj | rfl
      · exact (ih.1 j (by omega)).trans h.le
      · exact le_refl _
    · rename_i h
      refine ⟨fun j hj => ?_, ih.2⟩
      rcases Nat.lt_or_eq_of_le hj with hj | rfl
      · exact ih.1 j (by omega)
      · exact not_lt.1 h

lemma segArgmax_spec (v : Fin (m + 1) → ℝ) : (∀ k, v k ≤ v (segArgmax v)) ∧ ∀ k < segArgmax v, v k < v (segArgmax v) := by
  have h := argmaxScan_spec (fun k => v (Fin.ofNat (m + 1) k)) m
  have e : ∀ k : Fin (m + 1), Fin.ofNat (m + 1) (k : ℕ) = k := fun k => Fin.ext (Nat.mod_eq_of_lt k.2)
  have e2 : Fin.ofNat (m + 1) (argmaxScan (fun k => v (Fin.ofNat (m + 1) k)) m) = segArgmax v := e (segArgmax v)
  simp only [e2] at h
  refine ⟨fun k => ?_, fun k hk => ?_⟩
  · have := h.1 k (by omega); rwa [e] at this
  · have := h.2 k hk; rwa [e] at this

/-- The weights `s` that `clsigmas` stands for. -/
def segWeights (clsigmas : Option (Fin (m + 1) → ℝ)) : Fin (m + 1) → ℝ := clsigmas.getD fun _ => 1

/-- The vector `z` of the objective that the argument stands for. -/
noncomputable def segExtra (z : Option (Vec (Fin (m + 1) × Pixel n))) : Fin (m + 1) → Pixel n → ℝ := fun k p => (z.getD 0) (k, p)

lemma segData_ok (y : Vec (Pixel n)) (cl : Fin (m + 1) → ℝ) (σ : ℝ) {clsigmas : Option (Fin (m + 1) → ℝ)} (hs : ∀ k, segWeights clsigmas k ≠ 0) :
    segData y cl σ clsigmas = .ok (vmk fun q => σ / 2 * (y q.2 - cl q.1) ^ 2 / segWeights clsigmas q.1) := by
  cases clsigmas with
  | none => simp [segData, segWeights]
  | some s =>
    have : ¬ ∃ k, s k = 0 := fun ⟨k, hk⟩ => hs k hk
    simp [segData, segWeights, this]

lemma segZ_apply (g : Vec (Fin (m + 1) × Pixel n)) (z : Option (Vec (Fin (m + 1) × Pixel n))) (q : Fin (m + 1) × Pixel n) :
    segZ g z q = g q + segExtra z q.1 q.2 := by
  cases z <;> simp [segZ, segExtra]

/-- The objective seen by the solver is the documented one. -/
lemma seg_objective (y : Vec (Pixel n)) (cl : Fin (m + 1) → ℝ) (σ α : ℝ) (s : Fin (m + 1) → ℝ) (z : Option (Vec (Fin (m + 1) × Pixel n))) (x : Vec (Fin (m + 1) × Pixel n)) :
    (compObj (XFun.indicator (simplexImages n m)) (segReg α (m + 1) (Pixel n)) (segGrad n (m + 1)).matvec
      (segZ (vmk fun q => σ / 2 * (y q.2 - cl q.1) ^ 2 / s q.1) z)).val x = (segObj y cl σ α s (segExtra z)).val (segT x) := by
  simp only [compObj, XFun.indicator, segReg, XFun.ofReal, segObj, zero_add]
  congr 1
  · rw [vec_inner, Fintype.sum_prod_type_right, Finset.mul_sum, ← Finset.sum_add_distrib]
    refine Finset.sum_congr rfl fun p _ => ?_
    rw [Finset.mul_sum, ← Finset.sum_add_distrib]
    refine Finset.sum_congr rfl fun k _ => ?_
    rw [segZ_apply]
    show (σ / 2 * (y p - cl k) ^ 2 / s k + segExtra z k p) * x (k, p) = σ / 2 * (x (k, p) * ((y p - cl k) ^ 2 / s k)) + x (k, p) * segExtra z k p
    ring
  · rw [Finset.mul_sum]
    refine Finset.sum_congr rfl fun k _ => ?_
    rw [one_div_mul_eq_div]
    rfl

lemma seg_dom (y : Vec (Pixel n)) (cl : Fin (m + 1) → ℝ) (σ α : ℝ) (s : Fin (m + 1) → ℝ) (z : Fin (m + 1) → Pixel n → ℝ) (x : Vec (Fin (m + 1) × Pixel n)) :
    segT x ∈ (segObj y cl σ α s z).dom ↔ x ∈ simplexImages n m := Iff.rfl

lemma seg_uniform : (vmk fun _ => 1 / ((m : ℝ) + 1)) ∈ simplexImages n m := fun p => ⟨fun k => by
  show 0 ≤ 1 / ((m : ℝ) + 1); positivity, by
  show ∑ _k : Fin (m + 1), 1 / ((m : ℝ) + 1) = 1
  rw [Finset.sum_const, Finset.card_univ, Fintype.card_fin, nsmul_eq_mul]
  push_cast
  field_simp⟩

lemma simplexImages_compact : IsCompact (simplexImages n m) := by
  apply Metric.isCompact_of_isClosed_isBounded
  · have : simplexImages n m = ⋂ p, ((⋂ k, {x | 0 ≤ x (k, p)}) ∩ {x | ∑ k, x (k, p) = 1}) := by
      ext x; simp [simplexImages]
    rw [this]
    refine isClosed_iInter fun p => IsClosed.inter (isClosed_iInter fun k => isClosed_le continuous_const (by fun_prop)) (isClosed_eq (by fun_prop) continuous_const)
  · rw [isBounded_iff_forall_norm_le]
    refine ⟨√(Fintype.card (Fin (m + 1) × Pixel n)), fun x hx => ?_⟩
    rw [EuclideanSpace.norm_eq]
    apply Real.sqrt_le_sqrt
    calc ∑ q, ‖x q‖ ^ 2 ≤ ∑ _q : Fin (m + 1) × Pixel n, (1 : ℝ) := Finset.sum_le_sum fun q _ => by
            have h0 := (hx q.2).1 q.1
            have h1 : x q ≤ 1 := by
              rw [← (hx q.2).2]
              exact Finset.single_le_sum (f := fun k => x (k, q.2)) (fun k _ => (hx q.2).1 k) (Finset.mem_univ q.1)
            rw [Real.norm_eq_abs, sq_abs]
            have h0' : 0 ≤ x q := h0
            nlinarith
      _ = _ := by simp

lemma seg_exists_min (α : ℝ) (z : Vec (Fin (m + 1) × Pixel n)) :
    ∃ x, (compObj (XFun.indicator (simplexImages n m)) (segReg α (m + 1) (Pixel n)) (segGrad n (m + 1)).matvec z).IsMin x := by
  have hc : Continuous (compObj (XFun.indicator (simplexImages n m)) (segReg α (m + 1) (Pixel n)) (segGrad n (m + 1)).matvec z).val := by
    have e : (compObj (XFun.indicator (simplexImages n m)) (segReg α (m + 1) (Pixel n)) (segGrad n (m + 1)).matvec z).val =
        fun x => 0 + ⟪z, x⟫ + ∑ k, 1 / 2 * α * ∑ j, ‖(colMap j ∘ₗ segBlockMap k ∘ₗ (segGrad n (m + 1)).matvec) x‖ := by
      funext x
      simp only [compObj, XFun.indicator, segReg, XFun.ofReal, l21Norm_eq]
      rfl
    rw [e]
    refine (continuous_const.add (continuous_const.inner continuous_id)).add (continuous_finsetSum _ fun k _ => continuous_const.mul (continuous_finsetSum _ fun j _ => ?_))
    exact (LinearMap.continuous_of_finiteDimensional _).norm
  obtain ⟨x, hx, hmin⟩ := simplexImages_compact.exists_isMinOn ⟨_, seg_uniform (n := n) (m := m)⟩ hc.continuousOn
  exact ⟨x, ⟨hx, trivial⟩, fun y hy => hmin hy.1⟩

lemma segTau_pos : 0 < segTau := one_pos

lemma segMu_eq : segMu = 1 / 8 := by simp [segMu, segTau]

lemma segMu_pos : 0 < segMu := by rw [segMu_eq]; norm_num

section main
variable {simp : ProxOp (Vec (Fin (m + 1) × Pixel n))} (hsimp : ProxExact simp (XFun.indicator (simplexImages n m)))
  (y : Vec (Pixel n)) (cl : Fin (m + 1) → ℝ) (σ : ℝ) {α : ℝ} (hα : 0 < α) {clsigmas : Option (Fin (m + 1) → ℝ)} (hs : ∀ k, segWeights clsigmas k ≠ 0)
  (z x0 : Option (Vec (Fin (m + 1) × Pixel n)))
include hsimp hα hs

/-- C83: after one or more iterations the first result holds, for every pixel, the probabilities of the classes, and the second the first of the most probable classes; for every number of axes,
shape, image, classes and starting vector. -/
theorem C83_segment_probabilities (niter : ℕ) (hn : 0 < niter) :
    ∃ X c, Segment simp y cl σ α clsigmas z niter x0 = .ok (X, c) ∧ X ∈ probImages n m ∧
      ∀ p, (∀ k, X (p, k) ≤ X (p, c p)) ∧ ∀ k < c p, X (p, k) < X (p, c p) := by
  have hg := vstackSame_exact (m + 1) (l21_exact (ι := A) (κ := Pixel n) (σ := 1 / 2 * α) (by positivity))
  have hd := C03_proxdual_conjugate _ _ (segReg_convex (A := A) hα (m + 1) (Pixel n)) rfl rfl hg
  obtain ⟨P, hP, hP'⟩ := proxExact_map hsimp segTau_pos
  obtain ⟨D, -, hD⟩ := proxdual_moreau (segReg_convex hα (m + 1) (Pixel n)) hg hd segMu_pos
  obtain ⟨X, Y, Xh, -, -, -, -, ht, -, h⟩ := pd_traj (A := segGrad n (m + 1)) hP hD (x0.getD 0) none (some (segZ (vmk fun q => σ / 2 * (y q.2 - cl q.1) ^ 2 / segWeights clsigmas q.1) z)) 1 true
  refine ⟨segT (X niter), fun p => segArgmax fun k => X niter (k, p), ?_, ?_, fun p => segArgmax_spec _⟩
  · rw [Segment, segData_ok y cl σ hs]
    show (PrimalDual _ _ _ _ _ _ _ _ _ _ _ >>= _) = _
    rw [h niter]
    rfl
  · obtain ⟨k, rfl⟩ := Nat.exists_eq_succ_of_ne_zero hn.ne'
    have := (ht rfl k).2
    show X (k + 1) ∈ simplexImages n m
    rw [this]
    exact (hP' _).1

/-- C83: on images with one or two axes the probabilities converge to a minimiser of the documented objective (partial: not for more axes, see the refutations). -/
theorem C83_segment_converges_partial (hA : Fintype.card A ≤ 2) :
    ∃ S : ℕ → Vec (Pixel n × Fin (m + 1)) × (Pixel n → Fin (m + 1)), (∀ N, Segment simp y cl σ α clsigmas z N x0 = .ok (S N)) ∧
      ∃ c, (segObj y cl σ α (segWeights clsigmas) (segExtra z)).IsMin c ∧ Tendsto (fun N => (S N).1) atTop (𝓝 c) := by
  have hg := vstackSame_exact (m + 1) (l21_exact (ι := A) (κ := Pixel n) (σ := 1 / 2 * α) (by positivity))
  have hd := C03_proxdual_conjugate _ _ (segReg_convex (A := A) hα (m + 1) (Pixel n)) rfl rfl hg
  obtain ⟨P, hP, hP'⟩ := proxExact_map hsimp segTau_pos
  obtain ⟨D, -, hD⟩ := proxdual_moreau (segReg_convex hα (m + 1) (Pixel n)) hg hd segMu_pos
  obtain ⟨X, Y, Xh, -, -, -, -, ht, -, h⟩ := pd_traj (A := segGrad n (m + 1)) hP hD (x0.getD 0) none (some (segZ (vmk fun q => σ / 2 * (y q.2 - cl q.1) ^ 2 / segWeights clsigmas q.1) z)) 1 true
  refine ⟨fun N => (segT (X N), fun p => segArgmax fun k => X N (k, p)), fun N => ?_, ?_⟩
  · rw [Segment, segData_ok y cl σ hs]
    show (PrimalDual _ _ _ _ _ _ _ _ _ _ _ >>= _) = _
    rw [h N]
    rfl
  · obtain ⟨c, -, -, hc, hlim, -⟩ := C50_pd_converges_slater (K := √8) simplexImages_convex (segReg_convex hα (m + 1) (Pixel n)) hsimp hg hd segTau_pos
      segMu_pos (by positivity) (segGrad_bound hA) (by rw [Real.sq_sqrt (by norm_num), segMu_eq, segTau]; norm_num)
      (some (segZ (vmk fun q => σ / 2 * (y q.2 - cl q.1) ^ 2 / segWeights clsigmas q.1) z)) true (x0.getD 0) none
      ⟨_, seg_uniform, by simp [segReg, XFun.ofReal]⟩ (seg_exists_min α _) _ h
    refine ⟨segT c, ⟨hc.1.1, fun v hv => ?_⟩, ?_⟩
    · have := hc.2 (vmk fun q => v (q.2, q.1)) ⟨hv, trivial⟩
      simp only [Option.getD_some, seg_objective] at this
      exact this
    · have hcont : Continuous (segT (n := n) (m := m)) := by unfold segT vmk; fun_prop
      exact (hcont.tendsto c).comp hlim

end main

/-! ## More than two axes -/

/-- The checkerboard. -/
noncomputable def chk (p : Pixel n) : ℝ := (-1) ^ (∑ a, (p a : ℕ))

lemma chk_next (p : Pixel n) (a : A) (h : (p a : ℕ) + 1 < n a) : chk (Function.update p a ⟨p a + 1, h⟩) = -chk p := by
  have e : ∑ b, ((Function.update p a ⟨p a + 1, h⟩ : Pixel n) b : ℕ) = ∑ b, (p b : ℕ) + 1 := by
    rw [← Finset.add_sum_erase _ _ (Finset.mem_univ a), ← Finset.add_sum_erase (a := a) _ (fun b => (p b : ℕ)) (Finset.mem_univ _), Function.update_self]
    rw [Finset.sum_congr rfl fun b hb => by rw [Function.update_of_ne (Finset.ne_of_mem_erase hb)]]
    ring
  rw [chk, e, pow_succ, chk]; ring

lemma chk_sq (p : Pixel n) : chk p ^ 2 = 1 := by
  rw [chk, ← pow_mul, mul_comm, pow_mul]; norm_num

lemma chk_mul_self (p : Pixel n) : chk p * chk p = 1 := by rw [← sq, chk_sq]

lemma fwdDiff_chk (p : Pixel n) (a : A) (c : ℝ) : fwdDiff (fun p => c * chk p) a p = if (p a : ℕ) + 1 < n a then -(2 * c * chk p) else 0 := by
  unfold fwdDiff
  split
  · rename_i h
    simp only [chk_next p a h]
    ring
  · rfl

/-- Along an axis of length `n a`, all pixels but one in `n a` have a successor. -/
lemma succ_count (a : A) : (n a : ℝ) * (∑ p : Pixel n, if (p a : ℕ) + 1 < n a then (1 : ℝ) else 0) = (n a - 1 : ℝ) * Fintype.card (Pixel n) ∨ n a = 0 := by
  by_cases hna : n a = 0
  · exact Or.inr hna
  refine Or.inl ?_
  have key : ∀ φ : Fin (n a) → ℝ, ∑ p : Pixel n, φ (p a) = (∑ j, φ j) * ∏ b ∈ Finset.univ.erase a, (n b : ℝ) := fun φ => by
    let f : (b : A) → Fin (n b) → ℝ := fun b j => if h : b = a then φ (h ▸ j) else 1
    have h1 := Finset.prod_univ_sum (fun b : A => (Finset.univ : Finset (Fin (n b)))) f
    rw [Fintype.piFinset_univ] at h1
    have h2 : ∀ p : Pixel n, ∏ b, f b (p b) = φ (p a) := fun p => by
      rw [Finset.prod_eq_single a]
      · simp [f]
      · intro b _ hb; simp [f, hb]
      · simp
    simp only [h2] at h1
    rw [← h1, ← Finset.mul_prod_erase _ _ (Finset.mem_univ a)]
    congr 1
    · simp [f]
    · refine Finset.prod_congr rfl fun b hb => ?_
      simp [f, Finset.ne_of_mem_erase hb]
  have hcard : (Fintype.card (Pixel n) : ℝ) = (n a : ℝ) * ∏ b ∈ Finset.univ.erase a, (n b : ℝ) := by
    have := key fun _ => 1
    simpa using this
  have hs : ∑ j : Fin (n a), (if (j : ℕ) + 1 < n a then (1 : ℝ) else 0) = n a - 1 := by
    obtain ⟨k, hk⟩ := Nat.exists_eq_succ_of_ne_zero hna
    rw [Finset.sum_boole]
    have e : (Finset.univ.filter fun j : Fin (n a) => (j : ℕ) + 1 < n a).card = k := by
      have := Fin.card_filter_val_lt (n := n a) (m := k)
      rw [Finset.filter_congr (q := fun j : Fin (n a) => (j : ℕ) < k) fun j _ => by omega]
      rw [this]; omega
    rw [e, hk]; push_cast; ring
  have := key fun j => if (j : ℕ) + 1 < n a then 1 else 0
  rw [this, hs, hcard]; ring

/-- C83: on images with three or more axes, of length four or more, the steps break the condition `tau * mu * λ_max(A^H A) < 1` documented by `PrimalDual`: there is an image of norm one whose
gradient has a squared norm above `1 / (tau * mu)`. -/
theorem C83_segment_steps_refuted (hA : 3 ≤ Fintype.card A) (hn : ∀ a, 4 ≤ n a) :
    ∃ v : Vec (Fin (m + 1) × Pixel n), v ≠ 0 ∧ ‖v‖ ^ 2 < segTau * segMu * ‖(segGrad n (m + 1)).matvec v‖ ^ 2 := by
  let v : Vec (Fin (m + 1) × Pixel n) := vmk fun q => 1 * chk q.2
  have hN : (0 : ℝ) < Fintype.card (Pixel n) := by
    have : Nonempty (Pixel n) := ⟨fun a => ⟨0, by have := hn a; omega⟩⟩
    exact_mod_cast Fintype.card_pos
  have h1 : ‖v‖ ^ 2 = (m + 1) * Fintype.card (Pixel n) := by
    simp only [EuclideanSpace.norm_sq_eq, Real.norm_eq_abs, sq_abs]
    rw [Fintype.sum_prod_type]
    have : ∀ (k : Fin (m + 1)) (p : Pixel n), v (k, p) ^ 2 = 1 := fun k p => by
      show (1 * chk p) ^ 2 = 1; rw [one_mul, chk_sq]
    simp only [this]; simp
  have h2 : ‖(segGrad n (m + 1)).matvec v‖ ^ 2 = (m + 1) * ∑ a, ∑ p : Pixel n, (if (p a : ℕ) + 1 < n a then 4 else 0 : ℝ) := by
    simp only [EuclideanSpace.norm_sq_eq, Real.norm_eq_abs, sq_abs]
    rw [Fintype.sum_prod_type]
    have : ∀ (k : Fin (m + 1)) (q : A × Pixel n), (segGrad n (m + 1)).matvec v (k, q) ^ 2 = if (q.2 q.1 : ℕ) + 1 < n q.1 then 4 else 0 := fun k q => by
      show fwdDiff (fun p => 1 * chk p) q.1 q.2 ^ 2 = _
      rw [fwdDiff_chk]
      split
      · have := chk_sq q.2; nlinarith
      · norm_num
    simp only [this, Fintype.sum_prod_type]
    simp
  have h3 : ∀ a, 3 * (Fintype.card (Pixel n) : ℝ) ≤ ∑ p : Pixel n, (if (p a : ℕ) + 1 < n a then 4 else 0 : ℝ) := fun a => by
    have hna : (4 : ℝ) ≤ n a := by exact_mod_cast hn a
    have h := (succ_count (n := n) a).resolve_right fun h0 => by have := hn a; omega
    have e : (∑ p : Pixel n, (if (p a : ℕ) + 1 < n a then 4 else 0 : ℝ)) = 4 * ∑ p : Pixel n, (if (p a : ℕ) + 1 < n a then 1 else 0 : ℝ) := by
      rw [Finset.mul_sum]; exact Finset.sum_congr rfl fun p _ => by split <;> norm_num
    rw [e]
    have h4 : (n a : ℝ) * (3 * (Fintype.card (Pixel n) : ℝ)) ≤ n a * (4 * ∑ p : Pixel n, (if (p a : ℕ) + 1 < n a then 1 else 0 : ℝ)) := by
      rw [mul_left_comm (n a : ℝ) 4, h]; nlinarith
    exact le_of_mul_le_mul_left h4 (by linarith)
  have h5 : 9 * (Fintype.card (Pixel n) : ℝ) ≤ ∑ a, ∑ p : Pixel n, (if (p a : ℕ) + 1 < n a then 4 else 0 : ℝ) := by
    calc 9 * (Fintype.card (Pixel n) : ℝ) ≤ ∑ _a : A, 3 * (Fintype.card (Pixel n) : ℝ) := by
          rw [Finset.sum_const, Finset.card_univ, nsmul_eq_mul]
          have : (3 : ℝ) ≤ Fintype.card A := by exact_mod_cast hA
          nlinarith
      _ ≤ _ := Finset.sum_le_sum fun a _ => h3 a
  have h6 : ‖v‖ ^ 2 < segTau * segMu * ‖(segGrad n (m + 1)).matvec v‖ ^ 2 := by
    rw [h1, h2, segMu_eq, segTau]
    have hm : (0 : ℝ) < m + 1 := by positivity
    nlinarith [mul_le_mul_of_nonneg_left h5 hm.le, mul_pos hm hN]
  refine ⟨v, fun h => ?_, h6⟩
  rw [h, map_zero, norm_zero, norm_zero] at h6
  norm_num at h6

/-- The sum over all neighbours along an axis counts every pixel at least once. -/
lemma edge_sum_ge (h : Pixel n → ℝ) (h0 : ∀ p, 0 ≤ h p) (a : A) (hn : 2 ≤ n a) :
    ∑ p, h p ≤ ∑ p, if hp : (p a : ℕ) + 1 < n a then h p + h (Function.update p a ⟨p a + 1, hp⟩) else 0 := by
  classical
  let S : Finset (Pixel n) := Finset.univ.filter fun p => (p a : ℕ) + 1 < n a
  let nx : Pixel n → Pixel n := fun p => if h : (p a : ℕ) + 1 < n a then Function.update p a ⟨p a + 1, h⟩ else p
  have hinj : Set.InjOn nx S := by
    intro p hp q hq hpq
    have hp' : (p a : ℕ) + 1 < n a := by simpa [S] using hp
    have hq' : (q a : ℕ) + 1 < n a := by simpa [S] using hq
    simp only [nx, hp', hq', dif_pos] at hpq
    funext b
    have hb := congrFun hpq b
    by_cases hba : b = a
    · subst hba
      simp only [Function.update_self, Fin.mk.injEq] at hb
      exact Fin.ext (by omega)
    · rwa [Function.update_of_ne hba, Function.update_of_ne hba] at hb
  have h1 : ∑ p ∈ Sᶜ, h p ≤ ∑ p ∈ S, h (nx p) := by
    rw [← Finset.sum_image (f := h) hinj]
    refine Finset.sum_le_sum_of_subset_of_nonneg (fun p hp => ?_) fun _ _ _ => h0 _
    have hp' : ¬ (p a : ℕ) + 1 < n a := by simpa [S] using hp
    have hlt : (p a : ℕ) - 1 < n a := by have := (p a).2; omega
    have hq : ((Function.update p a ⟨p a - 1, hlt⟩ : Pixel n) a : ℕ) + 1 < n a := by
      rw [Function.update_self]; show (p a : ℕ) - 1 + 1 < n a; have := (p a).2; omega
    refine Finset.mem_image.2 ⟨Function.update p a ⟨p a - 1, hlt⟩, by simpa [S] using hq, ?_⟩
    simp only [nx, hq, dif_pos]
    rw [Function.update_idem]
    conv_rhs => rw [← Function.update_eq_self a p]
    congr 1
    apply Fin.ext
    show ((Function.update p a ⟨p a - 1, hlt⟩ : Pixel n) a : ℕ) + 1 = p a
    rw [Function.update_self]; show (p a : ℕ) - 1 + 1 = p a; omega
  have h2 : ∑ p, (if hp : (p a : ℕ) + 1 < n a then h p + h (Function.update p a ⟨p a + 1, hp⟩) else 0) = ∑ p ∈ S, (h p + h (nx p)) := by
    rw [Finset.sum_filter]
    refine Finset.sum_congr rfl fun p _ => ?_
    by_cases hp : (p a : ℕ) + 1 < n a
    · simp [hp, nx]
    · simp [hp]
  rw [h2, Finset.sum_add_distrib, ← Finset.sum_add_sum_compl S]
  linarith

/-- `(-1)^k` times the checkerboard. -/
noncomputable def chk2 (n : A → ℕ) : Vec (Fin 2 × Pixel n) := vmk fun q => (-1) ^ (q.1 : ℕ) * chk q.2

/-- The two one-hot checkerboards. -/
noncomputable def hot (n : A → ℕ) (s : ℝ) : Vec (Fin 2 × Pixel n) := vmk fun q => 1 / 2 + s / 2 * chk2 n q

lemma chk2_sq (q : Fin 2 × Pixel n) : chk2 n q * chk2 n q = 1 := by
  show ((-1) ^ (q.1 : ℕ) * chk q.2) * ((-1) ^ (q.1 : ℕ) * chk q.2) = 1
  have h1 := chk_mul_self q.2
  have h2 : ((-1 : ℝ) ^ (q.1 : ℕ)) * (-1) ^ (q.1 : ℕ) = 1 := by rw [← mul_pow]; norm_num
  calc _ = (((-1 : ℝ) ^ (q.1 : ℕ)) * (-1) ^ (q.1 : ℕ)) * (chk q.2 * chk q.2) := by ring
    _ = 1 := by rw [h1, h2, one_mul]

lemma chk2_sum (p : Pixel n) : ∑ k, chk2 n (k, p) = 0 := by
  rw [Fin.sum_univ_two]
  show (-1) ^ 0 * chk p + (-1) ^ 1 * chk p = 0
  ring

lemma hot_mem {s : ℝ} (hs : s * s = 1) : hot n s ∈ simplexImages n 1 := fun p => by
  refine ⟨fun k => ?_, ?_⟩
  · show 0 ≤ 1 / 2 + s / 2 * chk2 n (k, p)
    have h1 : (s * chk2 n (k, p)) * (s * chk2 n (k, p)) = 1 := by
      calc _ = (s * s) * (chk2 n (k, p) * chk2 n (k, p)) := by ring
        _ = 1 := by rw [hs, chk2_sq, one_mul]
    nlinarith [sq_nonneg (s * chk2 n (k, p) + 1)]
  · show ∑ k, (1 / 2 + s / 2 * chk2 n (k, p)) = 1
    rw [Finset.sum_add_distrib, ← Finset.mul_sum, chk2_sum]
    simp

/-- The checkerboard pulls a difference from a one-hot checkerboard with at least the number of axes. -/
lemma hot_pull (hn : ∀ a, 2 ≤ n a) {s : ℝ} (hs : s * s = 1) {w : Vec (Fin 2 × Pixel n)} (hw : w ∈ simplexImages n 1) :
    0 ≤ ⟪chk2 n, w - hot n s⟫ * -s ∧
      2 * Fintype.card A * (⟪chk2 n, w - hot n s⟫ * -s) ≤ ⟪(segGrad n 2).matvec (chk2 n), (segGrad n 2).matvec (w - hot n s)⟫ * -s := by
  let h : Fin 2 → Pixel n → ℝ := fun k p => -s * (chk2 n (k, p) * (w (k, p) - hot n s (k, p)))
  have hw1 : ∀ k p, w (k, p) ≤ 1 := fun k p => by
    rw [← (hw p).2]
    exact Finset.single_le_sum (f := fun k => w (k, p)) (fun k _ => (hw p).1 k) (Finset.mem_univ k)
  have h0 : ∀ k p, 0 ≤ h k p := fun k p => by
    show 0 ≤ -s * (chk2 n (k, p) * (w (k, p) - (1 / 2 + s / 2 * chk2 n (k, p))))
    have hc : (s * chk2 n (k, p)) * (s * chk2 n (k, p)) = 1 := by
      calc _ = (s * s) * (chk2 n (k, p) * chk2 n (k, p)) := by ring
        _ = 1 := by rw [hs, chk2_sq, one_mul]
    have hc' : (s * chk2 n (k, p) - 1) * (s * chk2 n (k, p) + 1) = 0 := by linarith
    have e : -s * (chk2 n (k, p) * (w (k, p) - (1 / 2 + s / 2 * chk2 n (k, p)))) = (1 - s * chk2 n (k, p) * (2 * w (k, p) - 1)) / 2 := by
      linear_combination (1 / 2 : ℝ) * hc
    rw [e]
    have a1 := (hw p).1 k
    have a2 := hw1 k p
    rcases mul_eq_zero.1 hc' with hh | hh
    · rw [show s * chk2 n (k, p) = 1 by linarith]; linarith
    · rw [show s * chk2 n (k, p) = -1 by linarith]; linarith
  have e1 : ⟪chk2 n, w - hot n s⟫ * -s = ∑ k, ∑ p, h k p := by
    rw [vec_inner, Fintype.sum_prod_type, Finset.sum_mul]
    refine Finset.sum_congr rfl fun k _ => ?_
    rw [Finset.sum_mul]
    refine Finset.sum_congr rfl fun p _ => ?_
    show chk2 n (k, p) * (w (k, p) - hot n s (k, p)) * -s = h k p
    simp only [h]; ring
  have e2 : ⟪(segGrad n 2).matvec (chk2 n), (segGrad n 2).matvec (w - hot n s)⟫ * -s =
      ∑ k, ∑ a, 2 * ∑ p : Pixel n, if hp : (p a : ℕ) + 1 < n a then h k p + h k (Function.update p a ⟨p a + 1, hp⟩) else 0 := by
    rw [vec_inner, Fintype.sum_prod_type, Finset.sum_mul]
    refine Finset.sum_congr rfl fun k _ => ?_
    rw [Fintype.sum_prod_type, Finset.sum_mul]
    refine Finset.sum_congr rfl fun a _ => ?_
    rw [Finset.sum_mul, Finset.mul_sum]
    refine Finset.sum_congr rfl fun p _ => ?_
    show fwdDiff (fun p => (-1) ^ (k : ℕ) * chk p) a p * fwdDiff (fun p => (w - hot n s) (k, p)) a p * -s = _
    rw [fwdDiff_chk]
    by_cases hp : (p a : ℕ) + 1 < n a
    · rw [if_pos hp, dif_pos hp]
      simp only [fwdDiff, dif_pos hp, h, PiLp.sub_apply]
      have e3 : chk2 n (k, Function.update p a ⟨p a + 1, hp⟩) = -chk2 n (k, p) := by
        show (-1) ^ (k : ℕ) * chk _ = -((-1) ^ (k : ℕ) * chk p)
        rw [chk_next p a hp]; ring
      rw [e3]
      have e4 : (-1) ^ (k : ℕ) * chk p = chk2 n (k, p) := rfl
      rw [mul_assoc 2, e4]
      ring
    · rw [if_neg hp, dif_neg hp]; ring
  rw [e1, e2]
  refine ⟨Finset.sum_nonneg fun k _ => Finset.sum_nonneg fun p _ => h0 k p, ?_⟩
  rw [Finset.mul_sum]
  refine Finset.sum_le_sum fun k _ => ?_
  calc 2 * (Fintype.card A : ℝ) * ∑ p, h k p = ∑ _a : A, 2 * ∑ p, h k p := by rw [Finset.sum_const, Finset.card_univ, nsmul_eq_mul]; ring
    _ ≤ _ := Finset.sum_le_sum fun a _ => mul_le_mul_of_nonneg_left (edge_sum_ge (h k) (h0 k) a (hn a)) (by norm_num)

lemma grad_hot (s : ℝ) : (segGrad n 2).matvec (hot n s) = (s / 2) • (segGrad n 2).matvec (chk2 n) := by
  ext q
  show fwdDiff (fun p => 1 / 2 + s / 2 * chk2 n (q.1, p)) q.2.1 q.2.2 = s / 2 * fwdDiff (fun p => chk2 n (q.1, p)) q.2.1 q.2.2
  unfold fwdDiff
  split <;> ring

/-- Inside the dual balls the dual step changes nothing. -/
lemma segReg_dual_fixed {α : ℝ} (hα : 0 < α) {ncl : ℕ} {Pg : Vec (Fin ncl × (A × Pixel n)) → Vec (Fin ncl × (A × Pixel n))}
    (hPg : ∀ v, IsProx (segReg α ncl (Pixel n)) (1 / segMu) v (Pg v)) {u : Vec (Fin ncl × (A × Pixel n))} (hu : ∀ k p, √(∑ a, u (k, a, p) ^ 2) ≤ α / 2) :
    u - segMu • Pg ((1 / segMu) • u) = u := by
  have hμ := segMu_pos
  have h : IsProx (segReg α ncl (Pixel n)) (1 / segMu) ((1 / segMu) • u) 0 := by
    apply isProx_of_subgrad (by positivity)
    refine ⟨trivial, fun y _ => ?_⟩
    rw [sub_zero, sub_zero, smul_smul, one_div_mul_cancel (by positivity), one_smul]
    have z0 : (segReg (A := A) α ncl (Pixel n)).val 0 = 0 := by
      show ∑ k, 1 / 2 * α * l21Norm (segBlock (0 : Vec (Fin ncl × (A × Pixel n))) k) = 0
      refine Finset.sum_eq_zero fun k _ => ?_
      have : segBlock (0 : Vec (Fin ncl × (A × Pixel n))) k = 0 := rfl
      rw [this, l21Norm_eq]; simp
    rw [z0, zero_add, vec_inner, Fintype.sum_prod_type]
    refine Finset.sum_le_sum fun k _ => ?_
    rw [Fintype.sum_prod_type_right, l21Norm, Finset.mul_sum]
    refine Finset.sum_le_sum fun p _ => ?_
    calc ∑ a, u (k, a, p) * y (k, a, p) ≤ √(∑ a, u (k, a, p) ^ 2) * √(∑ a, y (k, a, p) ^ 2) := Real.sum_mul_le_sqrt_mul_sqrt _ _ _
      _ ≤ _ := by
        rw [one_div_mul_eq_div]
        exact mul_le_mul_of_nonneg_right (hu k p) (Real.sqrt_nonneg _)
  rw [← IsProx.unique (segReg_convex hα ncl (Pixel n)) (by positivity) (hPg _) h, smul_zero, sub_zero]

/-- C83: on images with eight or more axes, whatever their shape, the iterations need not converge at all: for two classes and a uniform image halfway between them there are class probabilities
from which every iteration flips the class of every pixel, for ever. -/
theorem C83_segment_oscillates_refuted (hA : 8 ≤ Fintype.card A) (hn : ∀ a, 2 ≤ n a) {simp : ProxOp (Vec (Fin (1 + 1) × Pixel n))}
    (hsimp : ProxExact simp (XFun.indicator (simplexImages n 1))) (cl : Fin (1 + 1) → ℝ) (σ : ℝ) {α : ℝ} (hα : √(Fintype.card A) ≤ 2 * α) :
    ∃ x0 ∈ simplexImages n 1, ∀ N, ∃ X c, Segment simp (vmk fun _ => (cl 0 + cl 1) / 2) cl σ α none none N (some x0) = .ok (X, c) ∧
      (∀ p k, X (p, k) = if Even (N + ∑ a, (p a : ℕ) + k) then 1 else 0) ∧ ∀ p, Even (N + ∑ a, (p a : ℕ) + c p) := by
  have hcard : (8 : ℝ) ≤ Fintype.card A := by exact_mod_cast hA
  have hα0 : 0 < α := by
    have : 0 < √(Fintype.card A : ℝ) := Real.sqrt_pos.2 (by linarith)
    linarith
  have hs : ∀ k : Fin (1 + 1), segWeights none k ≠ 0 := fun k => one_ne_zero
  have hg := vstackSame_exact (1 + 1) (l21_exact (ι := A) (κ := Pixel n) (σ := 1 / 2 * α) (by positivity))
  have hd := C03_proxdual_conjugate _ _ (segReg_convex (A := A) hα0 (1 + 1) (Pixel n)) rfl rfl hg
  obtain ⟨P, hP, hP'⟩ := proxExact_map hsimp segTau_pos
  obtain ⟨D, hD', hD⟩ := proxdual_moreau (segReg_convex hα0 (1 + 1) (Pixel n)) hg hd segMu_pos
  obtain ⟨X, Y, Xh, hX0, hXh0, hY0, hXh, ht, -, h⟩ := pd_traj (A := segGrad n (1 + 1)) hP hD ((some (hot n 1)).getD 0) none
    (some (segZ (vmk fun q => σ / 2 * ((vmk fun _ => (cl 0 + cl 1) / 2 : Vec (Pixel n)) q.2 - cl q.1) ^ 2 / segWeights none q.1) none)) 1 true
  have hz : ∀ {s : ℝ} (_ : s * s = 1) {w : Vec (Fin 2 × Pixel n)} (_ : w ∈ simplexImages n 1),
      ⟪(segZ (vmk fun q => σ / 2 * ((vmk fun _ => (cl 0 + cl 1) / 2 : Vec (Pixel n)) q.2 - cl q.1) ^ 2 / segWeights none q.1) none : Vec (Fin (1 + 1) × Pixel n)), w - hot n s⟫ = 0 := by
    intro s hs w hw
    rw [vec_inner, Fintype.sum_prod_type_right]
    refine Finset.sum_eq_zero fun p _ => ?_
    have e : ∀ k : Fin 2, (segZ (vmk fun q => σ / 2 * ((vmk fun _ => (cl 0 + cl 1) / 2 : Vec (Pixel n)) q.2 - cl q.1) ^ 2 / segWeights none q.1) none : Vec (Fin (1 + 1) × Pixel n)) (k, p) =
        σ / 2 * ((cl 0 - cl 1) / 2) ^ 2 := fun k => by
      show σ / 2 * ((cl 0 + cl 1) / 2 - cl k) ^ 2 / 1 = _
      fin_cases k
      · show σ / 2 * ((cl 0 + cl 1) / 2 - cl 0) ^ 2 / 1 = _; ring
      · show σ / 2 * ((cl 0 + cl 1) / 2 - cl 1) ^ 2 / 1 = _; ring
    simp only [e]
    rw [← Finset.mul_sum]
    have h1 := (hw p).2
    have h2 := (hot_mem (n := n) hs p).2
    have : ∑ k : Fin 2, (w - hot n s) (k, p) = 0 := by
      show ∑ k : Fin 2, (w (k, p) - hot n s (k, p)) = 0
      rw [Finset.sum_sub_distrib]
      exact (congrArg₂ _ h1 h2).trans (sub_self _)
    rw [this, mul_zero]
  set z := (segZ (vmk fun q => σ / 2 * ((vmk fun _ => (cl 0 + cl 1) / 2 : Vec (Pixel n)) q.2 - cl q.1) ^ 2 / segWeights none q.1) none : Vec (Fin (1 + 1) × Pixel n)) with hzdef
  have ht := ht rfl
  set gv := (segGrad n 2).matvec (chk2 n) with hgv
  have hball : ∀ c : ℝ, |c| ≤ 1 / 8 → ∀ k p, √(∑ a, (c • gv) (k, a, p) ^ 2) ≤ α / 2 := fun c hc k p => by
    have h1 : ∑ a, (c • gv) (k, a, p) ^ 2 ≤ ∑ _a : A, (1 / 16 : ℝ) := Finset.sum_le_sum fun a _ => by
      show (c * fwdDiff (fun p => (-1) ^ (k : ℕ) * chk p) a p) ^ 2 ≤ 1 / 16
      rw [fwdDiff_chk]
      split
      · have e : (c * -(2 * (-1) ^ (k : ℕ) * chk p)) ^ 2 = 4 * c ^ 2 * (chk2 n (k, p) * chk2 n (k, p)) := by
          show _ = 4 * c ^ 2 * (((-1) ^ (k : ℕ) * chk p) * ((-1) ^ (k : ℕ) * chk p)); ring
        rw [e, chk2_sq, ← sq_abs]
        nlinarith [abs_nonneg c]
      · norm_num
    rw [Finset.sum_const, Finset.card_univ, nsmul_eq_mul] at h1
    calc √(∑ a, (c • gv) (k, a, p) ^ 2) ≤ √(Fintype.card A * (1 / 16)) := Real.sqrt_le_sqrt h1
      _ = √(Fintype.card A) * (1 / 4) := by
        rw [Real.sqrt_mul (by positivity)]
        congr 1
        rw [show (1 / 16 : ℝ) = (1 / 4) ^ 2 by norm_num, Real.sqrt_sq (by norm_num)]
      _ ≤ α / 2 := by linarith
  have hstep : ∀ (d s : ℝ), s * s = 1 → 1 / 16 ≤ d * s → P (hot n s - segTau • ((segGrad n (1 + 1)).rmatvec (d • gv) + z)) = hot n (-s) := fun d s hs hd => by
    have hs' : -s * -s = 1 := by linarith
    refine (IsProx.unique simplexImages_convex segTau_pos (hP' _) (isProx_of_subgrad segTau_pos ⟨hot_mem hs', fun w hw => ?_⟩)).symm
    have hpull := hot_pull hn hs' hw
    have e0 : hot n s - hot n (-s) = s • chk2 n := by
      ext q
      show (1 / 2 + s / 2 * chk2 n q) - (1 / 2 + -s / 2 * chk2 n q) = s * chk2 n q
      ring
    have e1 : ⟪(1 / segTau) • (hot n s - segTau • ((segGrad n (1 + 1)).rmatvec (d • gv) + z) - hot n (-s)), w - hot n (-s)⟫ =
        s * ⟪chk2 n, w - hot n (-s)⟫ - d * ⟪gv, (segGrad n 2).matvec (w - hot n (-s))⟫ := by
      have e2 : hot n s - segTau • ((segGrad n (1 + 1)).rmatvec (d • gv) + z) - hot n (-s) = s • chk2 n - ((segGrad n (1 + 1)).rmatvec (d • gv) + z) := by
        rw [← e0, segTau, one_smul]; abel
      rw [e2, segTau, div_one, one_smul, inner_sub_left, inner_add_left, hz hs' hw, real_inner_smul_left, add_zero]
      congr 1
      exact (real_inner_comm _ _).trans (((segGrad n (1 + 1)).dot _ _).symm.trans ((real_inner_comm _ _).trans (real_inner_smul_left _ _ _)))
    rw [e1]
    simp only [XFun.indicator, zero_add]
    obtain ⟨p1, p2⟩ := hpull
    rw [neg_neg] at p1 p2
    have p3 : 16 * (⟪chk2 n, w - hot n (-s)⟫ * s) ≤ ⟪gv, (segGrad n 2).matvec (w - hot n (-s))⟫ * s := le_trans (mul_le_mul_of_nonneg_right (by linarith) p1) p2
    have p4 : 0 ≤ ⟪gv, (segGrad n 2).matvec (w - hot n (-s))⟫ * s := by linarith
    have e3 : d * ⟪gv, (segGrad n 2).matvec (w - hot n (-s))⟫ = (d * s) * (⟪gv, (segGrad n 2).matvec (w - hot n (-s))⟫ * s) := by
      calc _ = d * ⟪gv, (segGrad n 2).matvec (w - hot n (-s))⟫ * (s * s) := by rw [hs, mul_one]
        _ = _ := by ring
    rw [e3]
    nlinarith
  have inv : ∀ N, X N = hot n ((-1) ^ N) ∧ Y N + segMu • (segGrad n (1 + 1)).matvec (Xh N) = (if Even N then 1 / 16 else -(1 / 8) : ℝ) • gv := by
    intro N
    induction N with
    | zero =>
      refine ⟨by rw [hX0, pow_zero]; rfl, ?_⟩
      have e : (segGrad n (1 + 1)).matvec (Xh 0) = (1 / 2 : ℝ) • gv := by rw [hXh0]; exact grad_hot 1
      rw [e, hY0, segMu_eq, smul_smul]
      simp only [Option.getD_none, zero_add, Even.zero, if_true]
      norm_num
    | succ N ih =>
      obtain ⟨i1, i2⟩ := ih
      have hs : ((-1 : ℝ) ^ N) * (-1) ^ N = 1 := by rw [← mul_pow]; norm_num
      have hY : Y (N + 1) = (if Even N then 1 / 16 else -(1 / 8) : ℝ) • gv := by
        rw [(ht N).1, i2]
        exact segReg_dual_fixed hα0 hD' (hball _ (by split <;> norm_num [abs_of_pos]))
      have hX : X (N + 1) = hot n ((-1) ^ (N + 1)) := by
        rw [(ht N).2, hY, i1, pow_succ, mul_neg_one]
        refine hstep _ _ hs ?_
        by_cases hN : Even N
        · rw [if_pos hN, hN.neg_one_pow]; norm_num
        · rw [if_neg hN, (Nat.not_even_iff_odd.1 hN).neg_one_pow]; norm_num
      refine ⟨hX, ?_⟩
      have e : (segGrad n (1 + 1)).matvec (Xh (N + 1)) = (-(3 / 2) * (-1) ^ N : ℝ) • gv := by
        rw [hXh N, hX, i1, one_smul, map_add, map_sub]
        have e1 := grad_hot (n := n) ((-1) ^ (N + 1))
        have e2 := grad_hot (n := n) ((-1) ^ N)
        refine (congrArg₂ (· + ·) e1 (congrArg₂ (· - ·) e1 e2)).trans ?_
        rw [← sub_smul, ← add_smul, pow_succ]
        congr 1
        ring
      rw [hY, e, segMu_eq, smul_smul, ← add_smul]
      congr 1
      by_cases hN : Even N
      · rw [if_pos hN, if_neg (by simpa [Nat.even_add_one] using hN), hN.neg_one_pow]; norm_num
      · rw [if_neg hN, if_pos (Nat.even_add_one.2 hN), (Nat.not_even_iff_odd.1 hN).neg_one_pow]; norm_num
  have val : ∀ N p k, segT (X N) (p, k) = if Even (N + ∑ a, (p a : ℕ) + k) then 1 else 0 := fun N p k => by
    show X N (k, p) = _
    rw [(inv N).1]
    show 1 / 2 + (-1) ^ N / 2 * ((-1) ^ (k : ℕ) * (-1) ^ (∑ a, (p a : ℕ))) = _
    have e : ((-1 : ℝ) ^ N / 2 * ((-1) ^ (k : ℕ) * (-1) ^ (∑ a, (p a : ℕ)))) = (-1) ^ (N + ∑ a, (p a : ℕ) + k) / 2 := by rw [pow_add, pow_add]; ring
    rw [e]
    split
    · rename_i hE; rw [hE.neg_one_pow]; norm_num
    · rename_i hE; rw [(Nat.not_even_iff_odd.1 hE).neg_one_pow]; norm_num
  refine ⟨hot n 1, hot_mem (by norm_num), fun N => ⟨segT (X N), fun p => segArgmax fun k => X N (k, p), ?_, val N, fun p => ?_⟩⟩
  · rw [Segment, segData_ok _ cl σ hs]
    show (PrimalDual _ _ _ _ _ _ _ _ _ _ _ >>= _) = _
    rw [h N]
    rfl
  · obtain ⟨k, hk⟩ : ∃ k : Fin (1 + 1), Even (N + ∑ a, (p a : ℕ) + k) := by
      by_cases hE : Even (N + ∑ a, (p a : ℕ))
      · exact ⟨0, hE⟩
      · exact ⟨1, Nat.even_add_one.2 hE⟩
    have h1 := (segArgmax_spec fun k => X N (k, p)).1 k
    have h2 : X N (k, p) = _ := val N p k
    have h3 : X N (segArgmax (fun k => X N (k, p)), p) = _ := val N p (segArgmax fun k => X N (k, p))
    rw [if_pos hk] at h2
    simp only [h2] at h1
    rw [h3] at h1
    by_contra hE
    rw [if_neg hE] at h1
    norm_num at h1

/-- An exact simplex operator exists for every shape and number of classes: the projection of each pixel. -/
example : ∃ simp : ProxOp (Vec (Fin (m + 1) × Pixel n)), ProxExact simp (XFun.indicator (simplexImages n m)) := by
  have h : ∀ x : Vec (Fin (m + 1) × Pixel n), ∃ p, IsProj (simplexImages n m) x p := fun x => by
    obtain ⟨p, hp, hmin⟩ := simplexImages_compact.exists_isMinOn ⟨_, seg_uniform (n := n) (m := m)⟩ ((continuous_const (y := x)).sub continuous_id).norm.continuousOn
    exact ⟨p, hp, fun y hy => hmin hy⟩
  choose P hP using h
  refine ⟨⟨fun _ => .ok (.bool true), some fun x τ => checkTau τ (.ok (P x)), none, none, false, 1⟩, fun x τ hτ => ⟨P x, checkTau_pos hτ _, ?_⟩⟩
  exact (isProj_iff_isProx hτ).2 (hP x)

/-- Images with two axes, with three axes of length four or more, and with eight axes of length two or more. -/
example : Fintype.card (Fin 2) ≤ 2 ∧ (3 ≤ Fintype.card (Fin 3) ∧ ∀ a : Fin 3, 4 ≤ (![4, 5, 6] : Fin 3 → ℕ) a) ∧ (8 ≤ Fintype.card (Fin 8) ∧ ∀ _ : Fin 8, 2 ≤ 2) := by
  refine ⟨by simp, ⟨by simp, fun a => ?_⟩, by simp, fun _ => le_refl _⟩
  fin_cases a <;> simp

end Verif
