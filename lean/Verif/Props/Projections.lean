import Verif.Props.Closed
import Verif.Model.ProjOps
import Mathlib.Topology.Order.IntermediateValue

/-!
# C24-C28, C61, C62, C66: projections
-/

open scoped RealInnerProductSpace

namespace Verif

variable {ι κ : Type} [Fintype ι] [Fintype κ]
variable {E : Type} [NormedAddCommGroup E] [InnerProductSpace ℝ E]
variable {F : Type} [NormedAddCommGroup F] [InnerProductSpace ℝ F]

/-! ## C24 -/

/-- C24: with an exact inner solve, `AffineSet.prox` is the unique closest solution of `Op y = b`. -/
theorem C24_affine_prox (cg : (Vec κ → Vec κ) → Vec κ → Vec κ) (Op : LinOp E (Vec κ)) (b : Vec κ) (x : E)
    (τ : ℝ) (hτ : 0 < τ)
    (hsolve : Op.matvec (Op.rmatvec (cg (fun y => Op.matvec (Op.rmatvec y)) (Op.matvec x - b))) = Op.matvec x - b) :
    ∃ p, (AffineSet cg Op b).prox x τ = .ok p ∧ IsUniqueProj {y : E | Op.matvec y = b} x p := by
  refine ⟨_, by simp only [ProxOp.prox, AffineSet, checkTau_pos hτ]; rfl, ?_⟩
  set z := cg (fun y => Op.matvec (Op.rmatvec y)) (Op.matvec x - b)
  have hp : affineSetProj cg Op b x = x - Op.rmatvec z := rfl
  rw [hp]
  apply isUniqueProj_of_variational
  · rw [Set.mem_ofPred_eq, map_sub, hsolve]; abel
  · intro y hy
    rw [Set.mem_ofPred_eq] at hy
    rw [sub_sub_cancel, real_inner_comm, ← Op.dot, map_sub, map_sub, hy, hsolve]
    simp

/-- C24, inexact solve: the constraint is violated exactly by the residual of the solve. -/
theorem C24_affine_residual (cg : (Vec κ → Vec κ) → Vec κ → Vec κ) (Op : LinOp E (Vec κ)) (b : Vec κ) (x : E)
    (τ : ℝ) (hτ : 0 < τ) :
    ∃ p, (AffineSet cg Op b).prox x τ = .ok p ∧
      ‖Op.matvec p - b‖ = ‖Op.matvec (Op.rmatvec (cg (fun y => Op.matvec (Op.rmatvec y)) (Op.matvec x - b)))
        - (Op.matvec x - b)‖ := by
  refine ⟨_, by simp only [ProxOp.prox, AffineSet, checkTau_pos hτ]; rfl, ?_⟩
  rw [← norm_neg]
  congr 1
  simp only [affineSetProj, map_sub]
  abel

/-- C24, inexact solve: if `Op` is bounded below by `m` on the range of its adjoint, the distance of the returned point to
the true projection (and so to the set) is at most residual / `m`. -/
theorem C24_affine_distance (cg : (Vec κ → Vec κ) → Vec κ → Vec κ) (Op : LinOp E (Vec κ)) (b : Vec κ) (x : E)
    (τ : ℝ) (hτ : 0 < τ) (m : ℝ) (hm : 0 < m) (hlow : ∀ w, m * ‖Op.rmatvec w‖ ≤ ‖Op.matvec (Op.rmatvec w)‖)
    (hconsistent : ∃ z, Op.matvec (Op.rmatvec z) = Op.matvec x - b) :
    ∃ p q, (AffineSet cg Op b).prox x τ = .ok p ∧ IsUniqueProj {y : E | Op.matvec y = b} x q ∧
      ‖p - q‖ ≤ ‖Op.matvec (Op.rmatvec (cg (fun y => Op.matvec (Op.rmatvec y)) (Op.matvec x - b)))
        - (Op.matvec x - b)‖ / m := by
  obtain ⟨z, hz⟩ := hconsistent
  obtain ⟨q, h1, h2⟩ := C24_affine_prox (fun _ _ => z) Op b x τ hτ hz
  have hq : q = x - Op.rmatvec z := by
    simp only [ProxOp.prox, AffineSet, checkTau_pos hτ, affineSetProj] at h1
    cases h1; rfl
  refine ⟨_, q, by simp only [ProxOp.prox, AffineSet, checkTau_pos hτ]; rfl, h2, ?_⟩
  rw [le_div_iff₀ hm, mul_comm]
  set w := cg (fun y => Op.matvec (Op.rmatvec y)) (Op.matvec x - b)
  have e : affineSetProj cg Op b x - q = Op.rmatvec (z - w) := by
    rw [hq, map_sub]; simp only [affineSetProj, w]; abel
  have := hlow (z - w)
  rw [e]
  refine this.trans (le_of_eq ?_)
  rw [← norm_neg, map_sub, map_sub, hz]
  congr 1; abel

/-- The hypotheses of C24 hold for the sum-to-`b` constraint in the plane. -/
example : ∃ (Op : LinOp (Vec (Fin 2)) (Vec (Fin 1))) (b : Vec (Fin 1)) (x : Vec (Fin 2)) (z : Vec (Fin 1)),
    Op.matvec (Op.rmatvec z) = Op.matvec x - b ∧ Op.matvec x ≠ b := by
  let A : Vec (Fin 2) →ₗ[ℝ] Vec (Fin 1) :=
    { toFun := fun x => vmk fun _ => x 0 + x 1
      map_add' := fun x y => by ext i; simp; ring
      map_smul' := fun c x => by ext i; simp; ring }
  let B : Vec (Fin 1) →ₗ[ℝ] Vec (Fin 2) :=
    { toFun := fun z => vmk fun _ => z 0
      map_add' := fun x y => by ext i; simp
      map_smul' := fun c x => by ext i; simp }
  refine ⟨⟨A, B, fun x y => ?_⟩, vmk fun _ => 1, vmk fun _ => 2, vmk fun _ => 3 / 2, ?_, ?_⟩
  · simp [A, B, PiLp.inner_apply, Fin.sum_univ_two]; ring
  · ext i; simp [A, B]; norm_num
  · intro h
    have := congrArg (fun v : Vec (Fin 1) => v 0) h
    simp [A] at this
    norm_num at this

/-! ## C25 -/

/-- Hankel matrices: constant along anti-diagonals. -/
def hankelSet (m n : ℕ) : Set (Vec (Fin m × Fin n)) :=
  {Y | ∀ a b : Fin m × Fin n, a.1.val + a.2.val = b.1.val + b.2.val → Y a = Y b}

/-- C25: the result is the unique closest Hankel matrix. -/
theorem C25_hankel_prox {m n : ℕ} (X : Vec (Fin m × Fin n)) (τ : ℝ) (hτ : 0 < τ) :
    ∃ P, (Hankel (m := m) (n := n)).prox X τ = .ok P ∧ IsUniqueProj (hankelSet m n) X P := by
  classical
  refine ⟨_, by simp only [ProxOp.prox, Hankel, checkTau_pos hτ]; rfl, ?_⟩
  have hmem : hankelProj X ∈ hankelSet m n := by
    intro a b hab
    simp only [hankelProj, hab]
  apply isUniqueProj_of_variational hmem
  intro Y hY
  -- the residual is orthogonal to Hankel matrices
  have key : ∀ Z ∈ hankelSet m n, ⟪X - hankelProj X, Z⟫ = 0 := by
    intro Z hZ
    rw [PiLp.inner_apply]
    simp only [inner_real]
    set ind : Fin m × Fin n → ℕ := fun ij => ij.1.val + ij.2.val with hind
    rw [← Finset.sum_fiberwise_of_maps_to (g := ind) (t := Finset.univ.image ind)
      (fun i _ => Finset.mem_image_of_mem _ (Finset.mem_univ i))]
    refine Finset.sum_eq_zero fun k hk => ?_
    obtain ⟨a, -, rfl⟩ := Finset.mem_image.1 hk
    have h1 : ∀ b ∈ Finset.univ.filter (fun i => ind i = ind a),
        (X - hankelProj X) b * Z b = (X b - hankelProj X a) * Z a := by
      intro b hb
      have hb' : ind b = ind a := (Finset.mem_filter.1 hb).2
      rw [hZ b a hb', PiLp.sub_apply, hmem b a hb']
    rw [Finset.sum_congr rfl h1, ← Finset.sum_mul, Finset.sum_sub_distrib, Finset.sum_const, nsmul_eq_mul]
    have hcount : (0 : ℝ) < ((Finset.univ.filter fun i => ind i = ind a).card : ℝ) := by
      exact_mod_cast Finset.card_pos.2 ⟨a, by simp⟩
    have hval : hankelProj X a = (∑ b ∈ Finset.univ.filter (fun i => ind i = ind a), X b)
        / ((Finset.univ.filter fun i => ind i = ind a).card : ℝ) := by
      simp only [hankelProj, Finset.sum_filter, Finset.card_eq_sum_ones, Nat.cast_sum, Nat.cast_ite, Nat.cast_one,
        Nat.cast_zero]
      rfl
    rw [hval, mul_div_cancel₀ _ hcount.ne', sub_self, zero_mul]
  rw [inner_sub_right, key Y hY, key _ hmem, sub_self]

/-- C25: `Hankel(x)` is True on every Hankel matrix, and when it is True every entry is within numpy's tolerance of the
closest Hankel matrix. -/
theorem C25_hankel_call {m n : ℕ} (X : Vec (Fin m × Fin n)) :
    (X ∈ hankelSet m n → (Hankel (m := m) (n := n)).call X = .ok (.bool true)) ∧
    ((Hankel (m := m) (n := n)).call X = .ok (.bool true) →
      ∃ P, IsUniqueProj (hankelSet m n) X P ∧ ∀ ij, |X ij - P ij| ≤ 1 / 10 ^ 8 + 1 / 10 ^ 5 * |P ij|) := by
  classical
  obtain ⟨P, h1, h2⟩ := C25_hankel_prox X 1 one_pos
  have hP : P = hankelProj X := by
    simp only [ProxOp.prox, Hankel, checkTau_pos one_pos] at h1; cases h1; rfl
  subst hP
  constructor
  · intro hX
    have : hankelProj X = X := by
      have := h2.1.2 X hX
      rw [sub_self, norm_zero] at this
      exact (sub_eq_zero.1 (norm_eq_zero.1 (le_antisymm this (norm_nonneg _)))).symm
    simp only [Hankel, this]
    congr 2
    rw [decide_eq_true_iff]
    intro i; simp; positivity
  · intro h
    refine ⟨_, h2, ?_⟩
    simp only [Hankel, Except.ok.injEq, CallVal.bool.injEq, decide_eq_true_iff] at h
    exact h

/-! ## C26 -/

/-- What is assumed of the scalar root search: on a continuous function that is `>= 0` at `a` and `<= 0` at `b`, the
returned value is within `xtol` of a root in `[a, b]`. -/
def BisectTol (bisect : (ℝ → ℝ) → ℝ → ℝ → ℝ) (xtol : ℝ) : Prop :=
  ∀ f a b, Continuous f → a ≤ b → 0 ≤ f a → f b ≤ 0 → ∃ r, a ≤ r ∧ r ≤ b ∧ f r = 0 ∧ |bisect f a b - r| ≤ xtol

/-- The assumption can be met, with any tolerance. -/
theorem exists_bisectTol (xtol : ℝ) (h : 0 ≤ xtol) : ∃ bisect, BisectTol bisect xtol := by
  classical
  refine ⟨fun f a b => if H : ∃ r, a ≤ r ∧ r ≤ b ∧ f r = 0 then H.choose else 0, fun f a b hf hab ha hb => ?_⟩
  have : ∃ r, a ≤ r ∧ r ≤ b ∧ f r = 0 := by
    obtain ⟨r, hr, hr0⟩ := intermediate_value_Icc' hab hf.continuousOn ⟨hb, ha⟩
    exact ⟨r, hr.1, hr.2, hr0⟩
  refine ⟨this.choose, this.choose_spec.1, this.choose_spec.2.1, this.choose_spec.2.2, ?_⟩
  simp only [dif_pos this, sub_self, abs_zero]; exact h

lemma boxClip_mono (l u : Bound) {x y : ℝ} (h : x ≤ y) : boxClip l u x ≤ boxClip l u y := by
  unfold boxClip
  cases l <;> cases u <;> simp only [maxLower, minUpper]
  · exact h
  · exact min_le_min_right _ h
  · exact max_le_max_right _ h
  · exact min_le_min_right _ (max_le_max_right _ h)

lemma boxClip_lip (l u : Bound) (x y : ℝ) : |boxClip l u x - boxClip l u y| ≤ |x - y| := by
  unfold boxClip
  cases l <;> cases u <;> simp only [maxLower, minUpper]
  · exact le_rfl
  · rename_i b
    have h1 := abs_min_sub_min_le_max x b y b
    rwa [sub_self, abs_zero, max_eq_left (abs_nonneg (x - y))] at h1
  · rename_i a
    have h1 := abs_max_sub_max_le_max x a y a
    rwa [sub_self, abs_zero, max_eq_left (abs_nonneg (x - y))] at h1
  · rename_i a b
    have h1 := abs_min_sub_min_le_max (max x a) b (max y a) b
    have h2 := abs_max_sub_max_le_max x a y a
    rw [sub_self, abs_zero, max_eq_left (abs_nonneg (max x a - max y a))] at h1
    rw [sub_self, abs_zero, max_eq_left (abs_nonneg (x - y))] at h2
    exact h1.trans h2

lemma boxClip_of_mem {l u : Bound} {x : ℝ} (h1 : geLower x l) (h2 : leUpper x u) : boxClip l u x = x := by
  unfold boxClip
  cases l <;> cases u <;> simp_all [maxLower, minUpper, geLower, leUpper]

lemma boxProj_lip (l u : ι → Bound) (x y : Vec ι) : ‖boxProj l u x - boxProj l u y‖ ≤ ‖x - y‖ := by
  rw [← pow_le_pow_iff_left₀ (norm_nonneg _) (norm_nonneg _) two_ne_zero, EuclideanSpace.norm_sq_eq,
    EuclideanSpace.norm_sq_eq]
  refine Finset.sum_le_sum fun i _ => ?_
  rw [Real.norm_eq_abs, Real.norm_eq_abs]
  exact pow_le_pow_left₀ (abs_nonneg _) (boxClip_lip _ _ _ _) 2

lemma hpbFun_continuous (c : Vec ι) (s : ℝ) (l u : ι → Bound) (x : Vec ι) : Continuous (hpbFun c s l u x) := by
  have hb : Continuous (boxProj l u) := by
    have : LipschitzWith 1 (boxProj l u) := LipschitzWith.of_dist_le_mul fun x y => by
      rw [dist_eq_norm, dist_eq_norm]; simpa using boxProj_lip l u x y
    exact this.continuous
  unfold hpbFun
  fun_prop

lemma hpbFun_antitone (c : Vec ι) (s : ℝ) (l u : ι → Bound) (x : Vec ι) : Antitone (hpbFun c s l u x) := by
  intro μ ν h
  unfold hpbFun
  rw [PiLp.inner_apply, PiLp.inner_apply, sub_le_sub_iff_right]
  refine Finset.sum_le_sum fun i _ => ?_
  rw [inner_real, inner_real]
  have e : ∀ μ : ℝ, boxProj l u (x - μ • c) i = boxClip (l i) (u i) (x i - μ * c i) := fun _ => rfl
  rw [e, e]
  rcases le_total 0 (c i) with hc | hc
  · exact mul_le_mul_of_nonneg_left (boxClip_mono _ _ (by nlinarith)) hc
  · exact mul_le_mul_of_nonpos_left (boxClip_mono _ _ (by nlinarith)) hc

lemma bracketLower_spec (f : ℝ → ℝ) (hf : Antitone f) (μ : ℝ) (hμ : 0 ≤ f μ) :
    ∃ N, ∀ fuel, N ≤ fuel → ∃ a, bracketLower f fuel (-1) = .ok a ∧ a ≤ -1 ∧ 0 ≤ f a ∧ (a = -1 ∨ 2 * μ ≤ a) := by
  have gen : ∀ (N : ℕ) (m : ℝ), m < 0 → m * 2 ^ N ≤ μ → ∀ fuel, N + 1 ≤ fuel →
      ∃ a, bracketLower f fuel m = .ok a ∧ a ≤ m ∧ 0 ≤ f a ∧ (a = m ∨ 2 * μ ≤ a) := by
    intro N
    induction N with
    | zero =>
      intro m _ hm fuel hfuel
      obtain ⟨k, rfl⟩ : ∃ k, fuel = k + 1 := ⟨fuel - 1, by omega⟩
      have : 0 ≤ f m := hμ.trans (hf (by simpa using hm))
      exact ⟨m, by simp only [bracketLower, if_neg (not_lt.2 this)], le_rfl, this, Or.inl rfl⟩
    | succ N ih =>
      intro m hm0 hm fuel hfuel
      obtain ⟨k, rfl⟩ : ∃ k, fuel = k + 1 := ⟨fuel - 1, by omega⟩
      by_cases h : f m < 0
      · obtain ⟨a, h1, h2, h3, h4⟩ := ih (m * 2) (by linarith) (by rw [mul_assoc, ← pow_succ']; exact hm) k (by omega)
        refine ⟨a, by simp only [bracketLower, if_pos h]; exact h1, by linarith, h3, Or.inr ?_⟩
        have : μ < m := lt_of_not_ge fun hle => absurd (hμ.trans (hf hle)) (not_le.2 h)
        rcases h4 with h4 | h4 <;> linarith
      · exact ⟨m, by simp only [bracketLower, if_neg h], le_rfl, not_lt.1 h, Or.inl rfl⟩
  obtain ⟨N, hN⟩ := exists_nat_gt (-μ)
  refine ⟨N + 1, fun fuel hfuel => gen N (-1) (by norm_num) ?_ fuel hfuel⟩
  have : (N : ℝ) < 2 ^ N := by exact_mod_cast Nat.lt_two_pow_self
  linarith

lemma bracketUpper_spec (f : ℝ → ℝ) (hf : Antitone f) (μ : ℝ) (hμ : f μ ≤ 0) :
    ∃ N, ∀ fuel, N ≤ fuel → ∃ b, bracketUpper f fuel 1 = .ok b ∧ 1 ≤ b ∧ f b ≤ 0 ∧ (b = 1 ∨ b ≤ 2 * μ) := by
  have gen : ∀ (N : ℕ) (m : ℝ), 0 < m → μ ≤ m * 2 ^ N → ∀ fuel, N + 1 ≤ fuel →
      ∃ a, bracketUpper f fuel m = .ok a ∧ m ≤ a ∧ f a ≤ 0 ∧ (a = m ∨ a ≤ 2 * μ) := by
    intro N
    induction N with
    | zero =>
      intro m _ hm fuel hfuel
      obtain ⟨k, rfl⟩ : ∃ k, fuel = k + 1 := ⟨fuel - 1, by omega⟩
      have : f m ≤ 0 := (hf (by simpa using hm)).trans hμ
      exact ⟨m, by simp only [bracketUpper, gt_iff_lt, if_neg (not_lt.2 this)], le_rfl, this, Or.inl rfl⟩
    | succ N ih =>
      intro m hm0 hm fuel hfuel
      obtain ⟨k, rfl⟩ : ∃ k, fuel = k + 1 := ⟨fuel - 1, by omega⟩
      by_cases h : f m > 0
      · obtain ⟨a, h1, h2, h3, h4⟩ := ih (m * 2) (by linarith) (by rw [mul_assoc, ← pow_succ']; exact hm) k (by omega)
        refine ⟨a, by simp only [bracketUpper, if_pos h]; exact h1, by linarith, h3, Or.inr ?_⟩
        have : m < μ := lt_of_not_ge fun hle => absurd ((hf hle).trans hμ) (not_le.2 h)
        rcases h4 with h4 | h4 <;> linarith
      · exact ⟨m, by simp only [bracketUpper, if_neg h], le_rfl, not_lt.1 h, Or.inl rfl⟩
  obtain ⟨N, hN⟩ := exists_nat_gt μ
  refine ⟨N + 1, fun fuel hfuel => gen N 1 one_pos ?_ fuel hfuel⟩
  have : (N : ℝ) < 2 ^ N := by exact_mod_cast Nat.lt_two_pow_self
  linarith

lemma hpb_attainable {c : Vec ι} {s : ℝ} {l u : ι → Bound} {y : Vec ι} (hy : y ∈ boxSet l u) (hys : ⟪c, y⟫ = s)
    (x : Vec ι) : (∃ μ, 0 ≤ hpbFun c s l u x μ) ∧ ∃ μ, hpbFun c s l u x μ ≤ 0 := by
  rw [mem_boxSet] at hy
  have e : ∀ (μ : ℝ) i, boxProj l u (x - μ • c) i = boxClip (l i) (u i) (x i - μ * c i) := fun _ _ => rfl
  set B : ℝ := ∑ i, |(x i - y i) / c i| with hB
  have hle : ∀ i, |(x i - y i) / c i| ≤ B := fun i =>
    Finset.single_le_sum (f := fun i => |(x i - y i) / c i|) (fun i _ => abs_nonneg _) (Finset.mem_univ i)
  refine ⟨⟨-B, ?_⟩, ⟨B, ?_⟩⟩
  · unfold hpbFun
    rw [← hys, sub_nonneg, PiLp.inner_apply, PiLp.inner_apply]
    refine Finset.sum_le_sum fun i _ => ?_
    rw [inner_real, inner_real, e]
    have hBi := (neg_abs_le ((x i - y i) / c i)).trans' (neg_le_neg (hle i))
    rcases lt_trichotomy (c i) 0 with hc | hc | hc
    · refine mul_le_mul_of_nonpos_left ?_ hc.le
      rw [← boxClip_of_mem (hy i).1 (hy i).2]
      refine (boxClip_mono _ _ ?_).trans (le_of_eq (by rw [boxClip_of_mem (hy i).1 (hy i).2]))
      have := mul_le_mul_of_nonpos_right hBi hc.le
      rw [div_mul_cancel₀ _ hc.ne] at this
      linarith
    · rw [hc]; simp
    · refine mul_le_mul_of_nonneg_left ?_ hc.le
      rw [← boxClip_of_mem (hy i).1 (hy i).2]
      refine le_trans (le_of_eq (by rw [boxClip_of_mem (hy i).1 (hy i).2])) (boxClip_mono _ _ ?_)
      have := mul_le_mul_of_nonneg_right hBi hc.le
      rw [div_mul_cancel₀ _ hc.ne'] at this
      linarith
  · unfold hpbFun
    rw [← hys, sub_nonpos, PiLp.inner_apply, PiLp.inner_apply]
    refine Finset.sum_le_sum fun i _ => ?_
    rw [inner_real, inner_real, e]
    have hBi := (le_abs_self ((x i - y i) / c i)).trans (hle i)
    rcases lt_trichotomy (c i) 0 with hc | hc | hc
    · refine mul_le_mul_of_nonpos_left ?_ hc.le
      rw [← boxClip_of_mem (hy i).1 (hy i).2]
      refine le_trans (le_of_eq (by rw [boxClip_of_mem (hy i).1 (hy i).2])) (boxClip_mono _ _ ?_)
      have := mul_le_mul_of_nonpos_right hBi hc.le
      rw [div_mul_cancel₀ _ hc.ne] at this
      linarith
    · rw [hc]; simp
    · refine mul_le_mul_of_nonneg_left ?_ hc.le
      rw [← boxClip_of_mem (hy i).1 (hy i).2]
      refine (boxClip_mono _ _ ?_).trans (le_of_eq (by rw [boxClip_of_mem (hy i).1 (hy i).2]))
      have := mul_le_mul_of_nonneg_right hBi hc.le
      rw [div_mul_cancel₀ _ hc.ne'] at this
      linarith

lemma hpb_root_isProj {c : Vec ι} {s : ℝ} {l u : ι → Bound} {x : Vec ι} {μ : ℝ}
    (hlu : ∀ i a b, l i = some a → u i = some b → a ≤ b) (hμ : hpbFun c s l u x μ = 0) :
    IsUniqueProj {y : Vec ι | y ∈ boxSet l u ∧ ⟪c, y⟫ = s} x (boxProj l u (x - μ • c)) := by
  have hc := fun i => clip_scalar (hlu i) ((x - μ • c) i)
  have hroot : ⟪c, boxProj l u (x - μ • c)⟫ = s := by unfold hpbFun at hμ; linarith
  apply isUniqueProj_of_variational
  · exact ⟨mem_boxSet.2 fun i => ⟨(hc i).1, (hc i).2.1⟩, hroot⟩
  · rintro y ⟨hy, hys⟩
    rw [mem_boxSet] at hy
    have e : x - boxProj l u (x - μ • c) = ((x - μ • c) - boxProj l u (x - μ • c)) + μ • c := by abel
    rw [e, inner_add_left, real_inner_smul_left, inner_sub_right c, hys, hroot, sub_self, mul_zero, add_zero,
      PiLp.inner_apply]
    refine Finset.sum_nonpos fun i _ => ?_
    rw [inner_real]
    exact (hc i).2.2 (y i) (hy i).1 (hy i).2

/-- C26: for every non-empty set the bracketing loops end, and the returned point is in the box and within
`xtol * ||c||` of the unique projection (equal to it for an exact root search). -/
theorem C26_hyperplane_box_proj (bisect : (ℝ → ℝ) → ℝ → ℝ → ℝ) (xtol : ℝ) (hb : BisectTol bisect xtol)
    (c : Vec ι) (s : ℝ) (lower upper : ι → Option ℝ)
    (hne : ∃ y, y ∈ boxSet lower upper ∧ ⟪c, y⟫ = s) (x : Vec ι) :
    ∃ N, ∀ fuel, N ≤ fuel → ∃ p q, hyperPlaneBoxProj bisect fuel c s lower upper x = .ok p ∧
      p ∈ boxSet lower upper ∧
      IsUniqueProj {y : Vec ι | y ∈ boxSet lower upper ∧ ⟪c, y⟫ = s} x q ∧ ‖p - q‖ ≤ xtol * ‖c‖ := by
  obtain ⟨y, hy, hys⟩ := hne
  have hlu : ∀ i a b, lower i = some a → upper i = some b → a ≤ b := fun i a b ha hb =>
    ((hy i).1 a ha).trans ((hy i).2 b hb)
  obtain ⟨⟨μ1, h1⟩, ⟨μ2, h2⟩⟩ := hpb_attainable hy hys x
  have hanti := hpbFun_antitone c s lower upper x
  obtain ⟨N1, hN1⟩ := bracketLower_spec _ hanti μ1 h1
  obtain ⟨N2, hN2⟩ := bracketUpper_spec _ hanti μ2 h2
  refine ⟨max N1 N2, fun fuel hfuel => ?_⟩
  obtain ⟨a, ha, ha1, ha2, -⟩ := hN1 fuel (le_trans (le_max_left _ _) hfuel)
  obtain ⟨b, hb', hb1, hb2, -⟩ := hN2 fuel (le_trans (le_max_right _ _) hfuel)
  obtain ⟨r, -, -, hr, hrt⟩ := hb _ a b (hpbFun_continuous c s lower upper x) (by linarith) ha2 hb2
  refine ⟨_, _, by simp only [hyperPlaneBoxProj, ha, hb', bind, Except.bind]; rfl, ?_, hpb_root_isProj hlu hr, ?_⟩
  · exact mem_boxSet.2 fun i => ⟨(clip_scalar (hlu i) _).1, (clip_scalar (hlu i) _).2.1⟩
  · refine (boxProj_lip _ _ _ _).trans ?_
    have e : x - bisect (hpbFun c s lower upper x) a b • c - (x - r • c)
        = (r - bisect (hpbFun c s lower upper x) a b) • c := by rw [sub_smul]; abel
    rw [e, norm_smul, Real.norm_eq_abs, abs_sub_comm]
    exact mul_le_mul_of_nonneg_right hrt (norm_nonneg c)

/-- C26, exact root search: the result is the unique projection. -/
theorem C26_hyperplane_box_exact (bisect : (ℝ → ℝ) → ℝ → ℝ → ℝ) (hb : BisectTol bisect 0)
    (c : Vec ι) (s : ℝ) (lower upper : ι → Option ℝ)
    (hne : ∃ y, y ∈ boxSet lower upper ∧ ⟪c, y⟫ = s) (x : Vec ι) :
    ∃ N, ∀ fuel, N ≤ fuel → ∃ p, hyperPlaneBoxProj bisect fuel c s lower upper x = .ok p ∧
      IsUniqueProj {y : Vec ι | y ∈ boxSet lower upper ∧ ⟪c, y⟫ = s} x p := by
  obtain ⟨N, h⟩ := C26_hyperplane_box_proj bisect 0 hb c s lower upper hne x
  refine ⟨N, fun fuel hfuel => ?_⟩
  obtain ⟨p, q, h1, -, h2, h3⟩ := h fuel hfuel
  rw [zero_mul] at h3
  have : p = q := sub_eq_zero.1 (norm_eq_zero.1 (le_antisymm h3 (norm_nonneg _)))
  exact ⟨p, h1, this ▸ h2⟩

/-- C26: on a set that is empty because the hyperplane value is out of reach, the bracketing loop never ends. -/
theorem C26_infeasible_never_returns (bisect : (ℝ → ℝ) → ℝ → ℝ → ℝ) (c : Vec ι) (s : ℝ) (lower upper : ι → Option ℝ)
    (x : Vec ι) (h : ∀ μ : ℝ, ⟪c, boxProj lower upper (x - μ • c)⟫ < s) (fuel : ℕ) :
    hyperPlaneBoxProj bisect fuel c s lower upper x = .error .outOfFuel := by
  have gen : ∀ (fuel : ℕ) m, bracketLower (hpbFun c s lower upper x) fuel m = .error .outOfFuel := by
    intro fuel
    induction fuel with
    | zero => intro m; rfl
    | succ k ih =>
      intro m
      have : hpbFun c s lower upper x m < 0 := by unfold hpbFun; linarith [h m]
      simp only [bracketLower, if_pos this]
      exact ih _
  simp only [hyperPlaneBoxProj, gen]; rfl

/-- C26 for `Simplex`: non-empty index set, radius `>= 0`. -/
theorem C26_simplex_prox (bisect : (ℝ → ℝ) → ℝ → ℝ → ℝ) (xtol : ℝ) (hb : BisectTol bisect xtol) [Nonempty ι]
    (radius tol : ℝ) (callFlag : Bool) (hr : 0 ≤ radius) (x : Vec ι) (τ : ℝ) (hτ : 0 < τ) :
    ∃ N, ∀ fuel, N ≤ fuel → ∃ p q, (Simplex bisect fuel radius tol callFlag).prox x τ = .ok p ∧ (∀ i, 0 ≤ p i) ∧
      IsUniqueProj {y : Vec ι | (∀ i, 0 ≤ y i) ∧ ∑ i, y i = radius} x q ∧
      ‖p - q‖ ≤ xtol * √(Fintype.card ι) := by
  classical
  have hset : {y : Vec ι | y ∈ boxSet (fun _ => some 0) (fun _ => none) ∧ ⟪(vmk fun _ => 1 : Vec ι), y⟫ = radius}
      = {y : Vec ι | (∀ i, 0 ≤ y i) ∧ ∑ i, y i = radius} := by
    ext y
    simp [boxSet, PiLp.inner_apply]
  have hnorm : ‖(vmk fun _ => 1 : Vec ι)‖ = √(Fintype.card ι) := by
    rw [EuclideanSpace.norm_eq]; simp
  have hne : ∃ y : Vec ι, y ∈ boxSet (fun _ => some 0) (fun _ => none) ∧ ⟪(vmk fun _ => 1 : Vec ι), y⟫ = radius := by
    obtain ⟨i0⟩ := ‹Nonempty ι›
    refine ⟨vmk fun i => if i = i0 then radius else 0, ?_, ?_⟩
    · intro i
      refine ⟨fun l hl => ?_, fun u hu => by cases hu⟩
      cases hl
      simp only
      split_ifs <;> simp [hr]
    · simp [PiLp.inner_apply]
  obtain ⟨N, h⟩ := C26_hyperplane_box_proj bisect xtol hb (vmk fun _ => 1) radius _ _ hne x
  refine ⟨N, fun fuel hfuel => ?_⟩
  obtain ⟨p, q, h1, h2, h3, h4⟩ := h fuel hfuel
  rw [hset] at h3
  rw [hnorm] at h4
  refine ⟨p, q, ?_, fun i => (h2 i).1 0 rfl, h3, h4⟩
  simp only [ProxOp.prox, Simplex, checkTau_pos hτ, simplexProj]
  exact h1

example : ∃ y : Vec (Fin 3), y ∈ boxSet (fun _ => some 0) (fun _ => some 1) ∧ ⟪(vmk ![1, -2, 3] : Vec (Fin 3)), y⟫ = 1 := by
  refine ⟨vmk ![1, 0, 0], ?_, by simp [PiLp.inner_apply, Fin.sum_univ_three]⟩
  rw [mem_boxSet]
  intro i
  fin_cases i <;> simp [geLower, leUpper]

end Verif
