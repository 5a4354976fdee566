import Verif.Lemmas.Intersection
import Verif.Lemmas.Loop
import Verif.Props.DykstraClosed

/-! # C79: the projection computed by Intersection -/

open scoped RealInnerProductSpace
open Filter Topology

set_option linter.unusedSectionVars false

namespace Verif

variable {k n : ℕ}

/-! ## Specification -/

/-- The set of the documentation: `|x_{i2} - x_{i1}| ≤ σ_{i1,i2}` for all `i1 < i2`, in every column. -/
def diffSet (σ : Fin k → Fin k → ℝ) : Set (Vec (Fin k × Fin n)) := {y | ∀ i1 i2, i1 < i2 → ∀ j, |y (i2, j) - y (i1, j)| ≤ σ i1 i2}

/-- The same with distances that may differ between columns. -/
def diffSetCols (σ : Fin k → Fin k → Fin n → ℝ) : Set (Vec (Fin k × Fin n)) := {y | ∀ i1 i2, i1 < i2 → ∀ j, |y (i2, j) - y (i1, j)| ≤ σ i1 i2 j}

/-! ## One update -/

/-- `∓ c / 2` in the two rows of a pair. -/
noncomputable def pairVec (p : Fin k × Fin k) (c : Fin n → ℝ) : Vec (Fin k × Fin n) :=
  vmk fun ij => if ij.1 = p.1 then -(1 / 2) * c ij.2 else if ij.1 = p.2 then 1 / 2 * c ij.2 else 0

lemma pairVec_zero (p : Fin k × Fin k) : pairVec p (fun _ : Fin n => 0) = 0 := by
  ext ij; simp [pairVec]

lemma mem_interPairs {p : Fin k × Fin k} : p ∈ interPairs k ↔ p.1 < p.2 := by
  simp only [interPairs, List.mem_filter, decide_eq_true_eq, and_iff_right_iff_imp]
  exact fun _ => List.mem_product.2 ⟨List.mem_finRange _, List.mem_finRange _⟩

lemma interPairs_nodup (k : ℕ) : (interPairs k).Nodup := ((List.nodup_finRange k).product (List.nodup_finRange k)).filter _

lemma pairVec_inner {p : Fin k × Fin k} (hp : p.1 < p.2) (c : Fin n → ℝ) (v : Vec (Fin k × Fin n)) :
    ⟪pairVec p c, v⟫ = ∑ j, 1 / 2 * c j * (v (p.2, j) - v (p.1, j)) := by
  have h1 : ⟪pairVec p c, v⟫ = ∑ ij, pairVec p c ij * v ij := by
    rw [PiLp.inner_apply]
    refine Finset.sum_congr rfl fun i _ => ?_
    simp [mul_comm]
  rw [h1, Fintype.sum_prod_type, Finset.sum_comm]
  refine Finset.sum_congr rfl fun j _ => ?_
  rw [Finset.sum_eq_add p.1 p.2 hp.ne]
  · simp only [pairVec, if_true, hp.ne', if_false]; ring
  · rintro i - ⟨h2, h3⟩
    simp [pairVec, h2, h3]
  · simp
  · simp

lemma pairVec_col {p : Fin k × Fin k} (hp : p.1 < p.2) (c : Fin n → ℝ) (j : Fin n) : ∑ i, pairVec p c (i, j) = 0 := by
  rw [Finset.sum_eq_add p.1 p.2 hp.ne]
  · simp only [pairVec, if_true, hp.ne', if_false]; ring
  · rintro i - ⟨h2, h3⟩
    simp [pairVec, h2, h3]
  · simp
  · simp

variable {σ : Fin k → Fin k → ℝ}

lemma interPair_x (s : InterState k n) (p : Fin k × Fin k) :
    (interPair σ s p).x = s.x + pairVec p (s.x12 p.1 p.2) - pairVec p (interD σ s p.1 p.2) := by
  ext ij
  simp only [interPair, pairVec, PiLp.add_apply, PiLp.sub_apply]
  split_ifs <;> norm_num <;> ring

lemma interPair_diff {p : Fin k × Fin k} (hp : p.1 < p.2) (s : InterState k n) (j : Fin n) :
    (interPair σ s p).x (p.2, j) - (interPair σ s p).x (p.1, j) = interT (σ p.1 p.2) (s.x (p.2, j) - s.x (p.1, j) + s.x12 p.1 p.2 j) := by
  simp only [interPair, if_true, hp.ne', if_false, interT, interD]
  norm_num
  ring

lemma interPair_x12_same (s : InterState k n) (p : Fin k × Fin k) : (interPair σ s p).x12 p.1 p.2 = interD σ s p.1 p.2 := by
  funext j; simp [interPair]

lemma interPair_x12_other (s : InterState k n) {p q : Fin k × Fin k} (h : q ≠ p) : (interPair σ s p).x12 q.1 q.2 = s.x12 q.1 q.2 := by
  funext j
  simp only [interPair]
  rw [if_neg]
  rintro ⟨h1, h2⟩
  exact h (Prod.ext h1 h2)

lemma foldl_x12_other (l : List (Fin k × Fin k)) (q : Fin k × Fin k) (h : q ∉ l) (s : InterState k n) :
    (l.foldl (interPair σ) s).x12 q.1 q.2 = s.x12 q.1 q.2 := by
  induction l generalizing s with
  | nil => rfl
  | cons p l ih =>
    rw [List.foldl_cons, ih (fun hm => h (List.mem_cons_of_mem _ hm)), interPair_x12_other s fun e => h (by rw [e]; exact List.mem_cons_self)]

/-- The states after the first `i` updates of a sweep. -/
noncomputable def sweepAt (σ : Fin k → Fin k → ℝ) (s : InterState k n) (i : ℕ) : InterState k n := ((interPairs k).take i).foldl (interPair σ) s

lemma sweepAt_succ (s : InterState k n) (i : Fin (interPairs k).length) : sweepAt σ s (i + 1) = interPair σ (sweepAt σ s i) ((interPairs k).get i) := by
  unfold sweepAt
  rw [List.take_succ_eq_append_getElem i.2, List.foldl_append]
  rfl

lemma sweepAt_end (s : InterState k n) : sweepAt σ s (interPairs k).length = interSweep σ s := by
  unfold sweepAt interSweep
  rw [List.take_length]

lemma sweepAt_x12_before (s : InterState k n) (i : Fin (interPairs k).length) :
    (sweepAt σ s i).x12 ((interPairs k).get i).1 ((interPairs k).get i).2 = s.x12 ((interPairs k).get i).1 ((interPairs k).get i).2 := by
  refine foldl_x12_other _ _ (fun h => ?_) s
  have hn := interPairs_nodup k
  rw [← List.take_append_drop i (interPairs k)] at hn
  refine (List.nodup_append.1 hn).2.2 _ h _ ?_ rfl
  rw [List.drop_eq_getElem_cons i.2]
  exact List.mem_cons_self

lemma sweepAt_x12_after (s : InterState k n) (i : Fin (interPairs k).length) :
    (interSweep σ s).x12 ((interPairs k).get i).1 ((interPairs k).get i).2 = interD σ (sweepAt σ s i) ((interPairs k).get i).1 ((interPairs k).get i).2 := by
  have e : interSweep σ s = ((interPairs k).drop (i + 1)).foldl (interPair σ) (sweepAt σ s (i + 1)) := by
    unfold interSweep sweepAt
    rw [← List.foldl_append, List.take_append_drop]
  rw [e, foldl_x12_other _ _ (fun h => ?_), sweepAt_succ, interPair_x12_same]
  have hn := interPairs_nodup k
  rw [← List.take_append_drop i (interPairs k), List.drop_eq_getElem_cons i.2] at hn
  exact (List.nodup_cons.1 (List.nodup_append.1 hn).2.1).1 h

/-! ## The functions minimised -/

/-- The function of a pair: `½ ∑_j φ(x_{i2,j} - x_{i1,j})`. -/
noncomputable def pairFun (σ : Fin k → Fin k → ℝ) (p : Fin k × Fin k) : XFun (Vec (Fin k × Fin n)) :=
  sumObj fun j : Fin n => ((potential (interT (σ p.1 p.2))).smul (1 / 2)).comp fun x : Vec (Fin k × Fin n) => x (p.2, j) - x (p.1, j)

lemma interT_cond {s : ℝ} (hs : 0 ≤ s) : Monotone (interT s) ∧ Monotone fun t => t - interT s t :=
  ⟨interT_monotone hs, by rw [interT_shrink]; exact interShrink_monotone⟩

lemma pairFun_closed (hσ : ∀ i1 i2, i1 < i2 → 0 ≤ σ i1 i2) {p : Fin k × Fin k} (hp : p.1 < p.2) : (pairFun σ p : XFun (Vec (Fin k × Fin n))).Closed := by
  refine closed_sum (fun j => closed_comp (smul_closed (potential_closed _) (by norm_num)) (by fun_prop)) fun j => ?_
  refine ⟨0, 0, ?_, fun y hy => ?_⟩
  · have h1 := potential_subgrad (interT_cond (hσ _ _ hp)).1 (interT_cond (hσ _ _ hp)).2 0
    rw [interT_small (by simpa using hσ _ _ hp)] at h1
    simpa [XFun.comp, XFun.smul] using h1.1
  · have h1 := potential_subgrad (interT_cond (hσ _ _ hp)).1 (interT_cond (hσ _ _ hp)).2 0
    rw [interT_small (by simpa using hσ _ _ hp)] at h1
    have h2 := h1.2 _ hy
    rw [sub_self, inner_zero_left, add_zero] at h2
    rw [inner_zero_left, add_zero]
    simp only [XFun.comp, XFun.smul, PiLp.zero_apply, sub_self]
    linarith

lemma pairFun_subgrad (hσ : ∀ i1 i2, i1 < i2 → 0 ≤ σ i1 i2) {p : Fin k × Fin k} (hp : p.1 < p.2) {x : Vec (Fin k × Fin n)} {t : Fin n → ℝ}
    (hx : ∀ j, x (p.2, j) - x (p.1, j) = interT (σ p.1 p.2) (t j)) : IsSubgrad (pairFun σ p) x (pairVec p fun j => interShrink (σ p.1 p.2) (t j)) := by
  have h1 := fun j => potential_subgrad (interT_cond (hσ _ _ hp)).1 (interT_cond (hσ _ _ hp)).2 (t j)
  refine ⟨fun j => ?_, fun y hy => ?_⟩
  · simp only [XFun.comp, XFun.smul, Set.mem_ofPred_eq, hx]
    exact (h1 j).1
  · rw [pairVec_inner hp]
    simp only [pairFun, sumObj, XFun.comp, XFun.smul]
    rw [← Finset.sum_add_distrib]
    refine Finset.sum_le_sum fun j _ => ?_
    have h2 := (h1 j).2 _ (hy j)
    have h3 : t j - interT (σ p.1 p.2) (t j) = interShrink (σ p.1 p.2) (t j) := by unfold interT; ring
    rw [h3] at h2
    have h4 : ∀ a b : ℝ, ⟪a, b⟫ = a * b := fun a b => by simp [mul_comm]
    rw [h4, ← hx] at h2
    simp only [PiLp.sub_apply]
    linarith

/-- A point where the optimality condition holds is the projection onto the set with slightly larger distances. -/
lemma proj_of_sum (hσ : ∀ i1 i2, i1 < i2 → 0 ≤ σ i1 i2) {x0 p : Vec (Fin k × Fin n)}
    (h : IsSubgrad (sumObj fun i => pairFun σ ((interPairs k).get i)) p (x0 - p)) :
    ∃ σ' : Fin k → Fin k → Fin n → ℝ, (∀ i1 i2, i1 < i2 → ∀ j, σ i1 i2 ≤ σ' i1 i2 j ∧ σ' i1 i2 j ≤ σ i1 i2 + 1e-10) ∧ IsUniqueProj (diffSetCols σ') x0 p := by
  have hdom : ∀ i1 i2, i1 < i2 → ∀ j, p (i2, j) - p (i1, j) ∈ (potential (interT (σ i1 i2))).dom := by
    intro i1 i2 hi j
    obtain ⟨i, hi'⟩ := List.get_of_mem (mem_interPairs (p := (i1, i2)).2 hi)
    have := h.1 i j
    rw [hi'] at this
    exact this
  refine ⟨fun i1 i2 j => max (σ i1 i2) |p (i2, j) - p (i1, j)|, fun i1 i2 hi j => ⟨le_max_left _ _, max_le (le_add_of_nonneg_right (by norm_num)) ?_⟩, ?_⟩
  · exact potential_dom_bound (interT_cond (hσ _ _ hi)).1 (interT_cond (hσ _ _ hi)).2 (interT_odd _) (fun t => (interT_lt (hσ _ _ hi) t).le) (hdom i1 i2 hi j)
  · refine isUniqueProj_of_variational (fun i1 i2 hi j => le_max_right _ _) fun y hy => ?_
    have hm : ∀ (i : Fin (interPairs k).length) (j : Fin n), _ := fun i j =>
      inter_potential_mono (hσ _ _ (mem_interPairs.1 (List.get_mem (interPairs k) i))) (hdom _ _ (mem_interPairs.1 (List.get_mem (interPairs k) i)) j)
        (hy _ _ (mem_interPairs.1 (List.get_mem (interPairs k) i)) j)
    have h1 := h.2 y fun i j => (hm i j).1
    have h2 : (sumObj fun i => pairFun σ ((interPairs k).get i)).val y ≤ (sumObj fun i => pairFun σ ((interPairs k).get i)).val p := by
      simp only [pairFun, sumObj, XFun.comp, XFun.smul]
      refine Finset.sum_le_sum fun i _ => Finset.sum_le_sum fun j _ => ?_
      exact mul_le_mul_of_nonneg_left (hm i j).2 (by norm_num)
    linarith

/-! ## Runs -/

/-- The states after `i` sweeps. -/
noncomputable def sweeps (σ : Fin k → Fin k → ℝ) (x0 : Vec (Fin k × Fin n)) (i : ℕ) : InterState k n := (interSweep σ)^[i] ⟨x0, fun _ _ _ => 0⟩

lemma sweeps_succ (x0 : Vec (Fin k × Fin n)) (i : ℕ) : sweeps σ x0 (i + 1) = interSweep σ (sweeps σ x0 i) := Function.iterate_succ_apply' _ _ _

/-- The corrections as vectors. -/
noncomputable def corr (s : InterState k n) (i : Fin (interPairs k).length) : Vec (Fin k × Fin n) :=
  pairVec ((interPairs k).get i) (s.x12 ((interPairs k).get i).1 ((interPairs k).get i).2)

lemma inter_run (hσ : ∀ i1 i2, i1 < i2 → 0 ≤ σ i1 i2) (x0 : Vec (Fin k × Fin n)) :
    DykRun (fun i => pairFun σ ((interPairs k).get i)) x0 (fun l i => (sweepAt σ (sweeps σ x0 l) i).x) (fun l => corr (sweeps σ x0 l)) := by
  refine ⟨rfl, fun j => pairVec_zero _, fun l => ?_, fun l i => ?_, fun l i => ?_⟩
  · rw [sweepAt_end, sweeps_succ]; rfl
  · unfold corr
    rw [sweeps_succ, sweepAt_x12_after, sweepAt_succ, interPair_x, sweepAt_x12_before]
    abel
  · have hp := mem_interPairs.1 (List.get_mem (interPairs k) i)
    have := pairFun_subgrad hσ hp (x := (sweepAt σ (sweeps σ x0 l) (i + 1)).x) (t := fun j => (sweepAt σ (sweeps σ x0 l) i).x (((interPairs k).get i).2, j) -
      (sweepAt σ (sweeps σ x0 l) i).x (((interPairs k).get i).1, j) + (sweepAt σ (sweeps σ x0 l) i).x12 ((interPairs k).get i).1 ((interPairs k).get i).2 j)
      (fun j => by rw [sweepAt_succ, interPair_diff hp])
    unfold corr
    rw [sweeps_succ, sweepAt_x12_after]
    exact this

lemma interBody_eq [NeZero n] (tol : ℝ) (i : ℕ) (s : InterState k n) : ∃ b, interBody σ tol i s = .ok (interSweep σ s, b) ∧
    (b = true ↔ ∀ j : Fin n, ∑ l, |(interSweep σ s).x (l, j) - s.x (l, j)| < tol) := by
  classical
  unfold interBody
  rw [if_neg (NeZero.ne n)]
  exact ⟨_, rfl, by simp⟩

lemma inter_traj [NeZero n] (tol : ℝ) (x0 : Vec (Fin k × Fin n)) (niter : ℕ) : ∃ i ≤ niter, IntersectionProj σ niter tol x0 = .ok (sweeps σ x0 i) ∧
    (i < niter → ∃ l, i = l + 1 ∧ ∀ j : Fin n, ∑ a, |(sweeps σ x0 i).x (a, j) - (sweeps σ x0 l).x (a, j)| < tol) ∧
    ∀ l, l + 1 < i → ¬ ∀ j : Fin n, ∑ a, |(sweeps σ x0 (l + 1)).x (a, j) - (sweeps σ x0 l).x (a, j)| < tol := by
  obtain ⟨T, B, h0, -, h2, h3⟩ := forRange_traj (interBody σ tol) (fun _ => True)
    (fun _ s s' b => s' = interSweep σ s ∧ (b = true ↔ ∀ j : Fin n, ∑ l, |(interSweep σ s).x (l, j) - s.x (l, j)| < tol))
    (fun i s _ => by
      obtain ⟨b, h1, h2⟩ := interBody_eq (σ := σ) tol i s
      exact ⟨_, b, h1, trivial, rfl, h2⟩) ⟨x0, fun _ _ _ => 0⟩ trivial
  have hT : ∀ i, T i = sweeps σ x0 i := by
    intro i
    induction i with
    | zero => exact h0
    | succ i ih => rw [(h2 i).1, ih, sweeps_succ]
  obtain ⟨i, hi, h4, h5, h6⟩ := h3 niter
  refine ⟨i, hi, by rw [← hT]; exact h4, fun hlt => ?_, fun l hl => ?_⟩
  · obtain ⟨l, rfl, hl⟩ := h6 hlt
    refine ⟨l, rfl, ?_⟩
    have := (h2 l).2.1 hl
    rw [sweeps_succ, ← hT]; exact this
  · have h7 := (h2 l).2
    rw [h5 l hl, hT, ← sweeps_succ] at h7
    intro h8
    exact absurd (h7.2 h8) (by simp)

lemma sweeps_converge (hσ : ∀ i1 i2, i1 < i2 → 0 ≤ σ i1 i2) (x0 : Vec (Fin k × Fin n)) :
    ∃ p, Tendsto (fun l => (sweeps σ x0 l).x) atTop (𝓝 p) ∧ IsSubgrad (sumObj fun i => pairFun σ ((interPairs k).get i)) p (x0 - p) := by
  have h := dyk_converges (inter_run hσ x0) (fun i => pairFun_closed hσ (mem_interPairs.1 (List.get_mem (interPairs k) i))) (c0 := 0) (fun i j => by
    have hp := mem_interPairs.1 (List.get_mem (interPairs k) i)
    have h1 := potential_subgrad (interT_cond (hσ _ _ hp)).1 (interT_cond (hσ _ _ hp)).2 0
    rw [interT_small (by simpa using hσ _ _ hp)] at h1
    simpa [XFun.comp, XFun.smul] using h1.1)
  exact h

/-! ## The theorems -/

/-- C79: for every `k`, every positive number of columns, every array of nonnegative distances and every input, each call with a zero tolerance succeeds and the arrays returned converge,
as the number of iterations grows, to the exact projection of the input onto a set `|x_{i2} - x_{i1}| ≤ σ'` with `σ ≤ σ' ≤ σ + 1e-10`. -/
theorem C79_intersection_converges_partial [NeZero n] (hσ : ∀ i1 i2, i1 < i2 → 0 ≤ σ i1 i2) (x0 : Vec (Fin k × Fin n)) :
    ∃ (p : Vec (Fin k × Fin n)) (σ' : Fin k → Fin k → Fin n → ℝ), (∀ i1 i2, i1 < i2 → ∀ j, σ i1 i2 ≤ σ' i1 i2 j ∧ σ' i1 i2 j ≤ σ i1 i2 + 1e-10) ∧
      IsUniqueProj (diffSetCols σ') x0 p ∧
      ∃ R : ℕ → Vec (Fin k × Fin n), (∀ niter, IntersectionProj.result σ niter 0 x0 = .ok (R niter)) ∧ Tendsto R atTop (𝓝 p) := by
  obtain ⟨p, h1, h2⟩ := sweeps_converge hσ x0
  obtain ⟨σ', h3, h4⟩ := proj_of_sum hσ h2
  refine ⟨p, σ', h3, h4, fun l => (sweeps σ x0 l).x, fun niter => ?_, h1⟩
  obtain ⟨i, hi, h5, h6, -⟩ := inter_traj (σ := σ) 0 x0 niter
  have : i = niter := by
    by_contra hne
    obtain ⟨l, -, hl⟩ := h6 (by omega)
    exact absurd (hl 0) (not_lt.2 (Finset.sum_nonneg fun _ _ => abs_nonneg _))
  subst this
  simp only [IntersectionProj.result, h5]
  rfl

/-- C79: how far the limit is from the projection `q` onto the documented set, when all distances are at least `s > 0`. -/
theorem C79_intersection_error {s : ℝ} (hs : 0 < s) (hσ : ∀ i1 i2, i1 < i2 → s ≤ σ i1 i2) (σ' : Fin k → Fin k → Fin n → ℝ)
    (h' : ∀ i1 i2, i1 < i2 → ∀ j, σ i1 i2 ≤ σ' i1 i2 j ∧ σ' i1 i2 j ≤ σ i1 i2 + 1e-10) (x0 p q : Vec (Fin k × Fin n)) (hp : IsProj (diffSetCols σ') x0 p)
    (hq : IsProj (diffSet σ) x0 q) : ‖p - q‖ ^ 2 ≤ 2 * (1e-10 / s) * ‖p‖ * ‖x0 - p‖ + (1e-10 / s) ^ 2 * ‖p‖ ^ 2 := by
  have hconv : _root_.Convex ℝ (diffSetCols σ') := by
    intro a ha b hb u v hu hv huv i1 i2 hi j
    have e : (u • a + v • b) (i2, j) - (u • a + v • b) (i1, j) = u * (a (i2, j) - a (i1, j)) + v * (b (i2, j) - b (i1, j)) := by
      simp only [PiLp.add_apply, PiLp.smul_apply, smul_eq_mul]; ring
    rw [e]
    refine (abs_add_le _ _).trans ?_
    rw [abs_mul, abs_mul, abs_of_nonneg hu, abs_of_nonneg hv]
    have h1 := mul_le_mul_of_nonneg_left (ha i1 i2 hi j) hu
    have h2 := mul_le_mul_of_nonneg_left (hb i1 i2 hi j) hv
    have h3 : u * σ' i1 i2 j + v * σ' i1 i2 j = σ' i1 i2 j := by rw [← add_mul, huv, one_mul]
    linarith
  have hvar := (subgrad_of_isProx (indicator_convex hconv) one_pos ((isProj_iff_isProx one_pos).2 hp)).2 q fun i1 i2 hi j => (hq.1 i1 i2 hi j).trans (h' i1 i2 hi j).1
  simp only [XFun.indicator, div_one, one_smul, zero_add] at hvar
  have e1 : ‖x0 - q‖ ^ 2 = ‖x0 - p‖ ^ 2 + ‖p - q‖ ^ 2 - 2 * ⟪x0 - p, q - p⟫ := by
    rw [show x0 - q = (x0 - p) - (q - p) by abel, norm_sub_sq_real, norm_sub_rev p q]; ring
  have hmem : (s / (s + 1e-10)) • p ∈ diffSet σ := by
    intro i1 i2 hi j
    simp only [PiLp.smul_apply, smul_eq_mul]
    rw [← mul_sub, abs_mul, abs_of_pos (by positivity)]
    have h1 := (hp.1 i1 i2 hi j).trans (h' i1 i2 hi j).2
    have h2 := hσ i1 i2 hi
    rw [div_mul_eq_mul_div, div_le_iff₀ (by positivity)]
    nlinarith
  have h2 := hq.2 _ hmem
  have h3 : ‖x0 - (s / (s + 1e-10)) • p‖ ≤ ‖x0 - p‖ + 1e-10 / s * ‖p‖ := by
    have e : x0 - (s / (s + 1e-10)) • p = (x0 - p) + (1e-10 / (s + 1e-10)) • p := by
      have : (1e-10 / (s + 1e-10) : ℝ) = 1 - s / (s + 1e-10) := by field_simp; ring
      rw [this, sub_smul, one_smul]; abel
    rw [e]
    refine (norm_add_le _ _).trans (add_le_add le_rfl ?_)
    rw [norm_smul, Real.norm_eq_abs, abs_of_pos (by positivity)]
    refine mul_le_mul_of_nonneg_right ?_ (norm_nonneg _)
    exact div_le_div_of_nonneg_left (by norm_num) hs (by norm_num)
  have h4 : ‖x0 - q‖ ^ 2 ≤ (‖x0 - p‖ + 1e-10 / s * ‖p‖) ^ 2 := pow_le_pow_left₀ (norm_nonneg _) (h2.trans h3) 2
  nlinarith

/-- C79: a positive tolerance is eventually met: from some number of iterations on the result no longer depends on it. -/
theorem C79_intersection_terminates [NeZero n] (hσ : ∀ i1 i2, i1 < i2 → 0 ≤ σ i1 i2) (x0 : Vec (Fin k × Fin n)) {tol : ℝ} (htol : 0 < tol) :
    ∃ N r, ∀ niter, N ≤ niter → IntersectionProj.result σ niter tol x0 = .ok r := by
  classical
  obtain ⟨p, h1, -⟩ := sweeps_converge hσ x0
  have hsm : ∃ l, ∀ j : Fin n, ∑ a, |(sweeps σ x0 (l + 1)).x (a, j) - (sweeps σ x0 l).x (a, j)| < tol := by
    have h2 : ∀ j : Fin n, Tendsto (fun l => ∑ a, |(sweeps σ x0 (l + 1)).x (a, j) - (sweeps σ x0 l).x (a, j)|) atTop (𝓝 0) := by
      intro j
      have h3 : ∀ a, Tendsto (fun l => |(sweeps σ x0 (l + 1)).x (a, j) - (sweeps σ x0 l).x (a, j)|) atTop (𝓝 0) := by
        intro a
        have hc : Continuous fun v : Vec (Fin k × Fin n) => v (a, j) := by fun_prop
        have h4 := (hc.tendsto p).comp h1
        have h5 := ((h4.comp (tendsto_add_atTop_nat 1)).sub h4).abs
        simpa using h5
      simpa using tendsto_finsetSum Finset.univ fun a _ => h3 a
    exact (eventually_all.2 fun j => (h2 j).eventually (gt_mem_nhds htol)).exists
  refine ⟨Nat.find hsm + 1, (sweeps σ x0 (Nat.find hsm + 1)).x, fun niter hn => ?_⟩
  obtain ⟨i, hi, h5, h6, h7⟩ := inter_traj (σ := σ) tol x0 niter
  have hle : i ≤ Nat.find hsm + 1 := by
    by_contra hc
    exact h7 (Nat.find hsm) (by omega) (Nat.find_spec hsm)
  have : i = Nat.find hsm + 1 := by
    rcases hi.lt_or_eq with hlt | heq
    · obtain ⟨l, rfl, hl⟩ := h6 hlt
      have := Nat.find_min' hsm hl
      omega
    · omega
  subst this
  simp only [IntersectionProj.result, h5]
  rfl

/-- C79: with an empty set of columns the call fails as soon as an iteration is made. -/
theorem C79_intersection_empty (σ : Fin k → Fin k → ℝ) (niter : ℕ) (tol : ℝ) (x0 : Vec (Fin k × Fin 0)) :
    IntersectionProj.result σ (niter + 1) tol x0 = .error .valueError := by
  simp [IntersectionProj.result, IntersectionProj, forRange, interBody]

/-- C79: the sum of the entries of each column never changes, whatever the distances, the tolerance and the number of iterations. -/
theorem C79_intersection_mean (σ : Fin k → Fin k → ℝ) (niter : ℕ) (tol : ℝ) (x0 r : Vec (Fin k × Fin n)) (hr : IntersectionProj.result σ niter tol x0 = .ok r) (j : Fin n) :
    ∑ i, r (i, j) = ∑ i, x0 (i, j) := by
  obtain ⟨s, hs, rfl⟩ := py_bind_ok hr
  refine forRange_inv (I := fun s : InterState k n => ∑ i, s.x (i, j) = ∑ i, x0 (i, j)) (fun i s s' b hI hb => ?_) _ _ _ _ rfl hs
  unfold interBody at hb
  split_ifs at hb
  cases hb
  rw [← hI]
  have key : ∀ (l : List (Fin k × Fin k)), (∀ p ∈ l, p.1 < p.2) → ∀ s : InterState k n, ∑ i, (l.foldl (interPair σ) s).x (i, j) = ∑ i, s.x (i, j) := by
    intro l
    induction l with
    | nil => intro _ s; rfl
    | cons p l ih =>
      intro hl s
      rw [List.foldl_cons, ih fun q hq => hl q (List.mem_cons_of_mem _ hq), interPair_x]
      simp only [PiLp.add_apply, PiLp.sub_apply, Finset.sum_add_distrib, Finset.sum_sub_distrib]
      rw [pairVec_col (hl p List.mem_cons_self), pairVec_col (hl p List.mem_cons_self)]; ring
  exact key _ (fun p hp => mem_interPairs.1 hp) s

/-- C79: points of the set are returned unchanged. -/
theorem C79_intersection_feasible [NeZero n] (σ : Fin k → Fin k → ℝ) (niter : ℕ) (tol : ℝ) (x0 : Vec (Fin k × Fin n)) (hx : x0 ∈ diffSet σ) :
    IntersectionProj.result σ niter tol x0 = .ok x0 := by
  have hfix : ∀ p ∈ interPairs k, interPair σ (⟨x0, fun _ _ _ => 0⟩ : InterState k n) p = ⟨x0, fun _ _ _ => 0⟩ := by
    intro p hp
    have hd : interD σ (⟨x0, fun _ _ _ => 0⟩ : InterState k n) p.1 p.2 = fun _ => 0 := by
      funext j
      simp only [interD, add_zero]
      exact interShrink_small (hx p.1 p.2 (mem_interPairs.1 hp) j)
    refine InterState.mk.injEq .. ▸ ⟨?_, ?_⟩
    · have := interPair_x (σ := σ) (⟨x0, fun _ _ _ => 0⟩ : InterState k n) p
      rw [hd] at this
      exact this.trans (by simp)
    · funext a b j
      rw [hd]; simp
  have hsw : interSweep σ (⟨x0, fun _ _ _ => 0⟩ : InterState k n) = ⟨x0, fun _ _ _ => 0⟩ := by
    unfold interSweep
    generalize interPairs k = l at hfix
    induction l with
    | nil => rfl
    | cons p l ih => rw [List.foldl_cons, hfix p List.mem_cons_self]; exact ih fun q hq => hfix q (List.mem_cons_of_mem _ hq)
  obtain ⟨i, -, h5, -⟩ := inter_traj (σ := σ) tol x0 niter
  have : sweeps σ x0 i = ⟨x0, fun _ _ _ => 0⟩ := Function.iterate_fixed hsw i
  simp only [IntersectionProj.result, h5, this]
  rfl

/-- C79: a sweep that changes neither the array nor the corrections has found the projection onto a set with distances `σ ≤ σ' ≤ σ + 1e-10`. -/
theorem C79_intersection_stationary_partial (hσ : ∀ i1 i2, i1 < i2 → 0 ≤ σ i1 i2) (niter : ℕ) (tol : ℝ) (x0 : Vec (Fin k × Fin n)) (s : InterState k n)
    (hr : IntersectionProj σ niter tol x0 = .ok s) (hfix : interSweep σ s = s) :
    ∃ σ' : Fin k → Fin k → Fin n → ℝ, (∀ i1 i2, i1 < i2 → ∀ j, σ i1 i2 ≤ σ' i1 i2 j ∧ σ' i1 i2 j ≤ σ i1 i2 + 1e-10) ∧ IsUniqueProj (diffSetCols σ') x0 s.x := by
  obtain ⟨l, rfl⟩ : ∃ l, s = sweeps σ x0 l := by
    refine forRange_inv (I := fun s : InterState k n => ∃ l, s = sweeps σ x0 l) (fun i s s' b hI hb => ?_) _ _ _ _ ⟨0, rfl⟩ hr
    unfold interBody at hb
    split_ifs at hb
    cases hb
    obtain ⟨l, rfl⟩ := hI
    exact ⟨l + 1, (sweeps_succ x0 l).symm⟩
  set s := sweeps σ x0 l with hs
  have hstep : ∀ i : Fin (interPairs k).length, sweepAt σ s i = s ∧ interPair σ s ((interPairs k).get i) = s := by
    have hat : ∀ i : Fin (interPairs k).length, sweepAt σ s i = s → interPair σ s ((interPairs k).get i) = s := by
      intro i hi
      have h1 := sweepAt_x12_after (σ := σ) s i
      rw [hfix, hi] at h1
      have h2 := interPair_x (σ := σ) s ((interPairs k).get i)
      rw [← h1, add_sub_cancel_right] at h2
      have h3 : (interPair σ s ((interPairs k).get i)).x12 = s.x12 := by
        funext a b
        by_cases h : (a, b) = (interPairs k).get i
        · have h4 := interPair_x12_same (σ := σ) s ((interPairs k).get i)
          rw [← h1, ← h] at h4
          rw [← h]; exact h4
        · exact interPair_x12_other (σ := σ) s h
      cases hsx : interPair σ s ((interPairs k).get i) with
      | mk a b =>
        rw [hsx] at h2 h3
        simp only at h2 h3
        rw [h2, h3]
    have hall : ∀ i, i ≤ (interPairs k).length → sweepAt σ s i = s := by
      intro i
      induction i with
      | zero => intro _; rfl
      | succ i ih =>
        intro hi
        have h1 := ih (by omega)
        rw [sweepAt_succ s ⟨i, hi⟩, h1]
        exact hat ⟨i, hi⟩ h1
    exact fun i => ⟨hall i i.2.le, hat i (hall i i.2.le)⟩
  have hsub : ∀ i, IsSubgrad (pairFun σ ((interPairs k).get i)) s.x (corr s i) := by
    intro i
    have hp := mem_interPairs.1 (List.get_mem (interPairs k) i)
    have h1 := pairFun_subgrad hσ hp (x := s.x) (t := fun j => s.x (((interPairs k).get i).2, j) - s.x (((interPairs k).get i).1, j) +
      s.x12 ((interPairs k).get i).1 ((interPairs k).get i).2 j) (fun j => by
        rw [← interPair_diff hp, (hstep i).2])
    have h2 := sweepAt_x12_after (σ := σ) s i
    rw [hfix, (hstep i).1] at h2
    unfold corr
    rw [h2]; exact h1
  have h3 := sumObj_subgrad hsub
  have h4 := (inter_run hσ x0).conserved l
  have h5 : (sweepAt σ (sweeps σ x0 l) 0).x = s.x := rfl
  rw [h5, ← hs] at h4
  rw [show ∑ i, corr s i = x0 - s.x by rw [← h4]; abel] at h3
  exact proj_of_sum hσ h3

lemma sweep_two (σ : Fin 2 → Fin 2 → ℝ) (s : InterState 2 n) : interSweep σ s = interPair σ s (0, 1) := rfl

lemma sweeps_two (σ : Fin 2 → Fin 2 → ℝ) (x0 : Vec (Fin 2 × Fin n)) (j : Fin n) (i : ℕ) :
    (sweeps σ x0 i).x (1, j) - (sweeps σ x0 i).x (0, j) + (sweeps σ x0 i).x12 0 1 j = x0 (1, j) - x0 (0, j) ∧
      (sweeps σ x0 (i + 1)).x (1, j) - (sweeps σ x0 (i + 1)).x (0, j) = interT (σ 0 1) (x0 (1, j) - x0 (0, j)) := by
  have step : ∀ i, (sweeps σ x0 (i + 1)).x (1, j) - (sweeps σ x0 (i + 1)).x (0, j) =
      interT (σ 0 1) ((sweeps σ x0 i).x (1, j) - (sweeps σ x0 i).x (0, j) + (sweeps σ x0 i).x12 0 1 j) := fun i => by
    rw [sweeps_succ, sweep_two]
    exact interPair_diff (p := (0, 1)) (by decide) _ j
  have h12 : ∀ i, (sweeps σ x0 (i + 1)).x12 0 1 j = interShrink (σ 0 1) ((sweeps σ x0 i).x (1, j) - (sweeps σ x0 i).x (0, j) + (sweeps σ x0 i).x12 0 1 j) := fun i => by
    rw [sweeps_succ, sweep_two]
    exact congrFun (interPair_x12_same (sweeps σ x0 i) (0, 1)) j
  have h1 : ∀ i, (sweeps σ x0 i).x (1, j) - (sweeps σ x0 i).x (0, j) + (sweeps σ x0 i).x12 0 1 j = x0 (1, j) - x0 (0, j) := by
    intro i
    induction i with
    | zero => simp [sweeps]
    | succ i ih => rw [step, h12, ih]; unfold interT; ring
  exact ⟨h1 i, by rw [step, h1]⟩

/-- C79 fails as stated: for two rows, whenever the input violates the constraint in a column the output violates it too, after every number of iterations. -/
theorem C79_intersection_infeasible_refuted [NeZero n] (σ : Fin 2 → Fin 2 → ℝ) (hσ : 0 ≤ σ 0 1) (niter : ℕ) (tol : ℝ) (x0 : Vec (Fin 2 × Fin n)) (j : Fin n)
    (hx : σ 0 1 < |x0 (1, j) - x0 (0, j)|) : ∃ r, IntersectionProj.result σ niter tol x0 = .ok r ∧ σ 0 1 < |r (1, j) - r (0, j)| ∧ r ∉ diffSet σ := by
  obtain ⟨i, -, h5, -⟩ := inter_traj (σ := σ) tol x0 niter
  have h1 : σ 0 1 < |(sweeps σ x0 i).x (1, j) - (sweeps σ x0 i).x (0, j)| := by
    cases i with
    | zero => exact hx
    | succ i => rw [(sweeps_two σ x0 j i).2]; exact interT_gt hσ hx
  refine ⟨(sweeps σ x0 i).x, by simp only [IntersectionProj.result, h5]; rfl, h1, fun h => ?_⟩
  exact absurd (h 0 1 (by decide) j) (not_le.2 h1)

/-- C79: the value of the operator (`call=True`): membership up to the tolerance. -/
theorem C79_intersection_call (σ : Fin k → Fin k → ℝ) (niter : ℕ) (tol callTol : ℝ) (x : Vec (Fin k × Fin n)) :
    ∃ b, (Intersection σ niter tol callTol true).call x = .ok (.bool b) ∧ (b = true ↔ x ∈ diffSet fun i1 i2 => σ i1 i2 + callTol) := by
  classical
  refine ⟨_, rfl, ?_⟩
  simp only [decide_eq_true_eq, diffSet, Set.mem_ofPred_eq, gt_iff_lt, not_lt]
  constructor
  · intro h i1 i2 hi j
    rw [abs_sub_comm]; exact h j i1 i2 hi
  · intro h j i1 i2 hi
    rw [abs_sub_comm]; exact h i1 i2 hi j

/-- C79: with `call=False` the value is always `False`, also at points of the set. -/
theorem C79_intersection_call_off (σ : Fin k → Fin k → ℝ) (niter : ℕ) (tol callTol : ℝ) (x : Vec (Fin k × Fin n)) :
    (Intersection σ niter tol callTol false).call x = .ok (.bool false) := rfl

/-- C79: the limit passes the membership test of the operator (whose default tolerance is `1e-8`), for positive steps `prox` is the projection computed, and it rejects the others. -/
theorem C79_intersection_operator (σ : Fin k → Fin k → ℝ) (niter : ℕ) (tol callTol : ℝ) (hcall : 1e-10 ≤ callTol) (p : Vec (Fin k × Fin n)) (σ' : Fin k → Fin k → Fin n → ℝ)
    (h' : ∀ i1 i2, i1 < i2 → ∀ j, σ i1 i2 ≤ σ' i1 i2 j ∧ σ' i1 i2 j ≤ σ i1 i2 + 1e-10) (hp : p ∈ diffSetCols σ') :
    (Intersection σ niter tol callTol true).call p = .ok (.bool true) ∧
      (∀ x τ, 0 < τ → (Intersection σ niter tol callTol true : ProxOp (Vec (Fin k × Fin n))).prox x τ = IntersectionProj.result σ niter tol x) ∧
      RejectsBadTau (Intersection σ niter tol callTol true : ProxOp (Vec (Fin k × Fin n))) := by
  refine ⟨?_, fun x τ hτ => ?_, rejects_of_guarded _ (fun m hm x τ hτ => ?_) (fun m hm x τ hτ => ?_)⟩
  · obtain ⟨b, h1, h2⟩ := C79_intersection_call σ niter tol callTol p
    rw [h1, h2.2 fun i1 i2 hi j => ((hp i1 i2 hi j).trans (h' i1 i2 hi j).2).trans (by linarith)]
  · rw [prox_of_some (f := Intersection σ niter tol callTol true) rfl]; exact checkTau_pos hτ _
  · cases hm; exact checkTau_nonpos hτ _
  · cases hm

/-- C36 fails here: the caller's array, if contiguous, is overwritten with the result. -/
theorem C36_intersection_input_refuted [NeZero n] (σ : Fin 2 → Fin 2 → ℝ) (hσ : 0 ≤ σ 0 1) (niter : ℕ) (tol : ℝ) (x0 : Vec (Fin 2 × Fin n)) (j : Fin n)
    (hx : σ 0 1 < |x0 (1, j) - x0 (0, j)|) : (IntersectionProj.inPlace true σ (niter + 1) tol x0).2 ≠ x0 := by
  obtain ⟨i, hi, h5, h6, -⟩ := inter_traj (σ := σ) tol x0 (niter + 1)
  obtain ⟨l, rfl⟩ : ∃ l, i = l + 1 := by
    rcases hi.lt_or_eq with hlt | heq
    · obtain ⟨l, h, -⟩ := h6 hlt
      exact ⟨l, h⟩
    · exact ⟨niter, heq⟩
  simp only [IntersectionProj.inPlace, h5, if_true]
  intro h
  have h1 := (sweeps_two σ x0 j l).2
  rw [h] at h1
  have h2 : interShrink (σ 0 1) (x0 (1, j) - x0 (0, j)) = 0 := by unfold interT at h1; linarith
  have h3 : x0 (1, j) - x0 (0, j) ≠ 0 := by
    intro h0
    rw [h0, abs_zero] at hx
    linarith
  unfold interShrink at h2
  rw [max_eq_right (by linarith)] at h2
  have h4 : (|x0 (1, j) - x0 (0, j)| - σ 0 1) * (x0 (1, j) - x0 (0, j)) / (|x0 (1, j) - x0 (0, j)| + 1e-10) ≠ 0 :=
    div_ne_zero (mul_ne_zero (by linarith) h3) (by positivity)
  exact h4 h2

/-- The hypotheses can be met: two rows, one column, distance one and the input `(0, 3)`. -/
example : (1 : ℝ) < |(vmk (fun ij : Fin 2 × Fin 1 => if ij.1 = 0 then 0 else 3)) (1, 0) - (vmk (fun ij : Fin 2 × Fin 1 => if ij.1 = 0 then (0 : ℝ) else 3)) (0, 0)| := by
  norm_num

end Verif
