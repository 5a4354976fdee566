import Verif.Model.SimplexEngines
import Verif.Props.Projections2

/-! # C92: the engines of `Simplex`, with `dims` and `axis` -/

open scoped RealInnerProductSpace

namespace Verif

variable {n : ℕ}

/-! ## Specification -/

/-- Position `i * d1 + j` of a vector of length `d0 * d1`. -/
def flatPos (d0 d1 : ℕ) (h : d0 * d1 = n) (i : Fin d0) (j : Fin d1) : Fin n :=
  ⟨i * d1 + j, by
    rw [← h]
    calc (i : ℕ) * d1 + j < i * d1 + d1 := by have := j.2; omega
      _ = (i + 1) * d1 := by ring
      _ ≤ d0 * d1 := Nat.mul_le_mul_right _ i.2⟩

/-- Row `i` of the `d0 x d1` matrix stored row by row in `x`. -/
noncomputable def rowOf (d0 d1 : ℕ) (h : d0 * d1 = n) (x : Vec (Fin n)) (i : Fin d0) : Vec (Fin d1) :=
  vmk fun j => x (flatPos d0 d1 h i j)

/-- Column `j` of the `d0 x d1` matrix stored row by row in `x`. -/
noncomputable def colOf (d0 d1 : ℕ) (h : d0 * d1 = n) (x : Vec (Fin n)) (j : Fin d1) : Vec (Fin d0) :=
  vmk fun i => x (flatPos d0 d1 h i j)

/-- `P` relates every line of `x` along `axis` to the same line of `p`, with numpy's meaning of `axis` for two dimensions:
`0` and `-2` are the columns, `1` and `-1` the rows. -/
def AlongAxis (P : ∀ C : ℕ, Vec (Fin C) → Vec (Fin C) → Prop) (d0 d1 : ℕ) (h : d0 * d1 = n) (axis : ℤ)
    (x p : Vec (Fin n)) : Prop :=
  ((axis = 0 ∨ axis = -2) → ∀ j, P d0 (colOf d0 d1 h x j) (colOf d0 d1 h p j)) ∧
  ((axis = 1 ∨ axis = -1) → ∀ i, P d1 (rowOf d0 d1 h x i) (rowOf d0 d1 h p i))

/-- `p` has no negative entry and is within `ε` of the projection of `x` onto the simplex of the given radius. -/
def NearSimplexProj (radius : ℝ) {C : ℕ} (x p : Vec (Fin C)) (ε : ℝ) : Prop :=
  (∀ j, 0 ≤ p j) ∧ ∃ q, IsUniqueProj {y : Vec (Fin C) | (∀ j, 0 ≤ y j) ∧ ∑ j, y j = radius} x q ∧ ‖p - q‖ ≤ ε

/-! ## Loops -/

lemma reshape2_eq (d0 d1 : ℕ) (h : d0 * d1 = n) (x : Vec (Fin n)) : reshape2 d0 d1 h x = rowOf d0 d1 h x := by
  funext i
  ext j
  have e : Fin.cast h (finProdFinEquiv (i, j)) = flatPos d0 d1 h i j := by
    apply Fin.ext
    simp only [flatPos, Fin.val_cast, finProdFinEquiv_apply_val]
    ring
  show x (Fin.cast h (finProdFinEquiv (i, j))) = x (flatPos d0 d1 h i j)
  rw [e]

lemma transpose2_rowOf (d0 d1 : ℕ) (h : d0 * d1 = n) (x : Vec (Fin n)) :
    transpose2 (rowOf d0 d1 h x) = colOf d0 d1 h x := rfl

lemma rowOf_ravel2 (d0 d1 : ℕ) (h : d0 * d1 = n) (y : Fin d0 → Vec (Fin d1)) :
    rowOf d0 d1 h (ravel2 d0 d1 h y) = y := by
  rw [← reshape2_eq]
  funext i
  ext j
  show y (finProdFinEquiv.symm (Fin.cast h.symm (Fin.cast h (finProdFinEquiv (i, j))))).1
    (finProdFinEquiv.symm (Fin.cast h.symm (Fin.cast h (finProdFinEquiv (i, j))))).2 = y i j
  rw [show Fin.cast h.symm (Fin.cast h (finProdFinEquiv (i, j))) = finProdFinEquiv (i, j) from rfl, Equiv.symm_apply_apply]

lemma colOf_ravel2 (d0 d1 : ℕ) (h : d0 * d1 = n) (y : Fin d1 → Vec (Fin d0)) :
    colOf d0 d1 h (ravel2 d0 d1 h (transpose2 y)) = y := by
  rw [← transpose2_rowOf, rowOf_ravel2]
  rfl

lemma rowLoop_aux {R C : ℕ} (f : Vec (Fin C) → Py (Vec (Fin C))) (x v : Fin R → Vec (Fin C)) (hv : ∀ i, f (x i) = .ok (v i)) :
    ∀ (l : List (Fin R)) (y : Fin R → Vec (Fin C)), ∃ z, (l.foldlM (fun y i => do
      let v ← f (x i)
      pure (Function.update y i v)) y : Py _) = .ok z ∧ ∀ i, z i = if i ∈ l then v i else y i := by
  intro l
  induction l with
  | nil => intro y; exact ⟨y, rfl, fun i => by simp⟩
  | cons a l ih =>
    intro y
    obtain ⟨z, hz, hz2⟩ := ih (Function.update y a (v a))
    refine ⟨z, ?_, fun i => ?_⟩
    · rw [List.foldlM_cons, hv]; exact hz
    · rw [hz2]
      by_cases h1 : i ∈ l
      · simp [h1]
      · by_cases h2 : i = a
        · subst h2; simp [h1]
        · simp [h1, h2]

lemma rowLoop_ok {R C : ℕ} (f : Vec (Fin C) → Py (Vec (Fin C))) (x v : Fin R → Vec (Fin C)) (hv : ∀ i, f (x i) = .ok (v i)) :
    rowLoop f x = .ok v := by
  obtain ⟨z, hz, hz2⟩ := rowLoop_aux f x v hv (List.finRange R) (fun _ => 0)
  rw [rowLoop, hz]
  congr 1
  funext i
  rw [hz2, if_pos (List.mem_finRange i)]

lemma rowLoop_inv {R C : ℕ} (f : Vec (Fin C) → Py (Vec (Fin C))) (x v : Fin R → Vec (Fin C)) (h : rowLoop f x = .ok v) :
    ∀ i, f (x i) = .ok (v i) := by
  have key : ∀ (l : List (Fin R)) (y z : Fin R → Vec (Fin C)), (l.foldlM (fun y i => do
      let v ← f (x i)
      pure (Function.update y i v)) y : Py _) = .ok z → ∀ i ∈ l, ∃ w, f (x i) = .ok w := by
    intro l
    induction l with
    | nil => intro y z _ i hi; cases hi
    | cons a l ih =>
      intro y z hz i hi
      rw [List.foldlM_cons] at hz
      rcases hfa : f (x a) with e | w
      · rw [hfa] at hz; cases hz
      · rw [hfa] at hz
        rcases List.mem_cons.1 hi with rfl | hi
        · exact ⟨w, hfa⟩
        · exact ih _ z hz i hi
  have h1 : ∀ i, ∃ w, f (x i) = .ok w := fun i => key _ _ _ h i (List.mem_finRange i)
  choose w hw using h1
  have := rowLoop_ok f x w hw
  rw [h] at this
  cases this
  exact hw

lemma cudaLoop_aux {R C : ℕ} (f : Vec (Fin C) → Py (Vec (Fin C))) (x v : Fin R → Vec (Fin C))
    (hv : ∀ i, f (x i) = .ok (v i)) (T : ℕ) :
    ∀ (l : List (ℕ × ℕ × Fin C)) (y : Fin R → Fin C → ℝ), ∃ z, l.foldlM (cudaStore f x T) y = .ok z ∧
      ∀ (i : Fin R) (j : Fin C), ((∃ b t, (b, t, j) ∈ l ∧ t + b * T = (i : ℕ)) → z i j = v i j) ∧
        ((¬ ∃ b t, (b, t, j) ∈ l ∧ t + b * T = (i : ℕ)) → z i j = y i j) := by
  intro l
  induction l with
  | nil => intro y; exact ⟨y, rfl, fun i j => ⟨by simp, fun _ => rfl⟩⟩
  | cons a l ih =>
    intro y
    obtain ⟨b, t, k⟩ := a
    have hs : ∃ y', cudaStore f x T y (b, t, k) = .ok y' ∧
        ∀ i j, y' i j = if t + b * T = (i : ℕ) ∧ j = k then v i j else y i j := by
      unfold cudaStore
      by_cases h : t + b * T < R
      · refine ⟨Function.update y ⟨t + b * T, h⟩ (Function.update (y ⟨t + b * T, h⟩) k (v ⟨t + b * T, h⟩ k)), ?_, fun i j => ?_⟩
        · simp only [dif_pos h, hv]; rfl
        · by_cases h1 : i = ⟨t + b * T, h⟩
          · subst h1
            by_cases h2 : j = k
            · subst h2; simp
            · simp [h2]
          · have : ¬ (t + b * T = (i : ℕ)) := fun e => h1 (Fin.ext e.symm)
            simp [h1, this]
      · refine ⟨y, by simp only [dif_neg h]; rfl, fun i j => ?_⟩
        have : ¬ (t + b * T = (i : ℕ)) := fun e => h (e ▸ i.2)
        simp [this]
    obtain ⟨y', hy', hy2⟩ := hs
    obtain ⟨z, hz, hz2⟩ := ih y'
    refine ⟨z, by rw [List.foldlM_cons, hy']; exact hz, fun i j => ⟨?_, ?_⟩⟩
    · rintro ⟨b', t', hm, e⟩
      by_cases h1 : ∃ b t, (b, t, j) ∈ l ∧ t + b * T = (i : ℕ)
      · exact (hz2 i j).1 h1
      · rw [(hz2 i j).2 h1, hy2]
        rcases List.mem_cons.1 hm with h2 | h2
        · cases h2; rw [if_pos ⟨e, rfl⟩]
        · exact absurd ⟨b', t', h2, e⟩ h1
    · intro h1
      have h2 : ¬ ∃ b t, (b, t, j) ∈ l ∧ t + b * T = (i : ℕ) := fun ⟨b', t', hm, e⟩ => h1 ⟨b', t', List.mem_cons_of_mem _ hm, e⟩
      rw [(hz2 i j).2 h2, hy2, if_neg]
      rintro ⟨e, rfl⟩
      exact h1 ⟨b, t, List.mem_cons_self, e⟩

lemma cudaLoop_ok {R C : ℕ} (f : Vec (Fin C) → Py (Vec (Fin C))) (x v : Fin R → Vec (Fin C))
    (hv : ∀ i, f (x i) = .ok (v i)) (T : ℕ) (hT : 0 < T) (sched : List (ℕ × ℕ × Fin C)) (hs : sched.Perm (cudaGrid R C T))
    (junk : Fin R → Fin C → ℝ) : cudaLoop f T sched junk x = .ok v := by
  obtain ⟨z, hz, hz2⟩ := cudaLoop_aux f x v hv T sched junk
  have : ∀ i j, z i j = v i j := by
    intro i j
    refine (hz2 i j).1 ⟨i / T, i % T, hs.mem_iff.2 ?_, by rw [mul_comm]; exact Nat.mod_add_div _ _⟩
    simp only [cudaGrid, List.mem_flatMap, List.mem_map, List.mem_range, List.mem_finRange, true_and]
    refine ⟨i / T, ?_, i % T, Nat.mod_lt _ hT, j, rfl⟩
    rw [Nat.div_lt_iff_lt_mul hT]
    have h1 : (i : ℕ) < R := i.2
    have h2 := Nat.div_add_mod (R + T - 1) T
    have h3 := Nat.mod_lt (R + T - 1) hT
    rw [mul_comm] at h2
    omega
  rw [cudaLoop, hz]
  show Except.ok _ = _
  congr 1
  funext i
  ext j
  exact this i j

/-! ## The cuda device functions -/

lemma cudaSameSign_iff (a b : ℝ) (ha : a ≠ 0) : cudaSameSign a b ↔ npsign a = npsign b := by
  rw [npsign_eq_iff]
  unfold cudaSameSign
  rcases lt_or_gt_of_ne ha with ha' | ha' <;> rcases lt_trichotomy b 0 with hb | rfl | hb
  · rw [abs_of_neg ha', abs_of_neg hb, div_neg, div_neg, div_self ha, div_self hb.ne]
    simp [ha, hb.ne, ha', hb, hb.not_gt, ha'.not_gt]
  · simp [ha']
  · rw [abs_of_neg ha', abs_of_pos hb, div_neg, div_self ha, div_self hb.ne']
    constructor
    · rintro ⟨-, -, h⟩; norm_num at h
    · rintro ⟨-, h⟩; exact absurd (h.1 ha') hb.not_gt
  · rw [abs_of_pos ha', abs_of_neg hb, div_neg, div_self ha, div_self hb.ne]
    constructor
    · rintro ⟨-, -, h⟩; norm_num at h
    · rintro ⟨-, h⟩; exact absurd (h.2 hb) ha'.not_gt
  · simp [ha']
  · rw [abs_of_pos ha', abs_of_pos hb, div_self ha, div_self hb.ne']
    simp [ha, hb.ne', ha', hb, hb.not_gt, ha'.not_gt]

/-- C92: for a positive `ftol` the bisection of the cuda engine, which compares `v / abs(v)` and so divides zero by zero when
a value vanishes, returns on every function and interval what the numba engine returns. -/
theorem C92_bisect_cuda (f : ℝ → ℝ) (a b : ℝ) (maxiter : ℕ) (ftol xtol : ℝ) (hf : 0 < ftol) :
    bisectJitCuda f a b maxiter ftol xtol = bisectJit f a b maxiter ftol xtol := by
  have key : ∀ (k : ℕ) (a b fa c : ℝ), bisectLoopCuda f ftol xtol k a b fa c = bisectLoop f ftol xtol k a b fa c := by
    intro k
    induction k with
    | zero => intro a b fa c; rfl
    | succ k ih =>
      intro a b fa c
      simp only [bisectLoopCuda, bisectLoop]
      split_ifs with h1 h2 h3 h4 h4
      · rfl
      · rfl
      · exact ih _ _ _ _
      · rw [cudaSameSign_iff _ _ (fun e => h2 (by rw [e, abs_zero]; exact hf))] at h3; exact absurd h3 h4
      · rw [← cudaSameSign_iff _ _ (fun e => h2 (by rw [e, abs_zero]; exact hf))] at h4; exact absurd h4 h3
      · exact ih _ _ _ _
  simp only [bisectJitCuda, bisectJit, key]

lemma funCuda_eq {C : ℕ} (radius : ℝ) (x : Vec (Fin C)) :
    funCuda (vmk fun _ => 1) radius 0 10000000000 x
      = hpbFun (vmk fun _ => 1) radius (fun _ => some 0) (fun _ => some 10000000000) x := by
  have key : ∀ (g : Fin C → ℝ) (l : List (Fin C)) (p : ℝ), l.foldl (fun p i => p + g i) p = p + (l.map g).sum := by
    intro g l
    induction l with
    | nil => intro p; simp
    | cons a l ih => intro p; rw [List.foldl_cons, ih, List.map_cons, List.sum_cons, add_assoc]
  funext μ
  unfold funCuda
  rw [key (fun i => (vmk fun _ => 1 : Vec (Fin C)) i * min (max (x i - μ * (vmk fun _ => 1 : Vec (Fin C)) i) 0) 10000000000),
    zero_add, ← Fin.sum_univ_def]
  simp [hpbFun, PiLp.inner_apply, boxProj, boxClip, maxLower, minUpper]

/-- C92: on every row, a thread of the cuda kernel computes what the numba engine computes (`ftol` positive). -/
theorem C92_row_cuda {C : ℕ} (fuel : ℕ) (radius : ℝ) (maxiter : ℕ) (ftol xtol : ℝ) (hf : 0 < ftol) (x : Vec (Fin C)) :
    simplexCudaProj fuel radius maxiter ftol xtol x = simplexNumbaProj fuel radius maxiter ftol xtol x := by
  simp only [simplexCudaProj, simplexNumbaProj, funCuda_eq, C92_bisect_cuda _ _ _ _ _ _ hf]
  rcases bracketLower _ fuel (-1) with e | a
  · rfl
  rcases bracketUpper _ fuel 1 with e | b
  · rfl
  show (bisectJit _ a b maxiter ftol xtol >>= _ : Py _) = (bisectJit _ a b maxiter ftol xtol >>= _ : Py _)
  rcases bisectJit _ a b maxiter ftol xtol with e | c
  · rfl
  show Except.ok _ = Except.ok _
  congr 1

/-! ## From the row loops to the operators -/

/-- Along `axis` 0, 1 or -1 a row loop that establishes `P` on all rows establishes `P` along the axis. -/
lemma simplexDims_spec (loop : ∀ R C : ℕ, (Fin R → Vec (Fin C)) → Py (Fin R → Vec (Fin C))) (mism : PyErr) (d0 d1 : ℕ)
    (h : d0 * d1 = n) (axis : ℤ) (hax : axis = 0 ∨ axis = 1 ∨ axis = -1) (x : Vec (Fin n))
    (P : ∀ C : ℕ, Vec (Fin C) → Vec (Fin C) → Prop)
    (hrow : axis ≠ 0 → ∃ Y, loop d0 d1 (rowOf d0 d1 h x) = .ok Y ∧ ∀ i, P d1 (rowOf d0 d1 h x i) (Y i))
    (hcol : axis = 0 → ∃ Y, loop d1 d0 (colOf d0 d1 h x) = .ok Y ∧ ∀ j, P d0 (colOf d0 d1 h x j) (Y j)) :
    ∃ p, simplexDims loop mism d0 d1 axis x = .ok p ∧ AlongAxis P d0 d1 h axis x p := by
  unfold simplexDims
  rw [dif_pos h, reshape2_eq, transpose2_rowOf]
  by_cases h0 : axis = 0
  · obtain ⟨Y, hY, hP⟩ := hcol h0
    refine ⟨_, by rw [if_pos h0, hY]; rfl, ?_, ?_⟩
    · intro _ j; rw [colOf_ravel2]; exact hP j
    · intro hc; omega
  · obtain ⟨Y, hY, hP⟩ := hrow h0
    refine ⟨_, by rw [if_neg h0, if_neg (by omega), hY]; rfl, ?_, ?_⟩
    · intro hc; omega
    · intro _ i; rw [rowOf_ravel2]; exact hP i

lemma simplex_row_numpy {C : ℕ} (hC : 0 < C) (bisect : (ℝ → ℝ) → ℝ → ℝ → ℝ) (xtol : ℝ) (hb : BisectTol bisect xtol)
    (radius : ℝ) (hr : 0 ≤ radius) (x : Vec (Fin C)) :
    ∃ N, ∀ fuel, N ≤ fuel → ∃ p, simplexProj bisect fuel radius x = .ok p ∧ NearSimplexProj radius x p (xtol * √C) := by
  have : Nonempty (Fin C) := ⟨⟨0, hC⟩⟩
  obtain ⟨N, hN⟩ := C26_simplex_prox bisect xtol hb radius 0 true hr x 1 one_pos
  refine ⟨N, fun fuel hfuel => ?_⟩
  obtain ⟨p, q, h1, h2, h3, h4⟩ := hN fuel hfuel
  simp only [ProxOp.prox, Simplex, checkTau_pos one_pos] at h1
  rw [Fintype.card_fin] at h4
  exact ⟨p, h1, h2, q, h3, h4⟩

/-- The accuracy of the compiled engines on a row. -/
noncomputable def jitTol (radius : ℝ) (maxiter : ℕ) (ftol xtol : ℝ) {C : ℕ} (x : Vec (Fin C)) : ℝ :=
  max ftol (max xtol (2 * max 1 (2 * (‖x‖ + radius)) / 2 ^ maxiter) * √C)

lemma simplex_row_numba {C : ℕ} (hC : 0 < C) (radius : ℝ) (hr : 0 ≤ radius) (hr2 : radius ≤ 10000000000)
    (maxiter : ℕ) (hmax : 1 ≤ maxiter) (ftol xtol : ℝ) (x : Vec (Fin C)) :
    ∃ N, ∀ fuel, N ≤ fuel → ∃ p, simplexNumbaProj fuel radius maxiter ftol xtol x = .ok p ∧
      NearSimplexProj radius x p (jitTol radius maxiter ftol xtol x) := by
  have : Nonempty (Fin C) := ⟨⟨0, hC⟩⟩
  obtain ⟨N, hN⟩ := C62_simplex_numba_prox radius 0 hr hr2 maxiter hmax ftol xtol true x 1 one_pos
  refine ⟨N, fun fuel hfuel => ?_⟩
  obtain ⟨p, q, h1, h2, h3, h4⟩ := hN fuel hfuel
  simp only [ProxOp.prox, SimplexNumba, checkTau_pos one_pos] at h1
  rw [Fintype.card_fin] at h4
  refine ⟨p, h1, h2, q, h3, ?_⟩
  rcases h4 with h4 | h4
  · exact h4.le.trans (le_max_left _ _)
  · exact h4.trans (le_max_right _ _)

/-- Enough fuel for every row is enough fuel for all rows. -/
lemma uniform_fuel {R : ℕ} {α : Type} (Q : Fin R → ℕ → α → Prop) (h : ∀ i, ∃ N, ∀ fuel, N ≤ fuel → ∃ p, Q i fuel p) :
    ∃ N, ∀ fuel, N ≤ fuel → ∃ p : Fin R → α, ∀ i, Q i fuel (p i) := by
  choose N hN using h
  refine ⟨∑ i, N i, fun fuel hf => ?_⟩
  have : ∀ i, ∃ p, Q i fuel p := fun i =>
    hN i fuel ((Finset.single_le_sum (f := N) (fun _ _ => Nat.zero_le _) (Finset.mem_univ i)).trans hf)
  choose p hp using this
  exact ⟨p, hp⟩

/-- C92, partial: with the numpy engine, `dims = (d0, d1)` and `axis` 0, 1 or -1, the factory returns an operator whose `prox`
replaces every line of the matrix along that axis by a point within `xtol sqrt(length)` of its projection onto the
simplex, whatever the sizes and for every radius `>= 0`.  It does so whether or not numba is installed, and also when numba
is missing and another engine was asked for.  Missing: `axis = -2`, see `C92_axis_refuted`. -/
theorem C92_prox_numpy_partial (env : SimplexEnv) (hb : BisectTol env.bisect env.xtol) (hr : 0 ≤ env.radius) (d0 d1 : ℕ)
    (h0 : 0 < d0) (h1 : 0 < d1) (h : d0 * d1 = n) (axis : ℤ) (hax : axis = 0 ∨ axis = 1 ∨ axis = -1) (jit : Bool)
    (engine : String) (he : engine = "numpy" ∨ (jit = false ∧ (engine = "numba" ∨ engine = "cuda"))) (x : Vec (Fin n))
    (τ : ℝ) (hτ : 0 < τ) :
    ∃ N, ∀ fuel, N ≤ fuel → ∃ op p, simplexFactory { env with fuel := fuel } jit engine (some [d0, d1]) axis = .ok op ∧
      op.prox x τ = .ok p ∧
      AlongAxis (fun C a b => NearSimplexProj env.radius a b (env.xtol * √C)) d0 d1 h axis x p := by
  obtain ⟨N1, hN1⟩ := uniform_fuel (fun i fuel p => simplexProj env.bisect fuel env.radius (rowOf d0 d1 h x i) = .ok p ∧
    NearSimplexProj env.radius (rowOf d0 d1 h x i) p (env.xtol * √d1))
    (fun i => simplex_row_numpy h1 env.bisect env.xtol hb env.radius hr _)
  obtain ⟨N2, hN2⟩ := uniform_fuel (fun j fuel p => simplexProj env.bisect fuel env.radius (colOf d0 d1 h x j) = .ok p ∧
    NearSimplexProj env.radius (colOf d0 d1 h x j) p (env.xtol * √d0))
    (fun j => simplex_row_numpy h0 env.bisect env.xtol hb env.radius hr _)
  refine ⟨max N1 N2, fun fuel hfuel => ?_⟩
  obtain ⟨p1, hp1⟩ := hN1 fuel ((le_max_left _ _).trans hfuel)
  obtain ⟨p2, hp2⟩ := hN2 fuel ((le_max_right _ _).trans hfuel)
  obtain ⟨p, hp, hA⟩ := simplexDims_spec (numpyRows { env with fuel := fuel }) .valueError d0 d1 h axis hax x
    (fun C a b => NearSimplexProj env.radius a b (env.xtol * √C))
    (fun _ => ⟨p1, rowLoop_ok _ _ _ (fun i => (hp1 i).1), fun i => (hp1 i).2⟩)
    (fun _ => ⟨p2, rowLoop_ok _ _ _ (fun i => (hp2 i).1), fun i => (hp2 i).2⟩)
  refine ⟨SimplexMat { env with fuel := fuel } (numpyRows { env with fuel := fuel }) .valueError d0 d1 axis, p, ?_, ?_, hA⟩
  · have e1 : -2 ≤ axis ∧ axis ≤ 1 := by omega
    rcases he with rfl | ⟨rfl, rfl | rfl⟩ <;> simp [simplexFactory, simplexInit, e1]
  · simp only [ProxOp.prox, SimplexMat, checkTau_pos hτ, hp]

/-- C92, partial: the numba engine does the same for `0 <= radius <= 1e10`, up to `ftol`, or `max(xtol, width / 2^maxiter)`
times the square root of the length of a line.  Missing: `axis = -2` (`C92_axis_refuted`) and larger radii
(`C92_radius_refuted`). -/
theorem C92_prox_numba_partial (env : SimplexEnv) (hr : 0 ≤ env.radius) (hr2 : env.radius ≤ 10000000000)
    (hmax : 1 ≤ env.maxiter) (d0 d1 : ℕ) (h0 : 0 < d0) (h1 : 0 < d1) (h : d0 * d1 = n) (axis : ℤ)
    (hax : axis = 0 ∨ axis = 1 ∨ axis = -1) (x : Vec (Fin n)) (τ : ℝ) (hτ : 0 < τ) :
    ∃ N, ∀ fuel, N ≤ fuel → ∃ op p, simplexFactory { env with fuel := fuel } true "numba" (some [d0, d1]) axis = .ok op ∧
      op.prox x τ = .ok p ∧
      AlongAxis (fun _ a b => NearSimplexProj env.radius a b (jitTol env.radius env.maxiter env.ftol env.xtol a))
        d0 d1 h axis x p := by
  obtain ⟨N1, hN1⟩ := uniform_fuel (fun i fuel p =>
    simplexNumbaProj fuel env.radius env.maxiter env.ftol env.xtol (rowOf d0 d1 h x i) = .ok p ∧
    NearSimplexProj env.radius (rowOf d0 d1 h x i) p (jitTol env.radius env.maxiter env.ftol env.xtol (rowOf d0 d1 h x i)))
    (fun i => simplex_row_numba h1 env.radius hr hr2 env.maxiter hmax env.ftol env.xtol _)
  obtain ⟨N2, hN2⟩ := uniform_fuel (fun j fuel p =>
    simplexNumbaProj fuel env.radius env.maxiter env.ftol env.xtol (colOf d0 d1 h x j) = .ok p ∧
    NearSimplexProj env.radius (colOf d0 d1 h x j) p (jitTol env.radius env.maxiter env.ftol env.xtol (colOf d0 d1 h x j)))
    (fun j => simplex_row_numba h0 env.radius hr hr2 env.maxiter hmax env.ftol env.xtol _)
  refine ⟨max N1 N2, fun fuel hfuel => ?_⟩
  obtain ⟨p1, hp1⟩ := hN1 fuel ((le_max_left _ _).trans hfuel)
  obtain ⟨p2, hp2⟩ := hN2 fuel ((le_max_right _ _).trans hfuel)
  obtain ⟨p, hp, hA⟩ := simplexDims_spec (numbaRows { env with fuel := fuel }) .valueError d0 d1 h axis hax x
    (fun _ a b => NearSimplexProj env.radius a b (jitTol env.radius env.maxiter env.ftol env.xtol a))
    (fun _ => ⟨p1, rowLoop_ok _ _ _ (fun i => (hp1 i).1), fun i => (hp1 i).2⟩)
    (fun _ => ⟨p2, rowLoop_ok _ _ _ (fun i => (hp2 i).1), fun i => (hp2 i).2⟩)
  refine ⟨SimplexMat { env with fuel := fuel } (numbaRows { env with fuel := fuel }) .valueError d0 d1 axis, p, ?_, ?_, hA⟩
  · have e1 : -2 ≤ axis ∧ axis ≤ 1 := by omega
    simp [simplexFactory, simplexInit, e1]
  · simp only [ProxOp.prox, SimplexMat, checkTau_pos hτ, hp]

/-- The launch performs exactly the stores of its grid, in some order. -/
def FairSchedule (env : SimplexEnv) : Prop := ∀ R C : ℕ, (env.sched R C).Perm (cudaGrid R C 32)

/-- C92: whatever the order in which the threads of the cuda launch store their entries, and whatever the output array held
before, the cuda engine returns exactly what the numba engine returns, for every shape, axis, input and `ftol > 0`. -/
theorem C92_cuda_eq_numba (env : SimplexEnv) (hs : FairSchedule env) (hf : 0 < env.ftol) (d0 d1 : ℕ) (axis : ℤ)
    (opn opc : ProxOp (Vec (Fin n))) (hn : simplexFactory env true "numba" (some [d0, d1]) axis = .ok opn)
    (hc : simplexFactory env true "cuda" (some [d0, d1]) axis = .ok opc) (x p : Vec (Fin n)) (τ : ℝ) :
    opn.prox x τ = .ok p → opc.prox x τ = .ok p := by
  have hrows : ∀ (R C : ℕ) (X Y : Fin R → Vec (Fin C)), numbaRows env R C X = .ok Y →
      cudaRows { env with threads := 32 } R C X = .ok Y := by
    intro R C X Y hY
    refine cudaLoop_ok _ _ _ (fun i => ?_) 32 (by norm_num) _ (hs R C) _
    rw [C92_row_cuda _ _ _ _ _ hf]
    exact rowLoop_inv _ _ _ hY i
  simp only [simplexFactory, simplexInit] at hn hc
  by_cases e1 : -2 ≤ axis ∧ axis ≤ 1
  · simp [e1] at hn hc
    subst hn; subst hc
    intro hp
    by_cases hτ : 0 < τ
    · simp only [ProxOp.prox, SimplexMat, checkTau_pos hτ] at hp ⊢
      unfold simplexDims at hp ⊢
      by_cases h : d0 * d1 = n
      · rw [dif_pos h] at hp ⊢
        by_cases h0 : axis = 0
        · rw [if_pos h0] at hp ⊢
          rcases hl : numbaRows env d1 d0 (transpose2 (reshape2 d0 d1 h x)) with e | Y
          · rw [hl] at hp; cases hp
          · rw [hl] at hp; rw [hrows _ _ _ _ hl]; exact hp
        · rw [if_neg h0] at hp ⊢
          by_cases h2 : axis = -2 ∧ d0 ≠ d1 ∧ 0 < d0
          · rw [if_pos h2] at hp; cases hp
          · rw [if_neg h2] at hp ⊢
            rcases hl : numbaRows env d0 d1 (reshape2 d0 d1 h x) with e | Y
            · rw [hl] at hp; cases hp
            · rw [hl] at hp; rw [hrows _ _ _ _ hl]; exact hp
      · rw [dif_neg h] at hp; cases hp
    · simp only [ProxOp.prox, SimplexMat, checkTau_nonpos (not_lt.1 hτ)] at hp
      cases hp
  · simp [e1] at hn

/-- C92, partial: so the cuda engine projects every line along `axis` 0, 1 or -1, with the accuracy of the numba engine,
under every schedule of its threads.  Missing: as for numba, and `dims=None` (`C92_cuda_no_dims_refuted`). -/
theorem C92_prox_cuda_partial (env : SimplexEnv) (hs : FairSchedule env) (hf : 0 < env.ftol) (hr : 0 ≤ env.radius)
    (hr2 : env.radius ≤ 10000000000) (hmax : 1 ≤ env.maxiter) (d0 d1 : ℕ) (h0 : 0 < d0) (h1 : 0 < d1) (h : d0 * d1 = n)
    (axis : ℤ) (hax : axis = 0 ∨ axis = 1 ∨ axis = -1) (x : Vec (Fin n)) (τ : ℝ) (hτ : 0 < τ) :
    ∃ N, ∀ fuel, N ≤ fuel → ∃ op p, simplexFactory { env with fuel := fuel } true "cuda" (some [d0, d1]) axis = .ok op ∧
      op.prox x τ = .ok p ∧
      AlongAxis (fun _ a b => NearSimplexProj env.radius a b (jitTol env.radius env.maxiter env.ftol env.xtol a))
        d0 d1 h axis x p := by
  obtain ⟨N, hN⟩ := C92_prox_numba_partial env hr hr2 hmax d0 d1 h0 h1 h axis hax x τ hτ
  refine ⟨N, fun fuel hfuel => ?_⟩
  obtain ⟨opn, p, hn, hp, hA⟩ := hN fuel hfuel
  have e1 : -2 ≤ axis ∧ axis ≤ 1 := by omega
  obtain ⟨opc, hc⟩ : ∃ opc : ProxOp (Vec (Fin n)),
      simplexFactory { env with fuel := fuel } true "cuda" (some [d0, d1]) axis = .ok opc := by
    simp [simplexFactory, simplexInit, e1]
  exact ⟨opc, p, hc, C92_cuda_eq_numba { env with fuel := fuel } hs hf d0 d1 axis opn opc hn hc x p τ hp, hA⟩



/-- C92: two engines that each meet their accuracy on a line differ there by at most the sum of the two accuracies. -/
theorem C92_engines_agree (radius : ℝ) {C : ℕ} (x p p' : Vec (Fin C)) (ε ε' : ℝ) (h : NearSimplexProj radius x p ε)
    (h' : NearSimplexProj radius x p' ε') : ‖p - p'‖ ≤ ε + ε' := by
  obtain ⟨-, q, hq, hp⟩ := h
  obtain ⟨-, q', hq', hp'⟩ := h'
  have e : q' = q := hq.2 q' hq'.1
  subst e
  calc ‖p - p'‖ = ‖(p - q') - (p' - q')‖ := by congr 1; abel
    _ ≤ ‖p - q'‖ + ‖p' - q'‖ := norm_sub_le _ _
    _ ≤ ε + ε' := add_le_add hp hp'

/-! ## What the factory rejects -/

/-- C92: an engine other than the three names raises a `KeyError`, whatever the other arguments. -/
theorem C92_bad_engine (env : SimplexEnv) (jit : Bool) (engine : String) (dims : Option (List ℕ)) (axis : ℤ) :
    (simplexFactory env jit engine dims axis : Py (ProxOp (Vec (Fin n)))) = .error .keyError ↔
      engine ≠ "numpy" ∧ engine ≠ "numba" ∧ engine ≠ "cuda" := by
  have hinit : ∀ a loop mism, (simplexInit env a loop mism dims axis : Py (ProxOp (Vec (Fin n)))) ≠ .error .keyError := by
    intro a loop mism
    unfold simplexInit
    split
    · simp
    · split_ifs <;> simp
    · simp
  unfold simplexFactory
  by_cases h : engine ∉ ["numpy", "numba", "cuda"]
  · rw [if_pos h]
    simpa using h
  · rw [if_neg h]
    have h' : ¬ (engine ≠ "numpy" ∧ engine ≠ "numba" ∧ engine ≠ "cuda") := by simpa using h
    simp only [h', iff_false]
    split_ifs
    · exact hinit _ _ _
    · exact hinit _ _ _
    · exact hinit _ _ _

/-- C92: `dims` with a number of dimensions other than two raises a `ValueError` in every engine, and an `axis` outside
`-2, -1, 0, 1` an `IndexError`. -/
theorem C92_bad_dims (env : SimplexEnv) (jit : Bool) (engine : String) (he : engine ∈ ["numpy", "numba", "cuda"])
    (dims : List ℕ) (axis : ℤ) :
    (dims.length ≠ 2 → (simplexFactory env jit engine (some dims) axis : Py (ProxOp (Vec (Fin n)))) = .error .valueError) ∧
    (dims.length = 2 → (axis < -2 ∨ 1 < axis) →
      (simplexFactory env jit engine (some dims) axis : Py (ProxOp (Vec (Fin n)))) = .error .indexError) := by
  have hinit : ∀ a loop mism,
      (dims.length ≠ 2 → (simplexInit env a loop mism (some dims) axis : Py (ProxOp (Vec (Fin n)))) = .error .valueError) ∧
      (dims.length = 2 → (axis < -2 ∨ 1 < axis) →
        (simplexInit env a loop mism (some dims) axis : Py (ProxOp (Vec (Fin n)))) = .error .indexError) := by
    intro a loop mism
    rcases dims with _ | ⟨d0, _ | ⟨d1, _ | ⟨d2, l⟩⟩⟩
    · exact ⟨fun _ => rfl, fun h => by simp at h⟩
    · exact ⟨fun _ => rfl, fun h => by simp at h⟩
    · refine ⟨fun h => absurd rfl h, fun _ h => ?_⟩
      have : ¬ (-2 ≤ axis ∧ axis ≤ 1) := by omega
      simp only [simplexInit, if_neg this]
    · exact ⟨fun _ => rfl, fun h => by simp at h⟩
  unfold simplexFactory
  rw [if_neg (not_not.2 he)]
  split_ifs <;> exact hinit _ _ _

/-- C92, refutation: the cuda engine accepts `dims=None` and then fails on every input, where the other engines project. -/
theorem C92_cuda_no_dims_refuted (env : SimplexEnv) (axis : ℤ) (x : Vec (Fin n)) (τ : ℝ) (hτ : 0 < τ) :
    ∃ op, simplexFactory env true "cuda" none axis = .ok op ∧ op.prox x τ = .error .typeError := by
  refine ⟨SimplexCudaNoDims env, by simp [simplexFactory, simplexInit], ?_⟩
  simp only [ProxOp.prox, SimplexCudaNoDims, checkTau_pos hτ]

/-! ## `axis = -2` -/

/-- C92: `axis = -2`, which for a matrix means the same as `axis = 0`, is on square matrices treated as `axis = -1`, in every
engine, for every input. -/
theorem C92_axis_minus_two (env : SimplexEnv) (jit : Bool) (engine : String) (d : ℕ) (op op' : ProxOp (Vec (Fin n)))
    (h : simplexFactory env jit engine (some [d, d]) (-2) = .ok op)
    (h' : simplexFactory env jit engine (some [d, d]) (-1) = .ok op') (x : Vec (Fin n)) (τ : ℝ) :
    op.prox x τ = op'.prox x τ ∧ op.call x = op'.call x := by
  have key : ∀ loop mism, (SimplexMat env loop mism d d (-2) : ProxOp (Vec (Fin n))).prox x τ
      = (SimplexMat env loop mism d d (-1)).prox x τ ∧ (SimplexMat env loop mism d d (-2) : ProxOp (Vec (Fin n))).call x
      = (SimplexMat env loop mism d d (-1)).call x := by
    intro loop mism
    simp [ProxOp.prox, SimplexMat, simplexDims, simplexDimsCall]
  simp only [simplexFactory, simplexInit] at h h'
  by_cases h1 : engine ∉ ["numpy", "numba", "cuda"]
  · rw [if_pos h1] at h; cases h
  · rw [if_neg h1] at h h'
    split_ifs at h h' <;> first
      | (cases h; cases h'; exact key _ _)
      | omega

/-- A column with several entries, the whole radius in each of them. -/
noncomputable def firstColumn (d : ℕ) (radius : ℝ) : Vec (Fin (d * d)) :=
  vmk fun k => if (k : ℕ) % d = 0 then radius else 0

/-- C92, refutation: for every square shape of at least two rows and every positive radius there is a matrix whose columns
should be projected (`axis = -2`), and the first column of the result sums to `d * radius` instead of `radius`. -/
theorem C92_axis_refuted (env : SimplexEnv) (hb : BisectTol env.bisect 0) (hr : 0 < env.radius) (d : ℕ) (hd : 2 ≤ d)
    (τ : ℝ) (hτ : 0 < τ) :
    ∃ N, ∀ fuel, N ≤ fuel → ∃ op p, simplexFactory { env with fuel := fuel } true "numpy" (some [d, d]) (-2) = .ok op ∧
      op.prox (firstColumn d env.radius) τ = .ok p ∧
      ∑ i, colOf d d rfl p ⟨0, by omega⟩ i = d * env.radius ∧ (d : ℝ) * env.radius ≠ env.radius := by
  have hd0 : 0 < d := by omega
  obtain ⟨N, hN⟩ := C92_prox_numpy_partial { env with xtol := 0 } hb hr.le d d hd0 hd0 rfl (-1) (by omega) true "numpy"
    (Or.inl rfl) (firstColumn d env.radius) τ hτ
  refine ⟨N, fun fuel hfuel => ?_⟩
  obtain ⟨op', p, h1, h2, h3⟩ := hN fuel hfuel
  have e : numpyRows { env with xtol := 0, fuel := fuel } = numpyRows { env with fuel := fuel } := rfl
  have e' : ∀ loop mism ax, (SimplexMat { env with xtol := 0, fuel := fuel } loop mism d d ax : ProxOp (Vec (Fin (d * d))))
    = SimplexMat { env with fuel := fuel } loop mism d d ax := fun _ _ _ => rfl
  have hop' : simplexFactory { env with fuel := fuel } true "numpy" (some [d, d]) (-1) = .ok op' := by
    rw [← h1]; simp [simplexFactory, simplexInit, e, e']
  have hop : (simplexFactory { env with fuel := fuel } true "numpy" (some [d, d]) (-2) : Py (ProxOp (Vec (Fin (d * d)))))
      = .ok (SimplexMat { env with fuel := fuel } (numpyRows { env with fuel := fuel }) .valueError d d (-2)) := by
    simp [simplexFactory, simplexInit]
  refine ⟨_, p, hop, ?_, ?_, ?_⟩
  · rw [(C92_axis_minus_two _ _ _ d _ _ hop hop' _ τ).1]; exact h2
  · have hp : ∀ i, rowOf d d rfl p i = rowOf d d rfl (firstColumn d env.radius) i := by
      intro i
      obtain ⟨-, q, hq, hpq⟩ := h3.2 (Or.inr rfl) i
      have hmem : rowOf d d rfl (firstColumn d env.radius) i ∈ {y : Vec (Fin d) | (∀ j, 0 ≤ y j) ∧ ∑ j, y j = env.radius} := by
        have hent : ∀ j : Fin d, rowOf d d rfl (firstColumn d env.radius) i j = if j = ⟨0, hd0⟩ then env.radius else 0 := by
          intro j
          have : (((i : ℕ) * d + j) % d = 0) ↔ j = ⟨0, hd0⟩ := by
            rw [Nat.mul_add_mod', Nat.mod_eq_of_lt j.2, Fin.ext_iff]
          show (if ((i : ℕ) * d + j) % d = 0 then env.radius else 0) = _
          simp only [this]
        refine ⟨fun j => ?_, ?_⟩
        · rw [hent]; split_ifs <;> [exact hr.le; exact le_rfl]
        · simp [hent]
      have hx : q = rowOf d d rfl (firstColumn d env.radius) i := by
        have := hq.1.2 _ hmem
        rw [sub_self, norm_zero] at this
        exact (sub_eq_zero.1 (norm_le_zero_iff.1 this)).symm
      rw [zero_mul] at hpq
      rw [← hx]
      exact sub_eq_zero.1 (norm_le_zero_iff.1 hpq)
    have hcol : ∀ i, colOf d d rfl p ⟨0, hd0⟩ i = env.radius := by
      intro i
      have : colOf d d rfl p ⟨0, hd0⟩ i = rowOf d d rfl p i ⟨0, hd0⟩ := rfl
      rw [this, hp]
      show (if ((i : ℕ) * d + 0) % d = 0 then env.radius else 0) = _
      simp
    simp [hcol]
  · intro h
    have : (2 : ℝ) ≤ d := by exact_mod_cast hd
    nlinarith

/-- C92, refutation: on a matrix that is not square `axis = -2` raises a `ValueError` on every input (numpy, numba). -/
theorem C92_axis_mismatch_refuted (env : SimplexEnv) (jit : Bool) (engine : String) (he : engine = "numpy" ∨ engine = "numba")
    (d0 d1 : ℕ) (h0 : 0 < d0) (hne : d0 ≠ d1) (x : Vec (Fin n)) (τ : ℝ) (hτ : 0 < τ) :
    ∃ op, simplexFactory env jit engine (some [d0, d1]) (-2) = .ok op ∧ op.prox x τ = .error .valueError := by
  have key : ∀ loop, (SimplexMat env loop .valueError d0 d1 (-2) : ProxOp (Vec (Fin n))).prox x τ = .error .valueError := by
    intro loop
    simp [ProxOp.prox, SimplexMat, checkTau_pos hτ, simplexDims, hne, h0]
  rcases he with rfl | rfl
  · exact ⟨_, by simp [simplexFactory, simplexInit]; rfl, key _⟩
  · cases jit
    · exact ⟨_, by simp [simplexFactory, simplexInit]; rfl, key _⟩
    · exact ⟨_, by simp [simplexFactory, simplexInit]; rfl, key _⟩

/-! ## Radii beyond the hard-wired upper bound -/

/-- The vertex of the simplex with the whole radius in the first entry. -/
noncomputable def simplexVertex (radius : ℝ) : Vec (Fin n) := vmk fun k => if (k : ℕ) = 0 then radius else 0

/-- C92, refutation: for every radius above `1e10` the compiled engine moves the vertex `(radius, 0, ..., 0)`, which is in
the simplex and so its own projection, by at least `radius - 1e10`, whenever it returns. -/
theorem C92_radius_refuted (env : SimplexEnv) (hr : 10000000000 < env.radius) (hn : 0 < n) (axis : ℤ) (τ : ℝ)
    (op : ProxOp (Vec (Fin n))) (hop : simplexFactory env true "numba" none axis = .ok op) :
    IsUniqueProj {y : Vec (Fin n) | (∀ j, 0 ≤ y j) ∧ ∑ j, y j = env.radius} (simplexVertex env.radius)
      (simplexVertex env.radius) ∧
    ∀ p, op.prox (simplexVertex env.radius) τ = .ok p → env.radius - 10000000000 ≤ ‖p - simplexVertex env.radius‖ := by
  have hent : ∀ j : Fin n, (simplexVertex env.radius : Vec (Fin n)) j = if j = ⟨0, hn⟩ then env.radius else 0 := by
    intro j
    show (if (j : ℕ) = 0 then env.radius else 0) = _
    simp [Fin.ext_iff]
  constructor
  · have hmem : (simplexVertex env.radius : Vec (Fin n)) ∈ {y : Vec (Fin n) | (∀ j, 0 ≤ y j) ∧ ∑ j, y j = env.radius} := by
      refine ⟨fun j => ?_, by simp [hent]⟩
      rw [hent]; split_ifs <;> linarith
    refine ⟨⟨hmem, fun y _ => by rw [sub_self, norm_zero]; exact norm_nonneg _⟩, fun q hq => ?_⟩
    have := hq.2 _ hmem
    rw [sub_self, norm_zero] at this
    exact (sub_eq_zero.1 (norm_le_zero_iff.1 this)).symm
  · intro p hp
    simp [simplexFactory, simplexInit] at hop
    subst hop
    have hle : p ⟨0, hn⟩ ≤ 10000000000 := by
      by_cases hτ : 0 < τ
      · simp only [ProxOp.prox, SimplexNumba, checkTau_pos hτ, simplexNumbaProj] at hp
        revert hp
        rcases bracketLower _ env.fuel (-1) with e | a
        · intro hp; cases hp
        rcases bracketUpper _ env.fuel 1 with e | b
        · intro hp; cases hp
        show (bisectJit _ a b env.maxiter env.ftol env.xtol >>= _ : Py _) = _ → _
        rcases bisectJit _ a b env.maxiter env.ftol env.xtol with e | c
        · intro hp; cases hp
        intro hp
        cases hp
        exact min_le_right _ _
      · simp only [ProxOp.prox, SimplexNumba, checkTau_nonpos (not_lt.1 hτ)] at hp
        cases hp
    have h1 : |(p - simplexVertex env.radius : Vec (Fin n)) ⟨0, hn⟩| ≤ ‖p - simplexVertex env.radius‖ := by
      rw [← Real.norm_eq_abs]
      exact PiLp.norm_apply_le (p - simplexVertex env.radius) ⟨0, hn⟩
    have h2 : (p - simplexVertex env.radius : Vec (Fin n)) ⟨0, hn⟩ = p ⟨0, hn⟩ - env.radius := by
      show p ⟨0, hn⟩ - simplexVertex env.radius ⟨0, hn⟩ = _
      rw [hent, if_pos rfl]
    rw [h2, abs_sub_comm] at h1
    exact le_trans (by linarith [le_abs_self (env.radius - p ⟨0, hn⟩)]) h1

/-- C92, refutation: and when the radius is larger than `1e10` times the number of entries its bracketing loop never ends, on
every input. -/
theorem C92_radius_hangs_refuted (env : SimplexEnv) (hr : 10000000000 * (n : ℝ) < env.radius) (axis : ℤ) (x : Vec (Fin n))
    (τ : ℝ) (hτ : 0 < τ) (op : ProxOp (Vec (Fin n))) (hop : simplexFactory env true "numba" none axis = .ok op) :
    op.prox x τ = .error .outOfFuel := by
  simp [simplexFactory, simplexInit] at hop
  subst hop
  have hneg : ∀ μ, hpbFun (vmk fun _ => 1) env.radius (fun _ => some 0) (fun _ => some 10000000000) x μ < 0 := by
    intro μ
    have e : hpbFun (vmk fun _ => 1) env.radius (fun _ => some 0) (fun _ => some 10000000000) x μ
        = ∑ i, min (max (x i - μ) 0) 10000000000 - env.radius := by
      simp [hpbFun, PiLp.inner_apply, boxProj, boxClip, maxLower, minUpper]
    rw [e]
    have : ∑ i, min (max (x i - μ) 0) (10000000000 : ℝ) ≤ ∑ _i : Fin n, (10000000000 : ℝ) :=
      Finset.sum_le_sum fun i _ => min_le_right _ _
    simp at this
    linarith
  have gen : ∀ (fuel : ℕ) m, bracketLower (hpbFun (vmk fun _ => 1) env.radius (fun _ => some 0)
      (fun _ => some 10000000000) x) fuel m = .error .outOfFuel := by
    intro fuel
    induction fuel with
    | zero => intro m; rfl
    | succ k ih => intro m; simp only [bracketLower, if_pos (hneg m)]; exact ih _
  simp only [ProxOp.prox, SimplexNumba, checkTau_pos hτ, simplexNumbaProj, gen]
  rfl

/-! ## `__call__` and `tau` -/

/-- C92, partial: with `dims` all engines evaluate the indicator in the same way along `axis` 0, 1 or -1: True exactly when no
entry is negative and every line sums to at most `radius + tol`.  Missing: sums below the radius are accepted as well
(`C61_simplex_rows_refuted`). -/
theorem C92_call_partial (env : SimplexEnv) (hcall : env.callFlag = true) (d0 d1 : ℕ) (h : d0 * d1 = n) (axis : ℤ)
    (hax : axis = 0 ∨ axis = 1 ∨ axis = -1) (jit : Bool) (engine : String) (op : ProxOp (Vec (Fin n)))
    (hop : simplexFactory env jit engine (some [d0, d1]) axis = .ok op) (x : Vec (Fin n)) :
    op.call x = .ok (.bool true) ↔
      AlongAxis (fun _ a _ => (∀ j, 0 ≤ a j) ∧ ∑ j, a j ≤ env.radius + env.tol) d0 d1 h axis x x := by
  have hrow : ∀ {C : ℕ} (a : Vec (Fin C)), simplexRowOk env.radius env.tol a = true ↔
      (∀ j, 0 ≤ a j) ∧ ∑ j, a j ≤ env.radius + env.tol := by
    intro C a
    simp only [simplexRowOk, decide_eq_true_iff]
    push Not
    constructor
    · rintro ⟨h1, h2⟩
      rw [abs_of_nonneg (Finset.sum_nonneg fun j _ => h2 j)] at h1
      exact ⟨h2, by linarith⟩
    · rintro ⟨h1, h2⟩
      rw [abs_of_nonneg (Finset.sum_nonneg fun j _ => h1 j)]
      exact ⟨by linarith, h1⟩
  have key : simplexDimsCall env.radius env.tol env.callFlag d0 d1 axis x = .ok (.bool true) ↔
      AlongAxis (fun _ a _ => (∀ j, 0 ≤ a j) ∧ ∑ j, a j ≤ env.radius + env.tol) d0 d1 h axis x x := by
    unfold simplexDimsCall
    rw [hcall, if_neg (by simp), dif_pos h, reshape2_eq, transpose2_rowOf]
    by_cases h0 : axis = 0
    · rw [if_pos h0]
      simp only [Except.ok.injEq, CallVal.bool.injEq, List.all_eq_true, List.mem_finRange, true_imp_iff, hrow]
      exact ⟨fun H => ⟨fun _ => H, fun hc => by omega⟩, fun H => H.1 (Or.inl h0)⟩
    · rw [if_neg h0]
      simp only [Except.ok.injEq, CallVal.bool.injEq, List.all_eq_true, List.mem_finRange, true_imp_iff, hrow]
      exact ⟨fun H => ⟨fun hc => by omega, fun _ => H⟩, fun H => H.2 (by omega)⟩
  have e1 : -2 ≤ axis ∧ axis ≤ 1 := by omega
  simp only [simplexFactory, simplexInit, if_pos e1] at hop
  split_ifs at hop <;> (cases hop; exact key)

/-- C01: every operator the factory returns refuses a `tau` that is not positive. -/
theorem C01_simplex_engines (env : SimplexEnv) (jit : Bool) (engine : String) (dims : Option (List ℕ)) (axis : ℤ)
    (op : ProxOp (Vec (Fin n))) (hop : simplexFactory env jit engine dims axis = .ok op) : RejectsBadTau op := by
  have hinit : ∀ a loop mism, RejectsBadTau a → simplexInit env a loop mism dims axis = .ok op → RejectsBadTau op := by
    intro a loop mism ha h
    unfold simplexInit at h
    split at h
    · cases h; exact ha
    · split_ifs at h
      cases h
      exact rejects_of_guarded _ (fun m hm x τ hτ => by cases hm; exact checkTau_nonpos hτ _) (fun m hm _ _ _ => by cases hm)
    · cases h
  unfold simplexFactory at hop
  split_ifs at hop
  · exact hinit _ _ _ (rejects_of_guarded _ (fun m hm x τ hτ => by cases hm; exact checkTau_nonpos hτ _) (fun m hm _ _ _ => by cases hm)) hop
  · exact hinit _ _ _ (rejects_of_guarded _ (fun m hm x τ hτ => by cases hm; exact checkTau_nonpos hτ _) (fun m hm _ _ _ => by cases hm)) hop
  · exact hinit _ _ _ (rejects_of_guarded _ (fun m hm x τ hτ => by cases hm; exact checkTau_nonpos hτ _) (fun m hm _ _ _ => by cases hm)) hop

/-! ## The hypotheses can be met -/

/-- Settings with an exact root search and the threads stored in reverse order. -/
example : ∃ env : SimplexEnv, BisectTol env.bisect env.xtol ∧ FairSchedule env ∧ 0 < env.ftol ∧ 0 ≤ env.radius ∧
    env.radius ≤ 10000000000 ∧ 1 ≤ env.maxiter ∧ env.callFlag = true := by
  obtain ⟨b, hb⟩ := exists_bisectTol (1 / 10 ^ 8) (by positivity)
  exact ⟨{ bisect := b, fuel := 0, radius := 1, tol := 1 / 10 ^ 8, callFlag := true, maxiter := 100, ftol := 1 / 10 ^ 8,
           xtol := 1 / 10 ^ 8, threads := 32, sched := fun R C => (cudaGrid R C 32).reverse, junk := fun _ _ _ _ => 7 },
    hb, fun R C => List.reverse_perm _, by positivity, by norm_num, by norm_num, by norm_num, rfl⟩

end Verif
