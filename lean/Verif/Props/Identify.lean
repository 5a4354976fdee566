import Verif.Props.Splitting
import Verif.Props.PrimalDual
import Verif.Props.ProxGrad
import Verif.Props.ProxPoint
import Verif.Props.HQSConv
import Verif.Props.Lasso
import Verif.Props.Calculus
import Verif.Props.LinearRate

/-!
# C115: zeros and active constraints are found exactly after finitely many iterations

`Settles m t w Q`: what the method `m` (a `prox` or `proxdual`) returns with step `t` satisfies `Q` for every argument near
`w`.  First the operators: which arguments settle what.  Then the solvers: the arguments passed to the operators converge,
so whatever settles at the limit holds for all but finitely many iterations.
-/

namespace Verif

open Filter Topology
open scoped RealInnerProductSpace

/-- Every result of `m` with step `t`, for arguments near `w`, satisfies `Q`. -/
def Settles {E : Type} [TopologicalSpace E] (m : E → ℝ → Py E) (t : ℝ) (w : E) (Q : E → Prop) : Prop :=
  ∀ᶠ v in 𝓝 w, ∀ p, m v t = .ok p → Q p

variable {ι κ : Type} [Fintype ι] [Fintype κ]

/-! ## The operators -/

theorem coord_near {w : Vec ι} {U : Set ℝ} (hU : IsOpen U) (i : ι) (h : w i ∈ U) : ∀ᶠ v : Vec ι in 𝓝 w, v i ∈ U :=
  ((PiLp.continuous_apply 2 (fun _ : ι => ℝ) i).tendsto w).eventually (hU.mem_nhds h)

/-- **C115** `L1`: an entry strictly below the threshold becomes (and stays) `g`; an entry strictly above it keeps its
sign relative to `g`. -/
theorem C115_l1 (σ : ℝ) (g : Option (Vec ι)) {t : ℝ} (ht : 0 < t) (w : Vec ι) (i : ι) :
    (|w i - (g.getD 0) i| < t * σ → Settles (L1 σ g).prox t w fun p => p i = (g.getD 0) i) ∧
    (0 ≤ σ → t * σ < w i - (g.getD 0) i → Settles (L1 σ g).prox t w fun p => (g.getD 0) i < p i) ∧
    (0 ≤ σ → w i - (g.getD 0) i < -(t * σ) → Settles (L1 σ g).prox t w fun p => p i < (g.getD 0) i) := by
  have hp : ∀ v : Vec ι, (L1 σ g).prox v t = .ok (vmk fun i => softScalar (v i - (g.getD 0) i) (t * σ) + (g.getD 0) i) := fun v => by
    cases g with
    | none => simp [ProxOp.prox, L1, checkTau, not_le.mpr ht, softthreshold]
    | some g =>
      simp only [ProxOp.prox, L1, checkTau, not_le.mpr ht, if_false, Option.getD_some]
      congr 1
  refine ⟨fun h => ?_, fun hσ h => ?_, fun hσ h => ?_⟩
  · have hU : IsOpen {a : ℝ | |a - (g.getD 0) i| < t * σ} := isOpen_lt (by fun_prop) continuous_const
    filter_upwards [coord_near hU i h] with v hv p hvp
    rw [hp v] at hvp
    obtain rfl : _ = p := by simpa using hvp
    have h1 : |v i - (g.getD 0) i| - t * σ ≤ 0 := by have : |v i - (g.getD 0) i| < t * σ := hv; linarith
    simp [softScalar, max_eq_right h1]
  · have hU : IsOpen {a : ℝ | t * σ < a - (g.getD 0) i} := isOpen_lt continuous_const (by fun_prop)
    filter_upwards [coord_near hU i h] with v hv p hvp
    rw [hp v] at hvp
    obtain rfl : _ = p := by simpa using hvp
    have h1 : t * σ < v i - (g.getD 0) i := hv
    have h2 : 0 < v i - (g.getD 0) i := lt_of_le_of_lt (mul_nonneg ht.le hσ) h1
    simp only [softScalar, npsign, if_pos h2, abs_of_pos h2, mul_one]
    rw [max_eq_left (by linarith)]
    linarith
  · have hU : IsOpen {a : ℝ | a - (g.getD 0) i < -(t * σ)} := isOpen_lt (by fun_prop) continuous_const
    filter_upwards [coord_near hU i h] with v hv p hvp
    rw [hp v] at hvp
    obtain rfl : _ = p := by simpa using hvp
    have h1 : v i - (g.getD 0) i < -(t * σ) := hv
    have h2 : v i - (g.getD 0) i < 0 := lt_of_lt_of_le h1 (neg_nonpos.mpr (mul_nonneg ht.le hσ))
    simp only [softScalar, npsign, if_neg (not_lt.mpr h2.le), if_pos h2, abs_of_neg h2]
    rw [max_eq_left (by linarith)]
    linarith

/-- **C115** `Box`: an argument strictly outside a bound gives the bound; one strictly inside is returned. -/
theorem C115_box (lower upper : ι → ℝ) (hle : ∀ i, lower i ≤ upper i) {t : ℝ} (ht : 0 < t) (w : Vec ι) (i : ι) :
    (w i < lower i → Settles (Box (fun i => some (lower i)) fun i => some (upper i)).prox t w fun p => p i = lower i) ∧
    (upper i < w i → Settles (Box (fun i => some (lower i)) fun i => some (upper i)).prox t w fun p => p i = upper i) ∧
    (lower i < w i → w i < upper i →
      Settles (Box (fun i => some (lower i)) fun i => some (upper i)).prox t w fun p => lower i < p i ∧ p i < upper i) := by
  have hp : ∀ v : Vec ι, (Box (fun i => some (lower i)) fun i => some (upper i)).prox v t =
      .ok (vmk fun i => min (max (v i) (lower i)) (upper i)) := fun v => by
    simp only [ProxOp.prox, Box, checkTau, not_le.mpr ht, if_false]
    rfl
  refine ⟨fun h => ?_, fun h => ?_, fun h h' => ?_⟩
  · filter_upwards [coord_near isOpen_Iio i h] with v hv p hvp
    rw [hp v] at hvp
    obtain rfl : _ = p := by simpa using hvp
    have : v i < lower i := hv
    simp [max_eq_right this.le, hle i]
  · filter_upwards [coord_near isOpen_Ioi i h] with v hv p hvp
    rw [hp v] at hvp
    obtain rfl : _ = p := by simpa using hvp
    have : upper i < v i := hv
    simp [this.le]
  · filter_upwards [coord_near isOpen_Ioi i h, coord_near isOpen_Iio i h'] with v hv hv' p hvp
    rw [hp v] at hvp
    obtain rfl : _ = p := by simpa using hvp
    have h1 : lower i < v i := hv
    have h2 : v i < upper i := hv'
    simp only [max_eq_left h1.le, min_eq_left h2.le]
    exact ⟨h1, h2⟩

section
variable {E : Type} [NormedAddCommGroup E] [InnerProductSpace ℝ E]

/-- **C115** `Euclidean`: an argument of norm strictly below the threshold gives zero. -/
theorem C115_euclidean (σ : ℝ) {t : ℝ} (ht : 0 < t) (w : E) (h : ‖w‖ < t * σ) : Settles (Euclidean σ).prox t w fun p => p = 0 := by
  filter_upwards [(isOpen_lt continuous_norm continuous_const).mem_nhds h] with v hv p hvp
  have hv : ‖v‖ < t * σ := hv
  have h0 : 0 < t * σ := lt_of_le_of_lt (norm_nonneg _) hv
  simp only [ProxOp.prox, Euclidean, checkTau, not_le.mpr ht, if_false, max_eq_right hv.le, h0.ne', div_self h0.ne', sub_self,
    zero_smul] at hvp
  simpa using hvp.symm

/-- **C115** `EuclideanBall`: a point strictly outside gives a point of the sphere, a point strictly inside is returned. -/
theorem C115_euclidean_ball (c : E) {r t : ℝ} (hr : 0 < r) (ht : 0 < t) (w : E) :
    (r < ‖w - c‖ → Settles (EuclideanBall c r).prox t w fun p => ‖p - c‖ = r) ∧
    (‖w - c‖ < r → Settles (EuclideanBall c r).prox t w fun p => ‖p - c‖ < r) := by
  have hcont : Continuous fun v : E => ‖v - c‖ := by fun_prop
  constructor <;> intro h
  · filter_upwards [(isOpen_lt continuous_const hcont).mem_nhds h] with v hv p hvp
    have hv : r < ‖v - c‖ := hv
    have h0 : 0 < ‖v - c‖ := hr.trans hv
    simp only [ProxOp.prox, EuclideanBall, euclideanBallProj, checkTau, not_le.mpr ht, if_false, max_eq_left hv.le, h0.ne'] at hvp
    obtain rfl : _ = p := by simpa using hvp
    rw [add_sub_cancel_left, norm_smul, Real.norm_eq_abs, abs_of_pos (by positivity), div_mul_cancel₀ _ h0.ne']
  · filter_upwards [(isOpen_lt hcont continuous_const).mem_nhds h] with v hv p hvp
    have hv : ‖v - c‖ < r := hv
    simp only [ProxOp.prox, EuclideanBall, euclideanBallProj, checkTau, not_le.mpr ht, if_false, max_eq_right hv.le, hr.ne',
      div_self hr.ne', one_smul] at hvp
    obtain rfl : c + (v - c) = p := by simpa using hvp
    simpa using hv

/-- **C115** `HalfSpace`: a point strictly outside gives a point of the hyperplane, a point strictly inside is returned. -/
theorem C115_halfspace (a : E) (ha : a ≠ 0) (b : ℝ) {t : ℝ} (ht : 0 < t) (w : E) :
    (b < ⟪a, w⟫ → Settles (HalfSpace a b).prox t w fun p => ⟪a, p⟫ = b) ∧
    (⟪a, w⟫ < b → Settles (HalfSpace a b).prox t w fun p => ⟪a, p⟫ < b) := by
  have hcont : Continuous fun v : E => ⟪a, v⟫ := by fun_prop
  have haa : ⟪a, a⟫ ≠ 0 := inner_self_ne_zero.mpr ha
  constructor <;> intro h
  · filter_upwards [(isOpen_lt continuous_const hcont).mem_nhds h] with v hv p hvp
    have hv : b < ⟪a, v⟫ := hv
    simp only [ProxOp.prox, HalfSpace, halfSpaceProj, checkTau, not_le.mpr ht, if_false, not_le.mpr hv, haa] at hvp
    obtain rfl : _ = p := by simpa using hvp
    rw [inner_sub_right, inner_smul_right, real_inner_self_eq_norm_sq, div_mul_cancel₀ _ (by simpa using ha)]
    ring
  · filter_upwards [(isOpen_lt hcont continuous_const).mem_nhds h] with v hv p hvp
    have hv : ⟪a, v⟫ < b := hv
    simp only [ProxOp.prox, HalfSpace, halfSpaceProj, checkTau, not_le.mpr ht, if_false, hv.le, if_true] at hvp
    obtain rfl : v = p := by simpa using hvp
    exact hv

end

theorem colNorm_continuous (j : κ) : Continuous fun x : Vec (ι × κ) => colNorm x j := by
  unfold colNorm
  refine Real.continuous_sqrt.comp ?_
  fun_prop

/-- **C115** `L21`: a column of norm strictly below the threshold becomes zero. -/
theorem C115_l21 (σ : ℝ) {t : ℝ} (ht : 0 < t) (w : Vec (ι × κ)) (j : κ) (h : √(∑ i, (w (i, j)) ^ 2) < t * σ) :
    Settles (L21 σ).prox t w fun p => ∀ i, p (i, j) = 0 := by
  have h : colNorm w j < t * σ := by simpa [colNorm] using h
  filter_upwards [(isOpen_lt (colNorm_continuous j) continuous_const).mem_nhds h] with v hv p hvp i
  have hv : colNorm v j < t * σ := hv
  have h0 : 0 < t * σ := lt_of_le_of_lt (Real.sqrt_nonneg _) hv
  have hn : ¬ ∃ ij : ι × κ, max (colNorm v ij.2) (t * σ) = 0 := by
    rintro ⟨ij, e⟩
    have := le_max_right (colNorm v ij.2) (t * σ)
    linarith
  simp only [ProxOp.prox, L21, checkTau, not_le.mpr ht, if_false, hn] at hvp
  obtain rfl : _ = p := by simpa using hvp
  simp [max_eq_right hv.le, div_self h0.ne']

/-- **C115** `proxdual` of `L1`: an entry beyond `σ` is put on the bound, an entry strictly inside is kept inside. -/
theorem C115_l1_dual (σ : ℝ) (hσ : 0 ≤ σ) {t : ℝ} (ht : 0 < t) (w : Vec ι) (i : ι) :
    (σ < w i → Settles (L1 σ none).proxdual t w fun p => p i = σ) ∧
    (w i < -σ → Settles (L1 σ none).proxdual t w fun p => p i = -σ) ∧
    (|w i| < σ → Settles (L1 σ none).proxdual t w fun p => |p i| < σ) := by
  have hp : ∀ v : Vec ι, (L1 σ none).proxdual v t = .ok (vmk fun i => min (max (v i) (-σ)) σ) := fun v => by
    simp only [ProxOp.proxdual, L1, checkTau, not_le.mpr ht, if_false, boxProj]
    rfl
  refine ⟨fun h => ?_, fun h => ?_, fun h => ?_⟩
  · filter_upwards [coord_near isOpen_Ioi i h] with v hv p hvp
    rw [hp v] at hvp
    obtain rfl : _ = p := by simpa using hvp
    have : σ < v i := hv
    simp [this.le]
  · filter_upwards [coord_near isOpen_Iio i h] with v hv p hvp
    rw [hp v] at hvp
    obtain rfl : _ = p := by simpa using hvp
    have : v i < -σ := hv
    simp only [max_eq_right this.le]
    exact min_eq_left (by linarith)
  · have hU : IsOpen {a : ℝ | |a| < σ} := isOpen_lt continuous_abs continuous_const
    filter_upwards [coord_near hU i h] with v hv p hvp
    rw [hp v] at hvp
    obtain rfl : _ = p := by simpa using hvp
    have h1 : |v i| < σ := hv
    have h2 := abs_lt.1 h1
    simp only [max_eq_left h2.1.le, min_eq_left h2.2.le]
    exact h1

/-! ## The solvers -/

section Solvers
variable {E H : Type} [NormedAddCommGroup E] [InnerProductSpace ℝ E] [NormedAddCommGroup H] [InnerProductSpace ℝ H]
variable {f g : ProxOp E} {φ : E → ℝ} {F G : XFun E} {τ ε L η : ℝ}

omit [InnerProductSpace ℝ E] in
lemma settles_seq {m : E → ℝ → Py E} {t : ℝ} {w : E} {Q : E → Prop} (h : Settles m t w Q) {v p : ℕ → E} (hv : Tendsto v atTop (𝓝 w))
    (hp : ∀ n, m (v n) t = .ok (p n)) : ∀ᶠ n in atTop, Q (p n) := by
  filter_upwards [hv.eventually h] with n hn
  exact hn _ (hp n)

lemma eventually_succ {P : ℕ → Prop} (h : ∀ᶠ n in atTop, P (n + 1)) : ∀ᶠ n in atTop, P n := by
  obtain ⟨N, hN⟩ := eventually_atTop.1 h
  refine eventually_atTop.2 ⟨N + 1, fun n hn => ?_⟩
  cases n with
  | zero => omega
  | succ n => exact hN n (by omega)

/-- **C115** `ProximalGradient` without acceleration: whatever `g.prox` settles at `c - tau ∇f(c)`, `c` the limit, holds for
all but finitely many iterates. -/
theorem C115_proximalgradient [ProperSpace E] (hf : GradExact f φ) (hL : LipschitzGrad φ L) (hφ : ConvexOn ℝ Set.univ φ) (hF : F.Convex)
    (hg : ProxExact g F) (hε : 0 < ε) (hτ : 0 < τ) (hτL : τ * L < 2) (x0 : E) (hmin : ∃ c, (compositeObj φ ε F).IsMin c) (S : ℕ → PGState E)
    (hS : ∀ n, 0 < n → ProximalGradient f g x0 (pgArgs τ ε .none n) = .ok (S n)) :
    ∃ c d, (compositeObj φ ε F).IsMin c ∧ Tendsto (fun n => (S n).x) atTop (𝓝 c) ∧ f.grad c = .ok d ∧
      ∀ Q, Settles g.prox (ε * τ) (c - τ • d) Q → ∀ᶠ n in atTop, Q (S n).x := by
  obtain ⟨c, hc, hlim⟩ := C41_pg_converges hf hL hφ hF hg hε hτ hτL x0 hmin S hS
  obtain ⟨G, hG, hGr⟩ := gradExact_map hf
  obtain ⟨P, hP, hPx⟩ := pg_maps hg hε hτ
  obtain ⟨X, Y, t, hX0, hY0, ht0, hX, ht, hY, h⟩ := pg_traj hG hP .none (by decide) x0
  have hYX : ∀ n, Y n = X n := by
    intro n
    cases n with
    | zero => rw [hX0, hY0]
    | succ n => rw [hY]; simp [momentum]
  have hSX : ∀ n, 0 < n → (S n).x = X n := fun n hn => by
    have := (hS n hn).symm.trans (h n hn)
    injection this with this
    rw [this]
  have hXlim : Tendsto X atTop (𝓝 c) := hlim.congr' (by filter_upwards [eventually_gt_atTop 0] with n hn using hSX n hn)
  have hLip : ∀ x y, ‖G x - G y‖ ≤ L * ‖x - y‖ := fun x y => hL x y _ _ (hGr x) (hGr y)
  have hGc : Continuous G := (LipschitzWith.of_dist_le_mul (K := L.toNNReal) fun x y => by
    rw [dist_eq_norm, dist_eq_norm]
    exact (hLip x y).trans (mul_le_mul_of_nonneg_right (Real.le_coe_toNNReal L) (norm_nonneg _))).continuous
  refine ⟨c, G c, hc, hlim, hG c, fun Q hQ => eventually_succ ?_⟩
  have hv : Tendsto (fun n => X n - τ • G (X n)) atTop (𝓝 (c - τ • G c)) :=
    ((by fun_prop : Continuous fun x => x - τ • G x).tendsto c).comp hXlim
  have := settles_seq hQ hv (p := fun n => X (n + 1)) fun n => by rw [hX, hYX]; exact hP _
  filter_upwards [this] with n hn
  rwa [hSX _ n.succ_pos]

/-- The extrapolation weights are between 0 and 1. -/
lemma momentum_bound (acc : Accel) {t : ℕ → ℝ} (ht0 : t 0 = 1) (ht : ∀ n, t (n + 1) = (momentum acc n (t n)).2) (n : ℕ) :
    0 ≤ (momentum acc n (t n)).1 ∧ (momentum acc n (t n)).1 ≤ 1 := by
  have h1 : ∀ n, 1 ≤ t n := by
    intro n
    induction n with
    | zero => rw [ht0]
    | succ n ih =>
      rw [ht n]
      cases acc with
      | fista =>
        simp only [momentum]
        have : (1 : ℝ) ≤ √(1 + 4 * t n ^ 2) := Real.one_le_sqrt.2 (by nlinarith [sq_nonneg (t n)])
        linarith
      | _ => exact ih
  have hn := h1 n
  cases acc with
  | fista =>
    simp only [momentum]
    have : t n ≤ (1 + √(1 + 4 * t n ^ 2)) / 2 := by
      have : 2 * t n - 1 ≤ √(1 + 4 * t n ^ 2) := Real.le_sqrt_of_sq_le (by nlinarith)
      linarith
    constructor
    · exact div_nonneg (by linarith) (by linarith)
    · rw [div_le_one (by linarith)]; linarith
  | vandenberghe =>
    simp only [momentum]
    constructor
    · positivity
    · rw [div_le_one (by positivity)]; linarith
  | _ => simp [momentum]

/-- **C115** `ProximalGradient` with any acceleration, whenever its iterates converge. -/
theorem C115_accelerated (hf : GradExact f φ) (hL : LipschitzGrad φ L) (hg : ProxExact g F) (hε : 0 < ε) (hτ : 0 < τ) (acc : Accel)
    (hacc : acc ≠ .other) (x0 c : E) (S : ℕ → PGState E) (hS : ∀ n, 0 < n → ProximalGradient f g x0 (pgArgs τ ε acc n) = .ok (S n))
    (hlim : Tendsto (fun n => (S n).x) atTop (𝓝 c)) :
    ∃ d, f.grad c = .ok d ∧ ∀ Q, Settles g.prox (ε * τ) (c - τ • d) Q → ∀ᶠ n in atTop, Q (S n).x := by
  obtain ⟨G, hG, hGr⟩ := gradExact_map hf
  obtain ⟨P, hP, hPx⟩ := pg_maps hg hε hτ
  obtain ⟨X, Y, t, hX0, hY0, ht0, hX, ht, hY, h⟩ := pg_traj hG hP acc hacc x0
  have hSX : ∀ n, 0 < n → (S n).x = X n := fun n hn => by
    have := (hS n hn).symm.trans (h n hn)
    injection this with this
    rw [this]
  have hXlim : Tendsto X atTop (𝓝 c) := hlim.congr' (by filter_upwards [eventually_gt_atTop 0] with n hn using hSX n hn)
  have hX1 : Tendsto (fun n => X (n + 1)) atTop (𝓝 c) := hXlim.comp (tendsto_add_atTop_nat 1)
  have hYlim : Tendsto Y atTop (𝓝 c) := by
    rw [← tendsto_add_atTop_iff_nat 1]
    have hd : Tendsto (fun n => X (n + 1) - X n) atTop (𝓝 0) := by simpa using hX1.sub hXlim
    have h0 : Tendsto (fun n => (momentum acc n (t n)).1 • (X (n + 1) - X n)) atTop (𝓝 0) := by
      refine squeeze_zero_norm (fun n => ?_) (by simpa using hd.norm)
      obtain ⟨a, b⟩ := momentum_bound acc ht0 ht n
      rw [norm_smul, Real.norm_eq_abs, abs_of_nonneg a]
      exact mul_le_of_le_one_left (norm_nonneg _) b
    simpa using (hX1.add h0).congr fun n => (hY n).symm
  have hLip : ∀ x y, ‖G x - G y‖ ≤ L * ‖x - y‖ := fun x y => hL x y _ _ (hGr x) (hGr y)
  have hGc : Continuous G := (LipschitzWith.of_dist_le_mul (K := L.toNNReal) fun x y => by
    rw [dist_eq_norm, dist_eq_norm]
    exact (hLip x y).trans (mul_le_mul_of_nonneg_right (Real.le_coe_toNNReal L) (norm_nonneg _))).continuous
  refine ⟨G c, hG c, fun Q hQ => eventually_succ ?_⟩
  have hv : Tendsto (fun n => Y n - τ • G (Y n)) atTop (𝓝 (c - τ • G c)) :=
    ((by fun_prop : Continuous fun x => x - τ • G x).tendsto c).comp hYlim
  have := settles_seq hQ hv (p := fun n => X (n + 1)) fun n => by rw [hX]; exact hP _
  filter_upwards [this] with n hn
  rwa [hSX _ n.succ_pos]

/-- **C115** `ProximalPoint`: at a minimiser the argument is the limit itself. -/
theorem C115_proximalpoint [ProperSpace E] (hF : F.Convex) (hf : ProxExact f F) (x0 : E) (hτ : 0 < τ) (hmin : ∃ c, F.IsMin c)
    (S : ℕ → PPState E) (hS : ∀ n, ProximalPoint f x0 τ n none = .ok (S n)) :
    ∃ c, F.IsMin c ∧ Tendsto (fun n => (S n).x) atTop (𝓝 c) ∧ ∀ Q, Settles f.prox τ c Q → ∀ᶠ n in atTop, Q (S n).x := by
  obtain ⟨c, hc, hlim⟩ := C40_point_converges f F hF hf x0 τ hτ hmin S hS
  obtain ⟨P, hP, -⟩ := proxExact_map hf hτ
  obtain ⟨T, -, hT, h⟩ := pp_traj hP x0
  have hST : ∀ n, (S n).x = T n := fun n => by
    have := (hS n).symm.trans (h n)
    injection this with this
    rw [this]
  simp only [hST] at hlim ⊢
  exact ⟨c, hc, hlim, fun Q hQ => eventually_succ (settles_seq hQ hlim fun n => by rw [hT]; exact hP _)⟩

/-- **C115** `DouglasRachford`, either order: the limit `c` comes with a certificate `s` (`-s ∈ ∂F(c)`, `s ∈ ∂G(c)`), and whatever the
operator that goes first settles at `c + tau s` (for `g`) or `c - tau s` (for `f`) holds for all but finitely many iterates. -/
theorem C115_dr [ProperSpace E] (hF : F.Convex) (hG : G.Convex) (hf : ProxExact f F) (hg : ProxExact g G) (hτ : 0 < τ) (hη : 0 < η)
    (hη2 : η < 2) (gfirst : Bool) (x0 : E) (hsol : ∃ x s, IsCertified F G x s) (R : ℕ → E × E × List (E × E))
    (hR : ∀ n, DouglasRachford f g x0 τ η (n + 1) gfirst = .ok (R n)) :
    ∃ c s, IsCertified F G c s ∧ Tendsto (fun n => (R n).1) atTop (𝓝 c) ∧
      (gfirst = true → ∀ Q, Settles g.prox τ (c + τ • s) Q → ∀ᶠ n in atTop, Q (R n).1) ∧
      (gfirst = false → ∀ Q, Settles f.prox τ (c - τ • s) Q → ∀ᶠ n in atTop, Q (R n).1) := by
  obtain ⟨Pf, hPf, hPf'⟩ := proxExact_map hf hτ
  obtain ⟨Pg, hPg, hPg'⟩ := proxExact_map hg hτ
  obtain ⟨Y, hY0, hY, h⟩ := dr_traj hPf hPg η gfirst x0
  obtain ⟨x, s, hxs⟩ := hsol
  have hRn : ∀ n, (R n).1 = (if gfirst then Pg else Pf) (Y n) := by
    intro n
    have := (hR n).symm.trans (h n)
    injection this with this
    rw [this]
  have f1 := firm_prox hF hτ hPf'
  have f2 := firm_prox hG hτ hPg'
  cases gfirst with
  | true =>
    simp only [if_true] at hY hRn
    obtain ⟨c, hc, hlim⟩ := dr_converges f2 f1 hη hη2 ⟨_, (dr_fixed_exists hF hG hτ hη.ne' hPf' hPg' hxs).1⟩ Y hY
    refine ⟨Pg c, _, (dr_fixed_iff hF hG hτ hη.ne' hPf' hPg' c).1 hc, ?_, fun _ Q hQ => ?_, by simp⟩
    · simp only [hRn]; exact (f2.continuous.tendsto c).comp hlim
    · rw [smul_smul, mul_one_div_cancel hτ.ne', one_smul, add_sub_cancel] at hQ
      exact settles_seq hQ hlim fun n => by rw [hRn]; exact hPg _
  | false =>
    simp only [Bool.false_eq_true, if_false] at hY hRn
    obtain ⟨c, hc, hlim⟩ := dr_converges f1 f2 hη hη2 ⟨_, (dr_fixed_exists hG hF hτ hη.ne' hPg' hPf' hxs.swap).1⟩ Y hY
    refine ⟨Pf c, _, ((dr_fixed_iff hG hF hτ hη.ne' hPg' hPf' c).1 hc).swap, ?_, by simp, fun _ Q hQ => ?_⟩
    · simp only [hRn]; exact (f1.continuous.tendsto c).comp hlim
    · rw [smul_neg, smul_smul, mul_one_div_cancel hτ.ne', one_smul, sub_neg_eq_add, add_sub_cancel] at hQ
      exact settles_seq hQ hlim fun n => by rw [hRn]; exact hPf _

/-- **C115** `ADMM`, either order: both sequences inherit what their operators settle. -/
theorem C115_admm [ProperSpace E] (hF : F.Convex) (hG : G.Convex) (hf : ProxExact f F) (hg : ProxExact g G) (hτ : 0 < τ) (gfirst : Bool)
    (x0 z0 : Option E) (hsol : ∃ x s, IsCertified F G x s) (R : ℕ → SplitState E) (hR : ∀ n, ADMM f g x0 z0 τ n gfirst = .ok (R n)) :
    ∃ c s, IsCertified F G c s ∧ Tendsto (fun n => (R n).x) atTop (𝓝 c) ∧ Tendsto (fun n => (R n).z) atTop (𝓝 c) ∧
      (∀ Q, Settles f.prox τ (c - τ • s) Q → ∀ᶠ n in atTop, Q (R n).x) ∧
      (∀ Q, Settles g.prox τ (c + τ • s) Q → ∀ᶠ n in atTop, Q (R n).z) := by
  obtain ⟨Pf, hPf, hPf'⟩ := proxExact_map hf hτ
  obtain ⟨Pg, hPg, hPg'⟩ := proxExact_map hg hτ
  rcases hinit : x0z0Init x0 z0 with e | ⟨x, z⟩
  · have := hR 0; simp [ADMM, hinit, Bind.bind, Except.bind] at this
  obtain ⟨S, -, -, -, hu, ht, hff, -, hS⟩ := admm_traj hPf hPg gfirst x0 z0 x z hinit
  obtain rfl : R = S := funext fun n => by
    have := (hR n).symm.trans (hS n)
    injection this
  obtain ⟨xs, s, hxs⟩ := hsol
  have f1 := firm_prox hF hτ hPf'
  have f2 := firm_prox hG hτ hPg'
  cases gfirst with
  | false =>
    have hff := hff rfl
    let V : ℕ → E := fun n => (R (n + 1)).x + (R n).u
    have hz : ∀ n, (R (n + 1)).z = Pg (V n) := fun n => (hff n).2
    have hun : ∀ n, (R (n + 1)).u = V n - Pg (V n) := fun n => by rw [hu, hz]; simp only [V]; abel
    have hx : ∀ n, (R (n + 2)).x = Pf ((2 : ℝ) • Pg (V n) - V n) := fun n => by
      rw [(hff (n + 1)).1, hz, hun, two_smul]; congr 1; abel
    have hV : ∀ n, V (n + 1) = drStep Pg Pf 1 (V n) := fun n => by
      show (R (n + 2)).x + (R (n + 1)).u = _
      rw [hx, hun]; unfold drStep; rw [one_smul]; abel
    obtain ⟨c, hc, hlim⟩ := dr_converges f2 f1 one_pos one_lt_two ⟨_, (dr_fixed_exists hF hG hτ one_ne_zero hPf' hPg' hxs).1⟩ V hV
    have hcont : Continuous fun v => (2 : ℝ) • Pg v - v := by have := f2.continuous; fun_prop
    have hcl := (hcont.tendsto c).comp hlim
    refine ⟨Pg c, _, (dr_fixed_iff hF hG hτ one_ne_zero hPf' hPg' c).1 hc, ?_, ?_, fun Q hQ => ?_, fun Q hQ => ?_⟩
    · rw [← tendsto_add_atTop_iff_nat 2]
      have := (f1.continuous.tendsto _).comp hcl
      have e : Pf ((2 : ℝ) • Pg c - c) = Pg c := by
        unfold drStep at hc
        rw [one_smul] at hc
        exact sub_eq_zero.1 (add_eq_left.1 hc)
      rw [e] at this
      exact this.congr fun n => (hx n).symm
    · rw [← tendsto_add_atTop_iff_nat 1]
      exact ((f2.continuous.tendsto c).comp hlim).congr fun n => (hz n).symm
    · have e : Pg c - τ • (1 / τ) • (c - Pg c) = (2 : ℝ) • Pg c - c := by
        rw [smul_smul, mul_one_div_cancel hτ.ne', one_smul, two_smul]; abel
      rw [e] at hQ
      exact eventually_succ (eventually_succ (settles_seq hQ hcl fun n => by rw [hx]; exact hPf _))
    · rw [smul_smul, mul_one_div_cancel hτ.ne', one_smul, add_sub_cancel] at hQ
      exact eventually_succ (settles_seq hQ hlim fun n => by rw [hz]; exact hPg _)
  | true =>
    have hff := ht rfl
    let V : ℕ → E := fun n => (R (n + 1)).z - (R n).u
    have hx : ∀ n, (R (n + 1)).x = Pf (V n) := fun n => (hff n).2
    have hun : ∀ n, (R (n + 1)).u = Pf (V n) - V n := fun n => by rw [hu, hx]; simp only [V]; abel
    have hz : ∀ n, (R (n + 2)).z = Pg ((2 : ℝ) • Pf (V n) - V n) := fun n => by
      rw [(hff (n + 1)).1, hx, hun, two_smul]; congr 1; abel
    have hV : ∀ n, V (n + 1) = drStep Pf Pg 1 (V n) := fun n => by
      show (R (n + 2)).z - (R (n + 1)).u = _
      rw [hz, hun]; unfold drStep; rw [one_smul]; abel
    obtain ⟨c, hc, hlim⟩ := dr_converges f1 f2 one_pos one_lt_two ⟨_, (dr_fixed_exists hG hF hτ one_ne_zero hPg' hPf' hxs.swap).1⟩ V hV
    have hcont : Continuous fun v => (2 : ℝ) • Pf v - v := by have := f1.continuous; fun_prop
    have hcl := (hcont.tendsto c).comp hlim
    refine ⟨Pf c, _, ((dr_fixed_iff hG hF hτ one_ne_zero hPg' hPf' c).1 hc).swap, ?_, ?_, fun Q hQ => ?_, fun Q hQ => ?_⟩
    · rw [← tendsto_add_atTop_iff_nat 1]
      exact ((f1.continuous.tendsto c).comp hlim).congr fun n => (hx n).symm
    · rw [← tendsto_add_atTop_iff_nat 2]
      have := (f2.continuous.tendsto _).comp hcl
      have e : Pg ((2 : ℝ) • Pf c - c) = Pf c := by
        unfold drStep at hc
        rw [one_smul] at hc
        exact sub_eq_zero.1 (add_eq_left.1 hc)
      rw [e] at this
      exact this.congr fun n => (hz n).symm
    · rw [smul_neg, smul_smul, mul_one_div_cancel hτ.ne', one_smul, sub_neg_eq_add, add_sub_cancel] at hQ
      exact eventually_succ (settles_seq hQ hlim fun n => by rw [hx]; exact hPf _)
    · have e : Pf c + τ • -((1 / τ) • (c - Pf c)) = (2 : ℝ) • Pf c - c := by
        rw [smul_neg, smul_smul, mul_one_div_cancel hτ.ne', one_smul, two_smul]; abel
      rw [e] at hQ
      exact eventually_succ (eventually_succ (settles_seq hQ hcl fun n => by rw [hz]; exact hPg _))

/-- **C115** `PrimalDual`, either order: the primal iterates inherit what `f.prox` settles at `x - tau (Aᵀy + z)`, the dual ones what
`g.proxdual` settles at `y + mu A x`. -/
theorem C115_primaldual [FiniteDimensional ℝ E] [FiniteDimensional ℝ H] {g : ProxOp H} {G : XFun H} {A : LinOp E H} {μ K : ℝ} (hF : F.Convex)
    (hG : G.Convex) (hf : ProxExact f F) (hg : ProxExact g G) (hd : ProxdualExact g G.conj) (hτ : 0 < τ) (hμ : 0 < μ) (hK : 0 ≤ K)
    (hA : ∀ v, ‖A.matvec v‖ ≤ K * ‖v‖) (hc : τ * μ * K ^ 2 ≤ 1) (z : Option E) (gfirst : Bool) (x0 : E) (y0 : Option H)
    (hsol : ∃ a b, IsCertifiedComp F G A.matvec A.rmatvec (z.getD 0) a b) (R : ℕ → PDState E H)
    (hR : ∀ n, PrimalDual f g A x0 y0 z (.scalar τ) (.scalar μ) 1 n gfirst = .ok (R n)) :
    ∃ x y, IsSaddle F G A.matvec (z.getD 0) x y ∧ Tendsto (fun n => (R n).x) atTop (𝓝 x) ∧ Tendsto (fun n => (R n).y) atTop (𝓝 y) ∧
      (∀ Q, Settles f.prox τ (x - τ • (A.rmatvec y + z.getD 0)) Q → ∀ᶠ n in atTop, Q (R n).x) ∧
      (∀ Q, Settles g.proxdual μ (y + μ • A.matvec x) Q → ∀ᶠ n in atTop, Q (R n).y) := by
  obtain ⟨x, y, hs, -, hx, hy⟩ := C50_pd_converges hF hG hf hg hd hτ hμ hK hA hc z gfirst x0 y0 hsol R hR
  obtain ⟨P, hP, hP'⟩ := proxExact_map hf hτ
  obtain ⟨Pg, hPg, hD⟩ := proxdual_moreau hG hg hd hμ
  obtain ⟨X, Y, Xh, hX0, hXh0, hY0, hXh, ht, hfl, h⟩ := pd_traj (A := A) hP hD x0 y0 z 1 gfirst
  have hRn : ∀ n, R n = ⟨X n, Y n, Xh n, (List.range n).map fun i => (X (i + 1), Y (i + 1))⟩ := fun n => by
    have := (hR n).symm.trans (h n); injection this
  simp only [hRn] at hx hy ⊢
  have cA := linop_continuous A.matvec
  have cB := linop_continuous A.rmatvec
  have hx1 := hx.comp (tendsto_add_atTop_nat 1)
  have hy1 := hy.comp (tendsto_add_atTop_nat 1)
  have hXhl : Tendsto Xh atTop (𝓝 x) := by
    rw [← tendsto_add_atTop_iff_nat 1]
    have := hx1.add ((hx1.sub hx).const_smul (1 : ℝ))
    rw [sub_self, smul_zero, add_zero] at this
    exact this.congr fun n => (hXh n).symm
  refine ⟨x, y, hs, hx, hy, fun Q hQ => eventually_succ ?_, fun Q hQ => eventually_succ ?_⟩
  · cases gfirst with
    | true =>
      have hv : Tendsto (fun n => X n - τ • (A.rmatvec (Y (n + 1)) + z.getD 0)) atTop (𝓝 (x - τ • (A.rmatvec y + z.getD 0))) :=
        hx.sub ((((cB.tendsto y).comp hy1).add_const _).const_smul τ)
      exact settles_seq hQ hv fun n => by rw [(ht rfl n).2]; exact hP _
    | false =>
      have hv : Tendsto (fun n => X n - τ • (A.rmatvec (Y n) + z.getD 0)) atTop (𝓝 (x - τ • (A.rmatvec y + z.getD 0))) :=
        hx.sub ((((cB.tendsto y).comp hy).add_const _).const_smul τ)
      exact settles_seq hQ hv fun n => by rw [(hfl rfl n).1]; exact hP _
  · cases gfirst with
    | true =>
      have hv : Tendsto (fun n => Y n + μ • A.matvec (Xh n)) atTop (𝓝 (y + μ • A.matvec x)) :=
        hy.add (((cA.tendsto x).comp hXhl).const_smul μ)
      exact settles_seq hQ hv fun n => by rw [(ht rfl n).1]; exact hD _
    | false =>
      have hv : Tendsto (fun n => Y n + μ • A.matvec (Xh (n + 1))) atTop (𝓝 (y + μ • A.matvec x)) :=
        hy.add (((cA.tendsto x).comp (hXhl.comp (tendsto_add_atTop_nat 1))).const_smul μ)
      exact settles_seq hQ hv fun n => by rw [(hfl rfl n).2]; exact hD _

/-- **C115** `HQS` with a fixed step. -/
theorem C115_hqs [ProperSpace E] (hF : F.Convex) (hG : G.Convex) (hf : ProxExact f F) (hg : ProxExact g G) (hτ : 0 < τ)
    (hsol : ∃ x z, IsPenalisedMin F G τ x z) (gfirst : Bool) (x0 z0 : Option E) (R : ℕ → SplitState E)
    (hR : ∀ n, HQS f g x0 z0 (.scalar τ) n gfirst = .ok (R n)) :
    ∃ x z, IsPenalisedMin F G τ x z ∧ Tendsto (fun n => (R n).x) atTop (𝓝 x) ∧ Tendsto (fun n => (R n).z) atTop (𝓝 z) ∧
      (∀ Q, Settles f.prox τ z Q → ∀ᶠ n in atTop, Q (R n).x) ∧ (∀ Q, Settles g.prox τ x Q → ∀ᶠ n in atTop, Q (R n).z) := by
  obtain ⟨xl, zl, hm, hx, hz⟩ := C95_hqs_converges hF hG hf hg hτ hsol gfirst x0 z0 R hR
  obtain ⟨Pf, hPf, hPf'⟩ := proxExact_maps hf
  obtain ⟨Pg, hPg, hPg'⟩ := proxExact_maps hg
  rcases hinit : x0z0Init x0 z0 with e | ⟨x, z⟩
  · have := hR 0; simp [HQS, hinit, Bind.bind, Except.bind] at this
  have hrun : ∀ n, ((R (n + 1)).x, (R (n + 1)).z) =
      hqsPair gfirst (if gfirst then Pg else Pf) (if gfirst then Pf else Pg) (fun _ => τ) (if gfirst then x else z) n := by
    intro n
    obtain ⟨s, h1, -, -, h2⟩ := hqs_traj hPf hPg (.scalar τ) (fun _ => τ) gfirst x0 z0 x z hinit (n + 1) (fun i _ => ⟨rfl, hτ⟩)
    rw [hR] at h1
    injection h1 with h1
    rw [h1]; exact h2 n rfl
  have hx1 := hx.comp (tendsto_add_atTop_nat 1)
  have hz1 := hz.comp (tendsto_add_atTop_nat 1)
  refine ⟨xl, zl, hm, hx, hz, fun Q hQ => ?_, fun Q hQ => ?_⟩
  · cases gfirst with
    | true =>
      simp only [if_true, hqsPair, Prod.mk.injEq] at hrun
      refine eventually_succ (settles_seq hQ hz1 fun n => ?_)
      show f.prox (R (n + 1)).z τ = _
      rw [hPf τ hτ, (hrun n).1, (hrun n).2]; rfl
    | false =>
      simp only [Bool.false_eq_true, if_false, hqsPair, Prod.mk.injEq] at hrun
      refine eventually_succ (eventually_succ (settles_seq hQ hz1 fun n => ?_))
      show f.prox (R (n + 1)).z τ = _
      rw [hPf τ hτ, (hrun n).2, (hrun (n + 1)).1]
  · cases gfirst with
    | true =>
      simp only [if_true, hqsPair, Prod.mk.injEq] at hrun
      refine eventually_succ (eventually_succ (settles_seq hQ hx1 fun n => ?_))
      show g.prox (R (n + 1)).x τ = _
      rw [hPg τ hτ, (hrun n).1, (hrun (n + 1)).2]
    | false =>
      simp only [Bool.false_eq_true, if_false, hqsPair, Prod.mk.injEq] at hrun
      refine eventually_succ (settles_seq hQ hx1 fun n => ?_)
      show g.prox (R (n + 1)).x τ = _
      rw [hPg τ hτ, (hrun n).1, (hrun n).2]; rfl

/-- **C115** accelerated `ProximalGradient` on a strongly convex `f`: the iterates converge, and identify. -/
theorem C115_accelerated_strong (hf : GradExact f φ) (hL : LipschitzGrad φ L) {μ : ℝ} (hμ : 0 < μ) (hφ : StrongConvexOn Set.univ μ φ)
    (hF : F.Convex) (hg : ProxExact g F) (hε : 0 < ε) (hτ : 0 < τ) (hτL : τ * L ≤ 1) (acc : Accel) (hacc : acc = .fista ∨ acc = .vandenberghe)
    (x0 c : E) (hc : (compositeObj φ ε F).IsMin c) (S : ℕ → PGState E)
    (hS : ∀ n, 0 < n → ProximalGradient f g x0 (pgArgs τ ε acc n) = .ok (S n)) :
    Tendsto (fun n => (S n).x) atTop (𝓝 c) ∧
      ∃ d, f.grad c = .ok d ∧ ∀ Q, Settles g.prox (ε * τ) (c - τ • d) Q → ∀ᶠ n in atTop, Q (S n).x := by
  have hacc' : acc ≠ .other := by rcases hacc with rfl | rfl <;> decide
  have hconv : ConvexOn ℝ Set.univ φ := hφ.convexOn fun r => by simp; positivity
  have hdom : ∀ n, 0 < n → (S n).x ∈ F.dom := by
    obtain ⟨G, hG, hGr⟩ := gradExact_map hf
    obtain ⟨P, hP, hPx⟩ := pg_maps hg hε hτ
    obtain ⟨X, Y, t, hX0, hY0, ht0, hX, ht, hY, h⟩ := pg_traj hG hP acc hacc' x0
    intro n hn
    have := (hS n hn).symm.trans (h n hn)
    injection this with this
    rw [this]
    cases n with
    | zero => omega
    | succ n => show X (n + 1) ∈ F.dom; rw [hX]; exact (hPx _).1
  have hb : ∀ n, 0 < n → μ / 4 * ‖(S n).x - c‖ ^ 2 ≤ 2 * ‖x0 - c‖ ^ 2 / (τ * (n + 1) ^ 2) := by
    intro n hn
    refine le_trans ?_ (C42_accelerated_rate hf hL hconv hF hg hε hτ hτL acc hacc x0 n hn (S n) (hS n hn) c hc)
    set x := (S n).x with hx
    have h1 := hφ.right (Set.mem_univ x) (Set.mem_univ c) (show (0 : ℝ) ≤ 1 / 2 by norm_num) (show (0 : ℝ) ≤ 1 / 2 by norm_num) (by norm_num)
    have h2 := (smulConvex hF hε.le).2 (hdom n hn) hc.1.2 (show (0 : ℝ) ≤ 1 / 2 by norm_num) (show (0 : ℝ) ≤ 1 / 2 by norm_num) (by norm_num)
    have h3 := hc.2 ((1 / 2 : ℝ) • x + (1 / 2 : ℝ) • c)
      ⟨trivial, hF.1 (hdom n hn) hc.1.2 (by norm_num) (by norm_num) (by norm_num)⟩
    simp only [compositeObj, XFun.add, XFun.ofReal, smul_eq_mul] at h1 h2 h3 ⊢
    rw [← hx] at h2
    linarith
  have hlim : Tendsto (fun n => (S n).x) atTop (𝓝 c) := by
    rw [tendsto_iff_norm_sub_tendsto_zero]
    have h0 : Tendsto (fun n : ℕ => 4 / μ * (2 * ‖x0 - c‖ ^ 2 / (τ * ((n : ℝ) + 1) ^ 2))) atTop (𝓝 0) := by
      have h1 : Tendsto (fun n : ℕ => τ * ((n : ℝ) + 1) ^ 2) atTop atTop :=
        Tendsto.const_mul_atTop hτ ((tendsto_pow_atTop two_ne_zero).comp (tendsto_atTop_add_const_right _ _ tendsto_natCast_atTop_atTop))
      simpa using (h1.const_div_atTop (2 * ‖x0 - c‖ ^ 2)).const_mul (4 / μ)
    have h2 : Tendsto (fun n => ‖(S n).x - c‖ ^ 2) atTop (𝓝 0) := by
      refine tendsto_of_tendsto_of_tendsto_of_le_of_le' tendsto_const_nhds h0 (Eventually.of_forall fun n => sq_nonneg _) ?_
      filter_upwards [eventually_gt_atTop 0] with n hn
      have := mul_le_mul_of_nonneg_left (hb n hn) (show 0 ≤ 4 / μ by positivity)
      rwa [← mul_assoc, show 4 / μ * (μ / 4) = 1 by field_simp, one_mul] at this
    have h3 := (Real.continuous_sqrt.tendsto 0).comp h2
    rw [Real.sqrt_zero] at h3
    exact h3.congr fun n => Real.sqrt_sq (norm_nonneg _)
  exact ⟨hlim, C115_accelerated hf hL hg hε hτ acc hacc' x0 c S hS hlim⟩

end Solvers

/-! ## The lasso -/

section Lasso
variable {D C : Type} [NormedAddCommGroup D] [InnerProductSpace ℝ D]

/-- A least squares term plus a positive multiple of the L1 norm has a minimiser. -/
lemma lasso_min (Op : LinOp (Vec ι) D) (b : D) {ε : ℝ} (hε : 0 < ε) :
    ∃ c : Vec ι, ∀ y : Vec ι, 1 / 2 * ‖Op.matvec c - b‖ ^ 2 + ε * ∑ i, |c i| ≤ 1 / 2 * ‖Op.matvec y - b‖ ^ 2 + ε * ∑ i, |y i| := by
  have cA := linop_continuous Op.matvec
  have hcont : Continuous fun y : Vec ι => 1 / 2 * ‖Op.matvec y - b‖ ^ 2 + ε * ∑ i, |y i| := by fun_prop
  refine hcont.exists_forall_le ?_
  have hn : Tendsto (fun y : Vec ι => ε * ‖y‖) (cocompact _) atTop := (tendsto_norm_cocompact_atTop).const_mul_atTop hε
  refine tendsto_atTop_mono (fun y => ?_) hn
  have h1 : ‖y‖ ≤ ∑ i, |y i| := by
    rw [EuclideanSpace.norm_eq]
    refine Real.sqrt_le_iff.2 ⟨Finset.sum_nonneg fun i _ => abs_nonneg _, ?_⟩
    simpa [Real.norm_eq_abs] using Finset.sum_sq_le_sq_sum_of_nonneg (s := Finset.univ) (f := fun i => |y i|) fun i _ => abs_nonneg _
  have h2 := mul_le_mul_of_nonneg_left h1 hε.le
  have h3 : 0 ≤ 1 / 2 * ‖Op.matvec y - b‖ ^ 2 := by positivity
  linarith

/-- **C115** the lasso.  `ProximalGradient(L2(Op, b), L1(), x0, epsg=ε, tau=τ)` with `tau ‖Op‖² < 2` converges to a minimiser `c`; every entry
at which the correlation with the residual is strictly below `ε` is exactly zero in `c` and in all but finitely many iterates; every nonzero
entry of `c` has its sign in all but finitely many iterates; and if those are the only two kinds of entries, all but finitely many iterates
have the support of `c`. -/
theorem C115_lasso (ext : L2Ext (Vec ι) D C) (Op : LinOp (Vec ι) D) (e : Bool) (b : D) (niter : NIter) (warm : Bool) (sv : L2Solver)
    (ds : DenseSolver) (st : L2State (Vec ι) C) {K τ ε : ℝ} (hK : 0 ≤ K) (hop : ∀ v, ‖Op.matvec v‖ ≤ K * ‖v‖) (hτ : 0 < τ)
    (hτK : τ * K ^ 2 < 2) (hε : 0 < ε) (x0 : Vec ι) (S : ℕ → PGState (Vec ι))
    (hS : ∀ n, 0 < n → ProximalGradient (L2.obj ext ⟨.opB Op e b, none, 1, 1, true, niter, warm, sv, ds⟩ st) (L1 1 none) x0
      (pgArgs τ ε .none n) = .ok (S n)) :
    ∃ c : Vec ι, (∀ y : Vec ι, 1 / 2 * ‖Op.matvec c - b‖ ^ 2 + ε * ∑ i, |c i| ≤ 1 / 2 * ‖Op.matvec y - b‖ ^ 2 + ε * ∑ i, |y i|) ∧
      Tendsto (fun n => (S n).x) atTop (𝓝 c) ∧
      (∀ i, |(Op.rmatvec (Op.matvec c - b)) i| < ε → c i = 0 ∧ ∀ᶠ n in atTop, (S n).x i = 0) ∧
      (∀ i, 0 < c i → ∀ᶠ n in atTop, 0 < (S n).x i) ∧ (∀ i, c i < 0 → ∀ᶠ n in atTop, (S n).x i < 0) ∧
      ((∀ i, c i = 0 → |(Op.rmatvec (Op.matvec c - b)) i| < ε) → ∀ᶠ n in atTop, ∀ i, (S n).x i = 0 ↔ c i = 0) := by
  set a : L2Args (Vec ι) D := ⟨.opB Op e b, none, 1, 1, true, niter, warm, sv, ds⟩ with ha
  have hval : ∀ y, (compositeObj (l2Spec a) ε (XFun.ofReal fun x : Vec ι => 1 * ∑ i, |x i - (0 : Vec ι) i|)).val y =
      1 / 2 * ‖Op.matvec y - b‖ ^ 2 + ε * ∑ i, |y i| := by
    intro y
    simp [compositeObj, XFun.add, XFun.ofReal, XFun.smul, l2Spec, ha]
  obtain ⟨c0, hc0⟩ := lasso_min Op b hε
  obtain ⟨c, d, hmin, hlim, hd, hQ⟩ := C115_proximalgradient (L := a.σ * K ^ 2) (l2obj_grad ext a rfl st)
    (l2_lipschitz a (by simp [ha]) Op e b rfl hK hop) (l2_convex a (by simp [ha])) l1_convex l1_proxExact hε hτ (by simpa [ha] using hτK) x0
    ⟨c0, ⟨trivial, trivial⟩, fun y _ => by rw [hval, hval]; exact hc0 y⟩ S hS
  have hd' : d = Op.rmatvec (Op.matvec c - b) := by
    simp only [ProxOp.grad, L2.obj, L2.grad, ha, one_smul] at hd
    simpa using hd.symm
  subst hd'
  have hετ : 0 < ε * τ := by positivity
  -- the limit is the fixed point
  have hx : ∀ i, Tendsto (fun n => (S n).x i) atTop (𝓝 (c i)) := fun i =>
    ((PiLp.continuous_apply 2 (fun _ : ι => ℝ) i).tendsto c).comp hlim
  obtain ⟨P, hP, hPx⟩ := pg_maps (l1_proxExact (ι := ι)) hε hτ
  obtain ⟨Gm, hGm, hGr⟩ := gradExact_map (l2obj_grad ext a rfl st)
  have hGc : Gm c = Op.rmatvec (Op.matvec c - b) := by
    have := (hGm c).symm.trans hd
    injection this
  have hfix := (pg_fixed_iff (l2_convex a (by simp [ha])) (smulConvex l1_convex hε.le) hτ hGr hPx c).2 hmin
  rw [hGc] at hfix
  have hsoft : ∀ i, c i = softScalar (c i - τ * (Op.rmatvec (Op.matvec c - b)) i) (ε * τ) := by
    intro i
    have h1 := hP (c - τ • Op.rmatvec (Op.matvec c - b))
    rw [hfix] at h1
    simp only [ProxOp.prox, L1, checkTau, not_le.mpr hετ, if_false, softthreshold, mul_one] at h1
    injection h1 with h1
    have := congrArg (fun v : Vec ι => v i) h1
    simpa using this.symm
  have hzero : ∀ i, |(Op.rmatvec (Op.matvec c - b)) i| < ε → c i = 0 := by
    intro i hi
    by_contra hne
    have h1 := hsoft i
    set t := c i - τ * (Op.rmatvec (Op.matvec c - b)) i with ht
    obtain ⟨l, u⟩ := abs_lt.1 hi
    have hl := mul_lt_mul_of_pos_left l hτ
    have hu := mul_lt_mul_of_pos_left u hτ
    rcases le_or_gt (|t|) (ε * τ) with h | h
    · rw [softScalar, max_eq_right (by linarith), zero_mul] at h1
      exact hne h1
    · rw [softScalar, max_eq_left (by linarith)] at h1
      rcases lt_trichotomy t 0 with h0 | h0 | h0
      · rw [npsign, if_neg (not_lt.mpr h0.le), if_pos h0, abs_of_neg h0] at h1
        nlinarith
      · rw [h0, abs_zero] at h; linarith
      · rw [npsign, if_pos h0, abs_of_pos h0] at h1
        nlinarith
  have hev : ∀ i, |(Op.rmatvec (Op.matvec c - b)) i| < ε → ∀ᶠ n in atTop, (S n).x i = 0 := by
    intro i hi
    refine hQ (fun p => p i = 0) ?_
    have := (C115_l1 1 none hετ (c - τ • Op.rmatvec (Op.matvec c - b)) i).1 (by
      have hc := hzero i hi
      simp only [Option.getD_none, PiLp.zero_apply, sub_zero, PiLp.sub_apply, PiLp.smul_apply, smul_eq_mul, hc, zero_sub, abs_neg, abs_mul,
        abs_of_pos hτ, mul_one]
      rw [mul_comm ε]
      exact mul_lt_mul_of_pos_left hi hτ)
    simpa using this
  refine ⟨c, fun y => ?_, hlim, fun i hi => ⟨hzero i hi, hev i hi⟩, fun i hi => (hx i).eventually_const_lt hi,
    fun i hi => (hx i).eventually_lt_const hi, fun hsc => ?_⟩
  · have := hmin.2 y ⟨trivial, trivial⟩
    rwa [hval, hval] at this
  · refine eventually_all.2 fun i => ?_
    by_cases hi : c i = 0
    · filter_upwards [hev i (hsc i hi)] with n hn
      simp [hn, hi]
    · filter_upwards [(hx i).eventually_ne hi] with n hn
      simp [hn, hi]

/-! ## Where it fails -/

/-- **C115** without strict complementarity it fails: `½(x-1)² + |x|` has the single minimiser 0, the iterates from `x0 > 0` are
`(1-tau)^n x0`, positive for ever. -/
theorem C115_degenerate_refuted (ext : L2Ext (Vec (Fin 1)) D C) (niter : NIter) (warm : Bool) (sv : L2Solver) (ds : DenseSolver)
    (st : L2State (Vec (Fin 1)) C) {τ x0 : ℝ} (hτ : 0 < τ) (hτ1 : τ < 1) (hx0 : 0 < x0) :
    (∀ y : ℝ, 1 / 2 * (0 - 1) ^ 2 + |(0 : ℝ)| ≤ 1 / 2 * (y - 1) ^ 2 + |y|) ∧
    ∀ n, 0 < n → ∃ s, ProximalGradient (L2.obj ext ⟨.bOnly (vmk fun _ => 1), none, 1, 1, true, niter, warm, sv, ds⟩ st) (L1 1 none)
      (vmk fun _ => x0) (pgArgs τ 1 .none n) = .ok s ∧ s.x 0 = (1 - τ) ^ n * x0 ∧ s.x 0 ≠ 0 := by
  constructor
  · intro y
    rw [abs_zero]
    rcases abs_cases y with ⟨h, -⟩ | ⟨h, h0⟩ <;> rw [h] <;> nlinarith [sq_nonneg y]
  · intro n hn
    set a : L2Args (Vec (Fin 1)) D := ⟨.bOnly (vmk fun _ => 1), none, 1, 1, true, niter, warm, sv, ds⟩ with ha
    have hG : ∀ x, (L2.obj ext a st).grad x = .ok (x - vmk fun _ => 1) := fun x => by simp [ProxOp.grad, L2.obj, L2.grad, ha]
    have hP : ∀ x : Vec (Fin 1), (L1 1 none).prox x (1 * τ) = .ok (vmk fun i => softScalar (x i) τ) := fun x => by
      simp [ProxOp.prox, L1, checkTau, not_le.mpr hτ, softthreshold]
    obtain ⟨X, Y, t, hX0, hY0, ht0, hX, ht, hY, h⟩ := pg_traj hG hP .none (by decide) (vmk fun _ => x0)
    have hYX : ∀ n, Y n = X n := by
      intro n
      cases n with
      | zero => rw [hX0, hY0]
      | succ n => rw [hY]; simp [momentum]
    have hval : ∀ n, X n 0 = (1 - τ) ^ n * x0 := by
      intro n
      induction n with
      | zero => simp [hX0]
      | succ n ih =>
        have hpos : 0 < (1 - τ) ^ n * x0 := mul_pos (pow_pos (by linarith) n) hx0
        have h1 : (X n - τ • (X n - vmk fun _ => 1) : Vec (Fin 1)) 0 = (1 - τ) * ((1 - τ) ^ n * x0) + τ := by
          simp [ih]; ring
        have h2 : 0 < (1 - τ) * ((1 - τ) ^ n * x0) := mul_pos (by linarith) hpos
        rw [hX, hYX]
        show softScalar ((X n - τ • (X n - vmk fun _ => 1) : Vec (Fin 1)) 0) τ = _
        rw [h1, softScalar, npsign, if_pos (by linarith), abs_of_pos (by linarith), max_eq_left (by linarith), mul_one, pow_succ]
        ring
    exact ⟨_, h n hn, hval n, by
      show X n 0 ≠ 0
      rw [hval]; exact (mul_pos (pow_pos (by linarith) n) hx0).ne'⟩

/-- **C115** with relaxation (`eta < 1`) it fails even in the strictly complementary case: `½x² + |x|` has the single minimiser 0 with a zero
gradient, the iterates from `0 < x0 <= tau` are `(1-eta)^n x0`. -/
theorem C115_relaxation_refuted (ext : L2Ext (Vec (Fin 1)) D C) (niter : NIter) (warm : Bool) (sv : L2Solver) (ds : DenseSolver)
    (st : L2State (Vec (Fin 1)) C) {τ η x0 : ℝ} (hτ : 0 < τ) (hτ1 : τ < 1) (hη : 0 < η) (hη1 : η < 1) (hx0 : 0 < x0) (hx1 : x0 ≤ τ) (n : ℕ) (hn : 0 < n) :
    ∃ s, ProximalGradient (L2.obj ext ⟨.nothing, none, 1, 1, true, niter, warm, sv, ds⟩ st) (L1 1 none) (vmk fun _ => x0)
      ⟨some τ, false, 1 / 2, .scalar 1, n, 100, .none, η, none⟩ = .ok s ∧ s.x 0 = (1 - η) ^ n * x0 ∧ s.x 0 ≠ 0 := by
  set a : L2Args (Vec (Fin 1)) D := ⟨.nothing, none, 1, 1, true, niter, warm, sv, ds⟩ with ha
  set args : PGArgs := ⟨some τ, false, 1 / 2, .scalar 1, n, 100, .none, η, none⟩ with hargs
  have hG : ∀ x, (L2.obj ext a st).grad x = .ok x := fun x => by simp [ProxOp.grad, L2.obj, L2.grad, ha]
  have hP : ∀ x : Vec (Fin 1), (L1 1 none).prox x (1 * τ) = .ok (vmk fun i => softScalar (x i) τ) := fun x => by
    simp [ProxOp.prox, L1, checkTau, not_le.mpr hτ, softthreshold]
  let ok : PGState (Vec (Fin 1)) → Prop := fun s => s.tau = τ ∧ s.pfg = none ∧ s.y = s.x ∧ 0 < s.x 0 ∧ s.x 0 ≤ τ
  have hbody : ∀ i s, ok s → ∃ s', PG.body (L2.obj ext a st) (L1 1 none) args false i s = .ok (s', false) ∧ ok s' ∧ s'.x 0 = (1 - η) * s.x 0 := by
    rintro i s ⟨h1, h2, h3, h4, h5⟩
    have hz : softScalar ((s.x - τ • s.x) 0) τ = 0 := by
      have e : (s.x - τ • s.x) 0 = (1 - τ) * s.x 0 := by simp; ring
      have h6 : 0 < (1 - τ) * s.x 0 := mul_pos (by linarith) h4
      rw [e, softScalar, abs_of_pos h6, max_eq_right (by nlinarith), zero_mul]
    have hv : (vmk fun i => softScalar ((s.x - τ • s.x) i) τ : Vec (Fin 1)) = 0 := by
      ext i; fin_cases i; exact hz
    have h7 : (s.x + η • (0 - s.x)) 0 = (1 - η) * s.x 0 := by simp; ring
    refine ⟨⟨s.x + η • (0 - s.x), s.x + η • (0 - s.x), s.t, τ, none, s.log ++ [s.x + η • (0 - s.x)]⟩, ?_, ⟨rfl, rfl, rfl, ?_, ?_⟩, h7⟩
    · simp only [PG.body, PG.step, hargs, StepSpec.at, h1, h2, h3, Bind.bind, Except.bind, Pure.pure, Except.pure, Bool.false_eq_true, if_false, hG,
        hP, hη1.ne, hv, momentum]
      simp
    · show 0 < (s.x + η • (0 - s.x)) 0
      rw [h7]; exact mul_pos (by linarith) h4
    · show (s.x + η • (0 - s.x)) 0 ≤ τ
      rw [h7]; nlinarith
  obtain ⟨S, h0, hok, h2, h3⟩ := forRange_traj_nobreak _ ok (fun _ s s' => s'.x 0 = (1 - η) * s.x 0) hbody
    ⟨vmk fun _ => x0, vmk fun _ => x0, 1, τ, none, []⟩ ⟨rfl, rfl, rfl, hx0, hx1⟩
  have hval : ∀ n, (S n).x 0 = (1 - η) ^ n * x0 := by
    intro n
    induction n with
    | zero => simp [h0]
    | succ n ih => rw [h2, ih, pow_succ]; ring
  refine ⟨S n, ?_, hval n, (hok n).2.2.2.1.ne'⟩
  have e1 : args.epsg.printCheck args.niter = .ok () := by simp [hargs, StepSpec.printCheck, hn.ne']
  rw [ProximalGradient, e1]
  simp only [Bind.bind, Except.bind]
  exact h3 n

end Lasso

/-! ## The hypotheses can be met -/

/-- The lasso with the identity, data `(3, 1/2)`, weight 1 and step `1/2`, from every starting point: the second entry is exactly zero
after finitely many iterations, the first is never zero from some iteration on. -/
example {C : Type} (ext : L2Ext (Vec (Fin 2)) (Vec (Fin 2)) C) (st : L2State (Vec (Fin 2)) C) (x0 : Vec (Fin 2)) :
    ∃ S : ℕ → PGState (Vec (Fin 2)),
      (∀ n, 0 < n → ProximalGradient (L2.obj ext ⟨.opB ⟨LinearMap.id, LinearMap.id, fun _ _ => rfl⟩ false (vmk ![3, 1 / 2]), none, 1, 1, true,
        .const 10, false, .cg, .default⟩ st) (L1 1 none) x0 (pgArgs (1 / 2) 1 .none n) = .ok (S n)) ∧
      ∀ᶠ n in atTop, (S n).x 1 = 0 ∧ 0 < (S n).x 0 := by
  set a : L2Args (Vec (Fin 2)) (Vec (Fin 2)) := ⟨.opB ⟨LinearMap.id, LinearMap.id, fun _ _ => rfl⟩ false (vmk ![3, 1 / 2]), none, 1, 1, true,
        .const 10, false, .cg, .default⟩ with ha
  have hex : ∀ n, ∃ s, 0 < n → ProximalGradient (L2.obj ext a st) (L1 1 none) x0 (pgArgs (1 / 2) 1 .none n) = .ok s := by
    intro n
    by_cases hn : 0 < n
    · obtain ⟨s, hs⟩ := C41_pg_returns (l2obj_grad ext a rfl st) l1_proxExact one_pos (by norm_num : (0 : ℝ) < 1 / 2) .none (by decide) x0 n hn
      exact ⟨s, fun _ => hs⟩
    · exact ⟨⟨0, 0, 0, 0, none, []⟩, fun h => absurd h hn⟩
  choose S hS using hex
  refine ⟨S, hS, ?_⟩
  obtain ⟨c, hmin, -, hz, hp, -⟩ := C115_lasso ext ⟨LinearMap.id, LinearMap.id, fun _ _ => rfl⟩ false (vmk ![3, 1 / 2]) (.const 10) false .cg .default st
    (K := 1) (τ := 1 / 2) (ε := 1) zero_le_one (fun v => by simp) (by norm_num) (by norm_num) one_pos x0 S hS
  have h1 := hmin (vmk ![c 0, 0])
  have h2 := hmin (vmk ![2, c 1])
  simp only [LinearMap.id_apply, EuclideanSpace.norm_sq_eq, Fin.sum_univ_two, PiLp.sub_apply, Real.norm_eq_abs, sq_abs, vmk, Matrix.cons_val_zero,
    Matrix.cons_val_one, one_mul] at h1 h2
  have hc1 : c 1 = 0 := by
    rcases abs_cases (c 1) with ⟨h, h0⟩ | ⟨h, h0⟩ <;> rw [h] at h1 <;> simp only [abs_zero] at h1 <;> nlinarith [sq_nonneg (c 1)]
  have hc0 : 0 < c 0 := by
    by_contra hn
    push Not at hn
    rw [abs_of_nonpos hn, abs_of_pos (by norm_num : (0 : ℝ) < 2)] at h2
    nlinarith
  filter_upwards [(hz 1 (by simp [hc1]; norm_num [abs_of_pos])).2, hp 0 hc0] with n h3 h4
  exact ⟨h3, h4⟩

end Verif
