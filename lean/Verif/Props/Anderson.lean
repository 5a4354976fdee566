import Verif.Model.Anderson
import Verif.Spec.Pinv
import Verif.Props.Twist
import Verif.Props.Tolerance
import Mathlib.Analysis.Matrix.Spectrum

/-! # C86: the coefficients of AndersonProximalGradient; C87: its safeguard -/

namespace Verif

open scoped InnerProductSpace

variable {E : Type} [NormedAddCommGroup E] [InnerProductSpace ℝ E]

/-- A Moore-Penrose inverse exists for every symmetric matrix. -/
lemma exists_pinv {n : ℕ} (M : Matrix (Fin n) (Fin n) ℝ) (hM : M.IsSymm) : ∃ P, IsPinv M P := by
  have hH : M.IsHermitian := by
    rw [Matrix.IsHermitian, Matrix.conjTranspose_eq_transpose_of_trivial]; exact hM
  obtain ⟨U, lam, hU1, hMU⟩ : ∃ (U : Matrix (Fin n) (Fin n) ℝ) (lam : Fin n → ℝ), U.transpose * U = 1 ∧ M = U * Matrix.diagonal lam * U.transpose := by
    refine ⟨hH.eigenvectorUnitary, hH.eigenvalues, ?_, ?_⟩
    · have := Matrix.mem_unitaryGroup_iff'.1 hH.eigenvectorUnitary.2
      rwa [Matrix.star_eq_conjTranspose, Matrix.conjTranspose_eq_transpose_of_trivial] at this
    · have := hH.spectral_theorem
      rw [Unitary.conjStarAlgAut_apply, Matrix.star_eq_conjTranspose, Matrix.conjTranspose_eq_transpose_of_trivial] at this
      exact this
  have hmul : ∀ a b : Fin n → ℝ, U * Matrix.diagonal a * U.transpose * (U * Matrix.diagonal b * U.transpose) = U * Matrix.diagonal (fun i => a i * b i) * U.transpose := by
    intro a b
    have e : U * Matrix.diagonal a * U.transpose * (U * Matrix.diagonal b * U.transpose) = U * Matrix.diagonal a * (U.transpose * U) * Matrix.diagonal b * U.transpose := by
      simp only [Matrix.mul_assoc]
    rw [e, hU1, Matrix.mul_one, Matrix.mul_assoc U, Matrix.diagonal_mul_diagonal]
  have hsymm : ∀ a : Fin n → ℝ, (U * Matrix.diagonal a * U.transpose).IsSymm := by
    intro a
    rw [Matrix.IsSymm, Matrix.transpose_mul, Matrix.transpose_mul, Matrix.transpose_transpose, Matrix.diagonal_transpose, Matrix.mul_assoc]
  refine ⟨U * Matrix.diagonal (fun i => (lam i)⁻¹) * U.transpose, ?_, ?_, ?_, ?_⟩
  · rw [hMU, hmul, hmul]
    congr 3; funext i
    exact mul_inv_mul_cancel (lam i)
  · rw [hMU, hmul, hmul]
    congr 3; funext i
    by_cases h : lam i = 0
    · simp [h]
    · field_simp
  · rw [hMU, hmul]; exact hsymm _
  · rw [hMU, hmul]; exact hsymm _

/-- An exact `np.linalg.pinv` exists. -/
lemma exists_pinvExact : ∃ pinv, PinvExact pinv := by
  classical
  exact ⟨fun n M => if h : M.IsSymm then (exists_pinv M h).choose else 0, fun n M hM => by
    simp only [hM, dif_pos]; exact (exists_pinv M hM).choose_spec⟩

/-- `combine` as a sum over indices. -/
lemma combine_ofFn (G : List E) (a : Fin G.length → ℝ) : combine G (List.ofFn a) = ∑ i, a i • G.get i := by
  unfold combine
  have : G = List.ofFn G.get := (List.ofFn_get G).symm
  rw [← List.sum_ofFn]
  congr 1
  apply List.ext_getElem
  · simp
  · intro i h1 h2
    simp

lemma andersonMatrix_symm (epsr : ℝ) (R : List E) : (andersonMatrix epsr R).IsSymm := by
  ext i j
  simp only [andersonMatrix, Matrix.transpose_apply, Matrix.of_apply, real_inner_comm]

/-- The matrix applied to a vector. -/
lemma andersonMatrix_mulVec (epsr : ℝ) (R : List E) (w : Fin R.length → ℝ) (i : Fin R.length) :
    (andersonMatrix epsr R).mulVec w i = ⟪R.get i, ∑ j, w j • R.get j⟫_ℝ + epsr * (∑ k, ‖R.get k‖ ^ 2) * ∑ j, w j := by
  simp only [andersonMatrix, Matrix.mulVec, dotProduct, Matrix.of_apply, inner_sum, inner_smul_right, add_mul, Finset.sum_add_distrib, Finset.mul_sum]
  congr 1
  · exact Finset.sum_congr rfl fun j _ => mul_comm _ _

/-- The quadratic form of the matrix. -/
lemma andersonMatrix_form (epsr : ℝ) (R : List E) (w : Fin R.length → ℝ) :
    w ⬝ᵥ (andersonMatrix epsr R).mulVec w = ‖∑ j, w j • R.get j‖ ^ 2 + epsr * (∑ k, ‖R.get k‖ ^ 2) * (∑ j, w j) ^ 2 := by
  simp only [dotProduct, andersonMatrix_mulVec, mul_add, Finset.sum_add_distrib]
  congr 1
  · rw [← real_inner_self_eq_norm_sq, sum_inner]
    exact Finset.sum_congr rfl fun i _ => by rw [real_inner_smul_left]
  · rw [← Finset.sum_mul]; ring

/-- With regularisation and a non-zero history the vector of ones is in the range of the matrix. -/
lemma andersonMatrix_range {epsr : ℝ} (he : 0 < epsr) {R : List E} (hR : ∃ r ∈ R, r ≠ 0) {P : Matrix (Fin R.length) (Fin R.length) ℝ} (hP : IsPinv (andersonMatrix epsr R) P) :
    (andersonMatrix epsr R).mulVec (P.mulVec fun _ => 1) = fun _ => 1 := by
  set M := andersonMatrix epsr R with hM
  obtain ⟨h1, h2, h3, h4⟩ := hP
  have hsym := andersonMatrix_symm epsr R
  have hc : 0 < epsr * ∑ k, ‖R.get k‖ ^ 2 := by
    refine mul_pos he ?_
    obtain ⟨r, hr, hr0⟩ := hR
    obtain ⟨k, rfl⟩ := List.get_of_mem hr
    refine lt_of_lt_of_le (by positivity : 0 < ‖R.get k‖ ^ 2) (Finset.single_le_sum (f := fun k => ‖R.get k‖ ^ 2) (fun _ _ => by positivity) (Finset.mem_univ k))
  -- the part of the ones outside the range is killed by the matrix, hence has zero sum, hence vanishes
  set o : Fin R.length → ℝ := fun _ => 1 with ho
  set v := o - M.mulVec (P.mulVec o) with hv
  have hMM : M.mulVec v = 0 := by
    have e : M * (M * P) = M := by
      have : (M * (M * P)).transpose = M := by
        rw [Matrix.transpose_mul, h3, hsym, h1]
      rw [← Matrix.transpose_transpose (M * (M * P)), this]; exact hsym
    rw [hv, Matrix.mulVec_sub, Matrix.mulVec_mulVec, Matrix.mulVec_mulVec, Matrix.mul_assoc, e, sub_self]
  have hform := andersonMatrix_form epsr R v
  rw [← hM, hMM, dotProduct_zero] at hform
  have hsum : ∑ j, v j = 0 := by
    have h5 : 0 ≤ ‖∑ j, v j • R.get j‖ ^ 2 := by positivity
    have h6 : 0 ≤ epsr * (∑ k, ‖R.get k‖ ^ 2) * (∑ j, v j) ^ 2 := by positivity
    have : epsr * (∑ k, ‖R.get k‖ ^ 2) * (∑ j, v j) ^ 2 = 0 := by linarith
    have := (mul_eq_zero.1 this).resolve_left hc.ne'
    exact pow_eq_zero_iff (two_ne_zero) |>.1 this
  have hvv : v ⬝ᵥ v = 0 := by
    have e1 : v ⬝ᵥ v = v ⬝ᵥ o - v ⬝ᵥ M.mulVec (P.mulVec o) := by rw [← dotProduct_sub]
    have e2 : v ⬝ᵥ M.mulVec (P.mulVec o) = 0 := by
      rw [Matrix.dotProduct_mulVec, ← Matrix.mulVec_transpose, hsym, hMM, zero_dotProduct]
    rw [e1, e2]
    simp only [dotProduct, ho, mul_one, hsum, sub_zero]
  have hv0 : v = 0 := dotProduct_self_eq_zero.1 hvv
  rw [hv, sub_eq_zero] at hv0
  exact hv0.symm

/-- What `andersonAlpha` returns, in terms of the solution `w` of the linear system. -/
lemma andersonAlpha_spec {pinv : ∀ n, Matrix (Fin n) (Fin n) ℝ → Matrix (Fin n) (Fin n) ℝ} (hp : PinvExact pinv) {epsr : ℝ} (he : 0 < epsr) {R : List E} (hR : ∃ r ∈ R, r ≠ 0) :
    ∃ a : Fin R.length → ℝ, andersonAlpha pinv epsr R = .ok (List.ofFn a) ∧ ∑ i, a i = 1 ∧ ∃ c : ℝ, ∀ i, ⟪R.get i, ∑ j, a j • R.get j⟫_ℝ = c := by
  have hrange := andersonMatrix_range he hR (hp _ _ (andersonMatrix_symm epsr R))
  set w : Fin R.length → ℝ := (pinv R.length (andersonMatrix epsr R)).mulVec fun _ => 1 with hw
  have hne : R ≠ [] := by
    rintro rfl
    obtain ⟨r, hr, -⟩ := hR
    simp at hr
  have hs : ∑ i, w i ≠ 0 := by
    intro h0
    have hform := andersonMatrix_form epsr R w
    rw [hrange] at hform
    have h1 : w ⬝ᵥ (fun _ => (1 : ℝ)) = 0 := by simpa [dotProduct] using h0
    rw [h1, h0] at hform
    have h2 : ∑ j, w j • R.get j = 0 := by
      have : ‖∑ j, w j • R.get j‖ ^ 2 = 0 := by linarith [hform]
      exact norm_eq_zero.1 (pow_eq_zero_iff two_ne_zero |>.1 this)
    obtain ⟨i⟩ : Nonempty (Fin R.length) := ⟨⟨0, List.length_pos_iff.2 hne⟩⟩
    have := congrFun hrange i
    rw [andersonMatrix_mulVec, h2, h0] at this
    simp at this
  refine ⟨fun i => w i / ∑ j, w j, ?_, ?_, ?_⟩
  · unfold andersonAlpha
    rw [if_neg hne]
    simp only [← hw, if_neg hs]
  · rw [← Finset.sum_div, div_self hs]
  · refine ⟨(1 - epsr * (∑ k, ‖R.get k‖ ^ 2) * ∑ j, w j) / ∑ j, w j, fun i => ?_⟩
    have h1 := congrFun hrange i
    rw [andersonMatrix_mulVec] at h1
    have e : ∑ j, (w j / ∑ j, w j) • R.get j = (1 / ∑ j, w j) • ∑ j, w j • R.get j := by
      rw [Finset.smul_sum]
      exact Finset.sum_congr rfl fun j _ => by rw [smul_smul]; congr 1; ring
    rw [e, inner_smul_right, eq_div_iff hs]
    field_simp
    linarith

/-- The equations characterise the minimisers. -/
lemma anderson_min {R : List E} {a : Fin R.length → ℝ} {c : ℝ} (h1 : ∑ i, a i = 1) (h2 : ∀ i, ⟪R.get i, ∑ j, a j • R.get j⟫_ℝ = c) (b : Fin R.length → ℝ) (hb : ∑ i, b i = 1) :
    ‖∑ j, b j • R.get j‖ ^ 2 = ‖∑ j, a j • R.get j‖ ^ 2 + ‖∑ j, b j • R.get j - ∑ j, a j • R.get j‖ ^ 2 := by
  set u := ∑ j, a j • R.get j
  have hi : ∀ d : Fin R.length → ℝ, ⟪∑ j, d j • R.get j, u⟫_ℝ = c * ∑ i, d i := by
    intro d
    rw [sum_inner, Finset.mul_sum]
    exact Finset.sum_congr rfl fun i _ => by rw [real_inner_smul_left, h2, mul_comm]
  set v := ∑ j, b j • R.get j
  have e1 : ⟪v, u⟫_ℝ = c := by rw [hi b, hb, mul_one]
  have e2 : ‖u‖ ^ 2 = c := by rw [← real_inner_self_eq_norm_sq, hi a, h1, mul_one]
  rw [norm_sub_sq_real, e1, e2]; ring

/-- C86: with `epsr > 0` and at least one non-zero vector in the history, the coefficients are well defined, one per vector, they sum to one, and no other coefficients summing to one give
a shorter combination of the history. -/
theorem C86_coefficients {pinv : ∀ n, Matrix (Fin n) (Fin n) ℝ → Matrix (Fin n) (Fin n) ℝ} (hp : PinvExact pinv) {epsr : ℝ} (he : 0 < epsr) (R : List E) (hR : ∃ r ∈ R, r ≠ 0) :
    ∃ α : List ℝ, andersonAlpha pinv epsr R = .ok α ∧ α.length = R.length ∧ α.sum = 1 ∧
      ∀ β : List ℝ, β.length = R.length → β.sum = 1 → ‖(List.zipWith (fun a r => a • r) α R).sum‖ ≤ ‖(List.zipWith (fun b r => b • r) β R).sum‖ := by
  obtain ⟨a, h1, h2, c, h3⟩ := andersonAlpha_spec hp he hR
  refine ⟨_, h1, by simp, by rw [List.sum_ofFn, h2], fun β hβ hs => ?_⟩
  obtain ⟨b, rfl⟩ : ∃ b : Fin R.length → ℝ, β = List.ofFn b := by
    refine ⟨fun i => β.get (i.cast hβ.symm), ?_⟩
    apply List.ext_getElem <;> simp [hβ]
  rw [List.sum_ofFn] at hs
  change ‖combine R _‖ ≤ ‖combine R _‖
  rw [combine_ofFn, combine_ofFn]
  have := anderson_min h2 h3 b hs
  refine (pow_le_pow_iff_left₀ (norm_nonneg _) (norm_nonneg _) two_ne_zero).1 ?_
  rw [this]; nlinarith [sq_nonneg ‖∑ j, b j • R.get j - ∑ j, a j • R.get j‖]

/-- C86: the value of `epsr > 0` has no influence at all on the combination of the history (it is added to every entry of the matrix, not to the diagonal), nor on the coefficients themselves
when the history is affinely independent. -/
theorem C86_epsr_no_influence {pinv : ∀ n, Matrix (Fin n) (Fin n) ℝ → Matrix (Fin n) (Fin n) ℝ} (hp : PinvExact pinv) {epsr epsr' : ℝ} (he : 0 < epsr) (he' : 0 < epsr') (R : List E)
    (hR : ∃ r ∈ R, r ≠ 0) :
    ∃ α α' : List ℝ, andersonAlpha pinv epsr R = .ok α ∧ andersonAlpha pinv epsr' R = .ok α' ∧
      (List.zipWith (fun a r => a • r) α R).sum = (List.zipWith (fun a r => a • r) α' R).sum ∧
      (AffineIndependent ℝ R.get → α = α') := by
  obtain ⟨a, h1, h2, c, h3⟩ := andersonAlpha_spec hp he hR
  obtain ⟨b, k1, k2, d, k3⟩ := andersonAlpha_spec hp he' hR
  have e : ∑ j, a j • R.get j = ∑ j, b j • R.get j := by
    have m1 := anderson_min h2 h3 b k2
    have m2 := anderson_min k2 k3 a h2
    have : ‖∑ j, a j • R.get j - ∑ j, b j • R.get j‖ ^ 2 = 0 := by
      rw [norm_sub_rev] at m2
      rw [norm_sub_rev]
      linarith
    exact sub_eq_zero.1 (norm_eq_zero.1 (pow_eq_zero_iff two_ne_zero |>.1 this))
  refine ⟨_, _, h1, k1, ?_, fun hind => ?_⟩
  · change combine R _ = combine R _
    rw [combine_ofFn, combine_ofFn, e]
  · congr 1
    funext i
    have hz := (affineIndependent_iff.1 hind) Finset.univ (fun i => a i - b i) (by rw [Finset.sum_sub_distrib, h2, k2, sub_self])
      (by simp only [sub_smul, Finset.sum_sub_distrib]; rw [e, sub_self]) i (Finset.mem_univ i)
    linarith

/-- C86: the coefficients of two different numbers. -/
theorem C86_line {pinv : ∀ n, Matrix (Fin n) (Fin n) ℝ → Matrix (Fin n) (Fin n) ℝ} (hp : PinvExact pinv) {epsr : ℝ} (he : 0 < epsr) (a b : ℝ) (hab : a ≠ b) :
    andersonAlpha pinv epsr [a, b] = .ok [b / (b - a), -a / (b - a)] := by
  have hne : b - a ≠ 0 := sub_ne_zero.2 (Ne.symm hab)
  have hR : ∃ r ∈ [a, b], r ≠ 0 := by
    by_cases ha : a = 0
    · exact ⟨b, by simp, fun hb => hab (ha.trans hb.symm)⟩
    · exact ⟨a, by simp, ha⟩
  obtain ⟨α, h1, h2, h3, h4⟩ := C86_coefficients hp he [a, b] hR
  obtain ⟨x, y, rfl⟩ : ∃ x y, α = [x, y] := List.length_eq_two.1 (by simpa using h2)
  have h5 := h4 [b / (b - a), -a / (b - a)] rfl (by simp only [List.sum_cons, List.sum_nil]; field_simp; ring)
  have h0 : b / (b - a) * a + -a / (b - a) * b = 0 := by ring
  simp only [List.zipWith_cons_cons, List.zipWith_nil_left, List.sum_cons, List.sum_nil, smul_eq_mul, add_zero, h0, norm_zero] at h5
  have h6 : x * a + y * b = 0 := norm_le_zero_iff.1 h5
  simp only [List.sum_cons, List.sum_nil, add_zero] at h3
  have hx : x = b / (b - a) := by rw [eq_div_iff hne]; linear_combination b * h3 - h6
  have hy : y = -a / (b - a) := by rw [eq_div_iff hne]; linear_combination -a * h3 + h6
  rw [h1, hx, hy]

/-- C86 refuted when every vector of the history is zero, for any `epsr`: the coefficients are not numbers. -/
theorem C86_zero_history_refuted {pinv : ∀ n, Matrix (Fin n) (Fin n) ℝ → Matrix (Fin n) (Fin n) ℝ} (hp : PinvExact pinv) (epsr : ℝ) (R : List E) (hne : R ≠ []) (hR : ∀ r ∈ R, r = 0) :
    andersonAlpha pinv epsr R = .error .nanResult := by
  have hM : andersonMatrix epsr R = 0 := by
    ext i j
    have h0 : ∀ k : Fin R.length, R[(k : ℕ)] = 0 := fun k => hR _ (List.getElem_mem _)
    simp [andersonMatrix, h0]
  obtain ⟨-, h2, -, -⟩ := hp _ _ (andersonMatrix_symm epsr R)
  rw [hM, Matrix.mul_zero, Matrix.zero_mul] at h2
  unfold andersonAlpha
  rw [if_neg hne, hM, ← h2]
  simp

/-- C86 refuted for `epsr = 0` on the line: two different numbers have a vanishing combination with coefficients summing to one, but the coefficients computed never give it. -/
theorem C86_no_regularisation_refuted {pinv : ∀ n, Matrix (Fin n) (Fin n) ℝ → Matrix (Fin n) (Fin n) ℝ} (hp : PinvExact pinv) (a b : ℝ) (hab : a ≠ b) :
    (∃ β : List ℝ, β.length = 2 ∧ β.sum = 1 ∧ (List.zipWith (fun c r => c • r) β [a, b]).sum = 0) ∧
    ∀ α : List ℝ, andersonAlpha pinv 0 [a, b] = .ok α → (List.zipWith (fun c r => c • r) α [a, b]).sum ≠ 0 := by
  have hne : b - a ≠ 0 := sub_ne_zero.2 (Ne.symm hab)
  refine ⟨⟨[b / (b - a), -a / (b - a)], rfl, ?_, ?_⟩, fun α hα => ?_⟩
  · simp only [List.sum_cons, List.sum_nil]; field_simp; ring
  · simp only [List.zipWith_cons_cons, List.zipWith_nil_left, List.sum_cons, List.sum_nil, smul_eq_mul]; ring
  · obtain ⟨-, h2, -, h4⟩ := hp _ _ (andersonMatrix_symm 0 [a, b])
    have hM : andersonMatrix 0 [a, b] = (!![a * a, b * a; a * b, b * b] : Matrix (Fin 2) (Fin 2) ℝ) := by
      ext i j
      fin_cases i <;> fin_cases j <;> simp [andersonMatrix]
    unfold andersonAlpha at hα
    rw [if_neg (by simp)] at hα
    rw [hM] at h2 h4 hα
    set P : Matrix (Fin 2) (Fin 2) ℝ := pinv [a, b].length !![a * a, b * a; a * b, b * b] with hP
    set w : Fin 2 → ℝ := P.mulVec fun _ => 1 with hw
    have hw0 : w 0 = P 0 0 + P 0 1 := by simp [hw, Matrix.mulVec, dotProduct, Fin.sum_univ_two]
    have hw1 : w 1 = P 1 0 + P 1 1 := by simp [hw, Matrix.mulVec, dotProduct, Fin.sum_univ_two]
    change (if ∑ i, w i = 0 then Except.error PyErr.nanResult else Except.ok (List.ofFn fun i => w i / ∑ j, w j)) = Except.ok α at hα
    split_ifs at hα with hs
    cases hα
    rw [Fin.sum_univ_two] at hs
    have hsym : (P 0 0 * a + P 0 1 * b) * b = (P 1 0 * a + P 1 1 * b) * a := by
      have := congrFun (congrFun h4 1) 0
      simp [Matrix.transpose_apply, Matrix.mul_apply, Fin.sum_univ_two] at this
      linarith
    have hpp : ∀ i j, P i j = (P i 0 * a + P i 1 * b) * (a * P 0 j + b * P 1 j) := by
      intro i j
      have := congrFun (congrFun h2 i) j
      simp [Matrix.mul_apply, Fin.sum_univ_two] at this
      linarith
    have hprop : w 0 * b = w 1 * a := by
      rw [hw0, hw1]
      linear_combination b * hpp 0 0 + b * hpp 0 1 - a * hpp 1 0 - a * hpp 1 1 + (a * P 0 0 + b * P 1 0 + (a * P 0 1 + b * P 1 1)) * hsym
    intro hz
    simp only [List.ofFn_succ, List.ofFn_zero, List.zipWith_cons_cons, List.zipWith_nil_left, List.sum_cons, List.sum_nil, smul_eq_mul, Fin.sum_univ_two] at hz
    change w 0 / (w 0 + w 1) * a + (w 1 / (w 0 + w 1) * b + 0) = 0 at hz
    have hz' : w 0 * a + w 1 * b = 0 := by
      field_simp at hz
      linarith
    have hpos : a ^ 2 + b ^ 2 ≠ 0 := by
      intro h
      have ha : a = 0 := by nlinarith [sq_nonneg a, sq_nonneg b]
      have hb : b = 0 := by nlinarith [sq_nonneg a, sq_nonneg b]
      exact hab (ha.trans hb.symm)
    have z0 : w 0 = 0 := (mul_eq_zero.1 (by linear_combination a * hz' + b * hprop : w 0 * (a ^ 2 + b ^ 2) = 0)).resolve_right hpos
    have z1 : w 1 = 0 := (mul_eq_zero.1 (by linear_combination b * hz' - a * hprop : w 1 * (a ^ 2 + b ^ 2) = 0)).resolve_right hpos
    exact hs (by rw [z0, z1, add_zero])

lemma combine_replicate (m : ℕ) (z y : E) (α' : List ℝ) (c : ℝ) (h : α'.length = m) : combine (List.replicate m z ++ [y]) (α' ++ [c]) = α'.sum • z + c • y := by
  unfold combine
  rw [List.zipWith_append (by simp [h])]
  simp only [List.sum_append, List.zipWith_cons_cons, List.zipWith_nil_left, List.sum_cons, List.sum_nil, add_zero]
  congr 1
  subst h
  induction α' with
  | nil => simp
  | cons a l ih => simp only [List.length_cons, List.replicate_succ, List.zipWith_cons_cons, List.sum_cons, ih, add_smul]

/-- C86 refuted at a minimiser, the most harmful case: started at a point `x0 ≠ 0` where the gradient vanishes and which the prox fixes, the solver stays there for `nhistory - 1` iterations, and
from iteration `nhistory` on it returns NaN (for `tol=None`, any `epsr > 0`, with or without safeguard). -/
theorem C86_minimiser_refuted {pinv : ∀ n, Matrix (Fin n) (Fin n) ℝ → Matrix (Fin n) (Fin n) ℝ} (hp : PinvExact pinv) {epsr : ℝ} (he : 0 < epsr) (f g : ProxOp E) (x0 : E) (hx0 : x0 ≠ 0)
    (τ e : ℝ) (hf : f.grad x0 = .ok 0) (hg : g.prox x0 (e * τ) = .ok x0) (hv : ∃ v, f.call x0 = .ok v) (nh : ℕ) (hnh : 1 ≤ nh) (sg : Bool) (n : ℕ) (hn : 1 ≤ n) :
    (n < nh → ∃ s, AndersonProximalGradient f g (andersonAlpha pinv epsr) x0 τ (.scalar e) n nh sg none = .ok s ∧ s.x = x0) ∧
    (nh ≤ n → AndersonProximalGradient f g (andersonAlpha pinv epsr) x0 τ (.scalar e) n nh sg none = .error .nanResult) := by
  obtain ⟨v, hv⟩ := hv
  -- the state before iteration `i`
  let inv : ℕ → AndersonState E → Prop := fun i s =>
    s.x = x0 ∧ s.y = x0 ∧ s.R = List.replicate i 0 ++ [x0] ∧ s.G = List.replicate i x0 ++ [0] ∧ s.pf = v.toReal
  have step : ∀ i s, inv i s → i + 1 < nh → ∃ s', Anderson.body f g (andersonAlpha pinv epsr) τ (.scalar e) nh sg none i s = .ok (s', false) ∧ inv (i + 1) s' := by
    rintro i ⟨x, y, R, G, pf, pfg, log⟩ ⟨h1, h2, h3, h4, h5⟩ hi
    simp only at h1 h2 h3 h4 h5
    subst h1 h2 h3 h4 h5
    have hnot : ¬ ((i : ℤ) ≥ (nh : ℤ) - 1) := by omega
    obtain ⟨α, a1, a2, a3, a4⟩ := C86_coefficients hp he (List.replicate (i + 1) 0 ++ [y]) ⟨y, by simp, hx0⟩
    have a2' : α.length = i + 1 + 1 := by simpa using a2
    obtain ⟨α', c, rfl⟩ : ∃ α' c, α = α' ++ [c] := by
      have hα : α ≠ [] := by rintro rfl; simp at a2'
      exact ⟨α.dropLast, α.getLast hα, (List.dropLast_append_getLast hα).symm⟩
    have hl : α'.length = i + 1 := by simpa using a2'
    have hc : c = 0 := by
      have := a4 (List.replicate i 0 ++ [1] ++ [0]) (by simp) (by simp)
      change ‖combine _ _‖ ≤ ‖combine _ _‖ at this
      rw [combine_replicate _ _ _ _ _ hl, combine_replicate _ _ _ _ _ (by simp)] at this
      simp only [smul_zero, zero_add, zero_smul, norm_zero, norm_le_zero_iff, smul_eq_zero] at this
      exact this.resolve_right hx0
    have hs : α'.sum = 1 := by simpa [hc] using a3
    have hcomb : combine (List.replicate (i + 1) y ++ [0]) (α' ++ [c]) = y := by
      rw [combine_replicate _ _ _ _ _ hl, hs, hc]; simp
    have a1' : andersonAlpha pinv epsr (0 :: (List.replicate i 0 ++ [y])) = .ok (α' ++ [c]) := a1
    have hcomb' : combine (y :: (List.replicate i y ++ [0])) (α' ++ [c]) = y := hcomb
    unfold Anderson.body
    simp only [hf, Bind.bind, Except.bind, Pure.pure, Except.pure, smul_zero, sub_zero, sub_self, histPush, if_neg hnot, a1', hcomb', StepSpec.at, hg]
    cases sg with
    | false => exact ⟨_, rfl, rfl, rfl, rfl, rfl, rfl⟩
    | true =>
      simp only [if_true, hv, norm_zero]
      rw [if_pos (by norm_num)]
      exact ⟨_, rfl, rfl, rfl, rfl, rfl, rfl⟩
  have last : ∀ s, inv (nh - 1) s → Anderson.body f g (andersonAlpha pinv epsr) τ (.scalar e) nh sg none (nh - 1) s = .error .nanResult := by
    rintro ⟨x, y, R, G, pf, pfg, log⟩ ⟨h1, h2, h3, h4, h5⟩
    simp only at h1 h2 h3 h4 h5
    subst h1 h2 h3 h4 h5
    have hge : (((nh - 1 : ℕ) : ℤ) ≥ (nh : ℤ) - 1) := by omega
    have hz : andersonAlpha pinv epsr ((0 : E) :: (List.replicate (nh - 1) 0 ++ [y])).dropLast = .error .nanResult := by
      refine C86_zero_history_refuted hp epsr _ ?_ ?_
      · rw [← List.cons_append, List.dropLast_append_of_ne_nil (by simp)]; simp
      · rw [← List.cons_append, List.dropLast_append_of_ne_nil (by simp)]; simp
    unfold Anderson.body
    simp only [hf, Bind.bind, Except.bind, smul_zero, sub_zero, sub_self, histPush, if_pos hge, hz]
  have hinit : ∃ s0, Anderson.init f g x0 τ e = .ok s0 ∧ inv 0 s0 := by
    simp only [Anderson.init, hf, hg, hv, Bind.bind, Except.bind, Pure.pure, Except.pure, smul_zero, sub_zero, sub_self]
    exact ⟨_, rfl, rfl, rfl, rfl, rfl, rfl⟩
  obtain ⟨s0, hs0, hinv0⟩ := hinit
  have hrun : AndersonProximalGradient f g (andersonAlpha pinv epsr) x0 τ (.scalar e) n nh sg none =
      forRange (Anderson.body f g (andersonAlpha pinv epsr) τ (.scalar e) nh sg none) n 0 s0 := by
    simp only [AndersonProximalGradient, StepSpec.printCheck, StepSpec.at, Bind.bind, Except.bind, hs0, if_neg (by omega : ¬ n = 0)]
  rw [hrun]
  constructor
  · have key : ∀ k i s, inv i s → i + k < nh → ∃ s', forRange (Anderson.body f g (andersonAlpha pinv epsr) τ (.scalar e) nh sg none) k i s = .ok s' ∧ s'.x = x0 := by
      intro k
      induction k with
      | zero => intro i s hi _; exact ⟨s, rfl, hi.1⟩
      | succ k ih =>
        intro i s hi hk
        obtain ⟨s', b1, b2⟩ := step i s hi (by omega)
        obtain ⟨s'', c1, c2⟩ := ih (i + 1) s' b2 (by omega)
        exact ⟨s'', by rw [forRange, b1]; simpa using c1, c2⟩
    intro hlt
    exact key n 0 s0 hinv0 (by omega)
  · have key : ∀ k i s, inv i s → i < nh → nh ≤ i + k → forRange (Anderson.body f g (andersonAlpha pinv epsr) τ (.scalar e) nh sg none) k i s = .error .nanResult := by
      intro k
      induction k with
      | zero => intro i s _ h1 h2; omega
      | succ k ih =>
        intro i s hi h1 h2
        by_cases hlast : i = nh - 1
        · subst hlast
          rw [forRange, last s hi]
        · obtain ⟨s', b1, b2⟩ := step i s hi (by omega)
          rw [forRange, b1]
          simpa using ih (i + 1) s' b2 (by omega) (by omega)
    intro hle
    exact key n 0 s0 hinv0 (by omega) (by omega)

/-- The premises are met: an exact `pinv` exists, and the histories of C86 include `[1, 2]`. -/
example : (∃ pinv, PinvExact pinv) ∧ ∃ r ∈ ([1, 2] : List ℝ), r ≠ 0 := ⟨exists_pinvExact, 1, by simp, one_ne_zero⟩

/-- The hypothesis on `solve` in `C75_anderson_refuted` and `C76_anderson_refuted` is met by the coefficients of the code. -/
example {pinv : ∀ n, Matrix (Fin n) (Fin n) ℝ → Matrix (Fin n) (Fin n) ℝ} (hp : PinvExact pinv) : ∀ a b : ℝ, a ≠ b → andersonAlpha pinv 1e-10 [a, b] = .ok [b / (b - a), -a / (b - a)] :=
  fun a b hab => C86_line hp (by norm_num) a b hab

/-- The premises of `C86_minimiser_refuted` are met: `f(x) = (x - 1)²/2`, `g = 0`, `x0 = 1`. -/
example : ∃ f g : ProxOp ℝ, f.grad 1 = .ok 0 ∧ g.prox 1 (1 * 1) = .ok 1 ∧ (∃ v, f.call 1 = .ok v) ∧ (∀ x, IsGrad (fun y : ℝ => (y - 1) ^ 2 / 2) x (x - 1)) ∧ ∀ x, f.grad x = .ok (x - 1) := by
  refine ⟨⟨fun x => .ok (.num ((x - 1) ^ 2 / 2)), none, none, some fun x => .ok (x - 1), true, 1⟩, lineZero, by simp [ProxOp.grad], rfl, ⟨_, rfl⟩, fun x => ?_, fun _ => rfl⟩
  refine isGrad_of_quad (C := 1 / 2) fun y => le_of_eq ?_
  have e : (y - 1) ^ 2 / 2 - (x - 1) ^ 2 / 2 - ⟪x - 1, y - x⟫_ℝ = (y - x) ^ 2 / 2 := by
    rw [show ⟪x - 1, y - x⟫_ℝ = (y - x) * (x - 1) from rfl]; ring
  rw [e, abs_of_nonneg (by positivity), Real.norm_eq_abs, sq_abs]; ring

end Verif
