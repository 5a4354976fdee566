import Verif.Spec.Envelope
import Verif.Lemmas.Svd

/-! Helper lemmas: quadratic envelopes of sparsity and rank constraints. -/

open scoped RealInnerProductSpace

namespace Verif

section
variable {E : Type*} [NormedAddCommGroup E] [InnerProductSpace ℝ E]

/-- A dual point certifies the value of the quadratic envelope. -/
lemma quadEnvelope_of_cert {F : XFun E} (hne : F.dom.Nonempty) {p z : E} {c : ℝ}
    (h1 : ∀ u ∈ F.dom, ⟪z, u⟫ - (F.val u + ‖u‖ ^ 2 / 2) ≤ c)
    (h2 : ∀ v ∈ F.addHalfSq.conj.dom, ⟪p, v⟫ - F.addHalfSq.conj.val v ≤ ⟪p, z⟫ - c) :
    p ∈ F.quadEnvelope.dom ∧ F.quadEnvelope.val p = ⟪p, z⟫ - c - ‖p‖ ^ 2 / 2 ∧
      ∀ x ∈ F.quadEnvelope.dom, ⟪x, z⟫ - c - ‖x‖ ^ 2 / 2 ≤ F.quadEnvelope.val x := by
  have hz : z ∈ F.addHalfSq.conj.dom := ⟨c, by rintro _ ⟨u, hu, rfl⟩; exact h1 u hu⟩
  have hzle : F.addHalfSq.conj.val z ≤ c := csSup_le (hne.image _) (by rintro _ ⟨u, hu, rfl⟩; exact h1 u hu)
  have hge : ∀ x ∈ F.quadEnvelope.dom, ⟪x, z⟫ - c - ‖x‖ ^ 2 / 2 ≤ F.quadEnvelope.val x := by
    intro x hx
    have : ⟪x, z⟫ - F.addHalfSq.conj.val z ≤ F.addHalfSq.conj.conj.val x := le_csSup hx ⟨z, hz, rfl⟩
    change _ ≤ F.addHalfSq.conj.conj.val x - ‖x‖ ^ 2 / 2
    linarith
  have hp : p ∈ F.quadEnvelope.dom := ⟨⟪p, z⟫ - c, by rintro _ ⟨v, hv, rfl⟩; exact h2 v hv⟩
  refine ⟨hp, le_antisymm ?_ (hge p hp), hge⟩
  have : F.addHalfSq.conj.conj.val p ≤ ⟪p, z⟫ - c := csSup_le ⟨_, z, hz, rfl⟩ (by rintro _ ⟨v, hv, rfl⟩; exact h2 v hv)
  change F.addHalfSq.conj.conj.val p - ‖p‖ ^ 2 / 2 ≤ _
  linarith

/-- The same certificate with `(ρ - 1) p + z = ρ y` gives the proximal point for the step `τ = 1 / ρ < 1`. -/
lemma quadEnvelope_prox {F : XFun E} (hne : F.dom.Nonempty) {p z y : E} {c τ : ℝ} (hτ : 0 < τ) (hτ1 : τ < 1)
    (h1 : ∀ u ∈ F.dom, ⟪z, u⟫ - (F.val u + ‖u‖ ^ 2 / 2) ≤ c)
    (h2 : ∀ v ∈ F.addHalfSq.conj.dom, ⟪p, v⟫ - F.addHalfSq.conj.val v ≤ ⟪p, z⟫ - c)
    (hp : (1 / τ - 1) • p + z = (1 / τ) • y) : IsUniqueProx F.quadEnvelope τ y p := by
  obtain ⟨hd, hv, hge⟩ := quadEnvelope_of_cert hne h1 h2
  have hρ : 0 < 1 / τ - 1 := by rw [sub_pos, lt_div_iff₀ hτ]; linarith
  have key : ∀ x ∈ F.quadEnvelope.dom, proxObj F.quadEnvelope τ y p + (1 / τ - 1) / 2 * ‖x - p‖ ^ 2 ≤ proxObj F.quadEnvelope τ y x := by
    intro x hx
    have hx' := hge x hx
    unfold proxObj
    rw [hv]
    have e : z = (1 / τ) • y - (1 / τ - 1) • p := by rw [← hp]; abel
    have a1 : ⟪x, z⟫ = 1 / τ * ⟪x, y⟫ - (1 / τ - 1) * ⟪x, p⟫ := by rw [e, inner_sub_right, real_inner_smul_right, real_inner_smul_right]
    have a2 : ⟪p, z⟫ = 1 / τ * ⟪p, y⟫ - (1 / τ - 1) * ‖p‖ ^ 2 := by
      rw [e, inner_sub_right, real_inner_smul_right, real_inner_smul_right, real_inner_self_eq_norm_sq]
    rw [norm_sub_sq_real, norm_sub_sq_real, norm_sub_sq_real, div_eq_mul_one_div (_ - _ + _) (2 * τ), div_eq_mul_one_div (_ - _ + _) (2 * τ)]
    have e2 : 1 / (2 * τ) = 1 / τ / 2 := by rw [div_div, mul_comm]
    rw [e2]
    rw [a2]
    rw [a1] at hx'
    nlinarith
  refine ⟨⟨hd, fun x hx => ?_⟩, fun q hq => ?_⟩
  · have := key x hx; nlinarith [sq_nonneg ‖x - p‖]
  · have h3 := key q hq.1
    have h4 := hq.2 p hd
    have : ‖q - p‖ ^ 2 ≤ 0 := by
      by_contra hc
      push Not at hc
      nlinarith [mul_pos (half_pos hρ) hc]
    have : ‖q - p‖ = 0 := by nlinarith [norm_nonneg (q - p)]
    rwa [norm_eq_zero, sub_eq_zero] at this

end

variable {ι κ ρ : Type} [Fintype ι] [Fintype κ] [Fintype ρ]

/-- Weights certifying that `½ Σ w z²` is half the sum of the `r` largest squares of `z`. -/
structure TopCert (r : ℕ) (z w : ι → ℝ) (s : ℝ) : Prop where
  w0 : ∀ i, 0 ≤ w i
  w1 : ∀ i, w i ≤ 1
  sum : ∑ i, w i ≤ r
  s0 : 0 ≤ s
  tight : s * (r - ∑ i, w i) = 0
  below : ∀ i, w i < 1 → |z i| ≤ s
  above : ∀ i, 0 < w i → s ≤ |z i|

lemma topCert_subset {r : ℕ} {z w : ι → ℝ} {s : ℝ} (h : TopCert r z w s) (S : Finset ι) (hS : S.card ≤ r) :
    ∑ i ∈ S, z i ^ 2 ≤ ∑ i, w i * z i ^ 2 := by
  classical
  have e1 : ∀ i, (if i ∈ S then z i ^ 2 else 0) - w i * z i ^ 2 ≤ s ^ 2 * ((if i ∈ S then 1 else 0) - w i) := by
    intro i
    have hw0 := h.w0 i
    have hw1 := h.w1 i
    by_cases hi : i ∈ S
    · simp only [if_pos hi]
      rcases eq_or_lt_of_le hw1 with h1 | h1
      · rw [h1]; simp
      · have hb := h.below i h1
        have : z i ^ 2 ≤ s ^ 2 := by rw [← sq_abs (z i)]; exact pow_le_pow_left₀ (abs_nonneg _) hb 2
        nlinarith
    · simp only [if_neg hi]
      rcases eq_or_lt_of_le hw0 with h1 | h1
      · rw [← h1]; simp
      · have hb := h.above i h1
        have : s ^ 2 ≤ z i ^ 2 := by rw [← sq_abs (z i)]; exact pow_le_pow_left₀ h.s0 hb 2
        nlinarith
  have e2 := Finset.sum_le_sum fun i (_ : i ∈ Finset.univ) => e1 i
  rw [Finset.sum_sub_distrib, ← Finset.mul_sum, Finset.sum_sub_distrib] at e2
  simp only [Finset.sum_ite_mem, Finset.univ_inter, Finset.sum_const, nsmul_eq_mul, mul_one] at e2
  have hc : (S.card : ℝ) ≤ r := by exact_mod_cast hS
  have : s ^ 2 * (S.card - ∑ i, w i) ≤ 0 := by
    have h3 : s ^ 2 * ((r : ℝ) - ∑ i, w i) = 0 := by rw [pow_two, mul_assoc, h.tight, mul_zero]
    nlinarith [sq_nonneg s]
  linarith

/-- There is a set of `min r n` indices holding the largest squares. -/
lemma exists_top (v : ι → ℝ) (r : ℕ) : ∃ S : Finset ι, S.card ≤ r ∧ (S.card = r ∨ S = Finset.univ) ∧
    ∀ i ∈ S, ∀ j ∉ S, v j ^ 2 ≤ v i ^ 2 := by
  classical
  obtain ⟨S, hS, hmax⟩ := Finset.exists_max_image (Finset.powersetCard (min r (Fintype.card ι)) (Finset.univ : Finset ι))
    (fun S => ∑ i ∈ S, v i ^ 2) (Finset.powersetCard_nonempty.2 (by rw [Finset.card_univ]; exact min_le_right _ _))
  rw [Finset.mem_powersetCard] at hS
  refine ⟨S, by rw [hS.2]; exact min_le_left _ _, ?_, ?_⟩
  · rcases le_total r (Fintype.card ι) with h | h
    · left; rw [hS.2, min_eq_left h]
    · right; rw [← Finset.card_eq_iff_eq_univ, hS.2, min_eq_right h]
  · intro i hi j hj
    by_contra hlt
    push Not at hlt
    have hjS : j ∉ S.erase i := fun h => hj (Finset.mem_of_mem_erase h)
    have := hmax (insert j (S.erase i)) (by
      rw [Finset.mem_powersetCard]
      refine ⟨Finset.subset_univ _, ?_⟩
      rw [Finset.card_insert_of_notMem hjS, Finset.card_erase_of_mem hi, ← hS.2]
      have := Finset.card_pos.2 ⟨i, hi⟩
      omega)
    rw [Finset.sum_insert hjS] at this
    have h2 := Finset.add_sum_erase S (fun i => v i ^ 2) hi
    linarith

lemma weights_le_top {r : ℕ} {v w : ι → ℝ} (w0 : ∀ i, 0 ≤ w i) (w1 : ∀ i, w i ≤ 1) (hsum : ∑ i, w i ≤ r) :
    ∃ S : Finset ι, S.card ≤ r ∧ ∑ i, w i * v i ^ 2 ≤ ∑ i ∈ S, v i ^ 2 := by
  classical
  obtain ⟨S, h1, h2, h3⟩ := exists_top v r
  refine ⟨S, h1, ?_⟩
  rcases h2 with h2 | h2
  · by_cases hne : S.Nonempty
    · obtain ⟨m, hm, hmin⟩ := Finset.exists_min_image S (fun i => v i ^ 2) hne
      have e1 : ∀ i, w i * v i ^ 2 - (if i ∈ S then v i ^ 2 else 0) ≤ v m ^ 2 * (w i - if i ∈ S then 1 else 0) := by
        intro i
        have hw0 := w0 i
        have hw1 := w1 i
        by_cases hi : i ∈ S
        · simp only [if_pos hi]
          have := hmin i hi
          nlinarith
        · simp only [if_neg hi]
          have := h3 m hm i hi
          nlinarith
      have e2 := Finset.sum_le_sum fun i (_ : i ∈ Finset.univ) => e1 i
      rw [Finset.sum_sub_distrib, ← Finset.mul_sum, Finset.sum_sub_distrib] at e2
      simp only [Finset.sum_ite_mem, Finset.univ_inter, Finset.sum_const, nsmul_eq_mul, mul_one, h2] at e2
      nlinarith [sq_nonneg (v m)]
    · rw [Finset.not_nonempty_iff_eq_empty] at hne
      rw [hne, Finset.card_empty] at h2
      rw [← h2, Nat.cast_zero] at hsum
      have : ∀ i, w i = 0 := by
        intro i
        have := Finset.single_le_sum (fun j _ => w0 j) (Finset.mem_univ i)
        linarith [w0 i]
      rw [hne]; simp [this]
  · rw [h2]
    refine Finset.sum_le_sum fun i _ => ?_
    nlinarith [w1 i, sq_nonneg (v i)]

lemma ncard_support_eq (u : ι → ℝ) [DecidablePred fun i => u i ≠ 0] : {i | u i ≠ 0}.ncard = (Finset.univ.filter fun i => u i ≠ 0).card := by
  rw [← Set.ncard_coe_finset]; congr 1; ext i; simp

lemma topCert_conj_le {r : ℕ} {z w : ι → ℝ} {s : ℝ} (h : TopCert r z w s) (u : ι → ℝ) (hu : {i | u i ≠ 0}.ncard ≤ r) :
    ∑ i, z i * u i - (∑ i, u i ^ 2) / 2 ≤ (∑ i, w i * z i ^ 2) / 2 := by
  classical
  rw [ncard_support_eq] at hu
  have h1 := topCert_subset h _ hu
  have h2 : ∑ i, z i * u i - (∑ i, u i ^ 2) / 2 ≤ (∑ i with u i ≠ 0, z i ^ 2) / 2 := by
    rw [Finset.sum_filter, Finset.sum_div, Finset.sum_div, ← Finset.sum_sub_distrib]
    refine Finset.sum_le_sum fun i _ => ?_
    by_cases hi : u i = 0
    · simp [hi]
    · rw [if_pos hi]; nlinarith [sq_nonneg (z i - u i)]
  linarith

lemma weights_conj_ge {r : ℕ} {v w : ι → ℝ} (w0 : ∀ i, 0 ≤ w i) (w1 : ∀ i, w i ≤ 1) (hsum : ∑ i, w i ≤ r) :
    ∃ u : ι → ℝ, {i | u i ≠ 0}.ncard ≤ r ∧ (∑ i, w i * v i ^ 2) / 2 ≤ ∑ i, v i * u i - (∑ i, u i ^ 2) / 2 := by
  classical
  obtain ⟨S, h1, h2⟩ := weights_le_top (v := v) w0 w1 hsum
  refine ⟨fun i => if i ∈ S then v i else 0, ?_, ?_⟩
  · refine le_trans (Set.ncard_le_ncard (t := (S : Set ι)) ?_ S.finite_toSet) (by rw [Set.ncard_coe_finset]; exact h1)
    intro i hi
    by_contra hc
    apply hi
    simp only [Finset.mem_coe] at hc
    simp [hc]
  · have : ∑ i, v i * (if i ∈ S then v i else 0) - (∑ i, (if i ∈ S then v i else 0) ^ 2) / 2 = (∑ i ∈ S, v i ^ 2) / 2 := by
      have e1 : ∀ i, v i * (if i ∈ S then v i else 0) = if i ∈ S then v i ^ 2 else 0 := by
        intro i; split_ifs <;> ring
      have e2 : ∀ i, (if i ∈ S then v i else 0) ^ 2 = if i ∈ S then v i ^ 2 else 0 := by
        intro i; split_ifs <;> ring
      simp only [e1, e2, Finset.sum_ite_mem, Finset.univ_inter]
      ring
    rw [this]; linarith

/-! ### Vectors -/

lemma vec_norm_sq (a : Vec ι) : ‖a‖ ^ 2 = ∑ i, a i ^ 2 := by
  rw [← real_inner_self_eq_norm_sq, vec_inner]; exact Finset.sum_congr rfl fun i _ => by ring

lemma sparse_nonempty (r : ℕ) : (XFun.indicator (sparseSet ι r)).dom.Nonempty := ⟨0, by simp [XFun.indicator, sparseSet]⟩

lemma sparse_cert1 {r : ℕ} {z w : ι → ℝ} {s : ℝ} (h : TopCert r z w s) :
    ∀ u ∈ (XFun.indicator (sparseSet ι r)).dom, ⟪(vmk z : Vec ι), u⟫ - ((XFun.indicator (sparseSet ι r)).val u + ‖u‖ ^ 2 / 2)
      ≤ (∑ i, w i * z i ^ 2) / 2 := by
  intro u hu
  have := topCert_conj_le h u.ofLp hu
  rw [vec_inner, vec_norm_sq]
  simpa [XFun.indicator] using this

lemma sparse_cert2 {r : ℕ} {z w : ι → ℝ} {s : ℝ} (h : TopCert r z w s) :
    ∀ v ∈ (XFun.indicator (sparseSet ι r)).addHalfSq.conj.dom,
      ⟪(vmk fun i => w i * z i : Vec ι), v⟫ - (XFun.indicator (sparseSet ι r)).addHalfSq.conj.val v
        ≤ ⟪(vmk fun i => w i * z i : Vec ι), vmk z⟫ - (∑ i, w i * z i ^ 2) / 2 := by
  intro v hv
  obtain ⟨u, h1, h2⟩ := weights_conj_ge (v := v.ofLp) h.w0 h.w1 h.sum
  have h3 : ⟪v, (vmk u : Vec ι)⟫ - ((XFun.indicator (sparseSet ι r)).val (vmk u) + ‖(vmk u : Vec ι)‖ ^ 2 / 2)
      ≤ (XFun.indicator (sparseSet ι r)).addHalfSq.conj.val v := le_csSup hv ⟨vmk u, h1, rfl⟩
  rw [vec_inner, vec_norm_sq] at h3
  simp only [XFun.indicator, zero_add] at h3
  rw [vec_inner, vec_inner]
  have h4 : ∑ i, w i * z i * v i ≤ (∑ i, w i * z i ^ 2) / 2 + (∑ i, w i * v i ^ 2) / 2 := by
    rw [Finset.sum_div, Finset.sum_div, ← Finset.sum_add_distrib]
    refine Finset.sum_le_sum fun i _ => ?_
    nlinarith [mul_nonneg (h.w0 i) (sq_nonneg (z i - v i))]
  have h5 : ∑ i, w i * z i * z i = ∑ i, w i * z i ^ 2 := Finset.sum_congr rfl fun i _ => by ring
  simp only at h3 h4 h5 ⊢
  rw [h5]
  simp only [XFun.indicator] at *
  linarith

/-- Value of the envelope at a certified point. -/
lemma sparse_envelope_value {r : ℕ} {z w : ι → ℝ} {s : ℝ} (h : TopCert r z w s) {x : Vec ι} (hx : ∀ i, x i = w i * z i) :
    x ∈ (XFun.indicator (sparseSet ι r)).quadEnvelope.dom ∧
      (XFun.indicator (sparseSet ι r)).quadEnvelope.val x = ((∑ i, w i * z i ^ 2) - ∑ i, x i ^ 2) / 2 := by
  obtain ⟨h1, h2, -⟩ := quadEnvelope_of_cert (sparse_nonempty r) (sparse_cert1 h) (sparse_cert2 h)
  have e : x = vmk fun i => w i * z i := by ext i; exact hx i
  rw [e]
  refine ⟨h1, ?_⟩
  rw [h2, vec_inner, vec_norm_sq]
  have h5 : ∑ i, w i * z i * z i = ∑ i, w i * z i ^ 2 := Finset.sum_congr rfl fun i _ => by ring
  simp only at h5 ⊢
  rw [h5]; ring

lemma sparse_envelope_prox {r : ℕ} {z w : ι → ℝ} {s τ : ℝ} (hτ : 0 < τ) (hτ1 : τ < 1) (h : TopCert r z w s) {y p : Vec ι}
    (hp : ∀ i, p i = w i * z i) (hpz : ∀ i, (1 / τ - 1) * p i + z i = 1 / τ * y i) :
    IsUniqueProx (XFun.indicator (sparseSet ι r)).quadEnvelope τ y p := by
  have e : p = vmk fun i => w i * z i := by ext i; exact hp i
  refine quadEnvelope_prox (z := vmk z) (sparse_nonempty r) hτ hτ1 (sparse_cert1 h) (by rw [e]; exact sparse_cert2 h) ?_
  ext i
  exact hpz i

/-! ### Matrices -/

lemma isSVD_matVec {x : Vec (ι × κ)} {u : ρ → Vec ι} {s : ρ → ℝ} {v : ρ → Vec κ} (h : IsSVD x u s v) (k : ρ) :
    matVec x (v k) = s k • u k := by
  classical
  rw [h.eq_recon, matVec_recon, Finset.sum_eq_single k]
  · rw [orthonormal_iff_ite.1 h.right]; simp
  · intro l _ hl; rw [orthonormal_iff_ite.1 h.right, if_neg hl]; simp
  · simp

lemma rank_eq_finrank (x : Vec (ι × κ)) [DecidableEq κ] :
    (Matrix.of fun i j => x (i, j)).rank = Module.finrank ℝ (LinearMap.range (Matrix.of fun i j => x (i, j)).mulVecLin) := rfl

lemma svd_support_le_rank {x : Vec (ι × κ)} {u : ρ → Vec ι} {s : ρ → ℝ} {v : ρ → Vec κ} (h : IsSVD x u s v) :
    {k | s k ≠ 0}.ncard ≤ (Matrix.of fun i j => x (i, j)).rank := by
  classical
  rw [ncard_support_eq]
  let b : {k // s k ≠ 0} → LinearMap.range (Matrix.of fun i j => x (i, j)).mulVecLin := fun k =>
    ⟨(s k • u k).ofLp, ⟨(v k).ofLp, by
      have := congrArg WithLp.ofLp (isSVD_matVec h k.1)
      rw [← this]
      rfl⟩⟩
  have hlin : LinearIndependent ℝ b := by
    have h1 : LinearIndependent ℝ (fun k : {k // s k ≠ 0} => u k) := (h.left.linearIndependent).comp _ Subtype.val_injective
    have h2 : LinearIndependent ℝ (fun k : {k // s k ≠ 0} => s k • u k) := by
      have := h1.units_smul (fun k => Units.mk0 (s k) k.2)
      exact this
    have h3 : LinearIndependent ℝ (fun k : {k // s k ≠ 0} => (s k • u k).ofLp) :=
      h2.map' (WithLp.linearEquiv 2 ℝ (ι → ℝ)).toLinearMap (LinearEquiv.ker _)
    exact LinearIndependent.of_comp (Submodule.subtype _) h3
  have := hlin.fintype_card_le_finrank
  rw [Fintype.card_subtype] at this
  exact this

lemma recon_rank_le {u : ρ → Vec ι} {t : ρ → ℝ} {v : ρ → Vec κ} : (Matrix.of fun i j => recon u t v (i, j)).rank ≤ {k | t k ≠ 0}.ncard := by
  classical
  rw [ncard_support_eq]
  have hsub : LinearMap.range (Matrix.of fun i j => recon u t v (i, j)).mulVecLin ≤
      Submodule.span ℝ (((Finset.univ.filter fun k => t k ≠ 0).image fun k => (u k).ofLp : Finset (ι → ℝ)) : Set (ι → ℝ)) := by
    rintro _ ⟨a, rfl⟩
    have e : (Matrix.of fun i j => recon u t v (i, j)).mulVecLin a = ∑ k with t k ≠ 0, (t k * ∑ j, v k j * a j) • (u k).ofLp := by
      funext i
      simp only [Matrix.mulVecLin_apply, Matrix.mulVec, dotProduct, Matrix.of_apply, recon_apply, Finset.sum_apply, Pi.smul_apply, smul_eq_mul]
      rw [Finset.sum_filter]
      simp only [Finset.sum_mul, Finset.mul_sum]
      rw [Finset.sum_comm]
      refine Finset.sum_congr rfl fun k _ => ?_
      by_cases hk : t k = 0
      · simp [hk]
      · rw [if_pos hk]; exact Finset.sum_congr rfl fun j _ => by ring
    rw [e]
    refine Submodule.sum_mem _ fun k hk => Submodule.smul_mem _ _ (Submodule.subset_span ?_)
    rw [Finset.coe_image]
    exact ⟨k, hk, rfl⟩
  refine le_trans (Submodule.finrank_mono hsub) ?_
  refine le_trans (finrank_span_finset_le_card _) Finset.card_image_le

lemma lowRank_nonempty (r : ℕ) : (XFun.indicator (lowRankSet ι κ r)).dom.Nonempty := by
  refine ⟨0, ?_⟩
  have : (Matrix.of fun i j => (0 : Vec (ι × κ)) (i, j)) = 0 := by ext i j; simp
  simp only [XFun.indicator, lowRankSet, Set.mem_ofPred_eq, this, Matrix.rank_zero, Nat.zero_le]

omit [Fintype ρ] in
lemma ncard_perm (π : Equiv.Perm ρ) (t : ρ → ℝ) : {k | t (π k) ≠ 0}.ncard = {k | t k ≠ 0}.ncard := by
  have : {k | t k ≠ 0} = π '' {k | t (π k) ≠ 0} := by
    ext k; constructor
    · intro hk; exact ⟨π.symm k, by simpa using hk, by simp⟩
    · rintro ⟨l, hl, rfl⟩; exact hl
  rw [this, Set.ncard_image_of_injective _ π.injective]

variable (hρ : Fintype.card ρ = min (Fintype.card ι) (Fintype.card κ))
include hρ

lemma lowRank_cert1 {r : ℕ} {u : ρ → Vec ι} {v : ρ → Vec κ} (hu : Orthonormal ℝ u) (hv : Orthonormal ℝ v) {z w : ρ → ℝ} {s : ℝ}
    (hz : ∀ k, 0 ≤ z k) (h : TopCert r z w s) :
    ∀ a ∈ (XFun.indicator (lowRankSet ι κ r)).dom, ⟪recon u z v, a⟫ - ((XFun.indicator (lowRankSet ι κ r)).val a + ‖a‖ ^ 2 / 2)
      ≤ (∑ i, w i * z i ^ 2) / 2 := by
  intro a ha
  obtain ⟨p, t, q, hsvd⟩ := exists_svd a hρ
  obtain ⟨π, hπ⟩ := von_neumann (isSVD_recon hu hv hz) hsvd
  have h1 : {k | t (π k) ≠ 0}.ncard ≤ r := by rw [ncard_perm]; exact (svd_support_le_rank hsvd).trans ha
  have h2 := topCert_conj_le h (fun k => t (π k)) h1
  have h3 : ‖a‖ ^ 2 = ∑ k, t (π k) ^ 2 := by
    rw [hsvd.eq_recon, norm_recon_sq hsvd.left hsvd.right, vec_norm_sq]
    exact (Equiv.sum_comp π fun k => t k ^ 2).symm
  rw [h3]
  simp only [XFun.indicator, zero_add]
  linarith

lemma lowRank_cert2 {r : ℕ} {u : ρ → Vec ι} {v : ρ → Vec κ} (hu : Orthonormal ℝ u) (hv : Orthonormal ℝ v) {z w : ρ → ℝ} {s : ℝ}
    (hz : ∀ k, 0 ≤ z k) (h : TopCert r z w s) :
    ∀ a ∈ (XFun.indicator (lowRankSet ι κ r)).addHalfSq.conj.dom,
      ⟪recon u (fun k => w k * z k) v, a⟫ - (XFun.indicator (lowRankSet ι κ r)).addHalfSq.conj.val a
        ≤ ⟪recon u (fun k => w k * z k) v, recon u z v⟫ - (∑ i, w i * z i ^ 2) / 2 := by
  intro a ha
  obtain ⟨p, t, q, hsvd⟩ := exists_svd a hρ
  obtain ⟨π, hπ⟩ := von_neumann (isSVD_recon hu hv (fun k => mul_nonneg (h.w0 k) (hz k))) hsvd
  obtain ⟨b, h1, h2⟩ := weights_conj_ge (v := fun k => t (π k)) h.w0 h.w1 h.sum
  have hmem : recon p (fun k => b (π.symm k)) q ∈ (XFun.indicator (lowRankSet ι κ r)).addHalfSq.dom := by
    refine recon_rank_le.trans ?_
    rw [ncard_perm π.symm b]; exact h1
  have h3 : ⟪a, recon p (fun k => b (π.symm k)) q⟫ - ((XFun.indicator (lowRankSet ι κ r)).val (recon p (fun k => b (π.symm k)) q)
      + ‖recon p (fun k => b (π.symm k)) q‖ ^ 2 / 2) ≤ (XFun.indicator (lowRankSet ι κ r)).addHalfSq.conj.val a := le_csSup ha ⟨_, hmem, rfl⟩
  rw [norm_recon_sq hsvd.left hsvd.right, vec_norm_sq] at h3
  have e1 : ⟪a, recon p (fun k => b (π.symm k)) q⟫ = ∑ k, t (π k) * b k := by
    rw [hsvd.eq_recon, inner_recon_same hsvd.left hsvd.right, ← Equiv.sum_comp π]; simp
  have e2 : ∑ k, b (π.symm k) ^ 2 = ∑ k, b k ^ 2 := Equiv.sum_comp π.symm fun k => b k ^ 2
  rw [e1] at h3
  simp only [XFun.indicator, zero_add] at h3 ⊢
  rw [e2] at h3
  rw [inner_recon_same hu hv]
  have h4 : ∑ i, w i * z i * t (π i) ≤ (∑ i, w i * z i ^ 2) / 2 + (∑ i, w i * t (π i) ^ 2) / 2 := by
    rw [Finset.sum_div, Finset.sum_div, ← Finset.sum_add_distrib]
    refine Finset.sum_le_sum fun i _ => ?_
    nlinarith [mul_nonneg (h.w0 i) (sq_nonneg (z i - t (π i)))]
  have h5 : ∑ i, w i * z i * z i = ∑ i, w i * z i ^ 2 := Finset.sum_congr rfl fun i _ => by ring
  rw [h5]
  linarith

lemma lowRank_envelope_value {r : ℕ} {x : Vec (ι × κ)} {u : ρ → Vec ι} {t : ρ → ℝ} {v : ρ → Vec κ} (hx : IsSVD x u t v) {z w : ρ → ℝ} {s : ℝ}
    (hz : ∀ k, 0 ≤ z k) (h : TopCert r z w s) (ht : ∀ k, t k = w k * z k) :
    x ∈ (XFun.indicator (lowRankSet ι κ r)).quadEnvelope.dom ∧
      (XFun.indicator (lowRankSet ι κ r)).quadEnvelope.val x = ((∑ i, w i * z i ^ 2) - ∑ i, t i ^ 2) / 2 := by
  obtain ⟨h1, h2, -⟩ := quadEnvelope_of_cert (lowRank_nonempty r) (lowRank_cert1 hρ hx.left hx.right hz h) (lowRank_cert2 hρ hx.left hx.right hz h)
  have e : x = recon u (fun k => w k * z k) v := by rw [hx.eq_recon]; congr 1; funext k; exact ht k
  rw [← e] at h1 h2
  refine ⟨h1, ?_⟩
  rw [h2, e, inner_recon_same hx.left hx.right, norm_recon_sq hx.left hx.right, vec_norm_sq]
  have h5 : ∑ i, w i * z i * z i = ∑ i, w i * z i ^ 2 := Finset.sum_congr rfl fun i _ => by ring
  have h6 : ∑ i, t i ^ 2 = ∑ i, (w i * z i) ^ 2 := Finset.sum_congr rfl fun i _ => by rw [ht]
  rw [h5, h6]
  simp only
  ring

lemma lowRank_envelope_prox {r : ℕ} {u : ρ → Vec ι} {v : ρ → Vec κ} (hu : Orthonormal ℝ u) (hv : Orthonormal ℝ v) {z w : ρ → ℝ} {s τ : ℝ}
    (hτ : 0 < τ) (hτ1 : τ < 1) (hz : ∀ k, 0 ≤ z k) (h : TopCert r z w s) {y p : Vec (ι × κ)}
    (hp : p = recon u (fun k => w k * z k) v) (hpz : (1 / τ - 1) • p + recon u z v = (1 / τ) • y) :
    IsUniqueProx (XFun.indicator (lowRankSet ι κ r)).quadEnvelope τ y p :=
  quadEnvelope_prox (z := recon u z v) (lowRank_nonempty r) hτ hτ1 (lowRank_cert1 hρ hu hv hz h)
    (by rw [hp]; exact lowRank_cert2 hρ hu hv hz h) hpz

end Verif
